import Verif.Optimize.UniqueModel
import Mathlib.Algebra.BigOperators.Group.List.Basic
import Mathlib.Algebra.Ring.Basic

/-!
# Replacement of atoms in expressions

Transcribes `replace` for expressions and for results (`/repo/SeQuant/core/utility/expr.hpp:95-166, 187-213`), `transform_expr` with scaling
factor 1 (`/repo/SeQuant/core/utility/expr.cpp:417-472`), `Expr::visit` for a mutating visitor of atoms
(`/repo/SeQuant/core/expressions/expr.hpp:393-422`), `Sum::append` (`/repo/SeQuant/core/expressions/sum.hpp:127-151`), `Product::append` for
atoms (`/repo/SeQuant/core/expressions/product.hpp:152-164`) and `TensorBlockEqualComparator` (`/repo/SeQuant/core/utility/tensor.hpp:22-79`).

Simplifications: indices have no proto-indices and no slot is empty; tensors are label and slots; no subexpression is shared between two
places; powers are variables.  `none` stands for an exception or a failed assertion.
-/

namespace SeQuant.Replace

/-- A tensor. -/
structure Tns (ι : Type) where
  label : Nat
  bra : List ι
  ket : List ι
  aux : List ι
  deriving DecidableEq

/-- `slots` (abstract_tensor.hpp:397). -/
def Tns.slots {ι : Type} (t : Tns ι) : List ι := t.bra ++ t.ket ++ t.aux

/-- `transform_indices` (abstract_tensor.hpp:592). -/
def Tns.rename {ι : Type} (σ : ι → ι) (t : Tns ι) : Tns ι := ⟨t.label, t.bra.map σ, t.ket.map σ, t.aux.map σ⟩

/-- Expressions. -/
inductive Ex (K ι : Type)
  | const (c : K)
  | var (v : Nat)
  | tensor (t : Tns ι)
  | prod (c : K) (fs : List (Ex K ι))
  | sum (ts : List (Ex K ι))

variable {K ι : Type}

/-- `Expr::is_atom` (expr.hpp:69): no subexpressions. -/
def Ex.isAtom : Ex K ι → Bool
  | .const _ => true
  | .var _ => true
  | .tensor _ => true
  | .prod _ fs => fs.isEmpty
  | .sum ts => ts.isEmpty

mutual
/-- `get_used_indices` (utility/indices.hpp:301 and below), as a list with repetitions. -/
def used : Ex K ι → List ι
  | .const _ => []
  | .var _ => []
  | .tensor t => t.slots
  | .prod _ fs => usedL fs
  | .sum ts => usedL ts
def usedL : List (Ex K ι) → List ι
  | [] => []
  | e :: l => used e ++ usedL l
end

section
variable [CommRing K] [DecidableEq K]

/-- `is_zero` of what is not a sum. -/
def Ex.isZero : Ex K ι → Bool
  | .const c => decide (c = 0)
  | .prod c _ => decide (c = 0)
  | _ => false

/-- Adds up constants (sum.hpp:131-141): in a sum built by `append` there is at most one. -/
def addConst (c : K) : List (Ex K ι) → List (Ex K ι)
  | [] => [.const c]
  | .const d :: l => .const (d + c) :: l
  | e :: l => e :: addConst c l

mutual
/-- `Sum::append` (sum.hpp:127-151). -/
def sumAppend (acc : List (Ex K ι)) : Ex K ι → List (Ex K ι)
  | .sum ts => sumAppendL acc ts
  | .const c => if c = 0 then acc else addConst c acc
  | .var v => acc ++ [.var v]
  | .tensor t => acc ++ [.tensor t]
  | .prod c fs => if (Ex.prod c fs).isZero then acc else acc ++ [.prod c fs]
def sumAppendL (acc : List (Ex K ι)) : List (Ex K ι) → List (Ex K ι)
  | [] => acc
  | e :: l => sumAppendL (sumAppend acc e) l
end

/-- `transform_product` (expr.cpp:437-452). -/
def transformFactors (σ : ι → ι) : List (Ex K ι) → K → List (Ex K ι) → Option (Ex K ι)
  | [], c, acc => some (.prod c acc)
  | .tensor t :: l, c, acc => transformFactors σ l c (acc ++ [.tensor (t.rename σ)])
  | .var v :: l, c, acc => transformFactors σ l c (acc ++ [.var v])
  | .const k :: l, c, acc => transformFactors σ l (c * k) acc
  | _ :: _, _, _ => none

mutual
/-- `transform_expr` (expr.cpp:417-472). -/
def transform (σ : ι → ι) : Ex K ι → Option (Ex K ι)
  | .const c => some (.const c)
  | .var v => some (.var v)
  | .tensor t => some (.tensor (t.rename σ))
  | .prod c fs => transformFactors σ fs c []
  | .sum ts => (transformTerms σ [] ts).map .sum
/-- The loop of lines 464-467. -/
def transformTerms (σ : ι → ι) (acc : List (Ex K ι)) : List (Ex K ι) → Option (List (Ex K ι))
  | [] => some acc
  | e :: l =>
    match transform σ e with
    | some e' => transformTerms σ (sumAppend acc e') l
    | none => none
end

variable [DecidableEq ι]

/-- A map of indices: the last entry for a key counts (line 152). -/
def subst (m : List (ι × ι)) (i : ι) : ι := (m.reverse.lookup i).getD i

/-- `index_mapping` (expr.hpp:103-120): the slots of the target whose index is used in the replacement. -/
def indexMapping (target repl : Ex K ι) : List Nat :=
  match target with
  | .tensor t => (List.range t.slots.length).filter fun i => match t.slots[i]? with
    | some x => decide (x ∈ used repl)
    | none => false
  | _ => []

/-- The map `replacements` (expr.hpp:149-154). -/
def replacements (mapping : List Nat) (t a : List ι) : List (ι × ι) :=
  mapping.filterMap fun i => match t[i]?, a[i]? with
    | some x, some y => if x = y then none else some (x, y)
    | _, _ => none

/-- The visitor (expr.hpp:126-161). -/
def visitor (cmp : Ex K ι → Ex K ι → Bool) (target repl current : Ex K ι) : Option (Ex K ι) :=
  if cmp current target then
    if (indexMapping target repl).isEmpty then some repl
    else
      match current, target with
      | .tensor a, .tensor t =>
        if a.slots.length = t.slots.length then transform (subst (replacements (indexMapping target repl) t.slots a.slots)) repl else none
      | _, _ => none
  else some current

mutual
/-- A subexpression in `Expr::visit_impl` (expr.hpp:401-410). -/
def visit (f : Ex K ι → Option (Ex K ι)) : Ex K ι → Option (Ex K ι)
  | .const c => f (.const c)
  | .var v => f (.var v)
  | .tensor t => f (.tensor t)
  | .prod c [] => f (.prod c [])
  | .prod c (e :: l) => (visitL f (e :: l)).map (.prod c)
  | .sum [] => f (.sum [])
  | .sum (e :: l) => (visitL f (e :: l)).map .sum
def visitL (f : Ex K ι → Option (Ex K ι)) : List (Ex K ι) → Option (List (Ex K ι))
  | [] => some []
  | e :: l =>
    match visit f e, visitL f l with
    | some e', some l' => some (e' :: l')
    | _, _ => none
end

/-- `expr->visit(visitor, true)` (expr.hpp:139, 397-422): the expression itself is not visited by a visitor that takes `ExprPtr&`. -/
def visitTop (f : Ex K ι → Option (Ex K ι)) : Ex K ι → Option (Ex K ι)
  | .prod c fs => (visitL f fs).map (.prod c)
  | .sum ts => (visitL f ts).map .sum
  | e => some e

/-- `replace` (expr.hpp:95-166). -/
def replace (cmp : Ex K ι → Ex K ι → Bool) (expr target repl : Ex K ι) : Option (Ex K ι) :=
  if !target.isAtom then none
  else if cmp expr target then some repl
  else visitTop (visitor cmp target repl) expr

/-- `TensorBlockEqualComparator` (utility/tensor.hpp:22-79); `space` is the space of an index and `eqv` the equality of expressions. -/
def blockEq {S : Type} [DecidableEq S] (space : ι → S) (eqv : Ex K ι → Ex K ι → Bool) (a b : Ex K ι) : Bool :=
  match a, b with
  | .tensor t, .tensor u => decide (t.label = u.label) && decide (t.slots.length = u.slots.length) && decide (t.slots.map space = u.slots.map space)
  | a, b => eqv a b

/-- A result: its indices and the expression (result_expr.hpp). -/
structure Res (K ι : Type) where
  groups : Optimize.Groups ι
  expr : Ex K ι

mutual
/-- What `get_unique_indices` looks at. -/
def toU : Ex K ι → Optimize.UExpr ι
  | .const _ => .scalar
  | .var _ => .scalar
  | .tensor t => .tensor t.bra t.ket t.aux
  | .prod _ fs => .prod (toUL fs)
  | .sum ts => .sum (toUL ts)
def toUL : List (Ex K ι) → List (Optimize.UExpr ι)
  | [] => []
  | e :: l => toU e :: toUL l
end

/-- `replace` for results (expr.hpp:187-213). -/
def replaceRes (cmp : Ex K ι → Ex K ι → Bool) (r : Res K ι) (target repl : Ex K ι) : Option (Res K ι) :=
  match replace cmp r.expr target repl with
  | none => none
  | some e =>
    match Optimize.uniqExpr (toU e) with
    | none => none
    | some g => if g = r.groups then some ⟨r.groups, e⟩ else some ⟨g, e⟩

end

end SeQuant.Replace
