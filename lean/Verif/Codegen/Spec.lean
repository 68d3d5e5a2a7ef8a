import Verif.Codegen.Model
import Mathlib.Algebra.Ring.Int.Defs
import Mathlib.Algebra.BigOperators.Ring.Finset
import Mathlib.Algebra.BigOperators.Intervals

/-!
# What generated code means

Arrays are functions of positions; `A[i,a]` under an assignment of numbers to indices is the element at the assigned position, and a
product is summed over the indices its result does not have.  The machine has a memory and a place objects are loaded from; every misuse is an
error.  This follows the documentation of the callbacks (`SeQuant/core/export/generator.hpp:94-148`) with the `+=` semantics assumed by the
export (export.hpp:466-469, 707-708).
-/

namespace SeQuant.Codegen

open SeQuant.Eval (EOp)
open SeQuant.Export (Op)

variable {K : Type} [CommRing K]

abbrev Arr (K : Type) := List Nat → K

/-- Sizes of the index ranges, the meaning of powers, complex conjugation and the input arrays. -/
structure Interp (K : Type) where
  dim : Nat → Nat
  pw : Nat → K → K
  cj : K → K
  inp : Name → Arr K

/-- The sum over all values of the indices. -/
def sumOver (dim : Nat → Nat) : List Nat → ((Nat → Nat) → K) → (Nat → Nat) → K
  | [], f, σ => f σ
  | i :: c, f, σ => ∑ x ∈ Finset.range (dim i), sumOver dim c f (Function.update σ i x)

/-- The indices which are summed over: those of the factors which the result does not have. -/
def contr (a b : List Nat) : List Nat := (b.filter fun i => decide (i ∉ a)).dedup

/-- The assignment under which `a` is at the given position. -/
def bind : List Nat → List Nat → Nat → Nat
  | i :: a, p :: pos, j => if j = i then p else bind a pos j
  | _, _, _ => 0

/-- The value of an expression when the objects have the given content. -/
def EX.val (I : Interp K) (m : Name → Arr K) (σ : Nat → Nat) : EX K → K
  | .obj n a => m n (a.map σ)
  | .const c => c
  | .pow n k => I.pw k (m n [])

/-- The indices of a node. -/
def T.idx : T K → List Nat
  | .leaf x _ => x.idx
  | .node _ _ a _ _ => a

/-- The value of a tree under an assignment of its indices. -/
def T.val (I : Interp K) : T K → (Nat → Nat) → K
  | .leaf x neg, σ => if neg then -(x.val I I.inp σ) else x.val I I.inp σ
  | .node .prod _ a l r, σ => sumOver I.dim (contr a (l.idx ++ r.idx)) (fun τ => l.val I τ * r.val I τ) σ
  | .node .sum _ _ l r, σ => l.val I σ + r.val I σ
  | .node .adjoint _ _ l _, σ => I.cj (l.val I σ)

/-! ### The machine -/

/-- One object: whether it is in memory and with which content (`none`: undefined), and what loading it gives (`none`: it cannot be loaded). -/
structure Cell (K : Type) where
  mem : Option (Option (Arr K))
  disk : Option (Option (Arr K))

abbrev Mem (K : Type) := Name → Cell K

/-- The content of the memory. -/
def content (s : Mem K) (n : Name) : Arr K := (((s n).mem.getD none).getD fun _ => 0)

/-- Whether the object is in memory with a defined content. -/
def ready (s : Mem K) (n : Name) : Bool :=
  match (s n).mem with
  | some (some _) => true
  | _ => false

/-- What a computation adds to its result. -/
def rhs (I : Interp K) (s : Mem K) (e : Rhs K) : Arr K := fun pos =>
  sumOver I.dim (contr e.1 (e.2.flatMap EX.idx)) (fun σ => (e.2.map (EX.val I (content s) σ)).prod) (bind e.1 pos)

/-- One operation; `none` is an error. -/
def step (I : Interp K) (s : Mem K) : Op Name (Rhs K) → Option (Mem K)
  | .create n z =>
    if (s n).mem.isSome then none
    else some (Function.update s n ⟨some (if z then some fun _ => 0 else none), some none⟩)
  | .load n =>
    match (s n).mem, (s n).disk with
    | none, some c => some (Function.update s n ⟨some c, some c⟩)
    | _, _ => none
  | .loadZero n =>
    match (s n).mem, (s n).disk with
    | none, some c => some (Function.update s n ⟨some (some fun _ => 0), some c⟩)
    | _, _ => none
  | .zero n => if (s n).mem.isSome then some (Function.update s n ⟨some (some fun _ => 0), (s n).disk⟩) else none
  | .unload n => if (s n).mem.isSome then some (Function.update s n ⟨none, (s n).disk⟩) else none
  | .destroy n => if (s n).mem.isSome then some (Function.update s n ⟨none, none⟩) else none
  | .persist n => if ready s n then some (Function.update s n ⟨none, some (some (content s n))⟩) else none
  | .compute n e =>
    if ready s n ∧ ∀ x ∈ e.2, ∀ m ∈ x.name, ready s m then
      some (Function.update s n ⟨some (some fun pos => content s n pos + rhs I s e pos), (s n).disk⟩)
    else none

/-- A program. -/
def run (I : Interp K) : Code K → Mem K → Option (Mem K)
  | [], s => some s
  | o :: p, s => (step I s o).bind (run I p)

/-- The memory is empty and the inputs can be loaded. -/
def Start (I : Interp K) (input : Nat → Bool) (s : Mem K) : Prop :=
  ∀ n, (s n).mem = none ∧ (input n.stem = true → (s n).disk = some (some (I.inp n)))

/-! ### Well-formed trees -/

/-- The same indices. -/
def Same (a b : List Nat) : Prop := a ⊆ b ∧ b ⊆ a

instance (a b : List Nat) : Decidable (Same a b) := by unfold Same; infer_instance

/-- The name of an expression, if any, is the name of an input. -/
def EX.Input (input : Nat → Bool) (x : EX K) : Prop := ∀ n ∈ x.name, input n.stem = true

instance (input : Nat → Bool) (x : EX K) : Decidable (x.Input input) := by unfold EX.Input; infer_instance

/-- What binarization guarantees: the operands of sums have the indices of the sum, a product has indices of its operands and all those of
one whose partner is a scalar, and the operand of an adjoint is a leaf.  The stems of the labels of leaves are
those of inputs, the stems of the labels of intermediates and results are not. -/
def T.WF (input : Nat → Bool) : T K → Prop
  | .leaf x _ => x.Input input
  | .node op n a l r =>
    input n.stem = false ∧ l.WF input ∧ r.WF input ∧
    match op with
    | .sum => Same l.idx a ∧ Same r.idx a
    | .prod => a ⊆ l.idx ++ r.idx ∧ (l.idx = [] → Same r.idx a) ∧ (r.idx = [] → Same l.idx a)
    | .adjoint => Same l.idx a ∧ l.isLeaf = true ∧ r.isLeaf = true

instance T.decWF (input : Nat → Bool) : (t : T K) → Decidable (t.WF input)
  | .leaf x _ => by unfold T.WF; infer_instance
  | .node op n a l r => by
    have := T.decWF input l
    have := T.decWF input r
    unfold T.WF
    cases op <;> infer_instance

/-- No leaf has a phase. -/
def T.NoPhase : T K → Prop
  | .leaf _ neg => neg = false
  | .node _ _ _ l r => l.NoPhase ∧ r.NoPhase

instance T.decNoPhase : (t : T K) → Decidable t.NoPhase
  | .leaf x _ => by unfold T.NoPhase; infer_instance
  | .node op n a l r => by
    have := T.decNoPhase l
    have := T.decNoPhase r
    unfold T.NoPhase
    infer_instance

/-- No node is an adjoint. -/
def T.NoAdj : T K → Prop
  | .leaf _ _ => True
  | .node op _ _ l r => op ≠ .adjoint ∧ l.NoAdj ∧ r.NoAdj

instance T.decNoAdj : (t : T K) → Decidable t.NoAdj
  | .leaf x _ => by unfold T.NoAdj; infer_instance
  | .node op n a l r => by
    have := T.decNoAdj l
    have := T.decNoAdj r
    unfold T.NoAdj
    infer_instance

/-- Sums are only summands of sums: the expression is expanded. -/
def T.NoSum : T K → Prop
  | .leaf _ _ => True
  | .node op _ _ l r => op ≠ .sum ∧ l.NoSum ∧ r.NoSum

def T.Expanded : T K → Prop
  | .leaf _ _ => True
  | .node .sum _ _ l r => l.Expanded ∧ r.Expanded
  | .node op n a l r => (T.node op n a l r).NoSum

end SeQuant.Codegen
