import Mathlib.Algebra.Ring.Defs

/-!
# Julia code for TensorOperations (C127)

Transcription of `JuliaTensorOperationsGenerator` (core/export/julia_tensor_operations.hpp:52-356) and `get_tags` (julia_tensor_operations.cpp:39-48).

Simplified: expressions are printed as lists of symbols; the text of a constant, a tensor or a power is one symbol (what `p/q` means in a product or
sum is that of the constant, since `*` and `/` have the same precedence and associate to the left); values are those of one assignment of the indices,
so contractions are left out.  Of the generators for ITensor and TensorKit, which inherit from this one, only `domain` is modelled (`Kit.lean`).
-/

namespace SeQuant.Julia

/-- Expressions: constants, tensors and powers (`atom`), variables, products and sums. -/
inductive Ex (K : Type) where
  | const (c : K)
  | atom (i : Nat)
  | var (v : Nat) (conj : Bool)
  | prod (c : K) (l : List (Ex K))
  | sum (l : List (Ex K))

/-- Symbols of the generated code. -/
inductive Tok (K : Type) where
  | num (c : K)
  | atom (i : Nat)
  | var (v : Nat)
  | plus
  | times

section
variable {K : Type} [DecidableEq K] [One K]

mutual
/-- `to_julia_expr` (285-327), with `represent(Variable)` (109-112), which ignores conjugation. -/
def toks : Ex K → List (Tok K)
  | .const c => [.num c]
  | .atom i => [.atom i]
  | .var v _ => [.var v]
  | .prod c l => (if c = 1 then [] else [.num c, .times]) ++ toksSep .times l
  | .sum l => toksSep .plus l

/-- The loops over factors and summands (302-308, 315-321). -/
def toksSep (sep : Tok K) : List (Ex K) → List (Tok K)
  | [] => []
  | [x] => toks x
  | x :: y :: l => toks x ++ sep :: toksSep sep (y :: l)
end

end

abbrev Txt := List Char

/-- `tensor_name` (333-340): the tags of the spaces of the indices (`get_tags`). -/
def tensorName (label : Txt) (tags : List Txt) : Txt := label ++ '_' :: tags.flatten

/-- `zero_initialization` (342-355): `dims` are the texts of `get_dim`. -/
def zeros (label : Txt) (tags dims : List Txt) : Txt :=
  tensorName label tags ++ " = zeros(Float64".toList ++ (dims.flatMap fun d => ", ".toList ++ d) ++ ")".toList

/-- A tensor as far as its declaration needs it. -/
structure Tn where
  label : Txt
  tags : List Txt
  dims : List Txt

/-- Calls of the generator. -/
inductive Op where
  | createT (t : Tn) (zero : Bool)
  | loadT (t : Tn) (zero : Bool)
  | zeroT (t : Tn)
  | unloadT (t : Tn)
  | destroyT (t : Tn)
  | persistT (t : Tn)
  | createV (v : Txt) (zero : Bool)
  | loadV (v : Txt) (zero : Bool)
  | zeroV (v : Txt)
  | unloadV (v : Txt)
  | destroyV (v : Txt)
  | persistV (v : Txt)
  | compute (lhs rhs : Txt)
  | comment (s : Txt)
  | beginExpr
  | beginExport

def nl : Txt := "\n".toList

/-- `ends_with("\n\n")`. -/
def endsBlank (g : Txt) : Bool := "\n\n".toList.isSuffixOf g

/-- What a call does to the generated text (145-276); `none` is an exception. -/
def step (g : Txt) : Op → Option Txt
  | .createT t z => if z then some (g ++ (zeros t.label t.tags t.dims ++ nl)) else none
  | .loadT t z => some (g ++ (if z then zeros t.label t.tags t.dims
      else tensorName t.label t.tags ++ " = ".toList ++ ("deserialize(\"".toList ++ tensorName t.label t.tags ++ ".jlbin\")".toList)) ++ nl)
  | .zeroT t => some (g ++ (zeros t.label t.tags t.dims ++ nl))
  | .unloadT t => some (g ++ (tensorName t.label t.tags ++ " = nothing\n".toList))
  | .destroyT t => some (g ++ (tensorName t.label t.tags ++ " = nothing\n".toList) ++
      ("rm( \"".toList ++ tensorName t.label t.tags ++ ".jlbin\"".toList ++ ")\n".toList))
  | .persistT t => some (g ++ ("return ".toList ++ tensorName t.label t.tags ++ nl))
  | .createV v z => if z then some (g ++ (v ++ " = 0.0\n".toList)) else none
  | .loadV v z =>
    let g := g ++ (v ++ " = ".toList)
    let g := if z then "0".toList else g ++ ("deserialize(\"".toList ++ v ++ ".jlbin\")".toList)
    some (g ++ nl)
  | .zeroV v => some (g ++ (v ++ " = 0.0\n".toList))
  | .unloadV v => some (g ++ (v ++ " = nothing\n".toList))
  | .destroyV v => some (g ++ (v ++ " = nothing\n".toList) ++ ("rm(\"".toList ++ v ++ ".jlbin\")\n".toList))
  | .persistV v => some (g ++ ("return ".toList ++ v ++ nl))
  | .compute l r => some (g ++ ("@tensor ".toList ++ l ++ " += ".toList ++ r ++ nl))
  | .comment s => some (g ++ ("# ".toList ++ s ++ nl))
  | .beginExpr => some (if g ≠ [] ∧ endsBlank g = false then g ++ nl else g)
  | .beginExport => some []

/-- A sequence of calls. -/
def run (g : Txt) : List Op → Option Txt
  | [] => some g
  | o :: l => (step g o).bind fun g => run g l

end SeQuant.Julia
