import Verif.Biorth.Model

/-!
# Biorthogonal transformation of expressions

Transcribes `create_expr_for` and the loop of `biorthogonal_transform` (`SeQuant/domain/mbpt/biorthogonalization.cpp:289-386, 388-536`) and
`transform_expr` (`SeQuant/core/utility/expr.cpp:417-472`).

Simplifications: an index is its space and a number that tells the indices of a space from each other; the pairings of the external indices are
sorted by their first index already (`sort_pairings`), and the ranks of the permutations that lead from the first one to the others are given;
for more than five particles the coefficients are the exact matrix, without the conversion of floating point numbers; `simplify` is left out.
-/

namespace SeQuant.Biorth

open Equiv (Perm)

/-- An index. -/
structure Idx where
  space : Nat
  num : Nat
  deriving DecidableEq

/-- The external indices by particle (`ParticlePairings`). -/
abbrev Pairing (n : Nat) := Fin n → Idx × Idx

inductive TErr
  /-- `throw Exception("Missing explicit expression ...")`. -/
  | missing
  /-- A failed assertion. -/
  | assertion
  /-- `hardcoded_biorthogonalizer_row` throws. -/
  | coefficients
  /-- `throw Exception("Invalid Expr type ...")`. -/
  | type
  deriving DecidableEq

/-- `container::map<Index, Index>`. -/
abbrev Repl := List (Idx × Idx)

def Repl.find (r : Repl) (i : Idx) : Option Idx := r.lookup i

/-- `emplace`: an existing entry stays. -/
def Repl.emplace (r : Repl) (i j : Idx) : Repl := match r.lookup i with
  | some _ => r
  | none => r ++ [(i, j)]

/-- What an index becomes. -/
def Repl.apply (r : Repl) (i : Idx) : Idx := (r.lookup i).getD i

variable {n : Nat}

/-- The test of `find_if` (biorthogonalization.cpp:304-326). -/
def accepts (ref : Pairing n) (p : Perm (Fin n)) (base : Pairing n) : Bool :=
  (List.finRange n).all fun i => decide (((base i).1.space, (base i).2.space) ∈
    (List.finRange n).map fun j => ((ref j).1.space, (ref (p j)).2.space))

/-- The loop that collects the replacements (339-372). -/
def replacements (ref : Pairing n) (p : Perm (Fin n)) (base : Pairing n) : List (Fin n) → Repl → Except TErr Repl
  | [], r => .ok r
  | i :: is, r =>
      if (base i).1 ≠ (ref i).1 then .error .assertion
      else if (base i).2 = (ref (p i)).2 then replacements ref p base is r
      else if (base i).2.space = (ref (p i)).2.space then replacements ref p base is (r.emplace (base i).2 (ref (p i)).2)
      else if (base i).1.space ≠ (ref (p i)).1.space then .error .assertion
      else replacements ref p base is (r.emplace (base i).1 (ref (p i)).1)

/-- `create_expr_for` (289-386): the number of the expression and the replacements in it. -/
def createFor (ref : Pairing n) (p : Perm (Fin n)) (pairings : List (Pairing n)) : Except TErr (Nat × Repl) :=
  match pairings.findIdx? (accepts ref p) with
  | none => .error .missing
  | some k => match pairings[k]? with
    | none => .error .missing
    | some base => (replacements ref p base (List.finRange n) []).map fun r => (k, r)

/-- A term of the result: coefficient, number of the expression, replacements. -/
abbrev Term := ℚ × Nat × Repl

/-- `(*hardcoded_coefficients)(i, j)` or `(*computed_coefficients)(i, j)` (501-512, 523-527). -/
def coefficient (L : Lib) (n : Nat) (pinv : Matrix (Fin n.factorial) (Fin n.factorial) ℚ) : Except TErr (Nat → Nat → ℚ) :=
  if n ≤ 5 then match hardMatrix L n with
    | none => .error .coefficients
    | some ⟨N, M⟩ => .ok fun i j => if h : i < N ∧ j < N then M ⟨i, h.1⟩ ⟨j, h.2⟩ else 0
  else .ok fun i j => if h : i < n.factorial ∧ j < n.factorial then pinv ⟨i, h.1⟩ ⟨j, h.2⟩ else 0

/-- The loop over permutations for one result (515-532). -/
def transformOne (L : Lib) (c : Nat → Nat → ℚ) (externals : List (Pairing n)) (ref : Pairing n) (rk : Nat) : List Nat → Except TErr (List Term)
  | [] => .ok []
  | r :: rs => match createFor ref (L.mul (L.unrank r n) (L.unrank rk n)⁻¹) externals with
    | .error e => .error e
    | .ok t => (transformOne L c externals ref rk rs).map fun ts => (c rk r, t.1, t.2) :: ts

/-- `biorthogonal_transform` for all results (514-535). -/
def transformAll (L : Lib) (c : Nat → Nat → ℚ) (externals : List (Pairing n)) : List (Pairing n × Nat) → Except TErr (List (List Term))
  | [] => .ok []
  | (ref, rk) :: rs => match transformOne L c externals ref rk (List.range n.factorial) with
    | .error e => .error e
    | .ok t => (transformAll L c externals rs).map (t :: ·)

/-- `biorthogonal_transform` (388-536); `ranks` are those of `rank_transformation_perms`. -/
def transform (L : Lib) (pinv : Matrix (Fin n.factorial) (Fin n.factorial) ℚ) (externals : List (Pairing n)) (ranks : List Nat) :
    Except TErr (List (List Term)) :=
  if externals = [] then .ok []
  else match coefficient L n pinv with
    | .error e => .error e
    | .ok c => transformAll L c externals (externals.zip ranks)

/-- `biorthogonal_transform` of one expression (166-174, 190-193, 539-557): the permutation is the identity, whose rank is `perm::rank` of it. -/
def transformSingle (L : Lib) (pinv : Matrix (Fin n.factorial) (Fin n.factorial) ℚ) (ext : Pairing n) : Except TErr (List (List Term)) :=
  transform L pinv [ext] [L.rank (1 : Perm (Fin n))]

/-! ### Replacing indices in expressions -/

/-- Expressions, as far as `transform_expr` tells them apart. -/
inductive Ex
  | const (q : ℚ)
  | var (v : Nat)
  | tensor (label : Nat) (idx : List Idx)
  | product (scalar : ℚ) (factors : List Ex)
  | sum (terms : List Ex)
  /-- Other classes. -/
  | other

/-- `transform_tensor` (expr.cpp:428-435). -/
def transformTensor (r : Repl) (l : Nat) (is : List Idx) : Ex := .tensor l (is.map r.apply)

/-- The loop of `transform_product` (441-449). -/
def transformFactors (r : Repl) : List Ex → Except TErr (List Ex)
  | [] => .ok []
  | .tensor l is :: fs => (transformFactors r fs).map (transformTensor r l is :: ·)
  | .var v :: fs => (transformFactors r fs).map (.var v :: ·)
  | .const q :: fs => (transformFactors r fs).map (.const q :: ·)
  | .product _ _ :: _ => .error .type
  | .sum _ :: _ => .error .type
  | .other :: _ => .error .type

mutual

/-- `transform_expr` (417-472); `ex<Constant>(c) * expr` is a product. -/
def transformExpr (r : Repl) (s : ℚ) : Ex → Except TErr Ex
  | .const q => .ok (if s ≠ 1 then .product s [.const q] else .const q)
  | .var v => .ok (if s ≠ 1 then .product s [.var v] else .var v)
  | .tensor l is => .ok (if s ≠ 1 then .product s [transformTensor r l is] else transformTensor r l is)
  | .product c fs => (transformFactors r fs).map fun fs' => .product (c * s) fs'
  | .sum ts => (transformTerms r s ts).map .sum
  | .other => .error .type

/-- The loop over the terms (465-467). -/
def transformTerms (r : Repl) (s : ℚ) : List Ex → Except TErr (List Ex)
  | [] => .ok []
  | t :: ts => match transformExpr r s t with
    | .error e => .error e
    | .ok t' => (transformTerms r s ts).map (t' :: ·)

end

end SeQuant.Biorth
