import Mathlib.Data.List.Basic

/-!
# Partner indices and closed cycles of contractions

`WickTheorem::init_input` (the part on partner indices) and `make_target_partner_indices`, transcribed from
`/repo/SeQuant/core/wick.hpp:687-709` and `/repo/SeQuant/core/wick.hpp:863-920`, and the factor of `/repo/SeQuant/core/wick.hpp:1539-1549, 1572-1576`.

An operator is its action and its index.  The indices are elements of any type with decidable equality.
-/

namespace SeQuant.Partners

/-- An operator of a normal operator: `Action::Create` or not, and its index. -/
structure Q (ι : Type) where
  cre : Bool
  index : ι
  deriving DecidableEq, Repr

section
variable {ι : Type} [DecidableEq ι]

/-- Partners in one normal operator, lines 694-708: zipped from the back and put back in order. -/
def nopPartners (creators annihilators : List ι) : List (ι × ι) := (creators.reverse.zip annihilators.reverse).reverse

/-- `input_partner_indices_` (wick.hpp:687-709). -/
def inputPartners (nops : List (List ι × List ι)) : List (ι × ι) := nops.flatMap fun n => nopPartners n.1 n.2

/-- The search of `ann_it` (wick.hpp:884-889). -/
def isAnn (q : Q ι × Q ι) (p : ι × ι) : Bool :=
  (!q.1.cre && decide (p.2 = q.1.index)) || (!q.2.cre && decide (p.2 = q.2.index))

/-- The search of `cre_it` (wick.hpp:895-900). -/
def isCre (q : Q ι × Q ι) (p : ι × ι) : Bool :=
  (q.2.cre && decide (p.1 = q.2.index)) || (q.1.cre && decide (p.1 = q.1.index))

/-- One pass of the loop (wick.hpp:869-918); the state is the list of pairs and `ncycles`. -/
def mergeStep (s : List (ι × ι) × Nat) (q : Q ι × Q ι) : List (ι × ι) × Nat :=
  match s.1.findIdx? (isAnn q) with
  | none => s
  | some i =>
    match s.1.findIdx? (isCre q) with
    | none => s
    | some j =>
      if i = j then (s.1.eraseIdx j, s.2 + 1)
      else if i < j then
        match s.1[i]?, s.1[j]? with
        | some x, some y => ((s.1.set i (x.1, y.2)).eraseIdx j, s.2)
        | _, _ => s
      else
        match s.1[i]?, s.1[j]? with
        | some x, some y => ((s.1.set j (x.1, y.2)).eraseIdx i, s.2)
        | _, _ => s

/-- `make_target_partner_indices` (wick.hpp:863-920). -/
def targetPartners (input : List (ι × ι)) (contractions : List (Q ι × Q ι)) : List (ι × ι) × Nat :=
  contractions.foldl mergeStep (input, 0)

/-- The factor for closed cycles, `1 << ncycles` (wick.hpp:1548, 1575). -/
def cycleFactor (input : List (ι × ι)) (contractions : List (Q ι × Q ι)) : Nat := 2 ^ (targetPartners input contractions).2

end

end SeQuant.Partners
