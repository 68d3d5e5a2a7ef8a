/-!
# Model of the operator-level Wick engine
(`SeQuant/core/wick.hpp:1180-1647`) and of `normalize` (`SeQuant/core/op.hpp:1141-1272`)

Elementary operators (`Op<S>`) are elements of an arbitrary type.  What the code asks an operator is passed as
a function: `is_qpannihilator`, `can_contract`, `is_creator`.  The operators of one `NormalOperatorSequence` are assumed to be
pairwise different where the code uses them as keys (`op_to_input_ordinal_`, wick.hpp:1272); the model does not
need the keys because it handles the case of no user-defined operator partitions, where
`make_default_op_partitions` (wick.hpp:494-500) gives one partition per operator and the topological filter
(wick.hpp:1292-1435) accepts every contraction with degeneracy 1.
-/

namespace SeQuant.Wick

/-- `enum class Statistics` (attr.hpp), the two cases handled by `WickTheorem`. -/
inductive Statistics
  | BoseEinstein
  | FermiDirac
  deriving DecidableEq, Repr

variable {Op : Type}

/-- All ways to erase one operator from a normal operator: (number of operators before it, the operator, the rest).
`op_right_cursor.erase()` (wick.hpp:1514). -/
def picksIn : List Op → List (Nat × Op × List Op)
  | [] => []
  | o :: l => (0, o, l) :: (picksIn l).map fun p => (p.1 + 1, p.2.1, o :: p.2.2)

/-- The right operators offered by the loop over `op_right_iter` (wick.hpp:1275-1286) in the normal operators following the one
that holds the left operator ("can't contract within same normop"): (number of operators skipped in these normal operators, the
operator, the normal operators after erasing it). -/
def picks : List (List Op) → List (Nat × Op × List (List Op))
  | [] => []
  | l :: ls =>
    ((picksIn l).map fun p => (p.1, p.2.1, p.2.2 :: ls)) ++
      (picks ls).map fun p => (l.length + p.1, p.2.1, l :: p.2.2)

/-- `nopseq.opsize()`: total number of elementary operators. -/
def opsize (nops : List (List Op)) : Nat := (nops.map List.length).sum

/-- The phase of a contraction (wick.hpp:1492-1500); `distance` = number of operators between the two. -/
def phase (S : Statistics) (distance : Nat) : Int :=
  if S = Statistics.FermiDirac then (if distance % 2 = 1 then 1 * -1 else 1) else 1

/-- One produced summand: accumulated phase and the list of contractions, in the order in which they are made
(`state.sp`, `state.contractions`). -/
abbrev Term (Op : Type) := Int × List (Op × Op)

/-- `recursive_nontensor_wick` with `full_contractions_ == true` (wick.hpp:1244-1647).  The flattened view skips empty normal
operators; the left operator is the first operator of the view because `left_op_offset` stays 0 (wick.hpp:1257-1267); the search
is abandoned if it is not a quasiparticle annihilator (wick.hpp:1262-1264).  For each admissible right operator both are erased; if
nothing is left the summand is stored, otherwise the recursion continues (wick.hpp:1524-1616).  No connectivity constraints
(`connect` succeeds).  The function is only entered with a nonempty sequence (wick.hpp:1611); `begin` of an empty view is not
dereferenceable, so the value for an empty sequence is irrelevant. -/
def wickFull (S : Statistics) (isQpAnn : Op → Bool) (canContract : Op → Op → Bool) :
    Nat → List (List Op) → List (Term Op)
  | 0, _ => []
  | _ + 1, [] => []
  | fuel + 1, [] :: nops => wickFull S isQpAnn canContract fuel nops
  | fuel + 1, (o :: rest) :: others =>
    if !isQpAnn o then []
    else
      (picks others).flatMap fun p =>
        if canContract o p.2.1 then
          let ph := phase S (rest.length + p.1)
          let nops' := rest :: p.2.2
          if opsize nops' = 0 then [(ph, [(o, p.2.1)])]
          else (wickFull S isQpAnn canContract fuel nops').map fun t => (ph * t.1, (o, p.2.1) :: t.2)
        else []

/-- Fuel that is always sufficient: every call removes an operator or an empty normal operator. -/
def wickFuel (nops : List (List Op)) : Nat := opsize nops + nops.length + 1

/-- A summand of the partial-contraction mode: phase, contractions, and the uncontracted operators that remain in
`state.nopseq`. -/
abbrev PartialTerm (Op : Type) := Int × List (Op × Op) × List (List Op)

/-- Put an operator (in front of which a search has already passed) back into the first normal operator of a remaining sequence. -/
def restore (o : Op) : List (List Op) → List (List Op)
  | [] => [[o]]
  | l :: ls => (o :: l) :: ls

/-- `recursive_nontensor_wick` with `full_contractions_ == false` (wick.hpp:1244-1647), for the part of the flattened view that
starts at `left_op_offset`; what precedes it is never touched again (right operators come after the left one).  The loop over
`op_left_iter` runs to the end: first all contractions of the operator at the offset, each emitting a summand and
continuing with the same offset (wick.hpp:1524-1616), then the next left operator, i.e. a search that keeps `o`.  An exhausted normal
operator stays in the sequence as an empty one. -/
def wickPartial (S : Statistics) (canContract : Op → Op → Bool) :
    Nat → List (List Op) → List (PartialTerm Op)
  | 0, _ => []
  | _ + 1, [] => []
  | fuel + 1, [] :: nops =>
    (wickPartial S canContract fuel nops).map fun t => (t.1, t.2.1, [] :: t.2.2)
  | fuel + 1, (o :: rest) :: others =>
    ((picks others).flatMap fun p =>
      if canContract o p.2.1 then
        let ph := phase S (rest.length + p.1)
        let nops' := rest :: p.2.2
        (ph, [(o, p.2.1)], nops') ::
          (if opsize nops' = 0 then []
           else (wickPartial S canContract fuel nops').map fun t =>
            (ph * t.1, (o, p.2.1) :: t.2.1, t.2.2))
      else []) ++
      (wickPartial S canContract fuel (rest :: others)).map fun t => (t.1, t.2.1, restore o t.2.2)

/-- All summands of `compute_nontensor_wick` with `full_contractions_ == false` and no required connections: those of the recursion
and the contraction-free one (wick.hpp:1205-1227). -/
def wickPartialAll (S : Statistics) (canContract : Op → Op → Bool) (nops : List (List Op)) :
    List (PartialTerm Op) :=
  wickPartial S canContract (wickFuel nops) nops ++ [(1, [], nops)]

/-! ### `normalize` -/

/-- The loop over the flattened view of one normal operator (op.hpp:1162-1193).  State: phase, creators,
the annihilators of this normal operator in forward order; `after` = number of operators in the following normal operators. -/
def collect (S : Statistics) (isCre : Op → Bool) (after : Nat) :
    List Op → Int × List Op × List Op → Int × List Op × List Op
  | [], st => st
  | o :: l, (ph, cre, grp) =>
    if isCre o then collect S isCre after l (ph, cre ++ [o], grp)
    else
      let distanceToEnd := l.length + after
      let totalDistance := distanceToEnd + grp.length
      let ph' := if S = Statistics.FermiDirac ∧ totalDistance % 2 = 1 then ph * -1 else ph
      collect S isCre after l (ph', cre, grp ++ [o])

/-- The same over all normal operators; the result lists the annihilator groups in the order of the normal operators. -/
def collectAll (S : Statistics) (isCre : Op → Bool) :
    List (List Op) → Int × List Op → Int × List Op × List (List Op)
  | [], (ph, cre) => (ph, cre, [])
  | l :: ls, (ph, cre) =>
    let r := collect S isCre (opsize ls) l (ph, cre, [])
    let r' := collectAll S isCre ls (r.1, r.2.1)
    (r'.1, r'.2.1, r.2.2 :: r'.2.2)

/-- `std::swap` of two elements of a vector. -/
def swapAt (l : List Op) (i j : Nat) : List Op :=
  match l[i]?, l[j]? with
  | some a, some b => (l.set i b).set j a
  | _, _ => l

/-- One round of the loop that moves the partner of `fixed[p]` to position `p + extra` of `moved`
(op.hpp:1218-1239 and 1244-1265): `partner` gives the index of the partner, if any; `source` its position in `moved`. -/
def alignStep (S : Statistics) (fixed : List Op) (partnerPos : Op → List Op → Option Nat) (extra p : Nat)
    (st : Int × List Op) : Int × List Op :=
  match fixed[p]? with
  | none => st
  | some f =>
    match partnerPos f st.2 with
    | none => st
    | some src =>
      if p + extra ≠ src then
        (if S = Statistics.FermiDirac then st.1 * -1 else st.1, swapAt st.2 src (p + extra))
      else st

/-- The loop `p = rank - 1, ..., 0`. -/
def alignLoop (S : Statistics) (fixed : List Op) (partnerPos : Op → List Op → Option Nat) (extra : Nat) :
    Nat → Int × List Op → Int × List Op
  | 0, st => st
  | p + 1, st => alignLoop S fixed partnerPos extra p (alignStep S fixed partnerPos extra p st)

/-- Position of the annihilator (creator) with index `idx` (`ranges::find_if`, op.hpp:1227-1229, 1253-1255). -/
def findIndex {Idx : Type} [DecidableEq Idx] (index : Op → Idx) (idx : Idx) (l : List Op) : Option Nat :=
  l.findIdx? fun v => decide (index v = idx)

/-- `normalize(opseq, target_partner_indices)` (op.hpp:1141-1272): phase and the content of the resulting normal operator, whose
constructor stores the creators followed by the reversed annihilators (op.hpp:535-562). -/
def normalize {Idx : Type} [DecidableEq Idx] (S : Statistics) (isCre : Op → Bool) (index : Op → Idx)
    (partners : List (Idx × Idx)) (nops : List (List Op)) : Int × List Op :=
  let r := collectAll S isCre nops (1, [])
  let ph := r.1
  let creators := r.2.1
  let annihilators := (r.2.2.map List.reverse).flatten
  if partners.isEmpty then (ph, creators ++ annihilators.reverse)
  else
    let ncre := creators.length
    let nann := annihilators.length
    let rank := min ncre nann
    if ncre = rank then
      let partnerPos := fun (c : Op) (anns : List Op) =>
        (partners.find? fun q => decide (q.1 = index c)).bind fun q => findIndex index q.2 anns
      let r' := alignLoop S creators partnerPos (nann - rank) rank (ph, annihilators)
      (r'.1, creators ++ r'.2.reverse)
    else
      let partnerPos := fun (a : Op) (cres : List Op) =>
        (partners.find? fun q => decide (q.2 = index a)).bind fun q => findIndex index q.1 cres
      let r' := alignLoop S annihilators partnerPos (ncre - rank) rank (ph, creators)
      (r'.1, r'.2 ++ annihilators.reverse)

end SeQuant.Wick
