/-!
# Quantum numbers of operators (C43, C48)

Transcribes `combine`, `adjoint` and the constructors of quantum numbers in `SeQuant/domain/mbpt/op.cpp`, `Operator::apply_to` and
`commutes_with_atom` in `op.ipp`, `apply_to_vac` and `can_change_qns` in `op.cpp`, and `nonnegative` in `core/interval.hpp`.

Simplifications: elements `2 i` and `2 i + 1` of a set of quantum numbers (creators and annihilators of base space `i`) form a pair; a base
space is described by what the code asks about it; numbers do not overflow.
-/

namespace SeQuant.Mbpt

/-- `boost::numeric::interval<std::int64_t>`. -/
structure Ival where
  lo : Int
  hi : Int
deriving DecidableEq, Repr

/-- The constructor throws if the bounds are in the wrong order. -/
def Ival.mk? (l h : Int) : Option Ival := if l ≤ h then some ⟨l, h⟩ else none

def Ival.add (a b : Ival) : Ival := ⟨a.lo + b.lo, a.hi + b.hi⟩
def Ival.sub (a b : Ival) : Ival := ⟨a.lo - b.hi, a.hi - b.lo⟩

/-- `nonnegative` (interval.hpp:32-35): `none` if the assertion fails. -/
def Ival.nonnegative (a : Ival) : Option Ival := if 0 ≤ a.hi then some ⟨max 0 a.lo, a.hi⟩ else none

/-- `boost::numeric::overlap`. -/
def Ival.overlap (a b : Ival) : Bool := if a.lo ≤ b.lo then decide (b.lo ≤ a.hi) else decide (a.lo ≤ b.hi)

/-- Creators and annihilators of one base space. -/
abbrev SpaceQ := Ival × Ival
/-- `qns_t`. -/
abbrev Qns := List SpaceQ

/-- The default constructor (op.hpp:228-232) for `n` base spaces. -/
def qzero (n : Nat) : Qns := List.replicate n (⟨0, 0⟩, ⟨0, 0⟩)

/-- One base space of `combine` (op.cpp:267-279). -/
def combineSpace (occ : Bool) (a b : SpaceQ) : Option SpaceQ :=
  match Ival.mk? 0 (if occ then min b.2.hi a.1.hi else min b.1.hi a.2.hi) with
  | none => none
  | some nc =>
    match ((b.1.add a.1).sub nc).nonnegative, ((b.2.add a.2).sub nc).nonnegative with
    | some c, some d => some (c, d)
    | _, _ => none

/-- `combine` (252-285) for a single-product vacuum; `occs` tells which base spaces are occupied in it. -/
def combine : List Bool → Qns → Qns → Option Qns
  | [], [], [] => some []
  | o :: os, a :: as, b :: bs =>
    match combineSpace o a b, combine os as bs with
    | some r, some rs => some (r :: rs)
    | _, _ => none
  | _, _, _ => none

/-- `combine` for the physical vacuum (256-262). -/
def combinePhysical (a b : SpaceQ) : Option SpaceQ :=
  match Ival.mk? 0 (min b.1.hi a.2.hi) with
  | none => none
  | some nc =>
    match ((a.1.add b.1).sub nc).nonnegative, ((a.2.add b.2).sub nc).nonnegative with
    | some c, some d => some (c, d)
    | _, _ => none

/-- `adjoint` (297-309). -/
def adjointQ (q : Qns) : Qns := q.map fun p => (p.2, p.1)

/-- `is_vacuum` (289-291). -/
def isVacuum (q : Qns) : Bool := decide (q = qzero q.length)

/-- `Operator::apply_to` (op.ipp:72-83); `act` are the quantum numbers of the operator. -/
def applyTo (occs : List Bool) (act q : Qns) : Option Qns :=
  if isVacuum q then some act else combine occs act q

/-- `apply_to_vac` (op.cpp:1275-1290) of a product. -/
def applyToVac (occs : List Bool) : List Qns → Option Qns
  | [] => some (qzero occs.length)
  | act :: acts =>
    match applyToVac occs acts with
    | none => none
    | some q => applyTo occs act q

/-- `overlaps_with` (op.hpp:398-405). -/
def overlaps : Qns → Qns → Bool
  | a :: as, b :: bs => b.1.overlap a.1 && b.2.overlap a.2 && overlaps as bs
  | _, _ => true

/-- `can_change_qns` (1292-1303). -/
def canChange (occs : List Bool) (acts : List Qns) (target source : Qns) : Option Bool :=
  match applyToVac occs acts with
  | none => none
  | some qnc =>
    match combine occs qnc source with
    | none => none
    | some q => some (overlaps q target)

/-- `commutes_with_atom` of operators (op.ipp:123-140). -/
def commutesOp (occs : List Bool) (a b : Qns) : Option Bool :=
  match combine occs a b, combine occs b a with
  | some x, some y => some (decide (x = y))
  | _, _ => none

/-- What the constructors ask about a base space: has it the spin quantum number, is it part of the particle space, of the hole space? -/
structure BaseSpace where
  sqn : Bool
  particle : Bool
  hole : Bool
deriving DecidableEq

/-- `{lowest, highest}` creators or annihilators. -/
def rankIval (base inc : Bool) (k : Nat) : Ival := if inc then ⟨if base then k else 0, k⟩ else ⟨0, 0⟩

/-- `generic_excitation_qns` (185-216); `apsBase`, `ahsBase`: are the particle space and the hole space *of the registry* base spaces. -/
def genericExcitation (apsBase ahsBase : Bool) (pr hr : Nat) (sp : List BaseSpace) : Qns :=
  sp.map fun s => if s.sqn then (rankIval apsBase s.particle pr, rankIval ahsBase s.hole hr) else (⟨0, 0⟩, ⟨0, 0⟩)

/-- `generic_deexcitation_qns` (218-248). -/
def genericDeexcitation (apsBase ahsBase : Bool) (pr hr : Nat) (sp : List BaseSpace) : Qns :=
  sp.map fun s => if s.sqn then (rankIval ahsBase s.hole hr, rankIval apsBase s.particle pr) else (⟨0, 0⟩, ⟨0, 0⟩)

/-- `excitation_type_qns` (59-88), where the spaces are those of the registry. -/
def excitationType (apsBase ahsBase : Bool) (k : Nat) (sp : List BaseSpace) : Qns := genericExcitation apsBase ahsBase k k sp

/-- `interval_excitation_type_qns` (90-117). -/
def intervalExcitationType (k : Nat) (sp : List BaseSpace) : Qns :=
  sp.map fun s => if s.sqn then (rankIval false s.particle k, rankIval false s.hole k) else (⟨0, 0⟩, ⟨0, 0⟩)

/-- `deexcitation_type_qns` (119-147). -/
def deexcitationType (apsBase ahsBase : Bool) (k : Nat) (sp : List BaseSpace) : Qns := genericDeexcitation apsBase ahsBase k k sp

/-- `interval_deexcitation_type_qns` (149-175). -/
def intervalDeexcitationType (k : Nat) (sp : List BaseSpace) : Qns :=
  sp.map fun s => if s.sqn then (rankIval false s.hole k, rankIval false s.particle k) else (⟨0, 0⟩, ⟨0, 0⟩)

/-- `general_type_qns` (177-183). -/
def generalType (n k : Nat) : Qns := List.replicate n (⟨0, k⟩, ⟨0, k⟩)

/-- `generic_excitation_qns` for the physical vacuum (189-191). -/
def genericExcitationPhysical (pr hr : Nat) : SpaceQ := (⟨0, hr⟩, ⟨0, pr⟩)

end SeQuant.Mbpt
