import Verif.Space.Model

/-!
# Designated spaces, spin spaces and the predefined registries

Transcribes the designations of `IndexSpaceRegistry` (`SeQuant/core/index_space_registry.hpp:322-450, 1004-1300, 1399-1560`) and
`SeQuant/domain/mbpt/convention.cpp`.  Attributes are those of `Verif/Space/Model.lean`.  The set of spaces is a list in the order in which the
spaces were added; the code keeps them ordered by key, which no function of this file depends on, except that the first of several
reasons to fail decides between an exception and a failed assertion.  Memoized data (C20) is left out.  A label is a space key; the
stripping of ordinals from index labels is not repeated here.
-/

namespace SeQuant.Conv

open SeQuant.Spaces (Mask Attr hasSingleBit maskXor maskInter)

/-- Outcome of a call: a value, an exception, a failed assertion. -/
inductive Out (α : Type) where
  | ok (a : α)
  | throws
  | aborts
  deriving DecidableEq, Repr

def Out.bind {α β : Type} : Out α → (α → Out β) → Out β
  | .ok a, f => f a
  | .throws, _ => .throws
  | .aborts, _ => .aborts

def Out.isOk {α : Type} : Out α → Bool
  | .ok _ => true
  | _ => false

instance : Monad Out where
  pure := .ok
  bind := Out.bind

abbrev Key := List Char

/-- `IndexSpace` (space.hpp:440-552) with its approximate size and whether its field is `Field::Complex`. -/
structure Sp where
  key : Key
  attr : Attr
  size : Nat := 10
  complex : Bool := true
  deriving DecidableEq, Repr

/-- The five designations `vacocc_`, `refocc_`, `complete_`, `hole_space_`, `particle_space_` (index_space_registry.hpp:1459-1480). -/
inductive Role where
  | vac | ref | complete | hole | particle
  deriving DecidableEq, Repr

/-- The default type and the types for particular quantum numbers. -/
structure Desig where
  dflt : Mask := 0#32
  perQn : List (Mask × Mask) := []
  deriving DecidableEq, Repr

structure Reg where
  spaces : List Sp
  mask : Mask
  desig : Role → Desig

/-- Default constructor (93-98): the null space only. -/
def Reg.empty : Reg := ⟨[⟨[], Attr.null, 10, true⟩], 0#32, fun _ => {}⟩

/-- `add(IS)` (294-321) on the set of spaces. -/
def addSp (l : List Sp) (s : Sp) : Out (List Sp) :=
  if l.any fun t => decide (t.key = s.key) then .throws
  else if l.any fun t => decide (s.attr = t.attr) then .throws
  else .ok (l ++ [s])

/-- `retrieve_ptr(attr)`, `retrieve_ptr(type, qns)` (205-211, 235-240). -/
def findAttr (l : List Sp) (a : Attr) : Option Sp := l.find? fun s => decide (s.attr = a)

/-- `retrieve(attr)`, `retrieve(type, qns)` (219-228, 247-254). -/
def retrieve (l : List Sp) (a : Attr) : Out Sp := match findAttr l a with
  | some s => .ok s
  | none => .throws

/-- `retrieve(label)` (188-197). -/
def retrieveKey (l : List Sp) (k : Key) : Out Sp := match l.find? fun s => decide (s.key = k) with
  | some s => .ok s
  | none => .throws

/-- `throw_if_missing(t, ctx)` (1413-1423). -/
def hasType (l : List Sp) (t : Mask) : Bool := l.any fun s => decide (s.attr.type = t)

/-- The setters `vacuum_occupied_space(t)`, ... (1014-1018, 1082-1086, 1240-1244): the default of a role. -/
def setDefault (r : Reg) (w : Role) (t : Mask) : Out Reg :=
  if hasType r.spaces t then .ok { r with desig := fun v => if v = w then ⟨t, (r.desig w).perQn⟩ else r.desig v } else .throws

/-- The getters `vacuum_occupied_space(nulltype_ok)`, ... (1049-1060, 1277-1287). -/
def getDefault (r : Reg) (w : Role) (nullOk : Bool) : Out Mask :=
  if (r.desig w).dflt = 0#32 then (if nullOk then .ok 0#32 else .throws) else .ok (r.desig w).dflt

/-- The getters `vacuum_occupied_space(qn)`, ... (1065-1072, 1292-1299). -/
def getQn (r : Reg) (w : Role) (q : Mask) : Out Sp := match (r.desig w).perQn.find? fun e => decide (e.1 = q) with
  | some e => retrieve r.spaces ⟨e.2, q⟩
  | none => do retrieve r.spaces ⟨← getDefault r w false, q⟩

/-- The loop of `throw_if_missing_any` (1429-1440) over the pairs of a space and an entry of the map; `found` is `qn2type_found`.
`try_emplace` returns whether it inserted, and the assertion is that it did not. -/
def missingLoop (checks : Bool) (n : Nat) (found : List Mask) : List (Sp × (Mask × Mask)) → Out Unit
  | [] => .throws
  | (s, e) :: l =>
    if s.attr.type = e.2 ∧ s.attr.qns = e.1 then
      if checks = true ∧ e.1 ∉ found then .aborts
      else
        let found := if e.1 ∈ found then found else e.1 :: found
        if found.length = n then .ok () else missingLoop checks n found l
    else missingLoop checks n found l

/-- `throw_if_missing_any` (1424-1452); `checks` = assertions are compiled in. -/
def missingAny (checks : Bool) (l : List Sp) (m : List (Mask × Mask)) : Out Unit :=
  missingLoop checks m.length [] (l.flatMap fun s => m.map fun e => (s, e))

/-- The setters `vacuum_occupied_space(qn2type)`, ... (1023-1028). -/
def setPerQn (checks : Bool) (r : Reg) (w : Role) (m : List (Mask × Mask)) : Out Reg := do
  missingAny checks r.spaces m
  return { r with desig := fun v => if v = w then ⟨(r.desig w).dflt, m⟩ else r.desig v }

/-- `process_attribute_tags` (1482-1510). -/
def setTags (r : Reg) (t : Mask) : List Role → Out Reg
  | [] => .ok r
  | w :: l => do setTags (← setDefault r w t) t l

/-- `add(label, type, qns, tags...)` (322-398) with the default size and field. -/
def addNew (k : Key) (t q : Mask) (tags : List Role) (r : Reg) : Out Reg := do
  setTags { r with spaces := ← addSp r.spaces { key := k, attr := ⟨t, q⟩ } } t tags

/-- The filter of `compute_approximate_size` and `compute_field` (1524-1527, 1545-1548). -/
def subBase (a : Attr) (s : Sp) : Bool :=
  decide (s.attr.qns = a.qns) && hasSingleBit s.attr.type && decide (a.type &&& s.attr.type ≠ 0#32)

/-- `compute_approximate_size` (1517-1535). -/
def computeSize (l : List Sp) (a : Attr) : Out Nat :=
  if hasSingleBit a.type then do return (← retrieve l a).size else .ok ((l.filter (subBase a)).map Sp.size).sum

/-- `compute_field` (1537-1553). -/
def computeField (l : List Sp) (a : Attr) : Out Bool :=
  if hasSingleBit a.type then do return (← retrieve l a).complex else .ok ((l.filter (subBase a)).any Sp.complex)

/-- The loop over the components of `add_unIon` (423-438). -/
def unionAttr (l : List Sp) (a : Attr) : List Key → Out Attr
  | [] => .ok a
  | k :: ks => do match a.union (← retrieveKey l k).attr with
    | some b => unionAttr l b ks
    | none => .aborts

/-- `add_unIon(label, components, tags...)` (412-458). -/
def addUnion (k : Key) (comps : List Key) (tags : List Role) (r : Reg) : Out Reg := match comps with
  | c :: d :: cs => do
    let a ← unionAttr r.spaces (← retrieveKey r.spaces c).attr (d :: cs)
    let n ← computeSize r.spaces a
    let f ← computeField r.spaces a
    setTags { r with spaces := ← addSp r.spaces ⟨k, a, n, f⟩ } a.type tags
  | _ => .aborts

/-- `vacuum_unoccupied_space(qn)` (1220-1227). -/
def vacUnocc (r : Reg) (q : Mask) : Out Sp := do
  let c ← getQn r .complete q
  let o ← getQn r .vac q
  match SeQuant.Spaces.unoccupiedType c.attr.type o.attr.type with
  | some t => retrieve r.spaces ⟨t, q⟩
  | none => .aborts

/-- `is_pure_occupied` (902-914); `!IS` is equality with the null space. -/
def isPureOcc (r : Reg) (s : Sp) : Out Bool :=
  if s.key = [] ∧ s.attr = Attr.null then .ok false
  else do return SeQuant.Spaces.pureOccupied s.attr.type (← getQn r .vac s.attr.qns).attr.type

/-- `is_pure_unoccupied` (934-944). -/
def isPureUnocc (r : Reg) (s : Sp) : Out Bool :=
  if s.key = [] ∧ s.attr = Attr.null then .ok false
  else do return decide (s.attr.type &&& (← getQn r .vac (s.attr.qns &&& r.mask)).attr.type = 0#32)

/-! ### `convention.cpp` -/

/-- `Spin` (space_qns.hpp:30-45). -/
def alpha : Mask := 1#32
def beta : Mask := 2#32
def anySpin : Mask := 3#32

/-- `LCAOQNS`, `TensorFactorizationQNS`, `BatchingQNS` (space_qns.hpp:53-84). -/
def qAo : Mask := 4#32
def qPao : Mask := 8#32
def qDf : Mask := 16#32
def qThc : Mask := 32#32
def qBatch : Mask := 64#32

/-- The assertions of `spinannotation_add` (spin.hpp:81-84). -/
def annotable (k : Key) : Bool := !k.contains '_' && decide (k.getLast? ≠ some '↑') && decide (k.getLast? ≠ some '↓')

/-- `spin_up`, `spin_down` (convention.cpp:56-59): the field is not passed on. -/
def up (s : Sp) : Sp := { key := s.key ++ ['↑'], attr := ⟨s.attr.type, alpha⟩, size := s.size }
def down (s : Sp) : Sp := { key := s.key ++ ['↓'], attr := ⟨s.attr.type, beta⟩, size := s.size }

/-- The loop of `add_fermi_spin` (convention.cpp:54-63); `acc` are the spaces of `result`. -/
def spinLoop (acc : List Sp) : List Sp → Out (List Sp)
  | [] => .ok acc
  | s :: l =>
    if s.key = [] then spinLoop acc l
    else if annotable s.key then do
      let a ← addSp acc (up s)
      let b ← addSp a (down s)
      spinLoop b l
    else .aborts

/-- `result.R(isr.R(nulltype_ok))` (convention.cpp:64-69). -/
def copyDefault (r0 : Reg) (w : Role) (r : Reg) : Out Reg := do setDefault r w (← getDefault r0 w true)

/-- `add_fermi_spin` (convention.cpp:51-72). -/
def addFermiSpin (r : Reg) : Out Reg := do
  let r1 := { r with spaces := ← spinLoop r.spaces r.spaces }
  copyDefault r .complete (← copyDefault r .hole (← copyDefault r .particle (← copyDefault r .vac (← copyDefault r .ref r1))))

/-- `add_ao_spaces` (convention.cpp:74-93). -/
def addAo (vbs abs : Bool) (r : Reg) : Out Reg := do
  let obs ← retrieveKey r.spaces (if vbs then ['m'] else ['p'])
  let r ← addNew ['μ'] obs.attr.type qAo [] r
  let r ← if vbs then do
      let v ← retrieveKey r.spaces ['e']
      addUnion ['Γ'] [['μ'], ['Α']] [] (← addNew ['Α'] v.attr.type qAo [] r)
    else .ok r
  if abs then do
    let a ← retrieveKey r.spaces ['α', '\'']
    let r ← addUnion ['ρ'] [['μ'], ['σ']] [] (← addNew ['σ'] a.attr.type qAo [] r)
    if vbs then addUnion ['Ρ'] [['Γ'], ['σ']] [] r else .ok r
  else .ok r

/-- `add_pao_spaces` (convention.cpp:95-99). -/
def addPao (r : Reg) : Out Reg := do addNew ['μ', '\u0303'] (← getDefault r .particle false) qPao [] r

/-- `add_df_spaces`, `add_batching_spaces`, `add_thc_spaces` (convention.cpp:101-113). -/
def addDf (r : Reg) : Out Reg := addNew ['Κ'] 1#32 qDf [] r
def addBatch (r : Reg) : Out Reg := addNew ['z'] 32#32 qBatch [] r
def addThc (r : Reg) : Out Reg := addNew ['L'] 1#32 qThc [] r

/-- `Convention` (convention.hpp) and the choice between `SpinConvention::Legacy` and `Default`. -/
inductive Convention where
  | minimal | sr | minimalMr | mr | f12 | qcifs
  deriving DecidableEq, Repr

/-- `spin_any` of the `make_..._spaces`. -/
def spinAny (legacy : Bool) : Mask := if legacy then 0#32 else anySpin

/-- The last two statements of the `make_..._spaces`. -/
def finish (legacy : Bool) (r : Reg) : Out Reg := do
  let r ← if legacy then .ok r else addFermiSpin r
  return { r with mask := spinAny legacy }

/-- `make_min_sr_spaces` (convention.cpp:115-128). -/
def makeMinSr (legacy : Bool) : Out Reg := do
  let q := spinAny legacy
  let r ← addNew ['i'] 1#32 q [.vac, .ref, .hole] Reg.empty
  let r ← addNew ['a'] 2#32 q [.particle] r
  let r ← addUnion ['p'] [['i'], ['a']] [.complete] r
  finish legacy r

/-- `make_mr_spaces` (convention.cpp:134-155). -/
def makeMr (legacy : Bool) : Out Reg := do
  let q := spinAny legacy
  let r ← addNew ['o'] 1#32 q [] Reg.empty
  let r ← addNew ['i'] 2#32 q [] r
  let r ← addNew ['u'] 4#32 q [] r
  let r ← addNew ['a'] 8#32 q [] r
  let r ← addNew ['g'] 16#32 q [] r
  let r ← addUnion ['O'] [['o'], ['i']] [.vac] r
  let r ← addUnion ['M'] [['o'], ['i'], ['u']] [.ref] r
  let r ← addUnion ['I'] [['i'], ['u']] [.hole] r
  let r ← addUnion ['E'] [['u'], ['a'], ['g']] [] r
  let r ← addUnion ['A'] [['u'], ['a']] [.particle] r
  let r ← addUnion ['p'] [['M'], ['E']] [.complete] r
  finish legacy r

/-- `make_min_mr_spaces` (convention.cpp:157-173). -/
def makeMinMr (legacy : Bool) : Out Reg := do
  let q := spinAny legacy
  let r ← addNew ['i'] 1#32 q [.vac] Reg.empty
  let r ← addNew ['u'] 2#32 q [] r
  let r ← addNew ['a'] 4#32 q [] r
  let r ← addUnion ['I'] [['i'], ['u']] [.ref, .hole] r
  let r ← addUnion ['A'] [['u'], ['a']] [.particle] r
  let r ← addUnion ['p'] [['I'], ['a']] [.complete] r
  finish legacy r

/-- `make_sr_spaces` (convention.cpp:175-192). -/
def makeSr (legacy : Bool) : Out Reg := do
  let q := spinAny legacy
  let r ← addNew ['o'] 1#32 q [] Reg.empty
  let r ← addNew ['i'] 2#32 q [.hole] r
  let r ← addNew ['a'] 4#32 q [.particle] r
  let r ← addNew ['g'] 8#32 q [] r
  let r ← addUnion ['m'] [['o'], ['i']] [.vac, .ref] r
  let r ← addUnion ['e'] [['a'], ['g']] [] r
  let r ← addUnion ['x'] [['i'], ['a']] [] r
  let r ← addUnion ['p'] [['m'], ['e']] [.complete] r
  finish legacy r

/-- `make_F12_sr_spaces` (convention.cpp:194-217). -/
def makeF12 (legacy : Bool) : Out Reg := do
  let q := spinAny legacy
  let r ← addNew ['o'] 1#32 q [] Reg.empty
  let r ← addNew ['i'] 2#32 q [.hole] r
  let r ← addNew ['a'] 4#32 q [.particle] r
  let r ← addNew ['g'] 8#32 q [] r
  let r ← addNew ['α', '\''] 16#32 q [] r
  let r ← addUnion ['m'] [['o'], ['i']] [.vac, .ref] r
  let r ← addUnion ['e'] [['a'], ['g']] [] r
  let r ← addUnion ['x'] [['i'], ['a']] [] r
  let r ← addUnion ['p'] [['m'], ['e']] [] r
  let r ← addUnion ['h'] [['x'], ['g']] [] r
  let r ← addUnion ['c'] [['g'], ['α', '\'']] [] r
  let r ← addUnion ['α'] [['e'], ['α', '\'']] [] r
  let r ← addUnion ['H'] [['i'], ['α']] [] r
  let r ← addUnion ['κ'] [['p'], ['α', '\'']] [.complete] r
  finish legacy r

/-- `make_legacy_spaces` (convention.cpp:219-244). -/
def makeQcifs (legacy : Bool) : Out Reg := do
  let q := spinAny legacy
  let r ← addNew ['o'] 1#32 q [] Reg.empty
  let r ← addNew ['n'] 2#32 q [] r
  let r ← addNew ['i'] 4#32 q [.hole] r
  let r ← addNew ['u'] 8#32 q [] r
  let r ← addNew ['a'] 16#32 q [.particle] r
  let r ← addNew ['g'] 32#32 q [] r
  let r ← addNew ['α', '\''] 64#32 q [] r
  let r ← addUnion ['m'] [['o'], ['n'], ['i']] [.vac, .ref] r
  let r ← addUnion ['M'] [['m'], ['u']] [] r
  let r ← addUnion ['e'] [['a'], ['g']] [] r
  let r ← addUnion ['E'] [['u'], ['e']] [] r
  let r ← addUnion ['x'] [['i'], ['u'], ['a']] [] r
  let r ← addUnion ['p'] [['m'], ['x'], ['e']] [] r
  let r ← addUnion ['κ'] [['p'], ['α', '\'']] [.complete] r
  finish legacy r

/-- `load` (convention.cpp:25-49), without setting the context. -/
def make : Convention → Bool → Out Reg
  | .minimal => makeMinSr
  | .sr => makeSr
  | .minimalMr => makeMinMr
  | .mr => makeMr
  | .f12 => makeF12
  | .qcifs => makeQcifs

/-- `R(l)` for a label (1040-1043). -/
def setKey (r : Reg) (w : Role) (k : Key) : Out Reg := do setDefault r w (← retrieveKey r.spaces k).attr.type

/-- The spaces made by `make_fermi_and_bose_spaces` (convention.cpp:249-259). -/
def pairSpaces (legacy : Bool) : Out Reg := do
  let q := spinAny legacy
  let r ← addNew ['i'] 1#32 q [] Reg.empty
  let r ← addNew ['a'] 2#32 q [] r
  let r ← addUnion ['p'] [['i'], ['a']] [] r
  let r ← if legacy then .ok r else addFermiSpin r
  addNew ['β'] 4#32 anySpin [] r

/-- `fermi_isr` (convention.cpp:261-267). -/
def fermiReg (legacy : Bool) : Out Reg := do
  let p ← pairSpaces legacy
  let r ← setKey ⟨p.spaces, 0#32, fun _ => {}⟩ .vac ['i']
  let r ← setKey r .ref ['i']
  let r ← setKey r .hole ['i']
  let r ← setKey r .particle ['a']
  let r ← setKey r .complete ['p']
  return { r with mask := spinAny legacy }

/-- `bose_isr` (convention.cpp:269-275). -/
def boseReg (legacy : Bool) : Out Reg := do
  let p ← pairSpaces legacy
  let r ← setDefault ⟨p.spaces, 0#32, fun _ => {}⟩ .vac 0#32
  let r ← setDefault r .ref 0#32
  let r ← setDefault r .hole 0#32
  let r ← setKey r .particle ['β']
  let r ← setKey r .complete ['β']
  return { r with mask := anySpin }

end SeQuant.Conv
