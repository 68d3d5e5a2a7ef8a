import Mathlib.Order.Defs.LinearOrder

/-!
# Index-space attributes, index spaces and the registry

Transcribes `SeQuant/core/space.hpp` and `SeQuant/core/index_space_registry.hpp`.  `bitset_t` is `int32_t` (fwd.hpp:15); it is
modelled by `BitVec 32`.  A failed `SEQUANT_ASSERT` is `none`.
-/

namespace SeQuant.Spaces

abbrev Mask := BitVec 32

/-- `bitset::reserved` (fwd.hpp:16). -/
def reservedMask : Mask := 0x80000000#32

/-- `TypeAttr(bitset_t)` (space.hpp:50-52) and `QuantumNumbersAttr(bitset_t)` (space.hpp:170-173, 181-184): the constructor asserts that
the reserved bit is not set. -/
def mkMask (b : Mask) : Option Mask := if b &&& reservedMask = 0#32 then some b else none

/-- `unIon` (space.hpp:84-86, 210-212). -/
def maskUnion (a b : Mask) : Option Mask := mkMask (a ||| b)

/-- `intersection` (space.hpp:106-108, 222-224). -/
def maskInter (a b : Mask) : Option Mask := mkMask (a &&& b)

/-- `xOr` (space.hpp:95-97, 198-200). -/
def maskXor (a b : Mask) : Option Mask := mkMask (a ^^^ b)

/-- `operator~` (space.hpp:117, 234): the complement is passed to the asserting constructor. -/
def maskCompl (a : Mask) : Option Mask := mkMask (~~~a)

/-- `includes` (space.hpp:127-129, 246-248). -/
def maskIncludes (a b : Mask) : Option Bool := (maskInter a b).map fun i => decide (i = b)

/-- `operator<` on masks (space.hpp:131-133, 250-253): signed comparison. -/
def maskLt (a b : Mask) : Bool := decide (a.toInt < b.toInt)

/-- `IndexSpace::Attr` (space.hpp:285-373). -/
structure Attr where
  type : Mask
  qns : Mask
  deriving DecidableEq, Repr

/-- `Attr::unIon` (space.hpp:329-331). -/
def Attr.union (a b : Attr) : Option Attr := do return ⟨← maskUnion a.type b.type, ← maskUnion a.qns b.qns⟩

/-- `Attr::intersection` (space.hpp:340-343). -/
def Attr.inter (a b : Attr) : Option Attr := do return ⟨← maskInter a.type b.type, ← maskInter a.qns b.qns⟩

/-- `Attr::includes` (space.hpp:349-352): `&&` evaluates the second test only if the first succeeds. -/
def Attr.includes (a b : Attr) : Option Bool := do
  if ← maskIncludes a.type b.type then maskIncludes a.qns b.qns else return false

/-- `Attr::operator<` (space.hpp:360-366). -/
def Attr.lt (a b : Attr) : Bool := if a.qns = b.qns then maskLt a.type b.type else maskLt a.qns b.qns

/-- `Attr::operator int64_t` (space.hpp:317-320), as a mathematical integer (`BitVec.toInt` of both parts fits). -/
def Attr.toInt64 (a : Attr) : Int := a.type.toInt * 2 ^ 32 + a.qns.toInt

def Attr.null : Attr := ⟨0#32, 0#32⟩

/-- `Attr::reserved` (space.hpp:304, 369-372). -/
def Attr.reserved : Attr := ⟨reservedMask, reservedMask⟩

variable {Key : Type} [LinearOrder Key]

/-- `IndexSpace` (space.hpp:281-552): attributes and base key.  Approximate size and field are not modelled. -/
structure Space (Key : Type) where
  attr : Attr
  key : Key
  deriving DecidableEq, Repr

/-- `operator<=>(IndexSpace, IndexSpace)` (space.hpp:586-598). -/
def Space.cmp (a b : Space Key) : Ordering :=
  if a.attr ≠ b.attr then (if a.attr.lt b.attr then .lt else .gt)
  else if a.attr = Attr.reserved ∧ a.key ≠ b.key then (if a.key < b.key then .lt else .gt)
  else .eq

/-- `operator==(IndexSpace, IndexSpace)` (space.hpp:604-608). -/
def Space.beq (a b : Space Key) : Bool := decide (a.attr = b.attr) && decide (a.key = b.key)

/-- `IndexSpace::null`: empty key (`nullKey`), zero attributes. -/
def Space.null (nullKey : Key) : Space Key := ⟨Attr.null, nullKey⟩

/-! ### Registry -/

/-- `has_single_bit` (index_space_registry.hpp:1384-1386). -/
def hasSingleBit (b : Mask) : Bool := decide (b ≠ 0#32) && decide (b &&& (b - 1#32) = 0#32)

/-- `flat_set::emplace` with `KeyCompare`, for a key that is not present. -/
def insertByKey (s : Space Key) : List (Space Key) → List (Space Key)
  | [] => [s]
  | t :: l => if s.key < t.key then s :: t :: l else t :: insertByKey s l

/-- `find_by_attr` (1390-1397) and `retrieve_ptr(attr)`, `retrieve_ptr(type, qns)` (205-211, 235-240). -/
def findAttr (l : List (Space Key)) (a : Attr) : Option (Space Key) := l.find? fun s => decide (s.attr = a)

/-- `spaces_->find(key)`. -/
def findKey (l : List (Space Key)) (k : Key) : Option (Space Key) := l.find? fun s => decide (s.key = k)

/-- `add(IS)` (294-321) on the set of spaces; `none` = exception. -/
def addSpace (l : List (Space Key)) (s : Space Key) : Option (List (Space Key)) :=
  if (findKey l s.key).isSome then none
  else if l.any fun t => decide (s.attr = t.attr) then none
  else some (insertByKey s l)

/-- `remove(IS)` (534-540) on the set of spaces. -/
def removeSpace (l : List (Space Key)) (k : Key) : List (Space Key) := l.filter fun t => decide (t.key ≠ k)

/-- `other_attributes` (index_space_registry.cpp:22-25), without the assertion of the constructor. -/
def otherAttributes (mask q : Mask) : Mask := q &&& ~~~mask

/-- `is_base(IndexSpace)` (871-875). -/
def isBase (mask : Mask) (s : Space Key) : Bool := hasSingleBit s.attr.type && decide (otherAttributes mask s.attr.qns = 0#32)

/-- `ranges::views::unique`: drops consecutive duplicates. -/
def unique {α : Type} [DecidableEq α] : List α → List α
  | [] => []
  | [a] => [a]
  | a :: b :: l => if a = b then unique (b :: l) else a :: unique (b :: l)

/-- `ranges::sort` by a key, as a stable insertion sort. -/
def sortInsert {α : Type} (f : α → Int) (a : α) : List α → List α
  | [] => [a]
  | b :: l => if f b < f a then b :: sortInsert f a l else a :: b :: l

def sortBy {α : Type} (f : α → Int) : List α → List α
  | [] => []
  | a :: l => sortInsert f a (sortBy f l)

/-- The value computed by `base_space_types()` when nothing is memoized (828-834). -/
def computeTypes (l : List (Space Key)) : List Mask :=
  sortBy BitVec.toInt (unique ((l.map fun s => s.attr.type).filter hasSingleBit))

/-- The value computed by `base_spaces()` when nothing is memoized (850-857). -/
def computeSpaces (mask : Mask) (l : List (Space Key)) : List (Space Key) :=
  sortBy (fun s => s.attr.type.toInt) (unique (l.filter (isBase mask)))

/-- One registry object: the shared pointer `spaces_` (an address), the particle mask and the memoized data (1365-1375). -/
structure Reg (Key : Type) where
  ptr : Nat
  mask : Mask
  memoTypes : Option (List Mask)
  memoSpaces : Option (List (Space Key))

/-- All registries and the sets of spaces they point to; `next` is a fresh address. -/
structure World (Key : Type) where
  heap : Nat → List (Space Key)
  next : Nat
  regs : List (Reg Key)

/-- Operations; registries are named by their position. -/
inductive Cmd (Key : Type) where
  /-- default constructor (93-98) -/
  | new
  /-- copy constructor (108-116): shares `spaces_`, starts without memoized data -/
  | copy (i : Nat)
  /-- `clone()` (index_space_registry.cpp:27-33) -/
  | clone (i : Nat)
  /-- copy assignment (130-139): keeps the memoized data of the target -/
  | assign (i j : Nat)
  | add (i : Nat) (s : Space Key)
  | remove (i : Nat) (k : Key)
  | replace (i : Nat) (s : Space Key)
  /-- `clear()` (563-566) -/
  | clear (i : Nat)
  /-- `physical_particle_attribute_mask(m)` (index_space_registry.cpp:9-11) -/
  | setMask (i : Nat) (m : Mask)
  | baseTypes (i : Nat)
  | baseSpaces (i : Nat)

def setHeap (h : Nat → List (Space Key)) (p : Nat) (l : List (Space Key)) : Nat → List (Space Key) :=
  fun q => if q = p then l else h q

/-- Effect of one operation.  An exception leaves the state as it was at the throw (`replace` has then already removed the space). -/
def exec (nullKey : Key) (w : World Key) : Cmd Key → World Key
  | .new => { heap := setHeap w.heap w.next [Space.null nullKey], next := w.next + 1, regs := w.regs ++ [⟨w.next, 0#32, none, none⟩] }
  | .copy i => match w.regs[i]? with
    | some r => { w with regs := w.regs ++ [⟨r.ptr, r.mask, none, none⟩] }
    | none => w
  | .clone i => match w.regs[i]? with
    | some r => { heap := setHeap w.heap w.next (w.heap r.ptr), next := w.next + 1, regs := w.regs ++ [⟨w.next, r.mask, none, none⟩] }
    | none => w
  | .assign i j => match w.regs[i]?, w.regs[j]? with
    | some r, some r' => { w with regs := w.regs.set i { r with ptr := r'.ptr, mask := r'.mask } }
    | _, _ => w
  | .add i s => match w.regs[i]? with
    | some r => match addSpace (w.heap r.ptr) s with
      | some l => { w with heap := setHeap w.heap r.ptr l, regs := w.regs.set i { r with memoTypes := none, memoSpaces := none } }
      | none => w
    | none => w
  | .remove i k => match w.regs[i]? with
    | some r => { w with heap := setHeap w.heap r.ptr (removeSpace (w.heap r.ptr) k),
                         regs := w.regs.set i { r with memoTypes := none, memoSpaces := none } }
    | none => w
  | .replace i s => match w.regs[i]? with
    | some r =>
      let l := removeSpace (w.heap r.ptr) s.key
      { w with heap := setHeap w.heap r.ptr ((addSpace l s).getD l),
               regs := w.regs.set i { r with memoTypes := none, memoSpaces := none } }
    | none => w
  | .clear i => match w.regs[i]? with
    | some r => { heap := setHeap w.heap w.next [Space.null nullKey], next := w.next + 1,
                  regs := w.regs.set i { r with ptr := w.next, mask := 0#32 } }
    | none => w
  | .setMask i m => match w.regs[i]? with
    | some r => { w with regs := w.regs.set i { r with mask := m } }
    | none => w
  | .baseTypes i => match w.regs[i]? with
    | some r => { w with regs := w.regs.set i { r with memoTypes := some (r.memoTypes.getD (computeTypes (w.heap r.ptr))) } }
    | none => w
  | .baseSpaces i => match w.regs[i]? with
    | some r => { w with regs := w.regs.set i { r with memoSpaces := some (r.memoSpaces.getD (computeSpaces r.mask (w.heap r.ptr))) } }
    | none => w

def emptyWorld : World Key := ⟨fun _ => [], 0, []⟩

/-- A history. -/
def run (nullKey : Key) (w : World Key) (h : List (Cmd Key)) : World Key := h.foldl (exec nullKey) w

/-! ### Set operations of the registry -/

/-- `intersection(s1, s2)` (608-636); the outer `none` is a failed assertion, `some none` an exception. -/
def regInter (nullKey : Key) (l : List (Space Key)) (a b : Space Key) : Option (Option (Space Key)) :=
  if a = b then some (some a)
  else do
    let q ← maskInter a.attr.qns b.attr.qns
    if q = 0#32 ∧ a.attr.qns ≠ b.attr.qns then return some (Space.null nullKey)
    let t ← maskInter a.attr.type b.attr.type
    let s := (findAttr l ⟨t, a.attr.qns⟩).getD (Space.null nullKey)
    if s = Space.null nullKey ∧ t ≠ 0#32 then return none
    return some s

/-- `valid_unIon(s1, s2)` (664-689).  `!find_by_attr(..)` is `IndexSpace::operator bool`, i.e. `!= null`. -/
def validUnion (nullKey : Key) (l : List (Space Key)) (a b : Space Key) : Option Bool := do
  let it ← maskIncludes a.attr.type b.attr.type
  if it = false ∧ a.attr.qns = b.attr.qns then
    let t ← maskUnion a.attr.type b.attr.type
    return decide ((findAttr l ⟨t, a.attr.qns⟩).getD (Space.null nullKey) ≠ Space.null nullKey)
  else
    let iq ← maskIncludes a.attr.qns b.attr.qns
    if iq = false ∧ a.attr.type = b.attr.type then
      let q ← maskUnion a.attr.qns b.attr.qns
      return decide ((findAttr l ⟨a.attr.type, q⟩).getD (Space.null nullKey) ≠ Space.null nullKey)
    else return false

/-- `unIon(s1, s2)` (723-756). -/
def regUnion (nullKey : Key) (l : List (Space Key)) (a b : Space Key) : Option (Option (Space Key)) :=
  if (findAttr l a.attr).isNone then some none
  else if (findAttr l b.attr).isNone then some none
  else if a = b then some (some a)
  else if a.attr.qns ≠ b.attr.qns then some none
  else do
    let t ← maskUnion a.attr.type b.attr.type
    let s := (findAttr l ⟨t, a.attr.qns⟩).getD (Space.null nullKey)
    if s = Space.null nullKey then return none
    return some s

/-- The type computed by `vacuum_unoccupied_space` (1220-1227) from `complete_space(qn)` and `vacuum_occupied_space(qn)`. -/
def unoccupiedType (complete occ : Mask) : Option Mask := do maskInter (← maskXor complete occ) complete

/-- The comparison of `is_pure_occupied` (908-909). -/
def pureOccupied (t occ : Mask) : Bool := decide (t.toInt ≤ occ.toInt)

/-- The test of `is_pure_unoccupied` (941-942). -/
def pureUnoccupied (t occ : Mask) : Option Bool := do return decide ((← maskInter t occ) = 0#32)

/-- The test of `contains_occupied` (962-965) and `contains_unoccupied` (983-986). -/
def containsSome (t occ : Mask) : Option Bool := do return decide ((← maskInter t occ) ≠ 0#32)

end SeQuant.Spaces
