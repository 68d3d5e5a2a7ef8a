import Mathlib.Data.List.Sort
import Verif.Optimize.UniqueModel

/-!
# External indices and counts of indices (C109, C110)

Transcribes `SeQuant/core/utility/indices.hpp` 271-420 (`IndexSlotCounters`, `get_used_indices_with_counts`, `get_used_indices`, `tot_indices`),
458-578 (`external_indices`) and 618-736 (`get_bra_idx`, `get_ket_idx`, `as_index_group_view`), `WickTheorem::extract_indices`
(`core/wick.impl.hpp` 662-702) and `target_indices` in `binarize` (`core/eval/eval_expr.cpp` 543-560).  `get_unique_indices` is in
`Verif.Optimize.UniqueModel`.

Simplifications: the labels of tensors are reduced to `Kind` (two tensors that are equal in the code are equal in label, indices and symmetries, here in
kind and indices); a normal operator and a tensor are both `AbstractTensor`s, which is all that counting looks at; a map is the list of its entries
in order of insertion.
-/

namespace SeQuant.Named

open SeQuant.Optimize

/-- Which of the reserved labels a tensor has. -/
inductive Kind
  | symm
  | antisymm
  | other
deriving DecidableEq

structure Ten (ι : Type) where
  kind : Kind
  bra : List ι
  ket : List ι
  aux : List ι
deriving DecidableEq

/-- Expressions as these functions see them; `ops`: a sequence of normal operators. -/
inductive NExpr (ι : Type)
  | scalar
  | tensor (t : Ten ι)
  | ops (l : List (Groups ι))
  | prod (l : List (NExpr ι))
  | sum (l : List (NExpr ι))

variable {ι : Type} [DecidableEq ι]

mutual
/-- The atoms in the order in which `visit(…, true)` sees them (`core/expressions/expr.hpp` 396-427). -/
def atoms : NExpr ι → List (NExpr ι)
  | .scalar => [.scalar]
  | .tensor t => [.tensor t]
  | .ops l => [.ops l]
  | .prod l => atomsL l
  | .sum l => atomsL l
def atomsL : List (NExpr ι) → List (NExpr ι)
  | [] => []
  | e :: l => atoms e ++ atomsL l
end

mutual
/-- What `get_unique_indices` sees. -/
def toU : NExpr ι → UExpr ι
  | .scalar => .scalar
  | .tensor t => .tensor t.bra t.ket t.aux
  | .ops _ => .other
  | .prod l => .prod (toUL l)
  | .sum l => .sum (toUL l)
def toUL : List (NExpr ι) → List (UExpr ι)
  | [] => []
  | e :: l => toU e :: toUL l
end

/-! ### `external_indices` -/

/-- `SlottedIndex`. -/
abbrev Slotted (ι : Type) := ι × Slot

inductive Fault
  | thrown
  | assertion
deriving DecidableEq

/-- `cont.at(off + i).emplace_back(l[i], slot)` for all `i`. -/
def place (slot : Slot) (off : Nat) (l : List ι) (cont : List (List (Slotted ι))) : List (List (Slotted ι)) :=
  l.zipIdx.foldl (fun c p => c.modify (off + p.2) (· ++ [(p.1, slot)])) cont

/-- The groups made of bra, ket and aux indices (480-497, 560-575). -/
def columns (bra ket aux : List ι) : List (List (Slotted ι)) :=
  let n := max bra.length ket.length
  place .aux n aux (place .ket 0 ket (place .bra 0 bra (List.replicate (n + aux.length) [])))

/-- `slot == Bra ? Ket : Bra` (518-521). -/
def flipSlot : Slot → Slot
  | .bra => .ket
  | _ => .bra

/-- One group of a symmetrizer (508-523). -/
def conjGroup (isSymm : Bool) : List (Slotted ι) → Except Fault (List (Slotted ι))
  | [x, y] => .ok [(y.1, x.2), (x.1, y.2)]
  | g => if isSymm then .error .thrown else
    match g with
    | [x] => .ok [(x.1, flipSlot x.2)]
    | _ => .error .assertion

/-- `external_indices` of a tensor (477-528). -/
def externalTensor (t : Ten ι) : Except Fault (List (List (Slotted ι))) :=
  let cont := columns t.bra t.ket t.aux
  if t.kind = .other then .ok cont else do
    let n := max t.bra.length t.ket.length
    let conj ← (cont.take n).mapM (conjGroup (decide (t.kind = .symm)))
    .ok (conj ++ cont.drop n)

/-- The visitor that looks for symmetrizers (531-541); `checks`: whether `SEQUANT_ASSERT` is active. -/
def symmStep (checks : Bool) (found : Option (Ten ι)) (a : NExpr ι) : Except Fault (Option (Ten ι)) :=
  match a with
  | .tensor t => if t.kind = .other then .ok found else
      if checks && !(decide (found = none) || decide (found = some t)) then .error .assertion else .ok (some t)
  | _ => .ok found

def findSymm (checks : Bool) (e : NExpr ι) : Except Fault (Option (Ten ι)) := (atoms e).foldlM (symmStep checks) none

/-- The part of `external_indices` for sums and products (530-577). -/
def externalExpr (checks : Bool) (e : NExpr ι) : Except Fault (List (List (Slotted ι))) := do
  match ← findSymm checks e with
  | some t => externalTensor t
  | none => match uniqExpr (toU e) with
    | some g => .ok (columns g.bra g.ket g.aux)
    | none => .error .thrown

/-- `external_indices` (470-578). -/
def externalIndices (checks : Bool) : NExpr ι → Except Fault (List (List (Slotted ι)))
  | .tensor t => externalTensor t
  | .prod l => externalExpr checks (.prod l)
  | .sum l => externalExpr checks (.sum l)
  | _ => .ok []

/-- `get_bra_idx` (618-641) for containers; `none`: the assertion fails. -/
def getBra (g : List (Slotted ι)) : Option ι := (g.find? fun x => decide (x.2 = .bra)).map Prod.fst

/-- `get_ket_idx` (674-698) for containers, which searches from the end. -/
def getKet (g : List (Slotted ι)) : Option ι := (g.reverse.find? fun x => decide (x.2 = .ket)).map Prod.fst

def slotRank : Slot → Nat
  | .bra => 0
  | .ket => 1
  | .aux => 2

/-- `as_index_group_view` (725-744): the indices sorted by slot (insertion sort stands for `std::ranges::sort`). -/
def groupView (g : List (Slotted ι)) : List ι := (g.insertionSort fun x y => slotRank x.2 ≤ slotRank y.2).map Prod.fst

/-! ### Counts -/

/-- `IndexSlotCounters` (271-297). -/
structure Counters where
  bra : Nat := 0
  ket : Nat := 0
  aux : Nat := 0
  proto : Nat := 0
deriving DecidableEq

def Counters.total (c : Counters) : Nat := c.bra + c.ket + c.aux + c.proto
def Counters.nonproto (c : Counters) : Nat := c.bra + c.ket + c.aux

/-- The slots that are counted. -/
inductive CSlot
  | bra
  | ket
  | aux
  | proto
deriving DecidableEq

def Counters.increment (c : Counters) : CSlot → Counters
  | .bra => { c with bra := c.bra + 1 }
  | .ket => { c with ket := c.ket + 1 }
  | .aux => { c with aux := c.aux + 1 }
  | .proto => { c with proto := c.proto + 1 }

/-- `add` (306-312). -/
def addCount : List (ι × Counters) → ι → CSlot → List (ι × Counters)
  | [], i, s => [(i, ({} : Counters).increment s)]
  | (j, c) :: m, i, s => if j = i then (j, c.increment s) :: m else (j, c) :: addCount m i s

variable (nonnull : ι → Bool) (proto : ι → List ι)

/-- `emplace` (304-317). -/
def emplace (s : CSlot) (m : List (ι × Counters)) (i : ι) : List (ι × Counters) :=
  if nonnull i then (proto i).foldl (fun m j => addCount m j .proto) (addCount m i s) else m

/-- `process_abstract_tensor` (318-325). -/
def countTensor (m : List (ι × Counters)) (g : Groups ι) : List (ι × Counters) :=
  g.aux.foldl (emplace nonnull proto .aux) (g.ket.foldl (emplace nonnull proto .ket) (g.bra.foldl (emplace nonnull proto .bra) m))

/-- `collect_indices` (327-347). -/
def collect (m : List (ι × Counters)) : NExpr ι → List (ι × Counters)
  | .tensor t => countTensor nonnull proto m ⟨t.bra, t.ket, t.aux⟩
  | .ops l => l.foldl (countTensor nonnull proto) m
  | _ => m

/-- `get_used_indices_with_counts` (302-357). -/
def usedCounts (e : NExpr ι) : List (ι × Counters) := (atoms e).foldl (collect nonnull proto) []

/-- `get_used_indices` (368-374). -/
def usedIndices (e : NExpr ι) : List ι := (usedCounts nonnull proto e).map Prod.fst

/-- The result of `extract_indices` (wick.impl.hpp 662-702). -/
structure Extracted (ι : Type) where
  all : List ι
  external : List ι
  noncovariant : List ι

/-- `extract_indices`; `given`: external indices defined by the user or by the canonicalization options. -/
def extractIndices (given : Option (List ι)) (force : Bool) (e : NExpr ι) : Extracted ι :=
  let cs := usedCounts nonnull proto e
  let ext : List ι := match given with
    | some l => l
    | none => (cs.filter fun v => decide (v.2.nonproto ≤ 1) || force).map Prod.fst
  ⟨cs.map Prod.fst, ext,
    (cs.filter fun v : ι × Counters => (decide (proto v.1 ≠ []) || decide (v.2.proto ≠ 0) || decide (v.2.nonproto ≠ 2)) && decide (v.1 ∉ ext)).map Prod.fst⟩

/-- `emplace_into` unless contained. -/
def pushNew (l : List ι) (i : ι) : List ι := if i ∈ l then l else l ++ [i]

/-- `tot_indices` (388-420) into vectors: outer and inner indices. -/
def totIndices (idxs : List ι) : List ι × List ι :=
  let outer := (idxs.flatMap proto).foldl pushNew []
  let outer := (idxs.filter fun i => decide (proto i = [])).foldl pushNew outer
  (outer, idxs.filter fun i => decide (proto i ≠ []))

/-- One entry of the map in `target_indices` (eval_expr.cpp 550-558). -/
def targetStep (uncontracted : List ι) (g : Groups ι) (v : ι × Counters) : Groups ι :=
  if v.2.nonproto = 0 then g
  else if 1 < v.2.total then (if v.1 ∈ uncontracted then g.push .aux v.1 else g)
  else if v.2.bra ≠ 0 then g.push .bra v.1
  else if v.2.ket ≠ 0 then g.push .ket v.1
  else g.push .aux v.1

/-- `target_indices` (543-560). -/
def targetIndices (uncontracted : List ι) (e : NExpr ι) : Groups ι :=
  (usedCounts nonnull proto e).foldl (targetStep uncontracted) ⟨[], [], []⟩

end SeQuant.Named
