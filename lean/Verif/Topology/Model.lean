import Verif.Wick.ConnectModel
import Mathlib.Data.List.Sort
import Mathlib.Data.Rat.Defs
import Mathlib.Data.Nat.Factorial.Basic

/-!
# Model of the topological reduction of the Wick engine
(`SeQuant/core/wick.hpp:429-500`, `923-955`, `1007-1032`, `1289-1474`, `SeQuant/core/wick.impl.hpp:971-1118`)

Operators are their ordinals in the input (`op_to_input_ordinal_`, wick.hpp:1272), so a `NormalOperatorSequence` is a list of
lists of numbers.  The topological equivalence of *normal operators* is switched off in the code
(`use_nop_symmetry = false`, wick.hpp:1299) and is left out; so is the old-code comparison (`test_vs_old_code = false`).
-/

namespace SeQuant.Topology

open SeQuant.Wick

/-! ### `set_op_partitions` (wick.hpp:426-484) -/

/-- The partitions of the operators of an input: `op_partitions_` (sorted sets of ordinals) and `op_partition_idx_` (1-based). -/
structure Parts where
  parts : List (List Nat)
  idx : List Nat
  deriving DecidableEq, Repr

/-- `container::set::emplace` for numbers kept in increasing order. -/
def emplace (x : Nat) : List Nat → List Nat
  | [] => [x]
  | y :: l => if x < y then x :: y :: l else if x = y then y :: l else y :: emplace x l

/-- `op_partitions_[partition_idx].emplace(idx)` for every member (wick.hpp:440-445). -/
def toSet (l : List Nat) : List Nat := l.foldl (fun s x => emplace x s) []

/-- `*(x.begin())`; sets are not empty (asserted at wick.hpp:430-432). -/
def front (l : List Nat) : Nat := l.headD 0

/-- `ranges::is_sorted` with the comparison of the first members (wick.hpp:446-449). -/
def isSortedParts : List (List Nat) → Bool
  | [] => true
  | [_] => true
  | x :: y :: l => !(decide (front y < front x)) && isSortedParts (y :: l)

/-- The inner loop (wick.hpp:457-462); `none` = an assertion fails (ordinal out of range, or already in a partition). -/
def fillOne (n k : Nat) : List Nat → List Nat → Option (List Nat)
  | [], idx => some idx
  | x :: l, idx => if x < n ∧ idx.getD x 0 = 0 then fillOne n k l (idx.set x (k + 1)) else none

/-- The loop over the partitions (wick.hpp:455-463), `k` = index of the first of them. -/
def fillIdx (n : Nat) : Nat → List (List Nat) → List Nat → Option (List Nat)
  | _, [], idx => some idx
  | k, p :: ps, idx => (fillOne n k p idx).bind (fillIdx n (k + 1) ps)

/-- The ordinals that are in no partition (wick.hpp:467-472). -/
def missing (n : Nat) (idx : List Nat) : List Nat := (List.range n).filter fun x => decide (idx.getD x 0 = 0)

/-- The `while (!done)` loop (wick.hpp:451-481). -/
def partLoop (n : Nat) : Nat → List (List Nat) → Option Parts
  | 0, _ => none
  | fuel + 1, ps =>
    (fillIdx n 0 ps (List.replicate n 0)).bind fun idx =>
      if idx.contains 0 then
        partLoop n fuel ((ps ++ (missing n idx).map fun x => [x]).insertionSort fun x y => front x ≤ front y)
      else some ⟨ps, idx⟩

/-- `set_op_partitions` (wick.hpp:426-484) for an input with `n` operators. The loop runs at most twice. -/
def setOpPartitions (n : Nat) (input : List (List Nat)) : Option Parts :=
  if input.any List.isEmpty then none
  else
    let ps := input.map toSet
    if isSortedParts ps then partLoop n 3 ps else none

/-- `make_default_op_partitions` (wick.hpp:494-500). -/
def defaultPartitions (n : Nat) : Option Parts := setOpPartitions n ((List.range n).map fun x => [x])

/-- Number of partitions, `op_npartitions_`. -/
def Parts.num (P : Parts) : Nat := P.parts.length

/-- `op_partition_idx_[ord] - 1`. -/
def Parts.part (P : Parts) (x : Nat) : Nat := P.idx.getD x 0 - 1

/-- `op_partition.find(ord) - op_partition.begin()` (wick.hpp:1345-1347, 1380-1382). -/
def Parts.pord (P : Parts) (x : Nat) : Nat := (P.parts.getD (P.part x) []).idxOf x

/-! ### The bookkeeping -/

/-- `op_partition_cdeg_matrix` (packed upper triangle) and `op_partition_ncontractions`. -/
structure TState where
  cdeg : Nat → Nat
  ncontr : Nat → Nat

/-- `init_topological_partitions`, second half (wick.hpp:945-954). -/
def TState.init : TState := ⟨fun _ => 0, fun _ => 0⟩

/-- `update_op_metadata` of `connect` (wick.hpp:1007-1032) for a contraction of `o` with `r`. -/
def TState.connect (P : Parts) (o r : Nat) (s : TState) : TState :=
  let i := uptriIdx (P.part o) (P.part r) P.num
  let nc := upd s.ncontr (P.part o) (s.ncontr (P.part o) + 1)
  ⟨upd s.cdeg i (s.cdeg i + 1), upd nc (P.part r) (nc (P.part r) + 1)⟩

/-- `is_topologically_unique` (wick.hpp:1294-1435) with `use_topology_`. -/
def isUnique (P : Parts) (full : Bool) (s : TState) (o r : Nat) : Bool :=
  let lp := P.part o
  let rp := P.part r
  let past := rp + 1
  let u1 := if !full then decide (s.ncontr lp = P.pord o) else true
  let u2 := if u1 ∧ past < P.num then
      !((List.range (P.num - past)).any fun k => decide (s.cdeg (uptriIdx lp past P.num + k) > 0))
    else u1
  if u2 then decide (s.ncontr rp = P.pord r) else false

/-- The body of the loop of `op_permutational_degeneracy` for one partition (wick.hpp:1446-1471); `none` = the sanity check fails. -/
def degStep (P : Parts) (full : Bool) (s : TState) (i : Nat) (result : Rat) : Option Rat :=
  let size := (P.parts.getD i []).length
  if size > 1 then
    let result := result * (Nat.factorial size : Rat)
    let result := (List.range' (i + 1) (P.num - (i + 1))).foldl (fun res j =>
      let n := s.cdeg (uptriIdx i j P.num)
      if n > 1 then res / (Nat.factorial n : Rat) else res) result
    let noncontr := size - s.ncontr i
    if !full ∨ noncontr = 0 then
      some (if noncontr > 1 then result / (Nat.factorial noncontr : Rat) else result)
    else none
  else some result

/-- `op_permutational_degeneracy` (wick.hpp:1440-1474). -/
def degeneracy (P : Parts) (full : Bool) (s : TState) : Option Rat :=
  (List.range P.num).foldl (fun res i => res.bind (degStep P full s i)) (some 1)

/-- A produced summand: topological weight, phase, contractions. -/
abbrev WTerm := Option Rat × Int × List (Nat × Nat)

/-- `recursive_nontensor_wick` with `full_contractions_` and `use_topology_` (wick.hpp:1244-1647), see `Wick.wickFull`; no
connectivity constraints.  The undo by `disconnect` (C44) is implicit. -/
def wickTopo (S : Statistics) (isQpAnn : Nat → Bool) (canContract : Nat → Nat → Bool) (P : Parts) :
    Nat → TState → List (List Nat) → List WTerm
  | 0, _, _ => []
  | _ + 1, _, [] => []
  | fuel + 1, s, [] :: nops => wickTopo S isQpAnn canContract P fuel s nops
  | fuel + 1, s, (o :: rest) :: others =>
    if !isQpAnn o then []
    else
      (picks others).flatMap fun p =>
        if canContract o p.2.1 && isUnique P true s o p.2.1 then
          let ph := phase S (rest.length + p.1)
          let nops' := rest :: p.2.2
          let s' := s.connect P o p.2.1
          if opsize nops' = 0 then [(degeneracy P true s', ph, [(o, p.2.1)])]
          else (wickTopo S isQpAnn canContract P fuel s' nops').map fun t => (t.1, ph * t.2.1, (o, p.2.1) :: t.2.2)
        else []

/-- `compute_nontensor_wick` (wick.hpp:1180-1238) for full contractions. -/
def topoTerms (S : Statistics) (isQpAnn : Nat → Bool) (canContract : Nat → Nat → Bool) (P : Parts) (nops : List (List Nat)) :
    List WTerm :=
  wickTopo S isQpAnn canContract P (wickFuel nops) TState.init nops

/-! ### The partitions found from graph automorphisms (wick.impl.hpp:971-1118) -/

/-- `vertex_to_partition_idx` with `next_partition_idx + 1`. -/
structure UnionState where
  idx : List (Nat × Nat)
  next : Nat
  deriving DecidableEq, Repr

/-- One vertex under one automorphism: `v1` and its image `v2` get the same partition index (wick.impl.hpp:1003-1040). -/
def unite (v1 v2 : Nat) (s : UnionState) : UnionState :=
  match s.idx.lookup v1, s.idx.lookup v2 with
  | some p1, some p2 =>
    if p1 ≠ p2 then
      ⟨s.idx.map fun v => if v.2 = p1 ∨ v.2 = p2 then (v.1, min p1 p2) else v, s.next⟩
    else s
  | some p1, none => ⟨s.idx ++ [(v2, p1)], s.next⟩
  | none, some p2 => ⟨s.idx ++ [(v1, p2)], s.next⟩
  | none, none => ⟨s.idx ++ [(v1, s.next), (v2, s.next)], s.next + 1⟩

/-- The loop over the generators and the vertices (wick.impl.hpp:980-1043).  Generators that move none of the vertices are skipped by
the code; for them the loop over the vertices has no effect. -/
def uniteAll (exclude : Nat → Nat → Bool) (vertices : List Nat) (auts : List (Nat → Nat)) (s : UnionState) : UnionState :=
  auts.foldl (fun s aut => vertices.foldl (fun s v =>
    if aut v ≠ v ∧ !exclude v (aut v) then unite v (aut v) s else s) s) s

/-- `compute_partitions` with `nontrivial_partitions_only = false` (wick.impl.hpp:971-1055). -/
def computePartitions (exclude : Nat → Nat → Bool) (vertices : List Nat) (auts : List (Nat → Nat)) : UnionState :=
  vertices.foldl (fun s v =>
    if (s.idx.lookup v).isNone then ⟨s.idx ++ [(v, s.next)], s.next + 1⟩ else s)
    (uniteAll exclude vertices auts ⟨[], 0⟩)

/-- `extract_partitions` (wick.impl.hpp:1075-1118): `ord` maps vertices to ordinals of operators. -/
def extractPartitions (s : UnionState) (ord : Nat → Nat) : List (List Nat) :=
  (((List.range (s.next + 1)).map fun p => ((s.idx.filter fun v => decide (v.2 = p)).map fun v => ord v.1).insertionSort (· ≤ ·)).filter
    fun l => !l.isEmpty).insertionSort fun x y => front x ≤ front y

end SeQuant.Topology
