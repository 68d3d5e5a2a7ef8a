import Verif.Index.Model

/-!
# Generation of temporary indices

Transcribes `Index::next_tmp_index`, `Index::make_tmp_index`, `Index::reset_tmp_index` and `IndexFactory::make`, compiled with
`SEQUANT_INDEX_THREADSAFE` (index.hpp:45), as the atomic steps of any number of threads.  One factory is modelled.  `std::map` is
represented by the partial function it stands for; keys are the same if neither is less.
-/

namespace SeQuant.Indices

open SeQuant.Spaces

variable {Key : Type} [LinearOrder Key]

/-- Where a thread is in `IndexFactory::make` (index.hpp:1127-1147, 1156-1177). -/
inductive PC (Key : Type) where
  /-- not in `make` -/
  | idle
  /-- about to evaluate `counters_.begin()` (1131) -/
  | enter (s : Space Key)
  /-- about to take the lock and find or insert the counter (1132-1142) -/
  | wait (s : Space Key)
  /-- holds an iterator to the counter (1143) -/
  | found (s : Space Key)
  /-- has constructed the index, about to validate it (1144) -/
  | built (s : Space Key) (n : BitVec 64)

structure GenSt (Key : Type) where
  /-- `tmp_index_accessor()` (100-105) -/
  tmp : BitVec 64
  /-- `counters_` (1186) -/
  counters : Space Key → Option (BitVec 64)
  pc : Nat → PC Key
  /-- the space and ordinal of every index returned by `make_tmp_index` so far, latest first -/
  tmpOut : List (Space Key × BitVec 64)
  /-- the space and ordinal of every index returned by `make` so far, latest first -/
  facOut : List (Space Key × BitVec 64)

inductive Act (Key : Type) where
  | tmp (s : Space Key)
  | reset (m : BitVec 64)
  | call (s : Space Key)
  | begin_
  | find
  | incr
  | accept
  | reject

def GenSt.setPc (st : GenSt Key) (t : Nat) (p : PC Key) : GenSt Key := { st with pc := fun u => if u = t then p else st.pc u }

/-- Assignment of one entry of the map. -/
def setCounter (c : Space Key → Option (BitVec 64)) (s : Space Key) (v : BitVec 64) : Space Key → Option (BitVec 64) :=
  fun s' => if s'.cmp s = .eq then some v else c s'

/-- One atomic step of thread `t`; `min` is `min_index_`.  Steps that are not possible change nothing. -/
def genStep (min : BitVec 64) (st : GenSt Key) (t : Nat) : Act Key → GenSt Key
  -- `next_tmp_index` (794-796) and the rest of `make_tmp_index` (490-522)
  | .tmp s => { st with tmp := st.tmp + 1, tmpOut := (s, st.tmp + 1) :: st.tmpOut }
  -- `reset_tmp_index` (index.cpp:19-21), `m` is `min_tmp_index()` at that time
  | .reset m => { st with tmp := m - 1 }
  | .call s =>
    match st.pc t with
    | .idle => st.setPc t (.enter s)
    | _ => st
  | .begin_ =>
    match st.pc t with
    | .enter s => st.setPc t (.wait s)
    | _ => st
  | .find =>
    match st.pc t with
    | .wait s =>
      match st.counters s with
      | some _ => st.setPc t (.found s)
      | none => { st.setPc t (.found s) with counters := setCounter st.counters s (min - 1) }
    | _ => st
  | .incr =>
    match st.pc t with
    | .found s =>
      match st.counters s with
      | some v => { st.setPc t (.built s (v + 1)) with counters := setCounter st.counters s (v + 1) }
      | none => st
    | _ => st
  | .accept =>
    match st.pc t with
    | .built s n => { st.setPc t .idle with facOut := (s, n) :: st.facOut }
    | _ => st
  | .reject =>
    match st.pc t with
    | .built s _ => st.setPc t (.enter s)
    | _ => st

/-- A schedule is a sequence of steps, each by some thread. -/
def genRun (min : BitVec 64) (st : GenSt Key) (sched : List (Nat × Act Key)) : GenSt Key :=
  sched.foldl (fun st e => genStep min st e.1 e.2) st

/-- Before the first call: the counter of temporary indices starts below `min_tmp_index()`. -/
def genInit (tmp0 : BitVec 64) : GenSt Key := ⟨tmp0 - 1, fun _ => none, fun _ => .idle, [], []⟩

end SeQuant.Indices
