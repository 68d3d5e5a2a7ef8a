import Mathlib.Order.Defs.LinearOrder
import Mathlib.Order.Nat

/-!
# Memoization shared by threads

Transcribes `detail::memoize` (`SeQuant/core/utility/memoize.hpp:25-53`) as a machine: each thread calls `memoize` once and then uses the reference that
it got; steps of the threads interleave in any order.  `container::map` is `boost::container::flat_map` (`SeQuant/core/container.hpp:33`), a sorted
vector: an insertion moves the elements behind it, and, if the capacity is used up, moves all to another block of memory.

Simplifications: what happens while the mutex is locked is one step; a thread that calls `memoize` several times is several threads that run one after the
other; memory of a freed block is never reused.
-/

namespace SeQuant.Memo

variable {K V : Type} [LinearOrder K]

/-- A pointer into the vector: an iterator or a reference.  `epoch` is the number of insertions before it was obtained; the code has no such thing, it serves
to tell stale pointers in theorems. -/
structure Ptr where
  block : Nat
  pos : Nat
  epoch : Nat
  deriving DecidableEq

/-- Where a thread is. -/
inductive Pc (V : Type)
  /-- Before the call. -/
  | start
  /-- In `cv.wait` (line 37) with the iterator `it`; `asleep`: in the waiting set of the condition variable, otherwise about to lock the mutex and look again. -/
  | wait (it : Ptr) (asleep : Bool)
  /-- Before line 42. -/
  | compute
  /-- Before line 45, with the result. -/
  | store (v : V)
  /-- After the call, before the use of the reference. -/
  | hold (ref : Ptr)
  /-- What the use of the reference gave. -/
  | read (v : V)
  /-- `compute_fn` threw an exception. -/
  | thrown
  /-- Undefined behavior: access through an invalid pointer or to an empty optional. -/
  | ub
  deriving DecidableEq

structure St (K V : Type) where
  items : List (K × Option V)
  /-- The block of memory. -/
  block : Nat
  capacity : Nat
  pc : Nat → Pc V
  /-- The number of insertions so far (see `Ptr`). -/
  epoch : Nat
  /-- How often `compute_fn` was called for a key (no part of the code either). -/
  runs : K → Nat

/-- `fn` is what `compute_fn` gives for a key (nothing: an exception), `grow` the growth of the vector, `key` the key of each thread. -/
structure Sys (K V : Type) where
  fn : K → Option V
  grow : Nat → Nat
  key : Nat → K

def St.init : St K V := ⟨[], 0, 0, fun _ => .start, 0, fun _ => 0⟩

/-- The element a pointer points to; nothing if the block is not in use any more or there is no such element. -/
def St.deref (s : St K V) (p : Ptr) : Option (K × Option V) := if p.block = s.block then s.items[p.pos]? else none

/-- `lower_bound`. -/
def lowerBound (items : List (K × Option V)) (k : K) : Nat := (items.takeWhile fun e => decide (e.1 < k)).length

/-- The position of a key. -/
def position (items : List (K × Option V)) (k : K) : Option Nat :=
  match items[lowerBound items k]? with
  | some e => if e.1 = k then some (lowerBound items k) else none
  | none => none

def setPc (f : Nat → Pc V) (t : Nat) (p : Pc V) : Nat → Pc V := fun u => if u = t then p else f u

/-- Insertion of an element before the first one with a larger key. -/
def St.insert (S : Sys K V) (s : St K V) (k : K) (v : Option V) : St K V :=
  if s.items.length < s.capacity then
    { s with items := s.items.insertIdx (lowerBound s.items k) (k, v), epoch := s.epoch + 1 }
  else { s with items := s.items.insertIdx (lowerBound s.items k) (k, v), epoch := s.epoch + 1, block := s.block + 1, capacity := S.grow s.capacity }

/-- A pointer to the element at a position. -/
def St.ptr (s : St K V) (i : Nat) : Ptr := ⟨s.block, i, s.epoch⟩

/-- `notify_all`. -/
def wake : Pc V → Pc V
  | .wait it _ => .wait it false
  | p => p

/-- Evaluation of `it->second.has_value()` and what follows (37-38). -/
def look (s : St K V) (it : Ptr) : Pc V := match s.deref it with
  | none => .ub
  | some (_, some _) => .hold it
  | some (_, none) => .wait it true

/-- The use of the reference. -/
def use (s : St K V) (ref : Ptr) : Pc V := match s.deref ref with
  | some (_, some v) => .read v
  | _ => .ub

/-- Lines 44-49: `cache[key] = ...` inserts if there is no such key. -/
def St.fill (S : Sys K V) (s : St K V) (k : K) (v : V) : St K V := match position s.items k with
  | some i => { s with items := s.items.set i (k, some v) }
  | none => s.insert S k (some v)

/-- The next step of thread `t`; nothing if it cannot go on.  With `spurious` a sleeping thread wakes up for no reason. -/
def step (S : Sys K V) (s : St K V) (t : Nat) (spurious : Bool) : Option (St K V) :=
  match s.pc t with
  | .start => match position s.items (S.key t) with
    | none => let s' := s.insert S (S.key t) none
              some { s' with pc := setPc s.pc t .compute }
    | some i => some { s with pc := setPc s.pc t (look s (s.ptr i)) }
  | .wait it true => if spurious then some { s with pc := setPc s.pc t (.wait it false) } else none
  | .wait it false => some { s with pc := setPc s.pc t (look s it) }
  | .compute =>
    let s' := { s with runs := fun k => if k = S.key t then s.runs k + 1 else s.runs k }
    match S.fn (S.key t) with
    | some v => some { s' with pc := setPc s.pc t (.store v) }
    | none => some { s' with pc := setPc s.pc t .thrown }
  | .store v =>
    let s' := s.fill S (S.key t) v
    some { s' with pc := setPc (fun u => wake (s.pc u)) t (match position s'.items (S.key t) with
      | some i => .hold (s'.ptr i)
      | none => .ub) }
  | .hold ref => some { s with pc := setPc s.pc t (use s ref) }
  | .read _ => none
  | .thrown => none
  | .ub => none

/-- Executions. -/
def run (S : Sys K V) : List (Nat × Bool) → St K V → Option (St K V)
  | [], s => some s
  | (t, b) :: as, s => match step S s t b with
    | none => none
    | some s' => run S as s'

/-- States that some execution reaches. -/
def Reachable (S : Sys K V) (s : St K V) : Prop := ∃ as, run S as .init = some s

end SeQuant.Memo
