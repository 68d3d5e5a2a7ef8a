/-!
# Shared counters and singletons (C129)

Transcription of `fetch_and_increment` (core/utility/atomic.hpp:13-25) and of `Singleton` (core/utility/singleton.hpp:58-67, 88-102, 121-127) as programs of
arbitrarily many threads whose steps are interleaved in any order.

Simplified: memory is sequentially consistent; a counter holds the numbers below `M` and wraps around; constructors of singletons do not fail and instances
are numbered in the order of their construction; all singletons are default-constructible.
-/

namespace SeQuant.Conc

/-- A function with another value at one place. -/
def upd {α : Type} (f : Nat → α) (t : Nat) (a : α) : Nat → α := fun u => if u = t then a else f u

/-! ## Counters -/

/-- A thread is outside of the function or has a local `value` and an `increment`. -/
inductive Pc where
  | out
  | loop (value inc : Nat)
  deriving DecidableEq, Repr

/-- The atomic, the threads, and what calls returned together with their increments, the last one first. -/
structure St where
  mem : Nat
  pc : Nat → Pc
  ret : List (Nat × Nat)

/-- A call of thread `t` with its `atomic.load()` (line 15), and a `compare_exchange_weak` (line 21), which may fail without reason. -/
inductive Ev where
  | load (t inc : Nat)
  | cas (t : Nat) (spurious : Bool)
  deriving DecidableEq, Repr

/-- One step (atomic.hpp:14-25); failed exchanges load the current value. -/
def step (M : Nat) (s : St) : Ev → Option St
  | .load t inc => match s.pc t with
    | .out => some { s with pc := upd s.pc t (.loop s.mem inc) }
    | .loop _ _ => none
  | .cas t sp => match s.pc t with
    | .out => none
    | .loop v inc =>
      if s.mem = v ∧ sp = false then some ⟨(v + inc) % M, upd s.pc t .out, (v, inc) :: s.ret⟩
      else some { s with pc := upd s.pc t (.loop s.mem inc) }

/-- Executions. -/
def run (M : Nat) : St → List Ev → Option St
  | s, [] => some s
  | s, e :: es => (step M s e).bind fun s => run M s es

/-- At the beginning nobody has called. -/
def start (v : Nat) : St := ⟨v, fun _ => .out, []⟩

/-! ## Singletons -/

/-- Where a thread is: outside; in `set_default_instance` before the lock (line 122), after it, after the test (line 123); in `set_instance` likewise
(lines 94-99). -/
inductive Spc where
  | out
  | want
  | locked
  | making
  | setLocked
  | setMaking
  deriving DecidableEq, Repr

/-- The pointer, the number of constructed instances, the owner of the mutex, the threads, and the instances returned by calls. -/
structure Sing where
  ptr : Option Nat
  made : Nat
  lock : Option Nat
  pc : Nat → Spc
  ret : List Nat

/-- The steps of a thread. -/
inductive SEv where
  | read (t : Nat)
  | lock (t : Nat)
  | test (t : Nat)
  | make (t : Nat)
  | setLock (t : Nat)
  | setTest (t : Nat)
  | setMake (t : Nat)
  deriving DecidableEq, Repr

/-- Construct the instance, release the mutex and return the instance. -/
def construct (s : Sing) (t : Nat) : Sing := ⟨some s.made, s.made + 1, none, upd s.pc t .out, s.made :: s.ret⟩

/-- One step: `instance` (58-67), `set_default_instance` (121-127), `set_instance` (88-102; the exception leaves the function and releases the mutex). -/
def sstep (s : Sing) : SEv → Option Sing
  | .read t => if s.pc t = .out then
      match s.ptr with
      | some p => some { s with ret := p :: s.ret }
      | none => some { s with pc := upd s.pc t .want }
    else none
  | .lock t => if s.pc t = .want ∧ s.lock = none then some { s with lock := some t, pc := upd s.pc t .locked } else none
  | .test t => if s.pc t = .locked then
      match s.ptr with
      | some p => some { s with lock := none, pc := upd s.pc t .out, ret := p :: s.ret }
      | none => some { s with pc := upd s.pc t .making }
    else none
  | .make t => if s.pc t = .making then some (construct s t) else none
  | .setLock t => if s.pc t = .out ∧ s.lock = none then some { s with lock := some t, pc := upd s.pc t .setLocked } else none
  | .setTest t => if s.pc t = .setLocked then
      match s.ptr with
      | some _ => some { s with lock := none, pc := upd s.pc t .out }
      | none => some { s with pc := upd s.pc t .setMaking }
    else none
  | .setMake t => if s.pc t = .setMaking then some (construct s t) else none

/-- Executions. -/
def srun : Sing → List SEv → Option Sing
  | s, [] => some s
  | s, e :: es => (sstep s e).bind fun s => srun s es

/-- At the beginning there is no instance. -/
def fresh : Sing := ⟨none, 0, none, fun _ => .out, []⟩

end SeQuant.Conc
