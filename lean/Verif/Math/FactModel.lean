/-!
# Memoized factorials and powers of two (C37)

Transcribes `pow2` and `factorial` of `SeQuant/core/math.hpp`.

Any number of threads call `factorial`; the shared state is the pointer `memvals` and the mutex.  A step is one load, one store, one locking or
one `emplace_back`; steps of different threads interleave arbitrarily (sequential consistency, as loads and stores of the pointer use the
default memory order).  `sequant::intmax_t` has unlimited precision.  Initialization of the static variables is not modelled.
-/

namespace SeQuant.Arith

/-- `pow2` (math.hpp:16-19): `none` if the assertion fails. -/
def pow2 (n : Nat) : Option (BitVec 64) :=
  if n ≤ 63 then some ((1 : BitVec 64) <<< n) else none

/-- `values` (33-53). -/
def values : List Nat :=
  [1, 1, 2, 6, 24, 120, 720, 5040, 40320, 362880, 3628800, 39916800, 479001600, 6227020800, 87178291200, 1307674368000, 20922789888000,
    355687428096000, 6402373705728000, 121645100408832000, 2432902008176640000]

/-- Where a thread is. -/
inductive Loc where
  /-- outside of the function -/
  | idle
  /-- called with `n` (29) -/
  | entry (n : Nat)
  /-- after the first load (78) -/
  | loaded (n : Nat) (handle : Option (List Nat))
  /-- waiting for the mutex (82) -/
  | waiting (n : Nat)
  /-- holding the mutex -/
  | locked (n : Nat)
  /-- after the second load (85) -/
  | reloaded (n : Nat) (handle : Option (List Nat))
  /-- in the loop (94) with the new vector -/
  | extending (n : Nat) (new : List Nat)
  /-- after the store (98), still holding the mutex -/
  | stored (n : Nat) (new : List Nat)
  /-- returned `r`; if the mutex was held it was released by the destructor of `lock` -/
  | done (n : Nat) (r : Nat)
deriving DecidableEq

/-- All threads, the vector `memvals` points to, and the owner of the mutex. -/
structure FState where
  loc : Nat → Loc
  memvals : Option (List Nat)
  owner : Option Nat

def FState.set (s : FState) (t : Nat) (l : Loc) : FState :=
  { s with loc := fun u => if u = t then l else s.loc u }

/-- `handle && handle->size() > n_in_memvals` (79, 86) and the entry. -/
def hit (handle : Option (List Nat)) (k : Nat) : Option Nat :=
  match handle with
  | none => none
  | some v => if v.length > k then some (v.getD k 0) else none

/-- The element appended in round `i` (96-97). -/
def nextVal (v : List Nat) : Nat :=
  (if v.length = 0 then values.getD 20 0 else v.getLastD 0) * (v.length + 20 + 1)

/-- One step of thread `t`; `none` if it cannot move. -/
def stepF (s : FState) (t : Nat) : Option FState :=
  match s.loc t with
  | .idle => none
  | .done _ _ => none
  | .entry n =>
    if n ≤ 20 then some (s.set t (.done n (values.getD n 0)))
    else some (s.set t (.loaded n s.memvals))
  | .loaded n h =>
    match hit h (n - 20 - 1) with
    | some r => some (s.set t (.done n r))
    | none => some (s.set t (.waiting n))
  | .waiting n =>
    if s.owner = none then some { s.set t (.locked n) with owner := some t } else none
  | .locked n => some (s.set t (.reloaded n s.memvals))
  | .reloaded n h =>
    match hit h (n - 20 - 1) with
    | some r => some { s.set t (.done n r) with owner := none }
    | none => some (s.set t (.extending n (h.getD [])))
  | .extending n v =>
    if v.length ≤ n - 20 - 1 then some (s.set t (.extending n (v ++ [nextVal v])))
    else some { s.set t (.stored n v) with memvals := some v }
  | .stored n v => some { s.set t (.done n (v.getD (n - 20 - 1) 0)) with owner := none }

/-- Events: thread `t` calls `factorial(n)` or proceeds. -/
inductive FEvent where
  | call (t n : Nat)
  | run (t : Nat)

/-- A call is possible when the thread is outside of the function. -/
def eventF (s : FState) : FEvent → Option FState
  | .call t n =>
    match s.loc t with
    | .idle => some (s.set t (.entry n))
    | .done _ _ => some (s.set t (.entry n))
    | _ => none
  | .run t => stepF s t

/-- The state at program start. -/
def initF : FState := ⟨fun _ => .idle, none, none⟩

/-- The state after a history. -/
def runF : FState → List FEvent → Option FState
  | s, [] => some s
  | s, e :: es =>
    match eventF s e with
    | none => none
    | some s' => runF s' es

end SeQuant.Arith
