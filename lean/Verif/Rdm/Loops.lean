import Mathlib.Data.List.Basic
import Mathlib.Data.List.Perm.Basic
import Mathlib.Data.List.Nodup
import Mathlib.GroupTheory.Perm.Cycle.Basic
import Mathlib.Data.Fintype.BigOperators
import Mathlib.SetTheory.Cardinal.Finite

/-!
# Model of `num_closed_loops` (domain/mbpt/antisymmetrizer.cpp:240-305)

Indices are compared by their labels only (`equal_indices`, lines 245-247), so `α` is the type of labels.  `int` counters are natural
numbers.  `checks` tells whether `SEQUANT_ASSERT` is enabled.
-/

namespace SeQuant.Rdm

/-- How a call can fail: a failed `SEQUANT_ASSERT`, an access outside of a vector (undefined behaviour), a failed `Expr::as`, an
exception thrown explicitly, or the model running out of `fuel` (the loop goes on). -/
inductive Err where
  | assertion | outOfRange | type | thrown | fuel
  deriving DecidableEq, Repr

/-- `operator[]` of a `std::vector`. -/
def at' {α : Type} (l : List α) (i : Nat) : Except Err α :=
  match l[i]? with
  | some a => .ok a
  | none => .error .outOfRange

/-- The loop of the lambda `where_same_ele` (lines 252-258) from position `i` on: the number of hits and the last hit. -/
def whereLoop {α : Type} [DecidableEq α] (x : α) : List α → Nat → Nat → Option Nat → Nat × Option Nat
  | [], _, hits, last => (hits, last)
  | a :: l, i, hits, last => if x = a then whereLoop x l (i + 1) (hits + 1) (some i) else whereLoop x l (i + 1) hits last

/-- The lambda `where_same_ele` (lines 248-262); `none` is the pair `(-1, false)`. -/
def whereSame {α : Type} [DecidableEq α] (checks : Bool) (x : α) (ref : List α) : Except Err (Option Nat) :=
  let (hits, last) := whereLoop x ref 0 0 none
  if checks && !decide (hits < 2) then .error .assertion else .ok last

/-- The loop `while (!closed)` (lines 271-294): the final value of `closed` and of `in_loop`. -/
def follow {α : Type} [DecidableEq α] (checks : Bool) (initU initL newU newL : List α) (chainEnd : α) :
    Nat → α → List α → Except Err (Bool × List α)
  | 0, _, _ => .error .fuel
  | fuel + 1, lower, inLoop =>
    if chainEnd = lower then .ok (true, inLoop)
    else do
      match ← whereSame checks lower initL with
      | none => .error .outOfRange
      | some k =>
        let u ← at' initU k
        match ← whereSame checks u newU with
        | none => .ok (false, inLoop)
        | some w => do
          let l ← at' newL w
          follow checks initU initL newU newL chainEnd fuel l (inLoop ++ [l])

/-- The body of the loop over the new pairs (lines 266-300); the state is `in_loop` and `result`. -/
def loopBody {α : Type} [DecidableEq α] (checks : Bool) (fuel : Nat) (initU initL newU newL : List α) (st : List α × Nat) (i : Nat) :
    Except Err (List α × Nat) :=
  if checks && !decide (newU.length = newL.length) then .error .assertion
  else do
    let l ← at' newL i
    match ← whereSame checks l st.1 with
    | some _ => .ok st
    | none => do
      let u ← at' newU i
      match ← whereSame checks u initU with
      | none => .error .outOfRange
      | some s => do
        let chainEnd ← at' initL s
        let (closed, inLoop) ← follow checks initU initL newU newL chainEnd fuel l st.1
        .ok (inLoop ++ [l], if closed then st.2 + 1 else st.2)

/-- `num_closed_loops` (lines 240-305). -/
def numClosedLoops {α : Type} [DecidableEq α] (checks : Bool) (fuel : Nat) (initU initL newU newL : List α) : Except Err Nat := do
  let (inLoop, result) ← (List.range newU.length).foldlM (loopBody checks fuel initU initL newU newL) ([], 0)
  if checks && !decide (inLoop.length ≤ initL.length) then .error .assertion
  else if checks && !decide (result ≤ initL.length) then .error .assertion
  else .ok result

end SeQuant.Rdm
