import Verif.Bits.Model
import Mathlib.Data.Rat.Init
import Mathlib.Data.List.Dedup
import Mathlib.Algebra.Order.Field.Rat
import Mathlib.Logic.Function.Basic

/-!
# The subset dynamic program of the single-term optimizer (C30, C31)

Transcribes `SeQuant/core/optimize/cost_model.hpp` 26-67 and 79-234 and `single_term_detail.hpp` 408-491.

Simplifications: subsets of tensors are `BitVec w` (the code: `size_t`); vectors indexed by subsets are functions; costs
are exact rationals and `numeric_limits<double>::max()` is `none`, which no cost reaches.
-/

namespace SeQuant.Optimize

open SeQuant.Bits

/-- The subset that consists of tensor `i`: `size_t{1} << i`. -/
def bit {w : Nat} (i : Nat) : BitVec w := BitVec.twoPow w i

/-! ### Connectivity -/

/-- `contractible_adjacency` (single_term_detail.hpp:408-440) for the slots `net[i]` of tensor `i`: bit `c` of entry `b` is
set if some index that is no target is carried by both.  The code collects the carriers of each index in a map first (416-429)
and then visits the bits of each carrier mask (430-438). -/
def carriers {w : Nat} {ι : Type} [DecidableEq ι] (net : List (List ι)) (targets : List ι) (ix : ι) : BitVec w :=
  (List.range net.length).foldl (fun m i => if ix ∈ net.getD i [] ∧ ix ∉ targets then m ||| bit i else m) 0

def adjacency {w : Nat} {ι : Type} [DecidableEq ι] (net : List (List ι)) (targets : List ι) (b : Nat) : BitVec w :=
  net.flatten.dedup.foldl (fun a ix =>
    let cm : BitVec w := carriers net targets ix
    if popcount cm.toNat < 2 then a else if cm.getLsbD b then a ||| (cm &&& ~~~ bit b) else a) 0

/-- The inner loop of `connected_subsets` (456-461): union of the neighbours of the bits of `f`, lowest bit first. -/
def neighbours {w : Nat} (adj : Nat → BitVec w) (f : BitVec w) : BitVec w :=
  (onBitsIndex f).foldl (fun next b => next ||| adj b) 0

/-- The breadth-first loop (455-465). -/
def bfs {w : Nat} (adj : Nat → BitVec w) (n : BitVec w) : Nat → BitVec w → BitVec w → Option (BitVec w)
  | 0, _, _ => none
  | fuel + 1, reached, frontier =>
    if frontier = 0 then some reached
    else
      let next := neighbours adj frontier &&& (n &&& ~~~ reached)
      bfs adj n fuel (reached ||| next) next

/-- One entry of `connected_subsets` (446-469). -/
def connectedSubset {w : Nat} (adj : Nat → BitVec w) (n : BitVec w) : Bool :=
  if popcount n.toNat ≤ 1 then true
  else
    let start := n &&& (~~~ n + 1)
    match bfs adj n (w + 2) start start with
    | some reached => decide (reached = n)
    | none => false

/-- `outer_product_connectivity` (480-491); `full` is the last entry of the table. -/
def outerProductConnectivity {w : Nat} (adj : Nat → BitVec w) (prune : Bool) (full : BitVec w) : BitVec w → Bool :=
  if !prune then fun _ => true
  else if !connectedSubset adj full then fun _ => true
  else connectedSubset adj

/-! ### The generic solver -/

/-- A cost model (cost_model.hpp:986-1003).  `relax` returns the new accumulator. -/
structure Model (w : Nat) (C S : Type) where
  leaf : C → BitVec w → S
  init : C → BitVec w → S
  relax : C → BitVec w → BitVec w → BitVec w → S → S → S → S
  finalize : C → BitVec w → (BitVec w → S) → C × (BitVec w → S)

section solver

variable {w : Nat} {C S : Type}

/-- The loop over bipartitions (41-43). -/
def relaxAll (m : Model w C S) (conn : BitVec w → Bool) (ctx : C) (st : BitVec w → S) (n : BitVec w) : S :=
  (bipartitions n).foldl (fun acc p =>
    if p.1 ≠ 0 ∧ p.2 ≠ 0 ∧ conn p.1 ∧ conn p.2 then m.relax ctx n p.1 p.2 (st p.1) (st p.2) acc else acc) (m.init ctx n)

/-- The body of the loop over subsets (34-46). -/
def solveStep (m : Model w C S) (conn : BitVec w → Bool) (cs : C × (BitVec w → S)) (i : Nat) : C × (BitVec w → S) :=
  let n := BitVec.ofNat w i
  if popcount n.toNat = 1 then (cs.1, Function.update cs.2 n (m.leaf cs.1 n))
  else if !conn n then cs
  else m.finalize cs.1 n (Function.update cs.2 n (relaxAll m conn cs.1 cs.2 n))

/-- `solve_single_term` (26-48): subsets `1 … 2^nt - 1`; `dflt` is the default-constructed state. -/
def solve (m : Model w C S) (conn : BitVec w → Bool) (nt : Nat) (ctx : C) (dflt : S) : C × (BitVec w → S) :=
  (List.range (2 ^ nt - 1)).foldl (fun cs i => solveStep m conn cs (i + 1)) (ctx, fun _ => dflt)

end solver

/-! ### The additive model -/

/-- `AdditiveModel::State` (92-97). -/
structure AState (w : Nat) where
  ops : Option ℚ
  lp : BitVec w
  rp : BitVec w
  subnets : List Nat

def AState.dflt {w : Nat} : AState w := ⟨none, 0, 0, []⟩

/-- The context (100-108): the canonical class of every subset and the cost of the last subset seen of each class. -/
structure AContext (w : Nat) where
  metaIds : BitVec w → Nat
  metaCosts : Nat → ℚ

/-- `new_cost <= acc.ops` where `none` is the largest number. -/
def leMax (a b : Option ℚ) : Bool :=
  match a, b with
  | _, none => true
  | none, some _ => false
  | some x, some y => decide (x ≤ y)

/-- Sums with the largest number: stay the largest number. -/
def addMax (a b : Option ℚ) : Option ℚ :=
  match a, b with
  | some x, some y => some (x + y)
  | _, _ => none

/-- `std::set_union` of sorted ranges (157-159). -/
def setUnion : List Nat → List Nat → List Nat
  | [], ys => ys
  | xs, [] => xs
  | x :: xs, y :: ys =>
    if x < y then x :: setUnion xs (y :: ys)
    else if y < x then y :: setUnion (x :: xs) ys
    else x :: setUnion xs ys
termination_by xs ys => xs.length + ys.length

/-- `std::lower_bound` and insertion (199-202). -/
def insertSorted (x : Nat) : List Nat → List Nat
  | [] => [x]
  | y :: ys => if y < x then y :: insertSorted x ys else if y = x then y :: ys else x :: y :: ys

/-- `AdditiveModel` (79-203).  `cost n lp rp` is `w * cost_fn(lp, rp, n) + fp` (142-151, 160-163, 168-171, 192-198). -/
def additive {w : Nat} (cost : BitVec w → BitVec w → BitVec w → ℚ) (cse : Bool) : Model w (AContext w) (AState w) where
  leaf _ _ := ⟨some 0, 0, 0, []⟩
  init _ _ := ⟨none, 0, 0, []⟩
  relax ctx n lp rp sl sr acc :=
    let combined := if cse then setUnion sl.subnets sr.subnets else []
    let new := if cse then combined.foldl (fun c id => addMax c (some (ctx.metaCosts id))) (some (cost n lp rp))
      else addMax (addMax (some (cost n lp rp)) sl.ops) sr.ops
    if leMax new acc.ops then ⟨new, lp, rp, if cse then combined else acc.subnets⟩ else acc
  finalize ctx n st :=
    if !cse then (ctx, st)
    else
      let mid := ctx.metaIds n
      ({ ctx with metaCosts := Function.update ctx.metaCosts mid (cost n (st n).lp (st n).rp) },
        Function.update st n { st n with subnets := insertSorted mid (st n).subnets })

/-- The body of the loop of `reconstruct` (213-231).  Reading the first element of an empty sequence (227) is undefined: `none`. -/
def reconstructStep {w : Nat} (st : BitVec w → AState w) (seq : BitVec w → List Int) (i : Nat) : Option (BitVec w → List Int) :=
  let n := BitVec.ofNat w i
  if popcount n.toNat = 1 then some (Function.update seq n [(ctz n.toNat : Int)])
  else if 2 ≤ popcount n.toNat then
    if (st n).lp = 0 ∧ (st n).rp = 0 then some seq
    else
      match seq (st n).lp, seq (st n).rp with
      | l :: ls, r :: rs =>
        some (Function.update seq n ((if l < r then (l :: ls) ++ (r :: rs) else (r :: rs) ++ (l :: ls)) ++ [-1]))
      | _, _ => none
  else some seq

/-- `reconstruct` (205-233). -/
def reconstruct {w : Nat} (st : BitVec w → AState w) (nt : Nat) : Option (List Int) :=
  ((List.range (2 ^ nt)).foldl (fun s i => s.bind fun seq => reconstructStep st seq i) (some fun _ => [])).map
    fun seq => seq (BitVec.ofNat w (2 ^ nt - 1))

/-- `run_single_term_opt` (58-67) for the additive model. -/
def runAdditive {w : Nat} (cost : BitVec w → BitVec w → BitVec w → ℚ) (cse : Bool) (ctx : AContext w) (conn : BitVec w → Bool)
    (nt : Nat) : Option (List Int) :=
  if nt = 1 then some [0]
  else if nt = 2 then some [0, 1, -1]
  else reconstruct (solve (additive cost cse) conn nt ctx AState.dflt).2 nt

end SeQuant.Optimize
