/-!
# Model of the bit-mask enumerations of `SeQuant/core/algorithm.hpp`, namespace `bits`

Unsigned integers of `w` bits are `BitVec w`, so `p - 1` wraps around exactly as in C++.
-/

namespace SeQuant.Bits

/-- `std::popcount`, by the usual recursion on the binary digits. -/
def popcount (n : Nat) : Nat :=
  if n = 0 then 0 else n % 2 + popcount (n / 2)
decreasing_by omega

/-- The update of the captured variable `p` in the lambda of `bipartitions_ordered`:
`p = (p - 1) & mask` (algorithm.hpp:185). -/
def step {w : Nat} (mask p : BitVec w) : BitVec w := (p - 1) &&& mask

/-- The successive values `p_` seen by `n` invocations of the mutable lambda, started at `p`
(algorithm.hpp:183-187). -/
def run {w : Nat} (mask : BitVec w) : Nat → BitVec w → List (BitVec w)
  | 0, _ => []
  | n + 1, p => p :: run mask n (step mask p)

/-- `bits::bipartitions_ordered` (algorithm.hpp:178-188).  `size_t{1} << popcount` is modelled by `2 ^ popcount`,
i.e. fewer than 64 bits are assumed to be set (otherwise the C++ shift is undefined). -/
def bipartitionsOrdered {w : Nat} (mask : BitVec w) : List (BitVec w × BitVec w) :=
  (run mask (2 ^ popcount mask.toNat) mask).map fun p => (p ^^^ mask, p)

/-- `bits::bipartitions_unordered` and its alias `bits::bipartitions` (algorithm.hpp:201-215). -/
def bipartitions {w : Nat} (mask : BitVec w) : List (BitVec w × BitVec w) :=
  let bps := bipartitionsOrdered mask
  bps.take (bps.length / 2)

/-- `bits::subsets_ascending`, also `bits::subsets` (algorithm.hpp:223-225, 243-245). -/
def subsetsAscending {w : Nat} (mask : BitVec w) : List (BitVec w) :=
  (bipartitionsOrdered mask).map Prod.fst

/-- `bits::subsets_descending` (algorithm.hpp:233-235). -/
def subsetsDescending {w : Nat} (mask : BitVec w) : List (BitVec w) :=
  (bipartitionsOrdered mask).map Prod.snd

/-- `std::countr_zero` of a nonzero number (`countr_zero(0)` is never evaluated by `on_bits_index`). -/
def ctz (n : Nat) : Nat :=
  if n = 0 then 0 else if n % 2 = 1 then 0 else ctz (n / 2) + 1
decreasing_by omega

/-- `n` invocations of the lambda of `bits::on_bits_index`: emit the index of the lowest set bit, then clear it
with `m &= (m - 1)` (algorithm.hpp:255-259). -/
def onBitsRun {w : Nat} : Nat → BitVec w → List Nat
  | 0, _ => []
  | n + 1, m => ctz m.toNat :: onBitsRun n (m &&& (m - 1))

/-- `bits::on_bits_index` (algorithm.hpp:252-260). -/
def onBitsIndex {w : Nat} (mask : BitVec w) : List Nat :=
  onBitsRun (popcount mask.toNat) mask

/-- `bits::sieve` applied to a list of positions (algorithm.hpp:270-275); dereferencing past the end is undefined
behaviour in C++ and `none` here. -/
def sieve {α : Type} (rng : List α) (idx : List Nat) : Option (List α) :=
  idx.mapM fun i => rng[i]?

end SeQuant.Bits
