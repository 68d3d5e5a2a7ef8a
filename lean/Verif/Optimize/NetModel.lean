import Verif.Optimize.DpModel
import Mathlib.Data.Finset.Union
import Mathlib.Data.Finset.Image
import Mathlib.Data.Finset.Dedup
import Mathlib.Data.List.Count
import Mathlib.Algebra.BigOperators.Group.Finset.Basic

/-!
# Open indices of sub-networks and the costs of contractions (C30, C33)

Transcribes `SeQuant/core/utility/indices.hpp` 382-417, 767-850, 903-945 and `optimize/single_term_detail.hpp` 84-193, 370-397 and the
choice of the additive models in `optimize/single_term.hpp` 131-169.

Simplifications: an index is an element of a type with decidable equality (the code compares full labels) with given
proto-indices and extent; `container::set<Index>` is `Finset`; extents and costs are exact rationals; the assertion
that there are at most 24 tensors is left out.
-/

namespace SeQuant.Optimize

open SeQuant.Bits

section net

variable {w : Nat} {ι : Type} [DecidableEq ι]

/-- `bits::on_bits_index(i) | bits::sieve(rng)`, joined (indices.hpp:779-780): all slots of the tensors of a subset. -/
def slotsOf (net : List (List ι)) (i : BitVec w) : List ι := (onBitsIndex i).flatMap fun k => net.getD k []

/-- `subset_index_counts` (767-786): the multiplicity of an index in a subset; entry 0 and entries that are not needed stay empty. -/
def subsetCount (net : List (List ι)) (needed : BitVec w → Bool) (i : BitVec w) (ix : ι) : Nat :=
  if i = 0 then 0 else if needed i then (slotsOf net i).count ix else 0

/-- `subset_target_indices` (809-850).  `full` is the last subset; `counts.size() - i - 1` is `full - i`. -/
def subsetTargets (net : List (List ι)) (tixs : List ι) (conn : BitVec w → Bool) (i : BitVec w) : Finset ι :=
  let full : BitVec w := BitVec.ofNat w (2 ^ net.length - 1)
  let needed := fun i => conn i || conn (full - i)
  let counts := subsetCount net needed
  let leaf := if popcount i.toNat = 1 then (net.getD (ctz i.toNat) []).toFinset else ∅
  let last := if i = full then (slotsOf net i).toFinset.filter fun k => counts i k = 1 ∨ (0 < counts i k ∧ k ∈ tixs) else ∅
  let rest := if conn i then (slotsOf net i).toFinset.filter fun k => counts i k = 1 ∨ (0 < counts i k ∧ 0 < counts (full - i) k) else ∅
  leaf ∪ last ∪ rest

/-! ### Volumes -/

/-- Proto-indices, extents, and optionally the size of `k` inner indices that share a group of proto-indices (`inner_pow`). -/
structure Sizes (ι : Type) where
  protos : ι → List ι
  ext : ι → ℚ
  innerPow : Option (ι → Nat → ℚ)

/-- `tot_indices` (382-417): outer indices are all proto-indices and the indices without proto-indices. -/
def outerOf (sz : Sizes ι) (s : Finset ι) : Finset ι := (s.biUnion fun i => (sz.protos i).toFinset) ∪ s.filter fun i => sz.protos i = []

def innerOf (sz : Sizes ι) (s : Finset ι) : Finset ι := s.filter fun i => sz.protos i ≠ []

/-- `inner_aware_volume` (single_term_detail.hpp:84-99). -/
def volume (sz : Sizes ι) (s : Finset ι) : ℚ :=
  (∏ i ∈ outerOf sz s, sz.ext i) *
    match sz.innerPow with
    | some f => ∏ c ∈ innerOf sz s, f c ((innerOf sz s).filter fun o => sz.protos o = sz.protos c).card
    | none => ∏ c ∈ innerOf sz s, sz.ext c

/-- `flops_counter` (113-132). -/
def flops (sz : Sizes ι) (l r res : Finset ι) : ℚ :=
  let v := volume sz (l ∪ r ∪ res)
  if v = 1 then 0 else v

/-- `footprint_counter` (185-193). -/
def footprint (sz : Sizes ι) (s : Finset ι) : ℚ :=
  let v := volume sz s
  if v = 1 then 0 else v

/-- `memsize_counter` (146-167). -/
def memsize (sz : Sizes ι) (l r res : Finset ι) : ℚ := footprint sz l + footprint sz r + footprint sz res

/-- The objective (single_term.hpp:131-169). -/
inductive Objective
  | denseFLOPs
  | denseSize
deriving DecidableEq

/-- Cost parameters: the volatile tensors with their weight, the footprint weight, pruning of outer products. -/
structure CostParams (w : Nat) where
  volatileMask : BitVec w
  volatileWeight : ℚ
  footprintWeight : ℚ
  prune : Bool

/-- The cost that `AdditiveModel::relax` gives a contraction (cost_model.hpp:142-151, 168-171) of subsets with index sets `idx`.
`DenseSize` uses an empty volatile mask and weight 1 (single_term.hpp:87-88, 161-166). -/
def contractionCost (o : Objective) (sz : Sizes ι) (p : CostParams w) (idx : BitVec w → Finset ι) (n a b : BitVec w) : ℚ :=
  let weight := match o with
    | .denseFLOPs => if p.volatileMask &&& n ≠ 0 then p.volatileWeight else 1
    | .denseSize => 1
  let c := match o with
    | .denseFLOPs => flops sz (idx a) (idx b) (idx n)
    | .denseSize => memsize sz (idx a) (idx b) (idx n)
  weight * c + (if p.footprintWeight ≠ 0 then p.footprintWeight * footprint sz (idx n) else 0)

/-- `single_term_opt` for a network (single_term.hpp:57-170), additive objectives without sub-network reuse; no target
indices are passed on (65). -/
def singleTermSeq (w : Nat) (o : Objective) (sz : Sizes ι) (p : CostParams w) (net : List (List ι)) : Option (List Int) :=
  let full : BitVec w := BitVec.ofNat w (2 ^ net.length - 1)
  let conn := outerProductConnectivity (adjacency net []) p.prune full
  runAdditive (contractionCost o sz p (subsetTargets net [] conn)) false ⟨fun _ => 0, fun _ => 0⟩ conn net.length

/-! ### Left-to-right binarization -/

/-- The multiplicities after each tensor (indices.hpp:910-917). -/
def ltrCounts (rng : List (Finset ι)) (k : Nat) (ix : ι) : Nat := ((rng.take (k + 1)).filter fun s => ix ∈ s).length

/-- `children` of `left_to_right_binarization_indices` (921-929). -/
def ltrChildren (rng : List (Finset ι)) (uncontract : Finset ι) : List (Finset ι) :=
  rng.map fun s => s.filter fun ix => 1 < ltrCounts rng (rng.length - 1) ix ∨ ix ∈ uncontract

/-- `imed` (931-942): indices met so far that occur later or are kept. -/
def ltrImed (rng : List (Finset ι)) (uncontract : Finset ι) : List (Finset ι) :=
  (List.range rng.length).map fun k =>
    ((rng.take (k + 1)).foldr (· ∪ ·) ∅).filter fun ix => ltrCounts rng k ix < ltrCounts rng (rng.length - 1) ix ∨ ix ∈ uncontract

end net

end SeQuant.Optimize
