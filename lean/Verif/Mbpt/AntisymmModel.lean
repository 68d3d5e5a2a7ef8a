import Verif.Perm.Model

/-!
# Model of `antisymm_element` (domain/mbpt/antisymmetrizer.cpp:10-214)

Not modelled: the products and tensors that are made from the index arrangements (lines 75-113), their canonicalization and the removal of
repeated summands (lines 48-64, 114-118); the counters are natural numbers, so the overflow of `int total_swaps` (from 13 indices on) is not
seen.
-/

namespace SeQuant.Mbpt

open SeQuant.Perm

/-- The lambda `swapcounting_tracking_next_permutation` (lines 137-166): is there a next permutation, the new range, the number of
swaps; `none`: access outside of the range.  It scans like `next_permutation_parity`, so the loops of that function are used. -/
def swapNext (l : List Nat) : Option (Bool × List Nat × Nat) :=
  if l.length ≤ 1 then some (false, l, 0)
  else
    match findPivot (fun a b => decide (a < b)) l (l.length - 1) with
    | none => none
    | some (some i) =>
      match findSwap (fun a b => decide (a < b)) l i l.length with
      | none => none
      | some j =>
        match iterSwap l i j with
        | none => none
        | some l' => some (true, reverseFrom l' (i + 1), 1 + (l.length - (i + 1)) / 2)
    | some none => some (false, reverseFrom l 0, l.length / 2)

/-- `std::is_sorted`. -/
def isSorted : List Nat → Bool
  | a :: b :: l => !decide (b < a) && isSorted (b :: l)
  | _ => true

/-- The test of one group in `is_canonical_sign` (lines 183-193). -/
def groupSorted (m : List Nat) (g : Nat × Nat) : Bool := isSorted ((m.drop g.1).take (g.2 - g.1))

/-- The loop `while (do_next_perm)` (lines 176-212); the entries are a sign and the arrangement `ordered_indices[numbers[i]]`, whose
elements are `none` if read out of range.  Outer `none`: `fuel` exhausted or access outside of the range. -/
def uniqueLoop {T : Type} (groups : List (Nat × Nat)) (xs : List T) : Nat → List Nat → Nat → Option (List (Int × List (Option T)))
  | 0, _, _ => none
  | fuel + 1, numbers, total =>
    match swapNext numbers with
    | none => none
    | some (false, _, _) => some []
    | some (true, numbers', k) =>
      let rest := uniqueLoop groups xs fuel numbers' (total + k)
      if groups.all (groupSorted numbers') then
        rest.map (((if (total + k) % 2 = 0 then 1 else -1), numbers'.map (fun i => xs[i]?)) :: ·)
      else rest

/-- `gen_antisymm_unique` (lines 122-214). -/
def genUnique {T : Type} (groups : List (Nat × Nat)) (fuel : Nat) (xs : List T) : Option (List (Int × List (Option T))) :=
  (uniqueLoop groups xs fuel (List.range xs.length) 0).map ((1, xs.map some) :: ·)

/-- `index_group` as the constructor builds it (lines 14-37) from the ranks of the factors. -/
def groupsFrom (start : Nat) : List Nat → List (Nat × Nat)
  | [] => []
  | k :: ks => (start, start + k) :: groupsFrom (start + k) ks

/-- A factor of the product: a constant, or a tensor or normal operator with its indices. -/
inductive Factor (K T : Type) where
  | const (c : K)
  | tensor (bra ket : List T)

/-- The number of the ranks of tensors. -/
def Factor.rank {K T : Type} : Factor K T → Option Nat
  | .const _ => none
  | .tensor b _ => some b.length

def Factor.bras {K T : Type} : Factor K T → List T
  | .const _ => []
  | .tensor b _ => b

def Factor.kets {K T : Type} : Factor K T → List T
  | .const _ => []
  | .tensor _ k => k

/-- `starting_constant` (lines 13 and 27-28). -/
def startConst {K T : Type} [One K] [Mul K] : List (Factor K T) → K
  | [] => 1
  | .const c :: l => c * startConst l
  | .tensor _ _ :: l => startConst l

/-- The coefficients and arrangements of the summands (lines 66-73), for the product `scalar * factors`; iterating over a `Product`
visits its factors only, so `scalar` is not used.  Note `unique_kets_list[i]` and `unique_bras_list[j]` in the coefficient, but
`unique_bras_list[i]` and `unique_kets_list[j]` for the indices (lines 84-85). -/
def elementTerms {K T : Type} [One K] [Mul K] [IntCast K] (fuel : Nat) (_scalar : K) (factors : List (Factor K T)) :
    Option (List (K × List (Option T) × List (Option T))) :=
  let groups := groupsFrom 0 (factors.filterMap Factor.rank)
  match genUnique groups fuel (factors.flatMap Factor.bras), genUnique groups fuel (factors.flatMap Factor.kets) with
  | some bs, some ks =>
    some ((List.range bs.length).flatMap fun i => (List.range ks.length).map fun j =>
      ((((ks[i]?.map (·.1)).getD 0 * (bs[j]?.map (·.1)).getD 0 : Int) : K) * startConst factors,
        (bs[i]?.map (·.2)).getD [], (ks[j]?.map (·.2)).getD []))
  | _, _ => none

end SeQuant.Mbpt
