import Verif.Symm.Model
import Mathlib.Data.Matrix.Mul
import Mathlib.Data.Fintype.Basic
import Mathlib.Data.Finset.Card
import Mathlib.Order.Fin.Basic
import Mathlib.Data.Rat.Defs
import Mathlib.Data.Rat.Cast.Defs
import Mathlib.Logic.Equiv.Fin.Basic
import Mathlib.Algebra.Group.End

/-!
# Coefficients of biorthogonalization and projection onto the space that the overlap keeps

Transcribes `hardcoded_biorthogonalizer_row`, `make_hardcoded_biorthogonalizer_matrix`, `permutational_overlap_matrix`, `compute_nns_p_coeffs`
and `compute_permuted_indices` (`SeQuant/domain/mbpt/biorthogonalization.cpp:64-164, 195-238, 692-718`), `hardcoded_nns_projector`,
`nns_projection_weights` and `biorthogonal_nns_project_ta`, `_btas`, `_tapp` (`SeQuant/domain/mbpt/biorthogonalization.hpp:149-475`).

Simplifications: numbers are exact; the pseudoinverse of Eigen (biorthogonalization.cpp:247-263) is a parameter; the caches are left out; libperm,
which is not part of the repository, is modelled by the algorithm that the comments of the code name (Myrvold and Ruskey, `unrank1`), and `Lib`
leaves open how it reads the sequence of numbers and in what order it multiplies.
-/

namespace SeQuant.Biorth

open Equiv (Perm swap)

/-! ### Permutations (libperm) -/

/-- The loop of `unrank1`: the entries `k - 1` and `r mod k` of the sequence change places, `r` becomes `r / k`. -/
def unrankAux {n : Nat} : (k : Nat) → k ≤ n → Nat → Perm (Fin n) → Perm (Fin n)
  | 0, _, _, p => p
  | k + 1, h, r, p => unrankAux k (Nat.le_of_succ_le h) (r / (k + 1))
      (p * swap ⟨k, h⟩ ⟨r % (k + 1), Nat.lt_of_lt_of_le (Nat.mod_lt _ (Nat.succ_pos k)) h⟩)

/-- `unrank1`: the sequence is `0, 1, ...` at first. -/
def unrank (r n : Nat) : Perm (Fin n) := unrankAux n (Nat.le_refl n) r 1

/-- The loop of `rank1`: the entry `k - 1` is the digit, then the values `k - 1` and that digit change places. -/
def rankAux {n : Nat} : (k : Nat) → k ≤ n → Perm (Fin n) → Nat
  | 0, _, _ => 0
  | k + 1, h, p => p ⟨k, h⟩ + (k + 1) * rankAux k (Nat.le_of_succ_le h) (swap ⟨k, h⟩ (p ⟨k, h⟩) * p)

def rank {n : Nat} (p : Perm (Fin n)) : Nat := rankAux n (Nat.le_refl n) p

/-- What the code does not say about libperm. -/
structure Lib where
  /-- The sequence lists preimages, not images. -/
  preimages : Bool
  /-- The product applies its left factor first. -/
  leftFirst : Bool
  deriving DecidableEq

namespace Lib

variable {n : Nat}

/-- `perm::unrank`. -/
def unrank (L : Lib) (r n : Nat) : Perm (Fin n) := if L.preimages then (Biorth.unrank r n)⁻¹ else Biorth.unrank r n

/-- `perm::rank`. -/
def rank (L : Lib) (p : Perm (Fin n)) : Nat := Biorth.rank (if L.preimages then p⁻¹ else p)

/-- `q->preMultiply(p)`, `p->postMultiply(q)`. -/
def mul (L : Lib) (p q : Perm (Fin n)) : Perm (Fin n) := if L.leftFirst then q * p else p * q

end Lib

/-- The number of cycles, `toDisjointCycles(n_particles)`: elements that are the least of their cycle. -/
def cycles {n : Nat} (p : Perm (Fin n)) : Nat := (Finset.univ.filter fun i : Fin n => ∀ k ∈ List.range n, i ≤ p^[k] i).card

/-! ### Overlap -/

/-- `permutational_overlap_matrix` (biorthogonalization.cpp:195-238): the diagonal, then the entries above it, which are copied below it, then the
sign. -/
def overlap (L : Lib) (n : Nat) : Matrix (Fin n.factorial) (Fin n.factorial) ℚ := fun row col =>
  (if n % 2 ≠ 0 then -1 else 1) *
    (if row = col then (-2) ^ n
     else (-2) ^ cycles (L.mul (L.unrank (max row col : Fin _) n) (L.unrank (min row col : Fin _) n)⁻¹))

/-! ### Hardcoded coefficients -/

/-- The numerators and denominators in `hardcoded_biorthogonalizer_row` (biorthogonalization.cpp:64-138); nothing for an exception. -/
def rowTable : Nat → Option (List (Int × Nat))
  | 1 => some [(1, 2)]
  | 2 => some [(1, 3), (1, 6)]
  | 3 => some [(17, 120), (-7, 120), (-1, 120), (-1, 120), (-1, 120), (-7, 120)]
  | 4 => some [(43, 840), (-19, 1680), (-19, 1680), (-1, 105), (-19, 1680), (-19, 1680), (13, 840), (1, 120), (-1, 105), (1, 120),
    (-1, 105), (-19, 1680), (-1, 105), (1, 120), (1, 120), (13, 840), (-1, 105), (-1, 105), (1, 120), (-19, 1680),
    (-19, 1680), (13, 840), (-19, 1680), (1, 120)]
  | 5 => some [(59, 3780), (-5, 3024), (-5, 3024), (-5, 3024), (-31, 7560), (-5, 3024), (-5, 3024), (-23, 30240), (19, 7560), (37, 15120),
    (-5, 3024), (-23, 30240), (-5, 3024), (19, 7560), (37, 15120), (-31, 7560), (37, 15120), (37, 15120), (-31, 7560), (-5, 3024),
    (-5, 3024), (-23, 30240), (-23, 30240), (-23, 30240), (-13, 7560), (-5, 3024), (-5, 3024), (19, 7560), (-23, 30240), (37, 15120),
    (19, 7560), (-23, 30240), (19, 7560), (-23, 30240), (-13, 7560), (37, 15120), (-13, 7560), (-13, 7560), (37, 15120), (-23, 30240),
    (-31, 7560), (-13, 7560), (37, 15120), (37, 15120), (19, 7560), (37, 15120), (37, 15120), (-13, 7560), (-13, 7560), (-23, 30240),
    (-31, 7560), (37, 15120), (-31, 7560), (37, 15120), (-5, 3024), (-5, 3024), (-23, 30240), (19, 7560), (-5, 3024), (37, 15120),
    (-31, 7560), (37, 15120), (37, 15120), (-13, 7560), (19, 7560), (37, 15120), (37, 15120), (-13, 7560), (-13, 7560), (-23, 30240),
    (37, 15120), (-13, 7560), (37, 15120), (-13, 7560), (-23, 30240), (19, 7560), (-23, 30240), (-23, 30240), (19, 7560), (-13, 7560),
    (-31, 7560), (37, 15120), (-13, 7560), (37, 15120), (19, 7560), (-31, 7560), (-31, 7560), (37, 15120), (37, 15120), (-5, 3024),
    (37, 15120), (-13, 7560), (37, 15120), (-13, 7560), (-23, 30240), (-5, 3024), (19, 7560), (-23, 30240), (-5, 3024), (37, 15120),
    (-5, 3024), (-23, 30240), (-23, 30240), (-23, 30240), (-13, 7560), (19, 7560), (19, 7560), (-23, 30240), (-23, 30240), (-13, 7560),
    (-5, 3024), (19, 7560), (-5, 3024), (-23, 30240), (37, 15120), (37, 15120), (-13, 7560), (-13, 7560), (37, 15120), (-23, 30240)]
  | _ => none

/-- `ratio(a, b)` or `T(a) / T(b)`. -/
def quot (F : Type) [Field F] (x : Int × Nat) : F := (x.1 : F) / (x.2 : F)

/-- `hardcoded_biorthogonalizer_row`. -/
def biorthRow (n : Nat) : Option (List ℚ) := (rowTable n).map (List.map (quot ℚ))

/-- `make_hardcoded_biorthogonalizer_matrix` (140-158): the size is that of the row. -/
def makeMatrix (L : Lib) (row : List ℚ) (n : Nat) : Matrix (Fin row.length) (Fin row.length) ℚ := fun r c =>
  row.getD (L.rank (L.mul (L.unrank (row.length - 1 - r) n) (L.unrank c n))) 0

/-- `hardcoded_biorthogonalizer_matrix` (160-164). -/
def hardMatrix (L : Lib) (n : Nat) : Option ((N : Nat) × Matrix (Fin N) (Fin N) ℚ) :=
  (biorthRow n).map fun row => ⟨row.length, makeMatrix L row n⟩

/-! ### Weights of the projection -/

/-- The numerators and denominators in `hardcoded_nns_projector` (biorthogonalization.hpp:149-207). -/
def nnsTable : Nat → Option (List (Int × Nat))
  | 1 => some [(1, 1)]
  | 2 => some [(0, 1), (1, 1)]
  | 3 => some [(-1, 5), (-1, 5), (-1, 5), (-1, 5), (-1, 5), (1, 1)]
  | 4 => some [(1, 7), (1, 7), (1, 7), (-1, 14), (1, 7), (1, 7), (1, 7), (-1, 14), (-1, 14), (-1, 14), (1, 7), (-2, 7),
    (-1, 14), (1, 7), (-1, 14), (-2, 7), (1, 7), (-1, 14), (-1, 14), (-2, 7), (-2, 7), (-2, 7), (-2, 7), (1, 1)]
  | 5 => some [(-1, 14), (-1, 14), (-1, 14), (-1, 14), (2, 21), (-1, 14), (-1, 14), (-1, 14), (-1, 14), (2, 21), (-1, 14), (-1, 14),
    (-1, 14), (-1, 14), (2, 21), (2, 21), (2, 21), (2, 21), (-1, 21), (0, 1), (-1, 14), (-1, 14), (-1, 14), (-1, 14),
    (2, 21), (-1, 14), (-1, 14), (-1, 14), (-1, 14), (2, 21), (-1, 14), (-1, 14), (-1, 14), (-1, 14), (2, 21), (2, 21),
    (2, 21), (2, 21), (-1, 21), (0, 1), (2, 21), (2, 21), (-1, 21), (2, 21), (0, 1), (2, 21), (2, 21), (-1, 21),
    (2, 21), (0, 1), (-1, 21), (-1, 21), (-1, 21), (-1, 21), (1, 7), (0, 1), (0, 1), (1, 7), (1, 7), (-1, 3),
    (2, 21), (-1, 21), (2, 21), (2, 21), (0, 1), (-1, 21), (-1, 21), (-1, 21), (-1, 21), (1, 7), (2, 21), (-1, 21),
    (2, 21), (2, 21), (0, 1), (0, 1), (1, 7), (0, 1), (1, 7), (-1, 3), (-1, 21), (-1, 21), (-1, 21), (-1, 21),
    (1, 7), (-1, 21), (2, 21), (2, 21), (2, 21), (0, 1), (-1, 21), (2, 21), (2, 21), (2, 21), (0, 1), (1, 7),
    (0, 1), (0, 1), (1, 7), (-1, 3), (0, 1), (1, 7), (1, 7), (0, 1), (-1, 3), (1, 7), (0, 1), (1, 7),
    (0, 1), (-1, 3), (1, 7), (1, 7), (0, 1), (0, 1), (-1, 3), (-1, 3), (-1, 3), (-1, 3), (-1, 3), (1, 1)]
  | _ => none

/-- `compute_nns_p_coeffs` (biorthogonalization.cpp:692-706); `pinv` is what `compute_biorthogonalizer_matrix` gives. -/
def computeWeights (L : Lib) (n : Nat) (pinv : Matrix (Fin n.factorial) (Fin n.factorial) ℚ) : List ℚ :=
  List.ofFn fun i => (overlap L n * pinv) ⟨n.factorial - 1, Nat.sub_lt (Nat.factorial_pos n) Nat.one_pos⟩ i

/-- `nns_projection_weights` (biorthogonalization.hpp:218-255). -/
def weights (F : Type) [Field F] (L : Lib) (n : Nat) (pinv : Matrix (Fin n.factorial) (Fin n.factorial) ℚ) : List F :=
  if n < 3 then []
  else match (if n ≤ 5 then nnsTable n else none) with
    | some t => t.map (quot F)
    | none => (computeWeights L n pinv).map Rat.cast

/-- `compute_permuted_indices` (biorthogonalization.cpp:708-718). -/
def permutedIndices (L : Lib) (indices : List Nat) (r n : Nat) : List Nat :=
  List.ofFn fun i : Fin n => indices.getD (L.unrank r n i) 0

open SeQuant.Symm

/-- `biorthogonal_nns_project_ta`, `_btas`, `_tapp` (biorthogonalization.hpp:268-322, 342-398, 417-475); `permute(arr, annot, temp, perm)` labels
the modes of `arr` with `annot` and those of `temp` with `perm`. -/
def nnsProject {F : Type} [Field F] (L : Lib) (pinv : (n : Nat) → Matrix (Fin n.factorial) (Fin n.factorial) ℚ) (a : Ten F) (braRank : Nat) :
    Except Err (Ten F) :=
  let rank := a.shape.length
  if ¬ braRank ≤ rank then .error .assertion
  else
    let ketRank := rank - braRank
    if rank ≤ 4 then .ok a
    else
      let w := weights F L ketRank (pinv ketRank)
      if 2 < ketRank ∧ w ≠ [] then
        collect ((List.range w.length).map fun r => scale (w.getD r 0)
          (relabel (List.range rank) (List.range braRank ++ permutedIndices L (List.range' braRank ketRank) r ketRank) a))
      else .ok a

end SeQuant.Biorth
