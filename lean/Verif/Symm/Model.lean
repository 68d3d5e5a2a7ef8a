import Verif.Perm.Model
import Mathlib.Algebra.Field.Basic
import Mathlib.Data.Nat.Factorial.Basic
import Mathlib.Data.Nat.Cast.Defs

/-!
# Symmetrization and antisymmetrization of arrays

Transcribes `symmetric_permutation` and `antisymmetric_permutation` (`SeQuant/core/eval/result.hpp:46-133`), `column_symmetrize_ta` and
`particle_antisymmetrize_ta` (`SeQuant/core/eval/backends/tiledarray/result.hpp:70-206`), `column_symmetrize_btas` and
`particle_antisymmetrize_btas` (`SeQuant/core/eval/backends/btas/result.hpp:34-126`), `column_symmetrize_tapp` and
`particle_antisymmetrize_tapp` (`SeQuant/core/eval/backends/tapp/result.hpp:33-142`).

Simplifications: elements belong to a field and the normalization factor is exact; tiles are left out; the inner arrays of an array of arrays
have one shape, and its elements are found with the outer indices followed by the inner ones; `std::next_permutation` is `next_permutation_parity`
without the parity.
-/

namespace SeQuant.Symm

open SeQuant.Perm

/-- An array: extents of the modes and elements. -/
structure Ten (F : Type) where
  shape : List Nat
  at_ : List Nat → F

inductive Err
  /-- `throw Exception`: odd rank. -/
  | odd
  /-- `throw Exception`: arrays of arrays with different outer and inner rank. -/
  | ranks
  /-- A failed assertion. -/
  | assertion
  /-- The backend refuses to add arrays of different shapes. -/
  | shapes
  deriving DecidableEq

variable {F : Type}

/-! ### Enumeration of permutations -/

/-- The values of `perm` that the call back of `symmetric_permutation` sees (result.hpp:127-133) when `perm` is `0, 1, ...`: `ips` refers to pairs
of entries, `operator<` (60-62) compares the first ones, `swap` (53-57) exchanges both. -/
def symmetricPermutation (n : Nat) : List (List Nat) :=
  ((enumerate (fun a b : Nat × Nat => decide (a.1 < b.1)) (n.factorial + 1) 0 ((List.range n).map fun i => (i, n + i))).getD []).map fun v =>
    v.1.map Prod.fst ++ v.1.map Prod.snd

/-- The ranges and parities that the call back of `antisymmetric_permutation` sees (result.hpp:105-117). -/
def antisymmetricPermutation (rng : List Nat) : List (List Nat × Nat) :=
  if rng.length ≤ 1 then [(rng, 0)]
  else (enumerate (fun a b => decide (a < b)) (rng.length.factorial + 1) 0 rng).getD []

/-! ### Operations of the backends -/

/-- `res(l) = a(r)`: a mode of `res` is the mode of `a` with the same label. -/
def relabel (l r : List Nat) (a : Ten F) : Ten F :=
  ⟨l.map fun i => a.shape.getD (r.idxOf i) 0, fun x => a.at_ (r.map fun i => x.getD (l.idxOf i) 0)⟩

def scale [Mul F] (c : F) (a : Ten F) : Ten F := ⟨a.shape, fun x => c * a.at_ x⟩

/-- `s += t`. -/
def addTo [Add F] (s t : Ten F) : Except Err (Ten F) :=
  if s.shape = t.shape then .ok ⟨s.shape, fun x => s.at_ x + t.at_ x⟩ else .error .shapes

def addAll [Add F] : Ten F → List (Ten F) → Except Err (Ten F)
  | s, [] => .ok s
  | s, t :: ts => match addTo s t with
    | .error e => .error e
    | .ok s' => addAll s' ts

/-- Adding to a result that is not initialized before the first term; there is always a first term. -/
def collect [Add F] : List (Ten F) → Except Err (Ten F)
  | [] => .error .assertion
  | t :: ts => addAll t ts

def zeroTen [Zero F] (shape : List Nat) : Ten F := ⟨shape, fun _ => 0⟩

/-- `parity == 0 ? 1 : -1`. -/
def signOf [One F] [Neg F] (parity : Nat) : F := if parity = 0 then 1 else -1

variable [Field F]

/-! ### TiledArray -/

/-- `column_symmetrize_ta` after the checks (tiledarray/result.hpp:100-140). -/
def symmetrizeLoopTA (n : Nat) (a : Ten F) : Except Err (Ten F) :=
  (collect ((symmetricPermutation n).map fun p => relabel (List.range (2 * n)) p a)).map (scale ((n.factorial : F)⁻¹))

/-- `column_symmetrize_ta` of an array of numbers. -/
def columnSymmetrizeTA (a : Ten F) : Except Err (Ten F) :=
  if a.shape.length % 2 ≠ 0 then .error .odd else symmetrizeLoopTA (a.shape.length / 2) a

/-- `column_symmetrize_ta` of an array of arrays: `inner` is the rank of the inner arrays, 0 if there is none (77-89). -/
def columnSymmetrizeToT (inner : Nat) (a : Ten F) : Except Err (Ten F) :=
  if inner = 0 then .ok a
  else if a.shape.length - inner ≠ inner then .error .ranks
  else symmetrizeLoopTA (a.shape.length - inner) a

/-- `process_permutations` (tiledarray/result.hpp:168-192); `other` are the labels that stay. -/
def processTA (rank : Nat) (rng other : List Nat) (isBra : Bool) (a : Ten F) : Except Err (Ten F) :=
  if rng.length ≤ 1 then .ok a
  else collect ((antisymmetricPermutation rng).map fun v =>
    scale (signOf v.2) (relabel (List.range rank) (if isBra then v.1 ++ other else other ++ v.1) a))

/-- `particle_antisymmetrize_ta` (tiledarray/result.hpp:151-206). -/
def antisymmetrizeTA (a : Ten F) (braRank : Nat) : Except Err (Ten F) :=
  let rank := a.shape.length
  if ¬ braRank ≤ rank then .error .assertion
  else
    let ketRank := rank - braRank
    if braRank ≤ 1 ∧ ketRank ≤ 1 then .ok a
    else
      let bra := List.range braRank
      let ket := List.range' braRank ketRank
      match processTA rank bra ket true a with
      | .error e => .error e
      | .ok r => (processTA rank ket bra false r).map (scale (((braRank.factorial * ketRank.factorial : Nat) : F)⁻¹))

/-! ### BTAS and TAPP -/

/-- `column_symmetrize_btas` (btas/result.hpp:34-66), `column_symmetrize_tapp` (tapp/result.hpp:33-72): `permute` labels the result. -/
def columnSymmetrizeBtas (a : Ten F) : Except Err (Ten F) :=
  let rank := a.shape.length
  if rank % 2 ≠ 0 then .error .odd
  else (addAll (zeroTen a.shape) ((symmetricPermutation (rank / 2)).map fun p => relabel p (List.range rank) a)).map
    (scale (((rank / 2).factorial : F)⁻¹))

/-- `process_permutations` (btas/result.hpp:89-110, tapp/result.hpp:105-130); `fresh` is the content of a newly constructed array, which the
version for BTAS does not set to zero. -/
def processBtas (fresh : List Nat → List Nat → F) (rank : Nat) (rng other : List Nat) (isBra : Bool) (a : Ten F) : Except Err (Ten F) :=
  if rng.length ≤ 1 then .ok a
  else addAll ⟨a.shape, fresh a.shape⟩ ((antisymmetricPermutation rng).map fun v =>
    scale (signOf v.2) (relabel (if isBra then v.1 ++ other else other ++ v.1) (List.range rank) a))

/-- `particle_antisymmetrize_btas` (btas/result.hpp:77-126). -/
def antisymmetrizeBtas (fresh : List Nat → List Nat → F) (a : Ten F) (braRank : Nat) : Except Err (Ten F) :=
  let rank := a.shape.length
  if ¬ braRank ≤ rank then .error .assertion
  else
    let ketRank := rank - braRank
    let bra := List.range braRank
    let ket := List.range' braRank ketRank
    match processBtas fresh rank bra ket true a with
    | .error e => .error e
    | .ok r => (processBtas fresh rank ket bra false r).map (scale (((braRank.factorial * ketRank.factorial : Nat) : F)⁻¹))

/-- `particle_antisymmetrize_tapp` (tapp/result.hpp:82-142): new arrays are filled with zeros. -/
def antisymmetrizeTapp (a : Ten F) (braRank : Nat) : Except Err (Ten F) := antisymmetrizeBtas (fun _ _ => 0) a braRank

end SeQuant.Symm
