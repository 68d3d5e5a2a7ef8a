import Verif.Symm.Props
import Mathlib.Data.Fin.VecNotation
import Mathlib.Data.Rat.Cast.CharZero
import Mathlib.Algebra.Order.Ring.Unbundled.Rat
import Mathlib.Algebra.Field.Rat

/-!
# Examples (C81)
-/

namespace SeQuant.Symm

/-- Extents 2, 2, 3, 3; the element at `a b c d` is `abcd` read as a number. -/
def sample : Ten Rat := ⟨[2, 2, 3, 3], fun x => (x.foldl (fun v d => 10 * v + d) 0 : Nat)⟩

def peek (r : Except Err (Ten Rat)) (x : List Nat) : Option Rat := match r with
  | .ok t => some (t.at_ x)
  | .error _ => none

def failure (r : Except Err (Ten Rat)) : Option Err := match r with
  | .ok _ => none
  | .error e => some e

theorem sample_uniform : Uniform sample 2 2 := ⟨2, 3, rfl⟩

example : symmetricPermutation 3 = [[0, 1, 2, 3, 4, 5], [0, 2, 1, 3, 5, 4], [1, 0, 2, 4, 3, 5], [1, 2, 0, 4, 5, 3], [2, 0, 1, 5, 3, 4],
    [2, 1, 0, 5, 4, 3]] := by decide
example : antisymmetricPermutation [3, 4, 5] = [([3, 4, 5], 0), ([3, 5, 4], 1), ([4, 3, 5], 1), ([4, 5, 3], 0), ([5, 3, 4], 0), ([5, 4, 3], 1)] := by
  decide

example : ∃ r, columnSymmetrizeTA sample = .ok r ∧ SymOf sample r 2 := ((columnSymmetrizeTA_spec sample).2 2 rfl).2 sample_uniform
example : ∃ r, antisymmetrizeTA sample 2 = .ok r ∧ AntiOf sample r 2 2 := (antisymmetrizeTA_spec sample).2 2 2 sample_uniform

-- the mean of 0112 and 1021
example : peek (columnSymmetrizeTA sample) [0, 1, 1, 2] = some (1133 / 2) ∧ peek (columnSymmetrizeBtas sample) [0, 1, 1, 2] = some (1133 / 2) ∧
    peek (columnSymmetrizeToT 2 sample) [0, 1, 1, 2] = some (1133 / 2) := by decide +kernel

/-- Extents 2, 2, 2, 3: the particles cannot be exchanged; with 1 in the bra the ket cannot be permuted, with 3 all is well. -/
def skewed : Ten Rat := ⟨[2, 2, 2, 3], fun _ => 1⟩

example : ¬ Uniform skewed 2 2 := by
  rintro ⟨p, q, h⟩
  simp [skewed, List.replicate] at h
  omega
example : failure (columnSymmetrizeTA skewed) = some .shapes ∧ failure (columnSymmetrizeBtas skewed) = some .shapes ∧
    failure (antisymmetrizeTA skewed 1) = some .shapes ∧ failure (antisymmetrizeTA skewed 3) = none ∧ failure (antisymmetrizeTA skewed 5) = some .assertion ∧
    failure (columnSymmetrizeTA ⟨[2, 2, 2], fun _ => 1⟩) = some .odd ∧ failure (columnSymmetrizeToT 1 skewed) = some .ranks := by decide +kernel

/-- An element that depends on all indices in such a way that the antisymmetrized array does not vanish. -/
def sample3 : Ten Rat := ⟨[3, 3, 3, 2], fun x => match x with
  | [a, b, _, d] => (b * a * a + d : Nat)
  | _ => 0⟩

example : peek (antisymmetrizeTA sample3 3) [0, 1, 2, 1] = some (-1 / 3) ∧ peek (antisymmetrizeTA sample3 3) [1, 0, 2, 1] = some (1 / 3) ∧
    peek (antisymmetrizeTapp sample3 3) [0, 1, 2, 1] = some (-1 / 3) ∧ peek (antisymmetrizeTapp sample3 3) [1, 2, 0, 1] = some (-1 / 3) := by decide +kernel

/-- The version for BTAS adds to an array that is constructed from a range and not filled; unless the constructor of BTAS sets the elements to
zero, the result is wrong. -/
theorem antisymmetrizeBtas_fresh : ∃ (fresh : List Nat → List Nat → Rat) (a : Ten Rat), Uniform a 3 1 ∧
    ∀ r, antisymmetrizeBtas fresh a 3 = .ok r → ¬ AntiOf a r 3 1 := by
  refine ⟨fun _ _ => 1, sample3, ⟨3, 2, rfl⟩, fun r hr h => ?_⟩
  obtain ⟨r', e', h'⟩ := (antisymmetrizeTapp_spec sample3).2 3 1 ⟨3, 2, rfl⟩
  have e : el r ![0, 1, 2] ![1] = el r' ![0, 1, 2] ![1] := by rw [h.2, h'.2]
  have e1 : peek (antisymmetrizeBtas (fun _ _ => 1) sample3 3) [0, 1, 2, 1] ≠ peek (antisymmetrizeTapp sample3 3) [0, 1, 2, 1] := by decide +kernel
  rw [hr, e'] at e1
  apply e1
  simpa [peek, el] using e

end SeQuant.Symm
