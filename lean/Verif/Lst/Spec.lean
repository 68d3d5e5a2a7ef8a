import Mathlib.Algebra.BigOperators.Intervals
import Mathlib.Algebra.Algebra.Defs
import Mathlib.Algebra.Algebra.Basic
import Mathlib.Algebra.CharZero.Defs
import Mathlib.Data.Nat.Factorial.Basic
import Mathlib.Data.Nat.Choose.Sum
import Mathlib.Algebra.BigOperators.GroupWithZero.Action
import Mathlib.Algebra.Algebra.Bilinear
import Mathlib.Tactic.FieldSimp
import Mathlib.Tactic.Abel

/-!
# Specification: nested commutators and the terms of `e^(-B) A e^B`
-/

namespace SeQuant.Lst

open Finset

variable {K R : Type} [Field K] [Ring R] [Algebra K R]

/-- The commutator with `b`. -/
def ad (b x : R) : R := x * b - b * x

/-- The series up to order `n` for one step `D`: `Σ_{k ≤ n} (1/k!) D^k(a)`. -/
def series (K : Type) {R : Type} [Field K] [Ring R] [Algebra K R] (D : R → R) (n : Nat) (a : R) : R :=
  ∑ k ∈ range (n + 1), ((k.factorial : K)⁻¹) • D^[k] a

/-- The part of `e^(-b) a e^b` that is of order `k` in `b`. -/
def order (K : Type) {R : Type} [Field K] [Ring R] [Algebra K R] (b a : R) (k : Nat) : R :=
  ∑ ij ∈ antidiagonal k, ((ij.1.factorial : K)⁻¹ * (ij.2.factorial : K)⁻¹) • ((-b) ^ ij.1 * a * b ^ ij.2)

/-- The exponential series up to order `n` (exclusive). -/
def expTo (K : Type) {R : Type} [Field K] [Ring R] [Algebra K R] (b : R) (n : Nat) : R :=
  ∑ i ∈ range n, ((i.factorial : K)⁻¹) • b ^ i

/-- One step of the transformation: the commutator with `b`, with `b - bd` if `unitary`, and in the connected form `x b` (plus
`bd x`) instead of the commutator. -/
def stepD (unitary connected : Bool) (b bd x : R) : R :=
  match unitary, connected with
  | false, false => ad b x
  | true, false => ad (b - bd) x
  | false, true => x * b
  | true, true => x * b + bd * x

theorem mulLeft_pow_apply (b a : R) (i : Nat) : ((LinearMap.mulLeft K b) ^ i) a = b ^ i * a := by
  rw [LinearMap.pow_mulLeft, LinearMap.mulLeft_apply]

theorem mulRight_pow_apply (b a : R) (i : Nat) : ((LinearMap.mulRight K b) ^ i) a = a * b ^ i := by
  rw [LinearMap.pow_mulRight, LinearMap.mulRight_apply]

/-- The nested commutators are the homogeneous parts of `e^(-b) a e^b`. -/
theorem ad_pow [CharZero K] (b a : R) (k : Nat) : ((k.factorial : K)⁻¹) • (ad b)^[k] a = order K b a k := by
  have hD : ∀ m, (ad b)^[m] a = ((LinearMap.mulLeft K (-b) + LinearMap.mulRight K b : R →ₗ[K] R) ^ m) a := by
    intro m
    induction m with
    | zero => simp
    | succ m ih =>
      rw [Function.iterate_succ_apply', ih, pow_succ', Module.End.mul_apply]
      simp only [ad, LinearMap.add_apply, LinearMap.mulLeft_apply, LinearMap.mulRight_apply, neg_mul]
      abel
  have hc : Commute (LinearMap.mulLeft K (-b)) (LinearMap.mulRight K b) := LinearMap.commute_mulLeft_right (R := K) (-b) b
  rw [hD k, hc.add_pow', LinearMap.sum_apply, Finset.smul_sum, order]
  refine Finset.sum_congr rfl ?_
  rintro ⟨i, j⟩ hij
  rw [mem_antidiagonal] at hij
  subst hij
  rw [LinearMap.smul_apply, Module.End.mul_apply, mulRight_pow_apply, mulLeft_pow_apply, ← mul_assoc, ← Nat.cast_smul_eq_nsmul K,
    smul_smul]
  congr 1
  have h := Nat.add_choose_mul_factorial_mul_factorial i j
  have h' : ((i + j).choose i : K) * (i.factorial : K) * (j.factorial : K) = ((i + j).factorial : K) := by
    rw [Nat.choose_symm_add]; exact_mod_cast h
  have h1 : (i.factorial : K) ≠ 0 := by exact_mod_cast Nat.factorial_ne_zero i
  have h2 : (j.factorial : K) ≠ 0 := by exact_mod_cast Nat.factorial_ne_zero j
  have h3 : ((i + j).factorial : K) ≠ 0 := by exact_mod_cast Nat.factorial_ne_zero (i + j)
  field_simp
  rw [← h']

/-- If `b` is nilpotent, the series is the similarity transformation itself. -/
theorem series_exp [CharZero K] (b a : R) (m n : Nat) (hb : b ^ m = 0) (hn : 2 * m ≤ n + 2) :
    series K (ad b) n a = expTo K (-b) m * a * expTo K b m := by
  have hz : ∀ i, m ≤ i → b ^ i = 0 := fun i hi => pow_eq_zero_of_le hi hb
  have hz' : ∀ i, m ≤ i → (-b) ^ i = 0 := fun i hi => by rw [neg_pow, hz i hi, mul_zero]
  have h1 : series K (ad b) n a = ∑ k ∈ range (n + 1), order K b a k := Finset.sum_congr rfl fun k _ => ad_pow b a k
  have h2 : expTo K (-b) m * a * expTo K b m =
      ∑ ij ∈ range m ×ˢ range m, ((ij.1.factorial : K)⁻¹ * (ij.2.factorial : K)⁻¹) • ((-b) ^ ij.1 * a * b ^ ij.2) := by
    rw [expTo, expTo, Finset.sum_mul, Finset.sum_mul_sum, Finset.sum_product]
    refine Finset.sum_congr rfl fun i _ => Finset.sum_congr rfl fun j _ => ?_
    rw [smul_mul_assoc, smul_mul_assoc, mul_smul_comm, smul_smul]
  rw [h1, h2]
  simp only [order]
  rw [Finset.sum_sigma']
  symm
  refine Finset.sum_bij_ne_zero (fun (ij : Nat × Nat) _ _ => (⟨ij.1 + ij.2, ij⟩ : Σ _ : Nat, Nat × Nat)) ?_ ?_ ?_ ?_
  · rintro ⟨i, j⟩ h _
    simp only [mem_product, mem_range] at h
    simp only [mem_sigma, mem_range, mem_antidiagonal, and_true]
    omega
  · rintro ⟨i, j⟩ _ _ ⟨i', j'⟩ _ _ h
    simp only [Sigma.mk.injEq, heq_eq_eq] at h
    exact h.2
  · rintro ⟨k, i, j⟩ h hne
    simp only [mem_sigma, mem_range, mem_antidiagonal] at h
    obtain ⟨hk, rfl⟩ := h
    have hi : i < m := by
      by_contra hc
      exact hne (by simp [hz' i (by omega)])
    have hj : j < m := by
      by_contra hc
      exact hne (by simp [hz j (by omega)])
    exact ⟨(i, j), by simp [hi, hj], hne, rfl⟩
  · rintro ⟨i, j⟩ _ _; rfl

end SeQuant.Lst
