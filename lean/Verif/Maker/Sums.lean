import Mathlib.GroupTheory.Perm.DomMulAct
import Mathlib.Data.Fin.Tuple.Sort
import Mathlib.Algebra.Module.Basic
import Mathlib.Algebra.Module.Rat
import Mathlib.Algebra.BigOperators.Group.Finset.Basic
import Mathlib.Algebra.Algebra.Basic
import Mathlib.Data.Fintype.Perm
import Mathlib.Tactic.FieldSimp
import Mathlib.Tactic.Linarith
import Mathlib.Algebra.Order.BigOperators.Ring.Finset
import Mathlib.Algebra.BigOperators.GroupWithZero.Action

/-!
# Sums over all tuples and sums over ordered tuples

A function of a tuple that does not change when the tuple is permuted can be summed over ordered tuples instead of all of them.
-/

namespace SeQuant.Maker

open Finset

variable {γ : Type} [Fintype γ] [LinearOrder γ] {n : Nat}

/-- Permutations that leave a tuple unchanged. -/
def stab (x : Fin n → γ) : Nat := ∏ i : γ, (Fintype.card {a // x a = i}).factorial

theorem stab_eq (x : Fin n → γ) : stab x = (univ.filter fun g : Equiv.Perm (Fin n) => x ∘ g = x).card := by
  rw [stab, ← DomMulAct.stabilizer_card, Fintype.card_subtype]

theorem stab_pos (x : Fin n → γ) : 0 < stab x := Finset.prod_pos fun _ _ => Nat.factorial_pos _

omit [Fintype γ] in
theorem card_carry (m x : Fin n → γ) (σ : Equiv.Perm (Fin n)) (h : m ∘ σ = x) :
    (univ.filter fun g : Equiv.Perm (Fin n) => m ∘ g = x).card = (univ.filter fun g : Equiv.Perm (Fin n) => m ∘ g = m).card := by
  apply Finset.card_bij' (fun g _ => g * σ⁻¹) (fun g _ => g * σ)
  · intro g hg
    simp only [mem_filter, mem_univ, true_and] at hg ⊢
    funext i
    have := congrFun hg (σ⁻¹ i)
    rw [← h] at this
    simpa using this
  · intro g hg
    simp only [mem_filter, mem_univ, true_and] at hg ⊢
    rw [← h]
    funext i
    have := congrFun hg (σ i)
    simpa using this
  · intro g _; simp
  · intro g _; simp

/-- The tuples that are `m` when ordered, times the permutations that leave `m` unchanged. -/
theorem card_orbit (m : Fin n → γ) (hm : Monotone m) :
    (univ.filter fun x : Fin n → γ => x ∘ Tuple.sort x = m).card * stab m = n.factorial := by
  have h1 : (univ : Finset (Equiv.Perm (Fin n))).card = ∑ x ∈ univ.filter (fun x : Fin n → γ => x ∘ Tuple.sort x = m),
      (univ.filter fun g : Equiv.Perm (Fin n) => m ∘ g = x).card := by
    apply Finset.card_eq_sum_card_fiberwise
    intro g _
    simp only [coe_filter, mem_univ, true_and, Set.mem_ofPred_eq]
    rw [Tuple.comp_perm_comp_sort_eq_comp_sort]
    rw [(Tuple.sort_eq_refl_iff_monotone).2 hm]
    rfl
  rw [Finset.sum_congr rfl (g := fun _ => stab m)] at h1
  · rw [Finset.sum_const, smul_eq_mul] at h1
    rw [← h1, Finset.card_univ, Fintype.card_perm, Fintype.card_fin]
  · intro x hx
    simp only [mem_filter, mem_univ, true_and] at hx
    rw [stab_eq]
    apply card_carry m x (Tuple.sort x)⁻¹
    rw [← hx]
    funext i
    simp

/-- The sum over all tuples of a symmetric function, divided by `n!`, is the sum over ordered tuples, each divided by the number of permutations that
leave it unchanged. -/
theorem sum_symmetric {M : Type} [AddCommGroup M] [Module ℚ M] (F : (Fin n → γ) → M) (hF : ∀ x (g : Equiv.Perm (Fin n)), F (x ∘ g) = F x) :
    (1 / (n.factorial : ℚ)) • ∑ x, F x = ∑ x ∈ univ.filter (fun x : Fin n → γ => Monotone x), (1 / (stab x : ℚ)) • F x := by
  classical
  have h : ∑ x, F x = ∑ m ∈ univ.filter (fun x : Fin n → γ => Monotone x), ∑ x ∈ univ.filter (fun x : Fin n → γ => x ∘ Tuple.sort x = m), F x := by
    symm
    apply Finset.sum_fiberwise_of_maps_to
    intro x _
    simp only [mem_filter, mem_univ, true_and]
    exact Tuple.monotone_sort x
  rw [h, Finset.smul_sum]
  apply Finset.sum_congr rfl
  intro m hm
  simp only [mem_filter, mem_univ, true_and] at hm
  rw [Finset.sum_congr rfl (g := fun _ => F m)]
  · rw [Finset.sum_const]
    have hc := card_orbit m hm
    have hs := stab_pos m
    rw [← Nat.cast_smul_eq_nsmul ℚ, smul_smul]
    congr 1
    have hc' : ((univ.filter fun x : Fin n → γ => x ∘ Tuple.sort x = m).card : ℚ) * (stab m : ℚ) = (n.factorial : ℚ) := by exact_mod_cast hc
    have h1 : (stab m : ℚ) ≠ 0 := by exact_mod_cast hs.ne'
    have h2 : (n.factorial : ℚ) ≠ 0 := by exact_mod_cast (Nat.factorial_pos n).ne'
    field_simp
    linarith
  · intro x hx
    simp only [mem_filter, mem_univ, true_and] at hx
    rw [← hx, hF]

theorem stab_injective (x : Fin n → γ) (h : Function.Injective x) : stab x = 1 := by
  apply Finset.prod_eq_one
  intro i _
  have : Fintype.card {a // x a = i} ≤ 1 := Fintype.card_le_one_iff.2 fun a b => Subtype.ext (h (a.2.trans b.2.symm))
  rcases Nat.le_one_iff_eq_zero_or_eq_one.1 this with h | h <;> rw [h] <;> rfl

/-- If the function also vanishes when an entry is repeated, only strictly increasing tuples remain. -/
theorem sum_injective {M : Type} [AddCommGroup M] [Module ℚ M] (F : (Fin n → γ) → M) (hF : ∀ x (g : Equiv.Perm (Fin n)), F (x ∘ g) = F x)
    (h0 : ∀ x, ¬ Function.Injective x → F x = 0) :
    (1 / (n.factorial : ℚ)) • ∑ x, F x = ∑ x ∈ univ.filter (fun x : Fin n → γ => StrictMono x), F x := by
  rw [sum_symmetric F hF]
  symm
  apply Finset.sum_subset_zero_on_sdiff
  · intro x hx
    simp only [mem_filter, mem_univ, true_and] at hx ⊢
    exact hx.monotone
  · intro x hx
    simp only [mem_sdiff, mem_filter, mem_univ, true_and] at hx
    rw [h0 x fun hi => hx.2 (hx.1.strictMono_of_injective hi), smul_zero]
  · intro x hx
    simp only [mem_filter, mem_univ, true_and] at hx
    rw [stab_injective x hx.injective]
    simp

end SeQuant.Maker
