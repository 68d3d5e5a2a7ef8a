import Verif.Biorth.Pinv
import Mathlib.GroupTheory.Perm.Cycle.Type
import Mathlib.Data.Setoid.Basic
import Mathlib.SetTheory.Cardinal.Finite
import Mathlib.Data.Set.Card
import Mathlib.Tactic.Ring

/-!
# The overlap as a sum over spins
-/

namespace SeQuant.Biorth

open Equiv (Perm)

variable {n : Nat}

/-- The classes are the fixed points and the cycles. -/
theorem cycles_cycleType (p : Perm (Fin n)) : cycles p + p.support.card = n + Multiset.card p.cycleType := by
  let φ : Fin n → Fin n ⊕ Perm (Fin n) := fun x => if p x = x then .inl x else .inr (p.cycleOf x)
  have hφ : ∀ x y, φ x = φ y ↔ p.SameCycle x y := by
    intro x y
    simp only [φ]
    by_cases hx : p x = x <;> by_cases hy : p y = y
    · rw [if_pos hx, if_pos hy, Sum.inl.injEq]
      exact ⟨fun e => e ▸ Equiv.Perm.SameCycle.refl _ _, fun h => h.eq_of_left hx⟩
    · rw [if_pos hx, if_neg hy]
      exact ⟨fun e => absurd e (by simp), fun h => absurd (h.apply_eq_self_iff.1 hx) hy⟩
    · rw [if_neg hx, if_pos hy]
      exact ⟨fun e => absurd e (by simp), fun h => absurd (h.apply_eq_self_iff.2 hy) hx⟩
    · rw [if_neg hx, if_neg hy, Sum.inr.injEq,
        Equiv.Perm.sameCycle_iff_cycleOf_eq_of_mem_support (Equiv.Perm.mem_support.2 hx) (Equiv.Perm.mem_support.2 hy)]
  have hker : Equiv.Perm.SameCycle.setoid p = Setoid.ker φ := Setoid.ext fun x y => (hφ x y).symm
  have hrange : Set.range φ = ((Finset.univ \ p.support).map ⟨Sum.inl, Sum.inl_injective⟩ ∪ p.cycleFactorsFinset.map ⟨Sum.inr, Sum.inr_injective⟩ :
      Finset (Fin n ⊕ Perm (Fin n))) := by
    ext z
    simp only [Set.mem_range, Finset.coe_union, Set.mem_union, Finset.mem_coe, Finset.mem_map, Finset.mem_sdiff, Finset.mem_univ, true_and,
      Function.Embedding.coeFn_mk, Equiv.Perm.notMem_support]
    constructor
    · rintro ⟨x, rfl⟩
      simp only [φ]
      by_cases hx : p x = x
      · rw [if_pos hx]; exact .inl ⟨x, hx, rfl⟩
      · rw [if_neg hx]
        exact .inr ⟨_, Equiv.Perm.cycleOf_mem_cycleFactorsFinset_iff.2 (Equiv.Perm.mem_support.2 hx), rfl⟩
    · rintro (⟨x, hx, rfl⟩ | ⟨c, hc, rfl⟩)
      · exact ⟨x, if_pos hx⟩
      · obtain ⟨x, hx, -⟩ := (Equiv.Perm.mem_cycleFactorsFinset_iff.1 hc).1
        have hs := Equiv.Perm.mem_support.2 hx
        have e := Equiv.Perm.cycle_is_cycleOf hs hc
        have hp : p x ≠ x := by
          have := Equiv.Perm.mem_cycleFactorsFinset_support_le hc hs
          exact Equiv.Perm.mem_support.1 this
        exact ⟨x, by simp only [φ]; rw [if_neg hp, e]⟩
  have hcard : cycles p = (Finset.univ \ p.support).card + p.cycleFactorsFinset.card := by
    rw [cycles_eq, hker, Nat.card_congr (Setoid.quotientKerEquivRange φ), hrange, Nat.card_coe_set_eq, Set.ncard_coe_finset, Finset.card_union_of_disjoint,
      Finset.card_map, Finset.card_map]
    rw [Finset.disjoint_left]
    intro z h1 h2
    obtain ⟨x, -, rfl⟩ := Finset.mem_map.1 h1
    obtain ⟨c, -, e⟩ := Finset.mem_map.1 h2
    exact absurd e (by simp)
  have hct : Multiset.card p.cycleType = p.cycleFactorsFinset.card := by
    rw [Equiv.Perm.cycleType_def, Multiset.card_map]; rfl
  rw [hcard, hct, Finset.card_sdiff_of_subset (Finset.subset_univ _), Finset.card_univ, Fintype.card_fin]
  have := Finset.card_le_univ p.support
  rw [Fintype.card_fin] at this
  omega

/-- The distributions of spins that a permutation keeps. -/
theorem card_spins (p : Perm (Fin n)) : Nat.card {s : Fin n → Bool // s ∘ p = s} = 2 ^ cycles p := by
  have hinv : ∀ s : Fin n → Bool, s ∘ p = s → ∀ x y, p.SameCycle x y → s x = s y := by
    intro s hs x y h
    obtain ⟨k, rfl⟩ := h.exists_nat_pow_eq
    clear h
    induction k with
    | zero => rfl
    | succ k ih =>
      rw [ih, pow_succ', Equiv.Perm.mul_apply]
      exact (congrFun hs _).symm
  let e : {s : Fin n → Bool // s ∘ p = s} ≃ (Quotient (Equiv.Perm.SameCycle.setoid p) → Bool) :=
    { toFun := fun s q => Quotient.lift s.1 (fun x y h => hinv s.1 s.2 x y h) q
      invFun := fun f => ⟨fun x => f (Quotient.mk _ x), funext fun x => congrArg f (Quotient.sound (Equiv.Perm.sameCycle_apply_left.2 (Equiv.Perm.SameCycle.refl p x)))⟩
      left_inv := fun s => rfl
      right_inv := fun f => funext fun q => Quotient.inductionOn q fun _ => rfl }
  rw [Nat.card_congr e, Nat.card_fun, ← cycles_eq]
  simp

/-- **C82** The overlap is the sum over the spins of the particles that the permutation keeps, with the sign of the permutation. -/
theorem ov_spins (p : Perm (Fin n)) : ov p = ((Equiv.Perm.sign p : ℤ) : ℚ) * (Nat.card {s : Fin n → Bool // s ∘ p = s} : ℚ) := by
  rw [card_spins, Equiv.Perm.sign_of_cycleType, Equiv.Perm.sum_cycleType]
  have h := cycles_cycleType p
  have e : (-1 : ℚ) ^ (p.support.card + Multiset.card p.cycleType) = (-1) ^ n * (-1) ^ cycles p := by
    have h2 : p.support.card + Multiset.card p.cycleType + 2 * cycles p + 2 * p.support.card = n + cycles p + 2 * (Multiset.card p.cycleType + p.support.card) := by omega
    have h3 := congrArg (fun k => (-1 : ℚ) ^ k) h2
    simp only [pow_add, pow_mul, neg_one_sq, one_pow, mul_one] at h3
    rw [pow_add, h3]
  push_cast
  rw [e]
  unfold ov
  rw [neg_pow (2 : ℚ)]
  ring

end SeQuant.Biorth
