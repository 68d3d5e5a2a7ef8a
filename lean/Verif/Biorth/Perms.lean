import Verif.Biorth.Model
import Mathlib.GroupTheory.Perm.Cycle.Basic
import Mathlib.GroupTheory.Perm.Cycle.Factors
import Mathlib.Data.Fintype.Quotient
import Mathlib.SetTheory.Cardinal.Finite

/-!
# Numbering of permutations and their cycles

`unrank` and `rank` are inverse to each other for every number of particles; `cycles` counts the orbits, thus it is the same for a permutation,
its inverse and its conjugates.
-/

namespace SeQuant.Biorth

open Equiv (Perm swap)

variable {n : Nat}

theorem unrankAux_mul : ∀ (k : Nat) (h : k ≤ n) (r : Nat) (p : Perm (Fin n)), unrankAux k h r p = p * unrankAux k h r 1
  | 0, _, _, p => (mul_one p).symm
  | k + 1, h, r, p => by
      rw [unrankAux, unrankAux, unrankAux_mul k _ _ (p * _), unrankAux_mul k _ _ (1 * _), one_mul, mul_assoc]

theorem unrankAux_fix : ∀ (k : Nat) (h : k ≤ n) (r : Nat) (i : Fin n), k ≤ i → unrankAux k h r 1 i = i
  | 0, _, _, _, _ => rfl
  | k + 1, h, r, i, hi => by
      rw [unrankAux, unrankAux_mul, Equiv.Perm.mul_apply, unrankAux_fix k _ _ i (by omega), one_mul]
      apply Equiv.swap_apply_of_ne_of_ne
      · intro e; rw [e] at hi; simp at hi
      · intro e
        have hm : r % (k + 1) < k + 1 := Nat.mod_lt r (Nat.succ_pos k)
        have e' : (i : Nat) = r % (k + 1) := congrArg Fin.val e
        omega

theorem rankAux_unrankAux : ∀ (k : Nat) (h : k ≤ n) (r : Nat), r < k.factorial → rankAux k h (unrankAux k h r 1) = r
  | 0, _, r, hr => by simp [Nat.factorial] at hr; simp [rankAux, hr]
  | k + 1, h, r, hr => by
      have hd : unrankAux (k + 1) h r 1 ⟨k, h⟩ = ⟨r % (k + 1), Nat.lt_of_lt_of_le (Nat.mod_lt _ (Nat.succ_pos k)) h⟩ := by
        rw [unrankAux, unrankAux_mul, Equiv.Perm.mul_apply, unrankAux_fix k _ _ _ (Nat.le_refl k), one_mul, Equiv.swap_apply_left]
      rw [rankAux, hd]
      have hp : swap (⟨k, h⟩ : Fin n) ⟨r % (k + 1), Nat.lt_of_lt_of_le (Nat.mod_lt _ (Nat.succ_pos k)) h⟩ * unrankAux (k + 1) h r 1 =
          unrankAux k (Nat.le_of_succ_le h) (r / (k + 1)) 1 := by
        rw [unrankAux, unrankAux_mul k, one_mul, ← mul_assoc, Equiv.swap_mul_self, one_mul]
      rw [hp, rankAux_unrankAux k _ _ (Nat.div_lt_of_lt_mul (by rw [Nat.factorial_succ] at hr; exact hr))]
      exact Nat.mod_add_div r (k + 1)

/-- The permutation moves only numbers below `k`. -/
def Below (k : Nat) (p : Perm (Fin n)) : Prop := ∀ i : Fin n, k ≤ i → p i = i

theorem Below.lt {k : Nat} (h : k < n) {p : Perm (Fin n)} (hp : Below (k + 1) p) : (p ⟨k, h⟩ : Nat) < k + 1 := by
  by_contra hc
  have h1 := hp (p ⟨k, h⟩) (by omega)
  have h2 := p.injective h1
  rw [h2] at hc
  simp at hc

theorem Below.step {k : Nat} (h : k < n) {p : Perm (Fin n)} (hp : Below (k + 1) p) : Below k (swap ⟨k, h⟩ (p ⟨k, h⟩) * p) := by
  intro i hi
  rw [Equiv.Perm.mul_apply]
  rcases Nat.eq_or_lt_of_le hi with e | hlt
  · have : i = ⟨k, h⟩ := Fin.ext e.symm
    rw [this, Equiv.swap_apply_right]
  · rw [hp i hlt]
    apply Equiv.swap_apply_of_ne_of_ne
    · intro e; rw [e] at hlt; simp at hlt
    · intro e
      have := hp.lt h
      rw [← e] at this; omega

theorem rankAux_lt : ∀ (k : Nat) (h : k ≤ n) (p : Perm (Fin n)), Below k p → rankAux k h p < k.factorial
  | 0, _, _, _ => Nat.one_pos
  | k + 1, h, p, hp => by
      have h1 := rankAux_lt k (Nat.le_of_succ_le h) _ (hp.step h)
      have h2 := hp.lt h
      rw [rankAux, Nat.factorial_succ]
      calc _ < (k + 1) + (k + 1) * rankAux k (Nat.le_of_succ_le h) (swap ⟨k, h⟩ (p ⟨k, h⟩) * p) := by omega
        _ = (k + 1) * (rankAux k (Nat.le_of_succ_le h) (swap ⟨k, h⟩ (p ⟨k, h⟩) * p) + 1) := by rw [Nat.mul_add, Nat.mul_one, Nat.add_comm]
        _ ≤ _ := Nat.mul_le_mul_left _ h1

theorem unrankAux_rankAux : ∀ (k : Nat) (h : k ≤ n) (p : Perm (Fin n)), Below k p → unrankAux k h (rankAux k h p) 1 = p
  | 0, _, p, hp => Equiv.ext fun i => (hp i (Nat.zero_le _)).symm
  | k + 1, h, p, hp => by
      have h2 := hp.lt h
      have hm : (rankAux (k + 1) h p) % (k + 1) = p ⟨k, h⟩ := by
        rw [rankAux, Nat.add_mul_mod_self_left, Nat.mod_eq_of_lt h2]
      have hq : (rankAux (k + 1) h p) / (k + 1) = rankAux k (Nat.le_of_succ_le h) (swap ⟨k, h⟩ (p ⟨k, h⟩) * p) := by
        rw [rankAux, Nat.add_mul_div_left _ _ (Nat.succ_pos k), Nat.div_eq_of_lt h2, Nat.zero_add]
      rw [unrankAux, unrankAux_mul, hq, unrankAux_rankAux k _ _ (hp.step h), one_mul]
      have : (⟨rankAux (k + 1) h p % (k + 1), Nat.lt_of_lt_of_le (Nat.mod_lt _ (Nat.succ_pos k)) h⟩ : Fin n) = p ⟨k, h⟩ := Fin.ext hm
      rw [this, ← mul_assoc, Equiv.swap_mul_self, one_mul]

/-- Ranks below `n!` and permutations of `n` numbers correspond to each other. -/
def rankEquiv (n : Nat) : Fin n.factorial ≃ Perm (Fin n) where
  toFun r := unrank r n
  invFun p := ⟨rank p, rankAux_lt n _ p fun i hi => absurd i.isLt (by omega)⟩
  left_inv r := Fin.ext (rankAux_unrankAux n _ r r.isLt)
  right_inv p := unrankAux_rankAux n _ p fun i hi => absurd i.isLt (by omega)

namespace Lib

theorem rank_unrank (L : Lib) (r : Nat) (h : r < n.factorial) : L.rank (L.unrank r n) = r := by
  unfold Lib.rank Lib.unrank
  have this : Biorth.rank (Biorth.unrank r n) = r := congrArg Fin.val ((rankEquiv n).left_inv ⟨r, h⟩)
  split
  · rw [inv_inv]; exact this
  · exact this

theorem unrank_rank (L : Lib) (p : Perm (Fin n)) : L.unrank (L.rank p) n = p := by
  unfold Lib.rank Lib.unrank
  split
  · rename_i h
    have := (rankEquiv n).right_inv p⁻¹
    exact (congrArg (·⁻¹) this).trans (inv_inv p)
  · exact (rankEquiv n).right_inv p

theorem rank_lt (L : Lib) (p : Perm (Fin n)) : L.rank p < n.factorial := by
  unfold Lib.rank
  exact ((rankEquiv n).symm _).isLt

def equiv (L : Lib) (n : Nat) : Fin n.factorial ≃ Perm (Fin n) where
  toFun r := L.unrank r n
  invFun p := ⟨L.rank p, L.rank_lt p⟩
  left_inv r := Fin.ext (L.rank_unrank r r.isLt)
  right_inv p := L.unrank_rank p

end Lib

/-! ### Cycles -/

theorem iterate_eq (p : Perm (Fin n)) (k : Nat) (i : Fin n) : p^[k] i = (p ^ k) i := by
  rw [Equiv.Perm.iterate_eq_pow]

theorem sameCycle_iterate {p : Perm (Fin n)} {i j : Fin n} (h : p.SameCycle i j) : ∃ k ∈ List.range n, p^[k] i = j := by
  by_cases hi : i ∈ p.support
  · obtain ⟨k, hk, e⟩ := h.exists_pow_eq_of_mem_support hi
    refine ⟨k, ?_, by rw [iterate_eq]; exact e⟩
    have := (p.cycleOf i).support.card_le_univ
    rw [Fintype.card_fin] at this
    rw [List.mem_range]; omega
  · rw [Equiv.Perm.notMem_support] at hi
    exact ⟨0, List.mem_range.2 (Nat.lt_of_le_of_lt (Nat.zero_le _) i.isLt), h.eq_of_left hi⟩

/-- `cycles` counts the classes of elements that some power of the permutation maps to each other. -/
theorem cycles_eq (p : Perm (Fin n)) : cycles p = Nat.card (Quotient (Equiv.Perm.SameCycle.setoid p)) := by
  classical
  unfold cycles
  rw [← Fintype.card_coe, ← Nat.card_eq_fintype_card]
  refine Nat.card_congr (Equiv.ofBijective (fun i => Quotient.mk (Equiv.Perm.SameCycle.setoid p) i.1) ⟨?_, ?_⟩)
  · intro i j hij
    have hc : p.SameCycle i.1 j.1 := Quotient.exact hij
    have hi := (Finset.mem_filter.1 i.2).2
    have hj := (Finset.mem_filter.1 j.2).2
    obtain ⟨k, hk, e⟩ := sameCycle_iterate hc
    obtain ⟨k', hk', e'⟩ := sameCycle_iterate hc.symm
    have h1 := hi k hk
    have h2 := hj k' hk'
    rw [e] at h1; rw [e'] at h2
    exact Subtype.ext (le_antisymm h1 h2)
  · intro q
    obtain ⟨i, rfl⟩ := Quotient.exists_rep q
    obtain ⟨m, hm, hmin⟩ := (Finset.univ.filter fun j => p.SameCycle i j).exists_min_image id ⟨i, by simp [Equiv.Perm.SameCycle.refl]⟩
    rw [Finset.mem_filter] at hm
    refine ⟨⟨m, ?_⟩, Quotient.sound hm.2.symm⟩
    rw [Finset.mem_filter]
    refine ⟨Finset.mem_univ _, fun k _ => ?_⟩
    refine hmin _ ?_
    rw [Finset.mem_filter, iterate_eq]
    exact ⟨Finset.mem_univ _, hm.2.trans ⟨k, by rw [zpow_natCast]⟩⟩

theorem cycles_inv (p : Perm (Fin n)) : cycles p⁻¹ = cycles p := by
  rw [cycles_eq, cycles_eq]
  have : Equiv.Perm.SameCycle.setoid p⁻¹ = Equiv.Perm.SameCycle.setoid p := by
    ext a b
    exact Equiv.Perm.sameCycle_inv
  rw [this]

theorem cycles_conj (p q : Perm (Fin n)) : cycles (q * p * q⁻¹) = cycles p := by
  rw [cycles_eq, cycles_eq]
  refine Nat.card_congr (Quotient.congr q⁻¹ fun a b => ?_)
  exact Equiv.Perm.sameCycle_conj

theorem cycles_comm (p q : Perm (Fin n)) : cycles (p * q) = cycles (q * p) := by
  have := cycles_conj (p * q) q
  rw [← this]
  congr 1
  rw [mul_assoc q, mul_assoc, mul_inv_cancel, mul_one]

theorem cycles_one : cycles (1 : Perm (Fin n)) = n := by
  unfold cycles
  rw [Finset.filter_true_of_mem]
  · simp
  · intro i _ k _
    rw [iterate_eq, one_pow]; rfl

end SeQuant.Biorth
