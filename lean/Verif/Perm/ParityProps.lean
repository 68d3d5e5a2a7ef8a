import Verif.Perm.Model
import Mathlib.GroupTheory.Perm.Cycle.Type
import Mathlib.Data.List.OfFn
import Mathlib.Tactic.Ring

/-!
# C08: `permutation_parity`

The function does not compute the sign of a permutation: the loop that should follow a cycle stops after one step
(`p[i] += N` makes `p[i] < N` false at once), so every position that is still unmarked when it is reached flips the
sign.
-/

namespace SeQuant.Perm

/-- The full statement of C08. -/
def ParityCorrect : Prop :=
  ∀ (N : Nat) (σ : Equiv.Perm (Fin N)), ∃ q,
    permutationParity (List.ofFn fun i => (σ i : Nat)) false = some (((Equiv.Perm.sign σ : ℤˣ) : ℤ), q) ∧
    q = List.ofFn fun i => ((σ i : Nat) : Int)

/-- C08 is false: the identity on one element is reported as odd. -/
theorem permutationParity_wrong : ¬ ParityCorrect := by
  intro h
  obtain ⟨q, h1, _⟩ := h 1 1
  have h2 : permutationParity (List.ofFn fun i => (((1 : Equiv.Perm (Fin 1)) i : Fin 1) : Nat)) false =
      some (-1, [1]) := by decide
  rw [h2] at h1
  simp at h1

/-- Moreover neither setting of `overwrite` leaves the argument as it was. -/
theorem permutationParity_not_restored :
    permutationParity [1, 0] false = some (-1, [1, 2]) ∧
    permutationParity [1, 0] true = some (-1, [-1, 0]) := by decide

/-- Content of `p` before position `k` is visited, for an involution `s`. -/
def markedState (N : Nat) (s : Nat → Nat) (k : Nat) : List Nat :=
  (List.range N).map fun i => s i + if s i < k ∧ s i ≤ i then N else 0

theorem parityLoop_invol (N : Nat) (s : Nat → Nat) (hs : ∀ i < N, s i < N) (hinv : ∀ i < N, s (s i) = i)
    (d k : Nat) (hk : k + d = N) (parity : Int) :
    ∃ q, parityLoop N (List.range' k d) (markedState N s k) parity =
      some (q, parity * (-1) ^ ((List.range' k d).countP fun j => decide (j ≤ s j))) := by
  induction d generalizing k parity with
  | zero => exact ⟨_, by simp [parityLoop]; rfl⟩
  | succ d ih =>
    have hkN : k < N := by omega
    have hget : ∀ i, i < N → (markedState N s k)[i]? =
        some (s i + if s i < k ∧ s i ≤ i then N else 0) := by
      intro i hi
      simp [markedState, hi]
    rw [List.range'_succ, parityLoop, hget k hkN]
    by_cases hm : s k < k ∧ s k ≤ k
    · have he : markedState N s k = markedState N s (k + 1) := by
        apply List.map_congr_left
        intro i hi
        rw [List.mem_range] at hi
        have : (s i < k ∧ s i ≤ i) ↔ (s i < k + 1 ∧ s i ≤ i) := by
          constructor
          · intro h; omega
          · rintro ⟨h1, h2⟩
            refine ⟨?_, h2⟩
            rcases Nat.lt_succ_iff_lt_or_eq.mp h1 with h | h
            · exact h
            · have := hinv i hi
              rw [h] at this
              omega
        simp only [this]
      obtain ⟨q, hq⟩ := ih (k + 1) (by omega) parity
      refine ⟨q, ?_⟩
      simp only [hm, and_self, if_true, show N ≤ s k + N by omega]
      rw [he, hq, List.countP_cons_of_neg (by simp; omega)]
    · have hks : k ≤ s k := by omega
      have hsk := hs k hkN
      simp only [hm, if_false, Nat.add_zero, show ¬ N ≤ s k by omega]
      have hv : (markedState N s k)[s k]? = some (s (s k)) := by
        rw [hget _ hsk]
        rw [hinv k hkN]
        simp
      have he : (markedState N s k).set (s k) (s (s k) + N) = markedState N s (k + 1) := by
        apply List.ext_getElem
        · simp [markedState]
        · intro i h1 h2
          simp only [markedState, List.length_map, List.length_range] at h2
          simp only [markedState, List.getElem_set, List.getElem_map, List.getElem_range]
          by_cases hi : s k = i
          · subst hi
            simp only [if_true]
            rw [hinv k hkN]
            simp [hks]
          · simp only [hi, if_false]
            have : (s i < k ∧ s i ≤ i) ↔ (s i < k + 1 ∧ s i ≤ i) := by
              constructor
              · intro h; omega
              · rintro ⟨h1, h2'⟩
                refine ⟨?_, h2'⟩
                rcases Nat.lt_succ_iff_lt_or_eq.mp h1 with h | h
                · exact h
                · exact absurd (by rw [← h]; exact hinv i h2) hi
            simp only [this]
      have hc : cycleLoop N (N + 1) (markedState N s k) k 1 = some (markedState N s (k + 1), 2) := by
        rw [cycleLoop, hget k hkN]
        simp only [hm, if_false, Nat.add_zero, hv]
        rw [if_neg (by omega), he]
      obtain ⟨q, hq⟩ := ih (k + 1) (by omega) (-parity)
      refine ⟨q, ?_⟩
      simp only [hc]
      simp only [if_true]
      rw [hq, List.countP_cons_of_pos (by simpa using hks)]
      congr 2
      ring

/-- Number of positions that are not moved to the left by an involution: the 2-cycles plus the fixed points. -/
theorem card_le_invol (N : Nat) (σ : Equiv.Perm (Fin N)) (hσ : σ * σ = 1) :
    2 * (Finset.univ.filter fun i => i ≤ σ i).card = N + (Finset.univ.filter fun i => σ i = i).card := by
  have hss : ∀ i, σ (σ i) = i := fun i => by
    have := congrArg (fun τ : Equiv.Perm (Fin N) => τ i) hσ
    simpa using this
  have h1 : (Finset.univ.filter fun i => i ≤ σ i).card = (Finset.univ.filter fun i => σ i ≤ i).card := by
    apply Finset.card_bij (fun i _ => σ i)
    · intro i hi; simp at hi ⊢; rw [hss]; exact hi
    · intro i _ j _ h; exact σ.injective h
    · intro i hi
      simp at hi
      exact ⟨σ i, by simp [hss, hi], hss i⟩
  have h2 := Finset.card_union_add_card_inter (Finset.univ.filter fun i : Fin N => i ≤ σ i)
    (Finset.univ.filter fun i => σ i ≤ i)
  rw [← Finset.filter_or, ← Finset.filter_and] at h2
  have e1 : (Finset.univ.filter fun i : Fin N => i ≤ σ i ∨ σ i ≤ i) = Finset.univ := by
    ext i; simp [le_total]
  have e2 : (Finset.univ.filter fun i : Fin N => i ≤ σ i ∧ σ i ≤ i) =
      Finset.univ.filter fun i => σ i = i := by
    ext i; simp; constructor
    · rintro ⟨a, b⟩; exact le_antisymm b a
    · intro h; rw [h]; exact ⟨le_refl _, le_refl _⟩
  rw [e1, e2, Finset.card_univ, Fintype.card_fin] at h2
  omega

theorem sign_invol (N : Nat) (σ : Equiv.Perm (Fin N)) (hσ : σ * σ = 1) :
    Equiv.Perm.sign σ * (-1) ^ (Finset.univ.filter fun i => σ i = i).card =
      (-1) ^ (Finset.univ.filter fun i => i ≤ σ i).card := by
  have hc : ∀ n ∈ σ.cycleType, n = 2 := by
    intro n hn
    have h1 := Equiv.Perm.two_le_of_mem_cycleType hn
    have h2 : n ∣ orderOf σ := by
      rw [← Equiv.Perm.lcm_cycleType]; exact Multiset.dvd_lcm hn
    have h3 : orderOf σ ∣ 2 := orderOf_dvd_of_pow_eq_one (by rw [pow_two]; exact hσ)
    exact le_antisymm (Nat.le_of_dvd (by omega) (h2.trans h3)) h1
  have hrep := Multiset.eq_replicate_card.mpr hc
  have hsum : σ.cycleType.sum = 2 * σ.cycleType.card := by
    conv_lhs => rw [hrep]
    simp [Multiset.sum_replicate, mul_comm]
  have hsupp := Equiv.Perm.sum_cycleType σ
  have hfix : (Finset.univ.filter fun i => σ i = i).card + σ.support.card = N := by
    have := Finset.card_filter_add_card_filter_not (s := (Finset.univ : Finset (Fin N))) (fun i => σ i = i)
    rw [Finset.card_univ, Fintype.card_fin] at this
    exact this
  have hle := card_le_invol N σ hσ
  rw [Equiv.Perm.sign_of_cycleType, hsum, ← pow_add]
  have e : 2 * σ.cycleType.card + σ.cycleType.card + (Finset.univ.filter fun i => σ i = i).card =
      2 * σ.cycleType.card + (Finset.univ.filter fun i => i ≤ σ i).card := by omega
  rw [e, pow_add, pow_mul]
  simp

/-- Partial C08 (missing: permutations with cycles longer than two; the correct sign when the number of fixed points is
odd, which is false).  For every involution the function stays inside of the array and returns the sign of the permutation
times `(-1)^f`, where `f` is the number of fixed points; in particular it is right when `f` is even. -/
theorem permutationParity_partial (N : Nat) (σ : Equiv.Perm (Fin N)) (hσ : σ * σ = 1) (overwrite : Bool) :
    ∃ q, permutationParity (List.ofFn fun i => (σ i : Nat)) overwrite =
      some (((Equiv.Perm.sign σ : ℤˣ) : ℤ) * (-1) ^ (Finset.univ.filter fun i => σ i = i).card, q) := by
  let s : Nat → Nat := fun i => if h : i < N then (σ ⟨i, h⟩ : Nat) else 0
  have hs : ∀ i < N, s i < N := fun i hi => by simp [s, hi]
  have hss : ∀ i, σ (σ i) = i := fun i => by
    have := congrArg (fun τ : Equiv.Perm (Fin N) => τ i) hσ
    simpa using this
  have hinv : ∀ i < N, s (s i) = i := fun i hi => by simp [s, hi, hss]
  obtain ⟨q, hq⟩ := parityLoop_invol N s hs hinv N 0 (by omega) 1
  have h0 : markedState N s 0 = List.ofFn fun i => (σ i : Nat) := by
    apply List.ext_getElem
    · simp [markedState]
    · intro i h1 h2
      simp only [List.length_ofFn] at h2
      simp [markedState, s, h2]
  have hlen : (List.ofFn fun i => (σ i : Nat)).length = N := by simp
  have hcount : (List.range' 0 N).countP (fun j => decide (j ≤ s j)) =
      (Finset.univ.filter fun i => i ≤ σ i).card := by
    have e : (Finset.univ.filter fun i => i ≤ σ i) =
        ((List.finRange N).filter fun i => decide (i ≤ σ i)).toFinset := by
      ext i; simp
    rw [e, List.toFinset_card_of_nodup ((List.nodup_finRange N).filter _),
      ← List.countP_eq_length_filter, ← List.range_eq_range', ← List.map_coe_finRange_eq_range,
      List.countP_map]
    congr 1
    funext i
    simp [s]
  rw [h0, hcount] at hq
  have key : ∃ q', permutationParity (List.ofFn fun i => (σ i : Nat)) overwrite =
      some (1 * (-1) ^ (Finset.univ.filter fun i => i ≤ σ i).card, q') := by
    rw [permutationParity, hlen, List.range_eq_range', hq]
    exact ⟨_, rfl⟩
  obtain ⟨q', hq'⟩ := key
  refine ⟨q', ?_⟩
  rw [hq']
  simp only [Option.some.injEq, Prod.mk.injEq, and_true]
  have := congrArg (fun u : ℤˣ => (u : ℤ)) (sign_invol N σ hσ)
  simp only [Units.val_mul, Units.val_pow_eq_pow_val, Units.val_neg, Units.val_one] at this
  rw [this, one_mul]

example : (Equiv.swap (0 : Fin 4) 1) * Equiv.swap 0 1 = 1 := by decide
example : permutationParity [1, 0, 3, 2] false = some (1, [1, 4, 3, 6]) := by decide

end SeQuant.Perm
