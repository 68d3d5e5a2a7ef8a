import Verif.Optimize.DpModel
import Verif.Bits.Props

/-!
# Subsets of tensors, and what the solver computes
-/

namespace SeQuant.Optimize

open SeQuant.Bits

/-! ### Subsets -/

theorem getLsbD_bit {w i j : Nat} (hi : i < w) : (bit i : BitVec w).getLsbD j = decide (i = j) := by
  rw [bit, BitVec.getLsbD_twoPow]
  by_cases h : i = j
  · subst h; simp [hi]
  · simp [h]

theorem bit_ne_zero {w i : Nat} (hi : i < w) : (bit i : BitVec w) ≠ 0 := by
  intro h
  have : (bit i : BitVec w).getLsbD i = (0 : BitVec w).getLsbD i := by rw [h]
  rw [getLsbD_bit hi] at this
  simp at this

theorem exists_bit {w : Nat} {n : BitVec w} (h : n ≠ 0) : ∃ i, i < w ∧ n.getLsbD i = true := by
  by_contra hn
  apply h
  apply BitVec.eq_of_getLsbD_eq
  intro i hi
  have : ¬ n.getLsbD i = true := fun h' => hn ⟨i, hi, h'⟩
  simpa using this

theorem popcount_eq_one_iff {w : Nat} (n : BitVec w) : popcount n.toNat = 1 ↔ ∃ i, i < w ∧ n = bit i := by
  constructor
  · intro h
    have h0 : n.toNat ≠ 0 := by intro h0; rw [h0] at h; simp [popcount] at h
    have h1 := popcount_clear n.toNat h0
    have h2 : n.toNat &&& (n.toNat - 1) = 0 := by
      by_contra hne
      have := popcount_pos _ hne
      omega
    have t := fun i => testBit_clear n.toNat i h0
    have hc : n.getLsbD (ctz n.toNat) = true := (t 0).2.1
    have hw : ctz n.toNat < w := by
      by_contra hn
      rw [BitVec.getLsbD_of_ge n _ (by omega)] at hc
      simp at hc
    refine ⟨ctz n.toNat, hw, ?_⟩
    apply BitVec.eq_of_getLsbD_eq
    intro i _
    rw [getLsbD_bit hw]
    by_cases hi : ctz n.toNat = i
    · subst hi; simpa using hc
    · have hb : n.toNat.testBit i = false := by
        rcases Nat.lt_or_gt_of_ne hi with hlt | hgt
        · have := (t i).1
          rw [h2] at this
          simp only [Nat.zero_testBit, hlt, decide_true, Bool.and_true] at this
          exact this.symm
        · exact (t 0).2.2 i hgt
      simp only [hi, decide_false]
      exact hb
  · rintro ⟨i, hi, rfl⟩
    have hne : (bit i : BitVec w).toNat ≠ 0 := by
      intro h
      apply bit_ne_zero hi
      apply BitVec.eq_of_toNat_eq
      simpa using h
    have h1 := popcount_clear _ hne
    have t := fun j => testBit_clear (bit i : BitVec w).toNat j hne
    have hb : ∀ j, (bit i : BitVec w).toNat.testBit j = decide (i = j) := fun j => getLsbD_bit hi
    have hc : ctz (bit i : BitVec w).toNat = i := by
      have := (t 0).2.1
      rw [hb] at this
      exact (of_decide_eq_true this).symm
    have : (bit i : BitVec w).toNat &&& ((bit i : BitVec w).toNat - 1) = 0 := by
      apply Nat.eq_of_testBit_eq
      intro j
      rw [(t j).1, hb, hc]
      simp only [Nat.zero_testBit, Bool.and_eq_false_iff, decide_eq_false_iff_not]
      by_cases h : i = j
      · right; omega
      · left; exact h
    rw [this] at h1
    have h2 : popcount 0 = 0 := by simp [popcount]
    omega

theorem ctz_bit {w i : Nat} (hi : i < w) : ctz (bit i : BitVec w).toNat = i := by
  have hne : (bit i : BitVec w).toNat ≠ 0 := by
    intro h
    apply bit_ne_zero hi
    apply BitVec.eq_of_toNat_eq
    simpa using h
  have := (testBit_clear (bit i : BitVec w).toNat 0 hne).2.1
  have hb : ∀ j, (bit i : BitVec w).toNat.testBit j = decide (i = j) := fun j => getLsbD_bit hi
  rw [hb] at this
  exact (of_decide_eq_true this).symm

theorem popcount_eq_zero {w : Nat} (n : BitVec w) : popcount n.toNat = 0 ↔ n = 0 := by
  constructor
  · intro h
    by_contra hn
    have : n.toNat ≠ 0 := by
      intro h0; apply hn; apply BitVec.eq_of_toNat_eq; simpa using h0
    have := popcount_pos _ this
    omega
  · rintro rfl; simp [popcount]

/-- A proper splitting of a subset. -/
structure Split {w : Nat} (n a b : BitVec w) : Prop where
  left : a ≠ 0
  right : b ≠ 0
  disj : a &&& b = 0
  union : a ||| b = n

namespace Split

variable {w : Nat} {n a b : BitVec w}

theorem symm (h : Split n a b) : Split n b a := ⟨h.right, h.left, by rw [BitVec.and_comm, h.disj], by rw [BitVec.or_comm, h.union]⟩

theorem bits (h : Split n a b) (i : Nat) : (a.getLsbD i && b.getLsbD i) = false ∧ n.getLsbD i = (a.getLsbD i || b.getLsbD i) := by
  constructor
  · rw [← BitVec.getLsbD_and, h.disj]; simp
  · rw [← h.union, BitVec.getLsbD_or]

theorem left_lt (h : Split n a b) : a.toNat < n.toNat := by
  have h1 : a.toNat ≤ n.toNat := by rw [← h.union, BitVec.toNat_or]; exact Nat.left_le_or
  rcases Nat.lt_or_ge a.toNat n.toNat with h2 | h2
  · exact h2
  · exfalso
    have hab : a = n := BitVec.eq_of_toNat_eq (by omega)
    apply h.right
    apply BitVec.eq_of_getLsbD_eq
    intro i hi
    obtain ⟨d, u⟩ := h.bits i
    rw [← hab] at u
    cases ha : a.getLsbD i <;> cases hb : b.getLsbD i <;> simp_all

theorem right_lt (h : Split n a b) : b.toNat < n.toNat := h.symm.left_lt

theorem ne_zero (h : Split n a b) : n ≠ 0 := by
  intro h0
  have := h.left_lt
  rw [h0] at this
  simp at this

theorem popcount_ge (h : Split n a b) : 2 ≤ popcount n.toNat := by
  have h0 : popcount n.toNat ≠ 0 := by rw [Ne, popcount_eq_zero]; exact h.ne_zero
  have h1 : popcount n.toNat ≠ 1 := by
    rw [Ne, popcount_eq_one_iff]
    rintro ⟨i, hi, rfl⟩
    obtain ⟨j, hj, haj⟩ := exists_bit h.left
    obtain ⟨k, hk, hbk⟩ := exists_bit h.right
    have uj := (h.bits j).2
    have uk := (h.bits k).2
    rw [getLsbD_bit hi, haj] at uj
    rw [getLsbD_bit hi, hbk] at uk
    simp at uj uk
    have := (h.bits j).1
    rw [haj, ← uj, uk, hbk] at this
    simp at this
  omega

theorem mem_or (h : Split n a b) : (a, b) ∈ bipartitions n ∨ (b, a) ∈ bipartitions n := by
  have := (bipartitions_exactly_once n h.ne_zero).2 a b h.disj h.union
  by_cases hb : (b, a) ∈ bipartitions n
  · exact .inr hb
  · exact .inl (this.mpr hb)

end Split

theorem split_of_mem {w : Nat} {n a b : BitVec w} (h : (a, b) ∈ bipartitions n) (ha : a ≠ 0) (hb : b ≠ 0) : Split n a b := by
  obtain ⟨h1, h2⟩ := bipartitions_sound n a b h
  exact ⟨ha, hb, h1, h2⟩

/-! ### The table computed by the solver -/

section solver

variable {w : Nat} {C S : Type}

/-- The entry of a subset in terms of the table. -/
def entry (m : Model w C S) (conn : BitVec w → Bool) (ctx : C) (dflt : S) (st : BitVec w → S) (n : BitVec w) : S :=
  if popcount n.toNat = 1 then m.leaf ctx n else if conn n then relaxAll m conn ctx st n else dflt

theorem relaxAll_congr (m : Model w C S) (conn : BitVec w → Bool) (ctx : C) (st st' : BitVec w → S) (n : BitVec w)
    (h : ∀ p, p.toNat < n.toNat → p ≠ 0 → st p = st' p) : relaxAll m conn ctx st n = relaxAll m conn ctx st' n := by
  unfold relaxAll
  have key : ∀ (L : List (BitVec w × BitVec w)), (∀ p ∈ L, p ∈ bipartitions n) → ∀ acc,
      L.foldl (fun acc p => if p.1 ≠ 0 ∧ p.2 ≠ 0 ∧ conn p.1 ∧ conn p.2 then m.relax ctx n p.1 p.2 (st p.1) (st p.2) acc else acc) acc =
      L.foldl (fun acc p => if p.1 ≠ 0 ∧ p.2 ≠ 0 ∧ conn p.1 ∧ conn p.2 then m.relax ctx n p.1 p.2 (st' p.1) (st' p.2) acc else acc) acc := by
    intro L
    induction L with
    | nil => intro _ _; rfl
    | cons p L ih =>
      intro hL acc
      rw [List.foldl_cons, List.foldl_cons, ih fun q hq => hL q (by simp [hq])]
      by_cases hp : p.1 ≠ 0 ∧ p.2 ≠ 0 ∧ conn p.1 ∧ conn p.2
      · have hs := split_of_mem (hL p (by simp)) hp.1 hp.2.1
        rw [h p.1 hs.left_lt hp.1, h p.2 hs.right_lt hp.2.1]
      · rw [if_neg hp, if_neg hp]
  exact key _ (fun _ h => h) _

theorem solve_table (m : Model w C S) (hf : ∀ c n st, m.finalize c n st = (c, st)) (conn : BitVec w → Bool) (nt : Nat) (hnt : nt ≤ w)
    (ctx : C) (dflt : S) (n : BitVec w) (h0 : n ≠ 0) (hn : n.toNat < 2 ^ nt) :
    (solve m conn nt ctx dflt).2 n = entry m conn ctx dflt (solve m conn nt ctx dflt).2 n := by
  have hw : 2 ^ nt ≤ 2 ^ w := Nat.pow_le_pow_right (by omega) hnt
  have key : ∀ k, k + 1 ≤ 2 ^ nt →
      ((List.range k).foldl (fun cs i => solveStep m conn cs (i + 1)) (ctx, fun _ => dflt)).1 = ctx ∧
      (∀ n : BitVec w, n ≠ 0 → n.toNat ≤ k → ((List.range k).foldl (fun cs i => solveStep m conn cs (i + 1)) (ctx, fun _ => dflt)).2 n =
        entry m conn ctx dflt ((List.range k).foldl (fun cs i => solveStep m conn cs (i + 1)) (ctx, fun _ => dflt)).2 n) ∧
      (∀ n : BitVec w, k < n.toNat → ((List.range k).foldl (fun cs i => solveStep m conn cs (i + 1)) (ctx, fun _ => dflt)).2 n = dflt) := by
    intro k
    induction k with
    | zero =>
      intro _
      refine ⟨rfl, ?_, fun _ _ => rfl⟩
      intro n h0 hn
      exfalso; apply h0; apply BitVec.eq_of_toNat_eq; simp; omega
    | succ k ih =>
      intro hk
      obtain ⟨i1, i2, i3⟩ := ih (by omega)
      rw [List.range_succ, List.foldl_append, List.foldl_cons, List.foldl_nil]
      generalize hcs : (List.range k).foldl (fun cs i => solveStep m conn cs (i + 1)) (ctx, fun _ => dflt) = cs at i1 i2 i3
      obtain ⟨c, st⟩ := cs
      simp only at i1 i2 i3
      subst i1
      have hto : (BitVec.ofNat w (k + 1)).toNat = k + 1 := by
        rw [BitVec.toNat_ofNat, Nat.mod_eq_of_lt (by omega)]
      -- the step replaces exactly the entry of `k + 1`
      have hstep : ∃ v, solveStep m conn (c, st) (k + 1) = (c, Function.update st (BitVec.ofNat w (k + 1)) v) ∧
          v = entry m conn c dflt st (BitVec.ofNat w (k + 1)) := by
        unfold solveStep entry
        simp only
        by_cases hp : popcount (BitVec.ofNat w (k + 1)).toNat = 1
        · rw [if_pos hp, if_pos hp]; exact ⟨_, rfl, rfl⟩
        · rw [if_neg hp, if_neg hp]
          cases hc : conn (BitVec.ofNat w (k + 1)) with
          | true => simp only [Bool.not_true, Bool.false_eq_true, if_false, if_true, hf]; exact ⟨_, rfl, rfl⟩
          | false =>
            simp only [Bool.not_false, if_true, Bool.false_eq_true, if_false]
            refine ⟨dflt, ?_, rfl⟩
            rw [← i3 (BitVec.ofNat w (k + 1)) (by rw [hto]; omega), Function.update_eq_self]
      obtain ⟨v, hv, hv2⟩ := hstep
      rw [hv]
      have hentry : ∀ n : BitVec w, n.toNat ≤ k + 1 → entry m conn c dflt (Function.update st (BitVec.ofNat w (k + 1)) v) n = entry m conn c dflt st n := by
        intro n hn
        unfold entry
        rw [relaxAll_congr m conn c (Function.update st (BitVec.ofNat w (k + 1)) v) st n]
        intro p hp _
        rw [Function.update_of_ne]
        rintro rfl
        omega
      refine ⟨rfl, ?_, ?_⟩
      · intro n h0 hn
        rw [hentry n hn]
        by_cases hnk : n = BitVec.ofNat w (k + 1)
        · subst hnk; simp only [Function.update_self]; exact hv2
        · simp only
          rw [Function.update_of_ne hnk]
          apply i2 n h0
          have : n.toNat ≠ k + 1 := by
            intro h; apply hnk; apply BitVec.eq_of_toNat_eq; rw [hto, h]
          omega
      · intro n hn
        simp only
        rw [Function.update_of_ne]
        · exact i3 n (by omega)
        · rintro rfl; omega
  have hpos : 0 < 2 ^ nt := Nat.pow_pos (by omega)
  exact (key (2 ^ nt - 1) (by omega)).2.1 n h0 (by omega)

end solver

end SeQuant.Optimize
