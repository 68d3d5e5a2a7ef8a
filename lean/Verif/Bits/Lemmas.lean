import Verif.Bits.Model

/-!
# Auxiliary facts about submask enumeration
-/

namespace SeQuant.Bits

/-- `p` is a submask of `m` (on natural numbers). -/
def NSub (p m : Nat) : Prop := p &&& m = p

theorem and_div2 (a b : Nat) : (a &&& b) / 2 = (a / 2) &&& (b / 2) := by
  have := Nat.shiftRight_and_distrib (i := 1) (a := a) (b := b)
  simpa [Nat.shiftRight_eq_div_pow] using this

theorem and_mod2 (a b : Nat) : (a &&& b) % 2 = (a % 2) &&& (b % 2) := by
  apply Nat.eq_of_testBit_eq
  intro i
  have h := Nat.testBit_mod_two_pow (a &&& b) 1 i
  have ha := Nat.testBit_mod_two_pow a 1 i
  have hb := Nat.testBit_mod_two_pow b 1 i
  simp only [Nat.pow_one] at h ha hb
  rw [h, Nat.testBit_and, Nat.testBit_and, ha, hb]
  by_cases hi : i < 1 <;> simp [hi]

theorem nsub_iff (p m : Nat) : NSub p m ↔ NSub (p / 2) (m / 2) ∧ p % 2 ≤ m % 2 := by
  unfold NSub
  constructor
  · intro h
    refine ⟨by rw [← and_div2, h], ?_⟩
    have := and_mod2 p m
    rw [h] at this
    rcases Nat.mod_two_eq_zero_or_one p with hp | hp <;>
      rcases Nat.mod_two_eq_zero_or_one m with hm | hm <;> simp_all
  · rintro ⟨h1, h2⟩
    have hd : (p &&& m) / 2 = p / 2 := by rw [and_div2, h1]
    have hm2 : (p &&& m) % 2 = p % 2 := by
      rw [and_mod2]
      rcases Nat.mod_two_eq_zero_or_one p with hp | hp <;>
        rcases Nat.mod_two_eq_zero_or_one m with hm | hm <;> simp_all
    omega

theorem nsub_zero (m : Nat) : NSub 0 m := by simp [NSub]

theorem nsub_self (m : Nat) : NSub m m := by simp [NSub]

theorem NSub.le {p m : Nat} (h : NSub p m) : p ≤ m := by
  have := Nat.and_le_right (n := p) (m := m)
  unfold NSub at h
  omega

/-- All submasks of `m` in descending order. -/
def desc (m : Nat) : List Nat :=
  if m = 0 then [0]
  else (desc (m / 2)).flatMap fun p =>
    if m % 2 = 1 then [2 * p + 1, 2 * p] else [2 * p]
decreasing_by omega

theorem mem_desc (m p : Nat) : p ∈ desc m ↔ NSub p m := by
  fun_induction desc m generalizing p with
  | case1 => simp [NSub, eq_comm]
  | case2 m hm ih =>
    rw [nsub_iff, List.mem_flatMap]
    constructor
    · rintro ⟨q, hq, h⟩
      rw [ih] at hq
      split at h
      · simp only [List.mem_cons, List.not_mem_nil, or_false] at h
        rcases h with h | h
        · have : p / 2 = q := by omega
          rw [this]; exact ⟨hq, by omega⟩
        · have : p / 2 = q := by omega
          rw [this]; exact ⟨hq, by omega⟩
      · simp only [List.mem_cons, List.not_mem_nil, or_false] at h
        have : p / 2 = q := by omega
        rw [this]; exact ⟨hq, by omega⟩
    · rintro ⟨h1, h2⟩
      refine ⟨p / 2, (ih _).2 h1, ?_⟩
      split
      · simp only [List.mem_cons, List.not_mem_nil, or_false]
        omega
      · simp only [List.mem_cons, List.not_mem_nil, or_false]
        omega

theorem length_desc (m : Nat) : (desc m).length = 2 ^ popcount m := by
  fun_induction desc m with
  | case1 => simp [popcount]
  | case2 m hm ih =>
    rw [popcount, if_neg hm, List.length_flatMap]
    rcases Nat.mod_two_eq_zero_or_one m with h | h
    · simp [h, List.map_const', ih]
    · simp [h, List.map_const', ih, Nat.pow_add, Nat.mul_comm]

theorem pairwise_desc (m : Nat) : (desc m).Pairwise (· > ·) := by
  fun_induction desc m with
  | case1 => simp
  | case2 m hm ih =>
    rw [List.pairwise_flatMap]
    constructor
    · intro a _
      split <;> simp
    · refine ih.imp ?_
      intro a b hab x hx y hy
      split at hx <;> split at hy <;> simp at hx hy <;> omega

theorem head_desc (m : Nat) : (desc m).head? = some m := by
  fun_induction desc m with
  | case1 => simp
  | case2 m hm ih =>
    cases hd : desc (m / 2) with
    | nil => simp [hd] at ih
    | cons a l =>
      simp only [hd, List.head?_cons, Option.some.injEq] at ih
      subst ih
      rcases Nat.mod_two_eq_zero_or_one m with h | h
      · simp [h]; omega
      · simp [h]; omega

/-- The step `(p-1) & m` goes to the next smaller submask. -/
theorem step_spec (m p : Nat) (hp : NSub p m) (h0 : p ≠ 0) :
    NSub ((p - 1) &&& m) m ∧ ((p - 1) &&& m) < p ∧
      ∀ q, NSub q m → q < p → q ≤ ((p - 1) &&& m) := by
  refine ⟨by simp [NSub, Nat.and_assoc], ?_, ?_⟩
  · have := Nat.and_le_left (n := p - 1) (m := m)
    omega
  · induction p using Nat.strongRecOn generalizing m with
    | _ p ih =>
      intro q hq hlt
      have hp' := (nsub_iff p m).1 hp
      have hq' := (nsub_iff q m).1 hq
      have hd := and_div2 (p - 1) m
      have hm := and_mod2 (p - 1) m
      rcases Nat.mod_two_eq_zero_or_one p with hc | hc
      · -- borrow from the higher digits
        have e1 : (p - 1) / 2 = p / 2 - 1 := by omega
        have e2 : (p - 1) % 2 = 1 := by omega
        rw [e1] at hd
        rw [e2] at hm
        have hm' : ((p - 1) &&& m) % 2 = m % 2 := by
          rw [hm]
          rcases Nat.mod_two_eq_zero_or_one m with h | h <;> simp [h]
        have := ih (p / 2) (by omega) (m / 2) hp'.1 (by omega) (q / 2) hq'.1 (by omega)
        omega
      · have e1 : (p - 1) / 2 = p / 2 := by omega
        rw [e1, hp'.1] at hd
        omega

/-- Natural-number version of `run`. -/
def nrun (m : Nat) : Nat → Nat → List Nat
  | 0, _ => []
  | n + 1, p => p :: nrun m n ((p - 1) &&& m)

theorem nrun_eq (m : Nat) (L : List Nat) (p : Nat)
    (hs : (p :: L).Pairwise (· > ·)) (hsub : ∀ q ∈ p :: L, NSub q m)
    (hall : ∀ q, NSub q m → q ≤ p → q ∈ p :: L) :
    nrun m (L.length + 1) p = p :: L := by
  induction L generalizing p with
  | nil => simp [nrun]
  | cons a L ih =>
    rw [List.length_cons, nrun]
    congr 1
    rw [List.pairwise_cons] at hs
    have hap : a < p := hs.1 a (by simp)
    obtain ⟨s1, s2, s3⟩ := step_spec m p (hsub p (by simp)) (by omega)
    have hmem := hall _ s1 (by omega)
    have ha := s3 a (hsub a (by simp)) hap
    have e : (p - 1) &&& m = a := by
      rw [List.mem_cons] at hmem
      rcases hmem with h | h
      · omega
      · rw [List.mem_cons] at h
        rcases h with h | h
        · exact h
        · have := (List.pairwise_cons.1 hs.2).1 _ h
          omega
    rw [e]
    apply ih a hs.2
    · intro q hq; exact hsub q (List.mem_cons_of_mem _ hq)
    · intro q hq hle
      have := hall q hq (by omega)
      rw [List.mem_cons] at this
      rcases this with h | h
      · omega
      · exact h

theorem nrun_desc (m : Nat) : nrun m (2 ^ popcount m) m = desc m := by
  have hh := head_desc m
  cases hd : desc m with
  | nil => simp [hd] at hh
  | cons a L =>
    simp only [hd, List.head?_cons, Option.some.injEq] at hh
    subst hh
    have hl := length_desc a
    rw [hd, List.length_cons] at hl
    rw [← hl]
    apply nrun_eq
    · rw [← hd]; exact pairwise_desc a
    · intro q hq; rw [← hd, mem_desc] at hq; exact hq
    · intro q hq _; rw [← hd, mem_desc]; exact hq

theorem run_toNat {w : Nat} (mask : BitVec w) (n : Nat) (p : BitVec w)
    (h : ∀ q ∈ (nrun mask.toNat n p.toNat).dropLast, q ≠ 0) :
    (run mask n p).map BitVec.toNat = nrun mask.toNat n p.toNat := by
  induction n generalizing p with
  | zero => simp [run, nrun]
  | succ n ih =>
    simp only [run, nrun, List.map_cons]
    congr 1
    cases n with
    | zero => simp [run, nrun]
    | succ n =>
      simp only [nrun, List.dropLast_cons_cons] at h
      have hp : p.toNat ≠ 0 := h _ (by simp)
      have hw : 1 < 2 ^ w := by have := p.isLt; omega
      have e : (step mask p).toNat = (p.toNat - 1) &&& mask.toNat := by
        have hp1 : (p - 1).toNat = p.toNat - 1 := by
          have hle : (1 : BitVec w) ≤ p := by
            rw [BitVec.le_def]
            simp
            rw [Nat.mod_eq_of_lt hw]
            omega
          rw [BitVec.toNat_sub_of_le hle]
          simp [Nat.mod_eq_of_lt hw]
        rw [step, BitVec.toNat_and, hp1]
      rw [ih, e]
      rw [e]
      intro q hq
      apply h
      rw [List.mem_cons]
      right
      exact hq

theorem run_desc {w : Nat} (mask : BitVec w) :
    (run mask (2 ^ popcount mask.toNat) mask).map BitVec.toNat = desc mask.toNat := by
  rw [run_toNat, nrun_desc]
  rw [nrun_desc]
  intro q hq h0
  subst h0
  -- a strictly descending list of naturals has 0 only in last position
  have hp := pairwise_desc mask.toNat
  have hne : desc mask.toNat ≠ [] := by
    intro h; simp [h] at hq
  rw [← List.dropLast_concat_getLast hne, List.pairwise_append] at hp
  have := hp.2.2 0 hq _ (List.mem_singleton.2 rfl)
  omega

theorem length_run {w : Nat} (mask : BitVec w) (n : Nat) (p : BitVec w) :
    (run mask n p).length = n := by
  induction n generalizing p with
  | zero => rfl
  | succ n ih => simp [run, ih]

theorem mem_run {w : Nat} (mask p : BitVec w) :
    p ∈ run mask (2 ^ popcount mask.toNat) mask ↔ p &&& mask = p := by
  have h : p ∈ run mask (2 ^ popcount mask.toNat) mask ↔
      p.toNat ∈ (run mask (2 ^ popcount mask.toNat) mask).map BitVec.toNat := by
    rw [List.mem_map]
    constructor
    · intro h; exact ⟨p, h, rfl⟩
    · rintro ⟨q, hq, e⟩
      rwa [← BitVec.eq_of_toNat_eq e]
  rw [h, run_desc, mem_desc, NSub, ← BitVec.toNat_and]
  exact ⟨fun e => BitVec.eq_of_toNat_eq e, fun e => by rw [e]⟩

theorem pairwise_run {w : Nat} (mask : BitVec w) :
    (run mask (2 ^ popcount mask.toNat) mask).Pairwise (· > ·) := by
  have h := pairwise_desc mask.toNat
  rw [← run_desc, List.pairwise_map] at h
  exact h.imp fun hab => BitVec.lt_def.2 hab

end SeQuant.Bits

namespace SeQuant.Bits

theorem xor_div2 (a b : Nat) : (a ^^^ b) / 2 = (a / 2) ^^^ (b / 2) := by
  have := Nat.shiftRight_xor_distrib (i := 1) (a := a) (b := b)
  simpa [Nat.shiftRight_eq_div_pow] using this

theorem xor_mod2 (a b : Nat) : (a ^^^ b) % 2 = (a % 2) ^^^ (b % 2) := by
  apply Nat.eq_of_testBit_eq
  intro i
  have h := Nat.testBit_mod_two_pow (a ^^^ b) 1 i
  have ha := Nat.testBit_mod_two_pow a 1 i
  have hb := Nat.testBit_mod_two_pow b 1 i
  simp only [Nat.pow_one] at h ha hb
  rw [h, Nat.testBit_xor, Nat.testBit_xor, ha, hb]
  by_cases hi : i < 1 <;> simp [hi]

theorem xor_eq_sub (p m : Nat) (h : NSub p m) : p ^^^ m = m - p := by
  induction m using Nat.strongRecOn generalizing p with
  | _ m ih =>
    by_cases hm : m = 0
    · subst hm
      have := h.le
      have : p = 0 := by omega
      subst this; simp
    · have h' := (nsub_iff p m).1 h
      have e := ih (m / 2) (by omega) (p / 2) h'.1
      have l := h'.1.le
      have d := xor_div2 p m
      have r := xor_mod2 p m
      have r' : (p ^^^ m) % 2 = m % 2 - p % 2 := by
        rw [r]
        rcases Nat.mod_two_eq_zero_or_one p with hp | hp <;>
          rcases Nat.mod_two_eq_zero_or_one m with hm | hm <;> simp_all
      omega

theorem xor_antitone {w : Nat} (mask p q : BitVec w) (hp : p &&& mask = p) (hq : q &&& mask = q)
    (h : q < p) : p ^^^ mask < q ^^^ mask := by
  have hp' : NSub p.toNat mask.toNat := by rw [NSub, ← BitVec.toNat_and, hp]
  have hq' : NSub q.toNat mask.toNat := by rw [NSub, ← BitVec.toNat_and, hq]
  rw [BitVec.lt_def] at *
  rw [BitVec.toNat_xor, BitVec.toNat_xor, xor_eq_sub _ _ hp', xor_eq_sub _ _ hq']
  have := hp'.le
  omega

theorem pairwise_gt_eq {w : Nat} (l₁ l₂ : List (BitVec w)) (h₁ : l₁.Pairwise (· > ·))
    (h₂ : l₂.Pairwise (· > ·)) (h : ∀ x, x ∈ l₁ ↔ x ∈ l₂) : l₁ = l₂ := by
  induction l₁ generalizing l₂ with
  | nil =>
    cases l₂ with
    | nil => rfl
    | cons b l₂ => exact absurd ((h b).2 (by simp)) (by simp)
  | cons a l₁ ih =>
    cases l₂ with
    | nil => exact absurd ((h a).1 (by simp)) (by simp)
    | cons b l₂ =>
      rw [List.pairwise_cons] at h₁ h₂
      have hab : a = b := by
        have h1 := (h a).1 (by simp)
        have h2 := (h b).2 (by simp)
        rw [List.mem_cons] at h1 h2
        rcases h1 with h1 | h1
        · exact h1
        · rcases h2 with h2 | h2
          · exact h2.symm
          · have x := h₁.1 _ h2
            have y := h₂.1 _ h1
            simp only [gt_iff_lt, BitVec.lt_def] at x y
            omega
      subst hab
      congr 1
      apply ih _ h₁.2 h₂.2
      intro x
      constructor
      · intro hx
        have := (h x).1 (List.mem_cons_of_mem _ hx)
        rw [List.mem_cons] at this
        rcases this with e | e
        · subst e
          have := h₁.1 _ hx
          simp only [gt_iff_lt, BitVec.lt_def] at this
          omega
        · exact e
      · intro hx
        have := (h x).2 (List.mem_cons_of_mem _ hx)
        rw [List.mem_cons] at this
        rcases this with e | e
        · subst e
          have := h₂.1 _ hx
          simp only [gt_iff_lt, BitVec.lt_def] at this
          omega
        · exact e

theorem xor_sub {w : Nat} (mask p : BitVec w) (hp : p &&& mask = p) :
    (p ^^^ mask) &&& mask = p ^^^ mask := by
  have h : ∀ i (hi : i < w), (p[i] && mask[i]) = p[i] := by
    intro i hi
    rw [← BitVec.getElem_and, hp]
  apply BitVec.eq_of_getElem_eq
  intro i hi
  have := h i hi
  rw [BitVec.getElem_and, BitVec.getElem_xor]
  revert this
  cases p[i] <;> cases mask[i] <;> simp

/-- The complement reverses the enumeration. -/
theorem map_xor_run {w : Nat} (mask : BitVec w) :
    (run mask (2 ^ popcount mask.toNat) mask).map (· ^^^ mask) =
      (run mask (2 ^ popcount mask.toNat) mask).reverse := by
  rw [← List.reverse_inj, List.reverse_reverse]
  apply pairwise_gt_eq
  · rw [List.pairwise_reverse, List.pairwise_map]
    refine (pairwise_run mask).imp_of_mem ?_
    intro a b ha hb hab
    rw [mem_run] at ha hb
    exact xor_antitone mask a b ha hb hab
  · exact pairwise_run mask
  · intro x
    rw [List.mem_reverse, List.mem_map, mem_run]
    constructor
    · rintro ⟨a, ha, rfl⟩
      rw [mem_run] at ha
      exact xor_sub mask a ha
    · intro hx
      refine ⟨x ^^^ mask, (mem_run _ _).2 (xor_sub mask x hx), ?_⟩
      rw [BitVec.xor_assoc, BitVec.xor_self, BitVec.xor_zero]

theorem popcount_pos (n : Nat) (h : n ≠ 0) : 0 < popcount n := by
  induction n using Nat.strongRecOn with
  | _ n ih =>
    rw [popcount, if_neg h]
    rcases Nat.mod_two_eq_zero_or_one n with hn | hn
    · have := ih (n / 2) (by omega) (by omega)
      omega
    · omega

theorem clear_div2_even (n : Nat) (h : n ≠ 0) (he : n % 2 = 0) :
    (n &&& (n - 1)) = 2 * ((n / 2) &&& (n / 2 - 1)) := by
  have d := and_div2 n (n - 1)
  have r := and_mod2 n (n - 1)
  rw [he, Nat.zero_and] at r
  have e1 : (n - 1) / 2 = n / 2 - 1 := by omega
  rw [e1] at d
  omega

theorem clear_div2_odd (n : Nat) (he : n % 2 = 1) : (n &&& (n - 1)) = 2 * (n / 2) := by
  have d := and_div2 n (n - 1)
  have r := and_mod2 n (n - 1)
  have e1 : (n - 1) / 2 = n / 2 := by omega
  have e2 : (n - 1) % 2 = 0 := by omega
  rw [e1, Nat.and_self] at d
  rw [e2, Nat.and_zero] at r
  omega

theorem popcount_double (n : Nat) : popcount (2 * n) = popcount n := by
  by_cases h : n = 0
  · subst h; rfl
  · rw [popcount, if_neg (by omega)]
    have e1 : 2 * n % 2 = 0 := by omega
    have e2 : 2 * n / 2 = n := by omega
    rw [e1, e2]; omega

theorem popcount_clear (n : Nat) (h : n ≠ 0) : popcount (n &&& (n - 1)) + 1 = popcount n := by
  induction n using Nat.strongRecOn with
  | _ n ih =>
    rcases Nat.mod_two_eq_zero_or_one n with hn | hn
    · rw [clear_div2_even n h hn, popcount_double, ih (n / 2) (by omega) (by omega)]
      conv => rhs; rw [popcount, if_neg h]
      omega
    · rw [clear_div2_odd n hn, popcount_double]
      conv => rhs; rw [popcount, if_neg h]
      omega

theorem testBit_two_mul_succ (n i : Nat) : (2 * n).testBit (i + 1) = n.testBit i := by
  rw [Nat.testBit_succ]; congr 1; omega

theorem testBit_clear (n i : Nat) (h : n ≠ 0) :
    (n &&& (n - 1)).testBit i = (n.testBit i && decide (ctz n < i)) ∧ n.testBit (ctz n) = true ∧
      (∀ j, j < ctz n → n.testBit j = false) := by
  induction n using Nat.strongRecOn generalizing i with
  | _ n ih =>
    rcases Nat.mod_two_eq_zero_or_one n with hn | hn
    · have ih' := fun i => ih (n / 2) (by omega) i (by omega)
      have hc : ctz n = ctz (n / 2) + 1 := by rw [ctz, if_neg h, if_neg (by omega)]
      rw [clear_div2_even n h hn, hc]
      refine ⟨?_, ?_, ?_⟩
      · cases i with
        | zero => simp
        | succ i =>
          rw [testBit_two_mul_succ, (ih' i).1, Nat.testBit_succ n]
          simp
      · rw [Nat.testBit_succ]; exact (ih' 0).2.1
      · intro j hj
        cases j with
        | zero => simp; omega
        | succ j => rw [Nat.testBit_succ]; exact (ih' 0).2.2 j (by omega)
    · have hc : ctz n = 0 := by rw [ctz, if_neg h, if_pos hn]
      rw [clear_div2_odd n hn, hc]
      refine ⟨?_, ?_, ?_⟩
      · cases i with
        | zero => simp
        | succ i =>
          rw [testBit_two_mul_succ, Nat.testBit_succ n]
          simp
      · simp [hn]
      · intro j hj; omega

theorem onBitsRun_spec {w : Nat} (n : Nat) (m : BitVec w) (h : popcount m.toNat = n) :
    (onBitsRun n m).Pairwise (· < ·) ∧ ∀ i, i ∈ onBitsRun n m ↔ m.toNat.testBit i = true := by
  induction n generalizing m with
  | zero =>
    have h0 : m.toNat = 0 := by
      by_cases h0 : m.toNat = 0
      · exact h0
      · have := popcount_pos _ h0; omega
    simp [onBitsRun, h0]
  | succ n ih =>
    have h0 : m.toNat ≠ 0 := by
      intro h0; rw [h0] at h; simp [popcount] at h
    have hw : 1 < 2 ^ w := by have := m.isLt; omega
    have hp1 : (m - 1).toNat = m.toNat - 1 := by
      have hle : (1 : BitVec w) ≤ m := by
        rw [BitVec.le_def]
        simp
        rw [Nat.mod_eq_of_lt hw]
        omega
      rw [BitVec.toNat_sub_of_le hle]
      simp [Nat.mod_eq_of_lt hw]
    have e : (m &&& (m - 1)).toNat = m.toNat &&& (m.toNat - 1) := by
      rw [BitVec.toNat_and, hp1]
    have hpc : popcount (m &&& (m - 1)).toNat = n := by
      have := popcount_clear m.toNat h0
      rw [e]; omega
    obtain ⟨i1, i2⟩ := ih (m &&& (m - 1)) hpc
    have tb := fun i => testBit_clear m.toNat i h0
    rw [e] at i2
    rw [onBitsRun]
    refine ⟨List.pairwise_cons.2 ⟨?_, i1⟩, ?_⟩
    · intro j hj
      rw [i2, (tb j).1] at hj
      simp at hj
      exact hj.2
    · intro i
      rw [List.mem_cons, i2, (tb i).1]
      constructor
      · rintro (rfl | h)
        · exact (tb 0).2.1
        · simp at h; exact h.1
      · intro hi
        by_cases hlt : ctz m.toNat < i
        · right; simp [hi, hlt]
        · left
          by_cases heq : i = ctz m.toNat
          · exact heq
          · have := (tb 0).2.2 i (by omega)
            rw [this] at hi; simp at hi

end SeQuant.Bits
