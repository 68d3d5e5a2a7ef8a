import Verif.Optimize.FusionModel
import Verif.Expression.Lemmas
import Verif.Expression.Instances
import Mathlib.Tactic.FieldSimp
import Mathlib.Tactic.Ring
import Mathlib.Algebra.Order.Ring.Rat
import Mathlib.Tactic.Positivity
import Mathlib.Tactic.Linarith
import Mathlib.Data.Int.GCD
import Mathlib.Data.Rat.Cast.CharZero

/-! # Properties of the fusion of two products (C35) -/

namespace SeQuant.Optimize

open SeQuant.Expression

/-! ### Scalars -/

theorem gcdRational_nonneg (a b : ℚ) : 0 ≤ gcdRational a b := by
  unfold gcdRational; positivity

theorem gcdRational_eq_zero (a b : ℚ) : gcdRational a b = 0 ↔ a = 0 ∧ b = 0 := by
  have ha : (a.den : ℚ) ≠ 0 := by exact_mod_cast a.den_nz
  have hb : (b.den : ℚ) ≠ 0 := by exact_mod_cast b.den_nz
  unfold gcdRational
  rw [div_eq_zero_iff, or_iff_left (mul_ne_zero ha hb)]
  rw [Nat.cast_eq_zero, Int.gcd_eq_zero_iff]
  simp [a.den_nz, b.den_nz]

/-- An element of the rationals is the integer `k` times the common divisor. -/
theorem gcdRational_quot (a b : ℚ) (h : gcdRational a b ≠ 0) :
    ∃ k m : ℤ, a / gcdRational a b = k ∧ b / gcdRational a b = m ∧ Int.gcd k m = 1 := by
  have ha : (a.den : ℚ) ≠ 0 := by exact_mod_cast a.den_nz
  have hb : (b.den : ℚ) ≠ 0 := by exact_mod_cast b.den_nz
  set g := Int.gcd (a.num * b.den) (b.num * a.den) with hg
  have hg0 : g ≠ 0 := by
    intro h0
    apply h
    unfold gcdRational
    rw [← hg, h0]; simp
  have hgq : (g : ℚ) ≠ 0 := by exact_mod_cast hg0
  obtain ⟨k, hk⟩ : (g : ℤ) ∣ a.num * b.den := Int.gcd_dvd_left ..
  obtain ⟨m, hm⟩ : (g : ℤ) ∣ b.num * a.den := Int.gcd_dvd_right ..
  have hkq : (a.num : ℚ) * b.den = g * k := by exact_mod_cast hk
  have hmq : (b.num : ℚ) * a.den = g * m := by exact_mod_cast hm
  refine ⟨k, m, ?_, ?_, ?_⟩
  · have e : a = a.num / a.den := (Rat.num_div_den a).symm
    unfold gcdRational
    rw [← hg]
    rw [div_eq_iff (div_ne_zero hgq (mul_ne_zero ha hb))]
    rw [show (k : ℚ) * (g / (a.den * b.den)) = (g * k) / (a.den * b.den) by ring, ← hkq]
    field_simp
    rw [mul_comm]
    exact Rat.den_mul_eq_num a
  · unfold gcdRational
    rw [← hg]
    rw [div_eq_iff (div_ne_zero hgq (mul_ne_zero ha hb))]
    rw [show (m : ℚ) * (g / (a.den * b.den)) = (g * m) / (a.den * b.den) by ring, ← hmq]
    field_simp
    rw [mul_comm]
    exact Rat.den_mul_eq_num b
  · have h1 : Int.gcd ((g : ℤ) * k) (g * m) = g * Int.gcd k m := by
      rw [Int.gcd_mul_left]; simp
    rw [← hk, ← hm, ← hg] at h1
    have : g * 1 = g * Int.gcd k m := by rw [mul_one]; exact h1
    exact (Nat.eq_of_mul_eq_mul_left (Nat.pos_of_ne_zero hg0) this).symm

/-- **C35**: the scalars are recovered by multiplying, the remaining ones are coprime integers, and they are not both negative. -/
theorem fuseScalar_correct (a b s x y : ℚ) (h : fuseScalar a b = some (s, x, y)) :
    s * x = a ∧ s * y = b ∧ (∃ k m : ℤ, x = k ∧ y = m ∧ Int.gcd k m = 1) ∧ ¬ (x < 0 ∧ y < 0) := by
  unfold fuseScalar at h
  simp only at h
  split at h
  · cases h
  · rename_i h0
    obtain ⟨k, m, hk, hm, hkm⟩ := gcdRational_quot a b h0
    have hpos : 0 < gcdRational a b := lt_of_le_of_ne (gcdRational_nonneg a b) (Ne.symm h0)
    split at h
    · rename_i hn
      cases h
      refine ⟨by field_simp, by field_simp, ⟨-k, -m, by rw [hk]; push_cast; ring, by rw [hm]; push_cast; ring, ?_⟩, ?_⟩
      · simpa using hkm
      · rintro ⟨h1, -⟩
        have := div_neg_of_neg_of_pos hn.1 hpos
        linarith
    · rename_i hn
      cases h
      refine ⟨by field_simp, by field_simp, ⟨k, m, hk, hm, hkm⟩, ?_⟩
      rintro ⟨h1, h2⟩
      apply hn
      constructor
      · by_contra hc; exact absurd (div_nonneg (not_lt.1 hc) hpos.le) (not_le.2 h1)
      · by_contra hc; exact absurd (div_nonneg (not_lt.1 hc) hpos.le) (not_le.2 h2)

/-- The scalars are fused unless both are zero. -/
theorem fuseScalar_none (a b : ℚ) : fuseScalar a b = none ↔ a = 0 ∧ b = 0 := by
  unfold fuseScalar
  simp only
  rw [← gcdRational_eq_zero]
  split
  · simp_all
  · split <;> simp_all

example : fuseScalar (-3/4) (-9/2) = some (-3/4, 1, 6) := by decide +kernel
example : fuseScalar (2/3) (-1/2) = some (1/6, 4, -3) := by decide +kernel

/-! ### Products -/

variable {K A R : Type} [Field K] [DecidableEq K] [Atoms K A] [Ring R] [Algebra K R] {I : A → R}

omit [Field K] [DecidableEq K] [Atoms K A] in
/-- The result of the loop is the longest common part at the front. -/
theorem commonPrefix_spec (eqv : Expr K A → Expr K A → Bool) (l r : List (Expr K A)) :
    ∃ l₁ l₂ r₁ r₂, l = l₁ ++ l₂ ∧ r = r₁ ++ r₂ ∧ commonPrefix eqv l r = l₁ ∧ l₁.length = r₁.length ∧
      (∀ p ∈ l₁.zip r₁, eqv p.1 p.2 = true) ∧ (∀ a b, l₂.head? = some a → r₂.head? = some b → eqv a b = false) := by
  induction l generalizing r with
  | nil => exact ⟨[], [], [], r, rfl, rfl, rfl, rfl, by simp, by simp⟩
  | cons a l ih =>
    cases r with
    | nil => exact ⟨[], a :: l, [], [], rfl, rfl, rfl, rfl, by simp, by simp⟩
    | cons b r =>
      simp only [commonPrefix]
      split
      · rename_i h
        obtain ⟨l₁, l₂, r₁, r₂, h1, h2, h3, h4, h5, h6⟩ := ih r
        refine ⟨a :: l₁, l₂, b :: r₁, r₂, by rw [h1]; rfl, by rw [h2]; rfl, by rw [h3], by simp [h4], ?_, h6⟩
        intro p hp
        simp only [List.zip_cons_cons, List.mem_cons] at hp
        rcases hp with rfl | hp
        · exact h
        · exact h5 p hp
      · rename_i h
        refine ⟨[], a :: l, [], b :: r, rfl, rfl, rfl, rfl, by simp, ?_⟩
        intro a' b' ha hb
        simp only [List.head?_cons, Option.some.injEq] at ha hb
        subst ha hb
        simpa using h

omit [DecidableEq K] [Atoms K A] in
theorem map_zip (eqv : Expr K A → Expr K A → Bool) (heq : ∀ a b, eqv a b = true → eval I a = eval I b) (l r : List (Expr K A))
    (hl : l.length = r.length) (h : ∀ p ∈ l.zip r, eqv p.1 p.2 = true) : l.map (eval I) = r.map (eval I) := by
  induction l generalizing r with
  | nil => cases r with
    | nil => rfl
    | cons _ _ => simp at hl
  | cons a l ih =>
    cases r with
    | nil => simp at hl
    | cons b r =>
      simp only [List.map_cons]
      rw [heq a b (h (a, b) (by simp)), ih r (by simpa using hl) (fun p hp => h p (by simp [hp]))]

theorem liftTensor_val (hI : Interp K I) (e : Expr K A) : eval I (liftTensor e) = eval I e := by
  unfold liftTensor
  split
  · split
    · rename_i h
      subst h
      simp [eval, evalProd]
    · rw [mkProd_val hI]; rfl
  · rw [mkProd_val hI]; rfl
  · rfl

theorem scaledProd_val (hI : Interp K I) (c : K) (l : List (Expr K A)) : eval I (scaledProd c l) = c • evalProd I l := by
  have h := mkProd_val (I := I) hI .Recursively (1 : K) l
  unfold scaledProd
  unfold mkProd at h ⊢
  simp only [eval, one_smul] at h ⊢
  rw [mul_comm, mul_smul, h]

/-- What is assumed of the real part. -/
def RealPart (re : K → Option ℚ) : Prop := ∀ c q, re c = some q → c = (q : K)

omit [DecidableEq K] in
theorem fuseScalars_correct [CharZero K] (re : K → Option ℚ) (hre : RealPart re) (c d : K) (s x y : ℚ) (h : fuseScalars re c d = some (s, x, y)) :
    (s : K) * x = c ∧ (s : K) * y = d := by
  unfold fuseScalars at h
  split at h
  · rename_i a b ha hb
    obtain ⟨h1, h2, -⟩ := fuseScalar_correct a b s x y h
    rw [hre _ _ ha, hre _ _ hb, ← h1, ← h2]
    push_cast
    exact ⟨rfl, rfl⟩
  · cases h

/-- **C35** (left): the fused expression is the sum of the two products, in every algebra and for every interpretation in which equal
expressions have equal values. -/
theorem fuseLeft_correct [CharZero K] (hI : Interp K I) (eqv : Expr K A → Expr K A → Bool) (heq : ∀ a b, eqv a b = true → eval I a = eval I b)
    (re : K → Option ℚ) (hre : RealPart re) (c : K) (l : List (Expr K A)) (d : K) (r : List (Expr K A)) (e : Expr K A)
    (h : fuseLeft eqv re c l d r = some (some e)) :
    eval I e = eval I (.prod c l) + eval I (.prod d r) := by
  obtain ⟨l₁, l₂, r₁, r₂, rfl, rfl, hp, hlen, hz, -⟩ := commonPrefix_spec eqv l r
  unfold fuseLeft at h
  simp only [hp] at h
  split at h
  · cases h
  · split at h
    · cases h
    · rename_i s x y hs
      obtain ⟨e1, e2⟩ := fuseScalars_correct re hre c d s x y hs
      simp only [Option.some.injEq] at h
      subst h
      rw [mkProd_val hI]
      simp only [evalProd, one_smul, mul_one, mkSum_val hI, evalSum, add_zero, liftTensor_val hI, scaledProd_val hI, eval]
      rw [List.drop_left, hlen, List.drop_left, evalProd_append, evalProd_append, evalProd_eq I r₁, ← map_zip eqv heq l₁ r₁ hlen hz,
        ← evalProd_eq, ← e1, ← e2]
      simp only [mul_add, mul_smul, smul_mul_assoc, mul_smul_comm]
      rw [smul_comm (x : K) (s : K), smul_comm (y : K) (s : K)]

/-- **C35** (right). -/
theorem fuseRight_correct [CharZero K] (hI : Interp K I) (eqv : Expr K A → Expr K A → Bool) (heq : ∀ a b, eqv a b = true → eval I a = eval I b)
    (re : K → Option ℚ) (hre : RealPart re) (c : K) (l : List (Expr K A)) (d : K) (r : List (Expr K A)) (e : Expr K A)
    (h : fuseRight eqv re c l d r = some (some e)) :
    eval I e = eval I (.prod c l) + eval I (.prod d r) := by
  obtain ⟨l₁, l₂, r₁, r₂, hl, hr, hp, hlen, hz, -⟩ := commonPrefix_spec eqv l.reverse r.reverse
  have hl' : l = l₂.reverse ++ l₁.reverse := by rw [← List.reverse_append, ← hl, List.reverse_reverse]
  have hr' : r = r₂.reverse ++ r₁.reverse := by rw [← List.reverse_append, ← hr, List.reverse_reverse]
  unfold fuseRight at h
  simp only [hp] at h
  split at h
  · cases h
  · split at h
    · cases h
    · rename_i s x y hs
      obtain ⟨e1, e2⟩ := fuseScalars_correct re hre c d s x y hs
      simp only [Option.some.injEq] at h
      subst h
      rw [mkProd_val hI]
      simp only [evalProd, one_smul, mul_one, mkSum_val hI, evalSum, add_zero, liftTensor_val hI, scaledProd_val hI, eval]
      rw [List.length_reverse, hl, List.drop_left, hr, hlen, List.drop_left, hl', hr', evalProd_append, evalProd_append]
      rw [evalProd_eq I r₁.reverse, List.map_reverse, ← map_zip eqv heq l₁ r₁ hlen hz, ← List.map_reverse, ← evalProd_eq, ← e1, ← e2]
      simp only [add_mul, mul_smul, smul_mul_assoc, mul_smul_comm, smul_add]

/-- The products are fused from the left exactly when their first factors are equal, their scalars real and not both zero. -/
theorem fuseLeft_some (eqv : Expr K A → Expr K A → Bool) (re : K → Option ℚ) (c : K) (l : List (Expr K A)) (d : K) (r : List (Expr K A)) :
    (∃ e, fuseLeft eqv re c l d r = some (some e)) ↔
      (∃ a b, l.head? = some a ∧ r.head? = some b ∧ eqv a b = true) ∧ ∃ p q, re c = some p ∧ re d = some q ∧ ¬ (p = 0 ∧ q = 0) := by
  have h1 : (commonPrefix eqv l r).isEmpty = false ↔ ∃ a b, l.head? = some a ∧ r.head? = some b ∧ eqv a b = true := by
    cases l with
    | nil => simp [commonPrefix]
    | cons a l =>
      cases r with
      | nil => simp [commonPrefix]
      | cons b r =>
        simp only [commonPrefix]
        split <;> simp_all
  have h2 : (∃ t, fuseScalars re c d = some t) ↔ ∃ p q, re c = some p ∧ re d = some q ∧ ¬ (p = 0 ∧ q = 0) := by
    unfold fuseScalars
    split
    · rename_i p q hp hq
      rw [← Option.ne_none_iff_exists', Ne, fuseScalar_none]
      simp [hp, hq]
    · rename_i hn
      constructor
      · rintro ⟨t, ht⟩; cases ht
      · rintro ⟨p, q, hp, hq, -⟩; exact absurd hq (hn p q hp)
  rw [← h1, ← h2]
  unfold fuseLeft
  simp only
  split
  · simp_all
  · rename_i hne
    have : (commonPrefix eqv l r).isEmpty = false := by simpa using hne
    split
    · simp_all
    · simp_all

namespace FusionInst

/-- Atoms are numbers, none is zero, scalars are rational. -/
instance : Atoms ℚ Nat where
  isZero _ := false
  flat _ := none

def eqv : Expr ℚ Nat → Expr ℚ Nat → Bool
  | .atom a, .atom b => decide (a = b)
  | _, _ => false

theorem eqv_sound {R : Type} [Ring R] [Algebra ℚ R] (I : Nat → R) (a b : Expr ℚ Nat) (h : eqv a b = true) : eval I a = eval I b := by
  cases a <;> cases b <;> simp [eqv] at h
  subst h
  rfl

theorem re_sound : RealPart (fun c : ℚ => some c) := by
  intro c q h
  cases h
  simp

mutual
/-- An expression as a list of rationals, for comparison. -/
def toks : Expr ℚ Nat → List ℚ
  | .const c => [0, c]
  | .atom n => [1, n]
  | .prod c l => [2, c, l.length] ++ toksL l
  | .sum _ l => [3, (l.length : ℚ)] ++ toksL l
def toksL : List (Expr ℚ Nat) → List ℚ
  | [] => []
  | e :: l => toks e ++ toksL l
end

/-- `2 x y + 4 x z = 2 x (y + 2 z)` -/
example : (fuseLeft eqv some 2 [.atom 0, .atom 1] 4 [.atom 0, .atom 2]).map (Option.map toks) =
    some (some (toks (.prod 2 [.atom 0, .sum none [.atom 1, .prod 2 [.atom 2]]]))) := by decide +kernel

/-- `-x y z - 3/2 z = (2 x y + 3) (-1/2 z)`, the order of the factors is kept -/
example : (fuseRight eqv some (-1) [.atom 0, .atom 1, .atom 2] (-3/2) [.atom 2]).map (Option.map toks) =
    some (some (toks (.prod (-1/2) [.sum none [.prod 2 [.atom 0, .atom 1], .prod 3 []], .atom 2]))) := by decide +kernel

/-- Two products with scalar 0 are not fused: the division by their common divisor throws. -/
theorem fuse_zero : fuseLeft eqv some 0 [.atom 0, .atom 1] 0 [.atom 0, .atom 2] = none := by
  have : fuseScalars (some : ℚ → Option ℚ) 0 0 = none := by decide +kernel
  unfold fuseLeft
  rw [this]
  simp [commonPrefix, eqv]

end FusionInst

end SeQuant.Optimize
