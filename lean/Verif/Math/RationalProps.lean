import Verif.Math.RationalModel
import Mathlib.Tactic.Linarith
import Mathlib.Tactic.FieldSimp
import Mathlib.Tactic.Ring
import Mathlib.Tactic.Positivity
import Mathlib.Algebra.Order.Floor.Ring
import Mathlib.Data.Rat.Lemmas
import Mathlib.Algebra.Order.Archimedean.Basic
import Mathlib.RingTheory.Coprime.Lemmas

/-! # Rational approximation (C38) -/

namespace SeQuant.Arith

/-- Neighbours in the Stern-Brocot tree. -/
def Unimod (l u : ℚ) : Prop := u.num * l.den - l.num * u.den = 1

theorem unimod_start : Unimod 0 1 := by simp [Unimod]

theorem mediant_parts {l u : ℚ} (h : Unimod l u) : (mediant l u).num = l.num + u.num ∧ (mediant l u).den = l.den + u.den := by
  unfold Unimod at h
  have hd : (0 : ℤ) < ((l.den + u.den : ℕ) : ℤ) := by have := l.pos; have := u.pos; omega
  have hc : Nat.Coprime (l.num + u.num).natAbs ((l.den + u.den : ℕ) : ℤ).natAbs := by
    have : IsCoprime (l.num + u.num) ((l.den + u.den : ℕ) : ℤ) := by
      refine ⟨l.den, -l.num, ?_⟩
      push_cast
      linarith
    exact Int.isCoprime_iff_gcd_eq_one.1 this
  constructor
  · exact Rat.num_div_eq_of_coprime hd hc
  · have := Rat.den_div_eq_of_coprime hd hc
    unfold mediant
    omega

theorem unimod_left {l u : ℚ} (h : Unimod l u) : Unimod l (mediant l u) := by
  obtain ⟨h1, h2⟩ := mediant_parts h
  unfold Unimod at h ⊢
  rw [h1, h2]
  push_cast
  linarith

theorem unimod_right {l u : ℚ} (h : Unimod l u) : Unimod (mediant l u) u := by
  obtain ⟨h1, h2⟩ := mediant_parts h
  unfold Unimod at h ⊢
  rw [h1, h2]
  push_cast
  linarith

/-- The comparisons of the loop. -/
theorem den_mul_lt (m a : ℚ) : ((m.den : ℚ) * a < m.num) ↔ a < m := by
  have hd : (0 : ℚ) < m.den := by exact_mod_cast m.pos
  conv_rhs => rw [← Rat.num_div_den m]
  rw [lt_div_iff₀ hd, mul_comm]

theorem lt_den_mul (m a : ℚ) : ((m.num : ℚ) < m.den * a) ↔ m < a := by
  have hd : (0 : ℚ) < m.den := by exact_mod_cast m.pos
  conv_rhs => rw [← Rat.num_div_den m]
  rw [div_lt_iff₀ hd, mul_comm]

theorem loop_value (base : ℤ) (m : ℚ) : ((m.den * base + m.num : ℤ) : ℚ) / ((m.den : ℤ) : ℚ) = base + m := by
  have hd : (m.den : ℚ) ≠ 0 := by exact_mod_cast m.pos.ne'
  have e : m = (m.num : ℚ) / m.den := (Rat.num_div_den m).symm
  rw [show (base : ℚ) + m = base + (m.num : ℚ) / m.den by rw [← e]]
  push_cast
  field_simp

theorem unimod_gap {l u : ℚ} (h : Unimod l u) : u - l = 1 / ((l.den : ℚ) * u.den) := by
  have hl : (l.den : ℚ) ≠ 0 := by exact_mod_cast l.pos.ne'
  have hu : (u.den : ℚ) ≠ 0 := by exact_mod_cast u.pos.ne'
  have h' : (u.num : ℚ) * l.den - l.num * u.den = 1 := by
    unfold Unimod at h
    exact_mod_cast h
  have el : l = (l.num : ℚ) / l.den := (Rat.num_div_den l).symm
  have eu : u = (u.num : ℚ) / u.den := (Rat.num_div_den u).symm
  have : u - l = (u.num : ℚ) / u.den - (l.num : ℚ) / l.den := by rw [← el, ← eu]
  rw [this]
  field_simp
  linarith

/-- Between neighbours all denominators are large. -/
theorem unimod_between {l u q : ℚ} (h : Unimod l u) (h1 : l < q) (h2 : q < u) : l.den + u.den ≤ q.den := by
  have hl := l.pos
  have hu := u.pos
  have a1 : l.num * q.den < q.num * l.den := by
    rw [Rat.lt_iff] at h1; exact h1
  have a2 : q.num * u.den < u.num * q.den := by
    rw [Rat.lt_iff] at h2; exact h2
  unfold Unimod at h
  have a3 : (q.den : ℤ) = u.den * (q.num * l.den - l.num * q.den) + l.den * (u.num * q.den - q.num * u.den) := by
    have e : (q.den : ℤ) = q.den * 1 := by ring
    rw [e]
    conv_lhs => rw [← h]
    ring
  have b1 : (1 : ℤ) ≤ q.num * l.den - l.num * q.den := by omega
  have b2 : (1 : ℤ) ≤ u.num * q.den - q.num * u.den := by omega
  have c1 : (u.den : ℤ) * 1 ≤ u.den * (q.num * l.den - l.num * q.den) := mul_le_mul_of_nonneg_left b1 (by positivity)
  have c2 : (l.den : ℤ) * 1 ≤ l.den * (u.num * q.den - q.num * u.den) := mul_le_mul_of_nonneg_left b2 (by positivity)
  have : (l.den : ℤ) + u.den ≤ q.den := by linarith
  exact_mod_cast this

/-- What the loop returns lies in the interval, and has the least denominator of all fractions in the open interval. -/
theorem sbLoop_sound (base : ℤ) (fp fm : ℚ) (n : Nat) (l u r : ℚ) (hu : Unimod l u) (h1 : l ≤ fm) (h2 : fp ≤ u)
    (h : sbLoop base fp fm n l u = some r) :
    ∃ m : ℚ, r = base + m ∧ fm ≤ m ∧ m ≤ fp ∧ ∀ q : ℚ, fm < q → q < fp → m.den ≤ q.den := by
  induction n generalizing l u with
  | zero => simp [sbLoop] at h
  | succ n ih =>
    simp only [sbLoop] at h
    split at h
    · rename_i hc
      rw [den_mul_lt] at hc
      exact ih l _ (unimod_left hu) h1 hc.le h
    · rename_i hc
      rw [den_mul_lt] at hc
      split at h
      · rename_i hd
        rw [lt_den_mul] at hd
        exact ih _ u (unimod_right hu) hd.le h2 h
      · rename_i hd
        rw [lt_den_mul] at hd
        rw [loop_value] at h
        cases h
        refine ⟨_, rfl, not_lt.1 hd, not_lt.1 hc, ?_⟩
        intro q hq1 hq2
        rw [(mediant_parts hu).2]
        exact unimod_between hu (lt_of_le_of_lt h1 hq1) (lt_of_lt_of_le hq2 h2)

/-- The loop returns within `n` rounds if the interval is wide. -/
theorem sbLoop_total (base : ℤ) (fp fm : ℚ) (n : Nat) (l u : ℚ) (hu : Unimod l u) (h1 : l ≤ fm) (h2 : fp ≤ u)
    (hw : 1 < (fp - fm) * (n + (l.den + u.den - 1))) (hpos : fm < fp) : ∃ r, sbLoop base fp fm n l u = some r := by
  induction n generalizing l u with
  | zero =>
    exfalso
    have hg := unimod_gap hu
    have hl : (1 : ℚ) ≤ l.den := by exact_mod_cast l.pos
    have hu' : (1 : ℚ) ≤ u.den := by exact_mod_cast u.pos
    have e1 : fp - fm ≤ 1 / ((l.den : ℚ) * u.den) := by rw [← hg]; linarith
    have e2 : (l.den : ℚ) + u.den - 1 ≤ l.den * u.den := by nlinarith
    have hp : (0 : ℚ) < (l.den : ℚ) * u.den := by positivity
    have e3 : (fp - fm) * ((l.den : ℚ) * u.den) ≤ 1 := by
      rw [le_div_iff₀ hp] at e1; exact e1
    have e4 : (fp - fm) * ((l.den : ℚ) + u.den - 1) ≤ (fp - fm) * (l.den * u.den) := mul_le_mul_of_nonneg_left e2 (by linarith)
    simp only [Nat.cast_zero, zero_add] at hw
    linarith
  | succ n ih =>
    simp only [sbLoop]
    obtain ⟨-, hden⟩ := mediant_parts hu
    have hl : (1 : ℚ) ≤ l.den := by exact_mod_cast l.pos
    have hu' : (1 : ℚ) ≤ u.den := by exact_mod_cast u.pos
    split
    · rename_i hc
      rw [den_mul_lt] at hc
      refine ih l _ (unimod_left hu) h1 hc.le ?_
      refine lt_of_lt_of_le hw (mul_le_mul_of_nonneg_left ?_ (by linarith))
      rw [hden]
      push_cast
      linarith
    · split
      · rename_i hd
        rw [lt_den_mul] at hd
        refine ih _ u (unimod_right hu) hd.le h2 ?_
        refine lt_of_lt_of_le hw (mul_le_mul_of_nonneg_left ?_ (by linarith))
        rw [hden]
        push_cast
        linarith
      · exact ⟨_, rfl⟩

/-- **C38**: whatever `to_rational` returns is within `eps` of the argument (`eps ≥ 0`; exact for `eps = 0`). -/
theorem toRational_error (n : Nat) (x eps r : ℚ) (he : 0 ≤ eps) (h : toRational n (.fin x) eps = some r) : |r - x| ≤ eps := by
  have hf0 := Int.floor_le x
  have hf1 := Int.lt_floor_add_one x
  simp only [toRational] at h
  split at h
  · cases h; simpa using he
  · simp only [sbtree] at h
    split at h
    · rename_i hc
      cases h
      rw [abs_le]; constructor <;> linarith
    · split at h
      · rename_i hc
        cases h
        push_cast
        rw [abs_le]; constructor <;> linarith
      · rename_i h1 h2
        obtain ⟨m, rfl, m1, m2, -⟩ := sbLoop_sound _ _ _ _ _ _ _ unimod_start (by linarith [not_lt.1 h1]) (by linarith [not_lt.1 h2]) h
        rw [abs_le]; constructor <;> linarith

/-- **C38**: no fraction closer than `eps` has a smaller denominator. -/
theorem toRational_simplest (n : Nat) (x eps r q : ℚ) (he : 0 < eps) (h : toRational n (.fin x) eps = some r) (hq : |q - x| < eps) :
    r.den ≤ q.den := by
  simp only [toRational, if_neg he.ne'] at h
  simp only [sbtree] at h
  split at h
  · cases h
    rw [Rat.den_intCast]
    exact q.pos
  · split at h
    · cases h
      rw [Rat.den_intCast]
      exact q.pos
    · rename_i h1 h2
      obtain ⟨m, rfl, -, -, m3⟩ := sbLoop_sound _ _ _ _ _ _ _ unimod_start (by linarith [not_lt.1 h1]) (by linarith [not_lt.1 h2]) h
      rw [abs_lt] at hq
      have e : ((⌊x⌋ : ℚ) + m).den = m.den := by rw [add_comm]; exact Rat.add_intCast_den m ⌊x⌋
      rw [e]
      have := m3 (q - ⌊x⌋) (by linarith) (by linarith)
      rwa [Rat.sub_intCast_den] at this

/-- **C38** (partial): it returns if the number of rounds allowed exceeds `1 / (2 eps) - 1`.  Missing: with the default of 1000 rounds it
throws for smaller `eps`, see `toRational_throws`. -/
theorem toRational_total_partial (n : Nat) (x eps : ℚ) (he : 0 < eps) (hn : 1 < 2 * eps * (n + 1)) :
    ∃ r, toRational n (.fin x) eps = some r := by
  simp only [toRational, if_neg he.ne']
  simp only [sbtree]
  split
  · exact ⟨_, rfl⟩
  · rename_i h1
    split
    · exact ⟨_, rfl⟩
    · rename_i h2
      refine sbLoop_total _ _ _ n 0 1 unimod_start (by linarith [not_lt.1 h1]) (by linarith [not_lt.1 h2]) ?_ (by linarith)
      have : (x - ⌊x⌋ + eps - (x - ⌊x⌋ - eps)) * ((n : ℚ) + (((0 : ℚ).den : ℚ) + ((1 : ℚ).den : ℚ) - 1)) = 2 * eps * (n + 1) := by
        simp only [Rat.den_zero, Rat.den_one, Nat.cast_one]
        ring
      linarith

/-- **C38**: for every positive `eps` it returns if enough rounds are allowed. -/
theorem toRational_terminates (x eps : ℚ) (he : 0 < eps) : ∃ N, ∀ n ≥ N, ∃ r, toRational n (.fin x) eps = some r ∧ |r - x| ≤ eps := by
  obtain ⟨N, hN⟩ := exists_nat_gt (1 / (2 * eps))
  refine ⟨N, fun n hn => ?_⟩
  have h2 : (0 : ℚ) < 2 * eps := by linarith
  rw [div_lt_iff₀ h2] at hN
  have hn' : (N : ℚ) ≤ n := by exact_mod_cast hn
  obtain ⟨r, hr⟩ := toRational_total_partial n x eps he (by nlinarith)
  exact ⟨r, hr, toRational_error n x eps r he.le hr⟩

/-- What is not a number throws. -/
theorem toRational_nan (n : Nat) (eps : ℚ) : toRational n .nan eps = none ∧ toRational n .inf eps = none := ⟨rfl, rfl⟩

/-- With negative `eps` it always throws, even for integers. -/
theorem toRational_negative (n : Nat) (x eps : ℚ) (he : eps < 0) : toRational n (.fin x) eps = none := by
  have hf0 := Int.floor_le x
  have hf1 := Int.lt_floor_add_one x
  have hloop : ∀ (b : ℤ) (fp fm : ℚ), fp < fm → ∀ n l u, sbLoop b fp fm n l u = none := by
    intro b fp fm hlt n
    induction n with
    | zero => intro l u; rfl
    | succ n ih =>
      intro l u
      simp only [sbLoop]
      split
      · exact ih _ _
      · rename_i h1
        rw [den_mul_lt] at h1
        rw [if_pos (by rw [lt_den_mul]; linarith [not_lt.1 h1])]
        exact ih _ _
  simp only [toRational, if_neg he.ne]
  simp only [sbtree]
  rw [if_neg (by linarith), if_neg (by linarith)]
  exact hloop _ _ _ (by linarith) _ _ _

/-- The search for `1/N` runs through `1/2`, `1/3`, ... -/
theorem sbLoop_unit (base : ℤ) (fp fm : ℚ) (n k : Nat) (hk : fp * (k + n + 1) < 1) (hfp : 0 < fp) :
    sbLoop base fp fm n 0 (1 / (k + 1 : ℕ)) = none := by
  induction n generalizing k with
  | zero => rfl
  | succ n ih =>
    have hn : (0 : ℤ) < ((k + 1 : ℕ) : ℤ) := by omega
    have e1 : (1 / (k + 1 : ℕ) : ℚ).num = 1 := by
      have := Rat.num_div_eq_of_coprime (a := 1) hn (by simp)
      simpa using this
    have e2 : (1 / (k + 1 : ℕ) : ℚ).den = k + 1 := by
      have := Rat.den_div_eq_of_coprime (a := 1) hn (by simp)
      have h3 : ((1 / (k + 1 : ℕ) : ℚ).den : ℤ) = ((k + 1 : ℕ) : ℤ) := by simpa using this
      exact_mod_cast h3
    have hm : mediant 0 (1 / (k + 1 : ℕ)) = 1 / ((k + 1 + 1 : ℕ) : ℚ) := by
      unfold mediant
      rw [e1, e2]
      simp only [Rat.num_zero, Rat.den_zero, zero_add, Int.cast_one]
      congr 1
      push_cast
      ring
    simp only [sbLoop]
    rw [if_pos]
    · rw [hm]
      refine ih (k + 1) ?_
      push_cast at hk ⊢
      linarith
    · rw [den_mul_lt, hm]
      rw [lt_div_iff₀ (by positivity)]
      push_cast at hk ⊢
      have : (0 : ℚ) ≤ fp * n := by positivity
      nlinarith

/-- **C38**, refuted for the default number of rounds: `0.0002` cannot be rationalized to `2^-26`, the default precision of `double`; the
exception that is said to be unreachable is thrown. -/
theorem toRational_throws : toRational 1000 (.fin (1 / 5000)) (1 / 2 ^ 26) = none := by
  have hfl : ⌊(1 / 5000 : ℚ)⌋ = 0 := by
    rw [Int.floor_eq_iff]; constructor <;> norm_num
  simp only [toRational]
  rw [if_neg (by norm_num)]
  simp only [sbtree, hfl]
  rw [if_neg (by norm_num), if_neg (by norm_num)]
  have := sbLoop_unit 0 (1 / 5000 - ((0 : ℤ) : ℚ) + 1 / 2 ^ 26) (1 / 5000 - ((0 : ℤ) : ℚ) - 1 / 2 ^ 26) 1000 0 (by norm_num) (by norm_num)
  simpa using this

/-! ### Examples -/

example : toRational 1000 (.fin (333 / 1000)) (1 / 1000) = some (1 / 3) := by decide +kernel
example : toRational 1000 (.fin (-314159 / 100000)) (1 / 200) = some (-22 / 7) := by decide +kernel
example : toRational 1000 (.fin (1999 / 1000)) (1 / 100) = some 2 := by decide +kernel
example : toRational 3 (.fin (1 / 7)) (1 / 1000) = none := by decide +kernel

end SeQuant.Arith
