import Verif.Scalar.Model
import Mathlib.Analysis.SpecialFunctions.Pow.Real
import Mathlib.Tactic.Ring
import Mathlib.Tactic.FieldSimp
import Mathlib.Tactic.Linarith

/-!
# Complex rationals compute like complex numbers, powers keep their value (C89, C90)
-/

namespace SeQuant.Scalar

open ComplexConjugate

/-- The complex number that a `Complex<rational>` stands for. -/
noncomputable def Cplx.toC (z : Cplx) : ℂ := ⟨(z.re : ℝ), (z.im : ℝ)⟩

namespace Cplx

@[simp] theorem toC_re (z : Cplx) : z.toC.re = (z.re : ℝ) := rfl
@[simp] theorem toC_im (z : Cplx) : z.toC.im = (z.im : ℝ) := rfl

/-- Different complex rationals stand for different numbers, so `operator==` is equality of numbers. -/
theorem toC_inj {z w : Cplx} : z.toC = w.toC ↔ z = w := by
  constructor
  · intro h
    have h1 := congrArg Complex.re h
    have h2 := congrArg Complex.im h
    simp only [toC_re, toC_im, Rat.cast_inj] at h1 h2
    cases z; cases w; simp_all
  · rintro rfl; rfl

theorem toC_ofRat (x : ℚ) : (ofRat x).toC = (x : ℂ) := by
  apply Complex.ext <;> simp [ofRat]

theorem toC_add (z w : Cplx) : (z.add w).toC = z.toC + w.toC := by
  apply Complex.ext <;> simp [add]

theorem toC_sub (z w : Cplx) : (z.sub w).toC = z.toC - w.toC := by
  apply Complex.ext <;> simp [sub]

theorem toC_neg (z : Cplx) : z.neg.toC = -z.toC := by
  apply Complex.ext <;> simp [neg]

theorem toC_mul (z w : Cplx) : (z.mul w).toC = z.toC * w.toC := by
  apply Complex.ext <;> simp [mul]

theorem toC_conj (z : Cplx) : z.conj.toC = conj z.toC := by
  apply Complex.ext <;> simp [Cplx.conj]

theorem toC_addScalar (z : Cplx) (x : ℚ) : (z.addScalar x).toC = z.toC + (x : ℂ) := by
  apply Complex.ext <;> simp [addScalar]

theorem toC_subScalar (z : Cplx) (x : ℚ) : (z.subScalar x).toC = z.toC - (x : ℂ) := by
  apply Complex.ext <;> simp [subScalar]

theorem toC_mulScalar (z : Cplx) (x : ℚ) : (z.mulScalar x).toC = z.toC * (x : ℂ) := by
  apply Complex.ext <;> simp [mulScalar]

theorem toC_scalarMul (x : ℚ) (z : Cplx) : (scalarMul x z).toC = (x : ℂ) * z.toC := by
  apply Complex.ext <;> simp [scalarMul]

theorem normSq_eq (z : Cplx) : ((z.normSq : ℚ) : ℝ) = Complex.normSq z.toC := by
  simp [normSq, Complex.normSq_apply]

theorem normSq_zero (z : Cplx) : z.normSq = 0 ↔ z.toC = 0 := by
  rw [← Complex.normSq_eq_zero, ← normSq_eq]; norm_num

theorem isZero_iff (z : Cplx) : z.isZero = true ↔ z.toC = 0 := by
  have : (0 : ℂ) = (ofRat 0).toC := by rw [toC_ofRat]; simp
  rw [this, toC_inj]; cases z; simp [isZero, ofRat]

theorem isIdentity_iff (z : Cplx) : z.isIdentity = true ↔ z.toC = 1 := by
  have : (1 : ℂ) = (ofRat 1).toC := by rw [toC_ofRat]; simp
  rw [this, toC_inj]; cases z; simp [isIdentity, ofRat]

theorem eqScalar_iff (z : Cplx) (x : ℚ) : z.eqScalar x = true ↔ z.toC = (x : ℂ) := by
  rw [← toC_ofRat, toC_inj]; cases z; simp [eqScalar, ofRat]

/-- **Division** gives the quotient and fails exactly for the divisor zero. -/
theorem div_spec (z w : Cplx) :
    (∀ q, z.div w = .ok q → q.toC = z.toC / w.toC) ∧ (z.div w = .error .divByZero ↔ w.toC = 0) ∧
      (w.toC ≠ 0 → ∃ q, z.div w = .ok q) := by
  unfold div ratInv
  by_cases h : w.normSq = 0
  · have h' := (normSq_zero w).1 h
    simp [h, h', Except.map]
  · have h' : w.toC ≠ 0 := fun x => h ((normSq_zero w).2 x)
    rw [if_neg h]
    refine ⟨?_, by simp [Except.map, h'], fun _ => ⟨_, rfl⟩⟩
    intro q hq
    simp only [Except.map, Except.ok.injEq] at hq
    subst hq
    rw [toC_scalarMul, toC_mul, toC_conj]
    have h2 : ((w.normSq : ℚ) : ℂ) = w.toC * conj w.toC := by
      rw [Complex.mul_conj, ← normSq_eq]; simp
    have h3 : conj w.toC ≠ 0 := by simpa using h'
    push_cast
    rw [h2]
    field_simp

theorem scalarDiv_spec (x : ℚ) (w : Cplx) :
    (∀ q, scalarDiv x w = .ok q → q.toC = (x : ℂ) / w.toC) ∧ (scalarDiv x w = .error .divByZero ↔ w.toC = 0) := by
  have h : scalarDiv x w = (ofRat x).div w := by
    unfold scalarDiv div
    congr 1
    funext n
    simp [scalarMul, mul, ofRat, Cplx.conj]
  rw [h, ← toC_ofRat]
  exact ⟨(div_spec _ _).1, (div_spec _ _).2.1⟩

/-- **Absolute values** are right where they are given, which is on the two axes. -/
theorem abs_spec (z : Cplx) :
    (∀ a, z.abs = .ok a → (a : ℝ) = ‖z.toC‖) ∧ (z.abs = .error .assertion ↔ z.re ≠ 0 ∧ z.im ≠ 0) := by
  unfold abs
  by_cases h : z.re = 0 ∨ z.im = 0
  · rw [if_pos h]
    refine ⟨?_, ?_⟩
    · intro a ha
      simp only [Except.ok.injEq] at ha
      subst ha
      by_cases h2 : z.im = 0
      · rw [if_pos h2]
        have : z.toC = ((z.re : ℝ) : ℂ) := by apply Complex.ext <;> simp [h2]
        rw [this, Complex.norm_real, Real.norm_eq_abs, Rat.cast_abs]
      · rw [if_neg h2]
        have h1 : z.re = 0 := h.resolve_right h2
        have : z.toC = ((z.im : ℝ) : ℂ) * Complex.I := by apply Complex.ext <;> simp [h1]
        rw [this, norm_mul, Complex.norm_real, Complex.norm_I, mul_one, Real.norm_eq_abs, Rat.cast_abs]
    · simp only [reduceCtorEq, false_iff]; tauto
  · rw [if_neg h]
    push Not at h
    simp [h]

end Cplx

/-- Values of constants and variables; a conjugated variable has the conjugate of the value of the variable. -/
noncomputable def Base.val (ρ : Nat → ℂ) : Base → ℂ
  | .const z => z.toC
  | .var l c => if c then conj (ρ l) else ρ l

/-- The value of a power: the principal value, conjugated if marked. -/
noncomputable def Pow.val (ρ : Nat → ℂ) (p : Pow) : ℂ :=
  if p.conjugated then conj (p.base.val ρ ^ (p.exponent : ℂ)) else p.base.val ρ ^ (p.exponent : ℂ)

/-- Values of expressions; `ω` gives those of the other expressions. -/
noncomputable def Sc.val (ρ ω : Nat → ℂ) : Sc → ℂ
  | .base b => b.val ρ
  | .pow p => p.val ρ
  | .other n => ω n

/-- What the constructor asserts. -/
def Pow.WF (p : Pow) : Prop := p.base = .const ⟨0, 0⟩ → 0 ≤ p.exponent

theorem mkPow_ok {b : Option Sc} {e : ℚ} {p : Pow} (h : mkPow b e = .ok p) :
    p.WF ∧ b = some (.base p.base) ∧ p.exponent = e ∧ p.conjugated = false := by
  rcases b with _ | ⟨⟨z⟩ | ⟨l, c⟩⟩ | q | n
  · simp [mkPow] at h
  · simp only [mkPow] at h
    split at h
    · rename_i hz
      simp only [Except.ok.injEq] at h
      subst h
      refine ⟨?_, rfl, rfl, rfl⟩
      intro h0
      simp only [Base.const.injEq] at h0
      subst h0
      simpa [Cplx.isZero] using hz
    · simp at h
  · simp only [mkPow, Except.ok.injEq] at h
    subst h
    exact ⟨by intro h; simp at h, rfl, rfl, rfl⟩
  · simp [mkPow] at h
  · simp [mkPow] at h

/-- The constructor refuses exactly null pointers, other bases and negative powers of zero. -/
theorem mkPow_error (b : Option Sc) (e : ℚ) :
    (∃ p, mkPow b e = .ok p) ↔ ∃ c : Base, b = some (.base c) ∧ (c = .const ⟨0, 0⟩ → 0 ≤ e) := by
  constructor
  · rintro ⟨p, h⟩
    have := mkPow_ok h
    exact ⟨p.base, this.2.1, fun h0 => this.2.2.1 ▸ this.1 h0⟩
  · rintro ⟨c, rfl, h⟩
    rcases c with ⟨⟨x, y⟩⟩ | ⟨l, c⟩
    · simp only [mkPow]
      split
      · exact ⟨_, rfl⟩
      · rename_i hz
        exfalso; apply hz
        by_cases h0 : x = 0 ∧ y = 0
        · have := h (by rw [h0.1, h0.2])
          simp [this]
        · simp [Cplx.isZero, h0]
    · exact ⟨_, rfl⟩

theorem Base.val_adjoint (ρ : Nat → ℂ) (b : Base) : b.adjoint.val ρ = conj (b.val ρ) := by
  rcases b with z | ⟨l, c⟩
  · exact z.toC_conj
  · cases c <;> simp [Base.adjoint, Base.val]

/-- **Adjoint.** -/
theorem conjugate_val (ρ : Nat → ℂ) (p : Pow) : p.conjugate.val ρ = conj (p.val ρ) ∧ (p.WF → p.conjugate.WF) := by
  refine ⟨?_, id⟩
  rcases p with ⟨b, e, c⟩
  cases c <;> simp [Pow.conjugate, Pow.val]

/-- **Copies** are the same. -/
theorem clone_eq (p : Pow) (h : p.WF) : p.clone = .ok p := by
  rcases p with ⟨b, e, c⟩
  obtain ⟨q, hq⟩ := (mkPow_error (some (.base b)) e).2 ⟨b, rfl, h⟩
  have hs := mkPow_ok hq
  unfold Pow.clone
  simp only [hq, Except.map]
  rcases q with ⟨b', e', c'⟩
  simp only [Option.some.injEq, Sc.base.injEq] at hs
  obtain ⟨-, rfl, rfl, rfl⟩ := hs
  cases c <;> rfl

theorem powLoop_val : (f n : Nat) → n ≤ f → (v b : Cplx) → (powLoop f n v b).toC = v.toC * b.toC ^ n
  | 0, n, h, v, b => by
    obtain rfl : n = 0 := by omega
    simp [powLoop]
  | f + 1, n, h, v, b => by
    unfold powLoop
    by_cases hn : n = 0
    · simp [hn]
    · rw [if_neg hn, powLoop_val f (n / 2) (by omega)]
      have hv : (if n % 2 ≠ 0 then v.mul b else v).toC = v.toC * b.toC ^ (n % 2) := by
        rcases Nat.mod_two_eq_zero_or_one n with h2 | h2 <;> simp [h2, Cplx.toC_mul]
      rw [hv]
      have hb : (if n / 2 > 0 then b.mul b else b).toC ^ (n / 2) = (b.toC * b.toC) ^ (n / 2) := by
        by_cases h3 : n / 2 > 0
        · rw [if_pos h3, Cplx.toC_mul]
        · have : n / 2 = 0 := by omega
          simp [this]
      rw [hb, ← pow_two, ← pow_mul, mul_assoc, ← pow_add, Nat.mod_add_div]

theorem sqrtRem_zero {p : Int} (hp : 0 ≤ p) : (sqrtRem p).2 = 0 ↔ IsSquare p := by
  unfold sqrtRem Int.sqrt
  obtain ⟨n, rfl⟩ := Int.eq_ofNat_of_zero_le hp
  simp only [Int.toNat_natCast]
  constructor
  · intro h
    exact ⟨(Nat.sqrt n : Int), by omega⟩
  · rintro ⟨m, hm⟩
    have : n = m.natAbs * m.natAbs := by
      zify; rw [hm, ← abs_mul, abs_mul_self]
    rw [this, Nat.sqrt_eq]; push_cast; ring

theorem sqrtRem_mul {p : Int} (h : (sqrtRem p).2 = 0) : (sqrtRem p).1 * (sqrtRem p).1 = p := by
  unfold sqrtRem at h ⊢
  simp only at h ⊢
  omega

theorem sqrtRem_nonneg (p : Int) : 0 ≤ (sqrtRem p).1 := by
  unfold sqrtRem Int.sqrt; positivity

/-- What the base of the loop is: the base itself for whole exponents, its exact root for half ones. -/
theorem loopBase_some {z : Cplx} {e : ℚ} {b : Cplx} (h : loopBase z e = some b) :
    (e.den = 1 ∧ b = z) ∨ (e.den = 2 ∧ ∃ s : ℚ, 0 ≤ s ∧ b = .ofRat s ∧ z = .ofRat (s * s)) := by
  unfold loopBase at h
  split at h
  · rename_i h1
    simp only [Option.some.injEq] at h
    exact Or.inl ⟨h1, h.symm⟩
  · split at h
    · rename_i h2
      simp only at h
      split at h
      · simp at h
      · rename_i h3
        push Not at h3
        simp only [Option.some.injEq] at h
        refine Or.inr ⟨h2.1, _, ?_, h.symm, ?_⟩
        · have h4 := sqrtRem_nonneg z.re.num
          have h5 := sqrtRem_nonneg z.re.den
          positivity
        · have h4 := sqrtRem_mul h3.1
          have h5 := sqrtRem_mul h3.2
          rcases z with ⟨x, y⟩
          simp only at h2 h4 h5
          simp only [Cplx.ofRat, Cplx.mk.injEq, h2.2.1, and_true]
          rw [div_mul_div_comm, ← Int.cast_mul, ← Int.cast_mul, h4, h5]
          exact (Rat.num_div_den x).symm
    · simp at h

theorem half_pow (s e : ℚ) (hs : 0 ≤ s) (he : e.den = 2) :
    ((s * s : ℚ) : ℂ) ^ (e : ℂ) = ((s : ℚ) : ℂ) ^ e.num := by
  have hs' : (0 : ℝ) ≤ (s : ℝ) := by exact_mod_cast hs
  have hv : ((e : ℚ) : ℝ) = (e.num : ℝ) / 2 := by
    conv_lhs => rw [← Rat.num_div_den e]
    rw [he]; push_cast; rfl
  have h1 : ((s * s : ℚ) : ℂ) ^ (e : ℂ) = (((((s : ℝ) * s) ^ ((e : ℚ) : ℝ)) : ℝ) : ℂ) := by
    rw [Complex.ofReal_cpow (by positivity)]; push_cast; rfl
  rw [h1, hv]
  have h2 : ((s : ℝ) * s) = (s : ℝ) ^ (2 : ℝ) := by
    rw [show (2 : ℝ) = ((2 : ℕ) : ℝ) by norm_num, Real.rpow_natCast]; ring
  rw [h2, ← Real.rpow_mul hs', show (2 : ℝ) * ((e.num : ℝ) / 2) = ((e.num : ℤ) : ℝ) by ring, Real.rpow_intCast]
  push_cast; rfl

/-- The value of the loop. -/
theorem loop_val {z : Cplx} {e : ℚ} {b : Cplx} (h : loopBase z e = some b) :
    b.toC ^ e.num = z.toC ^ (e : ℂ) := by
  rcases loopBase_some h with ⟨h1, rfl⟩ | ⟨h1, s, hs, rfl, rfl⟩
  · have : (e : ℂ) = ((e.num : ℤ) : ℂ) := by
      conv_lhs => rw [← Rat.num_div_den e]
      rw [h1]; push_cast; simp
    rw [this, Complex.cpow_intCast]
  · rw [Cplx.toC_ofRat, Cplx.toC_ofRat, half_pow s e hs h1]

theorem loop_zero {z : Cplx} {e : ℚ} {b : Cplx} (h : loopBase z e = some b) : b.toC = 0 ↔ z.toC = 0 := by
  rcases loopBase_some h with ⟨h1, rfl⟩ | ⟨h1, s, hs, rfl, rfl⟩
  · rfl
  · rw [Cplx.toC_ofRat, Cplx.toC_ofRat]; simp

/-- **Flattening keeps the value**, of all powers that can be made, and does not fail. -/
theorem flatten_val (ρ ω : Nat → ℂ) (x : Sc) (hx : ∀ p, x = .pow p → p.WF) :
    ∃ y, flatten x = .ok y ∧ y.val ρ ω = x.val ρ ω := by
  rcases x with b | p | n
  · exact ⟨_, rfl, rfl⟩
  · have hwf := hx p rfl
    rcases p with ⟨b, e, c⟩
    unfold flatten
    simp only
    by_cases h1 : e = 1
    · rw [if_pos h1]
      refine ⟨_, rfl, ?_⟩
      subst h1
      cases c <;> simp [Sc.val, Pow.val, Base.val_adjoint]
    rw [if_neg h1]
    by_cases h0 : e = 0
    · rw [if_pos h0]
      refine ⟨_, rfl, ?_⟩
      subst h0
      cases c <;> simp [Sc.val, Pow.val, Base.val, Cplx.toC_ofRat]
    rw [if_neg h0]
    rcases b with z | ⟨l, c'⟩
    · simp only
      by_cases hz1 : z = .ofRat 1
      · rw [if_pos hz1]
        refine ⟨_, rfl, ?_⟩
        subst hz1
        cases c <;> simp [Sc.val, Pow.val, Base.val, Cplx.toC_ofRat]
      rw [if_neg hz1]
      cases hb : loopBase z e with
      | none => exact ⟨_, rfl, rfl⟩
      | some b =>
        simp only
        have hl := powLoop_val e.num.natAbs e.num.natAbs le_rfl (.ofRat 1) b
        rw [Cplx.toC_ofRat, Rat.cast_one, one_mul] at hl
        have hv := loop_val hb
        -- the value before conjugation
        have key : ∃ v : Cplx, (if e.num < 0 then (Cplx.ofRat 1).div (powLoop e.num.natAbs e.num.natAbs (.ofRat 1) b)
            else Except.ok (powLoop e.num.natAbs e.num.natAbs (.ofRat 1) b)) = .ok v ∧ v.toC = z.toC ^ (e : ℂ) := by
          by_cases hn : e.num < 0
          · rw [if_pos hn]
            have he : e < 0 := Rat.num_neg.1 hn
            have hz : z.toC ≠ 0 := by
              intro h
              have : z = ⟨0, 0⟩ := by
                have h' := (Cplx.isZero_iff z).2 h
                rcases z with ⟨x, y⟩
                simpa [Cplx.isZero] using h'
              have h2 := hwf (by rw [this])
              simp only at h2
              exact absurd he (not_lt.2 h2)
            have hb0 : b.toC ≠ 0 := fun h => hz ((loop_zero hb).1 h)
            have hp0 : (powLoop e.num.natAbs e.num.natAbs (.ofRat 1) b).toC ≠ 0 := by rw [hl]; exact pow_ne_zero _ hb0
            obtain ⟨q, hq⟩ := (Cplx.div_spec (.ofRat 1) _).2.2 hp0
            refine ⟨q, hq, ?_⟩
            rw [(Cplx.div_spec (.ofRat 1) _).1 q hq, hl, Cplx.toC_ofRat, ← hv]
            have : e.num = -((e.num.natAbs : ℕ) : ℤ) := by omega
            conv_rhs => rw [this]
            rw [zpow_neg, zpow_natCast]; simp
          · rw [if_neg hn]
            refine ⟨_, rfl, ?_⟩
            rw [hl, ← hv]
            have : e.num = ((e.num.natAbs : ℕ) : ℤ) := by omega
            conv_rhs => rw [this]
            rw [zpow_natCast]
        obtain ⟨v, h5, h6⟩ := key
        rw [h5]
        refine ⟨_, rfl, ?_⟩
        cases c
        · simp only [Bool.false_eq_true, if_false, Sc.val, Base.val, Pow.val, h6]
        · simp only [if_true, Sc.val, Base.val, Pow.val, Cplx.toC_conj, h6]
    · exact ⟨_, rfl, rfl⟩
  · exact ⟨_, rfl, rfl⟩

/-- Flattening a power of a constant with a whole exponent gives a constant. -/
theorem flatten_whole (z : Cplx) (e : ℚ) (c : Bool) (hwf : Pow.WF ⟨.const z, e, c⟩) (he : e.den = 1) :
    ∃ w, flatten (.pow ⟨.const z, e, c⟩) = .ok (.base (.const w)) := by
  obtain ⟨y, hy, -⟩ := flatten_val (fun _ => 0) (fun _ => 0) (.pow ⟨.const z, e, c⟩) (by rintro p hp; cases hp; exact hwf)
  rw [hy]
  unfold flatten at hy
  simp only [loopBase, he, if_true] at hy
  split at hy
  · simp only [Except.ok.injEq] at hy
    subst hy
    cases c
    · exact ⟨_, rfl⟩
    · exact ⟨_, rfl⟩
  · split at hy
    · simp only [Except.ok.injEq] at hy
      exact ⟨_, congrArg _ hy.symm⟩
    · split at hy
      · simp only [Except.ok.injEq] at hy
        exact ⟨_, congrArg _ hy.symm⟩
      · revert hy
        generalize (if e.num < 0 then _ else _ : Except Err Cplx) = r
        intro hy
        cases r with
        | error x => simp [Except.map] at hy
        | ok v =>
          simp only [Except.map, Except.ok.injEq] at hy
          exact ⟨_, congrArg _ hy.symm⟩

/-- **Roots are taken whenever they are exact:** a half power of a rational number that is not negative is flattened to a
constant exactly if its value is a complex rational at all. -/
theorem flatten_half_iff (x e : ℚ) (c : Bool) (hwf : Pow.WF ⟨.const (.ofRat x), e, c⟩) (hx : 0 ≤ x) (he : e.den = 2) :
    (∃ w, flatten (.pow ⟨.const (.ofRat x), e, c⟩) = .ok (.base (.const w))) ↔
      ∃ w : Cplx, w.toC = (x : ℂ) ^ (e : ℂ) := by
  obtain ⟨y, hy, hyv⟩ := flatten_val (fun _ => 0) (fun _ => 0) (.pow ⟨.const (.ofRat x), e, c⟩) (by rintro p hp; cases hp; exact hwf)
  have e1 : e ≠ 1 := by rintro rfl; simp at he
  have e0 : e ≠ 0 := by rintro rfl; simp at he
  constructor
  · rintro ⟨w, hw⟩
    rw [hy] at hw
    simp only [Except.ok.injEq] at hw
    subst hw
    simp only [Sc.val, Base.val, Pow.val, Cplx.toC_ofRat] at hyv
    cases c
    · exact ⟨w, by simpa using hyv⟩
    · refine ⟨w.conj, ?_⟩
      rw [Cplx.toC_conj, hyv]; simp
  · rintro ⟨w, hw⟩
    -- `x` is a square
    have hsq : IsSquare x := by
      by_cases hx0 : x = 0
      · exact ⟨0, by simp [hx0]⟩
      have hxp : (0 : ℝ) < (x : ℝ) := by
        have : 0 < x := lt_of_le_of_ne hx (Ne.symm hx0)
        exact_mod_cast this
      have hv : ((e : ℚ) : ℝ) = (e.num : ℝ) / 2 := by
        conv_lhs => rw [← Rat.num_div_den e]
        rw [he]; push_cast; rfl
      have h1 : (x : ℂ) ^ (e : ℂ) = ((((x : ℝ) ^ ((e : ℚ) : ℝ)) : ℝ) : ℂ) := by
        rw [Complex.ofReal_cpow hxp.le]; push_cast; rfl
      rw [h1] at hw
      have h2 : ((w.re : ℚ) : ℝ) = (x : ℝ) ^ ((e : ℚ) : ℝ) := by
        have := congrArg Complex.re hw
        simpa using this
      have h3 : (w.re : ℝ) * (w.re : ℝ) = (x : ℝ) ^ e.num := by
        rw [h2, ← Real.rpow_add hxp, hv, show (e.num : ℝ) / 2 + (e.num : ℝ) / 2 = ((e.num : ℤ) : ℝ) by ring, Real.rpow_intCast]
      have h4 : w.re * w.re = x ^ e.num := by exact_mod_cast h3
      have hodd : e.num % 2 = 1 := by
        by_contra h
        have h5 : 2 ∣ e.num.natAbs := by omega
        have h6 := e.reduced
        rw [he] at h6
        have := Nat.Coprime.eq_one_of_dvd (Nat.Coprime.symm h6) h5
        omega
      obtain ⟨k, hk⟩ : ∃ k, e.num = 2 * k + 1 := ⟨e.num / 2, by omega⟩
      refine ⟨w.re / x ^ k, ?_⟩
      have hk0 : x ^ k ≠ 0 := zpow_ne_zero _ hx0
      rw [div_mul_div_comm, h4, hk, zpow_add₀ hx0, zpow_one, ← zpow_add₀ hx0, show k + k = 2 * k by ring]
      have : x ^ (2 * k) ≠ 0 := zpow_ne_zero _ hx0
      field_simp
    obtain ⟨hn, hd⟩ := Rat.isSquare_iff.1 hsq
    have hn' : (sqrtRem x.num).2 = 0 := (sqrtRem_zero (Rat.num_nonneg.2 hx)).2 hn
    have hd' : (sqrtRem x.den).2 = 0 := (sqrtRem_zero (by positivity)).2 (by obtain ⟨m, hm⟩ := hd; exact ⟨m, by rw [hm]; push_cast; rfl⟩)
    rw [hy]
    unfold flatten at hy
    simp only [if_neg e1, if_neg e0] at hy
    have hlb : loopBase (.ofRat x) e = some (.ofRat (((sqrtRem x.num).1 : ℚ) / ((sqrtRem x.den).1 : ℚ))) := by
      unfold loopBase
      rw [if_neg (by omega), if_pos ⟨he, rfl, hx⟩]
      simp only [Cplx.ofRat, hn', hd', ne_eq, not_true_eq_false, or_self, if_false]
    split at hy
    · simp only [Except.ok.injEq] at hy
      exact ⟨_, congrArg _ hy.symm⟩
    · rw [hlb] at hy
      simp only at hy
      revert hy
      generalize (if e.num < 0 then _ else _ : Except Err Cplx) = r
      intro hy
      cases r with
      | error x => simp [Except.map] at hy
      | ok v =>
        simp only [Except.map, Except.ok.injEq] at hy
        exact ⟨_, congrArg _ hy.symm⟩

theorem cpow_add_of {x : ℂ} {a b : ℚ} (h : x ≠ 0 ∨ (0 ≤ a ∧ 0 ≤ b)) :
    x ^ ((a + b : ℚ) : ℂ) = x ^ (a : ℂ) * x ^ (b : ℂ) := by
  by_cases hx : x = 0
  · subst hx
    obtain ⟨ha, hb⟩ := h.resolve_left (by simp)
    by_cases a0 : a = 0
    · subst a0; simp
    · have hab : a + b ≠ 0 := by
        have : 0 < a := lt_of_le_of_ne ha (Ne.symm a0)
        positivity
      rw [Complex.zero_cpow (by exact_mod_cast hab), Complex.zero_cpow (by exact_mod_cast a0), zero_mul]
  · push_cast; exact Complex.cpow_add _ _ hx

/-- **Multiplication of powers** gives the product. -/
theorem mulAssign_val (ρ ω : Nat → ℂ) (p q : Pow) (that : Sc) (h : p.mulAssign that = .ok q)
    (h0 : p.base.val ρ ≠ 0 ∨ (0 ≤ p.exponent ∧ ∀ r, that = .pow r → 0 ≤ r.exponent)) :
    q.val ρ = p.val ρ * that.val ρ ω := by
  rcases p with ⟨b, e, c⟩
  rcases that with b' | ⟨b', e', c'⟩ | n
  · have key : ∀ d : ℂ, (if c then conj d else d) = (Base.val ρ b') → d = b.val ρ → q = ⟨b, e + 1, c⟩ →
        q.val ρ = Pow.val ρ ⟨b, e, c⟩ * Base.val ρ b' := by
      rintro d hd rfl rfl
      rw [← hd]
      have := cpow_add_of (x := b.val ρ) (a := e) (b := 1) (h0.imp id fun h => ⟨h.1, zero_le_one⟩)
      simp only [Rat.cast_one, Complex.cpow_one] at this
      cases c <;> simp only [Pow.val, this, if_true, Bool.false_eq_true, if_false, map_mul]
    simp only [Sc.val]
    rcases b with z | ⟨l, k⟩ <;> rcases b' with z' | ⟨l', k'⟩
    all_goals simp only [Pow.mulAssign] at h
    all_goals split at h
    all_goals try simp at h
    · rename_i hh
      obtain ⟨rfl, hh⟩ := hh
      simp only [Base.const.injEq] at hh
      subst hh
      exact key _ rfl rfl h.symm
    · rename_i hh; simp at hh
    · rename_i hh; simp at hh
    · rename_i hh
      obtain ⟨rfl, rfl⟩ := hh
      refine key _ ?_ rfl h.symm
      cases k <;> cases c <;> simp [Base.val]
  · simp only [Pow.mulAssign] at h
    split at h
    · rename_i hh
      obtain ⟨rfl, rfl⟩ := hh
      simp only [Except.ok.injEq] at h
      subst h
      have := cpow_add_of (x := b.val ρ) (a := e) (b := e') (h0.imp id fun h => ⟨h.1, h.2 _ rfl⟩)
      cases c <;> simp only [Pow.val, Sc.val, this, if_true, Bool.false_eq_true, if_false, map_mul]
    · simp at h
  · simp [Pow.mulAssign] at h

/-- Powers stay such that the constructor would accept them. -/
theorem mulAssign_wf (p q : Pow) (that : Sc) (h : p.mulAssign that = .ok q) (hp : p.WF) (ht : ∀ r, that = .pow r → r.WF) : q.WF := by
  rcases p with ⟨b, e, c⟩
  intro hb
  rcases that with b' | ⟨b', e', c'⟩ | n
  · have hq : q = ⟨b, e + 1, c⟩ := by
      rcases b with z | ⟨l, k⟩ <;> rcases b' with z' | ⟨l', k'⟩
      all_goals simp only [Pow.mulAssign] at h
      all_goals split at h
      all_goals first | (simp only [Except.ok.injEq] at h; exact h.symm) | simp at h
    subst hq
    have := hp hb
    simp only at this ⊢
    linarith
  · simp only [Pow.mulAssign] at h
    split at h
    · rename_i hh
      obtain ⟨rfl, rfl⟩ := hh
      simp only [Except.ok.injEq] at h
      subst h
      have h1 := hp hb
      have h2 := ht _ rfl hb
      simp only at h1 h2 ⊢
      linarith
    · simp at h
  · simp [Pow.mulAssign] at h

/-- For constant bases nothing has to be assumed. -/
theorem mulAssign_const (ω : Nat → ℂ) (z : Cplx) (e : ℚ) (c : Bool) (q : Pow) (that : Sc)
    (h : Pow.mulAssign ⟨.const z, e, c⟩ that = .ok q) (hp : Pow.WF ⟨.const z, e, c⟩) (ht : ∀ r, that = .pow r → r.WF) (ρ : Nat → ℂ) :
    q.val ρ = Pow.val ρ ⟨.const z, e, c⟩ * that.val ρ ω := by
  apply mulAssign_val _ _ _ _ _ h
  by_cases hz : z.toC = 0
  · right
    have hz' : z = ⟨0, 0⟩ := by
      have h' := (Cplx.isZero_iff z).2 hz
      rcases z with ⟨x, y⟩
      simpa [Cplx.isZero] using h'
    subst hz'
    refine ⟨hp rfl, ?_⟩
    rintro ⟨b', e', c'⟩ rfl
    simp only [Pow.mulAssign] at h
    split at h
    · rename_i hh
      exact ht _ rfl hh.2.symm
    · simp at h
  · exact Or.inl hz

/-- Which factors a power takes up: powers of the same base with the same mark, the same variable as its base with the mark
counted, and, when it is not conjugated, its base. -/
theorem mulAssign_ok_iff (p : Pow) (that : Sc) : (∃ q, p.mulAssign that = .ok q) ↔
    (∃ e, that = .pow ⟨p.base, e, p.conjugated⟩) ∨ (∃ l c, p.base = .var l c ∧ that = .base (.var l (c ^^ p.conjugated))) ∨
      (p.conjugated = false ∧ that = .base p.base) := by
  rcases p with ⟨b, e, c⟩
  rcases that with b' | ⟨b', e', c'⟩ | n
  · rcases b with z | ⟨l, k⟩ <;> rcases b' with z' | ⟨l', k'⟩
    · by_cases hh : c = false ∧ z = z'
      · obtain ⟨rfl, rfl⟩ := hh; simp [Pow.mulAssign]
      · simp only [Pow.mulAssign, Base.const.injEq, if_neg hh]
        simp
        rintro rfl rfl
        exact hh ⟨rfl, rfl⟩
    · simp [Pow.mulAssign]
    · simp [Pow.mulAssign]
    · simp only [Pow.mulAssign]
      by_cases hh : l = l' ∧ (k ^^ c) = k'
      · rw [if_pos hh]
        obtain ⟨rfl, rfl⟩ := hh
        simp
      · rw [if_neg hh]
        simp only [reduceCtorEq, exists_false, Base.var.injEq, Sc.base.injEq, false_or, false_iff]
        rintro (⟨x, y, ⟨rfl, rfl⟩, ⟨h1, h2⟩⟩ | ⟨rfl, h1, h2⟩)
        · exact hh ⟨h1.symm, h2.symm⟩
        · exact hh ⟨h1.symm, by simp [h2]⟩
  · simp only [Pow.mulAssign]
    by_cases hh : c = c' ∧ b = b'
    · obtain ⟨rfl, rfl⟩ := hh
      simp
    · rw [if_neg hh]
      simp only [reduceCtorEq, exists_false, Sc.pow.injEq, Pow.mk.injEq, false_iff]
      rintro (⟨x, rfl, rfl, rfl⟩ | ⟨x, y, -, h⟩ | ⟨-, h⟩)
      · exact hh ⟨rfl, rfl⟩
      · exact h.elim
      · exact h.elim
  · simp [Pow.mulAssign]

/-- **Zero.** A power of a constant is reported as zero exactly if its value is. -/
theorem isZero_iff (ρ : Nat → ℂ) (z : Cplx) (e : ℚ) (c : Bool) (hp : Pow.WF ⟨.const z, e, c⟩) :
    Pow.isZero ⟨.const z, e, c⟩ = true ↔ Pow.val ρ ⟨.const z, e, c⟩ = 0 := by
  have h1 : Pow.val ρ ⟨.const z, e, c⟩ = 0 ↔ z.toC = 0 ∧ e ≠ 0 := by
    cases c <;> simp [Pow.val, Base.val, Complex.cpow_eq_zero_iff]
  rw [h1, ← Cplx.isZero_iff]
  simp only [Pow.isZero, Bool.and_eq_true, decide_eq_true_eq]
  constructor
  · rintro ⟨h, h2⟩; exact ⟨h2, ne_of_gt h⟩
  · rintro ⟨h, h2⟩
    refine ⟨lt_of_le_of_ne (hp ?_) (Ne.symm h2), h⟩
    rcases z with ⟨x, y⟩
    simpa [Cplx.isZero] using h

/-- A power of a variable is never reported as zero. -/
theorem isZero_var (l : Nat) (k : Bool) (e : ℚ) (c : Bool) : Pow.isZero ⟨.var l k, e, c⟩ = false := by
  simp [Pow.isZero]

/-! ### Examples -/

/-- `(1 + 2 i) / (3 - i) = (1 + 7 i) / 10`. -/
example : Cplx.div ⟨1, 2⟩ ⟨3, -1⟩ = .ok ⟨1 / 10, 7 / 10⟩ := by decide +kernel

example : Cplx.div ⟨1, 2⟩ ⟨0, 0⟩ = .error .divByZero := by decide +kernel

/-- `(4/9)^(-3/2) = 27/8`. -/
example : flatten (.pow ⟨.const (.ofRat (4 / 9)), -3 / 2, false⟩) = .ok (.base (.const (.ofRat (27 / 8)))) := by decide +kernel

/-- `((1 + i)^5)^* = -4 + 4 i`. -/
example : flatten (.pow ⟨.const ⟨1, 1⟩, 5, true⟩) = .ok (.base (.const ⟨-4, 4⟩)) := by decide +kernel

/-- The root of 2 stays, and so do the roots of -4 and the cube root of 8, which would be exact. -/
example : (flatten (.pow ⟨.const (.ofRat 2), 1 / 2, false⟩), flatten (.pow ⟨.const (.ofRat (-4)), 1 / 2, false⟩),
    flatten (.pow ⟨.const (.ofRat 8), 1 / 3, false⟩)) =
    (.ok (.pow ⟨.const (.ofRat 2), 1 / 2, false⟩), .ok (.pow ⟨.const (.ofRat (-4)), 1 / 2, false⟩),
      .ok (.pow ⟨.const (.ofRat 8), 1 / 3, false⟩)) := by decide +kernel

/-- `(v^a)^* v^*` is taken up, `(v^a)^* v` is not. -/
example : (Pow.mulAssign ⟨.var 0 false, 1 / 2, true⟩ (.base (.var 0 true)), Pow.mulAssign ⟨.var 0 false, 1 / 2, true⟩ (.base (.var 0 false))) =
    (.ok ⟨.var 0 false, 3 / 2, true⟩, .error .notValid) := by decide +kernel

/-- Without the assumption on the base the product is wrong where the power has no value: `0^(-1) 0`. -/
example : ∃ q, Pow.mulAssign ⟨.var 0 false, -1, false⟩ (.base (.var 0 false)) = .ok q ∧
    q.val (fun _ => 0) ≠ Pow.val (fun _ => 0) ⟨.var 0 false, -1, false⟩ * Sc.val (fun _ => 0) (fun _ => 0) (.base (.var 0 false)) := by
  refine ⟨⟨.var 0 false, 0, false⟩, by decide +kernel, ?_⟩
  simp [Pow.val, Sc.val, Base.val]

end SeQuant.Scalar
