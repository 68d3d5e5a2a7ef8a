import Verif.Einsum.Model
import Mathlib.Tactic.Ring
import Mathlib.Tactic.FieldSimp
import Mathlib.Data.Rat.Cast.CharZero

/-!
# The value of the text of scalars (C100)
-/

namespace SeQuant.Einsum

open SeQuant.Scalar (Cplx Base Pow)

set_option linter.unusedSectionVars false

variable {K : Type} [Field K] [StarRing K]

theorem runToks_append (M : Meaning K) (a b : List Tok) (s : List (Frame K)) : runToks M (a ++ b) s = (runToks M a s).bind (runToks M b) := by
  induction a generalizing s with
  | nil => rfl
  | cons t a ih =>
    simp only [List.cons_append, runToks]
    cases tokStep M s t with
    | none => rfl
    | some s' => simp [ih]

/-- A factor may follow. -/
def Ready (f : Frame K) : Prop := f.cur = none ∧ f.base = none ∧ f.neg = false ∧ f.div = false ∧ f.done = false

/-- A factor `v` was read. -/
def After (f f' : Frame K) (v : K) : Prop := f'.fin = some (f.prod * v) ∧ f'.acc = f.acc ∧ f'.sub = f.sub ∧ f'.conj = f.conj ∧ f'.base = none

/-- The text is a factor or several factors with the product `v`. -/
def Piece (M : Meaning K) (ts : List Tok) (v : K) : Prop := ∀ f r, Ready f → ∃ f', runToks M ts (f :: r) = some (f' :: r) ∧ After f f' v

/-- The text can be used as one operand with the value `v`. -/
def Atom (M : Meaning K) (ts : List Tok) (v : K) : Prop := ∀ (f : Frame K) r, f.cur = none → runToks M ts (f :: r) = (f.operand M v).map (· :: r)

/-- The text is a sum with the value `v`. -/
def Whole (M : Meaning K) (ts : List Tok) (v : K) : Prop :=
  ∀ f r, Ready f → f.prod = 1 → f.sub = false → ∃ f', runToks M ts (f :: r) = some (f' :: r) ∧ f'.total = some (f.acc + v) ∧ f'.conj = f.conj

theorem ready_new (c : Bool) : Ready (Frame.new c : Frame K) := ⟨rfl, rfl, rfl, rfl, rfl⟩

theorem After.cur {f f' : Frame K} {v : K} (h : After f f' v) : f'.cur.isSome = true := by
  have := h.1
  unfold Frame.fin at this
  cases hc : f'.cur with
  | none => rw [hc] at this; simp at this
  | some x => rfl

theorem Atom.piece {M : Meaning K} {ts : List Tok} {v : K} (h : Atom M ts v) : Piece M ts v := by
  intro f r ⟨h1, h2, h3, h4, h5⟩
  refine ⟨{ f with cur := some v }, ?_, ?_, rfl, rfl, rfl, h2⟩
  · rw [h f r h1]; simp [Frame.operand, h1, h2]
  · simp [Frame.fin, h3, h4]

theorem Piece.whole {M : Meaning K} {ts : List Tok} {v : K} (h : Piece M ts v) : Whole M ts v := by
  intro f r hf hp hs
  obtain ⟨f', h1, h2, h3, h4, h5, _⟩ := h f r hf
  refine ⟨f', h1, ?_, h5⟩
  simp [Frame.total, h2, h3, h4, hp, hs]

theorem Whole.eval {M : Meaning K} {ts : List Tok} {v : K} (h : Whole M ts v) : evalToks M ts = some v := by
  obtain ⟨f', h1, h2, _⟩ := h (Frame.new false) [] (ready_new _) rfl rfl
  unfold evalToks
  rw [h1]
  simp only [h2]
  simp [Frame.new]

theorem Whole.paren {M : Meaning K} {ts : List Tok} {v : K} (h : Whole M ts v) : Atom M ([.lpar] ++ ts ++ [.rpar]) v := by
  intro f r hf
  obtain ⟨f', h1, h2, h3⟩ := h (Frame.new false) (f :: r) (ready_new _) rfl rfl
  simp only [Frame.new] at h1 h2 h3
  simp [runToks_append, runToks, tokStep, hf, Frame.new, h1, h2, h3]

theorem Whole.conjParen {M : Meaning K} {ts : List Tok} {v : K} (h : Whole M ts v) : Atom M ([.conjOpen] ++ ts ++ [.rpar]) (star v) := by
  intro f r hf
  obtain ⟨f', h1, h2, h3⟩ := h (Frame.new true) (f :: r) (ready_new _) rfl rfl
  simp only [Frame.new] at h1 h2 h3
  simp [runToks_append, runToks, tokStep, hf, Frame.new, h1, h2, h3]

theorem Piece.mul {M : Meaning K} {a b : List Tok} {v w : K} (ha : Piece M a v) (hb : Piece M b w) : Piece M (a ++ [.star] ++ b) (v * w) := by
  intro f r hf
  obtain ⟨f', h1, h2⟩ := ha f r hf
  have hstep : tokStep M (f' :: r) .star = some ({ f' with prod := f.prod * v, div := false, neg := false, cur := none, done := false } :: r) := by
    simp [tokStep, h2.1]
  obtain ⟨g, g1, g2, g3, g4, g5, g6⟩ := hb { f' with prod := f.prod * v, div := false, neg := false, cur := none, done := false } r ⟨rfl, h2.2.2.2.2, rfl, rfl, rfl⟩
  refine ⟨g, ?_, ?_, g3.trans h2.2.1, g4.trans h2.2.2.1, g5.trans h2.2.2.2.1, g6⟩
  · rw [runToks_append, runToks_append, h1]
    simp only [Option.bind_some, runToks, hstep]
    exact g1
  · rw [g2]
    simp [mul_assoc]

theorem plus_step {M : Meaning K} {f f' : Frame K} {v : K} (h : After f f' v) (hs : f.sub = false) (r : List (Frame K)) :
    ∃ g, tokStep M (f' :: r) .plus = some (g :: r) ∧ Ready g ∧ g.prod = 1 ∧ g.sub = false ∧ g.acc = f.acc + f.prod * v ∧ g.conj = f.conj := by
  refine ⟨{ f' with acc := f.acc + f.prod * v, sub := false, prod := 1, div := false, neg := false, cur := none, done := false }, ?_,
    ⟨rfl, h.2.2.2.2, rfl, rfl, rfl⟩, rfl, rfl, rfl, h.2.2.2.1⟩
  simp [tokStep, h.cur, Frame.total, h.1, h.2.1, h.2.2.1, hs]

theorem minus_step {M : Meaning K} {f f' : Frame K} {v : K} (h : After f f' v) (hs : f.sub = false) (r : List (Frame K)) :
    ∃ g, tokStep M (f' :: r) .minus = some (g :: r) ∧ Ready g ∧ g.prod = 1 ∧ g.sub = true ∧ g.acc = f.acc + f.prod * v ∧ g.conj = f.conj := by
  refine ⟨{ f' with acc := f.acc + f.prod * v, sub := true, prod := 1, div := false, neg := false, cur := none, done := false }, ?_,
    ⟨rfl, h.2.2.2.2, rfl, rfl, rfl⟩, rfl, rfl, rfl, h.2.2.2.1⟩
  simp [tokStep, h.cur, Frame.total, h.1, h.2.1, h.2.2.1, hs]

theorem Piece.add {M : Meaning K} {a b : List Tok} {v w : K} (ha : Piece M a v) (hb : Whole M b w) : Whole M (a ++ [.plus] ++ b) (v + w) := by
  intro f r hf hp hs
  obtain ⟨f', h1, h2⟩ := ha f r hf
  obtain ⟨g, g1, g2, g3, g4, g5, g6⟩ := plus_step (M := M) h2 hs r
  obtain ⟨k, k1, k2, k3⟩ := hb g r g2 g3 g4
  refine ⟨k, ?_, ?_, k3.trans g6⟩
  · rw [runToks_append, runToks_append, h1]
    simp only [Option.bind_some, runToks, g1]
    exact k1
  · rw [k2, g5, hp, one_mul, add_assoc]

theorem Piece.sub {M : Meaning K} {a b : List Tok} {v w : K} (ha : Piece M a v) (hb : Piece M b w) : Whole M (a ++ [.minus] ++ b) (v - w) := by
  intro f r hf hp hs
  obtain ⟨f', h1, h2⟩ := ha f r hf
  obtain ⟨g, g1, g2, g3, g4, g5, g6⟩ := minus_step (M := M) h2 hs r
  obtain ⟨k, k1, k2, k3, k4, k5, _⟩ := hb g r g2
  refine ⟨k, ?_, ?_, k5.trans g6⟩
  · rw [runToks_append, runToks_append, h1]
    simp only [Option.bind_some, runToks, g1]
    exact k1
  · simp [Frame.total, k2, k3, k4, g3, g4, g5, hp, add_sub_assoc]

/-! ### Numbers -/

theorem atom_int (M : Meaning K) (n : Nat) : Atom M [.int n] (n : K) := by
  intro f r hf
  simp only [runToks, tokStep]
  cases f.operand M (n : K) <;> rfl

theorem atom_name (M : Meaning K) (n : Nat) : Atom M [.name n] (M.name n) := by
  intro f r hf
  simp only [runToks, tokStep]
  cases f.operand M (M.name n) <;> rfl

theorem atom_imag (M : Meaning K) (n : Nat) : Atom M [.imag n] ((n : K) * M.I) := by
  intro f r hf
  simp only [runToks, tokStep]
  cases f.operand M ((n : K) * M.I) <;> rfl

theorem atom_call {M : Meaning K} {c : Call} {v : K} (h : M.call c = some v) : Atom M [.call c] v := by
  intro f r hf
  simp only [runToks, tokStep, h, Option.bind_some]
  cases f.operand M v <;> rfl

theorem piece_div {M : Meaning K} {n : Nat} {t : Tok} {w : K} (h : Atom M [t] w) : Piece M [.int n, .slash, t] ((n : K) / w) := by
  intro f r ⟨h1, h2, h3, h4, h5⟩
  refine ⟨{ f with prod := f.prod * n, div := true, cur := some w }, ?_, ?_, rfl, rfl, rfl, h2⟩
  · have := h { f with prod := f.prod * n, div := true, neg := false, cur := none, done := false } r rfl
    simp only [Frame.operand, h2] at this
    simp only [runToks, tokStep, Frame.operand, h1, h2, h3, h4, h5, Frame.fin, Option.isSome_none, Option.map_some, Option.bind_some, if_false,
      Bool.false_eq_true] at this ⊢
    exact this
  · simp [Frame.fin, h3, mul_div_assoc]

theorem piece_neg {M : Meaning K} {ts : List Tok} {v : K}
    (h : ∀ f r, f.cur = none → f.base = none → f.neg = true → f.div = false → f.done = false → ∃ f', runToks M ts (f :: r) = some (f' :: r) ∧ After f f' (-v)) :
    Piece M (.minus :: ts) (-v) := by
  intro f r ⟨h1, h2, h3, h4, h5⟩
  obtain ⟨f', g1, g2, g3, g4, g5, g6⟩ := h { f with neg := !f.neg } r h1 h2 (by simp [h3]) h4 h5
  refine ⟨f', ?_, g2, g3, g4, g5, g6⟩
  have hc : f.cur.isSome = false := by simp [h1]
  have hb : f.base.isSome = false := by simp [h2]
  simp only [runToks, tokStep, hc, hb, Bool.false_eq_true, if_false, Option.bind_some]
  exact g1

theorem piece_negInt (M : Meaning K) (n : Nat) : Piece M [.minus, .int n] (-(n : K)) := by
  apply piece_neg
  intro f r h1 h2 h3 h4 h5
  refine ⟨{ f with cur := some (n : K) }, ?_, ?_, rfl, rfl, rfl, h2⟩
  · simp [runToks, tokStep, Frame.operand, h1, h2]
  · simp [Frame.fin, h3, h4]

theorem piece_negDiv (M : Meaning K) (n d : Nat) : Piece M [.minus, .int n, .slash, .int d] (-((n : K) / d)) := by
  apply piece_neg
  intro f r h1 h2 h3 h4 h5
  refine ⟨{ f with prod := f.prod * -n, div := true, neg := false, cur := some (d : K) }, ?_, ?_, rfl, rfl, rfl, h2⟩
  · simp [runToks, tokStep, Frame.operand, Frame.fin, h1, h2, h3, h4, h5]
  · simp [Frame.fin, neg_div, mul_div_assoc]

variable [CharZero K]

theorem rat_num (q : ℚ) (h : q.den = 1) : (q : K) = (q.num : K) := by rw [Rat.cast_def, h]; simp

theorem num_neg {z : Int} (h : z < 0) : (z : K) = -(z.natAbs : K) := by
  have : z = -(z.natAbs : Int) := by omega
  rw [this]; simp

theorem num_nonneg {z : Int} (h : ¬ z < 0) : (z : K) = (z.natAbs : K) := by
  have : z = (z.natAbs : Int) := by omega
  rw [this]; simp

/-- **The text of a rational number has its value.** -/
theorem piece_rat (M : Meaning K) (q : ℚ) : Piece M (ratToks q) (q : K) := by
  unfold ratToks
  by_cases hd : q.den = 1
  · rw [if_pos hd, rat_num q hd]
    by_cases hn : q.num < 0
    · rw [if_pos hn, num_neg hn]; exact piece_negInt M _
    · rw [if_neg hn, num_nonneg hn]; exact (atom_int M _).piece
  · rw [if_neg hd, Rat.cast_def]
    by_cases hn : q.num < 0
    · rw [if_pos hn, num_neg hn, neg_div]; exact piece_negDiv M _ _
    · rw [if_neg hn, num_nonneg hn]; exact piece_div (atom_int M _)

/-- The value of a constant. -/
def cval (I : K) (z : Cplx) : K := (z.re : K) + (z.im : K) * I

/-- The value of the text of a constant: an imaginary part that is no integer changes its sign, because Python reads `1/2j` as `1/(2j)`. -/
def tconst (I : K) (z : Cplx) : K := if z.im.den = 1 then cval I z else (z.re : K) - (z.im : K) * I

/-- An imaginary part without its sign. -/
def absJ (q : ℚ) : List Tok := if q.den = 1 then [.imag q.num.natAbs] else [.int q.num.natAbs, .slash, .imag q.den]

theorem piece_absJ {M : Meaning K} (hI : M.I * M.I = -1) (q : ℚ) :
    Piece M (absJ q) (if q.den = 1 then (q.num.natAbs : K) * M.I else -((q.num.natAbs : K) / q.den * M.I)) := by
  unfold absJ
  split
  · exact (atom_imag M _).piece
  · have hI0 : M.I ≠ 0 := fun h => by rw [h] at hI; simp at hI
    have hinv : (M.I)⁻¹ = -M.I := by
      apply inv_eq_of_mul_eq_one_left
      rw [neg_mul, hI, neg_neg]
    have := piece_div (n := q.num.natAbs) (atom_imag M q.den)
    have he : (q.num.natAbs : K) / ((q.den : K) * M.I) = -((q.num.natAbs : K) / q.den * M.I) := by
      rw [div_mul_eq_div_div, div_eq_mul_inv _ M.I, hinv, mul_neg]
    rw [he] at this
    exact this

theorem constToks_im {z : Cplx} (h : z.im ≠ 0) :
    constToks z = [.lpar] ++ (ratToks z.re ++ [if z.im < 0 then .minus else .plus] ++ absJ z.im) ++ [.rpar] := by
  unfold constToks ratToksJ absJ
  rw [if_pos h]
  have hn : z.im.num < 0 ↔ z.im < 0 := Rat.num_neg
  by_cases hs : z.im < 0
  · simp [hs, hn.2 hs]
  · have : ¬ z.im.num < 0 := fun x => hs (hn.1 x)
    simp [hs, this]

/-- A constant with an imaginary part has brackets. -/
theorem atom_const {M : Meaning K} (hI : M.I * M.I = -1) {z : Cplx} (h : z.im ≠ 0) : Atom M (constToks z) (tconst M.I z) := by
  rw [constToks_im h]
  apply Whole.paren
  have hn : z.im.num < 0 ↔ z.im < 0 := Rat.num_neg
  have hp := piece_absJ hI z.im
  by_cases hs : z.im < 0
  · rw [if_pos hs]
    have := (piece_rat M z.re).sub hp
    convert this using 1
    unfold tconst cval
    by_cases hd : z.im.den = 1
    · rw [if_pos hd, if_pos hd, rat_num z.im hd, num_neg (hn.2 hs)]; ring
    · rw [if_neg hd, if_neg hd, Rat.cast_def z.im, num_neg (hn.2 hs)]; ring
  · rw [if_neg hs]
    have := (piece_rat M z.re).add hp.whole
    convert this using 1
    unfold tconst cval
    by_cases hd : z.im.den = 1
    · rw [if_pos hd, if_pos hd, rat_num z.im hd, num_nonneg (fun x => hs (hn.1 x))]
    · rw [if_neg hd, if_neg hd, Rat.cast_def z.im, num_nonneg (fun x => hs (hn.1 x))]; ring

theorem tconst_real {I : K} {z : Cplx} (h : z.im = 0) : tconst I z = (z.re : K) := by simp [tconst, cval, h]

theorem piece_const {M : Meaning K} (hI : M.I * M.I = -1) (z : Cplx) : Piece M (constToks z) (tconst M.I z) := by
  by_cases h : z.im = 0
  · rw [tconst_real h]
    unfold constToks
    rw [if_neg (not_not.2 h)]
    exact piece_rat M z.re
  · exact (atom_const hI h).piece

theorem atom_exponent (M : Meaning K) (e : ℚ) : Atom M (exponentToks e) (e : K) := by
  unfold exponentToks
  by_cases hd : e.den = 1
  · rw [if_pos hd, rat_num e hd]
    by_cases hn : e.num < 0
    · rw [if_pos hn, num_neg hn]; exact (piece_negInt M _).whole.paren
    · rw [if_neg hn, num_nonneg hn]; exact atom_int M _
  · rw [if_neg hd]
    have := (piece_rat M e).whole.paren
    unfold ratToks at this
    rw [if_neg hd] at this
    simpa using this

/-- The value of the text of a base. -/
def tbase (M : Meaning K) : Base → K
  | .const z => tconst M.I z
  | .var n c => if c then star (M.name n) else M.name n

theorem atom_base {M : Meaning K} (hI : M.I * M.I = -1) (b : Base) : Atom M (baseToks b) (tbase M b) := by
  cases b with
  | const z =>
    simp only [baseToks, tbase]
    by_cases h : z.im = 0
    · split
      · exact (piece_const hI z).whole.paren
      · rename_i hc
        have hc' : z.re.den = 1 ∧ ¬ z.re.num < 0 := by
          by_contra hx
          apply hc
          refine ⟨h, ?_⟩
          by_cases hd : z.re.den = 1
          · right
            by_contra hy
            exact hx ⟨hd, hy⟩
          · exact Or.inl hd
        rw [tconst_real h, rat_num _ hc'.1, num_nonneg hc'.2]
        have : constToks z = [.int z.re.num.natAbs] := by simp [constToks, ratToks, h, hc'.1, hc'.2]
        rw [this]
        exact atom_int M _
    · rw [if_neg fun x => h x.1]
      exact atom_const hI h
  | var n c =>
    simp only [baseToks, tbase]
    cases c
    · exact atom_name M n
    · exact (atom_name M n).piece.whole.conjParen

theorem piece_powBody {M : Meaning K} {a b : List Tok} {v w : K} (ha : Atom M a v) (hb : Atom M b w) : Piece M (a ++ [.pow] ++ b) (M.pow v w) := by
  intro f r ⟨h1, h2, h3, h4, h5⟩
  refine ⟨{ f with cur := some (M.pow v w), base := none, done := true }, ?_, ?_, rfl, rfl, rfl, rfl⟩
  · rw [runToks_append, runToks_append, ha f r h1]
    simp only [Frame.operand, h1, h2, Option.isSome_none, Bool.false_eq_true, if_false, Option.map_some, Option.bind_some, runToks, tokStep, h5]
    have := hb { f with base := some v, cur := none } r rfl
    simp only [Frame.operand, Option.isSome_none, Bool.false_eq_true, if_false, Option.map_some, h5] at this
    exact this
  · simp [Frame.fin, h3, h4]

/-- The value of the text of a power. -/
def tpow (M : Meaning K) (p : Pow) : K :=
  let v := M.pow (tbase M p.base) (p.exponent : K)
  if p.conjugated then star v else v

theorem piece_pow {M : Meaning K} (hI : M.I * M.I = -1) (p : Pow) : Piece M (powToks p) (tpow M p) := by
  unfold powToks tpow
  have := piece_powBody (atom_base hI p.base) (atom_exponent M p.exponent)
  cases p.conjugated
  · exact this
  · exact this.whole.conjParen.piece

end SeQuant.Einsum
