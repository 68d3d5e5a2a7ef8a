import Verif.Serial.Spec
import Mathlib.Data.Rat.Lemmas
import Mathlib.Data.Nat.Log

/-!
# Lemmas on reading single tokens
-/

namespace SeQuant.Serial

open SeQuant.Expression

/-! ## Characters -/

/-- The first character, if any, is not in the class. -/
def Stops (p : Char → Bool) (r : List Char) : Prop := ∀ c, r.head? = some c → p c = false

@[simp] theorem stops_nil (p : Char → Bool) : Stops p [] := by simp [Stops]

@[simp] theorem stops_cons (p : Char → Bool) (c : Char) (r : List Char) : Stops p (c :: r) ↔ p c = false := by simp [Stops]

theorem takeWhile_stops {p : Char → Bool} {r : List Char} (h : Stops p r) : r.takeWhile p = [] := by
  cases r with
  | nil => rfl
  | cons c r => simp at h; simp [h]

theorem dropWhile_stops {p : Char → Bool} {r : List Char} (h : Stops p r) : r.dropWhile p = r := by
  cases r with
  | nil => rfl
  | cons c r => simp at h; simp [h]

theorem takeWhile_run {p : Char → Bool} {u r : List Char} (hu : ∀ c ∈ u, p c = true) (h : Stops p r) : (u ++ r).takeWhile p = u := by
  rw [List.takeWhile_append_of_pos hu, takeWhile_stops h, List.append_nil]

theorem dropWhile_run {p : Char → Bool} {u r : List Char} (hu : ∀ c ∈ u, p c = true) (h : Stops p r) : (u ++ r).dropWhile p = r := by
  rw [List.dropWhile_append_of_pos hu, dropWhile_stops h]

theorem skip_stop (L : Lex) {c : Char} (r : List Char) (h : L.space c = false) : skip L (c :: r) = c :: r := by simp [skip, h]

theorem skip_nil (L : Lex) : skip L [] = [] := rfl

theorem skip_blank {L : Lex} (hL : L.Ok) (r : List Char) : skip L (' ' :: r) = skip L r := by simp [skip, hL.blank]

theorem skip_skip (L : Lex) (cs : List Char) : skip L (skip L cs) = skip L cs := by
  unfold skip
  induction cs with
  | nil => rfl
  | cons c cs ih =>
    simp only [List.dropWhile_cons]
    split
    · exact ih
    · rw [List.dropWhile_cons, if_neg ‹_›]

theorem skip_length (L : Lex) (cs : List Char) : (skip L cs).length ≤ cs.length := List.Sublist.length_le (List.dropWhile_sublist _)

theorem rawLit_append (s r : List Char) : rawLit s (s ++ r) = .ok () r := by
  induction s with
  | nil => simp [rawLit]
  | cons a s ih => simp [rawLit, ih]

theorem rawLit_head {a : Char} {s r : List Char} (h : r.head? ≠ some a) : rawLit (a :: s) r = .fail := by
  cases r with
  | nil => rfl
  | cons b r => simp at h; simp [rawLit, Ne.symm h]

theorem lit_skip (L : Lex) (s cs : List Char) : lit L s (skip L cs) = lit L s cs := by simp [lit, skip_skip]

theorem lit_ok (L : Lex) {a : Char} (s r : List Char) (h : L.space a = false) : lit L (a :: s) (a :: (s ++ r)) = .ok () r := by
  rw [lit, skip_stop L _ h]; exact rawLit_append (a :: s) r

theorem lit1_ok (L : Lex) {a : Char} (r : List Char) (h : L.space a = false) : lit L [a] (a :: r) = .ok () r := lit_ok L [] r h

theorem lit_fail (L : Lex) {a : Char} {s cs : List Char} (h : (skip L cs).head? ≠ some a) : lit L (a :: s) cs = .fail := rawLit_head h

/-! ## Numbers -/

theorem digitChar : ∀ d < 10, (Char.ofNat (48 + d)).toNat = 48 + d ∧ (Char.ofNat (48 + d)).isDigit = true := by decide

theorem digitsF_digit (fuel n : Nat) : ∀ c ∈ digitsF fuel n, c.isDigit = true := by
  induction fuel generalizing n with
  | zero => simp [digitsF]
  | succ fuel ih =>
    intro c hc
    simp only [digitsF] at hc
    split at hc
    · rename_i hn
      simp at hc; subst hc; exact (digitChar n hn).2
    · rcases List.mem_append.1 hc with hc | hc
      · exact ih _ c hc
      · simp at hc; subst hc; exact (digitChar _ (Nat.mod_lt _ (by decide))).2

theorem digits_digit (n : Nat) : ∀ c ∈ digits n, c.isDigit = true := digitsF_digit _ _

theorem digits_ne_nil (n : Nat) : digits n ≠ [] := by
  simp only [digits, digitsF]
  split <;> simp

theorem foldl_digitsF (step : Nat → Char → Nat) (B : Nat)
    (hs : ∀ n d, d < 10 → n * 10 + d ≤ B → step n (Char.ofNat (48 + d)) = n * 10 + d) (fuel n : Nat) (hf : n < 2 ^ fuel) (hB : n ≤ B) :
    (digitsF fuel n).foldl step 0 = n := by
  induction fuel generalizing n with
  | zero => simp at hf; simp [digitsF, hf]
  | succ fuel ih =>
    simp only [digitsF]
    split
    · rename_i hn
      simpa using hs 0 n hn (by omega)
    · rename_i hn
      rw [List.foldl_append, ih (n / 10) (by rw [Nat.pow_succ] at hf; omega) (by omega)]
      simp only [List.foldl_cons, List.foldl_nil]
      rw [hs _ _ (Nat.mod_lt _ (by decide)) (by omega)]
      omega

theorem lt_two_pow_log2 (n : Nat) : n < 2 ^ (n.log2 + 1) := Nat.lt_log2_self

theorem foldl_digits_nat (n : Nat) : (digits n).foldl (fun n c => n * 10 + (c.toNat - 48)) 0 = n :=
  foldl_digitsF _ n (fun m d hd _ => by rw [(digitChar d hd).1]; omega) _ _ (lt_two_pow_log2 n) le_rfl

theorem rne_small {n : Nat} (h : n ≤ 2 ^ 53) : rne n = n := by rw [rne, if_pos h]

theorem foldl_digits_acc (n : Nat) (h : n ≤ 2 ^ 53) : (digits n).foldl accDigit 0 = n :=
  foldl_digitsF _ (2 ^ 53) (fun m d hd hm => by
    rw [accDigit, (digitChar d hd).1, rne_small (n := m * 10) (by omega), rne_small (by omega)]; omega) _ _ (lt_two_pow_log2 n) h

theorem digits_cons (n : Nat) : ∃ c r, digits n = c :: r ∧ c.isDigit = true := by
  cases h : digits n with
  | nil => exact absurd h (digits_ne_nil n)
  | cons c r => exact ⟨c, r, rfl, digits_digit n c (by rw [h]; simp)⟩

theorem digit_ne {c d : Char} (h : c.isDigit = true) (hd : d.isDigit = false) : c ≠ d := fun e => by rw [e, hd] at h; exact absurd h (by decide)

theorem doubleP_digits {L : Lex} (hL : L.Ok) {n : Nat} (hn : n ≤ 2 ^ 53) {r : List Char} (hr : Stops Char.isDigit r) :
    doubleP L (digits n ++ r) = .ok (.fin false n) r := by
  obtain ⟨c, t, ht, hc⟩ := digits_cons n
  have hs : skip L (digits n ++ r) = digits n ++ r := by rw [ht]; exact skip_stop L _ (hL.digit c hc).2.2
  have h1 : (digits n ++ r).head? = some c := by simp [ht]
  have hm : decide ((digits n ++ r).head? = some '-') = false := by rw [h1]; simp [digit_ne hc (by decide : ('-').isDigit = false)]
  have hp : decide ((digits n ++ r).head? = some '+') = false := by rw [h1]; simp [digit_ne hc (by decide : ('+').isDigit = false)]
  simp only [doubleP, hs, hm, hp, Bool.or_false, Bool.false_eq_true, if_false]
  rw [takeWhile_run (digits_digit n) hr, dropWhile_run (digits_digit n) hr, if_pos (digits_ne_nil n), foldl_digits_acc n hn]

theorem doubleP_neg {L : Lex} (hL : L.Ok) {n : Nat} (hn : n ≤ 2 ^ 53) {r : List Char} (hr : Stops Char.isDigit r) :
    doubleP L ('-' :: (digits n ++ r)) = .ok (.fin true n) r := by
  have hs : skip L ('-' :: (digits n ++ r)) = '-' :: (digits n ++ r) := skip_stop L _ (hL.punct _ (by simp)).2.2
  simp only [doubleP, hs, List.head?_cons, decide_true, Bool.true_or, if_true, List.tail_cons]
  rw [takeWhile_run (digits_digit n) hr, dropWhile_run (digits_digit n) hr, if_pos (digits_ne_nil n), foldl_digits_acc n hn]

/-- Text of a rational. -/
def ratText (q : Rat) : List Char := fracText q.num q.den

theorem scalarText_real {c : CQ} (h : c.im = 0) : scalarText c = ratText c.re := by
  obtain ⟨q, i⟩ := c
  simp only at h; subst h
  by_cases hq : q = 0
  · subst hq; decide +kernel
  · have h1 : (⟨q, 0⟩ : CQ) ≠ 0 := fun e => hq (congrArg CQ.re e)
    have h2 : q.num ≠ 0 := by simpa [Rat.num_eq_zero] using hq
    simp [scalarText, h1, h2, ratText]

/-- What reading the text of a rational yields. -/
def ratNum (q : Rat) : Dbl × Dbl := (.fin (decide (q < 0)) q.num.natAbs, .fin false q.den)

/-- Nothing after the token continues it. -/
def NumEnd (L : Lex) (r : List Char) : Prop := Stops Char.isDigit r ∧ (skip L r).head? ≠ some '/'

theorem numberP_ratText {L : Lex} (hL : L.Ok) {q : Rat} (hn : q.num.natAbs ≤ 2 ^ 53) (hd : q.den ≤ 2 ^ 53) {r : List Char}
    (hr : NumEnd L r) : numberP L (ratText q ++ r) = .ok (ratNum q) r := by
  obtain ⟨hr1, hr2⟩ := hr
  have hsl : L.space '/' = false := (hL.punct _ (by simp)).2.2
  have key : ∀ x : List Char, Stops Char.isDigit x →
      doubleP L (intText q.num ++ x) = .ok (.fin (decide (q < 0)) q.num.natAbs) x := by
    intro x hx
    by_cases h : q.num < 0
    · have : q < 0 := Rat.num_neg.1 h
      simp only [intText, h, if_true, this, decide_true]
      exact doubleP_neg hL hn hx
    · have : ¬ q < 0 := fun e => h (Rat.num_neg.2 e)
      simp only [intText, h, if_false, this, decide_false, List.nil_append]
      exact doubleP_digits hL hn hx
  unfold numberP ratText fracText
  by_cases h1 : q.den = 1
  · simp only [h1, ne_eq, not_true_eq_false, if_false, List.append_nil]
    rw [key r hr1]
    simp only [Res.bind, lit_fail L hr2, Res.opt, ratNum, h1]
  · simp only [ne_eq, h1, not_false_eq_true, if_true, List.append_assoc]
    rw [key _ (by simp)]
    simp only [Res.bind, List.cons_append, lit1_ok L _ hsl, doubleP_digits hL hd hr1, Res.opt, ratNum]

theorem toRat_ratNum {q : Rat} (hn : q.num.natAbs ≤ 2 ^ 53) (hd : q.den ≤ 2 ^ 53) (r : List Char) :
    toRat (ratNum q) r = .ok q r := by
  have h1 : q.num.natAbs < 2 ^ 63 ∧ q.den < 2 ^ 63 := ⟨by omega, by omega⟩
  simp only [ratNum, toRat, h1, and_self, if_true, q.den_nz, if_false, Bool.false_eq_true]
  congr 1
  have h2 : (if decide (q < 0) = true then -((q.num.natAbs : Nat) : Rat) else ((q.num.natAbs : Nat) : Rat)) = (q.num : Rat) := by
    by_cases h : q < 0
    · have h3 : q.num < 0 := Rat.num_neg.2 h
      simp only [h, decide_true, if_true]
      rw [← Int.cast_natCast, ← Int.cast_neg]; congr 1; omega
    · have h3 : ¬ q.num < 0 := fun e => h (Rat.num_neg.1 e)
      simp only [h, decide_false, Bool.false_eq_true, if_false]
      rw [← Int.cast_natCast]; congr 1; omega
  rw [h2]; exact Rat.num_div_den q

theorem ratText_cons (q : Rat) : ∃ c r, ratText q = c :: r ∧ (c = '-' ∧ q < 0 ∨ c.isDigit = true ∧ ¬ q < 0) := by
  by_cases h : q.num < 0
  · exact ⟨'-', _, by simp only [ratText, fracText, intText, h, if_true]; rfl, .inl ⟨rfl, Rat.num_neg.1 h⟩⟩
  · obtain ⟨c, r, hc, hd⟩ := digits_cons q.num.natAbs
    exact ⟨c, _, by simp only [ratText, fracText, intText, h, if_false, List.nil_append, hc]; rfl,
      .inr ⟨hd, fun e => h (Rat.num_neg.2 e)⟩⟩

/-- The sign is the first character. -/
theorem ratText_neg {q : Rat} (h : q < 0) : ratText q = '-' :: ratText (-q) := by
  have h1 : q.num < 0 := Rat.num_neg.2 h
  have h2 : ¬ (-q).num < 0 := by rw [Rat.num_neg_eq_neg_num]; omega
  have h3 : (-q).num.natAbs = q.num.natAbs := by rw [Rat.num_neg_eq_neg_num]; omega
  have h4 : (-q).den = q.den := Rat.den_neg_eq_den q
  simp only [ratText, fracText, intText, h1, h2, if_true, if_false, h3, h4]
  rfl

/-! ## Names and variables -/

theorem nameOk_split {L : Lex} {n : List Char} (h : NameOk L n = true) :
    ∃ c r, n = c :: r ∧ L.alpha c = true ∧ (∀ d ∈ r, L.word d = true) ∧ (r = [] ∨ r.getLast? ≠ some '_') ∧
      (n.take 3).map Char.toLower ≠ "nan".toList ∧ (n.take 3).map Char.toLower ≠ "inf".toList := by
  cases n with
  | nil => simp [NameOk] at h
  | cons c r =>
    simp only [NameOk, Bool.and_eq_true, decide_eq_true_eq, Bool.or_eq_true, List.isEmpty_iff, List.all_eq_true] at h
    exact ⟨c, r, rfl, h.1.1.1.1, h.1.1.1.2, h.1.1.2, h.1.2, h.2⟩

theorem alpha_space {L : Lex} (hL : L.Ok) {c : Char} (h : L.alpha c = true) : L.space c = false := hL.word_space c (hL.alpha_word c h)

theorem alpha_ne {L : Lex} (hL : L.Ok) {c d : Char} (h : L.alpha c = true)
    (hd : d ∈ ['(', ')', '*', '^', '{', '}', ';', ',', '<', '>', '/', '+', '-', ':']) : c ≠ d := by
  rintro rfl
  have := hL.alpha_word _ h
  rw [(hL.punct _ hd).1] at this
  exact absurd this (by decide)

theorem alpha_digit {L : Lex} (hL : L.Ok) {c : Char} (h : L.alpha c = true) : c.isDigit = false := by
  cases hd : c.isDigit with
  | false => rfl
  | true => rw [(hL.digit c hd).1] at h; exact absurd h (by decide)

theorem nameP_name {L : Lex} {n : List Char} (hn : NameOk L n = true) {r : List Char} (hr : Stops L.word r) :
    nameP L (n ++ r) = .ok n r := by
  obtain ⟨c, t, rfl, hc, ht, hl, -⟩ := nameOk_split hn
  simp only [List.cons_append, nameP, hc, if_true]
  rw [takeWhile_run ht hr, dropWhile_run ht hr]
  rcases hl with rfl | hl
  · simp
  · cases hg : t.getLast? with
    | none => rw [List.getLast?_eq_none_iff] at hg; subst hg; simp
    | some d =>
      rw [hg] at hl
      have : d ≠ '_' := fun e => hl (by rw [e])
      simp [this]

/-- What may follow a name: nothing that is a word component or continues a special floating point value. -/
def NameEnd (L : Lex) (r : List Char) : Prop := Stops L.word r ∧ ∀ c, r.head? = some c → c.toLower ∉ ['a', 'n', 'f']

theorem specialLen_name {L : Lex} {n : List Char} (hn : NameOk L n = true) {r : List Char} (hr : NameEnd L r) :
    specialLen (n ++ r) = none := by
  obtain ⟨c, t, rfl, -, -, -, h1, h2⟩ := nameOk_split hn
  have key : ∀ s : List Char, s = "nan".toList ∨ s = "inf".toList → (((c :: t) ++ r).take 8 |>.map Char.toLower).take 3 ≠ s := by
    intro s hs e
    rw [← List.map_take, List.take_take] at e
    simp only [show min 3 8 = 3 from rfl] at e
    match t, h1, h2, e with
    | [], _, _, e =>
      cases r with
      | nil => rcases hs with rfl | rfl <;> simp at e
      | cons d r =>
        have := hr.2 d rfl
        rcases hs with rfl | rfl <;> simp [List.take] at e this <;> grind
    | [b], _, _, e =>
      cases r with
      | nil => rcases hs with rfl | rfl <;> simp at e
      | cons d r =>
        have := hr.2 d rfl
        rcases hs with rfl | rfl <;> simp [List.take] at e this <;> grind
    | b :: a :: t, h1, h2, e =>
      simp only [List.cons_append, List.take_succ_cons, List.take_zero] at e h1 h2
      rcases hs with rfl | rfl
      · exact h1 e
      · exact h2 e
  simp only [specialLen]
  rw [if_neg (key _ (.inl rfl)), if_neg (key _ (.inr rfl))]

theorem doubleP_name {L : Lex} (hL : L.Ok) {n : List Char} (hn : NameOk L n = true) {r : List Char} (hr : NameEnd L r) :
    doubleP L (n ++ r) = .fail := by
  have hsp := specialLen_name hn hr
  obtain ⟨c, t, rfl, hc, -⟩ := nameOk_split hn
  have hs : skip L ((c :: t) ++ r) = (c :: t) ++ r := skip_stop L _ (alpha_space hL hc)
  have hm : decide (((c :: t) ++ r).head? = some '-') = false := by simp [alpha_ne hL hc (d := '-') (by simp)]
  have hp : decide (((c :: t) ++ r).head? = some '+') = false := by simp [alpha_ne hL hc (d := '+') (by simp)]
  simp only [doubleP, hs, hm, hp, Bool.or_false, Bool.false_eq_true, if_false]
  rw [takeWhile_stops (by simp [alpha_digit hL hc]), hsp]
  simp

theorem numberP_name {L : Lex} (hL : L.Ok) {n : List Char} (hn : NameOk L n = true) {r : List Char} (hr : NameEnd L r) :
    numberP L (n ++ r) = .fail := by
  rw [numberP, doubleP_name hL hn hr]; rfl

theorem skip_name {L : Lex} (hL : L.Ok) {n : List Char} (hn : NameOk L n = true) (r : List Char) : skip L (n ++ r) = n ++ r := by
  obtain ⟨c, t, rfl, hc, -⟩ := nameOk_split hn
  exact skip_stop L _ (alpha_space hL hc)

theorem variableP_plain {L : Lex} (hL : L.Ok) {n : List Char} (hn : NameOk L n = true) {r : List Char} (hr : Stops L.word r)
    (hc : rawLit ['^', '*'] r = .fail) : variableP L (n ++ r) = .ok (n, false) r := by
  rw [variableP, skip_name hL hn, nameP_name hn hr]
  simp [Res.bind, hc, Res.opt]

theorem variableP_conj {L : Lex} (hL : L.Ok) {n : List Char} (hn : NameOk L n = true) (r : List Char) :
    variableP L (n ++ '^' :: '*' :: r) = .ok (n, true) r := by
  rw [variableP, skip_name hL hn, nameP_name hn (by simp [(hL.punct '^' (by simp)).1])]
  simp [Res.bind, rawLit, Res.opt]

/-- Text of a variable. -/
def varText (v : List Char × Bool) : List Char := v.1 ++ (if v.2 then ['^', '*'] else [])

/-- What may follow a variable. -/
def VarEnd (L : Lex) (r : List Char) : Prop := NameEnd L r ∧ rawLit ['^', '*'] r = .fail

theorem variableP_var {L : Lex} (hL : L.Ok) {v : List Char × Bool} (hn : NameOk L v.1 = true) {r : List Char} (hr : VarEnd L r) :
    variableP L (varText v ++ r) = .ok v r := by
  obtain ⟨n, b⟩ := v
  cases b with
  | false => simpa [varText] using variableP_plain hL hn hr.1.1 hr.2
  | true => simpa [varText] using variableP_conj hL hn r

theorem nameEnd_caret {L : Lex} (hL : L.Ok) (r : List Char) : NameEnd L ('^' :: r) := by
  refine ⟨by simp [(hL.punct '^' (by simp)).1], ?_⟩
  intro c h; simp at h; subst h; decide

theorem numberP_var {L : Lex} (hL : L.Ok) {v : List Char × Bool} (hn : NameOk L v.1 = true) {r : List Char} (hr : VarEnd L r) :
    numberP L (varText v ++ r) = .fail := by
  obtain ⟨n, b⟩ := v
  cases b with
  | false => simpa [varText] using numberP_name hL hn hr.1
  | true => simpa [varText] using numberP_name hL hn (nameEnd_caret hL ('*' :: r))

/-! ## Indices -/

theorem labelOk_split {L : Lex} {l : List Char × Option Nat} (h : LabelOk L l = true) :
    ∃ n, l.2 = some n ∧ n < 2 ^ 32 ∧ l.1 ≠ [] ∧ (∀ c ∈ l.1, L.idx c = true) ∧ L.known l.1 = true := by
  obtain ⟨b, o⟩ := l
  cases o with
  | none => simp [LabelOk] at h
  | some n =>
    simp only [LabelOk, Bool.and_eq_true, Bool.not_eq_true', List.isEmpty_eq_false_iff, List.all_eq_true, Option.any_some,
      decide_eq_true_eq] at h
    exact ⟨n, rfl, h.1.2, h.1.1.1, h.1.1.2, h.2⟩

theorem labelP_label {L : Lex} (hL : L.Ok) {l : List Char × Option Nat} (h : LabelOk L l = true) {r : List Char}
    (hr : Stops Char.isDigit r) : labelP L (labelText l ++ r) = .ok l r := by
  obtain ⟨b, o⟩ := l
  obtain ⟨n, ho, hn, hb, hi, -⟩ := labelOk_split h
  simp only at ho hb hi; subst ho
  simp only [labelText, labelP, List.append_assoc, List.cons_append]
  rw [takeWhile_run hi (by simp [hL.under.2.1]), dropWhile_run hi (by simp [hL.under.2.1]), if_pos hb]
  simp only [rawLit, if_true, Res.opt, Res.bind, uintP]
  rw [takeWhile_run (digits_digit n) hr, dropWhile_run (digits_digit n) hr, foldl_digits_nat, if_pos ⟨digits_ne_nil n, hn⟩]

theorem skip_label {L : Lex} (hL : L.Ok) {l : List Char × Option Nat} (h : LabelOk L l = true) (r : List Char) :
    skip L (labelText l ++ r) = labelText l ++ r := by
  obtain ⟨b, o⟩ := l
  obtain ⟨n, ho, hn, hb, hi, -⟩ := labelOk_split h
  simp only at ho hb hi; subst ho
  cases b with
  | nil => simp at hb
  | cons c t => exact skip_stop L _ (hL.idx_space c (hi c (by simp)))

/-- A list of elements separated by commas is read element by element. -/
theorem sepLoop_commas {α : Type} {L : Lex} (hL : L.Ok) (p : List Char → Res α) (t : α → List Char) (P : List Char → Prop) (N : Nat) (l : List α)
    (hp : ∀ a ∈ l, ∀ r, P r → (t a ++ r).length ≤ N → p (t a ++ r) = .ok a r) (hc : ∀ r, P (',' :: r)) (ht : ∀ a ∈ l, t a ≠ [])
    {r : List Char} (hr : P r) (hr' : (skip L r).head? ≠ some ',') (fuel : Nat)
    (hN : ((l.map (fun a => ',' :: t a)).flatten ++ r).length ≤ N)
    (hf : ((l.map (fun a => ',' :: t a)).flatten ++ r).length < fuel) :
    sepLoop p (lit L [',']) fuel ((l.map (fun a => ',' :: t a)).flatten ++ r) = .ok l r := by
  induction l generalizing fuel with
  | nil =>
    cases fuel with
    | zero => simp at hf
    | succ fuel => simp [sepLoop, lit_fail L hr', Res.bind, Res.opt]
  | cons a l ih =>
    cases fuel with
    | zero => simp at hf
    | succ fuel =>
      have hsp : L.space ',' = false := (hL.punct _ (by simp)).2.2
      simp only [List.map_cons, List.flatten_cons, List.cons_append, List.append_assoc] at hf hN ⊢
      have hP : P ((l.map (fun a => ',' :: t a)).flatten ++ r) := by
        cases l with
        | nil => simpa using hr
        | cons b l => simp only [List.map_cons, List.flatten_cons, List.cons_append, List.append_assoc]; exact hc _
      simp only [sepLoop, lit1_ok L _ hsp, Res.bind]
      rw [hp a (by simp) _ hP (by simp at hN ⊢; omega)]
      simp only []
      rw [ih (fun b hb => hp b (by simp [hb])) (fun b hb => ht b (by simp [hb])) fuel (by simp at hN ⊢; omega) (by simp at hf ⊢; omega)]
      simp [Res.opt]

theorem commas_cons (x : List Char) (l : List (List Char)) : commas (x :: l) = x ++ (l.map (fun a => ',' :: a)).flatten := by
  induction l generalizing x with
  | nil => simp [commas]
  | cons y l ih => rw [commas, ih y]; simp; exact fun h => absurd h (by simp)

theorem listP_commas {α : Type} {L : Lex} (hL : L.Ok) (p : List Char → Res α) (t : α → List Char) (P : List Char → Prop) (N : Nat) (a : α) (l : List α)
    (hp : ∀ b ∈ a :: l, ∀ r, P r → (t b ++ r).length ≤ N → p (t b ++ r) = .ok b r) (hc : ∀ r, P (',' :: r)) (ht : ∀ b ∈ a :: l, t b ≠ [])
    {r : List Char} (hr : P r) (hr' : (skip L r).head? ≠ some ',') (fuel : Nat) (hN : (commas ((a :: l).map t) ++ r).length ≤ N)
    (hf : (commas ((a :: l).map t) ++ r).length ≤ fuel) :
    listP fuel p (lit L [',']) (commas ((a :: l).map t) ++ r) = .ok (a :: l) r := by
  rw [List.map_cons, commas_cons, List.map_map, List.append_assoc] at hf hN ⊢
  have e : ((fun x => ',' :: x) ∘ t) = (fun b => ',' :: t b) := rfl
  rw [e] at hf hN ⊢
  have hP : P ((l.map (fun a => ',' :: t a)).flatten ++ r) := by
    cases l with
    | nil => simpa using hr
    | cons b l => simp only [List.map_cons, List.flatten_cons, List.cons_append, List.append_assoc]; exact hc _
  have h1 : 0 < (t a).length := List.length_pos_of_ne_nil (ht a (by simp))
  rw [listP, hp a (by simp) _ hP hN]
  simp only [Res.bind]
  rw [sepLoop_commas hL p t P N l (fun b hb => hp b (by simp [hb])) hc (fun b hb => ht b (by simp [hb])) hr hr' fuel
    (by simp at hN ⊢; omega) (by simp at hf ⊢; omega)]

theorem labelText_ne_nil {L : Lex} {l : List Char × Option Nat} (h : LabelOk L l = true) : labelText l ≠ [] := by
  obtain ⟨n, ho, hn, hb, hi, -⟩ := labelOk_split h
  simp [labelText, ho]

/-- What may follow an index. -/
def IdxEnd (L : Lex) (r : List Char) : Prop := Stops Char.isDigit r ∧ (skip L r).head? ≠ some '<'

theorem indexP_idx {L : Lex} (hL : L.Ok) {i : Idx} (h : SlotOk L (some i) = true) (fuel : Nat) {r : List Char} (hr : IdxEnd L r)
    (hf : (idxText i ++ r).length ≤ fuel) : indexP L fuel (idxText i ++ r) = .ok i r := by
  obtain ⟨b, o, ps⟩ := i
  simp only [SlotOk, Bool.and_eq_true, List.all_eq_true] at h
  obtain ⟨hb, hps⟩ := h
  have hk : L.known b = true := by obtain ⟨n, -, -, -, -, hk⟩ := labelOk_split hb; exact hk
  have hkp : ps.all (fun p => L.known p.1) = true := by
    rw [List.all_eq_true]
    intro p hp; obtain ⟨n, -, -, -, -, hk⟩ := labelOk_split (hps p hp); exact hk
  unfold indexP idxText
  simp only [List.append_assoc]
  rw [skip_label hL hb]
  by_cases hp0 : ps = []
  · subst hp0
    simp only [ne_eq, not_true_eq_false, if_false, List.nil_append]
    rw [labelP_label hL hb hr.1]
    simp only [Res.bind, lit_fail L hr.2, Res.opt]
    simp [hk]
  · simp only [ne_eq, hp0, not_false_eq_true, if_true]
    rw [labelP_label hL hb (by simp)]
    obtain ⟨p, ps', rfl⟩ := List.exists_cons_of_ne_nil hp0
    simp only [Res.bind, List.cons_append, List.append_assoc, lit1_ok L _ (hL.punct '<' (by simp)).2.2, List.nil_append]
    have hgt : skip L ('>' :: r) = '>' :: r := skip_stop L _ (hL.punct '>' (by simp)).2.2
    rw [listP_commas hL (fun x => labelP L (skip L x)) labelText (fun r => Stops Char.isDigit r) fuel p ps'
      (fun a ha x hx _ => by rw [skip_label hL (hps a ha)]; exact labelP_label hL (hps a ha) hx) (fun x => by simp)
      (fun a ha => labelText_ne_nil (hps a ha)) (by simp) (by rw [hgt]; simp) fuel
      (by simp [idxText] at hf ⊢; omega) (by simp [idxText] at hf ⊢; omega)]
    simp only [lit1_ok L _ (hL.punct '>' (by simp)).2.2, Res.opt, hk, hkp, Bool.and_self, if_true]

theorem slot_split {L : Lex} {l : List (Option Idx)} (h : ∀ s ∈ l, SlotOk L s = true) :
    ∃ is : List Idx, l = is.map some ∧ ∀ i ∈ is, SlotOk L (some i) = true := by
  induction l with
  | nil => exact ⟨[], rfl, by simp⟩
  | cons s l ih =>
    obtain ⟨is, rfl, his⟩ := ih fun x hx => h x (by simp [hx])
    cases s with
    | none => exact absurd (h none (by simp)) (by simp [SlotOk])
    | some i => exact ⟨i :: is, rfl, by simpa using ⟨h (some i) (by simp), his⟩⟩

theorem idxText_ne_nil {L : Lex} {i : Idx} (h : SlotOk L (some i) = true) : idxText i ≠ [] := by
  simp only [SlotOk, Bool.and_eq_true] at h
  have := labelText_ne_nil h.1
  simp [idxText, this]

/-- Text of a bundle. -/
def slotsText (l : List (Option Idx)) : List Char := commas (l.map slotText)

theorem indicesP_slots {L : Lex} (hL : L.Ok) {l : List (Option Idx)} (h : ∀ s ∈ l, SlotOk L s = true) (fuel : Nat) {c : Char}
    {r : List Char} (hc : c = ';' ∨ c = '}') (hf : (slotsText l ++ c :: r).length ≤ fuel) :
    indicesP L fuel (slotsText l ++ c :: r) = .ok l (c :: r) := by
  have hcp : c ∈ ['(', ')', '*', '^', '{', '}', ';', ',', '<', '>', '/', '+', '-', ':'] := by rcases hc with rfl | rfl <;> simp
  have hsp : L.space c = false := (hL.punct c hcp).2.2
  have hsk : skip L (c :: r) = c :: r := skip_stop L _ hsp
  have hdig : Stops Char.isDigit (c :: r) := by rcases hc with rfl | rfl <;> simp
  obtain ⟨is, rfl, his⟩ := slot_split h
  unfold indicesP
  cases is with
  | nil =>
    simp only [slotsText, List.map_nil, commas, List.nil_append]
    have : listP fuel (indexP L fuel) (lit L [',']) (c :: r) = .fail := by
      simp [listP, indexP, hsk, labelP, (hL.punct c hcp).2.1, Res.bind]
    rw [this]
    simp [Res.opt, Res.bind]
  | cons i is =>
    have hm : (((i :: is).map some).map slotText) = (i :: is).map idxText := by simp [slotText]
    simp only [slotsText] at hf ⊢
    rw [hm] at hf ⊢
    have hcm : ∀ x, IdxEnd L (',' :: x) := fun x => ⟨by simp, by rw [skip_stop L _ (hL.punct ',' (by simp)).2.2]; simp⟩
    have hce : IdxEnd L (c :: r) := ⟨hdig, by rw [hsk]; rcases hc with rfl | rfl <;> simp⟩
    rw [listP_commas hL (indexP L fuel) idxText (IdxEnd L) fuel i is (fun a ha x hx hN => indexP_idx hL (his a ha) fuel hx hN) hcm
      (fun a ha => idxText_ne_nil (his a ha)) hce (by rw [hsk]; rcases hc with rfl | rfl <;> simp) fuel hf hf]
    simp [Res.opt, Res.bind]

/-! ## Tensors -/

/-- An optional further bundle. -/
def moreP (L : Lex) (fuel : Nat) (r : List Char) : Res (List (Option Idx)) :=
  (((lit L [';'] r).bind fun _ r => (indicesP L fuel r).expect).opt [] r).expect

theorem moreP_some {L : Lex} (hL : L.Ok) {l : List (Option Idx)} (h : ∀ s ∈ l, SlotOk L s = true) (fuel : Nat) {c : Char}
    {r : List Char} (hc : c = ';' ∨ c = '}') (hf : (slotsText l ++ c :: r).length ≤ fuel) :
    moreP L fuel (';' :: (slotsText l ++ c :: r)) = .ok l (c :: r) := by
  simp only [moreP, lit1_ok L _ (hL.punct ';' (by simp)).2.2, Res.bind, indicesP_slots hL h fuel hc hf, Res.expect, Res.opt]

theorem moreP_none {L : Lex} (hL : L.Ok) (fuel : Nat) (r : List Char) : moreP L fuel ('}' :: r) = .ok [] ('}' :: r) := by
  have : lit L [';'] ('}' :: r) = .fail := lit_fail L (by rw [skip_stop L _ (hL.punct '}' (by simp)).2.2]; simp)
  simp [moreP, this, Res.bind, Res.opt, Res.expect]

/-- Text of the indices of a tensor. -/
def groupsText (bra ket aux : List (Option Idx)) : List Char :=
  '{' :: slotsText bra ++ (if ket ≠ [] then ';' :: slotsText ket else [])
      ++ (if aux ≠ [] then (if ket = [] then [';'] else []) ++ ';' :: slotsText aux else []) ++ ['}']

theorem groupsP_text {L : Lex} (hL : L.Ok) {bra ket aux : List (Option Idx)} (h : ∀ s ∈ bra ++ ket ++ aux, SlotOk L s = true)
    (fuel : Nat) (r : List Char) (hf : (groupsText bra ket aux ++ r).length ≤ fuel) :
    groupsP L fuel (groupsText bra ket aux ++ r) = .ok (bra, ket, aux) r := by
  have hsp : L.space '{' = false := (hL.punct _ (by simp)).2.2
  have hspe : L.space '}' = false := (hL.punct _ (by simp)).2.2
  have hb : ∀ s ∈ bra, SlotOk L s = true := fun s hs => h s (by simp [hs])
  have hk : ∀ s ∈ ket, SlotOk L s = true := fun s hs => h s (by simp [hs])
  have ha : ∀ s ∈ aux, SlotOk L s = true := fun s hs => h s (by simp [hs])
  have e : ∀ x, groupsP L fuel ('{' :: x) = ((indicesP L fuel x).expect.bind fun b r => (moreP L fuel r).bind fun k r =>
      (moreP L fuel r).bind fun x r => (lit L ['}'] r).expect.bind fun _ r => .ok (b, k, x) r) := by
    intro x
    have h1 : lit L ['_', '{'] ('{' :: x) = .fail := lit_fail L (by rw [skip_stop L _ hsp]; simp)
    have h2 : lit L ['^', '{'] ('{' :: x) = .fail := lit_fail L (by rw [skip_stop L _ hsp]; simp)
    simp only [groupsP, h1, h2, Res.bind, Res.or, lit1_ok L _ hsp]
    rfl
  by_cases hk0 : ket = [] <;> by_cases ha0 : aux = []
  · subst hk0 ha0
    simp only [groupsText, ne_eq, not_true_eq_false, if_false, List.append_nil, List.append_assoc, List.cons_append, List.nil_append] at hf ⊢
    rw [e, indicesP_slots hL hb fuel (.inr rfl) (by simp at hf ⊢; omega)]
    simp only [Res.expect, Res.bind, moreP_none hL, lit1_ok L _ hspe]
  · subst hk0
    simp only [groupsText, ne_eq, not_true_eq_false, if_false, ha0, not_false_eq_true, if_true, List.append_nil, List.append_assoc,
      List.cons_append, List.nil_append] at hf ⊢
    rw [e, indicesP_slots hL hb fuel (.inl rfl) (by simp at hf ⊢; omega)]
    have h1 := moreP_some hL (l := []) (by simp) fuel (c := ';') (r := slotsText aux ++ '}' :: r) (.inl rfl)
      (by simp [slotsText, commas] at hf ⊢; omega)
    simp only [slotsText, List.map_nil, commas, List.nil_append] at h1
    simp only [slotsText] at hf ⊢
    simp only [Res.expect, Res.bind, h1]
    have h2 := moreP_some hL ha fuel (c := '}') (r := r) (.inr rfl) (by simp [slotsText] at hf ⊢; omega)
    simp only [slotsText] at h2
    simp only [h2, lit1_ok L _ hspe]
  · subst ha0
    simp only [groupsText, ne_eq, not_true_eq_false, if_false, hk0, not_false_eq_true, if_true, List.append_nil, List.append_assoc,
      List.cons_append, List.nil_append] at hf ⊢
    rw [e, indicesP_slots hL hb fuel (.inl rfl) (by simp at hf ⊢; omega)]
    simp only [Res.expect, Res.bind, moreP_some hL hk fuel (c := '}') (r := r) (.inr rfl) (by simp at hf ⊢; omega), moreP_none hL,
      lit1_ok L _ hspe]
  · simp only [groupsText, ne_eq, if_false, hk0, ha0, not_false_eq_true, if_true, List.append_assoc,
      List.cons_append, List.nil_append] at hf ⊢
    rw [e, indicesP_slots hL hb fuel (.inl rfl) (by simp at hf ⊢; omega)]
    simp only [Res.expect, Res.bind, moreP_some hL hk fuel (c := ';') (r := slotsText aux ++ '}' :: r) (.inl rfl) (by simp at hf ⊢; omega),
      moreP_some hL ha fuel (c := '}') (r := r) (.inr rfl) (by simp at hf ⊢; omega), lit1_ok L _ hspe]

theorem word_brace {L : Lex} (hL : L.Ok) (r : List Char) : Stops L.word ('{' :: r) := by simp [(hL.punct '{' (by simp)).1]

theorem nameEnd_brace {L : Lex} (hL : L.Ok) (r : List Char) : NameEnd L ('{' :: r) := by
  refine ⟨word_brace hL r, ?_⟩
  intro c h; simp at h; subst h; decide

theorem groupsText_cons (bra ket aux : List (Option Idx)) : ∃ t, groupsText bra ket aux = '{' :: t := ⟨_, rfl⟩

theorem symmetryP_text (p : PermSym) (b : BraKetSym) (c : ColSym) (r : List Char) :
    symmetryP (':' :: permText p :: '-' :: braketText b :: '-' :: colText c :: r)
      = .ok (permText p, some (braketText b), some (colText c)) r := by
  have h1 : (permText p).isUpper = true := by cases p <;> decide
  have h2 : (braketText b).isUpper = true := by cases b <;> decide
  have h3 : (colText c).isUpper = true := by cases c <;> decide
  simp [symmetryP, rawLit, Res.bind, upperP, h1, h2, h3, Res.opt]

theorem symmetryP_none {r : List Char} (h : r.head? ≠ some ':') : symmetryP r = .fail := by
  simp [symmetryP, rawLit_head h, Res.bind]

theorem atomText_tensor (annot : Bool) (n : List Char) (bra ket aux : List (Option Idx)) (p : PermSym) (b : BraKetSym) (c : ColSym) :
    atomText annot (.tensor n bra ket aux p b c)
      = n ++ (groupsText bra ket aux ++ (if annot then [':', permText p, '-', braketText b, '-', colText c] else [])) := by
  simp [atomText, groupsText, slotsText]

theorem atomText_op (annot : Bool) (n : List Char) (ann cre : List (Option Idx)) :
    atomText annot (.op n ann cre) = n ++ groupsText ann cre [] := by
  simp [atomText, groupsText, slotsText]

theorem tensorP_tensor {L : Lex} (hL : L.Ok) {D : Defaults} {annot : Bool} {n : List Char} {bra ket aux : List (Option Idx)} {p : PermSym}
    {b : BraKetSym} {c : ColSym} (h : AtomOk L D annot (.tensor n bra ket aux p b c)) (fuel : Nat) {r : List Char}
    (hr : r.head? ≠ some ':') (hf : (atomText annot (.tensor n bra ket aux p b c) ++ r).length ≤ fuel) :
    tensorP L D fuel (atomText annot (.tensor n bra ket aux p b c) ++ r) = .ok (.tensor n bra ket aux p b c) r := by
  obtain ⟨hn, ho, hs, hb, ha⟩ := h
  rw [atomText_tensor] at hf ⊢
  simp only [List.append_assoc] at hf ⊢
  rw [tensorP, skip_name hL hn]
  obtain ⟨t, ht⟩ := groupsText_cons bra ket aux
  rw [nameP_name hn (by rw [ht]; exact word_brace hL _)]
  simp only [Res.bind]
  rw [groupsP_text hL hs fuel _ (by simp at hf ⊢; omega)]
  simp only [ho, Bool.false_eq_true, if_false]
  cases annot with
  | false =>
    obtain ⟨rfl, rfl, rfl⟩ : p = D.p ∧ b = D.b ∧ c = D.c := by simpa using ha
    simp only [Bool.false_eq_true, if_false, List.nil_append, symmetryP_none hr, Res.opt]
  | true =>
    simp only [if_true, List.cons_append, List.nil_append, symmetryP_text, Res.opt]
    have h1 : toPerm (permText p) = some p := by cases p <;> decide
    have h2 : toBraKet D.b (some (braketText b)) = some b := by
      simp at hb; rcases hb with rfl | rfl | rfl <;> rfl
    have h3 : toCol D.c (some (colText c)) = some c := by cases c <;> rfl
    simp only [h1, h2, h3]

theorem tensorP_op {L : Lex} (hL : L.Ok) {D : Defaults} {annot : Bool} {n : List Char} {ann cre : List (Option Idx)}
    (h : AtomOk L D annot (.op n ann cre)) (fuel : Nat) {r : List Char}
    (hr : r.head? ≠ some ':') (hf : (atomText annot (.op n ann cre) ++ r).length ≤ fuel) :
    tensorP L D fuel (atomText annot (.op n ann cre) ++ r) = .ok (.op n ann cre) r := by
  obtain ⟨hn, ho, hs⟩ := h
  rw [atomText_op] at hf ⊢
  simp only [List.append_assoc] at hf ⊢
  rw [tensorP, skip_name hL hn]
  obtain ⟨t, ht⟩ := groupsText_cons ann cre []
  rw [nameP_name hn (by rw [ht]; exact word_brace hL _)]
  simp only [Res.bind]
  rw [groupsP_text hL (by simpa using hs) fuel _ (by simp at hf ⊢; omega)]
  simp only [ho, if_true, symmetryP_none hr, Res.opt]

/-- A name that no index group follows is not a tensor. -/
theorem tensorP_name {L : Lex} (hL : L.Ok) (D : Defaults) {n : List Char} (hn : NameOk L n = true) (fuel : Nat) {r : List Char}
    (hr : Stops L.word r) (h1 : lit L ['_', '{'] r = .fail) (h2 : lit L ['^', '{'] r = .fail) (h3 : lit L ['{'] r = .fail) :
    tensorP L D fuel (n ++ r) = .fail := by
  rw [tensorP, skip_name hL hn, nameP_name hn hr]
  simp [Res.bind, groupsP, h1, h2, h3, Res.or]

end SeQuant.Serial
