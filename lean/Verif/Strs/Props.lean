import Verif.Strs.Model
import Mathlib.Tactic.ByContra
import Mathlib.Data.List.Forall2

/-!
# What conversions of strings guarantee (C128)
-/

namespace SeQuant.Strs

/-- A Unicode code point that is no surrogate. -/
def Scalar (c : Nat) : Prop := c < 0xD800 ∨ 0xE000 ≤ c ∧ c < 0x110000

theorem dec_pair (u v : Nat) (m : List Nat) (h1 : isLead u = true) (h2 : isTrail v = true) :
    dec16 (u :: v :: m) = (dec16 m).map ((0x10000 + (u - 0xD800) * 0x400 + (v - 0xDC00)) :: ·) := by
  rw [dec16.eq_def]; simp only [h1, h2, if_true]

theorem dec_plain (u : Nat) (l : List Nat) (h1 : ¬ isLead u = true) (h2 : ¬ isTrail u = true) : dec16 (u :: l) = (dec16 l).map (u :: ·) := by
  rw [dec16.eq_def]; simp only [h1, h2]; rfl

theorem lead_iff (u : Nat) : isLead u = true ↔ 0xD800 ≤ u ∧ u < 0xDC00 := by simp only [isLead, Bool.and_eq_true, decide_eq_true_eq]
theorem trail_iff (u : Nat) : isTrail u = true ↔ 0xDC00 ≤ u ∧ u < 0xE000 := by simp only [isTrail, Bool.and_eq_true, decide_eq_true_eq]

theorem dec_enc (s : List Nat) (h : ∀ c ∈ s, Scalar c) : dec16 (enc16 s) = some s := by
  induction s with
  | nil => rw [enc16, dec16.eq_def]
  | cons c s ih =>
    have hc := h c List.mem_cons_self
    have ih := ih fun x hx => h x (List.mem_cons_of_mem _ hx)
    unfold Scalar at hc
    by_cases hw : 0xFFFF < c
    · rw [enc16, if_pos hw, dec_pair _ _ _ ((lead_iff _).2 (by omega)) ((trail_iff _).2 (by omega)), ih, Option.map_some]
      have e : 0x10000 + (0xD800 + (c - 0x10000) / 0x400 - 0xD800) * 0x400 + (0xDC00 + (c - 0x10000) % 0x400 - 0xDC00) = c := by omega
      rw [e]
    · rw [enc16, if_neg hw, dec_plain _ _ (fun hc => by have := (lead_iff _).1 hc; omega) (fun hc => by have := (trail_iff _).1 hc; omega), ih]
      rfl

theorem enc_small (s : List Nat) (h : ∀ c ∈ s, Scalar c) : ∀ u ∈ enc16 s, u < 0x10000 := by
  induction s with
  | nil => intro u hu; cases hu
  | cons c s ih =>
    have hc := h c List.mem_cons_self
    have ih := ih fun x hx => h x (List.mem_cons_of_mem _ hx)
    unfold Scalar at hc
    intro u hu
    rw [enc16] at hu
    split at hu
    · rcases List.mem_cons.1 hu with h1 | hu
      · omega
      · rcases List.mem_cons.1 hu with h1 | hu
        · omega
        · exact ih u hu
    · rcases List.mem_cons.1 hu with h1 | hu
      · omega
      · exact ih u hu

theorem map_mod (w : List Nat) (h : ∀ u ∈ w, u < 0x10000) : w.map (· % 0x10000) = w := by
  conv => rhs; rw [← List.map_id w]
  exact List.map_congr_left fun u hu => Nat.mod_eq_of_lt (h u hu)

theorem no_check (checks : Bool) (w : List Nat) (h : ∀ u ∈ w, u < 0x10000) : ¬ (checks && w.any fun c => decide (0xFFFF < c)) = true := by
  simp only [Bool.and_eq_true, List.any_eq_true, decide_eq_true_eq, not_and, not_exists]
  intro _ u hu hc
  have := h u hu
  omega

/-- **C128.** Every text survives the conversion to wide characters and back. -/
theorem utf_round (checks : Bool) (s : List Nat) (h : ∀ c ∈ s, Scalar c) : toUtf8 checks (toUtf16 s) = .ok s := by
  unfold toUtf16
  rw [toUtf8, if_neg (no_check checks _ (enc_small s h)), map_mod _ (enc_small s h), dec_enc s h]

theorem dec_some : ∀ (n : Nat) (w s : List Nat), w.length ≤ n → (∀ u ∈ w, u < 0x10000) → dec16 w = some s → (∀ c ∈ s, Scalar c) ∧ w = enc16 s
  | _, [], s, _, _, h => by
    rw [dec16.eq_def] at h
    injection h with h
    subst h
    exact ⟨fun c hc => absurd hc List.not_mem_nil, rfl⟩
  | 0, _ :: _, _, hn, _, _ => by simp at hn
  | n + 1, u :: l, s, hn, hw, h => by
    by_cases hl : isLead u = true
    · cases l with
      | nil => rw [dec16.eq_def] at h; simp only [hl, if_true] at h; cases h
      | cons v m =>
        by_cases ht : isTrail v = true
        · rw [dec_pair u v m hl ht, Option.map_eq_some_iff] at h
          obtain ⟨t, h1, h4⟩ := h
          obtain ⟨h2, h3⟩ := dec_some n m t (by simp only [List.length_cons] at hn; omega)
            (fun x hx => hw x (List.mem_cons_of_mem _ (List.mem_cons_of_mem _ hx))) h1
          have hl := (lead_iff u).1 hl
          have ht := (trail_iff v).1 ht
          rw [← h4]
          constructor
          · intro c hc
            rcases List.mem_cons.1 hc with hc | hc
            · unfold Scalar; omega
            · exact h2 c hc
          · have e1 : 0xD800 + (0x10000 + (u - 0xD800) * 0x400 + (v - 0xDC00) - 0x10000) / 0x400 = u := by omega
            have e2 : 0xDC00 + (0x10000 + (u - 0xD800) * 0x400 + (v - 0xDC00) - 0x10000) % 0x400 = v := by omega
            rw [enc16, if_pos (by omega), ← h3, e1, e2]
        · rw [dec16.eq_def] at h; simp only [hl, ht, if_true] at h; cases h
    · by_cases ht : isTrail u = true
      · rw [dec16.eq_def] at h; simp only [hl, ht, if_true] at h; cases h
      · rw [dec_plain u l hl ht, Option.map_eq_some_iff] at h
        obtain ⟨t, h1, h4⟩ := h
        obtain ⟨h2, h3⟩ := dec_some n l t (by simp only [List.length_cons] at hn; omega) (fun x hx => hw x (List.mem_cons_of_mem _ hx)) h1
        have hu := hw u List.mem_cons_self
        rw [lead_iff] at hl
        rw [trail_iff] at ht
        rw [← h4]
        constructor
        · intro c hc
          rcases List.mem_cons.1 hc with hc | hc
          · unfold Scalar; omega
          · exact h2 c hc
        · rw [enc16, if_neg (by omega), ← h3]

/-- **C128.** Wide strings of 16-bit units are converted to the only text they stand for, and refused if there is none. -/
theorem utf8_iff (checks : Bool) (w : List Nat) (hw : ∀ u ∈ w, u < 0x10000) (s : List Nat) :
    toUtf8 checks w = .ok s ↔ (∀ c ∈ s, Scalar c) ∧ w = toUtf16 s := by
  constructor
  · intro h
    rw [toUtf8, if_neg (no_check checks w hw), map_mod w hw] at h
    cases hd : dec16 w with
    | none => rw [hd] at h; cases h
    | some t =>
      rw [hd] at h
      injection h with h
      subst h
      exact dec_some _ w t (Nat.le_refl _) hw hd
  · rintro ⟨h1, rfl⟩
    exact utf_round checks s h1

example : toUtf8 true (toUtf16 [0x41, 0x3B1, 0x1D49C]) = .ok [0x41, 0x3B1, 0x1D49C] := utf_round true _ (by simp [Scalar])
example : toUtf16 [0x1D49C] = [0xD835, 0xDC9C] ∧ toUtf8 false [0xD835] = .badUtf := by decide

/-- **C128.** What the wide text of a text is: character by character, one unit in the basic plane and a pair of surrogates with ten bits each outside. -/
theorem utf16_spec : (∀ s t, toUtf16 (s ++ t) = toUtf16 s ++ toUtf16 t) ∧ (∀ c, c < 0x10000 → toUtf16 [c] = [c]) ∧
    ∀ hi lo, hi < 0x400 → lo < 0x400 → toUtf16 [0x10000 + hi * 0x400 + lo] = [0xD800 + hi, 0xDC00 + lo] := by
  unfold toUtf16
  refine ⟨fun s t => ?_, fun c hc => ?_, fun hi lo h1 h2 => ?_⟩
  · induction s with
    | nil => rfl
    | cons c s ih =>
      rw [List.cons_append, enc16, enc16, ih]
      split <;> rfl
  · rw [enc16, if_neg (by omega), enc16]
  · have e1 : 0xD800 + (0x10000 + hi * 0x400 + lo - 0x10000) / 0x400 = 0xD800 + hi := by omega
    have e2 : 0xDC00 + (0x10000 + hi * 0x400 + lo - 0x10000) % 0x400 = 0xDC00 + lo := by omega
    rw [enc16, if_pos (by omega), enc16, e1, e2]

example : toUtf16 [0x10000 + 0x35 * 0x400 + 0x9C] = [0xD835, 0xDC9C] := utf16_spec.2.2 0x35 0x9C (by decide) (by decide)

/-- **C128.** Wide literals of characters in the basic plane are converted as they are. -/
theorem utf8_literal (checks : Bool) (w : List Nat) (h : ∀ c ∈ w, Scalar c) (hb : ∀ c ∈ w, c < 0x10000) : toUtf8 checks w = .ok w := by
  rw [utf8_iff checks w hb]
  refine ⟨h, ?_⟩
  clear h
  unfold toUtf16
  induction w with
  | nil => simp [enc16]
  | cons c w ih =>
    have hc := hb c List.mem_cons_self
    rw [enc16, if_neg (by omega), ← ih fun x hx => hb x (List.mem_cons_of_mem _ hx)]

example : toUtf8 true [0x3B1, 0x2191] = .ok [0x3B1, 0x2191] := utf8_literal true _ (by simp [Scalar]) (by simp)

/-- **C128.** Violated for other wide literals: with assertions the call aborts, without them another character comes out. -/
theorem utf8_wide : (∀ w : List Nat, (∃ c ∈ w, 0x10000 ≤ c) → toUtf8 true w = .aborts) ∧ toUtf8 false [0x1D49C] = .ok [0xD49C] := by
  refine ⟨?_, by decide⟩
  rintro w ⟨c, hc, h⟩
  rw [toUtf8, if_pos]
  simp only [Bool.true_and, List.any_eq_true, decide_eq_true_eq]
  exact ⟨c, hc, by omega⟩

/-! ## Numbers -/

/-- The number that a list of digits stands for, the most significant first. -/
def numeral (base : Nat) (ds : List Nat) : Nat := ds.foldl (fun a d => a * base + d) 0

/-- The character with this code is the digit of this value: `0` to `9`, then letters of either case. -/
def DigitOf (base c d : Nat) : Prop := d < base ∧ (d < 10 ∧ c = 48 + d ∨ 10 ≤ d ∧ d < 36 ∧ (c = 87 + d ∨ c = 55 + d))

/-- The text consists of these digits. -/
def IsDigits (base : Nat) (s ds : List Nat) : Prop := List.Forall₂ (DigitOf base) s ds

/-- The text is read as these digits. -/
def ReadAs (base : Nat) (s : List Nat) (ds : List Nat) : Prop := s.map (digit base) = ds.map some

theorem digit_iff (base c d : Nat) : digit base c = some d ↔ DigitOf base c d := by
  unfold digit DigitOf
  split
  · rw [Option.some.injEq]; omega
  · split
    · rw [Option.some.injEq]; omega
    · split
      · rw [Option.some.injEq]; omega
      · constructor
        · intro h; cases h
        · intro h; omega

theorem read_iff (base : Nat) (s ds : List Nat) : ReadAs base s ds ↔ IsDigits base s ds := by
  unfold ReadAs IsDigits
  induction s generalizing ds with
  | nil => cases ds <;> simp
  | cons c s ih => cases ds with
    | nil => simp
    | cons d ds => rw [List.map_cons, List.map_cons, List.cons.injEq, ih, digit_iff, List.forall₂_cons]

theorem digits_all (base : Nat) (s : List Nat) (acc n : Nat) (ds : List Nat) (h : ReadAs base s ds) :
    digits base acc n s = (ds.foldl (fun a d => a * base + d) acc, n + ds.length, []) := by
  induction s generalizing acc n ds with
  | nil => cases ds with
    | nil => simp [digits]
    | cons _ _ => simp [ReadAs] at h
  | cons c s ih => cases ds with
    | nil => simp [ReadAs] at h
    | cons d ds =>
      simp only [ReadAs, List.map_cons, List.cons.injEq] at h
      rw [digits, h.1]
      simp only [List.foldl_cons, List.length_cons]
      rw [ih _ _ ds h.2]
      simp; omega

theorem digits_rest (base : Nat) (s : List Nat) (acc n : Nat) (h : (digits base acc n s).2.2 = []) : ∃ ds, ReadAs base s ds := by
  induction s generalizing acc n with
  | nil => exact ⟨[], rfl⟩
  | cons c s ih =>
    rw [digits] at h
    cases hd : digit base c with
    | none => rw [hd] at h; simp at h
    | some d =>
      rw [hd] at h
      obtain ⟨ds, h1⟩ := ih _ _ h
      exact ⟨d :: ds, by simp [ReadAs, hd]; exact h1⟩

theorem finish_iff (lo hi : Int) (base : Nat) (t : List Nat) (sg : Nat → Int) (v : Int) :
    finish lo hi (sg (digits base 0 0 t).1) (digits base 0 0 t).2.1 (digits base 0 0 t).2.2 = .ok v ↔
      lo ≤ v ∧ v ≤ hi ∧ ∃ ds, ds ≠ [] ∧ ReadAs base t ds ∧ v = sg (numeral base ds) := by
  unfold finish
  constructor
  · intro h
    split at h
    · cases h
    · split at h
      · cases h
      · split at h
        · cases h
        · rename_i h1 h2 h3
          injection h with h
          obtain ⟨ds, hd⟩ := digits_rest base t 0 0 (not_not.1 h3)
          rw [h] at h2
          rw [digits_all base t 0 0 ds hd] at h h1
          refine ⟨by omega, by omega, ds, ?_, hd, h.symm⟩
          rintro rfl
          exact h1 rfl
  · rintro ⟨h1, h2, ds, h3, h4, h5⟩
    have h6 : (digits base 0 0 t).1 = numeral base ds ∧ (digits base 0 0 t).2.1 = ds.length ∧ (digits base 0 0 t).2.2 = [] := by
      rw [digits_all base t 0 0 ds h4]; simp [numeral]
    have h7 : ds.length ≠ 0 := fun hc => h3 (List.length_eq_zero_iff.1 hc)
    rw [h6.1, h6.2.1, h6.2.2, if_neg h7, ← h5, if_neg (by omega), if_neg (by simp)]

theorem minus_none (base : Nat) : digit base 45 = none := by
  unfold digit
  rw [if_neg (by omega), if_neg (by omega), if_neg (by omega)]

theorem string_to_read (signed : Bool) (lo hi : Int) (base : Nat) (s : List Nat) (v : Int) :
    stringTo signed lo hi base s = .ok v ↔ lo ≤ v ∧ v ≤ hi ∧ ∃ ds, ds ≠ [] ∧
      ((ReadAs base s ds ∧ v = numeral base ds) ∨ ∃ t, signed = true ∧ s = 45 :: t ∧ ReadAs base t ds ∧ v = -(numeral base ds : Int)) := by
  unfold stringTo
  split
  · rename_i hn
    obtain ⟨hs, hh⟩ := hn
    cases s with
    | nil => cases hh
    | cons c t =>
      have hc : c = 45 := by simpa using hh
      rw [List.tail_cons, finish_iff lo hi base t (fun n => -(n : Int)) v]
      refine and_congr_right fun _ => and_congr_right fun _ => exists_congr fun ds => and_congr_right fun hd => ?_
      constructor
      · rintro ⟨h1, h2⟩
        exact .inr ⟨t, hs, by rw [hc], h1, h2⟩
      · rintro (⟨h1, -⟩ | ⟨t', -, h1, h2, h3⟩)
        · cases ds with
          | nil => exact absurd rfl hd
          | cons d ds =>
            rw [hc] at h1
            simp [ReadAs, minus_none] at h1
        · injection h1 with _ h1
          rw [h1]
          exact ⟨h2, h3⟩
  · rename_i hn
    rw [finish_iff lo hi base s (fun n => (n : Int)) v]
    refine and_congr_right fun _ => and_congr_right fun _ => exists_congr fun ds => and_congr_right fun _ => ?_
    constructor
    · exact .inl
    · rintro (h | ⟨t, h1, h2, -⟩)
      · exact h
      · exact absurd ⟨h1, by rw [h2]; rfl⟩ hn

/-- **C128.** A text is converted to a number exactly if it consists of at least one digit, after a minus sign if the type is signed, and if the number is in
the range of the type; that number is the result.  Everything else is refused. -/
theorem string_to_iff (signed : Bool) (lo hi : Int) (base : Nat) (s : List Nat) (v : Int) :
    stringTo signed lo hi base s = .ok v ↔ lo ≤ v ∧ v ≤ hi ∧ ∃ ds, ds ≠ [] ∧
      ((IsDigits base s ds ∧ v = numeral base ds) ∨ ∃ t, signed = true ∧ s = 45 :: t ∧ IsDigits base t ds ∧ v = -(numeral base ds : Int)) := by
  rw [string_to_read]
  simp only [read_iff]

/-- **C128.** Narrow texts that are not converted are refused with the documented exception. -/
theorem string_to_total (signed : Bool) (lo hi : Int) (base : Nat) (s : List Nat) :
    stringTo signed lo hi base s = .throws ∨ ∃ v, stringTo signed lo hi base s = .ok v := by
  have hf : ∀ v n r, finish lo hi v n r = .throws ∨ ∃ x, finish lo hi v n r = .ok x := by
    intro v n r
    unfold finish
    split
    · exact .inl rfl
    · split
      · exact .inl rfl
      · split
        · exact .inl rfl
        · exact .inr ⟨_, rfl⟩
  unfold stringTo
  split <;> exact hf _ _ _

example : stringTo true (-128) 127 10 [45, 49, 50, 56] = .ok (-128) :=
  (string_to_iff true (-128) 127 10 _ _).2 ⟨by decide, by decide, [1, 2, 8], by simp, .inr ⟨[49, 50, 56], rfl, rfl, (read_iff _ _ _).1 (by unfold ReadAs; decide), by decide⟩⟩
example : stringTo false 0 255 16 [102, 70] = .ok 255 ∧ stringTo false 0 255 10 [45, 49] = .throws ∧ stringTo true (-5) 5 10 [43, 49] = .throws ∧
    stringTo false 0 255 10 [49, 50, 32] = .throws ∧ stringTo false 0 255 10 [50, 53, 54] = .throws ∧ stringTo false 0 255 10 [] = .throws := by decide

theorem wide_not (signed : Bool) (lo hi : Int) (base : Nat) (s : List Nat) (c : Nat) (hc : c ∈ s) (h : 127 < c) (v : Int) :
    stringTo signed lo hi base s ≠ .ok v := by
  have hd : digit base c = none := by
    unfold digit
    rw [if_neg (by omega), if_neg (by omega), if_neg (by omega)]
  have hne : ∀ (t : List Nat) (ds : List Nat), c ∈ t → ¬ ReadAs base t ds := by
    intro t ds ht h1
    have : digit base c ∈ t.map (digit base) := List.mem_map_of_mem ht
    rw [h1, hd] at this
    simp at this
  rw [Ne, string_to_read]
  rintro ⟨-, -, ds, -, ⟨h1, -⟩ | ⟨t, -, h1, h2, -⟩⟩
  · exact hne s ds hc h1
  · rw [h1] at hc
    rcases List.mem_cons.1 hc with hc | hc
    · omega
    · exact hne t ds hc h2

/-- **C128.** Wide texts are converted exactly like narrow ones, whatever characters they contain. -/
theorem wstring_ok_iff (checks signed : Bool) (lo hi : Int) (base : Nat) (s : List Nat) (v : Int) :
    wstringTo checks signed lo hi base s = .ok v ↔ stringTo signed lo hi base s = .ok v := by
  unfold wstringTo
  split
  · rename_i h
    simp only [List.any_eq_true, decide_eq_true_eq] at h
    obtain ⟨c, hc, hlt⟩ := h
    refine ⟨fun h => ?_, fun h => absurd h (wide_not signed lo hi base s c hc hlt v)⟩
    split at h <;> cases h
  · exact Iff.rfl

/-- **C128, partial.** Wide texts of Unicode characters in the basic plane are refused with the documented exception too.  Missing: other wide texts, for which
it is wrong (`wstring_message`). -/
theorem wstring_refused_partial (checks signed : Bool) (lo hi : Int) (base : Nat) (s : List Nat) (h : ∀ c ∈ s, Scalar c) (hb : ∀ c ∈ s, c < 0x10000) :
    wstringTo checks signed lo hi base s = stringTo signed lo hi base s := by
  unfold wstringTo
  split
  · rename_i hx
    simp only [List.any_eq_true, decide_eq_true_eq] at hx
    obtain ⟨c, hc, hlt⟩ := hx
    rw [utf8_literal checks s h hb]
    rcases string_to_total signed lo hi base s with h1 | ⟨v, h1⟩
    · exact h1.symm
    · exact absurd h1 (wide_not signed lo hi base s c hc hlt v)
  · rfl

example : wstringTo true false 0 9 10 [0x3B1] = .throws := by
  rw [wstring_refused_partial true false 0 9 10 _ (by simp [Scalar]) (by simp)]; decide

/-- **C128.** Violated: composing the message of the exception fails itself.  Every wide text with a character outside the basic plane aborts if assertions
are compiled in, and a lone surrogate causes the exception of another library. -/
theorem wstring_message : (∀ (signed : Bool) (lo hi : Int) (base : Nat) (s : List Nat), (∃ c ∈ s, 0x10000 ≤ c) → wstringTo true signed lo hi base s = .aborts) ∧
    ∀ (checks signed : Bool) (lo hi : Int) (base : Nat), wstringTo checks signed lo hi base [0xD835] = .badUtf := by
  constructor
  · intro signed lo hi base s h
    have h1 := utf8_wide.1 s h
    obtain ⟨c, hc, hlt⟩ := h
    unfold wstringTo
    rw [if_pos, h1]
    simp only [List.any_eq_true, decide_eq_true_eq]
    exact ⟨c, hc, by omega⟩
  · intro checks signed lo hi base
    have h1 : ∀ b, toUtf8 b [0xD835] = .badUtf := by decide
    unfold wstringTo
    rw [if_pos (by decide), h1]

end SeQuant.Strs
