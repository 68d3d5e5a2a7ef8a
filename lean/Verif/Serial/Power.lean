import Verif.Serial.Lemmas
import Mathlib.Data.List.TakeWhile

/-!
# Powers and parentheses
-/

namespace SeQuant.Serial

open SeQuant.Expression

/-! ## Balanced text -/

/-- Depth of parentheses after reading the text from depth `d`. -/
def dep : List Char → Nat → Option Nat
  | [], d => some d
  | c :: t, d => if c = '(' then dep t (d + 1) else if c = ')' then (match d with | 0 => none | d + 1 => dep t d) else dep t d

def Bal (u : List Char) : Prop := dep u 0 = some 0

instance (u : List Char) : Decidable (Bal u) := by unfold Bal; infer_instance

/-- No parentheses. -/
def NoPar (u : List Char) : Prop := ∀ c ∈ u, c ≠ '(' ∧ c ≠ ')'

theorem dep_append (u v : List Char) (d : Nat) : dep (u ++ v) d = (dep u d).bind (dep v) := by
  induction u generalizing d with
  | nil => rfl
  | cons c u ih =>
    simp only [List.cons_append, dep]
    split
    · exact ih _
    · split
      · cases d with
        | zero => rfl
        | succ d => exact ih d
      · exact ih d

theorem dep_shift (u : List Char) (d k m : Nat) (h : dep u d = some k) : dep u (d + m) = some (k + m) := by
  induction u generalizing d with
  | nil => simp [dep] at h ⊢; omega
  | cons c u ih =>
    simp only [dep] at h ⊢
    split
    · rename_i hc; rw [if_pos hc] at h
      have := ih _ h
      rwa [show d + 1 + m = d + m + 1 by omega] at this
    · rename_i hc; rw [if_neg hc] at h
      split
      · rename_i hc; rw [if_pos hc] at h
        cases d with
        | zero => simp at h
        | succ d => rw [show d + 1 + m = (d + m) + 1 by omega]; exact ih d h
      · rename_i hc; rw [if_neg hc] at h
        exact ih d h

theorem Bal.dep {u : List Char} (h : Bal u) (d : Nat) : dep u d = some d := by simpa using dep_shift u 0 0 d h

theorem Bal.append {u v : List Char} (hu : Bal u) (hv : Bal v) : Bal (u ++ v) := by
  rw [Bal, dep_append, hu]; exact hv

theorem Bal.paren {u : List Char} (hu : Bal u) : Bal ('(' :: (u ++ [')'])) := by
  simp [Bal, SeQuant.Serial.dep, dep_append, hu.dep]

theorem NoPar.bal {u : List Char} (h : NoPar u) : Bal u := by
  induction u with
  | nil => rfl
  | cons c u ih =>
    have h1 := h c (by simp)
    simp only [Bal, SeQuant.Serial.dep, h1.1, h1.2, if_false]
    exact ih fun d hd => h d (by simp [hd])

theorem NoPar.append {u v : List Char} (hu : NoPar u) (hv : NoPar v) : NoPar (u ++ v) := fun c hc => by
  rcases List.mem_append.1 hc with h | h
  · exact hu c h
  · exact hv c h

theorem bal_nil : Bal [] := rfl

/-- The closing parenthesis is determined by the text before it. -/
theorem bal_close {u t x y : List Char} (hu : Bal u) (ht : Bal t) (h : u ++ ')' :: x = t ++ ')' :: y) : x = y := by
  rcases List.append_eq_append_iff.1 h with ⟨w, h1, h2⟩ | ⟨w, h1, h2⟩
  · cases w with
    | nil => simp at h2; exact h2
    | cons c w =>
      simp at h2
      rw [← h2.1] at h1
      have : dep t 0 = none := by rw [h1, dep_append, hu]; simp [dep]
      rw [ht] at this; exact absurd this (by simp)
  · cases w with
    | nil => simp at h2; exact h2.symm
    | cons c w =>
      simp at h2
      rw [← h2.1] at h1
      have : dep u 0 = none := by rw [h1, dep_append, ht]; simp [dep]
      rw [hu] at this; exact absurd this (by simp)

/-! ## What the parsers consume -/

/-- The parser fails or succeeds, having consumed text without parentheses. -/
def Plain {α : Type} (p : List Char → Res α) : Prop :=
  ∀ cs, p cs = .fail ∨ ∃ a u r, p cs = .ok a r ∧ cs = u ++ r ∧ NoPar u

theorem space_noPar {L : Lex} (hL : L.Ok) {u : List Char} (h : ∀ c ∈ u, L.space c = true) : NoPar u := by
  intro c hc
  constructor
  · rintro rfl; have := h _ hc; rw [(hL.punct '(' (by simp)).2.2] at this; exact absurd this (by decide)
  · rintro rfl; have := h _ hc; rw [(hL.punct ')' (by simp)).2.2] at this; exact absurd this (by decide)

theorem skip_split (L : Lex) (cs : List Char) : ∃ w, cs = w ++ skip L cs ∧ ∀ c ∈ w, L.space c = true :=
  ⟨cs.takeWhile L.space, (List.takeWhile_append_dropWhile).symm, fun _ hc => List.mem_takeWhile_imp hc⟩

theorem rawLit_cases (s cs : List Char) : rawLit s cs = .fail ∨ ∃ r, rawLit s cs = .ok () r ∧ cs = s ++ r := by
  induction s generalizing cs with
  | nil => exact .inr ⟨cs, by simp [rawLit], rfl⟩
  | cons a s ih =>
    cases cs with
    | nil => exact .inl rfl
    | cons b cs =>
      by_cases h : a = b
      · subst h
        rcases ih cs with h | ⟨r, h, rfl⟩
        · exact .inl (by simp [rawLit, h])
        · exact .inr ⟨r, by simp [rawLit, h], rfl⟩
      · exact .inl (by simp [rawLit, h])

theorem lit_cases (L : Lex) (s cs : List Char) :
    lit L s cs = .fail ∨ ∃ w r, lit L s cs = .ok () r ∧ cs = w ++ (s ++ r) ∧ ∀ c ∈ w, L.space c = true := by
  obtain ⟨w, h1, h2⟩ := skip_split L cs
  rcases rawLit_cases s (skip L cs) with h | ⟨r, h, hr⟩
  · exact .inl h
  · exact .inr ⟨w, r, h, by rw [← hr]; exact h1, h2⟩

theorem lit_plain {L : Lex} (hL : L.Ok) {s : List Char} (hs : NoPar s) : Plain (lit L s) := by
  intro cs
  rcases lit_cases L s cs with h | ⟨w, r, h, hc, hw⟩
  · exact .inl h
  · exact .inr ⟨(), w ++ s, r, h, by simp [hc], (space_noPar hL hw).append hs⟩

theorem digit_noPar {u : List Char} (h : ∀ c ∈ u, c.isDigit = true) : NoPar u := fun c hc =>
  ⟨fun e => by have := h c hc; rw [e] at this; exact absurd this (by decide),
    fun e => by have := h c hc; rw [e] at this; exact absurd this (by decide)⟩

theorem word_noPar {L : Lex} (hL : L.Ok) {u : List Char} (h : ∀ c ∈ u, L.word c = true) : NoPar u := fun c hc =>
  ⟨fun e => by have := h c hc; rw [e, (hL.punct '(' (by simp)).1] at this; exact absurd this (by decide),
    fun e => by have := h c hc; rw [e, (hL.punct ')' (by simp)).1] at this; exact absurd this (by decide)⟩

theorem specialLen_noPar {cs : List Char} {k : Nat} (h : specialLen cs = some k) : NoPar (cs.take k) := by
  have key : ∀ (n : Nat) (s : List Char), (∀ c ∈ s, c ≠ '(' ∧ c ≠ ')') → (cs.take n).map Char.toLower = s → NoPar (cs.take n) := by
    intro n s hs e c hc
    have h1 : c.toLower ∈ s := by rw [← e]; exact List.mem_map_of_mem hc
    have h2 := hs _ h1
    constructor
    · rintro rfl; exact h2.1 (by decide)
    · rintro rfl; exact h2.2 (by decide)
  have t38 : ∀ s, ((cs.take 8).map Char.toLower).take 3 = s → (cs.take 3).map Char.toLower = s := by
    intro s e; rw [← List.map_take, List.take_take] at e; exact e
  simp only [specialLen] at h
  split at h
  · rename_i e; simp at h; subst h
    exact key 3 _ (by decide) (t38 _ e)
  · split at h
    · rename_i e
      split at h
      · rename_i e8; simp at h; subst h
        exact key 8 _ (by decide) e8
      · simp at h; subst h
        exact key 3 _ (by decide) (t38 _ e)
    · simp at h

theorem doubleP_plain {L : Lex} (hL : L.Ok) : Plain (doubleP L) := by
  intro cs
  obtain ⟨w, hw, hws⟩ := skip_split L cs
  have hsign : ∃ sg, skip L cs = sg ++ (if decide ((skip L cs).head? = some '-') || decide ((skip L cs).head? = some '+')
      then (skip L cs).tail else skip L cs) ∧ NoPar sg := by
    cases hs : skip L cs with
    | nil => exact ⟨[], by simp, by simp [NoPar]⟩
    | cons c r =>
      by_cases h1 : c = '-'
      · subst h1; exact ⟨['-'], by simp, by simp [NoPar]⟩
      · by_cases h2 : c = '+'
        · subst h2; exact ⟨['+'], by simp, by simp [NoPar]⟩
        · exact ⟨[], by simp [h1, h2], by simp [NoPar]⟩
  obtain ⟨sg, hsg, hsgp⟩ := hsign
  simp only [doubleP]
  generalize (if decide ((skip L cs).head? = some '-') || decide ((skip L cs).head? = some '+')
      then (skip L cs).tail else skip L cs) = r at hsg
  split
  · refine .inr ⟨_, w ++ (sg ++ r.takeWhile Char.isDigit), _, rfl, ?_, ?_⟩
    · rw [List.append_assoc, List.append_assoc, List.takeWhile_append_dropWhile, ← hsg]; exact hw
    · exact (space_noPar hL hws).append (hsgp.append (digit_noPar fun c hc => List.mem_takeWhile_imp hc))
  · cases hk : specialLen r with
    | none => exact .inl rfl
    | some k =>
      refine .inr ⟨_, w ++ (sg ++ r.take k), _, rfl, ?_, ?_⟩
      · rw [List.append_assoc, List.append_assoc, List.take_append_drop, ← hsg]; exact hw
      · exact (space_noPar hL hws).append (hsgp.append (specialLen_noPar hk))

theorem numberP_plain {L : Lex} (hL : L.Ok) : Plain (numberP L) := by
  intro cs
  rcases doubleP_plain hL cs with h | ⟨a, u, r, h, hc, hu⟩
  · exact .inl (by simp [numberP, h, Res.bind])
  · rcases lit_plain hL (s := ['/']) (by simp [NoPar]) r with h1 | ⟨b, v, r1, h1, hc1, hv⟩
    · exact .inr ⟨_, u, r, by simp [numberP, h, Res.bind, h1, Res.opt]; rfl, hc, hu⟩
    · rcases doubleP_plain hL r1 with h2 | ⟨d, v2, r2, h2, hc2, hv2⟩
      · exact .inr ⟨_, u, r, by simp [numberP, h, Res.bind, h1, h2, Res.opt]; rfl, hc, hu⟩
      · exact .inr ⟨_, u ++ (v ++ v2), r2, by simp [numberP, h, Res.bind, h1, h2, Res.opt]; rfl, by rw [hc, hc1, hc2]; simp,
          hu.append (hv.append hv2)⟩

theorem nameP_plain {L : Lex} (hL : L.Ok) : Plain (nameP L) := by
  intro cs
  cases cs with
  | nil => exact .inl rfl
  | cons c r =>
    simp only [nameP]
    split
    · rename_i hc
      split
      · refine .inr ⟨_, c :: r.takeWhile L.word, _, rfl, by simp [List.takeWhile_append_dropWhile], word_noPar hL ?_⟩
        intro d hd
        rcases List.mem_cons.1 hd with rfl | hd
        · exact hL.alpha_word _ hc
        · exact List.mem_takeWhile_imp hd
      · exact .inr ⟨_, [c], _, rfl, rfl, word_noPar hL (by simpa using hL.alpha_word c hc)⟩
    · exact .inl rfl

theorem variableP_plain' {L : Lex} (hL : L.Ok) : Plain (variableP L) := by
  intro cs
  obtain ⟨w, hw, hws⟩ := skip_split L cs
  rcases nameP_plain hL (skip L cs) with h | ⟨a, u, r, h, hc, hu⟩
  · exact .inl (by simp [variableP, h, Res.bind])
  · rcases rawLit_cases ['^', '*'] r with h1 | ⟨r1, h1, hc1⟩
    · exact .inr ⟨_, w ++ u, r, by simp [variableP, h, Res.bind, h1, Res.opt]; rfl, by rw [List.append_assoc, ← hc]; exact hw,
        (space_noPar hL hws).append hu⟩
    · exact .inr ⟨_, w ++ (u ++ ['^', '*']), r1, by simp [variableP, h, Res.bind, h1, Res.opt]; rfl,
        by rw [List.append_assoc, List.append_assoc, ← hc1, ← hc]; exact hw, (space_noPar hL hws).append (hu.append (by simp [NoPar]))⟩

theorem baseP_plain {L : Lex} (hL : L.Ok) : Plain (baseP L) := by
  intro cs
  rcases numberP_plain hL cs with h | ⟨a, u, r, h, hc, hu⟩
  · rcases variableP_plain' hL cs with h1 | ⟨a, u, r, h1, hc, hu⟩
    · exact .inl (by simp [baseP, h, h1, Res.bind, Res.or])
    · exact .inr ⟨_, u, r, by simp [baseP, h, h1, Res.bind, Res.or]; rfl, hc, hu⟩
  · exact .inr ⟨_, u, r, by simp [baseP, h, Res.bind, Res.or]; rfl, hc, hu⟩

/-- `power_core` fails or consumes balanced text. -/
theorem powerCoreP_bal {L : Lex} (hL : L.Ok) (cs : List Char) :
    powerCoreP L cs = .fail ∨ ∃ a u r, powerCoreP L cs = .ok a r ∧ cs = u ++ r ∧ Bal u := by
  have hbase : ∀ cs, (((lit L ['('] cs).bind fun _ r => (baseP L r).bind fun b r => (lit L [')'] r).bind fun _ r => .ok b r).or (baseP L cs))
      = .fail ∨ ∃ a u r, (((lit L ['('] cs).bind fun _ r => (baseP L r).bind fun b r => (lit L [')'] r).bind fun _ r => .ok b r).or
        (baseP L cs)) = .ok a r ∧ cs = u ++ r ∧ Bal u := by
    intro cs
    have h2 : baseP L cs = .fail ∨ ∃ a u r, baseP L cs = .ok a r ∧ cs = u ++ r ∧ Bal u := by
      rcases baseP_plain hL cs with h | ⟨a, u, r, h, hc, hu⟩
      · exact .inl h
      · exact .inr ⟨a, u, r, h, hc, hu.bal⟩
    rcases lit_cases L ['('] cs with h | ⟨w, r, h, hc, hw⟩
    · simpa [h, Res.bind, Res.or] using h2
    · rcases baseP_plain hL r with h3 | ⟨b, u, r1, h3, hc1, hu⟩
      · simpa [h, h3, Res.bind, Res.or] using h2
      · rcases lit_cases L [')'] r1 with h4 | ⟨w2, r2, h4, hc2, hw2⟩
        · simpa [h, h3, h4, Res.bind, Res.or] using h2
        · refine .inr ⟨b, w ++ ('(' :: ((u ++ w2) ++ [')'])), r2, by simp [h, h3, h4, Res.bind, Res.or], ?_, ?_⟩
          · rw [hc, hc1, hc2]; simp
          · exact (space_noPar hL hw).bal.append ((hu.bal.append (space_noPar hL hw2).bal).paren)
  unfold powerCoreP
  rcases hbase cs with h | ⟨b, u, r, h, hc, hu⟩
  · exact .inl (by rw [h]; rfl)
  · rw [h]
    simp only [Res.bind]
    rcases lit_plain hL (s := ['^']) (by simp [NoPar]) r with h1 | ⟨_, v, r1, h1, hc1, hv⟩
    · exact .inl (by rw [h1])
    · rw [h1]
      simp only []
      rcases lit_cases L ['('] r1 with h2 | ⟨w, r2, h2, hc2, hw⟩
      · exact .inl (by rw [h2])
      · rw [h2]
        simp only []
        rcases numberP_plain hL r2 with h3 | ⟨e, v3, r3, h3, hc3, hv3⟩
        · exact .inl (by rw [h3])
        · rw [h3]
          simp only []
          rcases lit_cases L [')'] r3 with h4 | ⟨w4, r4, h4, hc4, hw4⟩
          · exact .inl (by rw [h4])
          · rw [h4]
            refine .inr ⟨_, u ++ (v ++ (w ++ ('(' :: ((v3 ++ w4) ++ [')'])))), r4, rfl, ?_, ?_⟩
            · rw [hc, hc1, hc2, hc3, hc4]; simp
            · exact hu.append (hv.bal.append ((space_noPar hL hw).bal.append (hv3.bal.append (space_noPar hL hw4).bal).paren))

/-! ## What may follow -/

/-- What may follow a factor. -/
def Brk (L : Lex) (r : List Char) : Prop :=
  (∀ c, r.head? = some c → c = ')' ∨ c = ' ') ∧ ∀ c, (skip L r).head? = some c → c ∉ ['^', '/', '{', '_']

theorem Brk.lit {L : Lex} {r : List Char} (h : Brk L r) {a : Char} (s : List Char) (ha : a ∈ ['^', '/', '{', '_']) :
    lit L (a :: s) r = .fail := lit_fail L fun e => h.2 a e ha

theorem Brk.word {L : Lex} (hL : L.Ok) {r : List Char} (h : Brk L r) : Stops L.word r := by
  intro c hc
  rcases h.1 c hc with rfl | rfl
  · exact (hL.punct ')' (by simp)).1
  · cases hw : L.word ' ' with
    | false => rfl
    | true => rw [← hL.blank, hL.word_space _ hw]

theorem Brk.numEnd {L : Lex} {r : List Char} (h : Brk L r) : NumEnd L r :=
  ⟨fun c hc => by rcases h.1 c hc with rfl | rfl <;> rfl, fun e => h.2 _ e (by simp)⟩

theorem Brk.head {L : Lex} {r : List Char} (h : Brk L r) {c : Char} (hc : c ≠ ')') (hc' : c ≠ ' ') : r.head? ≠ some c := fun e => by
  rcases h.1 c e with h | h
  · exact hc h
  · exact hc' h

theorem Brk.nameEnd {L : Lex} (hL : L.Ok) {r : List Char} (h : Brk L r) : NameEnd L r :=
  ⟨h.word hL, fun c hc => by rcases h.1 c hc with rfl | rfl <;> decide⟩

theorem Brk.varEnd {L : Lex} (hL : L.Ok) {r : List Char} (h : Brk L r) : VarEnd L r :=
  ⟨h.nameEnd hL, rawLit_head (h.head (by decide) (by decide))⟩

/-! ## Texts that are not powers -/

theorem specialLen_head {c : Char} (r : List Char) (h : c.toLower ≠ 'n' ∧ c.toLower ≠ 'i') : specialLen (c :: r) = none := by
  have : ∀ a s, c.toLower ≠ a → (((c :: r).take 8).map Char.toLower).take 3 ≠ a :: s := by
    intro a s ha e
    simp [List.take_succ_cons] at e
    exact ha e.1
  simp only [specialLen]
  rw [show "nan".toList = ['n', 'a', 'n'] from rfl, show "inf".toList = ['i', 'n', 'f'] from rfl, if_neg (this 'n' _ h.1),
    if_neg (this 'i' _ h.2)]

theorem doubleP_head {L : Lex} {c : Char} (r : List Char) (hs : L.space c = false) (hd : c.isDigit = false) (hm : c ≠ '-') (hp : c ≠ '+')
    (h : c.toLower ≠ 'n' ∧ c.toLower ≠ 'i') : doubleP L (c :: r) = .fail := by
  simp [doubleP, skip_stop L _ hs, hm, hp, hd, specialLen_head r h]

theorem baseP_paren {L : Lex} (hL : L.Ok) (c : Char) (hc : c = '(' ∨ c = ')' ) (r : List Char) : baseP L (c :: r) = .fail := by
  have hs : L.space c = false := by rcases hc with rfl | rfl <;> exact (hL.punct _ (by simp)).2.2
  have ha : L.alpha c = false := by
    cases h : L.alpha c with
    | false => rfl
    | true => exact absurd rfl (alpha_ne hL h (d := c) (by rcases hc with rfl | rfl <;> simp))
  have hd : doubleP L (c :: r) = .fail := by rcases hc with rfl | rfl <;> exact doubleP_head r hs (by decide) (by decide) (by decide) (by decide)
  simp [baseP, numberP, hd, variableP, skip_stop L _ hs, nameP, ha, Res.bind, Res.or]

/-- Not a power: the base is not followed by `^`. -/
theorem powerP_fail {L : Lex} {cs : List Char} (hp : lit L ['('] cs = .fail) {b : (Dbl × Dbl) ⊕ (List Char × Bool)} {r : List Char}
    (hb : baseP L cs = .ok b r) (hr : lit L ['^'] r = .fail) : powerP L cs = .fail := by
  simp [powerP, powerCoreP, hp, hb, hr, Res.bind, Res.or]

theorem baseP_rat {L : Lex} (hL : L.Ok) {q : Rat} (hn : q.num.natAbs ≤ 2 ^ 53) (hd : q.den ≤ 2 ^ 53) {r : List Char} (hr : NumEnd L r) :
    baseP L (ratText q ++ r) = .ok (.inl (ratNum q)) r := by
  simp [baseP, numberP_ratText hL hn hd hr, Res.bind, Res.or]

theorem baseP_var {L : Lex} (hL : L.Ok) {v : List Char × Bool} (hn : NameOk L v.1 = true) {r : List Char} (hr : VarEnd L r) :
    baseP L (varText v ++ r) = .ok (.inr v) r := by
  simp [baseP, numberP_var hL hn hr, variableP_var hL hn hr, Res.bind, Res.or]

theorem lit_paren_rat {L : Lex} (hL : L.Ok) (q : Rat) (s r : List Char) : lit L ('(' :: s) (ratText q ++ r) = .fail := by
  obtain ⟨c, t, ht, h⟩ := ratText_cons q
  refine lit_fail L ?_
  rw [ht, List.cons_append]
  rcases h with ⟨rfl, -⟩ | ⟨hd, -⟩
  · rw [skip_stop L _ (hL.punct '-' (by simp)).2.2]; simp
  · rw [skip_stop L _ (hL.digit c hd).2.2]
    simpa using digit_ne hd (by decide)

theorem lit_paren_name {L : Lex} (hL : L.Ok) {n : List Char} (hn : NameOk L n = true) (s r : List Char) :
    lit L ('(' :: s) (n ++ r) = .fail := by
  refine lit_fail L ?_
  rw [skip_name hL hn]
  obtain ⟨c, t, rfl, hc, -⟩ := nameOk_split hn
  simpa using alpha_ne hL hc (d := '(') (by simp)

theorem powerP_rat {L : Lex} (hL : L.Ok) {q : Rat} (hn : q.num.natAbs ≤ 2 ^ 53) (hd : q.den ≤ 2 ^ 53) {r : List Char} (hr : Brk L r) :
    powerP L (ratText q ++ r) = .fail :=
  powerP_fail (lit_paren_rat hL q _ r) (baseP_rat hL hn hd hr.numEnd) (hr.lit [] (by simp))

theorem powerP_var {L : Lex} (hL : L.Ok) {v : List Char × Bool} (hn : NameOk L v.1 = true) {r : List Char} (hr : Brk L r) :
    powerP L (varText v ++ r) = .fail := by
  refine powerP_fail ?_ (baseP_var hL hn (hr.varEnd hL)) (hr.lit [] (by simp))
  rw [varText, List.append_assoc]; exact lit_paren_name hL hn _ _

theorem powerP_tensor {L : Lex} (hL : L.Ok) {n : List Char} (hn : NameOk L n = true) (r : List Char) :
    powerP L (n ++ '{' :: r) = .fail := by
  have hv : VarEnd L ('{' :: r) := ⟨nameEnd_brace hL r, rawLit_head (by simp)⟩
  have := baseP_var hL (v := (n, false)) hn hv
  simp only [varText, Bool.false_eq_true, if_false, List.append_nil] at this
  exact powerP_fail (lit_paren_name hL hn _ _) this (lit_fail L (by rw [skip_stop L _ (hL.punct '{' (by simp)).2.2]; simp))

/-- A parenthesised expression is not a power. -/
theorem powerP_group {L : Lex} (hL : L.Ok) {t r : List Char} (ht : Bal t) (hr : Brk L r) : powerP L ('(' :: (t ++ ')' :: r)) = .fail := by
  have hsp : L.space '(' = false := (hL.punct _ (by simp)).2.2
  have h1 : powerCoreP L ('(' :: (t ++ ')' :: r)) = .fail := by
    unfold powerCoreP
    rw [lit1_ok L _ hsp, baseP_paren hL '(' (.inl rfl)]
    simp only [Res.bind]
    rcases baseP_plain hL (t ++ ')' :: r) with h | ⟨b, u, r1, h, hc, hu⟩
    · simp [h, Res.or]
    · rw [h]
      simp only []
      rcases lit_cases L [')'] r1 with h2 | ⟨w, r2, h2, hc2, hw⟩
      · simp [h2, Res.or]
      · have e : r2 = r := by
          refine bal_close (u := u ++ w) (t := t) (hu.append (space_noPar hL hw)).bal ht ?_
          rw [hc, hc2]; simp
        subst e
        simp [h2, Res.or, hr.lit [] (show '^' ∈ _ by simp)]
  unfold powerP
  rw [h1, lit1_ok L _ hsp]
  simp only [Res.bind, Res.or]
  rcases powerCoreP_bal hL (t ++ ')' :: r) with h | ⟨b, u, r1, h, hc, hu⟩
  · simp [h]
  · rw [h]
    simp only []
    rcases lit_cases L [')'] r1 with h2 | ⟨w, r2, h2, hc2, hw⟩
    · simp [h2]
    · have e : r2 = r := by
        refine bal_close (u := u ++ w) (t := t) (hu.append (space_noPar hL hw).bal) ht ?_
        rw [hc, hc2]; simp
      subst e
      simp [h2, hr.lit ['*'] (show '^' ∈ _ by simp)]

/-! ## Powers -/

/-- Text of the base. -/
def baseText : CQ ⊕ (List Char × Bool) → List Char
  | .inl c => '(' :: (ratText c.re ++ [')'])
  | .inr (n, false) => n
  | .inr (n, true) => '(' :: (n ++ ['^', '*', ')'])

def BaseOk (L : Lex) : CQ ⊕ (List Char × Bool) → Prop
  | .inl c => ScalarOk c
  | .inr v => NameOk L v.1 = true

/-- What reading the base yields. -/
def baseRes : CQ ⊕ (List Char × Bool) → (Dbl × Dbl) ⊕ (List Char × Bool)
  | .inl c => .inl (ratNum c.re)
  | .inr v => .inr v

def coreText (b : CQ ⊕ (List Char × Bool)) (e : Rat) : List Char := baseText b ++ '^' :: '(' :: (ratText e ++ [')'])

theorem atomText_pow (annot : Bool) (b : CQ ⊕ (List Char × Bool)) (e : Rat) (conj : Bool)
    (hb : ∀ c, b = .inl c → c.im = 0) :
    atomText annot (.pow b e conj) = if conj then '(' :: (coreText b e ++ [')', '^', '*']) else coreText b e := by
  have he : scalarText (CQ.ofRat e) = ratText e := scalarText_real rfl
  match b, hb with
  | .inl c, hb => simp [atomText, coreText, baseText, he, scalarText_real (hb c rfl)]
  | .inr (n, false), _ => simp [atomText, coreText, baseText, he]
  | .inr (n, true), _ => simp [atomText, coreText, baseText, he]

theorem numEnd_close {L : Lex} (hL : L.Ok) (r : List Char) : NumEnd L (')' :: r) :=
  ⟨by simp, by rw [skip_stop L _ (hL.punct ')' (by simp)).2.2]; simp⟩

theorem powerCoreP_core {L : Lex} (hL : L.Ok) {b : CQ ⊕ (List Char × Bool)} (hb : BaseOk L b) {e : Rat} (he : ScalarOk (CQ.ofRat e))
    (r : List Char) : powerCoreP L (coreText b e ++ r) = .ok (baseRes b, ratNum e) r := by
  have hpo : L.space '(' = false := (hL.punct _ (by simp)).2.2
  have hpc : L.space ')' = false := (hL.punct _ (by simp)).2.2
  have hca : L.space '^' = false := (hL.punct _ (by simp)).2.2
  have hrest : ∀ b', ((lit L ['^'] ('^' :: '(' :: (ratText e ++ ')' :: r))).bind fun _ r => (lit L ['('] r).bind fun _ r =>
      (numberP L r).bind fun e r => (lit L [')'] r).bind fun _ r => .ok (b', e) r)
      = (.ok (b', ratNum e) r : Res (((Dbl × Dbl) ⊕ (List Char × Bool)) × (Dbl × Dbl))) := by
    intro b'
    have hn := numberP_ratText hL (q := e) he.2.1 he.2.2 (numEnd_close hL r)
    simp only [lit1_ok L _ hca, lit1_ok L _ hpo, Res.bind, hn, lit1_ok L _ hpc]
  have hasc : coreText b e ++ r = baseText b ++ '^' :: '(' :: (ratText e ++ ')' :: r) := by simp [coreText]
  rw [hasc]
  unfold powerCoreP
  match b, hb with
  | .inl c, hb =>
    simp only [baseText, List.cons_append, List.append_assoc, List.nil_append, lit1_ok L _ hpo]
    rw [Res.bind, baseP_rat hL hb.2.1 hb.2.2 (numEnd_close hL _)]
    simp only [Res.bind, lit1_ok L _ hpc, Res.or]
    exact hrest _
  | .inr (n, false), hb =>
    have hv : VarEnd L ('^' :: '(' :: (ratText e ++ ')' :: r)) := ⟨nameEnd_caret hL _, by simp [rawLit]⟩
    have := baseP_var hL (v := (n, false)) hb hv
    simp only [varText, Bool.false_eq_true, if_false, List.append_nil] at this
    simp only [baseText]
    rw [lit_paren_name hL hb, this]
    exact hrest _
  | .inr (n, true), hb =>
    have hv : VarEnd L (')' :: '^' :: '(' :: (ratText e ++ ')' :: r)) := by
      refine ⟨⟨by simp [(hL.punct ')' (by simp)).1], ?_⟩, by simp [rawLit]⟩
      intro c h; simp at h; subst h; decide
    have := baseP_var hL (v := (n, true)) hb hv
    simp only [varText, if_true, List.append_assoc, List.cons_append, List.nil_append] at this
    simp only [baseText, List.cons_append, List.append_assoc, List.nil_append, lit1_ok L _ hpo]
    rw [Res.bind, this]
    simp only [Res.bind, lit1_ok L _ hpc, Res.or]
    exact hrest _

theorem powerP_pow {L : Lex} (hL : L.Ok) (annot : Bool) {b : CQ ⊕ (List Char × Bool)} (hb : BaseOk L b) {e : Rat}
    (he : ScalarOk (CQ.ofRat e)) (conj : Bool) (r : List Char) :
    powerP L (atomText annot (.pow b e conj) ++ r) = .ok (.pow b e conj) r := by
  have hpo : L.space '(' = false := (hL.punct _ (by simp)).2.2
  have hpc : L.space ')' = false := (hL.punct _ (by simp)).2.2
  have hca : L.space '^' = false := (hL.punct _ (by simp)).2.2
  rw [atomText_pow annot b e conj (by rintro c rfl; exact hb.1)]
  have conv : (match baseRes b with
      | .inl n => (toRat n r).bind fun q r => (toRat (ratNum e) r).bind fun e r => .ok (.pow (.inl (CQ.ofRat q)) e conj) r
      | .inr v => (toRat (ratNum e) r).bind fun e r => .ok (.pow (.inr v) e conj) r) = (.ok (.pow b e conj) r : Res Atom) := by
    match b, hb with
    | .inl c, hb =>
      have hcc : CQ.ofRat c.re = c := CQ.ext rfl hb.1.symm
      have := toRat_ratNum (q := e) he.2.1 he.2.2 r
      simp only [baseRes, toRat_ratNum hb.2.1 hb.2.2, Res.bind, this, hcc]
    | .inr v, hb =>
      have := toRat_ratNum (q := e) he.2.1 he.2.2 r
      simp only [baseRes, this, Res.bind]
  cases conj with
  | false =>
    simp only [Bool.false_eq_true, if_false]
    unfold powerP
    rw [powerCoreP_core hL hb he r]
    simp only [Res.bind, Res.or]
    exact conv
  | true =>
    simp only [if_true, List.cons_append, List.append_assoc, List.nil_append]
    have hfail : powerCoreP L ('(' :: (coreText b e ++ ')' :: '^' :: '*' :: r)) = .fail := by
      unfold powerCoreP
      rw [lit1_ok L _ hpo, baseP_paren hL '(' (.inl rfl)]
      simp only [Res.bind]
      match b, hb with
      | .inl c, hb => simp [coreText, baseText, baseP_paren hL '(' (.inl rfl), Res.or]
      | .inr (n, true), hb => simp [coreText, baseText, baseP_paren hL '(' (.inl rfl), Res.or]
      | .inr (n, false), hb =>
        have hv : VarEnd L ('^' :: '(' :: (ratText e ++ ')' :: ')' :: '^' :: '*' :: r)) := ⟨nameEnd_caret hL _, by simp [rawLit]⟩
        have := baseP_var hL (v := (n, false)) hb hv
        simp only [varText, Bool.false_eq_true, if_false, List.append_nil] at this
        have hl : lit L [')'] ('^' :: '(' :: (ratText e ++ ')' :: ')' :: '^' :: '*' :: r)) = .fail :=
          lit_fail L (by rw [skip_stop L _ hca]; simp)
        simp [coreText, baseText, this, hl, Res.or]
    unfold powerP
    rw [hfail, lit1_ok L _ hpo]
    simp only [Res.bind, Res.or]
    rw [powerCoreP_core hL hb he]
    have hl : lit L ['^', '*'] ('^' :: '*' :: r) = .ok () r := lit_ok L ['*'] r hca
    simp only [lit1_ok L _ hpc, hl]
    exact conv

end SeQuant.Serial
