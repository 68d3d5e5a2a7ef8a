import Verif.Serial.Power

/-!
# Reading the text of an expression
-/

namespace SeQuant.Serial

open SeQuant.Expression

/-! ## Everything starts with a pre-skip -/

theorem doubleP_skip (L : Lex) (cs : List Char) : doubleP L (skip L cs) = doubleP L cs := by simp only [doubleP, skip_skip]

theorem numberP_skip (L : Lex) (cs : List Char) : numberP L (skip L cs) = numberP L cs := by simp only [numberP, doubleP_skip]

theorem variableP_skip (L : Lex) (cs : List Char) : variableP L (skip L cs) = variableP L cs := by simp only [variableP, skip_skip]

theorem tensorP_skip (L : Lex) (D : Defaults) (fuel : Nat) (cs : List Char) : tensorP L D fuel (skip L cs) = tensorP L D fuel cs := by
  simp only [tensorP, skip_skip]

theorem baseP_skip (L : Lex) (cs : List Char) : baseP L (skip L cs) = baseP L cs := by simp only [baseP, numberP_skip, variableP_skip]

theorem powerCoreP_skip (L : Lex) (cs : List Char) : powerCoreP L (skip L cs) = powerCoreP L cs := by
  simp only [powerCoreP, lit_skip, baseP_skip]

theorem powerP_skip (L : Lex) (cs : List Char) : powerP L (skip L cs) = powerP L cs := by simp only [powerP, lit_skip, powerCoreP_skip]

theorem groupedP_skip (L : Lex) (D : Defaults) (fuel : Nat) (rec : List Char → Res Ex) (cs : List Char) :
    groupedP L D fuel rec (skip L cs) = groupedP L D fuel rec cs := by
  simp only [groupedP, lit_skip, powerP_skip, numberP_skip, tensorP_skip, variableP_skip]

theorem productP_skip (L : Lex) (D : Defaults) (fuel : Nat) (rec : List Char → Res Ex) (cs : List Char) :
    productP L D fuel rec (skip L cs) = productP L D fuel rec cs := by
  simp only [productP, listP, groupedP_skip]

/-! ## Factors -/

section factors

variable {L : Lex} {D : Defaults}

theorem grouped_num (hL : L.Ok) (fuel : Nat) (rec : List Char → Res Ex) {q : Rat} (hn : q.num.natAbs ≤ 2 ^ 53) (hd : q.den ≤ 2 ^ 53)
    {r : List Char} (hr : Brk L r) : groupedP L D fuel rec (ratText q ++ r) = .ok (.num q) r := by
  simp only [groupedP, powerP_rat hL hn hd hr, lit_paren_rat hL q [] r, numberP_ratText hL hn hd hr.numEnd, toRat_ratNum hn hd, Res.bind, Res.or]

theorem grouped_atom (hL : L.Ok) {annot : Bool} {a : Atom} (ha : AtomOk L D annot a) (fuel : Nat) (rec : List Char → Res Ex)
    {r : List Char} (hr : Brk L r) (hf : (atomText annot a ++ r).length ≤ fuel) :
    groupedP L D fuel rec (atomText annot a ++ r) = .ok (.ex (.atom a)) r := by
  match a, ha with
  | .var n conj, hn =>
    have hn : NameOk L n = true := hn
    have e : atomText annot (.var n conj) ++ r = varText (n, conj) ++ r := rfl
    rw [e]
    have h1 : tensorP L D fuel (varText (n, conj) ++ r) = .fail := by
      cases conj with
      | false =>
        simp only [varText, Bool.false_eq_true, if_false, List.append_nil]
        exact tensorP_name hL D hn fuel (hr.word hL) (hr.lit _ (by simp)) (hr.lit _ (by simp)) (hr.lit _ (by simp))
      | true =>
        simp only [varText, if_true, List.append_assoc, List.cons_append, List.nil_append]
        have hc : L.space '^' = false := (hL.punct _ (by simp)).2.2
        refine tensorP_name hL D hn fuel (nameEnd_caret hL _).1 (lit_fail L ?_) ?_ (lit_fail L ?_)
        · rw [skip_stop L _ hc]; simp
        · rw [lit, skip_stop L _ hc]; simp [rawLit]
        · rw [skip_stop L _ hc]; simp
    have h2 : lit L ['('] (varText (n, conj) ++ r) = .fail := by
      rw [varText, List.append_assoc]; exact lit_paren_name hL hn _ _
    simp only [groupedP, powerP_var hL (v := (n, conj)) hn hr, h2, numberP_var hL (v := (n, conj)) hn (hr.varEnd hL), h1,
      variableP_var hL (v := (n, conj)) hn (hr.varEnd hL), Res.bind, Res.or]
  | .pow (.inl c) e conj, h =>
    simp only [groupedP, powerP_pow hL annot (b := .inl c) h.1 h.2, Res.bind, Res.or]
  | .pow (.inr v) e conj, h =>
    simp only [groupedP, powerP_pow hL annot (b := .inr v) h.1 h.2, Res.bind, Res.or]
  | .tensor n bra ket aux p b c, h =>
    have ht := tensorP_tensor hL h fuel (hr.head (by decide) (by decide)) hf
    obtain ⟨t, hg⟩ := groupsText_cons bra ket aux
    have e : atomText annot (.tensor n bra ket aux p b c) ++ r
        = n ++ '{' :: (t ++ ((if annot then [':', permText p, '-', braketText b, '-', colText c] else []) ++ r)) := by
      rw [atomText_tensor, hg]; simp
    rw [e] at ht ⊢
    simp only [groupedP, powerP_tensor hL h.1, lit_paren_name hL h.1, numberP_name hL h.1 (nameEnd_brace hL _), ht, Res.bind, Res.or]
  | .op n ann cre, h =>
    have ht := tensorP_op hL h fuel (hr.head (by decide) (by decide)) hf
    obtain ⟨t, hg⟩ := groupsText_cons ann cre []
    have e : atomText annot (.op n ann cre) ++ r = n ++ '{' :: (t ++ r) := by rw [atomText_op, hg]; simp
    rw [e] at ht ⊢
    simp only [groupedP, powerP_tensor hL h.1, lit_paren_name hL h.1, numberP_name hL h.1 (nameEnd_brace hL _), ht, Res.bind, Res.or]

theorem grouped_group (hL : L.Ok) (fuel : Nat) (rec : List Char → Res Ex) {t r r' : List Char} {e : Ex} (ht : Bal t) (hr : Brk L r)
    (hrec : rec (t ++ ')' :: r) = .ok e r') (hr' : skip L r' = skip L (')' :: r)) :
    groupedP L D fuel rec ('(' :: (t ++ ')' :: r)) = .ok (.ex e) r := by
  have hl : lit L [')'] r' = .ok () r := by
    rw [← lit_skip, hr', lit_skip]; exact lit1_ok L r (hL.punct ')' (by simp)).2.2
  simp only [groupedP, powerP_group hL ht hr, lit1_ok L _ (hL.punct '(' (by simp)).2.2, hrec, hl, Res.bind, Res.or, Res.expect]

/-- Where no factor begins. -/
theorem grouped_fail (fuel : Nat) (rec : List Char → Res Ex) {cs : List Char} (h1 : lit L ['('] cs = .fail)
    (h2 : doubleP L cs = .fail) (h3 : nameP L (skip L cs) = .fail) : groupedP L D fuel rec cs = .fail := by
  have hn : numberP L cs = .fail := by simp [numberP, h2, Res.bind]
  have hv : variableP L cs = .fail := by simp [variableP, h3, Res.bind]
  have ht : tensorP L D fuel cs = .fail := by simp [tensorP, h3, Res.bind]
  have hb : baseP L cs = .fail := by simp [baseP, hn, hv, Res.bind, Res.or]
  simp [groupedP, powerP, powerCoreP, h1, hb, hn, hv, ht, Res.bind, Res.or]

/-- What may follow an addend. -/
def EndA (r : List Char) : Prop :=
  r = [] ∨ (∃ x, r = ')' :: x) ∨ (∃ x, r = ' ' :: '+' :: ' ' :: x) ∨ (∃ x, r = ' ' :: '-' :: ' ' :: x)

/-- The text after an addend, without leading space. -/
theorem EndA.skip (hL : L.Ok) {r : List Char} (h : EndA r) :
    skip L r = [] ∨ (∃ x, skip L r = ')' :: x) ∨ (∃ x, skip L r = '+' :: ' ' :: x) ∨ (∃ x, skip L r = '-' :: ' ' :: x) := by
  rcases h with rfl | ⟨x, rfl⟩ | ⟨x, rfl⟩ | ⟨x, rfl⟩
  · exact .inl rfl
  · exact .inr (.inl ⟨x, skip_stop L _ (hL.punct _ (by simp)).2.2⟩)
  · exact .inr (.inr (.inl ⟨x, by rw [skip_blank hL, skip_stop L _ (hL.punct '+' (by simp)).2.2]⟩))
  · exact .inr (.inr (.inr ⟨x, by rw [skip_blank hL, skip_stop L _ (hL.punct '-' (by simp)).2.2]⟩))

theorem EndA.brk (hL : L.Ok) {r : List Char} (h : EndA r) : Brk L r := by
  refine ⟨?_, ?_⟩
  · intro c hc
    rcases h with rfl | ⟨x, rfl⟩ | ⟨x, rfl⟩ | ⟨x, rfl⟩ <;> simp at hc <;> subst hc <;> simp
  · intro c hc
    rcases EndA.skip hL h with h | ⟨x, h⟩ | ⟨x, h⟩ | ⟨x, h⟩ <;> rw [h] at hc <;> simp at hc <;> subst hc <;> decide

theorem Brk.blank (hL : L.Ok) {r : List Char} (h : Brk L r) : Brk L (' ' :: r) :=
  ⟨by simp, by rw [skip_blank hL]; exact h.2⟩

theorem nameP_head {c : Char} (x : List Char) (h : L.alpha c = false) : nameP L (c :: x) = .fail := by simp [nameP, h]

theorem alpha_punct (hL : L.Ok) {c : Char} (h : c ∈ ['(', ')', '*', '^', '{', '}', ';', ',', '<', '>', '/', '+', '-', ':']) :
    L.alpha c = false := by
  cases ha : L.alpha c with
  | false => rfl
  | true => exact absurd rfl (alpha_ne hL ha h)

theorem doubleP_sign (hL : L.Ok) {c : Char} (hc : c = '+' ∨ c = '-') (x : List Char) : doubleP L (c :: ' ' :: x) = .fail := by
  have hs : L.space c = false := by rcases hc with rfl | rfl <;> exact (hL.punct _ (by simp)).2.2
  have h : specialLen (' ' :: x) = none := specialLen_head x (by decide)
  rcases hc with rfl | rfl <;> simp [doubleP, skip_stop L _ hs, h]

/-- The loop over the factors ends there. -/
theorem sepLoop_end (hL : L.Ok) (fuel : Nat) (rec : List Char → Res Ex) {r cs : List Char} (h : EndA r) (hcs : skip L cs = skip L r)
    (g : Nat) : sepLoop (groupedP L D fuel rec) (fun r => (lit L ['*'] r).opt () r) (g + 1) cs = .ok [] cs := by
  have hg : groupedP L D fuel rec cs = .fail := by
    rw [← groupedP_skip, hcs]
    rcases EndA.skip hL h with h | ⟨x, h⟩ | ⟨x, h⟩ | ⟨x, h⟩ <;> rw [h]
    · exact grouped_fail fuel rec rfl rfl rfl
    · have hs : L.space ')' = false := (hL.punct _ (by simp)).2.2
      refine grouped_fail fuel rec (lit_fail L (by rw [skip_stop L _ hs]; simp))
        (doubleP_head x hs (by decide) (by decide) (by decide) (by decide)) ?_
      rw [skip_stop L _ hs]; exact nameP_head x (alpha_punct hL (by simp))
    · have hs : L.space '+' = false := (hL.punct _ (by simp)).2.2
      refine grouped_fail fuel rec (lit_fail L (by rw [skip_stop L _ hs]; simp)) (doubleP_sign hL (.inl rfl) x) ?_
      rw [skip_stop L _ hs]; exact nameP_head _ (alpha_punct hL (by simp))
    · have hs : L.space '-' = false := (hL.punct _ (by simp)).2.2
      refine grouped_fail fuel rec (lit_fail L (by rw [skip_stop L _ hs]; simp)) (doubleP_sign hL (.inr rfl) x) ?_
      rw [skip_stop L _ hs]; exact nameP_head _ (alpha_punct hL (by simp))
  have hl : lit L ['*'] cs = .fail := by
    refine lit_fail L ?_
    rw [hcs]
    rcases EndA.skip hL h with h | ⟨x, h⟩ | ⟨x, h⟩ | ⟨x, h⟩ <;> rw [h] <;> simp
  simp [sepLoop, hl, hg, Res.opt, Res.bind]

end factors

/-! ## What is read -/

/-- A product whose first factor is negative is read as minus one times its absolute value. -/
def signConv (l : List Item) : Ex :=
  match l with
  | .num q :: t => if q < 0 then convProduct (.num (-1) :: .num (-q) :: t) else convProduct (.num q :: t)
  | l => convProduct l

mutual
/-- What is read for the text of an expression. -/
def norm : Ex → Ex
  | .const c => signConv [.num c.re]
  | .atom a => .atom a
  | .prod c l => signConv ((if c ≠ 1 then [.num c.re] else []) ++ factorItems l)
  | .sum _ l => convSum (normL l)
def factorItem : Ex → Item
  | .const c => .num c.re
  | .atom a => .ex (.atom a)
  | .prod c l => .ex (signConv ((if c ≠ 1 then [.num c.re] else []) ++ factorItems l))
  | .sum _ l => .ex (convSum (normL l))
def factorItems : List Ex → List Item
  | [] => []
  | e :: l => factorItem e :: factorItems l
def normL : List Ex → List Ex
  | [] => []
  | e :: l => norm e :: normL l
end

theorem factorItem_group {e : Ex} (h : (e.isProd || e.isSum) = true) : factorItem e = .ex (norm e) := by
  cases e <;> simp [Expr.isProd, Expr.isSum] at h <;> simp [factorItem, norm]

/-- Text of a factor. -/
def factorText (annot : Bool) (e : Ex) : List Char :=
  if e.isProd || e.isSum then '(' :: (text annot e ++ [')']) else text annot e

theorem factorsText_cons (annot : Bool) (e : Ex) (l : List Ex) :
    factorsText annot (e :: l) = factorText annot e ++ (l.map fun e => " * ".toList ++ factorText annot e).flatten := by
  induction l generalizing e with
  | nil => simp [factorsText, factorText]
  | cons e' l ih => rw [factorsText, ih]; simp [factorText]

theorem factorItems_eq (l : List Ex) : factorItems l = l.map factorItem := by
  induction l with
  | nil => rfl
  | cons e l ih => simp [factorItems, ih]

theorem normL_eq (l : List Ex) : normL l = l.map norm := by
  induction l with
  | nil => rfl
  | cons e l ih => simp [normL, ih]

theorem factorsOk_iff (L : Lex) (D : Defaults) (annot : Bool) (l : List Ex) :
    FactorsOk L D annot l ↔ ∀ e ∈ l, ExprOk L D annot e := by
  induction l with
  | nil => simp [FactorsOk]
  | cons e l ih => simp [FactorsOk, ih]

theorem addendsOk_iff (L : Lex) (D : Defaults) (annot : Bool) (l : List Ex) :
    AddendsOk L D annot l ↔ ∀ e ∈ l, e.isSum = false ∧ ExprOk L D annot e := by
  induction l with
  | nil => simp [AddendsOk]
  | cons e l ih => simp [AddendsOk, ih]

/-! ## Texts are balanced -/

theorem bal_of (L : Lex) (hL : L.Ok) {n : List Char} (hn : NameOk L n = true) : NoPar n := by
  obtain ⟨c, t, rfl, hc, ht, -⟩ := nameOk_split hn
  exact word_noPar hL (by
    intro d hd
    rcases List.mem_cons.1 hd with rfl | hd
    · exact hL.alpha_word _ hc
    · exact ht d hd)

theorem ratText_noPar (q : Rat) : NoPar (ratText q) := by
  have h : ∀ n, NoPar (digits n) := fun n => digit_noPar (digits_digit n)
  have hi : NoPar (intText q.num) := by
    unfold intText
    refine NoPar.append ?_ (h _)
    split <;> simp [NoPar]
  refine NoPar.append hi ?_
  split
  · exact NoPar.append (u := ['/']) (by simp [NoPar]) (h _)
  · simp [NoPar]

theorem labelText_noPar {L : Lex} (hL : L.Ok) {l : List Char × Option Nat} (h : LabelOk L l = true) : NoPar (labelText l) := by
  obtain ⟨b, o⟩ := l
  obtain ⟨n, ho, hn, hb, hi, -⟩ := labelOk_split h
  simp only at ho hb hi; subst ho
  have : NoPar b := fun c hc =>
    ⟨fun e => by have := hi c hc; rw [e, (hL.punct '(' (by simp)).2.1] at this; exact absurd this (by decide),
      fun e => by have := hi c hc; rw [e, (hL.punct ')' (by simp)).2.1] at this; exact absurd this (by decide)⟩
  exact this.append (NoPar.append (u := ['_']) (by simp [NoPar]) (digit_noPar (digits_digit n)))

theorem commas_noPar {l : List (List Char)} (h : ∀ t ∈ l, NoPar t) : NoPar (commas l) := by
  cases l with
  | nil => simp [commas, NoPar]
  | cons t l =>
    rw [commas_cons]
    refine (h t (by simp)).append ?_
    intro c hc
    rw [List.mem_flatten] at hc
    obtain ⟨x, hx, hcx⟩ := hc
    obtain ⟨y, hy, rfl⟩ := List.mem_map.1 hx
    rcases List.mem_cons.1 hcx with rfl | hcy
    · decide
    · exact h y (by simp [hy]) c hcy

theorem slotsText_noPar {L : Lex} (hL : L.Ok) {l : List (Option Idx)} (h : ∀ s ∈ l, SlotOk L s = true) : NoPar (slotsText l) := by
  refine commas_noPar ?_
  intro t ht
  obtain ⟨s, hs, rfl⟩ := List.mem_map.1 ht
  have hk := h s hs
  cases s with
  | none => simp [SlotOk] at hk
  | some i =>
    simp only [SlotOk, Bool.and_eq_true, List.all_eq_true] at hk
    simp only [slotText, idxText]
    refine (labelText_noPar hL hk.1).append ?_
    split
    · refine NoPar.append (u := '<' :: commas (i.protos.map labelText)) ?_ (by simp [NoPar])
      refine NoPar.append (u := ['<']) (by simp [NoPar]) (commas_noPar ?_)
      intro t ht
      obtain ⟨p, hp, rfl⟩ := List.mem_map.1 ht
      exact labelText_noPar hL (hk.2 p hp)
    · simp [NoPar]

theorem groupsText_noPar {L : Lex} (hL : L.Ok) {bra ket aux : List (Option Idx)} (h : ∀ s ∈ bra ++ ket ++ aux, SlotOk L s = true) :
    NoPar (groupsText bra ket aux) := by
  have hb := slotsText_noPar hL (l := bra) fun s hs => h s (by simp [hs])
  have hk := slotsText_noPar hL (l := ket) fun s hs => h s (by simp [hs])
  have ha := slotsText_noPar hL (l := aux) fun s hs => h s (by simp [hs])
  have h1 : ∀ c, c ≠ '(' → c ≠ ')' → ∀ u, NoPar u → NoPar (c :: u) := fun c h1 h2 u hu d hd => by
    rcases List.mem_cons.1 hd with rfl | hd
    · exact ⟨h1, h2⟩
    · exact hu d hd
  unfold groupsText
  refine NoPar.append (NoPar.append (NoPar.append (h1 _ (by decide) (by decide) _ hb) ?_) ?_) (by simp [NoPar])
  · split
    · exact h1 _ (by decide) (by decide) _ hk
    · simp [NoPar]
  · split
    · refine NoPar.append ?_ (h1 _ (by decide) (by decide) _ ha)
      split <;> simp [NoPar]
    · simp [NoPar]

theorem atomText_bal {L : Lex} (hL : L.Ok) {D : Defaults} {annot : Bool} {a : Atom} (ha : AtomOk L D annot a) : Bal (atomText annot a) := by
  match a, ha with
  | .var n conj, hn =>
    refine (NoPar.append (bal_of L hL hn) ?_).bal
    split <;> simp [NoPar]
  | .pow b e conj, h =>
    have hb : BaseOk L b := by
      match b, h with
      | .inl c, h => exact h.1
      | .inr v, h => exact h.1
    have hcore : Bal (coreText b e) := by
      have h1 : Bal (baseText b) := by
        match b, hb with
        | .inl c, hb => exact (ratText_noPar c.re).bal.paren
        | .inr (n, false), hb => exact (bal_of L hL hb).bal
        | .inr (n, true), hb =>
          have := (NoPar.append (v := ['^', '*']) (bal_of L hL hb) (by simp [NoPar])).bal.paren
          simpa [baseText] using this
      have h2 : Bal ['^'] := by decide
      have := h1.append (h2.append (ratText_noPar e).bal.paren)
      simpa [coreText] using this
    rw [atomText_pow annot b e conj (by rintro c rfl; exact hb.1)]
    split
    · have h2 : Bal ['^', '*'] := by decide
      simpa using hcore.paren.append h2
    · exact hcore
  | .tensor n bra ket aux p b c, h =>
    rw [atomText_tensor]
    refine ((bal_of L hL h.1).append ((groupsText_noPar hL h.2.2.1).append ?_)).bal
    split
    · cases p <;> cases b <;> cases c <;> simp [NoPar, permText, braketText, colText]
    · simp [NoPar]
  | .op n ann cre, h =>
    rw [atomText_op]
    exact ((bal_of L hL h.1).append (groupsText_noPar hL (by simpa using h.2.2))).bal

theorem scalarText_noPar {c : CQ} (h : ScalarOk c) : NoPar (scalarText c) := by rw [scalarText_real h.1]; exact ratText_noPar _

theorem bal_cons {c : Char} (h : c ≠ '(' ∧ c ≠ ')') {u : List Char} : Bal (c :: u) ↔ Bal u := by simp [Bal, dep, h.1, h.2]

mutual
theorem text_bal {L : Lex} (hL : L.Ok) {D : Defaults} {annot : Bool} : (e : Ex) → ExprOk L D annot e → Bal (text annot e)
  | .const c, h => by rw [text]; exact (scalarText_noPar h).bal
  | .atom a, h => by rw [text]; exact atomText_bal hL h
  | .prod c l, h => by
    rw [text]
    refine Bal.append ?_ (factorsText_bal hL l h.2.2)
    split
    · exact ((scalarText_noPar h.1).append (by simp [NoPar])).bal
    · exact bal_nil
  | .sum ci l, h => by rw [text]; exact addendsText_bal hL true l h.2
theorem factorsText_bal {L : Lex} (hL : L.Ok) {D : Defaults} {annot : Bool} : (l : List Ex) → FactorsOk L D annot l → Bal (factorsText annot l)
  | [], _ => by rw [factorsText]; exact bal_nil
  | e :: l, h => by
    rw [factorsText]
    have he := text_bal hL e h.1
    refine Bal.append (Bal.append ?_ ?_) (factorsText_bal hL l h.2)
    · split
      · exact he.paren
      · exact he
    · split
      · exact bal_nil
      · decide
theorem addendsText_bal {L : Lex} (hL : L.Ok) {D : Defaults} {annot : Bool} (first : Bool) :
    (l : List Ex) → AddendsOk L D annot l → Bal (addendsText annot first l)
  | [], _ => by rw [addendsText]; exact bal_nil
  | e :: l, h => by
    rw [addendsText]
    have he := text_bal hL e h.1.2
    refine Bal.append ?_ (addendsText_bal hL false l h.2)
    simp only [addendText, h.1.1, Bool.false_eq_true, if_false, Bool.not_false, Bool.true_and]
    split
    · exact he
    · split
      · rename_i hm
        cases ht : text annot e with
        | nil => rw [ht] at hm; simp at hm
        | cons c t =>
          rw [ht] at hm he
          simp at hm; subst hm
          rw [bal_cons (by decide)] at he
          exact Bal.append (by decide) he
      · exact Bal.append (by decide) he
end

end SeQuant.Serial

namespace SeQuant.Serial

open SeQuant.Expression

/-! ## Products -/

section read

variable {L : Lex} {D : Defaults} {annot : Bool}

/-- How the text of a factor begins. -/
theorem factorText_head (hL : L.Ok) {e : Ex} (he : ExprOk L D annot e) :
    ∃ c t, factorText annot e = c :: t ∧ L.space c = false ∧
      ((e.isConst = true ∧ (c = '-' ∨ c.isDigit = true)) ∨ (e.isConst = false ∧ (c = '(' ∨ L.alpha c = true))) := by
  have hname : ∀ n x (e : Ex), e.isConst = false → NameOk L n = true → ∃ c t, n ++ x = c :: t ∧ L.space c = false ∧
      ((e.isConst = true ∧ (c = '-' ∨ c.isDigit = true)) ∨ (e.isConst = false ∧ (c = '(' ∨ L.alpha c = true))) := by
    intro n x e hc hn
    obtain ⟨c, t, rfl, hc', -⟩ := nameOk_split hn
    exact ⟨c, _, rfl, alpha_space hL hc', .inr ⟨hc, .inr hc'⟩⟩
  have hpar : ∀ x (e : Ex), e.isConst = false → ∃ c t, '(' :: x = c :: t ∧ L.space c = false ∧
      ((e.isConst = true ∧ (c = '-' ∨ c.isDigit = true)) ∨ (e.isConst = false ∧ (c = '(' ∨ L.alpha c = true))) := fun x e hc =>
    ⟨'(', x, rfl, (hL.punct _ (by simp)).2.2, .inr ⟨hc, .inl rfl⟩⟩
  match e, he with
  | .const c, he =>
    simp only [factorText, Expr.isProd, Expr.isSum, Bool.or_self, Bool.false_eq_true, if_false, text]
    rw [scalarText_real he.1]
    obtain ⟨d, t, ht, h⟩ := ratText_cons c.re
    refine ⟨d, t, ht, ?_, .inl ⟨rfl, ?_⟩⟩
    · rcases h with ⟨rfl, -⟩ | ⟨hd, -⟩
      · exact (hL.punct _ (by simp)).2.2
      · exact (hL.digit d hd).2.2
    · rcases h with ⟨rfl, -⟩ | ⟨hd, -⟩
      · exact .inl rfl
      · exact .inr hd
  | .atom a, he =>
    simp only [factorText, Expr.isProd, Expr.isSum, Bool.or_self, Bool.false_eq_true, if_false, text]
    match a, he with
    | .var n conj, he => exact hname n _ _ rfl he
    | .tensor n bra ket aux p b c, he => rw [atomText_tensor]; exact hname n _ _ rfl he.1
    | .op n ann cre, he => rw [atomText_op]; exact hname n _ _ rfl he.1
    | .pow b e conj, he =>
      have hb : BaseOk L b := by
        match b, he with
        | .inl c, h => exact h.1
        | .inr v, h => exact h.1
      rw [atomText_pow annot b e conj (by rintro c rfl; exact hb.1)]
      split
      · exact hpar _ _ rfl
      · match b, hb with
        | .inl c, hb => exact hpar _ _ rfl
        | .inr (n, true), hb => exact hpar _ _ rfl
        | .inr (n, false), hb => exact hname n _ _ rfl hb
  | .prod c l, he => exact hpar _ _ rfl
  | .sum ci l, he => exact hpar _ _ rfl

/-- Reading the text of `e` succeeds. -/
def Reads (L : Lex) (D : Defaults) (annot : Bool) (e : Ex) : Prop :=
  ∀ (F : Nat) (r : List Char), (r = [] ∨ ∃ x, r = ')' :: x) → (text annot e ++ r).length < F →
    ∃ r', sumP L D F (text annot e ++ r) = .ok (norm e) r' ∧ skip L r' = skip L r

theorem grouped_factor (hL : L.Ok) {e : Ex} (he : ExprOk L D annot e) (ih : Reads L D annot e) (F : Nat) {r : List Char} (hr : Brk L r)
    (hf : (factorText annot e ++ r).length ≤ F) :
    groupedP L D F (sumP L D F) (factorText annot e ++ r) = .ok (factorItem e) r := by
  by_cases hg : (e.isProd || e.isSum) = true
  · simp only [factorText, hg, if_true] at hf ⊢
    obtain ⟨r', h1, h2⟩ := ih F (')' :: r) (.inr ⟨r, rfl⟩) (by simp at hf ⊢; omega)
    rw [factorItem_group hg]
    have := grouped_group hL (D := D) F (sumP L D F) (text_bal hL e he) hr h1 h2
    simpa using this
  · simp only [factorText, hg, Bool.false_eq_true, if_false] at hf ⊢
    match e, he, hg with
    | .const c, he, _ =>
      simp only [text, scalarText_real he.1, factorItem]
      exact grouped_num hL F _ he.2.1 he.2.2 hr
    | .atom a, he, _ =>
      simp only [text, factorItem] at hf ⊢
      exact grouped_atom hL he F _ hr hf
    | .prod c l, _, hg => simp [Expr.isProd] at hg
    | .sum ci l, _, hg => simp [Expr.isSum] at hg

theorem brk_star (hL : L.Ok) (x : List Char) : Brk L (" * ".toList ++ x) := by
  have hs : L.space '*' = false := (hL.punct _ (by simp)).2.2
  refine ⟨by simp, ?_⟩
  intro c hc
  have : skip L (" * ".toList ++ x) = '*' :: ' ' :: x := by
    show skip L (' ' :: '*' :: ' ' :: x) = _
    rw [skip_blank hL, skip_stop L _ hs]
  rw [this] at hc
  simp at hc; subst hc; decide

theorem brk_tail (hL : L.Ok) {l : List Ex} {r : List Char} (hr : Brk L r) :
    Brk L ((l.map fun e => " * ".toList ++ factorText annot e).flatten ++ r) := by
  cases l with
  | nil => simpa using hr
  | cons e l => simp only [List.map_cons, List.flatten_cons, List.append_assoc]; exact brk_star hL _

theorem sepLoop_cons {α : Type} {p : List Char → Res α} {sep : List Char → Res Unit} {g : Nat} {cs r1 r2 r3 : List Char} {a : α} {l : List α}
    (h1 : sep cs = .ok () r1) (h2 : p r1 = .ok a r2) (h3 : sepLoop p sep g r2 = .ok l r3) :
    sepLoop p sep (g + 1) cs = .ok (a :: l) r3 := by
  rw [sepLoop, h1]
  simp only [Res.bind]
  rw [h2]
  simp only []
  rw [h3]
  rfl

/-- The remaining factors. -/
theorem sepLoop_tail (hL : L.Ok) (l : List Ex) (hl : ∀ e ∈ l, ExprOk L D annot e) (ih : ∀ e ∈ l, Reads L D annot e) (F : Nat)
    {r : List Char} (hr : EndA r) (g : Nat) (hF : ((l.map fun e => " * ".toList ++ factorText annot e).flatten ++ r).length ≤ F)
    (hg : ((l.map fun e => " * ".toList ++ factorText annot e).flatten ++ r).length < g) :
    sepLoop (groupedP L D F (sumP L D F)) (fun r => (lit L ['*'] r).opt () r) g
      ((l.map fun e => " * ".toList ++ factorText annot e).flatten ++ r) = .ok (l.map factorItem) r := by
  induction l generalizing g with
  | nil =>
    obtain ⟨g, rfl⟩ : ∃ g', g = g' + 1 := ⟨g - 1, by omega⟩
    exact sepLoop_end hL F _ hr rfl g
  | cons e l ihl =>
    obtain ⟨g, rfl⟩ : ∃ g', g = g' + 1 := ⟨g - 1, by omega⟩
    simp only [List.map_cons, List.flatten_cons, List.append_assoc] at hF hg ⊢
    have hs : L.space '*' = false := (hL.punct _ (by simp)).2.2
    have hlit : ∀ x, lit L ['*'] (" * ".toList ++ x) = .ok () (' ' :: x) := fun x => by
      show lit L ['*'] (' ' :: '*' :: ' ' :: x) = _
      rw [← lit_skip, skip_blank hL, lit_skip, lit1_ok L _ hs]
    have hgr := grouped_factor hL (hl e (by simp)) (ih e (by simp)) F (brk_tail (annot := annot) (l := l) hL (hr.brk hL))
      (by simp at hF ⊢; omega)
    have hgr' : groupedP L D F (sumP L D F)
        (' ' :: (factorText annot e ++ ((l.map fun e => " * ".toList ++ factorText annot e).flatten ++ r)))
        = .ok (factorItem e) ((l.map fun e => " * ".toList ++ factorText annot e).flatten ++ r) := by
      rw [← groupedP_skip, skip_blank hL, groupedP_skip]; exact hgr
    exact sepLoop_cons (by rw [hlit]; rfl) hgr'
      (ihl (fun e he => hl e (by simp [he])) (fun e he => ih e (by simp [he])) g (by simp at hF ⊢; omega) (by simp at hg ⊢; omega))

/-- The items of an addend. -/
def itemsOf : Ex → List Item
  | .const c => [.num c.re]
  | .atom a => [.ex (.atom a)]
  | .prod c l => (if c ≠ 1 then [.num c.re] else []) ++ factorItems l
  | .sum _ l => [.ex (convSum (normL l))]

theorem norm_addend {e : Ex} (h : e.isSum = false) : norm e = signConv (itemsOf e) := by
  cases e with
  | sum => simp [Expr.isSum] at h
  | const c => simp [norm, itemsOf]
  | atom a => simp [norm, itemsOf, signConv, convProduct]
  | prod c l => simp [norm, itemsOf]

theorem productP_of {F : Nat} {rec : List Char → Res Ex} {cs r1 r2 : List Char} {a : Item} {l : List Item}
    (h1 : groupedP L D F rec cs = .ok a r1)
    (h2 : sepLoop (groupedP L D F rec) (fun r => (lit L ['*'] r).opt () r) F r1 = .ok l r2) :
    productP L D F rec cs = .ok (a :: l) r2 := by
  rw [productP, listP, h1]
  simp only [Res.bind]
  rw [h2]

theorem brk_factor (hL : L.Ok) {e : Ex} (he : ExprOk L D annot e) (x : List Char) : Brk L (' ' :: (factorText annot e ++ x)) := by
  obtain ⟨c, t, ht, hsp, h⟩ := factorText_head hL he
  refine ⟨by simp, ?_⟩
  rw [skip_blank hL, ht, List.cons_append, skip_stop L _ hsp]
  intro d hd
  simp at hd; subst hd
  rcases h with ⟨-, rfl | hd⟩ | ⟨-, rfl | ha⟩
  · decide
  · intro hm; simp at hm; rcases hm with rfl | rfl | rfl | rfl <;> exact absurd hd (by decide)
  · decide
  · intro hm
    have : c ≠ '_' := by rintro rfl; rw [hL.under.1] at ha; exact absurd ha (by decide)
    simp at hm
    rcases hm with rfl | rfl | rfl | rfl
    · exact alpha_ne hL ha (d := '^') (by simp) rfl
    · exact alpha_ne hL ha (d := '/') (by simp) rfl
    · exact alpha_ne hL ha (d := '{') (by simp) rfl
    · exact this rfl

theorem star_factor (hL : L.Ok) {e : Ex} (he : ExprOk L D annot e) (x : List Char) :
    lit L ['*'] (' ' :: (factorText annot e ++ x)) = .fail := by
  obtain ⟨c, t, ht, hsp, h⟩ := factorText_head hL he
  refine lit_fail L ?_
  rw [skip_blank hL, ht, List.cons_append, skip_stop L _ hsp]
  simp only [List.head?_cons, ne_eq, Option.some.injEq]
  rintro rfl
  rcases h with ⟨-, h | hd⟩ | ⟨-, h | ha⟩
  · exact absurd h (by decide)
  · exact absurd hd (by decide)
  · exact absurd h (by decide)
  · exact alpha_ne hL ha (d := '*') (by simp) rfl

/-- Reading an addend: it starts with a number, or with something else that is not a sign. -/
theorem product_read (hL : L.Ok) {e : Ex} (he : ExprOk L D annot e) (hs : e.isSum = false)
    (ih : ∀ c l, e = .prod c l → ∀ x ∈ l, Reads L D annot x) {r : List Char} (hr : EndA r) (F : Nat) (hF : (text annot e ++ r).length ≤ F) :
    (∃ q u items, (q.num.natAbs ≤ 2 ^ 53 ∧ q.den ≤ 2 ^ 53) ∧ text annot e = ratText q ++ u ∧ itemsOf e = .num q :: items ∧ Brk L (u ++ r) ∧
      ∃ r', sepLoop (groupedP L D F (sumP L D F)) (fun r => (lit L ['*'] r).opt () r) F (u ++ r) = .ok items r' ∧ skip L r' = skip L r) ∨
    ((∃ c t, text annot e = c :: t ∧ L.space c = false ∧ c ≠ '-' ∧ c ≠ '+') ∧ (∀ q items, itemsOf e ≠ .num q :: items) ∧
      ∃ r', productP L D F (sumP L D F) (text annot e ++ r) = .ok (itemsOf e) r' ∧ skip L r' = skip L r) := by
  have hfirst : ∀ {x : Ex}, ExprOk L D annot x → x.isConst = false →
      ∃ c t, factorText annot x = c :: t ∧ L.space c = false ∧ c ≠ '-' ∧ c ≠ '+' := by
    intro x hx hc
    obtain ⟨c, t, ht, hsp, h⟩ := factorText_head hL hx
    refine ⟨c, t, ht, hsp, ?_⟩
    rcases h with ⟨h, -⟩ | ⟨-, rfl | ha⟩
    · rw [hc] at h; exact absurd h (by decide)
    · decide
    · exact ⟨alpha_ne hL ha (by simp), alpha_ne hL ha (by simp)⟩
  match e, he, hs, ih with
  | .sum ci l, _, hs, _ => simp [Expr.isSum] at hs
  | .const c, he, _, _ =>
    refine .inl ⟨c.re, [], [], he.2, by rw [text, scalarText_real he.1]; simp, rfl, by simpa using hr.brk hL, r, ?_, rfl⟩
    obtain ⟨d, t, ht, -⟩ := ratText_cons c.re
    rw [text, scalarText_real he.1, ht] at hF
    obtain ⟨F', rfl⟩ : ∃ F', F = F' + 1 := ⟨F - 1, by simp at hF; omega⟩
    exact sepLoop_end hL _ _ hr rfl F'
  | .atom a, he, _, _ =>
    obtain ⟨c, t, ht, hsp, hm, hp⟩ := hfirst (x := .atom a) he rfl
    have hft : factorText annot (.atom a) = text annot (.atom a) := by simp [factorText, Expr.isProd, Expr.isSum]
    rw [hft] at ht
    refine .inr ⟨⟨c, t, ht, hsp, hm, hp⟩, by simp [itemsOf], r, ?_, rfl⟩
    rw [ht] at hF
    obtain ⟨F', rfl⟩ : ∃ F', F = F' + 1 := ⟨F - 1, by simp at hF; omega⟩
    rw [← ht] at hF
    rw [text] at hF ⊢
    exact productP_of (grouped_atom hL he _ _ (hr.brk hL) hF) (sepLoop_end hL _ _ hr rfl F')
  | .prod c l, he, _, ih =>
    obtain ⟨hc, hcl, hl⟩ := he
    rw [factorsOk_iff] at hl
    have ihx := ih c l rfl
    clear ih
    by_cases h1 : c = 1
    · subst h1
      have hl0 : l ≠ [] := by simpa using hcl
      obtain ⟨e, l, rfl⟩ := List.exists_cons_of_ne_nil hl0
      have htext : text annot (.prod 1 (e :: l)) = factorText annot e ++ (l.map fun e => " * ".toList ++ factorText annot e).flatten := by
        rw [text, factorsText_cons]; simp
      have hitems : itemsOf (.prod 1 (e :: l)) = factorItem e :: l.map factorItem := by
        simp [itemsOf, factorItems_eq]
      rw [htext, List.append_assoc] at hF
      obtain ⟨d, t, ht, hsp, -⟩ := factorText_head hL (hl e (by simp))
      have hlen : ((l.map fun e => " * ".toList ++ factorText annot e).flatten ++ r).length < F := by
        rw [ht] at hF; simp at hF ⊢; omega
      have hloop := sepLoop_tail hL l (fun x hx => hl x (by simp [hx])) (fun x hx => ihx x (by simp [hx])) F hr F (by omega) hlen
      have hbrk := brk_tail (annot := annot) (l := l) hL (hr.brk hL)
      by_cases hce : e.isConst = true
      · match e, hce with
        | .const q, _ =>
          have hq : ExprOk L D annot (.const q) := hl (.const q) (by simp)
          refine .inl ⟨q.re, _, _, hq.2, ?_, ?_, hbrk, r, hloop, rfl⟩
          · rw [htext]; simp [factorText, Expr.isProd, Expr.isSum, text, scalarText_real hq.1]
          · rw [hitems]; simp [factorItem]
      · obtain ⟨d, t, ht, hsp, hm, hp⟩ := hfirst (hl e (by simp)) (by simpa using hce)
        refine .inr ⟨⟨d, t ++ (l.map fun e => " * ".toList ++ factorText annot e).flatten, by rw [htext, ht]; rfl, hsp, hm, hp⟩, ?_, r, ?_, rfl⟩
        · intro q items hq
          rw [hitems] at hq
          cases e <;> simp [factorItem, Expr.isConst] at hq hce
        · rw [htext, hitems, List.append_assoc]
          exact productP_of (grouped_factor hL (hl e (by simp)) (ihx e (by simp)) F hbrk hF) hloop
    · have htext : text annot (.prod c l) = ratText c.re ++ ' ' :: factorsText annot l := by
        rw [text, if_pos h1, scalarText_real hc.1]; simp
      have hitems : itemsOf (.prod c l) = .num c.re :: l.map factorItem := by
        simp [itemsOf, h1, factorItems_eq]
      rw [htext, List.append_assoc] at hF
      obtain ⟨d, t, ht, -⟩ := ratText_cons c.re
      rw [ht] at hF
      obtain ⟨F', rfl⟩ : ∃ F', F = F' + 1 := ⟨F - 1, by simp at hF; omega⟩
      refine .inl ⟨c.re, ' ' :: factorsText annot l, l.map factorItem, hc.2, htext, hitems, ?_⟩
      cases l with
      | nil =>
        simp only [factorsText, List.cons_append, List.nil_append, List.map_nil]
        exact ⟨(hr.brk hL).blank hL, ' ' :: r, sepLoop_end hL _ _ hr (skip_blank hL r) F', skip_blank hL r⟩
      | cons e l =>
        rw [factorsText_cons] at hF ⊢
        simp only [List.cons_append, List.append_assoc] at hF ⊢
        have hbrk := brk_tail (annot := annot) (l := l) hL (hr.brk hL)
        have hloop := sepLoop_tail hL l (fun x hx => hl x (by simp [hx])) (fun x hx => ihx x (by simp [hx])) (F' + 1) hr F'
          (by simp at hF ⊢; omega) (by simp at hF ⊢; omega)
        refine ⟨brk_factor hL (hl e (by simp)) _, r, ?_, rfl⟩
        refine sepLoop_cons (by rw [star_factor hL (hl e (by simp))]; rfl) ?_ hloop
        rw [← groupedP_skip, skip_blank hL, groupedP_skip]
        exact grouped_factor hL (hl e (by simp)) (ihx e (by simp)) (F' + 1) hbrk (by simp at hF ⊢; omega)

/-! ## Addends and sums -/

/-- Reading the sign and the product of an addend. -/
theorem addend_read (hL : L.Ok) {e : Ex} (he : ExprOk L D annot e) (hs : e.isSum = false)
    (ih : ∀ c l, e = .prod c l → ∀ x ∈ l, Reads L D annot x) {r : List Char} (hr : EndA r) (F : Nat) (hF : (text annot e ++ r).length ≤ F) :
    (∃ t r' items, text annot e = '-' :: t ∧ productP L D F (sumP L D F) (t ++ r) = .ok items r' ∧ skip L r' = skip L r ∧
      norm e = addend true items) ∨
    ((∃ c t, text annot e = c :: t ∧ L.space c = false ∧ c ≠ '-' ∧ c ≠ '+') ∧
      ∃ r' items, productP L D F (sumP L D F) (text annot e ++ r) = .ok items r' ∧ skip L r' = skip L r ∧ norm e = addend false items) := by
  rcases product_read hL he hs ih hr F hF with ⟨q, u, items, hq, ht, hi, hb, r', hl, hr'⟩ | ⟨hh, hi, r', hp, hr'⟩
  · by_cases hneg : q < 0
    · refine .inl ⟨ratText (-q) ++ u, r', .num (-q) :: items, ?_, ?_, hr', ?_⟩
      · rw [ht, ratText_neg hneg]; rfl
      · rw [List.append_assoc]
        exact productP_of (grouped_num hL F _ (by rw [Rat.num_neg_eq_neg_num]; have := hq.1; omega) (by rw [Rat.den_neg_eq_den]; exact hq.2) hb) hl
      · rw [norm_addend hs, hi]; simp [signConv, hneg, addend]
    · refine .inr ⟨?_, r', .num q :: items, ?_, hr', ?_⟩
      · obtain ⟨c, t, hct, h⟩ := ratText_cons q
        rcases h with ⟨-, h⟩ | ⟨hd, -⟩
        · exact absurd h hneg
        · exact ⟨c, t ++ u, by rw [ht, hct]; rfl, (hL.digit c hd).2.2, digit_ne hd (by decide), digit_ne hd (by decide)⟩
      · rw [ht, List.append_assoc]
        exact productP_of (grouped_num hL F _ hq.1 hq.2 hb) hl
      · rw [norm_addend hs, hi]; simp [signConv, hneg, addend]
  · refine .inr ⟨hh, r', itemsOf e, hp, hr', ?_⟩
    rw [norm_addend hs]
    unfold addend signConv
    split
    · rename_i q t hqt; exact absurd hqt (hi q t)
    · simp

theorem addLoop_plus {product : List Char → Res (List Item)} {g : Nat} {cs r1 r2 r3 : List Char} {items : List Item} {es : List Ex}
    (h1 : lit L ['+'] cs = .ok () r1) (h2 : product r1 = .ok items r2) (h3 : addLoop L product g r2 = .ok es r3) :
    addLoop L product (g + 1) cs = .ok (addend false items :: es) r3 := by
  rw [addLoop, h1]
  simp only [Res.bind, Res.or]
  rw [h2]
  simp only [Res.expect]
  rw [h3]
  rfl

theorem addLoop_minus {product : List Char → Res (List Item)} {g : Nat} {cs r1 r2 r3 : List Char} {items : List Item} {es : List Ex}
    (h0 : lit L ['+'] cs = .fail) (h1 : lit L ['-'] cs = .ok () r1) (h2 : product r1 = .ok items r2)
    (h3 : addLoop L product g r2 = .ok es r3) :
    addLoop L product (g + 1) cs = .ok (addend true items :: es) r3 := by
  rw [addLoop, h0, h1]
  simp only [Res.bind, Res.or]
  rw [h2]
  simp only [Res.expect]
  rw [h3]
  rfl

theorem addLoop_end {product : List Char → Res (List Item)} {g : Nat} {cs : List Char}
    (h0 : lit L ['+'] cs = .fail) (h1 : lit L ['-'] cs = .fail) : addLoop L product (g + 1) cs = .ok [] cs := by
  rw [addLoop, h0, h1]
  rfl

theorem addendsText_false (l : List Ex) (e : Ex) (h : e.isSum = false) :
    addendsText annot false (e :: l)
      = (if (text annot e).head? = some '-' then " - ".toList ++ (text annot e).tail else " + ".toList ++ text annot e)
        ++ addendsText annot false l := by
  rw [addendsText]
  simp [addendText, h]

theorem endA_addends (l : List Ex) (hl : ∀ e ∈ l, e.isSum = false) {r : List Char} (hr : r = [] ∨ ∃ x, r = ')' :: x) :
    EndA (addendsText annot false l ++ r) := by
  cases l with
  | nil =>
    rw [addendsText, List.nil_append]
    rcases hr with h | h
    · exact .inl h
    · exact .inr (.inl h)
  | cons e l =>
    rw [addendsText_false l e (hl e (by simp))]
    split
    · exact .inr (.inr (.inr ⟨_, rfl⟩))
    · exact .inr (.inr (.inl ⟨_, rfl⟩))

/-- The rest of the sum. -/
theorem addLoop_read (hL : L.Ok) (l : List Ex) (hl : ∀ e ∈ l, e.isSum = false ∧ ExprOk L D annot e)
    (ih : ∀ e ∈ l, ∀ c m, e = .prod c m → ∀ x ∈ m, Reads L D annot x) {r : List Char} (hr : r = [] ∨ ∃ x, r = ')' :: x) (F : Nat)
    (hF : (addendsText annot false l ++ r).length ≤ F) (g : Nat) (hg : (addendsText annot false l ++ r).length < g) (cs : List Char)
    (hcs : skip L cs = skip L (addendsText annot false l ++ r)) :
    ∃ r', addLoop L (productP L D F (sumP L D F)) g cs = .ok (normL l) r' ∧ skip L r' = skip L r := by
  have hsp : L.space '+' = false := (hL.punct _ (by simp)).2.2
  have hsm : L.space '-' = false := (hL.punct _ (by simp)).2.2
  induction l generalizing g cs with
  | nil =>
    obtain ⟨g, rfl⟩ : ∃ g', g = g' + 1 := ⟨g - 1, by omega⟩
    rw [addendsText, List.nil_append] at hcs
    have hh : ∀ c, (skip L cs).head? = some c → c = ')' := by
      rw [hcs]
      rcases hr with rfl | ⟨x, rfl⟩
      · simp [skip]
      · rw [skip_stop L _ (hL.punct ')' (by simp)).2.2]; simp
    refine ⟨cs, ?_, hcs⟩
    rw [normL]
    exact addLoop_end (lit_fail L fun e => absurd (hh _ e) (by decide)) (lit_fail L fun e => absurd (hh _ e) (by decide))
  | cons e l ihl =>
    obtain ⟨g, rfl⟩ : ∃ g', g = g' + 1 := ⟨g - 1, by omega⟩
    have hse := (hl e (by simp)).1
    have hend := endA_addends (annot := annot) l (fun x hx => (hl x (by simp [hx])).1) hr
    rw [addendsText_false l e hse, List.append_assoc] at hF hg hcs
    have hlen : (text annot e ++ (addendsText annot false l ++ r)).length ≤ F ∧ (addendsText annot false l ++ r).length ≤ F ∧
        (addendsText annot false l ++ r).length < g := by
      split at hF
      · rename_i hm; rw [if_pos hm] at hg
        have : 0 < (text annot e).length := by
          cases ht : text annot e with
          | nil => rw [ht] at hm; simp at hm
          | cons c t => simp
        simp at hF hg ⊢; omega
      · rename_i hm; rw [if_neg hm] at hg
        simp at hF hg ⊢; omega
    have hskip : ∀ (c : Char) (y : List Char), L.space c = false → skip L (' ' :: c :: ' ' :: y) = c :: ' ' :: y := fun c y hc => by
      rw [skip_blank hL, skip_stop L _ hc]
    rcases addend_read hL (hl e (by simp)).2 hse (ih e (by simp)) hend F hlen.1 with
      ⟨t, r1, items, ht, hp, hr1, hn⟩ | ⟨⟨c, t, ht, hsc, hm, hpl⟩, r1, items, hp, hr1, hn⟩
    · obtain ⟨r', h1, h2⟩ := ihl (fun x hx => hl x (by simp [hx])) (fun x hx => ih x (by simp [hx])) hlen.2.1 g hlen.2.2 r1 hr1
      refine ⟨r', ?_, h2⟩
      have hcs' : skip L cs = '-' :: ' ' :: (t ++ (addendsText annot false l ++ r)) := by
        rw [hcs, ht]; simp only [List.head?_cons, if_true, List.tail_cons]
        exact hskip '-' _ hsm
      rw [normL, hn]
      refine addLoop_minus (lit_fail L (by rw [hcs']; simp)) (r1 := ' ' :: (t ++ (addendsText annot false l ++ r))) ?_ ?_ h1
      · rw [← lit_skip, hcs', lit1_ok L _ hsm]
      · rw [← productP_skip, skip_blank hL, productP_skip]; exact hp
    · obtain ⟨r', h1, h2⟩ := ihl (fun x hx => hl x (by simp [hx])) (fun x hx => ih x (by simp [hx])) hlen.2.1 g hlen.2.2 r1 hr1
      refine ⟨r', ?_, h2⟩
      have hcs' : skip L cs = '+' :: ' ' :: (text annot e ++ (addendsText annot false l ++ r)) := by
        rw [hcs, if_neg (by rw [ht]; simpa using hm)]
        exact hskip '+' _ hsp
      rw [normL, hn]
      refine addLoop_plus (r1 := ' ' :: (text annot e ++ (addendsText annot false l ++ r))) ?_ ?_ h1
      · rw [← lit_skip, hcs', lit1_ok L _ hsp]
      · rw [← productP_skip, skip_blank hL, productP_skip]; exact hp

theorem sumP_of {F : Nat} {cs r1 r2 r3 : List Char} {neg : Bool} {items : List Item} {es : List Ex}
    (h1 : (((lit L ['-'] cs).bind fun _ r => .ok true r).or (((lit L ['+'] cs).opt () cs).bind fun _ r => .ok false r)) = .ok neg r1)
    (h2 : productP L D F (sumP L D F) r1 = .ok items r2)
    (h3 : addLoop L (productP L D F (sumP L D F)) F r2 = .ok es r3) :
    sumP L D (F + 1) cs = .ok (convSum (addend neg items :: es)) r3 := by
  rw [sumP, h1]
  simp only [Res.bind]
  rw [h2]
  simp only []
  rw [h3]

/-- A sum of addends, the first of which is `e`. -/
theorem sum_read (hL : L.Ok) (e : Ex) (l : List Ex) (hl : ∀ x ∈ e :: l, x.isSum = false ∧ ExprOk L D annot x)
    (ih : ∀ x ∈ e :: l, ∀ c m, x = .prod c m → ∀ y ∈ m, Reads L D annot y) {r : List Char} (hr : r = [] ∨ ∃ x, r = ')' :: x) (F : Nat)
    (hF : (text annot e ++ (addendsText annot false l ++ r)).length < F) :
    ∃ r', sumP L D F (text annot e ++ (addendsText annot false l ++ r)) = .ok (convSum (norm e :: normL l)) r' ∧ skip L r' = skip L r := by
  have hsm : L.space '-' = false := (hL.punct _ (by simp)).2.2
  have hse := (hl e (by simp)).1
  have hend := endA_addends (annot := annot) l (fun x hx => (hl x (by simp [hx])).1) hr
  obtain ⟨F, rfl⟩ : ∃ F', F = F' + 1 := ⟨F - 1, by omega⟩
  have hlen : 0 < (text annot e).length → (addendsText annot false l ++ r).length < F := fun h => by simp at hF ⊢; omega
  rcases addend_read hL (hl e (by simp)).2 hse (ih e (by simp)) hend F (by omega) with
    ⟨t, r1, items, ht, hp, hr1, hn⟩ | ⟨⟨c, t, ht, hsc, hm, hpl⟩, r1, items, hp, hr1, hn⟩
  · have hlen := hlen (by simp [ht])
    obtain ⟨r', h1, h2⟩ := addLoop_read hL l (fun x hx => hl x (by simp [hx])) (fun x hx => ih x (by simp [hx])) hr F
      (by omega) F hlen r1 hr1
    refine ⟨r', ?_, h2⟩
    rw [hn]
    refine sumP_of (r1 := t ++ (addendsText annot false l ++ r)) ?_ hp h1
    rw [ht, List.cons_append, lit1_ok L _ hsm]; rfl
  · have hlen := hlen (by simp [ht])
    obtain ⟨r', h1, h2⟩ := addLoop_read hL l (fun x hx => hl x (by simp [hx])) (fun x hx => ih x (by simp [hx])) hr F
      (by omega) F hlen r1 hr1
    refine ⟨r', ?_, h2⟩
    rw [hn]
    refine sumP_of (r1 := text annot e ++ (addendsText annot false l ++ r)) ?_ hp h1
    have h3 : lit L ['-'] (text annot e ++ (addendsText annot false l ++ r)) = .fail := lit_fail L (by
      rw [ht, List.cons_append, skip_stop L _ hsc]; simpa using hm)
    have h4 : lit L ['+'] (text annot e ++ (addendsText annot false l ++ r)) = .fail := lit_fail L (by
      rw [ht, List.cons_append, skip_stop L _ hsc]; simpa using hpl)
    rw [h3, h4]; rfl

theorem text_read (hL : L.Ok) (e : Ex) (he : ExprOk L D annot e) : Reads L D annot e := by
  intro F r hr hF
  have hone : ∀ x : Ex, x.isSum = false → ExprOk L D annot x → (∀ c m, x = .prod c m → ∀ y ∈ m, Reads L D annot y) →
      (text annot x ++ r).length < F → ∃ r', sumP L D F (text annot x ++ r) = .ok (norm x) r' ∧ skip L r' = skip L r := by
    intro x hx hok hm hF
    have := sum_read hL x [] (by simpa using ⟨hx, hok⟩) (by simpa using hm) hr F (by simpa [addendsText] using hF)
    simpa [addendsText, normL, convSum] using this
  match e, he, hF with
  | .const c, he, hF => exact hone _ rfl he (by simp) hF
  | .atom a, he, hF => exact hone _ rfl he (by simp) hF
  | .prod c l, he, hF =>
    refine hone _ rfl he ?_ hF
    intro c' m hcm y hy
    simp only [Expr.prod.injEq] at hcm
    obtain ⟨rfl, rfl⟩ := hcm
    have := List.sizeOf_lt_of_mem hy
    exact text_read hL y ((factorsOk_iff _ _ _ _).1 he.2.2 y hy)
  | .sum ci [], he, hF => exact absurd rfl he.1
  | .sum ci (e :: l), he, hF =>
    have hok := (addendsOk_iff _ _ _ _).1 he.2
    have ht : text annot (.sum ci (e :: l)) = text annot e ++ addendsText annot false l := by
      rw [text, addendsText]; simp [addendText, (hok e (by simp)).1]
    rw [ht, List.append_assoc] at hF ⊢
    have hn : norm (.sum ci (e :: l)) = convSum (norm e :: normL l) := by rw [norm, normL]
    rw [hn]
    refine sum_read hL e l hok ?_ hr F hF
    intro x hx c m hxm y hy
    subst hxm
    have h1 := List.sizeOf_lt_of_mem hx
    have h2 := List.sizeOf_lt_of_mem hy
    have h3 := (hok _ hx).2
    exact text_read hL y ((factorsOk_iff _ _ _ _).1 h3.2.2 y hy)
termination_by sizeOf e
decreasing_by
  · simp; omega
  · simp at h1 ⊢; omega

end read

end SeQuant.Serial
