import Verif.Orders.Model
import Mathlib.Data.Prod.Lex
import Mathlib.Order.Fin.Basic

/-!
# C123: which of the orders are strict weak orders
-/

namespace SeQuant.Orders

/-! ## Specification -/

/-- What sorting and ordered containers require of a comparison. -/
structure StrictWeak {α : Type} (lt : α → α → Bool) : Prop where
  irrefl : ∀ a, lt a a = false
  trans : ∀ a b c, lt a b = true → lt b c = true → lt a c = true
  incomparable : ∀ a b c, lt a b = false → lt b a = false → lt b c = false → lt c b = false → lt a c = false ∧ lt c a = false

/-! ## Proofs -/

section general

variable {α β : Type}

/-- Asymmetric, and what lies between is on one side. -/
structure Weak (lt : α → α → Bool) : Prop where
  asymm : ∀ a b, lt a b = true → lt b a = false
  between : ∀ a b c, lt a c = true → lt a b = true ∨ lt b c = true

theorem Weak.strict {lt : α → α → Bool} (h : Weak lt) : StrictWeak lt where
  irrefl a := by
    cases ha : lt a a with
    | false => rfl
    | true => rw [← ha]; exact (h.asymm a a ha)
  trans a b c h1 h2 := by
    rcases h.between a c b h1 with h3 | h3
    · exact h3
    · rw [h.asymm b c h2] at h3; cases h3
  incomparable a b c h1 h2 h3 h4 := by
    constructor
    · cases hac : lt a c with
      | false => rfl
      | true => rcases h.between a b c hac with h | h
                · rw [h1] at h; cases h
                · rw [h3] at h; cases h
    · cases hca : lt c a with
      | false => rfl
      | true => rcases h.between c b a hca with h | h
                · rw [h4] at h; cases h
                · rw [h2] at h; cases h

theorem Weak.none : Weak (fun _ _ : α => false) := ⟨fun _ _ h => (by cases h), fun _ _ _ h => (by cases h)⟩

theorem Weak.key [LinearOrder β] [DecidableLT β] (k : α → β) : Weak fun a b => decide (k a < k b) := by
  refine ⟨fun a b h => ?_, fun a b c h => ?_⟩
  · simp only [decide_eq_true_eq] at h
    simp only [decide_eq_false_iff_not]
    exact not_lt_of_gt h
  · simp only [decide_eq_true_eq] at h ⊢
    rcases lt_or_ge (k a) (k b) with h1 | h1
    · exact Or.inl h1
    · exact Or.inr (lt_of_le_of_lt h1 h)

theorem Weak.step [LinearOrder β] [DecidableLT β] [DecidableEq β] (k : α → β) {rest : α → α → Bool} (h : Weak rest) :
    Weak fun a b => if k a ≠ k b then decide (k a < k b) else rest a b := by
  have hlt : ∀ a b, k a < k b → (if k a ≠ k b then decide (k a < k b) else rest a b) = true := by
    intro a b hab
    rw [if_pos (ne_of_lt hab)]
    simpa using hab
  refine ⟨fun a b h1 => ?_, fun a b c h1 => ?_⟩
  · by_cases e : k a = k b
    · simp only [e, ne_eq, not_true_eq_false, if_false] at h1 ⊢
      exact h.asymm a b h1
    · rw [if_pos e] at h1
      rw [if_pos (Ne.symm e)]
      simp only [decide_eq_true_eq] at h1
      simp only [decide_eq_false_iff_not]
      exact not_lt_of_gt h1
  · by_cases e : k a = k c
    · simp only [e, ne_eq, not_true_eq_false, if_false] at h1
      by_cases e2 : k a = k b
      · have e3 : k b = k c := e2.symm.trans e
        simp only [e2, e3, ne_eq, not_true_eq_false, if_false]
        exact h.between a b c h1
      · rcases lt_or_gt_of_ne e2 with h2 | h2
        · exact Or.inl (hlt a b h2)
        · exact Or.inr (hlt b c (e ▸ h2))
    · rw [if_pos e] at h1
      simp only [decide_eq_true_eq] at h1
      by_cases e2 : k a < k b
      · exact Or.inl (hlt a b e2)
      · exact Or.inr (hlt b c (lt_of_le_of_lt (not_lt.mp e2) h1))

theorem lexLt_eq [LinearOrder α] (l m : List α) : lexLt l m = decide (l < m) := by
  induction l generalizing m with
  | nil => cases m <;> simp [lexLt]
  | cons a l ih =>
    cases m with
    | nil => simp [lexLt]
    | cons b m =>
      simp only [lexLt, ih, List.cons_lt_cons_iff]
      rcases lt_trichotomy a b with h | h | h
      · simp [h]
      · subst h; simp
      · simp [h, not_lt_of_gt h, ne_of_gt h]

end general

section tensors

variable {L I : Type} [LinearOrder L] [LinearOrder I]

/-- **C123 (tensors).** If the hash function distinguishes the lists of indices, the order of tensors is a strict weak order. -/
theorem tensorLess_order (hash : List I → Nat) (hinj : Function.Injective hash) : StrictWeak (tensorLess (L := L) hash) := by
  refine Weak.strict ?_
  have := Weak.step (fun a : Ten L I => a.label) <| Weak.step (fun a : Ten L I => a.bra.length) <| Weak.step (fun a : Ten L I => a.ket.length) <|
    Weak.step (fun a : Ten L I => a.aux.length) <| Weak.step (fun a : Ten L I => a.bra) <| Weak.step (fun a : Ten L I => a.ket) <|
    Weak.key (fun a : Ten L I => a.aux)
  have e : tensorLess (L := L) hash = fun a b : Ten L I => if a.label ≠ b.label then decide (a.label < b.label) else
      if a.bra.length ≠ b.bra.length then decide (a.bra.length < b.bra.length) else
      if a.ket.length ≠ b.ket.length then decide (a.ket.length < b.ket.length) else
      if a.aux.length ≠ b.aux.length then decide (a.aux.length < b.aux.length) else
      if a.bra ≠ b.bra then decide (a.bra < b.bra) else if a.ket ≠ b.ket then decide (a.ket < b.ket) else decide (a.aux < b.aux) := by
    funext a b
    simp only [tensorLess, lexLt_eq, ne_eq, hinj.eq_iff]
  rw [e]
  convert this

/-- Tensors of which neither is less are equal. -/
theorem tensorLess_ties (hash : List I → Nat) (hinj : Function.Injective hash) (a b : Ten L I) (h1 : tensorLess hash a b = false)
    (h2 : tensorLess hash b a = false) : a = b := by
  obtain ⟨la, ba, ka, aa⟩ := a
  obtain ⟨lb, bb, kb, ab⟩ := b
  simp only [tensorLess, lexLt_eq, ne_eq, hinj.eq_iff] at h1 h2
  have tie : ∀ {γ : Type} [LinearOrder γ] [DecidableLT γ] (x y : γ), decide (x < y) = false → decide (y < x) = false → x = y := by
    intro γ _ _ x y h1 h2
    simp only [decide_eq_false_iff_not, not_lt] at h1 h2
    exact le_antisymm h2 h1
  by_cases e1 : la = lb
  · subst e1
    simp only [not_true_eq_false, if_false] at h1 h2
    by_cases e2 : ba.length = bb.length
    · simp only [e2, not_true_eq_false, if_false] at h1 h2
      by_cases e3 : ka.length = kb.length
      · simp only [e3, not_true_eq_false, if_false] at h1 h2
        by_cases e4 : aa.length = ab.length
        · simp only [e4, not_true_eq_false, if_false] at h1 h2
          by_cases e5 : ba = bb
          · subst e5
            simp only [not_true_eq_false, if_false] at h1 h2
            by_cases e6 : ka = kb
            · subst e6
              simp only [not_true_eq_false, if_false] at h1 h2
              rw [tie _ _ h1 h2]
            · rw [if_pos e6] at h1
              rw [if_pos (Ne.symm e6)] at h2
              exact absurd (tie _ _ h1 h2) e6
          · rw [if_pos e5] at h1
            rw [if_pos (Ne.symm e5)] at h2
            exact absurd (tie _ _ h1 h2) e5
        · rw [if_pos e4] at h1
          rw [if_pos (Ne.symm e4)] at h2
          exact absurd (tie _ _ h1 h2) e4
      · rw [if_pos e3] at h1
        rw [if_pos (Ne.symm e3)] at h2
        exact absurd (tie _ _ h1 h2) e3
    · rw [if_pos e2] at h1
      rw [if_pos (Ne.symm e2)] at h2
      exact absurd (tie _ _ h1 h2) e2
  · rw [if_pos e1] at h1
    rw [if_pos (Ne.symm e1)] at h2
    exact absurd (tie _ _ h1 h2) e1

/-- **C123 (normal-ordered operators).** The same for normal-ordered operators. -/
theorem nopLess_order (hash : List I → Nat) (hinj : Function.Injective hash) : StrictWeak (nopLess hash) := by
  refine Weak.strict ?_
  have := Weak.step (fun a : Nop I => a.cre.length) <| Weak.step (fun a : Nop I => a.ann.length) <| Weak.step (fun a : Nop I => a.cre) <|
    Weak.step (fun a : Nop I => a.ann) <| Weak.none
  have e : nopLess hash = fun a b : Nop I => if a.cre.length ≠ b.cre.length then decide (a.cre.length < b.cre.length) else
      if a.ann.length ≠ b.ann.length then decide (a.ann.length < b.ann.length) else
      if a.cre ≠ b.cre then decide (a.cre < b.cre) else if a.ann ≠ b.ann then decide (a.ann < b.ann) else false := by
    funext a b
    simp only [nopLess, lexLt_eq, hinj.eq_iff, ne_eq, ite_not]
  rw [e]
  convert this

end tensors

section operators

variable {L : Type} [LinearOrder L]

theorem qnsLess_eq (l m : List (Int × Int)) : qnsLess l m = decide (l.map toLex < m.map toLex) := by
  induction l generalizing m with
  | nil => cases m <;> simp [qnsLess]
  | cons a l ih =>
    cases m with
    | nil => simp [qnsLess]
    | cons b m =>
      have hless : ∀ x y : Int × Int, (if x.1 ≠ y.1 then decide (x.1 < y.1) else decide (x.2 < y.2)) = decide (toLex x < toLex y) := by
        intro x y
        rw [Bool.eq_iff_iff]
        simp only [decide_eq_true_eq, Prod.Lex.toLex_lt_toLex]
        by_cases h : x.1 = y.1
        · simp [h]
        · simp [h]
      simp only [qnsLess, ih, hless, List.map_cons, List.cons_lt_cons_iff, decide_eq_true_eq]
      rcases lt_trichotomy (toLex a) (toLex b) with h | h | h
      · simp [h]
      · have : a = b := by simpa using h
        subst this
        simp
      · simp [h, not_lt_of_gt h]
        intro e
        subst e
        exact absurd h (lt_irrefl _)

/-- **C123 (many-body operators).** The order of many-body operators is a strict weak order, whatever the cardinal labels. -/
theorem operatorLess_order (cardinal : List L) : StrictWeak (operatorLess cardinal) := by
  refine Weak.strict ?_
  have := Weak.step (fun a : L × List (Int × Int) => cardinal.idxOf a.1) <| Weak.step (fun a : L × List (Int × Int) => a.1) <|
    Weak.key (fun a : L × List (Int × Int) => a.2.map toLex)
  have e : operatorLess cardinal = fun a b : L × List (Int × Int) =>
      if cardinal.idxOf a.1 ≠ cardinal.idxOf b.1 then decide (cardinal.idxOf a.1 < cardinal.idxOf b.1) else
      if a.1 ≠ b.1 then decide (a.1 < b.1) else decide (a.2.map toLex < b.2.map toLex) := by
    funext a b
    simp only [operatorLess, qnsLess_eq]
    by_cases h : a.1 = b.1
    · simp [h]
    · simp only [h, if_false]
      have hle : ∀ x, cardinal.idxOf x ≤ cardinal.length := fun x => List.idxOf_le_length
      by_cases ha : cardinal.idxOf a.1 < cardinal.length <;> by_cases hb : cardinal.idxOf b.1 < cardinal.length
      · have hne : cardinal.idxOf a.1 ≠ cardinal.idxOf b.1 := by
          intro he
          have h1 := List.getElem_idxOf ha
          have h2 := List.getElem_idxOf hb
          apply h
          rw [← h1, ← h2]
          congr 1
        simp [ha, hb, hne]
      · have hb' : cardinal.idxOf b.1 = cardinal.length := by have := hle b.1; omega
        simp only [ha, hb', and_false, if_false, and_true, not_false_eq_true, if_true, lt_irrefl]
        rw [if_pos (by omega)]
        simp
      · have ha' : cardinal.idxOf a.1 = cardinal.length := by have := hle a.1; omega
        simp only [ha', hb, if_false, and_true, not_true_eq_false, and_false, not_false_eq_true, if_true, lt_irrefl]
        rw [if_pos (by omega)]
        simp; omega
      · have hb' : cardinal.idxOf b.1 = cardinal.length := by have := hle b.1; omega
        have ha' : cardinal.idxOf a.1 = cardinal.length := by have := hle a.1; omega
        simp [ha', hb', h]
  rw [e]
  convert this

end operators

section blocks

variable {S L I : Type} [LinearOrder L]

/-- The spaces of one registry: the attribute determines the base key. -/
def Spaces.Consistent (P : Spaces S) : Prop := ∀ s t, P.attr s = P.attr t → P.key s = P.key t

theorem ne_iff (P : Spaces S) (hP : P.Consistent) (s t : S) : P.ne s t = decide (P.attr s ≠ P.attr t) := by
  unfold Spaces.ne
  by_cases h : P.attr s = P.attr t
  · simp [h, hP s t h]
  · simp [h]

theorem less_iff (P : Spaces S) (hP : P.Consistent) (s t : S) : P.less s t = decide (P.attr s < P.attr t) := by
  unfold Spaces.less
  by_cases h : P.attr s = P.attr t
  · simp [h, hP s t h]
  · simp [h]

theorem loop_eq (P : Spaces S) (hP : P.Consistent) (l m : List S) (h : l.length = m.length) :
    spacesLoop P l m = if l.map P.attr ≠ m.map P.attr then some (decide (l.map P.attr < m.map P.attr)) else none := by
  induction l generalizing m with
  | nil =>
    have : m = [] := List.eq_nil_of_length_eq_zero (by simpa using h.symm)
    subst this
    simp [spacesLoop]
  | cons s l ih =>
    cases m with
    | nil => simp at h
    | cons t m =>
      simp only [spacesLoop, ne_iff P hP, less_iff P hP, decide_eq_true_eq, List.map_cons, List.cons_lt_cons_iff]
      by_cases e : P.attr s = P.attr t
      · rw [if_neg (by simpa using e), ih m (by simpa using h)]
        simp [e]
      · rw [if_pos e, if_pos (by simp [e])]
        simp [e]

/-- **C123 (blocks).** For spaces of one registry `TensorBlockCompare` is a strict weak order. -/
theorem blockCompare_order (P : Spaces S) (hP : P.Consistent) (space : I → S) : StrictWeak (blockCompare (L := L) P space) := by
  refine Weak.strict ?_
  have := Weak.step (fun a : Ten L I => a.label) <| Weak.step (fun a : Ten L I => a.bra.length) <| Weak.step (fun a : Ten L I => a.ket.length) <|
    Weak.step (fun a : Ten L I => a.aux.length) <| Weak.step (fun a : Ten L I => (a.bra.map space).map P.attr) <|
    Weak.step (fun a : Ten L I => (a.ket.map space).map P.attr) <| Weak.step (fun a : Ten L I => (a.aux.map space).map P.attr) <| Weak.none
  have e : blockCompare (L := L) P space = fun a b : Ten L I => if a.label ≠ b.label then decide (a.label < b.label) else
      if a.bra.length ≠ b.bra.length then decide (a.bra.length < b.bra.length) else
      if a.ket.length ≠ b.ket.length then decide (a.ket.length < b.ket.length) else
      if a.aux.length ≠ b.aux.length then decide (a.aux.length < b.aux.length) else
      if (a.bra.map space).map P.attr ≠ (b.bra.map space).map P.attr then decide ((a.bra.map space).map P.attr < (b.bra.map space).map P.attr) else
      if (a.ket.map space).map P.attr ≠ (b.ket.map space).map P.attr then decide ((a.ket.map space).map P.attr < (b.ket.map space).map P.attr) else
      if (a.aux.map space).map P.attr ≠ (b.aux.map space).map P.attr then decide ((a.aux.map space).map P.attr < (b.aux.map space).map P.attr)
      else false := by
    funext a b
    unfold blockCompare
    refine ite_congr rfl (fun _ => rfl) fun _ => ite_congr rfl (fun _ => rfl) fun h2 => ite_congr rfl (fun _ => rfl) fun h3 =>
      ite_congr rfl (fun _ => rfl) fun h4 => ?_
    rw [loop_eq P hP _ _ (by simpa using h2), loop_eq P hP _ _ (by simpa using h3), loop_eq P hP _ _ (by simpa using h4)]
    by_cases h5 : (a.bra.map space).map P.attr = (b.bra.map space).map P.attr
    · by_cases h6 : (a.ket.map space).map P.attr = (b.ket.map space).map P.attr
      · by_cases h7 : (a.aux.map space).map P.attr = (b.aux.map space).map P.attr
        · simp only [h5, h6, h7, ne_eq, not_true_eq_false, if_false]
        · simp only [h5, h6, h7, ne_eq, not_true_eq_false, not_false_eq_true, if_true, if_false]
      · simp only [h5, h6, ne_eq, not_true_eq_false, not_false_eq_true, if_true, if_false]
    · simp only [h5, ne_eq, not_false_eq_true, if_true]
  rw [e]
  convert this

/-- What the orders of blocks compare. -/
theorem blockLess_eq (P : Spaces S) (hP : P.Consistent) (space : I → S) : blockLess (L := L) P space = fun a b =>
    if a.label ≠ b.label then decide (a.label < b.label) else
    if a.slots.length ≠ b.slots.length then decide (a.slots.length < b.slots.length) else
    if a.indices.length ≠ b.indices.length then decide (a.indices.length < b.indices.length) else
    decide ((a.indices.map space).map P.attr < (b.indices.map space).map P.attr) := by
  funext a b
  unfold blockLess
  refine ite_congr rfl (fun _ => rfl) fun _ => ite_congr rfl (fun _ => rfl) fun _ => ite_congr rfl (fun _ => rfl) fun h3 => ?_
  rw [loop_eq P hP _ _ (by simpa using h3)]
  split
  · rfl
  · next h => 
    simp only [ne_eq, not_not] at h
    rw [h]
    simp

/-- **C123 (blocks in export).** The same for `TensorBlockLessThanComparator`. -/
theorem blockLess_order (P : Spaces S) (hP : P.Consistent) (space : I → S) : StrictWeak (blockLess (L := L) P space) := by
  refine Weak.strict ?_
  rw [blockLess_eq P hP]
  exact Weak.step (fun a : Slotted L I => a.label) <| Weak.step (fun a : Slotted L I => a.slots.length) <|
    Weak.step (fun a : Slotted L I => a.indices.length) <| Weak.key (fun a : Slotted L I => (a.indices.map space).map P.attr)

theorem blockEqual_eq (P : Spaces S) (hP : P.Consistent) (space : I → S) (a b : Slotted L I) : blockEqual P space a b =
    decide (a.label = b.label ∧ a.slots.length = b.slots.length ∧ (a.indices.map space).map P.attr = (b.indices.map space).map P.attr) := by
  unfold blockEqual
  by_cases h1 : a.label = b.label
  · by_cases h2 : a.slots.length = b.slots.length
    · by_cases h3 : a.indices.length = b.indices.length
      · rw [if_neg (by simpa using h1), if_neg (by simpa using h2), if_neg (by simpa using h3), loop_eq P hP _ _ (by simpa using h3)]
        by_cases h4 : (a.indices.map space).map P.attr = (b.indices.map space).map P.attr
        · simp only [h4, ne_eq, not_true_eq_false, if_false, h1, h2, and_self, decide_true]
        · simp only [h4, ne_eq, not_false_eq_true, if_true, and_false, decide_false]
      · have : ¬ (a.indices.map space).map P.attr = (b.indices.map space).map P.attr := by
          intro h
          have := congrArg List.length h
          simp at this
          exact h3 this
        simp only [h1, h2, h3, this, ne_eq, not_true_eq_false, not_false_eq_true, if_false, if_true, and_false, decide_false]
    · simp [h1, h2]
  · simp [h1]

variable [DecidableEq I]

theorem posLoop_eq (ext : List I) (l m : List I) (h : l.length = m.length) : posLoop ext l m = decide (l.map ext.idxOf < m.map ext.idxOf) := by
  induction l generalizing m with
  | nil =>
    have : m = [] := List.eq_nil_of_length_eq_zero (by simpa using h.symm)
    subst this
    simp [posLoop]
  | cons i l ih =>
    cases m with
    | nil => simp at h
    | cons j m =>
      simp only [posLoop, ih m (by simpa using h), List.map_cons, List.cons_lt_cons_iff]
      by_cases e : i = j
      · subst e; simp
      · by_cases e2 : ext.idxOf i = ext.idxOf j
        · simp [e, e2]
        · simp [e, e2]

/-- **C123 (blocks with given indices).** The same for `IndexSpecificTensorBlockLessThanComparator`, whatever the indices. -/
theorem indexSpecificLess_order (P : Spaces S) (hP : P.Consistent) (space : I → S) (ext : List I) :
    StrictWeak (indexSpecificLess (L := L) P space ext) := by
  refine Weak.strict ?_
  have := Weak.step (fun a : Slotted L I => a.label) <| Weak.step (fun a : Slotted L I => a.slots.length) <|
    Weak.step (fun a : Slotted L I => a.indices.length) <| Weak.step (fun a : Slotted L I => (a.indices.map space).map P.attr) <|
    Weak.key (fun a : Slotted L I => a.indices.map ext.idxOf)
  have e : indexSpecificLess (L := L) P space ext = fun a b =>
    if a.label ≠ b.label then decide (a.label < b.label) else
    if a.slots.length ≠ b.slots.length then decide (a.slots.length < b.slots.length) else
    if a.indices.length ≠ b.indices.length then decide (a.indices.length < b.indices.length) else
    if (a.indices.map space).map P.attr ≠ (b.indices.map space).map P.attr then decide ((a.indices.map space).map P.attr < (b.indices.map space).map P.attr)
    else decide (a.indices.map ext.idxOf < b.indices.map ext.idxOf) := by
    funext a b
    unfold indexSpecificLess
    rw [blockEqual_eq P hP, blockLess_eq P hP]
    by_cases h : a.label = b.label ∧ a.slots.length = b.slots.length ∧ (a.indices.map space).map P.attr = (b.indices.map space).map P.attr
    · have hl : a.indices.length = b.indices.length := by
        have := congrArg List.length h.2.2
        simpa using this
      rw [posLoop_eq ext _ _ hl]
      simp only [h, hl, ne_eq, not_true_eq_false, if_false, and_self, decide_true, Bool.not_true, Bool.false_eq_true]
    · simp only [h, decide_false, Bool.not_false, if_true]
      refine ite_congr rfl (fun _ => rfl) fun h1 => ite_congr rfl (fun _ => rfl) fun h2 => ite_congr rfl (fun _ => rfl) fun h3 => ?_
      rw [if_pos]
      intro h4
      exact h ⟨not_not.mp h1, not_not.mp h2, h4⟩
  rw [e]
  convert this

end blocks

/-! ## Examples and refutations -/

/-- A hash function with a collision. -/
def collide (l : List Nat) : Nat := if l = [2] then 1 else 0

/-- **C123**, refuted if hash values collide: three tensors in a cycle. -/
theorem tensorLess_cycle :
    let a : Ten Nat Nat := ⟨0, [1], [9], []⟩
    let b : Ten Nat Nat := ⟨0, [2], [5], []⟩
    let c : Ten Nat Nat := ⟨0, [3], [4], []⟩
    tensorLess collide a b = true ∧ tensorLess collide b c = true ∧ tensorLess collide c a = true := by decide

/-- The same for normal-ordered operators; and different ones of which neither is less. -/
theorem nopLess_cycle :
    let h : List Nat → Nat := fun l => if l = [1] ∨ l = [3] then 0 else l.headD 0
    nopLess h ⟨[1], [9]⟩ ⟨[2], [5]⟩ = true ∧ nopLess h ⟨[2], [5]⟩ ⟨[3], [4]⟩ = true ∧ nopLess h ⟨[3], [4]⟩ ⟨[1], [9]⟩ = true ∧
      nopLess h ⟨[1], [4]⟩ ⟨[3], [4]⟩ = false ∧ nopLess h ⟨[3], [4]⟩ ⟨[1], [4]⟩ = false := by decide

/-- **C123**, refuted for tensors together with normal-ordered operators: neither of two tensors and an operator is less, but one tensor is less than the other. -/
theorem abstractLess_mixed : ¬ StrictWeak (abstractLess (L := Nat) (I := Nat) List.sum) := by
  intro h
  have := (h.incomparable (.inl ⟨0, [], [], []⟩) (.inr ⟨[], []⟩) (.inl ⟨1, [], [], []⟩) rfl rfl rfl rfl).1
  exact absurd this (by decide)

/-- **C123**, refuted for spaces that differ only in their base key: the comparison stops at them without an answer. -/
theorem blockCompare_keys : ¬ StrictWeak (blockCompare (L := Nat) (I := Nat × Nat) ⟨Prod.fst, Prod.snd, 99⟩ id) := by
  intro h
  have := (h.incomparable ⟨0, [(1, 0), (1, 0)], [], []⟩ ⟨0, [(1, 1), (1, 0)], [], []⟩ ⟨0, [(1, 0), (2, 0)], [], []⟩ (by decide) (by decide) (by decide) (by decide)).1
  exact absurd this (by decide)

/-- **C123**: the order of blocks in export does not tell how the slots are divided: `t{i;a}` and `t{i,a;}` are the same key. -/
theorem blockLess_ranks :
    let P : Spaces Nat := ⟨id, id, 99⟩
    let a : Slotted Nat Nat := ⟨0, [some 1], [some 2], []⟩
    let b : Slotted Nat Nat := ⟨0, [some 1, some 2], [], []⟩
    a ≠ b ∧ blockLess P id a b = false ∧ blockLess P id b a = false ∧ blockEqual P id a b = true := by decide

example : (⟨id, fun _ => 0, 99⟩ : Spaces Nat).Consistent := fun _ _ _ => rfl
example : operatorLess [5, 3, 8] (3, []) (8, []) = true ∧ operatorLess [5, 3, 8] (8, [(1, 1)]) (8, [(1, 2)]) = true ∧
    operatorLess [5, 3, 8] (8, []) (1, []) = true ∧ operatorLess [5, 3, 8] (2, []) (1, []) = false := by decide
example : indexSpecificLess (L := Nat) ⟨fun _ : Nat => 0, fun _ => 0, 99⟩ id [7, 5] ⟨0, [some 7], [], []⟩ ⟨0, [some 5], [], []⟩ = true := by decide

end SeQuant.Orders
