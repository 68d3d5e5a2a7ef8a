import Verif.Rules.PopModel
import Mathlib.Tactic.Ring

set_option linter.unusedSectionVars false

/-! # C65: `pop_tensor` -/

namespace SeQuant.Rules

variable {K L ι : Type} [CommRing K] [DecidableEq K] [DecidableEq L] [DecidableEq ι]

/-! ### Specification -/

mutual
/-- All tensors of an expression. -/
def tens : Ex K L ι → List (Ten L ι)
  | .const _ => []
  | .var _ => []
  | .ten t => [t]
  | .sum l => tensL l
  | .prod _ l => tensL l
def tensL : List (Ex K L ι) → List (Ten L ι)
  | [] => []
  | e :: l => tens e ++ tensL l
end

mutual
/-- The value, for values of the variables and tensors. -/
def ev (V : L → K) (T : Ten L ι → K) : Ex K L ι → K
  | .const c => c
  | .var v => V v
  | .ten t => T t
  | .sum l => evS V T l
  | .prod c l => c * evP V T l
def evS (V : L → K) (T : Ten L ι → K) : List (Ex K L ι) → K
  | [] => 0
  | e :: l => ev V T e + evS V T l
def evP (V : L → K) (T : Ten L ι → K) : List (Ex K L ι) → K
  | [] => 1
  | e :: l => ev V T e * evP V T l
end

def Ex.isC : Ex K L ι → Bool
  | .const _ => true
  | _ => false

/-- The label does not occur. -/
def Free (lab : L) (e : Ex K L ι) : Prop := ∀ t ∈ tens e, t.label ≠ lab

mutual
/-- Products have a factor, and no constants among their factors (`Product::append` multiplies them into the scalar). -/
def Wf : Ex K L ι → Prop
  | .const _ => True
  | .var _ => True
  | .ten _ => True
  | .sum l => WfS l
  | .prod _ l => l ≠ [] ∧ WfP l
def WfS : List (Ex K L ι) → Prop
  | [] => True
  | e :: l => Wf e ∧ WfS l
def WfP : List (Ex K L ι) → Prop
  | [] => True
  | e :: l => (e.isC = false ∧ Wf e) ∧ WfP l
end

mutual
/-- In every term exactly one factor is the tensor `t` or (again) an expression all of whose terms contain it, the other factors do
not contain the label, and there is at least one other factor. -/
def Once (lab : L) (t : Ten L ι) : Ex K L ι → Prop
  | .const _ => False
  | .var _ => False
  | .ten _ => False
  | .sum l => l ≠ [] ∧ OnceS lab t l
  | .prod _ l => 2 ≤ l.length ∧ OnceP lab t l
def OnceS (lab : L) (t : Ten L ι) : List (Ex K L ι) → Prop
  | [] => True
  | e :: l => Once lab t e ∧ OnceS lab t l
def OnceP (lab : L) (t : Ten L ι) : List (Ex K L ι) → Prop
  | [] => False
  | e :: l => ((e = .ten t ∨ Once lab t e) ∧ ∀ f ∈ l, Free lab f) ∨ (Free lab e ∧ OnceP lab t l)
end

/-! ### Lemmas -/

section
variable {V : L → K} {T : Ten L ι → K}

theorem tensL_append (l m : List (Ex K L ι)) : tensL (l ++ m) = tensL l ++ tensL m := by
  induction l with
  | nil => rfl
  | cons e l ih => simp [tensL, ih]

theorem mem_tensL {l : List (Ex K L ι)} {t : Ten L ι} : t ∈ tensL l ↔ ∃ e ∈ l, t ∈ tens e := by
  induction l with
  | nil => simp [tensL]
  | cons e l ih => simp [tensL, ih]

theorem evP_append (l m : List (Ex K L ι)) : evP V T (l ++ m) = evP V T l * evP V T m := by
  induction l with
  | nil => simp [evP]
  | cons e l ih => simp [evP, ih, mul_assoc]

theorem evS_append (l m : List (Ex K L ι)) : evS V T (l ++ m) = evS V T l + evS V T m := by
  induction l with
  | nil => simp [evS]
  | cons e l ih => simp [evS, ih, add_assoc]

mutual
theorem sAppend_ev (st : List (Ex K L ι)) (e : Ex K L ι) : evS V T (sAppend st e) = evS V T st + ev V T e := by
  match e with
  | .const c => simp only [sAppend]; split <;> simp_all [evS_append, evS, ev]
  | .var v => simp [sAppend, evS_append, evS, ev]
  | .ten t => simp [sAppend, evS_append, evS, ev]
  | .prod c l => simp only [sAppend]; split <;> simp_all [evS_append, evS, ev]
  | .sum l => simp only [sAppend, ev]; exact sAppendAll_ev st l
theorem sAppendAll_ev (st : List (Ex K L ι)) (l : List (Ex K L ι)) : evS V T (sAppendAll st l) = evS V T st + evS V T l := by
  match l with
  | [] => simp [sAppendAll, evS]
  | e :: l => simp only [sAppendAll, evS]; rw [sAppendAll_ev, sAppend_ev]; ring
end

mutual
theorem sAppend_tens (st : List (Ex K L ι)) (e : Ex K L ι) : ∀ t ∈ tensL (sAppend st e), t ∈ tensL st ∨ t ∈ tens e := by
  intro t ht
  match e with
  | .const c => simp only [sAppend] at ht; split at ht <;> simp_all [tensL_append, tensL, tens]
  | .var v => simpa [sAppend, tensL_append, tensL] using ht
  | .ten t => simpa [sAppend, tensL_append, tensL] using ht
  | .prod c l =>
    simp only [sAppend] at ht
    split at ht
    · exact Or.inl ht
    · simpa [tensL_append, tensL] using ht
  | .sum l => simp only [sAppend] at ht; exact sAppendAll_tens st l t ht
theorem sAppendAll_tens (st : List (Ex K L ι)) (l : List (Ex K L ι)) : ∀ t ∈ tensL (sAppendAll st l), t ∈ tensL st ∨ t ∈ tensL l := by
  intro t ht
  match l with
  | [] => exact Or.inl ht
  | e :: l =>
    simp only [sAppendAll] at ht
    rcases sAppendAll_tens _ l t ht with h | h
    · rcases sAppend_tens st e t h with h | h
      · exact Or.inl h
      · exact Or.inr (by simp [tensL, h])
    · exact Or.inr (by simp [tensL, h])
end

theorem pAppend_no (st : K × List (Ex K L ι)) (e : Ex K L ι) (h : e.isC = false) : pAppend false st e = (st.1, st.2 ++ [e]) := by
  cases e <;> simp [Ex.isC] at h <;> simp [pAppend]

theorem popFactor_no (st : K × List (Ex K L ι)) (e : Ex K L ι) (h : e.isC = false) : popFactor st e = (st.1, st.2 ++ [e]) := by
  cases e with
  | const c => simp [Ex.isC] at h
  | _ => exact pAppend_no st _ h

theorem popFactor_tens (st : K × List (Ex K L ι)) (e : Ex K L ι) : ∀ t ∈ tensL (popFactor st e).2, t ∈ tensL st.2 ∨ t ∈ tens e := by
  intro t ht
  cases hc : e.isC with
  | true =>
    cases e <;> simp [Ex.isC] at hc
    simp only [popFactor, pAppend] at ht
    split at ht <;> exact Or.inl ht
  | false => rw [popFactor_no st e hc, tensL_append] at ht; simpa [tensL] using ht

theorem popFinish_tens (st : K × List (Ex K L ι)) : ∀ t ∈ tens (popFinish st), t ∈ tensL st.2 := by
  obtain ⟨c, l⟩ := st
  intro t ht
  match l with
  | [] => simp [popFinish, tens] at ht
  | [f] =>
    simp only [popFinish] at ht
    split at ht
    · simpa [tensL] using ht
    · exact ht
  | a :: b :: l => exact ht

/-! ### What is removed and returned, for every expression -/

/-- What a successful call returns: `p` from an expression with the tensors `ts`, leaving an expression with the tensors `ts'`. -/
structure Popped (lab : L) (p : Option (Ten L ι)) (ts ts' : List (Ten L ι)) : Prop where
  left : ∀ t ∈ ts', t ∈ ts ∧ t.label ≠ lab
  nil : p = none → ∀ t ∈ ts, t.label ≠ lab
  one : ∀ t, p = some t → t ∈ ts ∧ t.label = lab
  all : ∀ t, p = some t → ∀ u ∈ ts, u.label = lab → u = t

theorem Popped.step {lab : L} {p q : Option (Ten L ι)} {ts ts' us us' vs' : List (Ten L ι)} (h : Popped lab p ts ts')
    (h' : Popped lab q us us') (hk : q = none ∨ keep p q = q) (hv : ∀ t ∈ vs', t ∈ ts' ∨ t ∈ us') :
    Popped lab (keep p q) (ts ++ us) vs' := by
  have hL : ∀ t ∈ vs', t ∈ ts ++ us ∧ t.label ≠ lab := by
    intro t ht
    rcases hv t ht with h1 | h1
    · exact ⟨List.mem_append_left _ (h.left t h1).1, (h.left t h1).2⟩
    · exact ⟨List.mem_append_right _ (h'.left t h1).1, (h'.left t h1).2⟩
  cases p with
  | none =>
    simp only [keep, Option.isSome_none, Bool.false_eq_true, if_false]
    refine ⟨hL, ?_, ?_, ?_⟩
    · intro hq t ht
      rcases List.mem_append.1 ht with h1 | h1
      · exact h.nil rfl t h1
      · exact h'.nil hq t h1
    · intro t ht
      exact ⟨List.mem_append_right _ (h'.one t ht).1, (h'.one t ht).2⟩
    · intro t ht u hu hl
      rcases List.mem_append.1 hu with h1 | h1
      · exact absurd hl (h.nil rfl u h1)
      · exact h'.all t ht u h1 hl
  | some w =>
    simp only [keep, Option.isSome_some, if_true] at hk ⊢
    refine ⟨hL, by simp, ?_, ?_⟩
    · intro t ht
      exact ⟨List.mem_append_left _ (h.one t ht).1, (h.one t ht).2⟩
    · intro t ht u hu hl
      rcases List.mem_append.1 hu with h1 | h1
      · exact h.all t ht u h1 hl
      · rcases hk with hk | hk
        · exact absurd hl (h'.nil hk u h1)
        · exact h'.all t (by rw [← hk]; exact ht) u h1 hl

mutual
theorem pop_aux (lab : L) (e : Ex K L ι) (p : Option (Ten L ι)) (e' : Ex K L ι) (h : pop lab e = some (p, e')) :
    Popped lab p (tens e) (tens e') := by
  match e with
  | .const c =>
    simp only [pop, Option.some.injEq, Prod.mk.injEq] at h
    obtain ⟨rfl, rfl⟩ := h
    exact ⟨by simp [tens], by simp [tens], by simp, by simp⟩
  | .var c =>
    simp only [pop, Option.some.injEq, Prod.mk.injEq] at h
    obtain ⟨rfl, rfl⟩ := h
    exact ⟨by simp [tens], by simp [tens], by simp, by simp⟩
  | .ten t =>
    simp only [pop] at h
    split at h
    · rename_i hl
      simp only [Option.some.injEq, Prod.mk.injEq] at h
      obtain ⟨rfl, rfl⟩ := h
      exact ⟨by simp [tens], by simp, by simp [tens, hl], by simp [tens]⟩
    · rename_i hl
      simp only [Option.some.injEq, Prod.mk.injEq] at h
      obtain ⟨rfl, rfl⟩ := h
      exact ⟨by simp [tens, hl], by simp [tens, hl], by simp, by simp⟩
  | .sum l =>
    simp only [pop, Option.map_eq_some_iff, Prod.mk.injEq] at h
    obtain ⟨⟨q, st⟩, h1, rfl, rfl⟩ := h
    exact popSum_aux lab l none [] [] q st ⟨by simp [tensL], by simp, by simp, by simp⟩ h1
  | .prod c l =>
    simp only [pop, Option.map_eq_some_iff, Prod.mk.injEq] at h
    obtain ⟨⟨q, st⟩, h1, rfl, rfl⟩ := h
    have := popProd_aux lab l none (1 * c, []) [] q st ⟨by simp [tensL], by simp, by simp, by simp⟩ h1
    exact ⟨fun t ht => this.left t (popFinish_tens st t ht), this.nil, this.one, this.all⟩
theorem popSum_aux (lab : L) (l : List (Ex K L ι)) (p : Option (Ten L ι)) (st : List (Ex K L ι)) (ts : List (Ten L ι))
    (q : Option (Ten L ι)) (st' : List (Ex K L ι)) (hp : Popped lab p ts (tensL st)) (h : popSum lab p st l = some (q, st')) :
    Popped lab q (ts ++ tensL l) (tensL st') := by
  match l with
  | [] =>
    simp only [popSum, Option.some.injEq, Prod.mk.injEq] at h
    obtain ⟨rfl, rfl⟩ := h
    simpa [tensL] using hp
  | e :: l =>
    simp only [popSum, Option.bind_eq_bind, Option.bind_eq_some_iff] at h
    obtain ⟨⟨r, e'⟩, h1, h⟩ := h
    split at h
    · rename_i hk
      have := popSum_aux lab l _ _ _ q st' (hp.step (pop_aux lab e r e' h1) (Or.inr hk) (sAppend_tens st e')) h
      simpa [tensL, List.append_assoc] using this
    · simp at h
theorem popProd_aux (lab : L) (l : List (Ex K L ι)) (p : Option (Ten L ι)) (st : K × List (Ex K L ι)) (ts : List (Ten L ι))
    (q : Option (Ten L ι)) (st' : K × List (Ex K L ι)) (hp : Popped lab p ts (tensL st.2)) (h : popProd lab p st l = some (q, st')) :
    Popped lab q (ts ++ tensL l) (tensL st'.2) := by
  match l with
  | [] =>
    simp only [popProd, Option.some.injEq, Prod.mk.injEq] at h
    obtain ⟨rfl, rfl⟩ := h
    simpa [tensL] using hp
  | e :: l =>
    simp only [popProd, Option.bind_eq_bind, Option.bind_eq_some_iff] at h
    obtain ⟨⟨r, e'⟩, h1, h⟩ := h
    split at h
    · rename_i hk
      have := popProd_aux lab l _ _ _ q st' (hp.step (pop_aux lab e r e' h1) hk (popFactor_tens st e')) h
      simpa [tensL, List.append_assoc] using this
    · simp at h
end

/-- **C65** (what is removed): whenever `pop_tensor` completes, no tensor with the label is left, it returns nothing exactly if there
was none, and otherwise the one tensor with that label: two that differ are never accepted. -/
theorem pop_removes (lab : L) (e : Ex K L ι) (p : Option (Ten L ι)) (e' : Ex K L ι) (h : pop lab e = some (p, e')) :
    Free lab e' ∧ (∀ t ∈ tens e', t ∈ tens e) ∧ (p = none ↔ Free lab e) ∧
      ∀ t, p = some t → t ∈ tens e ∧ t.label = lab ∧ ∀ u ∈ tens e, u.label = lab → u = t := by
  have H := pop_aux lab e p e' h
  refine ⟨fun t ht => (H.left t ht).2, fun t ht => (H.left t ht).1, ⟨fun hp => H.nil hp, fun hf => ?_⟩,
    fun t ht => ⟨(H.one t ht).1, (H.one t ht).2, H.all t ht⟩⟩
  cases p with
  | none => rfl
  | some t => exact absurd (H.one t rfl).2 (hf t (H.one t rfl).1)

/-! ### Values -/

theorem popFinish_ev (st : K × List (Ex K L ι)) (hne : st.2 ≠ []) (hc : ∀ f ∈ st.2, f.isC = false) :
    ev V T (popFinish st) = st.1 * evP V T st.2 ∧ (popFinish st).isC = false := by
  obtain ⟨c, l⟩ := st
  match l with
  | [] => simp at hne
  | [f] =>
    simp only [popFinish]
    split
    · rename_i h
      subst h
      exact ⟨by simp [evP], hc f (by simp)⟩
    · exact ⟨rfl, rfl⟩
  | a :: b :: l => exact ⟨rfl, rfl⟩

theorem free_cons {lab : L} {e : Ex K L ι} {l : List (Ex K L ι)} (h : ∀ t ∈ tensL (e :: l), t.label ≠ lab) :
    Free lab e ∧ ∀ t ∈ tensL l, t.label ≠ lab :=
  ⟨fun t ht => h t (by simp [tensL, ht]), fun t ht => h t (by simp [tensL, ht])⟩

mutual
theorem pop_free_aux (lab : L) (V : L → K) (T : Ten L ι → K) (e : Ex K L ι) (hw : Wf e) (hf : Free lab e) :
    ∃ e', pop lab e = some (none, e') ∧ ev V T e' = ev V T e ∧ (e.isC = false → e'.isC = false) := by
  match e with
  | .const c => exact ⟨_, rfl, rfl, id⟩
  | .var c => exact ⟨_, rfl, rfl, id⟩
  | .ten t => exact ⟨.ten t, by simp [pop, hf t (by simp [tens])], rfl, id⟩
  | .sum l =>
    obtain ⟨st, h1, h2⟩ := popSum_free_aux lab V T l [] (by simpa [Wf] using hw) (by simpa [Free, tens] using hf)
    exact ⟨.sum st, by simp [pop, h1], by simpa [ev, evS] using h2, fun _ => rfl⟩
  | .prod c l =>
    simp only [Wf] at hw
    obtain ⟨m, h1, h2, h3, h4⟩ := popProd_free_aux lab V T l none (1 * c) [] hw.2 (by simpa [Free, tens] using hf)
    have hl : m ≠ [] := by
      intro hm
      have := hw.1
      cases l with
      | nil => exact this rfl
      | cons a l => rw [hm] at h4; simp at h4
    obtain ⟨h5, h6⟩ := popFinish_ev (V := V) (T := T) (1 * c, [] ++ m) (by simpa using hl) (by simpa using h3)
    refine ⟨popFinish (1 * c, [] ++ m), by simp only [pop, h1, Option.map_some], ?_, fun _ => h6⟩
    rw [h5]; simp [ev, h2]
theorem popSum_free_aux (lab : L) (V : L → K) (T : Ten L ι → K) (l st : List (Ex K L ι)) (hw : WfS l)
    (hf : ∀ t ∈ tensL l, t.label ≠ lab) :
    ∃ st', popSum lab none st l = some (none, st') ∧ evS V T st' = evS V T st + evS V T l := by
  match l with
  | [] => exact ⟨st, rfl, by simp [evS]⟩
  | e :: l =>
    simp only [WfS] at hw
    obtain ⟨e', h1, h2, _⟩ := pop_free_aux lab V T e hw.1 (free_cons hf).1
    obtain ⟨st', h3, h4⟩ := popSum_free_aux lab V T l (sAppend st e') hw.2 (free_cons hf).2
    refine ⟨st', by simp [popSum, h1, keep, h3], ?_⟩
    rw [h4, sAppend_ev, h2, evS]; ring
theorem popProd_free_aux (lab : L) (V : L → K) (T : Ten L ι → K) (l : List (Ex K L ι)) (p : Option (Ten L ι)) (c : K)
    (fs : List (Ex K L ι)) (hw : WfP l) (hf : ∀ t ∈ tensL l, t.label ≠ lab) :
    ∃ m, popProd lab p (c, fs) l = some (p, (c, fs ++ m)) ∧ evP V T m = evP V T l ∧ (∀ f ∈ m, f.isC = false) ∧ m.length = l.length := by
  match l with
  | [] => exact ⟨[], by simp [popProd], rfl, by simp, rfl⟩
  | e :: l =>
    simp only [WfP] at hw
    obtain ⟨e', h1, h2, h0⟩ := pop_free_aux lab V T e hw.1.2 (free_cons hf).1
    have hc := h0 hw.1.1
    obtain ⟨m, h3, h4, h5, h6⟩ := popProd_free_aux lab V T l p c (fs ++ [e']) hw.2 (free_cons hf).2
    refine ⟨e' :: m, ?_, by simp [evP, h2, h4], by simpa using ⟨hc, h5⟩, by simp [h6]⟩
    have hk : keep p none = p := by cases p <;> rfl
    simp only [popProd, h1, Option.bind_eq_bind, Option.bind_some, hk, true_or, if_true, popFactor_no _ _ hc, h3]
    simp
end

/-- **C65, partial** (nothing to remove): the value does not change.  Missing: products without factors or with constants among the
factors (`pop_scalar_product`, `pop_zero_factor`). -/
theorem pop_free_partial (lab : L) (V : L → K) (T : Ten L ι → K) (e : Ex K L ι) (hw : Wf e) (hf : Free lab e) :
    ∃ e', pop lab e = some (none, e') ∧ ev V T e' = ev V T e := by
  obtain ⟨e', h1, h2, _⟩ := pop_free_aux lab V T e hw hf
  exact ⟨e', h1, h2⟩

theorem freeL_tens {lab : L} {l : List (Ex K L ι)} (h : ∀ f ∈ l, Free lab f) : ∀ t ∈ tensL l, t.label ≠ lab := by
  intro t ht
  obtain ⟨f, hf, h1⟩ := mem_tensL.1 ht
  exact h f hf t h1

mutual
theorem pop_once_aux (lab : L) (V : L → K) (T : Ten L ι → K) (t : Ten L ι) (ht : t.label = lab) (e : Ex K L ι) (hw : Wf e)
    (ho : Once lab t e) : ∃ e', pop lab e = some (some t, e') ∧ ev V T e = T t * ev V T e' ∧ e'.isC = false := by
  match e with
  | .const c => simp [Once] at ho
  | .var c => simp [Once] at ho
  | .ten t => simp [Once] at ho
  | .sum [] => simp [Once] at ho
  | .sum (e :: l) =>
    simp only [Once, OnceS] at ho
    simp only [Wf, WfS] at hw
    obtain ⟨e', h1, h2, _⟩ := pop_once_aux lab V T t ht e hw.1 ho.2.1
    obtain ⟨st, h3, h4⟩ := popSum_once_aux lab V T t ht l (sAppend [] e') hw.2 ho.2.2
    refine ⟨.sum st, by simp [pop, popSum, h1, keep, h3], ?_, rfl⟩
    rw [sAppend_ev, evS] at h4
    simp only [ev, evS]
    rw [h2, h4]; ring
  | .prod c l =>
    simp only [Once] at ho
    simp only [Wf] at hw
    obtain ⟨m, h1, h2, h3, h4⟩ := popProd_once_aux lab V T t ht l (1 * c) [] hw.2 ho.2
    have hl : m ≠ [] := by intro hm; rw [hm] at h4; simp at h4; omega
    obtain ⟨h5, h6⟩ := popFinish_ev (V := V) (T := T) (1 * c, [] ++ m) (by simpa using hl) (by simpa using h3)
    refine ⟨popFinish (1 * c, [] ++ m), by simp only [pop, h1, Option.map_some], ?_, h6⟩
    rw [h5]; simp only [ev, h2, List.nil_append]; ring
theorem popSum_once_aux (lab : L) (V : L → K) (T : Ten L ι → K) (t : Ten L ι) (ht : t.label = lab) (l st : List (Ex K L ι)) (hw : WfS l)
    (ho : OnceS lab t l) :
    ∃ st', popSum lab (some t) st l = some (some t, st') ∧ T t * evS V T st' = T t * evS V T st + evS V T l := by
  match l with
  | [] => exact ⟨st, rfl, by simp [evS]⟩
  | e :: l =>
    simp only [WfS] at hw
    simp only [OnceS] at ho
    obtain ⟨e', h1, h2, _⟩ := pop_once_aux lab V T t ht e hw.1 ho.1
    obtain ⟨st', h3, h4⟩ := popSum_once_aux lab V T t ht l (sAppend st e') hw.2 ho.2
    refine ⟨st', by simp [popSum, h1, keep, h3], ?_⟩
    rw [h4, sAppend_ev, evS, h2]; ring
theorem popProd_once_aux (lab : L) (V : L → K) (T : Ten L ι → K) (t : Ten L ι) (ht : t.label = lab) (l : List (Ex K L ι)) (c : K)
    (fs : List (Ex K L ι)) (hw : WfP l) (ho : OnceP lab t l) :
    ∃ m, popProd lab none (c, fs) l = some (some t, (c, fs ++ m)) ∧ evP V T l = T t * evP V T m ∧ (∀ f ∈ m, f.isC = false) ∧
      l.length ≤ m.length + 1 := by
  match l with
  | [] => simp [OnceP] at ho
  | e :: l =>
    simp only [WfP] at hw
    simp only [OnceP] at ho
    rcases ho with ⟨he | he, hr⟩ | ⟨he, hr⟩
    · subst he
      obtain ⟨m, h3, h4, h5, h6⟩ := popProd_free_aux lab V T l (some t) c fs hw.2 (freeL_tens hr)
      refine ⟨m, ?_, by simp [evP, ev, h4], h5, by simp [h6]⟩
      simp [popProd, pop, ht, keep, popFactor, h3]
    · obtain ⟨e', h1, h2, hc⟩ := pop_once_aux lab V T t ht e hw.1.2 he
      obtain ⟨m, h3, h4, h5, h6⟩ := popProd_free_aux lab V T l (some t) c (fs ++ [e']) hw.2 (freeL_tens hr)
      refine ⟨e' :: m, ?_, by simp only [evP, h2, h4]; ring, by simpa using ⟨hc, h5⟩, by simp [h6]⟩
      simp [popProd, h1, keep, popFactor_no _ _ hc, h3]
    · obtain ⟨e', h1, h2, h0⟩ := pop_free_aux lab V T e hw.1.2 he
      have hc := h0 hw.1.1
      obtain ⟨m, h3, h4, h5, h6⟩ := popProd_once_aux lab V T t ht l c (fs ++ [e']) hw.2 hr
      refine ⟨e' :: m, ?_, by simp only [evP, h2, h4]; ring, by simpa using ⟨hc, h5⟩, by simp; omega⟩
      simp [popProd, h1, keep, popFactor_no _ _ hc, h3]
end

/-- **C65, partial** (one tensor per term): the tensor is returned, and the value of the expression is the value of the tensor times
that of what remains.  Missing: terms that consist of the tensor alone, up to a factor, or contain it more than once; see the
refutations below. -/
theorem pop_once_partial (lab : L) (V : L → K) (T : Ten L ι → K) (t : Ten L ι) (ht : t.label = lab) (e : Ex K L ι) (hw : Wf e)
    (ho : Once lab t e) : ∃ e', pop lab e = some (some t, e') ∧ ev V T e = T t * ev V T e' := by
  obtain ⟨e', h1, h2, _⟩ := pop_once_aux lab V T t ht e hw ho
  exact ⟨e', h1, h2⟩

/-! ### Instances and refutations -/

end

namespace PopInst

abbrev X := Ex Int Nat Nat
def A : Ten Nat Nat := ⟨0, [1, 2], [3, 4], [], true⟩
def A' : Ten Nat Nat := ⟨0, [1, 2], [4, 3], [], true⟩
def g : Ten Nat Nat := ⟨1, [1, 2], [3, 4], [], true⟩
def t : Ten Nat Nat := ⟨2, [3, 4], [1, 2], [], true⟩
/-- Values: the operator 7, `g` 2, `t` 3. -/
def T (x : Ten Nat Nat) : Int := if x.label = 0 then 7 else if x.label = 1 then 2 else 3
def W (_ : Nat) : Int := 5

/-- `A g + 2 A (t + v) g`. -/
def e1 : X := .sum [.prod 1 [.ten A, .ten g], .prod 2 [.ten A, .sum [.ten t, .var 9], .ten g]]

def value (r : Option (Option (Ten Nat Nat) × X)) : Option (Option (Ten Nat Nat) × Int) := r.map fun r => (r.1, ev W T r.2)

example : Wf e1 ∧ Once 0 A e1 := by
  constructor
  · simp [e1, Wf, WfS, WfP, Ex.isC]
  · simp [e1, Once, OnceS, OnceP, Free, tens, tensL, A, g, t]

example : ∃ e', pop 0 e1 = some (some A, e') ∧ ev W T e1 = T A * ev W T e' :=
  pop_once_partial 0 W T A rfl e1 (by simp [e1, Wf, WfS, WfP, Ex.isC]) (by simp [e1, Once, OnceS, OnceP, Free, tens, tensL, A, g, t])

example : value (pop 0 e1) = some (some A, 34) ∧ ev W T e1 = 7 * 34 := by decide +kernel

example : ∃ e', pop 5 e1 = some (none, e') ∧ ev W T e' = ev W T e1 :=
  pop_free_partial 5 W T e1 (by simp [e1, Wf, WfS, WfP, Ex.isC]) (by simp [e1, Free, tens, tensL, A, g, t])

/-- Tensors that differ in their indices fail the assertion. -/
example : pop 0 (.sum [.prod 1 [.ten A, .ten g], .prod 1 [.ten A', .ten g]] : X) = none := by rfl

example : pop 0 (.prod 1 [.ten A, .ten A', .ten g] : X) = none := by rfl

end PopInst

open PopInst

/-- **C65 is false** for the tensor alone and for a multiple of it: what remains is 0 instead of the factor. -/
theorem pop_alone : value (pop 0 (.ten A)) = some (some A, 0) ∧ value (pop 0 (.prod 2 [.ten A])) = some (some A, 0) ∧
    ev W T (.ten A : X) ≠ T A * 0 ∧ ev W T (.prod 2 [.ten A] : X) ≠ T A * 0 := by decide +kernel

/-- A term consisting of the tensor alone disappears from a sum. -/
theorem pop_alone_term : value (pop 0 (.sum [.prod 1 [.ten A, .ten t], .ten A])) = some (some A, 3) ∧
    ev W T (.sum [.prod 1 [.ten A, .ten t], .ten A] : X) ≠ T A * 3 := by decide +kernel

/-- A tensor that occurs twice in a product is removed twice, and returned once. -/
theorem pop_twice : value (pop 0 (.prod 1 [.ten A, .ten A, .ten t])) = some (some A, 3) ∧
    ev W T (.prod 1 [.ten A, .ten A, .ten t] : X) ≠ T A * 3 := by decide +kernel

/-- Terms without the tensor are accepted before the first term that contains it, and fail the assertion after it. -/
theorem pop_order : value (pop 0 (.sum [.ten t, .prod 1 [.ten A, .ten g]])) = some (some A, 5) ∧
    ev W T (.sum [.ten t, .prod 1 [.ten A, .ten g]] : X) ≠ T A * 5 ∧
    pop 0 (.sum [.prod 1 [.ten A, .ten g], .ten t] : X) = none := by
  refine ⟨by decide +kernel, by decide +kernel, rfl⟩

/-- A product of a scalar and no factors becomes 0, although it does not contain the tensor. -/
theorem pop_scalar_product : value (pop 0 (.prod 2 [])) = some (none, 0) ∧ ev W T (.prod 2 [] : X) = 2 := by decide +kernel

/-- A factor 0 is dropped, although it does not come from a removed tensor (only in products built by editing factors, since
`Product::append` multiplies constants into the scalar). -/
theorem pop_zero_factor : value (pop 0 (.prod 1 [.const 0, .ten t])) = some (none, 3) ∧ ev W T (.prod 1 [.const 0, .ten t] : X) = 0 := by
  decide +kernel

end SeQuant.Rules
