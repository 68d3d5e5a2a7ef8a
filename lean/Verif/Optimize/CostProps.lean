import Verif.Optimize.CostModel
import Mathlib.Data.List.Sort
import Mathlib.Tactic.Ring
import Mathlib.Tactic.Linarith
import Mathlib.Algebra.Order.Archimedean.Basic
import Mathlib.Data.Rat.Floor

/-!
# C29: order, sum and product of asymptotic costs
-/

namespace SeQuant.Optimize

variable {σ : Type} [LinearOrder σ]

/-! ### The order of entries -/

/-- What the constructor and the set operations guarantee for exponents: sorted by space, no zero. -/
def ExpsOK (m : Exps σ) : Prop := m.Pairwise (fun a b => a.1 < b.1) ∧ ∀ kv ∈ m, kv.2 ≠ 0

def Entry.OK (e : Entry σ) : Prop := ExpsOK e.exps ∧ (e.isMax = true → e.exps = [])

/-- The mathematical order: total degree first, then the exponent of the largest space in which they differ. -/
def Before (f g : σ → Nat) : Prop := ∃ s, f s < g s ∧ ∀ s', s < s' → f s' = g s'

theorem insertSpace_mem (s t : σ) (l : List σ) : t ∈ insertSpace s l ↔ t = s ∨ t ∈ l := by
  induction l with
  | nil => simp [insertSpace]
  | cons a l ih =>
    unfold insertSpace
    split
    · simp
    · split
      · rename_i h; subst h; simp
      · simp only [List.mem_cons, ih]; tauto

theorem insertSpace_sorted (s : σ) (l : List σ) (h : l.Pairwise (· < ·)) : (insertSpace s l).Pairwise (· < ·) := by
  induction l with
  | nil => simp [insertSpace]
  | cons a l ih =>
    rw [List.pairwise_cons] at h
    unfold insertSpace
    split
    · rename_i hs
      rw [List.pairwise_cons, List.pairwise_cons]
      refine ⟨?_, h⟩
      intro x hx
      simp only [List.mem_cons] at hx
      rcases hx with rfl | hx
      · exact hs
      · exact hs.trans (h.1 x hx)
    · split
      · rw [List.pairwise_cons]; exact h
      · rename_i h1 h2
        rw [List.pairwise_cons]
        refine ⟨?_, ih h.2⟩
        intro x hx
        rw [insertSpace_mem] at hx
        rcases hx with rfl | hx
        · exact lt_of_le_of_ne (not_lt.mp h1) (Ne.symm h2)
        · exact h.1 x hx

theorem spaces_spec (m : Exps σ) : ∀ l : List σ, l.Pairwise (· < ·) →
    (m.foldl (fun l kv => insertSpace kv.1 l) l).Pairwise (· < ·) ∧
    ∀ s, s ∈ m.foldl (fun l kv => insertSpace kv.1 l) l ↔ s ∈ l ∨ ∃ kv ∈ m, kv.1 = s := by
  induction m with
  | nil => intro l h; simp [h]
  | cons a m ih =>
    intro l h
    obtain ⟨h1, h2⟩ := ih (insertSpace a.1 l) (insertSpace_sorted _ _ h)
    refine ⟨h1, fun s => ?_⟩
    rw [List.foldl_cons, h2, insertSpace_mem]
    simp only [List.mem_cons, exists_eq_or_imp]
    constructor
    · rintro ((rfl | h) | h)
      · exact .inr (.inl rfl)
      · exact .inl h
      · exact .inr (.inr h)
    · rintro (h | rfl | h)
      · exact .inl (.inr h)
      · exact .inl (.inl rfl)
      · exact .inr h

theorem lexLt_spec (f g : σ → Nat) (l : List σ) (h : l.Pairwise (· > ·)) (ho : ∀ s, s ∉ l → f s = g s) : lexLt f g l = true ↔ Before f g := by
  induction l with
  | nil =>
    simp only [lexLt, Bool.false_eq_true, false_iff]
    rintro ⟨s, hs, -⟩
    have := ho s (by simp); omega
  | cons a l ih =>
    rw [List.pairwise_cons] at h
    unfold lexLt
    by_cases hfg : f a = g a
    · simp only [ne_eq, hfg, not_true_eq_false, if_false]
      refine ih h.2 fun s hs => ?_
      by_cases hsa : s = a
      · rw [hsa]; exact hfg
      · exact ho s (by simp [hsa, hs])
    · simp only [ne_eq, hfg, not_false_eq_true, if_true, decide_eq_true_eq]
      have above : ∀ s', a < s' → f s' = g s' := by
        intro s' hs'
        apply ho
        simp only [List.mem_cons, not_or]
        exact ⟨ne_of_gt hs', fun hm => absurd (h.1 s' hm) (not_lt.mpr hs'.le)⟩
      constructor
      · intro hlt; exact ⟨a, hlt, above⟩
      · rintro ⟨s, hs, hs'⟩
        by_contra hn
        rcases lt_trichotomy s a with hsa | hsa | hsa
        · exact hfg (hs' a hsa)
        · rw [hsa] at hs; exact hn hs
        · have := above s hsa; omega

theorem expFor_outside (m : Exps σ) (s : σ) (h : ∀ kv ∈ m, kv.1 ≠ s) : expFor m s = 0 := by
  unfold expFor
  cases hf : m.find? fun kv => kv.1 = s with
  | none => rfl
  | some kv =>
    have h1 := List.mem_of_find?_eq_some hf
    have h2 := List.find?_some hf
    exact absurd (by simpa using h2) (h kv h1)

/-- **C29** (meaning of the order of entries). -/
theorem entry_lt_iff (a b : Entry σ) : a.lt b = true ↔
    (a.isMax = false ∧ b.isMax = true) ∨ (a.isMax = b.isMax ∧
      (degree a.exps < degree b.exps ∨ (degree a.exps = degree b.exps ∧ Before (expFor a.exps) (expFor b.exps)))) := by
  unfold Entry.lt
  by_cases hm : a.isMax = b.isMax
  · by_cases hd : degree a.exps = degree b.exps
    · simp only [ne_eq, hm, not_true_eq_false, if_false, hd]
      obtain ⟨h1, h2⟩ := spaces_spec (a.exps ++ b.exps) [] List.Pairwise.nil
      rw [lexLt_spec _ _ _ (List.pairwise_reverse.mpr h1)]
      · simp
      · intro s hs
        rw [List.mem_reverse, h2] at hs
        simp only [List.not_mem_nil, false_or, not_exists, not_and, List.mem_append] at hs
        rw [expFor_outside _ _ fun kv hkv => hs kv (.inl hkv), expFor_outside _ _ fun kv hkv => hs kv (.inr hkv)]
    · simp [hm, hd]
  · cases ha : a.isMax <;> cases hb : b.isMax <;> simp_all

theorem Before.irrefl (f : σ → Nat) : ¬ Before f f := by rintro ⟨s, h, -⟩; omega

theorem Before.trans {f g h : σ → Nat} (h1 : Before f g) (h2 : Before g h) : Before f h := by
  obtain ⟨s, s1, s2⟩ := h1
  obtain ⟨t, t1, t2⟩ := h2
  rcases lt_trichotomy s t with hst | hst | hst
  · exact ⟨t, by rw [s2 t hst]; exact t1, fun u hu => (s2 u (hst.trans hu)).trans (t2 u hu)⟩
  · subst hst; exact ⟨s, by omega, fun u hu => (s2 u hu).trans (t2 u hu)⟩
  · exact ⟨s, by rw [← t2 s hst]; exact s1, fun u hu => (s2 u hu).trans (t2 u (hst.trans hu))⟩

/-- **C29** (entries): a strict order. -/
theorem entry_lt_irrefl (a : Entry σ) : a.lt a = false := by
  rw [Bool.eq_false_iff, Ne, entry_lt_iff]
  rintro (⟨h1, h2⟩ | ⟨-, h | ⟨-, h⟩⟩)
  · simp [h1] at h2
  · omega
  · exact Before.irrefl _ h

theorem entry_lt_trans (a b c : Entry σ) (h1 : a.lt b = true) (h2 : b.lt c = true) : a.lt c = true := by
  rw [entry_lt_iff] at *
  rcases h1 with ⟨x, y⟩ | ⟨x, y⟩ <;> rcases h2 with ⟨z, w⟩ | ⟨z, w⟩
  · simp [y] at z
  · exact .inl ⟨x, z ▸ y⟩
  · exact .inl ⟨x.trans z, w⟩
  · refine .inr ⟨x.trans z, ?_⟩
    rcases y with y | ⟨y1, y2⟩ <;> rcases w with w | ⟨w1, w2⟩
    · exact .inl (y.trans w)
    · exact .inl (by omega)
    · exact .inl (by omega)
    · exact .inr ⟨y1.trans w1, y2.trans w2⟩

theorem expFor_cons (a : σ × Nat) (m : Exps σ) (s : σ) : expFor (a :: m) s = if a.1 = s then a.2 else expFor m s := by
  unfold expFor
  rw [List.find?_cons]
  by_cases h : a.1 = s <;> simp [h]

theorem expFor_ext {m m' : Exps σ} (h : ExpsOK m) (h' : ExpsOK m') (he : ∀ s, expFor m s = expFor m' s) : m = m' := by
  have low : ∀ (a : σ × Nat) (m : Exps σ), ExpsOK (a :: m) → expFor (a :: m) a.1 = a.2 ∧ a.2 ≠ 0 ∧ ∀ s, s < a.1 → expFor (a :: m) s = 0 := by
    intro a m hm
    refine ⟨by simp [expFor_cons], hm.2 a (by simp), fun s hs => ?_⟩
    apply expFor_outside
    intro kv hkv
    have hp := List.pairwise_cons.mp hm.1
    simp only [List.mem_cons] at hkv
    rcases hkv with rfl | hkv
    · exact ne_of_gt hs
    · exact ne_of_gt (hs.trans (hp.1 kv hkv))
  have tail : ∀ (a : σ × Nat) (m : Exps σ), ExpsOK (a :: m) → ExpsOK m ∧ expFor m a.1 = 0 := by
    intro a m hm
    have hp := List.pairwise_cons.mp hm.1
    exact ⟨⟨hp.2, fun kv hkv => hm.2 kv (by simp [hkv])⟩, expFor_outside _ _ fun kv hkv => ne_of_gt (hp.1 kv hkv)⟩
  induction m generalizing m' with
  | nil =>
    cases m' with
    | nil => rfl
    | cons b m' =>
      obtain ⟨p, q, -⟩ := low b m' h'
      have h0 : expFor ([] : Exps σ) b.1 = 0 := rfl
      have := he b.1
      omega
  | cons a m ih =>
    cases m' with
    | nil =>
      obtain ⟨p, q, -⟩ := low a m h
      have := he a.1
      have h0 : expFor ([] : Exps σ) a.1 = 0 := rfl
      omega
    | cons b m' =>
      obtain ⟨p1, p2, p3⟩ := low a m h
      obtain ⟨q1, q2, q3⟩ := low b m' h'
      have hab : a.1 = b.1 := by
        rcases lt_trichotomy a.1 b.1 with hl | hl | hl
        · have := q3 a.1 hl; have := he a.1; omega
        · exact hl
        · have := p3 b.1 hl; have := he b.1; omega
      have hab2 : a.2 = b.2 := by have := he a.1; rw [p1, hab, q1] at this; exact this
      have hab' : a = b := Prod.ext hab hab2
      subst hab'
      rw [ih (tail a m h).1 (tail a m' h').1]
      intro s
      have := he s
      rw [expFor_cons, expFor_cons] at this
      by_cases hs : a.1 = s
      · rw [← hs, (tail a m h).2, (tail a m' h').2]
      · simpa [hs] using this

/-- **C29** (entries): two entries that are not ordered have the same monomial. -/
theorem entry_lt_total (a b : Entry σ) (ha : a.OK) (hb : b.OK) : a.lt b = true ∨ b.lt a = true ∨ (a.isMax = b.isMax ∧ a.exps = b.exps) := by
  by_contra hn
  simp only [not_or] at hn
  obtain ⟨h1, h2, h3⟩ := hn
  rw [entry_lt_iff] at h1 h2
  have hm : a.isMax = b.isMax := by
    cases hx : a.isMax <;> cases hy : b.isMax <;> simp_all
  have hd : degree a.exps = degree b.exps := by
    rcases lt_trichotomy (degree a.exps) (degree b.exps) with h | h | h
    · exact absurd (.inr ⟨hm, .inl h⟩) h1
    · exact h
    · exact absurd (.inr ⟨hm.symm, .inl h⟩) h2
  refine h3 ⟨hm, ?_⟩
  apply expFor_ext ha.1 hb.1
  by_contra hne
  rw [not_forall] at hne
  -- the largest space in which they differ
  have b1 : ¬ Before (expFor a.exps) (expFor b.exps) := fun h => h1 (.inr ⟨hm, .inr ⟨hd, h⟩⟩)
  have b2 : ¬ Before (expFor b.exps) (expFor a.exps) := fun h => h2 (.inr ⟨hm.symm, .inr ⟨hd.symm, h⟩⟩)
  obtain ⟨s1, s2⟩ := spaces_spec (a.exps ++ b.exps) [] List.Pairwise.nil
  have out : ∀ s, s ∉ (List.foldl (fun l kv => insertSpace kv.1 l) [] (a.exps ++ b.exps)).reverse → expFor a.exps s = expFor b.exps s := by
    intro s hs
    rw [List.mem_reverse, s2] at hs
    simp only [List.not_mem_nil, false_or, not_exists, not_and, List.mem_append] at hs
    rw [expFor_outside _ _ fun kv hkv => hs kv (.inl hkv), expFor_outside _ _ fun kv hkv => hs kv (.inr hkv)]
  have l1 := lexLt_spec (expFor a.exps) (expFor b.exps) _ (List.pairwise_reverse.mpr s1) out
  have l2 := lexLt_spec (expFor b.exps) (expFor a.exps) _ (List.pairwise_reverse.mpr s1) fun s hs => (out s hs).symm
  have e1 := mt l1.mp b1
  have e2 := mt l2.mp b2
  have all : ∀ l : List σ, lexLt (expFor a.exps) (expFor b.exps) l ≠ true → lexLt (expFor b.exps) (expFor a.exps) l ≠ true →
      ∀ s ∈ l, expFor a.exps s = expFor b.exps s := by
    intro l
    induction l with
    | nil => simp
    | cons t l ih =>
      intro g1 g2 s hs
      unfold lexLt at g1 g2
      by_cases ht : expFor a.exps t = expFor b.exps t
      · simp only [ht, ne_eq, not_true_eq_false, if_false] at g1 g2
        simp only [List.mem_cons] at hs
        rcases hs with rfl | hs
        · exact ht
        · exact ih (by simpa using g1) (by simpa using g2) s hs
      · have ht' : ¬ expFor b.exps t = expFor a.exps t := fun h => ht h.symm
        simp only [ne_eq, ht, ht', not_false_eq_true, if_true, decide_eq_true_eq] at g1 g2
        omega
  obtain ⟨s, hs⟩ := hne
  by_cases hmem : s ∈ (List.foldl (fun l kv => insertSpace kv.1 l) [] (a.exps ++ b.exps)).reverse
  · exact hs (all _ e1 e2 s hmem)
  · exact hs (out s hmem)

/-! ### Sums and multiples -/

def Cost.OK (c : Cost σ) : Prop := c.Pairwise (fun a b => a.lt b = true) ∧ ∀ e ∈ c, e.OK

/-- The cost function of a cost without the maximum entry. -/
def Cost.value (x : σ → ℚ) (c : Cost σ) : ℚ := (c.map (Entry.ops x)).sum

omit [LinearOrder σ] in
theorem ops_eq (x : σ → ℚ) (c : Cost σ) : c.ops x = if c.any Entry.isMax then none else some (c.value x) := by
  have gen : ∀ (c : Cost σ), c.foldl (opsStep x) none = none ∧
      ∀ t : ℚ, c.foldl (opsStep x) (some t) = if c.any Entry.isMax then none else some (t + (c.map (Entry.ops x)).sum) := by
    intro c
    induction c with
    | nil => simp
    | cons e c ih =>
      refine ⟨ih.1, fun t => ?_⟩
      rw [List.foldl_cons]
      cases hm : e.isMax with
      | true => simp only [opsStep, hm, if_true, ih.1, List.any_cons, Bool.true_or]
      | false =>
        have : opsStep x (some t) e = some (t + e.ops x) := by simp [opsStep, hm]
        rw [this, ih.2]
        simp [hm, add_assoc]
  unfold Cost.ops Cost.value
  rw [(gen c).2 0]
  simp

omit [LinearOrder σ] in
theorem entry_ops_add (x : σ → ℚ) (e c : Entry σ) (h : e.exps = c.exps) : Entry.ops x { e with pref := e.pref + c.pref } = e.ops x + c.ops x := by
  simp only [Entry.ops, h]; ring

theorem add1_value (x : σ → ℚ) (d : Cost σ) (c : Entry σ) (hd : ∀ e ∈ d, e.OK) (hc : c.OK) : (Cost.add1 d c).value x = d.value x + c.ops x := by
  induction d with
  | nil => simp [Cost.add1, Cost.value]
  | cons e d ih =>
    unfold Cost.add1
    by_cases h1 : e.lt c = true
    · simp only [h1, if_true]
      have := ih fun e he => hd e (by simp [he])
      simp only [Cost.value, List.map_cons, List.sum_cons] at this ⊢
      rw [this]; ring
    · by_cases h2 : c.lt e = true
      · simp only [h1, h2, Bool.false_eq_true, if_false, if_true]
        simp only [Cost.value, List.map_cons, List.sum_cons]; ring
      · simp only [h1, h2, Bool.false_eq_true, if_false]
        have hx : e.exps = c.exps := by
          rcases entry_lt_total e c (hd e (by simp)) hc with h | h | h
          · exact absurd h h1
          · exact absurd h h2
          · exact h.2
        have hs := entry_ops_add x e c hx
        split
        · rename_i h0
          simp only [h0, Entry.ops, zero_mul] at hs
          simp only [Cost.value, List.map_cons, List.sum_cons, Entry.ops] at *
          linarith
        · simp only [Cost.value, List.map_cons, List.sum_cons, hs]; ring

theorem add1_ok (d : Cost σ) (c : Entry σ) (hd : Cost.OK d) (hc : c.OK) : Cost.OK (Cost.add1 d c) ∧
    ∀ a ∈ Cost.add1 d c, a.lt c = true ∨ (a.isMax = c.isMax ∧ a.exps = c.exps) ∨ a ∈ d := by
  induction d with
  | nil => simpa [Cost.add1, Cost.OK] using hc
  | cons e d ih =>
    obtain ⟨hp, hok⟩ := hd
    rw [List.pairwise_cons] at hp
    have hdok : Cost.OK d := ⟨hp.2, fun a ha => hok a (by simp [ha])⟩
    unfold Cost.add1
    by_cases h1 : e.lt c = true
    · simp only [h1, if_true]
      obtain ⟨⟨i1, i2⟩, i3⟩ := ih hdok
      refine ⟨⟨?_, ?_⟩, ?_⟩
      · rw [List.pairwise_cons]
        refine ⟨fun a ha => ?_, i1⟩
        -- every element of the new tail is an old one or equivalent to `c`
        have key : ∀ (d : Cost σ), (∀ a ∈ d, e.lt a = true) → ∀ a ∈ Cost.add1 d c, e.lt a = true := by
          intro d
          induction d with
          | nil => intro _ a ha; simp only [Cost.add1, List.mem_singleton] at ha; rw [ha]; exact h1
          | cons f d ihd =>
            intro hf a ha
            unfold Cost.add1 at ha
            have hf' : ∀ a ∈ d, e.lt a = true := fun a ha => hf a (by simp [ha])
            split at ha
            · simp only [List.mem_cons] at ha
              rcases ha with rfl | ha
              · exact hf a (by simp)
              · exact ihd hf' a ha
            · split at ha
              · simp only [List.mem_cons] at ha
                rcases ha with rfl | rfl | ha
                · exact h1
                · exact hf a (by simp)
                · exact hf' a ha
              · split at ha
                · exact hf' a ha
                · simp only [List.mem_cons] at ha
                  rcases ha with rfl | ha
                  · have := hf f (by simp)
                    rw [entry_lt_iff] at this ⊢
                    exact this
                  · exact hf' a ha
        exact key d hp.1 a ha
      · intro a ha
        simp only [List.mem_cons] at ha
        rcases ha with rfl | ha
        · exact hok a (by simp)
        · exact i2 a ha
      · intro a ha
        simp only [List.mem_cons] at ha ⊢
        rcases ha with rfl | ha
        · exact .inl h1
        · rcases i3 a ha with h | h | h
          · exact .inl h
          · exact .inr (.inl h)
          · exact .inr (.inr (.inr h))
    · by_cases h2 : c.lt e = true
      · simp only [h1, h2, Bool.false_eq_true, if_false, if_true]
        refine ⟨⟨?_, ?_⟩, ?_⟩
        · rw [List.pairwise_cons, List.pairwise_cons]
          refine ⟨fun a ha => ?_, hp⟩
          simp only [List.mem_cons] at ha
          rcases ha with rfl | ha
          · exact h2
          · exact entry_lt_trans _ _ _ h2 (hp.1 a ha)
        · intro a ha
          simp only [List.mem_cons] at ha
          rcases ha with rfl | rfl | ha
          · exact hc
          · exact hok a (by simp)
          · exact hok a (by simp [ha])
        · intro a ha
          simp only [List.mem_cons] at ha ⊢
          rcases ha with rfl | ha
          · exact .inr (.inl ⟨rfl, rfl⟩)
          · exact .inr (.inr ha)
      · simp only [h1, h2, Bool.false_eq_true, if_false]
        have hx : e.isMax = c.isMax ∧ e.exps = c.exps := by
          rcases entry_lt_total e c (hok e (by simp)) hc with h | h | h
          · exact absurd h h1
          · exact absurd h h2
          · exact h
        split
        · exact ⟨hdok, fun a ha => .inr (.inr (by simp [ha]))⟩
        · refine ⟨⟨?_, ?_⟩, ?_⟩
          · rw [List.pairwise_cons]
            refine ⟨fun a ha => ?_, hp.2⟩
            have := hp.1 a ha
            rw [entry_lt_iff] at this ⊢
            exact this
          · intro a ha
            simp only [List.mem_cons] at ha
            rcases ha with rfl | ha
            · exact hok e (by simp)
            · exact hok a (by simp [ha])
          · intro a ha
            simp only [List.mem_cons] at ha ⊢
            rcases ha with rfl | ha
            · exact .inr (.inl hx)
            · exact .inr (.inr (.inr ha))

/-- **C29** (sum): the sum of two costs is a well-formed cost and denotes the sum of the cost functions. -/
theorem add_correct (l r : Cost σ) (hl : l.OK) (hr : r.OK) : (l.add r).OK ∧ ∀ x, (l.add r).value x = l.value x + r.value x := by
  unfold Cost.add
  have hr' : ∀ e ∈ r, e.OK := hr.2
  clear hr
  induction r generalizing l with
  | nil => exact ⟨hl, fun x => by simp [Cost.value]⟩
  | cons e r ih =>
    have he := hr' e (by simp)
    obtain ⟨i1, i2⟩ := ih (Cost.add1 l e) (add1_ok l e hl he).1 fun a ha => hr' a (by simp [ha])
    refine ⟨i1, fun x => ?_⟩
    rw [List.foldl_cons, i2, add1_value x l e hl.2 he]
    simp only [Cost.value, List.map_cons, List.sum_cons]; ring

/-- **C29** (multiples): a multiple of a cost denotes the multiple of the cost function. -/
theorem scale_correct (c : Cost σ) (q : ℚ) (hc : c.OK) : (c.scale q).OK ∧ ∀ x, (c.scale q).value x = c.value x * q := by
  refine ⟨⟨?_, ?_⟩, fun x => ?_⟩
  · unfold Cost.scale
    rw [List.pairwise_map]
    refine hc.1.imp ?_
    intro a b h
    rw [entry_lt_iff] at h ⊢
    exact h
  · intro e he
    simp only [Cost.scale, List.mem_map] at he
    obtain ⟨a, ha, rfl⟩ := he
    exact hc.2 a ha
  · simp only [Cost.value, Cost.scale, List.map_map]
    clear hc
    induction c with
    | nil => simp
    | cons e c ih =>
      simp only [List.map_cons, List.sum_cons, ih, add_mul]
      congr 1
      simp only [Function.comp, Entry.ops]; ring

/-- **C29** (difference and quotient). -/
theorem sub_correct (l r : Cost σ) (hl : l.OK) (hr : r.OK) : (l.sub r).OK ∧ ∀ x, (l.sub r).value x = l.value x - r.value x := by
  obtain ⟨s1, s2⟩ := scale_correct r (-1) hr
  obtain ⟨a1, a2⟩ := add_correct l (r.scale (-1)) hl s1
  exact ⟨a1, fun x => by rw [Cost.sub, a2, s2]; ring⟩

theorem div_correct (c : Cost σ) (q : ℚ) (hc : c.OK) : ∀ x, (c.div q).value x = c.value x / q := by
  intro x; rw [Cost.div, (scale_correct c (1 / q) hc).2]; ring

/-- **C29** (construction): a cost denotes prefactor times product of powers of extents, provided some exponent is not zero. -/
theorem make_correct_partial (e : Exps σ) (p : ℚ) (he : e.Pairwise fun a b => a.1 < b.1) : (Cost.make e p).OK ∧
    ((∃ kv ∈ e, kv.2 ≠ 0) → ∀ x, (Cost.make e p).value x = p * (e.map fun kv => x kv.1 ^ kv.2).prod) := by
  have prodfold : ∀ (l : Exps σ) (x : σ → ℚ) (t : ℚ), l.foldl (fun t kv => t * power (x kv.1) kv.2) t = t * (l.map fun kv => x kv.1 ^ kv.2).prod := by
    intro l x
    induction l with
    | nil => intro t; simp
    | cons a l ih => intro t; rw [List.foldl_cons, ih, List.map_cons, List.prod_cons, power]; ring
  have prodfilter : ∀ (l : Exps σ) (x : σ → ℚ), ((l.filter fun kv => kv.2 ≠ 0).map fun kv => x kv.1 ^ kv.2).prod = (l.map fun kv => x kv.1 ^ kv.2).prod := by
    intro l x
    induction l with
    | nil => simp
    | cons a l ih =>
      rw [List.filter_cons]
      by_cases ha : a.2 = 0
      · simp only [ha, ne_eq, not_true_eq_false, decide_false, Bool.false_eq_true, if_false, ih, List.map_cons, List.prod_cons, pow_zero, one_mul]
      · simp only [ha, ne_eq, not_false_eq_true, decide_true, if_true, List.map_cons, List.prod_cons, ih]
  unfold Cost.make Cost.ofEntry Entry.make
  by_cases h0 : p = 0 ∨ e.filter (fun kv => kv.2 ≠ 0) = []
  · simp only [h0, if_true, Entry.isZero]
    refine ⟨by simp [Cost.OK], ?_⟩
    rintro ⟨kv, hk, hk2⟩ x
    rcases h0 with rfl | h0
    · simp [Cost.value]
    · rw [List.filter_eq_nil_iff] at h0
      have := h0 kv hk
      simp [hk2] at this
  · simp only [h0, if_false, Entry.isZero]
    simp only [not_or] at h0
    have : (List.filter (fun kv : σ × Nat => decide (kv.2 ≠ 0)) e).isEmpty = false := by
      simp only [List.isEmpty_eq_false_iff]; exact h0.2
    simp only [this, Bool.and_false, Bool.false_and, Bool.not_false, if_true]
    refine ⟨⟨by simp, ?_⟩, fun _ x => ?_⟩
    · intro a ha
      simp only [List.mem_singleton] at ha
      subst ha
      refine ⟨⟨he.filter _, fun kv hkv => ?_⟩, by simp⟩
      simpa using (List.mem_filter.mp hkv).2
    · simp only [Cost.value, List.map_cons, List.map_nil, List.sum_cons, List.sum_nil, add_zero, Entry.ops]
      rw [prodfold, prodfilter, one_mul]

omit [LinearOrder σ] in
/-- **C29 is false** for constants: a cost that does not depend on any extent counts as nothing. -/
theorem constant_dropped (p : ℚ) : (Cost.make ([] : Exps σ) p).value (fun _ => 1) = 0 := by
  unfold Cost.make Cost.ofEntry Entry.make
  simp [Entry.isZero, Cost.value]

/-- The maximum is greater than every other entry, and any sum with it is infinite unless a maximum is subtracted. -/
theorem max_top (e : Entry σ) (h : e.isMax = false) : e.lt Entry.max = true := by rw [entry_lt_iff]; exact .inl ⟨h, rfl⟩

theorem max_minus_max : (Cost.max : Cost σ).sub Cost.max = [] := by
  unfold Cost.sub Cost.add Cost.scale Cost.max Cost.ofEntry Entry.max
  simp only [Entry.isZero, Bool.not_true, Bool.false_and, Bool.not_false, if_true, List.map_cons, List.map_nil, List.foldl_cons, List.foldl_nil, Cost.add1]
  rw [if_neg, if_neg, if_pos]
  · norm_num
  · intro h; rw [entry_lt_iff] at h
    rcases h with ⟨h, -⟩ | ⟨-, h | ⟨-, h⟩⟩
    · simp at h
    · simp at h
    · exact Before.irrefl _ h
  · intro h; rw [entry_lt_iff] at h
    rcases h with ⟨h, -⟩ | ⟨-, h | ⟨-, h⟩⟩
    · simp at h
    · simp at h
    · exact Before.irrefl _ h

end SeQuant.Optimize
