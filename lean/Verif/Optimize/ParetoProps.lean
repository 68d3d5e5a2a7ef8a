import Verif.Optimize.ParetoModel
import Mathlib.Tactic.Linarith
import Mathlib.Data.List.Induction

/-!
# C32: a frontier holds exactly the non-dominated points, the first of equal ones, in order of insertion
-/

namespace SeQuant.Optimize

section

variable {P : Type} (peak flops : P → ℚ)

/-- `a` is at least as good as `b` in both respects. -/
def WDom (a b : P) : Prop := peak a ≤ peak b ∧ flops a ≤ flops b

/-- `a` is at least as good as `b` in both respects and better in one. -/
def SDom (a b : P) : Prop := WDom peak flops a b ∧ (peak a < peak b ∨ flops a < flops b)

instance (a b : P) : Decidable (WDom peak flops a b) := inferInstanceAs (Decidable (_ ∧ _))
instance (a b : P) : Decidable (SDom peak flops a b) := inferInstanceAs (Decidable (_ ∧ _))

/-- The points of `rest` that no point of the whole history `pre ++ rest` dominates strictly and that no earlier point equals. -/
def keep (pre : List P) : List P → List P
  | [] => []
  | p :: rest =>
    if (∃ q ∈ pre ++ p :: rest, SDom peak flops q p) ∨ (∃ q ∈ pre, peak q = peak p ∧ flops q = flops p) then keep (pre ++ [p]) rest
    else p :: keep (pre ++ [p]) rest

variable {peak flops}

theorem WDom.refl (a : P) : WDom peak flops a a := ⟨le_refl _, le_refl _⟩

theorem WDom.trans {a b c : P} (h : WDom peak flops a b) (h' : WDom peak flops b c) : WDom peak flops a c := ⟨h.1.trans h'.1, h.2.trans h'.2⟩

theorem WDom.cases {a b : P} (h : WDom peak flops a b) : SDom peak flops a b ∨ (peak a = peak b ∧ flops a = flops b) := by
  rcases lt_or_eq_of_le h.1 with h1 | h1
  · exact .inl ⟨h, .inl h1⟩
  · rcases lt_or_eq_of_le h.2 with h2 | h2
    · exact .inl ⟨h, .inr h2⟩
    · exact .inr ⟨h1, h2⟩

theorem SDom.not_wdom {a b : P} (h : SDom peak flops a b) : ¬ WDom peak flops b a := by
  rintro ⟨h1, h2⟩
  rcases h.2 with h3 | h3 <;> linarith

theorem SDom.of_wdom {a b c : P} (h : WDom peak flops a b) (h' : SDom peak flops b c) : SDom peak flops a c := by
  refine ⟨h.trans h'.1, ?_⟩
  rcases h'.2 with h3 | h3
  · exact .inl (lt_of_le_of_lt h.1 h3)
  · exact .inr (lt_of_le_of_lt h.2 h3)

theorem keep_subset (pre rest : List P) : ∀ x ∈ keep peak flops pre rest, x ∈ rest := by
  induction rest generalizing pre with
  | nil => simp [keep]
  | cons p rest ih =>
    intro x hx
    rw [keep] at hx
    split at hx
    · exact List.mem_cons_of_mem _ (ih _ x hx)
    · rcases List.mem_cons.mp hx with rfl | hx
      · simp
      · exact List.mem_cons_of_mem _ (ih _ x hx)

theorem keep_append (pre rest : List P) (p : P) : keep peak flops pre (rest ++ [p]) =
    ((keep peak flops pre rest).filter fun e => !decide (SDom peak flops p e)) ++
      (if ∃ q ∈ pre ++ rest, WDom peak flops q p then [] else [p]) := by
  induction rest generalizing pre with
  | nil =>
    simp only [List.nil_append, keep, List.filter_nil, List.append_nil]
    by_cases h : ∃ q ∈ pre, WDom peak flops q p
    · rw [if_pos h, if_pos]
      obtain ⟨q, hq, hw⟩ := h
      rcases hw.cases with h | h
      · exact .inl ⟨q, by simp [hq], h⟩
      · exact .inr ⟨q, hq, h⟩
    · rw [if_neg h, if_neg]
      rintro (⟨q, hq, hs⟩ | ⟨q, hq, h1, h2⟩)
      · simp only [List.mem_append, List.mem_singleton] at hq
        rcases hq with hq | rfl
        · exact h ⟨q, hq, hs.1⟩
        · exact hs.not_wdom hs.1
      · exact h ⟨q, hq, h1.le, h2.le⟩
  | cons x rest ih =>
    have hpre : ∀ y, y ∈ pre ++ [x] ++ rest ↔ y ∈ pre ++ x :: rest := by intro y; simp
    have hif : (∃ q ∈ pre ++ [x] ++ rest, WDom peak flops q p) ↔ (∃ q ∈ pre ++ x :: rest, WDom peak flops q p) := by
      simp only [hpre]
    rw [List.cons_append, keep, keep, ih]
    simp only [hif]
    by_cases h1 : (∃ q ∈ pre ++ x :: rest, SDom peak flops q x) ∨ ∃ q ∈ pre, peak q = peak x ∧ flops q = flops x
    · rw [if_pos h1, if_pos]
      rcases h1 with ⟨q, hq, hs⟩ | h
      · exact .inl ⟨q, by
          simp only [List.mem_append, List.mem_cons] at hq ⊢
          rcases hq with hq | hq | hq
          · exact .inl hq
          · exact .inr (.inl hq)
          · exact .inr (.inr (.inl hq)), hs⟩
      · exact .inr h
    · rw [if_neg h1]
      by_cases h2 : SDom peak flops p x
      · rw [if_pos (.inl ⟨p, by simp, h2⟩), List.filter_cons_of_neg (by simp [h2])]
      · rw [if_neg, List.filter_cons_of_pos (by simp [h2]), List.cons_append]
        rintro (⟨q, hq, hs⟩ | h)
        · simp only [List.mem_append, List.mem_cons, List.not_mem_nil, or_false] at hq
          rcases hq with hq | hq | hq | rfl
          · exact h1 (.inl ⟨q, by simp [hq], hs⟩)
          · exact h1 (.inl ⟨q, by simp [hq], hs⟩)
          · exact h1 (.inl ⟨q, by simp [hq], hs⟩)
          · exact h2 hs
        · exact h1 (.inr h)

theorem keep_covers (l : List P) : ∀ x ∈ l, ∃ y ∈ keep peak flops [] l, WDom peak flops y x := by
  induction l using List.reverseRecOn with
  | nil => simp
  | append_singleton l p ih =>
    intro x hx
    rw [keep_append]
    simp only [List.nil_append]
    by_cases h : ∃ q ∈ l, WDom peak flops q p
    · -- `p` is covered, and whatever `p` would remove is not there
      rw [if_pos h, List.append_nil]
      have old : ∀ x ∈ l, ∃ y ∈ (keep peak flops [] l).filter (fun e => !decide (SDom peak flops p e)), WDom peak flops y x := by
        intro x hx
        obtain ⟨y, hy, hw⟩ := ih x hx
        by_cases hs : SDom peak flops p y
        · -- then the point that covers `p` dominates `y` strictly; take a point that covers it
          obtain ⟨q, hq, hqp⟩ := h
          obtain ⟨z, hz, hzq⟩ := ih q hq
          refine ⟨z, ?_, ((hzq.trans hqp).trans hs.1).trans hw⟩
          rw [List.mem_filter]
          refine ⟨hz, ?_⟩
          simp only [Bool.not_eq_true', decide_eq_false_iff_not]
          intro hs'
          exact hs'.not_wdom (hzq.trans hqp)
        · exact ⟨y, List.mem_filter.mpr ⟨hy, by simp [hs]⟩, hw⟩
      rcases List.mem_append.mp hx with hx | hx
      · exact old x hx
      · rw [List.mem_singleton] at hx
        subst hx
        obtain ⟨q, hq, hqp⟩ := h
        obtain ⟨y, hy, hw⟩ := old q hq
        exact ⟨y, hy, hw.trans hqp⟩
    · rw [if_neg h]
      rcases List.mem_append.mp hx with hx | hx
      · obtain ⟨y, hy, hw⟩ := ih x hx
        by_cases hs : SDom peak flops p y
        · exact ⟨p, by simp, hs.1.trans hw⟩
        · exact ⟨y, List.mem_append_left _ (List.mem_filter.mpr ⟨hy, by simp [hs]⟩), hw⟩
      · rw [List.mem_singleton] at hx
        subst hx
        exact ⟨x, by simp, WDom.refl x⟩

theorem keep_nondom (l : List P) : ∀ y ∈ keep peak flops [] l, ∀ x ∈ l, ¬ SDom peak flops x y := by
  induction l using List.reverseRecOn with
  | nil => simp [keep]
  | append_singleton l p ih =>
    intro y hy x hx
    rw [keep_append] at hy
    simp only [List.nil_append] at hy
    rcases List.mem_append.mp hy with hy | hy
    · rw [List.mem_filter] at hy
      rcases List.mem_append.mp hx with hx | hx
      · exact ih y hy.1 x hx
      · rw [List.mem_singleton] at hx; subst hx
        simpa using hy.2
    · split at hy
      · simp at hy
      · rename_i h
        rw [List.mem_singleton] at hy
        subst hy
        intro hs
        rcases List.mem_append.mp hx with hx | hx
        · exact h ⟨x, hx, hs.1⟩
        · rw [List.mem_singleton] at hx
          subst hx; exact hs.not_wdom hs.1

/-- **C32**: whatever points are inserted, in whatever order, the frontier is the list of those that no inserted point dominates, in the order in which they
came, of equal ones the first. -/
theorem pareto_exact (l : List P) : l.foldl (paretoInsert peak flops) [] = keep peak flops [] l := by
  induction l using List.reverseRecOn with
  | nil => rfl
  | append_singleton l p ih =>
    rw [List.foldl_append, List.foldl_cons, List.foldl_nil, ih, keep_append]
    unfold paretoInsert
    simp only [List.nil_append]
    by_cases h : ∃ q ∈ l, WDom peak flops q p
    · obtain ⟨q, hq, hqp⟩ := h
      obtain ⟨y, hy, hyq⟩ := keep_covers (peak := peak) (flops := flops) l q hq
      rw [if_pos (List.any_eq_true.mpr ⟨y, hy, decide_eq_true (hyq.trans hqp)⟩), if_pos ⟨q, hq, hqp⟩, List.append_nil, List.filter_eq_self.mpr]
      intro e he
      simp only [Bool.not_eq_true', decide_eq_false_iff_not]
      intro hs
      exact keep_nondom l e he q hq (SDom.of_wdom hqp hs)
    · rw [if_neg h, if_neg]
      · congr 1
        apply List.filter_congr
        intro e he
        congr 1
        rw [decide_eq_decide]
        constructor
        · intro hw
          rcases WDom.cases (peak := peak) (flops := flops) hw with hs | ⟨h1, h2⟩
          · exact hs
          · exact absurd ⟨e, keep_subset _ _ e he, h1.symm.le, h2.symm.le⟩ h
        · exact fun hs => hs.1
      · intro hany
        rw [List.any_eq_true] at hany
        obtain ⟨e, he, hw⟩ := hany
        exact h ⟨e, keep_subset _ _ e he, of_decide_eq_true hw⟩

/-- **C32** (values): a pair of values is on the frontier iff some inserted point has it and no inserted point dominates it. -/
theorem pareto_values (l : List P) (a b : ℚ) :
    (∃ y ∈ l.foldl (paretoInsert peak flops) [], peak y = a ∧ flops y = b) ↔
    (∃ y ∈ l, peak y = a ∧ flops y = b) ∧ ∀ x ∈ l, peak x ≤ a → flops x ≤ b → peak x = a ∧ flops x = b := by
  rw [pareto_exact]
  constructor
  · rintro ⟨y, hy, rfl, rfl⟩
    refine ⟨⟨y, keep_subset _ _ y hy, rfl, rfl⟩, ?_⟩
    intro x hx h1 h2
    rcases WDom.cases (peak := peak) (flops := flops) (a := x) (b := y) ⟨h1, h2⟩ with hs | h
    · exact absurd hs (keep_nondom l y hy x hx)
    · exact h
  · rintro ⟨⟨y, hy, rfl, rfl⟩, h⟩
    obtain ⟨z, hz, hw⟩ := keep_covers (peak := peak) (flops := flops) l y hy
    exact ⟨z, hz, h z (keep_subset _ _ z hz) hw.1 hw.2⟩

/-- **C32** (no duplicates): different positions of the frontier are incomparable. -/
theorem pareto_antichain (l : List P) : (l.foldl (paretoInsert peak flops) []).Pairwise fun x y => ¬ WDom peak flops x y ∧ ¬ WDom peak flops y x := by
  induction l using List.reverseRecOn with
  | nil => exact List.Pairwise.nil
  | append_singleton l p ih =>
    rw [List.foldl_append, List.foldl_cons, List.foldl_nil]
    generalize hf : l.foldl (paretoInsert peak flops) [] = f at ih
    unfold paretoInsert
    by_cases h : (f.any fun e => decide (peak e ≤ peak p ∧ flops e ≤ flops p)) = true
    · rw [if_pos h]; exact ih
    · rw [if_neg h, List.pairwise_append]
      refine ⟨ih.filter _, List.pairwise_singleton _ _, ?_⟩
      intro x hx y hy
      rw [List.mem_singleton] at hy
      subst hy
      rw [List.mem_filter] at hx
      refine ⟨fun hw => h (List.any_eq_true.mpr ⟨x, hx.1, decide_eq_true hw⟩), ?_⟩
      have := hx.2
      simp only [Bool.not_eq_true', decide_eq_false_iff_not] at this
      exact this

/-- **C32** (selection): of a nonempty list, `pareto_best` is the first position with the least peak and, among those, the least flops. -/
theorem paretoBest_spec (f : List P) (hf : f ≠ []) : ∃ p, f[paretoBest peak flops f]? = some p ∧
    (∀ q ∈ f, peak p < peak q ∨ (peak p = peak q ∧ flops p ≤ flops q)) ∧
    ∀ i q, i < paretoBest peak flops f → f[i]? = some q → peak p < peak q ∨ (peak p = peak q ∧ flops p < flops q) := by
  have key : ∀ k, k + 1 ≤ f.length → ∃ p b, (List.range k).foldl (fun best i =>
      match f[i + 1]?, f[best]? with
      | some a, some b => if lexBetter peak flops a b then i + 1 else best
      | _, _ => best) 0 = b ∧ b ≤ k ∧ f[b]? = some p ∧
      (∀ i q, i ≤ k → f[i]? = some q → peak p < peak q ∨ (peak p = peak q ∧ flops p ≤ flops q)) ∧
      ∀ i q, i < b → f[i]? = some q → peak p < peak q ∨ (peak p = peak q ∧ flops p < flops q) := by
    intro k
    induction k with
    | zero =>
      intro hk
      refine ⟨f[0], 0, rfl, le_refl _, by simp, ?_, by omega⟩
      intro i q hi hq
      have : i = 0 := by omega
      subst this
      have : f[0] = q := by
        rw [List.getElem?_eq_getElem (by omega)] at hq
        simpa using hq
      exact .inr ⟨by rw [this], by rw [this]⟩
    | succ k ih =>
      intro hk
      obtain ⟨p, b, e, hb, hp, h1, h2⟩ := ih (by omega)
      rw [List.range_succ, List.foldl_append, e, List.foldl_cons, List.foldl_nil]
      have hx : f[k + 1]? = some (f[k + 1]'(by omega)) := List.getElem?_eq_getElem (by omega)
      generalize f[k + 1]'(by omega) = x at hx
      simp only [hx, hp]
      by_cases hl : lexBetter peak flops x p = true
      · rw [if_pos hl]
        have hl' : peak x < peak p ∨ (peak x = peak p ∧ flops x < flops p) := of_decide_eq_true hl
        have strict : ∀ i q, i ≤ k → f[i]? = some q → peak x < peak q ∨ (peak x = peak q ∧ flops x < flops q) := by
          intro i q hi hq
          rcases h1 i q hi hq with h | ⟨h, h'⟩ <;> rcases hl' with g | ⟨g, g'⟩
          · exact .inl (by linarith)
          · exact .inl (by linarith)
          · exact .inl (by linarith)
          · exact .inr ⟨g.trans h, by linarith⟩
        refine ⟨x, k + 1, rfl, le_refl _, hx, ?_, ?_⟩
        · intro i q hi hq
          rcases Nat.lt_or_ge k i with h | h
          · have : i = k + 1 := by omega
            subst this
            rw [hx] at hq
            simp only [Option.some.injEq] at hq
            subst hq
            exact .inr ⟨rfl, le_refl _⟩
          · rcases strict i q h hq with h | ⟨h, h'⟩
            · exact .inl h
            · exact .inr ⟨h, h'.le⟩
        · intro i q hi hq
          exact strict i q (by omega) hq
      · rw [if_neg hl]
        refine ⟨p, b, rfl, by omega, hp, ?_, h2⟩
        intro i q hi hq
        rcases Nat.lt_or_ge k i with h | h
        · have : i = k + 1 := by omega
          subst this
          rw [hx] at hq
          simp only [Option.some.injEq] at hq
          subst hq
          have hl' : ¬ (peak x < peak p ∨ (peak x = peak p ∧ flops x < flops p)) := fun h => hl (decide_eq_true h)
          rcases lt_trichotomy (peak p) (peak x) with g | g | g
          · exact .inl g
          · exact .inr ⟨g, by
              by_contra hc
              exact hl' (.inr ⟨g.symm, by linarith⟩)⟩
          · exact absurd (.inl g) hl'
        · exact h1 i q h hq
  have hpos : 0 < f.length := List.length_pos_of_ne_nil hf
  obtain ⟨p, b, e, hb, hp, h1, h2⟩ := key (f.length - 1) (by omega)
  have e' : paretoBest peak flops f = b := e
  rw [e']
  refine ⟨p, hp, ?_, h2⟩
  intro q hq
  obtain ⟨i, hi, rfl⟩ := List.mem_iff_getElem.mp hq
  exact h1 i _ (by omega) (List.getElem?_eq_getElem hi)

end

/-- Six insertions: dominated, equal and replaced points disappear. -/
example : ([(5, 5), (3, 7), (5, 5), (4, 4), (6, 1), (4, 9)] : List (ℚ × ℚ)).foldl (paretoInsert Prod.fst Prod.snd) [] = [(3, 7), (4, 4), (6, 1)] := by
  decide +kernel

example : paretoBest Prod.fst Prod.snd ([(4, 4), (3, 7), (3, 6), (3, 6)] : List (ℚ × ℚ)) = 2 := by decide +kernel

end SeQuant.Optimize
