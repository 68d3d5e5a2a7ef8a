import Verif.Optimize.CostProps
import Mathlib.Data.Finset.Max
import Mathlib.Algebra.BigOperators.Group.Finset.Piecewise
import Mathlib.Algebra.BigOperators.Ring.Finset
import Mathlib.Algebra.Order.BigOperators.Group.Finset

/-!
# C29: `operator<` of costs
-/

namespace SeQuant.Optimize

variable {σ : Type} [LinearOrder σ]

/-- Comparison of two entries together with their prefactors. -/
def Entry.below (a b : Entry σ) : Prop := a.lt b = true ∨ (a.isMax = b.isMax ∧ a.exps = b.exps ∧ a.pref < b.pref)

/-- Lexicographic comparison from the largest entries down; a proper prefix is smaller. -/
inductive LexBelow : List (Entry σ) → List (Entry σ) → Prop
  | nil {b l} : LexBelow [] (b :: l)
  | head {a b l l'} : a.below b → LexBelow (a :: l) (b :: l')
  | tail {a l l'} : LexBelow l l' → LexBelow (a :: l) (a :: l')

theorem ltLoop_lex : ∀ (l r : List (Entry σ)), (match ltLoop (l.zip r) with
    | some b => b
    | none => decide (l.length < r.length)) = true ↔ LexBelow l r := by
  intro l
  induction l with
  | nil =>
    intro r
    cases r with
    | nil => simp only [List.zip_nil_left, ltLoop]; simp; rintro ⟨⟩
    | cons b r => simp only [List.zip_nil_left, ltLoop]; simp; exact .nil
  | cons a l ih =>
    intro r
    cases r with
    | nil => simp only [List.zip_nil_right, ltLoop]; simp; rintro ⟨⟩
    | cons b r =>
      have hself : ∀ e : Entry σ, ¬ e.below e := by
        rintro e (h | ⟨-, -, h⟩)
        · rw [entry_lt_irrefl] at h; simp at h
        · exact absurd h (lt_irrefl _)
      simp only [List.zip_cons_cons, ltLoop]
      by_cases h1 : a.lt b = true
      · simp only [h1, if_true, true_iff]; exact .head (.inl h1)
      · by_cases h2 : a.eqv b = true
        · have h2' : a.isMax = b.isMax ∧ a.exps = b.exps := by simpa [Entry.eqv] using h2
          by_cases h3 : a.pref < b.pref
          · simp only [h1, h2, h3, if_true, Bool.false_eq_true, if_false, true_iff]
            exact .head (.inr ⟨h2'.1, h2'.2, h3⟩)
          · by_cases h4 : a.pref > b.pref
            · simp only [h1, h2, h3, h4, if_true, Bool.false_eq_true, if_false, false_iff]
              intro h
              cases h with
              | head h =>
                rcases h with h | ⟨-, -, h⟩
                · exact h1 h
                · exact h3 h
              | tail h => exact absurd h4 (lt_irrefl _)
            · have hab : a = b := by
                cases a; cases b
                simp only at h2' h3 h4 ⊢
                simp only [Entry.mk.injEq]
                exact ⟨h2'.2, le_antisymm (not_lt.mp h4) (not_lt.mp h3), h2'.1⟩
              simp only [h1, h2, h3, h4, if_true, Bool.false_eq_true, if_false]
              subst hab
              have := ih r
              simp only [List.length_cons, Nat.add_lt_add_iff_right]
              rw [this]
              constructor
              · exact .tail
              · intro h
                cases h with
                | head h => exact absurd h (hself a)
                | tail h => exact h
        · have h2' : ¬ (a.isMax = b.isMax ∧ a.exps = b.exps) := by
            intro h; exact h2 (by simpa [Entry.eqv] using h)
          simp only [h1, h2, Bool.false_eq_true, if_false, false_iff]
          intro h
          cases h with
          | head h =>
            rcases h with h | ⟨x, y, -⟩
            · exact h1 h
            · exact h2' ⟨x, y⟩
          | tail h => exact h2' ⟨rfl, rfl⟩

/-- **C29** (meaning of `operator<`): lexicographic from the largest entries down, whatever the sizes. -/
theorem cost_lt_iff (l r : Cost σ) : l.lt r = true ↔ LexBelow l.reverse r.reverse := by
  rw [← ltLoop_lex]
  simp only [Cost.lt, List.length_reverse]
  rfl

theorem Entry.below_irrefl (e : Entry σ) : ¬ e.below e := by
  rintro (h | ⟨-, -, h⟩)
  · rw [entry_lt_irrefl] at h; simp at h
  · exact absurd h (lt_irrefl _)

theorem entry_lt_congr_left {a b : Entry σ} (c : Entry σ) (h1 : a.isMax = b.isMax) (h2 : a.exps = b.exps) : a.lt c = b.lt c := by
  rw [Bool.eq_iff_iff, entry_lt_iff, entry_lt_iff, h1, h2]

theorem entry_lt_congr_right {a b : Entry σ} (c : Entry σ) (h1 : a.isMax = b.isMax) (h2 : a.exps = b.exps) : c.lt a = c.lt b := by
  rw [Bool.eq_iff_iff, entry_lt_iff, entry_lt_iff, h1, h2]

theorem Entry.below_trans {a b c : Entry σ} (h1 : a.below b) (h2 : b.below c) : a.below c := by
  rcases h1 with h1 | ⟨x1, x2, x3⟩ <;> rcases h2 with h2 | ⟨y1, y2, y3⟩
  · exact .inl (entry_lt_trans _ _ _ h1 h2)
  · exact .inl (by rw [← entry_lt_congr_right a y1 y2]; exact h1)
  · exact .inl (by rw [entry_lt_congr_left c x1 x2]; exact h2)
  · exact .inr ⟨x1.trans y1, x2.trans y2, x3.trans y3⟩

theorem LexBelow.irrefl (l : List (Entry σ)) : ¬ LexBelow l l := by
  induction l with
  | nil => rintro ⟨⟩
  | cons a l ih =>
    intro h
    cases h with
    | head h => exact Entry.below_irrefl a h
    | tail h => exact ih h

theorem LexBelow.trans {a b c : List (Entry σ)} (h1 : LexBelow a b) (h2 : LexBelow b c) : LexBelow a c := by
  induction h1 generalizing c with
  | nil => cases h2 <;> exact .nil
  | head h =>
    cases h2 with
    | head h' => exact .head (Entry.below_trans h h')
    | tail h' => exact .head h
  | tail h ih =>
    cases h2 with
    | head h' => exact .head h'
    | tail h' => exact .tail (ih h')

theorem LexBelow.total : ∀ (a b : List (Entry σ)), (∀ e ∈ a, e.OK) → (∀ e ∈ b, e.OK) → LexBelow a b ∨ LexBelow b a ∨ a = b := by
  intro a
  induction a with
  | nil => intro b _ _; cases b with
    | nil => exact .inr (.inr rfl)
    | cons => exact .inl .nil
  | cons x a ih =>
    intro b ha hb
    cases b with
    | nil => exact .inr (.inl .nil)
    | cons y b =>
      rcases entry_lt_total x y (ha x (by simp)) (hb y (by simp)) with h | h | ⟨h1, h2⟩
      · exact .inl (.head (.inl h))
      · exact .inr (.inl (.head (.inl h)))
      · rcases lt_trichotomy x.pref y.pref with h | h | h
        · exact .inl (.head (.inr ⟨h1, h2, h⟩))
        · have hxy : x = y := by
            cases x; cases y
            simp only at h1 h2 h ⊢
            simp [h1, h2, h]
          subst hxy
          rcases ih b (fun e he => ha e (by simp [he])) (fun e he => hb e (by simp [he])) with h | h | h
          · exact .inl (.tail h)
          · exact .inr (.inl (.tail h))
          · exact .inr (.inr (by rw [h]))
        · exact .inr (.inl (.head (.inr ⟨h1.symm, h2.symm, h⟩)))

/-- **C29** (order laws): `operator<` is a strict total order on well-formed costs. -/
theorem cost_lt_irrefl (a : Cost σ) : a.lt a = false := by
  rw [Bool.eq_false_iff, Ne, cost_lt_iff]; exact LexBelow.irrefl _

theorem cost_lt_trans (a b c : Cost σ) (h1 : a.lt b = true) (h2 : b.lt c = true) : a.lt c = true := by
  rw [cost_lt_iff] at *; exact h1.trans h2

theorem cost_lt_asymm (a b : Cost σ) (h : a.lt b = true) : b.lt a = false := by
  rw [Bool.eq_false_iff]; intro h'
  have := cost_lt_trans a b a h h'
  rw [cost_lt_irrefl] at this; simp at this

theorem cost_lt_total (a b : Cost σ) (ha : a.OK) (hb : b.OK) : a.lt b = true ∨ b.lt a = true ∨ a = b := by
  rw [cost_lt_iff, cost_lt_iff]
  rcases LexBelow.total a.reverse b.reverse (fun e he => ha.2 e (by simpa using he)) (fun e he => hb.2 e (by simpa using he)) with h | h | h
  · exact .inl h
  · exact .inr (.inl h)
  · exact .inr (.inr (List.reverse_injective h))

/-- **C29** (`==`): equality of costs is identity of the polynomials. -/
theorem cost_eqv_iff (a b : Cost σ) (ha : a.OK) (hb : b.OK) : a.eqv b = true ↔ a = b := by
  unfold Cost.eqv
  constructor
  · intro h
    simp only [Bool.and_eq_true, decide_eq_true_eq, Bool.not_eq_true', Bool.or_eq_false_iff] at h
    rcases cost_lt_total a b ha hb with h' | h' | h'
    · rw [h.2.1] at h'; simp at h'
    · rw [h.2.2] at h'; simp at h'
    · exact h'
  · rintro rfl; simp [cost_lt_irrefl]

/-- **C29** (the derived comparisons). -/
theorem cost_compare (a b : Cost σ) (ha : a.OK) (hb : b.OK) :
    (a.gt b = b.lt a) ∧ (a.le b = !b.lt a) ∧ (a.ge b = !a.lt b) := by
  have e := cost_eqv_iff a b ha hb
  have hne : a ≠ b → a.eqv b = false := fun h => by rw [Bool.eq_false_iff]; exact fun h' => h (e.mp h')
  rcases cost_lt_total a b ha hb with h | h | h
  · have h' := cost_lt_asymm a b h
    have : a ≠ b := by rintro rfl; rw [cost_lt_irrefl] at h; simp at h
    simp [Cost.gt, Cost.le, Cost.ge, h, h', hne this]
  · have h' := cost_lt_asymm b a h
    have : a ≠ b := by rintro rfl; rw [cost_lt_irrefl] at h; simp at h
    simp [Cost.gt, Cost.le, Cost.ge, h, h', hne this]
  · subst h
    have := e.mpr rfl
    simp [Cost.gt, Cost.le, Cost.ge, cost_lt_irrefl, this]

/-! ### Agreement with growth -/

/-- The extents of the spaces as powers of one parameter. -/
def extents (wt : σ → Nat) (n : Nat) : σ → ℚ := fun s => (n : ℚ) ^ wt s

/-- The power of the parameter in the value of a monomial. -/
def weight (wt : σ → Nat) (m : Exps σ) : Nat := (m.map fun kv => kv.2 * wt kv.1).sum

omit [LinearOrder σ] in
theorem entry_value (wt : σ → Nat) (n : Nat) (e : Entry σ) : e.ops (extents wt n) = e.pref * (n : ℚ) ^ weight wt e.exps := by
  have prodfold : ∀ (l : Exps σ) (t : ℚ), l.foldl (fun t kv => t * power (extents wt n kv.1) kv.2) t = t * (n : ℚ) ^ weight wt l := by
    intro l
    induction l with
    | nil => intro t; simp [weight]
    | cons a l ih =>
      intro t
      rw [List.foldl_cons, ih]
      simp only [weight, List.map_cons, List.sum_cons, power, extents]
      rw [pow_add, ← pow_mul, mul_comm (wt a.1)]; ring
  rw [Entry.ops, prodfold, one_mul]

omit [LinearOrder σ] in
/-- Terms of lower weight are dominated. -/
theorem value_bound (wt : σ → Nat) (L : Cost σ) (K : Nat) (h : ∀ e ∈ L, weight wt e.exps < K) :
    ∃ C : ℚ, ∀ n : Nat, 1 ≤ n → (n : ℚ) * L.value (extents wt n) ≤ C * (n : ℚ) ^ K ∧ - (C * (n : ℚ) ^ K) ≤ (n : ℚ) * L.value (extents wt n) := by
  induction L with
  | nil => exact ⟨0, fun n _ => by simp [Cost.value]⟩
  | cons e L ih =>
    obtain ⟨C, hC⟩ := ih fun e he => h e (by simp [he])
    refine ⟨|e.pref| + C, fun n hn => ?_⟩
    obtain ⟨c1, c2⟩ := hC n hn
    have hn' : (1 : ℚ) ≤ n := by exact_mod_cast hn
    have hk : (n : ℚ) * (n : ℚ) ^ weight wt e.exps ≤ (n : ℚ) ^ K := by
      rw [← pow_succ']
      exact pow_le_pow_right₀ hn' (h e (by simp))
    have hp : 0 ≤ (n : ℚ) * (n : ℚ) ^ weight wt e.exps := by positivity
    have a1 : e.pref ≤ |e.pref| := le_abs_self _
    have a2 : -|e.pref| ≤ e.pref := neg_abs_le _
    have a0 : 0 ≤ |e.pref| := abs_nonneg _
    simp only [Cost.value, List.map_cons, List.sum_cons] at c1 c2 ⊢
    rw [entry_value]
    have b1 : e.pref * ((n : ℚ) * (n : ℚ) ^ weight wt e.exps) ≤ |e.pref| * ((n : ℚ) * (n : ℚ) ^ weight wt e.exps) := mul_le_mul_of_nonneg_right a1 hp
    have b2 : -|e.pref| * ((n : ℚ) * (n : ℚ) ^ weight wt e.exps) ≤ e.pref * ((n : ℚ) * (n : ℚ) ^ weight wt e.exps) := mul_le_mul_of_nonneg_right a2 hp
    have b3 : |e.pref| * ((n : ℚ) * (n : ℚ) ^ weight wt e.exps) ≤ |e.pref| * (n : ℚ) ^ K := mul_le_mul_of_nonneg_left hk a0
    constructor
    · nlinarith
    · nlinarith

omit [LinearOrder σ] in
/-- A leading term with positive coefficient decides. -/
theorem eventually_pos (wt : σ → Nat) (L : Cost σ) (K : Nat) (p : ℚ) (hp : 0 < p) (h : ∀ e ∈ L, weight wt e.exps < K) :
    ∃ N : Nat, ∀ n, N ≤ n → 0 < p * (n : ℚ) ^ K + L.value (extents wt n) := by
  obtain ⟨C, hC⟩ := value_bound wt L K h
  obtain ⟨N, hN⟩ := exists_nat_gt (C / p)
  refine ⟨N + 1, fun n hn => ?_⟩
  obtain ⟨-, c2⟩ := hC n (by omega)
  have hn1 : (0 : ℚ) < n := by exact_mod_cast (by omega : 0 < n)
  have hn2 : C / p < n := lt_trans hN (by exact_mod_cast (by omega : N < n))
  have hn3 : C < p * n := by rw [div_lt_iff₀ hp] at hn2; linarith
  have hK : (0 : ℚ) < (n : ℚ) ^ K := by positivity
  have : 0 < (n : ℚ) * (p * (n : ℚ) ^ K + L.value (extents wt n)) := by nlinarith
  exact (mul_pos_iff_of_pos_left hn1).mp this

omit [LinearOrder σ] in
theorem value_reverse (x : σ → ℚ) (c : Cost σ) : Cost.value x c.reverse = c.value x := by
  simp [Cost.value, List.sum_reverse]

omit [LinearOrder σ] in
theorem value_neg (x : σ → ℚ) (c : Cost σ) : Cost.value x (c.map fun e => { e with pref := -e.pref }) = - c.value x := by
  induction c with
  | nil => simp [Cost.value]
  | cons e c ih =>
    simp only [Cost.value, List.map_cons, List.sum_cons, List.map_map] at ih ⊢
    rw [ih]
    simp only [Entry.ops]; ring

omit [LinearOrder σ] in
theorem value_append (x : σ → ℚ) (a b : Cost σ) : Cost.value x (a ++ b) = Cost.value x a + Cost.value x b := by
  simp [Cost.value]

/-- **C29** (growth): with positive prefactors and without the maximum, `a < b` means that `a` is eventually cheaper than
`b`, for every way of letting the extents grow that respects the order of the monomials involved. -/
theorem cost_lt_growth_partial (wt : σ → Nat) (a b : Cost σ) (ha : a.OK) (hb : b.OK)
    (pos : ∀ e ∈ b, 0 < e.pref)
    (compat : ∀ e ∈ a ++ b, ∀ f ∈ a ++ b, e.lt f = true → weight wt e.exps < weight wt f.exps)
    (hlt : a.lt b = true) : ∃ N : Nat, ∀ n, N ≤ n → a.value (extents wt n) < b.value (extents wt n) := by
  rw [cost_lt_iff] at hlt
  -- the reversed lists, which are sorted downwards
  have key : ∀ (u v : List (Entry σ)), LexBelow u v → u.Pairwise (fun x y => y.lt x = true) → v.Pairwise (fun x y => y.lt x = true) →
      (∀ e ∈ v, 0 < e.pref) → (∀ e ∈ u ++ v, ∀ f ∈ u ++ v, e.lt f = true → weight wt e.exps < weight wt f.exps) →
      ∃ N : Nat, ∀ n, N ≤ n → Cost.value (extents wt n) u < Cost.value (extents wt n) v := by
    intro u v h
    induction h with
    | @nil b l =>
      intro _ hv pos compat
      rw [List.pairwise_cons] at hv
      obtain ⟨N, hN⟩ := eventually_pos wt l (weight wt b.exps) b.pref (pos b (by simp)) (by
        intro e he
        exact compat e (by simp [he]) b (by simp) (hv.1 e he))
      refine ⟨N, fun n hn => ?_⟩
      have := hN n hn
      simp only [Cost.value, List.map_cons, List.sum_cons, entry_value, List.map_nil, List.sum_nil] at this ⊢
      exact this
    | @head x y l l' h =>
      intro hu hv pos compat
      rw [List.pairwise_cons] at hu hv
      rcases h with h | ⟨h1, h2, h3⟩
      · have hxy := compat x (by simp) y (by simp) h
        obtain ⟨N, hN⟩ := eventually_pos wt (l' ++ (x :: l).map fun e => { e with pref := -e.pref }) (weight wt y.exps) y.pref (pos y (by simp)) (by
          intro e he
          simp only [List.mem_append, List.mem_map] at he
          rcases he with he | ⟨f, hf, rfl⟩
          · exact compat e (by simp [he]) y (by simp) (hv.1 e he)
          · simp only [List.mem_cons] at hf
            rcases hf with rfl | hf
            · exact hxy
            · exact (compat f (by simp [hf]) x (by simp) (hu.1 f hf)).trans hxy)
        refine ⟨N, fun n hn => ?_⟩
        have := hN n hn
        rw [value_append, value_neg] at this
        have e1 : Cost.value (extents wt n) (y :: l') = y.pref * (n : ℚ) ^ weight wt y.exps + Cost.value (extents wt n) l' := by
          simp only [Cost.value, List.map_cons, List.sum_cons, entry_value]
        rw [e1]; linarith
      · obtain ⟨N, hN⟩ := eventually_pos wt (l' ++ l.map fun e => { e with pref := -e.pref }) (weight wt y.exps) (y.pref - x.pref) (by linarith) (by
          intro e he
          simp only [List.mem_append, List.mem_map] at he
          rcases he with he | ⟨f, hf, rfl⟩
          · exact compat e (by simp [he]) y (by simp) (hv.1 e he)
          · rw [← h2]; exact compat f (by simp [hf]) x (by simp) (hu.1 f hf))
        refine ⟨N, fun n hn => ?_⟩
        have := hN n hn
        rw [value_append, value_neg] at this
        have e1 : Cost.value (extents wt n) (y :: l') = y.pref * (n : ℚ) ^ weight wt y.exps + Cost.value (extents wt n) l' := by
          simp only [Cost.value, List.map_cons, List.sum_cons, entry_value]
        have e2 : Cost.value (extents wt n) (x :: l) = x.pref * (n : ℚ) ^ weight wt y.exps + Cost.value (extents wt n) l := by
          simp only [Cost.value, List.map_cons, List.sum_cons, entry_value, h2]
        rw [e1, e2]; linarith
    | @tail x l l' h ih =>
      intro hu hv pos compat
      rw [List.pairwise_cons] at hu hv
      obtain ⟨N, hN⟩ := ih hu.2 hv.2 (fun e he => pos e (by simp [he])) (by
        intro e he f hf
        refine compat e ?_ f ?_
        · simp only [List.mem_append, List.mem_cons] at he ⊢; tauto
        · simp only [List.mem_append, List.mem_cons] at hf ⊢; tauto)
      refine ⟨N, fun n hn => ?_⟩
      have := hN n hn
      simp only [Cost.value, List.map_cons, List.sum_cons] at this ⊢
      linarith
  obtain ⟨N, hN⟩ := key a.reverse b.reverse hlt (List.pairwise_reverse.mpr ha.1) (List.pairwise_reverse.mpr hb.1)
    (fun e he => pos e (by simpa using he))
    (fun e he f hf => compat e (by simpa using he) f (by simpa using hf))
  exact ⟨N, fun n hn => by have := hN n hn; rwa [value_reverse, value_reverse] at this⟩

/-! ### Such extents exist -/

theorem sum_expFor (m : Exps σ) (hm : m.Pairwise fun a b => a.1 < b.1) (T : Finset σ) (hT : ∀ kv ∈ m, kv.1 ∈ T) (g : σ → Nat) :
    (m.map fun kv => kv.2 * g kv.1).sum = ∑ s ∈ T, expFor m s * g s := by
  induction m with
  | nil => simp [expFor]
  | cons a m ih =>
    rw [List.pairwise_cons] at hm
    rw [List.map_cons, List.sum_cons, ih hm.2 fun kv hkv => hT kv (by simp [hkv])]
    have h0 : expFor m a.1 = 0 := expFor_outside _ _ fun kv hkv => ne_of_gt (hm.1 kv hkv)
    have : ∀ s, expFor (a :: m) s = (if a.1 = s then a.2 else 0) + expFor m s := by
      intro s
      rw [expFor_cons]
      split
      · rename_i h; rw [← h, h0]; omega
      · omega
    simp only [this, add_mul, Finset.sum_add_distrib, ite_mul, zero_mul]
    rw [Finset.sum_ite_eq T a.1 fun s => a.2 * g s, if_pos (hT a (by simp))]

theorem sum_lt_pow (r : σ → Nat) (D : Nat) (f : σ → Nat) : ∀ (T : Finset σ) (k : Nat), (∀ s ∈ T, ∀ t ∈ T, s < t → r s < r t) →
    (∀ s ∈ T, f s ≤ D) → (∀ s ∈ T, r s < k) → ∑ s ∈ T, f s * (D + 1) ^ r s < (D + 1) ^ k := by
  intro T
  induction T using Finset.induction_on_max with
  | empty => intro k _ _ _; simp
  | insert m T hmax ih =>
    intro k hr hf hk
    have hm : m ∉ T := fun h => lt_irrefl _ (hmax m h)
    rw [Finset.sum_insert hm]
    have h1 := ih (r m) (fun s hs t ht => hr s (by simp [hs]) t (by simp [ht])) (fun s hs => hf s (by simp [hs]))
      (fun s hs => hr s (by simp [hs]) m (by simp) (hmax s hs))
    have h2 := hf m (by simp)
    have h3 := hk m (by simp)
    calc f m * (D + 1) ^ r m + ∑ s ∈ T, f s * (D + 1) ^ r s
        < D * (D + 1) ^ r m + (D + 1) ^ r m := Nat.add_lt_add_of_le_of_lt (Nat.mul_le_mul_right _ h2) h1
      _ = (D + 1) ^ (r m + 1) := by rw [pow_succ]; ring
      _ ≤ (D + 1) ^ k := Nat.pow_le_pow_right (by omega) h3

theorem before_sum (r : σ → Nat) (D : Nat) (f g : σ → Nat) (T : Finset σ) (hr : ∀ s ∈ T, ∀ t ∈ T, s < t → r s < r t)
    (hf : ∀ s ∈ T, f s ≤ D) (hout : ∀ s, s ∉ T → f s = g s) (h : Before f g) :
    ∑ s ∈ T, f s * (D + 1) ^ r s < ∑ s ∈ T, g s * (D + 1) ^ r s := by
  obtain ⟨s, hs, habove⟩ := h
  have hsT : s ∈ T := by by_contra hn; have := hout s hn; omega
  have split : ∀ u : σ → Nat, ∑ t ∈ T, u t = ∑ t ∈ T.filter (· < s), u t + (u s + ∑ t ∈ T.filter (s < ·), u t) := by
    intro u
    rw [← Finset.sum_filter_add_sum_filter_not T (· < s)]
    congr 1
    have : T.filter (fun t => ¬ t < s) = insert s (T.filter (s < ·)) := by
      ext t
      simp only [Finset.mem_filter, Finset.mem_insert, not_lt]
      constructor
      · rintro ⟨h1, h2⟩
        rcases eq_or_lt_of_le h2 with h | h
        · exact .inl h.symm
        · exact .inr ⟨h1, h⟩
      · rintro (rfl | ⟨h1, h2⟩)
        · exact ⟨hsT, le_refl _⟩
        · exact ⟨h1, h2.le⟩
    rw [this, Finset.sum_insert (by simp)]
  rw [split, split]
  have e1 : ∑ t ∈ T.filter (s < ·), f t * (D + 1) ^ r t = ∑ t ∈ T.filter (s < ·), g t * (D + 1) ^ r t := by
    apply Finset.sum_congr rfl
    intro t ht
    rw [habove t (Finset.mem_filter.mp ht).2]
  have e2 : ∑ t ∈ T.filter (· < s), f t * (D + 1) ^ r t < (D + 1) ^ r s := by
    apply sum_lt_pow
    · intro a ha b hb
      exact hr a (Finset.mem_filter.mp ha).1 b (Finset.mem_filter.mp hb).1
    · intro a ha; exact hf a (Finset.mem_filter.mp ha).1
    · intro a ha; exact hr a (Finset.mem_filter.mp ha).1 s hsT (Finset.mem_filter.mp ha).2
  have e3 : f s * (D + 1) ^ r s + (D + 1) ^ r s ≤ g s * (D + 1) ^ r s := by
    have : f s + 1 ≤ g s := hs
    calc _ = (f s + 1) * (D + 1) ^ r s := by ring
      _ ≤ _ := Nat.mul_le_mul_right _ this
  rw [e1]
  omega

/-- **C29**: for any finite collection of monomials there are extents that respect their order (the tie-break by spaces is
the statement that later spaces are larger), so the hypothesis of `cost_lt_growth_partial` can always be met. -/
theorem compatible_exists (L : Cost σ) (hL : ∀ e ∈ L, e.OK ∧ e.isMax = false) :
    ∃ wt : σ → Nat, (∀ s, 1 ≤ wt s) ∧ (∀ e ∈ L, ∀ f ∈ L, e.lt f = true → weight wt e.exps < weight wt f.exps) := by
  classical
  let keys : List σ := L.flatMap fun e => e.exps.map Prod.fst
  let T : Finset σ := keys.toFinset
  let r : σ → Nat := fun s => (T.filter (· < s)).card
  let D : Nat := (L.map fun e => degree e.exps).sum
  let k : Nat := T.card + 1
  let W : Nat := (D + 1) ^ k
  have hkey : ∀ e ∈ L, ∀ kv ∈ e.exps, kv.1 ∈ T := by
    intro e he kv hkv
    simp only [T, keys, List.mem_toFinset, List.mem_flatMap, List.mem_map]
    exact ⟨e, he, kv, hkv, rfl⟩
  have hr : ∀ s ∈ T, ∀ t ∈ T, s < t → r s < r t := by
    intro s hs t _ hst
    apply Finset.card_lt_card
    rw [Finset.ssubset_iff_of_subset]
    · exact ⟨s, by simp [hs, hst], by simp⟩
    · intro x hx
      simp only [Finset.mem_filter] at hx ⊢
      exact ⟨hx.1, hx.2.trans hst⟩
  have hrk : ∀ s ∈ T, r s < k := by
    intro s _
    have := Finset.card_filter_le T (· < s)
    simp only [r, k]; omega
  have hdeg : ∀ e ∈ L, degree e.exps = ∑ s ∈ T, expFor e.exps s := by
    intro e he
    have := sum_expFor e.exps (hL e he).1.1.1 T (hkey e he) (fun _ => 1)
    simp only [mul_one] at this
    rw [← this]
    unfold degree
    have gen : ∀ (l : Exps σ) (n : Nat), l.foldl (fun s kv => s + kv.2) n = n + (l.map fun kv => kv.2).sum := by
      intro l
      induction l with
      | nil => simp
      | cons a l ih => intro n; rw [List.foldl_cons, ih, List.map_cons, List.sum_cons]; omega
    simpa using gen e.exps 0
  have hD : ∀ e ∈ L, degree e.exps ≤ D := by
    intro e he
    simp only [D]
    exact List.single_le_sum (by simp) _ (List.mem_map.mpr ⟨e, he, rfl⟩)
  have hfD : ∀ e ∈ L, ∀ s ∈ T, expFor e.exps s ≤ D := by
    intro e he s hs
    calc expFor e.exps s ≤ ∑ s ∈ T, expFor e.exps s := Finset.single_le_sum (f := fun s => expFor e.exps s) (fun _ _ => Nat.zero_le _) hs
      _ = degree e.exps := (hdeg e he).symm
      _ ≤ D := hD e he
  have hw : ∀ e ∈ L, weight (fun s => W + (D + 1) ^ r s) e.exps = W * degree e.exps + ∑ s ∈ T, expFor e.exps s * (D + 1) ^ r s := by
    intro e he
    rw [weight, sum_expFor e.exps (hL e he).1.1.1 T (hkey e he) (fun s => W + (D + 1) ^ r s), hdeg e he, Finset.mul_sum, ← Finset.sum_add_distrib]
    apply Finset.sum_congr rfl
    intro s _; ring
  refine ⟨fun s => W + (D + 1) ^ r s, ?_, ?_⟩
  · intro s
    have : 0 < (D + 1) ^ r s := Nat.pow_pos (by omega)
    show 1 ≤ W + (D + 1) ^ r s
    omega
  · intro e he f hf hlt
    rw [hw e he, hw f hf]
    rw [entry_lt_iff] at hlt
    have he' := (hL e he).2
    have hf' := (hL f hf).2
    rcases hlt with ⟨-, h⟩ | ⟨-, h | ⟨h1, h2⟩⟩
    · simp [hf'] at h
    · have := sum_lt_pow r D (expFor e.exps) T k hr (hfD e he) hrk
      have h' : W * (degree e.exps + 1) ≤ W * degree f.exps := Nat.mul_le_mul_left W h
      rw [mul_add, mul_one] at h'
      show _ < _
      have hW : W = (D + 1) ^ k := rfl
      omega
    · rw [h1]
      have := before_sum r D (expFor e.exps) (expFor f.exps) T hr (hfD e he) (by
        intro s hs
        rw [expFor_outside _ _ fun kv hkv => by rintro rfl; exact hs (hkey e he kv hkv),
          expFor_outside _ _ fun kv hkv => by rintro rfl; exact hs (hkey f hf kv hkv)]) h2
      omega

/-- **C29** (growth), packaged: comparing two positive finite costs predicts which is cheaper for large extents, for some
family of extents going to infinity in every space. -/
theorem cost_lt_eventually_partial (a b : Cost σ) (ha : a.OK) (hb : b.OK) (hma : ∀ e ∈ a, e.isMax = false) (hmb : ∀ e ∈ b, e.isMax = false)
    (pos : ∀ e ∈ b, 0 < e.pref) (hlt : a.lt b = true) :
    ∃ wt : σ → Nat, (∀ s, 1 ≤ wt s) ∧ ∃ N : Nat, ∀ n, N ≤ n → a.value (extents wt n) < b.value (extents wt n) := by
  obtain ⟨wt, w1, w2⟩ := compatible_exists (a ++ b) (by
    intro e he
    simp only [List.mem_append] at he
    rcases he with he | he
    · exact ⟨ha.2 e he, hma e he⟩
    · exact ⟨hb.2 e he, hmb e he⟩)
  exact ⟨wt, w1, cost_lt_growth_partial wt a b ha hb pos w2 hlt⟩

/-! ### Where it fails -/

/-- A one-space monomial `p · n^k`. -/
def mono (k : Nat) (p : ℚ) : Entry Nat := { exps := [(0, k)], pref := p, isMax := false }

/-- **C29 is false** for negative prefactors: zero is declared smaller than `-n`, which is smaller for every positive extent. -/
theorem negative_cost_order : Cost.lt ([] : Cost Nat) [mono 1 (-1)] = true ∧
    ∀ x : Nat → ℚ, 0 < x 0 → Cost.value x [mono 1 (-1)] < Cost.value x ([] : Cost Nat) := by
  refine ⟨by decide, fun x hx => ?_⟩
  simp [Cost.value, Entry.ops, mono, power]; exact hx

/-- **C29 is false** for multiples by zero: the result is not the zero cost and compares greater than it. -/
theorem scale_zero_not_zero : Cost.eqv (Cost.scale [mono 1 1] 0) ([] : Cost Nat) = false ∧ Cost.lt ([] : Cost Nat) (Cost.scale [mono 1 1] 0) = true ∧
    ∀ x : Nat → ℚ, Cost.value x (Cost.scale [mono 1 1] 0) = 0 := by
  refine ⟨by decide +kernel, by decide +kernel, fun x => by simp [Cost.value, Cost.scale, Entry.ops, mono]⟩

/-- The order needs the pairing from the large end: cut to the common length first, it would be cyclic. -/
theorem ltCut_cycle : Cost.ltCut [mono 1 1, mono 5 1] [mono 2 1] = true ∧ Cost.ltCut [mono 2 1] [mono 2 1, mono 3 1] = true ∧
    Cost.ltCut [mono 2 1, mono 3 1] [mono 1 1, mono 5 1] = true := by
  refine ⟨by decide +kernel, by decide +kernel, by decide +kernel⟩

example : Cost.lt [mono 2 1] [mono 1 1, mono 5 1] = true ∧ Cost.lt [mono 1 1, mono 5 1] [mono 2 1] = false := by
  refine ⟨by decide +kernel, by decide +kernel⟩

example : Cost.OK [mono 1 1, mono 5 (1/2)] := by
  refine ⟨by simp [mono]; decide, ?_⟩
  intro e he
  simp only [List.mem_cons, List.not_mem_nil, or_false] at he
  rcases he with rfl | rfl <;> simp [Entry.OK, ExpsOK, mono]

example : (Cost.add [mono 1 1, mono 5 (1/2)] [mono 5 (-1/2), mono 3 2]) = [mono 1 1, mono 3 2] := by decide +kernel

end SeQuant.Optimize
