import Verif.Wk.Model
import Verif.Biorth.Spin
import Verif.Biorth.Project
import Mathlib.GroupTheory.GroupAction.Basic
import Mathlib.Tactic.Linarith
import Mathlib.Tactic.Positivity
import Mathlib.Tactic.Ring
import Mathlib.Tactic.NormNum

/-!
# C124: which terms are kept, and when the projection brings the others back
-/

namespace SeQuant.Wk

open Equiv (Perm)
open SeQuant.Biorth (Projector conv ov cycles Class Even)

variable {K τ : Type}

/-! ## What is kept -/

section kept

variable [DecidableEq K] [DecidableEq τ]

/-- The summands of a result. -/
def summands : Ex K τ → List (Summand K τ)
  | .sum l => l
  | .single s => [s]

/-- The terms with one hash value and the largest coefficients. -/
def best (mod : K → ℚ) (hash : τ → Nat) (p : List (K × τ)) (k : Nat) : List (K × τ) :=
  p.filter fun s => decide (hash s.2 = k ∧ ∀ s' ∈ p, hash s'.2 = k → mod s'.1 ≤ mod s.1)

omit [DecidableEq K] [DecidableEq τ] in
theorem mem_best {mod : K → ℚ} {hash : τ → Nat} {p : List (K × τ)} {k : Nat} {s : K × τ} :
    s ∈ best mod hash p k ↔ s ∈ p ∧ hash s.2 = k ∧ ∀ s' ∈ p, hash s'.2 = k → mod s'.1 ≤ mod s.1 := by
  simp [best, List.mem_filter]

omit [DecidableEq K] [DecidableEq τ] in
theorem best_nil_iff (mod : K → ℚ) (hash : τ → Nat) (p : List (K × τ)) (k : Nat) : best mod hash p k = [] ↔ ∀ s ∈ p, hash s.2 ≠ k := by
  constructor
  · intro h s hs hk
    have : ∃ m ∈ p.filter (fun s => decide (hash s.2 = k)), ∀ s' ∈ p.filter (fun s => decide (hash s.2 = k)), mod s'.1 ≤ mod m.1 := by
      have hne : p.filter (fun s => decide (hash s.2 = k)) ≠ [] := by
        intro e
        have : s ∈ p.filter (fun s => decide (hash s.2 = k)) := List.mem_filter.mpr ⟨hs, by simpa using hk⟩
        rw [e] at this
        cases this
      generalize p.filter (fun s => decide (hash s.2 = k)) = q at hne
      induction q with
      | nil => exact absurd rfl hne
      | cons a q ih =>
        cases q with
        | nil => exact ⟨a, by simp, by simp⟩
        | cons b q =>
          obtain ⟨m, hm, hmax⟩ := ih (by simp)
          by_cases hle : mod m.1 ≤ mod a.1
          · refine ⟨a, by simp, fun s' hs' => ?_⟩
            rcases List.mem_cons.mp hs' with rfl | h'
            · exact le_refl _
            · exact le_trans (hmax s' h') hle
          · refine ⟨m, List.mem_cons_of_mem _ hm, fun s' hs' => ?_⟩
            rcases List.mem_cons.mp hs' with rfl | h'
            · exact le_of_lt (not_le.mp hle)
            · exact hmax s' h'
    obtain ⟨m, hm, hmax⟩ := this
    rw [List.mem_filter] at hm
    have : m ∈ best mod hash p k := mem_best.mpr ⟨hm.1, by simpa using hm.2, fun s' hs' hk' => hmax s' (List.mem_filter.mpr ⟨hs', by simpa using hk'⟩)⟩
    rw [h] at this
    cases this
  · intro h
    rw [List.eq_nil_iff_forall_not_mem]
    intro s hs
    exact h s (mem_best.mp hs).1 (mem_best.mp hs).2.1

omit [DecidableEq K] [DecidableEq τ] in
theorem best_other (mod : K → ℚ) (hash : τ → Nat) (p : List (K × τ)) (s : K × τ) (k : Nat) (h : hash s.2 ≠ k) :
    best mod hash (p ++ [s]) k = best mod hash p k := by
  unfold best
  rw [List.filter_append]
  rw [List.filter_cons_of_neg (by simp [h]), List.filter_nil, List.append_nil]
  refine List.filter_congr fun x _ => ?_
  rw [decide_eq_decide]
  refine and_congr_right fun _ => ⟨fun H s' hs' => H s' (List.mem_append_left _ hs'), fun H s' hs' hk => ?_⟩
  rcases List.mem_append.mp hs' with h' | h'
  · exact H s' h' hk
  · rw [List.mem_singleton] at h'
    subst h'
    exact absurd hk h

omit [DecidableEq K] [DecidableEq τ] in
theorem best_same (mod : K → ℚ) (hash : τ → Nat) (p : List (K × τ)) (s : K × τ) :
    best mod hash (p ++ [s]) (hash s.2) = if best mod hash p (hash s.2) = [] then [s] else update mod s (best mod hash p (hash s.2)) := by
  by_cases he : best mod hash p (hash s.2) = []
  · rw [if_pos he]
    rw [best_nil_iff] at he
    unfold best
    rw [List.filter_append, List.filter_eq_nil_iff.mpr, List.nil_append, List.filter_cons_of_pos, List.filter_nil]
    · simp only [decide_eq_true_eq]
      refine ⟨trivial, fun s' hs' hk => ?_⟩
      rcases List.mem_append.mp hs' with h' | h'
      · exact absurd hk (he s' h')
      · rw [List.mem_singleton] at h'
        rw [h']
    · intro a ha hd
      simp only [decide_eq_true_eq] at hd
      exact he a ha hd.1
  · rw [if_neg he]
    have hb : ∀ x, x ∈ best mod hash p (hash s.2) → ∀ y ∈ p, hash y.2 = hash s.2 → mod y.1 ≤ mod x.1 := fun x hx => (mem_best.mp hx).2.2
    obtain ⟨t, ts, ht⟩ := List.exists_cons_of_ne_nil he
    have htm : t ∈ best mod hash p (hash s.2) := by rw [ht]; exact List.mem_cons_self
    have htp := mem_best.mp htm
    rw [ht]
    have hu : update mod s (t :: ts) = if mod t.1 < mod s.1 then [s] else if mod s.1 = mod t.1 then t :: ts ++ [s] else t :: ts := rfl
    rw [hu]
    by_cases h1 : mod t.1 < mod s.1
    · rw [if_pos h1]
      unfold best
      rw [List.filter_append, List.filter_eq_nil_iff.mpr, List.nil_append, List.filter_cons_of_pos, List.filter_nil]
      · simp only [decide_eq_true_eq]
        refine ⟨trivial, fun s' hs' hk => ?_⟩
        rcases List.mem_append.mp hs' with h' | h'
        · exact le_trans (hb t htm s' h' hk) (le_of_lt h1)
        · rw [List.mem_singleton] at h'
          rw [h']
      · intro a ha hd
        simp only [decide_eq_true_eq] at hd
        have h2 := hd.2 s (List.mem_append_right _ (List.mem_singleton_self s)) rfl
        have h3 := hb t htm a ha hd.1
        exact absurd (lt_of_lt_of_le h1 h2) (not_lt.mpr h3)
    · rw [if_neg h1]
      have hsame : p.filter (fun x => decide (hash x.2 = hash s.2 ∧ ∀ s' ∈ p ++ [s], hash s'.2 = hash s.2 → mod s'.1 ≤ mod x.1)) = t :: ts := by
        rw [← ht]
        unfold best
        refine List.filter_congr fun x hx => ?_
        rw [decide_eq_decide]
        refine and_congr_right fun hxk => ⟨fun H s' hs' => H s' (List.mem_append_left _ hs'), fun H s' hs' hk => ?_⟩
        rcases List.mem_append.mp hs' with h' | h'
        · exact H s' h' hk
        · rw [List.mem_singleton] at h'
          subst h'
          exact le_trans (not_lt.mp h1) (H t htp.1 htp.2.1)
      unfold best
      rw [List.filter_append, hsame]
      by_cases h2 : mod s.1 = mod t.1
      · rw [if_pos h2, List.filter_cons_of_pos, List.filter_nil]
        simp only [decide_eq_true_eq]
        refine ⟨trivial, fun s' hs' hk => ?_⟩
        rcases List.mem_append.mp hs' with h' | h'
        · rw [h2]; exact hb t htm s' h' hk
        · rw [List.mem_singleton] at h'
          rw [h']
      · rw [if_neg h2, List.filter_cons_of_neg, List.filter_nil, List.append_nil]
        simp only [decide_eq_true_eq]
        intro H
        have := H.2 t (List.mem_append_left _ htp.1) htp.2.1
        exact h2 (le_antisymm (not_lt.mp h1) this)

/-- The map after the terms `p`. -/
structure Inv (mod : K → ℚ) (hash : τ → Nat) (p : List (K × τ)) (m : List (Nat × List (K × τ))) : Prop where
  sorted : (m.map Prod.fst).Pairwise (· < ·)
  entries : ∀ e ∈ m, e.2 = best mod hash p e.1 ∧ e.2 ≠ []
  keys : ∀ k, best mod hash p k ≠ [] → k ∈ m.map Prod.fst

omit [DecidableEq K] [DecidableEq τ] in
theorem insert_keys (mod : K → ℚ) (h : Nat) (s : K × τ) (m : List (Nat × List (K × τ))) (k : Nat) :
    k ∈ (insert mod h s m).map Prod.fst ↔ k = h ∨ k ∈ m.map Prod.fst := by
  induction m with
  | nil => simp [insert]
  | cons e m ih =>
    obtain ⟨j, ts⟩ := e
    unfold insert
    split
    · simp
    · split
      · simp only [List.map_cons, List.mem_cons, ih]
        tauto
      · next h1 h2 =>
        have : j = h := by omega
        subst this
        simp

omit [DecidableEq K] [DecidableEq τ] in
theorem insert_sorted (mod : K → ℚ) (h : Nat) (s : K × τ) (m : List (Nat × List (K × τ))) (hs : (m.map Prod.fst).Pairwise (· < ·)) :
    ((insert mod h s m).map Prod.fst).Pairwise (· < ·) := by
  induction m with
  | nil => simp [insert]
  | cons e m ih =>
    obtain ⟨j, ts⟩ := e
    rw [List.map_cons, List.pairwise_cons] at hs
    unfold insert
    split
    · next h1 =>
      rw [List.map_cons, List.map_cons, List.pairwise_cons, List.pairwise_cons]
      refine ⟨fun a ha => ?_, hs⟩
      rcases List.mem_cons.mp ha with rfl | h'
      · exact h1
      · exact lt_trans h1 (hs.1 a h')
    · split
      · next h1 h2 =>
        rw [List.map_cons, List.pairwise_cons]
        refine ⟨fun a ha => ?_, ih hs.2⟩
        rcases (insert_keys mod h s m a).mp ha with rfl | h'
        · exact h2
        · exact hs.1 a h'
      · rw [List.map_cons, List.pairwise_cons]
        exact hs

omit [DecidableEq K] [DecidableEq τ] in
theorem insert_entries (mod : K → ℚ) (h : Nat) (s : K × τ) (m : List (Nat × List (K × τ))) (hs : (m.map Prod.fst).Pairwise (· < ·))
    (e : Nat × List (K × τ)) (he : e ∈ insert mod h s m) :
    (e ∈ m ∧ e.1 ≠ h) ∨ (∃ ts, (h, ts) ∈ m ∧ e = (h, update mod s ts)) ∨ (h ∉ m.map Prod.fst ∧ e = (h, [s])) := by
  induction m with
  | nil =>
    simp only [insert, List.mem_singleton] at he
    exact Or.inr (Or.inr ⟨by simp, he⟩)
  | cons f m ih =>
    obtain ⟨j, ts⟩ := f
    rw [List.map_cons, List.pairwise_cons] at hs
    unfold insert at he
    split at he
    · next h1 =>
      rcases List.mem_cons.mp he with rfl | h'
      · refine Or.inr (Or.inr ⟨?_, rfl⟩)
        intro hm
        rcases List.mem_cons.mp hm with h2 | h2
        · have h2' : h = j := h2
          omega
        · have := hs.1 h h2
          have h3 : j < h := this
          omega
      · refine Or.inl ⟨h', ?_⟩
        rcases List.mem_cons.mp h' with rfl | h2
        · show j ≠ h
          omega
        · have h3 : j < e.1 := hs.1 e.1 (List.mem_map_of_mem h2)
          omega
    · split at he
      · next h1 h2 =>
        rcases List.mem_cons.mp he with rfl | h'
        · exact Or.inl ⟨List.mem_cons_self, by show j ≠ h; omega⟩
        · rcases ih hs.2 h' with h3 | ⟨us, h3, h4⟩ | ⟨h3, h4⟩
          · exact Or.inl ⟨List.mem_cons_of_mem _ h3.1, h3.2⟩
          · exact Or.inr (Or.inl ⟨us, List.mem_cons_of_mem _ h3, h4⟩)
          · refine Or.inr (Or.inr ⟨?_, h4⟩)
            intro hm
            rcases List.mem_cons.mp hm with h5 | h5
            · have h6 : h = j := h5
              omega
            · exact h3 h5
      · next h1 h2 =>
        have hj : j = h := by omega
        subst hj
        rcases List.mem_cons.mp he with rfl | h'
        · exact Or.inr (Or.inl ⟨ts, List.mem_cons_self, rfl⟩)
        · refine Or.inl ⟨List.mem_cons_of_mem _ h', ?_⟩
          have h3 : j < e.1 := hs.1 e.1 (List.mem_map_of_mem h')
          omega

omit [DecidableEq K] [DecidableEq τ] in
theorem update_ne (mod : K → ℚ) (s : K × τ) (ts : List (K × τ)) (h : ts ≠ []) : update mod s ts ≠ [] := by
  cases ts with
  | nil => exact absurd rfl h
  | cons t ts =>
    show (if mod t.1 < mod s.1 then [s] else if mod s.1 = mod t.1 then t :: ts ++ [s] else t :: ts) ≠ []
    split
    · simp
    · split <;> simp

omit [DecidableEq K] [DecidableEq τ] in
theorem Inv.step {mod : K → ℚ} {hash : τ → Nat} {p : List (K × τ)} {m : List (Nat × List (K × τ))} (h : Inv mod hash p m) (s : K × τ) :
    Inv mod hash (p ++ [s]) (insert mod (hash s.2) s m) where
  sorted := insert_sorted mod _ s m h.sorted
  entries e he := by
    rcases insert_entries mod _ s m h.sorted e he with ⟨h1, h2⟩ | ⟨ts, h1, rfl⟩ | ⟨h1, rfl⟩
    · rw [best_other mod hash p s e.1 (Ne.symm h2)]
      exact h.entries e h1
    · have h2 := h.entries _ h1
      have e2 : ts = best mod hash p (hash s.2) := h2.1
      have e3 : ts ≠ [] := h2.2
      refine ⟨?_, update_ne mod s ts e3⟩
      show update mod s ts = best mod hash (p ++ [s]) (hash s.2)
      rw [best_same, ← e2, if_neg e3]
    · refine ⟨?_, by simp⟩
      show [s] = best mod hash (p ++ [s]) (hash s.2)
      rw [best_same, if_pos]
      by_contra hc
      exact h1 (h.keys _ hc)
  keys k hk := by
    rw [insert_keys]
    by_cases e : k = hash s.2
    · exact Or.inl e
    · rw [best_other mod hash p s k (Ne.symm e)] at hk
      exact Or.inr (h.keys k hk)

omit [DecidableEq K] [DecidableEq τ] in
theorem collect_inv (mod : K → ℚ) (hash : τ → Nat) (l : List (K × τ)) : Inv mod hash l (collect mod hash l) := by
  have key : ∀ (l p : List (K × τ)) (m : List (Nat × List (K × τ))), Inv mod hash p m →
      Inv mod hash (p ++ l) (l.foldl (fun m s => insert mod (hash s.2) s m) m) := by
    intro l
    induction l with
    | nil => intro p m h; simpa using h
    | cons s l ih =>
      intro p m h
      have := ih (p ++ [s]) _ (h.step s)
      simpa [List.append_assoc] using this
  exact key l [] [] ⟨by simp, by simp, fun k hk => absurd rfl hk⟩

theorem count_flat (hash : τ → Nat) (m : List (Nat × List (K × τ))) (hs : (m.map Prod.fst).Pairwise (· < ·)) (hh : ∀ e ∈ m, ∀ x ∈ e.2, hash x.2 = e.1)
    (s : K × τ) : (hash s.2 ∉ m.map Prod.fst → (m.flatMap Prod.snd).count s = 0) ∧
      ∀ ts, (hash s.2, ts) ∈ m → (m.flatMap Prod.snd).count s = ts.count s := by
  induction m with
  | nil => simp
  | cons e m ih =>
    rw [List.map_cons, List.pairwise_cons] at hs
    obtain ⟨ih1, ih2⟩ := ih hs.2 fun e he => hh e (List.mem_cons_of_mem _ he)
    rw [List.flatMap_cons, List.count_append]
    have hz : e.1 ≠ hash s.2 → e.2.count s = 0 := by
      intro hne
      rw [List.count_eq_zero]
      intro hm
      exact hne (hh e List.mem_cons_self s hm).symm
    constructor
    · intro hn
      rw [List.map_cons, List.mem_cons, not_or] at hn
      rw [ih1 hn.2, hz (Ne.symm hn.1)]
    · intro ts hts
      rcases List.mem_cons.mp hts with h | h
      · have hn : hash s.2 ∉ m.map Prod.fst := by
          intro hm
          have := hs.1 _ hm
          rw [← h] at this
          exact absurd this (lt_irrefl _)
        rw [ih1 hn, ← h, Nat.add_zero]
      · have h2 : e.1 < hash s.2 := hs.1 _ (List.mem_map.mpr ⟨_, h, rfl⟩)
        rw [ih2 ts h, hz (ne_of_lt h2), Nat.zero_add]

/-- Whether a term has the largest coefficient of all terms with its hash value. -/
def largest (mod : K → ℚ) (hash : τ → Nat) (l : List (K × τ)) (s : K × τ) : Bool :=
  decide (∀ s' ∈ l, hash s'.2 = hash s.2 → mod s'.1 ≤ mod s.1)

theorem collect_perm (mod : K → ℚ) (hash : τ → Nat) (l : List (K × τ)) :
    ((collect mod hash l).flatMap Prod.snd).Perm (l.filter (largest mod hash l)) := by
  have hI := collect_inv mod hash l
  rw [List.perm_iff_count]
  intro s
  have hh : ∀ e ∈ collect mod hash l, ∀ x ∈ e.2, hash x.2 = e.1 := by
    intro e he x hx
    rw [(hI.entries e he).1] at hx
    exact (mem_best.mp hx).2.1
  obtain ⟨c1, c2⟩ := count_flat hash _ hI.sorted hh s
  have hb : (best mod hash l (hash s.2)).count s = (l.filter (largest mod hash l)).count s := by
    unfold best
    by_cases hl : largest mod hash l s = true
    · rw [List.count_filter, List.count_filter hl]
      unfold largest at hl
      simp only [decide_eq_true_eq] at hl ⊢
      exact ⟨trivial, hl⟩
    · rw [List.count_eq_zero.mpr, List.count_eq_zero.mpr]
      · intro h
        exact hl (List.mem_filter.mp h).2
      · intro h
        have := (List.mem_filter.mp h).2
        simp only [decide_eq_true_eq] at this
        apply hl
        unfold largest
        simp only [decide_eq_true_eq]
        exact this.2
  rw [← hb]
  by_cases hk : hash s.2 ∈ (collect mod hash l).map Prod.fst
  · obtain ⟨e, he, hek⟩ := List.mem_map.mp hk
    obtain ⟨k, ts⟩ := e
    have hek' : k = hash s.2 := hek
    subst hek'
    have e2 : ts = best mod hash l (hash s.2) := (hI.entries _ he).1
    rw [c2 ts he, ← e2]
  · rw [c1 hk]
    have : best mod hash l (hash s.2) = [] := by
      by_contra hc
      exact hk (hI.keys _ hc)
    rw [this]
    rfl

omit [DecidableEq K] [DecidableEq τ] in
theorem products_map (l : List (K × τ)) : products (l.map fun s => Summand.product s.1 s.2) = l := by
  induction l with
  | nil => rfl
  | cons s l ih => simp [products, ih]

theorem filter_products [Zero K] (mod : K → ℚ) (hash : τ → Nat) (groups : Nat) (hg : 2 < groups) (l : List (Summand K τ)) :
    ∃ r : List (K × τ), wkFilter mod hash groups (.sum l) = .sum (r.map fun s => .product s.1 s.2) ∧
      r.Perm ((products l).filter fun s => decide (s.1 ≠ 0) && decide (∀ s' ∈ products l, hash s'.2 = hash s.2 → mod s'.1 ≤ mod s.1)) := by
  refine ⟨_, by rw [wkFilter, if_neg (by omega)], ?_⟩
  have := (collect_perm mod hash (products l)).filter fun s => decide (s.1 ≠ 0)
  rw [List.filter_filter] at this
  exact this

/-- The products among the summands, with scalar and rest. -/
def scaled (l : List (Summand K τ)) : List (K × τ) := l.filterMap fun
  | .product c t => some (c, t)
  | .other _ => none

omit [DecidableEq K] [DecidableEq τ] in
theorem products_scaled (l : List (Summand K τ)) : products l = scaled l := by
  induction l with
  | nil => rfl
  | cons s l ih => cases s <;> simp [products, scaled, ih]

/-- **C124 (selection).** With more than two groups of external indices what is left of a sum are exactly the products with a scalar other than zero that is the
largest of those with the same hash value. -/
theorem filter_keeps [Zero K] (mod : K → ℚ) (hash : τ → Nat) (groups : Nat) (hg : 2 < groups) (l : List (Summand K τ)) :
    ∃ r : List (K × τ), wkFilter mod hash groups (.sum l) = .sum (r.map fun s => .product s.1 s.2) ∧
      r.Perm ((scaled l).filter fun s => decide (s.1 ≠ 0) && decide (∀ s' ∈ scaled l, hash s'.2 = hash s.2 → mod s'.1 ≤ mod s.1)) := by
  rw [← products_scaled]
  exact filter_products mod hash groups hg l

omit [DecidableEq τ] in
/-- **C124.** Expressions that are no sums, and those with up to two groups, are returned. -/
theorem filter_skips [Zero K] (mod : K → ℚ) (hash : τ → Nat) (groups : Nat) (e : Ex K τ) (h : groups ≤ 2 ∨ ∃ s, e = .single s) :
    wkFilter mod hash groups e = e := by
  rcases h with h | ⟨s, rfl⟩
  · cases e with
    | sum l => rw [wkFilter, if_pos h]
    | single s => rfl
  · rfl

end kept

/-! ## The weights of the projection -/

section weights

variable {n : Nat}

theorem cycles_full (p : Perm (Fin n)) (h : cycles p = n) : p = 1 := by
  have h1 := SeQuant.Biorth.cycles_cycleType p
  have h2 : p.cycleType.sum = p.support.card := p.sum_cycleType
  have h3 : Multiset.card p.cycleType • 2 ≤ p.cycleType.sum := Multiset.card_nsmul_le_sum fun x hx => Equiv.Perm.two_le_of_mem_cycleType hx
  rw [smul_eq_mul] at h3
  have h4 : p.support.card = 0 := by omega
  exact Equiv.Perm.card_support_eq_zero.mp h4

/-- **C124 (weights).** The weight of every permutation but the identity is less than one, for every number of particles. -/
theorem weights_less {v : Perm (Fin n) → ℚ} {k : ℚ} (h : Projector v k) (p : Perm (Fin n)) (hp : p ≠ 1) : |v p| < 1 := by
  have hk : ∑ q, v q * v q = k := by
    have := congrFun h.twice 1
    rw [h.one, mul_one] at this
    rw [← this]
    unfold conv
    refine Finset.sum_congr rfl fun q _ => ?_
    rw [one_mul, h.even]
  have hk' : ∑ q, v (p * q⁻¹) * v (p * q⁻¹) = k := by
    rw [← hk]
    exact Fintype.sum_equiv ((Equiv.inv _).trans (Equiv.mulLeft p)) _ _ fun q => rfl
  have hkp : 0 < k := by
    rw [← hk]
    refine Finset.sum_pos' (fun q _ => mul_self_nonneg _) ⟨1, Finset.mem_univ _, ?_⟩
    rw [h.one]; norm_num
  have hvp : ∑ q, v q * v (p * q⁻¹) = k * v p := congrFun h.twice p
  have sq : ∀ ε : ℚ, ε * ε = 1 → ∑ q, (v q - ε * v (p * q⁻¹)) * (v q - ε * v (p * q⁻¹)) = 2 * k * (1 - ε * v p) := by
    intro ε hε
    have : ∀ q, (v q - ε * v (p * q⁻¹)) * (v q - ε * v (p * q⁻¹)) = v q * v q + (ε * ε) * (v (p * q⁻¹) * v (p * q⁻¹)) - 2 * ε * (v q * v (p * q⁻¹)) := by
      intro q; ring
    simp only [this, Finset.sum_sub_distrib, Finset.sum_add_distrib, ← Finset.mul_sum, hk, hk', hvp, hε]
    ring
  have strict : ∀ ε : ℚ, ε * ε = 1 → ε * v p < 1 := by
    intro ε hε
    have h0 : 0 ≤ 2 * k * (1 - ε * v p) := by
      rw [← sq ε hε]
      exact Finset.sum_nonneg fun q _ => mul_self_nonneg _
    have h1 : ε * v p ≤ 1 := by
      by_contra hc
      have : 2 * k * (1 - ε * v p) < 0 := mul_neg_of_pos_of_neg (by linarith) (by linarith)
      linarith
    refine lt_of_le_of_ne h1 fun he => hp ?_
    have hz : ∑ q, (v q - ε * v (p * q⁻¹)) * (v q - ε * v (p * q⁻¹)) = 0 := by rw [sq ε hε, he]; ring
    rw [Finset.sum_eq_zero_iff_of_nonneg fun q _ => mul_self_nonneg _] at hz
    have hq : ∀ q, v q = ε * v (q * p⁻¹) := by
      intro q
      have := mul_self_eq_zero.mp (hz q (Finset.mem_univ q))
      have e : v (p * q⁻¹) = v (q * p⁻¹) := by
        rw [← h.even, mul_inv_rev, inv_inv]
      rw [← e]
      linarith
    have hov : k * ov (1 : Perm (Fin n)) = ε * (k * ov p) := by
      have e1 := congrFun h.keeps 1
      have e2 := congrFun h.keeps p⁻¹
      rw [SeQuant.Biorth.ov_even] at e2
      rw [← e1, ← e2]
      unfold conv
      rw [Finset.mul_sum]
      refine Fintype.sum_equiv (Equiv.mulRight p⁻¹) _ _ fun q => ?_
      rw [hq q]
      show ε * v (q * p⁻¹) * ov (1 * q⁻¹) = ε * (v (q * p⁻¹) * ov (p⁻¹ * (q * p⁻¹)⁻¹))
      rw [mul_inv_rev, inv_inv, ← mul_assoc p⁻¹, inv_mul_cancel, mul_assoc]
    have hov' : ov (1 : Perm (Fin n)) = ε * ov p := by
      have : k * ov (1 : Perm (Fin n)) = k * (ε * ov p) := by rw [hov]; ring
      exact mul_left_cancel₀ (ne_of_gt hkp) this
    have hε1 : |ε| = 1 := by
      have : |ε| * |ε| = 1 := by rw [abs_mul_abs_self, hε]
      nlinarith [abs_nonneg ε]
    have habs : |ov (1 : Perm (Fin n))| = |ov p| := by rw [hov', abs_mul, hε1, one_mul]
    unfold ov at habs
    rw [SeQuant.Biorth.cycles_one] at habs
    simp only [abs_mul, abs_pow, abs_neg, abs_one, one_pow, one_mul, Nat.abs_ofNat] at habs
    exact cycles_full p (pow_right_injective₀ (by norm_num) (by norm_num) habs).symm
  rw [abs_lt]
  constructor
  · have := strict (-1) (by norm_num)
    linarith
  · have := strict 1 (by norm_num)
    linarith

/-- **C124 (weights).** What `compute_nns_p_coeffs` gives: one for the identity, less for all others. -/
theorem computed_weights (L : SeQuant.Biorth.Lib) (n : Nat) (B : Matrix (Fin n.factorial) (Fin n.factorial) ℚ)
    (hB : SeQuant.Biorth.Coefficients (SeQuant.Biorth.overlap L n) B) :
    ∃ v, SeQuant.Biorth.computeWeights L n B = List.ofFn (fun r => v (L.equiv n r)) ∧ Projector v (SeQuant.Biorth.normalization L n) ∧ v 1 = 1 ∧
      ∀ p, p ≠ 1 → |v p| < 1 := by
  obtain ⟨v, h1, h2⟩ := SeQuant.Biorth.computeWeights_form L n B hB
  exact ⟨v, h1, h2, h2.one, weights_less h2⟩

end weights

/-! ## Projection brings the other terms back -/

section projection

variable {n : Nat} [DecidableEq τ] [MulAction (Perm (Fin n) × Perm (Fin n)) τ]

/-- The coefficient of a term in a list of terms. -/
def coeff (l : List (ℚ × τ)) (t : τ) : ℚ := (l.map fun s => if s.2 = t then s.1 else 0).sum

/-- The average over permutations of particles (`S`) of the sum over permutations of the first of the external indices with weights `v`, of the terms `x` with
coefficients `a`. -/
def expanded (v : Perm (Fin n) → ℚ) (X : Finset τ) (a : τ → ℚ) (t : τ) : ℚ :=
  ∑ x ∈ X, a x * ((n.factorial : ℚ)⁻¹ * ∑ σ : Perm (Fin n), ∑ π : Perm (Fin n), v π * if (σ * π, σ) • x = t then 1 else 0)

/-- The average over permutations of particles. -/
def averaged (X : Finset τ) (a : τ → ℚ) (t : τ) : ℚ :=
  ∑ x ∈ X, a x * ((n.factorial : ℚ)⁻¹ * ∑ σ : Perm (Fin n), if (σ, σ) • x = t then 1 else 0)

/-- The projection: the sum over permutations of the first of the external indices. -/
def project (v : Perm (Fin n) → ℚ) (f : τ → ℚ) (t : τ) : ℚ := ∑ π : Perm (Fin n), v π * f (((π, 1) : Perm (Fin n) × Perm (Fin n))⁻¹ • t)

/-- **C124 (projection).** Projecting the average gives the expanded expression, whatever the terms. -/
theorem project_averaged {v : Perm (Fin n) → ℚ} (hv : Class v) (X : Finset τ) (a : τ → ℚ) :
    project v (averaged (n := n) X a) = expanded v X a := by
  funext t
  unfold project averaged expanded
  simp only [Finset.mul_sum]
  rw [Finset.sum_comm]
  refine Finset.sum_congr rfl fun x _ => ?_
  rw [Finset.sum_comm]
  refine Finset.sum_congr rfl fun σ _ => ?_
  refine Fintype.sum_equiv (MulAut.conj σ⁻¹).toEquiv _ _ fun π => ?_
  have e1 : (MulAut.conj σ⁻¹).toEquiv π = σ⁻¹ * π * σ := by simp
  have e2 : v (σ⁻¹ * π * σ) = v π := by
    have := hv π σ⁻¹
    rwa [inv_inv] at this
  have e3 : ((σ, σ) • x = ((π, 1) : Perm (Fin n) × Perm (Fin n))⁻¹ • t) ↔ ((σ * (σ⁻¹ * π * σ), σ) • x = t) := by
    rw [eq_inv_smul_iff, smul_smul, Prod.mk_mul_mk, one_mul]
    have : σ * (σ⁻¹ * π * σ) = π * σ := by group
    rw [this]
  rw [e1, e2]
  simp only [e3]
  ring

/-- The sum over pairs of permutations. -/
theorem pairs (v : Perm (Fin n) → ℚ) (F : Perm (Fin n) × Perm (Fin n) → ℚ) :
    ∑ σ : Perm (Fin n), ∑ π : Perm (Fin n), v π * F (σ * π, σ) = ∑ g : Perm (Fin n) × Perm (Fin n), v (g.2⁻¹ * g.1) * F g := by
  rw [Fintype.sum_prod_type, Finset.sum_comm]
  refine Eq.trans ?_ (Finset.sum_comm)
  rw [Finset.sum_comm]
  refine Finset.sum_congr rfl fun σ _ => ?_
  refine Fintype.sum_equiv (Equiv.mulLeft σ) _ _ fun π => ?_
  show _ = v (σ⁻¹ * (σ * π)) * F (σ * π, σ)
  rw [inv_mul_cancel_left]

/-- A term that keeps no other permutation than such of particles: moving it changes neither the relative permutation nor, hence, the weight. -/
theorem orbit_sum {v : Perm (Fin n) → ℚ} (hv : Class v) (x : τ) (hx : ∀ g : Perm (Fin n) × Perm (Fin n), g • x = x → g.1 = g.2)
    (g : Perm (Fin n) × Perm (Fin n)) :
    ∑ σ : Perm (Fin n), ∑ π : Perm (Fin n), (v π * if (σ * π, σ) • x = g • x then 1 else 0) =
      (Finset.univ.filter fun h : Perm (Fin n) × Perm (Fin n) => h • x = x).card * v (g.2⁻¹ * g.1) := by
  rw [pairs v fun h => if h • x = g • x then 1 else 0]
  rw [Finset.card_filter, Nat.cast_sum, Finset.sum_mul]
  refine (Fintype.sum_equiv (Equiv.mulLeft g) _ _ fun h => ?_).symm
  show _ = v ((g * h).2⁻¹ * (g * h).1) * if (g * h) • x = g • x then 1 else 0
  simp only [mul_smul, smul_left_cancel_iff]
  by_cases e : h • x = x
  · rw [if_pos e, if_pos e]
    have hd := hx h e
    have : v ((g * h).2⁻¹ * (g * h).1) = v (g.2⁻¹ * g.1) := by
      rw [Prod.snd_mul, Prod.fst_mul, hd, mul_inv_rev]
      have := hv (g.2⁻¹ * g.1) h.2⁻¹
      rw [inv_inv] at this
      rw [← this]
      simp only [mul_assoc]
    rw [this]
    simp
  · rw [if_neg e, if_neg e]
    simp

theorem diag_sum (x : τ) (hx : ∀ g : Perm (Fin n) × Perm (Fin n), g • x = x → g.1 = g.2) (g : Perm (Fin n) × Perm (Fin n)) :
    (∑ σ : Perm (Fin n), if (σ, σ) • x = g • x then (1 : ℚ) else 0) =
      if g.1 = g.2 then ((Finset.univ.filter fun h : Perm (Fin n) × Perm (Fin n) => h • x = x).card : ℚ) else 0 := by
  by_cases hg : g.1 = g.2
  · rw [if_pos hg]
    have hc : Class (n := n) fun p => if p = 1 then 1 else 0 := by
      intro p q
      have : q * p * q⁻¹ = 1 ↔ p = 1 := by rw [mul_inv_eq_one, mul_eq_left]
      simp only [this]
    have := orbit_sum hc x hx g
    rw [hg, inv_mul_cancel, if_pos rfl, mul_one] at this
    rw [← this]
    refine Finset.sum_congr rfl fun σ _ => ?_
    rw [Finset.sum_eq_single 1]
    · rw [if_pos rfl, mul_one, one_mul]
    · intro π _ hπ
      rw [if_neg hπ, zero_mul]
    · intro h; exact absurd (Finset.mem_univ _) h
  · rw [if_neg hg]
    refine Finset.sum_eq_zero fun σ _ => if_neg fun e => hg ?_
    have : (g⁻¹ * (σ, σ)) • x = x := by rw [mul_smul, e, inv_smul_smul]
    have := hx _ this
    have h2 : g.1⁻¹ * σ = g.2⁻¹ * σ := this
    exact inv_injective (mul_right_cancel h2)

omit [MulAction (Perm (Fin n) × Perm (Fin n)) τ] in
theorem coeff_none (l : List (ℚ × τ)) (t : τ) (h : ∀ s ∈ l, s.2 ≠ t) : coeff l t = 0 := by
  unfold coeff
  refine List.sum_eq_zero fun x hx => ?_
  obtain ⟨s, hs, rfl⟩ := List.mem_map.mp hx
  exact if_neg (h s hs)

omit [MulAction (Perm (Fin n) × Perm (Fin n)) τ] in
theorem coeff_mem (l : List (ℚ × τ)) (hl : (l.map Prod.snd).Nodup) (s : ℚ × τ) (h : s ∈ l) : coeff l s.2 = s.1 := by
  induction l with
  | nil => cases h
  | cons a l ih =>
    rw [List.map_cons, List.nodup_cons] at hl
    have e : coeff (a :: l) s.2 = (if a.2 = s.2 then a.1 else 0) + coeff l s.2 := by simp [coeff]
    rw [e]
    rcases List.mem_cons.mp h with rfl | h'
    · rw [if_pos rfl, coeff_none l _ fun b hb hbs => hl.1 (List.mem_map.mpr ⟨b, hb, hbs⟩), add_zero]
    · rw [if_neg, zero_add, ih hl.2 h']
      intro he
      exact hl.1 (List.mem_map.mpr ⟨s, h', he.symm⟩)

omit [MulAction (Perm (Fin n) × Perm (Fin n)) τ] in
theorem coeff_filter (l : List (ℚ × τ)) (hl : (l.map Prod.snd).Nodup) (P : ℚ × τ → Bool) (t : τ) :
    coeff (l.filter P) t = if P (coeff l t, t) then coeff l t else 0 := by
  by_cases h : ∃ s ∈ l, s.2 = t
  · obtain ⟨s, hs, rfl⟩ := h
    rw [coeff_mem l hl s hs]
    by_cases hP : P s = true
    · rw [if_pos hP]
      exact coeff_mem _ (hl.sublist (List.filter_sublist.map _)) s (List.mem_filter.mpr ⟨hs, hP⟩)
    · rw [if_neg hP]
      refine coeff_none _ _ fun s' hs' e => hP ?_
      obtain ⟨h1, h2⟩ := List.mem_filter.mp hs'
      have : s' = s := by
        refine Prod.ext ?_ e
        rw [← coeff_mem l hl s' h1, ← coeff_mem l hl s hs, e]
      rwa [← this]
  · push Not at h
    rw [coeff_none l t h, coeff_none _ t fun s hs => h s (List.mem_filter.mp hs).1]
    simp

omit [MulAction (Perm (Fin n) × Perm (Fin n)) τ] in
theorem coeff_perm {l m : List (ℚ × τ)} (h : l.Perm m) (t : τ) : coeff l t = coeff m t := (h.map _).sum_eq

/-- **C124.** Let a sum of different terms be the average over permutations of particles of the expansion of terms `x` with the weights of the projection.  If
no permutation keeps a term `x` but those of particles, and hash values are equal exactly for terms that come from the same `x`, then the selection leaves the
average of the terms `x`, and projecting it gives the sum back. -/
theorem filter_projects {v : Perm (Fin n) → ℚ} {k : ℚ} (hv : Projector v k) (hn : 2 < n) (hash : τ → Nat) (X : Finset τ) (a : τ → ℚ)
    (ha : ∀ x ∈ X, a x ≠ 0) (hstab : ∀ x ∈ X, ∀ g : Perm (Fin n) × Perm (Fin n), g • x = x → g.1 = g.2)
    (hhash : ∀ x ∈ X, ∀ g : Perm (Fin n) × Perm (Fin n), hash (g • x) = hash x) (hdiff : ∀ x ∈ X, ∀ y ∈ X, hash x = hash y → x = y)
    (l : List (ℚ × τ)) (hl : (l.map Prod.snd).Nodup) (hsum : coeff l = expanded v X a) :
    ∃ r : List (ℚ × τ), wkFilter abs hash n (.sum (l.map fun s => .product s.1 s.2)) = .sum (r.map fun s => .product s.1 s.2) ∧
      coeff r = averaged (n := n) X a ∧ project v (coeff r) = coeff l := by
  obtain ⟨r, h1, h2⟩ := filter_products abs hash n hn (l.map fun s => Summand.product s.1 s.2)
  rw [products_map] at h2
  have hnf : (0 : ℚ) < (n.factorial : ℚ)⁻¹ := inv_pos.mpr (by exact_mod_cast n.factorial_pos)
  -- the coefficient of a term that comes from `x`
  have hval : ∀ x ∈ X, ∀ g : Perm (Fin n) × Perm (Fin n), coeff l (g • x) =
      a x * ((n.factorial : ℚ)⁻¹ * ((Finset.univ.filter fun h : Perm (Fin n) × Perm (Fin n) => h • x = x).card * v (g.2⁻¹ * g.1))) := by
    intro x hx g
    rw [hsum]
    unfold expanded
    rw [Finset.sum_eq_single x, orbit_sum hv.cls x (hstab x hx) g]
    · intro y hy hyx
      have : ∀ h : Perm (Fin n) × Perm (Fin n), h • y ≠ g • x := by
        intro h e
        apply hyx
        apply hdiff y hy x hx
        rw [← hhash y hy h, ← hhash x hx g, e]
      simp [this]
    · intro h; exact absurd hx h
  have hnone : ∀ t, (∀ x ∈ X, ∀ g : Perm (Fin n) × Perm (Fin n), g • x ≠ t) → coeff l t = 0 ∧ averaged (n := n) X a t = 0 := by
    intro t ht
    rw [hsum]
    constructor
    · unfold expanded
      refine Finset.sum_eq_zero fun x hx => ?_
      simp [ht x hx]
    · unfold averaged
      refine Finset.sum_eq_zero fun x hx => ?_
      simp [ht x hx]
  have hN : ∀ x : τ, (0 : ℚ) < (Finset.univ.filter fun h : Perm (Fin n) × Perm (Fin n) => h • x = x).card := by
    intro x
    exact_mod_cast Finset.card_pos.mpr ⟨1, Finset.mem_filter.mpr ⟨Finset.mem_univ _, one_smul _ x⟩⟩
  have hle : ∀ p, |v p| ≤ 1 := by
    intro p
    by_cases hp : p = 1
    · rw [hp, hv.one]; norm_num
    · exact le_of_lt (weights_less hv p hp)
  have key : coeff r = averaged (n := n) X a := by
    funext t
    rw [coeff_perm h2, coeff_filter l hl]
    by_cases ht : ∃ x ∈ X, ∃ g : Perm (Fin n) × Perm (Fin n), g • x = t
    · obtain ⟨x, hx, g, rfl⟩ := ht
      have hav : averaged (n := n) X a (g • x) = a x * ((n.factorial : ℚ)⁻¹ * if g.1 = g.2 then
          ((Finset.univ.filter fun h : Perm (Fin n) × Perm (Fin n) => h • x = x).card : ℚ) else 0) := by
        unfold averaged
        rw [Finset.sum_eq_single x, diag_sum x (hstab x hx) g]
        · intro y hy hyx
          have : ∀ h : Perm (Fin n) × Perm (Fin n), h • y ≠ g • x := by
            intro h e
            apply hyx
            apply hdiff y hy x hx
            rw [← hhash y hy h, ← hhash x hx g, e]
          simp [this]
        · intro h; exact absurd hx h
      rw [hav]
      by_cases hg : g.1 = g.2
      · have hv1 : v (g.2⁻¹ * g.1) = 1 := by rw [hg, inv_mul_cancel, hv.one]
        rw [if_pos hg, if_pos, hval x hx, hv1, mul_one]
        rw [hval x hx, hv1, mul_one]
        simp only [Bool.and_eq_true, decide_eq_true_eq]
        refine ⟨mul_ne_zero (ha x hx) (mul_ne_zero (ne_of_gt hnf) (ne_of_gt (hN x))), fun s' hs' hh => ?_⟩
        rw [← coeff_mem l hl s' hs']
        by_cases ht' : ∃ y ∈ X, ∃ g' : Perm (Fin n) × Perm (Fin n), g' • y = s'.2
        · obtain ⟨y, hy, g', e⟩ := ht'
          have : y = x := by
            apply hdiff y hy x hx
            rw [← hhash y hy g', ← hhash x hx g, e, hh]
          subst this
          rw [← e, hval y hx]
          simp only [abs_mul, abs_of_pos hnf, abs_of_pos (hN y)]
          refine mul_le_mul_of_nonneg_left (mul_le_mul_of_nonneg_left ?_ (le_of_lt hnf)) (abs_nonneg _)
          calc _ ≤ _ * 1 := mul_le_mul_of_nonneg_left (hle _) (le_of_lt (hN y))
            _ = _ := mul_one _
        · push Not at ht'
          rw [(hnone s'.2 ht').1, abs_zero]
          exact abs_nonneg _
      · rw [if_neg hg, mul_zero, mul_zero, if_neg]
        simp only [Bool.and_eq_true, decide_eq_true_eq, not_and]
        intro _ H
        have hx1 : coeff l x ≠ 0 := by
          have := hval x hx 1
          rw [one_smul] at this
          rw [this]
          have e1 : v ((1 : Perm (Fin n) × Perm (Fin n)).2⁻¹ * (1 : Perm (Fin n) × Perm (Fin n)).1) = 1 := by
            rw [Prod.fst_one, Prod.snd_one, inv_one, one_mul, hv.one]
          rw [e1, mul_one]
          exact mul_ne_zero (ha x hx) (mul_ne_zero (ne_of_gt hnf) (ne_of_gt (hN x)))
        have hmem : ∃ s ∈ l, s.2 = x := by
          by_contra hc
          push Not at hc
          exact hx1 (coeff_none l x hc)
        obtain ⟨s, hs, hsx⟩ := hmem
        have hle2 := H s hs (by rw [hsx, hhash x hx])
        rw [← coeff_mem l hl s hs, hsx, hval x hx] at hle2
        have h1x := hval x hx 1
        rw [one_smul] at h1x
        have e1 : v ((1 : Perm (Fin n) × Perm (Fin n)).2⁻¹ * (1 : Perm (Fin n) × Perm (Fin n)).1) = 1 := by
          rw [Prod.fst_one, Prod.snd_one, inv_one, one_mul, hv.one]
        rw [e1, mul_one] at h1x
        rw [h1x] at hle2
        simp only [abs_mul, abs_of_pos hnf, abs_of_pos (hN x)] at hle2
        have h3 := le_of_mul_le_mul_left hle2 (abs_pos.mpr (ha x hx))
        have h4 := le_of_mul_le_mul_left h3 hnf
        have h5 : (Finset.univ.filter fun h : Perm (Fin n) × Perm (Fin n) => h • x = x).card * |v (g.2⁻¹ * g.1)| <
            ((Finset.univ.filter fun h : Perm (Fin n) × Perm (Fin n) => h • x = x).card : ℚ) * 1 := by
          refine mul_lt_mul_of_pos_left (weights_less hv _ fun e => hg ?_) (hN x)
          rw [inv_mul_eq_one] at e
          exact e.symm
        rw [mul_one] at h5
        exact absurd h4 (not_le.mpr h5)
    · push Not at ht
      rw [(hnone t ht).1, (hnone t ht).2]
      simp
  refine ⟨r, h1, key, ?_⟩
  rw [key, project_averaged hv.cls, hsum]

end projection

/-! ## Examples and refutations -/

section examples

/-- The weights for three particles. -/
def three (p : Perm (Fin 3)) : ℚ := if p = 1 then 1 else -1 / 5

/-- Terms `x` in which each of three particles has its own indices: the relative permutations. -/
structure Rel where
  perm : Perm (Fin 3)

instance : DecidableEq Rel := fun x y => decidable_of_iff (x.perm = y.perm) ⟨fun h => by cases x; cases y; exact congrArg Rel.mk h, congrArg Rel.perm⟩

instance : MulAction (Perm (Fin 3) × Perm (Fin 3)) Rel where
  smul g x := ⟨g.1 * x.perm * g.2⁻¹⟩
  one_smul x := by show (⟨1 * x.perm * 1⁻¹⟩ : Rel) = x; simp
  mul_smul g h x := by
    show (⟨g.1 * h.1 * x.perm * (g.2 * h.2)⁻¹⟩ : Rel) = ⟨g.1 * (h.1 * x.perm * h.2⁻¹) * g.2⁻¹⟩
    simp [mul_assoc]

/-- Nothing but permutations of particles keeps the term. -/
example : ∀ g : Perm (Fin 3) × Perm (Fin 3), g • (⟨1⟩ : Rel) = ⟨1⟩ → g.1 = g.2 := by
  intro g h
  have : g.1 * 1 * g.2⁻¹ = 1 := congrArg Rel.perm h
  rwa [mul_one, mul_inv_eq_one] at this

/-- The six permutations. -/
def six : List (Perm (Fin 3)) :=
  [1, Equiv.swap 0 1, Equiv.swap 0 2, Equiv.swap 1 2, Equiv.swap 0 1 * Equiv.swap 1 2, Equiv.swap 1 2 * Equiv.swap 0 1]

theorem sum_six (f : Perm (Fin 3) → ℚ) : ∑ p, f p = (six.map f).sum := by
  have h : (Finset.univ : Finset (Perm (Fin 3))) = six.toFinset := by decide +kernel
  rw [h, List.sum_toFinset _ (by decide +kernel)]

/-- Six terms, of which one is kept, and brought back. -/
example : wkFilter abs (fun _ : Rel => 0) 3 (.sum (six.map fun p => .product (three p) ⟨p⟩)) = .sum [.product 1 ⟨1⟩] ∧
    six.map three = six.map (fun p => expanded three {(⟨1⟩ : Rel)} (fun _ => 1) ⟨p⟩) ∧
    six.map (fun p => project three (coeff [(1, (⟨1⟩ : Rel))]) ⟨p⟩) = six.map three := by
  refine ⟨by decide +kernel, ?_, ?_⟩
  · unfold expanded
    simp only [sum_six]
    decide +kernel
  · unfold project
    simp only [sum_six]
    decide +kernel

theorem mem_six (p : Perm (Fin 3)) : p ∈ six := by
  have h : (Finset.univ : Finset (Perm (Fin 3))) = six.toFinset := by decide +kernel
  have := Finset.mem_univ p
  rw [h] at this
  exact List.mem_toFinset.mp this

/-- The weights are the projector, up to a factor of 6/5. -/
theorem three_projector : Projector three (6 / 5) where
  cls := by
    intro p q
    have h : (six.all fun p => six.all fun q => decide (three (q * p * q⁻¹) = three p)) = true := by decide +kernel
    have := List.all_eq_true.mp h p (mem_six p)
    simpa using List.all_eq_true.mp this q (mem_six q)
  even := by
    intro p
    have h : (six.all fun p => decide (three p⁻¹ = three p)) = true := by decide +kernel
    simpa using List.all_eq_true.mp h p (mem_six p)
  one := rfl
  twice := by
    funext p
    unfold conv
    rw [sum_six]
    have h : (six.all fun p => decide ((six.map fun q => three q * three (p * q⁻¹)).sum = 6 / 5 * three p)) = true := by decide +kernel
    simpa using List.all_eq_true.mp h p (mem_six p)
  keeps := by
    funext p
    unfold conv
    rw [sum_six]
    have h : (six.all fun p => decide ((six.map fun q => three q * ov (p * q⁻¹)).sum = 6 / 5 * ov p)) = true := by decide +kernel
    simpa using List.all_eq_true.mp h p (mem_six p)
  factor := by
    refine ⟨fun p => if p = 1 then 17 / 120 else if Equiv.Perm.sign p = -1 then -1 / 120 else -7 / 120, ?_, ?_⟩
    · intro p q
      have e : q * p * q⁻¹ = 1 ↔ p = 1 := by rw [mul_inv_eq_one, mul_eq_left]
      have e2 : Equiv.Perm.sign (q * p * q⁻¹) = Equiv.Perm.sign p := by
        rw [map_mul, map_mul, map_inv, mul_comm (Equiv.Perm.sign q), mul_assoc, mul_inv_cancel, mul_one]
      simp only [e, e2]
    · funext p
      unfold conv
      rw [sum_six]
      have h : (six.all fun p => decide (three p = (six.map fun q => (if q = 1 then 17 / 120 else if Equiv.Perm.sign q = -1 then -1 / 120 else -7 / 120) *
          ov (p * q⁻¹)).sum)) = true := by decide +kernel
      simpa using List.all_eq_true.mp h p (mem_six p)

/-- The six terms. -/
def sixTerms : List (ℚ × Rel) := six.map fun p => (three p, ⟨p⟩)

/-- The theorem applies to this sum. -/
example : ∃ r : List (ℚ × Rel), wkFilter abs (fun _ => 0) 3 (.sum (sixTerms.map fun s => .product s.1 s.2)) = .sum (r.map fun s => .product s.1 s.2) ∧
    coeff r = averaged (n := 3) {(⟨1⟩ : Rel)} (fun _ => 1) ∧ project three (coeff r) = coeff sixTerms := by
  refine filter_projects (n := 3) (v := three) (k := 6 / 5) three_projector (Nat.lt_succ_self 2) (fun _ => 0) {(⟨1⟩ : Rel)} (fun _ => 1) (fun _ _ => one_ne_zero) ?_
    (fun _ _ _ => rfl) ?_ sixTerms ?_ ?_
  · intro x hx g h
    rw [Finset.mem_singleton] at hx
    subst hx
    have : g.1 * 1 * g.2⁻¹ = 1 := congrArg Rel.perm h
    rwa [mul_one, mul_inv_eq_one] at this
  · intro x hx y hy _
    rw [Finset.mem_singleton] at hx hy
    rw [hx, hy]
  · decide +kernel
  · funext t
    obtain ⟨p⟩ := t
    unfold expanded
    simp only [sum_six]
    have h : (six.all fun p => decide (coeff sixTerms ⟨p⟩ = ∑ x ∈ {(⟨1⟩ : Rel)}, 1 * (((Nat.factorial 3 : Nat) : ℚ)⁻¹ *
        (six.map fun σ => (six.map fun π => three π * if ((σ * π, σ) : Perm (Fin 3) × Perm (Fin 3)) • x = (⟨p⟩ : Rel) then 1 else 0).sum).sum))) = true := by
      decide +kernel
    exact of_decide_eq_true (List.all_eq_true.mp h p (mem_six p))

/-- A term in which only one of the first and one of the second external indices can be told from the others. -/
structure Pos where
  bra : Fin 3
  ket : Fin 3
deriving DecidableEq

instance : MulAction (Perm (Fin 3) × Perm (Fin 3)) Pos where
  smul g x := ⟨g.1 x.bra, g.2 x.ket⟩
  one_smul _ := rfl
  mul_smul _ _ _ := rfl

/-- **C124**, refuted for terms that keep other permutations: the result of the projection is too small by a factor of 4/5. -/
theorem projects_symmetric :
    let l : List (ℚ × Pos) := [(4 / 15, ⟨0, 0⟩), (4 / 15, ⟨1, 1⟩), (4 / 15, ⟨2, 2⟩), (-2 / 15, ⟨0, 1⟩), (-2 / 15, ⟨0, 2⟩), (-2 / 15, ⟨1, 0⟩),
      (-2 / 15, ⟨1, 2⟩), (-2 / 15, ⟨2, 0⟩), (-2 / 15, ⟨2, 1⟩)]
    let r : List (ℚ × Pos) := l.take 3
    (∀ i j, coeff l ⟨i, j⟩ = expanded three {(⟨0, 0⟩ : Pos)} (fun _ => 1) ⟨i, j⟩) ∧
      wkFilter abs (fun _ => 0) 3 (.sum (l.map fun s => .product s.1 s.2)) = .sum (r.map fun s => .product s.1 s.2) ∧
      ∀ i j, project three (coeff r) ⟨i, j⟩ = 4 / 5 * coeff l ⟨i, j⟩ ∧ coeff l ⟨i, j⟩ ≠ 0 := by decide +kernel

/-- **C124**, refuted if two of the terms `x` have the same hash value, as the terms `x` and those with two first indices exchanged do. -/
theorem projects_same_hash :
    let a : Rel → ℚ := fun _ => 1
    let X : Finset Rel := {⟨1⟩, ⟨Equiv.swap 0 1⟩}
    let l := six.map fun p => (expanded three X a ⟨p⟩, (⟨p⟩ : Rel))
    ∃ r, wkFilter abs (fun _ => 0) 3 (.sum (l.map fun s => .product s.1 s.2)) = .sum (r.map fun s => .product s.1 s.2) ∧
      project three (coeff r) ⟨Equiv.swap 0 1⟩ ≠ coeff l ⟨Equiv.swap 0 1⟩ :=
  ⟨[(4 / 5, ⟨1⟩)], by
    unfold expanded project
    simp only [sum_six]
    decide +kernel⟩

/-- **C124**, refuted for summands that are no products: they are dropped. -/
theorem others_dropped (mod : ℚ → ℚ) (hash : Nat → Nat) (t u : Nat) :
    wkFilter mod hash 3 (.sum [.product 1 t, .other u]) = .sum [.product 1 t] := rfl

end examples

end SeQuant.Wk
