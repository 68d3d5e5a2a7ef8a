import Verif.Perm.NextLemmas
import Mathlib.Data.List.Permutation

/-!
# C07: `next_permutation_parity`

Ranges are compared lexicographically with the order on `List` (`<`).  The element type is an arbitrary linear order;
elements may repeat.
-/

namespace SeQuant.Perm

open SeQuant.Sort

variable {α : Type}

/-- For every comparator whatsoever and every range the function stays inside of the range. -/
theorem next_defined (comp : α → α → Bool) (parity : Nat) (l : List α) :
    ∃ r, nextPermutationParity comp parity l = some r := by
  rcases next_cases comp parity l with ⟨_, h⟩ | ⟨_, _, _, _, _, _, _, _, _, h⟩
  · exact ⟨_, h⟩
  · exact ⟨_, h⟩

/-- For every comparator: the new range is a permutation of the old one and the change of the parity flag is the
sign of that permutation. -/
theorem next_parity (comp : α → α → Bool) (parity : Nat) (l l' : List α) (r : Bool) (parity' : Nat)
    (h : nextPermutationParity comp parity l = some (r, l', parity')) :
    ∃ σ : Equiv.Perm (Fin l.length), l' = List.ofFn (fun i => l.get (σ i)) ∧
      (Equiv.Perm.sign σ = 1 ↔ parity' % 2 = parity % 2) := by
  obtain ⟨n, hn, hp⟩ := next_adj comp parity l l' r parity' h
  obtain ⟨σ, e, hs⟩ := hn.sign
  refine ⟨σ, e, ?_⟩
  rw [hs]
  rcases Nat.even_or_odd n with he | ho
  · rw [he.neg_one_pow]
    have := Nat.even_iff.mp he
    simp; omega
  · rw [ho.neg_one_pow]
    have := Nat.odd_iff.mp ho
    constructor
    · intro h; exact absurd h (by decide)
    · omega

section
variable [LinearOrder α]

/-- `true` is returned with the lexicographic successor: the next larger permutation, nothing in between. -/
theorem next_true (parity : Nat) (l l' : List α) (parity' : Nat)
    (h : nextPermutationParity (fun a b => decide (a < b)) parity l = some (true, l', parity')) :
    l'.Perm l ∧ l < l' ∧ ∀ m : List α, m.Perm l → l < m → ¬ m < l' := by
  rcases next_cases (fun a b => decide (a < b)) parity l with
    ⟨_, h1⟩ | ⟨p, s₁, s₂, a, b, e, hc, hab, h₂, h1⟩
  · rw [h1] at h; simp at h
  · obtain ⟨n, hn, _⟩ := next_adj _ parity l l' true parity' h
    rw [h1] at h
    simp only [Option.some.injEq, Prod.mk.injEq, true_and] at h
    obtain ⟨rfl, _⟩ := h
    simp only [decide_eq_true_eq, decide_eq_false_iff_not, not_lt] at hc hab h₂
    have hd : (s₁ ++ b :: s₂).Pairwise (fun x y => y ≤ x) := by
      have : IsTrans α (fun x y => y ≤ x) := ⟨fun a b c h1 h2 => le_trans h2 h1⟩
      exact List.isChain_iff_pairwise.mp hc
    refine ⟨hn.perm, ?_, ?_⟩
    · rw [e]
      clear hd hc h1 hn e
      induction p with
      | nil => rw [List.nil_append, List.nil_append, List.cons_lt_cons_iff]; exact Or.inl hab
      | cons x p ih => rw [List.cons_append, List.cons_append, List.cons_lt_cons_iff]; exact Or.inr ⟨rfl, ih⟩
    · intro m hm hlt
      rw [e] at hm hlt
      exact succ_core p s₁ s₂ a b hd hab h₂ m hm hlt

/-- `false` is returned exactly for the largest permutation, and the range then becomes the smallest one. -/
theorem next_false (parity : Nat) (l l' : List α) (parity' : Nat)
    (h : nextPermutationParity (fun a b => decide (a < b)) parity l = some (false, l', parity')) :
    l'.Perm l ∧ l'.Pairwise (· ≤ ·) ∧ (∀ m : List α, m.Perm l → ¬ l < m) ∧
      ∀ m : List α, m.Perm l → ¬ m < l' := by
  rcases next_cases (fun a b => decide (a < b)) parity l with
    ⟨hc, h1⟩ | ⟨p, s₁, s₂, a, b, e, hc, hab, h₂, h1⟩
  · rw [h1] at h
    simp only [Option.some.injEq, Prod.mk.injEq, true_and] at h
    obtain ⟨rfl, _⟩ := h
    simp only [decide_eq_false_iff_not, not_lt] at hc
    have hd : l.Pairwise (fun x y => y ≤ x) := by
      have : IsTrans α (fun x y => y ≤ x) := ⟨fun a b c h1 h2 => le_trans h2 h1⟩
      exact List.isChain_iff_pairwise.mp hc
    have ha : l.reverse.Pairwise (· ≤ ·) := List.pairwise_reverse.mpr hd
    refine ⟨List.reverse_perm l, ha, fun m hm => desc_max l m hd hm, fun m hm => ?_⟩
    exact asc_min _ m ha (hm.trans (List.reverse_perm l).symm)
  · rw [h1] at h; simp at h

theorem enumerate_from (l₀ : List α) (k : Nat) : ∀ (parity : Nat) (l : List α), l.Perm l₀ →
    ((l₀.permutations.toFinset.filter (l < ·)).card ≤ k) →
    ∀ fuel, k < fuel →
    ∃ vs, enumerate (fun a b => decide (a < b)) fuel parity l = some vs ∧
      (vs.map Prod.fst).Pairwise (· < ·) ∧
      (∀ m, m ∈ vs.map Prod.fst ↔ m.Perm l₀ ∧ ¬ m < l) ∧
      (∀ v ∈ vs, ∃ n, Adj n l v.1 ∧ v.2 % 2 = (parity + n) % 2) := by
  induction k with
  | zero =>
    intro parity l hl hk fuel hf
    obtain ⟨fuel, rfl⟩ : ∃ f, fuel = f + 1 := ⟨fuel - 1, by omega⟩
    obtain ⟨⟨r, l', p'⟩, hr⟩ := next_defined (fun a b => decide (a < b)) parity l
    cases r with
    | true =>
      obtain ⟨h1, h2, _⟩ := next_true parity l l' p' hr
      exfalso
      have : l' ∈ l₀.permutations.toFinset.filter (l < ·) := by
        simp only [Finset.mem_filter, List.mem_toFinset, List.mem_permutations]
        exact ⟨h1.trans hl, h2⟩
      have := Finset.card_pos.mpr ⟨_, this⟩
      omega
    | false =>
      obtain ⟨_, _, h3, _⟩ := next_false parity l l' p' hr
      refine ⟨[(l, parity)], by simp [enumerate, hr], by simp, ?_, ?_⟩
      · intro m
        simp only [List.map_cons, List.map_nil, List.mem_singleton]
        constructor
        · rintro rfl; exact ⟨hl, lt_irrefl m⟩
        · rintro ⟨hm, h⟩
          exact le_antisymm (not_lt.mp (h3 m (hm.trans hl.symm))) (not_lt.mp h)
      · intro v hv
        rw [List.mem_singleton] at hv
        subst hv
        exact ⟨0, Swaps.refl _, by simp⟩
  | succ k ih =>
    intro parity l hl hk fuel hf
    obtain ⟨fuel, rfl⟩ : ∃ f, fuel = f + 1 := ⟨fuel - 1, by omega⟩
    obtain ⟨⟨r, l', p'⟩, hr⟩ := next_defined (fun a b => decide (a < b)) parity l
    cases r with
    | true =>
      obtain ⟨h1, h2, h3⟩ := next_true parity l l' p' hr
      obtain ⟨n, hn, hnp⟩ := next_adj _ parity l l' true p' hr
      have hcard : (l₀.permutations.toFinset.filter (l' < ·)).card <
          (l₀.permutations.toFinset.filter (l < ·)).card := by
        apply Finset.card_lt_card
        rw [Finset.ssubset_iff_of_subset]
        · refine ⟨l', ?_, ?_⟩
          · simp only [Finset.mem_filter, List.mem_toFinset, List.mem_permutations]
            exact ⟨h1.trans hl, h2⟩
          · simp
        · intro m hm
          simp only [Finset.mem_filter] at hm ⊢
          exact ⟨hm.1, lt_trans h2 hm.2⟩
      obtain ⟨vs, e, hpw, hmem, hpar⟩ := ih p' l' (h1.trans hl) (by omega) fuel (by omega)
      refine ⟨(l, parity) :: vs, by simp [enumerate, hr, e], ?_, ?_, ?_⟩
      · rw [List.map_cons, List.pairwise_cons]
        refine ⟨fun m hm => ?_, hpw⟩
        exact lt_of_lt_of_le h2 (not_lt.mp ((hmem m).mp hm).2)
      · intro m
        rw [List.map_cons, List.mem_cons, hmem]
        constructor
        · rintro (rfl | ⟨hm, h⟩)
          · exact ⟨hl, lt_irrefl _⟩
          · exact ⟨hm, fun h' => h (lt_trans h' h2)⟩
        · rintro ⟨hm, h⟩
          rcases eq_or_lt_of_le (not_lt.mp h) with h | h
          · exact Or.inl h.symm
          · exact Or.inr ⟨hm, h3 m (hm.trans hl.symm) h⟩
      · intro v hv
        rcases List.mem_cons.mp hv with rfl | hv
        · exact ⟨0, Swaps.refl _, by simp⟩
        · obtain ⟨n', hn', hp'⟩ := hpar v hv
          exact ⟨n + n', Swaps.trans hn hn', by omega⟩
    | false =>
      obtain ⟨_, _, h3, _⟩ := next_false parity l l' p' hr
      refine ⟨[(l, parity)], by simp [enumerate, hr], by simp, ?_, ?_⟩
      · intro m
        simp only [List.map_cons, List.map_nil, List.mem_singleton]
        constructor
        · rintro rfl; exact ⟨hl, lt_irrefl m⟩
        · rintro ⟨hm, h⟩
          exact le_antisymm (not_lt.mp (h3 m (hm.trans hl.symm))) (not_lt.mp h)
      · intro v hv
        rw [List.mem_singleton] at hv
        subst hv
        exact ⟨0, Swaps.refl _, by simp⟩

/-- Looping over `next_permutation_parity` from a sorted range with parity 0 terminates, visits every permutation of
the range exactly once and in ascending order, and each time the parity flag is the sign of the permutation
reached. -/
theorem enumerate_complete (l : List α) (hs : l.Pairwise (· ≤ ·)) :
    ∃ N, ∀ fuel, N ≤ fuel → ∃ vs, enumerate (fun a b => decide (a < b)) fuel 0 l = some vs ∧
      (vs.map Prod.fst).Pairwise (· < ·) ∧
      (∀ m, m ∈ vs.map Prod.fst ↔ m.Perm l) ∧
      (∀ v ∈ vs, ∃ σ : Equiv.Perm (Fin l.length), v.1 = List.ofFn (fun i => l.get (σ i)) ∧
        (Equiv.Perm.sign σ = 1 ↔ v.2 % 2 = 0)) := by
  refine ⟨(l.permutations.toFinset.filter (l < ·)).card + 1, fun fuel hf => ?_⟩
  obtain ⟨vs, e, hpw, hmem, hpar⟩ := enumerate_from l _ 0 l (List.Perm.refl l) (le_refl _) fuel (by omega)
  refine ⟨vs, e, hpw, fun m => ?_, fun v hv => ?_⟩
  · rw [hmem]
    exact ⟨fun h => h.1, fun h => ⟨h, asc_min l m hs h⟩⟩
  · obtain ⟨n, hn, hp⟩ := hpar v hv
    obtain ⟨σ, e, hsg⟩ := hn.sign
    refine ⟨σ, e, ?_⟩
    rw [hsg]
    rcases Nat.even_or_odd n with he | ho
    · rw [he.neg_one_pow]
      have := Nat.even_iff.mp he
      simp; omega
    · rw [ho.neg_one_pow]
      have := Nat.odd_iff.mp ho
      constructor
      · intro h; exact absurd h (by decide)
      · omega

end

example : nextPermutationParity (fun a b => decide (a < b)) 0 [1, 4, 3, 2] = some (true, [2, 1, 3, 4], 0) := by
  decide
example : nextPermutationParity (fun a b => decide (a < b)) 0 [4, 3, 2, 1] = some (false, [1, 2, 3, 4], 0) := by
  decide
example : [1, 2, 3].Pairwise (· ≤ ·) ∧ enumerate (fun a b => decide (a < b)) 10 0 [1, 2, 3] =
    some [([1, 2, 3], 0), ([1, 3, 2], 1), ([2, 1, 3], 1), ([2, 3, 1], 0), ([3, 1, 2], 0), ([3, 2, 1], 1)] := by
  decide
/-- Repeated elements: three distinct arrangements. -/
example : enumerate (fun a b => decide (a < b)) 10 0 [1, 1, 2] =
    some [([1, 1, 2], 0), ([1, 2, 1], 1), ([2, 1, 1], 1)] := by decide

end SeQuant.Perm
