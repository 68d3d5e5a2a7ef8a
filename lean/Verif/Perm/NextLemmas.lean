import Verif.Perm.Model
import Verif.Sort.Lemmas
import Mathlib.Order.Basic
import Mathlib.Data.List.Lex
import Mathlib.Data.List.Sort
import Mathlib.Tactic.Linarith

/-!
# Auxiliary facts for `next_permutation_parity`
-/

namespace SeQuant.Perm

open SeQuant.Sort

variable {α : Type}

/-- `n` exchanges of adjacent elements. -/
abbrev Adj (n : Nat) (l l' : List α) : Prop := Swaps (fun _ _ => true) n l l'

theorem Adj.prepend {n : Nat} {a b : List α} (p : List α) (h : Adj n a b) : Adj n (p ++ a) (p ++ b) := by
  induction p with
  | nil => exact h
  | cons x p ih => exact ih.cons x

theorem Adj.append {n : Nat} {a b : List α} (t : List α) (h : Adj n a b) : Adj n (a ++ t) (b ++ t) := by
  induction h with
  | refl => exact Swaps.refl _
  | step p q x y _ hc ih =>
    have := Swaps.step (comp := fun _ _ => true) p (q ++ t) x y (by simpa using ih) rfl
    simpa using this

theorem adj_move (x : α) (s t : List α) : Adj s.length (x :: (s ++ t)) (s ++ x :: t) := by
  induction s with
  | nil => exact Swaps.refl _
  | cons y s ih =>
    have h1 : Adj 1 (x :: y :: (s ++ t)) (y :: x :: (s ++ t)) :=
      Swaps.step [] (s ++ t) x y (Swaps.refl _) rfl
    have := Swaps.trans h1 (ih.cons y)
    simpa [Nat.add_comm] using this

theorem adj_move' (x : α) (s t : List α) : Adj s.length (s ++ x :: t) (x :: (s ++ t)) := by
  induction s with
  | nil => exact Swaps.refl _
  | cons y s ih =>
    have h1 : Adj 1 (y :: x :: (s ++ t)) (x :: y :: (s ++ t)) :=
      Swaps.step [] (s ++ t) y x (Swaps.refl _) rfl
    have := Swaps.trans (ih.cons y) h1
    simpa [Nat.add_comm] using this

theorem adj_swap (x y : α) (s t : List α) :
    Adj (2 * s.length + 1) (x :: (s ++ y :: t)) (y :: (s ++ x :: t)) := by
  have h1 := (adj_move' y s t).cons x
  have h2 : Adj 1 (x :: y :: (s ++ t)) (y :: x :: (s ++ t)) :=
    Swaps.step [] (s ++ t) x y (Swaps.refl _) rfl
  have h3 := (adj_move x s t).cons y
  have := Swaps.trans (Swaps.trans h1 h2) h3
  have e : s.length + 1 + s.length = 2 * s.length + 1 := by omega
  rwa [e] at this

theorem adj_reverse (l : List α) : ∃ n, Adj n l l.reverse ∧ n % 2 = l.length / 2 % 2 := by
  induction h : l.length using Nat.strongRecOn generalizing l with
  | ind k ih =>
    match l, h with
    | [], h => exact ⟨0, Swaps.refl _, by simp at h; simp [← h]⟩
    | [x], h => exact ⟨0, Swaps.refl _, by simp at h; simp [← h]⟩
    | x :: y :: r, h =>
      obtain ⟨m, z, hm⟩ : ∃ m z, y :: r = m ++ [z] :=
        ⟨(y :: r).dropLast, (y :: r).getLast (by simp), (List.dropLast_concat_getLast (by simp)).symm⟩
      rw [hm] at h ⊢
      simp only [List.length_cons, List.length_append, List.length_nil] at h
      obtain ⟨n, hn, hp⟩ := ih m.length (by omega) m rfl
      have h1 := adj_swap x z m []
      have h2 : Adj n (z :: (m ++ [x])) (z :: (m.reverse ++ [x])) := (Adj.append [x] hn).cons z
      refine ⟨_, by simpa using Swaps.trans h1 h2, ?_⟩
      subst h
      have e : (m.length + (0 + 1) + 1) / 2 = m.length / 2 + 1 := by omega
      rw [e]
      omega

section Order
variable [LinearOrder α]

theorem desc_max (s m : List α) (hs : s.Pairwise (fun a b => b ≤ a)) (hp : m.Perm s) : ¬ s < m := by
  induction s generalizing m with
  | nil => simp [List.perm_nil.mp hp]
  | cons x s ih =>
    cases m with
    | nil => simp
    | cons y m =>
      rw [List.cons_lt_cons_iff]
      rintro (h | ⟨rfl, h⟩)
      · have : y ∈ x :: s := hp.subset (by simp)
        rcases List.mem_cons.mp this with rfl | hy
        · exact lt_irrefl _ h
        · exact absurd ((List.pairwise_cons.mp hs).1 y hy) (not_le.mpr h)
      · exact ih m (List.pairwise_cons.mp hs).2 (List.Perm.cons_inv hp) h

theorem asc_min (s m : List α) (hs : s.Pairwise (· ≤ ·)) (hp : m.Perm s) : ¬ m < s := by
  induction s generalizing m with
  | nil => simp
  | cons x s ih =>
    cases m with
    | nil => simp at hp
    | cons y m =>
      rw [List.cons_lt_cons_iff]
      rintro (h | ⟨rfl, h⟩)
      · have : y ∈ x :: s := hp.subset (by simp)
        rcases List.mem_cons.mp this with rfl | hy
        · exact lt_irrefl _ h
        · exact absurd ((List.pairwise_cons.mp hs).1 y hy) (not_le.mpr h)
      · exact ih m (List.pairwise_cons.mp hs).2 (List.Perm.cons_inv hp) h

/-- The combinatorial core: `p ++ a :: (s₁ ++ b :: s₂)` with a descending tail, `a < b` and `b` the last
element larger than `a`. -/
theorem succ_core (p s₁ s₂ : List α) (a b : α)
    (hd : (s₁ ++ b :: s₂).Pairwise (fun x y => y ≤ x)) (hab : a < b)
    (h₂ : ∀ x ∈ s₂, x ≤ a) (m : List α)
    (hm : m.Perm (p ++ a :: (s₁ ++ b :: s₂))) (hlt : p ++ a :: (s₁ ++ b :: s₂) < m) :
    ¬ m < p ++ b :: (s₁ ++ a :: s₂).reverse := by
  induction p generalizing m with
  | nil =>
    simp only [List.nil_append] at *
    cases m with
    | nil => simp at hlt
    | cons x m =>
      rw [List.cons_lt_cons_iff] at hlt ⊢
      rcases hlt with hax | ⟨rfl, hlt⟩
      · have hx : x ∈ s₁ ++ b :: s₂ := by
          have : x ∈ a :: (s₁ ++ b :: s₂) := hm.subset (by simp)
          rcases List.mem_cons.mp this with rfl | h
          · exact absurd hax (lt_irrefl _)
          · exact h
        rw [List.pairwise_append] at hd
        have hbx : b ≤ x := by
          rcases List.mem_append.mp hx with h | h
          · exact hd.2.2 x h b (by simp)
          · rcases List.mem_cons.mp h with rfl | h
            · exact le_refl _
            · exact absurd (h₂ x h) (not_le.mpr hax)
        rintro (h | ⟨rfl, h⟩)
        · exact absurd hbx (not_le.mpr h)
        · refine asc_min _ m ?_ ?_ h
          · rw [List.pairwise_reverse, List.pairwise_append]
            refine ⟨hd.1, ?_, ?_⟩
            · rw [List.pairwise_cons]
              exact ⟨h₂, (List.pairwise_cons.mp hd.2.1).2⟩
            · intro y hy z hz
              rcases List.mem_cons.mp hz with rfl | hz
              · exact le_trans hab.le (hd.2.2 y hy x (by simp))
              · exact hd.2.2 y hy z (by simp [hz])
          · have h1 : (x :: m).Perm (x :: (s₁ ++ a :: s₂).reverse) := by
              refine hm.trans ?_
              refine List.Perm.trans ?_ (List.Perm.cons x (List.reverse_perm _).symm)
              have := (adj_swap a x s₁ s₂).perm
              exact this.symm
            exact List.Perm.cons_inv h1
      · exact absurd hlt (desc_max _ m hd (List.Perm.cons_inv hm))
  | cons y p ih =>
    cases m with
    | nil => simp at hlt
    | cons x m =>
      simp only [List.cons_append] at *
      rw [List.cons_lt_cons_iff] at hlt ⊢
      rcases hlt with h | ⟨rfl, h⟩
      · rintro (h' | ⟨rfl, h'⟩)
        · exact lt_asymm h h'
        · exact lt_irrefl _ h
      · rintro (h' | ⟨_, h'⟩)
        · exact lt_irrefl _ h'
        · exact ih m (List.Perm.cons_inv hm) h h'

end Order

theorem cmpAt_eq (comp : α → α → Bool) (l : List α) (i j : Nat) (hi : i < l.length) (hj : j < l.length) :
    cmpAt comp l i j = some (comp l[i] l[j]) := by
  simp [cmpAt, hi, hj]

theorem findPivot_spec (comp : α → α → Bool) (l : List α) (k : Nat) (hk : k < l.length) :
    (findPivot comp l k = some none ∧
      ∀ i (_ : i < k), comp l[i] l[i + 1] = false) ∨
    (∃ i, ∃ _ : i < k, findPivot comp l k = some (some i) ∧ comp l[i] l[i + 1] = true ∧
      ∀ i' (_ : i' < k), i < i' → comp l[i'] l[i' + 1] = false) := by
  induction k with
  | zero => left; exact ⟨rfl, fun i h => by omega⟩
  | succ k ih =>
    rw [findPivot, cmpAt_eq comp l k (k + 1) (by omega) (by omega)]
    cases hc : comp l[k] l[k + 1] with
    | true =>
      right
      exact ⟨k, by omega, rfl, hc, fun i' h1 h2 => by omega⟩
    | false =>
      simp only
      rcases ih (by omega) with ⟨h1, h2⟩ | ⟨i, hi, h1, h2, h3⟩
      · left
        refine ⟨h1, fun i h => ?_⟩
        rcases Nat.lt_succ_iff_lt_or_eq.mp h with h | rfl
        · exact h2 i h
        · exact hc
      · right
        refine ⟨i, by omega, h1, h2, fun i' h h' => ?_⟩
        rcases Nat.lt_succ_iff_lt_or_eq.mp h with h | rfl
        · exact h3 i' h h'
        · exact hc

theorem findSwap_spec (comp : α → α → Bool) (l : List α) (i k : Nat) (hi : i < l.length)
    (hk : k ≤ l.length) (w : Nat) (hw : w < k) (hwc : comp l[i] l[w] = true) :
    ∃ j, ∃ _ : j < k, findSwap comp l i k = some j ∧ w ≤ j ∧ comp l[i] l[j] = true ∧
      ∀ j' (_ : j' < k), j < j' → comp l[i] l[j'] = false := by
  induction k with
  | zero => omega
  | succ k ih =>
    rw [findSwap, cmpAt_eq comp l i k hi (by omega)]
    cases hc : comp l[i] l[k] with
    | true => exact ⟨k, by omega, rfl, by omega, hc, fun j' h1 h2 => by omega⟩
    | false =>
      simp only
      have hwk : w < k := by
        rcases Nat.lt_succ_iff_lt_or_eq.mp hw with h | rfl
        · exact h
        · rw [hwc] at hc; cases hc
      obtain ⟨j, hj, h1, h2, h3, h4⟩ := ih (by omega) hwk hwc
      refine ⟨j, by omega, h1, h2, h3, fun j' h h' => ?_⟩
      rcases Nat.lt_succ_iff_lt_or_eq.mp h with h | rfl
      · exact h4 j' h h'
      · exact hc

theorem split_at (l : List α) (i : Nat) (hi : i < l.length) :
    l = l.take i ++ l[i] :: l.drop (i + 1) := by
  rw [List.cons_getElem_drop_succ]; simp

/-- The result of one call in terms of a decomposition of the range. -/
theorem next_cases (comp : α → α → Bool) (parity : Nat) (l : List α) :
    (l.IsChain (fun x y => comp x y = false) ∧
      nextPermutationParity comp parity l =
        some (false, l.reverse, if l.length ≤ 1 then parity else (parity + l.length / 2) % 2)) ∨
    (∃ p s₁ s₂ a b, l = p ++ a :: (s₁ ++ b :: s₂) ∧
      (s₁ ++ b :: s₂).IsChain (fun x y => comp x y = false) ∧ comp a b = true ∧
      (∀ x ∈ s₂, comp a x = false) ∧
      nextPermutationParity comp parity l =
        some (true, p ++ b :: (s₁ ++ a :: s₂).reverse,
          (parity + 1 + (s₁.length + s₂.length + 1) / 2) % 2)) := by
  by_cases hlen : l.length ≤ 1
  · left
    match l, hlen with
    | [], _ => simp [nextPermutationParity]
    | [x], _ => simp [nextPermutationParity]
  · rcases findPivot_spec comp l (l.length - 1) (by omega) with ⟨h1, h2⟩ | ⟨i, hi, h1, h2, h3⟩
    · left
      refine ⟨?_, ?_⟩
      · rw [List.isChain_iff_getElem]
        intro i hi
        exact h2 i (by omega)
      · simp [nextPermutationParity, hlen, h1, reverseFrom]
    · right
      obtain ⟨j, hj, g1, g2, g3, g4⟩ := findSwap_spec comp l i l.length (by omega) (by omega)
        (i + 1) (by omega) h2
      let s := l.drop (i + 1)
      have hsl : s.length = l.length - (i + 1) := by simp [s]
      have hsg : ∀ k (hk : k < s.length), s[k] = l[i + 1 + k] := by
        intro k hk; simp [s]
      let k := j - (i + 1)
      have hk : k < s.length := by omega
      have hsk : s[k] = l[j] := by rw [hsg]; congr 1; omega
      have es : s = s.take k ++ s[k] :: s.drop (k + 1) := split_at s k hk
      have el : l = l.take i ++ l[i] :: s := split_at l i (by omega)
      refine ⟨l.take i, s.take k, s.drop (k + 1), l[i], s[k], ?_, ?_, ?_, ?_, ?_⟩
      · rw [← es]; exact el
      · rw [← es, List.isChain_iff_getElem]
        intro m hm
        rw [hsg, hsg]
        have := h3 (i + 1 + m) (by omega) (by omega)
        simpa [Nat.add_assoc] using this
      · rw [hsk]; exact g3
      · intro x hx
        obtain ⟨m, hm, rfl⟩ := List.getElem_of_mem hx
        rw [List.getElem_drop, hsg]
        rw [List.length_drop] at hm
        exact g4 (i + 1 + (k + 1 + m)) (by omega) (by omega)
      · have e1 : iterSwap l i j = some (l.take i ++ s[k] :: (s.take k ++ l[i] :: s.drop (k + 1))) := by
          rw [iterSwap, List.getElem?_eq_getElem (show i < l.length by omega), List.getElem?_eq_getElem hj]
          simp only [Option.some.injEq]
          rw [← hsk]
          generalize hx : l[i] = x at *
          generalize hy : s[k] = y at *
          have li : (l.take i).length = i := by rw [List.length_take]; omega
          have lk : (s.take k).length = k := by rw [List.length_take]; omega
          generalize l.take i = p at *
          generalize s.take k = s1 at *
          generalize s.drop (k + 1) = s2 at *
          rw [el, es]
          rw [List.set_append_right _ _ (by omega), li]
          simp only [Nat.sub_self, List.set_cons_zero]
          rw [List.set_append_right _ _ (by omega), li]
          rw [show j - i = k + 1 by omega, List.set_cons_succ]
          rw [List.set_append_right _ _ (by omega), lk]
          simp
        have li : (l.take i).length = i := by rw [List.length_take]; omega
        simp only [nextPermutationParity, if_neg hlen, h1, g1, e1, Option.some.injEq, Prod.mk.injEq,
          true_and]
        refine ⟨?_, ?_⟩
        · rw [reverseFrom]
          have e2 : ∀ (p q : List α) (y : α), p.length = i →
              (p ++ y :: q).take (i + 1) = p ++ [y] ∧ (p ++ y :: q).drop (i + 1) = q := by
            intro p q y hp
            subst hp
            constructor
            · rw [List.take_length_add_append]; simp
            · rw [List.drop_length_add_append]; simp
          obtain ⟨t1, t2⟩ := e2 (l.take i) (s.take k ++ l[i] :: s.drop (k + 1)) s[k] li
          rw [t1, t2]
          simp
        · have e3 : l.length - (i + 1) = (s.take k).length + (s.drop (k + 1)).length + 1 := by
            have q1 : (s.take k).length = k := by rw [List.length_take]; omega
            have q2 : (s.drop (k + 1)).length = s.length - (k + 1) := List.length_drop
            rw [q1, q2]
            omega
          rw [e3]

theorem next_adj (comp : α → α → Bool) (parity : Nat) (l l' : List α) (r : Bool) (parity' : Nat)
    (h : nextPermutationParity comp parity l = some (r, l', parity')) :
    ∃ n, Adj n l l' ∧ parity' % 2 = (parity + n) % 2 := by
  rcases next_cases comp parity l with ⟨_, h1⟩ | ⟨p, s₁, s₂, a, b, e, _, _, _, h1⟩
  · rw [h1] at h
    simp only [Option.some.injEq, Prod.mk.injEq] at h
    obtain ⟨_, rfl, hp⟩ := h
    obtain ⟨n, hn, hm⟩ := adj_reverse l
    refine ⟨n, hn, ?_⟩
    rw [← hp]
    split
    · rename_i hl
      have : l.length / 2 = 0 := by omega
      omega
    · omega
  · rw [h1] at h
    simp only [Option.some.injEq, Prod.mk.injEq] at h
    obtain ⟨_, rfl, hp⟩ := h
    have k1 := Adj.prepend p (adj_swap a b s₁ s₂)
    obtain ⟨n, hn, hm⟩ := adj_reverse (s₁ ++ a :: s₂)
    have k2 : Adj n (p ++ b :: (s₁ ++ a :: s₂)) (p ++ b :: (s₁ ++ a :: s₂).reverse) :=
      Adj.prepend p (hn.cons b)
    refine ⟨_, by rw [e]; exact Swaps.trans k1 k2, ?_⟩
    rw [← hp]
    simp only [List.length_append, List.length_cons] at hm
    rw [show s₁.length + (s₂.length + 1) = s₁.length + s₂.length + 1 by omega] at hm
    omega

end SeQuant.Perm
