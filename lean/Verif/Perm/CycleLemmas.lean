import Verif.Perm.Model
import Mathlib.Logic.Relation
import Mathlib.Data.Set.Card
import Mathlib.GroupTheory.Perm.Cycle.Basic
import Mathlib.Data.Fintype.BigOperators

/-!
# Union-find: auxiliary facts for `count_cycles`
-/

namespace SeQuant.Perm

variable {α : Type}

/-- `rep` gives the root of every slot; `depth` bounds the length of the path to it. -/
structure Forest (parent : Parent) (rep depth : Nat → Nat) : Prop where
  dec : ∀ x, parent x ≠ x → depth (parent x) < depth x
  step : ∀ x, rep (parent x) = rep x
  root : ∀ x, parent x = x → rep x = x

theorem Forest.root_rep {parent : Parent} {rep depth : Nat → Nat} (h : Forest parent rep depth) (x : Nat) :
    parent (rep x) = rep x := by
  induction hd : depth x using Nat.strongRecOn generalizing x with
  | ind d ih =>
    by_cases hx : parent x = x
    · rw [h.root x hx]; exact hx
    · rw [← h.step x]
      exact ih _ (by have := h.dec x hx; omega) (parent x) rfl

theorem find_spec (fuel : Nat) (parent : Parent) (rep depth : Nat → Nat) (x : Nat)
    (h : Forest parent rep depth) (hf : depth x < fuel) :
    ∃ parent', find fuel parent x = some (rep x, parent') ∧ Forest parent' rep depth := by
  induction fuel generalizing parent x with
  | zero => omega
  | succ fuel ih =>
    rw [find]
    by_cases hx : parent x = x
    · rw [if_neg (by simpa using hx), h.root x hx]
      exact ⟨parent, rfl, h⟩
    · rw [if_pos hx]
      have hd := h.dec x hx
      have hd2 : depth (parent (parent x)) < depth x := by
        by_cases hp : parent (parent x) = parent x
        · rw [hp]; exact hd
        · have := h.dec _ hp; omega
      have hne : parent (parent x) ≠ x := by
        intro e; rw [e] at hd2; omega
      have hF : Forest (fun y => if y = x then parent (parent x) else parent y) rep depth := by
        refine ⟨?_, ?_, ?_⟩
        · intro y hy
          by_cases hyx : y = x
          · subst hyx; simpa using hd2
          · simp only [hyx, if_false] at hy ⊢; exact h.dec y hy
        · intro y
          by_cases hyx : y = x
          · subst hyx; simp [h.step]
          · simp only [hyx, if_false]; exact h.step y
        · intro y hy
          by_cases hyx : y = x
          · subst hyx; simp at hy; exact absurd hy hne
          · simp only [hyx, if_false] at hy; exact h.root y hy
      obtain ⟨p', e, h'⟩ := ih _ (parent (parent x)) hF (by omega)
      refine ⟨p', ?_, h'⟩
      simp only [if_true]
      rw [e, h.step, h.step]

/-- `unite` merges two classes. -/
theorem unite_spec (fuel : Nat) (parent : Parent) (rep depth : Nat → Nat) (a b : Nat)
    (h : Forest parent rep depth) (hf : ∀ x, depth x < fuel) :
    ∃ parent', unite fuel parent a b = some parent' ∧
      Forest parent' (fun x => if rep x = rep a then rep b else rep x)
        (fun x => if rep x = rep a then depth x + depth (rep b) + 1 else depth x) := by
  obtain ⟨p1, e1, h1⟩ := find_spec fuel parent rep depth b h (hf b)
  obtain ⟨p2, e2, h2⟩ := find_spec fuel p1 rep depth a h1 (hf a)
  refine ⟨fun y => if y = rep a then rep b else p2 y, by simp [unite, e1, e2], ?_⟩
  have hra : rep (rep a) = rep a := h2.root _ (h2.root_rep a)
  have hrb : rep (rep b) = rep b := h2.root _ (h2.root_rep b)
  refine ⟨?_, ?_, ?_⟩
  · intro y hy
    by_cases hya : y = rep a
    · simp only [hya, if_true] at hy
      have hne : rep b ≠ rep a := hy
      simp only [hya, if_true, hra, hrb, hne, if_false]
      omega
    · simp only [hya, if_false] at hy
      have hd := h2.dec y hy
      have hs := h2.step y
      simp only [hya, if_false]
      by_cases hr : rep y = rep a
      · have hr' : rep (p2 y) = rep a := by rw [hs, hr]
        simp only [hr, hr', if_true]; omega
      · have hr' : rep (p2 y) ≠ rep a := by rw [hs]; exact hr
        simp only [hr, hr', if_false]; exact hd
  · intro y
    by_cases hya : y = rep a
    · subst hya
      simp [hra, hrb]
    · simp only [hya, if_false, h2.step]
  · intro y hy
    by_cases hya : y = rep a
    · simp only [hya, if_true] at hy
      subst hya
      simp [hra, hy]
    · simp only [hya, if_false] at hy
      have := h2.root y hy
      have hne : rep y ≠ rep a := by rw [this]; exact hya
      rw [if_neg hne]; exact this

/-- After any sequence of `unite` calls the classes are the connected components of the graph of edges. -/
theorem uniteAll_spec (es : List (Nat × Nat)) :
    ∀ (rep depth : Nat → Nat) (D : Nat), (∀ x, depth x ≤ D) → (∀ x, rep (rep x) = rep x) →
    ∃ D' rep' depth', (∀ x, depth' x ≤ D') ∧
      (∀ parent, Forest parent rep depth → ∀ fuel, D' < fuel →
        ∃ parent', uniteAll fuel parent es = some parent' ∧ Forest parent' rep' depth') ∧
      ∀ x y, rep' x = rep' y ↔
        Relation.EqvGen (fun a b => rep a = rep b ∨ (a, b) ∈ es) x y := by
  induction es with
  | nil =>
    intro rep depth D hD _
    refine ⟨D, rep, depth, hD, fun parent h fuel _ => ⟨parent, rfl, h⟩, fun x y => ?_⟩
    simp only [List.not_mem_nil, or_false]
    constructor
    · intro e; exact Relation.EqvGen.rel _ _ e
    · intro e
      induction e with
      | rel _ _ h => exact h
      | refl => rfl
      | symm _ _ _ ih => exact ih.symm
      | trans _ _ _ _ _ ih1 ih2 => exact ih1.trans ih2
  | cons e es ih =>
    obtain ⟨a, b⟩ := e
    intro rep depth D hD hid
    have hD1 : ∀ x, (if rep x = rep a then depth x + depth (rep b) + 1 else depth x) ≤ 2 * D + 1 := by
      intro x
      have h1 := hD x
      have h2 := hD (rep b)
      split <;> omega
    have hid1 : ∀ x, (fun x => if rep x = rep a then rep b else rep x)
        ((fun x => if rep x = rep a then rep b else rep x) x) =
        (fun x => if rep x = rep a then rep b else rep x) x := by
      intro x
      simp only
      by_cases hx : rep x = rep a
      · simp only [hx, if_true, hid]; split <;> rfl
      · simp only [hx, if_false, hid]
    obtain ⟨D', rep', depth', hb, hrun, hrel⟩ :=
      ih (fun x => if rep x = rep a then rep b else rep x) _ (2 * D + 1) hD1 hid1
    refine ⟨max D' D, rep', depth', fun x => le_trans (hb x) (le_max_left _ _), ?_, ?_⟩
    · intro parent h fuel hf
      obtain ⟨p1, e1, hF⟩ := unite_spec fuel parent rep depth a b h
        (fun x => by have := hD x; have := le_max_right D' D; omega)
      obtain ⟨p2, e2, hF2⟩ := hrun p1 hF fuel (by have := le_max_left D' D; omega)
      exact ⟨p2, by simp [uniteAll, e1, e2], hF2⟩
    · intro x y
      rw [hrel]
      have hab : Relation.EqvGen (fun c d => rep c = rep d ∨ (c, d) ∈ (a, b) :: es) a b :=
        Relation.EqvGen.rel _ _ (Or.inr (by simp))
      constructor
      · intro g
        induction g with
        | rel c d hcd =>
          rcases hcd with hcd | hcd
          · have key : ∀ z, Relation.EqvGen (fun c d => rep c = rep d ∨ (c, d) ∈ (a, b) :: es) z
                (if rep z = rep a then rep b else rep z) := by
              intro z
              by_cases hz : rep z = rep a
              · rw [if_pos hz]
                refine Relation.EqvGen.trans _ a _ (Relation.EqvGen.rel _ _ (Or.inl hz)) ?_
                refine Relation.EqvGen.trans _ b _ hab ?_
                exact Relation.EqvGen.rel _ _ (Or.inl (hid b).symm)
              · rw [if_neg hz]
                exact Relation.EqvGen.rel _ _ (Or.inl (hid z).symm)
            refine Relation.EqvGen.trans _ _ _ (key c) ?_
            rw [hcd]
            exact Relation.EqvGen.symm _ _ (key d)
          · exact Relation.EqvGen.rel _ _ (Or.inr (by simp [hcd]))
        | refl => exact Relation.EqvGen.refl _
        | symm _ _ _ ih => exact Relation.EqvGen.symm _ _ ih
        | trans _ _ _ _ _ ih1 ih2 => exact Relation.EqvGen.trans _ _ _ ih1 ih2
      · intro g
        induction g with
        | rel c d hcd =>
          rcases hcd with hcd | hcd
          · exact Relation.EqvGen.rel _ _ (Or.inl (by simp [hcd]))
          · rcases List.mem_cons.mp hcd with hcd | hcd
            · simp only [Prod.mk.injEq] at hcd
              refine Relation.EqvGen.rel _ _ (Or.inl ?_)
              rw [hcd.1, hcd.2]
              by_cases hh : rep b = rep a <;> simp [hh]
            · exact Relation.EqvGen.rel _ _ (Or.inr hcd)
        | refl => exact Relation.EqvGen.refl _
        | symm _ _ _ ih => exact Relation.EqvGen.symm _ _ ih
        | trans _ _ _ _ _ ih1 ih2 => exact Relation.EqvGen.trans _ _ _ ih1 ih2

theorem countRoots_spec (fuel : Nat) (is : List Nat) (parent : Parent) (rep depth : Nat → Nat)
    (h : Forest parent rep depth) (hf : ∀ x, depth x < fuel) :
    countRoots fuel parent is = some (is.countP fun i => decide (rep i = i)) := by
  induction is generalizing parent with
  | nil => rfl
  | cons i is ih =>
    obtain ⟨p', e, h'⟩ := find_spec fuel parent rep depth i h (hf i)
    rw [countRoots, e]
    simp only [ih p' h', Option.map_some, List.countP_cons]
    by_cases hi : rep i = i <;> simp [hi]

theorem contractionEdges_rel [DecidableEq α] (vs : List α) :
    ∀ (first : List (α × Nat)) (slot : Nat),
    (∀ a b, (a, b) ∈ contractionEdges first slot vs →
      ∃ j, ∃ _ : j < vs.length, b = slot + j ∧
        (first.lookup vs[j] = some a ∨ ∃ i, ∃ _ : i < j, a = slot + i ∧ vs[i] = vs[j])) ∧
    (∀ j (_ : j < vs.length) a, first.lookup vs[j] = some a →
      (a, slot + j) ∈ contractionEdges first slot vs) ∧
    (∀ i j (_ : i < j) (_ : j < vs.length), vs[i] = vs[j] →
      Relation.EqvGen (fun a b => (a, b) ∈ contractionEdges first slot vs) (slot + i) (slot + j)) := by
  induction vs with
  | nil =>
    intro first slot
    refine ⟨fun a b h => by simp [contractionEdges] at h, fun j h => by simp at h, fun i j _ h => by simp at h⟩
  | cons v vs ih =>
    intro first slot
    cases hl : first.lookup v with
    | none =>
      have he : contractionEdges first slot (v :: vs) =
          contractionEdges ((v, slot) :: first) (slot + 1) vs := by rw [contractionEdges, hl]
      rw [he]
      obtain ⟨h1, h2, h3⟩ := ih ((v, slot) :: first) (slot + 1)
      have hlook : ∀ w, ((v, slot) :: first).lookup w = if w = v then some slot else first.lookup w := by
        intro w
        rw [List.lookup_cons]
        by_cases hw : w = v
        · simp [hw]
        · have : (w == v) = false := by simpa using hw
          simp [this, hw]
      refine ⟨?_, ?_, ?_⟩
      · intro a b hab
        obtain ⟨j, hj, rfl, hc⟩ := h1 a b hab
        refine ⟨j + 1, by simpa using hj, by omega, ?_⟩
        simp only [List.getElem_cons_succ]
        rcases hc with hc | ⟨i, hi, rfl, hv⟩
        · rw [hlook] at hc
          split at hc
          · rename_i hw
            simp only [Option.some.injEq] at hc
            right
            exact ⟨0, by omega, by omega, by simpa using hw.symm⟩
          · left; exact hc
        · right
          exact ⟨i + 1, by omega, by omega, by simpa using hv⟩
      · intro j hj a ha
        cases j with
        | zero => simp only [List.getElem_cons_zero] at ha; rw [hl] at ha; cases ha
        | succ j =>
          simp only [List.getElem_cons_succ] at ha
          have hne : vs[j]'(by simpa using hj) ≠ v := by
            intro e; rw [e, hl] at ha; cases ha
          have := h2 j (by simpa using hj) a (by rw [hlook, if_neg hne]; exact ha)
          rw [show slot + (j + 1) = slot + 1 + j by omega]
          exact this
      · intro i j hij hj hv
        obtain ⟨j, rfl⟩ : ∃ j', j = j' + 1 := ⟨j - 1, by omega⟩
        cases i with
        | zero =>
          simp only [List.getElem_cons_zero, List.getElem_cons_succ] at hv
          have := h2 j (by simpa using hj) slot (by rw [hlook, if_pos hv.symm])
          rw [show slot + (j + 1) = slot + 1 + j by omega]
          exact Relation.EqvGen.rel _ _ this
        | succ i =>
          simp only [List.getElem_cons_succ] at hv
          have := h3 i j (by omega) (by simpa using hj) hv
          rw [show slot + (j + 1) = slot + 1 + j by omega, show slot + (i + 1) = slot + 1 + i by omega]
          exact this
    | some s =>
      have he : contractionEdges first slot (v :: vs) =
          (s, slot) :: contractionEdges first (slot + 1) vs := by rw [contractionEdges, hl]
      rw [he]
      obtain ⟨h1, h2, h3⟩ := ih first (slot + 1)
      refine ⟨?_, ?_, ?_⟩
      · intro a b hab
        rcases List.mem_cons.mp hab with hab | hab
        · simp only [Prod.mk.injEq] at hab
          obtain ⟨rfl, rfl⟩ := hab
          exact ⟨0, by simp, by omega, Or.inl (by simpa using hl)⟩
        · obtain ⟨j, hj, rfl, hc⟩ := h1 a b hab
          refine ⟨j + 1, by simpa using hj, by omega, ?_⟩
          simp only [List.getElem_cons_succ]
          rcases hc with hc | ⟨i, hi, rfl, hv⟩
          · left; exact hc
          · right; exact ⟨i + 1, by omega, by omega, by simpa using hv⟩
      · intro j hj a ha
        cases j with
        | zero =>
          simp only [List.getElem_cons_zero] at ha
          rw [hl] at ha
          simp only [Option.some.injEq] at ha
          simp [ha]
        | succ j =>
          simp only [List.getElem_cons_succ] at ha
          have := h2 j (by simpa using hj) a ha
          rw [show slot + (j + 1) = slot + 1 + j by omega]
          exact List.mem_cons_of_mem _ this
      · intro i j hij hj hv
        obtain ⟨j, rfl⟩ : ∃ j', j = j' + 1 := ⟨j - 1, by omega⟩
        cases i with
        | zero =>
          simp only [List.getElem_cons_zero, List.getElem_cons_succ] at hv
          have := h2 j (by simpa using hj) s (by rw [← hv]; exact hl)
          rw [show slot + (j + 1) = slot + 1 + j by omega, Nat.add_zero]
          refine Relation.EqvGen.trans _ s _ ?_ ?_
          · exact Relation.EqvGen.symm _ _ (Relation.EqvGen.rel _ _ (by simp))
          · exact Relation.EqvGen.rel _ _ (List.mem_cons_of_mem _ this)
        | succ i =>
          simp only [List.getElem_cons_succ] at hv
          have := h3 i j (by omega) (by simpa using hj) hv
          rw [show slot + (j + 1) = slot + 1 + j by omega, show slot + (i + 1) = slot + 1 + i by omega]
          exact Relation.EqvGen.mono (fun _ _ h => List.mem_cons_of_mem _ h) _ _ this

end SeQuant.Perm
