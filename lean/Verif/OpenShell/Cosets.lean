import Verif.OpenShell.Model
import Verif.Spin.OpProps
import Mathlib.GroupTheory.Perm.Sign
import Mathlib.Data.Fintype.Perm
import Mathlib.Data.Fintype.BigOperators
import Mathlib.Data.List.Nodup
import Mathlib.Data.List.Pairwise
import Mathlib.Data.Finset.Sort

/-!
# The permutations are representatives of cosets
-/

namespace SeQuant.OpenShell

open SeQuant.Spins (swapProd swapProd_notin)

/-- The positions of spin α if the last `i` have spin β. -/
def Up (n i : Nat) (j : Fin n) : Prop := j.val < n - i

instance (n i : Nat) : DecidablePred (Up n i) := fun j => inferInstanceAs (Decidable (j.val < n - i))

/-- The permutation keeps the spins. -/
def Keeps (n i : Nat) (h : Equiv.Perm (Fin n)) : Prop := ∀ j, Up n i (h j) ↔ Up n i j

instance (n i : Nat) (h : Equiv.Perm (Fin n)) : Decidable (Keeps n i h) := inferInstanceAs (Decidable (∀ _, _))

/-- How many positions of spin α go to positions of spin β. -/
def crossers (n i : Nat) (σ : Equiv.Perm (Fin n)) : Nat := (Finset.univ.filter fun j => Up n i j ∧ ¬ Up n i (σ j)).card

/-! ## Lists of exchanges -/

/-- The list consists of pairs of an α and a β position, all different. -/
def Alt {n : Nat} (i : Nat) : List (Fin n) → Prop
  | [] => True
  | a :: c :: l => Up n i a ∧ ¬ Up n i c ∧ a ∉ l ∧ c ∉ l ∧ Alt i l
  | [_] => False

theorem alt_moves {n i : Nat} : ∀ {l : List (Fin n)}, Alt i l → ∀ x, ((Up n i (swapProd l x) ↔ Up n i x) ↔ x ∉ l)
  | [], _, x => by simp [swapProd]
  | [_], h, _ => h.elim
  | a :: c :: l, ⟨ha, hc, hal, hcl, hl⟩, x => by
    have ih := alt_moves hl x
    have hac : a ≠ c := fun e => hc (e ▸ ha)
    rw [swapProd, Equiv.Perm.mul_apply]
    by_cases hxa : x = a
    · subst hxa
      rw [swapProd_notin l x hal, Equiv.swap_apply_left]
      simp [ha, hc]
    · by_cases hxc : x = c
      · subst hxc
        rw [swapProd_notin l x hcl, Equiv.swap_apply_right]
        simp [ha, hc]
      · by_cases hx : x ∈ l
        · have hm := SeQuant.Spins.swapProd_mem l x hx
          rw [Equiv.swap_apply_of_ne_of_ne (fun e : swapProd l x = a => hal (e ▸ hm)) (fun e : swapProd l x = c => hcl (e ▸ hm)), ih]
          simp [hx]
        · rw [swapProd_notin l x hx, Equiv.swap_apply_of_ne_of_ne hxa hxc]
          simp [hx, hxa, hxc]

theorem alt_sign {n i : Nat} : ∀ {l : List (Fin n)}, Alt i l → (Equiv.Perm.sign (swapProd l) : Int) = (-1) ^ (l.length / 2)
  | [], _ => by simp [swapProd]
  | [_], h => h.elim
  | a :: c :: l, ⟨ha, hc, _, _, hl⟩ => by
    have hac : a ≠ c := fun e => hc (e ▸ ha)
    rw [swapProd, map_mul, Equiv.Perm.sign_swap hac, Units.val_mul, alt_sign hl]
    have : (a :: c :: l).length / 2 = l.length / 2 + 1 := by simp only [List.length_cons]; omega
    rw [this, pow_succ]
    simp [mul_comm]

/-! ## Which lists occur -/

theorem mem_pairs {α : Type} : ∀ {l : List α} {x y : α}, (x, y) ∈ pairs l ↔ [x, y].Sublist l
  | [], x, y => by simp [pairs]
  | z :: l, x, y => by
    rw [pairs, List.mem_append, mem_pairs, List.mem_map]
    constructor
    · rintro (⟨w, hw, e⟩ | h)
      · cases e
        exact (List.singleton_sublist.2 hw).cons_cons _
      · exact h.cons _
    · intro h
      cases h with
      | cons _ h => exact .inr h
      | cons_cons _ h => exact .inl ⟨y, List.singleton_sublist.1 h, rfl⟩

theorem sublist_pair {n : Nat} {l : List (Fin n)} (hs : l.Pairwise (· < ·)) {x y : Fin n} :
    [x, y].Sublist l ↔ x ∈ l ∧ y ∈ l ∧ x < y := by
  constructor
  · intro h
    refine ⟨h.subset (by simp), h.subset (by simp), ?_⟩
    have := hs.sublist h
    simpa using this
  · rintro ⟨hx, hy, hxy⟩
    induction l with
    | nil => simp at hx
    | cons z l ih =>
      rw [List.pairwise_cons] at hs
      rcases List.mem_cons.1 hx with rfl | hx
      · rcases List.mem_cons.1 hy with rfl | hy
        · exact absurd hxy (lt_irrefl _)
        · exact (List.singleton_sublist.2 hy).cons_cons _
      · rcases List.mem_cons.1 hy with rfl | hy
        · exact absurd (hs.1 x ‹x ∈ l›) (not_lt.2 hxy.le)
        · exact (ih hs.2 hx hy).cons _

theorem nodup_pairs {α : Type} : ∀ {l : List α}, l.Nodup → (pairs l).Nodup
  | [], _ => by simp [pairs]
  | z :: l, h => by
    rw [List.nodup_cons] at h
    rw [pairs, List.nodup_append']
    refine ⟨List.Nodup.map (fun a b e => by cases e; rfl) h.2, nodup_pairs h.2, ?_⟩
    intro p hp hq
    obtain ⟨x, y⟩ := p
    rw [List.mem_map] at hp
    obtain ⟨w, hw, e⟩ := hp
    cases e
    exact h.1 ((mem_pairs.1 hq).subset (by simp))

theorem alpha_sorted (n i : Nat) : (alphaSpin n i).Pairwise (· < ·) :=
  (List.pairwise_lt_finRange n).sublist (List.take_sublist _ _)

theorem beta_sorted (n i : Nat) : (betaSpin n i).Pairwise (· < ·) :=
  (List.pairwise_lt_finRange n).sublist (List.drop_sublist _ _)

theorem mem_alpha {n i : Nat} (j : Fin n) : j ∈ alphaSpin n i ↔ Up n i j := by
  rw [alphaSpin, List.mem_take_iff_getElem, Up]
  constructor
  · rintro ⟨k, hk, rfl⟩
    simp at hk ⊢
    omega
  · intro h
    refine ⟨j.val, by simp; omega, by simp⟩

theorem mem_beta {n i : Nat} (j : Fin n) : j ∈ betaSpin n i ↔ ¬ Up n i j := by
  rw [betaSpin, List.mem_drop_iff_getElem, Up]
  constructor
  · rintro ⟨k, hk, rfl⟩
    simp
  · intro h
    refine ⟨j.val - (n - i), by simp; omega, ?_⟩
    ext
    simp
    omega

/-- The lists of positions. -/
theorem mem_permutations {n i : Nat} (p : Int × List (Fin n)) :
    p ∈ permutations n i ↔ p = (1, []) ∨ (∃ j k, Up n i j ∧ ¬ Up n i k ∧ p = (-1, [j, k])) ∨
      ∃ a b c d, Up n i a ∧ Up n i b ∧ a < b ∧ ¬ Up n i c ∧ ¬ Up n i d ∧ c < d ∧ p = (1, [a, c, b, d]) := by
  rw [permutations, List.mem_cons, List.mem_map]
  apply or_congr Iff.rfl
  constructor
  · rintro ⟨l, hl, rfl⟩
    rw [pList, List.mem_append] at hl
    rcases hl with hl | hl
    · left
      rw [List.mem_flatMap] at hl
      obtain ⟨j, hj, hl⟩ := hl
      rw [List.mem_map] at hl
      obtain ⟨k, hk, rfl⟩ := hl
      exact ⟨j, k, (mem_alpha j).1 hj, (mem_beta k).1 hk, rfl⟩
    · right
      split at hl
      · rw [List.mem_flatMap] at hl
        obtain ⟨⟨a, b⟩, hj, hl⟩ := hl
        rw [List.mem_map] at hl
        obtain ⟨⟨c, d⟩, hk, rfl⟩ := hl
        obtain ⟨h1, h2, h3⟩ := (sublist_pair (alpha_sorted n i)).1 (mem_pairs.1 hj)
        obtain ⟨h4, h5, h6⟩ := (sublist_pair (beta_sorted n i)).1 (mem_pairs.1 hk)
        exact ⟨a, b, c, d, (mem_alpha a).1 h1, (mem_alpha b).1 h2, h3, (mem_beta c).1 h4, (mem_beta d).1 h5, h6, rfl⟩
      · simp at hl
  · rintro (⟨j, k, hj, hk, rfl⟩ | ⟨a, b, c, d, ha, hb, hab, hc, hd, hcd, rfl⟩)
    · refine ⟨[j, k], ?_, rfl⟩
      rw [pList, List.mem_append]
      left
      rw [List.mem_flatMap]
      exact ⟨j, (mem_alpha j).2 hj, List.mem_map.2 ⟨k, (mem_beta k).2 hk, rfl⟩⟩
    · refine ⟨[a, c, b, d], ?_, rfl⟩
      have h1 := (sublist_pair (alpha_sorted n i)).2 ⟨(mem_alpha a).2 ha, (mem_alpha b).2 hb, hab⟩
      have h2 := (sublist_pair (beta_sorted n i)).2 ⟨(mem_beta c).2 hc, (mem_beta d).2 hd, hcd⟩
      rw [pList, List.mem_append]
      right
      rw [if_pos ⟨h1.length_le, h2.length_le⟩, List.mem_flatMap]
      exact ⟨(a, b), mem_pairs.2 h1, List.mem_map.2 ⟨(c, d), mem_pairs.2 h2, rfl⟩⟩

theorem nodup_permutations (n i : Nat) : (permutations n i).Nodup := by
  have hα : (alphaSpin n i).Nodup := (alpha_sorted n i).imp fun h => ne_of_lt h
  have hβ : (betaSpin n i).Nodup := (beta_sorted n i).imp fun h => ne_of_lt h
  have hp : (pList n i).Nodup := by
    rw [pList, List.nodup_append']
    refine ⟨?_, ?_, ?_⟩
    · rw [List.nodup_flatMap]
      refine ⟨fun j _ => List.Nodup.map (fun a b e => by simpa using e) hβ, hα.imp ?_⟩
      intro a b hab l h1 h2
      rw [List.mem_map] at h1 h2
      obtain ⟨k, -, rfl⟩ := h1
      obtain ⟨k', -, e⟩ := h2
      simp only [List.cons.injEq] at e
      exact hab e.1.symm
    · split
      · rw [List.nodup_flatMap]
        refine ⟨fun j _ => List.Nodup.map (fun a b e => ?_) (nodup_pairs hβ), (nodup_pairs hα).imp ?_⟩
        · simp only [List.cons.injEq, true_and, and_true] at e
          exact Prod.ext e.1 e.2
        · intro a b hab l h1 h2
          rw [List.mem_map] at h1 h2
          obtain ⟨k, -, rfl⟩ := h1
          obtain ⟨k', -, e⟩ := h2
          simp only [List.cons.injEq, and_true] at e
          exact hab (Prod.ext e.1.symm e.2.2.1.symm)
      · exact List.nodup_nil
    · intro l h1 h2
      rw [List.mem_flatMap] at h1
      obtain ⟨j, -, h1⟩ := h1
      rw [List.mem_map] at h1
      obtain ⟨k, -, rfl⟩ := h1
      split at h2
      · rw [List.mem_flatMap] at h2
        obtain ⟨x, -, h2⟩ := h2
        rw [List.mem_map] at h2
        obtain ⟨y, -, h2⟩ := h2
        simp at h2
      · simp at h2
  rw [permutations, List.nodup_cons]
  refine ⟨?_, List.Nodup.map (fun a b e => (Prod.mk.inj e).2) hp⟩
  intro h
  rw [List.mem_map] at h
  obtain ⟨l, hl, e⟩ := h
  obtain rfl := (Prod.mk.inj e).2
  have := (mem_permutations (i := i) (prefactor ([] : List (Fin n)), [])).1
    (by rw [permutations]; exact List.mem_cons_of_mem _ (List.mem_map.2 ⟨[], hl, rfl⟩))
  simp [prefactor] at this

/-- What is known of an element of the list. -/
theorem permutations_alt {n i : Nat} {p : Int × List (Fin n)} (hp : p ∈ permutations n i) :
    Alt i p.2 ∧ p.1 = (Equiv.Perm.sign (swapProd p.2) : Int) ∧ p.2.length / 2 ≤ 2 := by
  have key : Alt i p.2 ∧ p.1 = (-1) ^ (p.2.length / 2) ∧ p.2.length / 2 ≤ 2 := by
    rw [mem_permutations] at hp
    rcases hp with rfl | ⟨j, k, hj, hk, rfl⟩ | ⟨a, b, c, d, ha, hb, hab, hc, hd, hcd, rfl⟩
    · exact ⟨trivial, by simp, by simp⟩
    · exact ⟨⟨hj, hk, by simp, by simp, trivial⟩, by simp, by simp⟩
    · refine ⟨⟨ha, hc, ?_, ?_, hb, hd, by simp, by simp, trivial⟩, by simp, by simp⟩
      · simp only [List.mem_cons, List.not_mem_nil, or_false, not_or]
        exact ⟨ne_of_lt hab, fun e => hd (e ▸ ha)⟩
      · simp only [List.mem_cons, List.not_mem_nil, or_false, not_or]
        exact ⟨fun e => hc (e ▸ hb), ne_of_lt hcd⟩
  exact ⟨key.1, by rw [alt_sign key.1, key.2.1], key.2.2⟩

/-! ## One representative for each coset -/

/-- The positions that change spin. -/
def moved (n i : Nat) (σ : Equiv.Perm (Fin n)) : Finset (Fin n) := Finset.univ.filter fun j => ¬ (Up n i (σ j) ↔ Up n i j)

theorem moved_alt {n i : Nat} {l : List (Fin n)} (h : Alt i l) : moved n i (swapProd l) = l.toFinset := by
  ext x
  rw [moved, Finset.mem_filter, alt_moves h x]
  simp

theorem keeps_iff {n i : Nat} (σ ρ : Equiv.Perm (Fin n)) : Keeps n i (σ * ρ⁻¹) ↔ moved n i σ = moved n i ρ := by
  constructor
  · intro h
    ext x
    have := h (ρ x)
    rw [Equiv.Perm.mul_apply, show ρ⁻¹ (ρ x) = x by simp] at this
    simp only [moved, Finset.mem_filter, Finset.mem_univ, true_and]
    rw [this]
  · intro h j
    have : (ρ⁻¹ j) ∈ moved n i σ ↔ (ρ⁻¹ j) ∈ moved n i ρ := by rw [h]
    simp only [moved, Finset.mem_filter, Finset.mem_univ, true_and, show ρ (ρ⁻¹ j) = j by simp] at this
    rw [Equiv.Perm.mul_apply]
    tauto

theorem moved_up {n i : Nat} (σ : Equiv.Perm (Fin n)) : ((moved n i σ).filter (Up n i ·)).card = crossers n i σ := by
  rw [crossers, moved, Finset.filter_filter]
  congr 1
  ext x
  simp only [Finset.mem_filter, Finset.mem_univ, true_and]
  tauto

theorem moved_down {n i : Nat} (σ : Equiv.Perm (Fin n)) : ((moved n i σ).filter (¬ Up n i ·)).card = crossers n i σ := by
  have e1 : ((moved n i σ).filter (¬ Up n i ·)) = Finset.univ.filter fun j => Up n i (σ j) ∧ ¬ Up n i j := by
    ext x
    simp only [moved, Finset.mem_filter, Finset.mem_univ, true_and]
    tauto
  have e2 : (Finset.univ.filter fun j => Up n i (σ j)).card = (Finset.univ.filter fun j => Up n i j).card := by
    apply Finset.card_bij (fun j _ => σ j)
    · intro a ha; simpa using ha
    · intro a _ b _ h; exact σ.injective h
    · intro b hb; exact ⟨σ⁻¹ b, by simpa using hb, by simp⟩
  have e3 := Finset.card_filter_add_card_filter_not (s := Finset.univ.filter fun j => Up n i (σ j)) (fun j => Up n i j)
  have e4 := Finset.card_filter_add_card_filter_not (s := Finset.univ.filter fun j => Up n i j) (fun j => Up n i (σ j))
  rw [Finset.filter_filter, Finset.filter_filter] at e3 e4
  have e5 : (Finset.univ.filter fun j => Up n i j ∧ Up n i (σ j)) = Finset.univ.filter fun j => Up n i (σ j) ∧ Up n i j := by
    ext x; simp [and_comm]
  rw [e5] at e4
  rw [e1, crossers]
  omega

theorem filter_split {n i : Nat} (s : Finset (Fin n)) : s = s.filter (Up n i ·) ∪ s.filter (¬ Up n i ·) :=
  (Finset.filter_union_filter_not_eq _ _).symm

theorem pair_sorted {n : Nat} {s : Finset (Fin n)} (h : s.card = 2) : ∃ a b, a < b ∧ s = {a, b} := by
  obtain ⟨a, b, hab, rfl⟩ := Finset.card_eq_two.1 h
  rcases lt_or_gt_of_ne hab with h | h
  · exact ⟨a, b, h, rfl⟩
  · exact ⟨b, a, h, Finset.pair_comm a b⟩

/-- Few crossings have a representative. -/
theorem exists_rep {n i : Nat} (σ : Equiv.Perm (Fin n)) (h : crossers n i σ ≤ 2) :
    ∃ p ∈ permutations n i, moved n i σ = p.2.toFinset := by
  have h1 := moved_up (i := i) σ
  have h2 := moved_down (i := i) σ
  have h3 := filter_split (i := i) (moved n i σ)
  have mu : ∀ x ∈ (moved n i σ).filter (Up n i ·), Up n i x := fun x hx => (Finset.mem_filter.1 hx).2
  have md : ∀ x ∈ (moved n i σ).filter (¬ Up n i ·), ¬ Up n i x := fun x hx => (Finset.mem_filter.1 hx).2
  generalize (moved n i σ).filter (Up n i ·) = s at h1 h3 mu
  generalize (moved n i σ).filter (¬ Up n i ·) = t at h2 h3 md
  rw [h3]
  obtain hc | hc | hc : crossers n i σ = 0 ∨ crossers n i σ = 1 ∨ crossers n i σ = 2 := by omega
  · rw [hc, Finset.card_eq_zero] at h1 h2
    exact ⟨(1, []), by rw [mem_permutations]; simp, by simp [h1, h2]⟩
  · rw [hc, Finset.card_eq_one] at h1 h2
    obtain ⟨j, rfl⟩ := h1
    obtain ⟨k, rfl⟩ := h2
    refine ⟨(-1, [j, k]), (mem_permutations _).2 (.inr (.inl ⟨j, k, mu j (by simp), md k (by simp), rfl⟩)), ?_⟩
    ext x; simp
  · rw [hc] at h1 h2
    obtain ⟨a, b, hab, rfl⟩ := pair_sorted h1
    obtain ⟨c, d, hcd, rfl⟩ := pair_sorted h2
    refine ⟨(1, [a, c, b, d]), (mem_permutations _).2 (.inr (.inr ⟨a, b, c, d, mu a (by simp), mu b (by simp), hab, md c (by simp), md d (by simp), hcd, rfl⟩)), ?_⟩
    ext x; simp; tauto

theorem alt_crossers {n i : Nat} : ∀ {l : List (Fin n)}, Alt i l → crossers n i (swapProd l) = l.length / 2 := by
  intro l hl
  rw [← moved_up, moved_alt hl]
  induction l using List.twoStepInduction with
  | nil => simp
  | singleton _ => exact hl.elim
  | cons_cons a c l ih _ =>
    obtain ⟨ha, hc, hal, hcl, hl⟩ := hl
    have hac : a ≠ c := fun e => hc (e ▸ ha)
    have : (a :: c :: l).toFinset.filter (Up n i ·) = insert a (l.toFinset.filter (Up n i ·)) := by
      ext x
      simp only [List.toFinset_cons, Finset.mem_filter, Finset.mem_insert, List.mem_toFinset]
      constructor
      · rintro ⟨rfl | rfl | hx, hu⟩
        · exact .inl rfl
        · exact absurd hu hc
        · exact .inr ⟨hx, hu⟩
      · rintro (rfl | ⟨hx, hu⟩)
        · exact ⟨.inl rfl, ha⟩
        · exact ⟨.inr (.inr hx), hu⟩
    rw [this, Finset.card_insert_of_notMem (by simp [hal]), ih hl]
    simp only [List.length_cons]
    omega

theorem pair_eq {n : Nat} {a b c d : Fin n} (hab : a < b) (hcd : c < d) (h : ({a, b} : Finset (Fin n)) = {c, d}) : a = c ∧ b = d := by
  have h1 : a ∈ ({c, d} : Finset (Fin n)) := h ▸ by simp
  have h2 : b ∈ ({c, d} : Finset (Fin n)) := h ▸ by simp
  have h3 : c ∈ ({a, b} : Finset (Fin n)) := h ▸ by simp
  simp only [Finset.mem_insert, Finset.mem_singleton] at h1 h2 h3
  rcases h1 with rfl | rfl
  · rcases h2 with rfl | rfl
    · exact absurd hab (lt_irrefl _)
    · exact ⟨rfl, rfl⟩
  · rcases h2 with rfl | rfl
    · exact absurd (hab.trans hcd) (lt_irrefl _)
    · exact absurd hab (lt_irrefl _)

/-- The representative is unique. -/
theorem rep_unique {n i : Nat} {p q : Int × List (Fin n)} (hp : p ∈ permutations n i) (hq : q ∈ permutations n i)
    (h : p.2.toFinset = q.2.toFinset) : p = q := by
  obtain ⟨ap, -, lp⟩ := permutations_alt hp
  obtain ⟨aq, -, lq⟩ := permutations_alt hq
  have hlen : p.2.length / 2 = q.2.length / 2 := by
    rw [← alt_crossers ap, ← alt_crossers aq, ← moved_up, ← moved_up, moved_alt ap, moved_alt aq, h]
  have hu : ∀ x, Up n i x → (x ∈ p.2 ↔ x ∈ q.2) := fun x _ => by
    rw [← List.mem_toFinset, h, List.mem_toFinset]
  have hall : ∀ x, x ∈ p.2 ↔ x ∈ q.2 := fun x => by
    rw [← List.mem_toFinset, h, List.mem_toFinset]
  rw [mem_permutations] at hp hq
  rcases hp with rfl | ⟨j, k, hj, hk, rfl⟩ | ⟨a, b, c, d, ha, hb, hab, hc, hd, hcd, rfl⟩ <;>
    rcases hq with rfl | ⟨j', k', hj', hk', rfl⟩ | ⟨a', b', c', d', ha', hb', hab', hc', hd', hcd', rfl⟩ <;>
    simp only [List.length_cons, List.length_nil] at hlen <;> try omega
  · rfl
  · have h1 := (hall j).1 (by simp)
    have h2 := (hall k).1 (by simp)
    simp only [List.mem_cons, List.not_mem_nil, or_false] at h1 h2
    rcases h1 with rfl | rfl
    · rcases h2 with rfl | rfl
      · exact absurd hj hk
      · rfl
    · exact absurd hj hk'
  · have e1 : ({a, b} : Finset (Fin n)) = {a', b'} := by
      ext x
      have := hall x
      simp only [List.mem_cons, List.not_mem_nil, or_false] at this
      simp only [Finset.mem_insert, Finset.mem_singleton]
      constructor
      · rintro (rfl | rfl)
        · rcases this.1 (by simp) with rfl | rfl | rfl | rfl <;> simp_all
        · rcases this.1 (by simp) with rfl | rfl | rfl | rfl <;> simp_all
      · rintro (rfl | rfl)
        · rcases this.2 (by simp) with rfl | rfl | rfl | rfl <;> simp_all
        · rcases this.2 (by simp) with rfl | rfl | rfl | rfl <;> simp_all
    have e2 : ({c, d} : Finset (Fin n)) = {c', d'} := by
      ext x
      have := hall x
      simp only [List.mem_cons, List.not_mem_nil, or_false] at this
      simp only [Finset.mem_insert, Finset.mem_singleton]
      constructor
      · rintro (rfl | rfl)
        · rcases this.1 (by simp) with rfl | rfl | rfl | rfl <;> simp_all
        · rcases this.1 (by simp) with rfl | rfl | rfl | rfl <;> simp_all
      · rintro (rfl | rfl)
        · rcases this.2 (by simp) with rfl | rfl | rfl | rfl <;> simp_all
        · rcases this.2 (by simp) with rfl | rfl | rfl | rfl <;> simp_all
    obtain ⟨rfl, rfl⟩ := pair_eq hab hab' e1
    obtain ⟨rfl, rfl⟩ := pair_eq hcd hcd' e2
    rfl

/-- How many representatives a permutation has. -/
theorem count_reps (n i : Nat) (σ : Equiv.Perm (Fin n)) :
    (permutations n i).countP (fun p => decide (Keeps n i (σ * (swapProd p.2)⁻¹))) = if crossers n i σ ≤ 2 then 1 else 0 := by
  have hk : ∀ p ∈ permutations n i, (Keeps n i (σ * (swapProd p.2)⁻¹) ↔ moved n i σ = p.2.toFinset) := by
    intro p hp
    rw [keeps_iff, moved_alt (permutations_alt hp).1]
  split
  · rename_i h
    obtain ⟨p, hp, he⟩ := exists_rep σ h
    rw [List.countP_eq_length_filter]
    have hmem : ∀ q, q ∈ (permutations n i).filter (fun p => decide (Keeps n i (σ * (swapProd p.2)⁻¹))) ↔ q = p := by
      intro q
      rw [List.mem_filter, decide_eq_true_eq]
      constructor
      · rintro ⟨hq, hq'⟩
        exact rep_unique hq hp (by rw [← (hk q hq).1 hq', he])
      · rintro rfl
        exact ⟨hp, (hk q hp).2 he⟩
    have hn : ((permutations n i).filter (fun p => decide (Keeps n i (σ * (swapProd p.2)⁻¹)))).Nodup :=
      (nodup_permutations n i).filter _
    have : ((permutations n i).filter (fun p => decide (Keeps n i (σ * (swapProd p.2)⁻¹)))).Perm [p] := by
      rw [List.perm_ext_iff_of_nodup hn (List.nodup_singleton p)]
      intro q
      rw [hmem, List.mem_singleton]
    rw [this.length_eq]
    rfl
  · rename_i h
    rw [List.countP_eq_zero]
    intro p hp hx
    rw [decide_eq_true_eq, hk p hp, ← moved_alt (permutations_alt hp).1] at hx
    apply h
    obtain ⟨ap, -, lp⟩ := permutations_alt hp
    rw [← moved_up, hx, moved_up, alt_crossers ap]
    exact lp

end SeQuant.OpenShell
