import Verif.Partners.Model
import Mathlib.Data.Finset.Powerset
import Mathlib.Data.Finset.Image
import Mathlib.Data.List.Nodup
import Mathlib.Data.List.Perm.Basic
import Mathlib.Tactic.Common
import Mathlib.Tactic.Ring

/-!
# C119: partner indices and the factor for closed cycles
-/

namespace SeQuant.Partners

variable {ι : Type} [DecidableEq ι]

/-! ## What is meant -/

/-- The index of the annihilator of a contraction. -/
def annOf (q : Q ι × Q ι) : ι := if q.1.cre then q.2.index else q.1.index

/-- The index of the creator of a contraction. -/
def creOf (q : Q ι × Q ι) : ι := if q.1.cre then q.1.index else q.2.index

/-- Each contraction is of a creator and an annihilator, and no operator is contracted twice. -/
structure Proper (C : List (Q ι × Q ι)) : Prop where
  kinds : ∀ q ∈ C, q.1.cre ≠ q.2.cre
  ann : (C.map annOf).Nodup
  cre : (C.map creOf).Nodup

/-- No creator and no annihilator is in two pairs. -/
structure Distinct (P : List (ι × ι)) : Prop where
  cre : (P.map Prod.fst).Nodup
  ann : (P.map Prod.snd).Nodup

/-- The ways to give a spin to each pair (`T` has those with spin up) so that contracted operators have equal spins. -/
def spinWays (P : List (ι × ι)) (C : List (Q ι × Q ι)) : Finset (Finset (ι × ι)) :=
  P.toFinset.powerset.filter fun T => ∀ q ∈ C, ∀ x ∈ P, ∀ y ∈ P, x.2 = annOf q → y.1 = creOf q → (x ∈ T ↔ y ∈ T)

/-- From a creator one gets to an annihilator going along pairs and contractions. -/
inductive Reach (P : List (ι × ι)) (C : List (Q ι × Q ι)) : ι → ι → Prop
  | pair {f g : ι} : (f, g) ∈ P → Reach P C f g
  | cons {f g : ι} (q : Q ι × Q ι) : (f, annOf q) ∈ P → q ∈ C → Reach P C (creOf q) g → Reach P C f g

/-! ## One contraction -/

omit [DecidableEq ι] in
theorem pair_of_fst {P : List (ι × ι)} (h : Distinct P) {x y : ι × ι} (hx : x ∈ P) (hy : y ∈ P) (e : x.1 = y.1) : x = y :=
  List.inj_on_of_nodup_map h.cre hx hy e

omit [DecidableEq ι] in
theorem pair_of_snd {P : List (ι × ι)} (h : Distinct P) {x y : ι × ι} (hx : x ∈ P) (hy : y ∈ P) (e : x.2 = y.2) : x = y :=
  List.inj_on_of_nodup_map h.ann hx hy e

omit [DecidableEq ι] in
theorem Distinct.nodup {P : List (ι × ι)} (h : Distinct P) : P.Nodup := List.Nodup.of_map _ h.cre

omit [DecidableEq ι] in
theorem Distinct.perm {P P' : List (ι × ι)} (h : Distinct P) (e : P.Perm P') : Distinct P' :=
  ⟨(e.map _).nodup_iff.1 h.cre, (e.map _).nodup_iff.1 h.ann⟩

theorem isAnn_iff (q : Q ι × Q ι) (hq : q.1.cre ≠ q.2.cre) (p : ι × ι) : isAnn q p = true ↔ p.2 = annOf q := by
  obtain ⟨⟨c1, i1⟩, ⟨c2, i2⟩⟩ := q
  cases c1 <;> cases c2 <;> simp_all [isAnn, annOf]

theorem isCre_iff (q : Q ι × Q ι) (hq : q.1.cre ≠ q.2.cre) (p : ι × ι) : isCre q p = true ↔ p.1 = creOf q := by
  obtain ⟨⟨c1, i1⟩, ⟨c2, i2⟩⟩ := q
  cases c1 <;> cases c2 <;> simp_all [isCre, creOf]

theorem set_erase_perm {α : Type} [DecidableEq α] (P : List α) (i j : Nat) (hij : i ≠ j) (x y z : α) (hi : P[i]? = some x) (hj : P[j]? = some y) :
    ∃ rest, P.Perm (x :: y :: rest) ∧ ((P.set i z).eraseIdx j).Perm (z :: rest) := by
  obtain ⟨li, rfl⟩ := List.getElem?_eq_some_iff.1 hi
  obtain ⟨lj, rfl⟩ := List.getElem?_eq_some_iff.1 hj
  have h1 : P.Perm (P[i] :: P.eraseIdx i) := (List.getElem_cons_eraseIdx_perm li).symm
  have h2 : (P.set i z).Perm (z :: P.eraseIdx i) := List.set_perm_cons_eraseIdx li z
  have hmem : P[j] ∈ P.eraseIdx i := List.mem_eraseIdx_iff_getElem.2 ⟨j, lj, hij.symm, rfl⟩
  have h3 : (P.eraseIdx i).Perm (P[j] :: (P.eraseIdx i).erase P[j]) := List.perm_cons_erase hmem
  have lj' : j < (P.set i z).length := by rw [List.length_set]; exact lj
  have h4 : ((P.set i z)[j] :: (P.set i z).eraseIdx j).Perm (P.set i z) := List.getElem_cons_eraseIdx_perm lj'
  rw [List.getElem_set_ne hij] at h4
  refine ⟨(P.eraseIdx i).erase P[j], h1.trans (h3.cons _), ?_⟩
  have h5 : (P[j] :: (P.set i z).eraseIdx j).Perm (P[j] :: z :: (P.eraseIdx i).erase P[j]) :=
    h4.trans (h2.trans ((h3.cons z).trans (List.Perm.swap _ _ _)))
  exact h5.cons_inv

/-- What one pass does: nothing, or it closes a cycle, or it merges two pairs. -/
theorem mergeStep_cases (P : List (ι × ι)) (n : Nat) (q : Q ι × Q ι) (hq : q.1.cre ≠ q.2.cre) :
    ((annOf q ∉ P.map Prod.snd ∨ creOf q ∉ P.map Prod.fst) ∧ mergeStep (P, n) q = (P, n)) ∨
    (∃ rest, P.Perm ((creOf q, annOf q) :: rest) ∧ (mergeStep (P, n) q).1.Perm rest ∧ (mergeStep (P, n) q).2 = n + 1) ∨
    (∃ x y rest, P.Perm ((x, annOf q) :: (creOf q, y) :: rest) ∧ (mergeStep (P, n) q).1.Perm ((x, y) :: rest) ∧ (mergeStep (P, n) q).2 = n) := by
  unfold mergeStep
  rcases hi : P.findIdx? (isAnn q) with _ | i
  · left
    refine ⟨.inl fun hm => ?_, rfl⟩
    rw [List.findIdx?_eq_none_iff] at hi
    obtain ⟨p, hp, e⟩ := List.mem_map.1 hm
    have := hi p hp
    rw [(isAnn_iff q hq p).2 e] at this
    cases this
  rcases hj : P.findIdx? (isCre q) with _ | j
  · left
    refine ⟨.inr fun hm => ?_, rfl⟩
    rw [List.findIdx?_eq_none_iff] at hj
    obtain ⟨p, hp, e⟩ := List.mem_map.1 hm
    have := hj p hp
    rw [(isCre_iff q hq p).2 e] at this
    cases this
  right
  rw [List.findIdx?_eq_some_iff_getElem] at hi hj
  obtain ⟨li, hi, -⟩ := hi
  obtain ⟨lj, hj, -⟩ := hj
  rw [isAnn_iff q hq] at hi
  rw [isCre_iff q hq] at hj
  simp only
  by_cases hij : i = j
  · subst hij
    left
    rw [if_pos rfl]
    have hx : P[i] = (creOf q, annOf q) := Prod.ext hj hi
    refine ⟨P.eraseIdx i, ?_, List.Perm.refl _, rfl⟩
    rw [← hx]
    exact (List.getElem_cons_eraseIdx_perm li).symm
  · right
    rw [if_neg hij]
    have gi : P[i]? = some (P[i].1, annOf q) := by rw [List.getElem?_eq_getElem li, ← hi]
    have gj : P[j]? = some (creOf q, P[j].2) := by rw [List.getElem?_eq_getElem lj, ← hj]
    rw [gi, gj]
    split
    · obtain ⟨rest, h1, h2⟩ := set_erase_perm P i j hij _ _ (P[i].1, P[j].2) gi gj
      exact ⟨_, _, rest, h1, h2, rfl⟩
    · obtain ⟨rest, h1, h2⟩ := set_erase_perm P j i (Ne.symm hij) _ _ (P[i].1, P[j].2) gj gi
      exact ⟨_, _, rest, h1.trans (List.Perm.swap _ _ _), h2, rfl⟩

/-! ## Spins -/

theorem spinWays_perm {P P' : List (ι × ι)} (h : P.Perm P') (C : List (Q ι × Q ι)) : spinWays P C = spinWays P' C := by
  unfold spinWays
  rw [List.toFinset_eq_of_perm _ _ h]
  simp only [h.mem_iff]

theorem spinWays_skip {P : List (ι × ι)} {q : Q ι × Q ι} (h : annOf q ∉ P.map Prod.snd ∨ creOf q ∉ P.map Prod.fst) (C : List (Q ι × Q ι)) :
    spinWays P (q :: C) = spinWays P C := by
  unfold spinWays
  congr 1
  funext T
  apply propext
  constructor
  · intro h q' hq'
    exact h q' (List.mem_cons_of_mem _ hq')
  · intro hT q' hq' x hx y hy hxa hyc
    rcases List.mem_cons.1 hq' with rfl | hq'
    · rcases h with h | h
      · exact absurd (List.mem_map.2 ⟨x, hx, hxa⟩) h
      · exact absurd (List.mem_map.2 ⟨y, hy, hyc⟩) h
    · exact hT q' hq' x hx y hy hxa hyc

theorem spinWays_cycle {rest : List (ι × ι)} {q : Q ι × Q ι} {C : List (Q ι × Q ι)} (hP : Distinct ((creOf q, annOf q) :: rest))
    (hC : Proper (q :: C)) : (spinWays ((creOf q, annOf q) :: rest) (q :: C)).card = 2 * (spinWays rest C).card := by
  set X := (creOf q, annOf q) with hX
  have hXr : X ∉ rest := (List.nodup_cons.1 hP.nodup).1
  have hann : ∀ q' ∈ C, annOf q' ≠ annOf q := fun q' hq' e =>
    (List.nodup_cons.1 hC.ann).1 (e ▸ List.mem_map_of_mem hq')
  have hcre : ∀ q' ∈ C, creOf q' ≠ creOf q := fun q' hq' e =>
    (List.nodup_cons.1 hC.cre).1 (e ▸ List.mem_map_of_mem hq')
  -- the spin of the closed pair is free
  have key : spinWays (X :: rest) (q :: C) = spinWays rest C ∪ (spinWays rest C).image (insert X) := by
    ext T
    simp only [spinWays, Finset.mem_union, Finset.mem_filter, Finset.mem_powerset, Finset.mem_image, List.toFinset_cons]
    have hcon : ∀ T : Finset (ι × ι), (∀ q' ∈ q :: C, ∀ x ∈ X :: rest, ∀ y ∈ X :: rest, x.2 = annOf q' → y.1 = creOf q' → (x ∈ T ↔ y ∈ T)) ↔
        ∀ q' ∈ C, ∀ x ∈ rest, ∀ y ∈ rest, x.2 = annOf q' → y.1 = creOf q' → (x ∈ T ↔ y ∈ T) := by
      intro T
      constructor
      · intro h q' hq' x hx y hy
        exact h q' (List.mem_cons_of_mem _ hq') x (List.mem_cons_of_mem _ hx) y (List.mem_cons_of_mem _ hy)
      · intro h q' hq' x hx y hy hxa hyc
        rcases List.mem_cons.1 hq' with rfl | hq'
        · have e1 : x = X := pair_of_snd hP hx (by simp) hxa
          have e2 : y = X := pair_of_fst hP hy (by simp) hyc
          rw [e1, e2]
        · rcases List.mem_cons.1 hx with rfl | hx
          · exact absurd hxa.symm (hann q' hq')
          · rcases List.mem_cons.1 hy with rfl | hy
            · exact absurd hyc.symm (hcre q' hq')
            · exact h q' hq' x hx y hy hxa hyc
    rw [hcon]
    constructor
    · rintro ⟨hs, hc⟩
      by_cases hXT : X ∈ T
      · right
        refine ⟨T.erase X, ⟨?_, ?_⟩, Finset.insert_erase hXT⟩
        · intro p hp
          have := hs (Finset.mem_of_mem_erase hp)
          rw [Finset.mem_insert] at this
          exact this.resolve_left (Finset.ne_of_mem_erase hp)
        · intro q' hq' x hx y hy hxa hyc
          have hx' : x ≠ X := fun e => hXr (e ▸ hx)
          have hy' : y ≠ X := fun e => hXr (e ▸ hy)
          rw [Finset.mem_erase, Finset.mem_erase]
          simp only [hx', hy', ne_eq, not_false_eq_true, true_and]
          exact hc q' hq' x hx y hy hxa hyc
      · left
        refine ⟨fun p hp => ?_, hc⟩
        have := hs hp
        rw [Finset.mem_insert] at this
        exact this.resolve_left fun e => hXT (e ▸ hp)
    · rintro (⟨hs, hc⟩ | ⟨T', ⟨hs, hc⟩, rfl⟩)
      · exact ⟨fun p hp => Finset.mem_insert_of_mem (hs hp), hc⟩
      · refine ⟨Finset.insert_subset_insert X hs, ?_⟩
        intro q' hq' x hx y hy hxa hyc
        have hx' : x ≠ X := fun e => hXr (e ▸ hx)
        have hy' : y ≠ X := fun e => hXr (e ▸ hy)
        rw [Finset.mem_insert, Finset.mem_insert]
        simp only [hx', hy', false_or]
        exact hc q' hq' x hx y hy hxa hyc
  have hno : ∀ T ∈ spinWays rest C, X ∉ T := by
    intro T hT hXT
    rw [spinWays, Finset.mem_filter, Finset.mem_powerset] at hT
    exact hXr (List.mem_toFinset.1 (hT.1 hXT))
  rw [key, Finset.card_union_of_disjoint, Finset.card_image_of_injOn]
  · ring
  · intro T hT T' hT' e
    have e' : insert X T = insert X T' := e
    rw [← Finset.erase_insert (hno T hT), e', Finset.erase_insert (hno T' hT')]
  · rw [Finset.disjoint_left]
    intro T hT hT'
    obtain ⟨T', -, rfl⟩ := Finset.mem_image.1 hT'
    exact hno _ hT (Finset.mem_insert_self _ _)

omit [DecidableEq ι] in
/-- Merged pairs. -/
theorem distinct_merge {x y a c : ι} {rest : List (ι × ι)} (h : Distinct ((x, a) :: (c, y) :: rest)) : Distinct ((x, y) :: rest) := by
  have h1 := h.cre
  have h2 := h.ann
  simp only [List.map_cons, List.nodup_cons, List.mem_cons, not_or] at h1 h2
  exact ⟨by simp only [List.map_cons, List.nodup_cons]; exact ⟨h1.1.2, h1.2.2⟩, by simp only [List.map_cons, List.nodup_cons]; exact h2.2⟩

theorem spinWays_merge {x y : ι} {rest : List (ι × ι)} {q : Q ι × Q ι} {C : List (Q ι × Q ι)}
    (hP : Distinct ((x, annOf q) :: (creOf q, y) :: rest)) (hC : Proper (q :: C)) :
    (spinWays ((x, annOf q) :: (creOf q, y) :: rest) (q :: C)).card = (spinWays ((x, y) :: rest) C).card := by
  set X := (x, annOf q) with hX
  set Y := (creOf q, y) with hY
  set Z := (x, y) with hZ
  have hP' := distinct_merge hP
  have hn := hP.nodup
  simp only [List.nodup_cons, List.mem_cons, not_or] at hn
  obtain ⟨⟨hXY, hXr⟩, hYr, -⟩ := hn
  have hZr : Z ∉ rest := (List.nodup_cons.1 hP'.nodup).1
  have hann : ∀ q' ∈ C, annOf q' ≠ annOf q := fun q' hq' e =>
    (List.nodup_cons.1 hC.ann).1 (e ▸ List.mem_map_of_mem hq')
  have hcre : ∀ q' ∈ C, creOf q' ≠ creOf q := fun q' hq' e =>
    (List.nodup_cons.1 hC.cre).1 (e ▸ List.mem_map_of_mem hq')
  have hr : ∀ w ∈ rest, w ≠ X ∧ w ≠ Y ∧ w ≠ Z := fun w hw => ⟨fun e => hXr (e ▸ hw), fun e => hYr (e ▸ hw), fun e => hZr (e ▸ hw)⟩
  let up : Finset (ι × ι) → Finset (ι × ι) := fun T => rest.toFinset.filter (· ∈ T) ∪ if X ∈ T then {Z} else ∅
  let dn : Finset (ι × ι) → Finset (ι × ι) := fun T => rest.toFinset.filter (· ∈ T) ∪ if Z ∈ T then {X, Y} else ∅
  have upr : ∀ T, ∀ w ∈ rest, (w ∈ up T ↔ w ∈ T) := by
    intro T w hw
    simp only [up, Finset.mem_union, Finset.mem_filter, List.mem_toFinset, hw, true_and]
    constructor
    · rintro (h | h)
      · exact h
      · split at h
        · exact absurd (Finset.mem_singleton.1 h) (hr w hw).2.2
        · simp at h
    · exact .inl
  have upZ : ∀ T, (Z ∈ up T ↔ X ∈ T) := by
    intro T
    simp only [up, Finset.mem_union, Finset.mem_filter, List.mem_toFinset, hZr, false_and, false_or]
    split <;> simp_all
  have dnr : ∀ T, ∀ w ∈ rest, (w ∈ dn T ↔ w ∈ T) := by
    intro T w hw
    simp only [dn, Finset.mem_union, Finset.mem_filter, List.mem_toFinset, hw, true_and]
    constructor
    · rintro (h | h)
      · exact h
      · split at h
        · rw [Finset.mem_insert, Finset.mem_singleton] at h
          rcases h with h | h
          · exact absurd h (hr w hw).1
          · exact absurd h (hr w hw).2.1
        · simp at h
    · exact .inl
  have dnX : ∀ T, (X ∈ dn T ↔ Z ∈ T) := by
    intro T
    simp only [dn, Finset.mem_union, Finset.mem_filter, List.mem_toFinset, hXr, false_and, false_or]
    split <;> simp_all
  have dnY : ∀ T, (Y ∈ dn T ↔ Z ∈ T) := by
    intro T
    simp only [dn, Finset.mem_union, Finset.mem_filter, List.mem_toFinset, hYr, false_and, false_or]
    split <;> simp_all
  have ups : ∀ T, up T ⊆ (Z :: rest).toFinset := by
    intro T w hw
    simp only [up, Finset.mem_union, Finset.mem_filter] at hw
    rw [List.toFinset_cons, Finset.mem_insert]
    rcases hw with h | h
    · exact .inr h.1
    · split at h
      · exact .inl (Finset.mem_singleton.1 h)
      · simp at h
  have dns : ∀ T, dn T ⊆ (X :: Y :: rest).toFinset := by
    intro T w hw
    simp only [dn, Finset.mem_union, Finset.mem_filter] at hw
    rw [List.toFinset_cons, List.toFinset_cons, Finset.mem_insert, Finset.mem_insert]
    rcases hw with h | h
    · exact .inr (.inr h.1)
    · split at h
      · rw [Finset.mem_insert, Finset.mem_singleton] at h
        rcases h with h | h
        · exact .inl h
        · exact .inr (.inl h)
      · simp at h
  have memS : ∀ (P : List (ι × ι)) (D : List (Q ι × Q ι)) T, T ∈ spinWays P D ↔
      T ⊆ P.toFinset ∧ ∀ q ∈ D, ∀ x ∈ P, ∀ y ∈ P, x.2 = annOf q → y.1 = creOf q → (x ∈ T ↔ y ∈ T) := by
    intro P D T
    rw [spinWays, Finset.mem_filter, Finset.mem_powerset]
  have same : ∀ T ∈ spinWays (X :: Y :: rest) (q :: C), (X ∈ T ↔ Y ∈ T) := by
    intro T hT
    exact ((memS _ _ _).1 hT).2 q (by simp) X (by simp) Y (by simp) rfl rfl
  refine Finset.card_nbij' up dn ?_ ?_ ?_ ?_
  · intro T hT
    have hT' := (memS _ _ _).1 hT
    have hs := same T hT
    refine (memS _ _ _).2 ⟨ups T, ?_⟩
    intro q' hq' u hu v hv hua hvc
    rcases List.mem_cons.1 hu with rfl | hu <;> rcases List.mem_cons.1 hv with rfl | hv
    · rfl
    · rw [upZ, upr T v hv, hs]
      exact hT'.2 q' (List.mem_cons_of_mem _ hq') Y (by simp) v (by simp [hv]) hua hvc
    · rw [upZ, upr T u hu]
      exact hT'.2 q' (List.mem_cons_of_mem _ hq') u (by simp [hu]) X (by simp) hua hvc
    · rw [upr T u hu, upr T v hv]
      exact hT'.2 q' (List.mem_cons_of_mem _ hq') u (by simp [hu]) v (by simp [hv]) hua hvc
  · intro T hT
    have hT' := (memS _ _ _).1 hT
    refine (memS _ _ _).2 ⟨dns T, ?_⟩
    intro q' hq' u hu v hv hua hvc
    rcases List.mem_cons.1 hq' with rfl | hq'
    · have e1 : u = X := pair_of_snd hP hu (by simp) hua
      have e2 : v = Y := pair_of_fst hP hv (by simp) hvc
      rw [e1, e2, dnX, dnY]
    · have hu' : u = Y ∨ u ∈ rest := by
        simp only [List.mem_cons] at hu
        rcases hu with rfl | h
        · exact absurd hua.symm (hann q' hq')
        · exact h
      have hv' : v = X ∨ v ∈ rest := by
        simp only [List.mem_cons] at hv
        rcases hv with rfl | rfl | h
        · exact .inl rfl
        · exact absurd hvc.symm (hcre q' hq')
        · exact .inr h
      rcases hu' with rfl | hu' <;> rcases hv' with rfl | hv'
      · rw [dnX, dnY]
      · rw [dnY, dnr T v hv']
        exact hT'.2 q' hq' Z (by simp) v (by simp [hv']) hua hvc
      · rw [dnX, dnr T u hu']
        exact hT'.2 q' hq' u (by simp [hu']) Z (by simp) hua hvc
      · rw [dnr T u hu', dnr T v hv']
        exact hT'.2 q' hq' u (by simp [hu']) v (by simp [hv']) hua hvc
  · intro T hT
    have hs := same T hT
    have hT' := (memS _ _ _).1 hT
    ext w
    constructor
    · intro hw
      have := dns _ hw
      simp only [List.toFinset_cons, Finset.mem_insert, List.mem_toFinset] at this
      rcases this with rfl | rfl | h
      · rwa [dnX, upZ] at hw
      · rwa [dnY, upZ, hs] at hw
      · rwa [dnr _ w h, upr T w h] at hw
    · intro hw
      have := hT'.1 hw
      simp only [List.toFinset_cons, Finset.mem_insert, List.mem_toFinset] at this
      rcases this with rfl | rfl | h
      · rwa [dnX, upZ]
      · rwa [dnY, upZ, hs]
      · rwa [dnr _ w h, upr T w h]
  · intro T hT
    have hT' := (memS _ _ _).1 hT
    ext w
    constructor
    · intro hw
      have := ups _ hw
      simp only [List.toFinset_cons, Finset.mem_insert, List.mem_toFinset] at this
      rcases this with rfl | h
      · rwa [upZ, dnX] at hw
      · rwa [upr _ w h, dnr T w h] at hw
    · intro hw
      have := hT'.1 hw
      simp only [List.toFinset_cons, Finset.mem_insert, List.mem_toFinset] at this
      rcases this with rfl | h
      · rwa [upZ, dnX]
      · rwa [upr _ w h, dnr T w h]

omit [DecidableEq ι] in
theorem Proper.tail {q : Q ι × Q ι} {C : List (Q ι × Q ι)} (h : Proper (q :: C)) : Proper C :=
  ⟨fun q' hq' => h.kinds q' (List.mem_cons_of_mem _ hq'), (List.nodup_cons.1 h.ann).2, (List.nodup_cons.1 h.cre).2⟩

omit [DecidableEq ι] in
theorem Distinct.tail {p : ι × ι} {P : List (ι × ι)} (h : Distinct (p :: P)) : Distinct P :=
  ⟨(List.nodup_cons.1 h.cre).2, (List.nodup_cons.1 h.ann).2⟩

theorem spinWays_nil {P : List (ι × ι)} (hP : Distinct P) : (spinWays P ([] : List (Q ι × Q ι))).card = 2 ^ P.length := by
  rw [spinWays, Finset.filter_true_of_mem (by simp), Finset.card_powerset, List.toFinset_card_of_nodup hP.nodup]

theorem loop_count (C : List (Q ι × Q ι)) : ∀ (P : List (ι × ι)) (n : Nat), Distinct P → Proper C →
    Distinct (C.foldl mergeStep (P, n)).1 ∧
    2 ^ n * (spinWays P C).card = 2 ^ ((C.foldl mergeStep (P, n)).2 + (C.foldl mergeStep (P, n)).1.length) := by
  induction C with
  | nil =>
    intro P n hP _
    refine ⟨hP, ?_⟩
    rw [spinWays_nil hP, List.foldl_nil, pow_add]
  | cons q C ih =>
    intro P n hP hC
    rw [List.foldl_cons]
    rcases mergeStep_cases P n q (hC.kinds q (by simp)) with ⟨h1, h2⟩ | ⟨rest, h1, h2, h3⟩ | ⟨x, y, rest, h1, h2, h3⟩
    · rw [h2, spinWays_skip h1]
      exact ih P n hP hC.tail
    · obtain ⟨d, e⟩ := ih (mergeStep (P, n) q).1 (n + 1) ((hP.perm h1).tail.perm h2.symm) hC.tail
      have es : mergeStep (P, n) q = ((mergeStep (P, n) q).1, n + 1) := Prod.ext rfl h3
      rw [es]
      refine ⟨d, ?_⟩
      rw [← e, spinWays_perm h1, spinWays_cycle (hP.perm h1) hC, spinWays_perm h2]
      ring
    · obtain ⟨d, e⟩ := ih (mergeStep (P, n) q).1 n ((distinct_merge (hP.perm h1)).perm h2.symm) hC.tail
      have es : mergeStep (P, n) q = ((mergeStep (P, n) q).1, n) := Prod.ext rfl h3
      rw [es]
      refine ⟨d, ?_⟩
      rw [← e, spinWays_perm h1, spinWays_merge (hP.perm h1) hC, spinWays_perm h2]

/-- **C119.** The number of ways to distribute spins over the pairs so that contracted operators have equal spins is two to the number of
closed cycles times two for each pair that is left. -/
theorem spins_count (P : List (ι × ι)) (C : List (Q ι × Q ι)) (hP : Distinct P) (hC : Proper C) :
    (spinWays P C).card = cycleFactor P C * 2 ^ (targetPartners P C).1.length := by
  have := (loop_count C P 0 hP hC).2
  rw [pow_zero, one_mul, pow_add] at this
  exact this

theorem loop_length (C : List (Q ι × Q ι)) : ∀ (P : List (ι × ι)) (n : Nat), Distinct P → Proper C →
    (∀ q ∈ C, annOf q ∈ P.map Prod.snd ∧ creOf q ∈ P.map Prod.fst) → (C.foldl mergeStep (P, n)).1.length + C.length = P.length := by
  induction C with
  | nil => intro P n _ _ _; rfl
  | cons q C ih =>
    intro P n hP hC hin
    have hann : ∀ q' ∈ C, annOf q' ≠ annOf q := fun q' hq' e =>
      (List.nodup_cons.1 hC.ann).1 (e ▸ List.mem_map_of_mem hq')
    have hcre : ∀ q' ∈ C, creOf q' ≠ creOf q := fun q' hq' e =>
      (List.nodup_cons.1 hC.cre).1 (e ▸ List.mem_map_of_mem hq')
    have hq := hin q (by simp)
    rw [List.foldl_cons]
    rcases mergeStep_cases P n q (hC.kinds q (by simp)) with ⟨h1, h2⟩ | ⟨rest, h1, h2, h3⟩ | ⟨x, y, rest, h1, h2, h3⟩
    · rcases h1 with h1 | h1
      · exact absurd hq.1 h1
      · exact absurd hq.2 h1
    · have := ih (mergeStep (P, n) q).1 (mergeStep (P, n) q).2 ((hP.perm h1).tail.perm h2.symm) hC.tail (by
        intro q' hq'
        have h := hin q' (List.mem_cons_of_mem _ hq')
        rw [(h1.map _).mem_iff, (h1.map _).mem_iff, List.map_cons, List.map_cons, List.mem_cons, List.mem_cons] at h
        rw [(h2.map _).mem_iff, (h2.map _).mem_iff]
        exact ⟨h.1.resolve_left (hann q' hq'), h.2.resolve_left (hcre q' hq')⟩)
      rw [h1.length_eq, List.length_cons, List.length_cons]
      rw [Prod.mk.eta] at this
      have e : (mergeStep (P, n) q).1.length = rest.length := h2.length_eq
      omega
    · have := ih (mergeStep (P, n) q).1 (mergeStep (P, n) q).2 ((distinct_merge (hP.perm h1)).perm h2.symm) hC.tail (by
        intro q' hq'
        have h := hin q' (List.mem_cons_of_mem _ hq')
        have a1 := hann q' hq'
        have a2 := hcre q' hq'
        rw [(h1.map _).mem_iff, (h1.map _).mem_iff] at h
        rw [(h2.map _).mem_iff, (h2.map _).mem_iff]
        simp only [List.map_cons, List.mem_cons, a1, a2, false_or] at h ⊢
        exact h)
      rw [h1.length_eq, List.length_cons, List.length_cons, List.length_cons]
      rw [Prod.mk.eta] at this
      have e : (mergeStep (P, n) q).1.length = rest.length + 1 := by rw [h2.length_eq, List.length_cons]
      omega

/-- **C119.** If all operators have partners and all are contracted, no pair is left (the assertion of the code) and the factor is the number of
distributions of spins. -/
theorem full_factor (P : List (ι × ι)) (C : List (Q ι × Q ι)) (hP : Distinct P) (hC : Proper C)
    (hin : ∀ q ∈ C, annOf q ∈ P.map Prod.snd ∧ creOf q ∈ P.map Prod.fst) (hl : C.length = P.length) :
    (targetPartners P C).1 = [] ∧ cycleFactor P C = (spinWays P C).card := by
  have h1 := loop_length C P 0 hP hC hin
  have h2 : (targetPartners P C).1 = [] := by
    rw [targetPartners]
    exact List.length_eq_zero_iff.1 (by omega)
  refine ⟨h2, ?_⟩
  rw [spins_count P C hP hC, h2]
  simp

/-- Two pairs `a†_1 a_2`, `a†_3 a_4`: contracting crosswise gives one cycle, contracting within each pair two. -/
example : targetPartners [(1, 2), (3, 4)] [(⟨false, 2⟩, ⟨true, 3⟩), (⟨true, 1⟩, ⟨false, 4⟩)] = ([], 1) ∧
    targetPartners [(1, 2), (3, 4)] [(⟨false, 2⟩, ⟨true, 1⟩), (⟨true, 3⟩, ⟨false, 4⟩)] = ([], 2) := by decide

example : Distinct [(1, 2), (3, 4)] ∧ Proper [((⟨false, 2⟩ : Q Nat), (⟨true, 3⟩ : Q Nat)), (⟨true, 1⟩, ⟨false, 4⟩)] := by
  refine ⟨⟨by decide, by decide⟩, ⟨by decide, by decide, by decide⟩⟩

/-- **C119.** Without the hypothesis that all operators have partners the assertion can fail: `a†_1 a†_2 a_3` and `a†_4 a_5 a_6`, contracted fully. -/
theorem leftover_without_partners : let P := inputPartners [([1, 2], [3]), ([4], [5, 6])]
    let C : List (Q Nat × Q Nat) := [(⟨false, 3⟩, ⟨true, 4⟩), (⟨true, 1⟩, ⟨false, 6⟩), (⟨true, 2⟩, ⟨false, 5⟩)]
    Distinct P ∧ Proper C ∧ (targetPartners P C).1 = [(2, 6)] :=
  ⟨⟨by decide, by decide⟩, ⟨by decide, by decide, by decide⟩, by decide⟩

/-! ## The pairs that are left -/

omit [DecidableEq ι] in
theorem reach_perm {P P' : List (ι × ι)} (h : P.Perm P') {C : List (Q ι × Q ι)} {f g : ι} (hr : Reach P C f g) : Reach P' C f g := by
  induction hr with
  | pair hp => exact .pair (h.mem_iff.1 hp)
  | cons q hp hq _ ih => exact .cons q (h.mem_iff.1 hp) hq ih

omit [DecidableEq ι] in
theorem reach_mono {P : List (ι × ι)} {C D : List (Q ι × Q ι)} (h : ∀ q ∈ C, q ∈ D) {f g : ι} (hr : Reach P C f g) : Reach P D f g := by
  induction hr with
  | pair hp => exact .pair hp
  | cons q hp hq _ ih => exact .cons q hp (h q hq) ih

omit [DecidableEq ι] in
theorem reach_start {P : List (ι × ι)} {C : List (Q ι × Q ι)} {f g : ι} (hr : Reach P C f g) : f ∈ P.map Prod.fst := by
  cases hr with
  | pair hp => exact List.mem_map_of_mem (f := Prod.fst) hp
  | cons q hp hq _ => exact List.mem_map_of_mem (f := Prod.fst) hp

omit [DecidableEq ι] in
theorem reach_skip {P : List (ι × ι)} {q : Q ι × Q ι} (h : annOf q ∉ P.map Prod.snd ∨ creOf q ∉ P.map Prod.fst) {C : List (Q ι × Q ι)} {f g : ι} :
    Reach P (q :: C) f g ↔ Reach P C f g := by
  constructor
  · intro hr
    induction hr with
    | pair hp => exact .pair hp
    | cons q' hp hq hr ih =>
      rcases List.mem_cons.1 hq with rfl | hq
      · rcases h with h | h
        · exact absurd (List.mem_map_of_mem (f := Prod.snd) hp) h
        · exact absurd (reach_start hr) h
      · exact .cons q' hp hq ih
  · exact reach_mono fun q' hq' => List.mem_cons_of_mem _ hq'

omit [DecidableEq ι] in
theorem reach_cycle {rest : List (ι × ι)} {q : Q ι × Q ι} {C : List (Q ι × Q ι)} (hP : Distinct ((creOf q, annOf q) :: rest))
    (hC : Proper (q :: C)) {f g : ι} (hf : f ≠ creOf q) : Reach ((creOf q, annOf q) :: rest) (q :: C) f g ↔ Reach rest C f g := by
  have hcre : ∀ q' ∈ C, creOf q' ≠ creOf q := fun q' hq' e =>
    (List.nodup_cons.1 hC.cre).1 (e ▸ List.mem_map_of_mem hq')
  constructor
  · intro hr
    induction hr with
    | pair hp =>
      rcases List.mem_cons.1 hp with e | hp
      · exact absurd (congrArg Prod.fst e) hf
      · exact .pair hp
    | cons q' hp hq hr ih =>
      rcases List.mem_cons.1 hp with e | hp'
      · exact absurd (congrArg Prod.fst e) hf
      · rcases List.mem_cons.1 hq with rfl | hq
        · have := pair_of_snd hP hp (y := (creOf q', annOf q')) (by simp) rfl
          exact absurd (congrArg Prod.fst this) hf
        · exact .cons q' hp' hq (ih (hcre q' hq))
  · intro hr
    clear hf
    induction hr with
    | pair hp => exact .pair (List.mem_cons_of_mem _ hp)
    | cons q' hp hq _ ih => exact .cons q' (List.mem_cons_of_mem _ hp) (List.mem_cons_of_mem _ hq) ih

omit [DecidableEq ι] in
theorem reach_merge {x y : ι} {rest : List (ι × ι)} {q : Q ι × Q ι} {C : List (Q ι × Q ι)}
    (hP : Distinct ((x, annOf q) :: (creOf q, y) :: rest)) (hC : Proper (q :: C)) {f g : ι} (hf : f ≠ creOf q) (hg : g ≠ annOf q) :
    Reach ((x, annOf q) :: (creOf q, y) :: rest) (q :: C) f g ↔ Reach ((x, y) :: rest) C f g := by
  have hcre : ∀ q' ∈ C, creOf q' ≠ creOf q := fun q' hq' e =>
    (List.nodup_cons.1 hC.cre).1 (e ▸ List.mem_map_of_mem hq')
  have hann : ∀ q' ∈ C, annOf q' ≠ annOf q := fun q' hq' e =>
    (List.nodup_cons.1 hC.ann).1 (e ▸ List.mem_map_of_mem hq')
  have hya : y ≠ annOf q := by
    intro e
    have := hP.ann
    simp only [List.map_cons, List.nodup_cons, List.mem_cons, not_or] at this
    exact this.1.1 e.symm
  constructor
  · intro hr
    have key : ∀ f, Reach ((x, annOf q) :: (creOf q, y) :: rest) (q :: C) f g → (f ≠ creOf q → Reach ((x, y) :: rest) C f g) ∧
        (f = creOf q → g = y ∨ ∃ q' ∈ C, y = annOf q' ∧ Reach ((x, y) :: rest) C (creOf q') g) := by
      intro f hr
      induction hr with
      | @pair f g hp =>
        constructor
        · intro hf
          simp only [List.mem_cons] at hp
          rcases hp with e | e | hp
          · exact absurd (congrArg Prod.snd e) hg
          · exact absurd (congrArg Prod.fst e) hf
          · exact .pair (List.mem_cons_of_mem _ hp)
        · rintro rfl
          have := pair_of_fst hP hp (y := (creOf q, y)) (by simp) rfl
          exact .inl (congrArg Prod.snd this)
      | @cons f g q' hp hq hr ih =>
        have ih := ih hg (reach_mono (fun _ h => h) hr)
        constructor
        · intro hf
          rcases List.mem_cons.1 hq with rfl | hq
          · have e := pair_of_snd hP hp (y := (x, annOf q')) (by simp) rfl
            have ef : f = x := congrArg Prod.fst e
            subst ef
            rcases ih.2 rfl with rfl | ⟨q'', hq'', ey, hr''⟩
            · exact .pair (by simp)
            · exact .cons q'' (by rw [← ey]; simp) hq'' hr''
          · have h2 := ih.1 (hcre q' hq)
            simp only [List.mem_cons] at hp
            rcases hp with e | e | hp
            · exact absurd (congrArg Prod.snd e) (hann q' hq)
            · exact absurd (congrArg Prod.fst e) hf
            · exact .cons q' (List.mem_cons_of_mem _ hp) hq h2
        · rintro rfl
          have e := pair_of_fst hP hp (y := (creOf q, y)) (by simp) rfl
          have ey : annOf q' = y := congrArg Prod.snd e
          rcases List.mem_cons.1 hq with rfl | hq
          · exact absurd ey.symm hya
          · exact .inr ⟨q', hq, ey.symm, ih.1 (hcre q' hq)⟩
    exact (key f hr).1 hf
  · intro hr
    clear hf hg
    induction hr with
    | pair hp =>
      rcases List.mem_cons.1 hp with e | hp
      · cases e
        exact .cons q (by simp) (by simp) (.pair (by simp))
      · exact .pair (by simp [hp])
    | cons q' hp hq _ ih =>
      rcases List.mem_cons.1 hp with e | hp
      · cases e
        exact .cons q (by simp) (by simp) (.cons q' (by simp) (List.mem_cons_of_mem _ hq) ih)
      · exact .cons q' (by simp [hp]) (List.mem_cons_of_mem _ hq) ih

theorem loop_pairs (C : List (Q ι × Q ι)) : ∀ (P : List (ι × ι)) (n : Nat), Distinct P → Proper C → ∀ f g : ι,
    ((f, g) ∈ (C.foldl mergeStep (P, n)).1 ↔ Reach P C f g ∧ (∀ q ∈ C, creOf q = f → annOf q ∉ P.map Prod.snd) ∧
      ∀ q ∈ C, annOf q = g → creOf q ∉ P.map Prod.fst) := by
  induction C with
  | nil =>
    intro P n hP _ f g
    rw [List.foldl_nil]
    constructor
    · intro h
      exact ⟨.pair h, by simp, by simp⟩
    · rintro ⟨h, -, -⟩
      cases h with
      | pair h => exact h
      | cons q _ hq => simp at hq
  | cons q C ih =>
    intro P n hP hC f g
    have hcre : ∀ q' ∈ C, creOf q' ≠ creOf q := fun q' hq' e =>
      (List.nodup_cons.1 hC.cre).1 (e ▸ List.mem_map_of_mem hq')
    have hann : ∀ q' ∈ C, annOf q' ≠ annOf q := fun q' hq' e =>
      (List.nodup_cons.1 hC.ann).1 (e ▸ List.mem_map_of_mem hq')
    rw [List.foldl_cons]
    rcases mergeStep_cases P n q (hC.kinds q (by simp)) with ⟨h1, h2⟩ | ⟨rest, h1, h2, h3⟩ | ⟨x, y, rest, h1, h2, h3⟩
    · rw [h2, ih P n hP hC.tail, reach_skip h1]
      constructor
      · rintro ⟨hr, ha, hb⟩
        refine ⟨hr, ?_, ?_⟩
        · intro q' hq' e
          rcases List.mem_cons.1 hq' with rfl | hq'
          · rcases h1 with h1 | h1
            · exact h1
            · exact absurd (e ▸ reach_start hr) h1
          · exact ha q' hq' e
        · intro q' hq' e
          rcases List.mem_cons.1 hq' with rfl | hq'
          · rcases h1 with h1 | h1
            · exfalso
              apply h1
              rw [e]
              clear ha hb e h1
              induction hr with
              | pair hp => exact List.mem_map_of_mem (f := Prod.snd) hp
              | cons _ _ _ _ ih => exact ih
            · exact h1
          · exact hb q' hq' e
      · rintro ⟨hr, ha, hb⟩
        exact ⟨hr, fun q' hq' => ha q' (List.mem_cons_of_mem _ hq'), fun q' hq' => hb q' (List.mem_cons_of_mem _ hq')⟩
    · have hP1 := hP.perm h1
      have es : mergeStep (P, n) q = ((mergeStep (P, n) q).1, (mergeStep (P, n) q).2) := rfl
      rw [es, ih _ _ (hP1.tail.perm h2.symm) hC.tail]
      have m1 : ∀ q' ∈ C, (annOf q' ∉ (mergeStep (P, n) q).1.map Prod.snd ↔ annOf q' ∉ P.map Prod.snd) := by
        intro q' hq'
        rw [(h1.map _).mem_iff, (h2.map _).mem_iff, List.map_cons, List.mem_cons]
        simp [hann q' hq']
      have m2 : ∀ q' ∈ C, (creOf q' ∉ (mergeStep (P, n) q).1.map Prod.fst ↔ creOf q' ∉ P.map Prod.fst) := by
        intro q' hq'
        rw [(h1.map _).mem_iff, (h2.map _).mem_iff, List.map_cons, List.mem_cons]
        simp [hcre q' hq']
      have hqa : annOf q ∈ P.map Prod.snd := by rw [(h1.map _).mem_iff]; simp
      have hqc : creOf q ∈ P.map Prod.fst := by rw [(h1.map _).mem_iff]; simp
      constructor
      · rintro ⟨hr, ha, hb⟩
        have hr' := reach_perm h2 hr
        have hf : f ≠ creOf q := by
          rintro rfl
          have := hP1.cre
          rw [List.map_cons, List.nodup_cons] at this
          exact this.1 (reach_start hr')
        have hg : g ≠ annOf q := by
          rintro rfl
          have hm : annOf q ∈ rest.map Prod.snd := by
            generalize annOf q = g' at hr'
            clear * - hr'
            induction hr' with
            | pair hp => exact List.mem_map_of_mem (f := Prod.snd) hp
            | cons _ _ _ _ ih => exact ih
          have := hP1.ann
          rw [List.map_cons, List.nodup_cons] at this
          exact this.1 hm
        refine ⟨reach_perm h1.symm ((reach_cycle hP1 hC hf).2 hr'), ?_, ?_⟩
        · intro q' hq' e
          rcases List.mem_cons.1 hq' with rfl | hq'
          · exact absurd e.symm hf
          · exact (m1 q' hq').1 (ha q' hq' e)
        · intro q' hq' e
          rcases List.mem_cons.1 hq' with rfl | hq'
          · exact absurd e.symm hg
          · exact (m2 q' hq').1 (hb q' hq' e)
      · rintro ⟨hr, ha, hb⟩
        have hf : f ≠ creOf q := fun e => ha q (by simp) e.symm hqa
        refine ⟨reach_perm h2.symm ((reach_cycle hP1 hC hf).1 (reach_perm h1 hr)), ?_, ?_⟩
        · intro q' hq' e
          exact (m1 q' hq').2 (ha q' (List.mem_cons_of_mem _ hq') e)
        · intro q' hq' e
          exact (m2 q' hq').2 (hb q' (List.mem_cons_of_mem _ hq') e)
    · have hP1 := hP.perm h1
      have hP2 := distinct_merge hP1
      have es : mergeStep (P, n) q = ((mergeStep (P, n) q).1, (mergeStep (P, n) q).2) := rfl
      rw [es, ih _ _ (hP2.perm h2.symm) hC.tail]
      have m1 : ∀ q' ∈ C, (annOf q' ∉ (mergeStep (P, n) q).1.map Prod.snd ↔ annOf q' ∉ P.map Prod.snd) := by
        intro q' hq'
        rw [(h1.map _).mem_iff, (h2.map _).mem_iff]
        simp [hann q' hq']
      have m2 : ∀ q' ∈ C, (creOf q' ∉ (mergeStep (P, n) q).1.map Prod.fst ↔ creOf q' ∉ P.map Prod.fst) := by
        intro q' hq'
        rw [(h1.map _).mem_iff, (h2.map _).mem_iff]
        simp [hcre q' hq']
      have hqa : annOf q ∈ P.map Prod.snd := by rw [(h1.map _).mem_iff]; simp
      have hqc : creOf q ∈ P.map Prod.fst := by rw [(h1.map _).mem_iff]; simp
      have d1 := hP1.cre
      have d2 := hP1.ann
      simp only [List.map_cons, List.nodup_cons, List.mem_cons, not_or] at d1 d2
      constructor
      · rintro ⟨hr, ha, hb⟩
        have hr' := reach_perm h2 hr
        have hf : f ≠ creOf q := by
          rintro rfl
          have := reach_start hr'
          simp only [List.map_cons, List.mem_cons] at this
          rcases this with e | e
          · exact d1.1.1 e.symm
          · exact d1.2.1 e
        have hg : g ≠ annOf q := by
          rintro rfl
          have hm : annOf q ∈ ((x, y) :: rest).map Prod.snd := by
            generalize annOf q = g' at hr'
            clear * - hr'
            induction hr' with
            | pair hp => exact List.mem_map_of_mem (f := Prod.snd) hp
            | cons _ _ _ _ ih => exact ih
          simp only [List.map_cons, List.mem_cons] at hm
          rcases hm with e | e
          · exact d2.1.1 e
          · exact d2.1.2 e
        refine ⟨reach_perm h1.symm ((reach_merge hP1 hC hf hg).2 hr'), ?_, ?_⟩
        · intro q' hq' e
          rcases List.mem_cons.1 hq' with rfl | hq'
          · exact absurd e.symm hf
          · exact (m1 q' hq').1 (ha q' hq' e)
        · intro q' hq' e
          rcases List.mem_cons.1 hq' with rfl | hq'
          · exact absurd e.symm hg
          · exact (m2 q' hq').1 (hb q' hq' e)
      · rintro ⟨hr, ha, hb⟩
        have hf : f ≠ creOf q := fun e => ha q (by simp) e.symm hqa
        have hg : g ≠ annOf q := fun e => hb q (by simp) e.symm hqc
        refine ⟨reach_perm h2.symm ((reach_merge hP1 hC hf hg).1 (reach_perm h1 hr)), ?_, ?_⟩
        · intro q' hq' e
          exact (m1 q' hq').2 (ha q' (List.mem_cons_of_mem _ hq') e)
        · intro q' hq' e
          exact (m2 q' hq').2 (hb q' (List.mem_cons_of_mem _ hq') e)

/-- **C119.** The pairs that are left are those of a creator and an annihilator that are connected by pairs and contractions and are
themselves not contracted with an operator that has a partner. -/
theorem target_pairs (P : List (ι × ι)) (C : List (Q ι × Q ι)) (hP : Distinct P) (hC : Proper C) (f g : ι) :
    (f, g) ∈ (targetPartners P C).1 ↔ Reach P C f g ∧ (∀ q ∈ C, creOf q = f → annOf q ∉ P.map Prod.snd) ∧
      ∀ q ∈ C, annOf q = g → creOf q ∉ P.map Prod.fst :=
  loop_pairs C P 0 hP hC f g

/-- A chain of three pairs: the outer indices become partners. -/
example : targetPartners [(1, 2), (3, 4), (5, 6)] [(⟨false, 4⟩, ⟨true, 5⟩), (⟨true, 3⟩, ⟨false, 2⟩)] = ([(1, 6)], 0) := by decide

/-- **C119.** The order of the contractions does not matter. -/
theorem order_irrelevant (P : List (ι × ι)) (C D : List (Q ι × Q ι)) (hP : Distinct P) (hC : Proper C) (h : C.Perm D) :
    (targetPartners P C).1.Perm (targetPartners P D).1 ∧ (targetPartners P C).2 = (targetPartners P D).2 := by
  have hD : Proper D := ⟨fun q hq => hC.kinds q (h.mem_iff.2 hq), (h.map _).nodup_iff.1 hC.ann, (h.map _).nodup_iff.1 hC.cre⟩
  have h1 : (targetPartners P C).1.Perm (targetPartners P D).1 := by
    unfold targetPartners
    rw [List.perm_ext_iff_of_nodup (loop_count C P 0 hP hC).1.nodup (loop_count D P 0 hP hD).1.nodup]
    rintro ⟨f, g⟩
    show (f, g) ∈ (targetPartners P C).1 ↔ (f, g) ∈ (targetPartners P D).1
    rw [target_pairs P C hP hC, target_pairs P D hP hD]
    simp only [h.mem_iff]
    exact and_congr ⟨reach_mono fun q => h.mem_iff.1, reach_mono fun q => h.mem_iff.2⟩ Iff.rfl
  refine ⟨h1, ?_⟩
  have c1 := spins_count P C hP hC
  have c2 := spins_count P D hP hD
  have hs : spinWays P C = spinWays P D := by
    unfold spinWays
    simp only [h.mem_iff]
  rw [hs, c2, h1.length_eq, cycleFactor, cycleFactor] at c1
  have := Nat.eq_of_mul_eq_mul_right (Nat.pos_of_ne_zero (by simp)) c1
  exact (Nat.pow_right_injective (le_refl 2) this).symm

/-! ## Input -/

omit [DecidableEq ι] in
/-- **C119.** In a normal operator the last creators and annihilators are partners, in the order of the operator. -/
theorem nop_partners (c a : List ι) : nopPartners c a = (c.drop (c.length - a.length)).zip (a.drop (a.length - c.length)) := by
  have key : ∀ (m : Nat) (u v : List ι), u.length = m → v.length = m → (u.reverse.zip v.reverse).reverse = u.zip v := by
    intro m u v hu hv
    rw [List.zip_eq_zipWith, ← List.reverse_zipWith (by omega), List.reverse_reverse]
    rfl
  have trim : ∀ u v : List ι, u.zip v = (u.take v.length).zip (v.take u.length) := by
    intro u v
    induction u generalizing v with
    | nil => simp
    | cons x u ih => cases v with
      | nil => simp
      | cons y v => simp [ih v]
  rw [nopPartners, trim, List.length_reverse, List.length_reverse, List.take_reverse, List.take_reverse]
  refine key (min c.length a.length) _ _ ?_ ?_
  · rw [List.length_drop]; omega
  · rw [List.length_drop]; omega

example : inputPartners [([1, 2], [3, 4]), ([5], [6, 7])] = [(1, 3), (2, 4), (5, 7)] := by decide

end SeQuant.Partners
