import Verif.Binarize.Spec

/-!
# Index sets of products
-/

namespace SeQuant.Binarize

open SeQuant.Eval SeQuant.Tensors SeQuant.Optimize

variable {L ι K H G : Type} [DecidableEq ι]

theorem mem_openOf {V : Finset ι} {l : List ι} {x : ι} : x ∈ openOf V l ↔ x ∈ l ∧ (l.count x = 1 ∨ x ∈ V) := by
  simp [openOf]

theorem mem_dummies {V : Finset ι} {l : List ι} {x : ι} : x ∈ dummies V l ↔ x ∈ l ∧ l.count x ≠ 1 ∧ x ∉ V := by
  simp only [dummies, Finset.mem_sdiff, List.mem_toFinset, mem_openOf]
  tauto

theorem openOf_perm {V : Finset ι} {l m : List ι} (h : l.Perm m) : openOf V l = openOf V m := by
  ext x
  rw [mem_openOf, mem_openOf, h.mem_iff, h.count_eq]

theorem openOf_nodup {V : Finset ι} {l : List ι} (h : l.Nodup) : openOf V l = l.toFinset := by
  ext x
  rw [mem_openOf, List.mem_toFinset]
  exact ⟨fun a => a.1, fun a => ⟨a, Or.inl (List.count_eq_one_of_mem h a)⟩⟩

theorem dummies_nodup {V : Finset ι} {l : List ι} (h : l.Nodup) : dummies V l = ∅ := by
  rw [dummies, openOf_nodup h, Finset.sdiff_self]

/-- The list of the indices that stay. -/
def openList (V : Finset ι) (l : List ι) : List ι := l.dedup.filter fun x => l.count x = 1 ∨ x ∈ V

theorem openList_nodup (V : Finset ι) (l : List ι) : (openList V l).Nodup := (List.nodup_dedup l).filter _

theorem openList_toFinset (V : Finset ι) (l : List ι) : (openList V l).toFinset = openOf V l := by
  ext x
  simp [openList, mem_openOf]

theorem mem_openList {V : Finset ι} {l : List ι} {x : ι} : x ∈ openList V l ↔ x ∈ openOf V l := by
  rw [← openList_toFinset, List.mem_toFinset]

theorem slotsHead_cons (V : Finset ι) (e : Ex L ι K) (l : List (Ex L ι K)) : slotsHead V (e :: l) = openList V (slots V e) := by
  rw [slotsHead, openList]

theorem mem_allIdxU {l : List (Ex L ι K)} {x : ι} : x ∈ allIdxU l ↔ ∃ e ∈ l, x ∈ allIdx e := by
  induction l with
  | nil => simp [allIdxU]
  | cons e l ih => simp [allIdxU, ih]

mutual
/-- Slots belong to indices of the expression. -/
theorem slots_sub (V : Finset ι) : ∀ (e : Ex L ι K) (x : ι), x ∈ slots V e → x ∈ allIdx e
  | .const _, x, h => by simp [slots] at h
  | .var _, x, h => by simp [slots] at h
  | .ten t, x, h => by simpa [slots, allIdx] using h
  | .sum [], x, h => by simp [slots, slotsHead] at h
  | .sum (e :: l), x, h => by
    rw [slots, slotsHead_cons, mem_openList, mem_openOf] at h
    rw [allIdx, allIdxHead]
    exact slots_sub V e x h.1
  | .prod c l, x, h => by
    rw [slots] at h
    rw [allIdx]
    exact slotsProd_sub V ∅ l x h

theorem slotsProd_sub (V P : Finset ι) : ∀ (l : List (Ex L ι K)) (x : ι), x ∈ slotsProd V P l → x ∈ allIdxU l
  | [], x, h => by simp [slotsProd] at h
  | e :: l, x, h => by
    rw [slotsProd, List.mem_append] at h
    rw [allIdxU, Finset.mem_union]
    rcases h with h | h
    · exact Or.inl (slots_sub _ e x h)
    · exact Or.inr (slotsProd_sub _ _ l x h)
end

mutual
/-- Indices that are known outside have a slot. -/
theorem kept_slots (V : Finset ι) : ∀ (e : Ex L ι K) (x : ι), x ∈ allIdx e → x ∈ V → x ∈ slots V e
  | .const _, x, h, _ => by simp [allIdx] at h
  | .var _, x, h, _ => by simp [allIdx] at h
  | .ten t, x, h, _ => by simpa [slots, allIdx] using h
  | .sum [], x, h, _ => by simp [allIdx, allIdxHead] at h
  | .sum (e :: l), x, h, hV => by
    rw [allIdx, allIdxHead] at h
    rw [slots, slotsHead_cons, mem_openList, mem_openOf]
    exact ⟨kept_slots V e x h hV, Or.inr hV⟩
  | .prod c l, x, h, hV => by
    rw [allIdx] at h
    rw [slots]
    exact kept_slotsProd V ∅ l x h (Or.inl hV)

theorem kept_slotsProd (V P : Finset ι) : ∀ (l : List (Ex L ι K)) (x : ι), x ∈ allIdxU l → x ∈ V ∨ x ∈ P → x ∈ slotsProd V P l
  | [], x, h, _ => by simp [allIdxU] at h
  | e :: l, x, h, hV => by
    rw [slotsProd, List.mem_append]
    rw [allIdxU, Finset.mem_union] at h
    by_cases he : x ∈ allIdx e
    · left
      refine kept_slots _ e x he ?_
      simp only [Finset.mem_inter, Finset.mem_union]
      tauto
    · right
      refine kept_slotsProd _ _ l x (by tauto) ?_
      simp only [Finset.mem_union]
      tauto
end

theorem kept_open {V : Finset ι} {e : Ex L ι K} {x : ι} (h : x ∈ allIdx e) (hV : x ∈ V) : x ∈ openOf V (slots V e) :=
  mem_openOf.2 ⟨kept_slots V e x h hV, Or.inr hV⟩

/-! ### One more factor -/

/-- What is known of the factors so far (slots `Q`, indices `P`) and of the next one, `e` (slots `q`), if `R` are the indices of the factors
after it and `V` those that stay. -/
structure Step (V P R A : Finset ι) (Q q : List ι) : Prop where
  sub : ∀ x ∈ Q, x ∈ P
  sub' : ∀ x ∈ q, x ∈ A
  have_ : ∀ x ∈ P, x ∈ V ∨ x ∈ A ∨ x ∈ R → x ∈ Q
  have' : ∀ x ∈ A, x ∈ V ∨ x ∈ P ∨ x ∈ R → x ∈ q

section step

variable {V P R A : Finset ι} {Q q : List ι}

theorem count_pos_of_mem {l : List ι} {x : ι} (h : x ∈ l) : 0 < l.count x := List.count_pos_iff.2 h

/-- An index summed over before does not occur in the next factor. -/
theorem Step.dummy_left (s : Step V P R A Q q) {x : ι} (h : x ∈ dummies (V ∪ A ∪ R) Q) : x ∉ q ∧ x ∉ openOf (V ∪ R) (Q ++ q) := by
  rw [mem_dummies] at h
  simp only [Finset.mem_union, not_or] at h
  obtain ⟨h1, h2, ⟨h3, h4⟩, h5⟩ := h
  have hq : x ∉ q := fun hx => h4 (s.sub' x hx)
  refine ⟨hq, ?_⟩
  rw [mem_openOf, List.count_append, List.count_eq_zero_of_not_mem hq]
  simp only [Finset.mem_union]
  tauto

/-- An index summed over in the next factor does not occur before. -/
theorem Step.dummy_right (s : Step V P R A Q q) {x : ι} (h : x ∈ dummies (A ∩ (V ∪ P ∪ R)) q) : x ∉ Q ∧ x ∉ openOf (V ∪ R) (Q ++ q) := by
  rw [mem_dummies] at h
  simp only [Finset.mem_inter, Finset.mem_union] at h
  obtain ⟨h1, h2, h3⟩ := h
  have hA := s.sub' x h1
  have hQ : x ∉ Q := fun hx => h3 ⟨hA, Or.inl (Or.inr (s.sub x hx))⟩
  refine ⟨hQ, ?_⟩
  rw [mem_openOf, List.count_append, List.count_eq_zero_of_not_mem hQ]
  simp only [Finset.mem_union]
  rintro ⟨-, h | h⟩
  · omega
  · tauto

theorem Step.open_left (s : Step V P R A Q q) (h : openOf (A ∩ (V ∪ P ∪ R)) q = ∅) : openOf (V ∪ R) (Q ++ q) = openOf (V ∪ A ∪ R) Q := by
  have hd : ∀ x ∈ q, x ∈ dummies (A ∩ (V ∪ P ∪ R)) q := fun x hx => by
    rw [dummies, h]; simpa using hx
  ext x
  by_cases hq : x ∈ q
  · have := s.dummy_right (hd x hq)
    exact ⟨fun hx => absurd hx this.2, fun hx => absurd (mem_openOf.1 hx).1 this.1⟩
  · rw [mem_openOf, mem_openOf, List.count_append, List.count_eq_zero_of_not_mem hq, List.mem_append]
    simp only [hq, or_false, add_zero, Finset.mem_union]
    refine and_congr_right fun hQ => or_congr_right ?_
    have : x ∉ A := fun hA => hq (s.have' x hA (Or.inr (Or.inl (s.sub x hQ))))
    tauto

theorem Step.open_right (s : Step V P R A Q q) (h : openOf (V ∪ A ∪ R) Q = ∅) :
    openOf (V ∪ R) (Q ++ q) = openOf (A ∩ (V ∪ P ∪ R)) q := by
  have hd : ∀ x ∈ Q, x ∈ dummies (V ∪ A ∪ R) Q := fun x hx => by
    rw [dummies, h]; simpa using hx
  ext x
  by_cases hQ : x ∈ Q
  · have := s.dummy_left (hd x hQ)
    exact ⟨fun hx => absurd hx this.2, fun hx => absurd (mem_openOf.1 hx).1 this.1⟩
  · rw [mem_openOf, mem_openOf, List.count_append, List.count_eq_zero_of_not_mem hQ, List.mem_append]
    simp only [hQ, false_or, zero_add, Finset.mem_union, Finset.mem_inter]
    refine and_congr_right fun hq => or_congr_right ?_
    have hA := s.sub' x hq
    have : x ∉ P := fun hP => hQ (s.have_ x hP (Or.inr (Or.inl hA)))
    tauto

/-- The indices summed over so far, in the next factor and in the step are those summed over after the step. -/
theorem Step.dummies_eq (s : Step V P R A Q q) :
    (((openOf (V ∪ A ∪ R) Q ∪ openOf (A ∩ (V ∪ P ∪ R)) q) \ openOf (V ∪ R) (Q ++ q)).toList ++
      ((dummies (V ∪ A ∪ R) Q).toList ++ (dummies (A ∩ (V ∪ P ∪ R)) q).toList)).Perm (dummies (V ∪ R) (Q ++ q)).toList := by
  rw [List.perm_ext_iff_of_nodup _ (Finset.nodup_toList _)]
  · intro x
    simp only [List.mem_append, Finset.mem_toList, dummies, Finset.mem_sdiff, Finset.mem_union, List.mem_toFinset]
    constructor
    · rintro (⟨h | h, h'⟩ | h | h)
      · exact ⟨Or.inl (mem_openOf.1 h).1, h'⟩
      · exact ⟨Or.inr (mem_openOf.1 h).1, h'⟩
      · exact ⟨Or.inl h.1, (s.dummy_left (by simpa [dummies] using h)).2⟩
      · exact ⟨Or.inr h.1, (s.dummy_right (by simpa [dummies] using h)).2⟩
    · tauto
  · rw [List.nodup_append, List.nodup_append]
    refine ⟨Finset.nodup_toList _, ⟨Finset.nodup_toList _, Finset.nodup_toList _, ?_⟩, ?_⟩
    · rintro x hx _ hy rfl
      rw [Finset.mem_toList] at hx hy
      exact (s.dummy_left hx).1 (mem_dummies.1 hy).1
    · rintro x hx _ hy rfl
      rw [Finset.mem_toList, Finset.mem_sdiff, Finset.mem_union] at hx
      rw [List.mem_append, Finset.mem_toList, Finset.mem_toList] at hy
      rcases hy with hy | hy
      · rcases hx.1 with h | h
        · exact (Finset.mem_sdiff.1 hy).2 h
        · exact (s.dummy_left hy).1 (mem_openOf.1 h).1
      · rcases hx.1 with h | h
        · exact (s.dummy_right hy).1 (mem_openOf.1 h).1
        · exact (Finset.mem_sdiff.1 hy).2 h

end step

/-! ### The sets of `left_to_right_binarization_indices` -/

/-- The indices of each factor that are known outside of it. -/
def keptSets (V P : Finset ι) : List (Ex L ι K) → List (Finset ι)
  | [] => []
  | e :: l => (allIdx e ∩ (V ∪ P ∪ allIdxU l)) :: keptSets V (P ∪ allIdx e) l

theorem keptSets_length (V P : Finset ι) (l : List (Ex L ι K)) : (keptSets V P l).length = l.length := by
  induction l generalizing P with
  | nil => rfl
  | cons e l ih => simp [keptSets, ih]

theorem getD_get {α : Type} (l : List α) (d : α) {k : Nat} (h : k < l.length) : l.getD k d = l[k] := by simp [List.getD, h]

theorem mem_keptSets (V P : Finset ι) (l : List (Ex L ι K)) (k : Nat) (hk : k < l.length) (x : ι) :
    x ∈ (keptSets V P l).getD k ∅ ↔ x ∈ (l.map allIdx).getD k ∅ ∧
      ((∃ j, j ≠ k ∧ j < (l.map allIdx).length ∧ x ∈ (l.map allIdx).getD j ∅) ∨ x ∈ V ∨ x ∈ P) := by
  induction l generalizing P k with
  | nil => simp at hk
  | cons e l ih =>
    cases k with
    | zero =>
      simp only [keptSets, List.getD_cons_zero, Finset.mem_inter, Finset.mem_union, mem_allIdxU, List.map_cons]
      refine and_congr_right fun _ => ?_
      have : (∃ j, j ≠ 0 ∧ j < (allIdx e :: l.map allIdx).length ∧ x ∈ (allIdx e :: l.map allIdx).getD j ∅) ↔ ∃ f ∈ l, x ∈ allIdx f := by
        constructor
        · rintro ⟨j, h0, hj, hx⟩
          obtain ⟨j, rfl⟩ := Nat.exists_eq_succ_of_ne_zero h0
          simp only [List.length_cons, List.length_map, Nat.succ_eq_add_one] at hj
          rw [List.getD_cons_succ, getD_get _ _ (by simpa using hj), List.getElem_map] at hx
          exact ⟨_, List.getElem_mem _, hx⟩
        · rintro ⟨f, hf, hx⟩
          obtain ⟨j, hj, rfl⟩ := List.getElem_of_mem hf
          refine ⟨j + 1, by omega, by simp [hj], ?_⟩
          rw [List.getD_cons_succ, getD_get _ _ (by simpa using hj), List.getElem_map]
          exact hx
      rw [this]
      generalize (∃ f ∈ l, x ∈ allIdx f) = p
      tauto
    | succ k =>
      simp only [List.length_cons, Nat.add_lt_add_iff_right] at hk
      simp only [keptSets, List.getD_cons_succ, List.map_cons]
      rw [ih _ k hk]
      refine and_congr_right fun _ => ?_
      have : (∃ j, j ≠ k + 1 ∧ j < (allIdx e :: l.map allIdx).length ∧ x ∈ (allIdx e :: l.map allIdx).getD j ∅) ↔
          x ∈ allIdx e ∨ ∃ j, j ≠ k ∧ j < (l.map allIdx).length ∧ x ∈ (l.map allIdx).getD j ∅ := by
        constructor
        · rintro ⟨j, h0, hj, hx⟩
          cases j with
          | zero => left; simpa using hx
          | succ j => right; exact ⟨j, by omega, by simpa using hj, by simpa using hx⟩
        · rintro (h | ⟨j, h0, hj, hx⟩)
          · exact ⟨0, by omega, by simp, by simpa using h⟩
          · exact ⟨j + 1, by omega, by simpa using hj, by simpa using hx⟩
      rw [this, Finset.mem_union]
      generalize (∃ j, j ≠ k ∧ j < (l.map allIdx).length ∧ x ∈ (l.map allIdx).getD j ∅) = p
      tauto

theorem ltrChildren_eq (V : Finset ι) (l : List (Ex L ι K)) : ltrChildren (l.map allIdx) V = keptSets V ∅ l := by
  have hl : (ltrChildren (l.map allIdx) V).length = l.length := by simp [ltrChildren]
  refine List.ext_getElem (by rw [hl, keptSets_length]) fun k h1 h2 => ?_
  have hk : k < l.length := by omega
  ext x
  have a := ltrChildren_exact (l.map allIdx) V k (by simpa using hk) x
  have b := mem_keptSets V ∅ l k hk x
  rw [getD_get _ _ h1] at a
  rw [getD_get _ _ h2] at b
  rw [a, b]
  simp

theorem ltrImed_mem (V : Finset ι) (pre : List (Ex L ι K)) (e : Ex L ι K) (post : List (Ex L ι K)) (x : ι) :
    x ∈ (ltrImed ((pre ++ e :: post).map allIdx) V).getD pre.length ∅ ↔
      (x ∈ allIdxU pre ∨ x ∈ allIdx e) ∧ (x ∈ V ∨ x ∈ allIdxU post) := by
  rw [ltrImed_exact _ _ _ (by simp)]
  have h1 : ((pre ++ e :: post).map (allIdx (ι := ι))).take (pre.length + 1) = (pre ++ [e]).map allIdx := by
    rw [← List.map_take]
    congr 1
    simp [List.take_append]
  have h2 : ((pre ++ e :: post).map (allIdx (ι := ι))).drop (pre.length + 1) = post.map allIdx := by
    rw [← List.map_drop]
    congr 1
    simp [List.drop_append]
  rw [h1, h2]
  simp only [List.mem_map, mem_allIdxU]
  constructor
  · rintro ⟨⟨_, ⟨f, hf, rfl⟩, hx⟩, h⟩
    refine ⟨?_, ?_⟩
    · rcases List.mem_append.1 hf with h | h
      · exact Or.inl ⟨f, h, hx⟩
      · rw [List.mem_singleton] at h; subst h; exact Or.inr hx
    · rcases h with ⟨_, ⟨g, hg, rfl⟩, h⟩ | h
      · exact Or.inr ⟨g, hg, h⟩
      · exact Or.inl h
  · rintro ⟨h, h'⟩
    refine ⟨?_, ?_⟩
    · rcases h with ⟨f, hf, h⟩ | h
      · exact ⟨_, ⟨f, List.mem_append_left _ hf, rfl⟩, h⟩
      · exact ⟨_, ⟨e, by simp, rfl⟩, h⟩
    · rcases h' with h | ⟨g, hg, h⟩
      · exact Or.inr h
      · exact Or.inl ⟨_, ⟨g, hg, rfl⟩, h⟩

end SeQuant.Binarize
