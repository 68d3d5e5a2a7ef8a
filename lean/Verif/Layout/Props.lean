import Verif.Layout.Model

/-!
# Reordering indices for a memory layout (C92)
-/

namespace SeQuant.Layout

/-- A strict weak order, as the standard asks of comparators. -/
def StrictWeak {α : Type} (cmp : α → α → Bool) : Prop :=
  (∀ a b, cmp a b = true → cmp b a = false) ∧ ∀ a b c, cmp b a = false → cmp c b = false → cmp c a = false

/-- What `std::sort` guarantees: only the order changes, and for a strict weak order nothing is less than something before it. -/
structure Sorters.Good (S : Sorters) : Prop where
  perm_one : ∀ cmp l, (S.one cmp l).Perm l
  perm_two : ∀ cmp l, (S.two cmp l).Perm l
  sorted_one : ∀ cmp, StrictWeak cmp → ∀ l, (S.one cmp l).Pairwise fun a b => cmp b a = false

/-- Insertion sort for both. -/
def insertionSorters : Sorters := ⟨fun cmp l => l.insertionSort (fun a b => cmp b a = false), fun cmp l => l.insertionSort (fun a b => cmp b a = false)⟩

theorem sorted_insertion {α : Type} {cmp : α → α → Bool} (h : StrictWeak cmp) (l : List α) :
    (l.insertionSort (fun a b => cmp b a = false)).Pairwise fun a b => cmp b a = false := by
  have : Std.Total (fun a b => cmp b a = false) := ⟨fun a b => by
    cases hc : cmp b a
    · exact Or.inl rfl
    · exact Or.inr (h.1 _ _ hc)⟩
  have : IsTrans α (fun a b => cmp b a = false) := ⟨fun a b c => h.2 a b c⟩
  exact List.pairwise_insertionSort _ l

/-- `std::sort` may be insertion sort. -/
theorem insertionSorters_good : insertionSorters.Good :=
  ⟨fun _ _ => List.perm_insertionSort _ _, fun _ _ => List.perm_insertionSort _ _, fun _ h l => sorted_insertion h l⟩

theorem lessSize_strictWeak (layout : MemLayout) : StrictWeak (lessSize layout) := by
  constructor
  · intro a b; cases layout <;> simp [lessSize] <;> omega
  · intro a b c; cases layout <;> simp [lessSize] <;> omega

/-- The comparator of `rewrite` is a strict weak order. -/
theorem less_strictWeak (size : Nat → Nat) (layout : MemLayout) : StrictWeak (less size layout) :=
  ⟨fun _ _ => (lessSize_strictWeak layout).1 _ _, fun _ _ _ => (lessSize_strictWeak layout).2 _ _ _⟩

/-- The comparator of pairs is one too. -/
theorem pairLess_strictWeak {cmp : Idx → Idx → Bool} (h : StrictWeak cmp) (first : Bool) : StrictWeak (pairLess cmp first) := by
  have key : StrictWeak (fun l r : Idx × Idx => cmp l.1 r.1 || (!cmp r.1 l.1 && cmp l.2 r.2)) := by
    constructor
    · rintro ⟨a, a'⟩ ⟨b, b'⟩ hh
      simp only [Bool.or_eq_true, Bool.and_eq_true, Bool.not_eq_true'] at hh
      simp only [Bool.or_eq_false_iff, Bool.and_eq_false_iff, Bool.not_eq_false']
      rcases hh with hh | ⟨h1, h2⟩
      · exact ⟨h.1 _ _ hh, Or.inl hh⟩
      · exact ⟨h1, Or.inr (h.1 _ _ h2)⟩
    · rintro ⟨a, a'⟩ ⟨b, b'⟩ ⟨c, c'⟩ h1 h2
      simp only [Bool.or_eq_false_iff, Bool.and_eq_false_iff, Bool.not_eq_false'] at h1 h2 ⊢
      refine ⟨h.2 _ _ _ h1.1 h2.1, ?_⟩
      rcases h1.2 with h3 | h3
      · left
        cases hac : cmp a c with
        | true => rfl
        | false => exact absurd h3 (by rw [h.2 _ _ _ h2.1 hac]; simp)
      · rcases h2.2 with h4 | h4
        · left
          cases hac : cmp a c with
          | true => rfl
          | false => exact absurd h4 (by rw [h.2 _ _ _ hac h1.1]; simp)
        · right; exact h.2 _ _ _ h3 h4
  cases first
  · exact ⟨fun a b hh => key.1 a.swap b.swap hh, fun a b c h1 h2 => key.2 a.swap b.swap c.swap h1 h2⟩
  · exact key

theorem isSorted_iff {α : Type} {cmp : α → α → Bool} (h : StrictWeak cmp) (l : List α) :
    isSorted cmp l = true ↔ l.Pairwise fun a b => cmp b a = false := by
  induction l with
  | nil => simp [isSorted]
  | cons a l ih =>
    cases l with
    | nil => simp [isSorted]
    | cons b l =>
      rw [isSorted, Bool.and_eq_true, ih, Bool.not_eq_true']
      constructor
      · rintro ⟨h1, h2⟩
        refine List.pairwise_cons.2 ⟨?_, h2⟩
        intro c hc
        rcases List.mem_cons.1 hc with rfl | hc
        · exact h1
        · exact h.2 _ _ _ h1 ((List.pairwise_cons.1 h2).1 c hc)
      · intro h3
        obtain ⟨h1, h2⟩ := List.pairwise_cons.1 h3
        exact ⟨h1 b (by simp), h2⟩

/-! ### Only the order of the indices changes -/

theorem sortedBraKet_perm {S : Sorters} (hS : S.Good) (size : Nat → Nat) (layout : MemLayout) (t : Tens) :
    ((sortedBraKet S (less size layout) (plan size layout t) t.bra t.ket).1).Perm t.bra ∧
      ((sortedBraKet S (less size layout) (plan size layout t) t.bra t.ket).2).Perm t.ket := by
  have hb : (if (plan size layout t).sortBra = true then S.one (less size layout) t.bra else t.bra).Perm t.bra := by
    split
    · exact hS.perm_one _ _
    · exact List.Perm.refl _
  have hk : (if (plan size layout t).sortKet = true then S.one (less size layout) t.ket else t.ket).Perm t.ket := by
    split
    · exact hS.perm_one _ _
    · exact List.Perm.refl _
  unfold sortedBraKet
  simp only
  by_cases hp : (plan size layout t).sortParticles = true
  · rw [if_pos hp]
    simp only
    have hlen : t.bra.length = t.ket.length := by
      simp only [plan, Bool.and_eq_true, decide_eq_true_eq] at hp
      exact hp.1.1.2
    have hz := hS.perm_two (pairLess (less size layout) (plan size layout t).braOverKet)
      ((if (plan size layout t).sortBra = true then S.one (less size layout) t.bra else t.bra).zip
        (if (plan size layout t).sortKet = true then S.one (less size layout) t.ket else t.ket))
    have hl : (if (plan size layout t).sortBra = true then S.one (less size layout) t.bra else t.bra).length =
        (if (plan size layout t).sortKet = true then S.one (less size layout) t.ket else t.ket).length := by
      rw [hb.length_eq, hk.length_eq, hlen]
    constructor
    · refine ((hz.map _).trans ?_)
      rw [List.map_fst_zip (le_of_eq hl)]
      exact hb
    · refine ((hz.map _).trans ?_)
      rw [List.map_snd_zip (le_of_eq hl.symm)]
      exact hk
  · rw [if_neg hp]
    exact ⟨hb, hk⟩

theorem stableSort_perm (cmp : Idx → Idx → Bool) (l : List Idx) : (stableSort cmp l).Perm l := List.perm_insertionSort _ _

/-- **The indices stay the same.** -/
theorem rewrite_perm {S : Sorters} (hS : S.Good) (size : Nat → Nat) (layout : MemLayout) (enabled : Bool) (t : Tens) :
    (rewritten S size layout enabled t).indices.Perm t.indices := by
  unfold rewritten
  cases h : rewrite S size layout enabled t with
  | none => exact List.Perm.refl _
  | some l =>
    simp only [Tens.indices, List.nil_append]
    unfold rewrite at h
    split at h
    · simp at h
    · simp only at h
      split at h
      · simp at h
      · simp only [Option.some.injEq] at h
        subst h
        obtain ⟨h1, h2⟩ := sortedBraKet_perm hS size layout t
        have hbk : (if (plan size layout t).swap = true then
            (sortedBraKet S (less size layout) (plan size layout t) t.bra t.ket).2 ++ (sortedBraKet S (less size layout) (plan size layout t) t.bra t.ket).1
            else (sortedBraKet S (less size layout) (plan size layout t) t.bra t.ket).1 ++
              (sortedBraKet S (less size layout) (plan size layout t) t.bra t.ket).2).Perm (t.bra ++ t.ket) := by
          split
          · exact (h2.append h1).trans List.perm_append_comm
          · exact h1.append h2
        have ha := stableSort_perm (less size layout) t.aux
        split
        · exact (ha.append hbk).trans List.perm_append_comm
        · exact hbk.append ha

/-! ### One array for all tensors of a kind -/

/-- The elements of an array have the symmetries that its tensors declare. -/
structure Symmetric {K : Type} (T : List Idx → List Idx → List Idx → K) (sy : Symmetry) (bk : BraKet) (col : Bool) : Prop where
  /-- of bra and ket -/
  slots : sy = .symm → ∀ b b' k k' a, b'.Perm b → k'.Perm k → T b' k' a = T b k a
  /-- of columns -/
  columns : col = true → ∀ (z z' : List (Idx × Idx)) a, z'.Perm z → T (z'.map (·.1)) (z'.map (·.2)) a = T (z.map (·.1)) (z.map (·.2)) a
  /-- of bra and ket with each other -/
  braket : bk = .symm → ∀ b k a, T b k a = T k b a

/-- The elements of one tensor in an expression: its symmetries, the numbers of bra and ket slots, and the spaces of its auxiliary slots,
which the other slots do not have. -/
structure Kind where
  /-- symmetry -/
  symm : Symmetry
  /-- bra-ket symmetry -/
  braket : BraKet
  /-- column symmetry -/
  column : Bool
  /-- bra rank -/
  nb : Nat
  /-- ket rank -/
  nk : Nat
  /-- spaces of the auxiliary slots -/
  auxSpaces : List Nat

/-- `t` is an element (or an occurrence) of the kind. -/
structure Kind.Has (κ : Kind) (t : Tens) : Prop where
  symm : t.symm = κ.symm
  braket : t.braket = κ.braket
  column : t.column = κ.column
  nb : t.bra.length = κ.nb
  nk : t.ket.length = κ.nk
  aux : t.aux.map (·.space) = κ.auxSpaces
  apart : ∀ i ∈ t.bra ++ t.ket, i.space ∉ κ.auxSpaces

theorem sortedBraKet_val {K : Type} {S : Sorters} (hS : S.Good) (size : Nat → Nat) (layout : MemLayout) (t : Tens)
    {T : List Idx → List Idx → List Idx → K} (hT : Symmetric T t.symm t.braket t.column) (a : List Idx) :
    T (sortedBraKet S (less size layout) (plan size layout t) t.bra t.ket).1
      (sortedBraKet S (less size layout) (plan size layout t) t.bra t.ket).2 a = T t.bra t.ket a := by
  by_cases hs : t.symm = .symm
  · obtain ⟨h1, h2⟩ := sortedBraKet_perm hS size layout t
    exact hT.slots hs _ _ _ _ _ h1 h2
  · have hb : (plan size layout t).sortBra = false := by simp [plan, hs]
    have hk : (plan size layout t).sortKet = false := by simp [plan, hs]
    unfold sortedBraKet
    simp only [hb, hk, Bool.false_eq_true, if_false]
    by_cases hp : (plan size layout t).sortParticles = true
    · rw [if_pos hp]
      have hp' := hp
      simp only [plan, Bool.and_eq_true, decide_eq_true_eq] at hp'
      have hlen : t.bra.length = t.ket.length := hp'.1.1.2
      have hc : t.column = true := hp'.1.2
      rw [hT.columns hc _ _ a (hS.perm_two _ (t.bra.zip t.ket)), List.map_fst_zip (le_of_eq hlen), List.map_snd_zip (le_of_eq hlen.symm)]
    · rw [if_neg hp]

theorem filter_all {p : Idx → Bool} {l : List Idx} (h : ∀ i ∈ l, p i = true) : l.filter p = l := List.filter_eq_self.2 h
theorem filter_none {p : Idx → Bool} {l : List Idx} (h : ∀ i ∈ l, p i = false) : l.filter p = [] := by
  rw [List.filter_eq_nil_iff]; intro a ha; simp [h a ha]

/-- What can be read off the reordered indices. -/
theorem rewritten_shape {K : Type} {S : Sorters} (hS : S.Good) (size : Nat → Nat) (layout : MemLayout) (enabled : Bool) {κ : Kind} {t : Tens} (ht : κ.Has t)
    {T : List Idx → List Idx → List Idx → K} (hT : Symmetric T κ.symm κ.braket κ.column) :
    ∃ b k : List Idx, b.length = κ.nb ∧ k.length = κ.nk ∧ (∀ a, T b k a = T t.bra t.ket a) ∧
      ((rewritten S size layout enabled t).indices.filter (fun i => decide (i.space ∉ κ.auxSpaces)) = b ++ k ∨
        (κ.braket = .symm ∧ (rewritten S size layout enabled t).indices.filter (fun i => decide (i.space ∉ κ.auxSpaces)) = k ++ b)) ∧
      ((rewritten S size layout enabled t).indices.filter (fun i => decide (i.space ∈ κ.auxSpaces)) = t.aux ∨
        (rewritten S size layout enabled t).indices.filter (fun i => decide (i.space ∈ κ.auxSpaces)) = stableSort (less size layout) t.aux) := by
  have hA : ∀ i ∈ t.aux, i.space ∈ κ.auxSpaces := fun i hi => by rw [← ht.aux]; exact List.mem_map_of_mem hi
  have hbra : ∀ i ∈ t.bra, i.space ∉ κ.auxSpaces := fun i hi => ht.apart i (by simp [hi])
  have hket : ∀ i ∈ t.ket, i.space ∉ κ.auxSpaces := fun i hi => ht.apart i (by simp [hi])
  have fA1 : ∀ l : List Idx, (∀ i ∈ l, i.space ∈ κ.auxSpaces) → l.filter (fun i => decide (i.space ∉ κ.auxSpaces)) = [] := fun l h =>
    filter_none fun i hi => by simpa using h i hi
  have fA2 : ∀ l : List Idx, (∀ i ∈ l, i.space ∈ κ.auxSpaces) → l.filter (fun i => decide (i.space ∈ κ.auxSpaces)) = l := fun l h =>
    filter_all fun i hi => by simpa using h i hi
  have fB1 : ∀ l : List Idx, (∀ i ∈ l, i.space ∉ κ.auxSpaces) → l.filter (fun i => decide (i.space ∉ κ.auxSpaces)) = l := fun l h =>
    filter_all fun i hi => by simpa using h i hi
  have fB2 : ∀ l : List Idx, (∀ i ∈ l, i.space ∉ κ.auxSpaces) → l.filter (fun i => decide (i.space ∈ κ.auxSpaces)) = [] := fun l h =>
    filter_none fun i hi => by simpa using h i hi
  unfold rewritten
  cases h : rewrite S size layout enabled t with
  | none =>
    refine ⟨t.bra, t.ket, ht.nb, ht.nk, fun _ => rfl, Or.inl ?_, Or.inl ?_⟩
    · simp only [Tens.indices, List.filter_append]
      rw [fB1 _ hbra, fB1 _ hket, fA1 _ hA, List.append_nil]
    · simp only [Tens.indices, List.filter_append]
      rw [fB2 _ hbra, fB2 _ hket, fA2 _ hA]; rfl
  | some l =>
    simp only [Tens.indices, List.nil_append]
    unfold rewrite at h
    split at h
    · simp at h
    simp only at h
    split at h
    · simp at h
    simp only [Option.some.injEq] at h
    obtain ⟨p1, p2⟩ := sortedBraKet_perm hS size layout t
    have hval := sortedBraKet_val (K := K) (T := T) hS size layout t (by rw [ht.symm, ht.braket, ht.column]; exact hT)
    revert h hval p1 p2
    generalize (sortedBraKet S (less size layout) (plan size layout t) t.bra t.ket).1 = b
    generalize (sortedBraKet S (less size layout) (plan size layout t) t.bra t.ket).2 = k
    intro h p1 p2 hval
    have hb' : ∀ i ∈ b, i.space ∉ κ.auxSpaces := fun i hi => hbra i (p1.mem_iff.1 hi)
    have hk' : ∀ i ∈ k, i.space ∉ κ.auxSpaces := fun i hi => hket i (p2.mem_iff.1 hi)
    have ha' : ∀ i ∈ stableSort (less size layout) t.aux, i.space ∈ κ.auxSpaces := fun i hi => hA i ((stableSort_perm _ _).mem_iff.1 hi)
    refine ⟨b, k, by rw [p1.length_eq, ht.nb], by rw [p2.length_eq, ht.nk], hval, ?_, Or.inr ?_⟩
    · subst h
      by_cases hsw : (plan size layout t).swap = true
      · right
        have : κ.braket = .symm := by
          rw [← ht.braket]
          simp only [plan, Bool.and_eq_true, decide_eq_true_eq] at hsw
          exact hsw.1.2
        refine ⟨this, ?_⟩
        rw [if_pos hsw]
        split <;> simp only [List.filter_append] <;> rw [fB1 _ hb', fB1 _ hk', fA1 _ ha'] <;> simp
      · left
        rw [if_neg hsw]
        split <;> simp only [List.filter_append] <;> rw [fB1 _ hb', fB1 _ hk', fA1 _ ha'] <;> simp
    · subst h
      split <;> split <;> simp only [List.filter_append] <;> rw [fB2 _ hb', fB2 _ hk', fA2 _ ha'] <;> simp

theorem stableSort_spaces (size : Nat → Nat) (layout : MemLayout) (l : List Idx) :
    (stableSort (less size layout) l).map (·.space) = (l.map (·.space)).insertionSort (fun a b => lessSize layout (size b) (size a) = false) :=
  List.map_insertionSort _ _ _ _ fun _ _ _ _ => Iff.rfl

/-- Stable sorting by space can be undone when the spaces are known. -/
theorem stableSort_inj (size : Nat → Nat) (layout : MemLayout) {l l' : List Idx} (hs : l.map (·.space) = l'.map (·.space))
    (h : stableSort (less size layout) l = stableSort (less size layout) l') : l = l' := by
  have hlen : l.length = l'.length := by simpa using congrArg List.length hs
  let r : Idx × Idx → Idx × Idx → Prop := fun p q => less size layout q.1 p.1 = false
  have hsp : ∀ p ∈ l.zip l', p.1.space = p.2.space := by
    intro p hp
    obtain ⟨i, hi, rfl⟩ := List.mem_iff_getElem.1 hp
    have h1 : i < l.length := by simp at hi; omega
    have h2 : i < l'.length := by simp at hi; omega
    have : (l.map (·.space))[i]'(by simpa using h1) = (l'.map (·.space))[i]'(by simpa using h2) := by simp only [hs]
    simpa using this
  have h1 : ((l.zip l').insertionSort r).map (·.1) = stableSort (less size layout) l := by
    rw [List.map_insertionSort (r := r) (s := fun a b => less size layout b a = false) _ _ (fun _ _ _ _ => Iff.rfl), List.map_fst_zip (le_of_eq hlen)]; rfl
  have h2 : ((l.zip l').insertionSort r).map (·.2) = stableSort (less size layout) l' := by
    rw [List.map_insertionSort (r := r) (s := fun a b => less size layout b a = false) _ _ (fun p hp q hq => by
      simp only [r, less, hsp p hp, hsp q hq]), List.map_snd_zip (le_of_eq hlen.symm)]; rfl
  have h3 : ∀ p ∈ l.zip l', p.1 = p.2 := by
    intro p hp
    have hp' : p ∈ (l.zip l').insertionSort r := (List.perm_insertionSort _ _).mem_iff.2 hp
    have hm : ((l.zip l').insertionSort r).map (·.1) = ((l.zip l').insertionSort r).map (·.2) := by rw [h1, h2, h]
    exact List.map_eq_map_iff.1 hm p hp'
  have h4 : (l.zip l').map (·.1) = (l.zip l').map (·.2) := List.map_eq_map_iff.2 h3
  rwa [List.map_fst_zip (le_of_eq hlen), List.map_snd_zip (le_of_eq hlen.symm)] at h4

theorem sort_of_eq_sort (size : Nat → Nat) (layout : MemLayout) {l l' : List Idx} (hs : l.map (·.space) = l'.map (·.space))
    (h : l = stableSort (less size layout) l') : l = l' := by
  have h1 : l'.Pairwise fun a b => less size layout b a = false := by
    have h2 : l.Pairwise fun a b => less size layout b a = false := by rw [h]; exact sorted_insertion (less_strictWeak size layout) l'
    have h3 : (l.map (·.space)).Pairwise fun a b => lessSize layout (size b) (size a) = false := List.pairwise_map.2 h2
    rw [hs] at h3
    exact List.pairwise_map.1 h3
  rw [h]
  exact List.Pairwise.insertionSort_eq h1

/-- Two elements that are put at the same place are the same. -/
theorem rewrite_same {K : Type} {S : Sorters} (hS : S.Good) (size : Nat → Nat) (layout : MemLayout) (enabled : Bool) {κ : Kind} {t t' : Tens}
    (ht : κ.Has t) (ht' : κ.Has t') (hr : κ.braket = .symm → κ.nb = κ.nk)
    {T : List Idx → List Idx → List Idx → K} (hT : Symmetric T κ.symm κ.braket κ.column)
    (h : (rewritten S size layout enabled t).indices = (rewritten S size layout enabled t').indices) :
    T t.bra t.ket t.aux = T t'.bra t'.ket t'.aux := by
  obtain ⟨b, k, hb, hk, hv, hbk, ha⟩ := rewritten_shape hS size layout enabled ht hT
  obtain ⟨b', k', hb', hk', hv', hbk', ha'⟩ := rewritten_shape hS size layout enabled ht' hT
  rw [h] at hbk ha
  have hsp : t.aux.map (·.space) = t'.aux.map (·.space) := by rw [ht.aux, ht'.aux]
  have haux : t.aux = t'.aux := by
    rcases ha with ha | ha <;> rcases ha' with ha' | ha'
    · rw [← ha, ← ha']
    · exact sort_of_eq_sort size layout hsp (by rw [← ha, ← ha'])
    · exact (sort_of_eq_sort size layout hsp.symm (by rw [← ha', ← ha])).symm
    · exact stableSort_inj size layout hsp (by rw [← ha, ← ha'])
  rw [← hv, ← hv', haux]
  rcases hbk with h1 | ⟨s, h1⟩ <;> rcases hbk' with h2 | ⟨s', h2⟩
  · obtain ⟨rfl, rfl⟩ := List.append_inj (h1.symm.trans h2) (by rw [hb, hb']); rfl
  · obtain ⟨rfl, rfl⟩ := List.append_inj (h1.symm.trans h2) (by rw [hb, hk', hr s']); exact hT.braket s' _ _ _
  · obtain ⟨rfl, rfl⟩ := List.append_inj (h1.symm.trans h2) (by rw [hk, hb', hr s]); exact hT.braket s _ _ _
  · obtain ⟨rfl, rfl⟩ := List.append_inj (h1.symm.trans h2) (by rw [hk, hk']); rfl

/-- **The reordered tensors denote one array.** For the tensors of one kind there is an array whose elements, at the reordered indices, are
those of the tensor at the original ones, whatever `std::sort` does with equal elements. -/
theorem rewrite_array_partial {K : Type} [Inhabited K] {S : Sorters} (hS : S.Good) (size : Nat → Nat) (layout : MemLayout) (enabled : Bool) (κ : Kind)
    (hr : κ.braket = .symm → κ.nb = κ.nk) {T : List Idx → List Idx → List Idx → K} (hT : Symmetric T κ.symm κ.braket κ.column) :
    ∃ W : List Idx → K, ∀ t, κ.Has t → W (rewritten S size layout enabled t).indices = T t.bra t.ket t.aux := by
  classical
  refine ⟨fun L => if h : ∃ t, κ.Has t ∧ (rewritten S size layout enabled t).indices = L then
    T h.choose.bra h.choose.ket h.choose.aux else default, ?_⟩
  intro t ht
  have h : ∃ t', κ.Has t' ∧ (rewritten S size layout enabled t').indices = (rewritten S size layout enabled t).indices := ⟨t, ht, rfl⟩
  simp only [dif_pos h]
  exact rewrite_same hS size layout enabled h.choose_spec.1 ht hr hT h.choose_spec.2

/-- The same array for two ways of sorting: the order of equal elements does not matter. -/
theorem rewrite_array_sorters {K : Type} [Inhabited K] {S S' : Sorters} (hS : S.Good) (hS' : S'.Good) (size : Nat → Nat) (layout : MemLayout) (κ : Kind)
    (haux : κ.auxSpaces = []) (hr : κ.braket = .symm → κ.nb = κ.nk) {T : List Idx → List Idx → List Idx → K} (hT : Symmetric T κ.symm κ.braket κ.column)
    {t t' : Tens} (ht : κ.Has t) (ht' : κ.Has t') (h : (rewritten S size layout true t).indices = (rewritten S' size layout true t').indices) :
    T t.bra t.ket t.aux = T t'.bra t'.ket t'.aux := by
  obtain ⟨b, k, hb, hk, hv, hbk, ha⟩ := rewritten_shape hS size layout true ht hT
  obtain ⟨b', k', hb', hk', hv', hbk', ha'⟩ := rewritten_shape hS' size layout true ht' hT
  rw [h] at hbk ha
  have e1 : t.aux = [] := by have := ht.aux; rw [haux] at this; simpa using this
  have e2 : t'.aux = [] := by have := ht'.aux; rw [haux] at this; simpa using this
  rw [← hv, ← hv', e1, e2]
  rcases hbk with h1 | ⟨s, h1⟩ <;> rcases hbk' with h2 | ⟨s', h2⟩
  · obtain ⟨rfl, rfl⟩ := List.append_inj (h1.symm.trans h2) (by rw [hb, hb']); rfl
  · obtain ⟨rfl, rfl⟩ := List.append_inj (h1.symm.trans h2) (by rw [hb, hk', hr s']); exact hT.braket s' _ _ _
  · obtain ⟨rfl, rfl⟩ := List.append_inj (h1.symm.trans h2) (by rw [hk, hb', hr s]); exact hT.braket s _ _ _
  · obtain ⟨rfl, rfl⟩ := List.append_inj (h1.symm.trans h2) (by rw [hk, hk']); rfl

/-- Sizes for the examples: 0 is the occupied space, 1 the virtual one, 2 the one of density fitting, 3 a greater one. -/
def sz : Nat → Nat := fun s => [10, 100, 50, 500].getD s 0

/-- `t` of the examples. -/
def tens (b k a : List Idx) (s : Symmetry := .nonsymm) (bk : BraKet := .nonsymm) (c : Bool := false) : Tens := ⟨b, k, a, s, bk, c⟩

/-- **Auxiliary slots that may have several spaces clash:** for the column major layout the auxiliary indices of `T(;;i,a)` and of `T(;;a,i)` are
put in the same order, though the elements have nothing to do with each other. -/
theorem aux_clash : (rewritten insertionSorters sz .columnMajor true (tens [] [] [⟨0, 1⟩, ⟨1, 2⟩])).indices = [⟨1, 2⟩, ⟨0, 1⟩] ∧
    (rewritten insertionSorters sz .columnMajor true (tens [] [] [⟨1, 2⟩, ⟨0, 1⟩])).indices = [⟨1, 2⟩, ⟨0, 1⟩] := by decide +kernel

/-- **Auxiliary slots with a space of the other slots clash,** also for the row major layout: `T(a;b;i)` and `T(i;a;b)`. -/
theorem aux_clash_row : (rewritten insertionSorters sz .rowMajor true (tens [⟨1, 1⟩] [⟨1, 2⟩] [⟨0, 3⟩])).indices = [⟨0, 3⟩, ⟨1, 1⟩, ⟨1, 2⟩] ∧
    (rewritten insertionSorters sz .rowMajor true (tens [⟨0, 3⟩] [⟨1, 1⟩] [⟨1, 2⟩])).indices = [⟨0, 3⟩, ⟨1, 1⟩, ⟨1, 2⟩] := by decide +kernel

/-- So there is no array for such tensors. -/
theorem no_array : ¬ ∃ W : List Idx → Nat, ∀ i a, W (rewritten insertionSorters sz .columnMajor true (tens [] [] [i, a])).indices =
    (fun x : List Idx => if x = [⟨0, 1⟩, ⟨1, 2⟩] then 1 else 0) [i, a] := by
  rintro ⟨W, hW⟩
  have h1 := hW ⟨0, 1⟩ ⟨1, 2⟩
  have h2 := hW ⟨1, 2⟩ ⟨0, 1⟩
  rw [aux_clash.1] at h1
  rw [aux_clash.2] at h2
  rw [h1] at h2
  simp at h2

/-- With different ranks of bra and ket, bra-ket symmetry gives clashes too. -/
theorem rank_clash : (rewritten insertionSorters sz .rowMajor true (tens [⟨1, 1⟩] [⟨0, 1⟩, ⟨0, 2⟩] [] .nonsymm .symm)).indices = [⟨0, 1⟩, ⟨0, 2⟩, ⟨1, 1⟩] ∧
    (rewritten insertionSorters sz .rowMajor true (tens [⟨0, 1⟩] [⟨0, 2⟩, ⟨1, 1⟩] [] .nonsymm .symm)).indices = [⟨0, 1⟩, ⟨0, 2⟩, ⟨1, 1⟩] := by decide +kernel

/-- Rewriting twice is not rewriting once: the second time all indices are auxiliary ones. -/
theorem rewrite_twice : rewritten insertionSorters sz .columnMajor true
    (rewritten insertionSorters sz .columnMajor true (tens [⟨0, 1⟩] [⟨1, 2⟩] [⟨2, 3⟩])) ≠
      rewritten insertionSorters sz .columnMajor true (tens [⟨0, 1⟩] [⟨1, 2⟩] [⟨2, 3⟩]) := by decide +kernel

/-- For the row major layout it is. -/
theorem rewrite_twice_row (S : Sorters) (size : Nat → Nat) (layout : MemLayout) (hl : layout ≠ .columnMajor) (enabled : Bool) (t : Tens) (l : List Idx)
    (h : rewrite S size layout enabled t = some l) : rewrite S size layout enabled (rewritten S size layout enabled t) = none := by
  unfold rewritten
  rw [h]
  simp only
  unfold rewrite
  have hp : (plan size layout ⟨[], [], l, .nonsymm, .nonsymm, false⟩) = ⟨true, false, false, false, false, false⟩ := by
    cases layout with
    | columnMajor => exact absurd rfl hl
    | rowMajor => simp [plan, maxSpace, sizeOf, relevantSpace, needsSwap, lessSize]; omega
    | unspecified => simp [plan, maxSpace, sizeOf, relevantSpace, needsSwap, lessSize]
  rw [hp]
  simp

end SeQuant.Layout
