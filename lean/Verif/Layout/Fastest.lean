import Verif.Layout.Props

/-!
# The largest space is contiguous in memory (C92)
-/

namespace SeQuant.Layout

/-- The mode whose neighbouring elements are neighbours in memory. -/
def fastest (layout : MemLayout) (l : List Idx) : Option Idx :=
  match layout with
  | .rowMajor => l.getLast?
  | .columnMajor => l.head?
  | .unspecified => none

theorem maxSpace_size (size : Nat → Nat) (l : List Idx) :
    (∀ i ∈ l, size i.space ≤ sizeOf size (maxSpace size l)) ∧ (sizeOf size (maxSpace size l) = 0 ∨ ∃ i ∈ l, sizeOf size (maxSpace size l) = size i.space) := by
  have key : ∀ (l : List Idx) (m : Option Nat), (sizeOf size m ≤ sizeOf size (l.foldl (fun m i => if size i.space > sizeOf size m then some i.space else m) m)) ∧
      (∀ i ∈ l, size i.space ≤ sizeOf size (l.foldl (fun m i => if size i.space > sizeOf size m then some i.space else m) m)) ∧
      (l.foldl (fun m i => if size i.space > sizeOf size m then some i.space else m) m = m ∨
        ∃ i ∈ l, l.foldl (fun m i => if size i.space > sizeOf size m then some i.space else m) m = some i.space) := by
    intro l
    induction l with
    | nil => intro m; simp
    | cons a l ih =>
      intro m
      simp only [List.foldl_cons]
      by_cases h : size a.space > sizeOf size m
      · rw [if_pos h]
        obtain ⟨h1, h2, h3⟩ := ih (some a.space)
        have h1' : size a.space ≤ _ := h1
        refine ⟨by omega, ?_, ?_⟩
        · intro i hi
          rcases List.mem_cons.1 hi with rfl | hi
          · exact h1'
          · exact h2 i hi
        · right
          rcases h3 with h3 | ⟨i, hi, h3⟩
          · exact ⟨a, by simp, h3⟩
          · exact ⟨i, by simp [hi], h3⟩
      · rw [if_neg h]
        obtain ⟨h1, h2, h3⟩ := ih m
        refine ⟨h1, ?_, ?_⟩
        · intro i hi
          rcases List.mem_cons.1 hi with rfl | hi
          · omega
          · exact h2 i hi
        · rcases h3 with h3 | ⟨i, hi, h3⟩
          · exact Or.inl h3
          · exact Or.inr ⟨i, by simp [hi], h3⟩
  obtain ⟨h1, h2, h3⟩ := key l none
  refine ⟨h2, ?_⟩
  rcases h3 with h3 | ⟨i, hi, h3⟩
  · left; unfold maxSpace; rw [h3]; rfl
  · right; exact ⟨i, hi, by unfold maxSpace; rw [h3]; rfl⟩

/-- In a sorted list the fastest index has the largest size. -/
theorem fastest_sorted (size : Nat → Nat) {layout : MemLayout} (hl : layout ≠ .unspecified) {l : List Idx} (hne : l ≠ [])
    (hs : l.Pairwise fun a b => less size layout b a = false) :
    ∃ f, fastest layout l = some f ∧ f ∈ l ∧ ∀ i ∈ l, size i.space ≤ size f.space := by
  cases layout with
  | unspecified => exact absurd rfl hl
  | rowMajor =>
    refine ⟨l.getLast hne, List.getLast?_eq_getLast_of_ne_nil hne, List.getLast_mem hne, ?_⟩
    intro i hi
    rw [← List.dropLast_append_getLast hne] at hs hi
    rcases List.mem_append.1 hi with h | h
    · have := (List.pairwise_append.1 hs).2.2 i h (l.getLast hne) (by simp)
      simpa [less, lessSize] using this
    · rw [List.mem_singleton.1 h]
  | columnMajor =>
    cases l with
    | nil => exact absurd rfl hne
    | cons a l =>
      refine ⟨a, rfl, by simp, ?_⟩
      intro i hi
      rcases List.mem_cons.1 hi with rfl | hi
      · exact le_rfl
      · have := (List.pairwise_cons.1 hs).1 i hi
        simpa [less, lessSize] using this

/-- The space that stands for a block of indices is the one of its fastest index after sorting. -/
theorem relevant_sorted {S : Sorters} (hS : S.Good) (size : Nat → Nat) {layout : MemLayout} (hl : layout ≠ .unspecified) (l : List Idx) (hne : l ≠ []) :
    ∃ f, fastest layout (if !isSorted (less size layout) l then S.one (less size layout) l else l) = some f ∧
      sizeOf size (if !isSorted (less size layout) l then maxSpace size l else relevantSpace layout l) = size f.space ∧
      ∀ i ∈ l, size i.space ≤ size f.space := by
  by_cases h : isSorted (less size layout) l = true
  · obtain ⟨f, h1, h2, h3⟩ := fastest_sorted size hl hne ((isSorted_iff (less_strictWeak size layout) l).1 h)
    refine ⟨f, by simpa [h] using h1, ?_, h3⟩
    simp only [h, Bool.not_true, Bool.false_eq_true, if_false]
    cases layout with
    | unspecified => exact absurd rfl hl
    | rowMajor => simp only [fastest] at h1; simp [relevantSpace, h1, sizeOf]
    | columnMajor => simp only [fastest] at h1; simp [relevantSpace, h1, sizeOf]
  · have hf : isSorted (less size layout) l = false := by simpa using h
    have hp := hS.perm_one (less size layout) l
    have hne' : S.one (less size layout) l ≠ [] := fun e => hne (by rw [e] at hp; exact hp.nil_eq.symm)
    obtain ⟨f, h1, h2, h3⟩ := fastest_sorted size hl hne' (hS.sorted_one _ (less_strictWeak size layout) l)
    refine ⟨f, by simpa [hf] using h1, ?_, fun i hi => h3 i (hp.mem_iff.2 hi)⟩
    simp only [hf, Bool.not_false, if_true]
    obtain ⟨m1, m2⟩ := maxSpace_size size l
    have hfl := hp.mem_iff.1 h2
    have := m1 f hfl
    rcases m2 with m2 | ⟨i, hi, m2⟩
    · omega
    · have := h3 i (hp.mem_iff.2 hi); omega

theorem isSorted_zip {cmp : Idx → Idx → Bool} (hc : StrictWeak cmp) (first : Bool) : (b k : List Idx) → isSorted cmp b = true → isSorted cmp k = true →
    isSorted (pairLess cmp first) (b.zip k) = true
  | [], k, _, _ => by simp [isSorted]
  | [x], [], _, _ => by simp [isSorted]
  | [x], y :: k, _, _ => by simp [isSorted]
  | x :: x' :: b, [], _, _ => by simp [isSorted]
  | x :: x' :: b, [y], _, _ => by simp [isSorted]
  | x :: x' :: b, y :: y' :: k, h1, h2 => by
    have ih := isSorted_zip hc first (x' :: b) (y' :: k)
    simp only [isSorted, Bool.and_eq_true, Bool.not_eq_true', List.zip_cons_cons] at h1 h2 ih ⊢
    refine ⟨?_, ih h1.2 h2.2⟩
    cases first <;> simp [pairLess, h1.1, h2.1]

/-- **The fastest mode has the largest space:** for tensors that are symmetric in bra and ket and under their exchange, without auxiliary indices. -/
theorem fastest_largest_partial {S : Sorters} (hS : S.Good) (size : Nat → Nat) {layout : MemLayout} (hl : layout ≠ .unspecified) (t : Tens)
    (hsym : t.symm = .symm) (hbk : t.braket = .symm) (haux : t.aux = []) (hne : t.indices ≠ []) :
    ∃ f, fastest layout (rewritten S size layout true t).indices = some f ∧ ∀ i ∈ t.indices, size i.space ≤ size f.space := by
  obtain ⟨bra, ket, aux, sy, bk, col⟩ := t
  simp only at hsym hbk haux
  subst hsym hbk haux
  -- the plan
  have hsp : (plan size layout ⟨bra, ket, [], .symm, .symm, col⟩).sortParticles = false := by
    by_cases h1 : isSorted (less size layout) bra = true
    · by_cases h2 : isSorted (less size layout) ket = true
      · simp [plan, isSorted_zip (less_strictWeak size layout) _ bra ket h1 h2]
      · simp [plan, h2]
    · simp [plan, h1]
  have hpb : (plan size layout ⟨bra, ket, [], .symm, .symm, col⟩).sortBra = !isSorted (less size layout) bra := by simp [plan]
  have hpk : (plan size layout ⟨bra, ket, [], .symm, .symm, col⟩).sortKet = !isSorted (less size layout) ket := by simp [plan]
  have hpa : (plan size layout ⟨bra, ket, [], .symm, .symm, col⟩).auxFirst = false := by simp [plan]
  have hsw : (plan size layout ⟨bra, ket, [], .symm, .symm, col⟩).swap = (decide (bra ≠ []) && decide (ket ≠ []) &&
      needsSwap size layout (if !isSorted (less size layout) bra then maxSpace size bra else relevantSpace layout bra)
        (if !isSorted (less size layout) ket then maxSpace size ket else relevantSpace layout ket)) := by
    have h3 := hsp
    simp only [plan, decide_true, Bool.true_and] at h3
    simp only [plan, decide_true, Bool.true_and, Bool.and_true, h3, Bool.false_and, Bool.or_false]
  have hind : (rewritten S size layout true ⟨bra, ket, [], .symm, .symm, col⟩).indices =
      if (plan size layout ⟨bra, ket, [], .symm, .symm, col⟩).swap = true then
        (if !isSorted (less size layout) ket then S.one (less size layout) ket else ket) ++ (if !isSorted (less size layout) bra then S.one (less size layout) bra else bra)
      else (if !isSorted (less size layout) bra then S.one (less size layout) bra else bra) ++
        (if !isSorted (less size layout) ket then S.one (less size layout) ket else ket) := by
    unfold rewritten rewrite
    simp only [Bool.not_true, Bool.false_eq_true, if_false, sortedBraKet, hsp, hpb, hpk, hpa]
    by_cases h : (!(!isSorted (less size layout) bra) && !(!isSorted (less size layout) ket) &&
        !(plan size layout ⟨bra, ket, [], .symm, .symm, col⟩).swap && !false && !false) = true
    · rw [if_pos h]
      simp only [Bool.not_not, Bool.and_eq_true, Bool.not_eq_true', Bool.not_false, and_true] at h
      simp [Tens.indices, h]
    · rw [if_neg h]
      simp only [Tens.indices, List.nil_append, stableSort, List.insertionSort_nil, List.append_nil]
  rw [hind, hsw]
  simp only [Tens.indices, List.append_nil] at hne ⊢
  by_cases hb : bra = []
  · subst hb
    have hk : ket ≠ [] := by simpa using hne
    obtain ⟨f, h1, h2, h3⟩ := relevant_sorted hS size hl ket hk
    refine ⟨f, ?_, fun i hi => h3 i (by simpa using hi)⟩
    simpa [isSorted] using h1
  by_cases hk : ket = []
  · subst hk
    obtain ⟨f, h1, h2, h3⟩ := relevant_sorted hS size hl bra hb
    refine ⟨f, ?_, fun i hi => h3 i (by simpa using hi)⟩
    simpa [isSorted] using h1
  obtain ⟨f, f1, f2, f3⟩ := relevant_sorted hS size hl bra hb
  obtain ⟨g, g1, g2, g3⟩ := relevant_sorted hS size hl ket hk
  simp only [ne_eq, hb, hk, not_false_eq_true, decide_true, Bool.true_and]
  revert f1 f2 g1 g2
  generalize (if (!isSorted (less size layout) bra) = true then S.one (less size layout) bra else bra) = b'
  generalize (if (!isSorted (less size layout) ket) = true then S.one (less size layout) ket else ket) = k'
  generalize (if (!isSorted (less size layout) bra) = true then maxSpace size bra else relevantSpace layout bra) = rb
  generalize (if (!isSorted (less size layout) ket) = true then maxSpace size ket else relevantSpace layout ket) = rk
  intro f1 f2 g1 g2
  have bigF : size g.space ≤ size f.space → ∀ i ∈ bra ++ ket, size i.space ≤ size f.space := by
    intro h i hi
    rcases List.mem_append.1 hi with hi | hi
    · exact f3 i hi
    · exact (g3 i hi).trans h
  have bigG : size f.space ≤ size g.space → ∀ i ∈ bra ++ ket, size i.space ≤ size g.space := by
    intro h i hi
    rcases List.mem_append.1 hi with hi | hi
    · exact (f3 i hi).trans h
    · exact g3 i hi
  cases layout with
  | unspecified => exact absurd rfl hl
  | rowMajor =>
    simp only [fastest] at f1 g1 ⊢
    by_cases hs : needsSwap size .rowMajor rb rk = true
    · rw [if_pos hs, List.getLast?_append, f1]
      simp only [needsSwap, lessSize, Bool.and_eq_true, Bool.not_eq_true', Bool.or_eq_false_iff, decide_eq_false_iff_not] at hs
      exact ⟨f, rfl, bigF (by omega)⟩
    · rw [if_neg hs, List.getLast?_append, g1]
      refine ⟨g, rfl, bigG ?_⟩
      by_contra hlt
      apply hs
      have hne : rb ≠ rk := by rintro rfl; omega
      simp only [needsSwap, lessSize, Bool.and_eq_true, Bool.not_eq_true', Bool.or_eq_false_iff, decide_eq_false_iff_not, decide_eq_true_eq]
      exact ⟨hne, by omega, by omega⟩
  | columnMajor =>
    simp only [fastest] at f1 g1 ⊢
    by_cases hs : needsSwap size .columnMajor rb rk = true
    · rw [if_pos hs, List.head?_append, g1]
      simp only [needsSwap, lessSize, Bool.and_eq_true, Bool.not_eq_true', Bool.or_eq_false_iff, decide_eq_false_iff_not] at hs
      exact ⟨g, rfl, bigG (by omega)⟩
    · rw [if_neg hs, List.head?_append, f1]
      refine ⟨f, rfl, bigF ?_⟩
      by_contra hlt
      apply hs
      have hne : rb ≠ rk := by rintro rfl; omega
      simp only [needsSwap, lessSize, Bool.and_eq_true, Bool.not_eq_true', Bool.or_eq_false_iff, decide_eq_false_iff_not, decide_eq_true_eq]
      exact ⟨hne, by omega, by omega⟩

/-- **Column symmetry:** the decision about the exchange is taken with the order of the indices before sorting. `T(a,i; i,a)` is stored as
`i a a i`, with an occupied index fastest, though the exchange of bra and ket would put a virtual one there. -/
theorem particles_not_fastest :
    (rewritten insertionSorters sz .rowMajor true (tens [⟨1, 1⟩, ⟨0, 1⟩] [⟨0, 2⟩, ⟨1, 2⟩] [] .nonsymm .symm true)).indices =
      [⟨0, 1⟩, ⟨1, 1⟩, ⟨1, 2⟩, ⟨0, 2⟩] := by decide +kernel

/-- **Auxiliary indices:** for the row major layout they are compared with the first block, not with the last one. `B(i;a;K)` with an auxiliary space
smaller than the virtual one is stored as `i a K`, not as `K i a`. -/
theorem aux_not_fastest :
    (rewritten insertionSorters sz .rowMajor true (tens [⟨0, 1⟩] [⟨1, 1⟩] [⟨2, 1⟩])).indices = [⟨0, 1⟩, ⟨1, 1⟩, ⟨2, 1⟩] := by decide +kernel

example : (rewritten insertionSorters sz .rowMajor true (tens [⟨1, 1⟩, ⟨0, 1⟩] [⟨0, 2⟩, ⟨0, 3⟩] [] .symm .symm true)).indices =
    [⟨0, 2⟩, ⟨0, 3⟩, ⟨0, 1⟩, ⟨1, 1⟩] := by decide +kernel

example : rewrite insertionSorters sz .columnMajor true (tens [⟨1, 1⟩] [⟨0, 1⟩] [⟨3, 1⟩]) = some [⟨3, 1⟩, ⟨1, 1⟩, ⟨0, 1⟩] := by decide +kernel

example : rewrite insertionSorters sz .unspecified true (tens [⟨1, 1⟩, ⟨0, 1⟩] [⟨0, 2⟩, ⟨0, 3⟩] [⟨3, 1⟩] .symm .symm true) = none := by decide +kernel

end SeQuant.Layout
