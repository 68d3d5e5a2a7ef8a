import Verif.Expression.Lemmas

set_option linter.unusedSectionVars false

/-! # Which shapes `append`, `clone` and the constructors produce -/

namespace SeQuant.Expression

variable {K A R : Type} [CommRing K] [DecidableEq K] [Ring R] [Algebra K R] [Atoms K A] {I : A → R}

mutual
/-- The factors a recursively flattening `append` pushes. -/
def flatF : Expr K A → List (Expr K A)
  | .const _ => []
  | .prod _ l => flatFL l
  | .atom a => [.atom a]
  | .sum ci l => [.sum ci l]
def flatFL : List (Expr K A) → List (Expr K A)
  | [] => []
  | e :: l => flatF e ++ flatFL l
end

mutual
/-- The summands `Sum::append` pushes or merges. -/
def flatS : Expr K A → List (Expr K A)
  | .sum _ l => flatSL l
  | .const c => [.const c]
  | .atom a => [.atom a]
  | .prod c l => [.prod c l]
def flatSL : List (Expr K A) → List (Expr K A)
  | [] => []
  | e :: l => flatS e ++ flatSL l
end

section
variable (cl : Expr K A → Expr K A)

mutual
theorem pAppend_rec (st : PState K A) (e : Expr K A) :
    (pAppend cl .Recursively st e).2 = st.2 ++ (flatF e).map cl := by
  match e with
  | .const c => simp [pAppend, flatF]
  | .atom a => simp [pAppend, flatF]
  | .sum ci l => simp [pAppend, flatF]
  | .prod c l =>
    simp only [pAppend, flatF]
    rw [if_neg (by simp)]
    exact pAppendAll_rec (st.1 * c, st.2) l
theorem pAppendAll_rec (st : PState K A) (l : List (Expr K A)) :
    (pAppendAll cl .Recursively st l).2 = st.2 ++ (flatFL l).map cl := by
  match l with
  | [] => simp [pAppendAll, flatFL]
  | e :: l => rw [pAppendAll, pAppendAll_rec, pAppend_rec]; simp [flatFL]
end

theorem pAppendAll_no (st : PState K A) (l : List (Expr K A)) :
    (pAppendAll cl .No st l).2 = st.2 ++ (l.filter (fun e => !e.isConst)).map cl := by
  induction l generalizing st with
  | nil => simp [pAppendAll]
  | cons e l ih => cases e <;> simp [pAppendAll, ih, pAppend, Expr.isConst]

theorem addAt_all {P : Expr K A → Prop} (hc : ∀ c, P (.const c)) (l : List (Expr K A)) (i : Nat) (c : K)
    (h : ∀ e ∈ l, P e) : ∀ e ∈ addAt l i c, P e := by
  unfold addAt
  split
  · intro e he
    rcases List.mem_or_eq_of_mem_set he with h1 | h1
    · exact h e h1
    · subst h1; exact hc _
  · exact h

mutual
theorem sAppend_all {P : Expr K A → Prop} (hc : ∀ c, P (.const c)) (st : SState K A) (e : Expr K A)
    (h : ∀ e ∈ st.2, P e) (he : ∀ x ∈ flatS e, x.isConst = false → P (cl x)) : ∀ y ∈ (sAppend cl st e).2, P y := by
  match e with
  | .const c =>
    simp only [sAppend]
    split
    · exact h
    · split
      · exact addAt_all hc _ _ _ h
      · intro e he
        simp only [List.mem_append, List.mem_singleton] at he
        rcases he with he | rfl
        · exact h e he
        · exact hc _
  | .atom a =>
    simp only [sAppend]
    split
    · exact h
    · intro e he'
      simp only [List.mem_append, List.mem_singleton] at he'
      rcases he' with he' | rfl
      · exact h e he'
      · exact he _ (by simp [flatS]) rfl
  | .prod c l =>
    simp only [sAppend]
    split
    · exact h
    · intro e he'
      simp only [List.mem_append, List.mem_singleton] at he'
      rcases he' with he' | rfl
      · exact h e he'
      · exact he _ (by simp [flatS]) rfl
  | .sum ci l =>
    simp only [sAppend]
    exact sAppendAll_all hc st l h (by simpa [flatS] using he)
theorem sAppendAll_all {P : Expr K A → Prop} (hc : ∀ c, P (.const c)) (st : SState K A) (l : List (Expr K A))
    (h : ∀ e ∈ st.2, P e) (he : ∀ x ∈ flatSL l, x.isConst = false → P (cl x)) : ∀ e ∈ (sAppendAll cl st l).2, P e := by
  match l with
  | [] => simpa [sAppendAll] using h
  | e :: l =>
    rw [sAppendAll]
    exact sAppendAll_all hc _ l (sAppend_all hc st e h (fun x hx => he x (by simp [flatSL, hx])))
      (fun x hx => he x (by simp [flatSL, hx]))
end
end

theorem noSumL_iff (l : List (Expr K A)) : noSumL l ↔ ∀ e ∈ l, e.noSum := by
  induction l with
  | nil => simp [noSumL]
  | cons e l ih => simp [noSumL, ih]

theorem FlatP_iff (l : List (Expr K A)) : FlatP l ↔ ∀ e ∈ l, e.isProd = false ∧ e.Flat := by
  induction l with
  | nil => simp [FlatP]
  | cons e l ih => simp [FlatP, ih]

theorem FlatS_iff (l : List (Expr K A)) : FlatS l ↔ ∀ e ∈ l, e.isSum = false ∧ e.Flat := by
  induction l with
  | nil => simp [FlatS]
  | cons e l ih => simp [FlatS, ih]

theorem noSum_isSum {e : Expr K A} (h : e.noSum) : e.isSum = false := by cases e <;> simp_all [Expr.noSum, Expr.isSum]

theorem flatS_of_not_sum {e : Expr K A} (h : e.isSum = false) : flatS e = [e] := by
  cases e <;> simp_all [flatS, Expr.isSum]

theorem flatSL_of_not_sum {l : List (Expr K A)} (h : ∀ e ∈ l, e.isSum = false) : flatSL l = l := by
  induction l with
  | nil => rfl
  | cons e l ih =>
    rw [flatSL, flatS_of_not_sum (h e (by simp)), ih (fun x hx => h x (by simp [hx]))]; rfl

theorem flatF_of_not_prod {e : Expr K A} (h : e.isProd = false) (h' : e.isConst = false) : flatF e = [e] := by
  cases e <;> simp_all [flatF, Expr.isProd, Expr.isConst]

mutual
theorem flatF_noSum (e : Expr K A) (h : e.noSum) : ∀ x ∈ flatF e, x.noSum := by
  match e with
  | .const c => simp [flatF]
  | .atom a => simp [flatF, Expr.noSum]
  | .sum ci l => simp [Expr.noSum] at h
  | .prod c l => simp only [flatF]; exact flatFL_noSum l h
theorem flatFL_noSum (l : List (Expr K A)) (h : noSumL l) : ∀ x ∈ flatFL l, x.noSum := by
  match l with
  | [] => simp [flatFL]
  | e :: l =>
    intro x hx
    simp only [flatFL, List.mem_append] at hx
    simp only [noSumL] at h
    rcases hx with hx | hx
    · exact flatF_noSum e h.1 x hx
    · exact flatFL_noSum l h.2 x hx
end

/-- The type of an expression survives cloning. -/
theorem cloneF_kind (n : Nat) (e : Expr K A) :
    (cloneF n e).isSum = e.isSum ∧ (cloneF n e).isProd = e.isProd ∧ (cloneF n e).isConst = e.isConst := by
  cases n <;> cases e <;> simp [cloneF, Expr.isSum, Expr.isProd, Expr.isConst]

theorem cloneF_prod (n : Nat) (c : K) (l : List (Expr K A)) : ∃ c', cloneF (n + 1) (.prod c l) =
    .prod c' (((l.map (cloneF n)).filter (fun e => !e.isConst)).map (cloneF n)) := by
  refine ⟨(pAppendAll (cloneF n) .No (c, []) (l.map (cloneF n))).1, ?_⟩
  simp only [cloneF, foldl_pAppend, Expr.prod.injEq]
  exact ⟨trivial, by rw [pAppendAll_no]; simp⟩

theorem cloneF_noSum (n : Nat) (e : Expr K A) (h : e.noSum) : (cloneF n e).noSum := by
  induction n generalizing e with
  | zero => cases e <;> exact h
  | succ n ih =>
    cases e with
    | const c => exact h
    | atom a => exact h
    | sum ci l => simp [Expr.noSum] at h
    | prod c l =>
      obtain ⟨c', hc⟩ := cloneF_prod n c l
      rw [hc]
      simp only [Expr.noSum, noSumL_iff] at h ⊢
      intro e he
      simp only [List.mem_map, List.mem_filter] at he
      obtain ⟨y, ⟨⟨x, hx, rfl⟩, _⟩, rfl⟩ := he
      exact ih _ (ih _ (h x hx))

theorem cloneF_Expanded (n : Nat) (e : Expr K A) (h : e.Expanded) : (cloneF n e).Expanded := by
  cases e with
  | const c => cases n <;> exact h
  | atom a => cases n <;> exact h
  | prod c l =>
    have h1 := cloneF_noSum n (.prod c l) h
    have h2 := (cloneF_kind n (.prod c l)).1
    revert h1 h2
    cases cloneF n (.prod c l) <;> simp [Expr.Expanded, Expr.isSum]
  | sum ci l =>
    cases n with
    | zero => exact h
    | succ n =>
      simp only [cloneF, foldl_sAppend]
      intro e he
      refine sAppendAll_all (P := Expr.noSum) (cloneF n) (by simp [Expr.noSum]) (none, []) _ (by simp) ?_ e he
      have hs : ∀ x ∈ l.map (cloneF n), x.noSum := by
        intro x hx
        simp only [List.mem_map] at hx
        obtain ⟨y, hy, rfl⟩ := hx
        exact cloneF_noSum _ _ (h y hy)
      rw [flatSL_of_not_sum (fun x hx => noSum_isSum (hs x hx))]
      intro x hx _
      exact cloneF_noSum _ _ (hs x hx)

theorem cloneF_Flat (n : Nat) (e : Expr K A) (h : e.Flat) : (cloneF n e).Flat := by
  induction n generalizing e with
  | zero => cases e <;> exact h
  | succ n ih =>
    cases e with
    | const c => exact h
    | atom a => exact h
    | prod c l =>
      obtain ⟨c', hc⟩ := cloneF_prod n c l
      rw [hc]
      simp only [Expr.Flat, FlatP_iff] at h ⊢
      intro e he
      simp only [List.mem_map, List.mem_filter] at he
      obtain ⟨y, ⟨⟨x, hx, rfl⟩, _⟩, rfl⟩ := he
      exact ⟨by simp [(cloneF_kind _ _).2.1, (h x hx).1], ih _ (ih _ (h x hx).2)⟩
    | sum ci l =>
      simp only [cloneF, foldl_sAppend]
      simp only [Expr.Flat, FlatS_iff] at h ⊢
      intro e he
      refine sAppendAll_all (P := fun e => e.isSum = false ∧ e.Flat) (cloneF n) (by simp [Expr.Flat, Expr.isSum]) (none, [])
        _ (by simp) ?_ e he
      have hs : ∀ x ∈ l.map (cloneF n), x.isSum = false ∧ x.Flat := by
        intro x hx
        simp only [List.mem_map] at hx
        obtain ⟨y, hy, rfl⟩ := hx
        exact ⟨by rw [(cloneF_kind _ _).1]; exact (h y hy).1, ih _ (h y hy).2⟩
      rw [flatSL_of_not_sum (fun x hx => (hs x hx).1)]
      intro x hx _
      exact ⟨by rw [(cloneF_kind _ _).1]; exact (hs x hx).1, ih _ (hs x hx).2⟩

/-! ### The depth bound of `cloneF` -/

theorem depthL_le_iff (l : List (Expr K A)) (n : Nat) : depthL l ≤ n ↔ ∀ e ∈ l, e.depth ≤ n := by
  induction l with
  | nil => simp [depthL]
  | cons e l ih => simp [depthL, ih]

theorem cloneF_depth (n : Nat) (e : Expr K A) : ∀ d, e.depth ≤ d → (cloneF n e).depth ≤ d := by
  induction n generalizing e with
  | zero => cases e <;> exact fun d h => h
  | succ n ih =>
    intro d h
    cases e with
    | const c => exact h
    | atom a => exact h
    | prod c l =>
      obtain ⟨c', hc⟩ := cloneF_prod n c l
      rw [hc]
      simp only [Expr.depth] at h ⊢
      obtain ⟨d, rfl⟩ : ∃ k, d = k + 1 := ⟨d - 1, by omega⟩
      have h' : depthL l ≤ d := by omega
      rw [depthL_le_iff] at h'
      suffices H : depthL (((l.map (cloneF n)).filter (fun e => !e.isConst)).map (cloneF n)) ≤ d by omega
      rw [depthL_le_iff]
      intro e he
      simp only [List.mem_map, List.mem_filter] at he
      obtain ⟨y, ⟨⟨x, hx, rfl⟩, _⟩, rfl⟩ := he
      exact ih _ _ (ih _ _ (h' x hx))
    | sum ci l =>
      simp only [cloneF, foldl_sAppend, Expr.depth] at h ⊢
      obtain ⟨d, rfl⟩ : ∃ k, d = k + 1 := ⟨d - 1, by omega⟩
      have h' : depthL l ≤ d := by omega
      rw [depthL_le_iff] at h'
      suffices H : depthL (sAppendAll (cloneF n) (none, []) (l.map (cloneF n))).2 ≤ d by omega
      rw [depthL_le_iff]
      refine sAppendAll_all (P := fun e => e.depth ≤ d) (cloneF n) (by simp [Expr.depth]) (none, []) _ (by simp) ?_
      have hl : ∀ x ∈ l.map (cloneF n), x.depth ≤ d := by
        intro x hx
        simp only [List.mem_map] at hx
        obtain ⟨y, hy, rfl⟩ := hx
        exact ih _ _ (h' y hy)
      intro x hx _
      refine ih _ _ ?_
      exact flatSL_depth _ d hl x hx
where
  flatS_depth (e : Expr K A) : ∀ d, e.depth ≤ d → ∀ x ∈ flatS e, x.depth ≤ d := by
    match e with
    | .const c => intro d h; simpa [flatS] using h
    | .atom c => intro d h; simpa [flatS] using h
    | .prod c l => intro d h; simpa [flatS] using h
    | .sum c l =>
      intro d h
      simp only [flatS]
      have : depthL l ≤ d := by simp only [Expr.depth] at h; omega
      rw [depthL_le_iff] at this
      exact flatSL_depth l d this
  flatSL_depth (l : List (Expr K A)) : ∀ d, (∀ e ∈ l, e.depth ≤ d) → ∀ x ∈ flatSL l, x.depth ≤ d := by
    match l with
    | [] => simp [flatSL]
    | e :: l =>
      intro d h x hx
      simp only [flatSL, List.mem_append] at hx
      rcases hx with hx | hx
      · exact flatS_depth e d (h e (by simp)) x hx
      · exact flatSL_depth l d (fun y hy => h y (by simp [hy])) x hx

mutual
theorem pAppend_congr {f g : Expr K A → Expr K A} (m : Flatten) (st : PState K A) (e : Expr K A)
    (h : ∀ x : Expr K A, x.depth ≤ e.depth → f x = g x) : pAppend f m st e = pAppend g m st e := by
  match e with
  | .const c => rfl
  | .atom a => simp only [pAppend]; rw [h _ (le_refl _)]
  | .sum a l => simp only [pAppend]; rw [h _ (le_refl _)]
  | .prod a l =>
    simp only [pAppend]
    rw [h _ (le_refl _)]
    rw [pAppendAll_congr m.sub _ l (fun x hx => h x (by simp only [Expr.depth]; omega))]
theorem pAppendAll_congr {f g : Expr K A → Expr K A} (m : Flatten) (st : PState K A) (l : List (Expr K A))
    (h : ∀ x : Expr K A, x.depth ≤ depthL l → f x = g x) : pAppendAll f m st l = pAppendAll g m st l := by
  match l with
  | [] => rfl
  | e :: l =>
    simp only [pAppendAll]
    rw [pAppend_congr m st e (fun x hx => h x (by simp only [depthL]; omega)),
      pAppendAll_congr m _ l (fun x hx => h x (by simp only [depthL]; omega))]
end

mutual
theorem sAppend_congr {f g : Expr K A → Expr K A} (st : SState K A) (e : Expr K A)
    (h : ∀ x : Expr K A, x.depth ≤ e.depth → f x = g x) : sAppend f st e = sAppend g st e := by
  match e with
  | .const c => rfl
  | .atom a => simp only [sAppend]; rw [h _ (le_refl _)]
  | .prod a l => simp only [sAppend]; rw [h _ (le_refl _)]
  | .sum a l =>
    simp only [sAppend]
    rw [sAppendAll_congr _ l (fun x hx => h x (by simp only [Expr.depth]; omega))]
theorem sAppendAll_congr {f g : Expr K A → Expr K A} (st : SState K A) (l : List (Expr K A))
    (h : ∀ x : Expr K A, x.depth ≤ depthL l → f x = g x) : sAppendAll f st l = sAppendAll g st l := by
  match l with
  | [] => rfl
  | e :: l =>
    simp only [sAppendAll]
    rw [sAppend_congr st e (fun x hx => h x (by simp only [depthL]; omega)),
      sAppendAll_congr _ l (fun x hx => h x (by simp only [depthL]; omega))]
end

/-- Any depth bound that suffices gives the same clone, so the bound is not a restriction. -/
theorem clone_stable (n : Nat) (e : Expr K A) (h : e.depth ≤ n) : cloneF n e = clone e := by
  suffices H : ∀ n m (e : Expr K A), e.depth ≤ n → e.depth ≤ m → cloneF n e = cloneF m e from H _ _ _ h (le_refl _)
  clear h e n
  intro n
  induction n with
  | zero =>
    intro m e h _
    cases e <;> simp [Expr.depth] at h <;> cases m <;> rfl
  | succ n ih =>
    intro m e h hm
    cases e with
    | const c => cases m <;> rfl
    | atom c => cases m <;> rfl
    | prod c l =>
      simp only [Expr.depth] at h hm
      obtain ⟨m, rfl⟩ : ∃ k, m = k + 1 := ⟨m - 1, by omega⟩
      have hn' : ∀ x : Expr K A, x.depth ≤ depthL l → cloneF n x = cloneF m x := fun x hx => ih m x (by omega) (by omega)
      have hmap : l.map (cloneF n) = l.map (cloneF m) := List.map_congr_left fun x hx => hn' x
        ((depthL_le_iff l _).1 (le_refl _) x hx)
      simp only [cloneF, foldl_pAppend]
      rw [hmap, pAppendAll_congr (f := cloneF n) (g := cloneF m)]
      intro x hx
      refine hn' x (le_trans hx ?_)
      rw [depthL_le_iff]
      intro y hy
      simp only [List.mem_map] at hy
      obtain ⟨z, hz, rfl⟩ := hy
      exact cloneF_depth _ _ _ ((depthL_le_iff l _).1 (le_refl _) z hz)
    | sum c l =>
      simp only [Expr.depth] at h hm
      obtain ⟨m, rfl⟩ : ∃ k, m = k + 1 := ⟨m - 1, by omega⟩
      have hn' : ∀ x : Expr K A, x.depth ≤ depthL l → cloneF n x = cloneF m x := fun x hx => ih m x (by omega) (by omega)
      have hmap : l.map (cloneF n) = l.map (cloneF m) := List.map_congr_left fun x hx => hn' x
        ((depthL_le_iff l _).1 (le_refl _) x hx)
      simp only [cloneF, foldl_sAppend]
      rw [hmap, sAppendAll_congr (f := cloneF n) (g := cloneF m)]
      intro x hx
      refine hn' x (le_trans hx ?_)
      rw [depthL_le_iff]
      intro y hy
      simp only [List.mem_map] at hy
      obtain ⟨z, hz, rfl⟩ := hy
      exact cloneF_depth _ _ _ ((depthL_le_iff l _).1 (le_refl _) z hz)

end SeQuant.Expression
