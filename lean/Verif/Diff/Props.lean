import Verif.Diff.Model
import Mathlib.Tactic.ByContra

/-!
# What textual differences of expressions say (C126)
-/

namespace SeQuant.Diff

variable {I C : Type} [DecidableEq I] [DecidableEq C]

omit [DecidableEq I] [DecidableEq C] in
theorem ex_ind (P : Ex I C → Prop) (hc : ∀ c, P (.const c)) (hv : ∀ l x, P (.var l x)) (ht : ∀ t, P (.tensor t))
    (hs : ∀ l, (∀ x ∈ l, P x) → P (.sum l)) (hp : ∀ c l, (∀ x ∈ l, P x) → P (.prod c l)) (ho : ∀ k i, P (.other k i)) (a : Ex I C) : P a := by
  refine Ex.rec (motive_1 := P) (motive_2 := fun l => ∀ x ∈ l, P x) hc hv ht hs hp ho ?_ ?_ a
  · simp
  · intro x l h1 h2 y hy
    rcases List.mem_cons.1 hy with rfl | hy
    · exact h1
    · exact h2 y hy

theorem beqs_iff (l : List (Ex I C)) (h : ∀ x ∈ l, ∀ y, x.beq y = true ↔ x = y) (m : List (Ex I C)) : beqs l m = true ↔ l = m := by
  induction l generalizing m with
  | nil => cases m <;> simp [beqs]
  | cons x l ih => cases m with
    | nil => simp [beqs]
    | cons y m =>
      simp only [beqs, Bool.and_eq_true, h x List.mem_cons_self, ih (fun z hz => h z (List.mem_cons_of_mem _ hz)), List.cons.injEq]

theorem beq_iff (a b : Ex I C) : a.beq b = true ↔ a = b := by
  revert b
  induction a using ex_ind with
  | hc c => intro b; cases b <;> simp [Ex.beq]
  | hv l x => intro b; cases b <;> simp [Ex.beq]
  | ht t => intro b; cases b <;> simp [Ex.beq]
  | hs l ih => intro b; cases b <;> simp [Ex.beq, beqs_iff l ih]
  | hp c l ih => intro b; cases b <;> simp [Ex.beq, beqs_iff l ih]
  | ho k i => intro b; cases b <;> simp [Ex.beq]

theorem lists_iff (l m : List (Ex I C)) : beqs l m = true ↔ l = m := beqs_iff l (fun x _ y => beq_iff x y) m

/-! ## Atoms -/

theorem constDiff_nil (str : C → Txt) (a b : C) : constDiff str a b = [] ↔ a = b := by
  by_cases h : a = b <;> simp [constDiff, h]

theorem varDiff_nil (a : Txt) (x : Bool) (b : Txt) (y : Bool) : varDiff a x b y = [] ↔ a = b ∧ x = y := by
  unfold varDiff
  split
  · simp_all
  · split
    · simp_all
    · rename_i h1 h2
      constructor
      · intro h
        cases x <;> cases y <;> simp at h
      · intro h; exact absurd h h1

/-- **C126.** About tensors something is said exactly if they differ, and the call never aborts. -/
theorem tensor_spec (nz : I → I → Txt) (t u : Tn I) : ∃ s, tensorDiff nz t u = .text s ∧ (s = [] ↔ t = u) := by
  unfold tensorDiff
  by_cases h : t = u
  · exact ⟨[], by simp [h], by simp [h]⟩
  rw [if_neg h]
  by_cases h1 : t.label ≠ u.label
  · exact ⟨_, if_pos h1, by simp [h]⟩
  rw [if_neg h1]
  by_cases h2 : t.bra.length + t.ket.length + t.aux.length ≠ u.bra.length + u.ket.length + u.aux.length
  · exact ⟨_, if_pos h2, by simp [h]⟩
  rw [if_neg h2]
  by_cases h3 : t.symm ≠ u.symm
  · exact ⟨_, if_pos h3, by simp [h]⟩
  rw [if_neg h3]
  by_cases h4 : t.colSymm ≠ u.colSymm
  · exact ⟨_, if_pos h4, by simp [h]⟩
  rw [if_neg h4]
  by_cases h5 : t.bkSymm ≠ u.bkSymm
  · exact ⟨_, if_pos h5, by simp [h]⟩
  rw [if_neg h5]
  by_cases h6 : t.bra ≠ u.bra
  · exact ⟨_, if_pos h6, by simp [h]⟩
  rw [if_neg h6]
  by_cases h7 : t.ket ≠ u.ket
  · exact ⟨_, if_pos h7, by simp [h]⟩
  rw [if_neg h7]
  by_cases h8 : t.aux ≠ u.aux
  · exact ⟨_, if_pos h8, by simp [h]⟩
  exfalso
  apply h
  cases t
  cases u
  simp_all

example : ∃ s, tensorDiff (fun _ _ => []) (⟨['t'], 0, 0, 0, [1], [2], []⟩ : Tn Nat) ⟨['t'], 0, 0, 1, [1], [2], []⟩ = .text s ∧ s ≠ [] := by
  obtain ⟨s, h1, h2⟩ := tensor_spec (fun _ _ => []) (⟨['t'], 0, 0, 0, [1], [2], []⟩ : Tn Nat) ⟨['t'], 0, 0, 1, [1], [2], []⟩
  exact ⟨s, h1, fun h => absurd (h2.1 h) (by decide)⟩

theorem idxLoop_same (nz : I → I → Txt) (l : List I) (i : Nat) (acc : Txt) : idxLoop nz i acc l l = acc := by
  induction l generalizing i with
  | nil => rfl
  | cons a l ih => simp [idxLoop, idxDiff, ih]

theorem idxsDiff_same (nz : I → I → Txt) (l : List I) : idxsDiff nz l l = [] := by simp [idxsDiff, idxLoop_same]

theorem idxLoop_keeps (nz : I → I → Txt) (l m : List I) (i : Nat) (acc : Txt) (h : acc ≠ []) : idxLoop nz i acc l m ≠ [] := by
  induction l generalizing i m acc with
  | nil => simpa [idxLoop] using h
  | cons a l ih => cases m with
    | nil => simpa [idxLoop] using h
    | cons b m =>
      simp only [idxLoop]
      split
      · exact ih m _ acc h
      · exact ih m _ _ (by simp)

/-- **C126.** About lists of indices something is said exactly if they differ, provided that something is said about any two indices that differ. -/
theorem indices_spec (nz : I → I → Txt) (hn : ∀ a b, a ≠ b → nz a b ≠ []) (l m : List I) : idxsDiff nz l m = [] ↔ l = m := by
  constructor
  · intro h
    unfold idxsDiff at h
    split at h
    · simp at h
    · rename_i hl
      have hl : l.length = m.length := by simpa using hl
      have key : ∀ (l m : List I) (i : Nat), l.length = m.length → idxLoop nz i [] l m = [] → l = m := by
        intro l
        induction l with
        | nil => intro m i hl _; cases m with
          | nil => rfl
          | cons _ _ => simp at hl
        | cons a l ih => intro m i hl h; cases m with
          | nil => simp at hl
          | cons b m =>
            simp only [idxLoop] at h
            split at h
            · rename_i hd
              have hab : a = b := by
                by_contra hc
                simp only [idxDiff, if_neg hc] at hd
                exact hn a b hc hd
              rw [hab, ih m _ (by simpa using hl) h]
            · exact absurd h (idxLoop_keeps nz l m _ _ (by simp))
      exact key l m 0 hl h
  · rintro rfl
    exact idxsDiff_same nz l

example : idxsDiff (fun _ _ => ['x']) [1, 2, 3] [1, 5, 6] = "#2: x, #3: x".toList := by decide

/-- **C126.** About spaces something is said exactly if they differ, and the unreachable end is never reached. -/
theorem space_spec (s t : Sp) : ∃ x, spaceDiff s t = .text x ∧ (x = [] ↔ s.type = t.type ∧ s.qns = t.qns ∧ s.key = t.key) := by
  unfold spaceDiff Sp.same
  by_cases h1 : s.type = t.type
  · by_cases h2 : s.qns = t.qns
    · by_cases h3 : s.key = t.key
      · exact ⟨[], by simp [h1, h2, h3], by simp [h1, h2, h3]⟩
      · exact ⟨_, by simp only [h1, h2, h3, decide_true, decide_false, Bool.and_false, Bool.false_eq_true, if_false, ne_eq, not_true, not_false_eq_true, if_true]; rfl, by simp [h3]⟩
    · exact ⟨_, by simp only [h1, h2, decide_true, decide_false, Bool.and_false, Bool.false_and, Bool.false_eq_true, if_false, ne_eq, not_true, not_false_eq_true, if_true]; rfl, by simp [h2]⟩
  · exact ⟨_, by simp only [h1, decide_false, Bool.false_and, Bool.false_eq_true, if_false, ne_eq, not_false_eq_true, if_true]; rfl, by simp [h1]⟩

example : ∃ x, spaceDiff ⟨1#32, 3#32, ['i'], 10⟩ ⟨1#32, 3#32, ['m'], 10⟩ = .text x ∧ x ≠ [] := by
  obtain ⟨x, h1, h2⟩ := space_spec ⟨1#32, 3#32, ['i'], 10⟩ ⟨1#32, 3#32, ['m'], 10⟩
  exact ⟨x, h1, fun h => absurd (h2.1 h).2.2 (by decide)⟩

/-! ## Expressions -/

variable (str : C → Txt) (nz : I → I → Txt)

/-- **C126.** Nothing is said about equal expressions. -/
theorem diff_same (a : Ex I C) : diff str nz a a = .text [] := by
  cases a with
  | const c => simp [diff, constDiff]
  | var l x => simp [diff, varDiff]
  | tensor t => simp [diff, tensorDiff]
  | sum l => simp [diff, (lists_iff l l).2 rfl]
  | prod c l => simp [diff, (lists_iff l l).2 rfl]
  | other k i => simp [diff]

theorem diffs_prefix (l e : List (Ex I C)) (i : Nat) : diffs str nz i l (l ++ e) = .text [] := by
  induction l generalizing i with
  | nil => simp [diffs]
  | cons x l ih => simp [diffs, diff_same, ih, Out.bind]

theorem diffs_over (l e : List (Ex I C)) (he : e ≠ []) (i : Nat) : diffs str nz i (l ++ e) l = .ub := by
  induction l generalizing i with
  | nil => cases e with
    | nil => exact absurd rfl he
    | cons x e => simp [diffs]
  | cons x l ih => simp [diffs, diff_same, ih, Out.bind]

/-- **C126.** Violated: nothing is said about a sum or product that has further terms or factors. -/
theorem diff_misses (c : C) (l e : List (Ex I C)) (he : e ≠ []) :
    diff str nz (.sum l) (.sum (l ++ e)) = .text [] ∧ diff str nz (.prod c l) (.prod c (l ++ e)) = .text [] ∧
    Ex.sum l ≠ (.sum (l ++ e) : Ex I C) ∧ Ex.prod c l ≠ .prod c (l ++ e) := by
  refine ⟨?_, ?_, by simpa using he, by simpa using he⟩
  · simp only [diff, diffs_prefix, Out.bind, finish]
    simp
  · simp only [diff, diffs_prefix, Out.bind, finish]
    simp [prodDiff]

/-- **C126.** Violated: if the second sum or product is the one that lacks them, the loop reads past its end. -/
theorem diff_overruns (c d : C) (l e : List (Ex I C)) (he : e ≠ []) :
    diff str nz (.sum (l ++ e)) (.sum l) = .ub ∧ diff str nz (.prod c (l ++ e)) (.prod d l) = .ub := by
  have h : beqs (l ++ e) l = false := by
    by_contra hc
    have := (lists_iff _ _).1 (by simpa using hc)
    exact he (by simpa using this)
  simp [diff, h, diffs_over str nz l e he, Out.bind]

example : diff (fun c : Nat => [Char.ofNat c]) (fun _ _ : Nat => []) (.sum [.const 1]) (.sum [.const 1, .const 2]) = .text [] ∧
    diff (fun c : Nat => [Char.ofNat c]) (fun _ _ : Nat => []) (.sum [.const 1, .const 2]) (.sum [.const 1]) = .ub :=
  ⟨(diff_misses _ _ 1 [.const 1] [.const 2] (by simp)).1, (diff_overruns _ _ 1 1 [.const 1] [.const 2] (by simp)).1⟩

/-- **C126.** Violated: if tensors differ in kets only, the text names none of them; the same for auxiliary indices. -/
theorem diff_ket (t u : Tn I) (hl : t.label = u.label) (hs : t.symm = u.symm ∧ t.colSymm = u.colSymm ∧ t.bkSymm = u.bkSymm) (hb : t.bra = u.bra)
    (hk : t.ket.length = u.ket.length) (ha : t.aux.length = u.aux.length) :
    (t.ket ≠ u.ket → diff str nz (.tensor t) (.tensor u) = .text "Ket indices differ: ".toList) ∧
    (t.ket = u.ket → t.aux ≠ u.aux → diff str nz (.tensor t) (.tensor u) = .text "Aux indices differ: ".toList) := by
  obtain ⟨h1, h2, h3⟩ := hs
  constructor
  · intro h
    have hne : t ≠ u := fun e => h (by rw [e])
    simp only [diff, tensorDiff, if_neg hne, hl, h1, h2, h3, hb, hk, ha, ne_eq, not_true, if_false, h, not_false_eq_true, if_true, idxsDiff_same]
    simp
  · intro h h'
    have hne : t ≠ u := fun e => h' (by rw [e])
    simp only [diff, tensorDiff, if_neg hne, hl, h1, h2, h3, hb, ha, h, ne_eq, not_true, if_false, h', not_false_eq_true, if_true, idxsDiff_same]
    simp

example : diff (fun c : Nat => [Char.ofNat c]) (fun _ _ => ['x']) (.tensor ⟨['t'], 0, 0, 0, [1], [2], []⟩) (.tensor ⟨['t'], 0, 0, 0, [1], [3], []⟩) =
    .text "Ket indices differ: ".toList :=
  (diff_ket _ _ ⟨['t'], 0, 0, 0, [1], [2], []⟩ ⟨['t'], 0, 0, 0, [1], [3], []⟩ rfl ⟨rfl, rfl, rfl⟩ rfl rfl rfl).1 (by decide)

/-- **C126.** Violated: the text about a conjugated variable lacks what separates the two. -/
theorem diff_conj (l : Txt) : diff str nz (.var l true) (.var l false) = .text "conjugatednon-conjugated".toList ∧
    diff str nz (.var l false) (.var l true) = .text "non-conjugated vs. conjugated".toList := by
  simp [diff, varDiff]

/-- **C126.** Objects of other types that differ abort the call. -/
theorem diff_other (k i j : Nat) (h : i ≠ j) : diff str nz (.other k i) (.other k j) = .aborts := by simp [diff, h]

mutual
/-- Corresponding sums and products have the same number of terms and factors, and objects of other types do not differ. -/
def Aligned : Ex I C → Ex I C → Prop
  | .sum l, .sum m => AlignedL l m
  | .prod _ l, .prod _ m => AlignedL l m
  | .other k i, .other k' j => k = k' → i = j
  | _, _ => True

/-- The same for lists. -/
def AlignedL : List (Ex I C) → List (Ex I C) → Prop
  | [], [] => True
  | x :: l, y :: m => Aligned x y ∧ AlignedL l m
  | _, _ => False
end

theorem diffs_spec (l : List (Ex I C)) (h : ∀ x ∈ l, ∀ y, Aligned x y → ∃ s, diff str nz x y = .text s ∧ (s = [] ↔ x = y)) (m : List (Ex I C))
    (ha : AlignedL l m) (i : Nat) : ∃ s, diffs str nz i l m = .text s ∧ (s = [] ↔ l = m) := by
  induction l generalizing m i with
  | nil => cases m with
    | nil => exact ⟨[], by simp [diffs], by simp⟩
    | cons _ _ => simp [AlignedL] at ha
  | cons x l ih => cases m with
    | nil => simp [AlignedL] at ha
    | cons y m =>
      simp only [AlignedL] at ha
      obtain ⟨d, h1, h2⟩ := h x List.mem_cons_self y ha.1
      obtain ⟨s, h3, h4⟩ := ih (fun z hz => h z (List.mem_cons_of_mem _ hz)) m ha.2 (i + 1)
      refine ⟨_, by simp only [diffs, h1, h3, Out.bind]; rfl, ?_⟩
      by_cases hd : d = []
      · simp [hd, h4, ← h2]
      · simp only [hd, if_false, List.cons.injEq, ← h2, false_and, iff_false]
        simp

theorem finish_nil (s t : Txt) : finish s t = [] ↔ s = [] ∧ t = [] := by
  by_cases h : s = [] <;> simp [finish, h]

/-- **C126.** If corresponding sums and products have equal sizes, and objects of other types do not differ, then something is said exactly if the
expressions differ.  Missing: sums and products of different sizes (`diff_misses`, `diff_overruns`). -/
theorem diff_spec_partial (a b : Ex I C) (h : Aligned a b) : ∃ s, diff str nz a b = .text s ∧ (s = [] ↔ a = b) := by
  revert b
  induction a using ex_ind with
  | hc c => intro b _; cases b <;> simp [diff, constDiff_nil]
  | hv l x => intro b _; cases b <;> simp [diff, varDiff_nil]
  | ht t => intro b _; cases b with
    | tensor u =>
      obtain ⟨s, h1, h2⟩ := tensor_spec nz t u
      exact ⟨s, by simp only [diff, h1], by simp [h2]⟩
    | _ => simp [diff]
  | hs l ih => intro b h; cases b with
    | sum m =>
      by_cases hl : l = m
      · exact ⟨[], by simp [diff, (lists_iff l m).2 hl], by simp [hl]⟩
      · have hb : beqs l m = false := by
          by_contra hc; exact hl ((lists_iff l m).1 (by simpa using hc))
        simp only [Aligned] at h
        obtain ⟨s, h1, h2⟩ := diffs_spec str nz l ih m h 1
        exact ⟨_, by simp only [diff, hb, h1, Out.bind]; rfl, by simp [finish_nil, h2]⟩
    | _ => simp [diff]
  | hp c l ih => intro b h; cases b with
    | prod d m =>
      by_cases hl : c = d ∧ l = m
      · exact ⟨[], by simp [diff, (lists_iff l m).2 hl.2, hl.1], by simp [hl]⟩
      · have hb : (decide (c = d) && beqs l m) = false := by
          by_contra hc
          simp only [Bool.not_eq_false, Bool.and_eq_true, decide_eq_true_eq] at hc
          exact hl ⟨hc.1, (lists_iff l m).1 hc.2⟩
        simp only [Aligned] at h
        obtain ⟨s, h1, h2⟩ := diffs_spec str nz l ih m h 1
        refine ⟨_, by simp only [diff, hb, h1, Out.bind]; rfl, ?_⟩
        rw [finish_nil, h2, Ex.prod.injEq, and_comm]
        refine and_congr_left fun _ => ?_
        by_cases hcd : c = d <;> simp [prodDiff, hcd]
    | _ => simp [diff]
  | ho k i => intro b h; cases b with
    | other k' j =>
      simp only [Aligned] at h
      by_cases hk : k = k'
      · simp [diff, hk, h hk]
      · simp [diff, hk]
    | _ => simp [diff]

example : ∃ s, diff (fun c : Nat => [Char.ofNat c]) (fun _ _ : Nat => []) (.sum [.const 1, .prod 2 [.var ['x'] true]])
    (.sum [.const 1, .prod 3 [.var ['x'] true]]) = .text s ∧ s ≠ [] := by
  obtain ⟨s, h1, h2⟩ := diff_spec_partial (fun c : Nat => [Char.ofNat c]) (fun _ _ : Nat => []) (.sum [.const 1, .prod 2 [.var ['x'] true]])
    (.sum [.const 1, .prod 3 [.var ['x'] true]]) (by simp [Aligned, AlignedL])
  exact ⟨s, h1, fun h => by simpa using h2.1 h⟩

end SeQuant.Diff
