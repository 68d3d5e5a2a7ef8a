import Verif.Expression.ExpandProps

set_option linter.unusedSectionVars false

/-! # C13: `rapid_simplify` and `non_canon_simplify` -/

namespace SeQuant.Expression

variable {K A R : Type} [CommRing K] [DecidableEq K] [Ring R] [Algebra K R] [Atoms K A] {I : A → R}

/-! ### Value -/

theorem flatAtom_val (hI : Interp K I) (e : Expr K A) : eval I (flatAtom e) = eval I e := by
  cases e with
  | atom a =>
    simp only [flatAtom]
    split
    · rename_i c h; exact (hI.flat_const a c h).symm
    · rename_i b h; exact (hI.flat_atom a b h).symm
    · rfl
  | _ => rfl

theorem scanFactors_val (hI : Interp K I) (l : List (Expr K A)) : evalProd I (scanFactors l).1 = evalProd I l := by
  induction l with
  | nil => rfl
  | cons e l ih =>
    simp only [scanFactors]
    split
    · simp only [evalProd, flatAtom_val hI]
    · simp only [evalProd, flatAtom_val hI, ih]

theorem simplifyProduct_val (hI : Interp K I) (c : K) (l : List (Expr K A)) :
    eval I (simplifyProduct c l).1 = eval I (.prod c l) := by
  have key : ∀ (st : PState K A) (b : Bool), pval I st = c • evalProd I l →
      eval I (if st.1 = 0 then ((.const 0, true) : Expr K A × Bool)
        else match st.2 with
          | [] => (.const st.1, true)
          | [e] => if st.1 = 1 then (e, true) else (.prod st.1 [e], b)
          | l' => (.prod st.1 l', b)).1 = eval I (.prod c l) := by
    rintro ⟨d, fs⟩ b h
    simp only [pval] at h
    simp only [eval]
    rw [← h]
    split
    · rename_i h0; simp [h0, eval]
    · split
      · simp [eval, evalProd, Algebra.algebraMap_eq_smul_one]
      · split
        · rename_i h1; simp [h1, evalProd]
        · rfl
      · rfl
  unfold simplifyProduct
  apply key
  split
  · rw [pAppendAll_val (clone_val hI), scanFactors_val hI]; simp [pval, evalProd]
  · simp only [pval, scanFactors_val hI]

theorem simplifySum_val (hI : Interp K I) (ci : Option Nat) (l : List (Expr K A)) :
    eval I (simplifySum ci l).1 = eval I (.sum ci l) := by
  unfold simplifySum
  split
  · simp [eval, evalSum]
  · simp [eval, evalSum]
  · split
    · rw [mkSum_val hI]; simp only [eval]
    · rfl

theorem simplifyStep_val (hI : Interp K I) (e : Expr K A) : eval I (simplifyStep e).1 = eval I e := by
  cases e with
  | const c => rfl
  | atom c => rfl
  | prod c l => exact simplifyProduct_val hI c l
  | sum ci l => exact simplifySum_val hI ci l

theorem rapidSimplify_val (hI : Interp K I) (n : Nat) (e r : Expr K A) (h : rapidSimplify n e = some r) :
    eval I r = eval I e :=
  visit_val (fun e r => loop_val (simplifyStep_val hI) n e r) e r h

/-! ### Termination -/

mutual
/-- Weight that every round lowers. -/
def wt : Expr K A → Nat
  | .const _ => 1
  | .atom _ => 1
  | .prod _ l => wtL l + 2
  | .sum _ l => wtL l + 2
def wtL : List (Expr K A) → Nat
  | [] => 0
  | e :: l => wt e + wtL l
end

theorem wtL_append (a b : List (Expr K A)) : wtL (a ++ b) = wtL a + wtL b := by
  induction a with
  | nil => simp [wtL]
  | cons e a ih => simp [wtL, ih]; omega

theorem wt_pos (e : Expr K A) : 1 ≤ wt e := by cases e <;> simp [wt]

theorem wtL_addAt (l : List (Expr K A)) (i : Nat) (c : K) : wtL (addAt l i c) = wtL l := by
  unfold addAt
  split
  · rename_i d h
    induction l generalizing i with
    | nil => rfl
    | cons e l ih =>
      cases i with
      | zero => simp only [List.getElem?_cons_zero, Option.some.injEq] at h; subst h; rfl
      | succ i =>
        simp only [List.getElem?_cons_succ] at h
        simp only [List.set_cons_succ, wtL, ih i h]
  · rfl

section
variable {cl : Expr K A → Expr K A} (hcl : ∀ e, wt (cl e) ≤ wt e)
include hcl

mutual
theorem sAppend_wt (st : SState K A) (e : Expr K A) : wtL (sAppend cl st e).2 ≤ wtL st.2 + wt e := by
  match e with
  | .const c =>
    simp only [sAppend]
    split
    · omega
    · split
      · rw [wtL_addAt]; omega
      · rw [wtL_append]; simp [wtL]
  | .atom a =>
    simp only [sAppend]
    split
    · omega
    · have := hcl (.atom a); rw [wtL_append]; simp only [wtL]; omega
  | .prod c l =>
    simp only [sAppend]
    split
    · omega
    · have := hcl (.prod c l); rw [wtL_append]; simp only [wtL]; omega
  | .sum ci l =>
    simp only [sAppend]
    have := sAppendAll_wt st l
    simp only [wt]; omega
theorem sAppendAll_wt (st : SState K A) (l : List (Expr K A)) : wtL (sAppendAll cl st l).2 ≤ wtL st.2 + wtL l := by
  match l with
  | [] => simp [sAppendAll]
  | e :: l =>
    have h1 := sAppend_wt st e
    have h2 := sAppendAll_wt (sAppend cl st e) l
    simp only [sAppendAll, wtL]; omega
end

mutual
theorem pAppend_wt (m : Flatten) (st : PState K A) (e : Expr K A) : wtL (pAppend cl m st e).2 ≤ wtL st.2 + wt e := by
  match e with
  | .const c => simp [pAppend]
  | .atom a => simp only [pAppend]; have := hcl (.atom a); rw [wtL_append]; simp only [wtL]; omega
  | .sum ci l => simp only [pAppend]; have := hcl (.sum ci l); rw [wtL_append]; simp only [wtL]; omega
  | .prod c l =>
    simp only [pAppend]
    split
    · have := hcl (.prod c l); rw [wtL_append]; simp only [wtL]; omega
    · have := pAppendAll_wt m.sub (st.1 * c, st.2) l
      simp only [wt] at this ⊢; omega
theorem pAppendAll_wt (m : Flatten) (st : PState K A) (l : List (Expr K A)) :
    wtL (pAppendAll cl m st l).2 ≤ wtL st.2 + wtL l := by
  match l with
  | [] => simp [pAppendAll]
  | e :: l =>
    have h1 := pAppend_wt m st e
    have h2 := pAppendAll_wt m (pAppend cl m st e) l
    simp only [pAppendAll, wtL]; omega
end

/-- Rebuilding a sum that `simplify_sum` wants rebuilt loses weight. -/
theorem sAppendAll_wt_lt (n : Nat) (st : SState K A) (l : List (Expr K A)) (hn : n = 0 ∨ st.1.isSome = true)
    (h : sumNeedsRebuild n l = true) : wtL (sAppendAll cl st l).2 + 1 ≤ wtL st.2 + wtL l := by
  induction l generalizing n st with
  | nil => simp [sumNeedsRebuild] at h
  | cons e l ih =>
    have key : ∀ st' : SState K A, wtL st'.2 + 1 ≤ wtL st.2 + wt e →
        wtL (sAppendAll cl st' l).2 + 1 ≤ wtL st.2 + wtL (e :: l) := by
      intro st' h'
      have := sAppendAll_wt hcl st' l
      simp only [wtL]; omega
    have key2 : ∀ (n' : Nat) (st' : SState K A), wtL st'.2 ≤ wtL st.2 + wt e → (n' = 0 ∨ st'.1.isSome = true) →
        sumNeedsRebuild n' l = true → wtL (sAppendAll cl st' l).2 + 1 ≤ wtL st.2 + wtL (e :: l) := by
      intro n' st' h1 h2 h3
      have := ih n' st' h2 h3
      simp only [wtL]; omega
    rw [sAppendAll]
    have hle := sAppend_wt hcl st e
    cases e with
    | sum ci ss =>
      apply key
      have := sAppendAll_wt hcl st ss
      simp only [sAppend, wt]; omega
    | atom a =>
      refine key2 n _ hle ?_ (by simpa [sumNeedsRebuild] using h)
      simp only [sAppend]; split <;> exact hn
    | prod c fs =>
      refine key2 n _ hle ?_ (by simpa [sumNeedsRebuild] using h)
      simp only [sAppend]; split <;> exact hn
    | const c =>
      simp only [sumNeedsRebuild] at h
      split at h
      · rename_i h0
        apply key
        simp [sAppend, h0, wt]
      · rename_i h0
        split at h
        · rename_i hn1
          apply key
          have hs : st.1.isSome = true := by rcases hn with hn | hn; omega; exact hn
          obtain ⟨i, hi⟩ := Option.isSome_iff_exists.1 hs
          simp only [sAppend, if_neg h0, hi, wtL_addAt, wt]; omega
        · refine key2 (n + 1) _ hle (Or.inr ?_) h
          simp only [sAppend, if_neg h0]
          split <;> rfl
end

theorem cloneF_wt (n : Nat) (e : Expr K A) : wt (cloneF n e) ≤ wt e := by
  induction n generalizing e with
  | zero => cases e <;> simp [cloneF]
  | succ n ih =>
    have hmap : ∀ l : List (Expr K A), wtL (l.map (cloneF n)) ≤ wtL l := by
      intro l
      induction l with
      | nil => simp [wtL]
      | cons x l ihl => have := ih x; simp only [List.map_cons, wtL]; omega
    cases e with
    | const c => simp [cloneF]
    | atom c => simp [cloneF]
    | prod c l =>
      simp only [cloneF, foldl_pAppend, wt]
      have h1 := pAppendAll_wt ih .No (c, []) (l.map (cloneF n))
      have h2 := hmap l
      simp only [wtL] at h1; omega
    | sum c l =>
      simp only [cloneF, foldl_sAppend, wt]
      have h1 := sAppendAll_wt ih (none, []) (l.map (cloneF n))
      have h2 := hmap l
      simp only [wtL] at h1; omega

theorem clone_wt (e : Expr K A) : wt (clone e) ≤ wt e := cloneF_wt _ e

theorem flatAtom_wt (e : Expr K A) : wt (flatAtom e) = wt e := by
  cases e <;> simp only [flatAtom]
  split <;> rfl

theorem scanFactors_wt (l : List (Expr K A)) : wtL (scanFactors l).1 = wtL l := by
  induction l with
  | nil => rfl
  | cons e l ih =>
    simp only [scanFactors]
    split
    · simp only [wtL, flatAtom_wt]
    · simp only [wtL, flatAtom_wt, ih]

theorem scanFactors_found (l : List (Expr K A)) (h : (scanFactors l).2 = true) :
    ∃ p e q, (scanFactors l).1 = p ++ e :: q ∧ (e.isProd || e.isConst) = true := by
  induction l with
  | nil => simp [scanFactors] at h
  | cons e l ih =>
    simp only [scanFactors] at h ⊢
    split
    · exact ⟨[], _, _, rfl, ‹_›⟩
    · rename_i h0
      rw [if_neg h0] at h
      obtain ⟨p, x, q, h1, h2⟩ := ih h
      exact ⟨flatAtom e :: p, x, q, by simp [h1], h2⟩

/-- Rebuilding a product with a product or constant factor loses weight. -/
theorem pAppendAll_wt_lt (st : PState K A) (p q : List (Expr K A)) (e : Expr K A) (h : (e.isProd || e.isConst) = true) :
    wtL (pAppendAll clone .Recursively st (p ++ e :: q)).2 + 1 ≤ wtL st.2 + wtL (p ++ e :: q) := by
  induction p generalizing st with
  | nil =>
    have h2 := pAppendAll_wt clone_wt .Recursively (pAppend clone .Recursively st e) q
    have h3 : wtL (pAppend clone .Recursively st e).2 + 1 ≤ wtL st.2 + wt e := by
      cases e with
      | const c => simp [pAppend, wt]
      | prod c l =>
        have := pAppendAll_wt clone_wt .Recursively (st.1 * c, st.2) l
        simp only [pAppend, if_neg (show ¬ (Flatten.Recursively = Flatten.No) by simp), wt, Flatten.sub]
        simp only at this; omega
      | atom a => simp [Expr.isProd, Expr.isConst] at h
      | sum a l => simp [Expr.isProd, Expr.isConst] at h
    simp only [List.nil_append, pAppendAll, wtL]; omega
  | cons x p ih =>
    have h1 := ih (pAppend clone .Recursively st x)
    have h2 := pAppend_wt clone_wt .Recursively st x
    simp only [List.cons_append, pAppendAll, wtL]; omega

theorem simplifyProduct_wt (c : K) (l : List (Expr K A)) :
    wt (simplifyProduct c l).1 ≤ wt (Expr.prod c l) ∧
      ((simplifyProduct c l).2 = true → wt (simplifyProduct c l).1 < wt (Expr.prod c l)) := by
  have key : ∀ (st : PState K A) (b : Bool), wtL st.2 ≤ wtL l → (b = true → wtL st.2 < wtL l) →
      let r := (if st.1 = 0 then ((.const 0, true) : Expr K A × Bool)
        else match st.2 with
          | [] => (.const st.1, true)
          | [e] => if st.1 = 1 then (e, true) else (.prod st.1 [e], b)
          | l' => (.prod st.1 l', b))
      wt r.1 ≤ wt (Expr.prod c l) ∧ (r.2 = true → wt r.1 < wt (Expr.prod c l)) := by
    rintro ⟨d, fs⟩ b h1 h2
    simp only at h1 h2 ⊢
    split
    · simp [wt]
    · split
      · simp [wt]
      · simp only [wtL] at h1 h2
        split
        · simp only [wt]; omega
        · simp only [wt, wtL]; exact ⟨by omega, fun hb => by have := h2 hb; omega⟩
      · simp only [wt]; exact ⟨by omega, fun hb => by have := h2 hb; omega⟩
  unfold simplifyProduct
  apply key
  · split
    · have := pAppendAll_wt clone_wt .Recursively (c, []) (scanFactors l).1
      rw [scanFactors_wt] at this
      simp only [wtL] at this; omega
    · rw [scanFactors_wt]
  · intro hb
    rw [if_pos hb]
    obtain ⟨p, e, q, h1, h2⟩ := scanFactors_found l hb
    have := pAppendAll_wt_lt (c, []) p q e h2
    rw [← h1, scanFactors_wt] at this
    simp only [wtL] at this; omega

theorem simplifyStep_wt (e : Expr K A) :
    wt (simplifyStep e).1 ≤ wt e ∧ ((simplifyStep e).2 = true → wt (simplifyStep e).1 < wt e) := by
  cases e with
  | const c => simp [simplifyStep]
  | atom c => simp [simplifyStep]
  | prod c l => exact simplifyProduct_wt c l
  | sum ci l =>
    simp only [simplifyStep]
    unfold simplifySum
    split
    · simp [wt]
    · simp only [wt, wtL]; omega
    · split
      · rename_i h
        have := sAppendAll_wt_lt clone_wt 0 (none, []) l (Or.inl rfl) h
        simp only [mkSum, wt]
        simp only [wtL] at this; omega
      · simp

/-- The loop ends within `wt e + 1` rounds. -/
theorem loop_simplify (n : Nat) (e : Expr K A) (h : wt e < n) :
    ∃ r, loop simplifyStep n e = some r ∧ wt r ≤ wt e := by
  induction n generalizing e with
  | zero => omega
  | succ n ih =>
    rw [loop]
    obtain ⟨h1, h2⟩ := simplifyStep_wt e
    split
    · rename_i hb
      have := h2 hb
      obtain ⟨r, hr, hw⟩ := ih (simplifyStep e).1 (by omega)
      exact ⟨r, hr, by omega⟩
    · exact ⟨_, rfl, h1⟩

mutual
theorem simplify_total (e : Expr K A) (n : Nat) (hn : wt e < n) :
    ∃ r, visit (loop simplifyStep n) e = some r ∧ wt r ≤ wt e := by
  match e with
  | .const c => exact loop_simplify n _ hn
  | .atom c => exact loop_simplify n _ hn
  | .prod c l =>
    simp only [wt] at hn
    obtain ⟨l', hl, hw⟩ := simplifyL_total l n (by omega)
    obtain ⟨r, hr, hw'⟩ := loop_simplify n (.prod c l') (by simp only [wt]; omega)
    refine ⟨r, by simp [visit, hl, hr], ?_⟩
    simp only [wt] at hw' ⊢; omega
  | .sum c l =>
    simp only [wt] at hn
    obtain ⟨l', hl, hw⟩ := simplifyL_total l n (by omega)
    obtain ⟨r, hr, hw'⟩ := loop_simplify n (.sum c l') (by simp only [wt]; omega)
    refine ⟨r, by simp [visit, hl, hr], ?_⟩
    simp only [wt] at hw' ⊢; omega
theorem simplifyL_total (l : List (Expr K A)) (n : Nat) (hn : wtL l < n) :
    ∃ r, visitL (loop simplifyStep n) l = some r ∧ wtL r ≤ wtL l := by
  match l with
  | [] => exact ⟨[], rfl, by simp⟩
  | e :: l =>
    simp only [wtL] at hn
    obtain ⟨e', he, hE⟩ := simplify_total e n (by omega)
    obtain ⟨l', hl, hL⟩ := simplifyL_total l n (by omega)
    exact ⟨e' :: l', by simp [visitL, he, hl], by simp only [wtL]; omega⟩
end

/-- **C13**: `rapid_simplify` terminates on every expression (a number of rounds bounded by its weight suffices in every loop) and
keeps the value. -/
theorem rapidSimplify_correct (hI : Interp K I) (e : Expr K A) (n : Nat) (hn : wt e < n) :
    ∃ r, rapidSimplify n e = some r ∧ eval I r = eval I e ∧ wt r ≤ wt e := by
  obtain ⟨r, hr, hw⟩ := simplify_total e n hn
  exact ⟨r, hr, rapidSimplify_val hI n e r hr, hw⟩

example : ∃ r, rapidSimplify 20 (.sum none [.prod 1 [.prod 2 [Inst.X, .const 3]], .const 0, .prod 0 [Inst.Y]] : Inst.E) = some r ∧
    eval Inst.mat r = eval Inst.mat (.sum none [.prod 1 [.prod 2 [Inst.X, .const 3]], .const 0, .prod 0 [Inst.Y]]) ∧
    wt r ≤ wt (.sum none [.prod 1 [.prod 2 [Inst.X, .const 3]], .const 0, .prod 0 [Inst.Y]] : Inst.E) :=
  rapidSimplify_correct Inst.mat_interp _ _ (by decide)

example : rapidSimplify 20 (.sum none [.prod 1 [.prod 2 [Inst.X, .const 3]], .const 0, .prod 0 [Inst.Y]] : Inst.E) =
    some (.prod 6 [Inst.X]) := by rfl

/-- `simplify` without canonicalization. -/
theorem nonCanonSimplify_correct (hI : Interp K I) (e : Expr K A) :
    ∃ n r, nonCanonSimplify n e = some r ∧ eval I r = eval I e := by
  obtain ⟨N, r, h, hv, _⟩ := expand_correct hI e
  obtain ⟨s, hs, hv', _⟩ := rapidSimplify_correct hI r (N + wt r + 1) (by omega)
  refine ⟨N + wt r + 1, s, ?_, by rw [hv', hv]⟩
  simp [nonCanonSimplify, h (N + wt r + 1) (by omega), hs]

end SeQuant.Expression
