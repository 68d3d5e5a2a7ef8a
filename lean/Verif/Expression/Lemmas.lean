import Verif.Expression.Spec

/-! # Values of cloned, appended and prepended expressions -/

set_option linter.unusedSectionVars false

namespace SeQuant.Expression

variable {K A R : Type} [CommRing K] [DecidableEq K] [Ring R] [Algebra K R] [Atoms K A] {I : A → R}

/-- Value of a product state. -/
def pval (I : A → R) (st : PState K A) : R := st.1 • evalProd I st.2
/-- Value of a sum state. -/
def sval (I : A → R) (st : SState K A) : R := evalSum I st.2

omit [DecidableEq K] [Atoms K A] in
theorem evalProd_append (l m : List (Expr K A)) : evalProd I (l ++ m) = evalProd I l * evalProd I m := by
  simp [evalProd_eq]

omit [DecidableEq K] [Atoms K A] in
theorem evalSum_append (l m : List (Expr K A)) : evalSum I (l ++ m) = evalSum I l + evalSum I m := by
  simp [evalSum_eq]

omit [DecidableEq K] [Atoms K A] in
theorem pval_push (c : K) (l : List (Expr K A)) (e : Expr K A) : pval I (c, l ++ [e]) = pval I (c, l) * eval I e := by
  simp [pval, evalProd_append, evalProd]

omit [DecidableEq K] [Atoms K A] in
theorem pval_cons (c : K) (l : List (Expr K A)) (e : Expr K A) : pval I (c, e :: l) = eval I e * pval I (c, l) := by
  simp [pval, evalProd]

omit [DecidableEq K] [Atoms K A] in
theorem pval_scale (c d : K) (l : List (Expr K A)) : pval I (c * d, l) = pval I (c, l) * algebraMap K R d := by
  simp only [pval]
  rw [Algebra.algebraMap_eq_smul_one, mul_smul_comm, mul_one, smul_smul, mul_comm]

section
variable {cl : Expr K A → Expr K A} (hcl : ∀ e, eval I (cl e) = eval I e)
include hcl

omit [DecidableEq K] [Atoms K A] in
mutual
theorem pAppend_val (m : Flatten) (st : PState K A) (f : Expr K A) :
    pval I (pAppend cl m st f) = pval I st * eval I f := by
  match f with
  | .const c => simp only [pAppend, eval]; exact pval_scale _ _ _
  | .atom a => simp only [pAppend]; rw [pval_push, hcl]
  | .sum ci l => simp only [pAppend]; rw [pval_push, hcl]
  | .prod c l =>
    simp only [pAppend]
    split
    · rw [pval_push, hcl]
    · rw [pAppendAll_val, pval_scale, eval, mul_assoc, Algebra.algebraMap_eq_smul_one, smul_mul_assoc, one_mul]
theorem pAppendAll_val (m : Flatten) (st : PState K A) (l : List (Expr K A)) :
    pval I (pAppendAll cl m st l) = pval I st * evalProd I l := by
  match l with
  | [] => simp [pAppendAll, evalProd]
  | f :: l => rw [pAppendAll, pAppendAll_val, pAppend_val, evalProd, mul_assoc]
end

omit [DecidableEq K] [Atoms K A] hcl in
theorem addAt_val (l : List (Expr K A)) (i : Nat) (c : K) (h : ∃ d, l[i]? = some (.const d)) :
    evalSum I (addAt l i c) = evalSum I l + algebraMap K R c := by
  obtain ⟨d, h⟩ := h
  simp only [addAt, h]
  induction l generalizing i with
  | nil => simp at h
  | cons x l ih =>
    cases i with
    | zero =>
      simp only [List.getElem?_cons_zero, Option.some.injEq] at h
      subst h
      simp only [List.set_cons_zero, evalSum, eval, map_add]
      abel
    | succ i =>
      simp only [List.getElem?_cons_succ] at h
      simp only [List.set_cons_succ, evalSum, ih i h]
      abel

omit [DecidableEq K] [Atoms K A] hcl in
theorem addAt_getElem (l : List (Expr K A)) (i : Nat) (c : K) (h : ∃ d, l[i]? = some (.const d)) :
    ∃ d, (addAt l i c)[i]? = some (.const d) := by
  obtain ⟨d, h⟩ := h
  simp only [addAt, h]
  have hi : i < l.length := by
    rcases Nat.lt_or_ge i l.length with h1 | h1
    · exact h1
    · rw [List.getElem?_eq_none h1] at h; cases h
  exact ⟨d + c, by rw [List.getElem?_set_self hi]⟩

variable (hI : Interp K I)
include hI

mutual
theorem sAppend_val (st : SState K A) (hst : IdxOk st) (s : Expr K A) :
    sval I (sAppend cl st s) = sval I st + eval I s ∧ IdxOk (sAppend cl st s) := by
  match s with
  | .const c =>
    simp only [sAppend]
    split
    · rename_i h; subst h; exact ⟨by simp [eval], hst⟩
    · split
      · rename_i i hi
        refine ⟨addAt_val _ _ _ (hst i hi), fun j hj => ?_⟩
        simp only [Option.some.injEq] at hj
        subst hj
        exact addAt_getElem _ _ _ (hst i hi)
      · refine ⟨by simp [sval, evalSum_append, evalSum], fun j hj => ?_⟩
        simp only [Option.some.injEq] at hj
        subst hj
        exact ⟨c, by simp⟩
  | .atom a =>
    simp only [sAppend]
    split
    · rename_i h
      exact ⟨by simp [eval, hI.zero a h], hst⟩
    · refine ⟨by simp [sval, evalSum_append, evalSum, hcl], fun j hj => ?_⟩
      obtain ⟨c, hc⟩ := hst j hj
      exact ⟨c, by rw [List.getElem?_append_left, hc]; by_contra hn; rw [List.getElem?_eq_none (by omega)] at hc; cases hc⟩
  | .prod c l =>
    simp only [sAppend]
    split
    · rename_i h
      simp only [Expr.isZero, decide_eq_true_eq] at h
      exact ⟨by simp [eval, h], hst⟩
    · refine ⟨by simp [sval, evalSum_append, evalSum, hcl], fun j hj => ?_⟩
      obtain ⟨c, hc⟩ := hst j hj
      exact ⟨c, by rw [List.getElem?_append_left, hc]; by_contra hn; rw [List.getElem?_eq_none (by omega)] at hc; cases hc⟩
  | .sum ci l =>
    simp only [sAppend, eval]
    exact sAppendAll_val st hst l
theorem sAppendAll_val (st : SState K A) (hst : IdxOk st) (l : List (Expr K A)) :
    sval I (sAppendAll cl st l) = sval I st + evalSum I l ∧ IdxOk (sAppendAll cl st l) := by
  match l with
  | [] => simp [sAppendAll, evalSum, hst]
  | s :: l =>
    obtain ⟨h1, h2⟩ := sAppend_val st hst s
    obtain ⟨h3, h4⟩ := sAppendAll_val (sAppend cl st s) h2 l
    exact ⟨by rw [sAppendAll, h3, h1, evalSum, add_assoc], by rw [sAppendAll]; exact h4⟩
end

mutual
theorem sPrepend_val (st : SState K A) (hst : IdxOk st) (s : Expr K A) :
    sval I (sPrepend cl st s) = sval I st + eval I s ∧ IdxOk (sPrepend cl st s) := by
  match s with
  | .const c =>
    simp only [sPrepend]
    split
    · rename_i h; subst h; exact ⟨by simp [eval], hst⟩
    · split
      · rename_i i hi
        refine ⟨addAt_val _ _ _ (hst i hi), fun j hj => ?_⟩
        simp only [Option.some.injEq] at hj
        subst hj
        exact addAt_getElem _ _ _ (hst i hi)
      · refine ⟨by simp only [sval, evalSum]; abel, fun j hj => ?_⟩
        simp only [Option.some.injEq] at hj
        subst hj
        exact ⟨c, by simp⟩
  | .atom a =>
    simp only [sPrepend]
    split
    · rename_i h
      exact ⟨by simp [eval, hI.zero a h], hst⟩
    · refine ⟨by simp only [sval, evalSum, hcl]; abel, fun j hj => ?_⟩
      simp only [Option.map_eq_some_iff] at hj
      obtain ⟨i, hi, rfl⟩ := hj
      obtain ⟨c, hc⟩ := hst i hi
      exact ⟨c, by simpa using hc⟩
  | .prod c l =>
    simp only [sPrepend]
    split
    · rename_i h
      simp only [Expr.isZero, decide_eq_true_eq] at h
      exact ⟨by simp [eval, h], hst⟩
    · refine ⟨by simp only [sval, evalSum, hcl]; abel, fun j hj => ?_⟩
      simp only [Option.map_eq_some_iff] at hj
      obtain ⟨i, hi, rfl⟩ := hj
      obtain ⟨c, hc⟩ := hst i hi
      exact ⟨c, by simpa using hc⟩
  | .sum ci l =>
    simp only [sPrepend, eval]
    exact sPrependAll_val st hst l
theorem sPrependAll_val (st : SState K A) (hst : IdxOk st) (l : List (Expr K A)) :
    sval I (sPrependAll cl st l) = sval I st + evalSum I l ∧ IdxOk (sPrependAll cl st l) := by
  match l with
  | [] => simp [sPrependAll, evalSum, hst]
  | s :: l =>
    obtain ⟨h1, h2⟩ := sPrepend_val st hst s
    obtain ⟨h3, h4⟩ := sPrependAll_val (sPrepend cl st s) h2 l
    exact ⟨by rw [sPrependAll, h3, h1, evalSum, add_assoc], by rw [sPrependAll]; exact h4⟩
end

end

omit [CommRing K] [DecidableEq K] [Atoms K A] in
theorem idxOk_none (l : List (Expr K A)) : IdxOk ((none, l) : SState K A) := fun i h => by simp at h

theorem foldl_sAppend {cl : Expr K A → Expr K A} (st : SState K A) (l : List (Expr K A)) :
    l.foldl (fun st f => sAppend cl st f) st = sAppendAll cl st l := by
  induction l generalizing st with
  | nil => rfl
  | cons a l ih => simp [sAppendAll, ih]

theorem foldl_pAppend {cl : Expr K A → Expr K A} (m : Flatten) (st : PState K A) (l : List (Expr K A)) :
    l.foldl (fun st f => pAppend cl m st f) st = pAppendAll cl m st l := by
  induction l generalizing st with
  | nil => rfl
  | cons a l ih => simp [pAppendAll, ih]

theorem evalProd_map_of (f : Expr K A → Expr K A) (h : ∀ e, eval I (f e) = eval I e) (l : List (Expr K A)) :
    evalProd I (l.map f) = evalProd I l := by
  simp [evalProd_eq, Function.comp_def, h]

theorem evalSum_map_of (f : Expr K A → Expr K A) (h : ∀ e, eval I (f e) = eval I e) (l : List (Expr K A)) :
    evalSum I (l.map f) = evalSum I l := by
  simp [evalSum_eq, Function.comp_def, h]

theorem cloneF_val (hI : Interp K I) (n : Nat) (e : Expr K A) : eval I (cloneF n e) = eval I e := by
  induction n generalizing e with
  | zero => cases e <;> rfl
  | succ n ih =>
    cases e with
    | const c => rfl
    | atom a => rfl
    | prod c l =>
      simp only [cloneF]
      rw [foldl_pAppend]
      have := pAppendAll_val (I := I) (cl := cloneF n) ih .No (c, []) (l.map (cloneF n))
      simp only [pval] at this
      rw [eval, this, evalProd_map_of _ ih]
      simp [eval, evalProd]
    | sum ci l =>
      simp only [cloneF]
      rw [foldl_sAppend]
      have := (sAppendAll_val (I := I) (cl := cloneF n) ih hI (none, []) (idxOk_none _) (l.map (cloneF n))).1
      simp only [sval] at this
      rw [eval, this, evalSum_map_of _ ih]
      simp [eval, evalSum]

/-- Cloning does not change the value. -/
theorem clone_val (hI : Interp K I) (e : Expr K A) : eval I (clone e) = eval I e := cloneF_val hI _ e

theorem mkProd_val (hI : Interp K I) (m : Flatten) (c : K) (l : List (Expr K A)) :
    eval I (mkProd m c l) = c • evalProd I l := by
  have := pAppendAll_val (I := I) (clone_val hI) m (c, []) l
  simp only [pval] at this
  simp only [mkProd, eval]
  rw [this]
  simp [evalProd]

theorem mkSum_val (hI : Interp K I) (l : List (Expr K A)) : eval I (mkSum l) = evalSum I l := by
  have := (sAppendAll_val (I := I) (clone_val hI) hI (none, []) (idxOk_none _) l).1
  simp only [sval] at this
  simp only [mkSum, eval]
  rw [this]
  simp [evalSum]

end SeQuant.Expression
