import Verif.Expression.Shape
import Verif.Expression.Instances

set_option linter.unusedSectionVars false

/-! # C12: `flatten` -/

namespace SeQuant.Expression

variable {K A R : Type} [CommRing K] [DecidableEq K] [Ring R] [Algebra K R] [Atoms K A] {I : A → R}

theorem pAppendAll_append (cl : Expr K A → Expr K A) (m : Flatten) (st : PState K A) (a b : List (Expr K A)) :
    pAppendAll cl m st (a ++ b) = pAppendAll cl m (pAppendAll cl m st a) b := by
  induction a generalizing st with
  | nil => rfl
  | cons x a ih => simp only [List.cons_append, pAppendAll, ih]

theorem sAppendAll_append (cl : Expr K A → Expr K A) (st : SState K A) (a b : List (Expr K A)) :
    sAppendAll cl st (a ++ b) = sAppendAll cl (sAppendAll cl st a) b := by
  induction a generalizing st with
  | nil => rfl
  | cons x a ih => simp only [List.cons_append, sAppendAll, ih]

theorem flattenP_some (c : K) (done : List (Expr K A)) (st : PState K A) (l : List (Expr K A)) :
    flattenP c done (some st) l = (done ++ l.map flatten, some (pAppendAll clone .Recursively st (l.map flatten))) := by
  induction l generalizing done st with
  | nil => simp [flattenP, pAppendAll]
  | cons e l ih => simp only [flattenP, ih, List.map_cons, pAppendAll, List.append_assoc, List.singleton_append]

theorem flattenP_none (c : K) (done l : List (Expr K A)) :
    flattenP c done none l = (done ++ l.map flatten,
      if (l.map flatten).any Expr.isProd then some (pAppendAll clone .Recursively (c, []) (done ++ l.map flatten)) else none) := by
  induction l generalizing done with
  | nil => simp [flattenP]
  | cons e l ih =>
    simp only [flattenP]
    by_cases h : (flatten e).isProd = true
    · simp only [h, if_true, flattenP_some, List.map_cons, List.any_cons, Bool.true_or, List.append_assoc,
        List.singleton_append, pAppendAll_append, pAppendAll]
    · simp only [eq_false_of_ne_true h, Bool.false_eq_true, if_false, ih, List.map_cons, List.any_cons, Bool.false_or,
        List.append_assoc, List.singleton_append]

theorem flattenS_some (done : List (Expr K A)) (st : SState K A) (l : List (Expr K A)) :
    flattenS done (some st) l = (done ++ l.map flatten, some (sAppendAll clone st (l.map flatten))) := by
  induction l generalizing done st with
  | nil => simp [flattenS, sAppendAll]
  | cons e l ih => simp only [flattenS, ih, List.map_cons, sAppendAll, List.append_assoc, List.singleton_append]

theorem flattenS_none (done l : List (Expr K A)) :
    flattenS done none l = (done ++ l.map flatten,
      if (l.map flatten).any Expr.isSum then some (sAppendAll clone (none, []) (done ++ l.map flatten)) else none) := by
  induction l generalizing done with
  | nil => simp [flattenS]
  | cons e l ih =>
    simp only [flattenS]
    by_cases h : (flatten e).isSum = true
    · simp only [h, if_true, flattenS_some, List.map_cons, List.any_cons, Bool.true_or, List.append_assoc,
        List.singleton_append, sAppendAll_append, sAppendAll]
    · simp only [eq_false_of_ne_true h, Bool.false_eq_true, if_false, ih, List.map_cons, List.any_cons, Bool.false_or,
        List.append_assoc, List.singleton_append]

/-- `flatten` of a product in closed form. -/
theorem flatten_prod (c : K) (l : List (Expr K A)) : flatten (.prod c l) =
    if (l.map flatten).any Expr.isProd then mkProd .Recursively c (l.map flatten) else .prod c (l.map flatten) := by
  simp only [flatten, flattenP_none, List.nil_append]
  by_cases h : (l.map flatten).any Expr.isProd = true <;> simp only [h, if_true, if_false, mkProd, Bool.false_eq_true]

/-- `flatten` of a sum in closed form. -/
theorem flatten_sum (ci : Option Nat) (l : List (Expr K A)) : flatten (.sum ci l) =
    if (l.map flatten).any Expr.isSum then mkSum (l.map flatten) else .sum ci (l.map flatten) := by
  simp only [flatten, flattenS_none, List.nil_append]
  by_cases h : (l.map flatten).any Expr.isSum = true <;> simp only [h, if_true, if_false, mkSum, Bool.false_eq_true]

mutual
theorem flatten_val (hI : Interp K I) (e : Expr K A) : eval I (flatten e) = eval I e := by
  match e with
  | .const c => simp only [flatten]
  | .atom a => simp only [flatten]
  | .prod c l =>
    rw [flatten_prod]
    split
    · rw [mkProd_val hI, (flattenL_val hI l).1]; simp only [eval]
    · simp only [eval]; rw [(flattenL_val hI l).1]
  | .sum ci l =>
    rw [flatten_sum]
    split
    · rw [mkSum_val hI, (flattenL_val hI l).2]; simp only [eval]
    · simp only [eval]; rw [(flattenL_val hI l).2]
theorem flattenL_val (hI : Interp K I) (l : List (Expr K A)) :
    evalProd I (l.map flatten) = evalProd I l ∧ evalSum I (l.map flatten) = evalSum I l := by
  match l with
  | [] => exact ⟨rfl, rfl⟩
  | e :: l =>
    have := flattenL_val hI l
    simp only [List.map_cons, evalProd, evalSum, flatten_val hI e, this.1, this.2, and_self]
end

theorem flatF_Flat (e : Expr K A) (h : e.Flat) : ∀ x ∈ flatF e, x.isProd = false ∧ x.Flat := by
  cases e with
  | const c => simp [flatF]
  | atom a => simp [flatF, Expr.isProd, Expr.Flat]
  | sum ci l => simp only [flatF, List.mem_singleton, forall_eq]; exact ⟨rfl, h⟩
  | prod c l =>
    simp only [Expr.Flat, FlatP_iff] at h
    simp only [flatF]
    induction l with
    | nil => simp [flatFL]
    | cons x l ih =>
      intro y hy
      simp only [flatFL, List.mem_append] at hy
      rcases hy with hy | hy
      · have hx := h x (by simp)
        by_cases hc : x.isConst = true
        · cases x <;> simp [Expr.isConst] at hc; simp [flatF] at hy
        · rw [flatF_of_not_prod hx.1 (eq_false_of_ne_true hc)] at hy
          simp only [List.mem_singleton] at hy
          subst hy; exact hx
      · exact ih (fun z hz => h z (by simp [hz])) y hy

theorem flatS_Flat (e : Expr K A) (h : e.Flat) : ∀ x ∈ flatS e, x.isSum = false ∧ x.Flat := by
  by_cases hs : e.isSum = true
  · obtain ⟨ci, l, rfl⟩ : ∃ ci l, e = .sum ci l := by cases e <;> simp [Expr.isSum] at hs ⊢
    simp only [Expr.Flat, FlatS_iff] at h
    simp only [flatS]
    rw [flatSL_of_not_sum fun x hx => (h x hx).1]
    exact h
  · rw [flatS_of_not_sum (eq_false_of_ne_true hs)]
    simpa using ⟨eq_false_of_ne_true hs, h⟩

theorem mkProd_Flat (c : K) (l : List (Expr K A)) (h : ∀ e ∈ l, e.Flat) : (mkProd .Recursively c l).Flat := by
  simp only [mkProd, Expr.Flat]
  rw [pAppendAll_rec, FlatP_iff]
  simp only [List.nil_append, List.mem_map]
  rintro x ⟨y, hy, rfl⟩
  have : y.isProd = false ∧ y.Flat := by
    induction l with
    | nil => simp [flatFL] at hy
    | cons e l ih =>
      simp only [flatFL, List.mem_append] at hy
      rcases hy with hy | hy
      · exact flatF_Flat e (h e (by simp)) y hy
      · exact ih (fun z hz => h z (by simp [hz])) hy
  exact ⟨by rw [clone, (cloneF_kind _ _).2.1]; exact this.1, cloneF_Flat _ _ this.2⟩

theorem mkSum_Flat (l : List (Expr K A)) (h : ∀ e ∈ l, e.Flat) : (mkSum l).Flat := by
  simp only [mkSum, Expr.Flat]
  rw [FlatS_iff]
  refine sAppendAll_all (P := fun e => e.isSum = false ∧ e.Flat) clone (by simp [Expr.isSum, Expr.Flat]) (none, []) l (by simp) ?_
  intro x hx _
  have : x.isSum = false ∧ x.Flat := by
    induction l with
    | nil => simp [flatSL] at hx
    | cons e l ih =>
      simp only [flatSL, List.mem_append] at hx
      rcases hx with hx | hx
      · exact flatS_Flat e (h e (by simp)) x hx
      · exact ih (fun z hz => h z (by simp [hz])) hx
  exact ⟨by rw [clone, (cloneF_kind _ _).1]; exact this.1, cloneF_Flat _ _ this.2⟩

mutual
theorem flatten_Flat (e : Expr K A) : (flatten e).Flat := by
  match e with
  | .const c => simp [flatten, Expr.Flat]
  | .atom a => simp [flatten, Expr.Flat]
  | .prod c l =>
    have hl := flattenL_Flat l
    rw [flatten_prod]
    split
    · exact mkProd_Flat c _ hl
    · rename_i h
      simp only [Expr.Flat, FlatP_iff]
      intro x hx
      refine ⟨?_, hl x hx⟩
      simp only [List.any_eq_true, not_exists, not_and] at h
      simpa using h x hx
  | .sum ci l =>
    have hl := flattenL_Flat l
    rw [flatten_sum]
    split
    · exact mkSum_Flat _ hl
    · rename_i h
      simp only [Expr.Flat, FlatS_iff]
      intro x hx
      refine ⟨?_, hl x hx⟩
      simp only [List.any_eq_true, not_exists, not_and] at h
      simpa using h x hx
theorem flattenL_Flat (l : List (Expr K A)) : ∀ e ∈ l.map flatten, e.Flat := by
  match l with
  | [] => simp
  | e :: l =>
    intro x hx
    simp only [List.map_cons, List.mem_cons] at hx
    rcases hx with rfl | hx
    · exact flatten_Flat e
    · exact flattenL_Flat l x hx
end

/-- **C12**: `flatten` keeps the value, and afterwards no product is a factor of a product and no sum a summand of a sum. -/
theorem flatten_correct (hI : Interp K I) (e : Expr K A) : eval I (flatten e) = eval I e ∧ (flatten e).Flat :=
  ⟨flatten_val hI e, flatten_Flat e⟩

example : flatten (.prod 2 [Inst.X, .prod 3 [Inst.Y, .sum none [Inst.X, .sum none [.const 1, Inst.Y]]]] : Inst.E) =
    .prod 6 [Inst.X, Inst.Y, .sum (some 1) [Inst.X, .const 1, Inst.Y]] := by rfl

example : eval Inst.mat (flatten (.prod 2 [Inst.X, .prod 3 [Inst.Y, Inst.X]] : Inst.E)) =
    eval Inst.mat (.prod 2 [Inst.X, .prod 3 [Inst.Y, Inst.X]]) := (flatten_correct Inst.mat_interp _).1

end SeQuant.Expression
