import Verif.Expression.Lemmas
import Verif.Expression.Instances

set_option linter.unusedSectionVars false

/-! # C14 and C15: building products and sums, arithmetic operators -/

namespace SeQuant.Expression

variable {K A R : Type} [CommRing K] [DecidableEq K] [Ring R] [Algebra K R] [Atoms K A] {I : A → R}

/-- `Product::append(s, x, mode)`: the scalar is multiplied in first (product.hpp:155). -/
def productAppend (s : K) (x : Expr K A) (m : Flatten) (st : PState K A) : PState K A :=
  pAppend clone m (st.1 * s, st.2) x
/-- `Product::prepend(s, x, mode)` (product.hpp:228). -/
def productPrepend (s : K) (x : Expr K A) (m : Flatten) (st : PState K A) : PState K A :=
  pPrepend clone m (st.1 * s, st.2) x

/-- **C14** (append to a product): multiplication on the right, for every mode and argument. -/
theorem product_append (hI : Interp K I) (s : K) (x : Expr K A) (m : Flatten) (c : K) (l : List (Expr K A)) :
    eval I (.prod (productAppend s x m (c, l)).1 (productAppend s x m (c, l)).2) =
      eval I (.prod c l) * (s • eval I x) := by
  have := pAppend_val (I := I) (clone_val hI) m (c * s, l) x
  simp only [pval] at this
  simp only [eval, productAppend]
  rw [this]
  simp only [smul_mul_assoc, mul_smul_comm, smul_smul, mul_comm]

example : eval Inst.mat (Expr.prod (productAppend 3 (.prod 2 [Inst.Y, .const 5]) .Recursively (7, [Inst.X])).1
      (productAppend 3 (.prod 2 [Inst.Y, .const 5]) .Recursively (7, [Inst.X])).2) =
    eval Inst.mat (.prod 7 [Inst.X]) * ((3 : Int) • eval Inst.mat (.prod 2 [Inst.Y, .const 5])) :=
  product_append Inst.mat_interp _ _ _ _ _

example : productAppend 3 (.prod 2 [Inst.Y, .const 5]) .Recursively (7, [Inst.X]) = (210, [Inst.X, Inst.Y]) := by rfl

/-- **C14** (append to a sum): addition; `constant_summand_idx_` stays valid, so the assertion in `append` never fails. -/
theorem sum_append (hI : Interp K I) (x : Expr K A) (ci : Option Nat) (l : List (Expr K A)) (h : IdxOk (ci, l)) :
    eval I (.sum (sAppend clone (ci, l) x).1 (sAppend clone (ci, l) x).2) = eval I (.sum ci l) + eval I x ∧
      IdxOk (sAppend clone (ci, l) x) := by
  simpa [eval, sval] using sAppend_val (clone_val hI) hI (ci, l) h x

/-- **C14** (prepend to a sum). -/
theorem sum_prepend (hI : Interp K I) (x : Expr K A) (ci : Option Nat) (l : List (Expr K A)) (h : IdxOk (ci, l)) :
    eval I (.sum (sPrepend clone (ci, l) x).1 (sPrepend clone (ci, l) x).2) = eval I x + eval I (.sum ci l) ∧
      IdxOk (sPrepend clone (ci, l) x) := by
  have := sPrepend_val (clone_val hI) hI (ci, l) h x
  exact ⟨by simpa [eval, sval, add_comm] using this.1, this.2⟩

/-- `IdxOk` holds for a sum that has a constant at the remembered place. -/
example : IdxOk ((some 1, [Inst.X, .const 4]) : SState Int Inst.At) := by
  intro i h; simp only [Option.some.injEq] at h; subst h; exact ⟨4, rfl⟩

example : sAppend clone ((some 1, [Inst.X, .const 4]) : SState Int Inst.At) (.sum none [.const 5, Inst.Z, Inst.Y]) =
    (some 1, [Inst.X, .const 9, Inst.Y]) := by rfl

/-- **C14 is false for `Product::prepend`**: flattening a product argument reverses its factors. -/
theorem product_prepend_reverses : ∃ (x : Inst.E) (c : Int) (l : List Inst.E),
    eval Inst.mat (.prod (productPrepend 1 x .Recursively (c, l)).1 (productPrepend 1 x .Recursively (c, l)).2) ≠
      ((1 : Int) • eval Inst.mat x) * eval Inst.mat (.prod c l) :=
  ⟨.prod 1 [Inst.X, Inst.Y], 1, [], by decide +kernel⟩

/-- **C14 is false for `Product::prepend`** without flattening: the scalar of a product argument is counted twice. -/
theorem product_prepend_scalar_twice : ∃ (x : Inst.E) (c : Int) (l : List Inst.E),
    eval Inst.mat (.prod (productPrepend 1 x .No (c, l)).1 (productPrepend 1 x .No (c, l)).2) ≠
      ((1 : Int) • eval Inst.mat x) * eval Inst.mat (.prod c l) :=
  ⟨.prod 2 [Inst.X], 1, [], by decide +kernel⟩

/-- **C14, partial** (prepend to a product): right for every argument that is not itself a product.  Missing: product arguments
with several factors, and product arguments with a scalar in mode `No`, for which the statement is false. -/
theorem product_prepend_partial (hI : Interp K I) (s : K) (x : Expr K A) (hx : x.isProd = false) (m : Flatten) (c : K)
    (l : List (Expr K A)) :
    eval I (.prod (productPrepend s x m (c, l)).1 (productPrepend s x m (c, l)).2) =
      (s • eval I x) * eval I (.prod c l) := by
  cases x with
  | const d =>
    simp only [eval, productPrepend, pPrepend]
    simp only [Algebra.algebraMap_eq_smul_one, smul_mul_assoc, one_mul, smul_smul]
    congr 1; ring
  | atom a =>
    simp only [eval, productPrepend, pPrepend, evalProd, clone_val hI, smul_mul_assoc, mul_smul_comm, smul_smul]
  | sum ci ss =>
    simp only [eval, productPrepend, pPrepend, evalProd, clone_val hI, smul_mul_assoc, mul_smul_comm, smul_smul]
  | prod d fs => simp [Expr.isProd] at hx

example : eval Inst.mat (.prod (productPrepend 3 Inst.X .Recursively (7, [Inst.Y])).1
      (productPrepend 3 Inst.X .Recursively (7, [Inst.Y])).2) =
    ((3 : Int) • eval Inst.mat Inst.X) * eval Inst.mat (.prod 7 [Inst.Y]) :=
  product_prepend_partial Inst.mat_interp _ _ rfl _ _ _

section comm
variable {R' : Type} [CommRing R'] [Algebra K R'] {J : A → R'}

mutual
theorem pPrepend_comm (hJ : Interp K J) (m : Flatten) (hm : m = .Recursively) (st : PState K A) (f : Expr K A) :
    pval J (pPrepend clone m st f) = eval J f * pval J st := by
  match f with
  | .const c => simp only [pPrepend, eval]; rw [pval_scale, mul_comm]
  | .atom a => simp only [pPrepend]; rw [pval_cons, clone_val hJ]
  | .sum ci l => simp only [pPrepend]; rw [pval_cons, clone_val hJ]
  | .prod c l =>
    simp only [pPrepend]
    subst hm
    rw [if_neg (by simp), pPrependAll_comm hJ Flatten.Recursively.sub rfl, pval_scale, eval, Algebra.algebraMap_eq_smul_one, mul_smul_comm, mul_one,
      mul_smul_comm, smul_mul_assoc]
theorem pPrependAll_comm (hJ : Interp K J) (m : Flatten) (hm : m = .Recursively) (st : PState K A) (l : List (Expr K A)) :
    pval J (pPrependAll clone m st l) = evalProd J l * pval J st := by
  match l with
  | [] => simp [pPrependAll, evalProd]
  | f :: l => rw [pPrependAll, pPrependAll_comm hJ m hm, pPrepend_comm hJ m hm, evalProd]; ring
end

/-- **C14, partial** (prepend to a product): recursive flattening is right in every *commutative* algebra. -/
theorem product_prepend_comm_partial (hJ : Interp K J) (s : K) (x : Expr K A) (c : K) (l : List (Expr K A)) :
    eval J (.prod (productPrepend s x .Recursively (c, l)).1 (productPrepend s x .Recursively (c, l)).2) =
      (s • eval J x) * eval J (.prod c l) := by
  have := pPrepend_comm hJ .Recursively rfl (c * s, l) x
  simp only [pval] at this
  simp only [eval, productPrepend]
  rw [this]
  simp only [smul_mul_assoc, mul_smul_comm, smul_smul]

end comm

/-! ### C15 -/

theorem clone_prod (c : K) (l : List (Expr K A)) : ∃ c' l', clone (.prod c l) = .prod c' l' := ⟨_, _, rfl⟩

theorem clone_sum (hI : Interp K I) (ci : Option Nat) (l : List (Expr K A)) :
    ∃ ci' l', clone (.sum ci l) = .sum ci' l' ∧ IdxOk (ci', l') := by
  refine ⟨_, _, rfl, ?_⟩
  rw [foldl_sAppend]
  exact (sAppendAll_val (cloneF_val hI _) hI (none, []) (idxOk_none _) _).2

/-- `operator*`. -/
theorem mulE_val (hI : Interp K I) (x y : Expr K A) : eval I (mulE x y) = eval I x * eval I y := by
  by_cases h : ∃ a b, x = .const a ∧ y = .const b
  · obtain ⟨a, b, rfl, rfl⟩ := h
    simp [mulE, eval]
  · have e : mulE x y = if !x.isProd && !y.isProd then mkProd .Recursively 1 [x, y]
        else if x.isProd then
          match clone x with
          | .prod c l => .prod (pAppend clone .Recursively (c, l) y).1 (pAppend clone .Recursively (c, l) y).2
          | e => e
        else
          match clone y with
          | .prod c l => .prod (pPrepend clone .Recursively (c, l) x).1 (pPrepend clone .Recursively (c, l) x).2
          | e => e := by
      cases x <;> cases y <;> first | rfl | (exact absurd ⟨_, _, rfl, rfl⟩ h)
    rw [e]
    split
    · rw [mkProd_val hI]; simp [evalProd]
    · split
      · rename_i hx
        obtain ⟨c, l, rfl⟩ : ∃ c l, x = .prod c l := by cases x <;> simp [Expr.isProd] at hx ⊢
        have hv := clone_val hI (Expr.prod c l)
        obtain ⟨c', l', hc⟩ := clone_prod c l
        rw [hc] at hv ⊢
        have := product_append hI 1 y .Recursively c' l'
        simp only [productAppend, mul_one, one_smul] at this
        rw [← hv]; exact this
      · rename_i hx hy
        have hxp : x.isProd = false := by simpa using hy
        have hyp : y.isProd = true := by simpa [hxp] using hx
        obtain ⟨c, l, rfl⟩ : ∃ c l, y = .prod c l := by cases y <;> simp [Expr.isProd] at hyp ⊢
        have hv := clone_val hI (Expr.prod c l)
        obtain ⟨c', l', hc⟩ := clone_prod c l
        rw [hc] at hv ⊢
        have := product_prepend_partial hI 1 x hxp .Recursively c' l'
        simp only [productPrepend, mul_one, one_smul] at this
        rw [← hv]; exact this

/-- `operator+`. -/
theorem addE_val (hI : Interp K I) (x y : Expr K A) : eval I (addE x y) = eval I x + eval I y := by
  unfold addE
  split
  · rw [mkSum_val hI]; simp [evalSum]
  · split
    · rename_i hx
      obtain ⟨ci, l, rfl⟩ : ∃ ci l, x = .sum ci l := by cases x <;> simp [Expr.isSum] at hx ⊢
      have hv := clone_val hI (Expr.sum ci l)
      obtain ⟨c', l', hc, hok⟩ := clone_sum hI ci l
      rw [hc] at hv ⊢
      have := (sum_append hI y c' l' hok).1
      rw [← hv]; exact this
    · rename_i hx hy
      have hxp : x.isSum = false := by simpa using hy
      have hyp : y.isSum = true := by simpa [hxp] using hx
      obtain ⟨ci, l, rfl⟩ : ∃ ci l, y = .sum ci l := by cases y <;> simp [Expr.isSum] at hyp ⊢
      have hv := clone_val hI (Expr.sum ci l)
      obtain ⟨c', l', hc, hok⟩ := clone_sum hI ci l
      rw [hc] at hv ⊢
      have := (sum_prepend hI x c' l' hok).1
      rw [← hv]; exact this

theorem negTerm_val (hI : Interp K I) (x : Expr K A) : eval I (negTerm x) = - eval I x := by
  unfold negTerm
  split
  · simp [eval]
  · rw [mkProd_val hI]; simp [evalProd]

/-- `operator-`. -/
theorem subE_val (hI : Interp K I) (x y : Expr K A) : eval I (subE x y) = eval I x - eval I y := by
  unfold subE
  split
  · rw [mkSum_val hI]; simp [evalSum, negTerm_val hI, sub_eq_add_neg]
  · rename_i hx
    obtain ⟨ci, l, rfl⟩ : ∃ ci l, x = .sum ci l := by cases x <;> simp [Expr.isSum] at hx ⊢
    have hv := clone_val hI (Expr.sum ci l)
    obtain ⟨c', l', hc, hok⟩ := clone_sum hI ci l
    rw [hc] at hv ⊢
    have := (sum_append hI (negTerm y) c' l' hok).1
    rw [← hv, sub_eq_add_neg, ← negTerm_val hI]; exact this

/-- Value of a possibly null pointer; `d` is the value of null. -/
def evalO (I : A → R) (d : R) : Option (Expr K A) → R
  | none => d
  | some e => eval I e

/-- **C15, partial** (`+=`): addition, for distinct objects, a null pointer counting as 0.  Missing: `x += x` for one and the same
`Sum` object (see `sum_self_append_ub`). -/
theorem addAssign_partial (hI : Interp K I) (x y : Option (Expr K A)) (hx : ∀ e, x = some e → e.IdxOk) :
    evalO I 0 (addAssign x y) = evalO I 0 x + evalO I 0 y := by
  cases y with
  | none => cases x <;> simp [addAssign, evalO]
  | some y =>
    cases x with
    | none => simp [addAssign, evalO, clone_val hI]
    | some x =>
      have h0 := hx x rfl
      cases x with
      | sum ci l =>
        simp only [addAssign, evalO]
        exact (sum_append hI y ci l h0).1
      | const a => cases y <;> simp [addAssign, evalO, mkSum_val hI, evalSum, eval]
      | atom a => simp [addAssign, evalO, mkSum_val hI, evalSum]
      | prod c l => simp [addAssign, evalO, mkSum_val hI, evalSum]

/-- **C15, partial** (`-=`). -/
theorem subAssign_partial (hI : Interp K I) (x y : Option (Expr K A)) (hx : ∀ e, x = some e → e.IdxOk) :
    evalO I 0 (subAssign x y) = evalO I 0 x - evalO I 0 y := by
  cases y with
  | none => cases x <;> simp [subAssign, evalO]
  | some y =>
    cases x with
    | none => simp [subAssign, evalO, mulE_val hI, clone_val hI, eval]
    | some x =>
      have h0 := hx x rfl
      cases x with
      | sum ci l =>
        simp only [subAssign, evalO]
        rw [sub_eq_add_neg, ← negTerm_val hI]
        exact (sum_append hI (negTerm y) ci l h0).1
      | const a => cases y <;> simp [subAssign, evalO, mkSum_val hI, mkProd_val hI, evalSum, evalProd, eval, sub_eq_add_neg]
      | atom a => simp [subAssign, evalO, mkSum_val hI, mkProd_val hI, evalSum, evalProd, sub_eq_add_neg]
      | prod c l => simp [subAssign, evalO, mkSum_val hI, mkProd_val hI, evalSum, evalProd, sub_eq_add_neg]

/-- **C15, partial** (`*=`): multiplication on the right, a null pointer counting as 1.  Missing: `x *= x` for one and the same
`Product` object (see `product_self_append_ub`). -/
theorem mulAssign_partial (hI : Interp K I) (x y : Option (Expr K A)) :
    evalO I 1 (mulAssign x y) = evalO I 1 x * evalO I 1 y := by
  cases y with
  | none => cases x <;> simp [mulAssign, evalO]
  | some y =>
    cases x with
    | none => simp [mulAssign, evalO, clone_val hI]
    | some x =>
      cases x with
      | prod c l =>
        have := product_append hI 1 y .Recursively c l
        simp only [productAppend, mul_one, one_smul] at this
        cases y <;> simp only [mulAssign, evalO] <;> exact this
      | const a => cases y <;> simp [mulAssign, evalO, mkProd_val hI, evalProd, eval]
      | atom a => simp [mulAssign, evalO, mkProd_val hI, evalProd]
      | sum c l => simp [mulAssign, evalO, mkProd_val hI, evalProd]

example : eval Inst.mat (mulE (.prod 2 [Inst.X]) (.sum none [Inst.Y, .const 3])) =
    eval Inst.mat (.prod 2 [Inst.X]) * eval Inst.mat (.sum none [Inst.Y, .const 3]) := mulE_val Inst.mat_interp _ _

example : evalO Inst.mat 0 (subAssign (some (.sum (some 0) [.const 2, Inst.X])) (some Inst.Y)) =
    evalO Inst.mat 0 (some (.sum (some 0) [.const 2, Inst.X])) - evalO Inst.mat 0 (some Inst.Y) :=
  subAssign_partial Inst.mat_interp _ _ (by
    rintro e h; simp only [Option.some.injEq] at h; subst h
    intro i hi; simp only [Option.some.injEq] at hi; subst hi; exact ⟨2, rfl⟩)

/-! ### Self-assignment -/

/-- A `boost::container::small_vector` whose elements are being read through pointers obtained before the loop: the current
elements, the capacity, and whether the storage has been reallocated since (then the pointers dangle). -/
structure Buf (K A : Type) where
  data : List (Expr K A)
  cap : Nat
  moved : Bool

/-- `push_back` (reallocates when full). -/
def Buf.push (b : Buf K A) (e : Expr K A) : Buf K A :=
  if b.data.length < b.cap then { b with data := b.data ++ [e] }
  else { data := b.data ++ [e], cap := 2 * b.cap + 1, moved := true }

/-- `p *= p` for a product whose factors are atoms (product.hpp:167-172 with `factor_product` = `*this`): the loop over the factors
found at its beginning appends to the same vector.  `none` = a dangling pointer is read (undefined behaviour). -/
def selfAppendLoop (n i : Nat) (b : Buf K A) : Option (Buf K A) :=
  match n with
  | 0 => some b
  | n + 1 => if b.moved then none else
    match b.data[i]? with
    | some f => selfAppendLoop n (i + 1) (b.push (clone f))
    | none => none

/-- **C15 is false for `p *= p`** with a product of `n ≥ 2` atomic factors that fill the vector's capacity (e.g. two factors in
`svector<ExprPtr, 2>`): reading a factor after the reallocation is undefined behaviour. -/
theorem product_self_append_ub (l : List (Expr K A)) (h : 2 ≤ l.length) :
    selfAppendLoop l.length 0 { data := l, cap := l.length, moved := false } = none := by
  obtain ⟨n, hn⟩ : ∃ n, l.length = n + 2 := ⟨l.length - 2, by omega⟩
  rw [hn]
  match l, hn with
  | a :: b :: l, hn =>
    simp [selfAppendLoop, Buf.push, List.length_cons] at hn ⊢
    simp [hn]

/-- Without reallocation the loop would produce the square. -/
theorem product_self_append_ok (hI : Interp K I) (l : List (Expr K A)) (cap : Nat) (h : 2 * l.length ≤ cap) :
    ∃ b, selfAppendLoop l.length 0 { data := l, cap := cap, moved := false } = some b ∧
      evalProd I b.data = evalProd I l * evalProd I l := by
  suffices H : ∀ (post pre acc : List (Expr K A)), pre ++ post = l → acc.length = pre.length →
      evalProd I acc = evalProd I pre →
      ∃ b, selfAppendLoop post.length pre.length { data := l ++ acc, cap := cap, moved := false } = some b ∧
        evalProd I b.data = evalProd I l * evalProd I l by
    simpa using H l [] [] rfl rfl rfl
  intro post
  induction post with
  | nil =>
    intro pre acc hp _ hv
    refine ⟨_, rfl, ?_⟩
    simp only [List.append_nil] at hp
    subst hp
    simp [evalProd_append, hv]
  | cons f post ih =>
    intro pre acc hp hl hv
    have hget : (l ++ acc)[pre.length]? = some f := by
      rw [← hp]; simp
    have hlen : l.length = pre.length + post.length + 1 := by rw [← hp]; simp; omega
    simp only [selfAppendLoop, List.length_cons, hget, Bool.false_eq_true, if_false, Buf.push]
    rw [if_pos (by simp; omega)]
    have := ih (pre ++ [f]) (acc ++ [clone f]) (by simp [← hp]) (by simp [hl])
      (by simp [evalProd_append, evalProd, hv, clone_val hI])
    simpa using this

example : selfAppendLoop 2 0 { data := [Inst.X, Inst.Y], cap := 2, moved := false } = none :=
  product_self_append_ub [Inst.X, Inst.Y] (by decide)

end SeQuant.Expression
