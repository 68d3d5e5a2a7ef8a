import Verif.Lst.Model
import Verif.Lst.Spec
import Verif.Expression.BuildProps
import Verif.Expression.ExpandProps
import Verif.Expression.AtomProps

set_option linter.unusedSectionVars false

/-! # C63: `lst` is the truncated Campbell series; C64: `screen_vac_av` keeps the vacuum average -/

namespace SeQuant.Lst

open SeQuant.Expression

variable {K A R : Type} [Field K] [DecidableEq K] [Ring R] [Algebra K R] [Atoms K A] {I : A → R}

/-- What is assumed of the functions called: `simplify` and `transform_sum_expr` preserve values (C13, C16) and the atoms that are
not operators but variables stand for scalars. -/
structure Sound (P : Ops K A) (I : A → R) : Prop where
  simp : ∀ e r, P.simp e = some r → eval I r = eval I e
  acc : ∀ l r, P.acc l = some r → eval I r = evalSum I l
  var : ∀ a, P.isOp a = false → P.isVar a = true → ∃ c : K, I a = algebraMap K R c

theorem mkSum_idx (hI : Interp K I) (l : List (Expr K A)) : (mkSum l).IdxOk :=
  (sAppendAll_val (clone_val hI) hI (none, []) (idxOk_none _) l).2

theorem addAssign_idx (hI : Interp K I) (x y r : Expr K A) (hx : x.IdxOk) (h : addAssign (some x) (some y) = some r) : r.IdxOk := by
  cases x with
  | sum ci l =>
    simp only [addAssign, Option.some.injEq] at h
    subst h
    exact (sum_append hI y ci l hx).2
  | const a =>
    cases y <;> simp only [addAssign, Option.some.injEq] at h <;> subst h
    · trivial
    all_goals exact mkSum_idx hI _
  | atom a => simp only [addAssign, Option.some.injEq] at h; subst h; exact mkSum_idx hI _
  | prod c l => simp only [addAssign, Option.some.injEq] at h; subst h; exact mkSum_idx hI _

theorem addAssign_some (x y : Expr K A) : ∃ r, addAssign (some x) (some y) = some r := by
  cases x <;> cases y <;> exact ⟨_, rfl⟩

theorem addAssign_val (hI : Interp K I) (x y r : Expr K A) (hx : x.IdxOk) (h : addAssign (some x) (some y) = some r) :
    eval I r = eval I x + eval I y := by
  have := addAssign_partial hI (some x) (some y) (by rintro e ⟨⟩; exact hx)
  rw [h] at this
  exact this

theorem mulE_idx (x y : Expr K A) : (mulE x y).IdxOk := by
  unfold mulE
  split
  · trivial
  · split
    · trivial
    · split
      · rename_i h
        cases x with
        | prod c l => obtain ⟨c', l', hc⟩ := clone_prod (A := A) c l; rw [hc]; trivial
        | const c => simp [Expr.isProd] at h
        | atom c => simp [Expr.isProd] at h
        | sum c l => simp [Expr.isProd] at h
      · rename_i h h'
        cases y with
        | prod c l => obtain ⟨c', l', hc⟩ := clone_prod (A := A) c l; rw [hc]; trivial
        | const c => simp [Expr.isProd] at h h'; simp [h'] at h
        | atom c => simp [Expr.isProd] at h h'; simp [h'] at h
        | sum c l => simp [Expr.isProd] at h h'; simp [h'] at h

theorem subE_idx (hI : Interp K I) (x y : Expr K A) : (subE x y).IdxOk := by
  unfold subE
  split
  · exact mkSum_idx hI _
  · rename_i h
    cases x with
    | sum ci l =>
      obtain ⟨c', l', hc, hok⟩ := clone_sum hI ci l
      rw [hc]
      exact (sum_append hI (negTerm y) c' l' hok).2
    | const c => simp [Expr.isSum] at h
    | atom c => simp [Expr.isSum] at h
    | prod c l => simp [Expr.isSum] at h

/-- One step. -/
theorem comm_val (hI : Interp K I) (o : Opts) (B Bd op r : Expr K A) (h : comm o B Bd op = some r) :
    eval I r = stepD o.unitary o.connected (eval I B) (eval I Bd) (eval I op) := by
  obtain ⟨u, c⟩ := o
  cases u <;> cases c <;> simp only [comm, Bool.false_eq_true, if_true, if_false, Option.some.injEq] at h
  · subst h; simp [subE_val hI, mulE_val hI, stepD, ad]
  · subst h; simp [mulE_val hI, stepD]
  · have := subAssign_partial hI (some (subE (mulE op B) (mulE B op))) (some (subE (mulE op Bd) (mulE Bd op)))
      (by rintro e ⟨⟩; exact subE_idx hI _ _)
    rw [h] at this
    simp only [evalO, subE_val hI, mulE_val hI] at this
    rw [this]
    simp only [stepD, ad, mul_sub, sub_mul]
    abel
  · rw [addAssign_val hI _ _ r (mulE_idx _ _) h]
    simp [mulE_val hI, stepD]

theorem comm_some (o : Opts) (B Bd op : Expr K A) : ∃ r, comm o B Bd op = some r := by
  unfold comm
  split
  · split
    · exact addAssign_some _ _
    · exact ⟨_, rfl⟩
  · split
    · generalize subE (mulE op B) (mulE B op) = x
      generalize subE (mulE op Bd) (mulE Bd op) = y
      cases x <;> cases y <;> exact ⟨_, rfl⟩
    · exact ⟨_, rfl⟩

theorem stepD_smul (u c : Bool) (b bd : R) (t : K) (x : R) : stepD u c b bd (t • x) = t • stepD u c b bd x := by
  cases u <;> cases c <;> simp [stepD, ad, smul_sub, smul_add]

theorem stepD_add (u c : Bool) (b bd : R) (x y : R) : stepD u c b bd (x + y) = stepD u c b bd x + stepD u c b bd y := by
  cases u <;> cases c <;> simp only [stepD, ad, add_mul, mul_add] <;> abel

/-- The loop: `op` holds the term of order `k` and `result` the sum so far. -/
theorem loop_val (hI : Interp K I) (P : Ops K A) (hP : Sound P I) (o : Opts) (B Bd : Expr K A) (a : R) (m k : Nat)
    (result op r : Expr K A) (hidx : result.IdxOk)
    (hop : eval I op = ((k.factorial : K)⁻¹) • (stepD o.unitary o.connected (eval I B) (eval I Bd))^[k] a)
    (hres : eval I result = series K (stepD o.unitary o.connected (eval I B) (eval I Bd)) k a)
    (h : loop P o B Bd m (k + 1) result op = some r) :
    eval I r = series K (stepD o.unitary o.connected (eval I B) (eval I Bd)) (k + m) a := by
  induction m generalizing k result op with
  | zero =>
    simp only [loop, Option.some.injEq] at h
    subst h
    exact hres
  | succ m ih =>
    simp only [loop, Option.bind_eq_bind, Option.bind_eq_some_iff] at h
    obtain ⟨c, hc, op', hop', res', hres', h⟩ := h
    have h1 : eval I op' = (((k + 1).factorial : K)⁻¹) • (stepD o.unitary o.connected (eval I B) (eval I Bd))^[k + 1] a := by
      rw [hP.simp _ _ hop', mulE_val hI, comm_val hI o B Bd op c hc, hop, stepD_smul, eval, ← Algebra.smul_def, smul_smul,
        Function.iterate_succ_apply', Nat.factorial_succ, Nat.cast_mul, mul_inv, one_div]
    have h2 : eval I res' = series K (stepD o.unitary o.connected (eval I B) (eval I Bd)) (k + 1) a := by
      rw [addAssign_val hI _ _ _ hidx hres', hres, h1, series, series, Finset.sum_range_succ _ (k + 1)]
    have := ih (k + 1) res' op' (addAssign_idx hI _ _ _ hidx hres') h1 h2 h
    rw [this]; congr 1; omega

/-- `transform`: the series, in all four forms. -/
theorem transform_val (hI : Interp K I) (P : Ops K A) (hP : Sound P I) (o : Opts) (B Bd : Expr K A) (n : Nat) (e r : Expr K A)
    (he : e.isSum = false) (h : transform P o B Bd n e = some r) :
    eval I r = series K (stepD o.unitary o.connected (eval I B) (eval I Bd)) n (eval I e) := by
  have := loop_val hI P hP o B Bd (eval I e) n 0 e e r (by cases e <;> simp [Expr.isSum] at he <;> trivial) (by simp)
    (by simp [series]) h
  simpa using this

/-! ### The series is linear and fixes scalars (commutator form) -/

theorem series_add (D : R → R) (hD : ∀ x y, D (x + y) = D x + D y) (n : Nat) (x y : R) :
    series K D n (x + y) = series K D n x + series K D n y := by
  have : ∀ k x y, D^[k] (x + y) = D^[k] x + D^[k] y := by
    intro k
    induction k with
    | zero => intro x y; rfl
    | succ k ih => intro x y; simp only [Function.iterate_succ_apply, hD, ih]
  simp only [series, this, smul_add, Finset.sum_add_distrib]

theorem series_zero (D : R → R) (hD : D 0 = 0) (n : Nat) : series K D n 0 = 0 := by
  have : ∀ k, D^[k] 0 = 0 := fun k => Function.iterate_fixed hD k
  simp [series, this]

theorem series_evalSum (D : R → R) (hD : ∀ x y, D (x + y) = D x + D y) (n : Nat) (l : List (Expr K A)) :
    series K D n (evalSum I l) = (l.map fun e => series K D n (eval I e)).sum := by
  have h0 : D 0 = 0 := by have := hD 0 0; simpa using this
  induction l with
  | nil => simp [evalSum, series_zero D h0]
  | cons e l ih => rw [evalSum, series_add D hD, ih]; simp

theorem series_fixed (D : R → R) (h0 : D 0 = 0) (n : Nat) (x : R) (hx : D x = 0) : series K D n x = x := by
  rw [series, Finset.sum_range_succ', Finset.sum_eq_zero]
  · simp
  · intro k _
    rw [Function.iterate_succ_apply, hx, Function.iterate_fixed h0, smul_zero]

theorem stepD_scalar (u : Bool) (b bd : R) (c : K) : stepD u false b bd (algebraMap K R c) = 0 := by
  cases u <;> simp [stepD, ad, Algebra.commutes]

theorem mapM_map (f : Expr K A → Option (Expr K A)) (v : Expr K A → R) (l : List (Expr K A))
    (h : ∀ e ∈ l, ∀ r, f e = some r → eval I r = v e) (rs : List (Expr K A)) (hr : l.mapM f = some rs) :
    evalSum I rs = (l.map v).sum := by
  induction l generalizing rs with
  | nil => simp only [List.mapM_nil, Option.pure_def, Option.some.injEq] at hr; subst hr; rfl
  | cons e l ih =>
    simp only [List.mapM_cons, Option.bind_eq_bind, Option.bind_eq_some_iff, Option.pure_def, Option.some.injEq] at hr
    obtain ⟨r, h1, rs', h2, rfl⟩ := hr
    rw [evalSum, List.map_cons, List.sum_cons, h e (by simp) r h1, ih (fun e he => h e (by simp [he])) rs' h2]

/-- **C63** (explicit commutators, the default): whenever `lst` returns, its value is `Σ_{k ≤ n} (1/k!) [..[[A,S],S]..,S]` with
`S = B`, or `S = B - B⁺` if `unitary`, for every expression `A`. -/
theorem lst_value (hI : Interp K I) (P : Ops K A) (hP : Sound P I) (u : Bool) (B Bd : Expr K A) (n f : Nat) (skip : Bool)
    (e r : Expr K A) (h : lst P ⟨u, false⟩ B Bd n f skip e = some r) :
    eval I r = series K (ad (if u then eval I B - eval I Bd else eval I B)) n (eval I e) := by
  have hD : ∀ x, stepD u false (eval I B) (eval I Bd) x = ad (if u then eval I B - eval I Bd else eval I B) x := by
    intro x; cases u <;> rfl
  have hD' : stepD u false (eval I B) (eval I Bd) = ad (if u then eval I B - eval I Bd else eval I B) := funext hD
  have hadd := stepD_add u false (eval I B) (eval I Bd)
  have h0 : stepD u false (eval I B) (eval I Bd) 0 = 0 := by simpa using hadd 0 0
  rw [← hD']
  induction f generalizing skip e r with
  | zero => simp [lst] at h
  | succ f ih =>
    rw [lst] at h
    split at h
    · rename_i hn
      subst hn
      simp only [Option.some.injEq] at h
      subst h
      simp [series]
    · have hcl : eval I (if skip then e else clone e) = eval I e := by
        split
        · rfl
        · exact clone_val hI e
      rw [← hcl]
      generalize (if skip then e else clone e) = e' at h
      split at h
      · rename_i a
        split at h
        · exact transform_val hI P hP ⟨u, false⟩ B Bd n _ r rfl h
        · rename_i hop
          split at h
          · rename_i hv
            simp only [Option.some.injEq] at h
            subst h
            obtain ⟨c, hc⟩ := hP.var a (by simpa using hop) hv
            rw [series_fixed _ h0]
            rw [eval, hc, stepD_scalar]
          · simp at h
      · rename_i c l
        split at h
        · simp only [Option.bind_eq_bind, Option.bind_eq_some_iff] at h
          obtain ⟨e1, h1, e2, h2, h⟩ := h
          rw [ih true e2 r h, hP.simp _ _ h2, expand_val hI _ _ _ h1]
        · exact transform_val hI P hP ⟨u, false⟩ B Bd n _ r rfl h
      · rename_i ci l
        simp only [Option.bind_eq_bind, Option.bind_eq_some_iff] at h
        obtain ⟨rs, h1, h⟩ := h
        rw [hP.acc _ _ h, eval, series_evalSum _ hadd]
        exact mapM_map _ _ l (fun e _ r hr => ih true e r hr) rs h1
      · rename_i c
        simp only [Option.some.injEq] at h
        subst h
        rw [series_fixed _ h0]
        rw [eval, stepD_scalar]

/-- **C63**, in terms of the exponential: the value is the part of `e^(-S) A e^S` of order at most `n` in `S`. -/
theorem lst_campbell [CharZero K] (hI : Interp K I) (P : Ops K A) (hP : Sound P I) (u : Bool) (B Bd : Expr K A) (n f : Nat)
    (skip : Bool) (e r : Expr K A) (h : lst P ⟨u, false⟩ B Bd n f skip e = some r) :
    eval I r = ∑ k ∈ Finset.range (n + 1), order K (if u then eval I B - eval I Bd else eval I B) (eval I e) k := by
  rw [lst_value hI P hP u B Bd n f skip e r h]
  exact Finset.sum_congr rfl fun k _ => ad_pow _ _ k

/-- **C63**: for a nilpotent generator, a rank of at least `2 m - 2` gives the transformed operator itself. -/
theorem lst_exp [CharZero K] (hI : Interp K I) (P : Ops K A) (hP : Sound P I) (B Bd : Expr K A) (m n f : Nat)
    (skip : Bool) (e r : Expr K A) (hB : eval I B ^ m = 0) (hn : 2 * m ≤ n + 2) (h : lst P ⟨false, false⟩ B Bd n f skip e = some r) :
    eval I r = expTo K (-eval I B) m * eval I e * expTo K (eval I B) m := by
  rw [lst_value hI P hP false B Bd n f skip e r h]
  exact series_exp _ _ m n hB hn

/-! ### The connected form -/

mutual
/-- Made of operators and products without sums among the factors. -/
def ConnOk (P : Ops K A) : Expr K A → Prop
  | .const _ => False
  | .atom a => P.isOp a = true
  | .prod _ l => ∀ f ∈ l, f.isSum = false
  | .sum _ l => ConnOkL P l
def ConnOkL (P : Ops K A) : List (Expr K A) → Prop
  | [] => True
  | e :: l => ConnOk P e ∧ ConnOkL P l
end

theorem connOkL_mem {P : Ops K A} {l : List (Expr K A)} (h : ConnOkL P l) : ∀ e ∈ l, ConnOk P e := by
  induction l with
  | nil => simp
  | cons e l ih =>
    intro x hx
    simp only [List.mem_cons] at hx
    rcases hx with rfl | hx
    · exact h.1
    · exact ih h.2 x hx

/-- **C63, partial** (connected form): on expressions made of operators and sum-free products, each commutator `[X,B]` is replaced
by `X B` (and `[X,-B⁺]` by `B⁺ X`).  Missing: products that still contain sums, scalar terms (`lst_connected_scalar`). -/
theorem lst_connected_partial (hI : Interp K I) (P : Ops K A) (hP : Sound P I) (u : Bool) (B Bd : Expr K A) (n f : Nat)
    (e r : Expr K A) (he : ConnOk P e) (h : lst P ⟨u, true⟩ B Bd n f true e = some r) :
    eval I r = series K (stepD u true (eval I B) (eval I Bd)) n (eval I e) := by
  induction f generalizing e r with
  | zero => simp [lst] at h
  | succ f ih =>
    rw [lst] at h
    split at h
    · rename_i hn
      subst hn
      simp only [Option.some.injEq] at h
      subst h
      simp [series]
    · simp only [if_true] at h
      split at h
      · rename_i a
        rw [if_pos (by simpa [ConnOk] using he)] at h
        exact transform_val hI P hP ⟨u, true⟩ B Bd n _ r rfl h
      · rename_i c l
        rw [if_neg] at h
        · exact transform_val hI P hP ⟨u, true⟩ B Bd n _ r rfl h
        · simp only [List.any_eq_true, not_exists, not_and, Bool.not_eq_true]
          simpa [ConnOk] using he
      · rename_i ci l
        simp only [Option.bind_eq_bind, Option.bind_eq_some_iff] at h
        obtain ⟨rs, h1, h⟩ := h
        rw [hP.acc _ _ h, eval, series_evalSum _ (stepD_add u true _ _)]
        simp only [ConnOk] at he
        exact mapM_map _ _ l (fun e hm r hr => ih e r (connOkL_mem he e hm) hr) rs h1
      · simp [ConnOk] at he

/-! ### Completion -/

/-- What is assumed for completion: the functions called complete, and `simplify` leaves an expanded expression expanded. -/
structure Total (P : Ops K A) : Prop where
  simp : ∀ e, ∃ r, P.simp e = some r ∧ (e.Expanded → r.Expanded) ∧
    ∀ Q : A → Prop, AtomsIn Q e → AtomsIn Q r
  acc : ∀ l, ∃ r, P.acc l = some r

theorem transform_some (P : Ops K A) (hP : Total P) (o : Opts) (B Bd : Expr K A) (n : Nat) (e : Expr K A) :
    ∃ r, transform P o B Bd n e = some r := by
  suffices ∀ m k result op, ∃ r, loop P o B Bd m k result op = some r from this _ _ _ _
  intro m
  induction m with
  | zero => intro k result op; exact ⟨_, rfl⟩
  | succ m ih =>
    intro k result op
    obtain ⟨c, hc⟩ := comm_some o B Bd op
    obtain ⟨op', h1, _⟩ := hP.simp (mulE (.const ((1 : K) / (k : K))) c)
    obtain ⟨res', h2⟩ := addAssign_some result op'
    obtain ⟨r, hr⟩ := ih (k + 1) res' op'
    exact ⟨r, by simp only [loop, hc, Option.bind_eq_bind, Option.bind_some, h1, h2, hr]⟩

theorem mapM_some (f : Expr K A → Option (Expr K A)) (l : List (Expr K A)) (h : ∀ e ∈ l, ∃ r, f e = some r) :
    ∃ rs, l.mapM f = some rs := by
  induction l with
  | nil => exact ⟨[], rfl⟩
  | cons e l ih =>
    obtain ⟨r, h1⟩ := h e (by simp)
    obtain ⟨rs, h2⟩ := ih fun e he => h e (by simp [he])
    exact ⟨r :: rs, by simp [List.mapM_cons, h1, h2]⟩

theorem noSumL_any {l : List (Expr K A)} (h : noSumL l) : l.any Expr.isSum = false := by
  induction l with
  | nil => rfl
  | cons e l ih =>
    simp only [noSumL] at h
    simp only [List.any_cons, ih h.2, Bool.or_false]
    cases e <;> simp [Expr.noSum] at h <;> rfl

theorem lst_noSum (P : Ops K A) (hP : Total P) (o : Opts) (B Bd : Expr K A) (n f : Nat) (e : Expr K A) (he : e.noSum)
    (ha : AtomsIn (fun a => P.isOp a = true ∨ P.isVar a = true) e) : ∃ r, lst P o B Bd n (f + 1) true e = some r := by
  rw [lst]
  split
  · exact ⟨_, rfl⟩
  · simp only [if_true]
    cases e with
    | const c => exact ⟨_, rfl⟩
    | atom a =>
      simp only [AtomsIn] at ha
      dsimp only
      split
      · exact transform_some P hP o B Bd n _
      · rename_i h; rw [if_pos (ha.resolve_left h)]; exact ⟨_, rfl⟩
    | prod c l =>
      dsimp only
      rw [noSumL_any (by simpa [Expr.noSum] using he)]
      exact transform_some P hP o B Bd n _
    | sum ci l => simp [Expr.noSum] at he

theorem lst_expanded (P : Ops K A) (hP : Total P) (o : Opts) (B Bd : Expr K A) (n f : Nat) (e : Expr K A) (he : e.Expanded)
    (ha : AtomsIn (fun a => P.isOp a = true ∨ P.isVar a = true) e) : ∃ r, lst P o B Bd n (f + 2) true e = some r := by
  cases e with
  | sum ci l =>
    rw [lst]
    split
    · exact ⟨_, rfl⟩
    · simp only [if_true]
      simp only [AtomsIn, atomsInL_iff] at ha
      obtain ⟨rs, h1⟩ := mapM_some (lst P o B Bd n (f + 1) true) l fun x hx => lst_noSum P hP o B Bd n f x (he x hx) (ha x hx)
      obtain ⟨r, h2⟩ := hP.acc rs
      exact ⟨r, by simp only [h1, Option.bind_eq_bind, Option.bind_some, h2]⟩
  | const c => exact lst_noSum P hP o B Bd n (f + 1) _ he ha
  | atom c => exact lst_noSum P hP o B Bd n (f + 1) _ he ha
  | prod c l => exact lst_noSum P hP o B Bd n (f + 1) _ he ha

mutual
theorem lst_total_aux (hI : Interp K I) (P : Ops K A) (hP : Total P) (o : Opts) (B Bd : Expr K A) (n : Nat) (e : Expr K A)
    (ha : AtomsIn (fun a => P.isOp a = true ∨ P.isVar a = true) e) : ∃ N, ∀ f, N ≤ f → ∃ r, lst P o B Bd n f true e = some r := by
  match e with
  | .const c => exact ⟨1, fun f hf => by obtain ⟨g, rfl⟩ := Nat.exists_eq_add_of_le' hf; exact lst_noSum P hP o B Bd n g _ trivial ha⟩
  | .atom c => exact ⟨1, fun f hf => by obtain ⟨g, rfl⟩ := Nat.exists_eq_add_of_le' hf; exact lst_noSum P hP o B Bd n g _ trivial ha⟩
  | .prod c l =>
    obtain ⟨N, e1, hN, _, hE⟩ := expand_correct (I := I) hI (.prod c l : Expr K A)
    obtain ⟨e2, h2, hE2, hA2⟩ := hP.simp e1
    refine ⟨N + 3, fun f hf => ?_⟩
    obtain ⟨g, rfl⟩ : ∃ g, f = g + 3 := ⟨f - 3, by omega⟩
    rw [lst]
    split
    · exact ⟨_, rfl⟩
    · simp only [if_true]
      split
      · have h1 := hN (g + 2) (by omega)
        obtain ⟨r, hr⟩ := lst_expanded P hP o B Bd n g e2 (hE2 hE) (hA2 _ (expand_atoms _ _ _ h1 ha))
        exact ⟨r, by simp only [h1, h2, Option.bind_eq_bind, Option.bind_some, hr]⟩
      · exact transform_some P hP o B Bd n _
  | .sum ci l =>
    obtain ⟨N, hN⟩ := lstL_total_aux hI P hP o B Bd n l (by simpa [AtomsIn] using ha)
    refine ⟨N + 1, fun f hf => ?_⟩
    obtain ⟨g, rfl⟩ : ∃ g, f = g + 1 := ⟨f - 1, by omega⟩
    rw [lst]
    split
    · exact ⟨_, rfl⟩
    · simp only [if_true]
      obtain ⟨rs, h1⟩ := mapM_some (lst P o B Bd n g true) l fun x hx => hN g (by omega) x hx
      obtain ⟨r, h2⟩ := hP.acc rs
      exact ⟨r, by simp only [h1, Option.bind_eq_bind, Option.bind_some, h2]⟩
theorem lstL_total_aux (hI : Interp K I) (P : Ops K A) (hP : Total P) (o : Opts) (B Bd : Expr K A) (n : Nat) (l : List (Expr K A))
    (ha : AtomsInL (fun a => P.isOp a = true ∨ P.isVar a = true) l) :
    ∃ N, ∀ f, N ≤ f → ∀ e ∈ l, ∃ r, lst P o B Bd n f true e = some r := by
  match l with
  | [] => exact ⟨0, by simp⟩
  | e :: l =>
    simp only [AtomsInL] at ha
    obtain ⟨N1, h1⟩ := lst_total_aux hI P hP o B Bd n e ha.1
    obtain ⟨N2, h2⟩ := lstL_total_aux hI P hP o B Bd n l ha.2
    refine ⟨max N1 N2, fun f hf x hx => ?_⟩
    simp only [List.mem_cons] at hx
    rcases hx with rfl | hx
    · exact h1 f (by omega)
    · exact h2 f (by omega) x hx
end

/-- **C63** (completion): on expressions whose leaves are operators, variables and constants `lst` returns; in particular the
expansion of products of sums ends. -/
theorem lst_total (hI : Interp K I) (P : Ops K A) (hP : Total P) (o : Opts) (B Bd : Expr K A) (n : Nat) (skip : Bool) (e : Expr K A)
    (ha : AtomsIn (fun a => P.isOp a = true ∨ P.isVar a = true) e) : ∃ N, ∀ f, N ≤ f → ∃ r, lst P o B Bd n f skip e = some r := by
  cases skip with
  | true => exact lst_total_aux hI P hP o B Bd n e ha
  | false =>
    obtain ⟨N, hN⟩ := lst_total_aux hI P hP o B Bd n (clone e) (clone_atoms e ha)
    refine ⟨N + 1, fun f hf => ?_⟩
    obtain ⟨r, hr⟩ := hN f (by omega)
    obtain ⟨g, rfl⟩ : ∃ g, f = g + 1 := ⟨f - 1, by omega⟩
    rw [lst] at hr ⊢
    split
    · exact ⟨_, rfl⟩
    · rename_i hn
      simp only [hn, if_false, if_true] at hr
      exact ⟨r, by simpa using hr⟩

/-! ### `screen_vac_av` -/

/-- The average `V` sees neither a single operator nor a product that cannot change the quantum numbers by zero (C43). -/
structure Vacuum {M : Type} [AddCommGroup M] [Module K M] (P : Ops K A) (I : A → R) (V : R →ₗ[K] M) : Prop where
  op : ∀ a, P.isOp a = true → V (I a) = 0
  prod : ∀ c (l : List (Expr K A)), (∀ f ∈ l, f.isSum = false) → P.canChange (.prod c l) = false → V (eval I (.prod c l)) = 0

/-- **C64**: screening does not change the vacuum average. -/
theorem screen_value {M : Type} [AddCommGroup M] [Module K M] (hI : Interp K I) (P : Ops K A) (hP : Sound P I) (V : R →ₗ[K] M)
    (hV : Vacuum P I V) (f : Nat) (skip : Bool) (e r : Expr K A) (h : screen P f skip e = some r) : V (eval I r) = V (eval I e) := by
  induction f generalizing skip e r with
  | zero => simp [screen] at h
  | succ f ih =>
    rw [screen] at h
    have hcl : eval I (if skip then e else clone e) = eval I e := by
      split
      · rfl
      · exact clone_val hI e
    rw [← hcl]
    generalize (if skip then e else clone e) = e' at h
    split at h
    · rename_i a
      split at h
      · rename_i ho
        simp only [Option.some.injEq] at h
        subst h
        simp [eval, hV.op a ho]
      · split at h
        · simp only [Option.some.injEq] at h; subst h; rfl
        · simp at h
    · rename_i c l
      split at h
      · simp only [Option.bind_eq_bind, Option.bind_eq_some_iff] at h
        obtain ⟨e1, h1, e2, h2, h⟩ := h
        rw [ih true e2 r h, hP.simp _ _ h2, expand_val hI _ _ _ h1]
      · rename_i hs
        simp only [Option.some.injEq] at h
        subst h
        split
        · rfl
        · rename_i hc
          rw [hV.prod c l (by simpa using hs) (by simpa using hc)]
          simp [eval]
    · rename_i ci l
      simp only [Option.bind_eq_bind, Option.bind_eq_some_iff] at h
      obtain ⟨rs, h1, h⟩ := h
      rw [hP.acc _ _ h, eval]
      have : ∀ (l rs : List (Expr K A)), l.mapM (screen P f true) = some rs → V (evalSum I rs) = V (evalSum I l) := by
        intro l
        induction l with
        | nil => intro rs hr; simp only [List.mapM_nil, Option.pure_def, Option.some.injEq] at hr; subst hr; rfl
        | cons e l ihl =>
          intro rs hr
          simp only [List.mapM_cons, Option.bind_eq_bind, Option.bind_eq_some_iff, Option.pure_def, Option.some.injEq] at hr
          obtain ⟨r, h1, rs', h2, rfl⟩ := hr
          simp only [evalSum, map_add, ih true e r h1, ihl rs' h2]
      exact this l rs h1
    · simp only [Option.some.injEq] at h; subst h; rfl

end SeQuant.Lst
