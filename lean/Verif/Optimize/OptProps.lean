import Verif.Optimize.OptModel
import Verif.Optimize.NetProps
import Verif.Expression.BuildProps
import Verif.Expression.AccumProps
import Verif.Expression.AdjointProps

/-!
# Optimized expressions have the value of the original (C31)

Tensors commute, so interpretations are in commutative algebras.
-/

namespace SeQuant.Optimize

open SeQuant.Expression

section

variable {K A R : Type} [CommRing K] [DecidableEq K] [CommRing R] [Algebra K R] [Atoms K A] {I : A → R}

omit [DecidableEq K] [Atoms K A] in
theorem pAppend_no (cl : Expr K A → Expr K A) (st : PState K A) (e : Expr K A) (h : e.isConst = false) :
    pAppend cl .No st e = (st.1, st.2 ++ [cl e]) := by
  cases e <;> simp_all [pAppend, Expr.isConst]

theorem contractE_eq (l r : Expr K A) (hl : l.isConst = false) (hr : r.isConst = false) : contractE l r = mkProd .No 1 [clone l, clone r] := by
  unfold contractE
  simp [mkProd, pAppendAll, pAppend_no _ _ l hl, pAppend_no _ _ r hr]

theorem contractE_val (hI : Interp K I) (l r : Expr K A) (hl : l.isConst = false) (hr : r.isConst = false) :
    eval I (contractE l r) = eval I l * eval I r ∧ (contractE l r).isProd = true := by
  rw [contractE_eq l r hl hr]
  refine ⟨?_, rfl⟩
  rw [mkProd_val hI]
  simp [evalProd, clone_val hI]

omit [DecidableEq K] [Atoms K A] [CommRing K] in
theorem isProd_not_const (e : Expr K A) (h : e.isProd = true) : e.isConst = false := by
  cases e <;> simp_all [Expr.isProd, Expr.isConst]

/-- The expression that a contraction tree builds. -/
theorem seqLoop_rpn (hI : Interp K I) (tensors : List (Expr K A)) (hT : ∀ e ∈ tensors, e.isConst = false) (t : CTree) (ht : ∀ i ∈ t.leaves, i < tensors.length) :
    ∃ e, e.isConst = false ∧ (2 ≤ t.leaves.length → e.isProd = true) ∧
      eval I e = (t.leaves.map fun i => eval I (tensors.getD i (.const 0))).prod ∧
      ∀ rest s, seqLoop tensors (t.rpn ++ rest) s = seqLoop tensors rest (e :: s) := by
  induction t with
  | leaf i =>
    have hi := ht i (by simp [CTree.leaves])
    refine ⟨tensors[i], hT _ (List.getElem_mem hi), by simp [CTree.leaves], ?_, ?_⟩
    · simp [CTree.leaves, hi]
    · intro rest s
      have h1 : ((i : Int) ≠ -1) := by omega
      have h2 : ¬ ((i : Int) < 0) := by omega
      simp [CTree.rpn, seqLoop, h1, h2, hi]
  | node l r il ir =>
    obtain ⟨e1, a1, b1, c1, d1⟩ := il fun i h => ht i (by simp [CTree.leaves, h])
    obtain ⟨e2, a2, b2, c2, d2⟩ := ir fun i h => ht i (by simp [CTree.leaves, h])
    obtain ⟨v, p⟩ := contractE_val hI e1 e2 a1 a2
    refine ⟨contractE e1 e2, isProd_not_const _ p, fun _ => p, ?_, ?_⟩
    · rw [v, c1, c2]; simp [CTree.leaves]
    · intro rest s
      simp only [CTree.rpn, List.append_assoc]
      rw [d1, d2]
      simp [seqLoop]

/-- A scalar factor that `prepend` handles right: not a product, or a product without scalar of its own. -/
def PlainScalar : Expr K A → Prop
  | .prod c _ => c = 1
  | _ => True

theorem pPrepend_no_val (hI : Interp K I) (st : PState K A) (v : Expr K A) (hv : PlainScalar v) : pval I (pPrepend clone .No st v) = eval I v * pval I st := by
  cases v with
  | const c => simp only [pPrepend]; rw [pval_scale, mul_comm]; rfl
  | atom a => simp only [pPrepend]; rw [pval_cons, clone_val hI]
  | sum ci l => simp only [pPrepend]; rw [pval_cons, clone_val hI]
  | prod c l =>
    have : c = 1 := hv
    subst this
    simp only [pPrepend, if_true, mul_one]
    rw [pval_cons, clone_val hI]

theorem prependAll_val (hI : Interp K I) (vs : List (Expr K A)) (hv : ∀ v ∈ vs, PlainScalar v) (st : PState K A) :
    pval I (vs.foldl (fun st v => pPrepend clone .No st v) st) = (vs.map (eval I)).prod * pval I st := by
  induction vs generalizing st with
  | nil => simp
  | cons v vs ih =>
    rw [List.foldl_cons, ih (fun u hu => hv u (by simp [hu])), pPrepend_no_val hI st v (hv v (by simp))]
    simp only [List.map_cons, List.prod_cons]
    ring

omit [DecidableEq K] [Atoms K A] [CommRing K] in
theorem tensor_not_scalar (cls : A → Kind) (e : Expr K A) (h : isTensorE cls e = true) : isScalarE cls e = false ∧ e.isConst = false := by
  cases e with
  | atom a =>
    simp only [isTensorE, decide_eq_true_eq] at h
    simp [isScalarE, Expr.isConst, h]
  | const c => simp [isTensorE] at h
  | prod c l => simp [isTensorE] at h
  | sum ci l => simp [isTensorE] at h

omit [DecidableEq K] [Atoms K A] in
theorem prod_partition (cls : A → Kind) (l : List (Expr K A)) (h : ∀ f ∈ l, isTensorE cls f = true ∨ isScalarE cls f = true) :
    ((l.filter (isScalarE cls)).map (eval I)).prod * ((l.filter (isTensorE cls)).map (eval I)).prod = evalProd I l := by
  induction l with
  | nil => simp [evalProd]
  | cons f l ih =>
    have ih' := ih fun g hg => h g (by simp [hg])
    rcases h f (by simp) with hf | hf
    · have hs := (tensor_not_scalar cls f hf).1
      rw [List.filter_cons_of_neg (by simp [hs]), List.filter_cons_of_pos hf]
      simp only [List.map_cons, List.prod_cons, evalProd]
      rw [← ih']; ring
    · have ht : isTensorE cls f = false := by
        cases htf : isTensorE cls f with
        | false => rfl
        | true => rw [(tensor_not_scalar cls f htf).1] at hf; simp at hf
      rw [List.filter_cons_of_pos hf, List.filter_cons_of_neg (by simp [ht])]
      simp only [List.map_cons, List.prod_cons, evalProd]
      rw [← ih']; ring

/-- What the optimizer guarantees about its sequences. -/
def GoodSeq {B : Type} (seqOf : List B → Option (List Int)) : Prop :=
  ∀ ts : List B, ts ≠ [] → ∃ t : CTree, seqOf ts = some t.rpn ∧ t.leaves.Perm (List.range ts.length)

/-- **C31, partial**: a product of tensors and scalars with at least two tensors (or fewer than three factors) is optimized into an expression of the
same value, provided no scalar factor is a product with a scalar of its own.  Missing: the excluded cases, which fail, see below. -/
theorem singleTermExpr_val_partial (hI : Interp K I) (cls : A → Kind) (seqOf : List (Expr K A) → Option (List Int)) (hs : GoodSeq seqOf) (c : K)
    (l : List (Expr K A)) (hpure : ∀ f ∈ l, isTensorE cls f = true ∨ isScalarE cls f = true)
    (hplain : ∀ f ∈ l, isScalarE cls f = true → PlainScalar f) (h2 : l.length < 3 ∨ 2 ≤ (l.filter (isTensorE cls)).length) :
    ∃ e, singleTermExpr cls seqOf c l = some e ∧ eval I e = eval I (.prod c l) := by
  unfold singleTermExpr
  by_cases h3 : l.length < 3
  · rw [if_pos h3]
    exact ⟨_, rfl, mkProd_val hI _ _ _⟩
  · rw [if_neg h3]
    have h2' : 2 ≤ (l.filter (isTensorE cls)).length := by omega
    simp only
    have hne : l.filter (isTensorE cls) ≠ [] := by intro h; rw [h] at h2'; simp at h2'
    obtain ⟨t, e1, hp⟩ := hs _ hne
    have hlt : ∀ i ∈ t.leaves, i < (l.filter (isTensorE cls)).length := fun i hi => List.mem_range.mp (hp.mem_iff.mp hi)
    obtain ⟨e, a, b, v, d⟩ := seqLoop_rpn hI (l.filter (isTensorE cls))
      (fun f hf => (tensor_not_scalar cls f (List.mem_filter.mp hf).2).2) t hlt
    have hlen := hp.length_eq
    rw [List.length_range] at hlen
    have hprod := b (by omega)
    have hd := d [] []
    simp only [List.append_nil, seqLoop] at hd
    rw [e1]
    simp only [hd]
    cases e with
    | const _ => simp [Expr.isProd] at hprod
    | atom _ => simp [Expr.isProd] at hprod
    | sum _ _ => simp [Expr.isProd] at hprod
    | prod c0 fs =>
      refine ⟨_, rfl, ?_⟩
      simp only [eval]
      have hv := prependAll_val hI (l.reverse.filter (isScalarE cls))
        (fun f hf => by
          rw [List.mem_filter, List.mem_reverse] at hf
          exact hplain f hf.1 hf.2) (c0, fs)
      have hrev : ((l.reverse.filter (isScalarE cls)).map (eval I)).prod = ((l.filter (isScalarE cls)).map (eval I)).prod := by
        rw [List.filter_reverse, List.map_reverse]
        exact (List.reverse_perm _).prod_eq
      have hT : pval I (c0, fs) = ((l.filter (isTensorE cls)).map (eval I)).prod := by
        have : pval I (c0, fs) = eval I (.prod c0 fs) := by simp only [pval, eval]
        rw [this, v, (hp.map _).prod_eq]
        congr 1
        apply List.ext_getElem
        · simp
        · intro i h1 h2
          simp only [List.length_map, List.length_range] at h1
          simp [h1]
      rw [hrev, hT, prod_partition cls l hpure] at hv
      generalize hst : (l.reverse.filter (isScalarE cls)).foldl (fun st v => pPrepend clone .No st v) (c0, fs) = st at hv
      simp only [pval] at hv
      rw [mul_comm, mul_smul, hv]

/-- Fewer than two tensors among three or more factors: the function has no result. -/
theorem singleTermExpr_none (hI : Interp K I) (cls : A → Kind) (seqOf : List (Expr K A) → Option (List Int)) (hs : GoodSeq seqOf) (h0 : seqOf [] = some []) (c : K)
    (l : List (Expr K A)) (h3 : 3 ≤ l.length) (h2 : (l.filter (isTensorE cls)).length < 2) : singleTermExpr cls seqOf c l = none := by
  unfold singleTermExpr
  rw [if_neg (by omega)]
  simp only
  cases hf : l.filter (isTensorE cls) with
  | nil => rw [h0]; simp [seqLoop]
  | cons x xs =>
    rw [hf] at h2
    have hx : xs = [] := by
      cases xs with
      | nil => rfl
      | cons y ys => simp only [List.length_cons] at h2; omega
    subst hx
    obtain ⟨t, e1, hp⟩ := hs [x] (by simp)
    have hlen := hp.length_eq
    have hxt : isTensorE cls x = true := (List.mem_filter.mp (hf ▸ List.mem_cons_self)).2
    cases t with
    | node a b =>
      have := a.leaves_pos
      have := b.leaves_pos
      simp only [CTree.leaves, List.length_append, List.length_range, List.length_singleton] at hlen
      omega
    | leaf i =>
      have hi : i ∈ List.range 1 := hp.mem_iff.mp (by simp [CTree.leaves])
      rw [List.mem_range] at hi
      have : i = 0 := by omega
      subst this
      rw [e1]
      cases x <;> simp_all [CTree.rpn, seqLoop, isTensorE]

/-- **C31, partial** (whatever the numbers of tensors): if there is a result, it has the value of the product. -/
theorem singleTermExpr_some_partial (hI : Interp K I) (cls : A → Kind) (seqOf : List (Expr K A) → Option (List Int)) (hs : GoodSeq seqOf) (h0 : seqOf [] = some [])
    (c : K) (l : List (Expr K A)) (hpure : ∀ f ∈ l, isTensorE cls f = true ∨ isScalarE cls f = true)
    (hplain : ∀ f ∈ l, isScalarE cls f = true → PlainScalar f) (e : Expr K A) (h : singleTermExpr cls seqOf c l = some e) :
    eval I e = eval I (.prod c l) := by
  by_cases h2 : l.length < 3 ∨ 2 ≤ (l.filter (isTensorE cls)).length
  · obtain ⟨e', h1, h2⟩ := singleTermExpr_val_partial hI cls seqOf hs c l hpure hplain h2
    rw [h] at h1
    simp only [Option.some.injEq] at h1
    rw [h1]; exact h2
  · rw [singleTermExpr_none hI cls seqOf hs h0 c l (by omega) (by omega)] at h
    simp at h

/-! ### Placeholders -/

omit [CommRing K] [DecidableEq K] [Atoms K A] in
theorem liftL_eq (l : List (Expr K A)) : liftL l = l.map liftE := by
  induction l with
  | nil => rfl
  | cons e l ih => simp [liftL, ih]

/-- Placeholder `i` stands for the value of factor `i`. -/
def placed (I : A → R) (orig : List (Expr K A)) : A ⊕ Nat → R
  | .inl a => I a
  | .inr i => eval I (orig.getD i (.const 0))

omit [DecidableEq K] in
theorem placed_interp (hI : Interp K I) (orig : List (Expr K A)) : Interp K (placed I orig) where
  zero := by
    intro a h
    cases a with
    | inl a => exact hI.zero a h
    | inr i => simp [Atoms.isZero] at h
  flat_const := by
    intro a c h
    cases a with
    | inr i => simp [Atoms.flat] at h
    | inl a =>
      simp only [Atoms.flat, Option.map_eq_some_iff] at h
      obtain ⟨y, h1, h2⟩ := h
      cases y with
      | inl d => simp only [Sum.inl.injEq] at h2; subst h2; exact hI.flat_const a d h1
      | inr b => simp at h2
  flat_atom := by
    intro a c h
    cases a with
    | inr i => simp [Atoms.flat] at h
    | inl a =>
      simp only [Atoms.flat, Option.map_eq_some_iff] at h
      obtain ⟨y, h1, h2⟩ := h
      cases y with
      | inl d => simp at h2
      | inr b => simp only [Sum.inr.injEq] at h2; subst h2; exact hI.flat_atom a b h1

omit [DecidableEq K] [Atoms K A] in
mutual
theorem liftE_val (orig : List (Expr K A)) (e : Expr K A) : eval (placed I orig) (liftE e) = eval I e := by
  match e with
  | .const c => simp [liftE, eval]
  | .atom a => simp [liftE, eval, placed]
  | .prod c l => simp [liftE, eval, (liftL_val orig l).1]
  | .sum ci l => simp [liftE, eval, (liftL_val orig l).2]
theorem liftL_val (orig l : List (Expr K A)) : evalProd (placed I orig) (liftL l) = evalProd I l ∧ evalSum (placed I orig) (liftL l) = evalSum I l := by
  match l with
  | [] => simp [liftL, evalProd, evalSum]
  | e :: l => simp [liftL, evalProd, evalSum, liftE_val orig e, (liftL_val orig l).1, (liftL_val orig l).2]
end

omit [CommRing K] [DecidableEq K] [Atoms K A] in
theorem lift_isTensor (cls : A → Kind) (e : Expr K A) : isTensorE (kindP cls) (liftE e) = isTensorE cls e := by
  cases e <;> simp [liftE, isTensorE, kindP] <;> rfl

omit [CommRing K] [DecidableEq K] [Atoms K A] in
mutual
theorem lift_isScalar (cls : A → Kind) (e : Expr K A) : isScalarE (kindP cls) (liftE e) = isScalarE cls e := by
  match e with
  | .const c => simp [liftE, isScalarE]
  | .atom a => simp only [liftE, isScalarE, kindP]; rfl
  | .prod c l => simp only [liftE, isScalarE, lift_allScalar cls l]; rw [liftL_eq]; cases l <;> rfl
  | .sum ci l => simp only [liftE, isScalarE, lift_allScalar cls l]; rw [liftL_eq]; cases l <;> rfl
theorem lift_allScalar (cls : A → Kind) (l : List (Expr K A)) : allScalar (kindP cls) (liftL l) = allScalar cls l := by
  match l with
  | [] => simp [liftL, allScalar]
  | e :: l => simp [liftL, allScalar, lift_isScalar cls e, lift_allScalar cls l]
end

omit [CommRing K] [DecidableEq K] [Atoms K A] in
theorem lift_shape (e : Expr K A) : (liftE e).isProd = e.isProd ∧ (liftE e).isConst = e.isConst ∧ (liftE e).isSum = e.isSum := by
  cases e <;> simp [liftE, Expr.isProd, Expr.isConst, Expr.isSum]

theorem lift_isZero (e : Expr K A) : (liftE e).isZero = e.isZero := by
  cases e <;> simp [liftE, Expr.isZero, Atoms.isZero]

mutual
theorem lift_norm (e : Expr K A) (h : Norm e) : Norm (liftE e) := by
  match e with
  | .const c => trivial
  | .atom a => trivial
  | .prod c l => simp only [liftE, Norm] at h ⊢; exact lift_normP l h
  | .sum ci l =>
    simp only [liftE, Norm] at h ⊢
    refine ⟨lift_normS l h.1, ?_⟩
    rcases h.2 with ⟨h1, h2⟩ | ⟨p, c, q, h1, h2, h3, h4⟩
    · refine .inl ⟨h1, ?_⟩
      intro e he
      rw [liftL_eq, List.mem_map] at he
      obtain ⟨e', he', rfl⟩ := he
      rw [(lift_shape e').2.1]; exact h2 e' he'
    · refine .inr ⟨liftL p, c, liftL q, ?_, ?_, ?_, ?_⟩
      · rw [h1, liftL_eq, liftL_eq, liftL_eq]; simp [liftE]
      · rw [h2, liftL_eq]; simp
      · intro e he
        rw [liftL_eq, List.mem_map] at he
        obtain ⟨e', he', rfl⟩ := he
        rw [(lift_shape e').2.1]; exact h3 e' he'
      · intro e he
        rw [liftL_eq, List.mem_map] at he
        obtain ⟨e', he', rfl⟩ := he
        rw [(lift_shape e').2.1]; exact h4 e' he'
theorem lift_normP (l : List (Expr K A)) (h : NormP l) : NormP (liftL l) := by
  match l with
  | [] => trivial
  | e :: l =>
    simp only [liftL, NormP] at h ⊢
    rw [(lift_shape e).1, (lift_shape e).2.1]
    exact ⟨⟨lift_norm e h.1.1, h.1.2⟩, lift_normP l h.2⟩
theorem lift_normS (l : List (Expr K A)) (h : NormS l) : NormS (liftL l) := by
  match l with
  | [] => trivial
  | e :: l =>
    simp only [liftL, NormS] at h ⊢
    rw [(lift_shape e).2.2, lift_isZero]
    exact ⟨⟨lift_norm e h.1.1, h.1.2⟩, lift_normS l h.2⟩
end

/-- The factors of the auxiliary product: constants are absorbed, the rest stays. -/
theorem mkProd_no_norm (c : K) (l : List (Expr K A)) (h : ∀ f ∈ l, Norm f) : ∃ c', mkProd .No c l = .prod c' (l.filter fun f => !f.isConst) := by
  unfold mkProd
  have gen : ∀ (l : List (Expr K A)) (st : PState K A), (∀ f ∈ l, Norm f) → ∃ c', pAppendAll clone .No st l = (c', st.2 ++ l.filter fun f => !f.isConst) := by
    intro l
    induction l with
    | nil => intro st _; exact ⟨st.1, by simp [pAppendAll]⟩
    | cons f l ih =>
      intro st hl
      rw [pAppendAll]
      obtain ⟨c', e⟩ := ih (pAppend clone .No st f) fun g hg => hl g (by simp [hg])
      refine ⟨c', ?_⟩
      rw [e]
      cases hc : f.isConst with
      | false => rw [pAppend_no _ _ f hc, clone_norm f (hl f (by simp)), List.filter_cons_of_pos (by simp [hc])]; simp
      | true =>
        rw [List.filter_cons_of_neg (by simp [hc])]
        cases f <;> simp_all [pAppend, Expr.isConst]
  obtain ⟨c', e⟩ := gen l (c, []) h
  exact ⟨c', by rw [e]; simp⟩

/-- Factors that the optimizer can handle: scalar factors are normalised and are not products with a scalar of their own. -/
def OkFactors (cls : A → Kind) (l : List (Expr K A)) : Prop := ∀ f ∈ l, isScalarE cls f = true → Norm f ∧ PlainScalar f

theorem placeholders_ok (cls : A → Kind) (l : List (Expr K A)) (h : OkFactors cls l) : ∀ i, ∀ f ∈ placeholders cls i l,
    Norm f ∧ (isTensorE (kindP cls) f = true ∨ isScalarE (kindP cls) f = true) ∧ (isScalarE (kindP cls) f = true → PlainScalar f) := by
  induction l with
  | nil => intro i f hf; simp [placeholders] at hf
  | cons g l ih =>
    intro i f hf
    rw [placeholders, List.mem_cons] at hf
    rcases hf with rfl | hf
    · by_cases hg : (isTensorE cls g || isScalarE cls g) = true
      · rw [if_pos hg]
        rw [lift_isTensor, lift_isScalar]
        refine ⟨?_, by simpa using hg, ?_⟩
        · apply lift_norm
          rw [Bool.or_eq_true] at hg
          rcases hg with hg | hg
          · cases g <;> simp_all [isTensorE, Norm]
          · exact (h g (by simp) hg).1
        · intro hs
          have := (h g (by simp) hs).2
          cases g <;> simp_all [PlainScalar, liftE]
      · rw [if_neg hg]
        exact ⟨trivial, .inl (by simp [isTensorE, kindP]), fun _ => trivial⟩
    · exact ih (fun f hf => h f (by simp [hf])) (i + 1) f hf

omit [DecidableEq K] [Atoms K A] in
theorem placeholders_val (cls : A → Kind) (orig : List (Expr K A)) : ∀ (pre l : List (Expr K A)), orig = pre ++ l →
    evalProd (placed I orig) (placeholders cls pre.length l) = evalProd I l := by
  intro pre l
  induction l generalizing pre with
  | nil => intro _; simp [placeholders, evalProd]
  | cons g l ih =>
    intro he
    rw [placeholders, evalProd, evalProd]
    have := ih (pre ++ [g]) (by simp [he])
    simp only [List.length_append, List.length_singleton] at this
    rw [this]
    congr 1
    by_cases hg : (isTensorE cls g || isScalarE cls g) = true
    · rw [if_pos hg, liftE_val]
    · rw [if_neg hg]
      simp [eval, placed, he]

omit [CommRing K] [DecidableEq K] [Atoms K A] in
theorem getD_of_getElem? (l : List (Expr K A)) (i : Nat) (x y : Expr K A) (h : l[i]? = some x) : l.getD i y = x := by
  simp [List.getD, h]

mutual
theorem unplace_val (hI : Interp K I) (orig : List (Expr K A)) (e : Expr K (A ⊕ Nat)) (e' : Expr K A) (h : unplace clone orig e = some e') :
    eval I e' = eval (placed I orig) e := by
  match e with
  | .const c => simp only [unplace, Option.some.injEq] at h; subst h; simp [eval]
  | .atom (.inl a) => simp only [unplace, Option.some.injEq] at h; subst h; simp [eval, placed]
  | .atom (.inr i) =>
    simp only [unplace, Option.map_eq_some_iff] at h
    obtain ⟨x, h1, rfl⟩ := h
    rw [clone_val hI]
    simp only [eval, placed]
    rw [getD_of_getElem? _ _ _ _ h1]
  | .prod c l =>
    simp only [unplace, Option.map_eq_some_iff] at h
    obtain ⟨x, h1, rfl⟩ := h
    simp only [eval, (unplaceL_val hI orig l x h1).1]
  | .sum ci l =>
    simp only [unplace, Option.map_eq_some_iff] at h
    obtain ⟨x, h1, rfl⟩ := h
    simp only [eval, (unplaceL_val hI orig l x h1).2]
theorem unplaceL_val (hI : Interp K I) (orig : List (Expr K A)) (l : List (Expr K (A ⊕ Nat))) (l' : List (Expr K A)) (h : unplaceL clone orig l = some l') :
    evalProd I l' = evalProd (placed I orig) l ∧ evalSum I l' = evalSum (placed I orig) l := by
  match l with
  | [] => simp only [unplaceL, Option.some.injEq] at h; subst h; simp [evalProd, evalSum]
  | e :: l =>
    simp only [unplaceL] at h
    split at h
    · rename_i e' l'' h1 h2
      simp only [Option.some.injEq] at h
      subst h
      have a := unplace_val hI orig e e' h1
      have b := unplaceL_val hI orig l l'' h2
      simp [evalProd, evalSum, a, b.1, b.2]
    · simp at h
end

/-- **C31, partial** (products with sums or other factors): if there is a result, it has the value of the product. -/
theorem optMixed_val_partial (hI : Interp K I) (cls : A → Kind) (seqOf : List (Expr K (A ⊕ Nat)) → Option (List Int)) (hs : GoodSeq seqOf) (h0 : seqOf [] = some [])
    (c : K) (l : List (Expr K A)) (hok : OkFactors cls l) (e : Expr K A) (h : optMixed cls seqOf c l = some e) : eval I e = eval I (.prod c l) := by
  unfold optMixed at h
  have ok := placeholders_ok cls l hok 0
  obtain ⟨c', hm⟩ := mkProd_no_norm c (placeholders cls 0 l) fun f hf => (ok f hf).1
  rw [hm] at h
  simp only [Option.bind_eq_some_iff] at h
  obtain ⟨x, h1, h2⟩ := h
  have hJ := placed_interp hI l
  have v1 := singleTermExpr_some_partial hJ (kindP cls) seqOf hs h0 c' _ (fun f hf => (ok f (List.mem_filter.mp hf).1).2.1)
    (fun f hf => (ok f (List.mem_filter.mp hf).1).2.2) x h1
  rw [unplace_val hI l x e h2, v1, ← hm, mkProd_val hJ]
  have := placeholders_val (I := I) cls l [] l rfl
  simp only [List.length_nil] at this
  rw [this, eval]

mutual
/-- Every product in a sum satisfies `OkFactors`. -/
def OkExpr (cls : A → Kind) : Expr K A → Prop
  | .prod _ l => OkFactors cls l
  | .sum _ l => OkExprs cls l
  | _ => True
def OkExprs (cls : A → Kind) : List (Expr K A) → Prop
  | [] => True
  | e :: l => OkExpr cls e ∧ OkExprs cls l
end

mutual
/-- **C31, partial**: if `optimize` (without reordering) returns an expression, it has the value of the original one, for every expression all of whose
products satisfy `OkFactors`. -/
theorem optE_val_partial (hI : Interp K I) (cls : A → Kind) (seqOf : List (Expr K A) → Option (List Int)) (hs : GoodSeq seqOf) (h0 : seqOf [] = some [])
    (seqOf' : List (Expr K (A ⊕ Nat)) → Option (List Int)) (hs' : GoodSeq seqOf') (h0' : seqOf' [] = some []) (e e' : Expr K A) (hok : OkExpr cls e)
    (h : optE cls seqOf seqOf' e = some e') : eval I e' = eval I e := by
  match e with
  | .const c => simp only [optE, Option.some.injEq] at h; subst h; exact clone_val hI _
  | .atom a => simp only [optE, Option.some.injEq] at h; subst h; exact clone_val hI _
  | .prod c l =>
    simp only [optE] at h
    simp only [OkExpr] at hok
    split at h
    · rename_i hp
      rw [List.all_eq_true] at hp
      exact singleTermExpr_some_partial hI cls seqOf hs h0 c l (fun f hf => by simpa using hp f hf) (fun f hf hsc => (hok f hf hsc).2) e' h
    · exact optMixed_val_partial hI cls seqOf' hs' h0' c l hok e' h
  | .sum ci l =>
    simp only [optE] at h
    simp only [OkExpr] at hok
    split at h
    · simp at h
    · rename_i l' hl
      have := optL_val_partial hI cls seqOf hs h0 seqOf' hs' h0' l l' hok hl
      split at h
      · rename_i st hst
        simp only [Option.some.injEq] at h
        subst h
        rw [moveOnly_val_partial hI l' st hst, this, eval]
      · simp at h
theorem optL_val_partial (hI : Interp K I) (cls : A → Kind) (seqOf : List (Expr K A) → Option (List Int)) (hs : GoodSeq seqOf) (h0 : seqOf [] = some [])
    (seqOf' : List (Expr K (A ⊕ Nat)) → Option (List Int)) (hs' : GoodSeq seqOf') (h0' : seqOf' [] = some []) (l l' : List (Expr K A)) (hok : OkExprs cls l)
    (h : optL cls seqOf seqOf' l = some l') : evalSum I l' = evalSum I l := by
  match l with
  | [] => simp only [optL, Option.some.injEq] at h; subst h; rfl
  | e :: l =>
    simp only [optL] at h
    simp only [OkExprs] at hok
    split at h
    · rename_i e1 l1 h1 h2
      simp only [Option.some.injEq] at h
      subst h
      rw [evalSum, evalSum, optE_val_partial hI cls seqOf hs h0 seqOf' hs' h0' e e1 hok.1 h1, optL_val_partial hI cls seqOf hs h0 seqOf' hs' h0' l l1 hok.2 h2]
    · simp at h
end

end

/-! ### The sequences of the optimizer -/

/-- **C31**: the optimizer of networks, for whatever slots, objective and parameters, provides such sequences (for up to `w` tensors; beyond that the
table of subsets would not fit). -/
theorem singleTermSeq_good {B ι : Type} [DecidableEq ι] (w : Nat) (o : Objective) (sz : Sizes ι) (p : CostParams w) (slots : B → List ι)
    (default : List B → List Int) (hd : ∀ ts, ts ≠ [] → ∃ t : CTree, default ts = t.rpn ∧ t.leaves.Perm (List.range ts.length)) :
    GoodSeq fun ts : List B => if ts.length ≤ w then singleTermSeq w o sz p (ts.map slots) else some (default ts) := by
  intro ts hne
  have hpos : 0 < (ts.map slots).length := by
    rw [List.length_map]; exact List.length_pos_of_ne_nil hne
  by_cases hw : ts.length ≤ w
  · simp only [if_pos hw]
    have hnt : (ts.map slots).length ≤ w := by simpa using hw
    unfold singleTermSeq
    simp only
    rw [show BitVec.ofNat w (2 ^ (ts.map slots).length - 1) = fullMask w (ts.map slots).length from rfl]
    obtain ⟨h1, h2⟩ := connectivity_splittable (adjacency (ts.map slots) [] : Nat → BitVec w) (adjacency_symm _ [] hnt) p.prune
      (fullMask w (ts.map slots).length) (ts.map slots).length hnt
    obtain ⟨t, a, b, -⟩ := runAdditive_optimal (contractionCost o sz p (subsetTargets (ts.map slots) []
      (outerProductConnectivity (adjacency (ts.map slots) []) p.prune (fullMask w (ts.map slots).length)))) (contractionCost_symm o sz p _) _
      (ts.map slots).length hpos hnt h1 h2 ⟨fun _ => 0, fun _ => 0⟩
    refine ⟨t, a, ?_⟩
    rw [List.length_map] at b
    exact b
  · simp only [if_neg hw]
    obtain ⟨t, a, b⟩ := hd ts hne
    exact ⟨t, by rw [a], b⟩

/-! ### Failures -/

namespace OptInst

/-- Leaves: tensors `t i` and scalars `s i`. -/
inductive At
  | t (i : Nat)
  | s (i : Nat)
deriving DecidableEq

instance : Atoms Int At where
  isZero _ := false
  flat _ := none

def cls : At → Kind
  | .t _ => .tensor
  | .s _ => .scalar

def val : At → Int
  | .t i => (i : Int) + 2
  | .s i => (i : Int) + 7

abbrev E := Expr Int At

/-- Contract the tensors from left to right. -/
def ltrSeq (ts : List E) : Option (List Int) :=
  match ts with
  | [] => some []
  | _ :: rest => some (0 :: (List.range rest.length).flatMap fun i => [(i : Int) + 1, -1])

theorem val_interp : Interp Int val where
  zero := by intro a h; simp [Atoms.isZero] at h
  flat_const := by intro a c h; simp [Atoms.flat] at h
  flat_atom := by intro a c h; simp [Atoms.flat] at h

/-- **C31 fails**: the scalar of a scalar product that was kept as a factor is counted twice. -/
theorem singleTermExpr_scalar_twice : ∃ e, singleTermExpr cls ltrSeq 1 ([.prod 2 [.atom (.s 0)], .atom (.t 0), .atom (.t 1)] : List E) = some e ∧
    eval val e = 2 * eval val (.prod 1 [.prod 2 [.atom (.s 0)], .atom (.t 0), .atom (.t 1)] : E) ∧ eval val e ≠ 0 := by
  refine ⟨.prod 2 [.prod 2 [.atom (.s 0)], .atom (.t 0), .atom (.t 1)], by rfl, by decide +kernel, by decide +kernel⟩

/-- **C31 fails**: two scalars times one tensor is no product after the loop (assertion failure). -/
theorem singleTermExpr_one_tensor : singleTermExpr cls ltrSeq 1 ([.atom (.s 0), .atom (.s 1), .atom (.t 0)] : List E) = none := by rfl

/-- **C31 fails**: three scalars leave nothing on the stack (undefined behaviour). -/
theorem singleTermExpr_no_tensor : singleTermExpr cls ltrSeq 1 ([.atom (.s 0), .atom (.s 1), .atom (.s 2)] : List E) = none := by rfl

example : ∃ e, singleTermExpr cls ltrSeq 3 ([.atom (.s 0), .atom (.t 0), .atom (.t 1), .atom (.t 2)] : List E) = some e ∧
    eval val e = eval val (.prod 3 [.atom (.s 0), .atom (.t 0), .atom (.t 1), .atom (.t 2)] : E) := by
  refine ⟨.prod 3 [.atom (.s 0), .prod 1 [.atom (.t 0), .atom (.t 1)], .atom (.t 2)], by rfl, by decide +kernel⟩

end OptInst

end SeQuant.Optimize
