import Verif.Spin.TraceCases
import Verif.Expression.AtomProps

/-!
# C55: `spintrace` is the sum over all spin assignments
-/

namespace SeQuant.Spins

open SeQuant.Expression SeQuant.Perm SeQuant.Sort
open SeQuant.Tensors (Sym)

/-- Tensors and variables. -/
def NoOper {ι : Type} : Atm ι → Prop
  | .oper _ => False
  | _ => True

section
variable {K ι R : Type} [SpinIx ι] [Field K] [DecidableEq K] [Ring R] [Algebra K R]

/-! ## Simplification of a product of leaves -/

/-- A product of leaves, simplified. -/
def reduced (c : K) : List (Expr K (Atm ι)) → Expr K (Atm ι) × Bool
  | [] => (.const c, true)
  | [f] => if c = 1 then (f, true) else (.prod c [f], false)
  | f :: g :: l => (.prod c (f :: g :: l), false)

omit [SpinIx ι] in
theorem loop_atom (n : Nat) (a : Atm ι) : loop simplifyStep (n + 1) (.atom a : Expr K (Atm ι)) = some (.atom a) := by
  simp [loop, simplifyStep]
omit [SpinIx ι] in
theorem loop_const (n : Nat) (c : K) : loop simplifyStep (n + 1) (.const c : Expr K (Atm ι)) = some (.const c) := by
  simp [loop, simplifyStep]

omit [SpinIx ι] in
theorem rapidSimplify_leafy (n : Nat) (c : K) (l : List (Expr K (Atm ι))) (hl : ∀ f ∈ l, leafy f = true) :
    rapidSimplify (n + 2) (.prod c l) = some (if c = 0 then .const 0 else (reduced c l).1) := by
  have hv : visitL (loop simplifyStep (n + 2)) l = some l := by
    induction l with
    | nil => rfl
    | cons f l ih =>
      have hf := hl f (by simp)
      match f with
      | .atom a =>
        simp only [visitL, visit, loop_atom, ih (fun g hg => hl g (by simp [hg])), Option.bind_eq_bind, Option.bind_some, pure]
      | .const c => simp [leafy] at hf
      | .prod c l => simp [leafy] at hf
      | .sum c l => simp [leafy] at hf
  have hs : scanFactors l = (l, false) := by
    clear hv
    induction l with
    | nil => rfl
    | cons f l ih =>
      have hf := hl f (by simp)
      match f with
      | .atom a =>
        simp only [scanFactors, flatAtom, ih (fun g hg => hl g (by simp [hg]))]
        rfl
      | .const c => simp [leafy] at hf
      | .prod c l => simp [leafy] at hf
      | .sum c l => simp [leafy] at hf
  have hstep : simplifyStep (.prod c l) = (if c = 0 then (.const 0, true) else reduced c l) := by
    simp only [simplifyStep, simplifyProduct, hs, Bool.false_eq_true, if_false]
    match l with
    | [] => rfl
    | [f] => rfl
    | f :: g :: l => rfl
  simp only [rapidSimplify, visit, hv, Option.bind_eq_bind, Option.bind_some]
  rw [loop, hstep]
  by_cases h0 : c = 0
  · simp only [h0, if_true]; exact loop_const n 0
  · simp only [h0, if_false]
    match l, hl with
    | [], _ => simp only [reduced, if_true]; exact loop_const n c
    | [f], hl =>
      by_cases h1 : c = 1
      · have hf := hl f (by simp)
        match f with
        | .atom a => simp only [reduced, h1, if_true]; exact loop_atom n a
        | .const c => simp [leafy] at hf
        | .prod c l => simp [leafy] at hf
        | .sum c l => simp [leafy] at hf
      · simp [reduced, h1]
    | f :: g :: l, _ => simp [reduced]

/-! ## What is needed of the tensors, and of the interpretations -/

/-- `Istar` evaluates the result, `W` the terms before the spin labels are removed, `V` gives the value of a labelled tensor that satisfies
`C`. -/
structure TraceSem (K : Type) [Field K] [DecidableEq K] [Algebra K R] (spinfree : Bool) (Istar W V : Atm ι → R) (C : Tn ι → Prop) : Prop where
  rem : ∀ r : Expr K (Atm ι), FlatSum r → AtomsIn NoOper r → ∃ r', maybeRemove spinfree r = .ok r' ∧ eval Istar r' = eval W r
  tens : ∀ t, C t → ∃ b e, canExpand t = .ok b ∧ (b = false → V (.tens t) = 0) ∧ (expandAntisymmT false t : Res (Expr K (Atm ι))) = .ok e ∧
    (b = true → eval W e = V (.tens t))
  var : ∀ n, W (.var n) = V (.var n) ∧ Istar (.var n) = V (.var n)

theorem expandAntisymmT_flat (t : Tn ι) (e : Expr K (Atm ι)) (h : expandAntisymmT false t = .ok e) : FlatSum e ∧ AtomsIn NoOper e := by
  by_cases h1 : t.bra.length ≤ 1
  · simp only [expandAntisymmT, h1, if_true] at h
    split at h
    · exact absurd h (by simp)
    · cases h; exact ⟨trivial, trivial⟩
  · by_cases h2 : t.sym = .antisymm
    · obtain ⟨ms, rfl, -⟩ := expandAntisymmT_shape t e h2 (by omega) h
      constructor
      · intro f hf
        obtain ⟨p, -, rfl⟩ := List.mem_map.mp hf
        intro g hg
        simp only [List.mem_singleton] at hg
        exact ⟨_, hg⟩
      · simp only [AtomsIn, atomsInL_iff]
        intro f hf
        obtain ⟨p, -, rfl⟩ := List.mem_map.mp hf
        exact ⟨trivial, trivial⟩
    · simp only [expandAntisymmT, h1, h2, if_false, Bool.false_and, Bool.false_eq_true] at h
      split at h
      · exact absurd h (by simp)
      · cases h; exact ⟨trivial, trivial⟩

theorem traceTensor_sem {spinfree : Bool} {Istar W V : Atm ι → R} {C : Tn ι → Prop} (hs : TraceSem K spinfree Istar W V C) (t : Tn ι)
    (ht : C t) : ∃ r : Expr K (Atm ι), traceTensor t = .ok r ∧ eval W r = V (.tens t) ∧ FlatSum r ∧ AtomsIn NoOper r := by
  obtain ⟨b, e, h1, h2, h3, h4⟩ := hs.tens t ht
  unfold traceTensor
  rw [h1]
  cases b with
  | true =>
    obtain ⟨f1, f2⟩ := expandAntisymmT_flat t e h3
    exact ⟨e, by simp [bind, Except.bind, h3], h4 rfl, f1, f2⟩
  | false => exact ⟨.const 0, by simp [bind, Except.bind, pure, Except.pure], by simp [eval, h2 rfl], trivial, trivial⟩

/-- The loops of `spintrace_product`. -/
theorem traceLoops {spinfree : Bool} {Istar W V : Atm ι → R} {C : Tn ι → Prop} (hs : TraceSem K spinfree Istar W V C)
    (l : List (Expr K (Atm ι))) (hl : ∀ f ∈ l, leafy f = true) (ht : ∀ t, Expr.atom (.tens t) ∈ l → C t) :
    (∃ b, allExpand l = .ok b ∧ (b = false → evalProd V l = 0)) ∧
    ∃ fs, traceFactors l = .ok fs ∧ evalProd W fs = evalProd V l ∧ AtomsInL NoOper fs := by
  induction l with
  | nil => exact ⟨⟨true, rfl, by simp⟩, [], rfl, rfl, trivial⟩
  | cons f l ih =>
    obtain ⟨⟨b, h1, h2⟩, fs, h3, h4, h5⟩ := ih (fun g hg => hl g (by simp [hg])) (fun t h => ht t (by simp [h]))
    have hf := hl f (by simp)
    match f with
    | .atom (.tens t) =>
      obtain ⟨b', e, j1, j2, j3, j4⟩ := hs.tens t (ht t (by simp))
      obtain ⟨r, k1, k2, -, k4⟩ := traceTensor_sem hs t (ht t (by simp))
      refine ⟨?_, r :: fs, by simp only [traceFactors, k1, h3, bind, Except.bind, pure, Except.pure], ?_, k4, h5⟩
      · cases b' with
        | true => exact ⟨b, by simp [allExpand, j1, h1, bind, Except.bind], fun hb => by simp [evalProd, h2 hb]⟩
        | false =>
          exact ⟨false, by simp [allExpand, j1, bind, Except.bind, pure, Except.pure], fun _ => by simp [evalProd, eval, j2 rfl]⟩
      · simp only [evalProd, h4, k2, eval]
    | .atom (.var n) =>
      refine ⟨⟨b, by simp only [allExpand, h1], fun hb => by simp [evalProd, h2 hb]⟩, .atom (.var n) :: fs,
        by simp only [traceFactors, h3, bind, Except.bind, pure, Except.pure], ?_, trivial, h5⟩
      simp only [evalProd, h4, eval, (hs.var n).1]
    | .atom (.oper n) => simp [leafy] at hf
    | .const c => simp [leafy] at hf
    | .prod c l => simp [leafy] at hf
    | .sum c l => simp [leafy] at hf

theorem traceProd_sem {spinfree : Bool} {Istar W V : Atm ι → R} {C : Tn ι → Prop} (hs : TraceSem K spinfree Istar W V C)
    (c : K) (l : List (Expr K (Atm ι))) (hl : ∀ f ∈ l, leafy f = true) (ht : ∀ t, Expr.atom (.tens t) ∈ l → C t) :
    ∃ N, ∀ fuel, N ≤ fuel → ∃ r : Expr K (Atm ι), traceProd fuel c l = .ok r ∧ eval W r = c • evalProd V l ∧ FlatSum r ∧ AtomsIn NoOper r := by
  obtain ⟨⟨b, h1, h2⟩, fs, h3, h4, h5⟩ := traceLoops hs l hl ht
  cases b with
  | false =>
    refine ⟨0, fun fuel _ => ⟨.const 0, ?_, by simp [eval, h2 rfl], trivial, trivial⟩⟩
    simp [traceProd, h1, bind, Except.bind, pure, Except.pure]
  | true =>
    obtain ⟨N, e, he, hv, hx⟩ := expand_correct (interp W) (mkProd .Recursively c fs)
    refine ⟨max N (wt e + 1), fun fuel hf => ?_⟩
    have he' := he fuel (by omega)
    obtain ⟨r, hr, hv', -⟩ := rapidSimplify_correct (interp W) e fuel (by omega)
    refine ⟨r, ?_, ?_, ?_, ?_⟩
    · simp [traceProd, h1, h3, bind, Except.bind, he', hr, ofOption]
    · rw [hv', hv, mkProd_val (interp W), h4]
    · exact rapidSimplify_flat fuel e r hr hx
    · refine rapidSimplify_atoms (fun a b _ h => ?_) fuel e r hr (expand_atoms fuel _ e he' (mkProd_atoms _ _ _ h5))
      exact absurd h (by simp [Atoms.flat])

/-- One spin case. -/
theorem traceCase_sem {spinfree : Bool} {Istar W V : Atm ι → R} {C : Tn ι → Prop} (hs : TraceSem K spinfree Istar W V C)
    (m : List (ι × ι)) (c : K) (l : List (Expr K (Atm ι))) (hl : ∀ f ∈ l, leafy f = true)
    (ht : ∀ t, Expr.atom (.tens t) ∈ l → C (t.transform m)) :
    ∃ N, ∀ fuel, N ≤ fuel → ∃ rs, traceCase fuel spinfree (.prod c l) m c l = .ok rs ∧
      (rs.map (eval Istar)).sum = c • evalProd V (l.map (transformF m)) := by
  have hplain : l.all plain = true := by
    rw [List.all_eq_true]
    intro f hf
    have := hl f hf
    match f with
    | .atom (.tens t) => rfl
    | .atom (.var n) => rfl
    | .atom (.oper n) => simp [leafy] at this
    | .const c => rfl
    | .prod c l => simp [leafy] at this
    | .sum c l => simp [leafy] at this
  have hl' := leafy_map (K := K) m l hl
  have ht' : ∀ t, Expr.atom (.tens t) ∈ l.map (transformF m) → C t := by
    intro t h
    obtain ⟨f, hf, e⟩ := List.mem_map.mp h
    have := hl f hf
    match f with
    | .atom (.tens u) => simp only [transformF, Expr.atom.injEq, Atm.tens.injEq] at e; rw [← e]; exact ht u hf
    | .atom (.var n) => simp [transformF] at e
    | .atom (.oper n) => simp [leafy] at this
    | .const c => simp [leafy] at this
    | .prod c l => simp [leafy] at this
    | .sum c l => simp [leafy] at this
  obtain ⟨N, hN⟩ := traceProd_sem hs c (l.map (transformF m)) hl' ht'
  refine ⟨N + 2, fun fuel hf => ?_⟩
  obtain ⟨n, rfl⟩ : ∃ n, fuel = n + 2 := ⟨fuel - 2, by omega⟩
  have happ : appendSpin m c l = .ok (.prod c (l.map (transformF m))) := by
    simp [appendSpin, hplain, mkProd_leafy _ c _ hl']
  have hrs := rapidSimplify_leafy n c (l.map (transformF m)) hl'
  -- the product is traced
  have prodCase : rapidSimplify (n + 2) (.prod c (l.map (transformF m))) = some (.prod c (l.map (transformF m))) →
      ∃ rs, traceCase (n + 2) spinfree (.prod c l) m c l = .ok rs ∧ (rs.map (eval Istar)).sum = c • evalProd V (l.map (transformF m)) := by
    intro h
    obtain ⟨r, h1, h2, h3, h4⟩ := hN (n + 2) (by omega)
    obtain ⟨r', h5, h6⟩ := hs.rem r h3 h4
    by_cases hz : isZeroConst r = true
    · refine ⟨[], by simp [traceCase, happ, h, ofOption, bind, Except.bind, h1, hz, pure, Except.pure], ?_⟩
      rw [← h2]
      match r with
      | .const d => simp only [isZeroConst, decide_eq_true_eq] at hz; simp [eval, hz]
      | .atom a => simp [isZeroConst] at hz
      | .prod c l => simp [isZeroConst] at hz
      | .sum c l => simp [isZeroConst] at hz
    · refine ⟨[r'], by simp [traceCase, happ, h, ofOption, bind, Except.bind, h1, hz, h5, pure, Except.pure], ?_⟩
      simp [h6, h2]
  by_cases h0 : c = 0
  · have hE : rapidSimplify (n + 2) (.prod c (l.map (transformF m))) = some (.const 0) := by rw [hrs, if_pos h0]
    refine ⟨[.prod c l], by simp only [traceCase, happ, hE, ofOption, bind, Except.bind, pure, Except.pure], ?_⟩
    simp [eval, h0]
  · rw [if_neg h0] at hrs
    match l, hl, ht, hrs, happ, prodCase with
    | [], _, _, hrs, happ, _ =>
      simp only [List.map_nil, reduced] at hrs happ
      refine ⟨[.prod c []], by simp only [traceCase, happ, hrs, ofOption, bind, Except.bind, pure, Except.pure], ?_⟩
      simp [eval, evalProd]
    | [f], hl, ht, hrs, happ, prodCase =>
      by_cases h1 : c = 1
      · have hf := hl f (by simp)
        simp only [List.map_cons, List.map_nil, reduced, h1, if_true] at hrs happ ⊢
        match f with
        | .atom (.tens t) =>
          obtain ⟨r, k1, k2, k3, k4⟩ := traceTensor_sem hs (t.transform m) (ht t (by simp))
          obtain ⟨r', h5, h6⟩ := hs.rem r k3 k4
          simp only [transformF] at hrs happ
          refine ⟨[r'], ?_, ?_⟩
          · simp only [traceCase, happ, hrs, ofOption, bind, Except.bind, pure, Except.pure, k1, h5]
          · simp [h6, k2, evalProd, transformF, eval]
        | .atom (.var x) =>
          simp only [transformF] at hrs happ
          refine ⟨[.prod 1 [.atom (.var x)]], ?_, ?_⟩
          · simp only [traceCase, happ, hrs, ofOption, bind, Except.bind, pure, Except.pure]
          · simp [evalProd, transformF, eval, (hs.var x).2]
        | .atom (.oper n) => simp [leafy] at hf
        | .const c => simp [leafy] at hf
        | .prod c l => simp [leafy] at hf
        | .sum c l => simp [leafy] at hf
      · exact prodCase (by rw [hrs]; simp [h1, reduced])
    | f :: g :: l, _, _, hrs, happ, prodCase => exact prodCase (by rw [hrs]; simp [reduced])

theorem traceCases_sem {spinfree : Bool} {Istar W V : Atm ι → R} {C : Tn ι → Prop} (hs : TraceSem K spinfree Istar W V C)
    (gs : List (List ι)) (c : K) (l : List (Expr K (Atm ι))) (hl : ∀ f ∈ l, leafy f = true) (ks : List Nat)
    (ht : ∀ k ∈ ks, ∀ t, Expr.atom (.tens t) ∈ l → C (t.transform (replacements gs k))) :
    ∃ N, ∀ fuel, N ≤ fuel → ∃ rs, traceCases fuel spinfree (.prod c l) gs c l ks = .ok rs ∧
      (rs.map (eval Istar)).sum = (ks.map fun k => c • evalProd (V ∘ Atm.map (get (replacements gs k))) l).sum := by
  induction ks with
  | nil => exact ⟨0, fun fuel _ => ⟨[], rfl, rfl⟩⟩
  | cons k ks ih =>
    obtain ⟨N, hN⟩ := ih (fun k hk => ht k (by simp [hk]))
    obtain ⟨M, hM⟩ := traceCase_sem hs (replacements gs k) c l hl (ht k (by simp))
    refine ⟨max N M, fun fuel hf => ?_⟩
    obtain ⟨rs, h1, h2⟩ := hN fuel (by omega)
    obtain ⟨r, h3, h4⟩ := hM fuel (by omega)
    refine ⟨r ++ rs, by simp only [traceCases, h1, h3, bind, Except.bind, pure, Except.pure], ?_⟩
    rw [List.map_append, List.sum_append, h2, h4, List.map_cons, List.sum_cons, transform_val V _ l hl]

/-- `trace_product` for any of the two modes. -/
theorem traceProduct_sem {spinfree : Bool} {Istar W V : Atm ι → R} {C : Tn ι → Prop} (hs : TraceSem K spinfree Istar W V C)
    (ext : List (List ι)) (c : K) (l : List (Expr K (Atm ι))) (hl : ∀ f ∈ l, leafy f = true) (he : ExtOk ext l)
    (hg : (spinGroups ext l).length < 64)
    (ht : ∀ t, Expr.atom (.tens t) ∈ l → ∀ s : Assign (usedL l).toFinset ext, ∀ m, get m = s.label → C (t.transform m)) :
    ∃ N, ∀ fuel, N ≤ fuel → ∃ r, traceProduct fuel spinfree ext c l = .ok r ∧ eval Istar r = trace V ext c l := by
  have hC : ∀ k ∈ List.range (2 ^ (spinGroups ext l).length), ∀ t, Expr.atom (.tens t) ∈ l →
      C (t.transform (replacements (spinGroups ext l) k)) := by
    intro k _ t h
    obtain ⟨h1, -, -, -⟩ := spinGroups_spec ext l he
    refine ht t h (assignEquiv ext l he (caseAssign _ h1 k)) _ ?_
    rw [assignEquiv_label, caseAssign_label]
  obtain ⟨N, hN⟩ := traceCases_sem hs (spinGroups ext l) c l hl _ hC
  refine ⟨N, fun fuel hf => ?_⟩
  obtain ⟨rs, h1, h2⟩ := hN fuel hf
  refine ⟨mkSum rs, ?_, ?_⟩
  · simp only [traceProduct, clone_leafy c l hl, not_le.mpr hg, if_false, h1, bind, Except.bind, pure, Except.pure]
  · rw [mkSum_val (interp Istar), evalSum_eq, h2]
    exact sum_spinGroups ext l he (fun f => c • evalProd (V ∘ Atm.map f) l)

/-! ## Spin labels are kept -/

/-- Columns that conserve spin have as many α in the bra as in the ket. -/
theorem count_zip (b k : List ι) (hl : b.length = k.length) (h : ∀ p ∈ b.zip k, SpinIx.spin p.1 = SpinIx.spin p.2) :
    b.countP (fun i => decide (SpinIx.spin i = .alpha)) = k.countP (fun i => decide (SpinIx.spin i = .alpha)) := by
  induction b generalizing k with
  | nil => cases k with
    | nil => rfl
    | cons y k => simp at hl
  | cons x b ih => cases k with
    | nil => simp at hl
    | cons y k =>
      have h1 := h (x, y) (by simp)
      simp only at h1
      rw [List.countP_cons, List.countP_cons, ih k (by simpa using hl) (fun p hp => h p (by simp [hp])), h1]

/-- Labelled tensors that can be expanded. -/
structure Labelled (t : Tn ι) : Prop where
  square : t.bra.length = t.ket.length
  distinct : t.bra.Nodup ∧ t.ket.Nodup
  spins : ∀ i ∈ t.bra ++ t.ket, SpinIx.spin i ≠ .any
  sym : t.sym ≠ .symm ∨ t.bra.length ≤ 1

/-- A tensor with different numbers of α in bra and ket vanishes. -/
theorem unbalanced {I : Atm ι → R} (hI : SpinInterp I) (t : Tn ι) (ht : Labelled t)
    (h : t.bra.countP (fun i => decide (SpinIx.spin i = .alpha)) ≠ t.ket.countP (fun i => decide (SpinIx.spin i = .alpha))) :
    I (.tens t) = 0 := by
  have key : ∀ b k : List ι, b.length = k.length →
      b.countP (fun i => decide (SpinIx.spin i = .alpha)) ≠ k.countP (fun i => decide (SpinIx.spin i = .alpha)) →
      ∀ lab aux, I (.tens ⟨lab, b, k, aux, .nonsymm⟩) = 0 := by
    intro b k hl hne lab aux
    apply hI.spin
    by_contra hc
    push Not at hc
    exact hne (count_zip b k hl hc)
  obtain ⟨lab, b, k, aux, sym⟩ := t
  have hsq : b.length = k.length := ht.square
  by_cases h1 : b.length ≤ 1
  · rw [hI.one _ _ _ _ _ hsq h1]
    exact key b k hsq h _ _
  · cases sym with
    | nonsymm => exact key b k hsq h _ _
    | symm => exact absurd rfl (ht.sym.resolve_right h1)
    | antisymm =>
      have e1 : b = List.ofFn b.get := (List.ofFn_get b).symm
      have e2 : k = List.ofFn (fun i : Fin b.length => k.get (i.cast hsq)) := by
        apply List.ext_getElem
        · simp [hsq]
        · intro i h1 h2; simp
      have := hI.anti b.length b.get (fun i => k.get (i.cast hsq)) lab aux
      rw [← e1, ← e2] at this
      rw [this]
      refine Finset.sum_eq_zero fun π _ => ?_
      have hp : (List.ofFn (b.get ∘ π)).Perm b := by
        conv_rhs => rw [e1]
        exact π.ofFn_comp_perm _
      rw [key _ k (by simp [hsq]) (by rw [hp.countP_eq]; exact h), mul_zero]

omit [SpinIx ι] [Field K] [DecidableEq K] [Ring R] [Algebra K R] in
theorem any_false {P : ι → Bool} (l : List ι) (h : ∀ i ∈ l, P i = false) : l.any P = false := by
  rw [List.any_eq_false]; intro i hi; simp [h i hi]

omit [Ring R] [Algebra K R] in
theorem labelled_run (t : Tn ι) (ht : Labelled t) :
    canExpand t = .ok (decide (t.bra.countP (fun i => decide (SpinIx.spin i = .alpha)) =
      t.ket.countP (fun i => decide (SpinIx.spin i = .alpha)))) ∧
    ∃ e, (expandAntisymmT false t : Res (Expr K (Atm ι))) = .ok e := by
  constructor
  · unfold canExpand
    rw [if_neg (not_not.mpr ht.square), any_false _ (fun i hi => by simpa using ht.spins i hi)]
    simp
  · exact (expandAntisymmT_total false t).mpr ht.square

theorem keep_sem {I : Atm ι → R} (hI : SpinInterp I) : TraceSem K false I I I Labelled where
  rem r _ _ := ⟨r, rfl, rfl⟩
  tens t ht := by
    obtain ⟨h1, e, h2⟩ := labelled_run (K := K) t ht
    refine ⟨_, e, h1, fun h => unbalanced hI t ht (of_decide_eq_false h), h2, fun _ => ?_⟩
    exact expandAntisymmT_value_partial hI false t e ht.distinct.1 ht.distinct.2 h2
  var _ := ⟨rfl, rfl⟩

/-! ## Spin labels are removed -/

/-- Forget the spin labels. -/
def forget (I0 : Atm ι → R) : Atm ι → R
  | .tens t => I0 (.tens t.spinFree)
  | a => I0 a

omit [DecidableEq K] in
theorem removeSpinF_sem (I0 : Atm ι → R) (l : List (Expr K (Atm ι))) (hl : ∀ f ∈ l, ∃ a, f = .atom a) (ho : AtomsInL NoOper l) :
    ∃ l', removeSpinF l = .ok l' ∧ evalProd I0 l' = evalProd (forget I0) l := by
  induction l with
  | nil => exact ⟨[], rfl, rfl⟩
  | cons f l ih =>
    obtain ⟨l', h1, h2⟩ := ih (fun g hg => hl g (by simp [hg])) ho.2
    obtain ⟨a, rfl⟩ := hl f (by simp)
    match a with
    | .tens t =>
      exact ⟨.atom (.tens t.spinFree) :: l', by simp only [removeSpinF, h1, bind, Except.bind, pure, Except.pure],
        by simp only [evalProd, eval, h2, forget]⟩
    | .var n =>
      exact ⟨.atom (.var n) :: l', by simp only [removeSpinF, h1, bind, Except.bind, pure, Except.pure],
        by simp only [evalProd, eval, h2, forget]⟩
    | .oper n => exact absurd ho.1 (by simp [AtomsIn, NoOper])

theorem removeSpin_term (I0 : Atm ι → R) (e : Expr K (Atm ι)) (he : FlatTerm e) (ho : AtomsIn NoOper e) :
    ∃ r, removeSpin e = .ok r ∧ eval I0 r = eval (forget I0) e := by
  match e with
  | .const c => exact ⟨.const c, by simp only [removeSpin], rfl⟩
  | .atom (.tens t) => exact ⟨.atom (.tens t.spinFree), by simp only [removeSpin], rfl⟩
  | .atom (.var n) => exact ⟨.atom (.var n), by simp only [removeSpin], rfl⟩
  | .atom (.oper n) => exact absurd ho (by simp [AtomsIn, NoOper])
  | .prod c l =>
    obtain ⟨l', h1, h2⟩ := removeSpinF_sem I0 l he ho
    refine ⟨mkProd .Recursively c l', by simp only [removeSpin, h1, bind, Except.bind, pure, Except.pure], ?_⟩
    rw [mkProd_val (interp I0), h2, eval]
  | .sum _ _ => exact absurd he (by simp [FlatTerm])

theorem removeSpin_sum (I0 : Atm ι → R) (e : Expr K (Atm ι)) (he : FlatSum e) (ho : AtomsIn NoOper e) :
    ∃ r, removeSpin e = .ok r ∧ eval I0 r = eval (forget I0) e := by
  match e with
  | .const c => exact removeSpin_term I0 _ he ho
  | .atom a => exact removeSpin_term I0 _ he ho
  | .prod c l => exact removeSpin_term I0 _ he ho
  | .sum ci l =>
    have hL : ∀ l : List (Expr K (Atm ι)), (∀ f ∈ l, FlatTerm f) → AtomsInL NoOper l →
        ∃ l', removeSpinL l = .ok l' ∧ evalSum I0 l' = evalSum (forget I0) l := by
      intro l
      induction l with
      | nil => exact fun _ _ => ⟨[], by simp only [removeSpinL], rfl⟩
      | cons f l ih =>
        intro hl ho
        obtain ⟨l', h1, h2⟩ := ih (fun g hg => hl g (by simp [hg])) ho.2
        obtain ⟨r, h3, h4⟩ := removeSpin_term I0 f (hl f (by simp)) ho.1
        exact ⟨r :: l', by simp only [removeSpinL, h1, h3, bind, Except.bind, pure, Except.pure], by simp only [evalSum, h2, h4]⟩
    obtain ⟨l', h1, h2⟩ := hL l he ho
    refine ⟨mkSum l', by simp only [removeSpin, h1, bind, Except.bind, pure, Except.pure], ?_⟩
    rw [mkSum_val (interp I0), h2, eval]

/-- Labelled tensors that can be expanded before the labels are removed. -/
structure LabelledFree (t : Tn ι) : Prop where
  labelled : Labelled t
  sym : t.sym = .antisymm ∨ t.bra.length ≤ 1

theorem forget_block (I0 : Atm ι → R) (u : Tn ι) (hs : u.sym = .nonsymm) (hm : msConserving u = true) :
    forget I0 (.tens u) = block I0 (.tens u) := by
  have hc : ∀ p ∈ u.bra.zip u.ket, SpinIx.spin p.1 = SpinIx.spin p.2 := by
    intro p hp
    simp only [msConserving, List.all_eq_true, decide_eq_true_eq] at hm
    exact hm p hp
  simp only [forget, block, hs, block0, if_pos hc]
  rw [Tn.spinFree, hs]

theorem remove_sem {I0 : Atm ι → R} (hc : Cols I0) : TraceSem K true I0 (forget I0) (block I0) LabelledFree where
  rem r h1 h2 := removeSpin_sum I0 r h1 h2
  tens t ht := by
    have hI := block_interp hc
    obtain ⟨h1, e, h2⟩ := labelled_run (K := K) t ht.labelled
    refine ⟨_, e, h1, fun h => unbalanced hI t ht.labelled (of_decide_eq_false h), h2, fun h => ?_⟩
    have h := of_decide_eq_true h
    rw [← expandAntisymmT_value_partial hI false t e ht.labelled.distinct.1 ht.labelled.distinct.2 h2]
    by_cases hr : t.bra.length ≤ 1
    · have hsq := ht.labelled.square
      have he : e = .atom (.tens { t with sym := .nonsymm }) := by
        simp only [expandAntisymmT, ne_eq, hsq, not_true, if_false] at h2
        rw [if_pos (by omega)] at h2
        exact (Except.ok.inj h2).symm
      rw [he, eval, eval]
      refine forget_block I0 _ rfl ?_
      simp only [msConserving, List.all_eq_true, decide_eq_true_eq]
      have hsp := ht.labelled.spins
      obtain ⟨lab, b, k, aux, sym⟩ := t
      simp only at hsq h hr hsp ⊢
      match b, k with
      | [], _ => simp
      | [x], [y] =>
        have hx := hsp x (by simp)
        have hy := hsp y (by simp)
        simp only [List.countP_cons, List.countP_nil] at h
        intro p hp
        simp only [List.zip_cons_cons, List.zip_nil_right, List.mem_singleton] at hp
        rw [hp]
        simp only
        cases e1 : SpinIx.spin x <;> cases e2 : SpinIx.spin y <;> simp_all
      | [x], [] => simp at hsq
      | _ :: _ :: _, _ => simp at hr
    · obtain ⟨ms, rfl, hms⟩ := expandAntisymmT_shape t e (ht.sym.resolve_right hr) (by omega) h2
      rw [eval, eval]
      clear h2
      induction ms with
      | nil => rfl
      | cons p ms ih =>
        have hp := hms p (by simp)
        simp only [List.map_cons, evalSum, ih (fun q hq => hms q (by simp [hq])), eval, evalProd, forget_block I0 p.2 hp.2.1 hp.2.2.2.2]
  var _ := ⟨rfl, rfl⟩

/-! ## `spintrace` -/

/-- Tensors without spin labels that can be traced. -/
structure Unlabelled (spinfree : Bool) (t : Tn ι) : Prop where
  square : t.bra.length = t.ket.length
  distinct : t.bra.Nodup ∧ t.ket.Nodup
  aux : t.aux = []
  free : ∀ i ∈ t.bra ++ t.ket, SpinIx.spin i = .any
  sym : t.bra.length ≤ 1 ∨ t.sym = .antisymm ∨ (spinfree = false ∧ t.sym = .nonsymm)

theorem label_ok {spinfree : Bool} (t : Tn ι) (ht : Unlabelled spinfree t) {U : Finset ι} (hU : ∀ i ∈ t.bra ++ t.ket, i ∈ U)
    {ext : List (List ι)} (s : Assign U ext) (m : List (ι × ι)) (hm : get m = s.label) :
    Labelled (t.transform m) ∧ (spinfree = true → LabelledFree (t.transform m)) := by
  have hnd : ∀ l : List ι, (∀ i ∈ l, SpinIx.spin i = .any) → l.Nodup → (l.map s.label).Nodup := by
    intro l hl hn
    refine List.Nodup.map_on (fun x hx y hy e => ?_) hn
    have := congrArg (SpinIx.setSpin · .any) e
    simpa only [free_label s x (hl x hx), free_label s y (hl y hy)] using this
  have hlab : Labelled (t.transform m) := by
    refine ⟨by simp [Tn.transform, ht.square], ⟨?_, ?_⟩, ?_, ?_⟩
    · rw [Tn.transform, hm]; exact hnd _ (fun i hi => ht.free i (by simp [hi])) ht.distinct.1
    · rw [Tn.transform, hm]; exact hnd _ (fun i hi => ht.free i (by simp [hi])) ht.distinct.2
    · intro i hi
      simp only [Tn.transform, hm, ← List.map_append] at hi
      obtain ⟨j, hj, rfl⟩ := List.mem_map.mp hi
      rw [Assign.label, dif_pos (hU j hj), SpinIx.spin_set]
      split <;> simp
    · rcases ht.sym with h | h | h
      · right; simpa [Tn.transform] using h
      · left; simp [Tn.transform, h]
      · left; simp [Tn.transform, h.2]
  refine ⟨hlab, fun hs => ⟨hlab, ?_⟩⟩
  rcases ht.sym with h | h | h
  · right; simpa [Tn.transform] using h
  · left; simp [Tn.transform, h]
  · exact absurd h.1 (by simp [hs])

omit [SpinIx ι] [Field K] [DecidableEq K] [Ring R] [Algebra K R] in
theorem mem_usedL (l : List (Expr K (Atm ι))) (t : Tn ι) (h : Expr.atom (.tens t) ∈ l) (i : ι) (hi : i ∈ t.bra ++ t.ket) : i ∈ usedL l := by
  induction l with
  | nil => simp at h
  | cons f l ih =>
    rcases List.mem_cons.mp h with e | e
    · rw [← e, usedL, List.append_assoc]; exact List.mem_append_left _ hi
    · match f with
      | .atom (.tens u) => rw [usedL]; exact List.mem_append_right _ (ih e)
      | .atom (.var n) => rw [usedL]; exact ih e; simp
      | .atom (.oper n) => rw [usedL]; exact ih e; simp
      | .const c => rw [usedL]; exact ih e; simp
      | .prod c l => rw [usedL]; exact ih e; simp
      | .sum c l => rw [usedL]; exact ih e; simp

/-- Products that can be traced: the tensors are traceable, and there are fewer than 64 spins to choose. -/
structure TraceOk (spinfree : Bool) (ext : List (List ι)) (l : List (Expr K (Atm ι))) : Prop where
  tensors : ∀ t, Expr.atom (.tens t) ∈ l → Unlabelled spinfree t
  groups : ExtOk ext l
  small : ((usedL l).toFinset.filter (· ∉ ext.flatten)).card + ext.length < 64

omit [Field K] [DecidableEq K] [Ring R] [Algebra K R] in
theorem groups_length (ext : List (List ι)) (l : List (Expr K (Atm ι))) :
    (spinGroups ext l).length = ((usedL l).toFinset.filter (· ∉ ext.flatten)).card + ext.length := by
  simp only [spinGroups, List.length_append, List.length_map, Nat.add_right_cancel_iff]
  have hn : (setOf (usedL l)).Nodup := (setOf_spec (usedL l)).1.imp fun h => ne_of_lt h
  rw [← List.toFinset_card_of_nodup (hn.filter _)]
  congr 1
  ext i
  simp [mem_setOf]

/-- What the result of `spintrace` is compared with: the values of spin orbitals, or the closed-shell values. -/
noncomputable def target (spinfree : Bool) (I : Atm ι → R) : Atm ι → R := if spinfree then block I else I

/-- What is assumed about the values. -/
def Sound (spinfree : Bool) (I : Atm ι → R) : Prop := if spinfree then Cols I else SpinInterp I

/-- **C55 (partial), products.** -/
theorem traceProduct_value_partial (spinfree : Bool) (I : Atm ι → R) (hI : Sound spinfree I) (ext : List (List ι)) (c : K)
    (l : List (Expr K (Atm ι))) (hl : ∀ f ∈ l, leafy f = true) (h : TraceOk spinfree ext l) :
    ∃ N, ∀ fuel, N ≤ fuel → ∃ r, traceProduct fuel spinfree ext c l = .ok r ∧ eval I r = trace (target spinfree I) ext c l := by
  have hg : (spinGroups ext l).length < 64 := by rw [groups_length]; exact h.small
  have hlab : ∀ t, Expr.atom (.tens t) ∈ l → ∀ s : Assign (usedL l).toFinset ext, ∀ m, get m = s.label →
      Labelled (t.transform m) ∧ (spinfree = true → LabelledFree (t.transform m)) := fun t ht s m hm =>
    label_ok t (h.tensors t ht) (fun i hi => List.mem_toFinset.mpr (mem_usedL l t ht i hi)) s m hm
  cases spinfree with
  | false => exact traceProduct_sem (keep_sem hI) ext c l hl h.groups hg fun t ht s m hm => (hlab t ht s m hm).1
  | true => exact traceProduct_sem (remove_sem hI) ext c l hl h.groups hg fun t ht s m hm => (hlab t ht s m hm).2 rfl

theorem traceSummands_value (spinfree : Bool) (I : Atm ι → R) (hI : Sound spinfree I) (ext : List (List ι)) (es : List (Expr K (Atm ι)))
    (h : ∀ e ∈ es, TermOk (TraceOk spinfree ext) e) :
    ∃ N, ∀ fuel, N ≤ fuel → ∃ rs, traceSummands fuel spinfree ext es = .ok rs ∧
      (rs.map (eval I)).sum = (es.map (traceTerm (target spinfree I) ext)).sum := by
  have hvar : ∀ n, target spinfree I (.var n) = I (.var n) := by
    intro n; unfold target; split <;> rfl
  induction es with
  | nil => exact ⟨0, fun fuel _ => ⟨[], rfl, rfl⟩⟩
  | cons e es ih =>
    obtain ⟨N, hN⟩ := ih (fun f hf => h f (by simp [hf]))
    have he := h e (by simp)
    match e with
    | .prod c l =>
      obtain ⟨N', hN'⟩ := traceProduct_value_partial spinfree I hI ext c l he.1 he.2
      refine ⟨max N N', fun fuel hf => ?_⟩
      obtain ⟨rs, h1, h2⟩ := hN fuel (by omega)
      obtain ⟨r, h3, h4⟩ := hN' fuel (by omega)
      refine ⟨r :: rs, by simp only [traceSummands, h3, h1, bind, Except.bind, pure, Except.pure], ?_⟩
      simp only [List.map_cons, List.sum_cons, h2, h4, traceTerm]
    | .atom (.tens t) =>
      obtain ⟨N', hN'⟩ := traceProduct_value_partial spinfree I hI ext (1 : K) [.atom (.tens t)] (by simp [leafy]) he
      refine ⟨max N N', fun fuel hf => ?_⟩
      obtain ⟨rs, h1, h2⟩ := hN fuel (by omega)
      obtain ⟨r, h3, h4⟩ := hN' fuel (by omega)
      refine ⟨r :: rs, by simp only [traceSummands, h3, h1, bind, Except.bind, pure, Except.pure], ?_⟩
      simp only [List.map_cons, List.sum_cons, h2, h4, traceTerm]
    | .atom (.var n) =>
      refine ⟨N, fun fuel hf => ?_⟩
      obtain ⟨rs, h1, h2⟩ := hN fuel hf
      refine ⟨.atom (.var n) :: rs, by simp only [traceSummands, h1, bind, Except.bind, pure, Except.pure], ?_⟩
      simp only [List.map_cons, List.sum_cons, h2, traceTerm, eval, hvar]
    | .const c =>
      refine ⟨N, fun fuel hf => ?_⟩
      obtain ⟨rs, h1, h2⟩ := hN fuel hf
      refine ⟨.const c :: rs, by simp only [traceSummands, h1, bind, Except.bind, pure, Except.pure], ?_⟩
      simp only [List.map_cons, List.sum_cons, h2, traceTerm, eval]
    | .atom (.oper n) => exact absurd he (by simp [TermOk])
    | .sum ci l => exact absurd he (by simp [TermOk])

/-- **C55 (partial).**  `spintrace` returns the spin trace: the sum over the terms of the sum over all assignments of spin to the indices of
the term, external indices of one group having equal spin. -/
theorem spintrace_value_partial (spinfree : Bool) (I : Atm ι → R) (hI : Sound spinfree I) (ext : List (List ι)) (e : Expr K (Atm ι))
    (hA : hasTensor .A e = false) (hne : summands e ≠ []) (h : ∀ f ∈ summands e, TermOk (TraceOk spinfree ext) f) :
    ∃ N, ∀ fuel, N ≤ fuel → ∃ r, spintrace fuel spinfree ext e = .ok r ∧
      eval I r = ((summands e).map (traceTerm (target spinfree I) ext)).sum := by
  have hvar : ∀ n, target spinfree I (.var n) = I (.var n) := by
    intro n; unfold target; split <;> rfl
  match e with
  | .prod c l =>
    have he := h _ (List.mem_singleton.mpr rfl)
    obtain ⟨N, hN⟩ := traceProduct_value_partial spinfree I hI ext c l he.1 he.2
    refine ⟨N, fun fuel hf => ?_⟩
    obtain ⟨r, h3, h4⟩ := hN fuel (by omega)
    exact ⟨r, by simp [spintrace, spintraceTerms, hA, bind, Except.bind, h3], by simp [summands, traceTerm, h4]⟩
  | .atom (.tens t) =>
    have he := h _ (List.mem_singleton.mpr rfl)
    obtain ⟨N, hN⟩ := traceProduct_value_partial spinfree I hI ext (1 : K) [.atom (.tens t)] (by simp [leafy]) he
    refine ⟨N, fun fuel hf => ?_⟩
    obtain ⟨r, h3, h4⟩ := hN fuel (by omega)
    exact ⟨r, by simp [spintrace, spintraceTerms, hA, bind, Except.bind, h3], by simp [summands, traceTerm, h4]⟩
  | .atom (.var n) => exact ⟨0, fun _ _ => ⟨_, rfl, by simp [summands, traceTerm, eval, hvar]⟩⟩
  | .const c => exact ⟨0, fun _ _ => ⟨_, rfl, by simp [summands, traceTerm, eval]⟩⟩
  | .atom (.oper n) => exact absurd (h _ (List.mem_singleton.mpr rfl)) (by simp [TermOk])
  | .sum ci [] => exact absurd rfl hne
  | .sum ci (f :: l) =>
    obtain ⟨N, hN⟩ := traceSummands_value spinfree I hI ext (f :: l) h
    refine ⟨N, fun fuel hf => ?_⟩
    obtain ⟨rs, h1, h2⟩ := hN fuel hf
    refine ⟨mkSum rs, by simp [spintrace, spintraceTerms, hA, h1, bind, Except.bind, pure, Except.pure], ?_⟩
    rw [mkSum_val (interp I), evalSum_eq]
    exact h2

/-- **C55 (partial), with antisymmetrizers.**  They are expanded first (`expandA`, see C54); the result is the spin trace of the terms of the
expanded expression. -/
theorem spintrace_A_partial (spinfree : Bool) (I : Atm ι → R) (hI : Sound spinfree I) (ext : List (List ι)) (e e' : Expr K (Atm ι))
    (hA : hasTensor .A e = true) (he : expandA e = .ok e') (hne : summands e' ≠ []) (h : ∀ f ∈ summands e', TermOk (TraceOk spinfree ext) f) :
    ∃ N, ∀ fuel, N ≤ fuel → ∃ r, spintrace fuel spinfree ext e = .ok r ∧
      eval I r = ((summands e').map (traceTerm (target spinfree I) ext)).sum := by
  have hrun : ∀ fuel, spintrace fuel spinfree ext e = spintraceTerms fuel spinfree ext e' := by
    intro fuel
    match e with
    | .const c => simp [hasTensor] at hA
    | .atom (.var n) => simp [hasTensor, hasLab] at hA
    | .atom (.oper n) => simp [hasTensor, hasLab] at hA
    | .atom (.tens t) => simp only [spintrace, hA, if_true, he, bind, Except.bind]
    | .prod c l => simp only [spintrace, hA, if_true, he, bind, Except.bind]
    | .sum ci l => simp only [spintrace, hA, if_true, he, bind, Except.bind]
  match e' with
  | .prod c l =>
    have he := h _ (List.mem_singleton.mpr rfl)
    obtain ⟨N, hN⟩ := traceProduct_value_partial spinfree I hI ext c l he.1 he.2
    refine ⟨N, fun fuel hf => ?_⟩
    obtain ⟨r, h3, h4⟩ := hN fuel (by omega)
    exact ⟨r, by rw [hrun, spintraceTerms, h3], by simp [summands, traceTerm, h4]⟩
  | .atom (.tens t) =>
    have he := h _ (List.mem_singleton.mpr rfl)
    obtain ⟨N, hN⟩ := traceProduct_value_partial spinfree I hI ext (1 : K) [.atom (.tens t)] (by simp [leafy]) he
    refine ⟨N, fun fuel hf => ?_⟩
    obtain ⟨r, h3, h4⟩ := hN fuel (by omega)
    exact ⟨r, by rw [hrun, spintraceTerms, h3], by simp [summands, traceTerm, h4]⟩
  | .sum ci [] => exact absurd rfl hne
  | .sum ci (f :: l) =>
    obtain ⟨N, hN⟩ := traceSummands_value spinfree I hI ext (f :: l) h
    refine ⟨N, fun fuel hf => ?_⟩
    obtain ⟨rs, h1, h2⟩ := hN fuel hf
    refine ⟨mkSum rs, by rw [hrun]; simp only [spintraceTerms, h1, bind, Except.bind, pure, Except.pure], ?_⟩
    rw [mkSum_val (interp I), evalSum_eq]
    exact h2
  | .atom (.oper n) => exact absurd (h _ (List.mem_singleton.mpr rfl)) (by simp [TermOk])
  | .atom (.var n) =>
    match e with
    | .atom a => match a with
      | .tens t => simp [expandA] at he
      | .var n => simp [hasTensor, hasLab] at hA
      | .oper n => simp [hasTensor, hasLab] at hA
    | .const c => simp [hasTensor] at hA
    | .prod c l =>
      simp only [expandA, Except.ok.injEq, expandAProd] at he
      split at he
      · simp at he
      · split at he <;> simp [mkSum] at he
    | .sum ci l =>
      simp only [expandA, bind, Except.bind] at he
      split at he
      · simp at he
      · simp [pure, Except.pure, mkSum] at he
  | .const c =>
    match e with
    | .atom a => match a with
      | .tens t => simp [expandA] at he
      | .var n => simp [hasTensor, hasLab] at hA
      | .oper n => simp [hasTensor, hasLab] at hA
    | .const c => simp [hasTensor] at hA
    | .prod c l =>
      simp only [expandA, Except.ok.injEq, expandAProd] at he
      split at he
      · simp at he
      · split at he <;> simp [mkSum] at he
    | .sum ci l =>
      simp only [expandA, bind, Except.bind] at he
      split at he
      · simp at he
      · simp [pure, Except.pure, mkSum] at he

end

end SeQuant.Spins
