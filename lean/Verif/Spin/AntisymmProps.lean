import Verif.Spin.Lemmas
import Verif.Spin.Spec
import Verif.Expression.SimplifyProps

/-!
# C53: expansion of antisymmetric tensors
-/

namespace SeQuant.Spins

open SeQuant.Expression SeQuant.Perm SeQuant.Sort
open SeQuant.Tensors (Sym)

theorem interp {K ι R : Type} [CommRing K] [Ring R] [Algebra K R] (I : Atm ι → R) : Interp K I :=
  ⟨fun _ h => by simp [Atoms.isZero] at h, fun _ _ h => by simp [Atoms.flat] at h, fun _ _ h => by simp [Atoms.flat] at h⟩

variable {K ι R : Type} [SpinIx ι] [Field K] [DecidableEq K] [Ring R] [Algebra K R]

/-- The antisymmetrized sum in terms of the sorted bra and ket. -/
theorem antisymm_sorted {I : Atm ι → R} (hI : SpinInterp I) (lab : Lab) (aux : List ι) {n : Nat} {b k : Fin n → ι}
    (hb : Function.Injective b) (hk : Function.Injective k) :
    I (.tens ⟨lab, List.ofFn b, List.ofFn k, aux, .antisymm⟩) =
      ∑ m ∈ (setOf (List.ofFn b)).permutations.toFinset,
        ((phase m * phase (List.ofFn b) * phase (List.ofFn k) : Int) : R) *
          I (.tens ⟨lab, m, setOf (List.ofFn k), aux, .nonsymm⟩) := by
  obtain ⟨hks, hkp⟩ := setOf_spec (List.ofFn k)
  obtain ⟨_, hbp⟩ := setOf_spec (List.ofFn b)
  specialize hkp (nodup_ofFn hk)
  specialize hbp (nodup_ofFn hb)
  have hmem : setOf (List.ofFn k) ∈ (List.ofFn k).permutations.toFinset := by
    rw [List.mem_toFinset, List.mem_permutations]; exact hkp
  -- the sorted ket as a rearrangement
  obtain ⟨κ, hκ⟩ : ∃ κ : Equiv.Perm (Fin n), List.ofFn (k ∘ κ) = setOf (List.ofFn k) := by
    obtain ⟨σ, hσ⟩ := perm_rearr hkp
    refine ⟨(finCongr List.length_ofFn).permCongr σ, ?_⟩
    rw [hσ]
    unfold rearr
    apply List.ext_getElem
    · simp
    · intro i h1 h2
      simp [Equiv.permCongr_apply]
      rfl
  have hsgn : (Equiv.Perm.sign κ : Int) * phase (List.ofFn k) = 1 := by
    rw [← phase_ofFn hk, hκ]
    exact phase_sorted hks
  have hphk : phase (List.ofFn k) = (Equiv.Perm.sign κ : Int) := by
    have h2 : ((Equiv.Perm.sign κ : Int)) * (Equiv.Perm.sign κ : Int) = 1 := Int.units_coe_mul_self _
    calc phase (List.ofFn k) = (Equiv.Perm.sign κ : Int) * ((Equiv.Perm.sign κ : Int) * phase (List.ofFn k)) := by
          rw [← mul_assoc, h2, one_mul]
      _ = _ := by rw [hsgn, mul_one]
  rw [permutations_congr hbp, ← sum_ofFn hb, hI.anti]
  refine Eq.trans ?_ (Equiv.sum_comp (Equiv.mulRight κ) _)
  refine Finset.sum_congr rfl fun π _ => ?_
  simp only [Equiv.coe_mulRight]
  rw [phase_ofFn hb, hphk, ← hκ, Equiv.Perm.sign_mul]
  have e1 : (((Equiv.Perm.sign π * Equiv.Perm.sign κ : Int) * phase (List.ofFn b)) * phase (List.ofFn b) *
      (Equiv.Perm.sign κ : Int)) = (Equiv.Perm.sign π : Int) := by
    have h1 := phase_sq (List.ofFn b)
    have h2 : ((Equiv.Perm.sign κ : Int)) * (Equiv.Perm.sign κ : Int) = 1 := Int.units_coe_mul_self _
    linear_combination ((Equiv.Perm.sign π : Int) * (Equiv.Perm.sign κ : Int) * (Equiv.Perm.sign κ : Int)) * h1 +
      (Equiv.Perm.sign π : Int) * h2
  rw [Units.val_mul, e1]
  congr 1
  refine hI.cols lab _ _ _ _ aux (by simp) (by simp) ?_
  have hz : ∀ f g : Fin n → ι, (List.ofFn f).zip (List.ofFn g) = List.ofFn fun i => (f i, g i) := by
    intro f g
    apply List.ext_getElem
    · simp
    · intro i h1 h2; simp
  rw [hz, hz]
  exact (Equiv.Perm.ofFn_comp_perm κ (fun i => ((b ∘ π) i, k i))).symm

/-- **C53**: the sum made by `expand_antisymm` from a tensor with distinct bra and distinct ket indices has the value of the tensor, in every
interpretation and whether or not spin-uniform tensors are skipped. -/
theorem expandAntisymmT_value_partial {I : Atm ι → R} (hI : SpinInterp I) (skip : Bool) (t : Tn ι) (e : Expr K (Atm ι))
    (hb : t.bra.Nodup) (hk : t.ket.Nodup) (he : expandAntisymmT skip t = .ok e) : eval I e = I (.tens t) := by
  obtain ⟨lab, bra, ket, aux, sym⟩ := t
  simp only [expandAntisymmT] at he
  split at he
  · exact absurd he (by simp)
  · rename_i hlen
    simp only [ne_eq, not_not] at hlen
    split at he
    · rename_i h1
      cases he
      exact (hI.one lab bra ket aux sym hlen h1).symm
    · split at he
      · cases he; rfl
      · split at he
        · rename_i _ _ hs
          subst hs
          cases he
          rw [mkSum_val (interp I), evalSum_eq]
          -- terms with spin flips vanish
          have key : ∀ ms : List (List ι),
              ((((ms.map fun b => ({ lab := lab, bra := b, ket := setOf ket, aux := aux, sym := .nonsymm } : Tn ι)).filterMap fun u =>
                if msConserving u then
                  let st := pAppend clone .Recursively ((1 * (phase2 u.bra u.ket : K) : K), []) (.atom (.tens u) : Expr K (Atm ι))
                  some (Expr.prod (st.1 * (phase2 bra ket : K)) st.2)
                else none).map (eval I)).sum) =
              (ms.map fun m => ((phase m * phase bra * phase ket : Int) : R) * I (.tens ⟨lab, m, setOf ket, aux, .nonsymm⟩)).sum := by
            intro ms
            induction ms with
            | nil => rfl
            | cons m ms ih =>
              simp only [List.map_cons, List.filterMap_cons, List.sum_cons]
              by_cases hc : msConserving (⟨lab, m, setOf ket, aux, .nonsymm⟩ : Tn ι) = true
              · simp only [hc, if_true, List.map_cons, List.sum_cons]
                rw [ih]
                congr 1
                simp only [pAppend, eval, List.nil_append, evalProd, mul_one]
                have hks : phase (setOf ket) = 1 := phase_sorted (setOf_spec ket).1
                rw [phase2_eq, phase2_eq, hks, Algebra.smul_def]
                congr 1
                push_cast; simp [mul_assoc]
              · have hc' : msConserving (⟨lab, m, setOf ket, aux, .nonsymm⟩ : Tn ι) = false := by simpa using hc
                simp only [hc', Bool.false_eq_true, if_false]
                rw [ih, hI.spin lab m (setOf ket) aux, mul_zero, zero_add]
                simpa [msConserving] using hc'
          rw [key, sum_arrangements' ((setOf_spec bra).1.imp le_of_lt)]
          -- functions instead of lists
          obtain ⟨n, b, rfl⟩ : ∃ n, ∃ b : Fin n → ι, bra = List.ofFn b := ⟨_, bra.get, (List.ofFn_get bra).symm⟩
          obtain ⟨k, rfl⟩ : ∃ k : Fin n → ι, ket = List.ofFn k := by
            have hl : ket.length = n := by simpa using hlen.symm
            subst hl
            exact ⟨ket.get, (List.ofFn_get ket).symm⟩
          rw [antisymm_sorted hI lab aux (List.nodup_ofFn.mp hb) (List.nodup_ofFn.mp hk)]
        · cases he; rfl

mutual
/-- All tensors satisfy `P`. -/
def AllTens {K ι : Type} (P : Tn ι → Prop) : Expr K (Atm ι) → Prop
  | .const _ => True
  | .atom (.tens t) => P t
  | .atom _ => True
  | .prod _ l => AllTensL P l
  | .sum _ l => AllTensL P l
def AllTensL {K ι : Type} (P : Tn ι → Prop) : List (Expr K (Atm ι)) → Prop
  | [] => True
  | e :: l => AllTens P e ∧ AllTensL P l
end

mutual
/-- The factors of products are constants, tensors and variables, and no summand is an operator. -/
def Regular {K ι : Type} : Expr K (Atm ι) → Prop
  | .const _ => True
  | .atom (.oper _) => False
  | .atom _ => True
  | .prod _ l => ∀ f ∈ l, plain f = true
  | .sum _ l => RegularL l
def RegularL {K ι : Type} : List (Expr K (Atm ι)) → Prop
  | [] => True
  | e :: l => Regular e ∧ RegularL l
end

/-- Bra indices distinct, ket indices distinct. -/
def Distinct (t : Tn ι) : Prop := t.bra.Nodup ∧ t.ket.Nodup

theorem expandAntisymmF_value {I : Atm ι → R} (hI : SpinInterp I) (skip : Bool) (l r : List (Expr K (Atm ι)))
    (hl : AllTensL Distinct l) (h : expandAntisymmF skip l = .ok r) : evalProd I r = evalProd I l := by
  induction l generalizing r with
  | nil => cases h; rfl
  | cons f l ih =>
    simp only [AllTensL] at hl
    cases f with
    | const c =>
      simp only [expandAntisymmF] at h
      cases hr : expandAntisymmF skip l with
      | error e => simp [hr, bind, Except.bind] at h
      | ok r' =>
        simp only [hr, bind, Except.bind, pure, Except.pure, Except.ok.injEq] at h
        subst h
        simp only [evalProd, ih r' hl.2 hr]
    | atom a =>
      cases a with
      | tens t =>
        simp only [expandAntisymmF] at h
        cases ht : (expandAntisymmT skip t : Res (Expr K (Atm ι))) with
        | error e => simp [ht, bind, Except.bind] at h
        | ok e =>
          cases hr : expandAntisymmF skip l with
          | error e => simp [ht, hr, bind, Except.bind] at h
          | ok r' =>
            simp only [ht, hr, bind, Except.bind, pure, Except.pure, Except.ok.injEq] at h
            subst h
            simp only [evalProd, ih r' hl.2 hr, eval]
            rw [expandAntisymmT_value_partial hI skip t e hl.1.1 hl.1.2 ht]
      | var n =>
        simp only [expandAntisymmF] at h
        cases hr : expandAntisymmF skip l with
        | error e => simp [hr, bind, Except.bind] at h
        | ok r' =>
          simp only [hr, bind, Except.bind, pure, Except.pure, Except.ok.injEq] at h
          subst h
          simp only [evalProd, ih r' hl.2 hr]
      | oper n => simp [expandAntisymmF] at h
    | prod c l => simp [expandAntisymmF] at h
    | sum c l => simp [expandAntisymmF] at h

mutual
/-- **C53**: `expand_antisymm` does not change the value of an expression whose tensors have distinct bra and distinct ket indices. -/
theorem expandAntisymm_value_partial {I : Atm ι → R} (hI : SpinInterp I) (fuel : Nat) (skip : Bool) (e r : Expr K (Atm ι))
    (he : AllTens Distinct e) (h : expandAntisymm fuel skip e = .ok r) : eval I r = eval I e := by
  match e with
  | .const c => cases h; rfl
  | .atom (.var n) => cases h; rfl
  | .atom (.tens t) =>
    simp only [AllTens] at he
    simp only [expandAntisymm] at h
    exact expandAntisymmT_value_partial hI skip t r he.1 he.2 h
  | .atom (.oper n) => simp [expandAntisymm] at h
  | .prod c l =>
    simp only [AllTens] at he
    simp only [expandAntisymm] at h
    cases hr : expandAntisymmF skip l with
    | error e => simp [hr, bind, Except.bind] at h
    | ok r' =>
      simp only [hr, bind, Except.bind] at h
      cases hs : rapidSimplify fuel (mkProd .No c r') with
      | none => simp [hs, ofOption] at h
      | some s =>
        simp only [hs, ofOption, Except.ok.injEq] at h
        subst h
        rw [rapidSimplify_val (interp I) fuel _ _ hs, mkProd_val (interp I), expandAntisymmF_value hI skip l r' he hr, eval]
  | .sum ci l =>
    simp only [AllTens] at he
    simp only [expandAntisymm] at h
    cases hr : expandAntisymmL fuel skip l with
    | error e => simp [hr, bind, Except.bind] at h
    | ok r' =>
      simp only [hr, bind, Except.bind, pure, Except.pure, Except.ok.injEq] at h
      subst h
      rw [mkSum_val (interp I), expandAntisymmL_value hI fuel skip l r' he hr, eval]
theorem expandAntisymmL_value {I : Atm ι → R} (hI : SpinInterp I) (fuel : Nat) (skip : Bool) (l r : List (Expr K (Atm ι)))
    (hl : AllTensL Distinct l) (h : expandAntisymmL fuel skip l = .ok r) : evalSum I r = evalSum I l := by
  match l with
  | [] => simp only [expandAntisymmL, Except.ok.injEq] at h; subst h; rfl
  | e :: l =>
    simp only [AllTensL] at hl
    simp only [expandAntisymmL] at h
    cases he : expandAntisymm fuel skip e with
    | error x => simp [he, bind, Except.bind] at h
    | ok e' =>
      cases hr : expandAntisymmL fuel skip l with
      | error x => simp [he, hr, bind, Except.bind] at h
      | ok r' =>
        simp only [he, hr, bind, Except.bind, pure, Except.pure, Except.ok.injEq] at h
        subst h
        simp only [evalSum, expandAntisymm_value_partial hI fuel skip e e' hl.1 he, expandAntisymmL_value hI fuel skip l r' hl.2 hr]
end

/-! ## Which inputs are accepted -/

/-- As many bra as ket indices. -/
def Square {ι : Type} (t : Tn ι) : Prop := t.bra.length = t.ket.length

theorem expandAntisymmT_total (skip : Bool) (t : Tn ι) :
    (∃ e, (expandAntisymmT skip t : Res (Expr K (Atm ι))) = .ok e) ↔ Square t := by
  constructor
  · rintro ⟨e, h⟩
    by_contra hn
    simp [expandAntisymmT, show t.bra.length ≠ t.ket.length from hn] at h
  · intro h
    simp only [expandAntisymmT, show ¬ t.bra.length ≠ t.ket.length from not_not.mpr h, if_false]
    split
    · exact ⟨_, rfl⟩
    · split
      · exact ⟨_, rfl⟩
      · split
        · exact ⟨_, rfl⟩
        · exact ⟨_, rfl⟩

theorem expandAntisymmF_total (skip : Bool) (l : List (Expr K (Atm ι))) (hp : ∀ f ∈ l, plain f = true) (hs : AllTensL Square l) :
    ∃ r, expandAntisymmF skip l = .ok r := by
  induction l with
  | nil => exact ⟨[], rfl⟩
  | cons f l ih =>
    simp only [AllTensL] at hs
    obtain ⟨r, hr⟩ := ih (fun g hg => hp g (by simp [hg])) hs.2
    have hf := hp f (by simp)
    match f with
    | .const c => exact ⟨_, by simp only [expandAntisymmF, hr]; rfl⟩
    | .atom (.var n) => exact ⟨_, by simp only [expandAntisymmF, hr]; rfl⟩
    | .atom (.tens t) =>
      obtain ⟨e, he⟩ := (expandAntisymmT_total (K := K) skip t).mpr hs.1
      exact ⟨_, by simp only [expandAntisymmF, hr, he]; rfl⟩
    | .atom (.oper n) => simp [plain] at hf
    | .prod c l => simp [plain] at hf
    | .sum c l => simp [plain] at hf

mutual
/-- **C53**: with enough rounds of simplification `expand_antisymm` succeeds on every expression made of sums and products of constants, variables
and tensors with as many bra as ket indices. -/
theorem expandAntisymm_total (skip : Bool) (e : Expr K (Atm ι)) (hr : Regular e) (hs : AllTens Square e) :
    ∃ N, ∀ fuel ≥ N, ∃ r, expandAntisymm fuel skip e = .ok r := by
  match e with
  | .const c => exact ⟨0, fun fuel _ => ⟨.const c, by simp [expandAntisymm]⟩⟩
  | .atom (.var n) => exact ⟨0, fun fuel _ => ⟨.atom (.var n), by simp [expandAntisymm]⟩⟩
  | .atom (.tens t) =>
    obtain ⟨e, he⟩ := (expandAntisymmT_total (K := K) skip t).mpr hs
    exact ⟨0, fun fuel _ => ⟨e, by simp [expandAntisymm, he]⟩⟩
  | .atom (.oper n) => simp [Regular] at hr
  | .prod c l =>
    simp only [Regular] at hr
    simp only [AllTens] at hs
    obtain ⟨r, h⟩ := expandAntisymmF_total skip l hr hs
    refine ⟨wt (mkProd .No c r) + 1, fun fuel hf => ?_⟩
    obtain ⟨s, h', _⟩ := simplify_total (mkProd .No c r) fuel (by omega)
    have h'' : rapidSimplify fuel (mkProd .No c r) = some s := h'
    exact ⟨s, by simp only [expandAntisymm, h, bind, Except.bind, h'', ofOption]⟩
  | .sum ci l =>
    simp only [Regular] at hr
    simp only [AllTens] at hs
    obtain ⟨N, h⟩ := expandAntisymmL_total skip l hr hs
    refine ⟨N, fun fuel hf => ?_⟩
    obtain ⟨r, h'⟩ := h fuel hf
    exact ⟨mkSum r, by simp only [expandAntisymm, h', bind, Except.bind, pure, Except.pure]⟩
theorem expandAntisymmL_total (skip : Bool) (l : List (Expr K (Atm ι))) (hr : RegularL l) (hs : AllTensL Square l) :
    ∃ N, ∀ fuel ≥ N, ∃ r, expandAntisymmL fuel skip l = .ok r := by
  match l with
  | [] => exact ⟨0, fun fuel _ => ⟨[], by simp [expandAntisymmL]⟩⟩
  | e :: l =>
    simp only [RegularL] at hr
    simp only [AllTensL] at hs
    obtain ⟨N, h⟩ := expandAntisymm_total skip e hr.1 hs.1
    obtain ⟨M, h'⟩ := expandAntisymmL_total skip l hr.2 hs.2
    refine ⟨max N M, fun fuel hf => ?_⟩
    obtain ⟨r, hr⟩ := h fuel (le_trans (le_max_left _ _) hf)
    obtain ⟨r', hr'⟩ := h' fuel (le_trans (le_max_right _ _) hf)
    exact ⟨r :: r', by simp only [expandAntisymmL, hr, hr', bind, Except.bind, pure, Except.pure]⟩
end

/-- Without skipping, no antisymmetric tensor of rank two or more remains, and every term conserves spin. -/
theorem expandAntisymmT_shape (t : Tn ι) (e : Expr K (Atm ι)) (ha : t.sym = .antisymm) (hr : 2 ≤ t.bra.length)
    (he : expandAntisymmT false t = .ok e) :
    ∃ ms : List (K × Tn ι), e = .sum none (ms.map fun p => .prod p.1 [.atom (.tens p.2)]) ∧
      ∀ p ∈ ms, (p.1 = 1 ∨ p.1 = -1) ∧ p.2.sym = .nonsymm ∧ p.2.lab = t.lab ∧ p.2.aux = t.aux ∧ msConserving p.2 = true := by
  simp only [expandAntisymmT] at he
  split at he
  · exact absurd he (by simp)
  · split at he
    · omega
    · simp only [Bool.false_and, Bool.false_eq_true, if_false, Except.ok.injEq] at he
      subst he
      have gen : ∀ (us : List (Tn ι)), (∀ u ∈ us, u.sym = .nonsymm ∧ u.lab = t.lab ∧ u.aux = t.aux) →
          ∃ ms : List (K × Tn ι), (us.filterMap fun u =>
            if msConserving u then
              let st := pAppend clone .Recursively ((1 * (phase2 u.bra u.ket : K) : K), []) (.atom (.tens u) : Expr K (Atm ι))
              some (Expr.prod (st.1 * (phase2 t.bra t.ket : K)) st.2)
            else none) = (ms.map fun p => Expr.prod p.1 [.atom (.tens p.2)]) ∧
            ∀ p ∈ ms, (p.1 = 1 ∨ p.1 = -1) ∧ p.2.sym = .nonsymm ∧ p.2.lab = t.lab ∧ p.2.aux = t.aux ∧ msConserving p.2 = true := by
        intro us
        induction us with
        | nil => intro _; exact ⟨[], rfl, by simp⟩
        | cons u us ih =>
          intro h
          obtain ⟨ms, e1, e2⟩ := ih (fun v hv => h v (by simp [hv]))
          by_cases hc : msConserving u = true
          · refine ⟨((1 * (phase2 u.bra u.ket : K)) * (phase2 t.bra t.ket : K), u) :: ms, ?_, ?_⟩
            · simp only [List.filterMap_cons, hc, if_true, e1, List.map_cons]
              rfl
            · intro p hp
              rcases List.mem_cons.mp hp with rfl | hp
              · refine ⟨?_, (h u (by simp)).1, (h u (by simp)).2.1, (h u (by simp)).2.2, hc⟩
                have h1 : ∀ b k : List ι, phase2 b k = 1 ∨ phase2 b k = -1 := by
                  intro b k; unfold phase2; split <;> simp
                rcases h1 u.bra u.ket with h2 | h2 <;> rcases h1 t.bra t.ket with h3 | h3 <;> simp [h2, h3]
              · exact e2 p hp
          · exact ⟨ms, by simp only [List.filterMap_cons, hc, Bool.false_eq_true, if_false, e1], e2⟩
      obtain ⟨ms, e1, e2⟩ := gen ((arrangements (setOf t.bra)).map fun b =>
        ({ t with bra := b, ket := setOf t.ket, sym := .nonsymm } : Tn ι)) (by simp)
      refine ⟨ms, ?_, e2⟩
      rw [e1]
      have ms1 : ∀ (ms : List (K × Tn ι)) (acc : List (Expr K (Atm ι))), (∀ p ∈ ms, p.1 = 1 ∨ p.1 = -1) →
          sAppendAll clone (none, acc) (ms.map fun p => Expr.prod p.1 [.atom (.tens p.2)]) =
            (none, acc ++ ms.map fun p => Expr.prod p.1 [.atom (.tens p.2)]) := by
        intro ms
        induction ms with
        | nil => intro acc _; simp [sAppendAll]
        | cons p ms ih =>
          intro acc h
          have hz : p.1 ≠ 0 := by rcases h p (by simp) with h | h <;> simp [h]
          simp only [List.map_cons, sAppendAll, sAppend, Expr.isZero, hz]
          simp only [decide_false, Bool.false_eq_true, if_false]
          rw [ih _ (fun q hq => h q (by simp [hq]))]
          simp [clone, Expr.depth, depthL, cloneF, pAppend]
      have := ms1 ms [] (fun p hp => (e2 p hp).1)
      simp only [mkSum, this, List.nil_append]

end SeQuant.Spins
