import Verif.Lst.Props
import Mathlib.Data.Matrix.Basic
import Mathlib.Data.Matrix.Mul
import Mathlib.LinearAlgebra.Matrix.Notation
import Mathlib.Algebra.Algebra.Rat
import Mathlib.LinearAlgebra.Matrix.Defs

/-! # C63, C64: concrete instances and the scalar products of the connected form -/

namespace SeQuant.Lst

open SeQuant.Expression

/-- An operator `h`, a generator `t`, its adjoint `d`, a variable `v`, a tensor `w` (not supported). -/
inductive LA | h | t | d | v | w
  deriving DecidableEq, Repr

instance : Atoms ℚ LA := ⟨fun _ => false, fun _ => none⟩

abbrev LM := Matrix (Fin 2) (Fin 2) ℚ

def lmat : LA → LM
  | .h => !![1, 2; 3, 4]
  | .t => !![0, 1; 0, 0]
  | .d => !![0, 0; 1, 0]
  | .v => algebraMap ℚ LM 5
  | .w => 0

theorem lmat_interp : Interp ℚ lmat where
  zero := by intro a h; simp [Atoms.isZero] at h
  flat_const := by intro a c h; simp [Atoms.flat] at h
  flat_atom := by intro a c h; simp [Atoms.flat] at h

/-- `simplify` does nothing, `transform_sum_expr` adds; the average is the (0,0) element, and only products of at least two factors
can contribute. -/
def lops : Ops ℚ LA where
  isOp | .h | .t | .d => true | _ => false
  isVar | .v => true | _ => false
  simp := some
  acc l := some (mkSum l)
  canChange | .prod _ l => 2 ≤ l.length | _ => true

theorem lops_sound : Sound lops lmat where
  simp := by rintro e r ⟨⟩; rfl
  acc := by rintro l r ⟨⟩; exact mkSum_val lmat_interp l
  var := by intro a h1 h2; cases a <;> simp [lops] at h1 h2; exact ⟨5, rfl⟩

theorem lops_total : Total lops where
  simp := fun e => ⟨e, rfl, id, fun _ h => h⟩
  acc := fun _ => ⟨_, rfl⟩

abbrev H : Expr ℚ LA := .atom .h
abbrev T : Expr ℚ LA := .atom .t
abbrev TD : Expr ℚ LA := .atom .d
abbrev V : Expr ℚ LA := .atom .v

/-- `(h + 3) * h + v + 2`: has a product of a sum, a variable and a constant. -/
def lexpr : Expr ℚ LA := .sum (some 2) [.prod 1 [.sum (some 1) [H, .const 3], H], V, .const 2]

/-- `lst` completes on it and its value is the transformed operator, since the generator squares to zero. -/
example : ∃ N, ∀ f, N ≤ f → ∃ r, lst lops ⟨false, false⟩ T TD 2 f false lexpr = some r ∧
    eval lmat r = expTo ℚ (-lmat .t) 2 * eval lmat lexpr * expTo ℚ (lmat .t) 2 := by
  obtain ⟨N, hN⟩ := lst_total lmat_interp lops lops_total ⟨false, false⟩ T TD 2 false lexpr (by
    simp [lexpr, AtomsIn, AtomsInL, lops])
  refine ⟨N, fun f hf => ?_⟩
  obtain ⟨r, hr⟩ := hN f hf
  exact ⟨r, hr, lst_exp lmat_interp lops lops_sound T TD 2 2 f false lexpr r (by decide +kernel) (by omega) hr⟩

/-- The series of that operator is not the operator, and stops changing at rank 2. -/
example : expTo ℚ (-lmat .t) 2 * lmat .h * expTo ℚ (lmat .t) 2 = !![-2, -4; 3, 7] := by decide +kernel

/-- Concretely: rank 1, explicit commutator. -/
example : (lst lops ⟨false, false⟩ T TD 1 3 true H).map (eval lmat) = some !![-2, -1; 3, 7] := by decide +kernel

/-- Unitary: `h + [h, t - t⁺]`. -/
example : (lst lops ⟨true, false⟩ T TD 1 3 true H).map (eval lmat) =
    some (lmat .h + (lmat .h * (lmat .t - lmat .d) - (lmat .t - lmat .d) * lmat .h)) := by decide +kernel

/-- The connected form of rank 2: `h + h t + t⁺ h + (1/2)(…)`. -/
example : (lst lops ⟨true, true⟩ T TD 2 3 true (.prod 2 [H, H])).map (eval lmat) =
    some (series ℚ (stepD true true (lmat .t) (lmat .d)) 2 (eval lmat (.prod 2 [H, H] : Expr ℚ LA))) := by
  have h : ∃ r, lst lops ⟨true, true⟩ T TD 2 3 true (.prod 2 [H, H]) = some r :=
    lst_expanded lops lops_total _ _ _ _ 1 _ (by simp [Expr.Expanded, Expr.noSum, noSumL]) (by simp [AtomsIn, AtomsInL, lops])
  obtain ⟨r, hr⟩ := h
  rw [hr, Option.map_some, lst_connected_partial lmat_interp lops lops_sound true T TD 2 3 _ r (by simp [ConnOk, Expr.isSum]) hr]
  rfl

/-- Unsupported leaves throw. -/
example (f : Nat) (s : Bool) : lst lops ⟨false, false⟩ T TD 2 f s (.atom .w) = none := by
  cases f <;> cases s <;> rfl

/-- **C63 fails for scalar products in the connected form**: a variable is returned unchanged, a multiple of it is multiplied by
the generator as if it were an operator, so `lst` is not even homogeneous. -/
theorem lst_connected_scalar : ∃ (e e' r r' : Expr ℚ LA), eval lmat e' = (2 : ℚ) • eval lmat e ∧
    lst lops ⟨false, true⟩ T TD 1 3 true e = some r ∧ lst lops ⟨false, true⟩ T TD 1 3 true e' = some r' ∧
    eval lmat r = eval lmat e ∧ eval lmat r' = eval lmat e' + eval lmat e' * lmat .t ∧ eval lmat r' ≠ (2 : ℚ) • eval lmat r := by
  have h' : ∃ r', lst lops ⟨false, true⟩ T TD 1 3 true (.prod 2 [V]) = some r' :=
    lst_expanded lops lops_total _ _ _ _ 1 _ (by simp [Expr.Expanded, Expr.noSum, noSumL]) (by simp [AtomsIn, AtomsInL, lops])
  obtain ⟨r', hr'⟩ := h'
  have hv : eval lmat r' = eval lmat (.prod 2 [V] : Expr ℚ LA) + eval lmat (.prod 2 [V] : Expr ℚ LA) * lmat .t := by
    rw [lst_connected_partial lmat_interp lops lops_sound false T TD 1 3 _ r' (by simp [ConnOk, Expr.isSum]) hr']
    simp [series, Finset.sum_range_succ, stepD, eval]
  refine ⟨V, .prod 2 [V], V, r', by simp [eval, evalProd], rfl, hr', rfl, hv, ?_⟩
  rw [hv]
  decide +kernel

/-! ### Screening -/

/-- The (0,0) element. -/
def lav : LM →ₗ[ℚ] ℚ where
  toFun m := m 0 0
  map_add' _ _ := rfl
  map_smul' _ _ := rfl

/-- A model in which the averages vanish as required: the operators have a vanishing (0,0) element, and so have products of fewer
than two of them (and the empty product does not occur). -/
def lmat0 : LA → LM
  | .h => !![0, 2; 3, 4]
  | .t => !![0, 1; 0, 0]
  | .d => !![0, 0; 1, 0]
  | .v => algebraMap ℚ LM 5
  | .w => 0

def lops0 : Ops ℚ LA := { lops with canChange := fun e => match e with | .prod _ [.atom a] => !lops.isOp a | _ => true }

theorem lmat0_interp : Interp ℚ lmat0 where
  zero := by intro a h; simp [Atoms.isZero] at h
  flat_const := by intro a c h; simp [Atoms.flat] at h
  flat_atom := by intro a c h; simp [Atoms.flat] at h

theorem lops0_sound : Sound lops0 lmat0 where
  simp := by rintro e r ⟨⟩; rfl
  acc := by rintro l r ⟨⟩; exact mkSum_val lmat0_interp l
  var := by intro a h1 h2; cases a <;> simp [lops0, lops] at h1 h2; exact ⟨5, rfl⟩

theorem lops0_vacuum : Vacuum lops0 lmat0 lav where
  op := by intro a h; cases a <;> simp [lops0, lops] at h <;> rfl
  prod := by
    intro c l hl h
    match l with
    | [.atom a] =>
      simp only [lops0, Bool.not_eq_false'] at h
      have : lav (lmat0 a) = 0 := by cases a <;> simp [lops] at h <;> rfl
      simp [eval, evalProd, this]
    | [] => simp [lops0] at h
    | [.const _] => simp [lops0] at h
    | [.prod _ _] => simp [lops0] at h
    | [.sum _ _] => simp [lops0] at h
    | _ :: _ :: _ => simp [lops0] at h

/-- `(2 + h) * h + h + v`: the terms `2 h` and `h` are removed. -/
def sexpr : Expr ℚ LA := .sum none [.prod 1 [.sum (some 0) [.const 2, H], H], H, V]

example : (screen lops0 9 false sexpr).map (eval lmat0) = some (lmat0 .h * lmat0 .h + lmat0 .v) := by decide +kernel

example : ∀ r, screen lops0 9 false sexpr = some r → lav (eval lmat0 r) = lav (eval lmat0 sexpr) :=
  fun r hr => screen_value lmat0_interp lops0 lops0_sound lav lops0_vacuum 9 false sexpr r hr

/-- A single operator and a screened product become zero; other products, variables and constants stay. -/
theorem screen_term {K A : Type} [Field K] [DecidableEq K] [Atoms K A] (P : Ops K A) (f : Nat) :
    (∀ a, P.isOp a = true → screen P (f + 1) true (.atom a) = some (.const 0)) ∧
    (∀ c (l : List (Expr K A)), (∀ x ∈ l, x.isSum = false) →
      (P.canChange (.prod c l) = false → screen P (f + 1) true (.prod c l) = some (.const 0)) ∧
      (P.canChange (.prod c l) = true → screen P (f + 1) true (.prod c l) = some (.prod c l))) ∧
    (∀ c, screen P (f + 1) true (.const c) = some (.const c)) ∧
    (∀ a, P.isOp a = false → screen P (f + 1) true (.atom a) = if P.isVar a then some (.atom a) else none) := by
  refine ⟨fun a h => by simp [screen, h], fun c l hl => ?_, fun c => by simp [screen], fun a h => by simp [screen, h]⟩
  have : l.any Expr.isSum = false := by simpa using hl
  exact ⟨fun h => by simp [screen, this, h], fun h => by simp [screen, this, h]⟩

end SeQuant.Lst
