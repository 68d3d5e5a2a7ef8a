import Verif.Wick.Spec
import Mathlib.Data.Matrix.Mul
import Mathlib.LinearAlgebra.Matrix.Notation
import Mathlib.LinearAlgebra.Matrix.Defs
import Mathlib.Algebra.Polynomial.Derivative
import Mathlib.Algebra.Algebra.Bilinear
import Mathlib.Algebra.Algebra.Rat
import Mathlib.Tactic.FinCases

/-!
# Concrete algebras that satisfy the hypotheses of the Wick theorems: two fermionic modes (4x4 matrices) and one
bosonic mode (differential operators on polynomials)
-/

namespace SeQuant.Wick.Inst

/-- Elementary operators of two fermionic modes. -/
inductive F2 | a1 | a2 | c1 | c2
  deriving DecidableEq, Repr

abbrev M4 := Matrix (Fin 4) (Fin 4) Int

/-- basis: |00>, |10>, |01>, |11> -/
def C1 : M4 := !![0,0,0,0; 1,0,0,0; 0,0,0,0; 0,0,1,0]
def C2 : M4 := !![0,0,0,0; 0,0,0,0; 1,0,0,0; 0,-1,0,0]
def A1 : M4 := !![0,1,0,0; 0,0,0,0; 0,0,0,1; 0,0,0,0]
def A2 : M4 := !![0,0,1,0; 0,0,0,-1; 0,0,0,0; 0,0,0,0]

def f2c : F2 → F2 → Int
  | .a1, .c1 => 1
  | .a2, .c2 => 1
  | _, _ => 0

/-- Two fermionic modes over the genuine vacuum. -/
def fermi2 : Alg .FermiDirac F2 Int M4 where
  cr | .c1 => C1 | .c2 => C2 | _ => 0
  an | .a1 => A1 | .a2 => A2 | _ => 0
  c := f2c
  an_cr := by intro x y; cases x <;> cases y <;> decide +kernel
  an_an := by intro x y; cases x <;> cases y <;> decide +kernel
  cr_cr := by intro x y; cases x <;> cases y <;> decide +kernel

def fermi2Vac : Vac fermi2 where
  vac := { toFun := fun m => m 0 0, map_add' := fun _ _ => rfl, map_smul' := fun _ _ => rfl }
  vac_one := rfl
  vac_cr := by
    intro x a
    show (_ * a : M4) 0 0 = 0
    rw [Matrix.mul_apply]
    cases x <;> simp [fermi2, C1, C2, Fin.sum_univ_succ]
  vac_an := by
    intro a x
    show (a * _ : M4) 0 0 = 0
    rw [Matrix.mul_apply]
    cases x <;> simp [fermi2, A1, A2, Fin.sum_univ_succ]

open Polynomial in
/-- One bosonic mode: the creator multiplies by `X`, the annihilator differentiates. -/
noncomputable def bCr (b : Bool) : Module.End ℚ ℚ[X] := if b then LinearMap.mulLeft ℚ X else 0

open Polynomial in
noncomputable def bAn (b : Bool) : Module.End ℚ ℚ[X] := if b then 0 else Polynomial.derivative

open Polynomial in
theorem bose_ccr : bAn false * bCr true = bCr true * bAn false + 1 := by
  apply LinearMap.ext
  intro f
  simp only [bAn, bCr, Module.End.mul_apply, LinearMap.add_apply, Module.End.one_apply, LinearMap.mulLeft_apply,
    if_true, Bool.false_eq_true, if_false, Polynomial.derivative_mul, Polynomial.derivative_X, one_mul]
  rw [add_comm]

theorem bCr_false : bCr false = 0 := by simp [bCr]
theorem bAn_true : bAn true = 0 := by simp [bAn]

open Polynomial in
noncomputable def bose1 : Alg .BoseEinstein Bool ℚ (Module.End ℚ ℚ[X]) where
  cr := bCr
  an := bAn
  c x y := if x = false ∧ y = true then 1 else 0
  an_cr := by
    intro x y
    cases x <;> cases y <;> simp [Statistics.zeta, bCr_false, bAn_true, bose_ccr]
  an_an := by intro x y; cases x <;> cases y <;> simp [Statistics.zeta, bAn_true]
  cr_cr := by intro x y; cases x <;> cases y <;> simp [Statistics.zeta, bCr_false]

open Polynomial in
noncomputable def bose1Vac : Vac bose1 where
  vac := (Polynomial.lcoeff ℚ 0).comp (LinearMap.applyₗ 1)
  vac_one := by simp
  vac_cr := by intro x a; cases x <;> simp [bose1, bCr]
  vac_an := by intro a x; cases x <;> simp [bose1, bAn]

end SeQuant.Wick.Inst
