import Verif.Expression.Spec
import Mathlib.Data.Matrix.Mul
import Mathlib.Data.Matrix.Basic
import Mathlib.LinearAlgebra.Matrix.Notation
import Mathlib.LinearAlgebra.Matrix.Defs
import Mathlib.Algebra.Algebra.Rat

/-! # A concrete noncommutative interpretation: two atoms stand for 2x2 integer matrices -/

namespace SeQuant.Expression.Inst

/-- Two ordinary atoms and one atom that is (and reports to be) zero. -/
inductive At | x | y | z
  deriving DecidableEq, Repr

instance : Atoms Int At where
  isZero | .z => true | _ => false
  flat _ := none

abbrev M2 := Matrix (Fin 2) (Fin 2) Int

def mat : At → M2
  | .x => !![0, 1; 0, 0]
  | .y => !![0, 0; 1, 0]
  | .z => 0

theorem mat_interp : Interp Int mat where
  zero := by intro a; cases a <;> simp [Atoms.isZero, mat]
  flat_const := by intro a c h; simp [Atoms.flat] at h
  flat_atom := by intro a c h; simp [Atoms.flat] at h

abbrev E := Expr Int At
abbrev X : E := .atom .x
abbrev Y : E := .atom .y
abbrev Z : E := .atom .z

theorem xy_ne_yx : mat .x * mat .y ≠ mat .y * mat .x := by decide +kernel

end SeQuant.Expression.Inst
