import Verif.Wick.Model
import Mathlib.Algebra.Algebra.Basic
import Mathlib.Algebra.BigOperators.Group.List.Basic
import Mathlib.Algebra.Module.LinearMap.Defs
import Mathlib.Algebra.Algebra.Defs

/-!
# Specification of Wick's theorem: algebras with canonical (anti)commutation relations

Nothing in this file refers to the model except the enumeration `Statistics`.
-/

namespace SeQuant.Wick

/-- `+1` for bosons, `-1` for fermions. -/
def Statistics.zeta : Statistics → Int
  | .BoseEinstein => 1
  | .FermiDirac => -1

variable {Op K A : Type}

/-- An algebra in which every elementary operator `o` is represented by `cr o + an o`, a quasiparticle creation part and a
quasiparticle annihilation part that obey canonical (anti)commutation relations with contractions `c`.  (For a pure
creator `an o = 0`, for a pure annihilator `cr o = 0`; an operator with a general index has both parts.) -/
structure Alg (S : Statistics) (Op K A : Type) [CommRing K] [Ring A] [Algebra K A] where
  cr : Op → A
  an : Op → A
  c : Op → Op → K
  an_cr : ∀ x y, an x * cr y = (S.zeta : K) • (cr y * an x) + c x y • 1
  an_an : ∀ x y, an x * an y = (S.zeta : K) • (an y * an x)
  cr_cr : ∀ x y, cr x * cr y = (S.zeta : K) • (cr y * cr x)

variable [CommRing K] [Ring A] [Algebra K A] {S : Statistics}

/-- The normal-ordered product `N[o₁ o₂ ... oₙ]`: creation parts to the left, annihilation parts to the right, with the sign of
the reordering. -/
def Alg.N (W : Alg S Op K A) : List Op → A
  | [] => 1
  | o :: l => W.cr o * W.N l + ((S.zeta : K) ^ l.length) • (W.N l * W.an o)

/-- The product of normal-ordered products, i.e. the operator a `NormalOperatorSequence` stands for. -/
def Alg.prod (W : Alg S Op K A) (nops : List (List Op)) : A := (nops.map W.N).prod

/-- A vacuum expectation value. -/
structure Vac (W : Alg S Op K A) where
  vac : A →ₗ[K] K
  vac_one : vac 1 = 1
  vac_cr : ∀ x a, vac (W.cr x * a) = 0
  vac_an : ∀ a x, vac (a * W.an x) = 0

end SeQuant.Wick
