import Mathlib.Data.Rat.Floor
import Mathlib.Data.Rat.Defs

/-!
# Rationalization of floating-point numbers (C38)

Transcribes `to_rational` of `SeQuant/core/rational.hpp:57-105`.

Simplifications: a finite floating-point number is the rational number it denotes; the subtractions and additions `f -= base`, `1 - tol`,
`f + tol`, `f - tol` are exact.
-/

namespace SeQuant.Arith

/-- The arguments: a number that is not finite throws. -/
inductive FloatVal where
  | nan
  | inf
  | fin (x : ℚ)

/-- The mediant (83-84); the constructor of `fraction` reduces. -/
def mediant (l u : ℚ) : ℚ := ((l.num + u.num : ℤ) : ℚ) / (((l.den + u.den : ℕ) : ℤ) : ℚ)

/-- The loop (82-95) with at most `n` rounds; `none` if it throws (96-99). -/
def sbLoop (base : ℤ) (fp fm : ℚ) : Nat → ℚ → ℚ → Option ℚ
  | 0, _, _ => none
  | n + 1, l, u =>
    let mid := mediant l u
    if (mid.den : ℚ) * fp < mid.num then sbLoop base fp fm n l mid
    else if (mid.num : ℚ) < mid.den * fm then sbLoop base fp fm n mid u
    else some (((mid.den * base + mid.num : ℤ) : ℚ) / ((mid.den : ℤ) : ℚ))

/-- `sbtree` (67-100). -/
def sbtree (maxNiter : Nat) (x tol : ℚ) : Option ℚ :=
  let base := ⌊x⌋
  let f := x - base
  if f < tol then some base
  else if 1 - tol < f then some ((base + 1 : ℤ) : ℚ)
  else sbLoop base (f + tol) (f - tol) maxNiter 0 1

/-- `to_rational` (57-105). -/
def toRational (maxNiter : Nat) (x : FloatVal) (eps : ℚ) : Option ℚ :=
  match x with
  | .nan => none
  | .inf => none
  | .fin x => if eps = 0 then some x else sbtree maxNiter x eps

end SeQuant.Arith
