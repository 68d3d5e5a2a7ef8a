import Verif.Expression.Model
import Mathlib.Data.Rat.Cast.Defs
import Mathlib.Data.Rat.Lemmas
import Mathlib.Algebra.Field.Defs

/-!
# Fusion of two products (C35)

Transcribes `SeQuant/core/optimize/fusion.cpp`.

Simplifications: shared pointers are values; `eqv` stands for `operator==` of expressions; scalars come from a field `K`, and `re c` is
the real part of `c` if its imaginary part is zero.  The outer `Option` is `none` when an assertion fails or a division by zero throws, the
inner one is `none` for the null pointer.
-/

namespace SeQuant.Optimize

open SeQuant.Expression

/-- `gcd_rational` (fusion.cpp:110-120). -/
def gcdRational (a b : ℚ) : ℚ := ((Int.gcd (a.num * b.den) (b.num * a.den) : Nat) : ℚ) / ((a.den : ℚ) * b.den)

/-- `fuse_scalar` (122-133); division by zero throws. -/
def fuseScalar (a b : ℚ) : Option (ℚ × ℚ × ℚ) :=
  let f := gcdRational a b
  if f = 0 then none
  else if a < 0 ∧ b < 0 then some (f * -1, a / f * -1, b / f * -1)
  else some (f, a / f, b / f)

variable {K A : Type} [Field K] [DecidableEq K] [Atoms K A]

/-- The loop over the zipped factors (37-42, 74-80): the equal factors at the front, taken from the first list. -/
def commonPrefix (eqv : Expr K A → Expr K A → Bool) : List (Expr K A) → List (Expr K A) → List (Expr K A)
  | a :: l, b :: r => if eqv a b then a :: commonPrefix eqv l r else []
  | _, _ => []

/-- `lift_tensor` (20-25) of a product with the given scalar and factors. -/
def liftTensor : Expr K A → Expr K A
  | .prod c [f] => if c = 1 then f else mkProd .No c [f]
  | .prod c l => mkProd .No c l
  | e => e

/-- `Product{first, last}` followed by `scale` (49-60, 88-99). -/
def scaledProd (c : K) (l : List (Expr K A)) : Expr K A :=
  match mkProd .Recursively 1 l with
  | .prod d m => .prod (d * c) m
  | e => e

/-- The scalars of both products (53-56, 92-95). -/
def fuseScalars (re : K → Option ℚ) (c d : K) : Option (ℚ × ℚ × ℚ) :=
  match re c, re d with
  | some a, some b => fuseScalar a b
  | _, _ => none

/-- `fuse_left` (34-69) of the products `c l` and `d r`. -/
def fuseLeft (eqv : Expr K A → Expr K A → Bool) (re : K → Option ℚ) (c : K) (l : List (Expr K A)) (d : K) (r : List (Expr K A)) :
    Option (Option (Expr K A)) :=
  let fac := commonPrefix eqv l r
  if fac.isEmpty then some none
  else
    match fuseScalars re c d with
    | none => none
    | some (s, x, y) =>
      let f := liftTensor (scaledProd (s : K) fac)
      let a := liftTensor (scaledProd (x : K) (l.drop fac.length))
      let b := liftTensor (scaledProd (y : K) (r.drop fac.length))
      some (some (mkProd .Recursively 1 [f, mkSum [a, b]]))

/-- `fuse_right` (71-108). -/
def fuseRight (eqv : Expr K A → Expr K A → Bool) (re : K → Option ℚ) (c : K) (l : List (Expr K A)) (d : K) (r : List (Expr K A)) :
    Option (Option (Expr K A)) :=
  let fac := commonPrefix eqv l.reverse r.reverse
  if fac.isEmpty then some none
  else
    let fac := fac.reverse
    let lsmand := (l.reverse.drop fac.length).reverse
    let rsmand := (r.reverse.drop fac.length).reverse
    match fuseScalars re c d with
    | none => none
    | some (s, x, y) =>
      let a := liftTensor (scaledProd (x : K) lsmand)
      let b := liftTensor (scaledProd (y : K) rsmand)
      let f := liftTensor (scaledProd (s : K) fac)
      some (some (mkProd .Recursively 1 [mkSum [a, b], f]))

end SeQuant.Optimize
