import Mathlib.Data.Rat.Defs
import Mathlib.Data.Rat.Lemmas
import Mathlib.Algebra.Order.Ring.Rat

/-!
# Complex rationals and powers

`Complex<rational>` (core/complex.hpp), the scalar of `Constant` (core/expressions/constant.hpp:37), and `Power`
(core/expressions/power.hpp:17-264).

Simplifications:
* `rational` is `cpp_rational` (core/rational.hpp:17), exact and unbounded: `ℚ`; division by zero throws `std::overflow_error`;
* labels of variables are numbers;
* an expression that a power meets is a constant, a variable or a power; anything else is `other` (never a base, never equal to one);
* `boost::multiprecision::sqrt(p, rem)` gives the integer root and the remainder.
-/

namespace SeQuant.Scalar

/-- Ways to fail. -/
inductive Err
  /-- `std::overflow_error` of `cpp_rational`. -/
  | divByZero
  /-- `SEQUANT_ASSERT`. -/
  | assertion
  /-- `Exception("... not valid for that")`. -/
  | notValid
deriving DecidableEq, Repr

/-- `Complex<rational>` (complex.hpp:18-22). -/
structure Cplx where
  /-- `re` -/
  re : ℚ
  /-- `im` -/
  im : ℚ
deriving DecidableEq, Repr

namespace Cplx

/-- `Complex(T real, T imag = 0)` (complex.hpp:30). -/
def ofRat (x : ℚ) : Cplx := ⟨x, 0⟩

/-- `is_zero` (complex.hpp:39). -/
def isZero (z : Cplx) : Bool := decide (z.re = 0 ∧ z.im = 0)

/-- `is_identity` (complex.hpp:40). -/
def isIdentity (z : Cplx) : Bool := decide (z.re = 1 ∧ z.im = 0)

/-- `operator+=(const T&)` (complex.hpp:61-64). -/
def addScalar (z : Cplx) (x : ℚ) : Cplx := { z with re := z.re + x }

/-- `operator-=(const T&)` (complex.hpp:65-68). -/
def subScalar (z : Cplx) (x : ℚ) : Cplx := { z with re := z.re - x }

/-- `operator*=(const T&)` (complex.hpp:69-73). -/
def mulScalar (z : Cplx) (x : ℚ) : Cplx := ⟨z.re * x, z.im * x⟩

/-- `operator*(const U&, const Complex<T>&)` (complex.hpp:132-140). -/
def scalarMul (x : ℚ) (z : Cplx) : Cplx := ⟨x * z.re, x * z.im⟩

/-- `operator+=(const Complex<X>&)`, `operator+` (complex.hpp:75-80, 106-109). -/
def add (z w : Cplx) : Cplx := ⟨z.re + w.re, z.im + w.im⟩

/-- `operator-=(const Complex<X>&)`, `operator-` (complex.hpp:81-86, 111-114). -/
def sub (z w : Cplx) : Cplx := ⟨z.re - w.re, z.im - w.im⟩

/-- Unary `operator-` (complex.hpp:101-104). -/
def neg (z : Cplx) : Cplx := ⟨-z.re, -z.im⟩

/-- `operator*=(const Complex<X>&)`, `operator*` (complex.hpp:87-92, 116-120). -/
def mul (z w : Cplx) : Cplx := ⟨z.re * w.re - z.im * w.im, z.re * w.im + z.im * w.re⟩

/-- `norm_squared` (complex.hpp:122-125). -/
def normSq (z : Cplx) : ℚ := z.re * z.re + z.im * z.im

/-- `conj` (complex.hpp:212-215). -/
def conj (z : Cplx) : Cplx := ⟨z.re, -z.im⟩

/-- `1 / x` of `cpp_rational`. -/
def ratInv (x : ℚ) : Except Err ℚ := if x = 0 then .error .divByZero else .ok (1 / x)

/-- `operator/(const Complex<T>&, const Complex<T>&)` (complex.hpp:127-130). -/
def div (z w : Cplx) : Except Err Cplx := (ratInv w.normSq).map fun n => scalarMul n (z.mul w.conj)

/-- `operator/(const U&, const Complex<T>&)` (complex.hpp:142-145). -/
def scalarDiv (x : ℚ) (w : Cplx) : Except Err Cplx := (ratInv w.normSq).map fun n => scalarMul n (scalarMul x w.conj)

/-- `operator==(const Complex<T>&, const T&)` (complex.hpp:157-189). -/
def eqScalar (z : Cplx) (x : ℚ) : Bool := decide (z.re = x ∧ z.im = 0)

/-- `abs` for types that are not floating point (complex.hpp:201-210). -/
def abs (z : Cplx) : Except Err ℚ :=
  if z.re = 0 ∨ z.im = 0 then .ok (if z.im = 0 then |z.re| else |z.im|) else .error .assertion

end Cplx

/-- What may be the base of a power (power.hpp:33): a constant, or a variable with its mark of conjugation
(variable.hpp:61-62). -/
inductive Base
  | const (z : Cplx)
  | var (label : Nat) (conjugated : Bool)
deriving DecidableEq, Repr

/-- `Power` (power.hpp:229-231). -/
structure Pow where
  /-- `base_` -/
  base : Base
  /-- `exponent_` -/
  exponent : ℚ
  /-- `conjugated_` -/
  conjugated : Bool
deriving DecidableEq, Repr

/-- Expressions as far as powers look at them. -/
inductive Sc
  /-- `Constant` or `Variable` -/
  | base (b : Base)
  | pow (p : Pow)
  /-- any other expression -/
  | other (n : Nat)
deriving DecidableEq, Repr

/-- `Constant::adjoint` (expr.cpp:192-195), `Variable::adjoint` (expr.cpp:204,216). -/
def Base.adjoint : Base → Base
  | .const z => .const z.conj
  | .var l c => .var l (!c)

/-- `Power(ExprPtr base, exponent_type exponent)` (power.hpp:30-40); `none` is a null pointer. -/
def mkPow (b : Option Sc) (e : ℚ) : Except Err Pow :=
  match b with
  | none => .error .assertion
  | some (.base b) =>
    match b with
    | .const z => if !z.isZero || decide (0 ≤ e) then .ok ⟨.const z, e, false⟩ else .error .assertion
    | .var l c => .ok ⟨.var l c, e, false⟩
  | some _ => .error .assertion

namespace Pow

/-- `Power::is_zero` (power.hpp:77-80). -/
def isZero (p : Pow) : Bool :=
  decide (0 < p.exponent) && match p.base with
    | .const z => z.isZero
    | .var _ _ => false

/-- `conjugate`, `adjoint` (power.hpp:69-72, 186). -/
def conjugate (p : Pow) : Pow := { p with conjugated := !p.conjugated }

/-- `clone` (power.hpp:179-183). -/
def clone (p : Pow) : Except Err Pow :=
  (mkPow (some (.base p.base)) p.exponent).map fun q => if p.conjugated then q.conjugate else q

/-- `operator*=` (power.hpp:196-226). -/
def mulAssign (p : Pow) (that : Sc) : Except Err Pow :=
  match that with
  | .pow q =>
    if p.conjugated = q.conjugated ∧ p.base = q.base then .ok { p with exponent := p.exponent + q.exponent }
    else .error .notValid
  | .base b =>
    match p.base, b with
    | .var l c, .var l' c' =>
      if l = l' ∧ (c ^^ p.conjugated) = c' then .ok { p with exponent := p.exponent + 1 } else .error .notValid
    | _, _ =>
      if p.conjugated = false ∧ p.base = b then .ok { p with exponent := p.exponent + 1 } else .error .notValid
  | .other _ => .error .notValid

end Pow

/-- The loop of repeated squaring (power.hpp:164-168). The first argument bounds the number of rounds; `n` rounds are
enough for the exponent `n`. -/
def powLoop : Nat → Nat → Cplx → Cplx → Cplx
  | 0, _, value, _ => value
  | f + 1, n, value, b =>
    if n = 0 then value
    else powLoop f (n / 2) (if n % 2 ≠ 0 then value.mul b else value) (if n / 2 > 0 then b.mul b else b)

/-- `boost::multiprecision::sqrt(p, rem)`: root and remainder. -/
def sqrtRem (p : Int) : Int × Int := (Int.sqrt p, p - Int.sqrt p * Int.sqrt p)

/-- The base that the loop raises to the numerator of the exponent (power.hpp:136-156); `none`: the power is left alone. -/
def loopBase (z : Cplx) (e : ℚ) : Option Cplx :=
  if e.den = 1 then some z
  else if e.den = 2 ∧ z.im = 0 ∧ 0 ≤ z.re then
    let p := sqrtRem z.re.num
    let q := sqrtRem z.re.den
    if p.2 ≠ 0 ∨ q.2 ≠ 0 then none else some (.ofRat ((p.1 : ℚ) / (q.1 : ℚ)))
  else none

/-- `Power::flatten` (power.hpp:96-173). -/
def flatten : Sc → Except Err Sc
  | .pow p =>
    if p.exponent = 1 then .ok (.base (if p.conjugated then p.base.adjoint else p.base))
    else if p.exponent = 0 then .ok (.base (.const (.ofRat 1)))
    else match p.base with
      | .var _ _ => .ok (.pow p)
      | .const z =>
        if z = .ofRat 1 then .ok (.base (.const (.ofRat 1)))
        else match loopBase z p.exponent with
          | none => .ok (.pow p)
          | some b =>
            let value := powLoop p.exponent.num.natAbs p.exponent.num.natAbs (.ofRat 1) b
            (if p.exponent.num < 0 then (Cplx.ofRat 1).div value else .ok value).map fun v =>
              .base (.const (if p.conjugated then v.conj else v))
  | e => .ok e

end SeQuant.Scalar
