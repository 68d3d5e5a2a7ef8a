import Verif.Scalar.Model
import Mathlib.Algebra.Field.Basic
import Mathlib.Algebra.Star.Basic
import Mathlib.Data.List.Dedup

/-!
# Export to Python

The generators for NumPy and PyTorch (core/export/python_einsum.hpp) and the text of powers (core/export/utils.cpp).

Simplifications:
* text is a list of tokens; a call of `einsum` is one token that holds the subscripts and the operands;
* labels of indices and names are lists of bytes (UTF-8), the name of a tensor or variable in the text is a number except in the part on names;
* `index_map` and `used_chars` are lists; characters are numbers (bytes);
* indices have no proto-indices and no slot is empty.
-/

namespace SeQuant.Einsum

open SeQuant.Scalar (Cplx Base Pow)

/-- A full label in UTF-8. -/
abbrev Label := List Nat

/-- Exceptions. -/
inductive Err
  /-- `"Too many unique indices for einsum notation"` -/
  | tooMany
  /-- `"Sum expressions should be handled by ..."` -/
  | sum
  /-- `"Unsupported expression type ..."` -/
  | unsupported
deriving DecidableEq, Repr

/-! ## Letters for indices (python_einsum.hpp:394-451) -/

/-- `index_map` and `used_chars`. -/
structure Letters where
  /-- `index_map` -/
  map : List (Label × Nat)
  /-- `used_chars` -/
  used : List Nat
deriving DecidableEq, Repr

/-- `get_einsum_index` (python_einsum.hpp:395-439); `avail` is `available_index_chars()`. -/
def getIndex (avail : List Nat) (l : Label) (s : Letters) : Except Err (Nat × Letters) :=
  match s.map.lookup l with
  | some c => .ok (c, s)
  | none =>
    let base := l.head?.getD 105
    if base ∈ s.used then
      match avail.find? fun c => decide (c ∉ s.used) with
      | none => .error .tooMany
      | some c => .ok (c, ⟨(l, c) :: s.map, c :: s.used⟩)
    else .ok (base, ⟨(l, base) :: s.map, base :: s.used⟩)

/-- `tensor_to_einsum_subscript` (python_einsum.hpp:442-451). -/
def subscript (avail : List Nat) : List Label → Letters → Except Err (List Nat × Letters)
  | [], s => .ok ([], s)
  | l :: ls, s =>
    match getIndex avail l s with
    | .error e => .error e
    | .ok (c, s) =>
      match subscript avail ls s with
      | .error e => .error e
      | .ok (cs, s) => .ok (c :: cs, s)

/-- The letters of NumPy (python_einsum.hpp:726-730). -/
def numpyChars : List Nat := (List.range 26).map (97 + ·) ++ (List.range 26).map (65 + ·)
/-- The letters of PyTorch (python_einsum.hpp:836-839). -/
def torchChars : List Nat := (List.range 26).map (97 + ·)

/-! ## Text -/

/-- A call of `einsum`: subscripts, where `none` is a comma, the subscript of the result, and the operands. -/
structure Call where
  /-- before the arrow -/
  spec : List (Option Nat)
  /-- after the arrow -/
  out : List Nat
  /-- operands -/
  names : List Nat
deriving DecidableEq, Repr

/-- Tokens of Python. -/
inductive Tok
  /-- an integer literal -/
  | int (n : Nat)
  /-- an imaginary literal `nj` -/
  | imag (n : Nat)
  /-- a name -/
  | name (x : Nat)
  /-- `np.einsum('...->...', ...)` -/
  | call (c : Call)
  /-- `np.conj(` -/
  | conjOpen
  | lpar
  | rpar
  | plus
  | minus
  | star
  | slash
  /-- `**` -/
  | pow
deriving DecidableEq, Repr

/-- `operator<<` of `cpp_rational`: the denominator is printed unless it is 1. -/
def ratToks (q : ℚ) : List Tok :=
  (if q.num < 0 then [.minus] else []) ++ [.int q.num.natAbs] ++ (if q.den = 1 then [] else [.slash, .int q.den])

/-- The same with `j` behind it: the last literal becomes imaginary. -/
def ratToksJ (q : ℚ) : List Tok :=
  (if q.num < 0 then [.minus] else []) ++ (if q.den = 1 then [.imag q.num.natAbs] else [.int q.num.natAbs, .slash, .imag q.den])

/-- `represent(Constant)` (python_einsum.hpp:180-198). -/
def constToks (z : Cplx) : List Tok :=
  if z.im ≠ 0 then [.lpar] ++ ratToks z.re ++ (if z.im < 0 then ratToksJ z.im else .plus :: ratToksJ z.im) ++ [.rpar]
  else ratToks z.re

/-- `format_power_exponent` (utils.cpp:16-31). -/
def exponentToks (e : ℚ) : List Tok :=
  if e.den = 1 then (if e.num < 0 then [.lpar, .minus, .int e.num.natAbs, .rpar] else [.int e.num.natAbs])
  else [.lpar] ++ (if e.num < 0 then [.minus] else []) ++ [.int e.num.natAbs, .slash, .int e.den] ++ [.rpar]

/-- The base of `represent(Power)` (python_einsum.hpp:202-206) and `format_power_base` (utils.cpp:33-42). -/
def baseToks : Base → List Tok
  | .const z => if z.im = 0 ∧ (z.re.den ≠ 1 ∨ z.re.num < 0) then [.lpar] ++ constToks z ++ [.rpar] else constToks z
  | .var n c => if c then [.conjOpen, .name n, .rpar] else [.name n]

/-- `represent(Power)` (python_einsum.hpp:200-211). -/
def powToks (p : Pow) : List Tok :=
  let s := baseToks p.base ++ [.pow] ++ exponentToks p.exponent
  if p.conjugated then [.conjOpen] ++ s ++ [.rpar] else s

/-! ## Expressions -/

/-- Expressions as far as the generator looks at them. -/
inductive E
  | tens (name : Nat) (idx : List Label)
  | const (z : Cplx)
  | var (n : Nat) (conjugated : Bool)
  | pow (p : Pow)
  | prod (s : Cplx) (fs : List E)
  | sum (ts : List E)
  /-- any other type, such as a normal operator -/
  | other
deriving Repr

/-- What `extract_einsum_components` collects. -/
structure St where
  /-- `einsum_spec` -/
  spec : List (Option Nat)
  /-- `tensor_names` -/
  names : List Nat
  /-- `scalar_factor` -/
  scal : List Tok
  /-- `index_map`, `used_chars` -/
  letters : Letters
deriving DecidableEq, Repr

/-- Nothing collected. -/
def St.init : St := ⟨[], [], [], ⟨[], []⟩⟩

/-- python_einsum.hpp:530-535, 539-547: one more scalar factor. -/
def addScal (s : List Tok) (t : List Tok) : List Tok := if s.isEmpty then t else s ++ [.star] ++ t

mutual
/-- `extract_einsum_components` (python_einsum.hpp:514-560). -/
def extract (avail : List Nat) : E → St → Except Err St
  | .tens n ls, st =>
    match subscript avail ls st.letters with
    | .error e => .error e
    | .ok (cs, l) => .ok ⟨(if st.spec.isEmpty then [] else st.spec ++ [none]) ++ cs.map some, st.names ++ [n], st.scal, l⟩
  | .const z, st => .ok { st with scal := addScal st.scal (constToks z) }
  | .var n _, st => .ok { st with scal := addScal st.scal [.name n] }
  | .pow p, st => .ok { st with scal := addScal st.scal (powToks p) }
  | .prod s fs, st => extractAll avail fs (if s.isIdentity then st else { st with scal := addScal st.scal (constToks s) })
  | .sum _, _ => .error .sum
  | .other, st => .ok st
/-- python_einsum.hpp:550-553 -/
def extractAll (avail : List Nat) : List E → St → Except Err St
  | [], st => .ok st
  | e :: es, st =>
    match extract avail e st with
    | .error x => .error x
    | .ok st => extractAll avail es st
end

/-- The text when operands and scalar factors are known (python_einsum.hpp:474-497, 588-610). -/
def finish (st : St) (out : List Nat) : List Tok :=
  if st.names.isEmpty then (if st.scal.isEmpty then [.int 1] else st.scal)
  else if !st.scal.isEmpty && decide (st.scal ≠ [.int 1]) then st.scal ++ [.star, .call ⟨st.spec, out, st.names⟩]
  else [.call ⟨st.spec, out, st.names⟩]

/-- `to_einsum_expr` (python_einsum.hpp:454-498). -/
def toEinsum (avail : List Nat) (e : E) (result : List Label) : Except Err (List Tok) :=
  match extract avail e St.init with
  | .error x => .error x
  | .ok st =>
    match subscript avail result st.letters with
    | .error x => .error x
    | .ok (out, _) => .ok (finish st out)

mutual
/-- `to_python_scalar_expr` (python_einsum.hpp:563-624). -/
def toScalar (avail : List Nat) : E → Except Err (List Tok)
  | .var n _ => .ok [.name n]
  | .const z => .ok (constToks z)
  | .pow p => .ok (powToks p)
  | .prod s fs =>
    match extract avail (.prod s fs) St.init with
    | .error x => .error x
    | .ok st => .ok (finish st [])
  | .sum ts =>
    match toScalars avail ts with
    | .error x => .error x
    | .ok t => .ok ([.lpar] ++ t ++ [.rpar])
  | .tens _ _ => .error .unsupported
  | .other => .error .unsupported
/-- The summands with `+` between them (python_einsum.hpp:615-618). -/
def toScalars (avail : List Nat) : List E → Except Err (List Tok)
  | [] => .ok []
  | [e] => toScalar avail e
  | e :: es =>
    match toScalar avail e with
    | .error x => .error x
    | .ok t =>
      match toScalars avail es with
      | .error x => .error x
      | .ok ts => .ok (t ++ [.plus] ++ ts)
end

/-! ## What Python does with the text

The grammar of Python for arithmetic: sums of products of powers, from left to right; a minus sign before a factor is applied after the
power. A text is evaluated token by token; open brackets are on a stack. -/

variable {K : Type}

/-- What is known inside one pair of brackets. -/
structure Frame (K : Type) where
  /-- sum of the terms before -/
  acc : K
  /-- the term is subtracted -/
  sub : Bool
  /-- product of the factors before -/
  prod : K
  /-- the factor is a divisor -/
  div : Bool
  /-- the factor has a minus sign -/
  neg : Bool
  /-- the factor as far as it is known -/
  cur : Option K
  /-- base that waits for its exponent -/
  base : Option K
  /-- the factor is a power already -/
  done : Bool
  /-- the bracket belongs to `conj` -/
  conj : Bool

/-- An open bracket. -/
def Frame.new [Zero K] [One K] (conj : Bool) : Frame K := ⟨0, false, 1, false, false, none, none, false, conj⟩

/-- What names and calls mean. -/
structure Meaning (K : Type) where
  /-- variables -/
  name : Nat → K
  /-- calls of `einsum`; `none` is an exception -/
  call : Call → Option K
  /-- `1j` -/
  I : K
  /-- `**` -/
  pow : K → K → K

variable [Field K] [StarRing K]

/-- The product including the current factor. -/
def Frame.fin (f : Frame K) : Option K :=
  f.cur.map fun v => let w := if f.neg then -v else v; if f.div then f.prod / w else f.prod * w

/-- The sum including the current term. -/
def Frame.total (f : Frame K) : Option K := f.fin.map fun t => if f.sub then f.acc - t else f.acc + t

/-- A value appears. -/
def Frame.operand (M : Meaning K) (v : K) (f : Frame K) : Option (Frame K) :=
  if f.cur.isSome then none
  else match f.base with
    | none => some { f with cur := some v }
    | some b => some { f with cur := some (M.pow b v), base := none, done := true }

/-- One token. -/
def tokStep (M : Meaning K) : List (Frame K) → Tok → Option (List (Frame K))
  | f :: r, .int n => (f.operand M (n : K)).map (· :: r)
  | f :: r, .imag n => (f.operand M ((n : K) * M.I)).map (· :: r)
  | f :: r, .name x => (f.operand M (M.name x)).map (· :: r)
  | f :: r, .call c => (M.call c).bind fun v => (f.operand M v).map (· :: r)
  | f :: r, .lpar => if f.cur.isSome then none else some (Frame.new false :: f :: r)
  | f :: r, .conjOpen => if f.cur.isSome then none else some (Frame.new true :: f :: r)
  | f :: g :: r, .rpar => f.total.bind fun v => (g.operand M (if f.conj then star v else v)).map (· :: r)
  | f :: r, .star => f.fin.map fun t => { f with prod := t, div := false, neg := false, cur := none, done := false } :: r
  | f :: r, .slash => f.fin.map fun t => { f with prod := t, div := true, neg := false, cur := none, done := false } :: r
  | f :: r, .plus =>
    if f.cur.isSome then f.total.map fun t => { f with acc := t, sub := false, prod := 1, div := false, neg := false, cur := none, done := false } :: r
    else if f.base.isSome then none else some (f :: r)
  | f :: r, .minus =>
    if f.cur.isSome then f.total.map fun t => { f with acc := t, sub := true, prod := 1, div := false, neg := false, cur := none, done := false } :: r
    else if f.base.isSome then none else some ({ f with neg := !f.neg } :: r)
  | f :: r, .pow =>
    match f.cur with
    | none => none
    | some b => if f.done then none else some ({ f with base := some b, cur := none } :: r)
  | _, _ => none

/-- Some tokens. -/
def runToks (M : Meaning K) : List Tok → List (Frame K) → Option (List (Frame K))
  | [], s => some s
  | t :: ts, s => (tokStep M s t).bind (runToks M ts)

/-- The value of a text; `none` if it is no expression or an exception is raised. -/
def evalToks (M : Meaning K) (ts : List Tok) : Option K :=
  match runToks M ts [Frame.new false] with
  | some [f] => f.total
  | _ => none

/-! ### `einsum` -/

/-- Subscripts are separated by commas. -/
def splitSpec : List (Option Nat) → List (List Nat)
  | [] => [[]]
  | none :: l => [] :: splitSpec l
  | some c :: l =>
    match splitSpec l with
    | s :: ss => (c :: s) :: ss
    | [] => [[c]]

/-- The sum over all values of some labels. -/
def sumAll {L : Type} [DecidableEq L] (dim : L → Nat) : List L → (L → Nat) → ((L → Nat) → K) → K
  | [], σ, f => f σ
  | l :: ls, σ, f => ((List.range (dim l)).map fun v => sumAll dim ls (Function.update σ l v) f).sum

/-- The extents that the operands give to letters. -/
def extents (shape : Nat → List Nat) (names : List Nat) (subs : List (List Nat)) : List (Nat × Nat) :=
  (names.zip subs).flatMap fun p => p.2.zip (shape p.1)

/-- `numpy.einsum` (library) at the element `y` of the result: letters that are not in the result are summed. It raises an exception if the
numbers of subscripts and operands differ, if the shape of an operand does not suit its subscript, if a letter has two extents (an extent of
one is no exception here), or if a letter of the result is repeated or in no operand. -/
def einsumAt (arr : Nat → List Nat → K) (shape : Nat → List Nat) (y : List Nat) (c : Call) : Option K :=
  let subs := splitSpec c.spec
  let ext := extents shape c.names subs
  if subs.length = c.names.length ∧ (∀ p ∈ c.names.zip subs, (shape p.1).length = p.2.length) ∧ (∀ p ∈ ext, ext.lookup p.1 = some p.2) ∧
      c.out.Nodup ∧ ∀ x ∈ c.out, x ∈ subs.flatten then
    some (sumAll (fun x => (ext.lookup x).getD 0) (subs.flatten.filter fun x => decide (x ∉ c.out)).dedup (fun x => y.getD (c.out.idxOf x) 0)
      fun σ => ((c.names.zip subs).map fun p => arr p.1 (p.2.map σ)).prod)
  else none

end SeQuant.Einsum
