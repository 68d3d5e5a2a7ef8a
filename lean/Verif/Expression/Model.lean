/-!
# Expression trees: construction, cloning, expansion, flattening, local simplification, collection of like terms

Transcribes `SeQuant/core/expressions/{product,sum,constant}.hpp`, `expr.cpp`, `expr_operators.hpp` and `expr_algorithms.cpp`.

Simplifications, here and in all definitions below:
* shared pointers are values: there is no aliasing (aliasing is treated separately, see `selfAppendLoop` in `BuildProps` and `aliasAcc` in `AccumModel`);
* every leaf other than `Constant` (variable, power, tensor, operator, ...) is an `atom` of an abstract type;
* memoized hash values are not modelled;
* `CProduct` and `NCProduct` have the `type_id` of `Product` and become a `Product` when cloned; they are not distinguished;
* logging is dropped.
-/

namespace SeQuant.Expression

/-- What the generic algorithms ask an atom: `is_zero` (expr.hpp:72, power.hpp:77-80) and the result of `Power::flatten`
(power.hpp:96-173; `none` = left alone, also for every atom that is not a power). -/
class Atoms (K A : Type) where
  isZero : A → Bool
  flat : A → Option (K ⊕ A)

/-- Expressions.  `sum ci l`: `ci` is `constant_summand_idx_` (sum.hpp:300). -/
inductive Expr (K A : Type) where
  | const (c : K)
  | atom (a : A)
  | prod (c : K) (l : List (Expr K A))
  | sum (ci : Option Nat) (l : List (Expr K A))

variable {K A : Type}

/-- `Product::Flatten` (product.hpp:35). -/
inductive Flatten | Once | Recursively | No
  deriving DecidableEq

/-- The mode used for subfactors (product.hpp:171-172). -/
def Flatten.sub : Flatten → Flatten
  | .Once => .No
  | _ => .Recursively

abbrev PState (K A : Type) := K × List (Expr K A)
abbrev SState (K A : Type) := Option Nat × List (Expr K A)

def Expr.isSum : Expr K A → Bool
  | .sum _ _ => true
  | _ => false

def Expr.isProd : Expr K A → Bool
  | .prod _ _ => true
  | _ => false

def Expr.isConst : Expr K A → Bool
  | .const _ => true
  | _ => false

mutual
def Expr.depth : Expr K A → Nat
  | .const _ => 0
  | .atom _ => 0
  | .prod _ l => depthL l + 1
  | .sum _ l => depthL l + 1
def depthL : List (Expr K A) → Nat
  | [] => 0
  | e :: l => max e.depth (depthL l)
end

section ops

variable [Mul K] [Add K] [Zero K] [One K] [Neg K] [DecidableEq K] [Atoms K A]

/-- `is_zero` (expr.hpp:72, constant.hpp:115, product.hpp:274). -/
def Expr.isZero : Expr K A → Bool
  | .const c => decide (c = 0)
  | .prod c _ => decide (c = 0)
  | .atom a => Atoms.isZero K a
  | .sum _ _ => false

mutual
/-- `Product::append(1, factor, mode)` (product.hpp:152-179) on the state (`scalar_`, `factors_`); `cl` is `clone`. -/
def pAppend (cl : Expr K A → Expr K A) (m : Flatten) (st : PState K A) : Expr K A → PState K A
  | .const c => (st.1 * c, st.2)
  | .prod c l => if m = .No then (st.1, st.2 ++ [cl (.prod c l)]) else pAppendAll cl m.sub (st.1 * c, st.2) l
  | .atom a => (st.1, st.2 ++ [cl (.atom a)])
  | .sum ci l => (st.1, st.2 ++ [cl (.sum ci l)])
/-- The loop of the constructors and of line 169. -/
def pAppendAll (cl : Expr K A → Expr K A) (m : Flatten) (st : PState K A) : List (Expr K A) → PState K A
  | [] => st
  | f :: l => pAppendAll cl m (pAppend cl m st f) l
end

mutual
/-- `Product::prepend(1, factor, mode)` (product.hpp:225-252). -/
def pPrepend (cl : Expr K A → Expr K A) (m : Flatten) (st : PState K A) : Expr K A → PState K A
  | .const c => (st.1 * c, st.2)
  | .prod c l =>
    if m = .No then (st.1 * c, cl (.prod c l) :: st.2) else pPrependAll cl m.sub (st.1 * c, st.2) l
  | .atom a => (st.1, cl (.atom a) :: st.2)
  | .sum ci l => (st.1, cl (.sum ci l) :: st.2)
/-- The loop of line 242. -/
def pPrependAll (cl : Expr K A → Expr K A) (m : Flatten) (st : PState K A) : List (Expr K A) → PState K A
  | [] => st
  | f :: l => pPrependAll cl m (pPrepend cl m st f) l
end

/-- `*summands_[i] += c` (sum.hpp:137, constant.hpp:92-99).  If `summands_[i]` is not a `Constant` the assertion of line 135
fails; the model then leaves the list alone.  `WF` (Spec) excludes this and is shown to be preserved. -/
def addAt (l : List (Expr K A)) (i : Nat) (c : K) : List (Expr K A) :=
  match l[i]? with
  | some (.const d) => l.set i (.const (d + c))
  | _ => l

mutual
/-- `Sum::append` (sum.hpp:127-151). -/
def sAppend (cl : Expr K A → Expr K A) (st : SState K A) : Expr K A → SState K A
  | .const c =>
    if c = 0 then st
    else match st.1 with
      | some i => (some i, addAt st.2 i c)
      | none => (some st.2.length, st.2 ++ [.const c])
  | .atom a => if Expr.isZero (.atom a : Expr K A) then st else (st.1, st.2 ++ [cl (.atom a)])
  | .prod c l => if Expr.isZero (.prod c l) then st else (st.1, st.2 ++ [cl (.prod c l)])
  | .sum _ l => sAppendAll cl st l
/-- The loop of the constructors and of line 148. -/
def sAppendAll (cl : Expr K A → Expr K A) (st : SState K A) : List (Expr K A) → SState K A
  | [] => st
  | s :: l => sAppendAll cl (sAppend cl st s) l
end

mutual
/-- `Sum::prepend` (sum.hpp:155-182). -/
def sPrepend (cl : Expr K A → Expr K A) (st : SState K A) : Expr K A → SState K A
  | .const c =>
    if c = 0 then st
    else match st.1 with
      | some i => (some i, addAt st.2 i c)
      | none => (some 0, .const c :: st.2)
  | .atom a => if Expr.isZero (.atom a : Expr K A) then st else (st.1.map (· + 1), cl (.atom a) :: st.2)
  | .prod c l => if Expr.isZero (.prod c l) then st else (st.1.map (· + 1), cl (.prod c l) :: st.2)
  | .sum _ l => sPrependAll cl st l
/-- The loop of line 179. -/
def sPrependAll (cl : Expr K A → Expr K A) (st : SState K A) : List (Expr K A) → SState K A
  | [] => st
  | s :: l => sPrependAll cl (sPrepend cl st s) l
end

/-- `clone` (product.hpp:351-363, sum.hpp:253-259, constant.hpp:78).  The subexpressions are cloned and then appended, and
`append` clones once more.  The first argument bounds the depth; `clone_stable` (Shape) shows that any sufficient bound gives the
same result. -/
def cloneF : Nat → Expr K A → Expr K A
  | n + 1, .prod c l =>
    let st := (l.map (cloneF n)).foldl (fun st f => pAppend (cloneF n) .No st f) (c, [])
    .prod st.1 st.2
  | n + 1, .sum _ l =>
    let st := (l.map (cloneF n)).foldl (fun st f => sAppend (cloneF n) st f) (none, [])
    .sum st.1 st.2
  | _, e => e

def clone (e : Expr K A) : Expr K A := cloneF e.depth e

/-- `Product(scalar, begin, end, mode)` (product.hpp:131-135). -/
def mkProd (m : Flatten) (c : K) (l : List (Expr K A)) : Expr K A :=
  let st := pAppendAll clone m (c, []) l
  .prod st.1 st.2

/-- `Sum(begin, end)` (sum.hpp:57-62). -/
def mkSum (l : List (Expr K A)) : Expr K A :=
  let st := sAppendAll clone (none, []) l
  .sum st.1 st.2

/-! ### Operators -/

/-- `operator*` (expr_operators.hpp:25-48). -/
def mulE (x y : Expr K A) : Expr K A :=
  match x, y with
  | .const a, .const b => .const (a * b)
  | x, y =>
    if !x.isProd && !y.isProd then mkProd .Recursively 1 [x, y]
    else if x.isProd then
      match clone x with
      | .prod c l => let st := pAppend clone .Recursively (c, l) y; .prod st.1 st.2
      | e => e
    else
      match clone y with
      | .prod c l => let st := pPrepend clone .Recursively (c, l) x; .prod st.1 st.2
      | e => e

/-- `operator+` (expr_operators.hpp:70-86). -/
def addE (x y : Expr K A) : Expr K A :=
  if !x.isSum && !y.isSum then mkSum [x, y]
  else if x.isSum then
    match clone x with
    | .sum ci l => let st := sAppend clone (ci, l) y; .sum st.1 st.2
    | e => e
  else
    match clone y with
    | .sum ci l => let st := sPrepend clone (ci, l) x; .sum st.1 st.2
    | e => e

/-- `-x` as it appears in `operator-` (expr_operators.hpp:93-94). -/
def negTerm : Expr K A → Expr K A
  | .const c => .const (-c)
  | e => mkProd .Recursively (-1) [e]

/-- `operator-` (expr_operators.hpp:88-105). -/
def subE (x y : Expr K A) : Expr K A :=
  if !x.isSum then mkSum [x, negTerm y]
  else
    match clone x with
    | .sum ci l => let st := sAppend clone (ci, l) (negTerm y); .sum st.1 st.2
    | e => e

/-- `ExprPtr::operator+=` (expr.cpp:112-126); `none` is the null pointer.  The arguments are distinct objects. -/
def addAssign (x y : Option (Expr K A)) : Option (Expr K A) :=
  match x, y with
  | x, none => x
  | none, some y => some (clone y)
  | some (.sum ci l), some y => let st := sAppend clone (ci, l) y; some (.sum st.1 st.2)
  | some (.const a), some (.const b) => some (.const (a + b))
  | some x, some y => some (mkSum [x, y])

/-- `ExprPtr::operator-=` (expr.cpp:128-142, sum.hpp:269-276). -/
def subAssign (x y : Option (Expr K A)) : Option (Expr K A) :=
  match x, y with
  | x, none => x
  | none, some y => some (mulE (.const (-1)) (clone y))
  | some (.sum ci l), some y => let st := sAppend clone (ci, l) (negTerm y); some (.sum st.1 st.2)
  | some (.const a), some (.const b) => some (.const (a + -b))
  | some x, some y => some (mkSum [x, mkProd .Recursively (-1) [y]])

/-- `ExprPtr::operator*=` (expr.cpp:144-158, product.hpp:365-372). -/
def mulAssign (x y : Option (Expr K A)) : Option (Expr K A) :=
  match x, y with
  | x, none => x
  | none, some y => some (clone y)
  | some (.prod c l), some (.const b) => some (.prod (c * b) l)
  | some (.prod c l), some y => let st := pAppend clone .Recursively (c, l) y; some (.prod st.1 st.2)
  | some (.const a), some (.const b) => some (.const (a * b))
  | some x, some y => some (mkProd .Recursively 1 [x, y])

/-! ### expand -/

/-- Splits a list of factors at the first `Sum`. -/
def splitSum : List (Expr K A) → Option (List (Expr K A) × List (Expr K A) × List (Expr K A))
  | [] => none
  | .sum _ ss :: l => some ([], ss, l)
  | e :: l => (splitSum l).map fun (p, ss, q) => (e :: p, ss, q)

/-- `expand_product` (expr_algorithms.cpp:138-169); `none` = unchanged. -/
def expandProduct (c : K) (l : List (Expr K A)) : Option (Expr K A) :=
  match splitSum l with
  | none => none
  | some (p, ss, q) =>
    let st := ss.foldl (fun st s => sAppend clone st (mkProd .Recursively c (p.map clone ++ s :: q.map clone)))
      ((none, []) : SState K A)
    some (.sum st.1 st.2)

/-- The loop of `expand_sum` (expr_algorithms.cpp:180-216): `done` = the summands before the current one, `res` = `result`. -/
def expandSumLoop (done : List (Expr K A)) (res : Option (SState K A)) : List (Expr K A) → Option (SState K A)
  | [] => res
  | e :: l =>
    let start := res.getD (done.foldl (fun st x => sAppend clone st x) (none, []))
    let res' := match e with
      | .prod c fs =>
        match expandProduct c fs with
        | some e' => some (sAppend clone start e')
        | none => res.map fun st => sAppend clone st e
      | .sum _ _ => some (sAppend clone start e)
      | _ => res.map fun st => sAppend clone st e
    expandSumLoop (done ++ [e]) res' l

/-- `expand_sum` (expr_algorithms.cpp:172-231): new expression and whether it changed. -/
def expandSum (ci : Option Nat) (l : List (Expr K A)) : Expr K A × Bool :=
  let r := expandSumLoop [] none l
  let st := r.getD (ci, l)
  match st.2 with
  | [] => (.const 0, true)
  | [e] => (e, true)
  | _ => (.sum st.1 st.2, r.isSome)

/-- `ExpandVisitor::expand` (expr_algorithms.cpp:234-241). -/
def expandStep : Expr K A → Expr K A × Bool
  | .prod c l => match expandProduct c l with
    | some e => (e, true)
    | none => (.prod c l, false)
  | .sum ci l => expandSum ci l
  | e => (e, false)

/-- `while (step(expr)) {}`; `none` = not finished within the fuel. -/
def loop (step : Expr K A → Expr K A × Bool) : Nat → Expr K A → Option (Expr K A)
  | 0, _ => none
  | n + 1, e => if (step e).2 then loop step n (step e).1 else some (step e).1

mutual
/-- `expr->visit(visitor); visitor(expr)` for a visitor that takes `ExprPtr&` (expr.hpp:397-422): children first, each child after
its own children. -/
def visit (f : Expr K A → Option (Expr K A)) : Expr K A → Option (Expr K A)
  | .const c => f (.const c)
  | .atom a => f (.atom a)
  | .prod c l => do f (.prod c (← visitL f l))
  | .sum ci l => do f (.sum ci (← visitL f l))
def visitL (f : Expr K A → Option (Expr K A)) : List (Expr K A) → Option (List (Expr K A))
  | [] => some []
  | e :: l => do return (← visit f e) :: (← visitL f l)
end

/-- `expand` (expr_algorithms.cpp:244-249). -/
def expand (fuel : Nat) (e : Expr K A) : Option (Expr K A) := visit (loop expandStep fuel) e

/-! ### flatten -/

mutual
/-- `flatten` (expr_algorithms.cpp:261-299).  `flatten(subexpr)` assigns to the subexpression, so the pointers compared on line 276
are always equal and the parent is rebuilt exactly if a flattened subexpression has the type of the parent. -/
def flatten : Expr K A → Expr K A
  | .const c => .const c
  | .atom a => .atom a
  | .prod c l =>
    match flattenP c [] none l with
    | (_, some st) => .prod st.1 st.2
    | (l', none) => .prod c l'
  | .sum ci l =>
    match flattenS [] none l with
    | (_, some st) => .sum st.1 st.2
    | (l', none) => .sum ci l'
def flattenP (c : K) (done : List (Expr K A)) (res : Option (PState K A)) :
    List (Expr K A) → List (Expr K A) × Option (PState K A)
  | [] => (done, res)
  | e :: l =>
    let e' := flatten e
    match res with
    | some st => flattenP c (done ++ [e']) (some (pAppend clone .Recursively st e')) l
    | none =>
      if e'.isProd then
        flattenP c (done ++ [e']) (some (pAppend clone .Recursively (pAppendAll clone .Recursively (c, []) done) e')) l
      else flattenP c (done ++ [e']) none l
def flattenS (done : List (Expr K A)) (res : Option (SState K A)) :
    List (Expr K A) → List (Expr K A) × Option (SState K A)
  | [] => (done, res)
  | e :: l =>
    let e' := flatten e
    match res with
    | some st => flattenS (done ++ [e']) (some (sAppend clone st e')) l
    | none =>
      if e'.isSum then
        flattenS (done ++ [e']) (some (sAppend clone (sAppendAll clone (none, []) done) e')) l
      else flattenS (done ++ [e']) none l
end

/-! ### rapid_simplify -/

/-- `Power::flatten` on a factor. -/
def flatAtom : Expr K A → Expr K A
  | .atom a => match (Atoms.flat a : Option (K ⊕ A)) with
    | some (.inl c) => .const c
    | some (.inr b) => .atom b
    | none => .atom a
  | e => e

/-- The loop of `simplify_product` (expr_algorithms.cpp:344-354): powers are flattened up to and including the first product or
constant; whether one was found. -/
def scanFactors : List (Expr K A) → List (Expr K A) × Bool
  | [] => ([], false)
  | e :: l =>
    let e' := flatAtom e
    if e'.isProd || e'.isConst then (e' :: l, true)
    else let r := scanFactors l; (e' :: r.1, r.2)

/-- `simplify_product` (expr_algorithms.cpp:337-378). -/
def simplifyProduct (c : K) (l : List (Expr K A)) : Expr K A × Bool :=
  let r := scanFactors l
  let st := if r.2 then pAppendAll clone .Recursively (c, []) r.1 else (c, r.1)
  if st.1 = 0 then (.const 0, true)
  else match st.2 with
    | [] => (.const st.1, true)
    | [e] => if st.1 = 1 then (e, true) else (.prod st.1 [e], r.2)
    | l' => (.prod st.1 l', r.2)

/-- The scan of `simplify_sum` (expr_algorithms.cpp:397-414); `n` = `nconst`. -/
def sumNeedsRebuild (n : Nat) : List (Expr K A) → Bool
  | [] => false
  | .sum _ _ :: _ => true
  | .const c :: l => if c = 0 then true else if n + 1 = 2 then true else sumNeedsRebuild (n + 1) l
  | _ :: l => sumNeedsRebuild n l

/-- `simplify_sum` (expr_algorithms.cpp:383-422). -/
def simplifySum (ci : Option Nat) (l : List (Expr K A)) : Expr K A × Bool :=
  match l with
  | [] => (.const 0, true)
  | [e] => (e, true)
  | l => if sumNeedsRebuild 0 l then (mkSum l, true) else (.sum ci l, false)

/-- `RapidSimplifyVisitor::simplify` (expr_algorithms.cpp:425-433). -/
def simplifyStep : Expr K A → Expr K A × Bool
  | .prod c l => simplifyProduct c l
  | .sum ci l => simplifySum ci l
  | e => (e, false)

/-- `rapid_simplify` (expr_algorithms.cpp:436-441). -/
def rapidSimplify (fuel : Nat) (e : Expr K A) : Option (Expr K A) := visit (loop simplifyStep fuel) e

/-- `non_canon_simplify` (expr_algorithms.cpp:477-481). -/
def nonCanonSimplify (fuel : Nat) (e : Expr K A) : Option (Expr K A) := do rapidSimplify fuel (← expand fuel e)

end ops

end SeQuant.Expression
