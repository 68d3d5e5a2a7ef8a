import Verif.Expression.Model
import Mathlib.Algebra.Field.Defs

/-!
# Lie similarity transformation and screening of vacuum averages (domain/mbpt/utils.cpp)

Expressions, operators `*`, `+`, `-`, `+=`, `-=`, `clone` and `expand` are those of `SeQuant.Expression`.  The functions of other
files that are called are parameters (`Ops`): `simplify` and `transform_sum_expr` (modelled and proved to preserve values
elsewhere, C13 and C16) and the type tests of leaves.  `none` = an exception, a failed assertion, or fuel exhausted.
-/

namespace SeQuant.Lst

open SeQuant.Expression

variable {K A : Type} [Field K] [DecidableEq K] [Atoms K A]

/-- What the code calls. -/
structure Ops (K A : Type) where
  /-- `is<op_t>()`. -/
  isOp : A → Bool
  /-- `is<Variable>()`. -/
  isVar : A → Bool
  /-- `simplify`. -/
  simp : Expr K A → Option (Expr K A)
  /-- `transform_sum_expr` applied to the results of the tasks (sum.hpp:402-429). -/
  acc : List (Expr K A) → Option (Expr K A)
  /-- `op::can_change_qns(term, qns_t{})` (op.hpp). -/
  canChange : Expr K A → Bool

/-- `LSTOptions` (utils.hpp:18-34) without `skip_clone`. -/
structure Opts where
  unitary : Bool
  connected : Bool

/-- The body of the loop up to line 43 (utils.cpp:25-43): `op_Sk_comm_w_S`.  `Bd` is the value of `adjoint(B)`. -/
def comm (o : Opts) (B Bd op : Expr K A) : Option (Expr K A) :=
  if o.connected then
    if o.unitary then addAssign (some (mulE op B)) (some (mulE Bd op)) else some (mulE op B)
  else
    if o.unitary then
      subAssign (some (subE (mulE op B) (mulE B op))) (some (subE (mulE op Bd) (mulE Bd op)))
    else some (subE (mulE op B) (mulE B op))

/-- The loop of `transform` (utils.cpp:24-48) for `k, k+1, …`, `m` iterations left. -/
def loop (P : Ops K A) (o : Opts) (B Bd : Expr K A) : Nat → Nat → Expr K A → Expr K A → Option (Expr K A)
  | 0, _, result, _ => some result
  | m + 1, k, result, op => do
    let c ← comm o B Bd op
    let op' ← P.simp (mulE (.const ((1 : K) / (k : K))) c)
    let result' ← addAssign (some result) (some op')
    loop P o B Bd m (k + 1) result' op'

/-- `transform` (utils.cpp:19-50). -/
def transform (P : Ops K A) (o : Opts) (B Bd : Expr K A) (n : Nat) (e : Expr K A) : Option (Expr K A) :=
  loop P o B Bd n 1 e e

/-- `lst` (utils.cpp:12-82).  The first argument is fuel for the recursion and for `expand`. -/
def lst (P : Ops K A) (o : Opts) (B Bd : Expr K A) (n : Nat) : Nat → Bool → Expr K A → Option (Expr K A)
  | 0, _, _ => none
  | f + 1, skip, e =>
    if n = 0 then some e else
    match (if skip then e else clone e) with
    | .atom a => if P.isOp a then transform P o B Bd n (.atom a) else if P.isVar a then some (.atom a) else none
    | .prod c l =>
      if l.any Expr.isSum then do
        let e1 ← expand f (.prod c l)
        let e2 ← P.simp e1
        lst P o B Bd n f true e2
      else transform P o B Bd n (.prod c l)
    | .sum _ l => do P.acc (← l.mapM (lst P o B Bd n f true))
    | .const c => some (.const c)

/-- `screen_vac_av` (utils.cpp:84-119). -/
def screen (P : Ops K A) : Nat → Bool → Expr K A → Option (Expr K A)
  | 0, _, _ => none
  | f + 1, skip, e =>
    match (if skip then e else clone e) with
    | .atom a => if P.isOp a then some (.const 0) else if P.isVar a then some (.atom a) else none
    | .prod c l =>
      if l.any Expr.isSum then do
        let e1 ← expand f (.prod c l)
        let e2 ← P.simp e1
        screen P f true e2
      else some (if P.canChange (.prod c l) then .prod c l else .const 0)
    | .sum _ l => do P.acc (← l.mapM (screen P f true))
    | .const c => some (.const c)

end SeQuant.Lst
