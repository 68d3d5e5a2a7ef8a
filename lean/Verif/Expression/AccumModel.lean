import Verif.Expression.Model

/-!
# Collecting like terms (`HashingAccumulator`) and the moving constructor of `Sum`

Objects passed to `append` are distinct from each other and from those already stored; `Alias` below treats the other case.
-/

namespace SeQuant.Expression

variable {K A : Type} [Mul K] [Add K] [Zero K] [One K] [Neg K] [DecidableEq K] [Atoms K A]

/-- Deep equality `==` of expressions and their hash values.  Both are parameters: nothing is assumed about them here. -/
structure Cmp (K A : Type) where
  eqv : Expr K A → Expr K A → Bool
  hash : Expr K A → Nat

variable (cmp : Cmp K A)

/-- Element-wise `==` of two factor lists. -/
def eqvL : List (Expr K A) → List (Expr K A) → Bool
  | [], [] => true
  | a :: l, b :: m => cmp.eqv a b && eqvL l m
  | _, _ => false

/-- `proportional_to` (expr.cpp:569-594).  Expressions of different type: lines 571-582; two atoms or two sums: line 593 (`==` is
false for atoms of different type). -/
def proportional : Expr K A → Expr K A → Bool
  | .const _, .const _ => true
  | .prod c l, .prod d m => decide (cmp.hash (.prod c l) = cmp.hash (.prod d m)) && eqvL cmp l m
  | .prod _ [f], e => cmp.eqv f e
  | .prod _ _, _ => false
  | e, .prod _ [f] => cmp.eqv f e
  | _, .prod _ _ => false
  | .atom a, .atom b => cmp.eqv (.atom a) (.atom b)
  | .sum i l, .sum j m => cmp.eqv (.sum i l) (.sum j m)
  | _, _ => false

/-- What `unordered_set::find` may return: the position of some stored element with the same hash that compares equal, or nothing if
there is none.  Which one, if there are several, is left open. -/
structure Find where
  pick : List (Expr K A) → Expr K A → Option Nat
  sound : ∀ st s i, pick st s = some i → ∃ x, st[i]? = some x ∧ cmp.hash x = cmp.hash s ∧ proportional cmp x s = true
  complete : ∀ st s, pick st s = none → ∀ x ∈ st, ¬ (cmp.hash x = cmp.hash s ∧ proportional cmp x s = true)

/-- `Product::add_identical(const Product&)` (product.hpp:374-377); `none` = assertion failure. -/
def addIdenticalP : Expr K A → Expr K A → Option (Expr K A)
  | .prod c l, .prod d m => if eqvL cmp l m then some (.prod (c + d) l) else none
  | _, _ => none

/-- `Product::add_identical(const ExprPtr&)` for an argument that is not a product (product.hpp:388-389). -/
def addIdenticalE : Expr K A → Expr K A → Option (Expr K A)
  | .prod c [f], e => if cmp.eqv f e then some (.prod (c + 1) [f]) else none
  | _, _ => none

/-- Lines 499-527 of `HashingAccumulator::append` (expr.cpp); `none` = assertion failure. -/
def accOne (F : Find cmp) (st : List (Expr K A)) (s : Expr K A) : Option (List (Expr K A)) :=
  match F.pick st s with
  | none => some (st ++ [s])
  | some i =>
    match st[i]? with
    | none => none
    | some x =>
      if s.isProd then
        if x.isProd then (addIdenticalP cmp x s).map fun y => st.set i y
        else (addIdenticalE cmp (mkProd .Recursively 1 [clone s]) x).map fun y => st.eraseIdx i ++ [y]
      else if x.isProd then (addIdenticalE cmp x s).map fun y => st.set i y
      else
        let p := pAppend clone .Recursively (1 * (1 + 1), []) s
        some (st.eraseIdx i ++ [.prod p.1 p.2])

mutual
/-- `HashingAccumulator::append` (expr.cpp:489-530). -/
def accAppend (F : Find cmp) (flat : Bool) (st : List (Expr K A)) : Expr K A → Option (List (Expr K A))
  | .sum ci l => if flat then accAll F flat st l else accOne cmp F st (.sum ci l)
  | .const c => accOne cmp F st (.const c)
  | .atom a => accOne cmp F st (.atom a)
  | .prod c l => accOne cmp F st (.prod c l)
/-- Several `append`s in a row (also the loop of line 492). -/
def accAll (F : Find cmp) (flat : Bool) (st : List (Expr K A)) : List (Expr K A) → Option (List (Expr K A))
  | [] => some st
  | s :: l => do accAll F flat (← accAppend F flat st s) l
end

/-! ### `Sum(summands&&, move_only_tag)` -/

inductive Outcome (α : Type) where
  | ok (a : α)
  /-- An iterator past the end is dereferenced. -/
  | undefined
  /-- `SEQUANT_ASSERT` fails. -/
  | assertion
  /-- The model ran out of steps (does not happen, see `moveLoop_fuel`). -/
  | fuel

/-- The loop of the moving constructor (sum.hpp:99-122): `it` and `pos` as in the code, `l` = `summands_`, `ci` =
`constant_summand_idx_`.  `++it` is done after both branches, so after an erasure `it` becomes `pos + 1`. -/
def moveLoop : Nat → List (Expr K A) → Nat → Nat → Option Nat → Outcome (SState K A)
  | 0, _, _, _, _ => .fuel
  | n + 1, l, it, pos, ci =>
    if it = l.length then .ok (ci, l)
    else match l[it]? with
      | none => .undefined
      | some s =>
        if s.isZero then moveLoop n (l.eraseIdx it) (pos + 1) pos ci
        else match s with
          | .const c =>
            match ci with
            | some i =>
              match l[i]? with
              | some (.const d) => moveLoop n ((l.set i (.const (d + c))).eraseIdx it) (pos + 1) pos ci
              | _ => .assertion
            | none => moveLoop n l (it + 1) (pos + 1) (some pos)
          | _ => moveLoop n l (it + 1) (pos + 1) ci

/-- `Sum(summands&&, move_only_tag)` (sum.hpp:96-123). -/
def moveOnly (l : List (Expr K A)) : Outcome (SState K A) := moveLoop ((l.length + 1) * (l.length + 2)) l 0 0 none

/-- `make_sum_impl` (expr.cpp:532-552): `order` stands for the order in which the set is traversed and for `ranges::sort`. -/
def accMakeSum (order : List (Expr K A) → List (Expr K A)) (st : List (Expr K A)) : Outcome (SState K A) :=
  moveOnly (order (st.filter fun e => !e.isZero))

/-- `make_expr` (expr.cpp:560-567). -/
def accMakeExpr (order : List (Expr K A) → List (Expr K A)) (st : List (Expr K A)) : Outcome (Expr K A) :=
  match st with
  | [] => .ok (.const 0)
  | [e] => .ok e
  | st => match accMakeSum order st with
    | .ok s => .ok (.sum s.1 s.2)
    | .undefined => .undefined
    | .assertion => .assertion
    | .fuel => .fuel

/-! ### The same object appended repeatedly -/

/-- `append` applied to `Product` objects that all have the same factors, given by their addresses; `sc` = the heap's scalars.  The
first object is stored itself; every later one is added *into the stored object* (expr.cpp:507). -/
def aliasAcc (sc : Nat → K) : List Nat → Option (Nat × (Nat → K))
  | [] => none
  | stored :: rest => some (stored, rest.foldl (fun sc a => fun x => if x = stored then sc stored + sc a else sc x) sc)

end SeQuant.Expression
