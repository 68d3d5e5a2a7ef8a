import Verif.Binarize.Spec

/-!
# Model of the conversion of evaluation trees to expressions

`to_expr` (`SeQuant/core/eval/eval_expr.hpp:496-529`) and what it uses of `Product` and `Sum` (`SeQuant/core/expressions/product.hpp:119-179`,
`SeQuant/core/expressions/sum.hpp:46-151`).

Simplifications: those of `Verif.Binarize.Model`; a zero is a zero constant or a product with a zero scalar.
-/

namespace SeQuant.Cse

open SeQuant.Eval SeQuant.Binarize

variable {L ι K H G : Type}

/-- The expression of a leaf. -/
def ofNX : NX L ι K → Ex L ι K
  | .const c => .const c
  | .var v => .var v
  | .ten t => .ten t

/-- `Product::append(1, factor, Flatten::No)` (product.hpp:151-179): constants go to the scalar. -/
def appendF [Mul K] (p : K × List (Ex L ι K)) : Ex L ι K → K × List (Ex L ι K)
  | .const d => (p.1 * d, p.2)
  | e => (p.1, p.2 ++ [e])

/-- The subexpressions an expression ranges over (`begin`, `end`). -/
def children : Ex L ι K → List (Ex L ι K)
  | .sum l => l
  | .prod _ l => l
  | _ => []

/-- The end of the branch for products (eval_expr.hpp:514-522); `none`: failed assertion. -/
def finishProd [Mul K] (p : K × List (Ex L ι K)) : Option (Ex L ι K) :=
  match p.2 with
  | [] => none
  | [.ten t] => some (.prod p.1 [.ten t])
  | [f] => some (.prod ((children f).foldl appendF (p.1, [])).1 ((children f).foldl appendF (p.1, [])).2)
  | l => some (.prod p.1 l)

/-- The branch for products (eval_expr.hpp:507-522). -/
def mkProd [Mul K] [One K] (l r : Ex L ι K) : Option (Ex L ι K) := finishProd (appendF (appendF (1, []) l) r)

/-- `is_zero` (constant.hpp, product.hpp:274). -/
def isZero [Zero K] [DecidableEq K] : Ex L ι K → Bool
  | .const c => decide (c = 0)
  | .prod c _ => decide (c = 0)
  | _ => false

/-- Adds a constant to the constant among the summands (sum.hpp:131-141). -/
def addConst [Add K] (c : K) : List (Ex L ι K) → List (Ex L ι K)
  | [] => [.const c]
  | .const d :: l => .const (d + c) :: l
  | e :: l => e :: addConst c l

mutual
/-- `Sum::append` (sum.hpp:127-151). -/
def addTo [Zero K] [Add K] [DecidableEq K] (l : List (Ex L ι K)) : Ex L ι K → List (Ex L ι K)
  | .sum m => addAll l m
  | .const c => if c = 0 then l else addConst c l
  | .prod c m => if c = 0 then l else l ++ [.prod c m]
  | .var v => l ++ [.var v]
  | .ten t => l ++ [.ten t]

def addAll [Zero K] [Add K] [DecidableEq K] (l : List (Ex L ι K)) : List (Ex L ι K) → List (Ex L ι K)
  | [] => l
  | e :: m => addAll (addTo l e) m
end

/-- `to_expr` (eval_expr.hpp:496-529). -/
def toExpr [Zero K] [One K] [Add K] [Mul K] [DecidableEq K] : Node L ι K H G → Option (Ex L ι K)
  | .leaf a => some (ofNX a.expr)
  | .node a l r =>
    match a.op with
    | .adjoint => some (ofNX a.expr)
    | .prod =>
      match toExpr l, toExpr r with
      | some x, some y => mkProd x y
      | _, _ => none
    | .sum =>
      match toExpr l, toExpr r with
      | some x, some y => some (.sum (addTo (addTo [] x) y))
      | _, _ => none

end SeQuant.Cse
