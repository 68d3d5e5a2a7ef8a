import Mathlib.Algebra.Order.Ring.Rat

/-!
# Selection of the largest terms (C124)

Transcribes `WK_biorthogonalization_filter_impl` (`SeQuant/domain/mbpt/biorthogonalization.cpp`:576-623) and `Sum::append` for products
(`core/expressions/sum.hpp`:127-151).

Simplifications: a product is its scalar and the rest of it; the hash value of the network of tensors is a parameter, and so is the absolute value of scalars
(`core/complex.hpp`:201-210, which fails an assertion if neither the real nor the imaginary part vanishes).
-/

namespace SeQuant.Wk

variable {K τ : Type}

/-- A summand: a product, or anything else. -/
inductive Summand (K τ : Type)
  | product (c : K) (t : τ)
  | other (t : τ)
deriving DecidableEq

/-- An expression: a sum, or anything else. -/
inductive Ex (K τ : Type)
  | sum (l : List (Summand K τ))
  | single (s : Summand K τ)
deriving DecidableEq

/-- `if (!term->is<Product>()) continue` (585). -/
def products : List (Summand K τ) → List (K × τ)
  | [] => []
  | .product c t :: l => (c, t) :: products l
  | .other _ :: l => products l

/-- `largest_coeff_terms`, in the order of the keys; terms with one hash value (595-611). -/
def update (mod : K → ℚ) (s : K × τ) : List (K × τ) → List (K × τ)
  | [] => []
  | t :: ts => if mod t.1 < mod s.1 then [s] else if mod s.1 = mod t.1 then t :: ts ++ [s] else t :: ts

/-- One pass of the loop (584-612). -/
def insert (mod : K → ℚ) (h : Nat) (s : K × τ) : List (Nat × List (K × τ)) → List (Nat × List (K × τ))
  | [] => [(h, [s])]
  | (k, ts) :: m =>
    if h < k then (h, [s]) :: (k, ts) :: m
    else if k < h then (k, ts) :: insert mod h s m
    else (k, update mod s ts) :: m

/-- The loop (584-612). -/
def collect (mod : K → ℚ) (hash : τ → Nat) (l : List (K × τ)) : List (Nat × List (K × τ)) :=
  l.foldl (fun m s => insert mod (hash s.2) s m) []

/-- `WK_biorthogonalization_filter_impl` (576-623) for a number of groups of external indices. -/
def wkFilter [Zero K] [DecidableEq K] (mod : K → ℚ) (hash : τ → Nat) (groups : Nat) : Ex K τ → Ex K τ
  | .single s => .single s
  | .sum l =>
    if groups ≤ 2 then .sum l
    else .sum ((((collect mod hash (products l)).flatMap Prod.snd).filter fun s => decide (s.1 ≠ 0)).map fun s => .product s.1 s.2)

end SeQuant.Wk
