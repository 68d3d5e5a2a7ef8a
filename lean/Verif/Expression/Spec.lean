import Verif.Expression.Model
import Mathlib.Algebra.Algebra.Basic
import Mathlib.Algebra.Algebra.Defs
import Mathlib.Algebra.BigOperators.Group.List.Basic
import Mathlib.Tactic.NoncommRing
import Mathlib.Tactic.Abel

/-!
# Specification: the value of an expression in a (noncommutative) algebra, and shape predicates

Nothing here refers to the algorithms of the model.
-/

namespace SeQuant.Expression

variable {K A R : Type} [CommRing K] [Ring R] [Algebra K R]

mutual
/-- The value of an expression when atom `a` stands for `I a`. -/
def eval (I : A → R) : Expr K A → R
  | .const c => algebraMap K R c
  | .atom a => I a
  | .prod c l => c • evalProd I l
  | .sum _ l => evalSum I l
def evalProd (I : A → R) : List (Expr K A) → R
  | [] => 1
  | e :: l => eval I e * evalProd I l
def evalSum (I : A → R) : List (Expr K A) → R
  | [] => 0
  | e :: l => eval I e + evalSum I l
end

theorem evalProd_eq (I : A → R) (l : List (Expr K A)) : evalProd I l = (l.map (eval I)).prod := by
  induction l with
  | nil => simp [evalProd]
  | cons e l ih => simp [evalProd, ih]

theorem evalSum_eq (I : A → R) (l : List (Expr K A)) : evalSum I l = (l.map (eval I)).sum := by
  induction l with
  | nil => simp [evalSum]
  | cons e l ih => simp [evalSum, ih]

/-- The interpretation is compatible with what atoms report about themselves: an atom that claims to be zero is zero, and
flattening a power does not change its value. -/
structure Interp (K : Type) {A R : Type} [CommRing K] [Ring R] [Algebra K R] [Atoms K A] (I : A → R) : Prop where
  zero : ∀ a, Atoms.isZero K a = true → I a = 0
  flat_const : ∀ a c, (Atoms.flat a : Option (K ⊕ A)) = some (.inl c) → I a = algebraMap K R c
  flat_atom : ∀ a b, (Atoms.flat a : Option (K ⊕ A)) = some (.inr b) → I a = I b

omit [CommRing K] in
mutual
/-- No sum anywhere in the expression. -/
def Expr.noSum : Expr K A → Prop
  | .const _ => True
  | .atom _ => True
  | .prod _ l => noSumL l
  | .sum _ _ => False
def noSumL : List (Expr K A) → Prop
  | [] => True
  | e :: l => e.noSum ∧ noSumL l
end

/-- Expanded: sum free, or a sum of sum-free expressions. -/
def Expr.Expanded : Expr K A → Prop
  | .sum _ l => ∀ e ∈ l, e.noSum
  | e => e.noSum

mutual
/-- No product directly inside a product, no sum directly inside a sum. -/
def Expr.Flat : Expr K A → Prop
  | .const _ => True
  | .atom _ => True
  | .prod _ l => FlatP l
  | .sum _ l => FlatS l
def FlatP : List (Expr K A) → Prop
  | [] => True
  | e :: l => (e.isProd = false ∧ e.Flat) ∧ FlatP l
def FlatS : List (Expr K A) → Prop
  | [] => True
  | e :: l => (e.isSum = false ∧ e.Flat) ∧ FlatS l
end

/-- `constant_summand_idx_`, if set, points to a `Constant`. -/
def IdxOk (st : Option Nat × List (Expr K A)) : Prop := ∀ i, st.1 = some i → ∃ c, st.2[i]? = some (.const c)

/-- `IdxOk` for the outermost sum, if the expression is one. -/
def Expr.IdxOk : Expr K A → Prop
  | .sum ci l => SeQuant.Expression.IdxOk (ci, l)
  | _ => True

end SeQuant.Expression
