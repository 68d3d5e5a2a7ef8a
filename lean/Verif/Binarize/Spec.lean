import Verif.Binarize.Model
import Verif.Optimize.NetProps
import Verif.Eval.EvalProps
import Mathlib.Algebra.Star.Basic

/-!
# What expressions and evaluation trees mean

An index takes the values below `dims`.  The value of an expression is a function of the values of indices.  Repeated indices are summed over
(Einstein's convention) unless they are kept: a product, including the products nested in it, is summed over all its repeated indices at once;
every summand of a sum is summed over its own repeated indices.
-/

namespace SeQuant.Binarize

open SeQuant.Eval SeQuant.Tensors SeQuant.Optimize

variable {L ι K H G : Type} [DecidableEq ι]

/-- Where the values of tensors and variables come from: a tensor is an array that depends on its label and on the spaces of its slots. -/
structure Store (L ι S K : Type) where
  sp : ι → S
  dims : ι → Nat
  /-- The array for a label, a number of slots and the spaces of the indices. -/
  arr : L → Nat → List S → List Nat → K
  var : L → K

/-- `num_slots`. -/
def Ten.slots (t : Ten L ι) : Nat := t.s.bra.length + t.s.ket.length + t.aux.length

variable {S : Type} (D : Store L ι S K)

/-- The value of a tensor; one with an adjoint label is the complex conjugate of the adjoint tensor. -/
def Store.ten [Star K] (t : Ten L ι) (ρ : ι → Nat) : K :=
  if t.adj = true then star (D.arr t.label t.adjoint.slots (t.adjoint.idx.map D.sp) (t.adjoint.idx.map ρ))
  else D.arr t.label t.slots (t.idx.map D.sp) (t.idx.map ρ)

/-! ### Expressions -/

/-- The indices of a product that stay: those that occur once and those in `V`. -/
def openOf (V : Finset ι) (l : List ι) : Finset ι := l.toFinset.filter fun x => l.count x = 1 ∨ x ∈ V

/-- The indices that are summed over. -/
def dummies (V : Finset ι) (l : List ι) : Finset ι := l.toFinset \ openOf V l

mutual
/-- The slots of an expression, those of nested products included; a sum has one slot for each index that stays in its first summand.  `V`:
the indices known outside. -/
def slots (V : Finset ι) : Ex L ι K → List ι
  | .const _ => []
  | .var _ => []
  | .ten t => t.idx
  | .sum l => slotsHead V l
  | .prod _ l => slotsProd V ∅ l

def slotsHead (V : Finset ι) : List (Ex L ι K) → List ι
  | [] => []
  | e :: _ => (slots V e).dedup.filter fun x => (slots V e).count x = 1 ∨ x ∈ V

/-- The slots of factors; `P`: the indices of the factors before.  An index of a factor is known outside of the factor if it is known
outside of the product or occurs in another factor. -/
def slotsProd (V P : Finset ι) : List (Ex L ι K) → List ι
  | [] => []
  | e :: l => slots (allIdx e ∩ (V ∪ P ∪ allIdxU l)) e ++ slotsProd V (P ∪ allIdx e) l
end

variable [CommRing K] [Star K]

mutual
/-- The value of an expression before it is summed over repeated indices. -/
noncomputable def body (V : Finset ι) : Ex L ι K → (ι → Nat) → K
  | .const c => fun _ => c
  | .var v => fun _ => D.var v
  | .ten t => D.ten t
  | .sum l => bodySum V l
  | .prod c l => fun ρ => c * bodyProd V ∅ l ρ

noncomputable def bodySum (V : Finset ι) : List (Ex L ι K) → (ι → Nat) → K
  | [] => fun _ => 0
  | e :: l => fun ρ => sumL D.dims (dummies V (slots V e)).toList (body V e) ρ + bodySum V l ρ

noncomputable def bodyProd (V P : Finset ι) : List (Ex L ι K) → (ι → Nat) → K
  | [] => fun _ => 1
  | e :: l => fun ρ => body (allIdx e ∩ (V ∪ P ∪ allIdxU l)) e ρ * bodyProd V (P ∪ allIdx e) l ρ
end

/-- The value of an expression whose indices in `V` are not summed over. -/
noncomputable def value (V : Finset ι) (e : Ex L ι K) : (ι → Nat) → K := sumL D.dims (dummies V (slots V e)).toList (body D V e)

/-! ### Trees -/

/-- Values of indices from the position of an element of an array. -/
def asg (idx : List ι) (p : List Nat) (x : ι) : Nat := if x ∈ idx then p.getD (idx.idxOf x) 0 else 0

/-- The first `k` entries of a position, so that arrays are determined by their elements. -/
def pad (k : Nat) (p : List Nat) : List Nat := (List.range k).map fun i => p.getD i 0

/-- The operations of the backend on arrays (eval.hpp:665, 703-731): the annotations tell which index belongs to which dimension. -/
noncomputable def arrays : Alg (EE L ι K H G) (List Nat → K) where
  leaf a := match a.expr with
    | .const c => fun _ => c
    | .var v => fun _ => D.var v
    | .ten t => fun p => D.arr t.label t.slots (t.idx.map D.sp) (pad t.idx.length p)
  sum t u v := match t with
    | .leaf _ => u
    | .node a l r => fun p => u (l.label.idx.map (asg a.idx p)) + v (r.label.idx.map (asg a.idx p))
  prod t u v := match t with
    | .leaf _ => u
    | .node a l r => fun p => sumL D.dims ((l.label.idx.toFinset ∪ r.label.idx.toFinset) \ a.idx.toFinset).toList
        (fun ρ => u (l.label.idx.map ρ) * v (r.label.idx.map ρ)) (asg a.idx p)
  adj t u := match t with
    | .leaf _ => u
    | .node a l _ => fun p => star (u (l.label.idx.map (asg a.idx p)))
  scale p u := fun q => (p : K) * u q

/-- The array a tree evaluates to without a cache (see `Eval.evaluate_correct`). -/
noncomputable def nodeArr (n : Node L ι K H G) : List Nat → K := plain EE.op (arrays D) n

/-- Its element for given values of the indices. -/
noncomputable def nodeVal (n : Node L ι K H G) (ρ : ι → Nat) : K := nodeArr D n (n.label.idx.map ρ)

end SeQuant.Binarize
