import Verif.Reduce.Model
import Mathlib.Algebra.BigOperators.Group.List.Basic
import Mathlib.Algebra.BigOperators.Group.Finset.Basic
import Mathlib.Data.Finset.Image
import Mathlib.Data.Fintype.Pi
import Mathlib.Algebra.Ring.Basic

/-!
# Values of products with Kronecker deltas

Orbitals, the domain of each space, the elements of the tensors; internal indices are summed over their domains, external indices have fixed values.
-/

namespace SeQuant.Reduce

variable {T S V A : Type} [DecidableEq S] [DecidableEq V] [Fintype V] [Ring A]

/-- Interpretation: which orbitals belong to a space, the elements of the tensors (a ring, not necessarily commutative). -/
structure Interp (T S V A : Type) where
  dom : S → V → Bool
  elem : T → List V → A

/-- A factor at an assignment; overlaps are those of orthonormal orbitals. -/
def fval (I : Interp T S V A) (σ : Idx S → V) : Fac T S → A
  | .delta _ b k => if σ b = σ k then 1 else 0
  | .tens t l => I.elem t (l.map σ)
  | .one => 1

def pval (I : Interp T S V A) (σ : Idx S → V) (fs : List (Fac T S)) : A := (fs.map (fval I σ)).prod

/-- The assignment with the summed indices `D` from `f`, the others from `e`. -/
def extend (D : Finset (Idx S)) (e : Idx S → V) (f : D → V) (i : Idx S) : V := if h : i ∈ D then f ⟨i, h⟩ else e i

/-- The product summed over the indices `D`, each over its domain. -/
def value (I : Interp T S V A) (D : Finset (Idx S)) (e : Idx S → V) (fs : List (Fac T S)) : A :=
  ∑ f : D → V, if ∀ i : D, I.dom i.1.space (f i) = true then pval I (extend D e f) fs else 0

/-- The indices summed by convention: those that occur and are not external. -/
def inner (ext : List (Idx S)) (fs : List (Fac T S)) : Finset (Idx S) := (used fs).toFinset.filter (· ∉ ext)

/-- Indices of the factors other than deltas. -/
def usedTens (fs : List (Fac T S)) : List (Idx S) := fs.flatMap fun
  | .tens _ l => l
  | _ => []

/-- Every summed index occurs in a factor other than a delta. -/
def Covered (ext : List (Idx S)) (fs : List (Fac T S)) : Prop := ∀ i ∈ used fs, i ∉ ext → i ∈ usedTens fs

instance (ext : List (Idx S)) (fs : List (Fac T S)) : Decidable (Covered ext fs) := by unfold Covered; infer_instance

/-- The registry computes intersections of spaces: a space with exactly the common orbitals; the null space only for spaces without common orbitals. -/
structure Exact (I : Interp T S V A) (E : Env S) : Prop where
  inter : ∀ {s t u}, E.inter s t = .ok u → ∀ v, I.dom u v = true ↔ I.dom s v = true ∧ I.dom t v = true
  null : ∀ {s t}, E.inter s t = .error .zero → ∀ v, ¬ (I.dom s v = true ∧ I.dom t v = true)
  incl : ∀ {s t}, E.incl s t = true → ∀ v, I.dom t v = true → I.dom s v = true

/-- Number of deltas. -/
def deltas (fs : List (Fac T S)) : Nat := fs.countP fun
  | .delta .. => true
  | _ => false

end SeQuant.Reduce
