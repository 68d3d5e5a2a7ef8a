import Verif.Network.Model
import Verif.Tensor.CanonProps
import Mathlib.Algebra.BigOperators.Group.List.Basic
import Mathlib.Data.Fintype.BigOperators
import Mathlib.Data.Fintype.Pi

/-!
# The value of a tensor network

Anonymous indices are summed over the orbitals of their space, which may depend on the orbitals of the proto-indices; all other indices have fixed values.
-/

namespace SeQuant.Network

open SeQuant.Sort SeQuant.Tensors

variable {L C S V A : Type}

/-- What an index stands for under an assignment: its space, its orbital, and the spaces and orbitals of its proto-indices. -/
abbrev Res (S V : Type) := S × V × Multiset (S × V)

def protoVals (σ : Ix S → V) (i : Ix S) : Multiset (S × V) := (i.protos.map fun p => (p.space, σ p.toIx) : List (S × V))

def res (σ : Ix S → V) (i : Ix S) : Res S V := (i.space, σ i, protoVals σ i)

/-- Elements of the tensors (bra, ket, auxiliary slots), and the orbitals over which an index runs. -/
structure Interp (L S V A : Type) where
  val : L → List (Option (Res S V)) → List (Option (Res S V)) → List (Option (Res S V)) → A
  dom : S → Multiset (S × V) → V → Prop

def resL (σ : Ix S → V) (l : List (Option (Ix S))) : List (Option (Res S V)) := l.map (Option.map (res σ))

/-- The element of a tensor. -/
def tval (I : Interp L S V A) (σ : Ix S → V) (n : NT L C S) : A := I.val n.label (resL σ n.t.bra) (resL σ n.t.ket) (resL σ n.aux)

section
variable [Ring A]

/-- The product of the elements, in order. -/
def pval (I : Interp L S V A) (σ : Ix S → V) (ts : List (NT L C S)) : A := (ts.map (tval I σ)).prod

variable [DecidableEq S]

/-- The assignment `f` to `D`, `e` elsewhere. -/
def extend (D : Finset (Ix S)) (e : Ix S → V) (f : D → V) (i : Ix S) : V := if h : i ∈ D then f ⟨i, h⟩ else e i

open Classical in
/-- The network with the indices `D` summed over. -/
noncomputable def value [Fintype V] (I : Interp L S V A) (D : Finset (Ix S)) (e : Ix S → V) (ts : List (NT L C S)) : A :=
  ∑ f : D → V, if ∀ i ∈ D, I.dom i.space (protoVals (extend D e f) i) (extend D e f i) then pval I (extend D e f) ts else 0

/-- The anonymous indices. -/
def dummies (named : List (Ix S)) (ts : List (NT L C S)) : Finset (Ix S) := (slotIdx ts).toFinset.filter (· ∉ named)

/-- Everything about a tensor except its indices. -/
structure Head (L C : Type) where
  label : L
  color : C
  cnum : Bool
  sym : Sym
  braket : Bool
  col : Bool
deriving DecidableEq

def NT.head (n : NT L C S) : Head L C := ⟨n.label, n.color, n.cnum, n.t.sym, n.t.braket, n.t.col⟩

/-- The elements have the symmetries declared for the tensors, and tensors commute unless they are q-numbers of the same color. -/
structure Sound (I : Interp L S V A) (hs : List (Head L C)) : Prop where
  sym : ∀ h ∈ hs, ∀ x, Respects (⟨h.sym, h.braket, h.col, [], []⟩ : Tens (Res S V)) (fun b k => I.val h.label b k x)
  comm : ∀ h ∈ hs, ∀ g ∈ hs, (h.color ≠ g.color ∨ h.cnum = true ∨ g.cnum = true) →
    ∀ b k x b' k' x', I.val h.label b k x * I.val g.label b' k' x' = I.val g.label b' k' x' * I.val h.label b k x

/-- The order of indices is a strict total order. -/
structure Ords.Total (O : Ords S) : Prop where
  irrefl : ∀ i, O.ilt i i = false
  trans : ∀ i j k, O.ilt i j = true → O.ilt j k = true → O.ilt i k = true
  total : ∀ i j, i ≠ j → O.ilt i j = true ∨ O.ilt j i = true

end

/-- Proto-indices are named or summed over themselves; those of named indices are named. -/
structure Closed (named : List (Ix S)) (ts : List (NT L C S)) : Prop where
  slot : ∀ i ∈ slotIdx ts, ∀ p ∈ i.protos, p.toIx ∈ named ∨ p.toIx ∈ slotIdx ts
  named : ∀ i ∈ named, ∀ p ∈ i.protos, p.toIx ∈ named

/-- Different anonymous indices differ in space or ordinal. -/
def Distinct (named : List (Ix S)) (ts : List (NT L C S)) : Prop :=
  ∀ i ∈ slotIdx ts, ∀ j ∈ slotIdx ts, i ∉ named → j ∉ named → i.space = j.space → i.ord = j.ord → i = j

end SeQuant.Network
