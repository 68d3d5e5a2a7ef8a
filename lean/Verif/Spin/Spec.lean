import Verif.Spin.Model
import Verif.Expression.Spec
import Mathlib.Data.Fintype.Perm
import Mathlib.Data.Fintype.BigOperators
import Mathlib.GroupTheory.Perm.Fin

/-!
# Specification of spin tracing, part 1

What the tensors mean (independently of how the code rewrites them), and the effect of a permutation of indices.
-/

namespace SeQuant.Spins

open SeQuant.Expression
open SeQuant.Tensors (Sym)

/-- An interpretation of tensors over spin orbitals: an antisymmetric tensor is the antisymmetrized tensor of direct integrals (or
amplitudes), whose columns can be permuted and which vanishes unless spin is conserved in every column. -/
structure SpinInterp {ι R : Type} [SpinIx ι] [Ring R] (I : Atm ι → R) : Prop where
  anti : ∀ (n : Nat) (b k : Fin n → ι) (lab : Lab) (aux : List ι),
    I (.tens ⟨lab, List.ofFn b, List.ofFn k, aux, .antisymm⟩) =
      ∑ π : Equiv.Perm (Fin n), ((Equiv.Perm.sign π : Int) : R) * I (.tens ⟨lab, List.ofFn (b ∘ π), List.ofFn k, aux, .nonsymm⟩)
  cols : ∀ (lab : Lab) (b k b' k' aux : List ι), b.length = k.length → b'.length = k'.length → (b.zip k).Perm (b'.zip k') →
    I (.tens ⟨lab, b, k, aux, .nonsymm⟩) = I (.tens ⟨lab, b', k', aux, .nonsymm⟩)
  spin : ∀ (lab : Lab) (b k aux : List ι), (∃ p ∈ b.zip k, SpinIx.spin p.1 ≠ SpinIx.spin p.2) →
    I (.tens ⟨lab, b, k, aux, .nonsymm⟩) = 0
  one : ∀ (lab : Lab) (b k aux : List ι) (s : Sym), b.length = k.length → b.length ≤ 1 →
    I (.tens ⟨lab, b, k, aux, s⟩) = I (.tens ⟨lab, b, k, aux, .nonsymm⟩)

/-- Replace the `i`-th element of `l` by the `σ i`-th; other indices stay. -/
def relabel {ι : Type} [DecidableEq ι] (l : List ι) (σ : Equiv.Perm (Fin l.length)) (i : ι) : ι :=
  if h : i ∈ l then l.get (σ ⟨l.idxOf i, List.idxOf_lt_length_iff.mpr h⟩) else i

/-- Replacement of all indices of a tensor. -/
def Atm.map {ι : Type} (f : ι → ι) : Atm ι → Atm ι
  | .tens t => .tens { t with bra := t.bra.map f, ket := t.ket.map f, aux := t.aux.map f }
  | a => a

/-! ## A concrete index type -/

/-- `3 k`, `3 k + 1`, `3 k + 2` are the spin-free, α and β versions of index `k`. -/
structure Ix where
  nat : Nat
  deriving DecidableEq, Repr

instance : LinearOrder Ix :=
  LinearOrder.lift' Ix.nat (fun a b h => by cases a; cases b; simpa using h)
instance (n : Nat) : OfNat Ix n := ⟨⟨n⟩⟩

def Ix.code : Spin → Nat
  | .any => 0
  | .alpha => 1
  | .beta => 2

instance : SpinIx Ix where
  spin i := if i.nat % 3 = 0 then .any else if i.nat % 3 = 1 then .alpha else .beta
  setSpin i s := ⟨3 * (i.nat / 3) + Ix.code s⟩
  spin_set i s := by
    cases s <;> simp only [Ix.code]
    · have : (3 * (i.nat / 3) + 1) % 3 = 1 := by omega
      simp [this]
    · have : (3 * (i.nat / 3) + 2) % 3 = 2 := by omega
      simp [this]
    · have : (3 * (i.nat / 3) + 0) % 3 = 0 := by omega
      simp
  set_set i s s' := by
    have hs : Ix.code s < 3 := by cases s <;> decide
    have : (3 * (i.nat / 3) + Ix.code s) / 3 = i.nat / 3 := by omega
    simp only [this]
  set_spin i := by
    cases i with | mk n =>
    simp only [Ix.mk.injEq]
    split
    · simp only [Ix.code]; omega
    · split
      · simp only [Ix.code]; omega
      · simp only [Ix.code]; omega

end SeQuant.Spins
