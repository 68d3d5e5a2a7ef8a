import Verif.Spin.TraceModel
import Verif.Spin.Lemmas
import Verif.Spin.Spec

/-!
# Specification of spin tracing, part 2

A spin trace is the sum over all assignments of α or β to the indices, external indices of one group getting the same spin.  The value of a
tensor with spin labels in a closed-shell system is that of the tensor without labels if every column conserves spin, and zero otherwise.
-/

namespace SeQuant.Spins

open SeQuant.Expression
open SeQuant.Tensors (Sym)

section
variable {ι : Type} [SpinIx ι]

/-- Assignments of a spin (`false` = α, `true` = β) to the indices `U`, constant on every group in `ext`. -/
def Assign (U : Finset ι) (ext : List (List ι)) : Type :=
  {s : {i // i ∈ U} → Bool // ∀ g ∈ ext, ∀ x ∈ g, ∀ y ∈ g, ∀ (hx : x ∈ U) (hy : y ∈ U), s ⟨x, hx⟩ = s ⟨y, hy⟩}

noncomputable instance (U : Finset ι) (ext : List (List ι)) : Fintype (Assign U ext) := by
  classical
  exact inferInstanceAs (Fintype {s : {i // i ∈ U} → Bool //
    ∀ g ∈ ext, ∀ x ∈ g, ∀ y ∈ g, ∀ (hx : x ∈ U) (hy : y ∈ U), s ⟨x, hx⟩ = s ⟨y, hy⟩})

/-- Give every index its spin. -/
def Assign.label {U : Finset ι} {ext : List (List ι)} (s : Assign U ext) (i : ι) : ι :=
  if h : i ∈ U then SpinIx.setSpin i (if s.1 ⟨i, h⟩ then .beta else .alpha) else i

/-- A nonsymmetric tensor with spin labels in terms of the one without: the value vanishes unless every column conserves spin. -/
def block0 {R : Type} [Ring R] (I0 : Atm ι → R) (lab : Lab) (b k aux : List ι) : R :=
  if (∀ p ∈ b.zip k, SpinIx.spin p.1 = SpinIx.spin p.2) then
    I0 (.tens ⟨lab, b.map (SpinIx.setSpin · .any), k.map (SpinIx.setSpin · .any), aux, .nonsymm⟩) else 0

/-- The closed-shell values of tensors with spin labels: antisymmetric tensors are antisymmetrized nonsymmetric ones. -/
def block {R : Type} [Ring R] (I0 : Atm ι → R) : Atm ι → R
  | .tens t =>
    match t.sym with
    | .antisymm => ∑ π : Equiv.Perm (Fin t.bra.length), ((Equiv.Perm.sign π : Int) : R) * block0 I0 t.lab (List.ofFn (t.bra.get ∘ π)) t.ket t.aux
    | _ => block0 I0 t.lab t.bra t.ket t.aux
  | a => I0 a

/-- Columns can be permuted. -/
def Cols {R : Type} (I0 : Atm ι → R) : Prop :=
  ∀ (lab : Lab) (b k b' k' aux : List ι), b.length = k.length → b'.length = k'.length → (b.zip k).Perm (b'.zip k') →
    I0 (.tens ⟨lab, b, k, aux, .nonsymm⟩) = I0 (.tens ⟨lab, b', k', aux, .nonsymm⟩)

/-- The block interpretation is an interpretation of spin orbitals. -/
theorem block_interp {R : Type} [Ring R] {I0 : Atm ι → R} (h : Cols I0) : SpinInterp (block I0) where
  anti n b k lab aux := by
    simp only [block]
    refine (Fintype.sum_equiv ((finCongr (List.length_ofFn (f := b)).symm).permCongr) _ _ fun π => ?_).symm
    rw [Equiv.Perm.sign_permCongr]
    have := rearr_ofFn' b π
    unfold rearr at this
    rw [← this]
    rfl
  cols lab b k b' k' aux h1 h2 hp := by
    simp only [block, block0]
    have e : (∀ p ∈ b.zip k, SpinIx.spin p.1 = SpinIx.spin p.2) ↔ (∀ p ∈ b'.zip k', SpinIx.spin p.1 = SpinIx.spin p.2) :=
      ⟨fun H p hp' => H p (hp.mem_iff.mpr hp'), fun H p hp' => H p (hp.mem_iff.mp hp')⟩
    by_cases hc : ∀ p ∈ b.zip k, SpinIx.spin p.1 = SpinIx.spin p.2
    · rw [if_pos hc, if_pos (e.mp hc)]
      refine h _ _ _ _ _ _ (by simpa) (by simpa) ?_
      rw [List.zip_map, List.zip_map]
      exact hp.map _
    · rw [if_neg hc, if_neg (fun H => hc (e.mpr H))]
  spin lab b k aux hx := by
    simp only [block, block0]
    obtain ⟨p, hp, hne⟩ := hx
    rw [if_neg (fun H => hne (H p hp))]
  one lab b k aux s hl h1 := by
    cases s with
    | nonsymm => rfl
    | symm => rfl
    | antisymm =>
      simp only [block]
      have hsub : Subsingleton (Fin b.length) := by
        constructor; intro x y; ext; have := x.2; have := y.2; omega
      have hu : ∀ π : Equiv.Perm (Fin b.length), π = 1 := fun π => by ext i; exact congrArg Fin.val (Subsingleton.elim _ _)
      rw [Finset.sum_eq_single 1 (fun π _ h => absurd (hu π) h) (fun h => absurd (Finset.mem_univ _) h)]
      simp

end

end SeQuant.Spins
