import Verif.Spin.AntisymmProps
import Mathlib.Algebra.Order.Ring.Rat

/-!
# C53: a concrete interpretation, examples and the failure for repeated indices
-/

namespace SeQuant.Spins

open SeQuant.Expression SeQuant.Perm SeQuant.Sort
open SeQuant.Tensors (Sym)

/-- Product of one-column factors, zero unless every column conserves spin. -/
def colProd {ι : Type} [SpinIx ι] (f : ι → ι → Rat) (b k : List ι) : Rat :=
  if (b.zip k).all (fun p => decide (SpinIx.spin p.1 = SpinIx.spin p.2)) then ((b.zip k).map fun p => f p.1 p.2).prod else 0

/-- Tensors as products over the columns, antisymmetric ones as determinants. -/
def slater {ι : Type} [SpinIx ι] (f : ι → ι → Rat) : Atm ι → Rat
  | .tens t =>
    match t.sym with
    | .antisymm => ∑ π : Equiv.Perm (Fin t.bra.length), ((Equiv.Perm.sign π : Int) : Rat) * colProd f (rearr t.bra π) t.ket
    | _ => colProd f t.bra t.ket
  | _ => 1

theorem slater_interp {ι : Type} [SpinIx ι] (f : ι → ι → Rat) : SpinInterp (slater f) where
  anti n b k lab aux := by
    simp only [slater]
    refine (Fintype.sum_equiv ((finCongr (List.length_ofFn (f := b)).symm).permCongr) _ _ fun π => ?_).symm
    rw [rearr_ofFn', Equiv.Perm.sign_permCongr]
  cols lab b k b' k' aux _ _ h := by
    simp only [slater, colProd]
    have h1 : (b.zip k).all (fun p => decide (SpinIx.spin p.1 = SpinIx.spin p.2)) =
        (b'.zip k').all (fun p => decide (SpinIx.spin p.1 = SpinIx.spin p.2)) := by
      rw [Bool.eq_iff_iff, List.all_eq_true, List.all_eq_true]
      exact ⟨fun H p hp => H p (h.mem_iff.mpr hp), fun H p hp => H p (h.mem_iff.mp hp)⟩
    rw [h1, (h.map _).prod_eq]
  spin lab b k aux h := by
    simp only [slater, colProd]
    rw [if_neg]
    obtain ⟨p, hp, hne⟩ := h
    intro H
    rw [List.all_eq_true] at H
    exact hne (of_decide_eq_true (H p hp))
  one lab b k aux s hl h1 := by
    cases s with
    | nonsymm => rfl
    | symm => rfl
    | antisymm =>
      simp only [slater]
      have hsub : Subsingleton (Fin b.length) := by
        constructor; intro x y; ext; have := x.2; have := y.2; omega
      have hu : ∀ π : Equiv.Perm (Fin b.length), π = 1 := fun π => by ext i; exact congrArg Fin.val (Subsingleton.elim _ _)
      rw [Finset.sum_eq_single 1 (fun π _ h => absurd (hu π) h) (fun h => absurd (Finset.mem_univ _) h)]
      simp [rearr]

/-- `g` with one α and one β electron: one of the two arrangements survives the spin check; here `f` is not symmetric. -/
example : ∃ e : Expr Rat (Atm Ix), expandAntisymmT false ⟨.other "g", [1, 5], [4, 2], [], .antisymm⟩ = .ok e ∧
    eval (slater (fun i j : Ix => (i.nat : Rat) + 2 * j.nat)) e =
      slater (fun i j : Ix => (i.nat : Rat) + 2 * j.nat) (.tens ⟨.other "g", [1, 5], [4, 2], [], .antisymm⟩) := by
  obtain ⟨e, he⟩ := (expandAntisymmT_total (K := Rat) false (⟨.other "g", [1, 5], [4, 2], [], .antisymm⟩ : Tn Ix)).mpr rfl
  exact ⟨e, he, expandAntisymmT_value_partial (slater_interp _) false _ e (by decide) (by decide) he⟩

example : (expandAntisymmT (K := Rat) false (⟨.other "g", [1, 5], [4, 2], [], .antisymm⟩ : Tn Ix)).map
      (eval (slater (fun i j : Ix => (i.nat : Rat) + 2 * j.nat))) = .ok 81 := by decide +kernel

/-- The code on a product of a number, an antisymmetric two-body tensor and a one-body tensor. -/
example : (do
      let r ← expandAntisymm 50 false (.prod 2 [.atom (.tens ⟨.other "g", [1, 4], [7, 10], [], .antisymm⟩),
        .atom (.tens ⟨.other "t", [7], [1], [], .antisymm⟩)] : Expr Rat (Atm Ix))
      return eval (slater (fun i j : Ix => (i.nat : Rat) + 2 * j.nat)) r) =
    (.ok (eval (slater (fun i j : Ix => (i.nat : Rat) + 2 * j.nat))
      (.prod 2 [.atom (.tens ⟨.other "g", [1, 4], [7, 10], [], .antisymm⟩), .atom (.tens ⟨.other "t", [7], [1], [], .antisymm⟩)] :
        Expr Rat (Atm Ix))) : Res Rat) := by
  decide +kernel

/-- The set of bra indices forgets repetitions: an antisymmetric tensor with a repeated bra index is zero, but `expand_antisymm` turns it into a
tensor with one bra index fewer. -/
theorem expandAntisymm_repeated_violated :
    ∃ (I : Atm Ix → Rat) (t : Tn Ix) (e : Expr Rat (Atm Ix)), SpinInterp I ∧ Square t ∧ expandAntisymmT false t = .ok e ∧
      I (.tens t) = 0 ∧ eval I e ≠ I (.tens t) := by
  obtain ⟨e, he⟩ := (expandAntisymmT_total (K := Rat) false (⟨.other "g", [1, 1], [1, 4], [], .antisymm⟩ : Tn Ix)).mpr rfl
  have hv : (expandAntisymmT (K := Rat) false (⟨.other "g", [1, 1], [1, 4], [], .antisymm⟩ : Tn Ix)).map (eval (slater (fun _ _ => 1))) =
    .ok 1 := by decide +kernel
  have h0 : slater (fun _ _ => 1) (.tens (⟨.other "g", [1, 1], [1, 4], [], .antisymm⟩ : Tn Ix)) = 0 := by decide +kernel
  rw [he] at hv
  simp only [Except.map, Except.ok.injEq] at hv
  exact ⟨slater (fun _ _ => 1), ⟨.other "g", [1, 1], [1, 4], [], .antisymm⟩, e, slater_interp _, rfl, he, h0, by rw [hv, h0]; decide⟩

end SeQuant.Spins
