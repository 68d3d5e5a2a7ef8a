import Verif.Biorth.Perms
import Mathlib.LinearAlgebra.Matrix.Rank
import Mathlib.LinearAlgebra.Projection
import Mathlib.LinearAlgebra.Trace
import Mathlib.LinearAlgebra.Matrix.Trace
import Mathlib.Algebra.BigOperators.Group.Finset.Basic

/-!
# The pseudoinverse of matrices of permutations

`Coefficients` is what the comment above `hardcoded_biorthogonalizer_row` asks for: the pseudoinverse times the quotient of the number of rows and
the rank.
-/

namespace SeQuant.Biorth

open Equiv (Perm)
open Matrix

variable {m : Type} [Fintype m] [DecidableEq m]

/-- The conditions of Moore and Penrose for matrices of rational numbers. -/
structure MoorePenrose (A X : Matrix m m ℚ) : Prop where
  left : A * X * A = A
  right : X * A * X = X
  symmLeft : (A * X)ᵀ = A * X
  symmRight : (X * A)ᵀ = X * A

/-- The normalized pseudoinverse: `n! / rank(M)` times the pseudoinverse of `M`. -/
def Coefficients (A B : Matrix m m ℚ) : Prop := ∃ X, MoorePenrose A X ∧ B = ((Fintype.card m : ℚ) / (A.rank : ℚ)) • X

omit [DecidableEq m] in
theorem MoorePenrose.unique {A X Y : Matrix m m ℚ} (hX : MoorePenrose A X) (hY : MoorePenrose A Y) : X = Y := by
  have h1 : A * X = A * Y := by
    have : (A * X)ᵀ = (A * X) * (A * Y) := by
      calc (A * X)ᵀ = ((A * Y) * (A * X))ᵀ := by rw [← Matrix.mul_assoc (A * Y), hY.left]
        _ = _ := by rw [Matrix.transpose_mul, hX.symmLeft, hY.symmLeft]
    rw [hX.symmLeft] at this
    rw [this, ← Matrix.mul_assoc, hX.left]
  have h2 : X * A = Y * A := by
    have : (X * A)ᵀ = (Y * A) * (X * A) := by
      calc (X * A)ᵀ = ((X * A) * (Y * A))ᵀ := by rw [Matrix.mul_assoc, ← Matrix.mul_assoc A, hY.left]
        _ = _ := by rw [Matrix.transpose_mul, hX.symmRight, hY.symmRight]
    rw [hX.symmRight] at this
    rw [this, Matrix.mul_assoc, ← Matrix.mul_assoc A, hX.left]
  calc X = X * A * X := hX.right.symm
    _ = X * (A * X) := Matrix.mul_assoc _ _ _
    _ = X * (A * Y) := by rw [h1]
    _ = X * A * Y := (Matrix.mul_assoc _ _ _).symm
    _ = Y * A * Y := by rw [h2]
    _ = Y := hY.right

omit [DecidableEq m] in
theorem Coefficients.unique {A B C : Matrix m m ℚ} (hB : Coefficients A B) (hC : Coefficients A C) : B = C := by
  obtain ⟨X, hX, rfl⟩ := hB
  obtain ⟨Y, hY, rfl⟩ := hC
  rw [hX.unique hY]

omit [DecidableEq m] in
theorem MoorePenrose.reindex {k : Type} [Fintype k] {A X : Matrix m m ℚ} (h : MoorePenrose A X) (e : k ≃ m) :
    MoorePenrose (A.submatrix e e) (X.submatrix e e) where
  left := by rw [Matrix.submatrix_mul_equiv, Matrix.submatrix_mul_equiv, h.left]
  right := by rw [Matrix.submatrix_mul_equiv, Matrix.submatrix_mul_equiv, h.right]
  symmLeft := by rw [Matrix.submatrix_mul_equiv, Matrix.transpose_submatrix, h.symmLeft]
  symmRight := by rw [Matrix.submatrix_mul_equiv, Matrix.transpose_submatrix, h.symmRight]

omit [DecidableEq m] in
theorem Coefficients.reindex {k : Type} [Fintype k] {A B : Matrix m m ℚ} (h : Coefficients A B) (e : k ≃ m) :
    Coefficients (A.submatrix e e) (B.submatrix e e) := by
  obtain ⟨X, hX, rfl⟩ := h
  refine ⟨X.submatrix e e, hX.reindex e, ?_⟩
  rw [Matrix.rank_submatrix, Fintype.card_congr e]
  rfl

omit [DecidableEq m] in
theorem MoorePenrose.transpose {A X : Matrix m m ℚ} (h : MoorePenrose A X) : MoorePenrose Aᵀ Xᵀ where
  left := by rw [← Matrix.transpose_mul, ← Matrix.transpose_mul, ← Matrix.mul_assoc, h.left]
  right := by rw [← Matrix.transpose_mul, ← Matrix.transpose_mul, ← Matrix.mul_assoc, h.right]
  symmLeft := by rw [← Matrix.transpose_mul, h.symmRight, h.symmRight]
  symmRight := by rw [← Matrix.transpose_mul, h.symmLeft, h.symmLeft]

/-- The rank of a matrix is the trace of its product with a pseudoinverse. -/
theorem MoorePenrose.rank_eq {A X : Matrix m m ℚ} (h : MoorePenrose A X) : (A.rank : ℚ) = (A * X).trace := by
  have hr : A.rank = (A * X).rank := by
    apply le_antisymm
    · conv_lhs => rw [← h.left]
      exact Matrix.rank_mul_le_left _ _
    · exact Matrix.rank_mul_le_left _ _
  have hi : IsIdempotentElem (Matrix.toLin' (A * X)) := by
    unfold IsIdempotentElem
    rw [Module.End.mul_eq_comp, ← Matrix.toLin'_mul, ← Matrix.mul_assoc, h.left]
  have hp := (LinearMap.isProj_range_iff_isIdempotentElem _).2 hi
  have ht := hp.trace
  rw [hr, ← Matrix.trace_toLin'_eq, ht, Matrix.rank, ← Matrix.toLin'_apply']

/-! ### Matrices whose entries depend on the relative permutation -/

variable {n : Nat}

/-- The entry is given by the permutation that leads from that of the row to that of the column. -/
def cay (f : Perm (Fin n) → ℚ) : Matrix (Perm (Fin n)) (Perm (Fin n)) ℚ := fun σ τ => f (τ * σ⁻¹)

/-- The same for a permutation and its conjugates. -/
def Class (f : Perm (Fin n) → ℚ) : Prop := ∀ p q : Perm (Fin n), f (q * p * q⁻¹) = f p

/-- The same for a permutation and its inverse. -/
def Even (f : Perm (Fin n) → ℚ) : Prop := ∀ p : Perm (Fin n), f p⁻¹ = f p

theorem Class.comm {f : Perm (Fin n) → ℚ} (h : Class f) (p q : Perm (Fin n)) : f (p * q) = f (q * p) := by
  have := h (p * q) q
  rw [← this, mul_assoc q, mul_assoc, mul_inv_cancel, mul_one]

def conv (f g : Perm (Fin n) → ℚ) (p : Perm (Fin n)) : ℚ := ∑ q, f q * g (p * q⁻¹)

theorem cay_mul (f g : Perm (Fin n) → ℚ) : cay f * cay g = cay (conv f g) := by
  funext σ τ
  rw [Matrix.mul_apply]
  unfold cay conv
  refine Fintype.sum_equiv (Equiv.mulRight σ⁻¹) _ _ fun ρ => ?_
  simp [mul_assoc]

theorem cay_injective {f g : Perm (Fin n) → ℚ} (h : cay f = cay g) : f = g := by
  funext p
  have := congrFun (congrFun h 1) p
  simpa [cay] using this

theorem cay_transpose (f : Perm (Fin n) → ℚ) : (cay f)ᵀ = cay fun p => f p⁻¹ := by
  funext σ τ
  simp [cay, Matrix.transpose_apply]

theorem cay_smul (c : ℚ) (f : Perm (Fin n) → ℚ) : cay (fun p => c * f p) = c • cay f := rfl

theorem cay_trace (f : Perm (Fin n) → ℚ) : (cay f).trace = n.factorial * f 1 := by
  unfold Matrix.trace
  simp [cay, Fintype.card_perm]

/-- The overlap of two products of spin-free excitations whose relative permutation is `p`. -/
def ov (p : Perm (Fin n)) : ℚ := (-1) ^ n * (-2) ^ cycles p

theorem ov_class : Class (ov (n := n)) := fun p q => by unfold ov; rw [cycles_conj]

theorem ov_even : Even (ov (n := n)) := fun p => by unfold ov; rw [cycles_inv]

theorem cay_ov_transpose : (cay (ov (n := n)))ᵀ = cay ov := by
  rw [cay_transpose]
  congr 1
  funext p
  exact ov_even p

/-- The loops of `permutational_overlap_matrix` fill in the overlaps of all pairs of permutations. -/
theorem overlap_eq (L : Lib) (n : Nat) : overlap L n = (cay ov).submatrix (L.equiv n) (L.equiv n) := by
  funext r c
  rw [Matrix.submatrix_apply]
  unfold overlap cay ov
  have hs : (if n % 2 ≠ 0 then -1 else 1 : ℚ) = (-1) ^ n := by
    rcases Nat.even_or_odd n with h | h
    · rw [h.neg_one_pow, if_neg]; rw [Nat.even_iff] at h; omega
    · rw [h.neg_one_pow, if_pos]; rw [Nat.odd_iff] at h; omega
  rw [hs]
  congr 1
  by_cases h : r = c
  · rw [if_pos h, h, mul_inv_cancel, cycles_one]
  · rw [if_neg h]
    congr 1
    have hm : ∀ p q : Perm (Fin n), cycles (L.mul p q) = cycles (p * q) := by
      intro p q
      unfold Lib.mul
      split
      · exact cycles_comm q p
      · rfl
    rw [hm]
    rcases le_total r c with hrc | hrc
    · rw [max_eq_right hrc, min_eq_left hrc]; rfl
    · rw [max_eq_left hrc, min_eq_right hrc, ← cycles_inv, _root_.mul_inv_rev, inv_inv]; rfl

/-- The pseudoinverse of the overlap depends on the relative permutation only, and on its cycles. -/
theorem pinv_form {X : Matrix (Perm (Fin n)) (Perm (Fin n)) ℚ} (h : MoorePenrose (cay ov) X) : ∃ x, X = cay x ∧ Class x ∧ Even x := by
  have hr : ∀ g σ τ : Perm (Fin n), X (σ * g) (τ * g) = X σ τ := by
    intro g σ τ
    have h1 := h.reindex (Equiv.mulRight g)
    have h2 : (cay ov).submatrix (Equiv.mulRight g) (Equiv.mulRight g) = cay (ov (n := n)) := by
      funext σ τ; simp [cay, mul_assoc]
    rw [h2] at h1
    exact congrFun (congrFun (h1.unique h) σ) τ
  have hl : ∀ g σ τ : Perm (Fin n), X (g * σ) (g * τ) = X σ τ := by
    intro g σ τ
    have h1 := h.reindex (Equiv.mulLeft g)
    have h2 : (cay ov).submatrix (Equiv.mulLeft g) (Equiv.mulLeft g) = cay (ov (n := n)) := by
      funext σ τ
      have := ov_class (τ * σ⁻¹) g
      simpa [cay, mul_assoc] using this
    rw [h2] at h1
    exact congrFun (congrFun (h1.unique h) σ) τ
  have ht : ∀ σ τ : Perm (Fin n), X τ σ = X σ τ := by
    intro σ τ
    have h1 := h.transpose
    rw [cay_ov_transpose] at h1
    exact congrFun (congrFun (h1.unique h) σ) τ
  refine ⟨fun p => X 1 p, ?_, ?_, ?_⟩
  · funext σ τ
    have := hr σ⁻¹ σ τ
    rw [mul_inv_cancel] at this
    exact this.symm
  · intro p q
    have := hr q⁻¹ q (q * p)
    rw [mul_inv_cancel] at this
    have h2 := hl q 1 p
    rw [mul_one] at h2
    exact this.trans h2
  · intro p
    have := hr p 1 p⁻¹
    rw [one_mul, inv_mul_cancel] at this
    exact this.symm.trans (ht 1 p)

end SeQuant.Biorth
