import Verif.Biorth.Check
import Mathlib.Tactic.Ring
import Mathlib.Tactic.FieldSimp
import Mathlib.Algebra.BigOperators.Field
import Mathlib.Tactic.Linarith

/-!
# The hardcoded coefficients of biorthogonalization

For one to five particles the hardcoded row is a row of the normalized pseudoinverse of the overlap, and the hardcoded weights are a row of the
product of both.  The matrix that the code makes from the row is the normalized pseudoinverse for one and two particles only.
-/

namespace SeQuant.Biorth

open Equiv (Perm)
open Matrix

variable {n : Nat}

/-! ### From the check to the matrices -/

theorem conv_even {f g : Perm (Fin n) → ℚ} (hf : Even f) (p : Perm (Fin n)) : conv f g p = ∑ q, f q * g (p * q) := by
  unfold conv
  refine Fintype.sum_equiv (Equiv.inv _) _ _ fun q => ?_
  simp [hf q]

theorem conv_comm {f g : Perm (Fin n) → ℚ} (hf : Class f) : conv f g = conv g f := by
  funext p
  unfold conv
  refine Fintype.sum_equiv ((Equiv.inv _).trans (Equiv.mulLeft p)) _ _ fun q => ?_
  simp only [Equiv.trans_apply, Equiv.inv_apply, Equiv.coe_mulLeft, _root_.mul_inv_rev, inv_inv]
  rw [mul_comm (f q), hf.comm p (q * p⁻¹), mul_assoc, inv_mul_cancel, mul_one]

theorem conv_of_even {f g : Perm (Fin n) → ℚ} (hf : Even f) (hg : Even g) (hc : Class f) : Even (conv f g) := by
  intro p
  rw [conv_comm hc, conv_even hg, conv_even hg]
  refine Fintype.sum_equiv (Equiv.inv _) _ _ fun q => ?_
  rw [Equiv.inv_apply, hg, ← hf (p * q⁻¹), _root_.mul_inv_rev, inv_inv, hc.comm]

variable {D : Data} {row nns : List (Int × Nat)}

/-- The coefficients by relative permutation. -/
def Data.cf (D : Data) (n : Nat) (p : Perm (Fin n)) : ℚ := look n D.c (code p) / D.d

/-- The weights by permutation. -/
def Data.vf (D : Data) (n : Nat) (p : Perm (Fin n)) : ℚ := look n D.v (code p) / D.e

def Data.kappa (D : Data) : ℚ := D.kn / D.kd

theorem Data.Ok.mem (h : D.Ok n row nns) (p : Perm (Fin n)) : code p ∈ D.cs := h.codes ▸ mem_codes p

theorem Data.Ok.sum (h : D.Ok n row nns) (F : Nat → ℤ) : ∑ q : Perm (Fin n), F (code q) = (D.cs.map F).sum := h.codes ▸ sum_codes F

theorem Data.Ok.w_eq (h : D.Ok n row nns) (p : Perm (Fin n)) : ov p = (look n D.w (code p) : ℚ) := by
  have := h.overlaps (rank p) (List.mem_range.2 ((rankEquiv n).symm p).isLt)
  have hp : unrank (rank p) n = p := (rankEquiv n).right_inv p
  rw [hp] at this
  rw [this]
  unfold ov
  push_cast
  rfl

theorem Data.Ok.cf_even (h : D.Ok n row nns) : Even (D.cf n) := by
  intro p
  unfold Data.cf
  rw [code_inv, h.even _ (h.mem p)]

theorem Data.Ok.conv_wc (h : D.Ok n row nns) : conv ov (D.cf n) = D.vf n := by
  funext p
  rw [conv_even ov_even]
  have := h.wc _ (h.mem p)
  rw [← h.sum fun q => look n D.w q * look n D.c (comp n (code p) q)] at this
  have hd : (D.d : ℚ) ≠ 0 := by exact_mod_cast h.pos.1.ne'
  have he : (D.e : ℚ) ≠ 0 := by exact_mod_cast h.pos.2.1.ne'
  unfold Data.vf
  rw [eq_div_iff he, ← mul_left_inj' hd]
  have hq := congrArg (fun z : ℤ => (z : ℚ)) this
  push_cast at hq
  rw [← hq, mul_right_comm]
  congr 1
  rw [Finset.sum_mul]
  refine Finset.sum_congr rfl fun q _ => ?_
  unfold Data.cf
  rw [h.w_eq, code_mul, mul_assoc, div_mul_cancel₀ _ hd]

theorem Data.Ok.conv_wv (h : D.Ok n row nns) : conv ov (D.vf n) = fun p => D.kappa * ov p := by
  funext p
  rw [conv_even ov_even]
  have := h.wv _ (h.mem p)
  rw [← h.sum fun q => look n D.w q * look n D.v (comp n (code p) q)] at this
  have he : (D.e : ℚ) ≠ 0 := by exact_mod_cast h.pos.2.1.ne'
  have hk : (D.kd : ℚ) ≠ 0 := by exact_mod_cast h.pos.2.2.2.ne'
  unfold Data.kappa
  rw [div_mul_eq_mul_div, eq_div_iff hk, ← mul_left_inj' he]
  have hq := congrArg (fun z : ℤ => (z : ℚ)) this
  push_cast at hq
  rw [h.w_eq p, mul_comm (D.kn : ℚ), mul_right_comm (look n D.w (code p) : ℚ), ← hq, mul_right_comm]
  congr 1
  rw [Finset.sum_mul]
  refine Finset.sum_congr rfl fun q _ => ?_
  unfold Data.vf
  rw [h.w_eq, code_mul, mul_assoc, div_mul_cancel₀ _ he]

theorem Data.Ok.conv_cv (h : D.Ok n row nns) : conv (D.cf n) (D.vf n) = fun p => D.kappa * D.cf n p := by
  funext p
  rw [conv_even h.cf_even]
  have := h.cv _ (h.mem p)
  rw [← h.sum fun q => look n D.c q * look n D.v (comp n (code p) q)] at this
  have hd : (D.d : ℚ) ≠ 0 := by exact_mod_cast h.pos.1.ne'
  have he : (D.e : ℚ) ≠ 0 := by exact_mod_cast h.pos.2.1.ne'
  have hk : (D.kd : ℚ) ≠ 0 := by exact_mod_cast h.pos.2.2.2.ne'
  have hq := congrArg (fun z : ℤ => (z : ℚ)) this
  push_cast at hq
  have hs : ∑ q, D.cf n q * D.vf n (p * q) = (∑ q : Perm (Fin n), (look n D.c (code q) : ℚ) * (look n D.v (comp n (code p) (code q)) : ℚ)) / (D.d * D.e) := by
    rw [Finset.sum_div]
    refine Finset.sum_congr rfl fun q _ => ?_
    unfold Data.cf Data.vf
    rw [code_mul, div_mul_div_comm]
  rw [hs]
  unfold Data.kappa Data.cf
  field_simp
  linarith

theorem Data.Ok.kappa_pos (h : D.Ok n row nns) : 0 < D.kappa := by
  have h1 : (0 : ℚ) < D.kn := by exact_mod_cast h.pos.2.2.1
  have h2 : (0 : ℚ) < D.kd := by exact_mod_cast h.pos.2.2.2
  exact div_pos h1 h2

theorem Data.Ok.vf_one (h : D.Ok n row nns) : D.vf n 1 = 1 := by
  unfold Data.vf
  have he : (D.e : ℚ) ≠ 0 := by exact_mod_cast h.pos.2.1.ne'
  rw [h.one]
  exact div_self he

theorem Data.Ok.pinv (h : D.Ok n row nns) : MoorePenrose (cay ov) (D.kappa⁻¹ • cay (D.cf n)) := by
  have hk := h.kappa_pos.ne'
  have hx : cay (D.cf n) * cay ov = cay (D.vf n) := by rw [cay_mul, ← conv_comm ov_class, h.conv_wc]
  have hx' : cay ov * cay (D.cf n) = cay (D.vf n) := by rw [cay_mul, h.conv_wc]
  have hv : (cay (D.vf n))ᵀ = cay (D.vf n) := by
    rw [cay_transpose]
    congr 1
    funext p
    rw [← h.conv_wc]
    exact conv_of_even ov_even h.cf_even ov_class p
  refine ⟨?_, ?_, ?_, ?_⟩
  · rw [Matrix.mul_smul, Matrix.smul_mul, hx', cay_mul, ← conv_comm ov_class, h.conv_wv, cay_smul, smul_smul, inv_mul_cancel₀ hk, one_smul]
  · rw [Matrix.smul_mul, Matrix.smul_mul, Matrix.mul_smul, Matrix.mul_assoc, hx', cay_mul, h.conv_cv, cay_smul, smul_smul D.kappa⁻¹ D.kappa,
      inv_mul_cancel₀ hk, one_smul]
  · rw [Matrix.mul_smul, hx', Matrix.transpose_smul, hv]
  · rw [Matrix.smul_mul, hx, Matrix.transpose_smul, hv]

theorem Data.Ok.rank_eq (h : D.Ok n row nns) : ((cay (ov (n := n))).rank : ℚ) = n.factorial / D.kappa := by
  rw [h.pinv.rank_eq, Matrix.mul_smul, cay_mul, h.conv_wc, Matrix.trace_smul, cay_trace, h.vf_one, mul_one, smul_eq_mul, div_eq_inv_mul]

/-- The tables hold the normalized pseudoinverse of the overlap. -/
theorem Data.Ok.coefficients (h : D.Ok n row nns) : Coefficients (cay ov) (cay (D.cf n)) := by
  refine ⟨_, h.pinv, ?_⟩
  have hk := h.kappa_pos.ne'
  have hf : (n.factorial : ℚ) ≠ 0 := by exact_mod_cast n.factorial_ne_zero
  rw [h.rank_eq, Fintype.card_perm, Fintype.card_fin, div_div_eq_mul_div, mul_div_cancel_left₀ _ hf, smul_smul, mul_inv_cancel₀ hk, one_smul]

/-! ### Rows of the tables -/

theorem Data.Ok.row_length (h : D.Ok n row nns) : row.length = n.factorial := by
  rw [← (zipAll_spec h.row).1, ← h.codes]
  simp

theorem Data.Ok.nns_length (h : D.Ok n row nns) : nns.length = n.factorial := by
  rw [← (zipAll_spec h.nns).1, ← h.codes]
  simp

theorem Data.Ok.cs_get (h : D.Ok n row nns) (r : Nat) (hr : r < D.cs.length) : D.cs[r] = code (unrank r n) := by
  have := h.codes
  simp only [← this]
  simp

theorem Data.Ok.cs_head (h : D.Ok n row nns) : D.cs.headD 0 = code (unrank 0 n) := by
  rw [← h.codes]
  obtain ⟨k, hk⟩ := Nat.exists_eq_add_one_of_ne_zero n.factorial_ne_zero
  rw [hk, List.range_succ_eq_map]
  rfl

theorem Data.Ok.row_get (h : D.Ok n row nns) (r : Nat) (hr : r < row.length) : quot ℚ row[r] = D.cf n ((unrank 0 n)⁻¹ * unrank r n) := by
  have hz := zipAll_spec h.row
  have hr' : r < D.cs.length := hz.1 ▸ hr
  have := of_decide_eq_true (hz.2 r hr' hr)
  rw [h.cs_get, h.cs_head, ← code_inv, ← code_mul] at this
  have hd : (D.d : ℚ) ≠ 0 := by exact_mod_cast h.pos.1.ne'
  have h2 : ((row[r]).2 : ℚ) ≠ 0 := by exact_mod_cast this.1.ne'
  unfold quot Data.cf
  rw [div_eq_div_iff h2 hd]
  exact_mod_cast this.2.symm

theorem Data.Ok.nns_get (h : D.Ok n row nns) (r : Nat) (hr : r < nns.length) : quot ℚ nns[r] = D.vf n (unrank r n) := by
  have hz := zipAll_spec h.nns
  have hr' : r < D.cs.length := hz.1 ▸ hr
  have := of_decide_eq_true (hz.2 r hr' hr)
  rw [h.cs_get] at this
  have hd : (D.e : ℚ) ≠ 0 := by exact_mod_cast h.pos.2.1.ne'
  have h2 : ((nns[r]).2 : ℚ) ≠ 0 := by exact_mod_cast this.1.ne'
  unfold quot Data.vf
  rw [div_eq_div_iff h2 hd]
  exact_mod_cast this.2.symm

theorem Data.Ok.cf_class (h : D.Ok n row nns) : Class (D.cf n) := by
  obtain ⟨x, hx, hc, -⟩ := pinv_form h.pinv
  have hk := h.kappa_pos.ne'
  have : cay (D.cf n) = cay fun p => D.kappa * x p := by
    rw [cay_smul, ← hx, smul_smul, mul_inv_cancel₀ hk, one_smul]
  rw [cay_injective this]
  intro p q
  show D.kappa * x _ = D.kappa * x _
  rw [hc]

theorem Data.Ok.vf_even (h : D.Ok n row nns) : Even (D.vf n) := by
  rw [← h.conv_wc]
  exact conv_of_even ov_even h.cf_even ov_class

theorem tables (n : Nat) (h : 1 ≤ n ∧ n ≤ 5) : ∃ (D : Data) (row nns : List (Int × Nat)), rowTable n = some row ∧ nnsTable n = some nns ∧ D.Ok n row nns := by
  obtain ⟨h1, h2⟩ := h
  match n, h1, h2 with
  | 1, _, _ => exact ⟨_, _, _, rfl, rfl, ok1⟩
  | 2, _, _ => exact ⟨_, _, _, rfl, rfl, ok2⟩
  | 3, _, _ => exact ⟨_, _, _, rfl, rfl, ok3⟩
  | 4, _, _ => exact ⟨_, _, _, rfl, rfl, ok4⟩
  | 5, _, _ => exact ⟨_, _, _, rfl, rfl, ok5⟩
  | n + 6, _, h => exact absurd h (by omega)

/-! ### The number of the identity -/

theorem rankAux_one : ∀ (k : Nat) (h : k ≤ n), rankAux k h (1 : Perm (Fin n)) + 1 = k.factorial
  | 0, _ => rfl
  | k + 1, h => by
      rw [rankAux, Nat.factorial_succ, ← rankAux_one k (Nat.le_of_succ_le h)]
      simp only [Equiv.Perm.coe_one, id_eq, Equiv.swap_self]
      have : (Equiv.refl (Fin n) * 1 : Perm (Fin n)) = 1 := rfl
      rw [this]
      ring

/-- The identity comes last. -/
theorem Lib.unrank_last (L : Lib) (n : Nat) : L.unrank (n.factorial - 1) n = 1 := by
  have h : L.rank (1 : Perm (Fin n)) = n.factorial - 1 := by
    unfold Lib.rank
    rw [inv_one, ite_self]
    have := rankAux_one n (Nat.le_refl n)
    unfold Biorth.rank
    omega
  rw [← h, L.unrank_rank]

/-! ### Properties -/

/-- The rank of the row. -/
def firstRank (n : Nat) : Fin n.factorial := ⟨0, n.factorial_pos⟩

/-- The rank of the identity. -/
def lastRank (n : Nat) : Fin n.factorial := ⟨n.factorial - 1, Nat.sub_lt n.factorial_pos Nat.one_pos⟩

theorem Data.Ok.coeff (h : D.Ok n row nns) (L : Lib) {B : Matrix (Fin n.factorial) (Fin n.factorial) ℚ} (hB : Coefficients (overlap L n) B) :
    B = (cay (D.cf n)).submatrix (L.equiv n) (L.equiv n) := by
  have := h.coefficients.reindex (L.equiv n)
  rw [← overlap_eq] at this
  exact hB.unique this

theorem Data.Ok.row_lib (h : D.Ok n row nns) (L : Lib) (r : Nat) (hr : r < row.length) :
    quot ℚ row[r] = D.cf n ((L.unrank 0 n)⁻¹ * L.unrank r n) := by
  rw [h.row_get]
  unfold Lib.unrank
  split
  · rw [inv_inv, ← h.cf_even (unrank 0 n * _), _root_.mul_inv_rev, inv_inv, h.cf_class.comm]
  · rfl

theorem hardMatrix_form (L : Lib) (row : List ℚ) (n N : Nat) (h : row.length = N) :
    (⟨row.length, makeMatrix L row n⟩ : (N : Nat) × Matrix (Fin N) (Fin N) ℚ) =
      ⟨N, fun r c => row.getD (L.rank (L.mul (L.unrank (N - 1 - r) n) (L.unrank c n))) 0⟩ := by
  subst h
  rfl

/-- The normalized pseudoinverse exists and is unique. -/
theorem coefficients_exist (L : Lib) (n : Nat) (h : 1 ≤ n ∧ n ≤ 5) : ∃! B, Coefficients (overlap L n) B := by
  obtain ⟨D, row, nns, -, -, hok⟩ := tables n h
  refine ⟨_, ?_, fun B hB => hok.coeff L hB⟩
  have := hok.coefficients.reindex (L.equiv n)
  rwa [← overlap_eq] at this

/-- `hardcoded_biorthogonalizer_row` gives the first row of the normalized pseudoinverse of the overlap for one to five particles, and throws an
exception otherwise. -/
theorem biorthRow_correct (L : Lib) (n : Nat) :
    (1 ≤ n ∧ n ≤ 5 → ∀ B, Coefficients (overlap L n) B → biorthRow n = some (List.ofFn (B (firstRank n)))) ∧
    (¬ (1 ≤ n ∧ n ≤ 5) → biorthRow n = none) := by
  refine ⟨fun h B hB => ?_, fun h => ?_⟩
  · obtain ⟨D, row, nns, hr, -, hok⟩ := tables n h
    rw [biorthRow, hr, Option.map_some, Option.some_inj, hok.coeff L hB]
    refine List.ext_getElem (by simp [hok.row_length]) fun i h1 h2 => ?_
    rw [List.getElem_map, List.getElem_ofFn, hok.row_lib L]
    rw [Matrix.submatrix_apply, cay, hok.cf_class.comm]
    rfl
  · unfold biorthRow
    match n with
    | 0 => rfl
    | 1 | 2 | 3 | 4 | 5 => exact absurd ⟨by omega, by omega⟩ h
    | n + 6 => rfl

/-- `hardcoded_biorthogonalizer_matrix` succeeds under the same conditions, and its first row and its last one, which belongs to the identity, are
rows of the normalized pseudoinverse. -/
theorem hardMatrix_partial (L : Lib) (n : Nat) (h : 1 ≤ n ∧ n ≤ 5) (B : Matrix (Fin n.factorial) (Fin n.factorial) ℚ)
    (hB : Coefficients (overlap L n) B) :
    ∃ M, hardMatrix L n = some ⟨n.factorial, M⟩ ∧ M (firstRank n) = B (firstRank n) ∧ M (lastRank n) = B (lastRank n) := by
  obtain ⟨D, row, nns, hr, -, hok⟩ := tables n h
  have hl : (row.map (quot ℚ)).length = n.factorial := by rw [List.length_map, hok.row_length]
  have key : ∀ r c : Nat, (row.map (quot ℚ)).getD (L.rank (L.mul (L.unrank (n.factorial - 1 - r) n) (L.unrank c n))) 0 =
      D.cf n ((L.unrank 0 n)⁻¹ * L.mul (L.unrank (n.factorial - 1 - r) n) (L.unrank c n)) := by
    intro r c
    have hlt := L.rank_lt (L.mul (L.unrank (n.factorial - 1 - r) n) (L.unrank c n))
    rw [List.getD_eq_getElem?_getD, List.getElem?_eq_getElem (by rw [hl]; exact hlt), Option.getD_some, List.getElem_map, hok.row_lib L, L.unrank_rank]
  refine ⟨fun r c => (row.map (quot ℚ)).getD (L.rank (L.mul (L.unrank (n.factorial - 1 - r) n) (L.unrank c n))) 0, ?_, ?_, ?_⟩
  · unfold hardMatrix biorthRow
    rw [hr]
    simp only [Option.map_some]
    rw [hardMatrix_form L _ n _ hl]
  · funext c
    refine (key _ _).trans ?_
    rw [hok.coeff L hB, Matrix.submatrix_apply, cay]
    have h0 : L.unrank (n.factorial - 1 - (firstRank n : Fin _)) n = 1 := L.unrank_last n
    have hm : L.mul (1 : Perm (Fin n)) (L.unrank c n) = L.unrank c n := by unfold Lib.mul; split <;> simp
    rw [h0, hm, hok.cf_class.comm]
    rfl
  · funext c
    refine (key _ _).trans ?_
    rw [hok.coeff L hB, Matrix.submatrix_apply, cay]
    have h0 : n.factorial - 1 - ((lastRank n : Fin _) : Nat) = 0 := Nat.sub_self _
    have h1 : (L.equiv n) (lastRank n) = 1 := L.unrank_last n
    rw [h0, h1, inv_one, mul_one]
    unfold Lib.mul
    split
    · rw [hok.cf_class.comm, mul_assoc, mul_inv_cancel, mul_one]; rfl
    · rw [← mul_assoc, inv_mul_cancel, one_mul]; rfl

/-- For one and two particles these are all rows. -/
theorem hardMatrix_small (L : Lib) (n : Nat) (h : n = 1 ∨ n = 2) (B : Matrix (Fin n.factorial) (Fin n.factorial) ℚ)
    (hB : Coefficients (overlap L n) B) : hardMatrix L n = some ⟨n.factorial, B⟩ := by
  obtain ⟨M, hM, h0, h1⟩ := hardMatrix_partial L n (by omega) B hB
  have : M = B := by
    funext r
    have hr : r = firstRank n ∨ r = lastRank n := by
      have h2 : n.factorial ≤ 2 := by rcases h with h | h <;> rw [h] <;> decide
      have h3 := r.isLt
      rcases Nat.eq_zero_or_pos (r : Nat) with e | e
      · exact .inl (Fin.ext e)
      · refine .inr (Fin.ext ?_)
        show (r : Nat) = n.factorial - 1
        omega
    rcases hr with e | e <;> rw [e] <;> assumption
  rw [hM, this]

/-- The diagonal of the normalized pseudoinverse is constant. -/
theorem coefficients_diagonal (L : Lib) (n : Nat) (B : Matrix (Fin n.factorial) (Fin n.factorial) ℚ) (hB : Coefficients (overlap L n) B)
    (r s : Fin n.factorial) : B r r = B s s := by
  obtain ⟨X, hX, rfl⟩ := hB
  rw [overlap_eq] at hX
  have h := hX.reindex (L.equiv n).symm
  rw [Matrix.submatrix_submatrix, Equiv.self_comp_symm, Matrix.submatrix_id_id] at h
  obtain ⟨x, hx, -⟩ := pinv_form h
  have hd : ∀ t, X t t = x 1 := by
    intro t
    have := congrFun (congrFun hx (L.equiv n t)) (L.equiv n t)
    rw [Matrix.submatrix_apply, Equiv.symm_apply_apply, cay, mul_inv_cancel] at this
    exact this
  rw [Matrix.smul_apply, Matrix.smul_apply, hd, hd]

/-- For three to five particles `hardcoded_biorthogonalizer_matrix` is not the normalized pseudoinverse, whatever the conventions of libperm: its
diagonal is not constant. -/
theorem hardMatrix_wrong (L : Lib) (n : Nat) (h : 3 ≤ n ∧ n ≤ 5) :
    ∃ M, hardMatrix L n = some ⟨n.factorial, M⟩ ∧ ¬ Coefficients (overlap L n) M := by
  obtain ⟨B, hB, -⟩ := coefficients_exist L n (by omega)
  obtain ⟨M, hM, -⟩ := hardMatrix_partial L n (by omega) B hB
  refine ⟨M, hM, fun hc => ?_⟩
  have h1 : 1 < n.factorial := by
    calc 1 < Nat.factorial 3 := by decide
      _ ≤ _ := Nat.factorial_le h.1
  have hd := coefficients_diagonal L n M hc ⟨1, h1⟩ (firstRank n)
  obtain ⟨D, row, nns, hr, -, hok⟩ := tables n (by omega)
  have hl : (row.map (quot ℚ)).length = n.factorial := by rw [List.length_map, hok.row_length]
  unfold hardMatrix biorthRow at hM
  rw [hr] at hM
  simp only [Option.map_some] at hM
  rw [hardMatrix_form L _ n _ hl, Option.some_inj] at hM
  have hM' := eq_of_heq (Sigma.mk.inj hM).2
  rw [← hM'] at hd
  have hw : ∀ L : Lib, (row.map (quot ℚ)).getD (L.rank (L.mul (L.unrank (n.factorial - 1 - 1) n) (L.unrank 1 n))) 0 ≠
      (row.map (quot ℚ)).getD (L.rank (L.mul (L.unrank (n.factorial - 1 - 0) n) (L.unrank 0 n))) 0 := by
    obtain ⟨h1, h2⟩ := h
    match n, h1, h2 with
    | 3, _, _ => cases hr; rintro ⟨_ | _, _ | _⟩ <;> decide +kernel
    | 4, _, _ => cases hr; rintro ⟨_ | _, _ | _⟩ <;> decide +kernel
    | 5, _, _ => cases hr; rintro ⟨_ | _, _ | _⟩ <;> decide +kernel
    | n + 6, _, h => exact absurd h (by omega)
  exact hw L hd

/-- The hardcoded weights are the last row, which belongs to the identity, of the product of the overlap and its normalized pseudoinverse: what
`compute_nns_p_coeffs` computes. -/
theorem nnsTable_correct (L : Lib) (n : Nat) :
    (1 ≤ n ∧ n ≤ 5 → ∀ B, Coefficients (overlap L n) B → (nnsTable n).map (List.map (quot ℚ)) = some (computeWeights L n B)) ∧
    (¬ (1 ≤ n ∧ n ≤ 5) → nnsTable n = none) := by
  refine ⟨fun h B hB => ?_, fun h => ?_⟩
  · obtain ⟨D, row, nns, -, hr, hok⟩ := tables n h
    rw [hr, Option.map_some, Option.some_inj, hok.coeff L hB]
    unfold computeWeights
    rw [overlap_eq, Matrix.submatrix_mul_equiv, cay_mul, hok.conv_wc]
    refine List.ext_getElem (by simp [hok.nns_length]) fun i h1 h2 => ?_
    rw [List.getElem_map, List.getElem_ofFn, hok.nns_get, Matrix.submatrix_apply, cay]
    have h1 : (L.equiv n) (lastRank n) = 1 := L.unrank_last n
    show _ = D.vf n (_ * ((L.equiv n) (lastRank n))⁻¹)
    rw [h1, inv_one, mul_one]
    show _ = D.vf n (L.unrank i n)
    unfold Lib.unrank
    split
    · exact (hok.vf_even _).symm
    · rfl
  · match n with
    | 0 => rfl
    | 1 | 2 | 3 | 4 | 5 => exact absurd ⟨by omega, by omega⟩ h
    | n + 6 => rfl

end SeQuant.Biorth
