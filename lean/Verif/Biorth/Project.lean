import Verif.Biorth.Props
import Verif.Symm.Props
import Mathlib.Data.Rat.Cast.CharZero
import Mathlib.Data.Rat.Cast.Order
import Mathlib.Algebra.CharZero.Defs

/-!
# Projection of arrays onto the space that the overlap keeps
-/

namespace SeQuant.Biorth

open Equiv (Perm)
open Matrix

variable {n m : Nat}

/-! ### Weights for any number of particles -/

theorem conv_class {f g : Perm (Fin m) → ℚ} (hf : Class f) (hg : Class g) : Class (conv f g) := by
  intro p q
  unfold conv
  refine Fintype.sum_equiv (MulAut.conj q⁻¹).toEquiv _ _ fun r => ?_
  have e1 : f ((MulAut.conj q⁻¹).toEquiv r) = f r := by
    have := hf r q⁻¹
    simpa using this
  have e2 : g (p * ((MulAut.conj q⁻¹).toEquiv r)⁻¹) = g (q * p * q⁻¹ * r⁻¹) := by
    have := hg (p * ((MulAut.conj q⁻¹).toEquiv r)⁻¹) q
    rw [← this]
    congr 1
    simp [mul_assoc]
  rw [e1, e2]

theorem conv_assoc (f g h : Perm (Fin m) → ℚ) : conv (conv f g) h = conv f (conv g h) := by
  apply cay_injective
  rw [← cay_mul, ← cay_mul, ← cay_mul, ← cay_mul, Matrix.mul_assoc]

theorem conv_smul_left (c : ℚ) (f g : Perm (Fin m) → ℚ) : conv (fun p => c * f p) g = fun p => c * conv f g p := by
  funext p
  unfold conv
  rw [Finset.mul_sum]
  exact Finset.sum_congr rfl fun q _ => mul_assoc _ _ _

theorem conv_smul_right (c : ℚ) (f g : Perm (Fin m) → ℚ) : conv f (fun p => c * g p) = fun p => c * conv f g p := by
  funext p
  unfold conv
  rw [Finset.mul_sum]
  exact Finset.sum_congr rfl fun q _ => mul_left_comm _ _ _

/-- What distinguishes the weights `v`: up to the factor `k` they are the projector onto the space that the overlap keeps. -/
structure Projector (v : Perm (Fin m) → ℚ) (k : ℚ) : Prop where
  cls : Class v
  even : Even v
  one : v 1 = 1
  twice : conv v v = fun p => k * v p
  keeps : conv v ov = fun p => k * ov p
  /-- The weights contain the overlap as a factor. -/
  factor : ∃ x, Class x ∧ v = conv x ov

/-- The factor of the normalization. -/
noncomputable def normalization (L : Lib) (m : Nat) : ℚ := (m.factorial : ℚ) / ((overlap L m).rank : ℚ)

theorem normalization_ne (L : Lib) (m : Nat) : normalization L m ≠ 0 := by
  unfold normalization
  refine div_ne_zero (by exact_mod_cast m.factorial_ne_zero) ?_
  rw [overlap_eq, Matrix.rank_submatrix]
  intro h
  have h0 : (cay (ov (n := m))).rank = 0 := by exact_mod_cast h
  have hz : cay (ov (n := m)) = 0 := by
    rw [Matrix.rank, Submodule.finrank_eq_zero, LinearMap.range_eq_bot, ← Matrix.toLin'_apply'] at h0
    exact (LinearEquiv.map_eq_zero_iff _).1 h0
  have := congrFun (congrFun hz 1) 1
  have e : cay (ov (n := m)) 1 1 = (-1) ^ m * (-2) ^ m := by
    unfold cay ov
    rw [mul_inv_cancel, cycles_one]
  rw [e, Matrix.zero_apply] at this
  exact mul_ne_zero (pow_ne_zero _ (by decide)) (pow_ne_zero _ (by decide)) this

theorem computeWeights_form (L : Lib) (m : Nat) (B : Matrix (Fin m.factorial) (Fin m.factorial) ℚ) (hB : Coefficients (overlap L m) B) :
    ∃ v, computeWeights L m B = List.ofFn (fun r => v (L.equiv m r)) ∧ Projector v (normalization L m) := by
  have hk := normalization_ne L m
  obtain ⟨X, hX, rfl⟩ := hB
  rw [overlap_eq] at hX
  have hX' := hX
  replace hX := hX.reindex (L.equiv m).symm
  rw [Matrix.submatrix_submatrix, Equiv.self_comp_symm, Matrix.submatrix_id_id] at hX
  obtain ⟨x, hx, hc, he⟩ := pinv_form hX
  have hXe : X = (cay x).submatrix (L.equiv m) (L.equiv m) := by
    rw [← hx, Matrix.submatrix_submatrix, Equiv.symm_comp_self, Matrix.submatrix_id_id]
  have hcard : (Fintype.card (Fin m.factorial) : ℚ) / ((overlap L m).rank : ℚ) = normalization L m := by rw [Fintype.card_fin]; rfl
  rw [hx] at hX
  have hl := hX.left
  rw [cay_mul, cay_mul] at hl
  have hl' := cay_injective hl
  have ht : conv (conv ov x) (conv ov x) = conv (ov (n := m)) x := by rw [← conv_assoc, hl']
  refine ⟨fun p => normalization L m * conv ov x p, ?_, ?_, ?_, ?_, ?_, ?_, ?_⟩
  · unfold computeWeights
    congr 1
    funext r
    rw [hcard, hXe, overlap_eq, Matrix.mul_smul, Matrix.submatrix_mul_equiv, cay_mul, Matrix.smul_apply, Matrix.submatrix_apply, cay]
    have h1 : (L.equiv m) (lastRank m) = 1 := L.unrank_last m
    show normalization L m • conv ov x (L.equiv m r * ((L.equiv m) (lastRank m))⁻¹) = _
    rw [h1, inv_one, mul_one, smul_eq_mul]
  · intro p q
    show _ * _ = _ * _
    rw [conv_class ov_class hc]
  · intro p
    show _ * _ = _ * _
    rw [conv_of_even ov_even he ov_class]
  · have hr := hX.rank_eq
    rw [cay_mul, cay_trace] at hr
    have hrk : (overlap L m).rank = (cay (ov (n := m))).rank := by rw [overlap_eq, Matrix.rank_submatrix]
    unfold normalization at hk ⊢
    rw [hrk] at hk ⊢
    have hr0 : ((cay (ov (n := m))).rank : ℚ) ≠ 0 := fun h => hk (by rw [h, div_zero])
    show _ * _ = _
    rw [div_mul_eq_mul_div, ← hr, div_self hr0]
  · rw [conv_smul_left, conv_smul_right, ht]
  · rw [conv_smul_left, hl']
  · refine ⟨fun p => normalization L m * x p, fun p q => ?_, ?_⟩
    · show _ * _ = _ * _
      rw [hc]
    · rw [conv_smul_left, conv_comm ov_class]

/-! ### Sums over permuted arguments -/

variable {F : Type} [Field F]

/-- The sum over all permutations of the arguments. -/
def act (f : Perm (Fin m) → ℚ) (T : (Fin m → Nat) → F) (k : Fin m → Nat) : F := ∑ p : Perm (Fin m), (f p : F) * T (k ∘ p)

theorem act_act [CharZero F] {f g : Perm (Fin m) → ℚ} (hg : Class g) (T : (Fin m → Nat) → F) : act f (act g T) = act (conv f g) T := by
  funext k
  unfold act conv
  simp only [Finset.mul_sum, Rat.cast_sum, Finset.sum_mul]
  rw [Finset.sum_comm]
  conv_rhs => rw [Finset.sum_comm]
  rw [Finset.sum_comm]
  refine Finset.sum_congr rfl fun p _ => ?_
  refine Fintype.sum_equiv (Equiv.mulLeft p) _ _ fun q => ?_
  rw [Equiv.coe_mulLeft, hg.comm (p * q), ← mul_assoc, ← mul_assoc, inv_mul_cancel, one_mul, Rat.cast_mul]
  rfl

theorem act_smul [CharZero F] (c : ℚ) (f : Perm (Fin m) → ℚ) (T : (Fin m → Nat) → F) (k : Fin m → Nat) :
    act (fun p => c * f p) T k = (c : F) * act f T k := by
  unfold act
  rw [Finset.mul_sum]
  refine Finset.sum_congr rfl fun p _ => ?_
  rw [Rat.cast_mul, mul_assoc]

open SeQuant.Symm

/-- The result `r` of the projection of `a` with weights `v`. -/
def ProjOf (v : Perm (Fin m) → ℚ) (a r : Ten F) (n : Nat) : Prop :=
  r.shape = a.shape ∧ ∀ (b : Fin n → Nat) (k : Fin m → Nat), el r b k = act v (fun k => el a b k) k

theorem quot_cast [CharZero F] (x : Int × Nat) : quot F x = ((quot ℚ x : ℚ) : F) := by
  unfold quot
  rw [Rat.cast_div, Rat.cast_intCast, Rat.cast_natCast]

/-- The weights that the code uses are the same whether hardcoded or computed. -/
theorem weights_eq [CharZero F] (L : Lib) (m : Nat) (B : Matrix (Fin m.factorial) (Fin m.factorial) ℚ) (hB : Coefficients (overlap L m) B)
    (hm : 2 < m) (pinv : Matrix (Fin m.factorial) (Fin m.factorial) ℚ) (hp : 5 < m → pinv = B) :
    weights F L m pinv = (computeWeights L m B).map Rat.cast := by
  unfold weights
  rw [if_neg (by omega)]
  by_cases h5 : m ≤ 5
  · rw [if_pos h5]
    have := (nnsTable_correct L m).1 ⟨by omega, h5⟩ B hB
    cases ht : nnsTable m with
    | none => rw [ht] at this; simp at this
    | some t =>
      rw [ht, Option.map_some, Option.some_inj] at this
      rw [← this, List.map_map]
      exact List.map_congr_left fun x _ => quot_cast x
  · rw [if_neg h5, hp (by omega)]

theorem permutedIndices_eq (L : Lib) (n m r : Nat) : permutedIndices L (List.range' n m) r m = List.ofFn fun i : Fin m => n + (L.unrank r m i : Nat) := by
  unfold permutedIndices
  congr 1
  funext i
  rw [List.getD_eq_getElem?_getD, List.getElem?_range' (L.unrank r m i).isLt]
  simp

/-- The loop over the permutations. -/
theorem nnsLoop [CharZero F] (L : Lib) (a : Ten F) (v : Perm (Fin m) → ℚ) (ws : List F) (hw : ws = (List.ofFn fun r => v (L.equiv m r)).map Rat.cast)
    {sb : Fin n → Nat} {sk : Fin m → Nat} (hs : HasShape a sb sk) :
    let res := collect ((List.range ws.length).map fun r => scale (ws.getD r 0)
          (relabel (List.range (n + m)) (List.range n ++ permutedIndices L (List.range' n m) r m) a))
    ((∀ i j, sk i = sk j) → ∃ r, res = .ok r ∧ ProjOf v a r n) ∧ ((¬ ∀ i j, sk i = sk j) → res = .error .shapes) := by
  have hl : ws.length = m.factorial := by rw [hw]; simp
  have hterm : ∀ r < m.factorial, HasShape (relabel (List.range (n + m)) (List.range n ++ permutedIndices L (List.range' n m) r m) a) sb (sk ∘ (L.unrank r m).symm) ∧
      ∀ (b : Fin n → Nat) (k : Fin m → Nat), (relabel (List.range (n + m)) (List.range n ++ permutedIndices L (List.range' n m) r m) a).at_ (List.ofFn b ++ List.ofFn k) =
        a.at_ (List.ofFn b ++ List.ofFn (k ∘ L.unrank r m)) := by
    intro r _
    rw [permutedIndices_eq, labels_ket]
    exact relabel_ta a hs 1 (L.unrank r m)
  have hget : ∀ r : Fin m.factorial, ws.getD r 0 = ((v (L.equiv m r) : ℚ) : F) := by
    intro r
    rw [List.getD_eq_getElem?_getD, List.getElem?_eq_getElem (by rw [hl]; exact r.isLt), Option.getD_some]
    simp [hw]
  intro res
  constructor
  · intro hu
    have hsk : ∀ σ : Perm (Fin m), sk ∘ σ = sk := fun σ => funext fun i => hu _ _
    obtain ⟨r, h1, h2, h3⟩ := collect_ok ((List.range ws.length).map fun r => scale (ws.getD r 0)
          (relabel (List.range (n + m)) (List.range n ++ permutedIndices L (List.range' n m) r m) a)) a.shape
      (by rw [hl]; simp [m.factorial_ne_zero]) (by
        intro t ht
        obtain ⟨r, hr, rfl⟩ := List.mem_map.1 ht
        rw [List.mem_range, hl] at hr
        have := (hterm r hr).1
        rw [hsk] at this
        exact this.trans hs.symm)
    refine ⟨r, h1, h2, fun b k => ?_⟩
    unfold el act
    rw [h3, List.map_map, sum_range_fin, hl]
    refine Fintype.sum_equiv (L.equiv m) _ _ fun r => ?_
    simp only [Function.comp_def, scale]
    rw [hget r, (hterm r r.isLt).2]
    rfl
  · intro hu
    apply collect_error
    obtain ⟨σ, hσ⟩ := exists_swap sk hu
    have hrank : ∀ p : Perm (Fin m), L.rank p ∈ List.range ws.length := fun p => List.mem_range.2 (hl ▸ L.rank_lt p)
    refine ⟨_, List.mem_map.2 ⟨L.rank σ.symm, hrank _, rfl⟩, _, List.mem_map.2 ⟨L.rank (1 : Perm (Fin m)), hrank _, rfl⟩, ?_⟩
    have e1 := (hterm _ (L.rank_lt σ.symm)).1
    have e2 := (hterm _ (L.rank_lt (1 : Perm (Fin m)))).1
    rw [L.unrank_rank] at e1 e2
    unfold HasShape at e1 e2
    simp only [scale]
    rw [e1, e2]
    intro e
    have := List.ofFn_injective (List.append_inj e (by simp)).2
    rw [Equiv.symm_symm] at this
    exact hσ this

/-- **C83** The projection of an array with `n` modes of the bra and `m` of the ket: arrays with up to four modes, or up to two in the ket, are
returned; otherwise the modes of the ket need the same extent, and the result is the sum over their permutations with weights that are, up to
a factor, the projector onto the space that the overlap keeps.  For more than five modes of the ket the pseudoinverse is that of the overlap. -/
theorem nnsProject_spec [CharZero F] (L : Lib) (pinv : (n : Nat) → Matrix (Fin n.factorial) (Fin n.factorial) ℚ) (a : Ten F) (n m : Nat)
    (ha : a.shape.length = n + m) (hp : 5 < m → Coefficients (overlap L m) (pinv m)) :
    (n + m ≤ 4 ∨ m ≤ 2 → nnsProject L pinv a n = .ok a) ∧
    (4 < n + m → 2 < m → ∃ v : Perm (Fin m) → ℚ, Projector v (normalization L m) ∧
      ((∃ sb q, a.shape = sb ++ List.replicate m q) → ∃ r, nnsProject L pinv a n = .ok r ∧ ProjOf v a r n) ∧
      ((¬ ∃ sb q, a.shape = sb ++ List.replicate m q) → nnsProject L pinv a n = .error .shapes)) := by
  have hN : nnsProject L pinv a n = if n + m ≤ 4 then .ok a
      else if 2 < m ∧ weights F L m (pinv m) ≠ [] then
        collect ((List.range (weights F L m (pinv m)).length).map fun r => scale ((weights F L m (pinv m)).getD r 0)
          (relabel (List.range (n + m)) (List.range n ++ permutedIndices L (List.range' n m) r m) a))
      else .ok a := by
    have hm : a.shape.length - n = m := by omega
    subst hm
    unfold nnsProject
    simp only
    rw [if_neg (by omega)]
    simp only [← ha]
  rw [hN]
  refine ⟨fun h => ?_, fun h4 h2 => ?_⟩
  · by_cases h4 : n + m ≤ 4
    · rw [if_pos h4]
    · rw [if_neg h4, if_neg (by omega)]
  · rw [if_neg (by omega)]
    have hB : ∃ B, Coefficients (overlap L m) B ∧ (5 < m → pinv m = B) := by
      by_cases h5 : m ≤ 5
      · obtain ⟨B, hB, -⟩ := coefficients_exist L m ⟨by omega, h5⟩
        exact ⟨B, hB, fun h => absurd h (by omega)⟩
      · exact ⟨pinv m, hp (by omega), fun _ => rfl⟩
    obtain ⟨B, hB, hpB⟩ := hB
    obtain ⟨v, hv, hP⟩ := computeWeights_form L m B hB
    have hw := weights_eq (F := F) L m B hB h2 (pinv m) hpB
    rw [hv] at hw
    obtain ⟨sb, sk, hs⟩ := hasShape_exists ha
    have hne : weights F L m (pinv m) ≠ [] := by
      intro e
      have := congrArg List.length hw
      rw [e] at this
      simp at this
      exact m.factorial_ne_zero this.symm
    rw [if_pos ⟨h2, hne⟩]
    have hu : (∃ sb q, a.shape = sb ++ List.replicate m q) ↔ ∀ i j, sk i = sk j := by
      constructor
      · rintro ⟨sb', q, e⟩ i j
        rw [hs] at e
        have h1 := (List.append_inj' e (by simp)).2
        have hq : ∀ i, sk i = q := by
          intro i
          have : sk i ∈ List.replicate m q := h1 ▸ (List.mem_ofFn.2 ⟨i, rfl⟩)
          exact (List.mem_replicate.1 this).2
        rw [hq, hq]
      · intro h
        refine ⟨List.ofFn sb, sk ⟨0, by omega⟩, ?_⟩
        rw [hs]
        congr 1
        rw [← List.ofFn_const]
        congr 1
        funext i
        exact h _ _
    rw [hu]
    exact ⟨v, hP, nnsLoop L a v _ hw hs⟩

/-- Projecting a second time multiplies by the factor. -/
theorem ProjOf.twice [CharZero F] {v : Perm (Fin m) → ℚ} {k : ℚ} (hv : Projector v k) {a r s : Ten F} (h : ProjOf v a r n) (h' : ProjOf v r s n)
    (b : Fin n → Nat) (x : Fin m → Nat) : el s b x = (k : F) * el r b x := by
  rw [h'.2, h.2]
  have : (fun x => el r b x) = act v fun x => el a b x := funext fun x => h.2 b x
  rw [this, act_act hv.cls, hv.twice, act_smul]

/-- An array that the overlap annihilates is annihilated. -/
theorem ProjOf.null [CharZero F] {v : Perm (Fin m) → ℚ} {k : ℚ} (hv : Projector v k) {a r : Ten F} (h : ProjOf v a r n)
    (h0 : ∀ (b : Fin n → Nat) (x : Fin m → Nat), act ov (fun x => el a b x) x = 0) (b : Fin n → Nat) (x : Fin m → Nat) : el r b x = 0 := by
  obtain ⟨y, -, hy⟩ := hv.factor
  rw [h.2, hy, ← act_act ov_class]
  have : (act ov fun x => el a b x) = fun _ => 0 := funext fun x => h0 b x
  rw [this]
  unfold act
  simp

/-- An array that comes from the overlap is kept up to the factor. -/
theorem ProjOf.range [CharZero F] {v : Perm (Fin m) → ℚ} {k : ℚ} (hv : Projector v k) {a c r : Ten F} (h : ProjOf v a r n)
    (h0 : ∀ (b : Fin n → Nat) (x : Fin m → Nat), el a b x = act ov (fun x => el c b x) x) (b : Fin n → Nat) (x : Fin m → Nat) :
    el r b x = (k : F) * el a b x := by
  rw [h.2]
  have : (fun x => el a b x) = act ov fun x => el c b x := funext fun x => h0 b x
  rw [this, act_act ov_class, hv.keeps, act_smul, ← h0]

/-- The overlaps of the result are those of the array times the factor: the projection changes only what the overlap does not see. -/
theorem ProjOf.overlap [CharZero F] {v : Perm (Fin m) → ℚ} {k : ℚ} (hv : Projector v k) {a r : Ten F} (h : ProjOf v a r n)
    (b : Fin n → Nat) (x : Fin m → Nat) : act ov (fun x => el r b x) x = (k : F) * act ov (fun x => el a b x) x := by
  have : (fun x => el r b x) = act v fun x => el a b x := funext fun x => h.2 b x
  rw [this, act_act hv.cls, conv_comm ov_class, hv.keeps, act_smul]

end SeQuant.Biorth
