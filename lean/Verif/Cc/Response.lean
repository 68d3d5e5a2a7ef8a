import Verif.Cc.Truncate
import Verif.Linked.Series
import Verif.Linked.Examples
import Verif.Wick.Instances
import Mathlib.Algebra.Polynomial.AlgebraMap
import Mathlib.Algebra.Polynomial.Coeff

/-!
# Equations for perturbed amplitudes (C121)

Transcribes the operators that are averaged in `CC::tʼ` and `CC::λʼ` (`SeQuant/domain/mbpt/models/cc.cpp`:253-276, 312-332) for the
traditional ansatz, and the loop over manifolds of `CC::eom_r` and `CC::eom_l` (395-409, 440-453).

Simplifications: operators are elements of an algebra; a product in which operators are required to be connected stands for the commutator, which
is what averages make of it (`linked_series`, `linked_sums` of area Linked, and `response_connected` below); the frequency terms are left out;
`ref_av` is the average of a vacuum.
-/

namespace SeQuant.Cc

open SeQuant.Wick SeQuant.Linked SeQuant.Lst Polynomial

section algebra

variable {K R : Type} [Field K] [Ring R] [Algebra K R]

/-- `h1_bar + hbar_pert` (cc.cpp:253-276). -/
def responseT (K : Type) {R : Type} [Field K] [Ring R] [Algebra K R] (hbarRank pertRank : Option Nat) (rank : Nat) (h v t t' : R) : R :=
  series K (ad t) (rankPert pertRank rank) v + ad t' (series K (ad t) (rankPerturbed hbarRank) h)

/-- The sum that is averaged in `CC::λʼ` (cc.cpp:312-332). -/
def responseL (K : Type) {R : Type} [Field K] [Ring R] [Algebra K R] (hbarRank pertRank : Option Nat) (rank : Nat) (h v t t' l l' : R) : R :=
  (1 + l) * (series K (ad t) (rankPert pertRank rank) v + ad t' (series K (ad t) 3 h)) + l' * series K (ad t) (rankHbar hbarRank) h

/-! ## Derivatives -/

/-- An operator that depends on the strength of the perturbation, the variable `X`: to first order. -/
noncomputable def pert (a a' : R) : R[X] := C a + X * C a'

/-- The derivative at vanishing strength. -/
noncomputable def deriv0 (p : R[X]) : R := p.coeff 1

theorem ad_add (t x y : R) : ad t (x + y) = ad t x + ad t y := by
  simp only [ad, add_mul, mul_add]; abel

theorem ad_nsmul (t : R) (n : Nat) (x : R) : ad t (n • x) = n • ad t x := by
  simp only [ad, smul_mul_assoc, mul_smul_comm, smul_sub]

theorem ad_smul (t : R) (c : K) (x : R) : ad t (c • x) = c • ad t x := by
  simp only [ad, smul_mul_assoc, mul_smul_comm, smul_sub]

theorem ad_sum {ι : Type} (t : R) (s : Finset ι) (f : ι → R) : ad t (∑ i ∈ s, f i) = ∑ i ∈ s, ad t (f i) := by
  simp only [ad, Finset.sum_mul, Finset.mul_sum, Finset.sum_sub_distrib]

theorem ad_comm (t t' x : R) (h : t * t' = t' * t) : ad t (ad t' x) = ad t' (ad t x) := by
  have e1 : x * t' * t = x * t * t' := by rw [mul_assoc, ← h, ← mul_assoc]
  have e2 : t * (t' * x) = t' * (t * x) := by rw [← mul_assoc, h, mul_assoc]
  simp only [ad, sub_mul, mul_sub, e1, e2]
  simp only [mul_assoc]
  abel

theorem coeff_ad_zero (t t' : R) (p : R[X]) : (ad (pert t t') p).coeff 0 = ad t (p.coeff 0) := by
  simp [ad, pert, mul_add, add_mul, mul_coeff_zero]

theorem coeff_ad_one (t t' : R) (p : R[X]) : (ad (pert t t') p).coeff 1 = ad t (p.coeff 1) + ad t' (p.coeff 0) := by
  have e1 : (p * (X * C t')).coeff 1 = p.coeff 0 * t' := by
    rw [← mul_assoc, coeff_mul_C, show (1 : Nat) = 0 + 1 from rfl, coeff_mul_X]
  have e2 : (X * C t' * p).coeff 1 = t' * p.coeff 0 := by
    rw [mul_assoc, show (1 : Nat) = 0 + 1 from rfl, coeff_X_mul, coeff_C_mul]
  simp only [ad, pert, mul_add, add_mul, coeff_sub, coeff_add, e1, e2, coeff_mul_C, coeff_C_mul]
  abel

theorem coeff_pert_zero (h v : R) : (pert h v).coeff 0 = h := by simp [pert]

theorem coeff_pert_one (h v : R) : (pert h v).coeff 1 = v := by
  rw [pert, coeff_add, show (1 : Nat) = 0 + 1 from rfl, coeff_X_mul, coeff_C_zero, coeff_C_succ, zero_add]

theorem coeff_iter_zero (t t' h v : R) (k : Nat) : ((ad (pert t t'))^[k] (pert h v)).coeff 0 = (ad t)^[k] h := by
  induction k with
  | zero => exact coeff_pert_zero h v
  | succ k ih => rw [Function.iterate_succ_apply', coeff_ad_zero, ih, Function.iterate_succ_apply']

theorem coeff_iter_one (t t' h v : R) (hc : t * t' = t' * t) (k : Nat) :
    ((ad (pert t t'))^[k] (pert h v)).coeff 1 = (ad t)^[k] v + k • ad t' ((ad t)^[k - 1] h) := by
  induction k with
  | zero => simp [coeff_pert_one]
  | succ k ih =>
    rw [Function.iterate_succ_apply', coeff_ad_one, ih, coeff_iter_zero, ad_add, ad_nsmul, ad_comm t t' _ hc, ← Function.iterate_succ_apply' (ad t),
      Nat.add_sub_cancel]
    cases k with
    | zero => simp
    | succ k =>
      rw [← Function.iterate_succ_apply' (ad t), Nat.add_sub_cancel, add_assoc, ← succ_nsmul]

/-- **C121.** The derivative of the transformed operator truncated at order `n + 1`: the transformed perturbation of the same order, and the
commutator of the operator transformed to order `n` with the perturbed amplitudes. -/
theorem series_derivative [CharZero K] (t t' h v : R) (hc : t * t' = t' * t) (n : Nat) :
    deriv0 (series K (ad (pert t t')) (n + 1) (pert h v)) = series K (ad t) (n + 1) v + ad t' (series K (ad t) n h) := by
  unfold deriv0 series
  rw [finsetSum_coeff]
  simp only [coeff_smul, coeff_iter_one t t' h v hc, smul_add, Finset.sum_add_distrib]
  congr 1
  rw [Finset.sum_range_succ', ad_sum]
  simp only [Nat.add_sub_cancel, zero_smul, smul_zero, add_zero]
  refine Finset.sum_congr rfl fun k _ => ?_
  rw [ad_smul, ← Nat.cast_smul_eq_nsmul K, smul_smul]
  congr 1
  rw [Nat.factorial_succ, Nat.cast_mul, mul_inv, mul_comm, ← mul_assoc, mul_inv_cancel₀ (by exact_mod_cast Nat.succ_ne_zero k), one_mul]

/-- At vanishing strength the operator is the unperturbed one. -/
theorem series_at_zero (t t' h v : R) (n : Nat) : (series K (ad (pert t t')) n (pert h v)).coeff 0 = series K (ad t) n h := by
  unfold series
  rw [finsetSum_coeff]
  simp only [coeff_smul, coeff_iter_zero]

/-- **C121.** The derivative of `(1 + Λ) H̄`. -/
theorem lambda_derivative [CharZero K] (t t' h v l l' : R) (hc : t * t' = t' * t) (n : Nat) :
    deriv0 ((1 + pert l l') * series K (ad (pert t t')) (n + 1) (pert h v)) =
      (1 + l) * (series K (ad t) (n + 1) v + ad t' (series K (ad t) n h)) + l' * series K (ad t) (n + 1) h := by
  have key : ∀ p : R[X], ((1 + pert l l') * p).coeff 1 = (1 + l) * p.coeff 1 + l' * p.coeff 0 := by
    intro p
    have e2 : (X * C l' * p).coeff 1 = l' * p.coeff 0 := by
      rw [mul_assoc, show (1 : Nat) = 0 + 1 from rfl, coeff_X_mul, coeff_C_mul]
    simp only [pert, add_mul, one_mul, coeff_add, e2, coeff_C_mul]
    abel
  have h1 := series_derivative (K := K) t t' h v hc n
  unfold deriv0 at h1 ⊢
  rw [key, h1, series_at_zero]

/-- **C121.** With ranks that are given, the code does not truncate consistently: it keeps one commutator more of the Hamiltonian than the derivative of the
equations truncated at that rank has. -/
theorem given_rank (n : Nat) (t t' h v : R) [CharZero K] (hc : t * t' = t' * t) :
    responseT K (some (n + 1)) (some (n + 1)) 1 h v t t' =
      deriv0 (series K (ad (pert t t')) (n + 1) (pert h v)) + (((n + 1).factorial : K)⁻¹) • ad t' ((ad t)^[n + 1] h) := by
  rw [series_derivative t t' h v hc]
  simp only [responseT, rankPert, rankPerturbed, Option.getD_some]
  rw [add_assoc]
  congr 1
  conv_lhs => rw [series, Finset.sum_range_succ, ad_add, ad_smul]
  rfl

/-- **C121.** What `CC::λʼ` averages with the default ranks: the derivative of `(1 + Λ) H̄` truncated at order 4, but for the commutators of the perturbation
beyond the second (which do not contribute, `pert_truncation`). -/
theorem lambda_response [CharZero K] (t t' h v l l' : R) (hc : t * t' = t' * t) :
    deriv0 ((1 + pert l l') * series K (ad (pert t t')) 4 (pert h v)) = responseL K none none 1 h v t t' l l' +
      (1 + l) * (((Nat.factorial 3 : K)⁻¹) • (ad t)^[3] v + ((Nat.factorial 4 : K)⁻¹) • (ad t)^[4] v) := by
  rw [lambda_derivative t t' h v l l' hc 3]
  have e : series K (ad t) (3 + 1) v = series K (ad t) 2 v + (((Nat.factorial 3 : K)⁻¹) • (ad t)^[3] v + ((Nat.factorial 4 : K)⁻¹) • (ad t)^[4] v) := by
    unfold series
    rw [Finset.sum_range_succ, Finset.sum_range_succ, add_assoc]
  rw [e]
  simp only [responseL, rankPert, rankHbar, Option.getD_none, if_true, mul_add]
  abel

/-- **C121.** A rank that is given does not reach the commutator with the perturbed amplitudes in `CC::λʼ` (cc.cpp:328). -/
theorem lambda_ignores_rank (hr pr : Option Nat) (rank : Nat) (t t' h v : R) :
    responseL K hr pr rank h v t t' 0 0 = responseT K (some 3) pr rank h v t t' := by
  simp [responseL, responseT, rankPerturbed]

end algebra

/-! ## Averages -/

section average

variable {Op K A : Type} {S : Statistics} [DecidableEq Op] [Field K] [Ring A] [Algebra K A]

theorem mem_choices {α : Type} {cps : List (List α)} {ch : List α} (h : ch ∈ choices cps) :
    ch.length = cps.length ∧ ∀ q ∈ ch, ∃ cp ∈ cps, q ∈ cp := by
  induction cps generalizing ch with
  | nil => simp only [choices, List.mem_singleton] at h; subst h; simp
  | cons cp cps ih =>
    simp only [choices, List.mem_flatMap, List.mem_map] at h
    obtain ⟨a, ha, ch', hch', rfl⟩ := h
    obtain ⟨h1, h2⟩ := ih hch'
    refine ⟨by simp [h1], ?_⟩
    intro q hq
    simp only [List.mem_cons] at hq
    rcases hq with rfl | hq
    · exact ⟨cp, by simp, ha⟩
    · obtain ⟨cp', h1, h2⟩ := h2 q hq
      exact ⟨cp', by simp [h1], h2⟩

/-- Nested commutators with sums of strings vanish in the average if there are more of them than operators in the string. -/
theorem sums_vanish (W : Alg S Op K A) (V : Vac W) (pre : List (List Op)) (H : List Op) (post : List (List Op)) (hH : H ≠ [])
    (cps : List (List (K × List Op)))
    (hne : ∀ cp ∈ cps, ∀ q ∈ cp, q.2 ≠ [] ∧ (∀ t ∈ q.2, W.an t = 0) ∧ (S.zeta : K) ^ q.2.length = 1)
    (hnd : ∀ ch ∈ choices cps, (pre ++ H :: (ch.map Prod.snd ++ post)).flatten.Nodup) (hl : H.length < cps.length) :
    V.vac (W.prod pre * nest (W.N H) (cps.map fun cp => (cp.map fun q => q.1 • W.N q.2).sum) * W.prod post) = 0 := by
  rw [nest_choices, ← sum_map_mul_left, ← sum_map_mul_right, vac_sum]
  refine List.sum_eq_zero ?_
  intro x hx
  rw [List.mem_map] at hx
  obtain ⟨ch, hch, rfl⟩ := hx
  obtain ⟨hlen, hmem⟩ := mem_choices hch
  have hprop : ∀ T ∈ ch.map Prod.snd, T ≠ [] ∧ (∀ t ∈ T, W.an t = 0) ∧ (S.zeta : K) ^ T.length = 1 := by
    intro T hT
    rw [List.mem_map] at hT
    obtain ⟨q, hq, rfl⟩ := hT
    obtain ⟨cp, h1, h2⟩ := hmem q hq
    exact hne cp h1 q h2
  have := (linked_terminates W V (fun _ => true) (fun _ _ => true) (fun o h => by cases h) (fun x y h => by cases h) pre H (ch.map Prod.snd) post hH
    (fun T h => (hprop T h).1) (fun T h => (hprop T h).2.1) (fun T h => (hprop T h).2.2) (hnd ch hch) (by rw [List.length_map, hlen]; exact hl)).2
  rw [List.map_map] at this
  rw [mul_smul_comm, smul_mul_assoc, map_smul]
  have e : (ch.map fun q => W.N q.2) = ch.map (W.N ∘ Prod.snd) := rfl
  rw [e, this, smul_zero]

omit [DecidableEq Op] in
/-- A string of creators is the product of them. -/
theorem N_cr (W : Alg S Op K A) (o : Op) (l : List Op) (ho : W.an o = 0) : W.N (o :: l) = W.cr o * W.N l := by
  simp [Alg.N, ho]

omit [DecidableEq Op] in
theorem cr_N (W : Alg S Op K A) (o : Op) (l : List Op) (hl : ∀ x ∈ l, W.an x = 0) : W.cr o * W.N l = ((S.zeta : K) ^ l.length) • (W.N l * W.cr o) := by
  induction l with
  | nil => simp [Alg.N]
  | cons x l ih =>
    rw [N_cr W x l (hl x (by simp)), ← mul_assoc, W.cr_cr, smul_mul_assoc, mul_assoc, ih (fun y hy => hl y (by simp [hy])), mul_smul_comm, smul_smul,
      List.length_cons, pow_succ', mul_assoc]

omit [DecidableEq Op] in
theorem N_comm (W : Alg S Op K A) (l l' : List Op) (hl : ∀ x ∈ l, W.an x = 0) (hl' : ∀ x ∈ l', W.an x = 0) (he : (S.zeta : K) ^ l'.length = 1) :
    W.N l * W.N l' = W.N l' * W.N l := by
  induction l with
  | nil => simp [Alg.N]
  | cons x l ih =>
    rw [N_cr W x l (hl x (by simp)), mul_assoc, ih (fun y hy => hl y (by simp [hy])), ← mul_assoc, cr_N W x l' hl', he, one_smul, mul_assoc]

/-- Operators that consist of creators, an even number in each string of them. -/
def Creators (W : Alg S Op K A) (cp : List (K × List Op)) : Prop :=
  ∀ q ∈ cp, q.2 ≠ [] ∧ (∀ t ∈ q.2, W.an t = 0) ∧ (S.zeta : K) ^ q.2.length = 1

/-- The operator. -/
def opOf (W : Alg S Op K A) (cp : List (K × List Op)) : A := (cp.map fun q => q.1 • W.N q.2).sum

omit [DecidableEq Op] in
theorem opOf_comm (W : Alg S Op K A) (cp cp' : List (K × List Op)) (h : Creators W cp) (h' : Creators W cp') :
    opOf W cp * opOf W cp' = opOf W cp' * opOf W cp := by
  have one : ∀ q ∈ cp, W.N q.2 * opOf W cp' = opOf W cp' * W.N q.2 := by
    intro q hq
    unfold opOf
    rw [← sum_map_mul_left, ← sum_map_mul_right]
    apply sum_map_congr
    intro q' hq'
    rw [mul_smul_comm, smul_mul_assoc, N_comm W q.2 q'.2 (h q hq).2.1 (h' q' hq').2.1 (h' q' hq').2.2]
  conv_lhs => rw [opOf, ← sum_map_mul_right]
  conv_rhs => rw [opOf.eq_1 W cp, ← sum_map_mul_left]
  apply sum_map_congr
  intro q hq
  rw [smul_mul_assoc, mul_smul_comm, one q hq]

theorem series_cut (g : A → K) (hadd : ∀ x y, g (x + y) = g x + g y) (hsmul : ∀ (c : K) x, g (c • x) = c * g x) (D : A → A) (a : A) (m n : Nat)
    (hmn : m ≤ n) (h0 : ∀ k, m < k → k ≤ n → g (D^[k] a) = 0) : g (series K D n a) = g (series K D m a) := by
  induction n, hmn using Nat.le_induction with
  | base => rfl
  | succ n hmn ih =>
    have e : series K D (n + 1) a = series K D n a + ((n + 1).factorial : K)⁻¹ • D^[n + 1] a := by
      unfold series; rw [Finset.sum_range_succ]
    rw [e, hadd, hsmul, h0 (n + 1) (by omega) (le_refl _), mul_zero, add_zero]
    exact ih fun k h1 h2 => h0 k h1 (by omega)

omit [DecidableEq Op] in
/-- `[...[[X, T], T]..., T]` with copies of `T`, and then `T′`. -/
theorem iter_copies (W : Alg S Op K A) (X T : A) (cp : Nat → List (K × List Op)) (hT : ∀ m, T = opOf W (cp m)) (k : Nat) :
    (ad T)^[k] X = nest X (((List.range k).map cp).map fun cp => (cp.map fun q => q.1 • W.N q.2).sum) := by
  rw [← nest_replicate]
  congr 1
  rw [List.map_map]
  symm
  rw [List.eq_replicate_iff]
  refine ⟨by simp, ?_⟩
  intro b hb
  simp only [List.mem_map, Function.comp_apply] at hb
  obtain ⟨m, _, rfl⟩ := hb
  exact (hT m).symm

omit [DecidableEq Op] in
theorem iter_copies' (W : Alg S Op K A) (X T : A) (cp : Nat → List (K × List Op)) (cp' : List (K × List Op)) (hT : ∀ m, T = opOf W (cp m)) (k : Nat) :
    ad (opOf W cp') ((ad T)^[k] X) = nest X (((List.range k).map cp ++ [cp']).map fun cp => (cp.map fun q => q.1 • W.N q.2).sum) := by
  rw [iter_copies W X T cp hT k, List.map_append, nest_append]
  rfl

/-- What the equations for the perturbed amplitudes are made of: a Hamiltonian `H` of rank at most 2, a perturbation `P` of rank 1, copies `cp 0, cp 1, ...` of
the amplitudes with different dummy indices, the perturbed amplitudes `cp'`; no operator occurs twice in the products up to order `n + 1`. -/
structure Setting (W : Alg S Op K A) (pre : List (List Op)) (H P : List Op) (post : List (List Op)) (cp : Nat → List (K × List Op))
    (cp' : List (K × List Op)) (n : Nat) : Prop where
  hH : H ≠ []
  hH4 : H.length ≤ 4
  hP : P.length = 2
  copies : ∀ m, opOf W (cp m) = opOf W (cp 0)
  cr : ∀ m, Creators W (cp m)
  cr' : Creators W cp'
  ndP : ∀ k ≤ n + 1, ∀ ch ∈ choices ((List.range k).map cp), (pre ++ P :: (ch.map Prod.snd ++ post)).flatten.Nodup
  ndH : ∀ k ≤ n, ∀ ch ∈ choices ((List.range k).map cp ++ [cp']), (pre ++ H :: (ch.map Prod.snd ++ post)).flatten.Nodup

/-- **C121 (perturbed amplitudes).** The average of what the code builds is the average of the derivative of the transformed Hamiltonian, for every order of
truncation from 4 on: the default ranks 2 and 3 lose nothing. -/
theorem response_exact [CharZero K] (W : Alg S Op K A) (V : Vac W) (pre : List (List Op)) (H P : List Op) (post : List (List Op))
    (cp : Nat → List (K × List Op)) (cp' : List (K × List Op)) (n : Nat) (hn : 3 ≤ n) (s : Setting W pre H P post cp cp' n) :
    V.vac (W.prod pre * responseT K none none 1 (W.N H) (W.N P) (opOf W (cp 0)) (opOf W cp') * W.prod post) =
      V.vac (W.prod pre * deriv0 (series K (ad (pert (opOf W (cp 0)) (opOf W cp'))) (n + 1) (pert (W.N H) (W.N P))) * W.prod post) := by
  rw [series_derivative _ _ _ _ (opOf_comm W _ _ (s.cr 0) s.cr')]
  unfold responseT
  rw [mul_add, add_mul, map_add, mul_add, add_mul, map_add]
  have hT : ∀ m, opOf W (cp 0) = opOf W (cp m) := fun m => (s.copies m).symm
  have hmemcp : ∀ k, ∀ c ∈ (List.range k).map cp, Creators W c := by
    intro k c hc
    simp only [List.mem_map] at hc
    obtain ⟨m, _, rfl⟩ := hc
    exact s.cr m
  congr 1
  · symm
    refine series_cut (fun a => V.vac (W.prod pre * a * W.prod post)) (fun x y => by simp [mul_add, add_mul])
      (fun c x => by simp) _ _ (rankPert none 1) (n + 1) (show 2 ≤ n + 1 by omega) ?_
    intro k hk hk'
    have hk2 : 2 < k := hk
    show V.vac (W.prod pre * (ad (opOf W (cp 0)))^[k] (W.N P) * W.prod post) = 0
    rw [iter_copies W _ _ cp hT k]
    exact sums_vanish W V pre P post (by intro h; have := s.hP; simp [h] at this) _ (fun c hc => hmemcp k c hc) (s.ndP k hk')
      (by simp [s.hP]; omega)
  · symm
    refine series_cut (fun a => V.vac (W.prod pre * ad (opOf W cp') a * W.prod post)) (fun x y => by simp [ad_add, mul_add, add_mul])
      (fun c x => by simp [ad_smul]) _ _ (rankPerturbed none) n hn ?_
    intro k hk hk'
    have hk3 : 3 < k := hk
    show V.vac (W.prod pre * ad (opOf W cp') ((ad (opOf W (cp 0)))^[k] (W.N H)) * W.prod post) = 0
    rw [iter_copies' W _ _ cp cp' hT k]
    refine sums_vanish W V pre H post s.hH _ ?_ (s.ndH k hk') (by have := s.hH4; simp; omega)
    intro c hc
    rw [List.mem_append, List.mem_singleton] at hc
    rcases hc with hc | rfl
    · exact hmemcp k c hc
    · exact s.cr'

/-- **C121.** The same average from connected products, with the connections that the code requires (cc.cpp:279-286): every `T` and the perturbed amplitudes with the
Hamiltonian, every `T` with the perturbation. -/
theorem response_connected (W : Alg S Op K A) (V : Vac W) (isQpAnn : Op → Bool) (canContract : Op → Op → Bool)
    (hann : ∀ o, isQpAnn o = false → W.an o = 0) (hc : ∀ x y, canContract x y = false → W.c x y = 0)
    (pre : List (List Op)) (H P : List Op) (post : List (List Op)) (cp : Nat → List (K × List Op)) (cp' : List (K × List Op)) (n : Nat)
    (s : Setting W pre H P post cp cp' n) (hr pr : Option Nat) (h1 : rankPerturbed hr ≤ n) (h2 : rankPert pr 1 ≤ n + 1) :
    V.vac (W.prod pre * responseT K hr pr 1 (W.N H) (W.N P) (opOf W (cp 0)) (opOf W cp') * W.prod post) =
      (∑ k ∈ Finset.range (rankPert pr 1 + 1), (k.factorial : K)⁻¹ * ((choices ((List.range k).map cp)).map fun ch =>
        (ch.map Prod.fst).prod * linkedValue S isQpAnn canContract W.c pre P post (ch.map Prod.snd)).sum) +
      ∑ k ∈ Finset.range (rankPerturbed hr + 1), (k.factorial : K)⁻¹ * ((choices ((List.range k).map cp ++ [cp'])).map fun ch =>
        (ch.map Prod.fst).prod * linkedValue S isQpAnn canContract W.c pre H post (ch.map Prod.snd)).sum := by
  have hT : ∀ m, opOf W (cp 0) = opOf W (cp m) := fun m => (s.copies m).symm
  unfold responseT
  rw [mul_add, add_mul, map_add]
  congr 1
  · exact linked_series W V isQpAnn canContract hann hc pre P post (by intro h; have := s.hP; simp [h] at this) _ cp hT s.cr _
      (fun k hk => s.ndP k (by omega))
  · rw [series, ad_sum, Finset.mul_sum, Finset.sum_mul, map_sum]
    apply Finset.sum_congr rfl
    intro k hk
    rw [ad_smul, mul_smul_comm, smul_mul_assoc, map_smul, smul_eq_mul, iter_copies' W _ _ cp cp' hT k]
    congr 1
    refine linked_sums W V isQpAnn canContract hann hc pre H post s.hH _ ?_ (s.ndH k ?_)
    · intro c hc
      rw [List.mem_append, List.mem_singleton, List.mem_map] at hc
      rcases hc with ⟨m, _, rfl⟩ | rfl
      · exact s.cr m
      · exact s.cr'
    · rw [Finset.mem_range] at hk; omega

end average

/-! ## Equations of motion -/

/-- The loop over manifolds of `CC::eom_r` and `CC::eom_l` (cc.cpp:399-409, 444-453): the index of the element that is written, and the numbers of particles and
holes of the projector. -/
def eomLoop : (rp rh : Nat) → List (Nat × Nat × Nat)
  | 0, 0 => []
  | 0, h + 1 => [(min 0 (h + 1), 0, h + 1)]
  | p + 1, 0 => [(min (p + 1) 0, p + 1, 0)]
  | p + 1, h + 1 => (min (p + 1) (h + 1), p + 1, h + 1) :: eomLoop p h

/-- `result.at(i) = ...`: `none` if `at` throws. -/
def writeAt {α : Type} (r : List (Option α)) (i : Nat) (a : α) : Option (List (Option α)) := if i < r.length then some (r.set i (some a)) else none

/-- The vector that is returned, each element replaced by the numbers of its projector (cc.cpp:395-411, 440-455). -/
def eom (np nh : Nat) : Option (List (Option (Nat × Nat))) :=
  (eomLoop np nh).foldl (fun r q => r.bind fun r => writeAt r q.1 q.2) (some (List.replicate (min np nh + 1) none))

theorem eomLoop_spec (np nh : Nat) (r : List (Option (Nat × Nat))) (hr : min np nh < r.length) :
    ∃ r', (eomLoop np nh).foldl (fun r q => r.bind fun r => writeAt r q.1 q.2) (some r) = some r' ∧ r'.length = r.length ∧
      (∀ i, i ≤ min np nh → (i ≠ 0 ∨ np ≠ nh) → r'[i]? = some (some (np - (min np nh - i), nh - (min np nh - i)))) ∧
      (∀ i, (min np nh < i ∨ (i = 0 ∧ np = nh)) → r'[i]? = r[i]?) := by
  induction np, nh using eomLoop.induct generalizing r with
  | case1 => exact ⟨r, rfl, rfl, by intro i h1 h2; omega, fun i _ => rfl⟩
  | case2 h =>
    simp only [Nat.zero_min] at hr
    refine ⟨r.set 0 (some (0, h + 1)), by simp [eomLoop, writeAt, hr], by simp, ?_, ?_⟩
    · intro i h1 _
      have : i = 0 := by omega
      subst this
      simp [hr]
    · intro i hi
      have : i ≠ 0 := by omega
      rw [List.getElem?_set_ne (by omega)]
  | case3 p =>
    simp only [Nat.min_zero] at hr
    refine ⟨r.set 0 (some (p + 1, 0)), by simp [eomLoop, writeAt, hr], by simp, ?_, ?_⟩
    · intro i h1 _
      have : i = 0 := by omega
      subst this
      simp [hr]
    · intro i hi
      have : i ≠ 0 := by omega
      rw [List.getElem?_set_ne (by omega)]
  | case4 p h ih =>
    have em : min (p + 1) (h + 1) = min p h + 1 := by omega
    obtain ⟨r', e1, e2, e3, e4⟩ := ih (r.set (min (p + 1) (h + 1)) (some (p + 1, h + 1))) (by simp; omega)
    refine ⟨r', ?_, by simpa using e2, ?_, ?_⟩
    · simp only [eomLoop, List.foldl_cons, Option.bind_some, writeAt, if_pos hr]
      exact e1
    · intro i h1 h2
      by_cases hi : i = min p h + 1
      · rw [e4 i (Or.inl (by omega)), hi, ← em, List.getElem?_set_self hr]
        simp
      · rw [e3 i (by omega) (by omega)]
        congr 3 <;> omega
    · intro i hi
      rw [e4 i (by omega), List.getElem?_set_ne (by omega)]

/-- **C121 (equations of motion).** The vector has an element for every manifold, in the order of their size, each with a projector of as many particles
more than holes as asked for; none is written out of range; the element without particles and holes stays null. -/
theorem eom_manifolds (np nh : Nat) : ∃ r, eom np nh = some r ∧ r.length = min np nh + 1 ∧
    ∀ i ≤ min np nh, ∃ p h, p + nh = h + np ∧ min p h = i ∧ p ≤ np ∧ r[i]? = some (if p = 0 ∧ h = 0 then none else some (p, h)) := by
  obtain ⟨r, h1, h2, h3, h4⟩ := eomLoop_spec np nh (List.replicate (min np nh + 1) none) (by simp)
  refine ⟨r, h1, by simpa using h2, ?_⟩
  intro i hi
  refine ⟨np - (min np nh - i), nh - (min np nh - i), by omega, by omega, by omega, ?_⟩
  by_cases h0 : i ≠ 0 ∨ np ≠ nh
  · rw [h3 i hi h0, if_neg (by omega)]
  · rw [h4 i (Or.inr (by omega)), if_pos (by omega), List.getElem?_replicate, if_pos (by omega)]

example : eom 2 2 = some [none, some (1, 1), some (2, 2)] ∧ eom 2 1 = some [some (1, 0), some (2, 1)] ∧ eom 0 1 = some [some (0, 1)] := by decide

/-! ## Examples -/

/-- **C121**, refuted for ranks that are given: with the matrix `E` for both sets of amplitudes, `F` for the Hamiltonian, and rank 1, the code keeps a second
commutator that the derivative of the equations truncated at rank 1 does not have. -/
theorem given_rank_wrong :
    let E : Matrix (Fin 2) (Fin 2) ℚ := !![0, 1; 0, 0]
    let F : Matrix (Fin 2) (Fin 2) ℚ := !![0, 0; 1, 0]
    responseT ℚ (some 1) (some 1) 1 F 0 E E ≠ deriv0 (series ℚ (ad (pert E E)) 1 (pert F 0)) := by
  intro E F h
  rw [given_rank 0 E E F 0 rfl] at h
  have h2 := add_eq_left.mp h
  have h3 := congrFun (congrFun h2 0) 1
  revert h3
  simp [ad, E, F]
  norm_num

open Inst in
/-- One bosonic mode: `H = a a`, `P = a a`, the amplitudes create two bosons. -/
theorem bose_setting : Setting (copies bose1) [] [(false, 0), (false, 1)] [(false, 2), (false, 3)] [] (fun m => [((1 / 2 : ℚ), [(true, 2 * m + 2), (true, 2 * m + 3)])])
    [((3 : ℚ), [(true, 0), (true, 1)])] 3 where
  hH := by simp
  hH4 := by simp
  hP := rfl
  copies m := rfl
  cr m := by
    intro q hq
    rw [List.mem_singleton] at hq
    subst hq
    refine ⟨by simp, ?_, by simp [Statistics.zeta]⟩
    intro t ht
    simp only [List.mem_cons, List.not_mem_nil, or_false] at ht
    rcases ht with rfl | rfl <;> exact bAn_true
  cr' := by
    intro q hq
    rw [List.mem_singleton] at hq
    subst hq
    refine ⟨by simp, ?_, by simp [Statistics.zeta]⟩
    intro t ht
    simp only [List.mem_cons, List.not_mem_nil, or_false] at ht
    rcases ht with rfl | rfl <;> exact bAn_true
  ndP := by decide +kernel
  ndH := by decide +kernel

open Inst in
/-- The hypotheses of `response_exact` hold for it. -/
example := response_exact (copies bose1) (copiesVac bose1Vac) _ _ _ _ _ _ 3 (by omega) bose_setting

end SeQuant.Cc
