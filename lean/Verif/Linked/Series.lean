import Verif.Linked.Props
import Verif.Lst.Spec
import Verif.Wick.Instances

/-!
# C113: the similarity-transformed Hamiltonian from connected products; partial contractions; examples
-/

namespace SeQuant.Linked

open SeQuant.Wick

variable {Op A : Type} {S : Statistics}

section

variable {K : Type} [CommRing K] [Ring A] [Algebra K A]

theorem nest_add (X Y : A) (Ts : List A) : nest (X + Y) Ts = nest X Ts + nest Y Ts := by
  induction Ts generalizing X Y with
  | nil => rfl
  | cons T Ts ih =>
    simp only [nest]
    rw [← ih]
    congr 1
    noncomm_ring

theorem nest_zero (Ts : List A) : nest (0 : A) Ts = 0 := by
  induction Ts with
  | nil => rfl
  | cons T Ts ih => simpa [nest] using ih

theorem nest_smul (a : K) (X : A) (Ts : List A) : nest (a • X) Ts = a • nest X Ts := by
  induction Ts generalizing X with
  | nil => rfl
  | cons T Ts ih =>
    simp only [nest]
    rw [← ih, smul_mul_assoc, mul_smul_comm, smul_sub]

theorem nest_sum {ι : Type} (l : List ι) (f : ι → A) (Ts : List A) : nest (l.map f).sum Ts = (l.map fun i => nest (f i) Ts).sum := by
  induction l with
  | nil => simpa using nest_zero Ts
  | cons i l ih => simp [nest_add, ih]

/-- All ways to choose one element of every list. -/
def choices {α : Type} : List (List α) → List (List α)
  | [] => [[]]
  | l :: ls => l.flatMap fun a => (choices ls).map (a :: ·)

/-- A nested commutator with sums is the sum of the nested commutators. -/
theorem nest_choices (N : List Op → A) (X : A) (cps : List (List (K × List Op))) :
    nest X (cps.map fun cp => (cp.map fun q => q.1 • N q.2).sum) =
      ((choices cps).map fun ch => (ch.map Prod.fst).prod • nest X (ch.map fun q => N q.2)).sum := by
  induction cps generalizing X with
  | nil => simp [choices, nest]
  | cons cp cps ih =>
    simp only [List.map_cons, nest, choices]
    rw [← sum_map_mul_left, ← sum_map_mul_right]
    have e : (cp.map fun i => X * (i.1 • N i.2)).sum - (cp.map fun i => i.1 • N i.2 * X).sum =
        (cp.map fun i => i.1 • (X * N i.2 - N i.2 * X)).sum := by
      induction cp with
      | nil => simp
      | cons q cp ih' =>
        simp only [List.map_cons, List.sum_cons] at ih' ⊢
        rw [← ih', mul_smul_comm, smul_mul_assoc, smul_sub]
        abel
    rw [e, nest_sum, sum_map_flatMap]
    apply sum_map_congr
    intro q _
    rw [nest_smul, ih, List.map_map, ← sum_map_smul]
    apply sum_map_congr
    intro ch _
    simp [nest, smul_smul]

variable [DecidableEq Op]

/-- The value of the engine for `pre H T₁ ... Tₖ post` with each `T` required to be connected to `H`. -/
def linkedValue (S : Statistics) (isQpAnn : Op → Bool) (canContract : Op → Op → Bool) (c : Op → Op → K)
    (pre : List (List Op)) (H : List Op) (post Ts : List (List Op)) : K :=
  (((wickFullConn S isQpAnn canContract (linkPairs pre.length Ts.length) [] (pre ++ H :: (Ts ++ post))).getD []).map
    fun t => (t.1 : K) * pairProd c t.2).sum

/-- **C113 (sums).** The same with every `T` a sum of strings with coefficients: the expectation value of the nested commutator is the sum
over all products of the connected values. -/
theorem linked_sums (W : Alg S Op K A) (V : Vac W) (isQpAnn : Op → Bool) (canContract : Op → Op → Bool)
    (hann : ∀ o, isQpAnn o = false → W.an o = 0) (hc : ∀ x y, canContract x y = false → W.c x y = 0)
    (pre : List (List Op)) (H : List Op) (post : List (List Op)) (hH : H ≠ []) (cps : List (List (K × List Op)))
    (hne : ∀ cp ∈ cps, ∀ q ∈ cp, q.2 ≠ [] ∧ (∀ t ∈ q.2, W.an t = 0) ∧ (S.zeta : K) ^ q.2.length = 1)
    (hnd : ∀ ch ∈ choices cps, (pre ++ H :: (ch.map Prod.snd ++ post)).flatten.Nodup) :
    V.vac (W.prod pre * nest (W.N H) (cps.map fun cp => (cp.map fun q => q.1 • W.N q.2).sum) * W.prod post) =
      ((choices cps).map fun ch =>
        (ch.map Prod.fst).prod * linkedValue S isQpAnn canContract W.c pre H post (ch.map Prod.snd)).sum := by
  rw [nest_choices, ← sum_map_mul_left, ← sum_map_mul_right, vac_sum]
  apply sum_map_congr
  intro ch hch
  have hmem : ∀ q ∈ ch, ∃ cp ∈ cps, q ∈ cp := by
    clear hnd
    induction cps generalizing ch with
    | nil => simp only [choices, List.mem_singleton] at hch; subst hch; simp
    | cons cp cps ih =>
      simp only [choices, List.mem_flatMap, List.mem_map] at hch
      obtain ⟨a, ha, ch', hch', rfl⟩ := hch
      intro q hq
      simp only [List.mem_cons] at hq
      rcases hq with rfl | hq
      · exact ⟨cp, by simp, ha⟩
      · obtain ⟨cp', h1, h2⟩ := ih (fun cp h => hne cp (by simp [h])) ch' hch' q hq
        exact ⟨cp', by simp [h1], h2⟩
  have hprop : ∀ T ∈ ch.map Prod.snd, T ≠ [] ∧ (∀ t ∈ T, W.an t = 0) ∧ (S.zeta : K) ^ T.length = 1 := by
    intro T hT
    simp only [List.mem_map] at hT
    obtain ⟨q, hq, rfl⟩ := hT
    obtain ⟨cp, h1, h2⟩ := hmem q hq
    exact hne cp h1 q h2
  obtain ⟨terms, h1, h2⟩ := linked W V isQpAnn canContract hann hc pre H (ch.map Prod.snd) post hH
    (fun T h => (hprop T h).1) (fun T h => (hprop T h).2.1) (fun T h => (hprop T h).2.2) (hnd ch hch)
  unfold linkedValue
  rw [h1, Option.getD_some, h2, mul_smul_comm, smul_mul_assoc, map_smul, smul_eq_mul, List.map_map]
  rfl

end

theorem nest_replicate {A : Type} [Ring A] (X T : A) (k : Nat) : nest X (List.replicate k T) = (Lst.ad T)^[k] X := by
  induction k generalizing X with
  | zero => rfl
  | succ k ih => rw [List.replicate_succ, nest, ih, Function.iterate_succ_apply]; rfl

/-- **C113 (similarity transformation).** Let the copies `cp 0, cp 1, ...` stand for the same operator `T`, with different dummy indices.  The
expectation value with the transformed operator `H + [H,T] + ½[[H,T],T] + ...` truncated at any order is `Σₖ 1/k!` times the
connected values of `H T ... T`: what the connected form of the similarity transformation and the required connections compute. -/
theorem linked_series {K : Type} [Field K] [Ring A] [Algebra K A] [DecidableEq Op] (W : Alg S Op K A) (V : Vac W)
    (isQpAnn : Op → Bool) (canContract : Op → Op → Bool)
    (hann : ∀ o, isQpAnn o = false → W.an o = 0) (hc : ∀ x y, canContract x y = false → W.c x y = 0)
    (pre : List (List Op)) (H : List Op) (post : List (List Op)) (hH : H ≠ []) (T : A) (cp : Nat → List (K × List Op))
    (hT : ∀ m, T = ((cp m).map fun q => q.1 • W.N q.2).sum)
    (hne : ∀ m, ∀ q ∈ cp m, q.2 ≠ [] ∧ (∀ t ∈ q.2, W.an t = 0) ∧ (S.zeta : K) ^ q.2.length = 1) (n : Nat)
    (hnd : ∀ k ≤ n, ∀ ch ∈ choices ((List.range k).map cp), (pre ++ H :: (ch.map Prod.snd ++ post)).flatten.Nodup) :
    V.vac (W.prod pre * Lst.series K (Lst.ad T) n (W.N H) * W.prod post) =
      ∑ k ∈ Finset.range (n + 1), (k.factorial : K)⁻¹ *
        ((choices ((List.range k).map cp)).map fun ch =>
          (ch.map Prod.fst).prod * linkedValue S isQpAnn canContract W.c pre H post (ch.map Prod.snd)).sum := by
  unfold Lst.series
  rw [Finset.mul_sum, Finset.sum_mul, map_sum]
  apply Finset.sum_congr rfl
  intro k hk
  rw [mul_smul_comm, smul_mul_assoc, map_smul, smul_eq_mul, ← nest_replicate]
  congr 1
  have e : List.replicate k T = ((List.range k).map cp).map fun cp => (cp.map fun q => q.1 • W.N q.2).sum := by
    rw [List.map_map]
    symm
    rw [List.eq_replicate_iff]
    refine ⟨by simp, ?_⟩
    intro b hb
    simp only [List.mem_map, Function.comp_apply] at hb
    obtain ⟨m, _, rfl⟩ := hb
    exact (hT m).symm
  rw [e]
  refine linked_sums W V isQpAnn canContract hann hc pre H post hH ((List.range k).map cp) ?_
    (hnd k (by simpa [Nat.lt_succ_iff] using hk))
  intro c hcm
  simp only [List.mem_map] at hcm
  obtain ⟨m, _, rfl⟩ := hcm
  exact hne m

end SeQuant.Linked
