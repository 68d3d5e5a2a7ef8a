import Verif.Wick.Spec
import Verif.Sort.Lemmas
import Mathlib.Tactic.Ring
import Mathlib.Tactic.Module
import Mathlib.Tactic.Abel
import Mathlib.Tactic.LinearCombination

/-!
# Auxiliary facts for Wick's theorem
-/

namespace SeQuant.Wick

variable {Op K A : Type} [CommRing K] [Ring A] [Algebra K A] {S : Statistics}

theorem zeta_sq (S : Statistics) : (S.zeta : K) * S.zeta = 1 := by cases S <;> simp [Statistics.zeta]

theorem zeta_pow_even (S : Statistics) (n : Nat) : (S.zeta : K) ^ (n + n) = 1 := by
  rw [← two_mul, pow_mul, pow_two, zeta_sq, one_pow]

theorem phase_eq (S : Statistics) (d : Nat) : phase S d = S.zeta ^ d := by
  cases S
  · simp [phase, Statistics.zeta]
  · simp only [phase, Statistics.zeta, if_true]
    rcases Nat.even_or_odd d with h | h
    · rw [h.neg_one_pow, if_neg (by have := Nat.even_iff.mp h; omega)]
    · rw [h.neg_one_pow, if_pos (Nat.odd_iff.mp h)]; rfl

theorem picksIn_length (l : List Op) (p : Nat × Op × List Op) (h : p ∈ picksIn l) :
    p.2.2.length + 1 = l.length := by
  induction l generalizing p with
  | nil => simp [picksIn] at h
  | cons o l ih =>
    simp only [picksIn, List.mem_cons, List.mem_map] at h
    rcases h with rfl | ⟨q, hq, rfl⟩
    · rfl
    · have := ih q hq
      simp; omega

theorem picks_opsize (ls : List (List Op)) (p : Nat × Op × List (List Op)) (h : p ∈ picks ls) :
    opsize p.2.2 + 1 = opsize ls ∧ p.2.2.length = ls.length := by
  induction ls generalizing p with
  | nil => simp [picks] at h
  | cons l ls ih =>
    simp only [picks, List.mem_append, List.mem_map] at h
    rcases h with ⟨q, hq, rfl⟩ | ⟨q, hq, rfl⟩
    · have := picksIn_length l q hq
      simp [opsize]; omega
    · have := ih q hq
      simp [opsize] at this ⊢; omega

theorem sum_map_smul {M : Type} [AddCommGroup M] [Module K M] {ι : Type} (l : List ι) (z : K) (f : ι → M) :
    (l.map fun i => z • f i).sum = z • (l.map f).sum := by
  induction l with
  | nil => simp
  | cons a l ih => simp [ih]

theorem sum_map_mul_left {ι : Type} (l : List ι) (a : A) (f : ι → A) :
    (l.map fun i => a * f i).sum = a * (l.map f).sum := by
  induction l with
  | nil => simp
  | cons b l ih => simp [ih, mul_add]

theorem sum_map_mul_right {ι : Type} (l : List ι) (a : A) (f : ι → A) :
    (l.map fun i => f i * a).sum = (l.map f).sum * a := by
  induction l with
  | nil => simp
  | cons b l ih => simp [ih, add_mul]

theorem sum_map_add {M : Type} [AddCommGroup M] {ι : Type} (l : List ι) (f g : ι → M) :
    (l.map fun i => f i + g i).sum = (l.map f).sum + (l.map g).sum := by
  induction l with
  | nil => simp
  | cons b l ih => simp [ih]; abel

/-- Moving an annihilation part through a normal-ordered product. -/
theorem an_N (W : Alg S Op K A) (o : Op) (l : List Op) :
    W.an o * W.N l = ((S.zeta : K) ^ l.length) • (W.N l * W.an o) +
      ((picksIn l).map fun p => ((S.zeta : K) ^ p.1 * W.c o p.2.1) • W.N p.2.2).sum := by
  induction l with
  | nil => simp [Alg.N, picksIn]
  | cons x l ih =>
    have hz := zeta_sq (K := K) S
    generalize hzz : (S.zeta : K) = z at *
    have key : ((picksIn l).map fun p => (z ^ (p.1 + 1) * W.c o p.2.1) • W.N (x :: p.2.2)).sum =
        z • (W.cr x * ((picksIn l).map fun p => (z ^ p.1 * W.c o p.2.1) • W.N p.2.2).sum) +
        z ^ l.length • (((picksIn l).map fun p => (z ^ p.1 * W.c o p.2.1) • W.N p.2.2).sum * W.an x) := by
      rw [← sum_map_mul_left, ← sum_map_smul, ← sum_map_mul_right, ← sum_map_smul, ← sum_map_add]
      apply congrArg List.sum
      apply List.map_congr_left
      intro p hp
      have hl := picksIn_length l p hp
      simp only [Alg.N, hzz, ← hl]
      rw [mul_smul_comm, smul_mul_assoc, smul_add, smul_smul, smul_smul, smul_smul]
      congr 2
      · ring
      · have : z ^ (p.2.2.length + 1) * (z ^ p.1 * W.c o p.2.1) =
          z ^ (p.1 + 1) * W.c o p.2.1 * z ^ p.2.2.length := by ring
        rw [this]
    simp only [picksIn, List.map_cons, List.map_map, List.sum_cons, Function.comp_def, pow_zero, one_mul]
    rw [key]
    simp only [Alg.N, hzz, List.length_cons]
    have e1 : W.an o * (W.cr x * W.N l) =
        z • (W.cr x * (W.an o * W.N l)) + W.c o x • W.N l := by
      rw [← mul_assoc, W.an_cr, hzz, add_mul, smul_mul_assoc, smul_mul_assoc, one_mul, mul_assoc]
    have e2 : W.an o * (W.N l * W.an x) = (W.an o * W.N l) * W.an x := by rw [mul_assoc]
    have e3 : W.N l * W.an o * W.an x = z • (W.N l * W.an x * W.an o) := by
      rw [mul_assoc, W.an_an, hzz, mul_smul_comm, mul_assoc]
    rw [mul_add, e1, mul_smul_comm, e2, ih]
    simp only [add_mul, mul_add, smul_add, smul_mul_assoc, mul_smul_comm, e3, smul_smul, mul_assoc]
    generalize (List.map (fun p => (z ^ p.1 * W.c o p.2.1) • W.N p.2.2) (picksIn l)).sum = T
    module

theorem prod_cons (W : Alg S Op K A) (l : List Op) (ls : List (List Op)) :
    W.prod (l :: ls) = W.N l * W.prod ls := by simp [Alg.prod]

/-- Moving an annihilation part through a product of normal-ordered products. -/
theorem an_prod (W : Alg S Op K A) (o : Op) (ls : List (List Op)) :
    W.an o * W.prod ls = ((S.zeta : K) ^ opsize ls) • (W.prod ls * W.an o) +
      ((picks ls).map fun p => ((S.zeta : K) ^ p.1 * W.c o p.2.1) • W.prod p.2.2).sum := by
  induction ls with
  | nil => simp [Alg.prod, picks, opsize]
  | cons l ls ih =>
    simp only [picks, List.map_append, List.map_map, Function.comp_def, List.sum_append, prod_cons]
    have e1 : ((picksIn l).map fun p => ((S.zeta : K) ^ p.1 * W.c o p.2.1) • (W.N p.2.2 * W.prod ls)).sum =
        ((picksIn l).map fun p => ((S.zeta : K) ^ p.1 * W.c o p.2.1) • W.N p.2.2).sum * W.prod ls := by
      rw [← sum_map_mul_right]; simp only [smul_mul_assoc]
    have e2 : ((picks ls).map fun p => ((S.zeta : K) ^ (l.length + p.1) * W.c o p.2.1) • (W.N l * W.prod p.2.2)).sum =
        ((S.zeta : K) ^ l.length) •
          (W.N l * ((picks ls).map fun p => ((S.zeta : K) ^ p.1 * W.c o p.2.1) • W.prod p.2.2).sum) := by
      rw [← sum_map_mul_left, ← sum_map_smul]
      simp only [mul_smul_comm, smul_smul, pow_add, mul_assoc]
    rw [e1, e2, ← mul_assoc, an_N, add_mul, smul_mul_assoc, mul_assoc, ih]
    generalize (List.map (fun p => ((S.zeta : K) ^ p.1 * W.c o p.2.1) • W.N p.2.2) (picksIn l)).sum = T1
    generalize (List.map (fun p => ((S.zeta : K) ^ p.1 * W.c o p.2.1) • W.prod p.2.2) (picks ls)).sum = T2
    have e3 : opsize (l :: ls) = l.length + opsize ls := by simp [opsize]
    rw [e3]
    simp only [mul_add, mul_smul_comm, smul_add, smul_smul, mul_assoc]
    module

end SeQuant.Wick
