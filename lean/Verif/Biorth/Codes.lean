import Verif.Biorth.Pinv
import Mathlib.Data.Nat.Digits.Defs
import Mathlib.Algebra.BigOperators.Fin

/-!
# Calculation with permutations as numbers

Sums over all permutations of up to five particles become sums over numbers that the kernel of Lean calculates quickly.
-/

namespace SeQuant.Biorth

open Equiv (Perm)

variable {n : Nat}

/-- The permutation as a number, whose digits in base `n` are its values. -/
def code (p : Perm (Fin n)) : Nat := ∑ i, (p i : Nat) * n ^ (i : Nat)

def digit (n c j : Nat) : Nat := c / n ^ j % n

theorem digit_sum : ∀ {m : Nat} (b : Nat) (f : Fin m → Nat) (_ : ∀ i, f i < b) (j : Fin m), digit b (∑ i, f i * b ^ (i : Nat)) j = f j
  | 0, _, _, _, j => j.elim0
  | m + 1, b, f, h, j => by
      have hb : 0 < b := Nat.lt_of_le_of_lt (Nat.zero_le _) (h 0)
      have hs : ∑ i : Fin (m + 1), f i * b ^ (i : Nat) = f 0 + b * ∑ i : Fin m, f i.succ * b ^ (i : Nat) := by
        rw [Fin.sum_univ_succ, Finset.mul_sum]
        simp only [Fin.val_zero, pow_zero, mul_one, Fin.val_succ, pow_succ]
        congr 1
        refine Finset.sum_congr rfl fun i _ => ?_
        rw [← mul_assoc, mul_comm]
      rw [hs]
      refine Fin.cases ?_ (fun k => ?_) j
      · unfold digit
        rw [Fin.val_zero, pow_zero, Nat.div_one, Nat.add_mul_mod_self_left, Nat.mod_eq_of_lt (h 0)]
      · have := digit_sum b (fun i : Fin m => f i.succ) (fun i => h i.succ) k
        rw [← this]
        unfold digit
        rw [Fin.val_succ, pow_succ', ← Nat.div_div_eq_div_mul, Nat.add_mul_div_left _ _ hb, Nat.div_eq_of_lt (h 0), Nat.zero_add]

theorem digit_code (p : Perm (Fin n)) (j : Fin n) : digit n (code p) j = p j := digit_sum n (fun i => (p i : Nat)) (fun i => (p i).isLt) j

/-- The number of a product. -/
def comp (n S P : Nat) : Nat := ((List.range n).map fun i => digit n S (digit n P i) * n ^ i).sum

/-- The number of the inverse. -/
def invCode (n P : Nat) : Nat := ((List.range n).map fun i => i * n ^ digit n P i).sum

theorem sum_range_fin {M : Type} [AddCommMonoid M] (m : Nat) (f : Nat → M) : ((List.range m).map f).sum = ∑ i : Fin m, f i := by
  rw [Fin.sum_univ_def, ← List.map_coe_finRange_eq_range, List.map_map]
  rfl

theorem code_mul (p q : Perm (Fin n)) : code (p * q) = comp n (code p) (code q) := by
  unfold comp
  rw [sum_range_fin]
  unfold code
  refine Finset.sum_congr rfl fun i _ => ?_
  have h1 := digit_code q i
  have h2 := digit_code p (q i)
  unfold code at h1 h2
  rw [h1, h2]
  rfl

theorem code_inv (p : Perm (Fin n)) : code p⁻¹ = invCode n (code p) := by
  unfold invCode
  rw [sum_range_fin]
  unfold code
  refine Fintype.sum_equiv p⁻¹ _ _ fun i => ?_
  have h1 := digit_code p (p⁻¹ i)
  unfold code at h1
  rw [h1]
  simp

/-- Sums over all permutations. -/
theorem sum_codes (F : Nat → ℤ) : ∑ q : Perm (Fin n), F (code q) = (((List.range n.factorial).map fun r => code (unrank r n)).map F).sum := by
  rw [List.map_map, sum_range_fin]
  exact (Fintype.sum_equiv (rankEquiv n) _ _ fun r => rfl).symm

theorem mem_codes (p : Perm (Fin n)) : code p ∈ (List.range n.factorial).map fun r => code (unrank r n) := by
  rw [List.mem_map]
  refine ⟨rank p, List.mem_range.2 ((rankEquiv n).symm p).isLt, ?_⟩
  have := (rankEquiv n).right_inv p
  exact congrArg code this

/-- A table of integers as one number: blocks of 32 bits, shifted by `2 ^ 31`; the last digit of a permutation follows from the others. -/
def look (n T c : Nat) : ℤ := ((T / 2 ^ (32 * (c % n ^ (n - 1))) % 2 ^ 32 : Nat) : ℤ) - 2147483648

/-- What the check of the tables for `n` particles needs: the numbers of all permutations; tables of the overlaps, the coefficients times `d` and
the weights times `e`; `kn / kd` is the factor of the normalization. -/
structure Data where
  cs : List Nat
  w : Nat
  c : Nat
  v : Nat
  d : Nat
  e : Nat
  kn : Nat
  kd : Nat

def zipAll {α β : Type} (f : α → β → Bool) : List α → List β → Bool
  | [], [] => true
  | a :: as, b :: bs => f a b && zipAll f as bs
  | _, _ => false

theorem zipAll_spec {α β : Type} {f : α → β → Bool} : ∀ {l : List α} {m : List β}, zipAll f l m = true →
    l.length = m.length ∧ ∀ (i : Nat) (h : i < l.length) (h' : i < m.length), f l[i] m[i] = true
  | [], [], _ => ⟨rfl, fun i h => absurd h (Nat.not_lt_zero _)⟩
  | a :: as, b :: bs, h => by
      rw [zipAll, Bool.and_eq_true] at h
      obtain ⟨h1, h2⟩ := zipAll_spec h.2
      refine ⟨by simp [h1], fun i hi hi' => ?_⟩
      cases i with
      | zero => exact h.1
      | succ i => exact h2 i (by simpa using hi) (by simpa using hi')
  | [], _ :: _, h => by simp [zipAll] at h
  | _ :: _, [], h => by simp [zipAll] at h

/-- The finite part of the proof. -/
structure Data.Ok (D : Data) (n : Nat) (row nns : List (Int × Nat)) : Prop where
  codes : (List.range n.factorial).map (fun r => code (unrank r n)) = D.cs
  overlaps : ∀ r ∈ List.range n.factorial, look n D.w (code (unrank r n)) = (-1) ^ n * (-2) ^ cycles (unrank r n)
  pos : 0 < D.d ∧ 0 < D.e ∧ 0 < D.kn ∧ 0 < D.kd
  even : ∀ c ∈ D.cs, look n D.c (invCode n c) = look n D.c c
  row : zipAll (fun c x => decide (0 < x.2 ∧ look n D.c (comp n (invCode n (D.cs.headD 0)) c) * x.2 = x.1 * D.d)) D.cs row = true
  nns : zipAll (fun c x => decide (0 < x.2 ∧ look n D.v c * x.2 = x.1 * D.e)) D.cs nns = true
  wc : ∀ p ∈ D.cs, (D.cs.map fun q => look n D.w q * look n D.c (comp n p q)).sum * D.e = look n D.v p * D.d
  wv : ∀ p ∈ D.cs, (D.cs.map fun q => look n D.w q * look n D.v (comp n p q)).sum * D.kd = look n D.w p * D.e * D.kn
  cv : ∀ p ∈ D.cs, (D.cs.map fun q => look n D.c q * look n D.v (comp n p q)).sum * D.kd = look n D.c p * D.e * D.kn
  one : look n D.v (code (1 : Perm (Fin n))) = D.e

end SeQuant.Biorth
