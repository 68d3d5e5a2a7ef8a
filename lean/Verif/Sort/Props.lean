import Verif.Sort.Lemmas
import Mathlib.Algebra.BigOperators.Group.List.Basic
import Mathlib.Tactic.Ring

/-!
# C06: `bubble_sort`
-/

namespace SeQuant.Sort

variable {α β : Type}

/-- Termination: for every asymmetric comparator (transitivity is not needed) the loop ends for every input. -/
theorem bubbleSort_terminates (comp : α → α → Bool)
    (hasym : ∀ a b, comp a b = true → comp b a = false) (l : List α) :
    ∃ r N, ∀ fuel, N ≤ fuel → bubbleSort comp fuel l = some r := by
  obtain ⟨r, hr⟩ := bubbleSort_terminates_aux comp hasym (inv comp l + 1) l (by omega)
  exact ⟨r, inv comp l + 1, fun fuel h => bubbleSort_mono comp _ _ l r hr h⟩

example : bubbleSort (fun a b => decide (a < b)) 10 [3, 1, 2] = some ([1, 2, 3], 2) := by decide +kernel

/-- The documentation of `bubble_sort` says that the comparator need not be strict.  It has to be
irreflexive, though: with `a ≤ b` the loop does not end on a range with two equal elements. -/
theorem bubbleSort_nonstrict_diverges (comp : α → α → Bool) (x : α) (h : comp x x = true) (fuel : Nat) :
    bubbleSort comp fuel [x, x] = none := by
  induction fuel with
  | zero => rfl
  | succ fuel ih =>
    have hp : pass comp [x, x] = ([x, x], 1) := by simp [pass, h]
    simp [bubbleSort, hp, ih]

example : bubbleSort (fun a b => decide (a ≤ b)) 1000 [1, 1] = none :=
  bubbleSort_nonstrict_diverges _ 1 (by simp) _

/-- The result is a rearrangement of the input in which no element has to be exchanged with its successor. -/
theorem bubbleSort_sound (comp : α → α → Bool) (fuel : Nat) (l l' : List α) (n : Nat)
    (h : bubbleSort comp fuel l = some (l', n)) :
    l'.Perm l ∧ ∀ (i : Nat) (hi : i + 1 < l'.length), comp l'[i + 1] l'[i] = false := by
  refine ⟨(bubbleSort_swaps comp fuel l l' n h).perm, ?_⟩
  have := bubbleSort_chain comp fuel l l' n h
  rw [List.isChain_iff_getElem] at this
  exact this

example : ∃ l' n, bubbleSort (fun a b => decide (a % 3 < b % 3)) 10 [5, 4, 3, 2] = some (l', n) ∧
    l' = [3, 4, 5, 2] ∧ n = 3 := ⟨_, _, by decide +kernel, rfl, rfl⟩

/-- For a strict weak order the result is fully sorted. -/
theorem bubbleSort_sorted (comp : α → α → Bool)
    (hneg : ∀ a b c, comp b a = false → comp c b = false → comp c a = false)
    (fuel : Nat) (l l' : List α) (n : Nat)
    (h : bubbleSort comp fuel l = some (l', n)) :
    l'.Pairwise (fun a b => comp b a = false) := by
  have hc := bubbleSort_chain comp fuel l l' n h
  have : IsTrans α (fun a b => comp b a = false) := ⟨hneg⟩
  exact List.isChain_iff_pairwise.mp hc

example : ∀ a b c : Nat, decide (b < a) = false → decide (c < b) = false → decide (c < a) = false := by
  intro a b c; simp; omega

/-- Stability: if incomparability is transitive, the elements incomparable with `a` keep their order. -/
theorem bubbleSort_stable (comp : α → α → Bool)
    (hinc : ∀ a x y, comp a x = false → comp x a = false → comp a y = false → comp y a = false →
      comp y x = false)
    (fuel : Nat) (l l' : List α) (n : Nat)
    (h : bubbleSort comp fuel l = some (l', n)) (a : α) :
    l'.filter (fun x => !comp a x && !comp x a) = l.filter (fun x => !comp a x && !comp x a) := by
  have hs := bubbleSort_swaps comp fuel l l' n h
  clear h
  induction hs with
  | refl => rfl
  | step p q x y _ hc ih =>
    rw [← ih]
    simp only [List.filter_append, List.append_cancel_left_eq]
    have := hinc a x y
    by_cases hx : (!comp a x && !comp x a) = true <;> by_cases hy : (!comp a y && !comp y a) = true
    · simp at hx hy
      rw [this hx.1 hx.2 hy.1 hy.2] at hc
      cases hc
    all_goals simp only [List.filter_cons]; simp [hx, hy]

example : bubbleSort (fun a b => decide (a.1 < b.1)) 10 [(2, 0), (1, 0), (2, 1), (1, 1)] =
    some ([(1, 0), (1, 1), (2, 0), (2, 1)], 3) := by decide +kernel

/-- Sorting the factors of a noncommutative product does not change the product as long as the
comparator asks only for exchanges of factors that commute (the way `Product::canonicalize` uses it,
expr.cpp:341-356). -/
theorem bubbleSort_prod {M : Type} [Monoid M] (value : α → M) (comp : α → α → Bool)
    (hcomm : ∀ x y, comp y x = true → value x * value y = value y * value x)
    (fuel : Nat) (l l' : List α) (n : Nat)
    (h : bubbleSort comp fuel l = some (l', n)) :
    (l'.map value).prod = (l.map value).prod := by
  have hs := bubbleSort_swaps comp fuel l l' n h
  clear h
  induction hs with
  | refl => rfl
  | step p q x y _ hc ih =>
    rw [← ih]
    simp only [List.map_append, List.map_cons, List.prod_append, List.prod_cons]
    rw [← mul_assoc (value y), ← mul_assoc (value x), hcomm x y hc]

example : ∀ x y : ℤ × ℤ, (decide (y.1 < x.1)) = true → x * y = y * x := fun x y _ => mul_comm x y

/-- The swap counter has the parity of the permutation that was performed. -/
theorem bubbleSort_parity (comp : α → α → Bool) (fuel : Nat) (l l' : List α) (n : Nat)
    (h : bubbleSort comp fuel l = some (l', n)) :
    ∃ σ : Equiv.Perm (Fin l.length),
      l' = List.ofFn (fun i => l.get (σ i)) ∧
      (counterIsEven n = true ↔ Equiv.Perm.sign σ = 1) := by
  obtain ⟨σ, e, hs⟩ := (bubbleSort_swaps comp fuel l l' n h).sign
  refine ⟨σ, e, ?_⟩
  have key : ∀ n, counterIsEven n = decide (n % 2 = 0) := by
    intro n
    induction n with
    | zero => rfl
    | succ n ih =>
      simp only [counterIsEven, ih]
      rcases Nat.mod_two_eq_zero_or_one n with h0 | h0 <;> simp [h0] <;> omega
  rw [key, hs]
  rcases Nat.even_or_odd n with he | ho
  · rw [he.neg_one_pow]
    simp [Nat.even_iff.mp he]
  · rw [ho.neg_one_pow]
    have := Nat.odd_iff.mp ho
    simp only [this, one_ne_zero, decide_false, Bool.false_eq_true, false_iff]
    decide

/-- For a range without duplicates there is only one such permutation, so its parity is determined. -/
theorem bubbleSort_parity_nodup (comp : α → α → Bool) (fuel : Nat) (l l' : List α) (n : Nat)
    (h : bubbleSort comp fuel l = some (l', n)) (hnd : l.Nodup) (σ : Equiv.Perm (Fin l.length))
    (hσ : l' = List.ofFn (fun i => l.get (σ i))) :
    counterIsEven n = true ↔ Equiv.Perm.sign σ = 1 := by
  obtain ⟨τ, e, hs⟩ := bubbleSort_parity comp fuel l l' n h
  have : σ = τ := by
    rw [hσ] at e
    have := List.ofFn_injective e
    ext i
    have hi := congrFun this i
    exact congrArg Fin.val (List.nodup_iff_injective_get.mp hnd hi)
  rw [this]; exact hs

example : bubbleSort (fun a b => decide (a < b)) 10 [2, 3, 1] = some ([1, 2, 3], 2) ∧
    [2, 3, 1].Nodup ∧ counterIsEven 2 = true := by decide +kernel

/-- Consequence used by tensor canonicalization: a quantity that changes sign under exchange of neighbours
changes by the sign given by the swap counter. -/
theorem bubbleSort_alternating {M : Type} [AddCommGroup M] (F : List α → M)
    (hF : ∀ p q x y, F (p ++ y :: x :: q) = - F (p ++ x :: y :: q))
    (comp : α → α → Bool) (fuel : Nat) (l l' : List α) (n : Nat)
    (h : bubbleSort comp fuel l = some (l', n)) :
    F l = if counterIsEven n then F l' else - F l' := by
  have hs := bubbleSort_swaps comp fuel l l' n h
  clear h
  induction hs with
  | refl => simp [counterIsEven]
  | step p q x y _ hc ih =>
    rw [ih, hF p q x y]
    simp only [counterIsEven, neg_neg]
    split <;> rename_i hh <;> simp [hh]

/-- Lexicographic comparison of zipped ranges is asymmetric, hence sorting columns terminates as well. -/
theorem compositeCompare_asymm (comp : α → α → Bool)
    (hasym : ∀ a b, comp a b = true → comp b a = false) (c0 c1 : α × α)
    (h : compositeCompare comp c0 c1 = true) : compositeCompare comp c1 c0 = false := by
  unfold compositeCompare at *
  cases h1 : comp c0.1 c1.1 <;> cases h2 : comp c1.1 c0.1 <;> simp_all

/-- Sorting zipped ranges permutes both component ranges by the same permutation: it is a rearrangement of
the columns. -/
theorem bubbleSort_zip (comp : α → α → Bool)
    (hasym : ∀ a b, comp a b = true → comp b a = false) (a b : List α) :
    ∃ N, ∀ fuel, N ≤ fuel → ∃ l' n,
      bubbleSort (compositeCompare comp) fuel (a.zip b) = some (l', n) ∧ l'.Perm (a.zip b) := by
  obtain ⟨r, N, hN⟩ := bubbleSort_terminates (compositeCompare comp)
    (fun c0 c1 => compositeCompare_asymm comp hasym c0 c1) (a.zip b)
  exact ⟨N, fun fuel hf => ⟨r.1, r.2, hN fuel hf,
    (bubbleSort_swaps _ _ _ _ _ (hN fuel hf)).perm⟩⟩

example : bubbleSort (compositeCompare fun a b => decide (a < b)) 10 [(2, 1), (1, 5), (2, 0)] =
    some ([(1, 5), (2, 0), (2, 1)], 2) := by decide +kernel

end SeQuant.Sort
