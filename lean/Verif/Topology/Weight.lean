import Verif.Topology.Unique
import Verif.Wick.ContractionProps
import Mathlib.Algebra.BigOperators.Intervals
import Mathlib.Algebra.Module.Rat

/-!
# The topological weight, and the sum over the kept summands
-/

namespace SeQuant.Topology

open SeQuant.Wick

variable {S : Statistics}

/-! ### `op_permutational_degeneracy` -/

theorem size_eq {P : Parts} {n : Nat} (hP : P.WF n) {i : Nat} (hi : i < P.num) :
    (P.parts.getD i []).length = free P.part (List.range n) i := by
  rw [hP.members i hi, free, List.count, List.countP_map, List.countP_eq_length_filter]
  rfl

theorem count_le_inc (K : Multiset (Nat × Nat)) (i j : Nat) : K.count (i, j) ≤ inc K i := by
  refine Nat.le_trans ?_ (Nat.le_add_right _ _)
  rw [Multiset.count_map, Multiset.count, Multiset.countP_eq_card_filter]
  apply Multiset.card_le_card
  apply Multiset.monotone_filter_right
  rintro a rfl
  rfl

theorem prod_map_range (f : Nat → Rat) (m : Nat) : ((List.range m).map f).prod = ∏ i ∈ Finset.range m, f i := by
  induction m with
  | zero => simp
  | succ m ih => rw [List.range_succ, List.map_append, List.prod_append, ih, Finset.prod_range_succ]; simp

theorem fold_div (f : Nat → Nat) (l : List Nat) (r : Rat) :
    l.foldl (fun res j => if f j > 1 then res / (Nat.factorial (f j) : Rat) else res) r =
      r / (l.map fun j => (Nat.factorial (f j) : Rat)).prod := by
  induction l generalizing r with
  | nil => simp
  | cons a l ih =>
    rw [List.foldl_cons, ih, List.map_cons, List.prod_cons]
    by_cases h : f a > 1
    · rw [if_pos h, div_div]
    · rw [if_neg h]
      have : Nat.factorial (f a) = 1 := by
        rcases (by omega : f a = 0 ∨ f a = 1) with e | e <;> simp [e]
      rw [this]; simp

/-- The factor of one partition. -/
def degFactor (part : Nat → Nat) (m n : Nat) (K : Multiset (Nat × Nat)) (i : Nat) : Rat :=
  (Nat.factorial (free part (List.range n) i) : Rat) / ∏ j ∈ Finset.range m, (Nat.factorial (K.count (i, j)) : Rat)

theorem prod_range'_eq (f : Nat → Rat) (i m : Nat) (hi : i < m) (h : ∀ j ≤ i, f j = 1) :
    ((List.range' (i + 1) (m - (i + 1))).map f).prod = ∏ j ∈ Finset.range m, f j := by
  obtain ⟨d, rfl⟩ : ∃ d, m = i + 1 + d := ⟨m - (i + 1), by omega⟩
  rw [Nat.add_sub_cancel_left, Finset.prod_range_add, Finset.prod_eq_one, one_mul]
  · rw [List.range'_eq_map_range, List.map_map, Finset.prod_range, ← List.prod_ofFn]
    congr 1
    apply List.ext_getElem
    · simp
    · intro k h1 h2
      simp
  · intro j hj
    exact h j (by have := Finset.mem_range.1 hj; omega)

theorem degStep_eq {P : Parts} {n : Nat} (hP : P.WF n) {s : TState} {K : Multiset (Nat × Nat)} (hs : Rep P s K)
    (hK : ∀ p, inc K p = free P.part (List.range n) p) {i : Nat} (hi : i < P.num) (r : Rat) :
    degStep P true s i r = some (r * degFactor P.part P.num n K i) := by
  have hz : ∀ j ≤ i, (Nat.factorial (K.count (i, j)) : Rat) = 1 := by
    intro j hj
    have : K.count (i, j) = 0 := by
      rw [Multiset.count_eq_zero]
      intro hm
      have := (hs.lt _ hm).1
      simp only at this
      omega
    rw [this]; simp
  unfold degStep
  rw [size_eq hP hi, hs.ncontr, hK]
  simp only [Nat.sub_self, or_true, if_true, gt_iff_lt, Nat.not_lt_zero, if_false]
  split
  · have hfold : (List.range' (i + 1) (P.num - (i + 1))).foldl (fun res j =>
        if 1 < s.cdeg (uptriIdx i j P.num) then res / (Nat.factorial (s.cdeg (uptriIdx i j P.num)) : Rat) else res)
        (r * (Nat.factorial (free P.part (List.range n) i) : Rat)) =
        (List.range' (i + 1) (P.num - (i + 1))).foldl (fun res j =>
        if K.count (i, j) > 1 then res / (Nat.factorial (K.count (i, j)) : Rat) else res)
        (r * (Nat.factorial (free P.part (List.range n) i) : Rat)) := by
      apply List.foldl_ext
      intro a j hj
      rw [List.mem_range'_1] at hj
      rw [hs.cdeg i j (by omega) (by omega)]
    rw [hfold, fold_div, prod_range'_eq _ i P.num hi hz, degFactor]
    congr 1
    ring
  · rename_i hsz
    have h1 : Nat.factorial (free P.part (List.range n) i) = 1 := by
      rcases (by omega : free P.part (List.range n) i = 0 ∨ free P.part (List.range n) i = 1) with e | e <;> simp [e]
    have h2 : (∏ j ∈ Finset.range P.num, (Nat.factorial (K.count (i, j)) : Rat)) = 1 := by
      apply Finset.prod_eq_one
      intro j _
      have := count_le_inc K i j
      rw [hK] at this
      rcases (by omega : K.count (i, j) = 0 ∨ K.count (i, j) = 1) with e | e <;> simp [e]
    rw [degFactor, h1, h2]
    simp

theorem fold_some (f : Nat → Rat → Option Rat) (w : Nat → Rat) (l : List Nat) (h : ∀ i ∈ l, ∀ r, f i r = some (r * w i)) (r : Rat) :
    l.foldl (fun res i => res.bind (f i)) (some r) = some (r * (l.map w).prod) := by
  induction l generalizing r with
  | nil => simp
  | cons a l ih =>
    rw [List.foldl_cons, Option.bind_some, h a (by simp), ih (fun i hi => h i (by simp [hi]))]
    simp [mul_assoc]

/-- **The degeneracy factor is the number of complete sets of contractions of the same kind.** -/
theorem degeneracy_eq {P : Parts} {n : Nat} (hP : P.WF n) {s : TState} {K : Multiset (Nat × Nat)} (hs : Rep P s K)
    (hK : ∀ p, inc K p = free P.part (List.range n) p) :
    degeneracy P true s = some (number P.part P.num (List.range n) K) := by
  unfold degeneracy
  rw [fold_some _ (degFactor P.part P.num n K) _ (fun i hi r => degStep_eq hP hs hK (List.mem_range.1 hi) r), one_mul]
  congr 1
  unfold number degFactor
  rw [prod_map_range, Finset.prod_div_distrib, Finset.prod_product]

/-! ### The weights of the summands -/

theorem wickTopo_weight {P : Parts} {cc adm : Nat → Nat → Bool} (isQpAnn : Nat → Bool) (hord : ∀ i j, adm i j = true → i < j)
    (fuel : Nat) (s : TState) (C : Multiset (Nat × Nat)) (hs : Rep P s C) (nops : List (List Nat))
    (h : Ctx P.part P.num cc adm nops) (t : WTerm) (ht : t ∈ wickTopo S isQpAnn cc P fuel s nops) :
    (∃ s', Rep P s' (keyOf P.part t.2.2 + C) ∧ t.1 = degeneracy P true s') := by
  induction fuel generalizing s C nops t with
  | zero => simp [wickTopo] at ht
  | succ fuel ih =>
    match nops with
    | [] => simp [wickTopo] at ht
    | [] :: nops =>
      simp only [wickTopo] at ht
      exact ih s C hs nops h.tail t ht
    | (o :: rest) :: others =>
      simp only [wickTopo] at ht
      split at ht
      · simp at ht
      · simp only [List.mem_flatMap] at ht
        obtain ⟨p, hp, ht⟩ := ht
        split at ht
        · rename_i hcu
          simp only [Bool.and_eq_true] at hcu
          have hadm := (h.partner (by simp [pick_mem hp])).2 ⟨pick_mem hp, hcu.1⟩
          have hs' := hs.connect (hord _ _ hadm) (h.lt p.2.1 (by simp [pick_mem hp]))
          split at ht
          · simp only [List.mem_singleton] at ht
            subst ht
            refine ⟨_, ?_, rfl⟩
            simpa [keyOf] using hs'
          · simp only [List.mem_map] at ht
            obtain ⟨t', ht', rfl⟩ := ht
            obtain ⟨s'', h1, h2⟩ := ih _ _ hs' _ (h.pick hp) t' ht'
            refine ⟨s'', ?_, h2⟩
            simp only [keyOf_cons]
            rw [Multiset.add_cons] at h1
            rwa [Multiset.cons_add]
        · simp at ht

/-- The summands kept by the filter are summands of the unfiltered search. -/
theorem wickTopo_subset (isQpAnn : Nat → Bool) (cc : Nat → Nat → Bool) (P : Parts) (fuel : Nat) (s : TState)
    (nops : List (List Nat)) (t : WTerm) (ht : t ∈ wickTopo S isQpAnn cc P fuel s nops) : t.2 ∈ wickFull S isQpAnn cc fuel nops := by
  induction fuel generalizing s nops t with
  | zero => simp [wickTopo] at ht
  | succ fuel ih =>
    match nops with
    | [] => simp [wickTopo] at ht
    | [] :: nops =>
      simp only [wickTopo] at ht
      simp only [wickFull]
      exact ih s nops t ht
    | (o :: rest) :: others =>
      simp only [wickTopo] at ht
      simp only [wickFull]
      split at ht
      · simp at ht
      · rename_i hq
        rw [if_neg hq]
        simp only [List.mem_flatMap] at ht ⊢
        obtain ⟨p, hp, ht⟩ := ht
        refine ⟨p, hp, ?_⟩
        split at ht
        · rename_i hcu
          simp only [Bool.and_eq_true] at hcu
          rw [if_pos hcu.1]
          split at ht
          · rename_i h0
            rw [if_pos h0]
            simp only [List.mem_singleton] at ht ⊢
            subst ht; rfl
          · rename_i h0
            rw [if_neg h0]
            simp only [List.mem_map] at ht ⊢
            obtain ⟨t', ht', rfl⟩ := ht
            exact ⟨t'.2, ih _ _ t' ht', rfl⟩
        · simp at ht

/-! ### Sums over summands, grouped by kind -/

theorem sum_by_key {V ι : Type} [AddCommGroup V] [Module Rat V] (l : List ι) (key : ι → Multiset (Nat × Nat))
    (g : Multiset (Nat × Nat) → V) (T : Finset (Multiset (Nat × Nat))) (hT : ∀ i ∈ l, key i ∈ T) :
    (l.map fun i => g (key i)).sum = ∑ B ∈ T, (l.countP (fun i => decide (key i = B)) : Rat) • g B := by
  induction l with
  | nil => simp
  | cons a l ih =>
    rw [List.map_cons, List.sum_cons, ih (fun i hi => hT i (by simp [hi]))]
    have : ∀ B ∈ T, ((a :: l).countP (fun i => decide (key i = B)) : Rat) • g B =
        (if B = key a then g B else 0) + (l.countP (fun i => decide (key i = B)) : Rat) • g B := by
      intro B _
      rw [List.countP_cons]
      by_cases h : key a = B
      · rw [if_pos (by simpa using h), if_pos h.symm]
        push_cast
        rw [add_smul, one_smul, add_comm]
      · rw [if_neg (by simpa using h), if_neg (Ne.symm h)]
        simp
    rw [Finset.sum_congr rfl this, Finset.sum_add_distrib, Finset.sum_ite_eq', if_pos (hT a (by simp))]

end SeQuant.Topology
