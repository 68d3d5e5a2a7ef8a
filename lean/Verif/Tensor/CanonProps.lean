import Verif.Tensor.CanonModel
import Verif.Sort.Props
import Mathlib.Data.List.Sort
import Mathlib.Tactic.Abel

/-!
# C41: canonicalization uses only declared symmetry; C51: canonical slots
-/

namespace SeQuant.Tensors

open SeQuant.Sort

variable {ι : Type}

/-! ## Meaning -/

/-- The columns of a tensor; a missing slot is an empty one. -/
def cols : List (Option ι) → List (Option ι) → List (Option ι × Option ι)
  | b :: bs, k :: ks => (b, k) :: cols bs ks
  | b :: bs, [] => (b, none) :: cols bs []
  | [], ks => ks.map (fun k => (none, k))

/-- `V bra ket`, the value of the tensor with these indices, has the symmetries declared for `t`. -/
structure Respects {M : Type} [AddCommGroup M] (t : Tens ι) (V : List (Option ι) → List (Option ι) → M) : Prop where
  antisymm : t.sym = .antisymm → (∀ p q x y k, V (p ++ y :: x :: q) k = - V (p ++ x :: y :: q) k) ∧
    (∀ p q x y b, V b (p ++ y :: x :: q) = - V b (p ++ x :: y :: q))
  symm : t.sym = .symm → (∀ p q x y k, V (p ++ y :: x :: q) k = V (p ++ x :: y :: q) k) ∧
    (∀ p q x y b, V b (p ++ y :: x :: q) = V b (p ++ x :: y :: q))
  columns : t.sym = .nonsymm → t.col = true → ∀ b k b' k', (cols b k).Perm (cols b' k') → V b k = V b' k'
  braket : t.braket = true → ∀ b k, V b k = V k b

/-- The phase returned: a null pointer stands for 1. -/
def phase (p : Option Int) : Int := p.getD 1

/-! ## Columns -/

theorem cols_append (b₁ b₂ k₁ k₂ : List (Option ι)) (h : b₁.length = k₁.length) :
    cols (b₁ ++ b₂) (k₁ ++ k₂) = b₁.zip k₁ ++ cols b₂ k₂ := by
  induction b₁ generalizing k₁ with
  | nil =>
    cases k₁ with
    | nil => rfl
    | cons => simp at h
  | cons b b₁ ih =>
    cases k₁ with
    | nil => simp at h
    | cons k k₁ =>
      simp only [List.length_cons, Nat.add_right_cancel_iff] at h
      simp [cols, ih k₁ h]

theorem cols_nil_right (b : List (Option ι)) : cols b [] = b.map (fun x => (x, none)) := by
  induction b with
  | nil => rfl
  | cons x b ih => simp [cols, ih]

theorem cols_nil_left (k : List (Option ι)) : cols [] k = k.map (fun x => (none, x)) := by
  simp [cols]

theorem zip_of_map (z : List (Option ι × Option ι)) : (z.map (·.1)).zip (z.map (·.2)) = z := by
  induction z with
  | nil => rfl
  | cons x z ih => simp [ih]

/-! ## Sorting -/

theorem swaps_symmetric {α M : Type} {comp : α → α → Bool} (F : List α → M)
    (hF : ∀ p q x y, F (p ++ y :: x :: q) = F (p ++ x :: y :: q)) {n : Nat} {l l' : List α} (h : Swaps comp n l l') : F l' = F l := by
  induction h with
  | refl => rfl
  | step p q x y _ _ ih => rw [hF, ih]

theorem counterIsEven_mod (n : Nat) : counterIsEven n = decide (n % 2 = 0) := by
  induction n with
  | zero => rfl
  | succ n ih =>
    rw [counterIsEven, ih]
    rcases Nat.mod_two_eq_zero_or_one n with h | h <;> simp [h] <;> omega

theorem even_neg {M : Type} [AddCommGroup M] (n m : Nat) (v : M) :
    (if counterIsEven n then (if counterIsEven m then v else -v) else - (if counterIsEven m then v else -v))
      = if counterIsEven (n + m) then v else -v := by
  simp only [counterIsEven_mod]
  rcases Nat.mod_two_eq_zero_or_one n with h | h <;> rcases Nat.mod_two_eq_zero_or_one m with h' | h' <;>
    simp [h, h', Nat.add_mod]

/-! ## C41 -/

/-- **C41, default canonicalizer.**  Whatever the comparators, whenever the sorts end the original tensor equals the phase times the
canonical tensor, for every value with the declared symmetry. -/
theorem canonCore_value {M : Type} [AddCommGroup M] (fuel : Nat) (idxcmp : Option ι → Option ι → Bool)
    (paircmp : Option ι × Option ι → Option ι × Option ι → Bool) (t t' : Tens ι) (p : Option Int)
    (h : canonCore fuel idxcmp paircmp t = some (p, t')) (V : List (Option ι) → List (Option ι) → M) (hV : Respects t V) :
    V t.bra t.ket = phase p • V t'.bra t'.ket := by
  unfold canonCore at h
  by_cases hc : t.col = false
  · rw [if_pos hc] at h
    simp only [Option.some.injEq, Prod.mk.injEq] at h
    obtain ⟨rfl, rfl⟩ := h
    simp [phase]
  rw [if_neg hc] at h
  have hcol : t.col = true := by simpa using hc
  by_cases h1 : t.bra.length = 1 ∧ t.ket.length = 1
  · rw [if_pos h1] at h
    simp only [Option.some.injEq, Prod.mk.injEq] at h
    obtain ⟨rfl, rfl⟩ := h
    simp [phase]
  rw [if_neg h1] at h
  cases hs : t.sym with
  | nonsymm =>
    simp only [hs] at h
    generalize hr : min t.bra.length t.ket.length = rank at h
    have hb : (t.bra.take rank).length = rank := by simp; omega
    have hk : (t.ket.take rank).length = rank := by simp; omega
    cases hz : bubbleSort paircmp fuel ((t.bra.take rank).zip (t.ket.take rank)) with
    | none => simp [hz] at h
    | some r =>
      obtain ⟨z, n⟩ := r
      have hzp := (bubbleSort_swaps paircmp fuel _ z n hz).perm
      have horig : cols t.bra t.ket = (t.bra.take rank).zip (t.ket.take rank) ++ cols (t.bra.drop rank) (t.ket.drop rank) := by
        conv_lhs => rw [← List.take_append_drop rank t.bra, ← List.take_append_drop rank t.ket]
        exact cols_append _ _ _ _ (by rw [hb, hk])
      have hnew : ∀ b k, cols (z.map (·.1) ++ b) (z.map (·.2) ++ k) = z ++ cols b k := by
        intro b k
        rw [cols_append _ _ _ _ (by simp), zip_of_map]
      simp only [hz] at h
      by_cases hbl : rank < t.bra.length
      · rw [if_pos hbl] at h
        have hkd : t.ket.drop rank = [] := by
          rw [List.drop_eq_nil_iff]
          omega
        cases hrest : bubbleSort idxcmp fuel (t.bra.drop rank) with
        | none => simp [hrest] at h
        | some r =>
          obtain ⟨b', n'⟩ := r
          have hrp := (bubbleSort_swaps idxcmp fuel _ b' n' hrest).perm
          simp only [hrest, Option.some.injEq, Prod.mk.injEq] at h
          obtain ⟨rfl, rfl⟩ := h
          simp only [phase, Option.getD_none, one_zsmul]
          apply hV.columns hs hcol
          rw [horig, hnew]
          refine List.Perm.append hzp.symm ?_
          rw [hkd, cols_nil_right, cols_nil_right]
          exact (hrp.map _).symm
      · rw [if_neg hbl] at h
        have hbd : t.bra.drop rank = [] := by
          rw [List.drop_eq_nil_iff]
          omega
        by_cases hkl : rank < t.ket.length
        · rw [if_pos hkl] at h
          cases hrest : bubbleSort idxcmp fuel (t.ket.drop rank) with
          | none => simp [hrest] at h
          | some r =>
            obtain ⟨k', n'⟩ := r
            have hrp := (bubbleSort_swaps idxcmp fuel _ k' n' hrest).perm
            simp only [hrest, Option.some.injEq, Prod.mk.injEq] at h
            obtain ⟨rfl, rfl⟩ := h
            simp only [phase, Option.getD_none, one_zsmul]
            apply hV.columns hs hcol
            rw [horig, hnew]
            refine List.Perm.append hzp.symm ?_
            rw [hbd, cols_nil_left, cols_nil_left]
            exact (hrp.map _).symm
        · rw [if_neg hkl] at h
          simp only [Option.some.injEq, Prod.mk.injEq] at h
          obtain ⟨rfl, rfl⟩ := h
          simp only [phase, Option.getD_none, one_zsmul]
          apply hV.columns hs hcol
          rw [horig, hnew]
          exact List.Perm.append hzp.symm (List.Perm.refl _)
  | symm =>
    simp only [hs] at h
    cases hb : bubbleSort idxcmp fuel t.bra with
    | none => simp [hb] at h
    | some r =>
      obtain ⟨b, n⟩ := r
      cases hk : bubbleSort idxcmp fuel t.ket with
      | none => simp [hb, hk] at h
      | some r =>
        obtain ⟨k, m⟩ := r
        simp only [hb, hk, Option.some.injEq, Prod.mk.injEq] at h
        obtain ⟨rfl, rfl⟩ := h
        have hsym := hV.symm hs
        have e1 := swaps_symmetric (fun l => V l t.ket) (fun p q x y => hsym.1 p q x y t.ket)
          (bubbleSort_swaps idxcmp fuel _ b n hb)
        have e2 := swaps_symmetric (fun l => V b l) (fun p q x y => hsym.2 p q x y b)
          (bubbleSort_swaps idxcmp fuel _ k m hk)
        simp [phase, e1, e2]
  | antisymm =>
    simp only [hs] at h
    cases hb : bubbleSort idxcmp fuel t.bra with
    | none => simp [hb] at h
    | some r =>
      obtain ⟨b, n⟩ := r
      cases hk : bubbleSort idxcmp fuel t.ket with
      | none => simp [hb, hk] at h
      | some r =>
        obtain ⟨k, m⟩ := r
        simp only [hb, hk, Option.some.injEq, Prod.mk.injEq] at h
        obtain ⟨rfl, rfl⟩ := h
        have hanti := hV.antisymm hs
        have e1 := bubbleSort_alternating (fun l => V l t.ket) (fun p q x y => hanti.1 p q x y t.ket) idxcmp fuel _ b n hb
        have e2 := bubbleSort_alternating (fun l => V b l) (fun p q x y => hanti.2 p q x y b) idxcmp fuel _ k m hk
        rw [e2, even_neg] at e1
        rw [e1]
        cases counterIsEven (n + m) <;> simp [phase]

/-- With asymmetric comparators the sorts end. -/
theorem canonCore_terminates (idxcmp : Option ι → Option ι → Bool) (paircmp : Option ι × Option ι → Option ι × Option ι → Bool)
    (hi : ∀ a b, idxcmp a b = true → idxcmp b a = false) (hp : ∀ a b, paircmp a b = true → paircmp b a = false) (t : Tens ι) :
    ∃ r N, ∀ fuel, N ≤ fuel → canonCore fuel idxcmp paircmp t = some r := by
  obtain ⟨r1, N1, h1⟩ := bubbleSort_terminates idxcmp hi t.bra
  obtain ⟨r2, N2, h2⟩ := bubbleSort_terminates idxcmp hi t.ket
  obtain ⟨r3, N3, h3⟩ := bubbleSort_terminates idxcmp hi (t.bra.drop (min t.bra.length t.ket.length))
  obtain ⟨r4, N4, h4⟩ := bubbleSort_terminates idxcmp hi (t.ket.drop (min t.bra.length t.ket.length))
  obtain ⟨r5, N5, h5⟩ := bubbleSort_terminates paircmp hp
    ((t.bra.take (min t.bra.length t.ket.length)).zip (t.ket.take (min t.bra.length t.ket.length)))
  have key : ∃ r, ∀ fuel, N1 + N2 + N3 + N4 + N5 ≤ fuel → canonCore fuel idxcmp paircmp t = some r := by
    unfold canonCore
    by_cases hc : t.col = false
    · exact ⟨_, fun fuel _ => by rw [if_pos hc]⟩
    by_cases hr : t.bra.length = 1 ∧ t.ket.length = 1
    · exact ⟨_, fun fuel _ => by rw [if_neg hc, if_pos hr]⟩
    cases hs : t.sym with
    | nonsymm =>
      by_cases hb : min t.bra.length t.ket.length < t.bra.length
      · refine ⟨(none, { t with bra := r5.1.map (·.1) ++ r3.1, ket := r5.1.map (·.2) ++ t.ket.drop (min t.bra.length t.ket.length) }),
          fun fuel hf => ?_⟩
        rw [if_neg hc, if_neg hr]
        simp only [h5 fuel (by omega), if_pos hb, h3 fuel (by omega), hs]
      · by_cases hk : min t.bra.length t.ket.length < t.ket.length
        · refine ⟨(none, { t with bra := r5.1.map (·.1) ++ t.bra.drop (min t.bra.length t.ket.length), ket := r5.1.map (·.2) ++ r4.1 }),
            fun fuel hf => ?_⟩
          rw [if_neg hc, if_neg hr]
          simp only [h5 fuel (by omega), if_neg hb, if_pos hk, h4 fuel (by omega), hs]
        · refine ⟨(none, { t with bra := r5.1.map (·.1) ++ t.bra.drop (min t.bra.length t.ket.length),
                                  ket := r5.1.map (·.2) ++ t.ket.drop (min t.bra.length t.ket.length) }), fun fuel hf => ?_⟩
          rw [if_neg hc, if_neg hr]
          simp only [h5 fuel (by omega), if_neg hb, if_neg hk, hs]
    | symm =>
      refine ⟨(none, { t with bra := r1.1, ket := r2.1 }), fun fuel hf => ?_⟩
      rw [if_neg hc, if_neg hr]
      simp [h1 fuel (by omega), h2 fuel (by omega), hs]
    | antisymm =>
      refine ⟨(if counterIsEven (r1.2 + r2.2) = false then some (-1) else none, { t with bra := r1.1, ket := r2.1 }), fun fuel hf => ?_⟩
      rw [if_neg hc, if_neg hr]
      simp [h1 fuel (by omega), h2 fuel (by omega), hs]
  obtain ⟨r, hr⟩ := key
  exact ⟨r, _, hr⟩

/-! ## Slots -/

/-- Columns that are not empty. -/
def full (c : Option ι × Option ι) : Bool := c.1.isSome || c.2.isSome

theorem arrange_cols (bra ket : List (Option ι)) :
    (cols (arrangeSlots bra ket).1 (arrangeSlots bra ket).2).Perm ((cols bra ket).filter full) := by
  have hnew : cols (arrangeSlots bra ket).1 (arrangeSlots bra ket).2
      = (pairs bra ket).map (fun p => (some p.1, some p.2)) ++ (((leftover bra ket).filterMap id).map (fun b => (some b, none))
        ++ ((leftover ket bra).filterMap id).map (fun k => (none, some k))) := by
    unfold arrangeSlots
    simp only [List.append_assoc]
    rw [cols_append _ _ _ _ (by simp)]
    congr 1
    · induction pairs bra ket with
      | nil => rfl
      | cons p l ih => simp [ih]
    · have h0 := cols_append (((leftover bra ket).filterMap id).map some) [] (((leftover bra ket).filterMap id).map (fun _ => (none : Option ι)))
        (((leftover ket bra).filterMap id).map some) (by simp)
      simp only [List.append_nil] at h0
      rw [h0, cols_nil_left, List.map_map]
      congr 1
      induction (leftover bra ket).filterMap id with
      | nil => rfl
      | cons p l ih => simp only [List.map_cons, List.zip_cons_cons, ih]
  rw [hnew]
  clear hnew
  have key : ∀ (b k : List (Option ι)),
      ((pairs b k).map (fun p : ι × ι => (some p.1, some p.2)) ++ (((leftover b k).filterMap id).map (fun b => (some b, none))
        ++ ((leftover k b).filterMap id).map (fun k => ((none : Option ι), some k)))).Perm ((cols b k).filter full) := by
    intro b
    induction b with
    | nil =>
      intro k
      have hl : leftover k [] = k := by
        cases k with
        | nil => rfl
        | cons x k => cases x <;> rfl
      have hl' : leftover ([] : List (Option ι)) k = [] := by cases k <;> rfl
      have hp : pairs ([] : List (Option ι)) k = [] := by cases k <;> rfl
      rw [hl, hl', hp, cols_nil_left]
      simp only [List.map_nil, List.nil_append, List.filterMap_nil]
      have : ∀ l : List (Option ι), (l.filterMap id).map (fun x => ((none : Option ι), some x)) = (l.map (fun x => (none, x))).filter full := by
        intro l
        induction l with
        | nil => rfl
        | cons x k ih =>
          cases x with
          | none => simpa [full, List.filter_cons] using ih
          | some x => simpa [full, List.filter_cons] using ih
      rw [this]
    | cons x b ih =>
      intro k
      cases k with
      | nil =>
        have hl : leftover (x :: b) [] = x :: b := by cases x <;> rfl
        have hl' : leftover ([] : List (Option ι)) (x :: b) = [] := rfl
        have hp : pairs (x :: b) [] = [] := by cases x <;> rfl
        rw [hl, hl', hp, cols_nil_right]
        simp only [List.map_nil, List.nil_append, List.filterMap_nil, List.append_nil]
        have : ∀ l : List (Option ι), (l.filterMap id).map (fun x => (some x, (none : Option ι))) = (l.map (fun x => (x, none))).filter full := by
          intro l
          induction l with
          | nil => rfl
          | cons x k ih =>
            cases x with
            | none => simpa [full, List.filter_cons] using ih
            | some x => simpa [full, List.filter_cons] using ih
        rw [this]
      | cons y k =>
        have ih' := ih k
        cases x with
        | none =>
          cases y with
          | none => simpa [pairs, leftover, cols, full, List.filter_cons] using ih'
          | some y =>
            simp only [pairs, leftover, cols, full, List.filter_cons, Option.isSome_none, Option.isSome_some, Bool.or_true,
              if_true, List.filterMap_cons, id, List.map_cons]
            refine List.Perm.trans ?_ (List.Perm.cons _ ih')
            have := List.perm_middle (a := ((none : Option ι), some y))
              (l₁ := (pairs b k).map (fun p => (some p.1, some p.2)) ++ ((leftover b k).filterMap id).map (fun b => (some b, none)))
              (l₂ := ((leftover k b).filterMap id).map (fun k => ((none : Option ι), some k)))
            simpa [List.append_assoc] using this
        | some x =>
          cases y with
          | none =>
            simp only [pairs, leftover, cols, full, List.filter_cons, Option.isSome_none, Option.isSome_some, Bool.true_or,
              if_true, List.filterMap_cons, id, List.map_cons]
            refine List.Perm.trans ?_ (List.Perm.cons _ ih')
            simp
          | some y =>
            simp only [pairs, leftover, cols, full, List.filter_cons, Option.isSome_some, Bool.true_or, if_true, List.filterMap_cons, id,
              List.map_cons, List.cons_append]
            exact List.Perm.cons _ ih'
  exact key bra ket

/-- No column is empty, as `validate_indices` (tensor.hpp:120-196) asserts. -/
def Valid (t : Tens ι) : Prop := ∀ c ∈ cols t.bra t.ket, full c = true

/-- **C51, partial.**  Arranging the slots keeps the columns, so also the value. -/
theorem canonicalizeSlots_columns (t : Tens ι) (h : Valid t) :
    (cols (canonicalizeSlots t).bra (canonicalizeSlots t).ket).Perm (cols t.bra t.ket) := by
  unfold canonicalizeSlots
  split
  · split
    · have h1 := arrange_cols t.bra t.ket
      rw [List.filter_eq_self.2 h] at h1
      exact h1
    · exact List.Perm.refl _
  · exact List.Perm.refl _

theorem canonicalizeSlots_fields (t : Tens ι) :
    (canonicalizeSlots t).sym = t.sym ∧ (canonicalizeSlots t).col = t.col ∧ (canonicalizeSlots t).braket = t.braket := by
  unfold canonicalizeSlots
  split
  · split <;> exact ⟨rfl, rfl, rfl⟩
  · exact ⟨rfl, rfl, rfl⟩

theorem cols_swap (b k : List (Option ι)) : cols k b = (cols b k).map Prod.swap := by
  induction b generalizing k with
  | nil =>
    rw [cols_nil_right, cols_nil_left, List.map_map]
    rfl
  | cons x b ih =>
    cases k with
    | nil =>
      rw [cols_nil_right, cols_nil_left, List.map_map]
      rfl
    | cons y k => simp [cols, ih k]

theorem valid_swap (t : Tens ι) (h : Valid t) : Valid { t with bra := t.ket, ket := t.bra } := by
  intro c hc
  simp only at hc
  rw [cols_swap] at hc
  obtain ⟨d, hd, rfl⟩ := List.mem_map.1 hc
  have := h d hd
  simpa [full, Bool.or_comm] using this

/-- The value is kept by arranging the slots. -/
theorem canonicalizeSlots_value {M : Type} [AddCommGroup M] (t : Tens ι) (h : Valid t) (V : List (Option ι) → List (Option ι) → M)
    (hV : Respects t V) : V (canonicalizeSlots t).bra (canonicalizeSlots t).ket = V t.bra t.ket := by
  by_cases hc : t.sym = .nonsymm ∧ t.col = true
  · exact hV.columns hc.1 hc.2 _ _ _ _ (canonicalizeSlots_columns t h)
  · unfold canonicalizeSlots
    rw [if_neg hc]

/-- Choosing the orientation keeps the value. -/
theorem orient_value {M : Type} [AddCommGroup M] (lt : Option ι → Option ι → Bool) (t : Tens ι) (h : Valid t)
    (V : List (Option ι) → List (Option ι) → M) (hV : Respects t V) : V (orient lt t).bra (orient lt t).ket = V t.bra t.ket := by
  unfold orient
  split
  · rename_i hb
    split
    · unfold swapBraKet
      have hV' : Respects { t with bra := t.ket, ket := t.bra } V := ⟨hV.antisymm, hV.symm, hV.columns, hV.braket⟩
      rw [canonicalizeSlots_value _ (valid_swap t h) V hV']
      exact (hV.braket hb _ _).symm
    · rfl
  · rfl

theorem orient_fields (lt : Option ι → Option ι → Bool) (t : Tens ι) :
    (orient lt t).sym = t.sym ∧ (orient lt t).col = t.col ∧ (orient lt t).braket = t.braket := by
  unfold orient
  split
  · split
    · exact canonicalizeSlots_fields _
    · exact ⟨rfl, rfl, rfl⟩
  · exact ⟨rfl, rfl, rfl⟩

/-- **C41, block canonicalizer.** -/
theorem canonBlock_value {M : Type} [AddCommGroup M] (fuel : Nat) (spaceLess : Option ι → Option ι → Bool)
    (idxcmp : Option ι → Option ι → Bool) (paircmp : Option ι × Option ι → Option ι × Option ι → Bool) (t t' : Tens ι) (p : Option Int)
    (hv : Valid t) (h : canonBlock fuel spaceLess idxcmp paircmp t = some (p, t'))
    (V : List (Option ι) → List (Option ι) → M) (hV : Respects t V) : V t.bra t.ket = phase p • V t'.bra t'.ket := by
  obtain ⟨f1, f2, f3⟩ := orient_fields spaceLess t
  have hV' : Respects (orient spaceLess t) V :=
    ⟨by rw [f1]; exact hV.antisymm, by rw [f1]; exact hV.symm, by rw [f1, f2]; exact hV.columns, by rw [f3]; exact hV.braket⟩
  rw [← canonCore_value fuel idxcmp paircmp _ t' p h V hV']
  exact (orient_value spaceLess t hv V hV).symm

/-! ## The result is canonical -/

theorem lexLess_asymm (lt : Option ι → Option ι → Bool) (ha : ∀ a b, lt a b = true → lt b a = false) (l m : List (Option ι))
    (h : lexLess lt l m = true) : lexLess lt m l = false := by
  induction l generalizing m with
  | nil => cases m <;> simp_all [lexLess]
  | cons a l ih =>
    cases m with
    | nil => simp [lexLess] at h
    | cons b m =>
      simp only [lexLess] at h ⊢
      cases h1 : lt a b with
      | true => simp [ha a b h1]
      | false =>
        cases h2 : lt b a with
        | true => simp [h1, h2] at h
        | false =>
          simp only [h1, h2] at h
          simpa using ih m h

/-- **Orientation.**  Unless slots are empty, the colors of the bra are not before those of the ket afterwards, and nothing but an exchange of
bra and ket has happened. -/
theorem orient_canonical (lt : Option ι → Option ι → Bool) (ha : ∀ a b, lt a b = true → lt b a = false) (t : Tens ι)
    (hb : t.braket = true) (hn : none ∉ t.bra) (hn' : none ∉ t.ket) :
    lexLess lt (sortBy lt (orient lt t).bra) (sortBy lt (orient lt t).ket) = false ∧
      (((orient lt t).bra = t.bra ∧ (orient lt t).ket = t.ket) ∨ ((orient lt t).bra = t.ket ∧ (orient lt t).ket = t.bra)) := by
  have hs : swapBraKet t = { t with bra := t.ket, ket := t.bra } := by
    have e : ∀ l : List (Option ι), none ∉ l → l.any Option.isNone = false := by
      intro l hl
      rw [List.any_eq_false]
      intro x hx hx'
      rw [Option.isNone_iff_eq_none] at hx'
      exact hl (hx' ▸ hx)
    unfold swapBraKet canonicalizeSlots
    simp [e _ hn, e _ hn']
  unfold orient
  rw [if_pos hb]
  cases hl : lexLess lt (sortBy lt t.bra) (sortBy lt t.ket) with
  | true =>
    rw [if_pos rfl, hs]
    exact ⟨lexLess_asymm lt ha _ _ hl, Or.inr ⟨rfl, rfl⟩⟩
  | false =>
    rw [if_neg (by simp)]
    exact ⟨hl, Or.inl ⟨rfl, rfl⟩⟩

/-- Without bra-ket symmetry bra and ket are not exchanged. -/
theorem orient_keeps (lt : Option ι → Option ι → Bool) (t : Tens ι) (hb : t.braket = false) : orient lt t = t := by
  simp [orient, hb]

/-- Without column symmetry nothing is moved. -/
theorem canonCore_keeps (fuel : Nat) (idxcmp : Option ι → Option ι → Bool)
    (paircmp : Option ι × Option ι → Option ι × Option ι → Bool) (t : Tens ι) (h : t.col = false) :
    canonCore fuel idxcmp paircmp t = some (none, t) := by
  simp [canonCore, h]

/-- A comparator that is a strict total order. -/
structure StrictTotal {α : Type} (comp : α → α → Bool) : Prop where
  asymm : ∀ a b, comp a b = true → comp b a = false
  negtrans : ∀ a b c, comp b a = false → comp c b = false → comp c a = false
  total : ∀ a b, comp a b = false → comp b a = false → a = b

theorem bubbleSort_unique {α : Type} {comp : α → α → Bool} (hc : StrictTotal comp) {f g : Nat} {l m l' m' : List α} {n k : Nat}
    (h : l.Perm m) (h1 : bubbleSort comp f l = some (l', n)) (h2 : bubbleSort comp g m = some (m', k)) : l' = m' := by
  have s1 := bubbleSort_sorted comp hc.negtrans f l l' n h1
  have s2 := bubbleSort_sorted comp hc.negtrans g m m' k h2
  have p1 := (bubbleSort_swaps comp f l l' n h1).perm
  have p2 := (bubbleSort_swaps comp g m m' k h2).perm
  refine List.Perm.eq_of_pairwise (le := fun a b => comp b a = false) ?_ s1 s2 (p1.trans (h.trans p2.symm))
  intro a b _ _ h1 h2
  exact (hc.total b a h1 h2).symm

/-- **Canonical form of (anti)symmetric tensors.**  Tensors that differ by permutations of bra and of ket get the same slots. -/
theorem canonCore_unique_symm (f g : Nat) (idxcmp : Option ι → Option ι → Bool)
    (paircmp : Option ι × Option ι → Option ι × Option ι → Bool) (hi : StrictTotal idxcmp) (t u t' u' : Tens ι) (p q : Option Int)
    (hs : t.sym = u.sym) (hns : t.sym ≠ .nonsymm) (hcol : t.col = true) (hcol' : u.col = true) (hb : t.bra.Perm u.bra)
    (hk : t.ket.Perm u.ket) (h : canonCore f idxcmp paircmp t = some (p, t')) (h' : canonCore g idxcmp paircmp u = some (q, u')) :
    t'.bra = u'.bra ∧ t'.ket = u'.ket := by
  have single : ∀ {l m : List (Option ι)}, l.Perm m → l.length = 1 → l = m := by
    intro l m hp hl
    match l, hl with
    | [a], _ => exact (List.perm_singleton.1 hp.symm).symm
  unfold canonCore at h h'
  rw [if_neg (by simp [hcol])] at h
  rw [if_neg (by simp [hcol'])] at h'
  by_cases h1 : t.bra.length = 1 ∧ t.ket.length = 1
  · rw [if_pos h1] at h
    rw [if_pos (by rw [← hb.length_eq, ← hk.length_eq]; exact h1)] at h'
    simp only [Option.some.injEq, Prod.mk.injEq] at h h'
    obtain ⟨rfl, rfl⟩ := h
    obtain ⟨rfl, rfl⟩ := h'
    exact ⟨single hb h1.1, single hk h1.2⟩
  · rw [if_neg h1] at h
    rw [if_neg (by rw [← hb.length_eq, ← hk.length_eq]; exact h1)] at h'
    rw [← hs] at h'
    cases hsym : t.sym with
    | nonsymm => exact absurd hsym hns
    | symm =>
      simp only [hsym] at h h'
      split at h
      · rename_i b n k m e1 e2
        split at h'
        · rename_i b' n' k' m' e1' e2'
          simp only [Option.some.injEq, Prod.mk.injEq] at h h'
          rw [← h.2, ← h'.2]
          exact ⟨bubbleSort_unique hi hb e1 e1', bubbleSort_unique hi hk e2 e2'⟩
        · simp at h'
      · simp at h
    | antisymm =>
      simp only [hsym] at h h'
      split at h
      · rename_i b n k m e1 e2
        split at h'
        · rename_i b' n' k' m' e1' e2'
          simp only [Option.some.injEq, Prod.mk.injEq] at h h'
          rw [← h.2, ← h'.2]
          exact ⟨bubbleSort_unique hi hb e1 e1', bubbleSort_unique hi hk e2 e2'⟩
        · simp at h'
      · simp at h

/-- **Canonical form of column-symmetric tensors.**  Tensors of equal ranks that differ by a permutation of the paired columns and one of the
unpaired slots get the same slots. -/
theorem canonCore_unique_nonsymm (f g : Nat) (idxcmp : Option ι → Option ι → Bool)
    (paircmp : Option ι × Option ι → Option ι × Option ι → Bool) (hi : StrictTotal idxcmp) (hp : StrictTotal paircmp)
    (t u t' u' : Tens ι) (p q : Option Int) (hs : t.sym = .nonsymm) (hs' : u.sym = .nonsymm) (hcol : t.col = true) (hcol' : u.col = true)
    (hb : t.bra.length = u.bra.length) (hk : t.ket.length = u.ket.length) (hz : (t.bra.zip t.ket).Perm (u.bra.zip u.ket))
    (hrb : (t.bra.drop t.ket.length).Perm (u.bra.drop u.ket.length)) (hrk : (t.ket.drop t.bra.length).Perm (u.ket.drop u.bra.length))
    (h : canonCore f idxcmp paircmp t = some (p, t')) (h' : canonCore g idxcmp paircmp u = some (q, u')) :
    t'.bra = u'.bra ∧ t'.ket = u'.ket := by
  have ztake : ∀ (b k : List (Option ι)), (b.take (min b.length k.length)).zip (k.take (min b.length k.length)) = b.zip k := by
    intro b k
    exact List.zip_eq_zip_take_min.symm
  unfold canonCore at h h'
  rw [if_neg (by simp [hcol])] at h
  rw [if_neg (by simp [hcol'])] at h'
  by_cases h1 : t.bra.length = 1 ∧ t.ket.length = 1
  · rw [if_pos h1] at h
    rw [if_pos (by rw [← hb, ← hk]; exact h1)] at h'
    simp only [Option.some.injEq, Prod.mk.injEq] at h h'
    obtain ⟨rfl, rfl⟩ := h
    obtain ⟨rfl, rfl⟩ := h'
    obtain ⟨b1, b2⟩ := h1
    rw [b1] at hb
    rw [b2] at hk
    obtain ⟨x, hx⟩ := List.length_eq_one_iff.1 b1
    obtain ⟨y, hy⟩ := List.length_eq_one_iff.1 b2
    obtain ⟨x', hx'⟩ := List.length_eq_one_iff.1 hb.symm
    obtain ⟨y', hy'⟩ := List.length_eq_one_iff.1 hk.symm
    rw [hx, hy, hx', hy'] at hz
    simp only [List.zip_cons_cons, List.zip_nil_right, List.singleton_perm_singleton, Prod.mk.injEq] at hz
    rw [hx, hy, hx', hy', hz.1, hz.2]
    exact ⟨rfl, rfl⟩
  · rw [if_neg h1] at h
    rw [if_neg (by rw [← hb, ← hk]; exact h1)] at h'
    simp only [hs, hs', ztake] at h h'
    cases e1 : bubbleSort paircmp f (t.bra.zip t.ket) with
    | none => simp [e1] at h
    | some r =>
      obtain ⟨z, n⟩ := r
      cases e2 : bubbleSort paircmp g (u.bra.zip u.ket) with
      | none => simp [e2] at h'
      | some r' =>
        obtain ⟨z', n'⟩ := r'
        have hzz := bubbleSort_unique hp hz e1 e2
        subst hzz
        simp only [e1] at h
        simp only [e2] at h'
        rw [← hb, ← hk] at h'
        have hmin : ∀ {a b : Nat} (l : List (Option ι)), l.length = a → min a b < a → l.drop (min a b) = l.drop b := by
          intro a b l _ hlt
          rw [Nat.min_eq_right (by omega)]
        have hmin' : ∀ {a b : Nat} (l : List (Option ι)), l.length = b → min a b < b → l.drop (min a b) = l.drop a := by
          intro a b l _ hlt
          rw [Nat.min_eq_left (by omega)]
        by_cases hlt : min t.bra.length t.ket.length < t.bra.length
        · rw [if_pos hlt] at h h'
          rw [hmin t.bra rfl hlt] at h
          rw [hmin u.bra hb.symm hlt] at h'
          have hkd : t.ket.drop (min t.bra.length t.ket.length) = [] := by
            rw [List.drop_eq_nil_iff]; omega
          have hkd' : u.ket.drop (min t.bra.length t.ket.length) = [] := by
            rw [List.drop_eq_nil_iff]; omega
          rw [hk] at h h'
          split at h
          · simp at h
          · rename_i r k e3
            split at h'
            · simp at h'
            · rename_i r' k' e4
              simp only [Option.some.injEq, Prod.mk.injEq] at h h'
              rw [← h.2, ← h'.2]
              rw [hk] at hrb
              refine ⟨by simp only [bubbleSort_unique hi hrb e3 e4], ?_⟩
              simp only
              rw [← hk, hkd, hkd']
        · rw [if_neg hlt] at h h'
          have hbd : t.bra.drop (min t.bra.length t.ket.length) = [] := by
            rw [List.drop_eq_nil_iff]; omega
          have hbd' : u.bra.drop (min t.bra.length t.ket.length) = [] := by
            rw [List.drop_eq_nil_iff]; omega
          by_cases hlt' : min t.bra.length t.ket.length < t.ket.length
          · rw [if_pos hlt'] at h h'
            rw [hmin' t.ket rfl hlt', hbd] at h
            rw [hmin' u.ket hk.symm hlt', hbd'] at h'
            split at h
            · simp at h
            · rename_i r k e3
              split at h'
              · simp at h'
              · rename_i r' k' e4
                simp only [Option.some.injEq, Prod.mk.injEq] at h h'
                rw [← h.2, ← h'.2]
                rw [← hb] at hrk
                exact ⟨rfl, by simp only [bubbleSort_unique hi hrk e3 e4]⟩
          · rw [if_neg hlt'] at h h'
            have hkd : t.ket.drop (min t.bra.length t.ket.length) = [] := by
              rw [List.drop_eq_nil_iff]; omega
            have hkd' : u.ket.drop (min t.bra.length t.ket.length) = [] := by
              rw [List.drop_eq_nil_iff]; omega
            simp only [Option.some.injEq, Prod.mk.injEq] at h h'
            rw [← h.2, ← h'.2, hbd, hbd', hkd, hkd']
            exact ⟨rfl, rfl⟩

/-! ## Examples -/

/-- Compare natural numbers, empty slots last. -/
def natCmp : Option Nat → Option Nat → Bool
  | some a, some b => decide (a < b)
  | some _, none => true
  | none, _ => false

def natPair (a b : Option Nat × Option Nat) : Bool := compositeCompare natCmp a b

/-- The sign of an antisymmetric tensor with three exchanges. -/
example : canonCore 5 natCmp natPair ⟨.antisymm, false, true, [some 2, some 1, some 0], [some 4, some 5]⟩
    = some (some (-1), ⟨.antisymm, false, true, [some 0, some 1, some 2], [some 4, some 5]⟩) := by decide +kernel

example : canonCore 5 natCmp natPair ⟨.antisymm, false, true, [some 2, some 1], [some 5, some 4]⟩
    = some (none, ⟨.antisymm, false, true, [some 1, some 2], [some 4, some 5]⟩) := by decide +kernel

/-- Columns stay together. -/
example : canonCore 5 natCmp natPair ⟨.nonsymm, false, true, [some 2, some 1, some 7, some 3], [some 4, some 5]⟩
    = some (none, ⟨.nonsymm, false, true, [some 1, some 2, some 3, some 7], [some 5, some 4]⟩) := by decide +kernel

/-- Nothing is moved without column symmetry. -/
example : canonCore 5 natCmp natPair ⟨.nonsymm, false, false, [some 2, some 1], [some 4, some 5]⟩
    = some (none, ⟨.nonsymm, false, false, [some 2, some 1], [some 4, some 5]⟩) := by decide

/-- A symmetric half tensor is folded into the bra. -/
example : canonBlock 5 natCmp natCmp natPair ⟨.nonsymm, true, true, [], [some 1]⟩
    = some (none, ⟨.nonsymm, true, true, [some 1], []⟩) := by decide +kernel

theorem natCmp_total : StrictTotal natCmp where
  asymm := by
    intro a b h
    cases a <;> cases b <;> simp_all [natCmp]
    omega
  negtrans := by
    intro a b c h1 h2
    cases a <;> cases b <;> cases c <;> simp_all [natCmp]
    omega
  total := by
    intro a b h1 h2
    cases a <;> cases b <;> simp_all [natCmp]
    omega

/-- Values with the declared symmetry exist: a determinant of two bra indices times one of two ket indices. -/
example : Respects (ι := Nat) (M := Int) ⟨.symm, true, true, [], []⟩ (fun b k => (b.length : Int) * k.length) where
  antisymm h := by simp at h
  symm _ := by simp
  columns h := by simp at h
  braket _ b k := Int.mul_comm _ _

/-! ## C51: slots -/

/-- With empty slots the arranged tensor has pairs first, then bra slots without ket, then ket slots without bra. -/
theorem canonicalizeSlots_layout (t : Tens ι) (hs : t.sym = .nonsymm) (hc : t.col = true)
    (he : (t.bra.any Option.isNone || t.ket.any Option.isNone) = true) :
    ∃ (ps : List (ι × ι)) (bo ko : List ι), (canonicalizeSlots t).bra = ps.map (fun p => some p.1) ++ bo.map some ∧
      (canonicalizeSlots t).ket = ps.map (fun p => some p.2) ++ bo.map (fun _ => none) ++ ko.map some := by
  unfold canonicalizeSlots
  rw [if_pos ⟨hs, hc⟩, if_pos he]
  exact ⟨_, _, _, rfl, rfl⟩

/-- **C51 fails.**  An empty bra slot beside a ket index is dropped, an empty ket slot beside a bra index is not, so
tensors with the same columns are kept with different slots. -/
theorem slots_not_unique : ∃ t u : Tens Nat, Valid t ∧ Valid u ∧ t.sym = .nonsymm ∧ u.sym = .nonsymm ∧ t.col = true ∧ u.col = true ∧
    cols t.bra t.ket = cols u.bra u.ket ∧ (canonicalizeSlots t).ket ≠ (canonicalizeSlots u).ket := by
  refine ⟨⟨.nonsymm, false, true, [some 1], [none]⟩, ⟨.nonsymm, false, true, [some 1], []⟩, ?_, ?_, rfl, rfl, rfl, rfl, rfl, by decide⟩ <;>
    simp [Valid, cols, full]

/-- The mirror image of the witness is treated as it should be. -/
example : canonicalizeSlots (⟨.nonsymm, false, true, [none], [some 1]⟩ : Tens Nat) = ⟨.nonsymm, false, true, [], [some 1]⟩ := by decide

example : canonicalizeSlots (⟨.nonsymm, false, true, [none, some 1, none, some 4], [some 2, none, some 3, some 5]⟩ : Tens Nat)
    = ⟨.nonsymm, false, true, [some 4, some 1], [some 5, none, some 2, some 3]⟩ := by decide

end SeQuant.Tensors
