import Verif.Valid.Model
import Verif.Optimize.UniqueProps

/-!
# C122: what `is_valid` accepts
-/

namespace SeQuant.Valid

open SeQuant.Optimize

variable {ι : Type} [DecidableEq ι]

/-! ## Specification -/

mutual
/-- All slots of a term with their indices. -/
def slots : VExpr ι → List (Slot × ι)
  | .tensor b k a => b.map (Slot.bra, ·) ++ k.map (Slot.ket, ·) ++ a.map (Slot.aux, ·)
  | .prod _ _ l => slotsL l
  | _ => []
def slotsL : List (VExpr ι) → List (Slot × ι)
  | [] => []
  | e :: l => slots e ++ slotsL l
end

/-- How often an index occurs in a term. -/
def occ (e : VExpr ι) (i : ι) : Nat := ((slots e).map Prod.snd).count i

/-- Index `i` is an external index of a term, in a slot of type `X`. -/
def Ext (e : VExpr ι) (X : Slot) (i : ι) : Prop := (X, i) ∈ slots e ∧ occ e i = 1

/-- Scalars, and tensors without repeated indices. -/
inductive Plain : VExpr ι → Prop
  | const {re im : Int} (h1 : re ≠ 0) (h2 : im ≠ 0) : Plain (.const re im)
  | var : Plain .var
  | tensor {b k a : List ι} (h : (b ++ k ++ a).Nodup) : Plain (.tensor b k a)

/-- Such, or a product of such. -/
inductive Term : VExpr ι → Prop
  | plain {e : VExpr ι} (h : Plain e) : Term e
  | prod {re im : Int} {l : List (VExpr ι)} (h1 : re ≠ 0) (h2 : im ≠ 0) (h : ∀ f ∈ l, Plain f) : Term (.prod re im l)

/-! ## Proofs -/

omit [DecidableEq ι] in
theorem slotList_eq (b k a : List ι) : slotList ⟨b, k, a⟩ = slots (.tensor b k a) := by simp [slotList, slots]

omit [DecidableEq ι] in
theorem slotList_snd (g : Groups ι) : (slotList g).map Prod.snd = g.bra ++ g.ket ++ g.aux := by
  simp [slotList, Function.comp_def]

omit [DecidableEq ι] in
theorem filter_slot (X Y : Slot) (l : List ι) : ((l.map (Y, ·)).filter fun p => decide (p.1 = X)).map Prod.snd = if Y = X then l else [] := by
  by_cases h : Y = X <;> induction l with
  | nil => simp
  | cons i l ih => simp_all

theorem once_nodup (b k a : List ι) (h : (b ++ k ++ a).Nodup) : uniqTensor b k a = ⟨b, k, a⟩ := by
  rw [uniqTensor_exact]
  have e : ∀ X, onceIn X (slotList ⟨b, k, a⟩) = ((slotList ⟨b, k, a⟩).filter fun p => decide (p.1 = X)).map Prod.snd := by
    intro X
    unfold onceIn
    congr 1
    apply List.filter_congr
    intro p hp
    have : ((slotList ⟨b, k, a⟩).map Prod.snd).count p.2 = 1 := by
      rw [slotList_snd]
      refine List.count_eq_one_of_mem h ?_
      have : p.2 ∈ (slotList (⟨b, k, a⟩ : Groups ι)).map Prod.snd := List.mem_map_of_mem hp
      rwa [slotList_snd] at this
    simp [this]
  unfold onceAll
  rw [e, e, e]
  simp only [slotList, List.filter_append, List.map_append, filter_slot]
  simp

theorem plain_valid (e : VExpr ι) (h : Plain e) : isValid e = .valid := by
  cases h with
  | const h1 h2 => simp [isValid, h1, h2]
  | var => rfl
  | tensor h => rfl

theorem plains_valid (l : List (VExpr ι)) (h : ∀ f ∈ l, Plain f) : isValids l = .valid := by
  induction l with
  | nil => rfl
  | cons e l ih =>
    simp only [isValids, plain_valid e (h e (by simp))]
    exact ih fun f hf => h f (by simp [hf])

theorem plain_unique (e : VExpr ι) (h : Plain e) : uniqExpr (toU e) = some (unique e) ∧ slotList (unique e) = slots e := by
  cases h with
  | const h1 h2 => exact ⟨rfl, rfl⟩
  | var => exact ⟨rfl, rfl⟩
  | @tensor b k a h =>
    refine ⟨rfl, ?_⟩
    show slotList (uniqTensor b k a) = _
    rw [once_nodup b k a h, slotList_eq]

theorem plains_unique (l : List (VExpr ι)) (h : ∀ f ∈ l, Plain f) :
    uniqExprs (toUs l) = some (l.map unique) ∧ (l.map unique).flatMap slotList = slotsL l := by
  induction l with
  | nil => exact ⟨rfl, rfl⟩
  | cons e l ih =>
    obtain ⟨h1, h2⟩ := plain_unique e (h e (by simp))
    obtain ⟨h3, h4⟩ := ih fun f hf => h f (by simp [hf])
    refine ⟨by simp [toUs, uniqExprs, h1, h3], ?_⟩
    rw [List.map_cons, List.flatMap_cons, h2, h4]
    rfl

theorem term_unique (e : VExpr ι) (h : Term e) : unique e = onceAll (slots e) := by
  cases h with
  | plain h =>
    cases h with
    | const h1 h2 => rfl
    | var => rfl
    | @tensor b k a h =>
      show uniqTensor b k a = _
      rw [uniqTensor_exact, slotList_eq]
  | @prod re im l h1 h2 h =>
    obtain ⟨h3, h4⟩ := plains_unique l h
    show ((uniqExprs (toUs l)).map uniqProduct).getD _ = _
    rw [h3, Option.map_some, Option.getD_some, uniqProduct_exact, h4]
    rfl

theorem counter_eq (l : List (VExpr ι)) (h : ∀ f ∈ l, Plain f) (i : ι) : counter l i = ((slotsL l).map Prod.snd).count i := by
  induction l with
  | nil => rfl
  | cons e l ih =>
    have := ih fun f hf => h f (by simp [hf])
    unfold counter at this ⊢
    rw [List.map_cons, List.sum_cons, this, ← slotList_snd, (plain_unique e (h e (by simp))).2]
    simp [slotsL]

theorem mem_counted (l : List (VExpr ι)) (i : ι) (h : 0 < counter l i) : i ∈ counted l := by
  induction l with
  | nil => simp [counter] at h
  | cons e l ih =>
    unfold counter at h ih
    rw [List.map_cons, List.sum_cons] at h
    unfold counted at ih ⊢
    rw [List.flatMap_cons, List.mem_append]
    by_cases h0 : 0 < ((unique e).bra ++ (unique e).ket ++ (unique e).aux).count i
    · exact Or.inl (List.count_pos_iff.mp h0)
    · exact Or.inr (ih (by omega))

/-- **C122 (products).** A product of scalars and tensors without repeated indices is accepted exactly if no index occurs more than twice in it. -/
theorem valid_product (re im : Int) (l : List (VExpr ι)) (h1 : re ≠ 0) (h2 : im ≠ 0) (h : ∀ f ∈ l, Plain f) :
    isValid (.prod re im l) = .valid ↔ ∀ i, occ (.prod re im l) i ≤ 2 := by
  simp only [isValid, plains_valid l h, checkProd, h1, h2, if_false]
  constructor
  · intro hv i
    by_contra hi
    have hc : counter l i = occ (.prod re im l) i := counter_eq l h i
    have : (counted l).any (fun i => decide (2 < counter l i)) = true := by
      rw [List.any_eq_true]
      exact ⟨i, mem_counted l i (by omega), by simpa using (by omega : 2 < counter l i)⟩
    rw [this] at hv
    simp at hv
  · intro hv
    have : (counted l).any (fun i => decide (2 < counter l i)) = false := by
      rw [List.any_eq_false]
      intro i _
      have := hv i
      have hc : counter l i = occ (.prod re im l) i := counter_eq l h i
      simp only [decide_eq_true_eq]
      omega
    rw [this]
    simp

theorem valid_term (e : VExpr ι) (h : Term e) : isValid e = .valid ↔ ∀ i, occ e i ≤ 2 := by
  cases h with
  | plain h =>
    refine ⟨fun _ i => ?_, fun _ => plain_valid e h⟩
    cases h with
    | const h1 h2 => simp [occ, slots]
    | var => simp [occ, slots]
    | @tensor b k a h =>
      unfold occ
      rw [← slotList_eq, slotList_snd]
      have := List.nodup_iff_count_le_one.mp h i
      show List.count i (b ++ k ++ a) ≤ 2
      omega
  | prod h1 h2 h => exact valid_product _ _ _ h1 h2 h

theorem same_iff (s s' : List (Slot × ι)) : sameGroups (onceAll s) (onceAll s') = true ↔
    ∀ X i, ((X, i) ∈ s ∧ (s.map Prod.snd).count i = 1) ↔ ((X, i) ∈ s' ∧ (s'.map Prod.snd).count i = 1) := by
  have key : ∀ X, (onceIn X s).Perm (onceIn X s') ↔
      ∀ i, ((X, i) ∈ s ∧ (s.map Prod.snd).count i = 1) ↔ ((X, i) ∈ s' ∧ (s'.map Prod.snd).count i = 1) := by
    intro X
    rw [List.perm_ext_iff_of_nodup (onceIn_nodup X s) (onceIn_nodup X s')]
    simp only [mem_onceIn]
  simp only [sameGroups, onceAll, Bool.and_eq_true, List.isPerm_iff, key]
  constructor
  · rintro ⟨⟨hb, hk⟩, ha⟩ X
    cases X
    · exact hb
    · exact hk
    · exact ha
  · intro h
    exact ⟨⟨h .bra, h .ket⟩, h .aux⟩

/-- **C122 (sums).** A sum of such terms is accepted exactly if no index occurs more than twice in a term and all terms have the same external indices in the
same kinds of slots. -/
theorem valid_sum (l : List (VExpr ι)) (hne : l ≠ []) (h : ∀ t ∈ l, Term t) :
    isValid (.sum l) = .valid ↔ (∀ t ∈ l, ∀ i, occ t i ≤ 2) ∧ ∀ t ∈ l, ∀ t' ∈ l, ∀ X i, Ext t X i ↔ Ext t' X i := by
  have hparts : isValids l = .valid ↔ ∀ t ∈ l, ∀ i, occ t i ≤ 2 := by
    clear hne
    induction l with
    | nil => simp [isValids]
    | cons e l ih =>
      have ih' := ih fun t ht => h t (by simp [ht])
      have he := valid_term e (h e (by simp))
      simp only [isValids, List.forall_mem_cons]
      rw [← he, ← ih']
      cases hv : isValid e <;> simp
  cases l with
  | nil => exact absurd rfl hne
  | cons e l =>
    have hall : ((e :: l).all fun f => sameGroups (unique e) (unique f)) = true ↔ ∀ t ∈ e :: l, ∀ X i, Ext e X i ↔ Ext t X i := by
      rw [List.all_eq_true]
      refine forall₂_congr fun t ht => ?_
      rw [term_unique e (h e (by simp)), term_unique t (h t ht), same_iff]
      rfl
    have hcheck : checkSum (e :: l) = .valid ↔ ∀ t ∈ e :: l, ∀ X i, Ext e X i ↔ Ext t X i := by
      rw [← hall]
      unfold checkSum
      split <;> simp_all
    simp only [isValid]
    rw [← hparts]
    cases hv : isValids (e :: l) with
    | valid =>
      simp only [true_and]
      rw [hcheck]
      constructor
      · intro h t ht t' ht' X i
        rw [← h t ht X i, h t' ht' X i]
      · intro h t ht X i
        exact h e (by simp) t ht X i
    | invalid m => simp
    | assertFails => simp
    | outOfRange => simp

/-- **C122 (results).** A result with a valid right-hand side is accepted exactly if its groups are, in any order and each index once, the external indices of the
right-hand side (a term; without its symmetrizer). -/
theorem valid_result (lhs : Groups ι) (e rhs : VExpr ι) (he : isValid e = .valid) (hr : Term rhs) :
    isValidResult lhs e rhs = .valid ↔ ∀ X, (lhs.get X).Nodup ∧ ∀ i, i ∈ lhs.get X ↔ Ext rhs X i := by
  have key : ∀ X (l : List ι), l.Perm (onceIn X (slots rhs)) ↔ l.Nodup ∧ ∀ i, i ∈ l ↔ Ext rhs X i := by
    intro X l
    constructor
    · intro hp
      refine ⟨hp.nodup_iff.mpr (onceIn_nodup X _), fun i => ?_⟩
      rw [hp.mem_iff, mem_onceIn]
      rfl
    · rintro ⟨h1, h2⟩
      rw [List.perm_ext_iff_of_nodup h1 (onceIn_nodup X _)]
      intro i
      rw [h2, mem_onceIn]
      rfl
  have hb := key .bra lhs.bra
  have hk := key .ket lhs.ket
  have ha := key .aux lhs.aux
  have hall : (∀ X, (lhs.get X).Nodup ∧ ∀ i, i ∈ lhs.get X ↔ Ext rhs X i) ↔
      lhs.bra.Perm (onceIn .bra (slots rhs)) ∧ lhs.ket.Perm (onceIn .ket (slots rhs)) ∧ lhs.aux.Perm (onceIn .aux (slots rhs)) := by
    rw [hb, hk, ha]
    constructor
    · intro h; exact ⟨h .bra, h .ket, h .aux⟩
    · rintro ⟨h1, h2, h3⟩ X
      cases X
      · exact h1
      · exact h2
      · exact h3
  rw [hall]
  simp only [isValidResult, he, term_unique rhs hr, onceAll, ← List.isPerm_iff]
  cases lhs.bra.isPerm (onceIn .bra (slots rhs)) <;> cases lhs.ket.isPerm (onceIn .ket (slots rhs)) <;>
    cases lhs.aux.isPerm (onceIn .aux (slots rhs)) <;> simp

/-! ## Examples and refutations -/

example : isValid (.sum [.prod 1 1 [.tensor ["a1"] ["i1"] [], .tensor ["i1"] ["a2"] []], .tensor ["a1"] ["a2"] []]) = .valid := by decide +kernel
example : isValid (.sum [.prod 1 1 [.tensor ["a1"] ["i1"] [], .tensor ["i1"] ["a2"] []], .tensor ["a2"] ["a1"] []]) = .invalid .inconsistent := by decide +kernel
example : isValid (.prod 1 1 [.tensor ["a1"] [] [], .tensor ["a1"] [] [], .tensor ["a1"] [] []]) = .invalid .moreThanTwice := by decide +kernel
example : isValidResult ⟨["a1"], ["a2"], []⟩ (.tensor ["a1"] ["a2"] []) (.tensor ["a1"] ["a2"] []) = .valid ∧
    isValidResult ⟨["a2"], ["a1"], []⟩ (.tensor ["a1"] ["a2"] []) (.tensor ["a1"] ["a2"] []) = .invalid .resultBra := by decide +kernel
example : isValid (.const 0 1 : VExpr String) = .invalid .constRe ∧ isValid (.prod 1 0 [.var] : VExpr String) = .invalid .factorIm ∧
    isValid (.sum [.var, .null] : VExpr String) = .invalid .isNull := by decide +kernel

/-- **C122**, refuted: an index three times in one tensor, `t{i,i;i}`; twice in a tensor and once in another, `t{i;i} f{i}`; twice in a product inside a product. -/
theorem thrice_accepted : isValid (.tensor ["i", "i"] ["i"] []) = .valid ∧
    isValid (.prod 1 1 [.tensor ["i"] ["i"] [], .tensor ["i"] [] []]) = .valid ∧
    isValid (.prod 1 1 [.tensor ["i"] [] [], .prod 1 1 [.tensor ["i"] [] [], .tensor [] ["i"] []]]) = .valid ∧
    occ (.prod 1 1 [.tensor ["i"] [] [], .prod 1 1 [.tensor ["i"] [] [], .tensor [] ["i"] []]]) "i" = 3 := by decide +kernel

/-- **C122**, refuted: an index that is summed over inside a sum may be one of the indices of the other factors: `g{i} (t{i} f{;i})`. -/
theorem capture_accepted : isValid (.prod 1 1 [.tensor ["i"] [] [], .sum [.prod 1 1 [.tensor ["i"] [] [], .tensor [] ["i"] []], .var]]) = .valid := by
  decide +kernel

/-- **C122**, refuted: contractions of two bra slots are accepted. -/
theorem bra_bra_accepted : isValid (.prod 1 1 [.tensor ["i"] ["j"] [], .tensor ["i"] ["k"] []]) = .valid := by decide +kernel

/-- **C122**, refuted: an empty sum is read out of range; powers and operators fail an assertion instead of being found valid or invalid. -/
theorem not_total : isValid (.sum [] : VExpr String) = .outOfRange ∧ isValid (.prod 1 1 [.sum []] : VExpr String) = .outOfRange ∧
    isValid (.other : VExpr String) = .assertFails := by decide +kernel

end SeQuant.Valid
