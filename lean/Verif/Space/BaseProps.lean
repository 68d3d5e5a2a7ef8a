import Verif.Space.SetProps

/-!
# C19: what the registry reports as base types and base spaces
-/

set_option linter.unusedSectionVars false

namespace SeQuant.Spaces

variable {Key : Type} [LinearOrder Key]

theorem unique_mem {α : Type} [DecidableEq α] (l : List α) (x : α) : x ∈ unique l ↔ x ∈ l := by
  induction l using unique.induct with
  | case1 => simp [unique]
  | case2 a => simp [unique]
  | case3 a l ih => simp only [unique, if_pos]; rw [ih]; simp
  | case4 a b l h ih => simp only [unique, if_neg h, List.mem_cons] at ih ⊢; rw [ih]

theorem sortInsert_mem {α : Type} (f : α → Int) (a : α) (l : List α) (x : α) : x ∈ sortInsert f a l ↔ x = a ∨ x ∈ l := by
  induction l with
  | nil => simp [sortInsert]
  | cons b l ih =>
    unfold sortInsert
    split
    · simp only [List.mem_cons, ih]; tauto
    · simp

theorem sortBy_mem {α : Type} (f : α → Int) (l : List α) (x : α) : x ∈ sortBy f l ↔ x ∈ l := by
  induction l with
  | nil => simp [sortBy]
  | cons a l ih => simp [sortBy, sortInsert_mem, ih]

theorem sortInsert_sorted {α : Type} (f : α → Int) (a : α) (l : List α) (h : l.Pairwise fun x y => f x ≤ f y) :
    (sortInsert f a l).Pairwise fun x y => f x ≤ f y := by
  induction l with
  | nil => simp [sortInsert]
  | cons b l ih =>
    rw [List.pairwise_cons] at h
    unfold sortInsert
    split
    · rename_i hlt
      rw [List.pairwise_cons]
      refine ⟨?_, ih h.2⟩
      intro x hx
      rcases (sortInsert_mem f a l x).1 hx with rfl | hx
      · omega
      · exact h.1 x hx
    · rename_i hge
      rw [List.pairwise_cons, List.pairwise_cons]
      refine ⟨?_, h.1, h.2⟩
      intro x hx
      rcases List.mem_cons.1 hx with rfl | hx
      · omega
      · have := h.1 x hx; omega

theorem sortBy_sorted {α : Type} (f : α → Int) (l : List α) : (sortBy f l).Pairwise fun x y => f x ≤ f y := by
  induction l with
  | nil => simp [sortBy]
  | cons a l ih => exact sortInsert_sorted f a _ ih

/-- `has_single_bit` tests that exactly one bit is set. -/
theorem hasSingleBit_iff (b : Mask) : hasSingleBit b = true ↔ ∃ i, bits b i ∧ ∀ j, bits b j → j = i := by
  have hb : ∀ i, bits b i ↔ b.toNat.testBit i = true := fun i => Iff.rfl
  have key : ∀ n : Nat, n ≠ 0 → (n &&& (n - 1) = 0 ↔ ∃ k, n = 2 ^ k) := by
    intro n hn
    constructor
    · intro h
      refine ⟨n.log2, ?_⟩
      have hl := Nat.log2_self_le hn
      by_contra hne
      have h1 : n.testBit n.log2 = true := by rw [Nat.testBit_log2 hn]
      have h2 : (n - 1).testBit n.log2 = true := by
        have hlt : n - 1 < 2 ^ (n.log2 + 1) := by have := Nat.lt_log2_self (n := n); omega
        have hge : 2 ^ n.log2 ≤ n - 1 := by omega
        rw [Nat.testBit_eq_decide_div_mod_eq]
        have : (n - 1) / 2 ^ n.log2 = 1 := by
          apply Nat.div_eq_of_lt_le <;> omega
        simp [this]
      have h3 : (n &&& (n - 1)).testBit n.log2 = true := by rw [Nat.testBit_and, h1, h2]; rfl
      rw [h] at h3; simp at h3
    · rintro ⟨k, rfl⟩
      have : 2 ^ k &&& (2 ^ k - 1) = 2 ^ k % 2 ^ k := Nat.and_two_pow_sub_one_eq_mod (2 ^ k) k
      rw [this]; simp
  have e : hasSingleBit b = true ↔ b.toNat ≠ 0 ∧ b.toNat &&& (b.toNat - 1) = 0 := by
    unfold hasSingleBit
    simp only [Bool.and_eq_true, decide_eq_true_eq]
    have h0 : b ≠ 0#32 ↔ b.toNat ≠ 0 := by
      rw [ne_eq, ← BitVec.toNat_inj]; simp
    rw [h0]
    refine and_congr_right fun hz => ?_
    have hs : (b - 1#32).toNat = b.toNat - 1 := by
      rw [BitVec.toNat_sub]
      have := b.isLt
      simp only [BitVec.toNat_ofNat]
      omega
    rw [← BitVec.toNat_inj, BitVec.toNat_and, hs]; simp
  rw [e]
  constructor
  · rintro ⟨hz, h⟩
    obtain ⟨k, hk⟩ := (key _ hz).1 h
    refine ⟨k, ?_, ?_⟩
    · rw [hb, hk, Nat.testBit_two_pow]; simp
    · intro j hj
      rw [hb, hk, Nat.testBit_two_pow] at hj
      simpa using (of_decide_eq_true hj).symm
  · rintro ⟨i, hi, hu⟩
    have hz : b.toNat ≠ 0 := by
      intro h0; rw [hb, h0] at hi; simp at hi
    refine ⟨hz, (key _ hz).2 ⟨i, ?_⟩⟩
    apply Nat.eq_of_testBit_eq
    intro j
    rw [Nat.testBit_two_pow]
    by_cases hj : i = j
    · subst hj; rw [(hb i).1 hi]; simp
    · simp only [hj, decide_false]
      by_contra hc
      exact hj (hu j (by simpa [hb] using hc)).symm

/-- **C19** (contents): the base types reported are the types with a single base type among the registered spaces, in increasing order
(duplicates are possible, `types_duplicate`). -/
theorem computeTypes_spec (l : List (Space Key)) :
    (∀ t, t ∈ computeTypes l ↔ (∃ s ∈ l, s.attr.type = t) ∧ ∃ i, bits t i ∧ ∀ j, bits t j → j = i) ∧
    (computeTypes l).Pairwise fun x y => x.toInt ≤ y.toInt := by
  refine ⟨fun t => ?_, sortBy_sorted _ _⟩
  rw [computeTypes, sortBy_mem, unique_mem, List.mem_filter, hasSingleBit_iff, List.mem_map]

/-- **C19** (contents): the base spaces reported are the registered spaces with a single base type and without quantum numbers outside
the particle mask, in order of increasing type. -/
theorem computeSpaces_spec (mask : Mask) (l : List (Space Key)) :
    (∀ s, s ∈ computeSpaces mask l ↔ s ∈ l ∧ (∃ i, bits s.attr.type i ∧ ∀ j, bits s.attr.type j → j = i) ∧
      ∀ i, bits s.attr.qns i → bits mask i) ∧
    (computeSpaces mask l).Pairwise fun x y => x.attr.type.toInt ≤ y.attr.type.toInt := by
  refine ⟨fun s => ?_, sortBy_sorted _ _⟩
  have hq : otherAttributes mask s.attr.qns = 0#32 ↔ ∀ i, bits s.attr.qns i → bits mask i := by
    unfold otherAttributes
    constructor
    · intro h i hi
      have h1 : (s.attr.qns &&& ~~~mask).getLsbD i = false := by rw [h]; simp
      simp only [bits] at hi ⊢
      have hlt : i < 32 := by
        by_contra hc
        rw [BitVec.getLsbD_of_ge _ _ (not_lt.1 hc)] at hi; simp at hi
      simp only [BitVec.getLsbD_and, hi, BitVec.getLsbD_not, hlt, decide_true, Bool.true_and, Bool.not_eq_eq_eq_not, Bool.not_false] at h1
      exact h1
    · intro h
      apply BitVec.eq_of_getLsbD_eq
      intro i hi
      have := h i
      simp only [bits] at this
      cases h1 : s.attr.qns.getLsbD i with
      | false => simp [h1]
      | true => simp [h1, this h1]
  rw [computeSpaces, sortBy_mem, unique_mem, List.mem_filter, isBase, Bool.and_eq_true, hasSingleBit_iff, decide_eq_true_eq, hq]

/-- Retrieval of an added space by key and by attributes. -/
theorem add_find {l l' : List (Space Key)} {s : Space Key} (hl : Unique l) (h : addSpace l s = some l') :
    findKey l' s.key = some s ∧ findAttr l' s.attr = some s ∧ ∀ t, t ∈ l' ↔ t = s ∨ t ∈ l := by
  have hu := addSpace_unique hl h
  obtain ⟨rfl, -, -⟩ := addSpace_some h
  have hm : ∀ t, t ∈ insertByKey s l ↔ t = s ∨ t ∈ l := fun t => by rw [(insertByKey_perm s l).mem_iff]; simp
  have hs : s ∈ insertByKey s l := (hm s).2 (Or.inl rfl)
  refine ⟨?_, ?_, hm⟩
  · cases hf : findKey (insertByKey s l) s.key with
    | none => exact absurd (List.find?_eq_none.1 hf s hs) (by simp)
    | some t =>
      have h1 : t.key = s.key := by simpa using List.find?_some hf
      rw [(find_unique hu (List.mem_of_find?_eq_some hf) hs).1 h1]
  · cases hf : findAttr (insertByKey s l) s.attr with
    | none => exact absurd (List.find?_eq_none.1 hf s hs) (by simp)
    | some t => rw [(find_unique hu (List.mem_of_find?_eq_some hf) hs).2 (findAttr_some hf)]

/-- `add` throws exactly if the key or the attributes are taken. -/
theorem add_throws_iff (l : List (Space Key)) (s : Space Key) :
    addSpace l s = none ↔ (∃ t ∈ l, t.key = s.key) ∨ ∃ t ∈ l, t.attr = s.attr := by
  unfold addSpace
  have h1 : (findKey l s.key).isSome = true ↔ ∃ t ∈ l, t.key = s.key := by simp [findKey, List.find?_isSome]
  have h2 : (l.any fun t => decide (s.attr = t.attr)) = true ↔ ∃ t ∈ l, t.attr = s.attr := by
    rw [List.any_eq_true]; simp only [decide_eq_true_eq]; constructor <;> rintro ⟨t, h, e⟩ <;> exact ⟨t, h, e.symm⟩
  split
  · rename_i h; simp [h1.1 h]
  · rename_i h
    rw [h1] at h
    split
    · rename_i h'; simp [h2.1 h']
    · rename_i h'; rw [h2] at h'; simp [h, h']

/-- After `remove` the key is gone and nothing else. -/
theorem remove_mem (l : List (Space Key)) (k : Key) (t : Space Key) : t ∈ removeSpace l k ↔ t ∈ l ∧ t.key ≠ k := by
  simp [removeSpace]

example : computeTypes [occ, virt, virtUp, (⟨⟨3#32, 0#32⟩, 7⟩ : Space Nat)] = [1#32, 2#32] := by decide

example : computeSpaces 1#32 [virt, occ, virtUp, (⟨⟨1#32, 2#32⟩, 7⟩ : Space Nat)] = [occ, virt, virtUp] := by decide

end SeQuant.Spaces
