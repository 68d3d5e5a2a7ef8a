import Verif.Space.RegistryProps

/-!
# C20: set operations of the registry
-/

set_option linter.unusedSectionVars false

namespace SeQuant.Spaces

variable {Key : Type} [LinearOrder Key]

/-- The quantum-number labels of a mask; the empty mask stands for "no quantum number". -/
def qnLabels (q : Mask) : Option Nat → Prop
  | none => q = 0#32
  | some j => bits q j

/-- The single-particle states of a space: a base state type together with a quantum number. -/
def states (s : Space Key) : Nat → Option Nat → Prop := fun i x => bits s.attr.type i ∧ qnLabels s.attr.qns x

theorem bits_zero (i : Nat) : ¬ bits 0#32 i := by simp [bits]

theorem states_null (nk : Key) (i : Nat) (x : Option Nat) : ¬ states (Space.null nk) i x := by
  simp [states, Space.null, Attr.null, bits]

theorem bits_and (a b : Mask) (i : Nat) : bits (a &&& b) i ↔ bits a i ∧ bits b i := by simp [bits]
theorem bits_or (a b : Mask) (i : Nat) : bits (a ||| b) i ↔ bits a i ∨ bits b i := by simp [bits]

theorem findAttr_some {l : List (Space Key)} {a : Attr} {s : Space Key} (h : findAttr l a = some s) : s.attr = a := by
  have := List.find?_some h
  simpa using this

/-- Spaces that public constructors can produce. -/
def Space.Valid (s : Space Key) : Prop := s.attr.Valid

/-- Quantum numbers for which the intersection of the code is right: equal, or without a common bit. -/
def QnsOk (a b : Space Key) : Prop := a.attr.qns = b.attr.qns ∨ a.attr.qns &&& b.attr.qns = 0#32

theorem regInter_eq (nk : Key) (l : List (Space Key)) (a b : Space Key) (hab : a ≠ b) (ha : a.Valid) :
    regInter nk l a b = if a.attr.qns &&& b.attr.qns = 0#32 ∧ a.attr.qns ≠ b.attr.qns then some (some (Space.null nk))
      else if (findAttr l ⟨a.attr.type &&& b.attr.type, a.attr.qns⟩).getD (Space.null nk) = Space.null nk ∧
          a.attr.type &&& b.attr.type ≠ 0#32 then some none
      else some (some ((findAttr l ⟨a.attr.type &&& b.attr.type, a.attr.qns⟩).getD (Space.null nk))) := by
  simp only [regInter, if_neg hab, maskInter_eq (Or.inl ha.1), maskInter_eq (Or.inl ha.2), Option.bind_eq_bind, Option.bind_some]
  split
  · rfl
  · split <;> rfl

/-- **C20, partial** (intersection, meaning): if the quantum numbers are equal or disjoint, the space returned by `intersection`
consists of the common states.  Missing: overlapping but different quantum numbers (`regInter_not_comm`). -/
theorem regInter_partial (nk : Key) (l : List (Space Key)) (a b r : Space Key) (ha : a.Valid) (hq : QnsOk a b)
    (h : regInter nk l a b = some (some r)) : ∀ i x, states r i x ↔ states a i x ∧ states b i x := by
  intro i x
  by_cases hab : a = b
  · subst hab
    simp only [regInter, if_true, Option.some.injEq] at h
    subst h; simp
  · rw [regInter_eq nk l a b hab ha] at h
    split at h
    · rename_i hd
      simp only [Option.some.injEq] at h
      subst h
      have : ¬ (qnLabels a.attr.qns x ∧ qnLabels b.attr.qns x) := by
        rintro ⟨h1, h2⟩
        cases x with
        | none => simp only [qnLabels] at h1 h2; exact hd.2 (h1.trans h2.symm)
        | some j =>
          have : bits (a.attr.qns &&& b.attr.qns) j := (bits_and _ _ _).2 ⟨h1, h2⟩
          rw [hd.1] at this; exact bits_zero j this
      constructor
      · intro hn; exact absurd hn (states_null nk i x)
      · intro hn; exact absurd ⟨hn.1.2, hn.2.2⟩ this
    · rename_i hnd
      have hqe : a.attr.qns = b.attr.qns := by
        rcases hq with h1 | h1
        · exact h1
        · by_contra h2; exact hnd ⟨h1, h2⟩
      split at h
      · simp at h
      · rename_i hnt
        simp only [Option.some.injEq] at h
        have hb : states b i x ↔ bits b.attr.type i ∧ qnLabels a.attr.qns x := by simp [states, hqe]
        rw [hb]
        cases hf : findAttr l ⟨a.attr.type &&& b.attr.type, a.attr.qns⟩ with
        | none =>
          rw [hf] at h hnt
          simp only [Option.getD_none] at h hnt
          have hz : a.attr.type &&& b.attr.type = 0#32 := by by_contra h3; exact hnt (by simpa using h3)
          subst h
          constructor
          · intro hn; exact absurd hn (states_null nk i x)
          · rintro ⟨⟨h1, _⟩, h2, _⟩
            have : bits (a.attr.type &&& b.attr.type) i := (bits_and _ _ _).2 ⟨h1, h2⟩
            rw [hz] at this; exact absurd this (bits_zero i)
        | some s =>
          rw [hf] at h
          simp only [Option.getD_some] at h
          subst h
          have := findAttr_some hf
          simp only [states, this, bits_and]
          tauto

/-- **C20, partial** (intersection, commutativity), including the exceptions. -/
theorem regInter_comm_partial (nk : Key) (l : List (Space Key)) (a b : Space Key) (ha : a.Valid) (hb : b.Valid) (hq : QnsOk a b) :
    regInter nk l a b = regInter nk l b a := by
  by_cases hab : a = b
  · subst hab; rfl
  · rw [regInter_eq nk l a b hab ha, regInter_eq nk l b a (Ne.symm hab) hb, BitVec.and_comm b.attr.qns, BitVec.and_comm b.attr.type]
    rcases hq with h | h
    · simp [h]
    · by_cases h2 : a.attr.qns = b.attr.qns
      · simp [h2]
      · have h3 : ¬ b.attr.qns = a.attr.qns := fun x => h2 x.symm
        simp [h, h2, h3]

/-- **C20 is false**: with overlapping but different quantum numbers the result has the quantum numbers of the first argument, so the
intersection of "any spin" and "spin up" depends on the order, and in one order it is too large. -/
theorem regInter_not_comm :
    let l : List (Space Nat) := [Space.null 0, ⟨⟨1#32, 3#32⟩, 1⟩, ⟨⟨1#32, 1#32⟩, 2⟩]
    regInter 0 l ⟨⟨1#32, 3#32⟩, 1⟩ ⟨⟨1#32, 1#32⟩, 2⟩ = some (some ⟨⟨1#32, 3#32⟩, 1⟩) ∧
    regInter 0 l ⟨⟨1#32, 1#32⟩, 2⟩ ⟨⟨1#32, 3#32⟩, 1⟩ = some (some ⟨⟨1#32, 1#32⟩, 2⟩) ∧
    states (⟨⟨1#32, 3#32⟩, 1⟩ : Space Nat) 0 (some 1) ∧ ¬ states (⟨⟨1#32, 1#32⟩, 2⟩ : Space Nat) 0 (some 1) := by
  refine ⟨by decide, by decide, ?_, ?_⟩
  · simp only [states, qnLabels, bits]; decide
  · simp only [states, qnLabels, bits]; decide

/-- **C20** (union): `unIon` is commutative (also in its exceptions), and a returned space consists of the states of both. -/
theorem regUnion_correct (nk : Key) (l : List (Space Key)) (a b : Space Key) (ha : a.Valid) (hb : b.Valid) :
    regUnion nk l a b = regUnion nk l b a ∧
    ∀ r, regUnion nk l a b = some (some r) → ∀ i x, states r i x ↔ states a i x ∨ states b i x := by
  constructor
  · by_cases hab : a = b
    · subst hab; rfl
    · have hba : ¬ b = a := fun h => hab h.symm
      simp only [regUnion, if_neg hab, if_neg hba, maskUnion_eq ha.1 hb.1, maskUnion_eq hb.1 ha.1, BitVec.or_comm b.attr.type]
      by_cases h1 : a.attr.qns = b.attr.qns
      · simp only [h1, ne_eq, not_true_eq_false, if_false]
        split <;> split <;> rfl
      · have h2 : b.attr.qns ≠ a.attr.qns := fun h => h1 h.symm
        rw [if_pos h1, if_pos h2]
        split <;> split <;> rfl
  · intro r hr i x
    simp only [regUnion] at hr
    split at hr
    · simp at hr
    · split at hr
      · simp at hr
      · split at hr
        · rename_i h
          simp only [Option.some.injEq] at hr
          subst hr; subst h; simp
        · split at hr
          · simp at hr
          · rename_i hq
            simp only [ne_eq, not_not] at hq
            rw [maskUnion_eq ha.1 hb.1] at hr
            simp only [Option.bind_eq_bind, Option.bind_some] at hr
            split at hr
            · simp at hr
            · rename_i hn
              simp only [Option.pure_def, Option.some.injEq] at hr
              cases hf : findAttr l ⟨a.attr.type ||| b.attr.type, a.attr.qns⟩ with
              | none => rw [hf] at hn; simp at hn
              | some s =>
                rw [hf] at hr
                simp only [Option.getD_some] at hr
                subst hr
                have := findAttr_some hf
                simp only [states, this, bits_or, hq]
                tauto

/-- `valid_unIon` is not symmetric, and it accepts pairs for which `unIon` throws. -/
theorem validUnion_wrong :
    (let l : List (Space Nat) := [Space.null 0, ⟨⟨1#32, 0#32⟩, 1⟩, ⟨⟨3#32, 0#32⟩, 2⟩]
     validUnion 0 l ⟨⟨1#32, 0#32⟩, 1⟩ ⟨⟨3#32, 0#32⟩, 2⟩ = some true ∧ validUnion 0 l ⟨⟨3#32, 0#32⟩, 2⟩ ⟨⟨1#32, 0#32⟩, 1⟩ = some false) ∧
    (let l : List (Space Nat) := [Space.null 0, ⟨⟨1#32, 1#32⟩, 1⟩, ⟨⟨1#32, 2#32⟩, 2⟩, ⟨⟨1#32, 3#32⟩, 3⟩]
     validUnion 0 l ⟨⟨1#32, 1#32⟩, 1⟩ ⟨⟨1#32, 2#32⟩, 2⟩ = some true ∧ regUnion 0 l ⟨⟨1#32, 1#32⟩, 1⟩ ⟨⟨1#32, 2#32⟩, 2⟩ = some none) := by
  decide

/-- For equal quantum numbers a positive answer of `valid_unIon` means that the union exists. -/
theorem validUnion_partial (nk : Key) (l : List (Space Key)) (a b : Space Key) (ha : a.Valid) (hb : b.Valid)
    (hal : (findAttr l a.attr).isSome) (hbl : (findAttr l b.attr).isSome) (hq : a.attr.qns = b.attr.qns)
    (h : validUnion nk l a b = some true) : ∃ r, regUnion nk l a b = some (some r) := by
  by_cases hab : a = b
  · exact ⟨a, by simp [regUnion, ← hab, Option.isNone_eq_false_iff.2 hal]⟩
  · simp only [validUnion, maskIncludes_eq (Or.inl ha.1), maskIncludes_eq (Or.inl hb.2), maskUnion_eq ha.1 hb.1,
      Option.bind_eq_bind, Option.bind_some, hq, and_true] at h
    split at h
    · simp only [Option.pure_def, Option.some.injEq, decide_eq_true_eq] at h
      refine ⟨(findAttr l ⟨a.attr.type ||| b.attr.type, b.attr.qns⟩).getD (Space.null nk), ?_⟩
      have e1 : (findAttr l a.attr).isNone = false := Option.isNone_eq_false_iff.2 hal
      have e2 : (findAttr l b.attr).isNone = false := Option.isNone_eq_false_iff.2 hbl
      simp [regUnion, e1, e2, hab, hq, maskUnion_eq ha.1 hb.1, h]
    · simp at h

/-- **C20** (complement): the unoccupied space has the types of the complete space that are not occupied. -/
theorem unoccupied_correct (c o : Mask) (hc : Valid c) (ho : Valid o) :
    ∃ r, unoccupiedType c o = some r ∧ Valid r ∧ ∀ i, bits r i ↔ bits c i ∧ ¬ bits o i := by
  refine ⟨(c ^^^ o) &&& c, ?_, valid_and_right hc, ?_⟩
  · simp [unoccupiedType, maskXor_eq hc ho, maskInter_eq (a := c ^^^ o) (Or.inr hc)]
  · intro i
    simp only [bits, BitVec.getLsbD_and, BitVec.getLsbD_xor]
    cases c.getLsbD i <;> cases o.getLsbD i <;> simp

/-! ### Occupancy tests (C46) -/

/-- **C46 is false** for `is_pure_occupied`: it compares masks as integers.  A space without any occupied state is reported as purely
occupied. -/
theorem pureOccupied_wrong : pureOccupied 1#32 6#32 = true ∧ pureUnoccupied 1#32 6#32 = some true := by decide

/-- **C46, partial**: if the occupied base types are the lowest `k` bits, `is_pure_occupied` reports exactly the spaces all of whose
types are occupied.  Missing: any other layout of the occupied types. -/
theorem pureOccupied_partial (t o : Mask) (ht : Valid t) (ho : Valid o) (k : Nat) (hk : o.toNat = 2 ^ k - 1) :
    pureOccupied t o = true ↔ ∀ i, bits t i → bits o i := by
  have e1 : t.toInt = t.toNat := by rw [BitVec.toInt_eq_msb_cond, if_neg (by simpa [Valid] using ht)]
  have e2 : o.toInt = o.toNat := by rw [BitVec.toInt_eq_msb_cond, if_neg (by simpa [Valid] using ho)]
  simp only [pureOccupied, decide_eq_true_eq, e1, e2, bits, BitVec.getLsbD, hk]
  have hb : ∀ i, (2 ^ k - 1).testBit i = decide (i < k) := fun i => Nat.testBit_two_pow_sub_one k i
  simp only [hb, decide_eq_true_eq]
  have hpos : 0 < 2 ^ k := Nat.two_pow_pos k
  constructor
  · intro h i hi
    by_contra hlt
    have h1 : 2 ^ i ≤ t.toNat := Nat.ge_two_pow_of_testBit hi
    have h2 : (2:Nat) ^ k ≤ 2 ^ i := Nat.pow_le_pow_right (by decide) (not_lt.1 hlt)
    omega
  · intro h
    have : t.toNat < 2 ^ k := by
      apply Nat.lt_pow_two_of_testBit
      intro i hi
      by_contra hb
      have := h i (by simpa using hb)
      omega
    omega

/-- **C46** (remaining tests): "purely unoccupied" means no occupied type, "contains occupied" means some occupied type. -/
theorem occupancy_correct (t o : Mask) (ht : Valid t) :
    (∃ r, pureUnoccupied t o = some r ∧ (r = true ↔ ∀ i, ¬ (bits t i ∧ bits o i))) ∧
    (∃ r, containsSome t o = some r ∧ (r = true ↔ ∃ i, bits t i ∧ bits o i)) := by
  have key : t &&& o = 0#32 ↔ ∀ i, ¬ (bits t i ∧ bits o i) := by
    constructor
    · intro h i hi
      have : bits (t &&& o) i := (bits_and _ _ _).2 hi
      rw [h] at this; exact bits_zero i this
    · intro h
      apply BitVec.eq_of_getLsbD_eq
      intro i _
      have := h i
      rw [← bits_and] at this
      simp only [bits, Bool.not_eq_true] at this
      rw [this]; simp
  refine ⟨⟨decide (t &&& o = 0#32), by simp [pureUnoccupied, maskInter_eq (Or.inl ht)], by rw [decide_eq_true_iff, key]⟩,
    ⟨decide (t &&& o ≠ 0#32), by simp [containsSome, maskInter_eq (Or.inl ht)], ?_⟩⟩
  rw [decide_eq_true_iff, ne_eq, key]; push Not; rfl

/-! ### Examples -/

example : regInter 0 [Space.null 0, (⟨⟨2#32, 1#32⟩, 4⟩ : Space Nat)] ⟨⟨3#32, 1#32⟩, 1⟩ ⟨⟨6#32, 1#32⟩, 2⟩ = some (some ⟨⟨2#32, 1#32⟩, 4⟩) := by
  decide

example : unoccupiedType 31#32 7#32 = some 24#32 := by decide

example : pureOccupied 3#32 7#32 = true ∧ pureOccupied 8#32 7#32 = false := by decide

end SeQuant.Spaces
