import Verif.Space.Model
import Mathlib.Tactic.Push
import Mathlib.Tactic.Tauto
import Mathlib.Order.Basic
import Mathlib.Order.Nat

/-!
# C18: the bit algebra of attributes

`Valid` masks are those without the reserved bit, i.e. all that the public constructors produce.
-/

namespace SeQuant.Spaces

/-- A mask that a constructor accepts. -/
def Valid (a : Mask) : Prop := a.msb = false

instance (a : Mask) : Decidable (Valid a) := by unfold Valid; infer_instance

theorem reserved_and (b : Mask) : b &&& reservedMask = 0#32 ↔ b.msb = false := by
  have hr : reservedMask.msb = true := by decide
  have h31 : reservedMask.getLsbD 31 = true := by decide
  have h2 : ∀ j : Fin 32, j.val ≠ 31 → reservedMask.getLsbD j.val = false := by decide
  generalize reservedMask = m at *
  constructor
  · intro h
    have := congrArg BitVec.msb h
    rw [BitVec.msb_and, hr] at this
    simpa using this
  · intro h
    apply BitVec.eq_of_getLsbD_eq
    intro i hi
    rw [BitVec.getLsbD_and]
    by_cases hi31 : i = 31
    · subst hi31
      have : b.getLsbD 31 = false := by rw [BitVec.msb_eq_getLsbD_last] at h; simpa using h
      rw [this]; simp
    · rw [h2 ⟨i, hi⟩ hi31]; simp

theorem mkMask_eq (b : Mask) : mkMask b = if Valid b then some b else none := by
  unfold mkMask Valid
  simp only [reserved_and]

theorem valid_or {a b : Mask} (ha : Valid a) (hb : Valid b) : Valid (a ||| b) := by simp_all [Valid]
theorem valid_and_left {a b : Mask} (ha : Valid a) : Valid (a &&& b) := by simp_all [Valid]
theorem valid_and_right {a b : Mask} (hb : Valid b) : Valid (a &&& b) := by simp_all [Valid]
theorem valid_xor {a b : Mask} (ha : Valid a) (hb : Valid b) : Valid (a ^^^ b) := by simp_all [Valid]

theorem maskUnion_eq {a b : Mask} (ha : Valid a) (hb : Valid b) : maskUnion a b = some (a ||| b) := by
  rw [maskUnion, mkMask_eq, if_pos (valid_or ha hb)]

theorem maskInter_eq {a b : Mask} (h : Valid a ∨ Valid b) : maskInter a b = some (a &&& b) := by
  rw [maskInter, mkMask_eq, if_pos]
  rcases h with h | h
  · exact valid_and_left h
  · exact valid_and_right h

theorem maskXor_eq {a b : Mask} (ha : Valid a) (hb : Valid b) : maskXor a b = some (a ^^^ b) := by
  rw [maskXor, mkMask_eq, if_pos (valid_xor ha hb)]

theorem maskIncludes_eq {a b : Mask} (h : Valid a ∨ Valid b) : maskIncludes a b = some (decide (a &&& b = b)) := by
  rw [maskIncludes, maskInter_eq h]; rfl

/-- The set of bits of a mask. -/
def bits (a : Mask) : Nat → Prop := fun i => a.getLsbD i = true

theorem and_eq_right_iff (a b : Mask) : a &&& b = b ↔ ∀ i, bits b i → bits a i := by
  constructor
  · intro h i hi
    have := congrArg (fun x => BitVec.getLsbD x i) h
    simp only [BitVec.getLsbD_and] at this
    simp only [bits] at hi ⊢
    rw [hi] at this
    simpa using this
  · intro h
    apply BitVec.eq_of_getLsbD_eq
    intro i _
    rw [BitVec.getLsbD_and]
    have := h i
    simp only [bits] at this
    cases hb : b.getLsbD i
    · simp
    · simp [this hb]

/-- Attributes whose masks the constructors accept. -/
def Attr.Valid (a : Attr) : Prop := Spaces.Valid a.type ∧ Spaces.Valid a.qns

instance (a : Attr) : Decidable a.Valid := by unfold Attr.Valid; infer_instance

/-- **C18** (definedness and meaning): on valid attributes union, intersection and inclusion never fail, their results are valid, and
they are union, intersection and inclusion of the sets of bits. -/
theorem attr_ops (a b : Attr) (ha : a.Valid) (hb : b.Valid) :
    ∃ u n, a.union b = some u ∧ a.inter b = some n ∧ u.Valid ∧ n.Valid ∧
      (∀ i, (bits u.type i ↔ bits a.type i ∨ bits b.type i) ∧ (bits u.qns i ↔ bits a.qns i ∨ bits b.qns i)) ∧
      (∀ i, (bits n.type i ↔ bits a.type i ∧ bits b.type i) ∧ (bits n.qns i ↔ bits a.qns i ∧ bits b.qns i)) ∧
      ∃ r, a.includes b = some r ∧ (r = true ↔ ∀ i, (bits b.type i → bits a.type i) ∧ (bits b.qns i → bits a.qns i)) := by
  refine ⟨⟨a.type ||| b.type, a.qns ||| b.qns⟩, ⟨a.type &&& b.type, a.qns &&& b.qns⟩, ?_, ?_, ?_, ?_, ?_, ?_, ?_⟩
  · simp [Attr.union, maskUnion_eq ha.1 hb.1, maskUnion_eq ha.2 hb.2]
  · simp [Attr.inter, maskInter_eq (Or.inl ha.1), maskInter_eq (Or.inl ha.2)]
  · exact ⟨valid_or ha.1 hb.1, valid_or ha.2 hb.2⟩
  · exact ⟨valid_and_left ha.1, valid_and_left ha.2⟩
  · intro i; simp [bits]
  · intro i; simp [bits]
  · refine ⟨decide (a.type &&& b.type = b.type) && decide (a.qns &&& b.qns = b.qns), ?_, ?_⟩
    · simp only [Attr.includes, maskIncludes_eq (Or.inl ha.1), maskIncludes_eq (Or.inl ha.2)]
      by_cases h : a.type &&& b.type = b.type <;> simp [h]
    · rw [Bool.and_eq_true, decide_eq_true_iff, decide_eq_true_iff, and_eq_right_iff, and_eq_right_iff]
      exact ⟨fun h i => ⟨h.1 i, h.2 i⟩, fun h => ⟨fun i => (h i).1, fun i => (h i).2⟩⟩

theorem Attr.union_eq {a b : Attr} (ha : a.Valid) (hb : b.Valid) : a.union b = some ⟨a.type ||| b.type, a.qns ||| b.qns⟩ := by
  simp [Attr.union, maskUnion_eq ha.1 hb.1, maskUnion_eq ha.2 hb.2]

theorem Attr.inter_eq {a b : Attr} (ha : a.Valid) : a.inter b = some ⟨a.type &&& b.type, a.qns &&& b.qns⟩ := by
  simp [Attr.inter, maskInter_eq (Or.inl ha.1), maskInter_eq (Or.inl ha.2)]

/-- **C18** (commutativity): for all attributes, also when the assertion fails. -/
theorem attr_comm (a b : Attr) : a.union b = b.union a ∧ a.inter b = b.inter a := by
  simp [Attr.union, Attr.inter, maskUnion, maskInter, BitVec.or_comm, BitVec.and_comm]

/-- **C18** (lattice laws). -/
theorem attr_lattice (a b c : Attr) (ha : a.Valid) (hb : b.Valid) (hc : c.Valid) :
    -- associativity
    (a.union b).bind (fun x => x.union c) = (b.union c).bind (fun x => a.union x) ∧
    (a.inter b).bind (fun x => x.inter c) = (b.inter c).bind (fun x => a.inter x) ∧
    -- idempotence
    a.union a = some a ∧ a.inter a = some a ∧
    -- absorption
    (a.inter b).bind (fun x => a.union x) = some a ∧ (a.union b).bind (fun x => a.inter x) = some a ∧
    -- distributivity
    (b.union c).bind (fun x => a.inter x) = (a.inter b).bind (fun x => (a.inter c).bind fun y => x.union y) ∧
    (b.inter c).bind (fun x => a.union x) = (a.union b).bind (fun x => (a.union c).bind fun y => x.inter y) ∧
    -- bottom
    a.union Attr.null = some a ∧ a.inter Attr.null = some Attr.null := by
  have hab : Attr.Valid ⟨a.type ||| b.type, a.qns ||| b.qns⟩ := ⟨valid_or ha.1 hb.1, valid_or ha.2 hb.2⟩
  have hac : Attr.Valid ⟨a.type ||| c.type, a.qns ||| c.qns⟩ := ⟨valid_or ha.1 hc.1, valid_or ha.2 hc.2⟩
  have hbc : Attr.Valid ⟨b.type ||| c.type, b.qns ||| c.qns⟩ := ⟨valid_or hb.1 hc.1, valid_or hb.2 hc.2⟩
  have nab : Attr.Valid ⟨a.type &&& b.type, a.qns &&& b.qns⟩ := ⟨valid_and_left ha.1, valid_and_left ha.2⟩
  have nac : Attr.Valid ⟨a.type &&& c.type, a.qns &&& c.qns⟩ := ⟨valid_and_left ha.1, valid_and_left ha.2⟩
  have nbc : Attr.Valid ⟨b.type &&& c.type, b.qns &&& c.qns⟩ := ⟨valid_and_left hb.1, valid_and_left hb.2⟩
  have h0 : Attr.null.Valid := by decide
  have ext : ∀ {x y z w : Mask}, x = z → y = w → some (Attr.mk x y) = some (Attr.mk z w) := by rintro _ _ _ _ rfl rfl; rfl
  simp only [Attr.union_eq ha hb, Attr.union_eq hb hc, Attr.union_eq ha hc, Attr.inter_eq ha, Attr.inter_eq hb, Option.bind_some,
    Attr.union_eq hab hc, Attr.union_eq ha hbc, Attr.inter_eq nab, Attr.union_eq ha ha, Attr.union_eq ha nab, Attr.union_eq ha nbc,
    Attr.union_eq nab nac, Attr.inter_eq hab, Attr.union_eq ha h0]
  refine ⟨ext ?_ ?_, ext ?_ ?_, ext ?_ ?_, ext ?_ ?_, ext ?_ ?_, ext ?_ ?_, ext ?_ ?_, ext ?_ ?_, ?_, ?_⟩
  all_goals first
    | (apply BitVec.eq_of_getLsbD_eq; intro i _; simp only [BitVec.getLsbD_or, BitVec.getLsbD_and]
       cases a.type.getLsbD i <;> cases b.type.getLsbD i <;> cases c.type.getLsbD i <;> rfl)
    | (apply BitVec.eq_of_getLsbD_eq; intro i _; simp only [BitVec.getLsbD_or, BitVec.getLsbD_and]
       cases a.qns.getLsbD i <;> cases b.qns.getLsbD i <;> cases c.qns.getLsbD i <;> rfl)
    | simp [Attr.null]

/-- **C18** (inclusion is the order of the lattice): partial order, and equivalent to both algebraic forms. -/
theorem attr_includes (a b c : Attr) (ha : a.Valid) (hb : b.Valid) (hc : c.Valid) :
    (a.includes b = some true ↔ a.inter b = some b) ∧ (a.includes b = some true ↔ a.union b = some a) ∧
    a.includes a = some true ∧ (a.includes b = some true → b.includes a = some true → a = b) ∧
    (a.includes b = some true → b.includes c = some true → a.includes c = some true) := by
  have key : ∀ x y : Attr, x.Valid → y.Valid → (x.includes y = some true ↔
      ∀ i, (bits y.type i → bits x.type i) ∧ (bits y.qns i → bits x.qns i)) := by
    intro x y hx hy
    obtain ⟨_, _, _, _, _, _, _, _, r, hr, h⟩ := attr_ops x y hx hy
    rw [hr, ← h]; simp
  have ext : ∀ x y : Attr, x = y ↔ ∀ i, (bits x.type i ↔ bits y.type i) ∧ (bits x.qns i ↔ bits y.qns i) := by
    intro x y
    constructor
    · rintro rfl i; simp
    · intro h
      cases x; cases y
      simp only [Attr.mk.injEq]
      constructor
      · apply BitVec.eq_of_getLsbD_eq; intro i _; have := (h i).1; simp only [bits] at this; rwa [Bool.eq_iff_iff]
      · apply BitVec.eq_of_getLsbD_eq; intro i _; have := (h i).2; simp only [bits] at this; rwa [Bool.eq_iff_iff]
  rw [key a b ha hb, key a a ha ha, key b a hb ha, key b c hb hc, key a c ha hc, Attr.inter_eq ha, Attr.union_eq ha hb,
    Option.some_inj, Option.some_inj, ext, ext, ext]
  simp only [bits, BitVec.getLsbD_and, BitVec.getLsbD_or, Bool.and_eq_true, Bool.or_eq_true]
  refine ⟨?_, ?_, ?_, ?_, ?_⟩
  · exact ⟨fun h i => ⟨⟨fun x => x.2, fun x => ⟨(h i).1 x, x⟩⟩, ⟨fun x => x.2, fun x => ⟨(h i).2 x, x⟩⟩⟩,
      fun h i => ⟨fun x => ((h i).1.2 x).1, fun x => ((h i).2.2 x).1⟩⟩
  · exact ⟨fun h i => ⟨⟨fun x => x.elim id (h i).1, Or.inl⟩, ⟨fun x => x.elim id (h i).2, Or.inl⟩⟩,
      fun h i => ⟨fun x => (h i).1.1 (Or.inr x), fun x => (h i).2.1 (Or.inr x)⟩⟩
  · exact fun i => ⟨id, id⟩
  · exact fun h1 h2 i => ⟨⟨(h2 i).1, (h1 i).1⟩, ⟨(h2 i).2, (h1 i).2⟩⟩
  · exact fun h1 h2 i => ⟨fun x => (h1 i).1 ((h2 i).1 x), fun x => (h1 i).2 ((h2 i).2 x)⟩

/-- The complement operator of the code always fails its own assertion on a valid mask. -/
theorem maskCompl_fails (a : Mask) (ha : Valid a) : maskCompl a = none := by
  rw [maskCompl, mkMask_eq, if_neg]
  simp only [Valid] at ha ⊢
  simp [BitVec.msb_not, ha]

/-- The reserved attribute does not include itself: the test fails an assertion. -/
theorem reserved_includes_fails : Attr.reserved.includes Attr.reserved = none := by decide

theorem toInt_inj {a b : Mask} : a.toInt = b.toInt ↔ a = b := ⟨BitVec.eq_of_toInt_eq, fun h => h ▸ rfl⟩

/-- **C18** (order): `operator<` on attributes, including reserved ones, is a strict total order compatible with `==`. -/
theorem attr_order (a b c : Attr) :
    a.lt a = false ∧ (a.lt b = true → b.lt c = true → a.lt c = true) ∧
    (a.lt b = true ∨ a = b ∨ b.lt a = true) ∧ (a.lt b = true → b.lt a = false) := by
  have key : ∀ x y : Attr, x.lt y = true ↔ x.qns.toInt < y.qns.toInt ∨ (x.qns.toInt = y.qns.toInt ∧ x.type.toInt < y.type.toInt) := by
    intro x y
    unfold Attr.lt maskLt
    rw [toInt_inj]
    by_cases h : x.qns = y.qns
    · simp [h]
    · simp [h]
  have hf : ∀ x y : Attr, x.lt y = false ↔ ¬ x.lt y = true := by intro x y; simp
  have he : a = b ↔ a.qns.toInt = b.qns.toInt ∧ a.type.toInt = b.type.toInt := by
    cases a; cases b; simp [toInt_inj, and_comm]
  rw [hf, hf, key, key, key, key, key, he]
  omega

/-- The 64-bit number that is hashed determines the attribute. -/
theorem attr_toInt64_inj (a b : Attr) (h : a.toInt64 = b.toInt64) : a = b := by
  have h1 := BitVec.two_mul_toInt_lt (x := a.qns)
  have h2 := BitVec.le_two_mul_toInt (x := a.qns)
  have h3 := BitVec.two_mul_toInt_lt (x := b.qns)
  have h4 := BitVec.le_two_mul_toInt (x := b.qns)
  simp only [Attr.toInt64] at h
  have e1 : a.type.toInt = b.type.toInt := by omega
  have e2 : a.qns.toInt = b.qns.toInt := by omega
  cases a; cases b
  simp only [toInt_inj] at e1 e2
  simp [e1, e2]

variable {Key : Type} [LinearOrder Key]

/-- **C18 fails for `IndexSpace`**: spaces with the same attributes and different keys compare equal but are not equal. -/
theorem space_cmp_eq_not_eq : ∃ a b : Space Nat, a.cmp b = .eq ∧ a.beq b = false :=
  ⟨⟨⟨1#32, 0#32⟩, 0⟩, ⟨⟨1#32, 0#32⟩, 1⟩, by decide, by decide⟩

theorem cmp_lt_iff (a b : Space Key) : a.cmp b = .lt ↔
    (a.attr.lt b.attr = true ∧ a.attr ≠ b.attr) ∨ (a.attr = b.attr ∧ a.attr = Attr.reserved ∧ a.key < b.key) := by
  unfold Space.cmp
  by_cases h : a.attr = b.attr
  · by_cases h2 : a.attr = Attr.reserved
    · by_cases h3 : a.key = b.key
      · simp [h, h3]
      · rw [if_neg (by simpa using h), if_pos ⟨h2, h3⟩]
        by_cases h4 : a.key < b.key <;> simp [h, h4, ← h2]
    · rw [if_neg (by simpa using h), if_neg (fun x => h2 x.1)]
      simp [h, h ▸ h2]
  · rw [if_pos h]
    by_cases h4 : a.attr.lt b.attr = true <;> simp [h, h4]

theorem cmp_gt_iff (a b : Space Key) : a.cmp b = .gt ↔ b.cmp a = .lt := by
  rw [cmp_lt_iff]
  have ho := attr_order a.attr b.attr b.attr
  unfold Space.cmp
  by_cases h : a.attr = b.attr
  · have h' := h.symm
    by_cases h2 : a.attr = Attr.reserved
    · by_cases h3 : a.key = b.key
      · simp [h, h3]
      · rw [if_neg (by simpa using h), if_pos ⟨h2, h3⟩]
        rcases lt_or_gt_of_ne h3 with h4 | h4
        · simp [h4, h, not_lt_of_gt h4]
        · have : ¬ a.key < b.key := not_lt_of_gt h4
          simp [this, h4, h, ← h2]
    · rw [if_neg (by simpa using h), if_neg (fun x => h2 x.1)]
      simp [h', h2]
  · rw [if_pos h]
    by_cases h4 : a.attr.lt b.attr = true
    · have := ho.2.2.2 h4
      simp [h4, this, Ne.symm h]
    · have : b.attr.lt a.attr = true := by rcases ho.2.2.1 with h5 | h5 | h5 <;> tauto
      simp [h4, this, Ne.symm h]

/-- **C18, partial** (index spaces): on a set of spaces in which attributes other than the reserved one determine the key, as in a
registry, `<=>` is a strict total order that agrees with `==`.  Missing: arbitrary pairs, see `space_cmp_eq_not_eq`. -/
theorem space_order_partial (P : Space Key → Prop)
    (hP : ∀ a b, P a → P b → a.attr = b.attr → a.attr ≠ Attr.reserved → a.key = b.key) (a b c : Space Key) (ha : P a) (hb : P b) :
    (a.cmp b = .eq ↔ a.beq b = true) ∧ (a.cmp b = .gt ↔ b.cmp a = .lt) ∧
    (a.cmp b = .lt → b.cmp c = .lt → a.cmp c = .lt) := by
  refine ⟨?_, cmp_gt_iff a b, ?_⟩
  · unfold Space.cmp Space.beq
    by_cases h : a.attr = b.attr
    · rw [if_neg (by simpa using h)]
      by_cases h2 : a.attr = Attr.reserved
      · by_cases h3 : a.key = b.key
        · simp [h, h3]
        · rw [if_pos ⟨h2, h3⟩]
          by_cases h4 : a.key < b.key <;> simp [h3, h4]
      · rw [if_neg (fun x => h2 x.1)]; simp [h, hP a b ha hb h h2]
    · rw [if_pos h]
      by_cases h4 : a.attr.lt b.attr = true <;> simp [h, h4]
  · rw [cmp_lt_iff, cmp_lt_iff, cmp_lt_iff]
    have ho := attr_order a.attr b.attr c.attr
    have ho2 := attr_order a.attr a.attr c.attr
    rintro (⟨h1, h2⟩ | ⟨h1, h2, h3⟩) (⟨h4, h5⟩ | ⟨h4, h5, h6⟩)
    · left
      refine ⟨ho.2.1 h1 h4, ?_⟩
      intro h6
      rw [← h6] at h4
      rw [ho.2.2.2 h1] at h4; simp at h4
    · left; rw [← h4]; exact ⟨h1, h2⟩
    · left; rw [h1]; exact ⟨h4, h5⟩
    · right; exact ⟨h1.trans h4, h2, lt_trans h3 h6⟩

/-! ### Examples -/

/-- `active = 0b0110`, `occ = 0b0011`. -/
example : (Attr.mk 6#32 3#32).inter ⟨3#32, 1#32⟩ = some ⟨2#32, 1#32⟩ ∧ (Attr.mk 6#32 3#32).union ⟨3#32, 1#32⟩ = some ⟨7#32, 3#32⟩ ∧
    (Attr.mk 7#32 3#32).includes ⟨3#32, 1#32⟩ = some true := by decide

example : Attr.reserved.lt ⟨0#32, 0#32⟩ = true ∧ (Attr.mk 2#32 0#32).lt ⟨1#32, 1#32⟩ = true := by decide

end SeQuant.Spaces
