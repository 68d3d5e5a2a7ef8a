import Verif.Conv.Known
import Verif.Space.BaseProps

/-!
# Sizes and fields of unions and intersections of spaces (C125)
-/

namespace SeQuant.Conv

open SeQuant.Spaces (Mask Attr hasSingleBit bits)

/-- The loop over the components of `add_intersection` (index_space_registry.hpp:489-508). -/
def interAttr (l : List Sp) (a : Attr) : List Key → Out Attr
  | [] => .ok a
  | k :: ks => do match a.inter (← retrieveKey l k).attr with
    | some b => interAttr l b ks
    | none => .aborts

/-- `add_intersection(label, components, tags...)` (index_space_registry.hpp:480-527), with assertions: the field is not computed. -/
def addInter (k : Key) (comps : List Key) (tags : List Role) (r : Reg) : Out Reg := match comps with
  | c :: d :: cs => do
    let a ← interAttr r.spaces (← retrieveKey r.spaces c).attr (d :: cs)
    let n ← computeSize r.spaces a
    setTags { r with spaces := ← addSp r.spaces { key := k, attr := a, size := n } } a.type tags
  | _ => .aborts

theorem single_hits (t b : Mask) (i : Nat) (hi : bits b i) (hj : ∀ j, bits b j → j = i) : t &&& b ≠ 0#32 ↔ bits t i := by
  constructor
  · intro h
    by_contra hc
    apply h
    apply BitVec.eq_of_getLsbD_eq
    intro j _
    rw [BitVec.getLsbD_and]
    by_cases hb : b.getLsbD j = true
    · have := hj j hb
      subst this
      have : t.getLsbD j = false := by simpa [bits] using hc
      simp [this]
    · simp [hb]
  · intro h hz
    have := congrArg (fun x => x.getLsbD i) hz
    simp only [BitVec.getLsbD_and, BitVec.getLsbD_zero] at this
    unfold bits at h hi
    rw [h, hi] at this
    cases this

/-- A base space of a type: one of its bits, with the same quantum numbers. -/
def IsBase (a : Attr) (s : Sp) : Prop := s.attr.qns = a.qns ∧ ∃ i, bits a.type i ∧ ∀ j, bits s.attr.type j ↔ j = i

theorem subBase_iff (a : Attr) (s : Sp) : subBase a s = true ↔ IsBase a s := by
  simp only [subBase, Bool.and_eq_true, decide_eq_true_eq, IsBase, and_assoc]
  refine and_congr_right fun _ => ?_
  constructor
  · rintro ⟨hs, hn⟩
    obtain ⟨i, hi, hj⟩ := (SeQuant.Spaces.hasSingleBit_iff _).1 hs
    exact ⟨i, (single_hits _ _ i hi hj).1 hn, fun j => ⟨hj j, fun e => e ▸ hi⟩⟩
  · rintro ⟨i, hi, hj⟩
    refine ⟨(SeQuant.Spaces.hasSingleBit_iff _).2 ⟨i, (hj i).2 rfl, fun j h => (hj j).1 h⟩, ?_⟩
    exact (single_hits _ _ i ((hj i).2 rfl) fun j h => (hj j).1 h).2 hi

open Classical in
/-- The total size of the registered base spaces of a type. -/
noncomputable def totalSize (l : List Sp) (a : Attr) : Nat := ((l.filter fun s => decide (IsBase a s)).map Sp.size).sum

/-- The same with the test of the code. -/
def baseSize (l : List Sp) (a : Attr) : Nat := ((l.filter (subBase a)).map Sp.size).sum

theorem totalSize_eq (l : List Sp) (a : Attr) : totalSize l a = baseSize l a := by
  unfold totalSize baseSize
  congr 3
  funext s
  rw [Bool.eq_iff_iff, subBase_iff]
  simp

theorem baseSize_cons (s : Sp) (l : List Sp) (a : Attr) : baseSize (s :: l) a = (if subBase a s = true then s.size else 0) + baseSize l a := by
  by_cases h : subBase a s = true <;> simp [baseSize, h]

theorem subBase_or (s : Sp) (t u q : Mask) :
    (subBase ⟨t ||| u, q⟩ s = (subBase ⟨t, q⟩ s || subBase ⟨u, q⟩ s)) ∧ (subBase ⟨t &&& u, q⟩ s = (subBase ⟨t, q⟩ s && subBase ⟨u, q⟩ s)) := by
  unfold subBase
  by_cases hq : s.attr.qns = q
  · by_cases hs : hasSingleBit s.attr.type = true
    · obtain ⟨i, hi, hj⟩ := (SeQuant.Spaces.hasSingleBit_iff _).1 hs
      have h1 := single_hits (t ||| u) _ i hi hj
      have h2 := single_hits (t &&& u) _ i hi hj
      have h3 := single_hits t _ i hi hj
      have h4 := single_hits u _ i hi hj
      have ho : bits (t ||| u) i ↔ bits t i ∨ bits u i := by simp [bits]
      have ha : bits (t &&& u) i ↔ bits t i ∧ bits u i := by simp [bits]
      simp only [hq, hs, decide_true, Bool.true_and]
      constructor
      · rw [Bool.eq_iff_iff]
        simp only [decide_eq_true_eq, Bool.or_eq_true, h1, h3, h4, ho]
      · rw [Bool.eq_iff_iff]
        simp only [decide_eq_true_eq, Bool.and_eq_true, h2, h3, h4, ha]
    · simp [hs]
  · simp [hq]

theorem baseSize_union (l : List Sp) (t u q : Mask) :
    baseSize l ⟨t ||| u, q⟩ + baseSize l ⟨t &&& u, q⟩ = baseSize l ⟨t, q⟩ + baseSize l ⟨u, q⟩ := by
  induction l with
  | nil => rfl
  | cons s l ih =>
    rw [baseSize_cons, baseSize_cons, baseSize_cons, baseSize_cons, (subBase_or s t u q).1, (subBase_or s t u q).2]
    cases subBase ⟨t, q⟩ s <;> cases subBase ⟨u, q⟩ s <;> simp <;> omega

/-- Whatever is reported as size is the total size of the base spaces. -/
theorem computeSize_base (l : List Sp) (hu : l.Pairwise fun s t => s.attr ≠ t.attr) (a : Attr) (n : Nat) (h : computeSize l a = .ok n) :
    n = baseSize l a := by
  unfold computeSize at h
  by_cases hs : hasSingleBit a.type = true
  · rw [if_pos hs, bind_ok] at h
    obtain ⟨s, h1, h2⟩ := h
    rw [pure_ok] at h2
    obtain ⟨hm, ha⟩ := retrieve_attr _ _ _ h1
    subst h2
    obtain ⟨i, hi, hj⟩ := (SeQuant.Spaces.hasSingleBit_iff _).1 hs
    have hiff : ∀ t : Sp, subBase a t = true ↔ t.attr = a := by
      intro t
      simp only [subBase, Bool.and_eq_true, decide_eq_true_eq]
      constructor
      · rintro ⟨⟨hq, ht⟩, hn⟩
        rw [attr_ext]
        refine ⟨?_, hq⟩
        obtain ⟨j, hj1, hj2⟩ := (SeQuant.Spaces.hasSingleBit_iff _).1 ht
        have h5 := hj j ((single_hits _ _ j hj1 hj2).1 hn)
        subst h5
        apply BitVec.eq_of_getLsbD_eq
        intro k _
        by_cases hk : k = j
        · subst hk; unfold bits at hi hj1; rw [hi, hj1]
        · have e1 : t.attr.type.getLsbD k = false := by
            by_contra hc; exact hk (hj2 k (by simpa [bits] using hc))
          have e2 : a.type.getLsbD k = false := by
            by_contra hc; exact hk (hj k (by simpa [bits] using hc))
          rw [e1, e2]
      · rintro rfl
        exact ⟨⟨rfl, hs⟩, (single_hits _ _ i hi hj).2 hi⟩
    have hfil : l.filter (subBase a) = [s] := by
      clear h1
      induction l with
      | nil => cases hm
      | cons t l ih =>
        rw [List.pairwise_cons] at hu
        rcases List.mem_cons.1 hm with rfl | hm
        · have : l.filter (subBase a) = [] := by
            rw [List.filter_eq_nil_iff]
            intro x hx hc
            exact hu.1 x hx (by rw [ha, (hiff x).1 hc])
          rw [List.filter_cons_of_pos ((hiff _).2 ha), this]
        · have : ¬ subBase a t = true := fun hc => hu.1 s hm (by rw [ha, (hiff t).1 hc])
          rw [List.filter_cons_of_neg this]
          exact ih hu.2 hm
    rw [baseSize, hfil]
    simp
  · rw [if_neg hs] at h
    injection h with h
    exact h.symm

/-- Three base spaces, one of them complex. -/
def three : List Sp := [⟨['i'], ⟨1#32, 3#32⟩, 7, true⟩, ⟨['u'], ⟨2#32, 3#32⟩, 5, false⟩, ⟨['a'], ⟨4#32, 3#32⟩, 20, false⟩]

/-- **C125.** Whatever is reported as size is the total size of the registered base spaces of the type; only a base type that is not
registered has no size. -/
theorem size_spec (l : List Sp) (hu : l.Pairwise fun s t => s.attr ≠ t.attr) (a : Attr) :
    computeSize l a = .ok (totalSize l a) ∨ computeSize l a = .throws ∧ (∃ i, ∀ j, bits a.type j ↔ j = i) ∧ ∀ s ∈ l, s.attr ≠ a := by
  cases h : computeSize l a with
  | ok n => left; rw [totalSize_eq, computeSize_base l hu a n h]
  | _ =>
    right
    unfold computeSize at h
    split at h
    · rename_i hs
      obtain ⟨i, hi, hj⟩ := (SeQuant.Spaces.hasSingleBit_iff _).1 hs
      cases hr : findAttr l a with
      | some s => simp [retrieve, hr, bind, Out.bind, pure] at h
      | none =>
        simp only [retrieve, hr, bind, Out.bind] at h
        first
          | (refine ⟨rfl, ⟨i, fun j => ⟨hj j, fun e => e ▸ hi⟩⟩, fun s hs => ?_⟩
             simpa using List.find?_eq_none.1 hr s hs)
          | cases h
    · cases h

example : computeSize three ⟨3#32, 3#32⟩ = .ok (totalSize three ⟨3#32, 3#32⟩) :=
  (size_spec three (by decide +kernel) ⟨3#32, 3#32⟩).resolve_right fun h => by
    have : computeSize three ⟨3#32, 3#32⟩ = .ok 12 := by decide +kernel
    rw [this] at h
    cases h.1

/-- **C125.** The sizes of union and intersection of two types add up to those of the types, whenever they are defined. -/
theorem union_size (l : List Sp) (hu : l.Pairwise fun s t => s.attr ≠ t.attr) (t u q : Mask) (m n k i : Nat)
    (ht : computeSize l ⟨t, q⟩ = .ok m) (hv : computeSize l ⟨u, q⟩ = .ok n) (hk : computeSize l ⟨t ||| u, q⟩ = .ok k)
    (hi : computeSize l ⟨t &&& u, q⟩ = .ok i) : k + i = m + n := by
  rw [computeSize_base l hu _ _ ht, computeSize_base l hu _ _ hv, computeSize_base l hu _ _ hk, computeSize_base l hu _ _ hi]
  exact baseSize_union l t u q

example : computeSize three ⟨3#32, 3#32⟩ = .ok 12 ∧ computeSize three ⟨7#32, 3#32⟩ = .ok 32 ∧
    ∀ i, computeSize three ⟨2#32, 3#32⟩ = .ok i → 32 + i = 12 + 25 :=
  ⟨by decide +kernel, by decide +kernel, fun i hi =>
    union_size three (by decide +kernel) 3#32 6#32 3#32 12 25 32 i (by decide +kernel) (by decide +kernel) (by decide +kernel) hi⟩

/-- **C125.** The size of a composite type with a base space that is not registered is too small: nothing is said about the missing one. -/
theorem union_size_missing : computeSize three ⟨9#32, 3#32⟩ = .ok 7 ∧ computeSize three ⟨8#32, 3#32⟩ = .throws := by decide +kernel

theorem computeField_composite (l : List Sp) (t u q : Mask) (h : hasSingleBit (t ||| u) = false) (ht : hasSingleBit t = false)
    (hu : hasSingleBit u = false) (x y : Bool) (hx : computeField l ⟨t, q⟩ = .ok x) (hy : computeField l ⟨u, q⟩ = .ok y) :
    computeField l ⟨t ||| u, q⟩ = .ok (x || y) := by
  simp only [computeField, h, ht, hu, Bool.false_eq_true, if_false] at hx hy ⊢
  injection hx with hx
  injection hy with hy
  subst hx hy
  congr 1
  clear h ht hu
  induction l with
  | nil => rfl
  | cons s l ih =>
    have h1 := (subBase_or s t u q).1
    cases ha : subBase ⟨t, q⟩ s <;> cases hb : subBase ⟨u, q⟩ s <;> rw [ha, hb] at h1 <;>
      simp only [Bool.or_false, Bool.or_true] at h1 <;>
      simp only [List.filter_cons, ha, hb, h1, if_true, Bool.false_eq_true, if_false, List.any_cons, ih] <;>
      cases s.complex <;> simp

/-- **C125.** The field of a union of composite types is complex exactly if that of one of them is. -/
theorem union_field (l : List Sp) (t u q : Mask) (h : hasSingleBit (t ||| u) = false) (ht : hasSingleBit t = false)
    (hu : hasSingleBit u = false) (x y : Bool) (hx : computeField l ⟨t, q⟩ = .ok x) (hy : computeField l ⟨u, q⟩ = .ok y) :
    computeField l ⟨t ||| u, q⟩ = .ok (x || y) := computeField_composite l t u q h ht hu x y hx hy

example : computeField three ⟨3#32 ||| 6#32, 3#32⟩ = .ok (true || false) :=
  union_field three 3#32 6#32 3#32 (by decide) (by decide) (by decide) true false (by decide +kernel) (by decide +kernel)

/-- **C125.** The field of a composite type is complex exactly if one of its registered base spaces is. -/
theorem field_spec (l : List Sp) (a : Attr) (h : ¬ ∃ i, ∀ j, bits a.type j ↔ j = i) :
    ∃ x, computeField l a = .ok x ∧ (x = true ↔ ∃ s ∈ l, IsBase a s ∧ s.complex = true) := by
  have hs : hasSingleBit a.type = false := by
    by_contra hc
    obtain ⟨i, hi, hj⟩ := (SeQuant.Spaces.hasSingleBit_iff _).1 (by simpa using hc)
    exact h ⟨i, fun j => ⟨hj j, fun e => e ▸ hi⟩⟩
  refine ⟨_, by rw [computeField, hs, if_neg (by simp)], ?_⟩
  simp only [List.any_filter, List.any_eq_true, Bool.and_eq_true, subBase_iff]

example : ∃ s ∈ three, IsBase ⟨3#32, 3#32⟩ s ∧ s.complex = true := by
  obtain ⟨x, h1, h2⟩ := field_spec three ⟨3#32, 3#32⟩ (by
    rintro ⟨i, h⟩
    have h0 := (h 0).1 (by unfold bits; decide)
    have h1 := (h 1).1 (by unfold bits; decide)
    omega)
  have : computeField three ⟨3#32, 3#32⟩ = .ok true := by decide +kernel
  rw [this] at h1
  injection h1 with h1
  exact h2.1 h1.symm

/-- Real composite spaces over real and complex base spaces. -/
def five : List Sp := three ++ [⟨['b'], ⟨8#32, 3#32⟩, 1, false⟩, ⟨['e'], ⟨16#32, 3#32⟩, 2, false⟩, ⟨['c'], ⟨14#32, 3#32⟩, 26, false⟩,
  ⟨['d'], ⟨22#32, 3#32⟩, 27, false⟩]

/-- **C125.** The field of an intersection is not computed: that of two real spaces is complex. -/
theorem inter_field : addInter ['y'] [['c'], ['d']] [] ⟨five, 0#32, fun _ => {}⟩ =
    .ok ⟨five ++ [⟨['y'], ⟨6#32, 3#32⟩, 25, true⟩], 0#32, fun _ => {}⟩ ∧ computeField five ⟨6#32, 3#32⟩ = .ok false :=
  ⟨rfl, by decide +kernel⟩

/-! ## What is added -/

/-- Some component with this label satisfies `p`. -/
def AnyComp (l : List Sp) (ks : List Key) (p : Sp → Prop) : Prop := ∃ k ∈ ks, ∃ s, retrieveKey l k = .ok s ∧ p s

/-- All components are registered and satisfy `p`. -/
def AllComp (l : List Sp) (ks : List Key) (p : Sp → Prop) : Prop := ∀ k ∈ ks, ∃ s, retrieveKey l k = .ok s ∧ p s

theorem inter_some (a b c : Attr) (h : a.inter b = some c) : c = ⟨a.type &&& b.type, a.qns &&& b.qns⟩ := by
  simp only [Attr.inter, SeQuant.Spaces.maskInter, SeQuant.Spaces.mkMask] at h
  split at h
  · split at h
    · simpa using h.symm
    · simp at h
  · simp at h

theorem union_some (a b c : Attr) (h : a.union b = some c) : c = ⟨a.type ||| b.type, a.qns ||| b.qns⟩ := by
  simp only [Attr.union, SeQuant.Spaces.maskUnion, SeQuant.Spaces.mkMask] at h
  split at h
  · split at h
    · simpa using h.symm
    · simp at h
  · simp at h

theorem interAttr_bits (l : List Sp) (ks : List Key) (a b : Attr) (h : interAttr l a ks = .ok b) :
    (∀ i, bits b.type i ↔ bits a.type i ∧ AllComp l ks fun s => bits s.attr.type i) ∧
    ∀ i, bits b.qns i ↔ bits a.qns i ∧ AllComp l ks fun s => bits s.attr.qns i := by
  induction ks generalizing a with
  | nil =>
    simp only [interAttr] at h
    injection h with h
    subst h
    simp [AllComp]
  | cons k ks ih =>
    simp only [interAttr, bind_ok] at h
    obtain ⟨s, hs, h⟩ := h
    cases hc : a.inter s.attr with
    | none => rw [hc] at h; cases h
    | some c =>
      rw [hc] at h
      obtain ⟨h1, h2⟩ := ih c h
      have := inter_some _ _ _ hc
      subst this
      simp only [AllComp, List.forall_mem_cons] at h1 h2 ⊢
      constructor
      · intro i
        rw [h1 i, SeQuant.Spaces.bits_and, and_assoc]
        simp [hs]
      · intro i
        rw [h2 i, SeQuant.Spaces.bits_and, and_assoc]
        simp [hs]

theorem unionAttr_bits (l : List Sp) (ks : List Key) (a b : Attr) (h : unionAttr l a ks = .ok b) :
    (∀ i, bits b.type i ↔ bits a.type i ∨ AnyComp l ks fun s => bits s.attr.type i) ∧
    ∀ i, bits b.qns i ↔ bits a.qns i ∨ AnyComp l ks fun s => bits s.attr.qns i := by
  induction ks generalizing a with
  | nil =>
    simp only [unionAttr] at h
    injection h with h
    subst h
    simp [AnyComp]
  | cons k ks ih =>
    simp only [unionAttr, bind_ok] at h
    obtain ⟨s, hs, h⟩ := h
    cases hc : a.union s.attr with
    | none => rw [hc] at h; cases h
    | some c =>
      rw [hc] at h
      obtain ⟨h1, h2⟩ := ih c h
      have := union_some _ _ _ hc
      subst this
      simp only [AnyComp, List.exists_mem_cons_iff] at h1 h2 ⊢
      constructor
      · intro i
        rw [h1 i, SeQuant.Spaces.bits_or, or_assoc]
        simp [hs]
      · intro i
        rw [h2 i, SeQuant.Spaces.bits_or, or_assoc]
        simp [hs]

theorem setTags_spaces (t : Mask) (ws : List Role) (r r' : Reg) (h : setTags r t ws = .ok r') : r'.spaces = r.spaces := by
  induction ws generalizing r with
  | nil => simp only [setTags] at h; injection h with h; rw [h]
  | cons w ws ih =>
    simp only [setTags, bind_ok] at h
    obtain ⟨r1, h1, h2⟩ := h
    rw [ih r1 h2]
    unfold setDefault at h1
    split at h1
    · injection h1 with h1; rw [← h1]
    · cases h1

theorem setTags_desig (t : Mask) (ws : List Role) (r r' : Reg) (h : setTags r t ws = .ok r') (w : Role) :
    r'.desig w = ⟨if w ∈ ws then t else (r.desig w).dflt, (r.desig w).perQn⟩ := by
  induction ws generalizing r with
  | nil => simp only [setTags] at h; injection h with h; simp [h]
  | cons v ws ih =>
    simp only [setTags, bind_ok] at h
    obtain ⟨r1, h1, h2⟩ := h
    rw [ih r1 h2]
    unfold setDefault at h1
    split at h1
    · injection h1 with h1
      rw [← h1]
      by_cases hw : w ∈ ws <;> by_cases hv : w = v <;> simp [hw, hv]
    · cases h1

theorem added_composite (r : Reg) (k : Key) (a : Attr) (n : Nat) (f : Bool) (l : List Sp) (hn : computeSize r.spaces a = .ok n)
    (hl : addSp r.spaces ⟨k, a, n, f⟩ = .ok l) : ¬ ∃ i, ∀ j, bits a.type j ↔ j = i := by
  rintro ⟨i, hi⟩
  have hs : hasSingleBit a.type = true := (SeQuant.Spaces.hasSingleBit_iff _).2 ⟨i, (hi i).2 rfl, fun j hj => (hi j).1 hj⟩
  unfold computeSize at hn
  rw [if_pos hs, bind_ok] at hn
  obtain ⟨s, h1, -⟩ := hn
  obtain ⟨hm, ha⟩ := retrieve_attr _ _ _ h1
  exact (((addSp_ok _ _ _).1 hl).1 s hm).2 ha

/-- **C125.** A union that can be added has one more space than the registry had: its type and quantum numbers are those of some component, its
size is the total size of its base spaces, it is complex exactly if one of them is, and exactly the given roles are set to its type. -/
theorem union_added (r r' : Reg) (hu : r.spaces.Pairwise fun s t => s.attr ≠ t.attr) (k : Key) (comps : List Key) (tags : List Role)
    (h : addUnion k comps tags r = .ok r') : ∃ s : Sp, r'.spaces = r.spaces ++ [s] ∧ s.key = k ∧
    (∀ i, bits s.attr.type i ↔ AnyComp r.spaces comps fun c => bits c.attr.type i) ∧
    (∀ i, bits s.attr.qns i ↔ AnyComp r.spaces comps fun c => bits c.attr.qns i) ∧ s.size = totalSize r.spaces s.attr ∧
    (s.complex = true ↔ ∃ b ∈ r.spaces, IsBase s.attr b ∧ b.complex = true) ∧
    ∀ w, r'.desig w = ⟨if w ∈ tags then s.attr.type else (r.desig w).dflt, (r.desig w).perQn⟩ := by
  unfold addUnion at h
  split at h
  · rename_i c d cs
    simp only [bind_ok] at h
    obtain ⟨x, hx, a, ha, n, hn, f, hf, l, hl, h⟩ := h
    obtain ⟨-, rfl⟩ := (addSp_ok _ _ _).1 hl
    obtain ⟨h1, h2⟩ := unionAttr_bits _ _ _ _ ha
    refine ⟨_, setTags_spaces _ _ _ _ h, rfl, fun i => ?_, fun i => ?_, (computeSize_base _ hu _ _ hn).trans (totalSize_eq _ _).symm,
      ?_, fun w => (setTags_desig _ _ _ _ h w :)⟩
    · rw [h1 i]; conv => rhs; rw [AnyComp, List.exists_mem_cons_iff]
      simp [hx, AnyComp]
    · rw [h2 i]; conv => rhs; rw [AnyComp, List.exists_mem_cons_iff]
      simp [hx, AnyComp]
    · obtain ⟨x, hx, hx'⟩ := field_spec r.spaces a (added_composite r k a n f _ hn hl)
      rw [hf] at hx
      injection hx with hx
      rw [← hx']
      exact hx ▸ Iff.rfl
  · cases h

/-- **C125.** An intersection that can be added has one more space than the registry had: its type and quantum numbers are those of all
components, its size is the total size of its base spaces, and exactly the given roles are set to its type. -/
theorem inter_added (r r' : Reg) (hu : r.spaces.Pairwise fun s t => s.attr ≠ t.attr) (k : Key) (comps : List Key) (tags : List Role)
    (h : addInter k comps tags r = .ok r') : ∃ s : Sp, r'.spaces = r.spaces ++ [s] ∧ s.key = k ∧
    (∀ i, bits s.attr.type i ↔ AllComp r.spaces comps fun c => bits c.attr.type i) ∧
    (∀ i, bits s.attr.qns i ↔ AllComp r.spaces comps fun c => bits c.attr.qns i) ∧ s.size = totalSize r.spaces s.attr ∧
    ∀ w, r'.desig w = ⟨if w ∈ tags then s.attr.type else (r.desig w).dflt, (r.desig w).perQn⟩ := by
  unfold addInter at h
  split at h
  · rename_i c d cs
    simp only [bind_ok] at h
    obtain ⟨x, hx, a, ha, n, hn, l, hl, h⟩ := h
    obtain ⟨-, rfl⟩ := (addSp_ok _ _ _).1 hl
    obtain ⟨h1, h2⟩ := interAttr_bits _ _ _ _ ha
    refine ⟨_, setTags_spaces _ _ _ _ h, rfl, fun i => ?_, fun i => ?_, (computeSize_base _ hu _ _ hn).trans (totalSize_eq _ _).symm,
      fun w => (setTags_desig _ _ _ _ h w :)⟩
    · rw [h1 i]; conv => rhs; rw [AllComp, List.forall_mem_cons]
      simp [hx, AllComp]
    · rw [h2 i]; conv => rhs; rw [AllComp, List.forall_mem_cons]
      simp [hx, AllComp]
  · cases h

example : ∃ r', addInter ['y'] [['c'], ['d']] [.hole] ⟨five, 0#32, fun _ => {}⟩ = .ok r' ∧ ∃ s : Sp, r'.spaces = five ++ [s] ∧ s.key = ['y'] ∧
    ∀ i, bits s.attr.type i ↔ AllComp five [['c'], ['d']] fun c => bits c.attr.type i := by
  refine ⟨_, rfl, ?_⟩
  obtain ⟨s, h1, h2, h3, -⟩ := inter_added ⟨five, 0#32, fun _ => {}⟩ _ (by decide +kernel) ['y'] [['c'], ['d']] [.hole] rfl
  exact ⟨s, h1, h2, h3⟩

example : ∃ r', addUnion ['y'] [['i'], ['d']] [] ⟨five, 0#32, fun _ => {}⟩ = .ok r' ∧ ∃ s : Sp, r'.spaces = five ++ [s] ∧ s.key = ['y'] ∧
    ∀ i, bits s.attr.type i ↔ AnyComp five [['i'], ['d']] fun c => bits c.attr.type i := by
  refine ⟨_, rfl, ?_⟩
  obtain ⟨s, h1, h2, h3, -⟩ := union_added ⟨five, 0#32, fun _ => {}⟩ _ (by decide +kernel) ['y'] [['i'], ['d']] [] rfl
  exact ⟨s, h1, h2, h3⟩

/-- **C125.** A new name for a base space cannot be added as an intersection (or union): it is either registered already or has no size. -/
theorem inter_base (r r' : Reg) (k : Key) (comps : List Key) (tags : List Role)
    (h : addInter k comps tags r = .ok r' ∨ addUnion k comps tags r = .ok r') :
    ∃ s ∈ r'.spaces, s.key = k ∧ ∀ i, ¬ ∀ j, bits s.attr.type j ↔ j = i := by
  rcases h with h | h
  · unfold addInter at h
    split at h
    · simp only [bind_ok] at h
      obtain ⟨x, hx, a, ha, n, hn, l, hl, h⟩ := h
      refine ⟨⟨k, a, n, true⟩, ?_, rfl, fun i hi => added_composite r k a n true l hn hl ⟨i, hi⟩⟩
      rw [setTags_spaces _ _ _ _ h]
      show _ ∈ l
      rw [((addSp_ok _ _ _).1 hl).2]
      simp
    · cases h
  · unfold addUnion at h
    split at h
    · simp only [bind_ok] at h
      obtain ⟨x, hx, a, ha, n, hn, f, hf, l, hl, h⟩ := h
      refine ⟨⟨k, a, n, f⟩, ?_, rfl, fun i hi => added_composite r k a n f l hn hl ⟨i, hi⟩⟩
      rw [setTags_spaces _ _ _ _ h]
      show _ ∈ l
      rw [((addSp_ok _ _ _).1 hl).2]
      simp
    · cases h

end SeQuant.Conv
