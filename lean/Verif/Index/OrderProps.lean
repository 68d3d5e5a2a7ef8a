import Verif.Index.Model
import Verif.Space.AttrProps
import Mathlib.Order.Compare
import Mathlib.Order.Nat
import Mathlib.Data.Int.Order.Basic

/-!
# C23: equality, order and hash of indices
-/

set_option linter.unusedSectionVars false

namespace SeQuant.Indices

open SeQuant.Spaces

variable {Key : Type} [LinearOrder Key]

/-! ### Equality -/

theorem space_beq_iff (a b : Space Key) : a.beq b = true ↔ a = b := by
  cases a; cases b; simp [Space.beq]

namespace Idx

mutual
theorem beq_refl : ∀ a : Idx Key, beq a a = true
  | mk s o p y t => by
    have := beqL_refl p
    simp [beq, Space.beq, this]
theorem beqL_refl : ∀ l : List (Idx Key), beqL l l = true
  | [] => by simp [beqL]
  | a :: l => by
    have := beqL_refl l
    have := beq_refl a
    simp [beqL, *]
end

theorem beq_mk (s1 s2 : Space Key) (o1 o2) (p1 p2) (y1 y2) (t1 t2) :
    beq (mk s1 o1 p1 y1 t1) (mk s2 o2 p2 y2 t2) = true ↔ s1 = s2 ∧ o1 = o2 ∧ beqL p1 p2 = true := by
  simp only [beq, Bool.and_eq_true, space_beq_iff, decide_eq_true_eq, Bool.or_eq_true]
  constructor
  · rintro ⟨⟨⟨h1, _⟩, h2⟩, h3⟩; exact ⟨h1, h2, h3⟩
  · rintro ⟨h1, h2, h3⟩; subst h1; exact ⟨⟨⟨rfl, Or.inr rfl⟩, h2⟩, h3⟩

mutual
theorem beq_symm : ∀ a b : Idx Key, beq a b = true → beq b a = true
  | mk s1 o1 p1 y1 t1, mk s2 o2 p2 y2 t2, h => by
    rw [beq_mk] at h ⊢
    exact ⟨h.1.symm, h.2.1.symm, beqL_symm p1 p2 h.2.2⟩
theorem beqL_symm : ∀ l m : List (Idx Key), beqL l m = true → beqL m l = true
  | [], [], _ => by simp [beqL]
  | [], b :: m, h => by simp [beqL] at h
  | a :: l, [], h => by simp [beqL] at h
  | a :: l, b :: m, h => by
    simp only [beqL, Bool.and_eq_true] at h ⊢
    exact ⟨beq_symm a b h.1, beqL_symm l m h.2⟩
end

mutual
theorem beq_trans : ∀ a b c : Idx Key, beq a b = true → beq b c = true → beq a c = true
  | mk s1 o1 p1 y1 t1, mk s2 o2 p2 y2 t2, mk s3 o3 p3 y3 t3, h, h' => by
    rw [beq_mk] at h h' ⊢
    exact ⟨h.1.trans h'.1, h.2.1.trans h'.2.1, beqL_trans p1 p2 p3 h.2.2 h'.2.2⟩
theorem beqL_trans : ∀ l m n : List (Idx Key), beqL l m = true → beqL m n = true → beqL l n = true
  | [], [], n, _, h => h
  | [], b :: m, _, h, _ => by simp [beqL] at h
  | a :: l, [], _, h, _ => by simp [beqL] at h
  | a :: l, b :: m, [], _, h => by simp [beqL] at h
  | a :: l, b :: m, c :: n, h, h' => by
    simp only [beqL, Bool.and_eq_true] at h h' ⊢
    exact ⟨beq_trans a b c h.1 h'.1, beqL_trans l m n h.2 h'.2⟩
end

end Idx

/-! ### Hash -/

mutual
theorem hash_idx_eq (h : Hashing Key) : ∀ a b : Idx Key, Idx.beq a b = true → h.idx a = h.idx b
  | .mk s1 o1 p1 y1 t1, .mk s2 o2 p2 y2 t2, e => by
    rw [Idx.beq_mk] at e
    obtain ⟨rfl, rfl, e⟩ := e
    simp only [Hashing.idx, hash_range_eq h p1 p2 e]
theorem hash_range_eq (h : Hashing Key) : ∀ l m : List (Idx Key), Idx.beqL l m = true → ∀ acc, h.range acc l = h.range acc m
  | [], [], _, _ => rfl
  | [], b :: m, e, _ => by simp [Idx.beqL] at e
  | a :: l, [], e, _ => by simp [Idx.beqL] at e
  | a :: l, b :: m, e, acc => by
    simp only [Idx.beqL, Bool.and_eq_true] at e
    simp only [Hashing.range, hash_idx_eq h a b e.1, hash_range_eq h l m e.2]
end

/-- **C23** (equality and hash): `==` is an equivalence relation and equal indices have equal hashes, for every index with any nesting
of proto-indices and all hash primitives. -/
theorem index_eq_hash (h : Hashing Key) (a b c : Idx Key) :
    a.beq a = true ∧ (a.beq b = true → b.beq a = true) ∧ (a.beq b = true → b.beq c = true → a.beq c = true) ∧
    (a.beq b = true → h.idx a = h.idx b) :=
  ⟨a.beq_refl, a.beq_symm b, a.beq_trans b c, hash_idx_eq h a b⟩

/-! ### Order: consistent triples of comparison results -/

/-- The results of comparing `x` with `y`, `y` with `z` and `x` with `z` fit together. -/
def Tri (xy yz xz : Ordering) : Prop :=
  (xy = .eq → xz = yz) ∧ (yz = .eq → xz = xy) ∧ (xy = .lt → yz = .lt → xz = .lt) ∧ (xy = .gt → yz = .gt → xz = .gt)

instance (a b c : Ordering) : Decidable (Tri a b c) := by unfold Tri; infer_instance

theorem Tri.then_ {a b c a' b' c' : Ordering} (h : Tri a b c) (h' : a = .eq → b = .eq → Tri a' b' c') :
    Tri (a.then a') (b.then b') (c.then c') := by
  cases a <;> cases b <;> cases c <;> simp_all [Tri, Ordering.then]

theorem tri_compare {α : Type} [LinearOrder α] (a b c : α) : Tri (compare a b) (compare b c) (compare a c) := by
  refine ⟨?_, ?_, ?_, ?_⟩
  · intro h; rw [compare_eq_iff_eq.1 h]
  · intro h; rw [compare_eq_iff_eq.1 h]
  · intro h h'; rw [compare_lt_iff_lt] at *; exact lt_trans h h'
  · intro h h'; rw [compare_gt_iff_gt] at *; exact lt_trans h' h

/-- Comparison of spaces as a lexicographic comparison. -/
theorem space_cmp_lex (a b : Space Key) : a.cmp b =
    ((compare a.attr.qns.toInt b.attr.qns.toInt).then (compare a.attr.type.toInt b.attr.type.toInt)).then
      (if a.attr = Attr.reserved then compare a.key b.key else .eq) := by
  unfold Space.cmp
  by_cases h : a.attr = b.attr
  · rw [if_neg (by simpa using h), h]
    have e1 : compare b.attr.qns.toInt b.attr.qns.toInt = .eq := compare_eq_iff_eq.2 rfl
    have e2 : compare b.attr.type.toInt b.attr.type.toInt = .eq := compare_eq_iff_eq.2 rfl
    rw [e1, e2]
    simp only [Ordering.then]
    by_cases hr : b.attr = Attr.reserved
    · rcases lt_trichotomy a.key b.key with hk | hk | hk
      · rw [if_pos ⟨hr, ne_of_lt hk⟩, if_pos hk, if_pos hr, compare_lt_iff_lt.2 hk]
      · rw [if_neg (fun x => x.2 hk), if_pos hr, compare_eq_iff_eq.2 hk]
      · rw [if_pos ⟨hr, ne_of_gt hk⟩, if_neg (not_lt_of_gt hk), if_pos hr, compare_gt_iff_gt.2 hk]
    · rw [if_neg (fun x => hr x.1), if_neg hr]
  · rw [if_pos (by simpa using h)]
    have hne : a.attr.qns ≠ b.attr.qns ∨ a.attr.type ≠ b.attr.type := by
      by_contra hc
      push Not at hc
      exact h (by cases ha : a.attr; cases hb : b.attr; simp_all)
    unfold Attr.lt maskLt
    by_cases hq : a.attr.qns = b.attr.qns
    · have ht : a.attr.type ≠ b.attr.type := by tauto
      have ht' : a.attr.type.toInt ≠ b.attr.type.toInt := fun x => ht (toInt_inj.1 x)
      rw [if_pos hq, hq, compare_eq_iff_eq.2 rfl]
      simp only [Ordering.then, decide_eq_true_eq]
      rcases lt_or_gt_of_ne ht' with h1 | h1
      · rw [if_pos h1, compare_lt_iff_lt.2 h1]
      · rw [if_neg (not_lt_of_gt h1), compare_gt_iff_gt.2 h1]
    · have hq' : a.attr.qns.toInt ≠ b.attr.qns.toInt := fun x => hq (toInt_inj.1 x)
      rw [if_neg hq]
      simp only [decide_eq_true_eq]
      rcases lt_or_gt_of_ne hq' with h1 | h1
      · rw [if_pos h1, compare_lt_iff_lt.2 h1]; rfl
      · rw [if_neg (not_lt_of_gt h1), compare_gt_iff_gt.2 h1]; rfl

theorem then_eq_eq {a b : Ordering} : a.then b = .eq ↔ a = .eq ∧ b = .eq := by cases a <;> cases b <;> decide

theorem space_cmp_attr {a b : Space Key} (h : a.cmp b = .eq) : a.attr = b.attr := by
  rw [space_cmp_lex, then_eq_eq, then_eq_eq] at h
  have h1 := toInt_inj.1 (compare_eq_iff_eq.1 h.1.1)
  have h2 := toInt_inj.1 (compare_eq_iff_eq.1 h.1.2)
  cases ha : a.attr; cases hb : b.attr; simp_all

theorem tri_space (a b c : Space Key) : Tri (a.cmp b) (b.cmp c) (a.cmp c) := by
  rw [space_cmp_lex a b, space_cmp_lex b c, space_cmp_lex a c]
  refine Tri.then_ (Tri.then_ (tri_compare _ _ _) fun _ _ => tri_compare _ _ _) ?_
  intro h1 _
  rw [then_eq_eq] at h1
  have e : a.attr = b.attr := by
    have h2 := toInt_inj.1 (compare_eq_iff_eq.1 h1.1)
    have h3 := toInt_inj.1 (compare_eq_iff_eq.1 h1.2)
    cases ha : a.attr; cases hb : b.attr; simp_all
  rw [e]
  split
  · exact tri_compare _ _ _
  · decide

/-! ### Order: comparison without tags -/

/-- Comparison of ordinals: no ordinal first. -/
def ordCmp : Option Nat → Option Nat → Ordering
  | none, none => .eq
  | none, some _ => .lt
  | some _, none => .gt
  | some a, some b => compare a b

theorem ordCmp_eq (a b : Option Nat) : ordCmp a b = .eq ↔ a = b := by
  cases a <;> cases b <;> simp [ordCmp]

theorem tri_ord (a b c : Option Nat) : Tri (ordCmp a b) (ordCmp b c) (ordCmp a c) := by
  cases a <;> cases b <;> cases c <;> first | exact tri_compare _ _ _ | (simp [ordCmp, Tri])

theorem ordCmp_swap (a b : Option Nat) : ordCmp b a = (ordCmp a b).swap := by
  cases a <;> cases b <;> simp [ordCmp, Nat.compare_swap]

namespace Idx

mutual
/-- Specification of the order: quantum numbers, space, ordinal, proto-indices, without tags. -/
def ord0 : Idx Key → Idx Key → Ordering
  | mk s1 o1 p1 _ _, mk s2 o2 p2 _ _ =>
    (compare s1.attr.qns.toInt s2.attr.qns.toInt).then ((s1.cmp s2).then ((ordCmp o1 o2).then (ord0L p1 p2)))
def ord0L : List (Idx Key) → List (Idx Key) → Ordering
  | [], [] => .eq
  | [], _ :: _ => .lt
  | _ :: _, [] => .gt
  | a :: l, b :: m => (ord0 a b).then (ord0L l m)
end

mutual
theorem tri_ord0 : ∀ a b c : Idx Key, Tri (ord0 a b) (ord0 b c) (ord0 a c)
  | mk s1 o1 p1 y1 t1, mk s2 o2 p2 y2 t2, mk s3 o3 p3 y3 t3 => by
    simp only [ord0]
    exact Tri.then_ (tri_compare _ _ _) fun _ _ => Tri.then_ (tri_space _ _ _) fun _ _ => Tri.then_ (tri_ord _ _ _) fun _ _ =>
      tri_ord0L p1 p2 p3
theorem tri_ord0L : ∀ l m n : List (Idx Key), Tri (ord0L l m) (ord0L m n) (ord0L l n)
  | [], [], [] => by simp only [ord0L]; decide
  | [], [], _ :: _ => by simp only [ord0L]; decide
  | [], _ :: _, [] => by simp only [ord0L]; decide
  | [], b :: m, c :: n => by simp only [ord0L]; cases (ord0 b c).then (ord0L m n) <;> decide
  | _ :: _, [], [] => by simp only [ord0L]; decide
  | a :: l, [], c :: n => by simp only [ord0L]; cases (ord0 a c).then (ord0L l n) <;> decide
  | a :: l, b :: m, [] => by simp only [ord0L]; cases (ord0 a b).then (ord0L l m) <;> decide
  | a :: l, b :: m, c :: n => by
    simp only [ord0L]
    exact Tri.then_ (tri_ord0 a b c) fun _ _ => tri_ord0L l m n
end

theorem compare_swap' {α : Type} [LinearOrder α] (a b : α) : compare b a = (compare a b).swap := by
  rcases lt_trichotomy a b with h | h | h
  · rw [compare_lt_iff_lt.2 h, compare_gt_iff_gt.2 h]; rfl
  · rw [compare_eq_iff_eq.2 h, compare_eq_iff_eq.2 h.symm]; rfl
  · rw [compare_gt_iff_gt.2 h, compare_lt_iff_lt.2 h]; rfl

theorem then_swap (a b : Ordering) : (a.then b).swap = a.swap.then b.swap := by cases a <;> cases b <;> rfl

theorem space_cmp_swap (a b : Space Key) : b.cmp a = (a.cmp b).swap := by
  rw [space_cmp_lex, space_cmp_lex a b, then_swap, then_swap, ← compare_swap', ← compare_swap']
  by_cases h : a.attr = b.attr
  · rw [h]
    split
    · rw [compare_swap' a.key b.key]
    · rfl
  · have hne : (compare b.attr.qns.toInt a.attr.qns.toInt).then (compare b.attr.type.toInt a.attr.type.toInt) ≠ .eq := by
      rw [ne_eq, then_eq_eq]
      rintro ⟨h1, h2⟩
      have h1 := toInt_inj.1 (compare_eq_iff_eq.1 h1)
      have h2 := toInt_inj.1 (compare_eq_iff_eq.1 h2)
      exact h (by cases ha : a.attr; cases hb : b.attr; simp_all)
    revert hne
    generalize (compare b.attr.qns.toInt a.attr.qns.toInt).then (compare b.attr.type.toInt a.attr.type.toInt) = x
    cases x <;> simp [Ordering.then]

mutual
theorem ord0_swap : ∀ a b : Idx Key, ord0 b a = (ord0 a b).swap
  | mk s1 o1 p1 y1 t1, mk s2 o2 p2 y2 t2 => by
    simp only [ord0]
    rw [then_swap, then_swap, then_swap, ← compare_swap', ← space_cmp_swap, ← ordCmp_swap, ← ord0L_swap p1 p2]
theorem ord0L_swap : ∀ l m : List (Idx Key), ord0L m l = (ord0L l m).swap
  | [], [] => by simp [ord0L]
  | [], _ :: _ => by simp [ord0L]
  | _ :: _, [] => by simp [ord0L]
  | a :: l, b :: m => by
    simp only [ord0L]
    rw [then_swap, ← ord0_swap a b, ← ord0L_swap l m]
end

mutual
/-- All spaces (with any nesting) come from one registry: attributes determine the key, except for reserved attributes. -/
def Registered (keyOf : Attr → Key) : Idx Key → Prop
  | mk s _ p _ _ => (s.attr = Attr.reserved ∨ s.key = keyOf s.attr) ∧ RegisteredL keyOf p
def RegisteredL (keyOf : Attr → Key) : List (Idx Key) → Prop
  | [] => True
  | a :: l => Registered keyOf a ∧ RegisteredL keyOf l
end

mutual
/-- All tags (with any nesting) that are present have the value `k`. -/
def Tags (k : Int) : Idx Key → Prop
  | mk _ _ p _ t => (t = none ∨ t = some k) ∧ TagsL k p
def TagsL (k : Int) : List (Idx Key) → Prop
  | [] => True
  | a :: l => Tags k a ∧ TagsL k l
end

theorem space_cmp_eq_iff (keyOf : Attr → Key) {a b : Space Key} (ha : a.attr = Attr.reserved ∨ a.key = keyOf a.attr)
    (hb : b.attr = Attr.reserved ∨ b.key = keyOf b.attr) : a.cmp b = .eq ↔ a = b := by
  constructor
  · intro h
    have e := space_cmp_attr h
    rw [space_cmp_lex, then_eq_eq] at h
    have hk : a.key = b.key := by
      by_cases hr : a.attr = Attr.reserved
      · rw [if_pos hr] at h; exact compare_eq_iff_eq.1 h.2
      · rw [e] at ha hr; rcases ha with ha | ha
        · exact absurd ha hr
        · rcases hb with hb | hb
          · exact absurd hb hr
          · exact ha.trans hb.symm
    cases a; cases b; simp_all
  · rintro rfl
    rw [space_cmp_lex, then_eq_eq, then_eq_eq]
    refine ⟨⟨compare_eq_iff_eq.2 rfl, compare_eq_iff_eq.2 rfl⟩, ?_⟩
    split
    · exact compare_eq_iff_eq.2 rfl
    · rfl

mutual
theorem ord0_eq (keyOf : Attr → Key) : ∀ a b : Idx Key, Registered keyOf a → Registered keyOf b → (ord0 a b = .eq ↔ beq a b = true)
  | mk s1 o1 p1 y1 t1, mk s2 o2 p2 y2 t2, ha, hb => by
    simp only [Registered] at ha hb
    rw [beq_mk]
    simp only [ord0, then_eq_eq, space_cmp_eq_iff keyOf ha.1 hb.1, ordCmp_eq, ord0L_eq keyOf p1 p2 ha.2 hb.2]
    constructor
    · rintro ⟨_, h⟩; exact h
    · rintro ⟨rfl, h⟩; exact ⟨compare_eq_iff_eq.2 rfl, rfl, h⟩
theorem ord0L_eq (keyOf : Attr → Key) : ∀ l m : List (Idx Key), RegisteredL keyOf l → RegisteredL keyOf m →
    (ord0L l m = .eq ↔ beqL l m = true)
  | [], [], _, _ => by simp [ord0L, beqL]
  | [], _ :: _, _, _ => by simp [ord0L, beqL]
  | _ :: _, [], _, _ => by simp [ord0L, beqL]
  | a :: l, b :: m, ha, hb => by
    simp only [RegisteredL] at ha hb
    simp only [ord0L, then_eq_eq, beqL, Bool.and_eq_true, ord0_eq keyOf a b ha.1 hb.1, ord0L_eq keyOf l m ha.2 hb.2]
end

theorem optLt_iff (a b : Option Nat) (h : a ≠ b) : (if optLt a b = true then Ordering.lt else .gt) = ordCmp a b := by
  cases a with
  | none => cases b with
    | none => simp at h
    | some b => simp [optLt, ordCmp]
  | some a => cases b with
    | none => simp [optLt, ordCmp]
    | some b =>
      have hne : a ≠ b := fun x => h (by rw [x])
      simp only [optLt, ordCmp, decide_eq_true_eq]
      rcases lt_or_gt_of_ne hne with h1 | h1
      · rw [if_pos h1, compare_lt_iff_lt.2 h1]
      · rw [if_neg (not_lt_of_gt h1), compare_gt_iff_gt.2 h1]

/-- The part of `operator<=>` without quantum numbers and tags (1028-1037). -/
def sans (s1 s2 : Space Key) (o1 o2 : Option Nat) (p1 p2 : List (Idx Key)) : Ordering :=
  if s1.cmp s2 ≠ .eq then s1.cmp s2
  else if o1 ≠ o2 then (if optLt o1 o2 then .lt else .gt)
  else if beqL p1 p2 then .eq
  else if cmpL p1 p2 = .lt then .lt else .gt

theorem sans_eq (keyOf : Attr → Key) (s1 s2 : Space Key) (o1 o2 : Option Nat) (p1 p2 : List (Idx Key))
    (h1 : RegisteredL keyOf p1) (h2 : RegisteredL keyOf p2) (hc : cmpL p1 p2 = ord0L p1 p2) :
    sans s1 s2 o1 o2 p1 p2 = (s1.cmp s2).then ((ordCmp o1 o2).then (ord0L p1 p2)) := by
  unfold sans
  by_cases e1 : s1.cmp s2 = .eq
  · rw [if_neg (by simpa using e1), e1]
    simp only [Ordering.then]
    by_cases e2 : o1 = o2
    · rw [if_neg (by simpa using e2), (ordCmp_eq o1 o2).2 e2]
      simp only
      rw [hc]
      have := ord0L_eq keyOf p1 p2 h1 h2
      cases h : ord0L p1 p2 with
      | eq => rw [if_pos (this.1 h)]
      | lt =>
        have hb : ¬ beqL p1 p2 = true := fun x => by rw [this.2 x] at h; simp at h
        rw [if_neg hb, if_pos rfl]
      | gt =>
        have hb : ¬ beqL p1 p2 = true := fun x => by rw [this.2 x] at h; simp at h
        rw [if_neg hb, if_neg (by simp)]
    · rw [if_pos (by simpa using e2), optLt_iff o1 o2 e2]
      have : ordCmp o1 o2 ≠ .eq := fun h => e2 ((ordCmp_eq o1 o2).1 h)
      cases h : ordCmp o1 o2 <;> simp_all
  · rw [if_pos (by simpa using e1)]
    cases h : s1.cmp s2 <;> simp_all [Ordering.then]

theorem qns_lex (s1 s2 : Space Key) (x y : Ordering) (hx : s1.attr.qns = s2.attr.qns → x = y) :
    (if s1.attr.qns = s2.attr.qns then x else if maskLt s1.attr.qns s2.attr.qns then .lt else .gt) =
    (compare s1.attr.qns.toInt s2.attr.qns.toInt).then y := by
  by_cases h : s1.attr.qns = s2.attr.qns
  · rw [if_pos h, hx h, h, compare_eq_iff_eq.2 rfl]; rfl
  · rw [if_neg h]
    have hq : s1.attr.qns.toInt ≠ s2.attr.qns.toInt := fun x => h (toInt_inj.1 x)
    simp only [maskLt, decide_eq_true_eq]
    rcases lt_or_gt_of_ne hq with h1 | h1
    · rw [if_pos h1, compare_lt_iff_lt.2 h1]; rfl
    · rw [if_neg (not_lt_of_gt h1), compare_gt_iff_gt.2 h1]; rfl

theorem cmp_unfold (s1 s2 : Space Key) (o1 o2) (p1 p2) (y1 y2) (t1 t2) :
    cmp (mk s1 o1 p1 y1 t1) (mk s2 o2 p2 y2 t2) =
    if s1.attr.qns = s2.attr.qns then
      match t1, t2 with
      | some a, some b => if a = b then sans s1 s2 o1 o2 p1 p2 else if a < b then .lt else .gt
      | _, _ => sans s1 s2 o1 o2 p1 p2
    else if maskLt s1.attr.qns s2.attr.qns then .lt else .gt := by
  simp only [cmp, sans]
  cases t1 <;> cases t2 <;> rfl

mutual
theorem cmp_eq_ord0 (keyOf : Attr → Key) (k : Int) : ∀ a b : Idx Key, Registered keyOf a → Registered keyOf b → Tags k a → Tags k b →
    cmp a b = ord0 a b
  | mk s1 o1 p1 y1 t1, mk s2 o2 p2 y2 t2, ha, hb, ta, tb => by
    simp only [Registered] at ha hb
    simp only [Tags] at ta tb
    have hL := sans_eq keyOf s1 s2 o1 o2 p1 p2 ha.2 hb.2 (cmpL_eq_ord0L keyOf k p1 p2 ha.2 hb.2 ta.2 tb.2)
    rw [cmp_unfold, ord0]
    apply qns_lex
    intro _
    rw [← hL]
    rcases ta.1 with rfl | rfl <;> rcases tb.1 with rfl | rfl <;> simp
theorem cmpL_eq_ord0L (keyOf : Attr → Key) (k : Int) : ∀ l m : List (Idx Key), RegisteredL keyOf l → RegisteredL keyOf m → TagsL k l →
    TagsL k m → cmpL l m = ord0L l m
  | [], [], _, _, _, _ => by simp [cmpL, ord0L]
  | [], _ :: _, _, _, _, _ => by simp [cmpL, ord0L]
  | _ :: _, [], _, _, _, _ => by simp [cmpL, ord0L]
  | a :: l, b :: m, ha, hb, ta, tb => by
    simp only [RegisteredL] at ha hb
    simp only [TagsL] at ta tb
    simp only [cmpL, ord0L]
    rw [cmp_eq_ord0 keyOf k a b ha.1 hb.1 ta.1 tb.1, cmpL_eq_ord0L keyOf k l m ha.2 hb.2 ta.2 tb.2]
end

end Idx

open Idx

/-- **C23, partial** (order): among indices whose spaces come from one registry and whose tags, where present, all have the same value,
`<=>` is a strict total order that compares equal exactly if `==` holds.  Missing: other tags (`index_order_cycle`, `index_tag_order`)
and spaces that differ in their key only (`index_cmp_eq_not_eq`). -/
theorem index_order_partial (keyOf : Attr → Key) (k : Int) (a b c : Idx Key) (ha : Registered keyOf a) (hb : Registered keyOf b)
    (hc : Registered keyOf c) (ta : Tags k a) (tb : Tags k b) (tc : Tags k c) :
    (cmp a b = .eq ↔ a.beq b = true) ∧ (cmp b a = (cmp a b).swap) ∧
    (cmp a b = .lt → cmp b c = .lt → cmp a c = .lt) := by
  rw [cmp_eq_ord0 keyOf k a b ha hb ta tb, cmp_eq_ord0 keyOf k b a hb ha tb ta, cmp_eq_ord0 keyOf k b c hb hc tb tc,
    cmp_eq_ord0 keyOf k a c ha hc ta tc]
  exact ⟨ord0_eq keyOf a b ha hb, ord0_swap a b, (tri_ord0 a b c).2.2.1⟩

/-- An index with a tag whose proto-indices carry tags `k` only. -/
def FullyTagged (k : Int) (a : Idx Key) : Prop := a.tag.isSome ∧ TagsL k a.protos

def tagOf (a : Idx Key) : Int := a.tag.getD 0

theorem cmp_tagged (keyOf : Attr → Key) (k : Int) (a b : Idx Key) (ha : Registered keyOf a) (hb : Registered keyOf b)
    (ta : FullyTagged k a) (tb : FullyTagged k b) : cmp a b =
    (compare a.space.attr.qns.toInt b.space.attr.qns.toInt).then ((compare (tagOf a) (tagOf b)).then (ord0 a b)) := by
  obtain ⟨s1, o1, p1, y1, t1⟩ := a
  obtain ⟨s2, o2, p2, y2, t2⟩ := b
  simp only [Registered] at ha hb
  simp only [FullyTagged, Idx.tag, Idx.protos] at ta tb
  obtain ⟨x, rfl⟩ := Option.isSome_iff_exists.1 ta.1
  obtain ⟨y, rfl⟩ := Option.isSome_iff_exists.1 tb.1
  have hL := sans_eq keyOf s1 s2 o1 o2 p1 p2 ha.2 hb.2 (cmpL_eq_ord0L keyOf k p1 p2 ha.2 hb.2 ta.2 tb.2)
  rw [cmp_unfold]
  apply qns_lex
  intro hq
  simp only [tagOf, Idx.tag, Option.getD_some]
  rcases lt_trichotomy x y with h | h | h
  · rw [if_neg (ne_of_lt h), if_pos h, compare_lt_iff_lt.2 h]; rfl
  · rw [if_pos h, compare_eq_iff_eq.2 h, hL]
    simp only [Ordering.then, ord0, hq]
    rw [compare_eq_iff_eq.2 rfl]
  · rw [if_neg (ne_of_gt h), if_neg (not_lt_of_gt h), compare_gt_iff_gt.2 h]; rfl

/-- **C23, partial** (order of tagged indices): if all indices have a tag, `<=>` is a strict total order; it compares equal exactly if
`==` holds and the tags are equal. -/
theorem index_order_tagged_partial (keyOf : Attr → Key) (k : Int) (a b c : Idx Key) (ha : Registered keyOf a) (hb : Registered keyOf b)
    (hc : Registered keyOf c) (ta : FullyTagged k a) (tb : FullyTagged k b) (tc : FullyTagged k c) :
    (cmp a b = .eq ↔ a.beq b = true ∧ tagOf a = tagOf b) ∧ (cmp b a = (cmp a b).swap) ∧
    (cmp a b = .lt → cmp b c = .lt → cmp a c = .lt) := by
  rw [cmp_tagged keyOf k a b ha hb ta tb, cmp_tagged keyOf k b a hb ha tb ta, cmp_tagged keyOf k b c hb hc tb tc,
    cmp_tagged keyOf k a c ha hc ta tc]
  refine ⟨?_, ?_, ?_⟩
  · rw [then_eq_eq, then_eq_eq, ord0_eq keyOf a b ha hb, compare_eq_iff_eq, compare_eq_iff_eq]
    constructor
    · rintro ⟨_, h1, h2⟩; exact ⟨h2, h1⟩
    · rintro ⟨h1, h2⟩
      refine ⟨?_, h2, h1⟩
      obtain ⟨s1, o1, p1, y1, t1⟩ := a
      obtain ⟨s2, o2, p2, y2, t2⟩ := b
      rw [beq_mk] at h1
      simp [Idx.space, h1.1]
  · rw [then_swap, then_swap, ← compare_swap', ← compare_swap', ← ord0_swap]
  · exact (Tri.then_ (tri_compare _ _ _) fun _ _ => Tri.then_ (tri_compare _ _ _) fun _ _ => tri_ord0 a b c).2.2.1

/-! ### Refutations -/

/-- `i_n`, `a_n` with a tag. -/
def occI (n : Nat) (t : Option Int) : Idx Nat := .mk ⟨⟨1#32, 0#32⟩, 0⟩ (some n) [] true t
def virtI (n : Nat) (t : Option Int) : Idx Nat := .mk ⟨⟨2#32, 0#32⟩, 1⟩ (some n) [] true t

/-- **C23 is false** for spaces with equal attributes and different keys: `<=>` says equal, `==` says different. -/
theorem index_cmp_eq_not_eq : ∃ a b : Idx Nat, cmp a b = .eq ∧ a.beq b = false :=
  ⟨occI 1 none, .mk ⟨⟨1#32, 0#32⟩, 7⟩ (some 1) [] true none, by decide, by decide⟩

/-- With proto-indices it even says "greater" both ways. -/
theorem index_cmp_gt_both : ∃ a b : Idx Nat, cmp a b = .gt ∧ cmp b a = .gt :=
  ⟨.mk ⟨⟨2#32, 0#32⟩, 1⟩ (some 1) [occI 1 none] true none,
   .mk ⟨⟨2#32, 0#32⟩, 1⟩ (some 1) [.mk ⟨⟨1#32, 0#32⟩, 7⟩ (some 1) [] true none] true none, by decide, by decide⟩

/-- **C23 is false** with tags: equal indices with different tags are ordered. -/
theorem index_tag_order : (occI 1 (some 0)).beq (occI 1 (some 1)) = true ∧ cmp (occI 1 (some 0)) (occI 1 (some 1)) = .lt := by decide

/-- **C23 is false** with tags on some indices only: there is a cycle `a < b < c < a`. -/
theorem index_order_cycle : cmp (occI 1 (some 1)) (occI 2 none) = .lt ∧ cmp (occI 2 none) (occI 3 (some 0)) = .lt ∧
    cmp (occI 3 (some 0)) (occI 1 (some 1)) = .lt := by decide

/-! ### Examples -/

example : cmp (.mk ⟨⟨2#32, 0#32⟩, 1⟩ (some 1) [occI 1 none, occI 2 none] true none : Idx Nat)
    (.mk ⟨⟨2#32, 0#32⟩, 1⟩ (some 1) [occI 1 none, occI 3 none] true none) = .lt := by decide

example : Registered (fun a => if a.type = 1#32 then 0 else 1) (.mk ⟨⟨2#32, 0#32⟩, 1⟩ (some 1) [occI 1 none, occI 2 none] true none) ∧
    Tags 0 (.mk ⟨⟨2#32, 0#32⟩, 1⟩ (some 1) [occI 1 none, occI 2 (some 0)] true none : Idx Nat) := by
  simp [Registered, RegisteredL, Tags, TagsL, occI]

end SeQuant.Indices
