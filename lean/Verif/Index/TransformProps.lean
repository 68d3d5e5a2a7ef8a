import Verif.Index.OrderProps
import Mathlib.Data.List.Perm.Basic

/-!
# C21: index substitution
-/

set_option linter.unusedSectionVars false

namespace SeQuant.Indices

open SeQuant.Spaces Idx

variable {Key : Type} [LinearOrder Key]

namespace Idx

mutual
/-- The index without any tags. -/
def erase : Idx Key → Idx Key
  | mk s o p y _ => mk s o (eraseL p) y none
def eraseL : List (Idx Key) → List (Idx Key)
  | [] => []
  | a :: l => erase a :: eraseL l
end

theorem eraseL_eq_map (l : List (Idx Key)) : eraseL l = l.map erase := by
  induction l with
  | nil => simp [eraseL]
  | cons a l ih => simp [eraseL, ih]

mutual
theorem beq_erase : ∀ a b : Idx Key, beq (erase a) (erase b) = beq a b
  | mk s1 o1 p1 y1 t1, mk s2 o2 p2 y2 t2 => by simp only [erase, beq, beqL_erase p1 p2]
theorem beqL_erase : ∀ l m : List (Idx Key), beqL (eraseL l) (eraseL m) = beqL l m
  | [], [] => by simp [eraseL]
  | [], _ :: _ => by simp [eraseL, beqL]
  | _ :: _, [] => by simp [eraseL, beqL]
  | a :: l, b :: m => by simp only [eraseL, beqL, beq_erase a b, beqL_erase l m]
end

mutual
theorem cmp_erase : ∀ a b : Idx Key, Tags 0 a → Tags 0 b → cmp (erase a) (erase b) = cmp a b
  | mk s1 o1 p1 y1 t1, mk s2 o2 p2 y2 t2, ha, hb => by
    simp only [Tags] at ha hb
    simp only [erase, cmp_unfold, sans, beqL_erase, cmpL_erase p1 p2 ha.2 hb.2]
    rcases ha.1 with rfl | rfl <;> rcases hb.1 with rfl | rfl <;> simp
theorem cmpL_erase : ∀ l m : List (Idx Key), TagsL 0 l → TagsL 0 m → cmpL (eraseL l) (eraseL m) = cmpL l m
  | [], [], _, _ => by simp [eraseL]
  | [], _ :: _, _, _ => by simp [eraseL, cmpL]
  | _ :: _, [], _, _ => by simp [eraseL, cmpL]
  | a :: l, b :: m, ha, hb => by
    simp only [TagsL] at ha hb
    simp only [eraseL, cmpL, cmp_erase a b ha.1 hb.1, cmpL_erase l m ha.2 hb.2]
end

mutual
theorem erase_tags : ∀ a : Idx Key, erase a = a → Tags 0 a
  | mk s o p y t, h => by
    simp only [erase, mk.injEq, true_and] at h
    simp only [Tags]
    exact ⟨Or.inl h.2.symm, eraseL_tags p h.1⟩
theorem eraseL_tags : ∀ l : List (Idx Key), eraseL l = l → TagsL 0 l
  | [], _ => by simp [TagsL]
  | a :: l, h => by
    simp only [eraseL, List.cons.injEq] at h
    simp only [TagsL]
    exact ⟨erase_tags a h.1, eraseL_tags l h.2⟩
end

mutual
theorem erase_erase : ∀ a : Idx Key, erase (erase a) = erase a
  | mk s o p y t => by simp only [erase, eraseL_eraseL p]
theorem eraseL_eraseL : ∀ l : List (Idx Key), eraseL (eraseL l) = eraseL l
  | [] => by simp [eraseL]
  | a :: l => by simp only [eraseL, erase_erase a, eraseL_eraseL l]
end

theorem tagsL_iff (k : Int) (l : List (Idx Key)) : TagsL k l ↔ ∀ a ∈ l, Tags k a := by
  induction l with
  | nil => simp [TagsL]
  | cons a l ih => simp [TagsL, ih]

theorem insertStable_perm (a : Idx Key) (l : List (Idx Key)) : (insertStable a l).Perm (a :: l) := by
  induction l with
  | nil => exact List.Perm.refl _
  | cons b l ih =>
    unfold insertStable
    split
    · exact (ih.cons b).trans (List.Perm.swap a b l)
    · exact List.Perm.refl _

theorem stableSort_perm (l : List (Idx Key)) : (stableSort l).Perm l := by
  induction l with
  | nil => exact List.Perm.refl _
  | cons a l ih => exact (insertStable_perm a _).trans (ih.cons a)

theorem insertStable_erase (a : Idx Key) (l : List (Idx Key)) (ha : Tags 0 a) (hl : ∀ b ∈ l, Tags 0 b) :
    (insertStable a l).map erase = insertStable (erase a) (l.map erase) := by
  induction l with
  | nil => simp [insertStable]
  | cons b l ih =>
    have hb := hl b (by simp)
    simp only [insertStable, List.map_cons, cmp_erase b a hb ha]
    split
    · simp [ih fun x hx => hl x (by simp [hx])]
    · simp

theorem stableSort_erase (l : List (Idx Key)) (hl : ∀ b ∈ l, Tags 0 b) : (stableSort l).map erase = stableSort (l.map erase) := by
  induction l with
  | nil => rfl
  | cons a l ih =>
    simp only [stableSort, List.map_cons]
    rw [insertStable_erase a _ (hl a (by simp)), ih fun x hx => hl x (by simp [hx])]
    intro b hb
    exact hl b (List.mem_cons_of_mem _ ((stableSort_perm l).mem_iff.1 hb))

theorem canonProtos_erase (y : Bool) (l : List (Idx Key)) (hl : ∀ b ∈ l, Tags 0 b) :
    (canonProtos y l).map erase = canonProtos y (l.map erase) := by
  unfold canonProtos
  split
  · exact stableSort_erase l hl
  · rfl

end Idx

theorem map_self_iff {α : Type} {f : α → α} {l : List α} : l.map f = l ↔ ∀ a ∈ l, f a = a := by
  induction l with
  | nil => simp
  | cons a l ih => simp [ih]

theorem perm_of_map {α β : Type} {f : α → β} {a b : List β} (h : a.Perm b) : ∀ l : List α, l.map f = a → ∃ l2, l.Perm l2 ∧ l2.map f = b := by
  induction h with
  | nil => intro l hl; exact ⟨l, List.Perm.refl _, hl⟩
  | cons x h ih =>
    intro l hl
    obtain ⟨y, ys, rfl, rfl, hy⟩ := List.map_eq_cons_iff.1 hl
    obtain ⟨l2, h1, h2⟩ := ih ys hy
    exact ⟨y :: l2, h1.cons y, by simp [h2]⟩
  | swap x y l' =>
    intro l hl
    obtain ⟨a, as, rfl, rfl, ha⟩ := List.map_eq_cons_iff.1 hl
    obtain ⟨b, bs, rfl, rfl, hb⟩ := List.map_eq_cons_iff.1 ha
    exact ⟨b :: a :: bs, List.Perm.swap b a bs, by simp [hb]⟩
  | trans h1 h2 ih1 ih2 =>
    intro l hl
    obtain ⟨l2, a1, a2⟩ := ih1 l hl
    obtain ⟨l3, b1, b2⟩ := ih2 l2 a2
    exact ⟨l3, a1.trans b1, b2⟩

/-! ### The specification -/

/-- One simultaneous substitution of a single index: its image, or itself. -/
def σ (m : List (Idx Key × Idx Key)) (i : Idx Key) : Idx Key := (lookup m i).getD i

/-- Simultaneous substitution: the image of the index if there is one, otherwise the index with its proto-indices replaced (put back
into canonical order if one was replaced). -/
def subst (m : List (Idx Key × Idx Key)) (i : Idx Key) : Idx Key :=
  match lookup m i with
  | some v => v
  | none =>
    if i.protos.any fun q => (lookup m q).isSome then .mk i.space i.ord (canonProtos i.sym (i.protos.map (σ m))) i.sym none else i

/-- An index without tags whose proto-indices have no proto-indices (the code asserts this). -/
def Simple (i : Idx Key) : Prop := erase i = i ∧ ∀ q ∈ i.protos, q.protos = []

/-- No image of the map has tags. -/
def ImagesOk (m : List (Idx Key × Idx Key)) : Prop := ∀ e ∈ m, erase e.2 = e.2

theorem lookup_mem {m : List (Idx Key × Idx Key)} {i v : Idx Key} (h : lookup m i = some v) : ∃ e ∈ m, e.2 = v ∧ cmp e.1 i = .eq := by
  unfold lookup at h
  cases hf : m.find? fun e => cmp e.1 i = .eq with
  | none => rw [hf] at h; simp at h
  | some e =>
    rw [hf] at h
    exact ⟨e, List.mem_of_find?_eq_some hf, by simpa using h, by simpa using List.find?_some hf⟩

theorem image_erase {m : List (Idx Key × Idx Key)} (hm : ImagesOk m) {i v : Idx Key} (h : lookup m i = some v) : erase v = v := by
  obtain ⟨e, he, rfl, _⟩ := lookup_mem h
  exact hm e he

theorem tag_none_of_erase {v : Idx Key} (h : erase v = v) : v.tag = none := by
  obtain ⟨s, o, p, y, t⟩ := v
  simp only [erase, mk.injEq] at h
  simp [Idx.tag, ← h.2.2.2.2]

theorem erase_withTag {v : Idx Key} (h : erase v = v) (t : Option Int) : erase (v.withTag t) = v := by
  obtain ⟨s, o, p, y, t'⟩ := v
  simpa [erase, Idx.withTag] using h

theorem tags_withTag {v : Idx Key} (h : erase v = v) : Tags 0 (v.withTag (some 0)) := by
  have ht := erase_tags v h
  obtain ⟨s, o, p, y, t'⟩ := v
  simp only [Idx.withTag, Tags] at ht ⊢
  exact ⟨Or.inr trivial, ht.2⟩

/-- The code's version of `σ`: a replaced index is tagged. -/
def σt (m : List (Idx Key × Idx Key)) (i : Idx Key) : Idx Key :=
  match lookup m i with
  | some v => v.withTag (some 0)
  | none => i

theorem erase_σt {m : List (Idx Key × Idx Key)} (hm : ImagesOk m) {i : Idx Key} (hi : erase i = i) :
    erase (σt m i) = σ m i ∧ Tags 0 (σt m i) := by
  unfold σt σ
  cases h : lookup m i with
  | none => exact ⟨hi, erase_tags i hi⟩
  | some v => exact ⟨erase_withTag (image_erase hm h) _, tags_withTag (image_erase hm h)⟩

theorem transform_leaf {m : List (Idx Key × Idx Key)} (hm : ImagesOk m) (s : Space Key) (o : Option Nat) (y : Bool) :
    transform m (.mk s o [] y none) = some (σt m (.mk s o [] y none), (lookup m (.mk s o [] y none)).isSome) := by
  rw [transform]
  simp only [σt]
  cases h : lookup m (.mk s o [] y none) with
  | none => simp [transformL]
  | some v => simp [assignImage, tag_none_of_erase (image_erase hm h)]

theorem transformL_eq {m : List (Idx Key × Idx Key)} (hm : ImagesOk m) (l : List (Idx Key)) (hl : ∀ q ∈ l, q.protos = [] ∧ erase q = q) :
    transformL m l = some (l.map (σt m), l.any fun q => (lookup m q).isSome) := by
  induction l with
  | nil => simp [transformL]
  | cons a l ih =>
    have ih := ih fun q hq => hl q (by simp [hq])
    obtain ⟨s, o, p, y, t⟩ := a
    obtain ⟨h1, h2⟩ := hl _ (List.mem_cons_self ..)
    simp only [Idx.protos] at h1
    subst h1
    have ht := tag_none_of_erase h2
    simp only [Idx.tag] at ht
    subst ht
    rw [transformL]
    simp [transform_leaf hm, ih]

/-- The repeated lookup (858-866) finds nothing. -/
def NoRetry (m : List (Idx Key × Idx Key)) (i : Idx Key) : Prop :=
  lookup m (.mk i.space i.ord (canonProtos i.sym (i.protos.map (σ m))) i.sym none) = none

theorem lookup_erase {m : List (Idx Key × Idx Key)} (hk : ∀ e ∈ m, erase e.1 = e.1) {i : Idx Key} (hi : Tags 0 i) :
    lookup m (erase i) = lookup m i := by
  unfold lookup
  congr 1
  induction m with
  | nil => rfl
  | cons e m ih =>
    simp only [List.find?_cons]
    have he := hk e (by simp)
    have : cmp e.1 (erase i) = cmp e.1 i := by
      rw [← cmp_erase e.1 i (erase_tags _ he) hi, he]
    rw [this, ih fun x hx => hk x (by simp [hx])]

/-- No key of the map has tags. -/
def KeysOk (m : List (Idx Key × Idx Key)) : Prop := ∀ e ∈ m, erase e.1 = e.1

/-- **C21, partial**: for untagged indices and maps, `transform` performs one simultaneous substitution and reports whether anything was
replaced, if the lookup that is repeated after replacing proto-indices finds nothing.  Missing: maps for which it finds something, where
the property is false (`transform_chain`). -/
theorem transform_partial (m : List (Idx Key × Idx Key)) (hm : ImagesOk m) (hk : KeysOk m) (i : Idx Key) (hi : Simple i)
    (hr : lookup m i = none → NoRetry m i) :
    ∃ r b, transform m i = some (r, b) ∧ erase r = subst m i ∧
      (b = true ↔ (lookup m i).isSome ∨ ∃ q ∈ i.protos, (lookup m q).isSome) := by
  obtain ⟨s, o, p, y, t⟩ := i
  have ht := tag_none_of_erase hi.1
  simp only [Idx.tag] at ht
  subst ht
  have hp : eraseL p = p := by have := hi.1; simp only [erase, mk.injEq] at this; exact this.2.2.1
  have hpe : ∀ q ∈ p, q.protos = [] ∧ erase q = q := by
    intro q hq
    refine ⟨hi.2 q hq, ?_⟩
    rw [eraseL_eq_map] at hp
    exact map_self_iff.1 hp q hq
  have hL := transformL_eq hm p hpe
  rw [transform]
  cases h : lookup m (.mk s o p y none) with
  | some v =>
    have hv := image_erase hm h
    refine ⟨v.withTag (some 0), true, by simp [assignImage, tag_none_of_erase hv], ?_, by simp⟩
    rw [erase_withTag hv, subst, h]
  | none =>
    have hno := hr h
    simp only [hL]
    have htags : ∀ b ∈ p.map (σt m), Tags 0 b := by
      intro b hb
      obtain ⟨q, hq, rfl⟩ := List.mem_map.1 hb
      exact (erase_σt hm (hpe q hq).2).2
    have hmap : (p.map (σt m)).map erase = p.map (σ m) := by
      rw [List.map_map]
      apply List.map_congr_left
      intro q hq
      exact (erase_σt hm (hpe q hq).2).1
    have hsub : subst m (.mk s o p y none) = if p.any fun q => (lookup m q).isSome then
        .mk s o (canonProtos y (p.map (σ m))) y none else .mk s o p y none := by
      rw [subst, h]; rfl
    by_cases hany : (p.any fun q => (lookup m q).isSome) = true
    · simp only [hany, Option.bind_eq_bind, Option.bind_some, if_true]
      have hcan : eraseL (canonProtos y (p.map (σt m))) = canonProtos y (p.map (σ m)) := by
        rw [eraseL_eq_map, canonProtos_erase y _ htags, hmap]
      have hcanT : TagsL 0 (canonProtos y (p.map (σt m))) := by
        rw [tagsL_iff]
        intro b hb
        apply htags
        unfold canonProtos at hb
        split at hb
        · exact (stableSort_perm _).mem_iff.1 hb
        · exact hb
      have hlk : lookup m (.mk s o (canonProtos y (p.map (σt m))) y none) = none := by
        rw [← lookup_erase hk (i := .mk s o (canonProtos y (p.map (σt m))) y none) (by simp only [Tags]; exact ⟨Or.inl trivial, hcanT⟩)]
        rw [erase, hcan]
        exact hno
      rw [hlk]
      refine ⟨_, true, rfl, ?_, ?_⟩
      · rw [hsub, if_pos hany, erase, hcan]
      · simp only [true_iff]
        right
        simpa [Idx.protos] using hany
    · have hno' : ∀ q ∈ p, lookup m q = none := by
        intro q hq
        by_contra hc
        apply hany
        rw [List.any_eq_true]
        exact ⟨q, hq, by rw [Option.isSome_iff_ne_none]; exact hc⟩
      have hself : p.map (σt m) = p := by
        rw [map_self_iff]
        intro q hq
        simp [σt, hno' q hq]
      simp only [Bool.not_eq_true] at hany
      simp only [hany, Option.bind_eq_bind, Option.bind_some, Bool.false_eq_true, if_false]
      refine ⟨_, false, rfl, ?_, ?_⟩
      · rw [hsub, hany, hself]
        simpa using hi.1
      · simp only [Bool.false_eq_true, false_iff, not_or, not_exists, not_and]
        refine ⟨by simp, fun q hq => by simp [hno' q hq]⟩

/-- **C21, partial** (already replaced indices): an index that carries the tag of a replacement keeps its space, ordinal and tag; only its
proto-indices are transformed. -/
theorem transform_tagged_partial (m : List (Idx Key × Idx Key)) (hm : ImagesOk m) (s : Space Key) (o : Option Nat) (p : List (Idx Key)) (y : Bool)
    (hp : ∀ q ∈ p, q.protos = [] ∧ erase q = q) : ∃ p', transform m (.mk s o p y (some 0)) =
      some (.mk s o p' y (some 0), p.any fun q => (lookup m q).isSome) ∧
      eraseL p' = if (p.any fun q => (lookup m q).isSome) then canonProtos y (p.map (σ m)) else p := by
  have hmap : (p.map (σt m)).map erase = p.map (σ m) := by
    rw [List.map_map]
    exact List.map_congr_left fun q hq => (erase_σt hm (hp q hq).2).1
  have htags : ∀ b ∈ p.map (σt m), Tags 0 b := by
    intro b hb
    obtain ⟨q, hq, rfl⟩ := List.mem_map.1 hb
    exact (erase_σt hm (hp q hq).2).2
  rw [transform]
  simp only [transformL_eq hm p hp, if_true, Option.bind_eq_bind, Option.bind_some]
  by_cases hany : (p.any fun q => (lookup m q).isSome) = true
  · simp only [hany, if_true]
    exact ⟨_, rfl, by rw [eraseL_eq_map, canonProtos_erase y _ htags, hmap]⟩
  · have hno : ∀ q ∈ p, lookup m q = none := by
      intro q hq
      by_contra hc
      exact hany (List.any_eq_true.2 ⟨q, hq, by rw [Option.isSome_iff_ne_none]; exact hc⟩)
    simp only [Bool.not_eq_true] at hany
    simp only [hany, Bool.false_eq_true, if_false]
    refine ⟨_, rfl, ?_⟩
    rw [eraseL_eq_map, hmap, map_self_iff]
    intro q hq
    simp [σ, hno q hq]

/-! ### Maps of indices without proto-indices -/

/-- Keys and images are untagged and have no proto-indices. -/
def PlainMap (m : List (Idx Key × Idx Key)) : Prop := ∀ e ∈ m, (erase e.1 = e.1 ∧ e.1.protos = []) ∧ erase e.2 = e.2 ∧ e.2.protos = []

theorem beqL_nil_iff (l : List (Idx Key)) : beqL [] l = true ↔ l = [] := by cases l <;> simp [beqL]

theorem sans_nil_eq {s1 s2 : Space Key} {o1 o2 : Option Nat} {p1 p2 : List (Idx Key)} (h : sans s1 s2 o1 o2 p1 p2 = .eq) :
    beqL p1 p2 = true := by
  unfold sans at h
  split at h
  · rename_i h1; exact absurd h h1
  · split at h
    · split at h <;> simp at h
    · split at h
      · assumption
      · split at h <;> simp at h

theorem cmp_eq_protos {a b : Idx Key} (h : cmp a b = .eq) : beqL a.protos b.protos = true := by
  obtain ⟨s1, o1, p1, y1, t1⟩ := a
  obtain ⟨s2, o2, p2, y2, t2⟩ := b
  rw [cmp_unfold] at h
  split at h
  · split at h
    · split at h
      · exact sans_nil_eq h
      · split at h <;> simp at h
    · exact sans_nil_eq h
  · split at h <;> simp at h

theorem plain_lookup_protos {m : List (Idx Key × Idx Key)} (hm : PlainMap m) {i v : Idx Key} (h : lookup m i = some v) :
    i.protos = [] ∧ v.protos = [] := by
  obtain ⟨e, he, rfl, hc⟩ := lookup_mem h
  have := cmp_eq_protos hc
  rw [(hm e he).1.2, beqL_nil_iff] at this
  exact ⟨this, (hm e he).2.2⟩

theorem stableSort_nil_iff (l : List (Idx Key)) : stableSort l = [] ↔ l = [] := by
  constructor
  · intro h
    have := (stableSort_perm l).length_eq
    rw [h] at this
    simpa using this.symm
  · rintro rfl; rfl

theorem canonProtos_nil_iff (y : Bool) (l : List (Idx Key)) : canonProtos y l = [] ↔ l = [] := by
  unfold canonProtos
  split
  · exact stableSort_nil_iff l
  · rfl

/-- For plain maps the repeated lookup finds nothing new. -/
theorem plain_noRetry {m : List (Idx Key × Idx Key)} (hm : PlainMap m) {i : Idx Key} (hi : erase i = i) (h : lookup m i = none) :
    NoRetry m i := by
  unfold NoRetry
  by_cases hp : i.protos = []
  · have ht := tag_none_of_erase hi
    obtain ⟨s, o, p, y, t⟩ := i
    simp only [Idx.protos, Idx.tag] at hp ht
    subst hp; subst ht
    simpa [Idx.protos, Idx.space, Idx.ord, Idx.sym, canonProtos, stableSort] using h
  · cases hl : lookup m (.mk i.space i.ord (canonProtos i.sym (i.protos.map (σ m))) i.sym none) with
    | none => rfl
    | some v =>
      have := (plain_lookup_protos hm hl).1
      simp only [Idx.protos] at this
      rw [canonProtos_nil_iff] at this
      exact absurd (List.map_eq_nil_iff.1 this) hp

/-- **C21, partial** (plain maps): with plain maps every index is transformed by one simultaneous substitution. -/
theorem transform_plain_partial (m : List (Idx Key × Idx Key)) (hm : PlainMap m) (i : Idx Key) (hi : Simple i) :
    ∃ r b, transform m i = some (r, b) ∧ erase r = subst m i ∧
      (b = true ↔ (lookup m i).isSome ∨ ∃ q ∈ i.protos, (lookup m q).isSome) :=
  transform_partial m (fun e he => (hm e he).2.1) (fun e he => (hm e he).1.1) i hi fun h => plain_noRetry hm hi.1 h

theorem transform_tagged_leaf (m : List (Idx Key × Idx Key)) (s : Space Key) (o : Option Nat) (y : Bool) :
    transform m (.mk s o [] y (some 0)) = some (.mk s o [] y (some 0), false) := by
  rw [transform]; simp [transformL]

/-- A leaf as `transform` leaves it: tagged, or untagged and not in the map. -/
def Settled (m : List (Idx Key × Idx Key)) (q : Idx Key) : Prop :=
  q.protos = [] ∧ (q.tag = some 0 ∨ (q.tag = none ∧ lookup m q = none))

theorem transform_settled {m : List (Idx Key × Idx Key)} {q : Idx Key} (h : Settled m q) : transform m q = some (q, false) := by
  obtain ⟨s, o, p, y, t⟩ := q
  simp only [Settled, Idx.protos, Idx.tag] at h
  obtain ⟨rfl, h⟩ := h
  rcases h with rfl | ⟨rfl, h⟩
  · exact transform_tagged_leaf m s o y
  · rw [transform]; simp [h, transformL]

theorem transformL_settled {m : List (Idx Key × Idx Key)} (l : List (Idx Key)) (h : ∀ q ∈ l, Settled m q) :
    transformL m l = some (l, false) := by
  induction l with
  | nil => simp [transformL]
  | cons a l ih =>
    have ha := h a (by simp)
    have ht := transform_settled ha
    obtain ⟨s, o, p, y, t⟩ := a
    have hp : p = [] := ha.1
    subst hp
    rw [transformL]
    simp [ht, ih fun q hq => h q (by simp [hq])]

theorem settled_σt {m : List (Idx Key × Idx Key)} (hm : PlainMap m) {q : Idx Key} (hq : q.protos = [] ∧ erase q = q) :
    Settled m (σt m q) := by
  unfold σt
  cases h : lookup m q with
  | none => exact ⟨hq.1, Or.inr ⟨tag_none_of_erase hq.2, h⟩⟩
  | some v =>
    have := (plain_lookup_protos hm h).2
    obtain ⟨s, o, p, y, t⟩ := v
    exact ⟨this, Or.inl rfl⟩

/-- **C21, partial** (no replaced index is replaced again): with a plain map, transforming the result once more with the same map changes
nothing and reports no change, whatever chains the map contains. -/
theorem transform_twice_partial (m : List (Idx Key × Idx Key)) (hm : PlainMap m) (i : Idx Key) (hi : Simple i) (r : Idx Key) (b : Bool)
    (h : transform m i = some (r, b)) : transform m r = some (r, false) := by
  obtain ⟨s, o, p, y, t⟩ := i
  have ht := tag_none_of_erase hi.1
  simp only [Idx.tag] at ht
  subst ht
  have hmi : ImagesOk m := fun e he => (hm e he).2.1
  have hp : eraseL p = p := by have := hi.1; simp only [erase, mk.injEq] at this; exact this.2.2.1
  have hpe : ∀ q ∈ p, q.protos = [] ∧ erase q = q := by
    intro q hq
    refine ⟨hi.2 q hq, ?_⟩
    rw [eraseL_eq_map] at hp
    exact map_self_iff.1 hp q hq
  have hset : ∀ q ∈ p.map (σt m), Settled m q := by
    intro q hq
    obtain ⟨x, hx, rfl⟩ := List.mem_map.1 hq
    exact settled_σt hm (hpe x hx)
  rw [transform] at h
  cases hl : lookup m (.mk s o p y none) with
  | some v =>
    rw [hl] at h
    simp only [assignImage, tag_none_of_erase (image_erase hmi hl), if_true, Option.bind_eq_bind, Option.bind_some, Option.pure_def,
      Option.some.injEq, Prod.mk.injEq] at h
    obtain ⟨rfl, rfl⟩ := h
    apply transform_settled
    have := (plain_lookup_protos hm hl).2
    obtain ⟨s', o', p', y', t'⟩ := v
    exact ⟨this, Or.inl rfl⟩
  | none =>
    rw [hl, transformL_eq hmi p hpe] at h
    simp only [Option.bind_eq_bind, Option.bind_some] at h
    -- no lookup succeeds on an index with proto-indices
    have hno : ∀ p', (p' = [] → p = []) → (p = [] → p' = []) → lookup m (.mk s o p' y none) = none := by
      intro p' h1 h2
      by_cases hp0 : p = []
      · rw [h2 hp0, ← hp0]; exact hl
      · cases hx : lookup m (.mk s o p' y none) with
        | none => rfl
        | some v => exact absurd (h1 (plain_lookup_protos hm hx).1) hp0
    have hcs : ∀ q ∈ canonProtos y (p.map (σt m)), Settled m q := by
      intro q hq
      apply hset
      unfold canonProtos at hq
      split at hq
      · exact (stableSort_perm _).mem_iff.1 hq
      · exact hq
    have hn1 := hno (canonProtos y (p.map (σt m))) (by rw [canonProtos_nil_iff]; simp) (by rintro rfl; simp [canonProtos, stableSort])
    have hn2 := hno (p.map (σt m)) (by simp) (by rintro rfl; rfl)
    by_cases hany : (p.any fun q => (lookup m q).isSome) = true
    · simp only [hany, if_true, hn1, Option.pure_def, Option.some.injEq, Prod.mk.injEq] at h
      obtain ⟨rfl, rfl⟩ := h
      rw [transform]
      simp only [hn1, transformL_settled _ hcs]
      rfl
    · simp only [Bool.not_eq_true] at hany
      simp only [hany, Bool.false_eq_true, if_false, Option.pure_def, Option.some.injEq, Prod.mk.injEq] at h
      obtain ⟨rfl, rfl⟩ := h
      rw [transform]
      simp only [hn2, transformL_settled _ hset]
      rfl

/-- **C21** (empty map): nothing changes, whatever the tags, as long as the assertions hold. -/
theorem transform_empty (i : Idx Key) (r : Idx Key) (b : Bool) (h : transform [] i = some (r, b)) : r = i ∧ b = false := by
  have hleaf : ∀ (s : Space Key) (o : Option Nat) (y : Bool) (t : Option Int) (r : Idx Key) (b : Bool),
      transform [] (.mk s o [] y t) = some (r, b) → r = .mk s o [] y t ∧ b = false := by
    intro s o y t r b h
    cases t with
    | none => simp [transform, lookup, transformL] at h; exact ⟨h.1.symm, h.2⟩
    | some k =>
      by_cases hk : k = 0
      · simp [transform, hk, transformL] at h; subst hk; exact ⟨h.1.symm, h.2⟩
      · simp [transform, hk] at h
  have hL : ∀ (l : List (Idx Key)) r b, transformL [] l = some (r, b) → r = l ∧ b = false := by
    intro l
    induction l with
    | nil => intro r b h; simp [transformL] at h; exact ⟨h.1, h.2⟩
    | cons a l ih =>
      intro r b h
      obtain ⟨s, o, p, y, t⟩ := a
      cases p with
      | cons q qs => simp [transformL] at h
      | nil =>
        rw [transformL] at h
        cases h1 : transform [] (.mk s o [] y t) with
        | none => rw [h1] at h; simp at h
        | some x =>
          cases h2 : transformL [] l with
          | none => rw [h1, h2] at h; simp at h
          | some z =>
            rw [h1, h2] at h
            obtain ⟨e1, e2⟩ := hleaf s o y t x.1 x.2 h1
            obtain ⟨e3, e4⟩ := ih z.1 z.2 h2
            simp [e1, e2, e3, e4] at h
            exact ⟨h.1.symm, h.2⟩
  obtain ⟨s, o, p, y, t⟩ := i
  cases h2 : transformL [] p with
  | none =>
    cases t with
    | none => simp [transform, lookup, h2] at h
    | some k => by_cases hk : k = 0 <;> simp [transform, h2, hk] at h
  | some z =>
    obtain ⟨e3, e4⟩ := hL p z.1 z.2 h2
    cases t with
    | none => simp [transform, h2, lookup, e3, e4] at h; exact ⟨h.1.symm, h.2⟩
    | some k =>
      by_cases hk : k = 0
      · simp [transform, h2, hk, e3, e4] at h; subst hk; exact ⟨h.1.symm, h.2⟩
      · simp [transform, hk] at h

/-! ### Composition and injectivity -/

/-- A plain index of one registry. -/
def Plain (keyOf : Attr → Key) (q : Idx Key) : Prop := q.protos = [] ∧ q.sym = true ∧ q.tag = none ∧ Registered keyOf q

theorem plain_eq {keyOf : Attr → Key} {a b : Idx Key} (ha : Plain keyOf a) (hb : Plain keyOf b) (h : cmp a b = .eq) : a = b := by
  have hta : Tags 0 a := by obtain ⟨s, o, p, y, t⟩ := a; obtain ⟨rfl, -, rfl, -⟩ := ha; simp [Tags, TagsL]
  have htb : Tags 0 b := by obtain ⟨s, o, p, y, t⟩ := b; obtain ⟨rfl, -, rfl, -⟩ := hb; simp [Tags, TagsL]
  have := (index_order_partial keyOf 0 a b b ha.2.2.2 hb.2.2.2 hb.2.2.2 hta htb htb).1.1 h
  obtain ⟨s, o, p, y, t⟩ := a
  obtain ⟨s', o', p', y', t'⟩ := b
  obtain ⟨e1, e2, e3, -⟩ := ha
  obtain ⟨f1, f2, f3, -⟩ := hb
  simp only [Idx.protos, Idx.sym, Idx.tag] at e1 e2 e3 f1 f2 f3
  rw [beq_mk] at this
  simp [this.1, this.2.1, e1, e2, e3, f1, f2, f3]

theorem plain_tags {keyOf : Attr → Key} {a : Idx Key} (ha : Plain keyOf a) : Tags 0 a := by
  obtain ⟨s, o, p, y, t⟩ := a; obtain ⟨rfl, -, rfl, -⟩ := ha; simp [Tags, TagsL]

theorem plain_erase {keyOf : Attr → Key} {a : Idx Key} (ha : Plain keyOf a) : erase a = a := by
  obtain ⟨s, o, p, y, t⟩ := a; obtain ⟨rfl, -, rfl, -⟩ := ha; simp [erase, eraseL]

theorem plain_cmp_self {keyOf : Attr → Key} {a : Idx Key} (ha : Plain keyOf a) : cmp a a = .eq :=
  (index_order_partial keyOf 0 a a a ha.2.2.2 ha.2.2.2 ha.2.2.2 (plain_tags ha) (plain_tags ha) (plain_tags ha)).1.2 (beq_refl a)

def le (a b : Idx Key) : Prop := cmp a b ≠ .gt

theorem plain_le_antisymm {keyOf : Attr → Key} {a b : Idx Key} (ha : Plain keyOf a) (hb : Plain keyOf b) (h1 : le a b) (h2 : le b a) :
    a = b := by
  apply plain_eq ha hb
  have := (index_order_partial keyOf 0 a b b ha.2.2.2 hb.2.2.2 hb.2.2.2 (plain_tags ha) (plain_tags hb) (plain_tags hb)).2.1
  unfold le at h1 h2
  rw [this] at h2
  cases h : cmp a b <;> simp_all

theorem insertStable_sorted {keyOf : Attr → Key} (a : Idx Key) (l : List (Idx Key)) (ha : Plain keyOf a) (hl : ∀ b ∈ l, Plain keyOf b)
    (h : l.Pairwise le) : (insertStable a l).Pairwise le := by
  induction l with
  | nil => simp [insertStable]
  | cons b l ih =>
    rw [List.pairwise_cons] at h
    have hb := hl b (by simp)
    have ho := fun c (hc : Plain keyOf c) => index_order_partial keyOf 0 b a c hb.2.2.2 ha.2.2.2 hc.2.2.2 (plain_tags hb) (plain_tags ha)
      (plain_tags hc)
    unfold insertStable
    split
    · rename_i hlt
      rw [List.pairwise_cons]
      refine ⟨?_, ih (fun x hx => hl x (by simp [hx])) h.2⟩
      intro x hx
      rcases List.mem_cons.1 ((insertStable_perm a l).mem_iff.1 hx) with rfl | hx
      · unfold le; rw [hlt]; simp
      · exact h.1 x hx
    · rename_i hge
      rw [List.pairwise_cons, List.pairwise_cons]
      refine ⟨?_, h.1, h.2⟩
      have hab : le a b := by
        unfold le
        rw [(ho a ha).2.1]
        cases hc : cmp b a <;> simp_all
      intro x hx
      rcases List.mem_cons.1 hx with rfl | hx
      · exact hab
      · have hx' := hl x (by simp [hx])
        have h1 := h.1 x hx
        have e1 := cmp_eq_ord0 keyOf 0 a b ha.2.2.2 hb.2.2.2 (plain_tags ha) (plain_tags hb)
        have e2 := cmp_eq_ord0 keyOf 0 b x hb.2.2.2 hx'.2.2.2 (plain_tags hb) (plain_tags hx')
        have e3 := cmp_eq_ord0 keyOf 0 a x ha.2.2.2 hx'.2.2.2 (plain_tags ha) (plain_tags hx')
        unfold le at *
        rw [e1] at hab; rw [e2] at h1; rw [e3]
        have ht := tri_ord0 a b x
        cases p : ord0 a b <;> cases q : ord0 b x <;> simp_all [Tri]

theorem stableSort_sorted {keyOf : Attr → Key} (l : List (Idx Key)) (hl : ∀ b ∈ l, Plain keyOf b) : (stableSort l).Pairwise le := by
  induction l with
  | nil => simp [stableSort]
  | cons a l ih =>
    refine insertStable_sorted a _ (hl a (by simp)) ?_ (ih fun b hb => hl b (by simp [hb]))
    intro b hb
    exact hl b (List.mem_cons_of_mem _ ((stableSort_perm l).mem_iff.1 hb))

/-- The canonical order of plain proto-indices depends only on which indices there are. -/
theorem stableSort_congr {keyOf : Attr → Key} {l l' : List (Idx Key)} (hl : ∀ b ∈ l, Plain keyOf b) (h : l.Perm l') :
    stableSort l = stableSort l' := by
  have hl' : ∀ b ∈ l', Plain keyOf b := fun b hb => hl b (h.mem_iff.2 hb)
  refine List.Perm.eq_of_pairwise ?_ (stableSort_sorted l hl) (stableSort_sorted l' hl')
    (((stableSort_perm l).trans h).trans (stableSort_perm l').symm)
  intro a b ha hb
  exact plain_le_antisymm (hl a ((stableSort_perm l).mem_iff.1 ha)) (hl' b ((stableSort_perm l').mem_iff.1 hb))

/-- Plain map between indices of one registry. -/
def PlainMap' (keyOf : Attr → Key) (m : List (Idx Key × Idx Key)) : Prop := ∀ e ∈ m, Plain keyOf e.1 ∧ Plain keyOf e.2

theorem PlainMap'.plain {keyOf : Attr → Key} {m : List (Idx Key × Idx Key)} (h : PlainMap' keyOf m) : PlainMap m := fun e he =>
  ⟨⟨plain_erase (h e he).1, (h e he).1.1⟩, plain_erase (h e he).2, (h e he).2.1⟩

theorem plain_σ {keyOf : Attr → Key} {m : List (Idx Key × Idx Key)} (h : PlainMap' keyOf m) {q : Idx Key} (hq : Plain keyOf q) :
    Plain keyOf (σ m q) := by
  unfold σ
  cases hl : lookup m q with
  | none => exact hq
  | some v =>
    obtain ⟨e, he, rfl, _⟩ := lookup_mem hl
    exact (h e he).2

/-- The map that first applies `m1`, then `m2`. -/
def comp (m2 m1 : List (Idx Key × Idx Key)) : List (Idx Key × Idx Key) := m1.map (fun e => (e.1, σ m2 e.2)) ++ m2

theorem lookup_comp (m2 m1 : List (Idx Key × Idx Key)) (i : Idx Key) : lookup (comp m2 m1) i =
    match lookup m1 i with
    | some v => some (σ m2 v)
    | none => lookup m2 i := by
  induction m1 with
  | nil => simp [comp, lookup]
  | cons e m1 ih =>
    simp only [comp, List.map_cons, List.cons_append, lookup, List.find?_cons] at ih ⊢
    by_cases h : cmp e.1 i = .eq
    · simp [h]
    · simp only [h, decide_false]
      exact ih

theorem σ_comp (m2 m1 : List (Idx Key × Idx Key)) (i : Idx Key) : σ (comp m2 m1) i = σ m2 (σ m1 i) := by
  unfold σ
  rw [lookup_comp]
  cases lookup m1 i with
  | none => simp
  | some v => simp [σ]

/-- A canonical index: plain, or with plain proto-indices, sorted if they are symmetric. -/
def Canon (keyOf : Attr → Key) (i : Idx Key) : Prop :=
  i.tag = none ∧ (∀ q ∈ i.protos, Plain keyOf q) ∧ (i.sym = true → i.protos.Pairwise le)

theorem canonProtos_self {keyOf : Attr → Key} {i : Idx Key} (hi : Canon keyOf i) : canonProtos i.sym i.protos = i.protos := by
  unfold canonProtos
  split
  · rename_i h
    refine List.Perm.eq_of_pairwise ?_ (stableSort_sorted _ hi.2.1) (hi.2.2 h) (stableSort_perm _)
    intro a b ha hb
    exact plain_le_antisymm (hi.2.1 a ((stableSort_perm _).mem_iff.1 ha)) (hi.2.1 b hb)
  · rfl

/-- With plain maps, the substitution of an index with proto-indices maps the proto-indices and sorts them. -/
theorem subst_protos {keyOf : Attr → Key} {m : List (Idx Key × Idx Key)} (hm : PlainMap' keyOf m) {i : Idx Key} (hi : Canon keyOf i)
    (hp : i.protos ≠ []) : subst m i = .mk i.space i.ord (canonProtos i.sym (i.protos.map (σ m))) i.sym none := by
  unfold subst
  cases h : lookup m i with
  | some v => exact absurd (plain_lookup_protos hm.plain h).1 hp
  | none =>
    simp only
    split
    · rfl
    · rename_i hno
      have hself : i.protos.map (σ m) = i.protos := by
        rw [map_self_iff]
        intro q hq
        unfold σ
        cases hl : lookup m q with
        | none => rfl
        | some v => exact absurd (List.any_eq_true.2 ⟨q, hq, by simp [hl]⟩) hno
      rw [hself, canonProtos_self hi]
      obtain ⟨s, o, p, y, t⟩ := i
      have ht : t = none := hi.1
      simp [Idx.space, Idx.ord, Idx.protos, Idx.sym, ht]

theorem subst_plain {m : List (Idx Key × Idx Key)} {i : Idx Key} (hp : i.protos = []) : subst m i = σ m i := by
  unfold subst σ
  cases lookup m i <;> simp [hp]

theorem canon_subst {keyOf : Attr → Key} {m : List (Idx Key × Idx Key)} (hm : PlainMap' keyOf m) {i : Idx Key} (hi : Canon keyOf i)
    (hp : i.protos ≠ []) : Canon keyOf (subst m i) ∧ (subst m i).protos ≠ [] ∧
      (subst m i).protos = canonProtos i.sym (i.protos.map (σ m)) ∧ (subst m i).sym = i.sym := by
  rw [subst_protos hm hi hp]
  have hpl : ∀ q ∈ i.protos.map (σ m), Plain keyOf q := by
    intro q hq
    obtain ⟨x, hx, rfl⟩ := List.mem_map.1 hq
    exact plain_σ hm (hi.2.1 x hx)
  refine ⟨⟨rfl, ?_, ?_⟩, ?_, rfl, rfl⟩
  · intro q hq
    simp only [Idx.protos, canonProtos] at hq
    split at hq
    · exact hpl q ((stableSort_perm _).mem_iff.1 hq)
    · exact hpl q hq
  · intro h
    replace h : i.sym = true := h
    show List.Pairwise le (canonProtos i.sym (i.protos.map (σ m)))
    rw [canonProtos, if_pos h]
    exact stableSort_sorted _ hpl
  · simp only [Idx.protos, ne_eq, canonProtos_nil_iff, List.map_eq_nil_iff]
    exact hp

/-- **C21, partial** (composition): substituting with `m1` and then, after the tags are reset, with `m2` is the substitution with the
composed map. -/
theorem subst_comp_partial {keyOf : Attr → Key} (m1 m2 : List (Idx Key × Idx Key)) (h1 : PlainMap' keyOf m1) (h2 : PlainMap' keyOf m2)
    (i : Idx Key) (hi : Canon keyOf i) : subst (comp m2 m1) i = subst m2 (subst m1 i) := by
  have h12 : PlainMap' keyOf (comp m2 m1) := by
    intro e he
    rcases List.mem_append.1 he with he | he
    · obtain ⟨x, hx, rfl⟩ := List.mem_map.1 he
      exact ⟨(h1 x hx).1, plain_σ h2 (h1 x hx).2⟩
    · exact h2 e he
  by_cases hp : i.protos = []
  · rw [subst_plain hp, subst_plain hp, σ_comp, subst_plain]
    unfold σ
    cases hl : lookup m1 i with
    | none => exact hp
    | some v => exact (plain_lookup_protos h1.plain hl).2
  · obtain ⟨c1, c2, c3, c4⟩ := canon_subst h1 hi hp
    rw [subst_protos h12 hi hp, subst_protos h2 c1 c2, c3, c4]
    have hf : i.protos.map (σ (comp m2 m1)) = (i.protos.map (σ m1)).map (σ m2) := by
      rw [List.map_map]
      apply List.map_congr_left
      intro q _
      exact σ_comp m2 m1 q
    have hcan : canonProtos i.sym ((i.protos.map (σ m1)).map (σ m2)) =
        canonProtos i.sym ((canonProtos i.sym (i.protos.map (σ m1))).map (σ m2)) := by
      unfold canonProtos
      split
      · refine stableSort_congr (keyOf := keyOf) ?_ ((stableSort_perm _).symm.map _)
        intro b hb
        obtain ⟨x, hx, rfl⟩ := List.mem_map.1 hb
        obtain ⟨z, hz, rfl⟩ := List.mem_map.1 hx
        exact plain_σ h2 (plain_σ h1 (hi.2.1 z hz))
      · rfl
    have hs : (subst m1 i).space = i.space ∧ (subst m1 i).ord = i.ord := by
      rw [subst_protos h1 hi hp]; exact ⟨rfl, rfl⟩
    rw [hf, hcan, hs.1, hs.2]

/-- **C21, partial** (injectivity): if the map is injective on plain indices, it is injective on canonical indices with proto-indices. -/
theorem subst_inj_partial {keyOf : Attr → Key} (m : List (Idx Key × Idx Key)) (hm : PlainMap' keyOf m)
    (hinj : ∀ a b, Plain keyOf a → Plain keyOf b → σ m a = σ m b → a = b) (i j : Idx Key) (hi : Canon keyOf i) (hj : Canon keyOf j)
    (hpi : i.protos ≠ []) (hpj : j.protos ≠ []) (h : subst m i = subst m j) : i = j := by
  rw [subst_protos hm hi hpi, subst_protos hm hj hpj] at h
  simp only [mk.injEq, and_true] at h
  obtain ⟨e1, e2, e3, e4⟩ := h
  have hperm : (i.protos.map (σ m)).Perm (j.protos.map (σ m)) := by
    have : ∀ (y : Bool) (l : List (Idx Key)), (canonProtos y l).Perm l := by
      intro y l
      unfold canonProtos
      split
      · exact stableSort_perm l
      · exact List.Perm.refl _
    exact ((this _ _).symm.trans (List.Perm.of_eq e3)).trans (this _ _)
  have hinjOn : ∀ (l l' : List (Idx Key)), (∀ q ∈ l, Plain keyOf q) → (∀ q ∈ l', Plain keyOf q) → l.map (σ m) = l'.map (σ m) → l = l' := by
    intro l
    induction l with
    | nil => intro l' _ _ h; simpa using h.symm
    | cons a l ih =>
      intro l' h1 h2 h
      cases l' with
      | nil => simp at h
      | cons b l' =>
        simp only [List.map_cons, List.cons.injEq] at h
        rw [hinj a b (h1 a (by simp)) (h2 b (by simp)) h.1, ih l' (fun q hq => h1 q (by simp [hq])) (fun q hq => h2 q (by simp [hq])) h.2]
  have hprotos : i.protos = j.protos := by
    by_cases hs : i.sym = true
    · obtain ⟨l, hl1, hl2⟩ : ∃ l, i.protos.Perm l ∧ l.map (σ m) = j.protos.map (σ m) := perm_of_map hperm _ rfl
      have : l = j.protos := hinjOn l j.protos (fun q hq => hi.2.1 q (hl1.mem_iff.2 hq)) hj.2.1 hl2
      subst this
      refine List.Perm.eq_of_pairwise ?_ (hi.2.2 hs) (hj.2.2 (e4 ▸ hs)) hl1
      intro a b ha hb
      exact plain_le_antisymm (hi.2.1 a ha) (hj.2.1 b hb)
    · have hs' : j.sym ≠ true := e4 ▸ hs
      simp only [canonProtos, hs, hs', Bool.false_eq_true, if_false] at e3
      exact hinjOn _ _ hi.2.1 hj.2.1 e3
  obtain ⟨s, o, p, y, t⟩ := i
  obtain ⟨s', o', p', y', t'⟩ := j
  have ht : t = none := hi.1
  have ht' : t' = none := hj.1
  simp only [Idx.space, Idx.ord, Idx.protos, Idx.sym] at *
  simp [e1, e2, hprotos, e4, ht, ht']

/-! ### Refutations -/

/-- `a_n<p>` -/
def virtP (n : Nat) (p : List (Idx Nat)) : Idx Nat := .mk ⟨⟨2#32, 0#32⟩, 1⟩ (some n) p true none

/-- **C21 is false** for maps with proto-indices: with `i_1 → i_2`, `a_1<i_2> → a_2<i_2>` the index `a_1<i_1>` becomes `a_2<i_2>`, although
the simultaneous substitution is `a_1<i_2>`. -/
theorem transform_chain :
    let m := [(occI 1 none, occI 2 none), (virtP 1 [occI 2 none], virtP 2 [occI 2 none])]
    (transform m (virtP 1 [occI 1 none])).map (fun r => (erase r.1).beq (virtP 2 [occI 2 none])) = some true ∧
    (subst m (virtP 1 [occI 1 none])).beq (virtP 1 [occI 2 none]) = true := by decide

/-- **C21 is false** for images with proto-indices: with `a_1 → a_2<i_1>`, `i_1 → i_2` a second pass turns `a_1` into `a_2<i_2>`. -/
theorem transform_twice_changes :
    let m := [(virtP 1 [], virtP 2 [occI 1 none]), (occI 1 none, occI 2 none)]
    ((transform m (virtP 1 [])).bind fun r => transform m r.1).map (fun r => ((erase r.1).beq (virtP 2 [occI 2 none]), r.2)) =
      some (true, true) := by decide

/-- An image that carries a tag trips the assertion of `assign`. -/
theorem transform_tagged_image : (transform [(occI 1 none, occI 2 (some 0))] (occI 1 none)).isNone = true := by decide

/-! ### Examples -/

example : let m := [(occI 1 none, occI 2 none), (occI 2 none, occI 1 none)]
    (transform m (virtP 1 [occI 1 none, occI 3 none])).map (fun r => ((erase r.1).beq (virtP 1 [occI 2 none, occI 3 none]), r.2)) =
      some (true, true) := by decide

example : PlainMap' (fun a => if a.type = 1#32 then 0 else 1) [(occI 1 none, occI 2 none), (occI 2 none, occI 1 none)] := by
  simp [PlainMap', Plain, occI, Registered, RegisteredL, Idx.protos, Idx.sym, Idx.tag]

example : Canon (fun a => if a.type = 1#32 then 0 else 1) (virtP 1 [occI 1 none, occI 3 none]) := by
  refine ⟨rfl, ?_, fun _ => ?_⟩
  · simp [virtP, Plain, occI, Registered, RegisteredL, Idx.protos, Idx.sym, Idx.tag]
  · simp only [virtP, Idx.protos, List.pairwise_cons, List.mem_singleton, forall_eq, List.not_mem_nil, false_imp_iff, implies_true,
      List.Pairwise.nil, and_true, le]
    decide

end SeQuant.Indices
