import Verif.Einsum.Model
import Mathlib.Data.List.Nodup
import Mathlib.Data.List.Perm.Subperm

/-!
# Letters for indices (C99)
-/

namespace SeQuant.Einsum

/-- `used_chars` are the letters of `index_map`, and no letter has two labels. -/
structure Letters.WF (s : Letters) : Prop where
  used : s.used = s.map.map (·.2)
  keys : (s.map.map (·.1)).Nodup
  vals : s.used.Nodup

/-- Letters given once are kept. -/
def Letters.Ext (s s' : Letters) : Prop := ∀ l c, s.map.lookup l = some c → s'.map.lookup l = some c

theorem Letters.Ext.refl (s : Letters) : s.Ext s := fun _ _ h => h
theorem Letters.Ext.trans {s s' s'' : Letters} (h : s.Ext s') (h' : s'.Ext s'') : s.Ext s'' := fun l c x => h' l c (h l c x)

theorem lookup_mem {l : Label} {c : Nat} : ∀ {m : List (Label × Nat)}, m.lookup l = some c → (l, c) ∈ m
  | (k, v) :: m, h => by
    rw [List.lookup_cons] at h
    by_cases hk : l == k
    · rw [hk] at h
      simp only [Option.some.injEq] at h
      have : l = k := by simpa using hk
      rw [this, h]; exact List.mem_cons_self
    · simp only [Bool.not_eq_true] at hk
      rw [hk] at h
      exact List.mem_cons_of_mem _ (lookup_mem h)

theorem lookup_none {l : Label} {m : List (Label × Nat)} : m.lookup l = none ↔ l ∉ m.map (·.1) := by
  induction m with
  | nil => simp
  | cons p m ih =>
    obtain ⟨k, v⟩ := p
    rw [List.lookup_cons]
    by_cases hk : l == k
    · rw [hk]
      have : l = k := by simpa using hk
      simp [this]
    · simp only [Bool.not_eq_true] at hk
      rw [hk]
      have : l ≠ k := by simpa using hk
      simp only [List.map_cons, List.mem_cons, this, false_or]
      exact ih

/-- **Different indices have different letters.** -/
theorem Letters.WF.inj {s : Letters} (h : s.WF) {l l' : Label} {c : Nat} (h1 : s.map.lookup l = some c) (h2 : s.map.lookup l' = some c) : l = l' := by
  have hv : (s.map.map (·.2)).Nodup := by rw [← h.used]; exact h.vals
  have := List.inj_on_of_nodup_map hv (lookup_mem h1) (lookup_mem h2) rfl
  exact congrArg Prod.fst this

theorem wf_insert {s : Letters} (h : s.WF) {l : Label} {c : Nat} (hl : s.map.lookup l = none) (hc : c ∉ s.used) :
    Letters.WF ⟨(l, c) :: s.map, c :: s.used⟩ ∧ s.Ext ⟨(l, c) :: s.map, c :: s.used⟩ ∧ ((l, c) :: s.map).lookup l = some c := by
  refine ⟨⟨by simp [h.used], ?_, List.nodup_cons.2 ⟨hc, h.vals⟩⟩, ?_, by simp⟩
  · rw [List.map_cons]
    exact List.nodup_cons.2 ⟨lookup_none.1 hl, h.keys⟩
  · intro k v hk
    simp only
    rw [List.lookup_cons]
    by_cases hkl : k == l
    · have : k = l := by simpa using hkl
      rw [this, hl] at hk
      simp at hk
    · simp only [Bool.not_eq_true] at hkl
      rw [hkl]; exact hk

theorem getIndex_ok {avail : List Nat} {l : Label} {s s' : Letters} {c : Nat} (h : s.WF) (he : getIndex avail l s = .ok (c, s')) :
    s'.WF ∧ s.Ext s' ∧ s'.map.lookup l = some c := by
  unfold getIndex at he
  split at he
  · rename_i c' hl
    cases he
    exact ⟨h, Letters.Ext.refl s, hl⟩
  · rename_i hl
    simp only at he
    split at he
    · split at he
      · simp at he
      · rename_i c' hf
        cases he
        exact wf_insert h hl (by simpa using List.find?_some hf)
    · rename_i hb
      cases he
      exact wf_insert h hl hb

/-- **There is an exception exactly if a new index finds its first byte and all available letters in use.** -/
theorem getIndex_error_iff {avail : List Nat} {l : Label} {s : Letters} {e : Err} :
    getIndex avail l s = .error e ↔ e = .tooMany ∧ s.map.lookup l = none ∧ l.head?.getD 105 ∈ s.used ∧ ∀ c ∈ avail, c ∈ s.used := by
  unfold getIndex
  cases hl : s.map.lookup l with
  | some c => simp
  | none =>
    simp only
    by_cases hb : l.head?.getD 105 ∈ s.used
    · rw [if_pos hb]
      cases hf : avail.find? fun c => decide (c ∉ s.used) with
      | none =>
        have := List.find?_eq_none.1 hf
        simp only [decide_eq_true_eq, not_not] at this
        simp only [Except.error.injEq, true_and, hb]
        exact ⟨fun h => ⟨h.symm, this⟩, fun h => h.1.symm⟩
      | some c =>
        simp only [reduceCtorEq, false_iff, not_and]
        intro _ _ _ h
        have := List.find?_some hf
        exact absurd (h c (List.mem_of_find?_eq_some hf)) (by simpa using this)
    · rw [if_neg hb]
      simp [hb]

theorem subscript_ok {avail : List Nat} {ls : List Label} {s s' : Letters} {cs : List Nat} (h : s.WF) (he : subscript avail ls s = .ok (cs, s')) :
    s'.WF ∧ s.Ext s' ∧ ls.map (fun l => s'.map.lookup l) = cs.map some := by
  induction ls generalizing s cs with
  | nil =>
    simp only [subscript, Except.ok.injEq, Prod.mk.injEq] at he
    obtain ⟨rfl, rfl⟩ := he
    exact ⟨h, Letters.Ext.refl s, rfl⟩
  | cons l ls ih =>
    simp only [subscript] at he
    split at he
    · simp at he
    · rename_i c s1 h1
      split at he
      · simp at he
      · rename_i cs1 s2 h2
        cases he
        obtain ⟨w1, e1, l1⟩ := getIndex_ok h h1
        obtain ⟨w2, e2, l2⟩ := ih w1 h2
        refine ⟨w2, e1.trans e2, ?_⟩
        rw [List.map_cons, List.map_cons, e2 _ _ l1, l2]

theorem subscript_append (avail : List Nat) (a b : List Label) (s : Letters) :
    subscript avail (a ++ b) s = match subscript avail a s with
      | .error e => .error e
      | .ok (cs, s1) => match subscript avail b s1 with
        | .error e => .error e
        | .ok (cs', s2) => .ok (cs ++ cs', s2) := by
  induction a generalizing s with
  | nil =>
    simp only [List.nil_append, subscript]
    cases subscript avail b s with
    | error e => rfl
    | ok p => obtain ⟨cs, s'⟩ := p; rfl
  | cons l a ih =>
    simp only [List.cons_append, subscript]
    cases getIndex avail l s with
    | error e => rfl
    | ok p =>
      obtain ⟨c, s1⟩ := p
      simp only
      rw [ih s1]
      cases subscript avail a s1 with
      | error e => rfl
      | ok p =>
        obtain ⟨cs, s2⟩ := p
        simp only
        cases subscript avail b s2 with
        | error e => rfl
        | ok p => obtain ⟨cs', s3⟩ := p; rfl

/-! ### How many indices there may be -/

/-- The first byte of a label. -/
def first (l : Label) : Nat := l.head?.getD 105

theorem getIndex_step {avail : List Nat} {l : Label} {s s' : Letters} {c : Nat} (he : getIndex avail l s = .ok (c, s')) :
    (s' = s ∧ l ∈ s.map.map (·.1)) ∨ (l ∉ s.map.map (·.1) ∧ s' = ⟨(l, c) :: s.map, c :: s.used⟩ ∧ (c ∈ avail ∨ c = first l)) := by
  unfold getIndex at he
  split at he
  · rename_i c' hl
    cases he
    exact Or.inl ⟨rfl, List.mem_map_of_mem (lookup_mem hl)⟩
  · rename_i hl
    right
    refine ⟨lookup_none.1 hl, ?_⟩
    simp only at he
    split at he
    · split at he
      · simp at he
      · rename_i c' hf
        cases he
        exact ⟨rfl, Or.inl (List.mem_of_find?_eq_some hf)⟩
    · cases he
      exact ⟨rfl, Or.inr rfl⟩

theorem subscript_step {avail : List Nat} {ls : List Label} {s s' : Letters} {cs : List Nat} (he : subscript avail ls s = .ok (cs, s'))
    (hf : ∀ l ∈ ls, first l ∈ avail) (hu : ∀ c ∈ s.used, c ∈ avail) :
    (∀ l, l ∈ s'.map.map (·.1) ↔ l ∈ s.map.map (·.1) ∨ l ∈ ls) ∧ ∀ c ∈ s'.used, c ∈ avail := by
  induction ls generalizing s cs with
  | nil =>
    simp only [subscript, Except.ok.injEq, Prod.mk.injEq] at he
    obtain ⟨rfl, rfl⟩ := he
    simpa using hu
  | cons l ls ih =>
    simp only [subscript] at he
    split at he
    · simp at he
    · rename_i c s1 h1
      split at he
      · simp at he
      · rename_i cs1 s2 h2
        cases he
        rcases getIndex_step h1 with ⟨rfl, hl⟩ | ⟨hl, rfl, hc⟩
        · obtain ⟨a, b⟩ := ih h2 (fun x hx => hf x (by simp [hx])) hu
          refine ⟨fun x => ?_, b⟩
          rw [a x, List.mem_cons]
          constructor
          · rintro (h | h)
            · exact Or.inl h
            · exact Or.inr (Or.inr h)
          · rintro (h | rfl | h)
            · exact Or.inl h
            · exact Or.inl hl
            · exact Or.inr h
        · have hca : c ∈ avail := by
            rcases hc with h | rfl
            · exact h
            · exact hf l (by simp)
          obtain ⟨a, b⟩ := ih h2 (fun x hx => hf x (by simp [hx])) (by
            intro x hx
            rcases List.mem_cons.1 hx with rfl | hx
            · exact hca
            · exact hu x hx)
          refine ⟨fun x => ?_, b⟩
          rw [a x, List.map_cons, List.mem_cons, List.mem_cons]
          tauto

theorem nodup_length_le {l m : List Nat} (h : l.Nodup) (hs : ∀ x ∈ l, x ∈ m) : l.length ≤ m.length := (h.subperm hs).length_le
theorem nodup_length_le' {l m : List Label} (h : l.Nodup) (hs : ∀ x ∈ l, x ∈ m) : l.length ≤ m.length := (h.subperm hs).length_le

theorem subscript_error {avail : List Nat} (ha : avail.Nodup) {ls : List Label} {s : Letters} (h : s.WF) {e : Err} (he : subscript avail ls s = .error e)
    (hf : ∀ l ∈ ls, first l ∈ avail) (hu : ∀ c ∈ s.used, c ∈ avail) :
    e = .tooMany ∧ ∃ L : List Label, L.Nodup ∧ avail.length < L.length ∧ ∀ l ∈ L, l ∈ s.map.map (·.1) ∨ l ∈ ls := by
  induction ls generalizing s with
  | nil => simp [subscript] at he
  | cons l ls ih =>
    simp only [subscript] at he
    split at he
    · rename_i e' h1
      cases he
      obtain ⟨rfl, h2, _, h3⟩ := getIndex_error_iff.1 h1
      refine ⟨rfl, l :: s.map.map (·.1), List.nodup_cons.2 ⟨lookup_none.1 h2, h.keys⟩, ?_, ?_⟩
      · have h4 := nodup_length_le ha h3
        rw [h.used] at h4
        simp only [List.length_map, List.length_cons] at h4 ⊢
        omega
      · intro x hx
        rcases List.mem_cons.1 hx with rfl | hx
        · exact Or.inr (by simp)
        · exact Or.inl hx
    · rename_i c s1 h1
      obtain ⟨w1, _, _⟩ := getIndex_ok h h1
      split at he
      · rename_i e' h2
        cases he
        have hone : subscript avail [l] s = .ok ([c], s1) := by simp [subscript, h1]
        obtain ⟨a, b⟩ := subscript_step hone (fun x hx => hf x (by simp at hx; simp [hx])) hu
        obtain ⟨r1, L, r2, r3, r4⟩ := ih w1 h2 (fun x hx => hf x (by simp [hx])) b
        refine ⟨r1, L, r2, r3, fun x hx => ?_⟩
        rcases r4 x hx with h5 | h5
        · rcases (a x).1 h5 with h6 | h6
          · exact Or.inl h6
          · exact Or.inr (by simp at h6; simp [h6])
        · exact Or.inr (by simp [h5])
      · simp at he

/-- No letters given. -/
def Letters.empty : Letters := ⟨[], []⟩
theorem Letters.empty_wf : Letters.empty.WF := ⟨rfl, List.nodup_nil, List.nodup_nil⟩

/-- **Letters suffice exactly if there are not more different indices than letters**, for indices whose labels begin with one of the letters. -/
theorem subscript_isOk_iff {avail : List Nat} (ha : avail.Nodup) {ls : List Label} (hf : ∀ l ∈ ls, first l ∈ avail) :
    (∃ r, subscript avail ls Letters.empty = .ok r) ↔ ls.dedup.length ≤ avail.length := by
  constructor
  · rintro ⟨⟨cs, s'⟩, he⟩
    obtain ⟨w, _, _⟩ := subscript_ok Letters.empty_wf he
    obtain ⟨a, b⟩ := subscript_step he hf (by simp [Letters.empty])
    have h1 : ls.dedup.length ≤ (s'.map.map (·.1)).length := nodup_length_le' (List.nodup_dedup ls) fun x hx => (a x).2 (Or.inr (List.mem_dedup.1 hx))
    have h2 := nodup_length_le w.vals b
    rw [w.used] at h2
    simp only [List.length_map] at h1 h2
    omega
  · intro h
    cases he : subscript avail ls Letters.empty with
    | ok r => exact ⟨r, rfl⟩
    | error e =>
      obtain ⟨_, L, h1, h2, h3⟩ := subscript_error ha Letters.empty_wf he hf (by simp [Letters.empty])
      have := nodup_length_le' h1 (m := ls.dedup) fun x hx => by
        rcases h3 x hx with h4 | h4
        · simp [Letters.empty] at h4
        · exact List.mem_dedup.2 h4
      omega

/-- **All letters are letters that the library accepts**, if labels begin with one. -/
theorem subscript_letters {avail : List Nat} {ls : List Label} (hf : ∀ l ∈ ls, first l ∈ avail) {cs : List Nat} {s' : Letters}
    (he : subscript avail ls Letters.empty = .ok (cs, s')) : ∀ c ∈ cs, c ∈ avail := by
  obtain ⟨w, _, h1⟩ := subscript_ok Letters.empty_wf he
  obtain ⟨_, b⟩ := subscript_step he hf (by simp [Letters.empty])
  intro c hc
  have : some c ∈ ls.map (fun l => s'.map.lookup l) := by rw [h1]; exact List.mem_map_of_mem hc
  obtain ⟨l, _, hl⟩ := List.mem_map.1 this
  apply b
  rw [w.used]
  exact List.mem_map.2 ⟨(l, c), lookup_mem hl, rfl⟩

theorem numpyChars_nodup : numpyChars.Nodup := by decide
theorem torchChars_nodup : torchChars.Nodup := by decide

/-- `i_1`, `i_2`, `a_1`, `i_1` get i, a, b and i: the label that comes first keeps its letter. -/
example : subscript numpyChars [[105, 95, 49], [105, 95, 50], [97, 95, 49], [105, 95, 49]] Letters.empty =
    .ok ([105, 97, 98, 105], ⟨[([97, 95, 49], 98), ([105, 95, 50], 97), ([105, 95, 49], 105)], [98, 97, 105]⟩) := by decide

/-- **A label that begins with another byte gives a letter that no library accepts**: the first byte of the label `κ_1` alone, and a capital
letter for PyTorch. -/
theorem first_byte_fails : subscript numpyChars [[206, 186, 95, 49]] Letters.empty = .ok ([206], ⟨[([206, 186, 95, 49], 206)], [206]⟩) ∧
    206 ∉ numpyChars ∧ subscript torchChars [[69, 95, 49]] Letters.empty = .ok ([69], ⟨[([69, 95, 49], 69)], [69]⟩) ∧ 69 ∉ torchChars := by decide

end SeQuant.Einsum
