import Mathlib.Data.List.Nodup

/-!
# Names in Python (C101)

`sanitize_python_name`, `get_tag` and `tensor_name` (core/export/python_einsum.hpp). Names are lists of bytes (UTF-8); `std::isalnum` and
`std::isdigit` are those of the C locale.
-/

namespace SeQuant.Einsum

/-- A string in UTF-8. -/
abbrev Bytes := List Nat

/-- `std::isdigit`. -/
def isDigit (c : Nat) : Bool := decide (48 ≤ c ∧ c ≤ 57)
/-- `std::isalnum`. -/
def isAlnum (c : Nat) : Bool := isDigit c || decide (65 ≤ c ∧ c ≤ 90) || decide (97 ≤ c ∧ c ≤ 122)

/-- The loop of `sanitize_python_name` (python_einsum.hpp:375-385): ASCII characters that are no letters, digits or underscores become
underscores. -/
def replaceBad (l : Bytes) : Bytes := l.map fun c => if c < 128 ∧ isAlnum c = false ∧ c ≠ 95 then 95 else c

/-- `sanitize_python_name` (python_einsum.hpp:366-393). -/
def sanitize (l : Bytes) : Bytes :=
  match replaceBad l with
  | [] => []
  | c :: r => if isDigit c then 95 :: c :: r else c :: r

/-- A space: its base key. -/
abbrev Space := Bytes

/-- `get_tag` (python_einsum.hpp:78-86); `tags` is `m_tags`. -/
def getTag (tags : List (Space × Bytes)) (s : Space) : Bytes :=
  match tags.lookup s with
  | some t => t
  | none => s.take 1

/-- A tensor as far as its name goes: label and the spaces of its indices. -/
structure Named where
  /-- `label()` -/
  label : Bytes
  /-- `bra()` -/
  bra : List Space
  /-- `ket()` -/
  ket : List Space
  /-- `aux()` -/
  aux : List Space
deriving DecidableEq, Repr

/-- The spaces of `const_indices()`. -/
def Named.spaces (t : Named) : List Space := t.bra ++ t.ket ++ t.aux

/-- `tensor_name` (python_einsum.hpp:317-336). -/
def tensorName (tags : List (Space × Bytes)) (t : Named) : Bytes :=
  let name := sanitize t.label
  if t.spaces.length > 0 then
    let ts := t.spaces.flatMap (getTag tags)
    if ts.isEmpty then name else name ++ [95] ++ ts
  else name

/-- `represent(Variable)` (python_einsum.hpp:175-178). -/
def variableName (l : Bytes) : Bytes := sanitize l

/-- A byte that may be part of a name. -/
def okByte (c : Nat) : Bool := decide (128 ≤ c) || isAlnum c || decide (c = 95)

/-- A name in Python: not empty, without other characters, and no digit at the beginning. -/
def Identifier (l : Bytes) : Prop := (∀ c ∈ l, okByte c = true) ∧ ∃ c r, l = c :: r ∧ isDigit c = false

theorem replaceBad_ok (l : Bytes) : ∀ c ∈ replaceBad l, okByte c = true := by
  intro c hc
  obtain ⟨d, _, rfl⟩ := List.mem_map.1 hc
  split
  · rfl
  · rename_i h
    by_cases h1 : d < 128
    · by_cases h2 : d = 95
      · simp [okByte, h2]
      · have : isAlnum d = true := by
          by_contra h3
          exact h ⟨h1, by simpa using h3, h2⟩
        simp [okByte, this]
    · have : 128 ≤ d := by omega
      simp [okByte, this]

theorem replaceBad_eq {l : Bytes} (h : ∀ c ∈ l, okByte c = true) : replaceBad l = l := by
  unfold replaceBad
  conv_rhs => rw [← List.map_id l]
  apply List.map_congr_left
  intro c hc
  have := h c hc
  rw [if_neg]
  · rfl
  · rintro ⟨h1, h2, h3⟩
    have h4 : ¬ 128 ≤ c := by omega
    simp [okByte, h2, h3, h4] at this

/-- **A label that is not empty becomes a name.** -/
theorem sanitize_identifier {l : Bytes} (h : l ≠ []) : Identifier (sanitize l) := by
  have hb := replaceBad_ok l
  have hne : replaceBad l ≠ [] := by simpa [replaceBad] using h
  unfold sanitize
  cases hr : replaceBad l with
  | nil => exact absurd hr hne
  | cons c r =>
    rw [hr] at hb
    simp only
    split
    · refine ⟨?_, 95, c :: r, rfl, rfl⟩
      intro x hx
      rcases List.mem_cons.1 hx with rfl | hx
      · rfl
      · exact hb x hx
    · rename_i h2
      exact ⟨hb, c, r, rfl, by simpa using h2⟩

/-- **A name stays as it is.** -/
theorem sanitize_eq {l : Bytes} (h : Identifier l) : sanitize l = l := by
  obtain ⟨h1, c, r, rfl, h2⟩ := h
  unfold sanitize
  rw [replaceBad_eq h1]
  simp [h2]

theorem sanitize_eq_iff {l : Bytes} (hl : l ≠ []) : sanitize l = l ↔ Identifier l := ⟨fun h => h ▸ sanitize_identifier hl, sanitize_eq⟩

/-- The names of tensors are names, if tags consist of suitable bytes. -/
theorem tensorName_identifier {tags : List (Space × Bytes)} {t : Named} (hl : t.label ≠ []) (ht : ∀ s ∈ t.spaces, ∀ c ∈ getTag tags s, okByte c = true) :
    Identifier (tensorName tags t) := by
  obtain ⟨h1, c, r, h2, h3⟩ := sanitize_identifier hl
  unfold tensorName
  simp only
  split
  · split
    · exact ⟨h1, c, r, h2, h3⟩
    · refine ⟨?_, c, r ++ [95] ++ t.spaces.flatMap (getTag tags), by rw [h2]; simp, h3⟩
      intro x hx
      rcases List.mem_append.1 hx with hx | hx
      · rcases List.mem_append.1 hx with hx | hx
        · exact h1 x hx
        · rw [List.mem_singleton] at hx
          rw [hx]; rfl
      · obtain ⟨s, hs, hx⟩ := List.mem_flatMap.1 hx
        exact ht s hs x hx
  · exact ⟨h1, c, r, h2, h3⟩

/-! ### Different tensors have different names -/

theorem split_underscore {a b x y : Bytes} (ha : 95 ∉ a) (hb : 95 ∉ b) (h : a ++ 95 :: x = b ++ 95 :: y) : a = b ∧ x = y := by
  induction a generalizing b with
  | nil =>
    cases b with
    | nil => simpa using h
    | cons c b =>
      simp only [List.nil_append, List.cons_append, List.cons.injEq] at h
      exact absurd (h.1 ▸ List.mem_cons_self) hb
  | cons d a ih =>
    cases b with
    | nil =>
      simp only [List.nil_append, List.cons_append, List.cons.injEq] at h
      exact absurd (h.1 ▸ List.mem_cons_self) ha
    | cons c b =>
      simp only [List.cons_append, List.cons.injEq] at h
      obtain ⟨h1, h2⟩ := ih (fun m => ha (List.mem_cons_of_mem _ m)) (fun m => hb (List.mem_cons_of_mem _ m)) h.2
      exact ⟨by rw [h.1, h1], h2⟩

theorem flatMap_tags {tag : Space → Bytes} {a b : List Space} (h1 : ∀ s ∈ a ++ b, (tag s).length = 1)
    (hi : ∀ s ∈ a ++ b, ∀ s' ∈ a ++ b, tag s = tag s' → s = s') (h : a.flatMap tag = b.flatMap tag) : a = b := by
  induction a generalizing b with
  | nil =>
    cases b with
    | nil => rfl
    | cons s b =>
      have := h1 s (by simp)
      rw [List.flatMap_nil, List.flatMap_cons] at h
      have h2 := congrArg List.length h
      simp only [List.length_nil, List.length_append] at h2
      omega
  | cons x a ih =>
    cases b with
    | nil =>
      have := h1 x (by simp)
      rw [List.flatMap_nil, List.flatMap_cons] at h
      have h2 := congrArg List.length h
      simp only [List.length_nil, List.length_append] at h2
      omega
    | cons s b =>
      rw [List.flatMap_cons, List.flatMap_cons] at h
      obtain ⟨e1, e2⟩ := List.append_inj h (by rw [h1 x (by simp), h1 s (by simp)])
      rw [hi x (by simp) s (by simp) e1]
      congr 1
      refine ih (fun z hz => h1 z ?_) (fun z hz z' hz' => hi z ?_ z' ?_) e2
      all_goals (simp only [List.mem_append, List.mem_cons] at *; tauto)

/-- **Tensors with the same name have the same label and the same spaces**, if labels are names without underscores, tags have one byte and
different spaces have different tags. -/
theorem tensorName_inj {tags : List (Space × Bytes)} {t t' : Named} (hl : Identifier t.label) (hl' : Identifier t'.label) (hu : 95 ∉ t.label) (hu' : 95 ∉ t'.label)
    (h1 : ∀ s ∈ t.spaces ++ t'.spaces, (getTag tags s).length = 1)
    (hi : ∀ s ∈ t.spaces ++ t'.spaces, ∀ s' ∈ t.spaces ++ t'.spaces, getTag tags s = getTag tags s' → s = s')
    (h : tensorName tags t = tensorName tags t') : t.label = t'.label ∧ t.spaces = t'.spaces := by
  have key : ∀ u : Named, Identifier u.label → (∀ s ∈ u.spaces, (getTag tags s).length = 1) →
      tensorName tags u = if u.spaces = [] then u.label else u.label ++ 95 :: u.spaces.flatMap (getTag tags) := by
    intro u hu h1
    unfold tensorName
    rw [sanitize_eq hu]
    cases hs : u.spaces with
    | nil => simp
    | cons s r =>
      have h2 := h1 s (by rw [hs]; simp)
      have h3 : getTag tags s ≠ [] := fun e => by rw [e] at h2; simp at h2
      simp [h3]
  rw [key t hl fun s hs => h1 s (List.mem_append_left _ hs), key t' hl' fun s hs => h1 s (List.mem_append_right _ hs)] at h
  by_cases h2 : t.spaces = []
  · by_cases h3 : t'.spaces = []
    · rw [if_pos h2, if_pos h3] at h
      exact ⟨h, h2.trans h3.symm⟩
    · rw [if_pos h2, if_neg h3] at h
      exact absurd (by rw [h]; simp) hu
  · by_cases h3 : t'.spaces = []
    · rw [if_neg h2, if_pos h3] at h
      exact absurd (by rw [← h]; simp) hu'
    · rw [if_neg h2, if_neg h3] at h
      obtain ⟨e1, e2⟩ := split_underscore hu hu' h
      exact ⟨e1, flatMap_tags h1 hi e2⟩

/-- Tensors and variables have different names, if labels are names without underscores and tensors have indices. -/
theorem tensorName_ne_variable {tags : List (Space × Bytes)} {t : Named} {l : Bytes} (hl : Identifier l) (hu : 95 ∉ l) (hs : t.spaces.flatMap (getTag tags) ≠ []) :
    tensorName tags t ≠ variableName l := by
  unfold tensorName variableName
  rw [sanitize_eq hl]
  have h1 : t.spaces.length > 0 := by
    cases h : t.spaces with
    | nil => rw [h] at hs; simp at hs
    | cons s r => simp
  have h2 : (t.spaces.flatMap (getTag tags)).isEmpty = false := by simpa using hs
  rw [if_pos h1]
  simp only [h2, Bool.false_eq_true, if_false]
  intro h
  apply hu
  rw [← h]; simp

/-- `t[i a; a i]` and `g[i; a]` with the tags o and v: `t_ovvo` and `g_ov`. -/
example : tensorName [([105], [111]), ([97], [118])] ⟨[116], [[105], [97]], [[97], [105]], []⟩ = [116, 95, 111, 118, 118, 111] ∧
    tensorName [([105], [111]), ([97], [118])] ⟨[103], [[105]], [[97]], []⟩ = [103, 95, 111, 118] := by decide

example : tensorName [([105], [111]), ([97], [118])] ⟨[116], [[105], [97]], [[97], [105]], []⟩ ≠ tensorName [([105], [111]), ([97], [118])] ⟨[116], [[105], [105]], [[97], [97]], []⟩ := by
  intro h
  have := tensorName_inj (by unfold Identifier; exact ⟨by decide, 116, [], rfl, rfl⟩) (by exact ⟨by decide, 116, [], rfl, rfl⟩) (by decide) (by decide) (by decide) (by decide) h
  exact absurd this.2 (by decide)

/-! ### Names that clash -/

/-- **Where the indices are does not matter**: the same spaces with another number of upper indices have the same name. -/
theorem tensorName_slots (tags : List (Space × Bytes)) (l : Bytes) (b k a : List Space) : tensorName tags ⟨l, b, k, a⟩ = tensorName tags ⟨l, b ++ k, [], a⟩ ∧
    tensorName tags ⟨l, b, k, a⟩ = tensorName tags ⟨l, b ++ k ++ a, [], []⟩ := by
  constructor <;> simp [tensorName, Named.spaces]

/-- **Spaces whose keys begin with the same byte are one space**: all Greek letters from Α to ο begin with the byte 206, so `g` over α and `g` over β
are the same array, and the name is no valid text. -/
theorem tensorName_greek : tensorName [] ⟨[103], [[206, 177]], [], []⟩ = tensorName [] ⟨[103], [[206, 178]], [], []⟩ ∧
    tensorName [] ⟨[103], [[206, 177]], [], []⟩ = [103, 95, 206] := by decide

/-- **Labels that differ in other characters are one label**: `t'` and `t*` and `t_`. -/
theorem sanitize_clash : sanitize [116, 39] = sanitize [116, 42] ∧ sanitize [116, 39] = sanitize [116, 95] ∧ sanitize [49] = sanitize [95, 49] := by decide

/-- **A variable can have the name of a tensor**: the variable `A_i` and the tensor `A` over the space `i`. -/
theorem variable_clash : variableName [65, 95, 105] = tensorName [] ⟨[65], [[105]], [], []⟩ := by decide

/-- Tags of several bytes can run together. -/
theorem tag_clash : tensorName [([105], [111]), ([97], [111, 111])] ⟨[116], [[105], [105]], [], []⟩ = tensorName [([105], [111]), ([97], [111, 111])] ⟨[116], [[97]], [], []⟩ := by decide

/-- **Reserved words are not avoided**: a tensor without indices called `if`, and an empty label stays empty. -/
theorem keyword_kept : sanitize [105, 102] = [105, 102] ∧ sanitize [] = [] := by decide

end SeQuant.Einsum
