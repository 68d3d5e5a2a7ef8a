import Verif.Diff.Props

/-!
# What is said about indices that differ (C126)

`toplevel_diff(Index, Index)` (core/utility/expr.cpp:132-163).  Proto-indices are of some type `P` with a text `pl` for a list of them and a function
`pd` for `diff_indices`; `num` is the text of an ordinal.
-/

namespace SeQuant.Diff

/-- `Index`, with its tag (tag.hpp). -/
structure Ix (P : Type) where
  sp : Sp
  ord : Option Nat
  protos : List P
  tag : Nat

section
variable {P : Type} [DecidableEq P] (num : Nat → Txt) (pl : List P → Txt) (pd : List P → List P → Txt)

/-- `full_label()` (index.hpp:621-636). -/
def fullLabel (a : Ix P) : Txt :=
  (a.sp.key ++ match a.ord with
    | some n => '_' :: num n
    | none => []) ++ if a.protos = [] then [] else "<".toList ++ pl a.protos ++ ">".toList

/-- `operator==(Index, Index)` (index.hpp:1004-1010): tags are not compared. -/
def Ix.same (a b : Ix P) : Bool := a.sp.same b.sp && decide (a.ord = b.ord) && decide (a.protos = b.protos)

/-- `toplevel_diff(Index, Index)` (132-163). -/
def indexDiff (a b : Ix P) : Out :=
  if a.same b then .text []
  else if fullLabel num pl a ≠ fullLabel num pl b then .text (fullLabel num pl a ++ " vs. ".toList ++ fullLabel num pl b)
  else if a.sp.same b.sp = false then (spaceDiff a.sp b.sp).bind fun s => .text ("Spaces differ: ".toList ++ s)
  else if decide (a.protos ≠ []) ≠ decide (b.protos ≠ []) then
    .text ((if a.protos ≠ [] then "with".toList else "without".toList) ++ " vs. ".toList ++
      (if b.protos ≠ [] then "with".toList else "without".toList) ++ " proto-indices".toList)
  else if a.protos ≠ b.protos then .text ("Proto indices differ: ".toList ++ pd a.protos b.protos)
  else if a.tag ≠ b.tag then .text "Different tags".toList
  else .aborts

/-- Indices that are the same up to the size of their space and their tag. -/
def Ix.Same (a b : Ix P) : Prop :=
  (a.sp.type = b.sp.type ∧ a.sp.qns = b.sp.qns ∧ a.sp.key = b.sp.key) ∧ a.ord = b.ord ∧ a.protos = b.protos

theorem ix_same (a b : Ix P) : a.same b = true ↔ a.Same b := by simp [Ix.same, Sp.same, Ix.Same, and_assoc]

theorem label_ord (k p : Txt) (hn : ∀ m n, num m = num n → m = n) (o o' : Option Nat)
    (h : (k ++ match o with | some n => '_' :: num n | none => []) ++ p = (k ++ match o' with | some n => '_' :: num n | none => []) ++ p) : o = o' := by
  rw [List.append_left_inj, List.append_right_inj] at h
  cases o <;> cases o' <;> simp at h ⊢
  exact hn _ _ h

theorem has_v (x : Txt) (h : 'v' ∈ x) : x ≠ [] ∧ x ≠ "Different tags".toList := by
  constructor
  · rintro rfl; cases h
  · rintro rfl; exact absurd h (by decide)

theorem vs_mem (x y : Txt) : 'v' ∈ x ++ " vs. ".toList ++ y :=
  List.mem_append_left _ (List.mem_append_right _ (by decide))

/-- **C126.** About indices something is said exactly if they are not the same; the call does not abort and says nothing about tags. -/
theorem index_spec (hn : ∀ m n, num m = num n → m = n) (a b : Ix P) :
    ∃ s, indexDiff num pl pd a b = .text s ∧ (s = [] ↔ a.Same b) ∧ s ≠ "Different tags".toList := by
  unfold indexDiff
  by_cases h : a.same b = true
  · exact ⟨[], by rw [if_pos h], by simpa using (ix_same a b).1 h, by decide⟩
  have hne : ¬ a.Same b := fun hc => h ((ix_same a b).2 hc)
  rw [if_neg h]
  by_cases h1 : fullLabel num pl a ≠ fullLabel num pl b
  · rw [if_pos h1]
    obtain ⟨e1, e2⟩ := has_v _ (vs_mem (fullLabel num pl a) (fullLabel num pl b))
    exact ⟨_, rfl, ⟨fun e => absurd e e1, fun e => absurd e hne⟩, e2⟩
  rw [if_neg h1]
  by_cases h2 : a.sp.same b.sp = false
  · rw [if_pos h2]
    obtain ⟨x, hx, -⟩ := space_spec a.sp b.sp
    rw [hx]
    exact ⟨_, rfl, by simp [hne], fun hc => by have := congrArg List.head? hc; simp at this⟩
  rw [if_neg h2]
  by_cases h3 : decide (a.protos ≠ []) ≠ decide (b.protos ≠ [])
  · rw [if_pos h3]
    obtain ⟨e1, e2⟩ := has_v _ (List.mem_append_left " proto-indices".toList (vs_mem (if a.protos ≠ [] then "with".toList else "without".toList)
      (if b.protos ≠ [] then "with".toList else "without".toList)))
    exact ⟨_, rfl, ⟨fun e => absurd e e1, fun e => absurd e hne⟩, e2⟩
  rw [if_neg h3]
  by_cases h4 : a.protos ≠ b.protos
  · rw [if_pos h4]
    exact ⟨_, rfl, by simp [hne], fun hc => by have := congrArg List.head? hc; simp at this⟩
  exfalso
  have h4 : a.protos = b.protos := by simpa using h4
  have hs : a.sp.same b.sp = true := by simpa using h2
  have hk : a.sp.key = b.sp.key := by
    simp only [Sp.same, Bool.and_eq_true, decide_eq_true_eq] at hs
    exact hs.2
  have h1 : fullLabel num pl a = fullLabel num pl b := by simpa using h1
  unfold fullLabel at h1
  rw [hk, h4] at h1
  have := label_ord num _ _ hn _ _ h1
  exact h (by simp [Ix.same, hs, this, h4])

example : ∃ s, indexDiff (P := Nat) (fun n => List.replicate n '1') (fun _ => ['p']) (fun _ _ => []) ⟨⟨1#32, 3#32, ['i'], 10⟩, some 2, [], 0⟩
    ⟨⟨1#32, 3#32, ['i'], 10⟩, some 3, [], 0⟩ = .text s ∧ s ≠ [] := by
  obtain ⟨s, h1, h2, -⟩ := index_spec (P := Nat) (fun n => List.replicate n '1') (fun _ => ['p']) (fun _ _ => [])
    (fun m n h => by simpa using congrArg List.length h) ⟨⟨1#32, 3#32, ['i'], 10⟩, some 2, [], 0⟩ ⟨⟨1#32, 3#32, ['i'], 10⟩, some 3, [], 0⟩
  exact ⟨s, h1, fun h => by simpa using (h2.1 h).2.1⟩

end

end SeQuant.Diff
