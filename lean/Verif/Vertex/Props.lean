import Verif.Vertex.Model
import Mathlib.Data.List.Basic
import Mathlib.Data.List.Sort
import Mathlib.Tactic.Ring

/-!
# Hugenholtz vertices group equivalent edges (C58)
-/

namespace SeQuant.Vertices

variable {E : Type} (eq : E → E → Bool)

/-- An equivalence. -/
structure IsEq (eq : E → E → Bool) : Prop where
  refl : ∀ a, eq a a = true
  symm : ∀ a b, eq a b = true → eq b a = true
  trans : ∀ a b c, eq a b = true → eq b c = true → eq a c = true

/-- The positions of the edges equivalent to `r`, in increasing order. -/
def positions (edges : List E) (r : E) : List Nat := (List.range edges.length).filter fun i => (edges[i]?).any (eq r)

/-- The vertex represents the edges: every edge is in the group of its kind, every group lists exactly the edges of its kind in increasing
order, no kind has two groups. -/
structure Rep (v : Vtx E) (edges : List E) : Prop where
  length : v.toGroup.length = edges.length
  mem : ∀ i j : Nat, v.toGroup[i]? = some j → ∃ (g : E × List Nat) (e : E), v.groups[j]? = some g ∧ edges[i]? = some e ∧ eq g.1 e = true
  group : ∀ g ∈ v.groups, g.2 = positions eq edges g.1
  distinct : v.groups.Pairwise fun g h => eq g.1 h.1 = false

/-! ### Lists of positions -/

theorem insertSorted_mid (x : Nat) : ∀ (a b : List Nat), (∀ y ∈ a, y < x) → (∀ y ∈ b, x < y) → insertSorted x (a ++ b) = a ++ x :: b
  | [], [], _, _ => rfl
  | [], y :: b, _, h => by simp [insertSorted, h y (by simp)]
  | y :: a, b, h, h' => by
    have : ¬ x < y := by have := h y (by simp); omega
    simp only [List.cons_append, insertSorted, if_neg this]
    rw [insertSorted_mid x a b (fun z hz => h z (by simp [hz])) h']

/-- Splits the positions at `i`. -/
theorem positions_append (a b : List E) (r : E) :
    positions eq (a ++ b) r = positions eq a r ++ (positions eq b r).map (a.length + ·) := by
  unfold positions
  rw [List.length_append, List.range_add, List.filter_append, List.filter_map]
  congr 1
  · refine List.filter_congr fun i hi => ?_
    rw [List.mem_range] at hi
    rw [List.getElem?_append_left hi]
  · congr 1
    refine List.filter_congr fun i _ => ?_
    simp [List.getElem?_append_right]

theorem positions_lt (a : List E) (r : E) : ∀ x ∈ positions eq a r, x < a.length := by
  intro x hx
  unfold positions at hx
  exact List.mem_range.1 (List.mem_filter.1 hx).1

theorem mem_positions {a : List E} {r : E} {i : Nat} : i ∈ positions eq a r ↔ ∃ e, a[i]? = some e ∧ eq r e = true := by
  unfold positions
  rw [List.mem_filter, List.mem_range]
  constructor
  · rintro ⟨h1, h2⟩
    rw [List.getElem?_eq_getElem h1] at h2 ⊢
    exact ⟨_, rfl, by simpa using h2⟩
  · rintro ⟨e, h1, h2⟩
    obtain ⟨h3, -⟩ := List.getElem?_eq_some_iff.1 h1
    exact ⟨h3, by rw [h1]; simpa using h2⟩

theorem positions_single (e r : E) : positions eq [e] r = if eq r e = true then [0] else [] := by
  unfold positions
  simp only [List.length_singleton, List.range_one, List.filter_cons, List.getElem?_cons_zero, Option.any_some, List.filter_nil]

theorem shiftUp_low (i : Nat) (s : List Nat) (h : ∀ x ∈ s, x < i) : shiftUp i s = s := by
  unfold shiftUp
  conv_rhs => rw [← List.map_id s]
  refine List.map_congr_left fun x hx => ?_
  have := h x hx
  rw [if_neg (by omega)]; rfl

theorem shiftDown_low (i : Nat) (s : List Nat) (h : ∀ x ∈ s, x < i) : shiftDown i s = s := by
  unfold shiftDown
  conv_rhs => rw [← List.map_id s]
  refine List.map_congr_left fun x hx => ?_
  have := h x hx
  rw [if_neg (by omega)]; rfl

theorem shiftUp_append (i : Nat) (s t : List Nat) : shiftUp i (s ++ t) = shiftUp i s ++ shiftUp i t := by simp [shiftUp]

theorem shiftDown_append (i : Nat) (s t : List Nat) : shiftDown i (s ++ t) = shiftDown i s ++ shiftDown i t := by simp [shiftDown]

theorem shiftUp_high (i : Nat) (s : List Nat) : shiftUp i (s.map (i + ·)) = s.map (i + 1 + ·) := by
  unfold shiftUp
  rw [List.map_map]
  refine List.map_congr_left fun x _ => ?_
  simp only [Function.comp, Nat.le_add_right, if_true]
  omega

theorem shiftDown_high (i : Nat) (s : List Nat) : shiftDown i (s.map (i + 1 + ·)) = s.map (i + ·) := by
  unfold shiftDown
  rw [List.map_map]
  refine List.map_congr_left fun x _ => ?_
  simp only [Function.comp]
  rw [if_pos (by omega)]
  omega

theorem cons_positions (e : E) (b : List E) (r : E) :
    positions eq (e :: b) r = (if eq r e = true then [0] else []) ++ (positions eq b r).map (1 + ·) := by
  have := positions_append eq [e] b r
  rw [positions_single] at this
  exact this

/-- Positions after inserting an edge. -/
theorem positions_insert (a b : List E) (e r : E) :
    positions eq (a ++ e :: b) r = if eq r e = true then insertSorted a.length (shiftUp a.length (positions eq (a ++ b) r))
      else shiftUp a.length (positions eq (a ++ b) r) := by
  have h1 : shiftUp a.length (positions eq (a ++ b) r) = positions eq a r ++ (positions eq b r).map (a.length + 1 + ·) := by
    rw [positions_append, shiftUp_append, shiftUp_low _ _ (positions_lt eq a r), shiftUp_high]
  rw [h1, positions_append, cons_positions, List.map_append, List.map_map]
  have e1 : ((fun x => a.length + x) ∘ fun x => 1 + x) = fun x => a.length + 1 + x := by funext x; simp [Nat.add_assoc]
  rw [e1]
  split
  · rw [insertSorted_mid _ _ _ (positions_lt eq a r)]
    · simp
    · intro y hy
      obtain ⟨x, _, rfl⟩ := List.mem_map.1 hy
      omega
  · simp

/-- Positions after erasing an edge. -/
theorem positions_erase (a b : List E) (e r : E) :
    shiftDown a.length ((positions eq (a ++ e :: b) r).erase a.length) = positions eq (a ++ b) r := by
  rw [positions_append, positions_append, cons_positions, List.map_append, List.map_map]
  have e1 : ((fun x => a.length + x) ∘ fun x => 1 + x) = fun x => a.length + 1 + x := by funext x; simp [Nat.add_assoc]
  have hn : a.length ∉ positions eq a r := fun h => absurd (positions_lt eq a r _ h) (by omega)
  rw [e1, List.erase_append_right _ hn]
  have h2 : ((if eq r e = true then [0] else []).map (a.length + ·) ++ (positions eq b r).map (a.length + 1 + ·)).erase a.length =
      (positions eq b r).map (a.length + 1 + ·) := by
    split
    · simp
    · simp only [List.map_nil, List.nil_append]
      refine List.erase_of_not_mem ?_
      intro h
      obtain ⟨x, _, hx⟩ := List.mem_map.1 h
      omega
  rw [h2, shiftDown_append, shiftDown_low _ _ (positions_lt eq a r), shiftDown_high]

variable {eq}

/-! ### Operations -/

theorem findGroup_none {groups : List (E × List Nat)} {edge : E} (h : findGroup eq groups edge = none) : ∀ g ∈ groups, eq g.1 edge = false := by
  unfold findGroup at h
  rw [List.findIdx?_eq_none_iff] at h
  intro g hg
  simpa using h g hg

theorem findGroup_some {groups : List (E × List Nat)} {edge : E} {j : Nat} (h : findGroup eq groups edge = some j) :
    ∃ g, groups[j]? = some g ∧ eq g.1 edge = true := by
  unfold findGroup at h
  obtain ⟨h1, h2, _⟩ := List.findIdx?_eq_some_iff_getElem.1 h
  exact ⟨groups[j], List.getElem?_eq_getElem h1, by simpa using h2⟩

/-- The groups after an edge is put at position `a.length`. -/
theorem addTo_groups (hq : IsEq eq) (a b : List E) (edge : E) (groups : List (E × List Nat)) (j : Option Nat)
    (hg : ∀ g ∈ groups, g.2 = shiftUp a.length (positions eq (a ++ b) g.1)) (hd : groups.Pairwise fun g h => eq g.1 h.1 = false)
    (hj : match j with | none => ∀ g ∈ groups, eq g.1 edge = false | some j => ∃ g, groups[j]? = some g ∧ eq g.1 edge = true)
    (hall : j = none → ∀ e ∈ a ++ b, eq edge e = false) :
    ∃ groups' j', addTo groups j a.length edge = some (groups', j') ∧ (∀ g ∈ groups', g.2 = positions eq (a ++ edge :: b) g.1) ∧
      (groups'.Pairwise fun g h => eq g.1 h.1 = false) ∧ (∃ g, groups'[j']? = some g ∧ eq g.1 edge = true) ∧
      (∀ (k : Nat) (g : E × List Nat), groups[k]? = some g → ∃ g' : E × List Nat, groups'[k]? = some g' ∧ g'.1 = g.1) ∧ groups.length ≤ groups'.length := by
  cases j with
  | none =>
    simp only at hj
    refine ⟨_, _, rfl, ?_, ?_, ⟨(edge, [a.length]), by simp, hq.refl _⟩, ?_, by simp⟩
    · intro g h
      rcases List.mem_append.1 h with h | h
      · rw [positions_insert, if_neg (by rw [hj g h]; simp)]
        exact hg g h
      · rw [List.mem_singleton] at h
        subst h
        have : positions eq (a ++ b) edge = [] := by
          rw [List.eq_nil_iff_forall_not_mem]
          intro i hi
          obtain ⟨e, h1, h2⟩ := (mem_positions eq).1 hi
          rw [hall rfl e (List.mem_of_getElem? h1)] at h2
          simp at h2
        rw [positions_insert, if_pos (hq.refl _), this]
        rfl
    · rw [List.pairwise_append]
      refine ⟨hd, by simp, ?_⟩
      intro g h g' h'
      rw [List.mem_singleton] at h'
      subst h'
      exact hj g h
    · intro k g hk
      refine ⟨g, ?_, rfl⟩
      obtain ⟨h1, h2⟩ := List.getElem?_eq_some_iff.1 hk
      rw [List.getElem?_append_left h1, hk]
  | some j =>
    simp only at hj
    obtain ⟨g, h1, h2⟩ := hj
    obtain ⟨hjl, hgj⟩ := List.getElem?_eq_some_iff.1 h1
    have hmem : g ∈ groups := List.mem_of_getElem? h1
    have hnew : a.length ∉ g.2 := by
      rw [hg g hmem]
      intro h
      rw [positions_append, shiftUp_append, shiftUp_low _ _ (positions_lt eq a g.1), shiftUp_high] at h
      rcases List.mem_append.1 h with h | h
      · exact absurd (positions_lt eq a g.1 _ h) (by omega)
      · obtain ⟨x, _, hx⟩ := List.mem_map.1 h
        omega
    refine ⟨groups.set j (g.1, insertSorted a.length g.2), j, ?_, ?_, ?_, ?_, ?_, by simp⟩
    · simp [addTo, h1, setInsert, hnew]
    · intro g' h'
      rw [List.mem_iff_getElem?] at h'
      obtain ⟨k, hk⟩ := h'
      rw [List.getElem?_set] at hk
      by_cases hkj : j = k
      · subst hkj
        rw [if_pos rfl, if_pos hjl, Option.some.injEq] at hk
        subst hk
        simp only
        rw [positions_insert, if_pos h2, ← hg g hmem]
      · rw [if_neg hkj] at hk
        have hmem' := List.mem_of_getElem? hk
        have hne : eq g'.1 edge = false := by
          by_contra hcon
          rw [Bool.not_eq_false] at hcon
          have h3 := hq.trans _ _ _ h2 (hq.symm _ _ hcon)
          have h4 := hq.symm _ _ h3
          obtain ⟨hkl, hgk⟩ := List.getElem?_eq_some_iff.1 hk
          rcases Nat.lt_or_gt_of_ne hkj with hlt | hlt
          · have := List.pairwise_iff_getElem.1 hd j k hjl hkl hlt
            rw [hgj, hgk, h3] at this
            simp at this
          · have := List.pairwise_iff_getElem.1 hd k j hkl hjl hlt
            rw [hgj, hgk, h4] at this
            simp at this
        rw [positions_insert, if_neg (by rw [hne]; simp)]
        exact hg g' hmem'
    · have e : ∀ k (h : k < (groups.set j (g.1, insertSorted a.length g.2)).length), ((groups.set j (g.1, insertSorted a.length g.2))[k]).1 =
          (groups[k]'(by simpa using h)).1 := by
        intro k h
        rw [List.getElem_set]
        split
        · rename_i hk
          subst hk
          rw [hgj]
        · rfl
      rw [List.pairwise_iff_getElem]
      intro k l hk hl hkl
      rw [e k hk, e l hl]
      exact List.pairwise_iff_getElem.1 hd k l _ _ hkl
    · exact ⟨(g.1, insertSorted a.length g.2), by simp [hjl], h2⟩
    · intro k g' hk
      rw [List.getElem?_set]
      by_cases hkj : j = k
      · subst hkj
        rw [if_pos rfl, if_pos hjl]
        rw [h1, Option.some.injEq] at hk
        subst hk
        exact ⟨_, rfl, rfl⟩
      · rw [if_neg hkj]
        exact ⟨g', hk, rfl⟩

theorem rep_all (hq : IsEq eq) {v : Vtx E} {edges : List E} (h : Rep eq v edges) {edge : E} (hn : ∀ g ∈ v.groups, eq g.1 edge = false) :
    ∀ e ∈ edges, eq edge e = false := by
  intro e he
  obtain ⟨i, hi⟩ := List.mem_iff_getElem?.1 he
  obtain ⟨hil, -⟩ := List.getElem?_eq_some_iff.1 hi
  obtain ⟨g, e', h1, h2, h3⟩ := h.mem i _ (List.getElem?_eq_getElem (by rw [h.length]; exact hil))
  rw [hi, Option.some.injEq] at h2
  subst h2
  by_contra hcon
  rw [Bool.not_eq_false] at hcon
  have := hn g (List.mem_of_getElem? h1)
  rw [hq.trans _ _ _ h3 (hq.symm _ _ hcon)] at this
  simp at this

/-- Puts an edge into a vertex. -/
theorem add_rep (hq : IsEq eq) {v : Vtx E} {a b : List E} (h : Rep eq v (a ++ b)) (edge : E) (groups : List (E × List Nat))
    (hgr : groups = v.groups.map fun g => (g.1, shiftUp a.length g.2)) :
    ∃ groups' j, addTo groups (findGroup eq v.groups edge) a.length edge = some (groups', j) ∧
      Rep eq ⟨v.toGroup.insertIdx a.length j, groups'⟩ (a ++ edge :: b) := by
  have hgm : ∀ g ∈ groups, ∃ g0 ∈ v.groups, g = (g0.1, shiftUp a.length g0.2) := by
    intro g hg
    rw [hgr] at hg
    obtain ⟨g0, h1, h2⟩ := List.mem_map.1 hg
    exact ⟨g0, h1, h2.symm⟩
  obtain ⟨groups', j, h1, h2, h3, h4, h5, h6⟩ := addTo_groups hq a b edge groups (findGroup eq v.groups edge)
    (by
      intro g hg
      obtain ⟨g0, h0, rfl⟩ := hgm g hg
      simp only
      rw [h.group g0 h0])
    (by
      rw [hgr, List.pairwise_map]
      exact h.distinct)
    (by
      cases hf : findGroup eq v.groups edge with
      | none =>
        intro g hg
        obtain ⟨g0, h0, rfl⟩ := hgm g hg
        exact findGroup_none hf g0 h0
      | some j =>
        obtain ⟨g, hg1, hg2⟩ := findGroup_some hf
        exact ⟨(g.1, shiftUp a.length g.2), by rw [hgr, List.getElem?_map, hg1]; rfl, hg2⟩)
    (fun hf => rep_all hq h (findGroup_none hf))
  refine ⟨groups', j, h1, ?_⟩
  have hlen : a.length ≤ v.toGroup.length := by rw [h.length]; simp
  constructor
  · rw [List.length_insertIdx_of_le_length hlen, h.length]
    simp; omega
  · intro i k hi
    simp only at hi ⊢
    rw [List.getElem?_insertIdx] at hi
    rcases Nat.lt_trichotomy i a.length with hlt | heq | hgt
    · rw [if_pos hlt] at hi
      obtain ⟨g, e, g1, g2, g3⟩ := h.mem i k hi
      obtain ⟨g', g4, g5⟩ := h5 k (g.1, shiftUp a.length g.2) (by rw [hgr, List.getElem?_map, g1]; rfl)
      refine ⟨g', e, g4, ?_, by rw [g5]; exact g3⟩
      rw [List.getElem?_append_left hlt] at g2 ⊢
      exact g2
    · subst heq
      rw [if_neg (by omega), if_pos rfl, if_pos hlen, Option.some.injEq] at hi
      subst hi
      obtain ⟨g, g1, g2⟩ := h4
      exact ⟨g, edge, g1, by simp, g2⟩
    · rw [if_neg (by omega), if_neg (by omega)] at hi
      obtain ⟨g, e, g1, g2, g3⟩ := h.mem (i - 1) k hi
      obtain ⟨g', g4, g5⟩ := h5 k (g.1, shiftUp a.length g.2) (by rw [hgr, List.getElem?_map, g1]; rfl)
      refine ⟨g', e, g4, ?_, by rw [g5]; exact g3⟩
      rw [List.getElem?_append_right (by omega)] at g2 ⊢
      obtain ⟨d, rfl⟩ : ∃ d, i = a.length + 1 + d := ⟨i - a.length - 1, by omega⟩
      have e1 : a.length + 1 + d - a.length = d + 1 := by omega
      have e2 : a.length + 1 + d - 1 - a.length = d := by omega
      rw [e1, List.getElem?_cons_succ]
      rw [e2] at g2
      exact g2
  · exact h2
  · exact h3

theorem insertIdx_mid (a b : List E) (e : E) : (a ++ b).insertIdx a.length e = a ++ e :: b := by
  induction a with
  | nil => simp
  | cons x a ih => simp [ih]

theorem insert_rep (hq : IsEq eq) {v : Vtx E} {edges : List E} (h : Rep eq v edges) (i : Nat) (hi : i ≤ edges.length) (edge : E) :
    ∃ v', insert eq v i edge = some v' ∧ Rep eq v' (edges.insertIdx i edge) := by
  obtain ⟨a, b, rfl, hai⟩ : ∃ a b, edges = a ++ b ∧ a.length = i :=
    ⟨edges.take i, edges.drop i, by simp, by simp [hi]⟩
  subst hai
  have hlow : ¬ a.length < v.toGroup.length → v.groups = v.groups.map fun g => (g.1, shiftUp a.length g.2) := by
    intro hlt
    conv_lhs => rw [← List.map_id v.groups]
    refine List.map_congr_left fun g hg => ?_
    rw [shiftUp_low]
    · rfl
    · intro x hx
      rw [h.group g hg] at hx
      have := positions_lt eq _ _ x hx
      rw [h.length] at hlt
      omega
  obtain ⟨groups', j, h1, h2⟩ := add_rep hq h edge (if a.length < v.toGroup.length then v.groups.map fun g => (g.1, shiftUp a.length g.2) else v.groups)
    (by
      split
      · rfl
      · exact hlow (by assumption))
  refine ⟨⟨v.toGroup.insertIdx a.length j, groups'⟩, ?_, ?_⟩
  · unfold insert
    rw [if_neg (by rw [h.length]; omega)]
    simp only [h1, Option.map_some]
  · rw [insertIdx_mid]
    exact h2

theorem insert_throws {v : Vtx E} {edges : List E} (h : Rep eq v edges) (i : Nat) (hi : edges.length < i) (edge : E) : insert eq v i edge = none := by
  unfold insert
  rw [if_pos (by rw [h.length]; exact hi)]

theorem rep_empty : Rep eq (⟨[], []⟩ : Vtx E) [] := ⟨rfl, by simp, by simp, List.Pairwise.nil⟩

theorem append_eq_insert {v : Vtx E} (edge : E) : append eq v edge = insert eq v v.toGroup.length edge := by
  unfold append insert
  rw [if_neg (by omega)]
  simp only [if_neg (Nat.lt_irrefl _)]
  congr 1
  funext p
  rw [List.insertIdx_length_self]

/-- **C58** The constructor groups the edges. -/
theorem make_rep (hq : IsEq eq) (edges : List E) : ∃ v, make eq edges = some v ∧ Rep eq v edges := by
  have gen : ∀ (l pre : List E) (v : Vtx E), Rep eq v pre → ∃ v', l.foldlM (append eq) v = some v' ∧ Rep eq v' (pre ++ l) := by
    intro l
    induction l with
    | nil => intro pre v h; exact ⟨v, rfl, by simpa using h⟩
    | cons e l ih =>
      intro pre v h
      obtain ⟨v1, h1, h2⟩ := insert_rep hq h pre.length (Nat.le_refl _) e
      rw [← h.length, ← append_eq_insert] at h1
      have h3 : pre.insertIdx pre.length e = pre ++ [e] := by
        have := insertIdx_mid pre [] e
        rwa [List.append_nil] at this
      rw [h3] at h2
      obtain ⟨v2, h4, h5⟩ := ih (pre ++ [e]) v1 h2
      refine ⟨v2, ?_, by simpa using h5⟩
      rw [List.foldlM_cons, h1]
      exact h4
  exact gen edges [] ⟨[], []⟩ rep_empty

/-- The group of an edge: all edges of its kind. -/
theorem rep_group (hq : IsEq eq) {v : Vtx E} {edges : List E} (h : Rep eq v edges) {i : Nat} {e : E} (hi : edges[i]? = some e) :
    ∃ r, eq r e = true ∧ v.group i = some (r, positions eq edges e) := by
  obtain ⟨hil, -⟩ := List.getElem?_eq_some_iff.1 hi
  have hj := List.getElem?_eq_getElem (l := v.toGroup) (i := i) (by rw [h.length]; exact hil)
  obtain ⟨g, e', h1, h2, h3⟩ := h.mem i _ hj
  rw [hi, Option.some.injEq] at h2
  subst h2
  refine ⟨g.1, h3, ?_⟩
  unfold Vtx.group
  rw [hj]
  simp only [h1, Option.some.injEq]
  refine Prod.ext rfl ?_
  rw [h.group g (List.mem_of_getElem? h1)]
  unfold positions
  refine List.filter_congr fun k _ => ?_
  cases edges[k]? with
  | none => rfl
  | some x =>
    simp only [Option.any_some]
    rw [Bool.eq_iff_iff]
    exact ⟨fun hx => hq.trans _ _ _ (hq.symm _ _ h3) hx, fun hx => hq.trans _ _ _ h3 hx⟩

/-- `group_size` counts the edges of the kind. -/
theorem rep_groupSize (hq : IsEq eq) {v : Vtx E} {edges : List E} (h : Rep eq v edges) {i : Nat} {e : E} (hi : edges[i]? = some e) :
    v.groupSize i = some (edges.countP (eq e)) := by
  obtain ⟨r, h1, h2⟩ := rep_group hq h hi
  have hlen : (positions eq edges e).length = edges.countP (eq e) := by
    have gen : ∀ l : List E, (positions eq l e).length = l.countP (eq e) := by
      intro l
      induction l with
      | nil => rfl
      | cons x l ih =>
        rw [cons_positions, List.length_append, List.length_map, ih, List.countP_cons]
        split <;> simp
        omega
    exact gen edges
  have hpos : 0 < edges.countP (eq e) := by
    rw [List.countP_pos_iff]
    exact ⟨e, List.mem_of_getElem? hi, hq.refl e⟩
  unfold Vtx.groupSize
  rw [h2]
  simp only [hlen, hpos, if_true]

theorem rep_out {v : Vtx E} {edges : List E} (h : Rep eq v edges) {i : Nat} (hi : edges.length ≤ i) :
    v.group i = none ∧ v.groupSize i = none := by
  have : v.toGroup[i]? = none := by rw [List.getElem?_eq_none_iff, h.length]; exact hi
  simp [Vtx.groupSize, Vtx.group, this]

/-- **C58** Erasing an edge. -/
theorem erase_rep (hq : IsEq eq) {v : Vtx E} {edges : List E} (h : Rep eq v edges) {i : Nat} {e : E} (hi : edges[i]? = some e) (edge : E)
    (he : eq e edge = true) : ∃ v', erase eq v i edge = some v' ∧ Rep eq v' (edges.eraseIdx i) := by
  obtain ⟨hil, hie⟩ := List.getElem?_eq_some_iff.1 hi
  obtain ⟨a, b, hab, hai⟩ : ∃ a b, edges = a ++ e :: b ∧ a.length = i := by
    refine ⟨edges.take i, edges.drop (i + 1), ?_, by simp; omega⟩
    rw [← hie]
    simp
  subst hai hab
  have hj := List.getElem?_eq_getElem (l := v.toGroup) (i := a.length) (by rw [h.length]; exact hil)
  obtain ⟨g, e', h1, h2, h3⟩ := h.mem a.length _ hj
  rw [hi, Option.some.injEq] at h2
  subst h2
  obtain ⟨hjl, hgj⟩ := List.getElem?_eq_some_iff.1 h1
  generalize v.toGroup[a.length]'(by rw [h.length]; exact hil) = j at *
  have hmem : g ∈ v.groups := List.mem_of_getElem? h1
  have hge : eq g.1 edge = true := hq.trans _ _ _ h3 he
  have hin : a.length ∈ g.2 := by
    rw [h.group g hmem, mem_positions]
    exact ⟨e, hi, h3⟩
  have hfind : (findGroup eq v.groups edge).isNone = false := by
    cases hf : findGroup eq v.groups edge with
    | some _ => rfl
    | none =>
      have := findGroup_none hf g hmem
      rw [hge] at this
      simp at this
  -- the groups before the shift
  have hset : v.groups.set j (g.1, g.2.erase a.length) = v.groups.map fun g => (g.1, g.2.erase a.length) := by
    apply List.ext_getElem (by simp)
    intro k hk1 hk2
    rw [List.getElem_set, List.getElem_map]
    split
    · rename_i hk
      subst hk
      rw [hgj]
    · rename_i hk
      have hkl : k < v.groups.length := by simpa using hk2
      have hni : a.length ∉ v.groups[k].2 := by
        rw [h.group _ (List.getElem_mem hkl), mem_positions]
        rintro ⟨x, hx1, hx2⟩
        rw [hi, Option.some.injEq] at hx1
        subst hx1
        rcases Nat.lt_or_gt_of_ne hk with hlt | hlt
        · have := List.pairwise_iff_getElem.1 h.distinct j k hjl hkl hlt
          rw [hgj, hq.trans _ _ _ h3 (hq.symm _ _ hx2)] at this
          simp at this
        · have := List.pairwise_iff_getElem.1 h.distinct k j hkl hjl hlt
          rw [hgj, hq.trans _ _ _ hx2 (hq.symm _ _ h3)] at this
          simp at this
      rw [List.erase_of_not_mem hni]
  have hpos : ((v.groups.map fun g => (g.1, g.2.erase a.length)).any fun g => g.2.any fun e => decide (a.length ≤ e) && decide (e = 0)) = false := by
    rw [List.any_eq_false]
    intro g' hg'
    obtain ⟨g0, h0, rfl⟩ := List.mem_map.1 hg'
    simp only [Bool.not_eq_true]
    rw [List.any_eq_false]
    intro x hx
    have hnd : g0.2.Nodup := by
      rw [h.group g0 h0]
      exact List.nodup_range.filter _
    have hxa : x ≠ a.length := by
      rintro rfl
      exact (hnd.mem_erase_iff.1 hx).1 rfl
    simp
    omega
  refine ⟨⟨v.toGroup.eraseIdx a.length, (v.groups.map fun g => (g.1, g.2.erase a.length)).map fun g => (g.1, shiftDown a.length g.2)⟩, ?_, ?_⟩
  · unfold erase
    rw [hj]
    simp only [h1, hfind, hin, hge, hset, hpos, Bool.false_eq_true, if_false, not_true_eq_false, reduceCtorEq]
  · have herase : (a ++ e :: b).eraseIdx a.length = a ++ b := by
      rw [List.eraseIdx_append_of_length_le (Nat.le_refl _)]
      simp
    rw [herase]
    constructor
    · have := h.length
      rw [List.length_eraseIdx, if_pos (by rw [this]; exact hil), this]
      simp
    · intro i k hik
      simp only at hik ⊢
      rw [List.getElem?_eraseIdx] at hik
      have hmap : ∀ (k : Nat) (g : E × List Nat), v.groups[k]? = some g → ((v.groups.map fun g => (g.1, g.2.erase a.length)).map fun g => (g.1, shiftDown a.length g.2))[k]? =
          some (g.1, shiftDown a.length (g.2.erase a.length)) := by
        intro k g hk
        simp [hk]
      split at hik
      · rename_i hlt
        obtain ⟨g', x, x1, x2, x3⟩ := h.mem i k hik
        refine ⟨_, x, hmap k g' x1, ?_, x3⟩
        rw [List.getElem?_append_left hlt] at x2 ⊢
        exact x2
      · rename_i hlt
        obtain ⟨g', x, x1, x2, x3⟩ := h.mem (i + 1) k hik
        refine ⟨_, x, hmap k g' x1, ?_, x3⟩
        rw [List.getElem?_append_right (by omega)] at x2 ⊢
        have e1 : i + 1 - a.length = (i - a.length) + 1 := by omega
        rw [e1, List.getElem?_cons_succ] at x2
        exact x2
    · intro g' hg'
      simp only [List.map_map, List.mem_map, Function.comp] at hg'
      obtain ⟨g0, h0, rfl⟩ := hg'
      simp only
      rw [h.group g0 h0, positions_erase]
    · simp only [List.map_map]
      rw [List.pairwise_map]
      exact h.distinct

/-- Erasing what is not there fails. -/
theorem erase_fails (hq : IsEq eq) {v : Vtx E} {edges : List E} (h : Rep eq v edges) {i : Nat} (edge : E)
    (he : ∀ e, edges[i]? = some e → eq e edge = false) : erase eq v i edge = none := by
  unfold erase
  split
  · rfl
  · rename_i j hj
    obtain ⟨g, e, h1, h2, h3⟩ := h.mem i j hj
    have hge : eq g.1 edge = false := by
      by_contra hcon
      rw [Bool.not_eq_false] at hcon
      have := he e h2
      rw [hq.trans _ _ _ (hq.symm _ _ h3) hcon] at this
      simp at this
    simp only [h1, hge, if_true]
    split
    · rfl
    · split <;> rfl

/-! ### Numbers of groups -/

theorem foldl_count {α : Type} (p : α → Bool) (l : List α) (n : Nat) :
    l.foldl (fun n g => n + if p g then 0 else 1) n = n + l.countP (fun g => !p g) := by
  induction l generalizing n with
  | nil => rfl
  | cons x l ih =>
    rw [List.foldl_cons, ih, List.countP_cons]
    cases p x <;> simp
    omega

variable (eq) in
/-- The kinds of edges: one edge of each. -/
def kinds : List E → List E
  | [] => []
  | e :: l => e :: (kinds l).filter fun x => !eq e x

theorem mem_kinds (hq : IsEq eq) (l : List E) : ∀ e ∈ l, ∃ r ∈ kinds eq l, eq r e = true := by
  induction l with
  | nil => simp
  | cons x l ih =>
    intro e he
    by_cases hx : eq x e = true
    · exact ⟨x, by simp [kinds], hx⟩
    · rcases List.mem_cons.1 he with rfl | he
      · exact absurd (hq.refl _) hx
      · obtain ⟨r, h1, h2⟩ := ih e he
        refine ⟨r, ?_, h2⟩
        simp only [kinds, List.mem_cons, List.mem_filter, Bool.not_eq_true']
        right
        refine ⟨h1, ?_⟩
        by_contra hcon
        rw [Bool.not_eq_false] at hcon
        exact hx (hq.trans _ _ _ hcon h2)

theorem kinds_sub (l : List E) : ∀ e ∈ kinds eq l, e ∈ l := by
  induction l with
  | nil => simp [kinds]
  | cons x l ih =>
    intro e he
    simp only [kinds, List.mem_cons, List.mem_filter] at he
    rcases he with rfl | ⟨h, _⟩
    · simp
    · exact List.mem_cons_of_mem _ (ih e h)

theorem kinds_distinct (l : List E) : (kinds eq l).Pairwise fun a b => eq a b = false := by
  induction l with
  | nil => exact List.Pairwise.nil
  | cons x l ih =>
    rw [kinds, List.pairwise_cons]
    refine ⟨?_, ih.filter _⟩
    intro e he
    simpa using (List.mem_filter.1 he).2

/-- Lists of inequivalent elements in which every element of the one has its like in the other have the same length. -/
theorem length_le (hq : IsEq eq) : ∀ (a b : List E), (a.Pairwise fun x y => eq x y = false) →
    (∀ x ∈ a, ∃ y ∈ b, eq x y = true) → a.length ≤ b.length := by
  intro a
  induction a with
  | nil => simp
  | cons x a ih =>
    intro b ha hb
    rw [List.pairwise_cons] at ha
    obtain ⟨y, hy, hxy⟩ := hb x (by simp)
    obtain ⟨b1, b2, rfl⟩ := List.append_of_mem hy
    have := ih (b1 ++ b2) ha.2 ?_
    · simp at this ⊢; omega
    · intro z hz
      obtain ⟨w, hw, hzw⟩ := hb z (by simp [hz])
      refine ⟨w, ?_, hzw⟩
      have hne : w ≠ y := by
        rintro rfl
        have := ha.1 z hz
        rw [hq.trans _ _ _ hxy (hq.symm _ _ hzw)] at this
        simp at this
      simp only [List.mem_append, List.mem_cons] at hw ⊢
      tauto

/-- **C58** `num_nonempty_groups` is the number of kinds of edges. -/
theorem rep_numNonempty (hq : IsEq eq) {v : Vtx E} {edges : List E} (h : Rep eq v edges) : v.numNonempty = (kinds eq edges).length := by
  unfold Vtx.numNonempty
  rw [foldl_count (fun g : E × List Nat => g.2.isEmpty), Nat.zero_add, List.countP_eq_length_filter]
  have hd : ((v.groups.filter fun g => !g.2.isEmpty).map Prod.fst).Pairwise fun a b => eq a b = false := by
    rw [List.pairwise_map]
    exact h.distinct.filter _
  have hlen : (v.groups.filter fun g => !g.2.isEmpty).length = ((v.groups.filter fun g => !g.2.isEmpty).map Prod.fst).length := by simp
  rw [hlen]
  apply Nat.le_antisymm
  · refine length_le hq _ _ hd ?_
    intro x hx
    obtain ⟨g, hg, rfl⟩ := List.mem_map.1 hx
    obtain ⟨hg1, hg2⟩ := List.mem_filter.1 hg
    rw [h.group g hg1] at hg2
    obtain ⟨i, hi⟩ : ∃ i, i ∈ positions eq edges g.1 := by
      cases hp : positions eq edges g.1 with
      | nil => rw [hp] at hg2; simp at hg2
      | cons i _ => exact ⟨i, by simp⟩
    obtain ⟨e, he1, he2⟩ := (mem_positions eq).1 hi
    obtain ⟨r, hr1, hr2⟩ := mem_kinds hq edges e (List.mem_of_getElem? he1)
    exact ⟨r, hr1, hq.trans _ _ _ he2 (hq.symm _ _ hr2)⟩
  · refine length_le hq _ _ (kinds_distinct edges) ?_
    intro x hx
    obtain ⟨i, hi⟩ := List.mem_iff_getElem?.1 (kinds_sub edges x hx)
    obtain ⟨r, h1, h2⟩ := rep_group hq h hi
    unfold Vtx.group at h2
    split at h2
    · simp at h2
    · rename_i j hj
      refine ⟨r, ?_, hq.symm _ _ h1⟩
      rw [List.mem_map]
      refine ⟨_, List.mem_filter.2 ⟨List.mem_of_getElem? h2, ?_⟩, rfl⟩
      have : i ∈ positions eq edges x := (mem_positions eq).2 ⟨x, hi, hq.refl x⟩
      cases hp : positions eq edges x with
      | nil => rw [hp] at this; simp at this
      | cons _ _ => rfl

/-! ### Histories -/

/-- Changes of a vertex. -/
inductive Cmd (E : Type) where
  | erase (i : Nat) (edge : E)
  | insert (i : Nat) (edge : E)

variable (eq) in
def Cmd.run (v : Vtx E) : Cmd E → Option (Vtx E)
  | .erase i e => Vertices.erase eq v i e
  | .insert i e => Vertices.insert eq v i e

variable (eq) in
/-- The same on the list of edges. -/
def Cmd.spec (l : List E) : Cmd E → Option (List E)
  | .erase i e => if (l[i]?).any (fun x => eq x e) then some (l.eraseIdx i) else none
  | .insert i e => if i ≤ l.length then some (l.insertIdx i e) else none

/-- **C58** After every history the vertex represents the edges that are left; a history fails exactly if an edge is erased that is not there or
inserted beyond the end. -/
theorem history_rep (hq : IsEq eq) (edges : List E) (cs : List (Cmd E)) :
    match (make eq edges).bind fun v => cs.foldlM (Cmd.run eq) v, cs.foldlM (Cmd.spec eq) edges with
    | some v, some l => Rep eq v l
    | none, none => True
    | _, _ => False := by
  obtain ⟨v, h1, h2⟩ := make_rep hq edges
  rw [h1]
  simp only [Option.bind_some]
  clear h1
  induction cs generalizing v edges with
  | nil => exact h2
  | cons c cs ih =>
    rw [List.foldlM_cons, List.foldlM_cons]
    cases c with
    | erase i e =>
      simp only [Cmd.run, Cmd.spec]
      by_cases hi : (edges[i]?).any (fun x => eq x e) = true
      · rw [if_pos hi]
        cases hx : edges[i]? with
        | none => rw [hx] at hi; simp at hi
        | some x =>
          rw [hx] at hi
          obtain ⟨v', h3, h4⟩ := erase_rep hq h2 hx e (by simpa using hi)
          rw [h3]
          exact ih _ _ h4
      · rw [if_neg hi, erase_fails hq h2 e]
        · trivial
        · intro x hx
          rw [hx] at hi
          simpa using hi
    | insert i e =>
      simp only [Cmd.run, Cmd.spec]
      by_cases hi : i ≤ edges.length
      · rw [if_pos hi]
        obtain ⟨v', h3, h4⟩ := insert_rep hq h2 i hi e
        rw [h3]
        exact ih _ _ h4
      · rw [if_neg hi, insert_throws h2 i (by omega)]
        trivial

def parity (a b : Nat) : Bool := a % 2 == b % 2

/-- Numbers up to parity; the even ones are erased, an empty group stays. -/
example : ((make parity [3, 5, 4, 7]).bind fun v => [Cmd.insert 1 8, .erase 3 6, .erase 1 8].foldlM (Cmd.run parity) v) =
      some ⟨[0, 0, 0], [(3, [0, 1, 2]), (4, [])]⟩ ∧
    (⟨[0, 0, 0], [(3, [0, 1, 2]), (4, [])]⟩ : Vtx Nat).numNonempty = 1 ∧ kinds parity [3, 5, 7] = [3] := ⟨rfl, rfl, rfl⟩

end SeQuant.Vertices
