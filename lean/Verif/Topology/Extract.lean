import Verif.Topology.Orbits

/-!
# The partitions handed to `set_op_partitions` (C104)
-/

namespace SeQuant.Topology

open Relation

theorem lookup_of_mem {l : List (Nat × Nat)} (hnd : (l.map Prod.fst).Nodup) {v p : Nat} (h : (v, p) ∈ l) : l.lookup v = some p := by
  induction l with
  | nil => simp at h
  | cons a l ih =>
    obtain ⟨k, q⟩ := a
    simp only [List.map_cons, List.nodup_cons] at hnd
    rcases List.mem_cons.1 h with h | h
    · simp only [Prod.mk.injEq] at h
      obtain ⟨rfl, rfl⟩ := h
      simp
    · have hne : v ≠ k := fun e => hnd.1 (e ▸ List.mem_map.2 ⟨_, h, rfl⟩)
      rw [List.lookup_cons, beq_false_of_ne hne]
      exact ih hnd.2 h

theorem mem_of_lookup {l : List (Nat × Nat)} {v p : Nat} (h : l.lookup v = some p) : (v, p) ∈ l := by
  induction l with
  | nil => simp at h
  | cons a l ih =>
    obtain ⟨k, q⟩ := a
    rw [List.lookup_cons] at h
    by_cases hv : v = k
    · subst hv
      simp only [BEq.rfl, Option.some.injEq] at h
      subst h
      simp
    · rw [beq_false_of_ne hv] at h
      exact List.mem_cons_of_mem _ (ih h)

/-- The list made for one partition index. -/
def block (s : UnionState) (ord : Nat → Nat) (p : Nat) : List Nat :=
  ((s.idx.filter fun v => decide (v.2 = p)).map fun v => ord v.1).insertionSort (· ≤ ·)

theorem block_mem (s : UnionState) (ord : Nat → Nat) (p x : Nat) : x ∈ block s ord p ↔ ∃ v, (v, p) ∈ s.idx ∧ ord v = x := by
  rw [block, (List.perm_insertionSort _ _).mem_iff]
  simp only [List.mem_map, List.mem_filter, decide_eq_true_eq, Prod.exists]
  constructor
  · rintro ⟨v, q, ⟨h, rfl⟩, h'⟩; exact ⟨v, h, h'⟩
  · rintro ⟨v, h, h'⟩; exact ⟨v, p, ⟨h, rfl⟩, h'⟩

theorem extract_mem (s : UnionState) (ord : Nat → Nat) (l : List Nat) :
    l ∈ extractPartitions s ord ↔ l ≠ [] ∧ ∃ p ≤ s.next, l = block s ord p := by
  rw [extractPartitions, (List.perm_insertionSort _ _).mem_iff, List.mem_filter, List.mem_map]
  simp only [List.mem_range, Nat.lt_succ_iff]
  constructor
  · rintro ⟨⟨p, hp, rfl⟩, h⟩
    exact ⟨by simpa using h, p, hp, rfl⟩
  · rintro ⟨h, p, hp, rfl⟩
    exact ⟨⟨p, hp, rfl⟩, by simpa using h⟩

/-- What the index map has to satisfy for the partitions to be proper. -/
structure IdxOk (s : UnionState) (ord : Nat → Nat) : Prop where
  nodup : (s.idx.map Prod.fst).Nodup
  lt : ∀ v p, s.idx.lookup v = some p → p < s.next
  inj : ∀ v w, (s.idx.lookup v).isSome → (s.idx.lookup w).isSome → ord v = ord w → v = w

theorem block_nodup {s : UnionState} {ord : Nat → Nat} (h : IdxOk s ord) (p : Nat) : (block s ord p).Pairwise (· < ·) := by
  have hs : (block s ord p).Pairwise (· ≤ ·) := List.pairwise_insertionSort _ _
  have hn : (block s ord p).Nodup := by
    rw [block, (List.perm_insertionSort _ _).nodup_iff]
    have h1 : (s.idx.filter fun v => decide (v.2 = p)).Nodup := (List.Nodup.of_map _ h.nodup).filter _
    refine List.Nodup.map_on ?_ h1
    rintro ⟨a, pa⟩ ha ⟨b, pb⟩ hb e
    simp only [List.mem_filter, decide_eq_true_eq] at ha hb
    obtain ⟨ha, rfl⟩ := ha
    obtain ⟨hb, rfl⟩ := hb
    have := h.inj a b (by rw [lookup_of_mem h.nodup ha]; rfl) (by rw [lookup_of_mem h.nodup hb]; rfl) e
    rw [this]
  exact (hs.and hn).imp fun h => lt_of_le_of_ne h.1 h.2

/-- Two lists for different indices have no common member. -/
theorem block_disjoint {s : UnionState} {ord : Nat → Nat} (h : IdxOk s ord) {p q : Nat} (hpq : p ≠ q) :
    ∀ x ∈ block s ord p, x ∉ block s ord q := by
  intro x hx hx'
  obtain ⟨v, hv, rfl⟩ := (block_mem _ _ _ _).1 hx
  obtain ⟨w, hw, e⟩ := (block_mem _ _ _ _).1 hx'
  have h1 := lookup_of_mem h.nodup hv
  have h2 := lookup_of_mem h.nodup hw
  have := h.inj w v (by rw [h2]; rfl) (by rw [h1]; rfl) e
  subst this
  rw [h1, Option.some.injEq] at h2
  exact hpq h2

theorem extract_sorted (s : UnionState) (ord : Nat → Nat) : (extractPartitions s ord).Pairwise fun x y => front x ≤ front y := by
  have : Std.Total (fun x y : List Nat => front x ≤ front y) := ⟨fun a b => Nat.le_total _ _⟩
  have : IsTrans (List Nat) (fun x y : List Nat => front x ≤ front y) := ⟨fun a b c => Nat.le_trans⟩
  exact List.pairwise_insertionSort _ _

theorem extract_disjoint {s : UnionState} {ord : Nat → Nat} (h : IdxOk s ord) :
    (extractPartitions s ord).Pairwise fun p q => ∀ x ∈ p, x ∉ q := by
  rw [extractPartitions, (List.perm_insertionSort _ _).pairwise_iff (by intro a b h x hx hx'; exact h x hx' hx)]
  apply List.Pairwise.filter
  rw [List.pairwise_map]
  exact List.nodup_range.imp fun hpq => block_disjoint h hpq

theorem toSet_of_sorted {l : List Nat} (h : l.Pairwise (· < ·)) : toSet l = l :=
  eq_of_sorted (toSet_sorted l) h (toSet_mem l)

/-- **C104.** From the automorphisms to the partitions used by the reduction: when the automorphisms stay within the listed vertices and
distinct vertices stand for distinct existing operators, `set_op_partitions` accepts what `extract_partitions` produces, and two operators
end up in the same partition exactly when automorphisms link them.  Operators of no listed vertex are in partitions of their own. -/
theorem partitions_linked (n : Nat) (exclude : Nat → Nat → Bool) (vertices : List Nat) (auts : List (Nat → Nat)) (ord : Nat → Nat)
    (hauts : ∀ aut ∈ auts, ∀ v ∈ vertices, exclude v (aut v) = false → aut v ∈ vertices)
    (hord : ∀ v ∈ vertices, ord v < n) (hinj : ∀ v ∈ vertices, ∀ w ∈ vertices, ord v = ord w → v = w) :
    ∃ P, setOpPartitions n (extractPartitions (computePartitions exclude vertices auts) ord) = some P ∧ P.WF n ∧
      (∀ v ∈ vertices, ∀ w ∈ vertices, P.part (ord v) = P.part (ord w) ↔ Linked exclude vertices auts v w) ∧
      ∀ x < n, (∀ v ∈ vertices, ord v ≠ x) → ∀ y < n, P.part x = P.part y → x = y := by
  set s := computePartitions exclude vertices auts with hs
  have huf := computePartitions_uf exclude vertices auts
  rw [← hs] at huf
  have hdom : ∀ v, (s.idx.lookup v).isSome ↔ v ∈ vertices := computePartitions_domain exclude vertices auts hauts
  have hok : IdxOk s ord := ⟨huf.nodup, huf.lt, fun v w hv hw e => hinj v ((hdom v).1 hv) w ((hdom w).1 hw) e⟩
  have hin : ∀ l ∈ extractPartitions s ord, l ≠ [] ∧ l.Pairwise (· < ·) ∧ ∀ x ∈ l, ∃ v ∈ vertices, ord v = x := by
    intro l hl
    obtain ⟨h1, p, _, rfl⟩ := (extract_mem s ord l).1 hl
    refine ⟨h1, block_nodup hok p, fun x hx => ?_⟩
    obtain ⟨v, hv, rfl⟩ := (block_mem _ _ _ _).1 hx
    exact ⟨v, (hdom v).1 (by rw [lookup_of_mem huf.nodup hv]; rfl), rfl⟩
  have hself : (extractPartitions s ord).map toSet = extractPartitions s ord := by
    conv_rhs => rw [← List.map_id (extractPartitions s ord)]
    exact List.map_congr_left fun l hl => toSet_of_sorted (hin l hl).2.1
  obtain ⟨P, hP, hparts⟩ := setOpPartitions_complete n (extractPartitions s ord) (fun p hp => (hin p hp).1)
    (fun p hp x hx => by
      obtain ⟨v, hv, rfl⟩ := (hin p hp).2.2 x hx
      exact hord v hv)
    (extract_disjoint hok) (by rw [hself]; exact extract_sorted s ord)
  have hwf := setOpPartitions_wf n _ P hP
  have hsame : ∀ x < n, ∀ y < n, P.part x = P.part y ↔ ∃ l ∈ P.parts, x ∈ l ∧ y ∈ l := by
    intro x hx y hy
    constructor
    · intro e
      have hlt := hwf.lt x hx
      refine ⟨P.parts.getD (P.part x) [], getD_mem_of_lt hlt, ?_, ?_⟩
      · rw [hwf.members _ hlt]; simp [hx]
      · rw [hwf.members _ hlt]; simp [hy, e]
    · rintro ⟨l, hl, h1, h2⟩
      obtain ⟨i, hi, rfl⟩ := List.getElem_of_mem hl
      rw [← List.getD_eq_getElem _ [] hi, hwf.members i hi] at h1 h2
      simp only [List.mem_filter, decide_eq_true_eq] at h1 h2
      rw [h1.2, h2.2]
  refine ⟨P, hP, hwf, fun v hv w hw => ?_, fun x hx hxv y hy e => ?_⟩
  · rw [hsame _ (hord v hv) _ (hord w hw)]
    rw [← computePartitions_linked exclude vertices auts v w hv hw, ← hs]
    obtain ⟨p, hp⟩ := Option.isSome_iff_exists.1 ((hdom v).2 hv)
    obtain ⟨q, hq⟩ := Option.isSome_iff_exists.1 ((hdom w).2 hw)
    constructor
    · rintro ⟨l, hl, h1, h2⟩
      rcases (hparts l).1 hl with ⟨m, hm, rfl⟩ | ⟨x, hx, hno, rfl⟩
      · rw [toSet_mem] at h1 h2
        obtain ⟨_, r, _, rfl⟩ := (extract_mem s ord m).1 hm
        have hblock : ∀ u ∈ vertices, ord u ∈ block s ord r → s.idx.lookup u = some r := by
          intro u hu hmem
          obtain ⟨u', hu', e⟩ := (block_mem _ _ _ _).1 hmem
          have h3 := lookup_of_mem huf.nodup hu'
          rw [hinj u hu u' ((hdom u').1 (by rw [h3]; rfl)) e.symm]
          exact h3
        rw [hblock v hv h1, hblock w hw h2]
      · simp only [List.mem_singleton] at h1 h2
        rw [hinj v hv w hw (by rw [h1, h2])]
    · intro e
      refine ⟨toSet (block s ord p), (hparts _).2 (Or.inl ⟨block s ord p, ?_, rfl⟩), ?_, ?_⟩
      · have hmem : ord v ∈ block s ord p := (block_mem _ _ _ _).2 ⟨v, mem_of_lookup hp, rfl⟩
        exact (extract_mem _ _ _).2 ⟨List.ne_nil_of_mem hmem, p, (huf.lt v p hp).le, rfl⟩
      · exact (toSet_mem _ _).2 ((block_mem _ _ _ _).2 ⟨v, mem_of_lookup hp, rfl⟩)
      · exact (toSet_mem _ _).2 ((block_mem _ _ _ _).2 ⟨w, mem_of_lookup (e ▸ hp), rfl⟩)
  · obtain ⟨l, hl, h1, h2⟩ := (hsame x hx y hy).1 e
    rcases (hparts l).1 hl with ⟨m, hm, rfl⟩ | ⟨z, hz, hno, rfl⟩
    · rw [toSet_mem] at h1
      obtain ⟨v, hv, hvx⟩ := (hin m hm).2.2 x h1
      exact absurd hvx (hxv v hv)
    · simp only [List.mem_singleton] at h1 h2
      rw [h1, h2]

/-- Non-trivial: the automorphism exchanging vertices `4 ↔ 6` and `5 ↔ 7`, excluded between `5` and `7` (their operators are on different
normal operators), then one exchanging `6 ↔ 8`; vertex `9` is moved by none. -/
example :
    computePartitions (fun v w => (v == 5 && w == 7) || (v == 7 && w == 5)) [4, 5, 6, 7, 8, 9]
      [fun v => if v = 4 then 6 else if v = 6 then 4 else if v = 5 then 7 else if v = 7 then 5 else v,
       fun v => if v = 6 then 8 else if v = 8 then 6 else v] = ⟨[(4, 0), (6, 0), (8, 0), (5, 1), (7, 2), (9, 3)], 4⟩ := by
  decide +kernel

example :
    extractPartitions ⟨[(4, 0), (6, 0), (8, 0), (5, 1), (7, 2), (9, 3)], 4⟩ (fun v => 9 - v) = [[0], [1, 3, 5], [2], [4]] := by
  decide +kernel

end SeQuant.Topology
