import Verif.Topology.Weight

/-!
# C102: the topological reduction keeps one contraction of each kind and weights it with the number of its equivalents
-/

namespace SeQuant.Topology

open SeQuant.Wick

variable {S : Statistics}

/-- What `compute` guarantees about the partitions it passes on (wick.impl.hpp:1140-1207): they partition the operators, each lies
inside one normal operator, and operators of one partition have the same index space, so they contract with the same operators. -/
structure Input (P : Parts) (n : Nat) (cc : Nat → Nat → Bool) (nops : List (List Nat)) : Prop where
  flat : nops.flatten = List.range n
  wf : P.WF n
  inNop : ∀ x < n, ∀ y < n, P.part x = P.part y → ∃ l ∈ nops, x ∈ l ∧ y ∈ l
  canc : ∀ x < n, ∀ x' < n, ∀ y < n, ∀ y' < n, P.part x = P.part x' → P.part y = P.part y' → cc x y = cc x' y'

theorem later_transfer (nops : List (List Nat)) (hnd : nops.flatten.Nodup) {x x' y y' : Nat} (h : Later nops x y)
    (hx : ∃ l ∈ nops, x ∈ l ∧ x' ∈ l) (hy : ∃ l ∈ nops, y ∈ l ∧ y' ∈ l) : Later nops x' y' := by
  induction nops with
  | nil => exact h
  | cons a ls ih =>
    rw [List.flatten_cons, List.nodup_append] at hnd
    obtain ⟨l, hl, hxl, hxl'⟩ := hx
    obtain ⟨k, hk, hyk, hyk'⟩ := hy
    have notin : ∀ z, z ∈ ls.flatten → z ∉ a := fun z h1 h2 => hnd.2.2 z h2 z h1 rfl
    have yin : y ∈ ls.flatten := by
      rcases h with h | h
      · exact h.2
      · exact (later_mem _ _ _ h).2
    have hk' : k ∈ ls := by
      rcases List.mem_cons.1 hk with rfl | hk
      · exact absurd hyk (notin y yin)
      · exact hk
    rcases h with h | h
    · left
      refine ⟨?_, List.mem_flatten.2 ⟨k, hk', hyk'⟩⟩
      rcases List.mem_cons.1 hl with rfl | hl
      · exact hxl'
      · exact absurd h.1 (notin x (List.mem_flatten.2 ⟨l, hl, hxl⟩))
    · right
      have hl' : l ∈ ls := by
        rcases List.mem_cons.1 hl with rfl | hl
        · exact absurd hxl (notin x (later_mem _ _ _ h).1)
        · exact hl
      exact ih hnd.2.1 h ⟨l, hl', hxl, hxl'⟩ ⟨k, hk', hyk, hyk'⟩

theorem later_lt (nops : List (List Nat)) (hs : nops.flatten.Pairwise (· < ·)) {x y : Nat} (h : Later nops x y) : x < y := by
  induction nops with
  | nil => exact h.elim
  | cons a ls ih =>
    rw [List.flatten_cons, List.pairwise_append] at hs
    rcases h with h | h
    · exact hs.2.2 x h.1 y h.2
    · exact ih hs.2.1 h

open Classical in
/-- Two partitions have contractible operators. -/
noncomputable def admOf (P : Parts) (n : Nat) (cc : Nat → Nat → Bool) (nops : List (List Nat)) (i j : Nat) : Bool :=
  decide (∃ x < n, ∃ y < n, P.part x = i ∧ P.part y = j ∧ Later nops x y ∧ cc x y = true)

section
variable {P : Parts} {n : Nat} {cc : Nat → Nat → Bool} {nops : List (List Nat)}

theorem Input.ctx (h : Input P n cc nops) : Ctx P.part P.num cc (admOf P n cc nops) nops := by
  have hm : ∀ x, x ∈ nops.flatten ↔ x < n := by intro x; rw [h.flat, List.mem_range]
  have hnd : nops.flatten.Nodup := by rw [h.flat]; exact List.nodup_range
  refine ⟨hnd, fun x hx => h.wf.lt x ((hm x).1 hx), fun x hx y hy => ?_⟩
  rw [hm] at hx hy
  simp only [admOf, decide_eq_true_eq]
  constructor
  · rintro ⟨x', hx', y', hy', h1, h2, h3, h4⟩
    exact ⟨later_transfer nops hnd h3 (h.inNop x' hx' x hx h1) (h.inNop y' hy' y hy h2), by
      rw [← h.canc x' hx' x hx y' hy' y hy h1 h2]; exact h4⟩
  · rintro ⟨h1, h2⟩
    exact ⟨x, hx, y, hy, rfl, rfl, h1, h2⟩

theorem front_spec (h : P.WF n) {i : Nat} (hi : i < P.num) :
    front (P.parts.getD i []) < n ∧ P.part (front (P.parts.getD i [])) = i ∧
      ∀ x < n, P.part x = i → front (P.parts.getD i []) ≤ x := by
  have hne := h.ne i hi
  have hm := h.members i hi
  have hpw := h.pairwise hi
  cases hl : P.parts.getD i [] with
  | nil => exact absurd hl hne
  | cons a l =>
    rw [hl] at hm hpw
    have ha : a ∈ (List.range n).filter fun x => decide (P.part x = i) := by rw [← hm]; simp
    simp only [List.mem_filter, List.mem_range, decide_eq_true_eq] at ha
    refine ⟨ha.1, ha.2, fun x hx hxi => ?_⟩
    have hx' : x ∈ a :: l := by rw [hm]; simp [hx, hxi]
    rcases List.mem_cons.1 hx' with rfl | hx'
    · exact Nat.le_refl _
    · exact Nat.le_of_lt ((List.pairwise_cons.1 hpw).1 x hx')

/-- The assertion of `connect`: partition indices are in increasing order (wick.hpp:1022). -/
theorem Input.ord (h : Input P n cc nops) (i j : Nat) (ha : admOf P n cc nops i j = true) : i < j := by
  simp only [admOf, decide_eq_true_eq] at ha
  obtain ⟨x, hx, y, hy, rfl, rfl, hl, _⟩ := ha
  have hnd : nops.flatten.Nodup := by rw [h.flat]; exact List.nodup_range
  have hs : nops.flatten.Pairwise (· < ·) := by rw [h.flat]; exact List.pairwise_lt_range
  obtain ⟨z1, z2, z3⟩ := front_spec h.wf (h.wf.lt y hy)
  obtain ⟨w1, w2, w3⟩ := front_spec h.wf (h.wf.lt x hx)
  have hxx : ∃ l ∈ nops, x ∈ l ∧ x ∈ l := h.inNop x hx x hx rfl
  have h1 := later_lt nops hs (later_transfer nops hnd hl hxx (h.inNop y hy _ z1 z2.symm))
  have h2 := w3 x hx rfl
  by_contra hc
  rcases Nat.lt_or_eq_of_le (Nat.le_of_not_lt hc) with hlt | heq
  · have := h.wf.sorted _ _ hlt (h.wf.lt x hx)
    omega
  · rw [heq] at h1
    omega

theorem Input.inv (h : Input P n cc nops) : Inv P n TState.init nops :=
  ⟨fun x hx => by rw [h.flat] at hx; exact List.mem_range.1 hx, by rw [h.flat]; exact List.pairwise_lt_range,
    fun x hx => by simp [h.flat, hx, TState.init]⟩

theorem contFull_eq (isQpAnn : Nat → Bool) (hpos : 0 < n) (h : Input P n cc nops) :
    contFull S isQpAnn cc (wickFuel nops) nops = wickFull S isQpAnn cc (wickFuel nops) nops := by
  rw [contFull, if_neg]
  rw [opsize_flatten, h.flat, List.length_range]
  omega

theorem contTopo_eq (isQpAnn : Nat → Bool) (hpos : 0 < n) (h : Input P n cc nops) :
    contTopo S isQpAnn cc P (wickFuel nops) TState.init nops = (topoTerms S isQpAnn cc P nops).map fun t => t.2 := by
  rw [contTopo, if_neg, topoTerms]
  rw [opsize_flatten, h.flat, List.length_range]
  omega

variable (isQpAnn : Nat → Bool) (hq : ∀ x y, cc x y = true → isQpAnn x = true)

/-- The kind of a summand: how many contractions it makes between which partitions. -/
abbrev kind (P : Parts) (cs : List (Nat × Nat)) : Multiset (Nat × Nat) := keyOf P.part cs

include hq in
open Classical in
/-- **C102**, uniqueness. Of all summands of the unfiltered search that make the same number of contractions between every two
partitions, the filter keeps exactly one. -/
theorem topology_one_of_each_kind (hpos : 0 < n) (h : Input P n cc nops) (B : Multiset (Nat × Nat)) :
    (topoTerms S isQpAnn cc P nops).countP (fun t => decide (kind P t.2.2 = B)) =
      if ∃ t ∈ wickFull S isQpAnn cc (wickFuel nops) nops, kind P t.2 = B then 1 else 0 := by
  have h1 := cnt_topo (S := S) h.wf isQpAnn hq h.ord _ TState.init 0 (Rep.init P) nops (Nat.le_refl _) h.ctx h.inv B
  have h2 := cnt_full (S := S) isQpAnn hq _ nops (Nat.le_refl _) h.ctx B
  rw [contTopo_eq isQpAnn hpos h] at h1
  rw [contFull_eq isQpAnn hpos h] at h2
  have h3 : cnt P.part ((topoTerms S isQpAnn cc P nops).map fun t => t.2) B =
      (topoTerms S isQpAnn cc P nops).countP (fun t => decide (kind P t.2.2 = B)) := by
    unfold cnt
    rw [List.countP_map]
    rfl
  have hcomp : Compat 0 B := by intro q _ q' hq'; simp at hq'
  have h4 : (∃ t ∈ wickFull S isQpAnn cc (wickFuel nops) nops, kind P t.2 = B) ↔
      0 < cnt P.part (wickFull S isQpAnn cc (wickFuel nops) nops) B := by
    unfold cnt
    rw [List.countP_pos_iff]
    simp
  rw [← h3]
  by_cases hF : Fits P.part (admOf P n cc nops) nops.flatten B
  · rw [if_pos ⟨hF, hcomp⟩] at h1
    rw [if_pos hF] at h2
    have hn : (0 : Rat) < number P.part P.num nops.flatten B := by
      unfold number
      apply div_pos <;> exact Finset.prod_pos fun _ _ => by exact_mod_cast Nat.factorial_pos _
    rw [← h2] at hn
    rw [if_pos (h4.2 (by exact_mod_cast hn))]
    exact_mod_cast h1
  · rw [if_neg (fun hh => hF hh.1)] at h1
    rw [if_neg hF] at h2
    rw [if_neg (fun hh => by
      have := h4.1 hh
      have h2' : cnt P.part (wickFull S isQpAnn cc (wickFuel nops) nops) B = 0 := by exact_mod_cast h2
      omega)]
    exact_mod_cast h1

include hq in
/-- **C102**, weights. The topological weight of a summand is the number of summands of the unfiltered search of the same kind (and the
sanity check of the code holds). -/
theorem topology_weight (hpos : 0 < n) (h : Input P n cc nops) (t : WTerm) (ht : t ∈ topoTerms S isQpAnn cc P nops) :
    t.2 ∈ wickFull S isQpAnn cc (wickFuel nops) nops ∧
    t.1 = some ((wickFull S isQpAnn cc (wickFuel nops) nops).countP (fun u => decide (kind P u.2 = kind P t.2.2)) : Rat) := by
  classical
  have hsub := wickTopo_subset isQpAnn cc P _ _ nops t ht
  refine ⟨hsub, ?_⟩
  obtain ⟨s', hs', hw⟩ := wickTopo_weight isQpAnn h.ord _ TState.init 0 (Rep.init P) nops h.ctx t ht
  rw [add_zero] at hs'
  have h2 := cnt_full (S := S) isQpAnn hq _ nops (Nat.le_refl _) h.ctx (keyOf P.part t.2.2)
  rw [contFull_eq isQpAnn hpos h] at h2
  have hpos' : 0 < cnt P.part (wickFull S isQpAnn cc (wickFuel nops) nops) (keyOf P.part t.2.2) := by
    unfold cnt
    rw [List.countP_pos_iff]
    exact ⟨t.2, hsub, by simp⟩
  have hF : Fits P.part (admOf P n cc nops) nops.flatten (keyOf P.part t.2.2) := by
    by_contra hc
    rw [if_neg hc] at h2
    have : cnt P.part (wickFull S isQpAnn cc (wickFuel nops) nops) (keyOf P.part t.2.2) = 0 := by exact_mod_cast h2
    omega
  rw [if_pos hF] at h2
  rw [hw, degeneracy_eq h.wf hs' (by rw [← h.flat]; exact hF.1), ← h.flat, ← h2]
  rfl

include hq in
/-- **C102.** If the value of a summand depends only on its kind, the weighted sum over the summands kept by the filter is the sum over
all summands. -/
theorem topology_sum_of_kind {V : Type} [AddCommGroup V] [Module Rat V] (hpos : 0 < n) (h : Input P n cc nops)
    (F : Term Nat → V)
    (hF : ∀ t ∈ wickFull S isQpAnn cc (wickFuel nops) nops, ∀ u ∈ wickFull S isQpAnn cc (wickFuel nops) nops,
      kind P t.2 = kind P u.2 → F t = F u) :
    ((topoTerms S isQpAnn cc P nops).map fun t => (t.1.getD 0) • F t.2).sum =
      ((wickFull S isQpAnn cc (wickFuel nops) nops).map F).sum := by
  classical
  set all := wickFull S isQpAnn cc (wickFuel nops) nops with hall
  let g : Multiset (Nat × Nat) → V := fun B => if hB : ∃ t ∈ all, kind P t.2 = B then F hB.choose else 0
  have hg : ∀ t ∈ all, F t = g (kind P t.2) := by
    intro t ht
    have hB : ∃ u ∈ all, kind P u.2 = kind P t.2 := ⟨t, ht, rfl⟩
    simp only [g, dif_pos hB]
    exact hF t ht _ hB.choose_spec.1 hB.choose_spec.2.symm
  have hw := topology_weight (S := S) isQpAnn hq hpos h
  rw [List.map_congr_left hg]
  rw [List.map_congr_left (g := fun t : WTerm => (fun B => (all.countP (fun u => decide (kind P u.2 = B)) : Rat) • g B) (kind P t.2.2))
    (fun t ht => by
      obtain ⟨h1, h2⟩ := hw t ht
      rw [h2, hg _ h1]
      rfl)]
  let T : Finset (Multiset (Nat × Nat)) := (all.map fun t => kind P t.2).toFinset
  have hT : ∀ t ∈ all, kind P t.2 ∈ T := fun t ht => List.mem_toFinset.2 (List.mem_map.2 ⟨t, ht, rfl⟩)
  rw [sum_by_key all (fun t => kind P t.2) g T hT,
    sum_by_key (topoTerms S isQpAnn cc P nops) (fun t => kind P t.2.2)
      (fun B => (all.countP (fun u => decide (kind P u.2 = B)) : Rat) • g B) T (fun t ht => hT _ (hw t ht).1)]
  apply Finset.sum_congr rfl
  intro B hB
  obtain ⟨u, hu, hue⟩ := List.mem_map.1 (List.mem_toFinset.1 hB)
  rw [topology_one_of_each_kind isQpAnn hq hpos h B, if_pos ⟨u, hu, hue⟩]
  simp

end

end SeQuant.Topology
