import Verif.Uncontr.Unique
import Verif.Topology.Props

/-!
# C102 for partial contractions: one contraction of each kind, weighted with the number of its equivalents
-/

namespace SeQuant.Topology

open SeQuant.Wick

variable {S : Statistics}

/-! ### `op_permutational_degeneracy` -/

theorem degStep_partial {P : Parts} {n : Nat} (hP : P.WF n) {s : TState} {K : Multiset (Nat × Nat)} (hs : Rep P s K)
    (hK : ∀ p, inc K p ≤ free P.part (List.range n) p) {i : Nat} (hi : i < P.num) (r : Rat) :
    degStep P false s i r =
      some (r * (degFactor P.part P.num n K i / (Nat.factorial (free P.part (List.range n) i - inc K i) : Rat))) := by
  have hz : ∀ j ≤ i, (Nat.factorial (K.count (i, j)) : Rat) = 1 := by
    intro j hj
    have : K.count (i, j) = 0 := by
      rw [Multiset.count_eq_zero]
      intro hm
      have := (hs.lt _ hm).1
      simp only at this
      omega
    rw [this]; simp
  have hone : ∀ k : Nat, ¬ k > 1 → (Nat.factorial k : Rat) = 1 := by
    intro k hk
    rcases (by omega : k = 0 ∨ k = 1) with e | e <;> simp [e]
  unfold degStep
  rw [size_eq hP hi, hs.ncontr]
  simp only [Bool.not_false, true_or, if_true]
  split
  · have hfold : (List.range' (i + 1) (P.num - (i + 1))).foldl (fun res j =>
        if s.cdeg (uptriIdx i j P.num) > 1 then res / (Nat.factorial (s.cdeg (uptriIdx i j P.num)) : Rat) else res)
        (r * (Nat.factorial (free P.part (List.range n) i) : Rat)) =
        (List.range' (i + 1) (P.num - (i + 1))).foldl (fun res j =>
        if K.count (i, j) > 1 then res / (Nat.factorial (K.count (i, j)) : Rat) else res)
        (r * (Nat.factorial (free P.part (List.range n) i) : Rat)) := by
      apply List.foldl_ext
      intro a j hj
      rw [List.mem_range'_1] at hj
      rw [hs.cdeg i j (by omega) (by omega)]
    rw [hfold, fold_div, prod_range'_eq _ i P.num hi hz, degFactor]
    split
    · congr 1
      ring
    · rename_i h1
      rw [hone _ h1]
      congr 1
      ring
  · rename_i hsz
    have h2 : (∏ j ∈ Finset.range P.num, (Nat.factorial (K.count (i, j)) : Rat)) = 1 := by
      apply Finset.prod_eq_one
      intro j _
      have h3 := count_le_inc K i j
      have h4 := hK i
      exact hone _ (by omega)
    rw [degFactor, hone _ hsz, h2, hone _ (by omega)]
    simp

/-- **The degeneracy factor is the number of sets of contractions of the same kind.** -/
theorem degeneracy_partial {P : Parts} {n : Nat} (hP : P.WF n) {s : TState} {K : Multiset (Nat × Nat)} (hs : Rep P s K)
    (hK : ∀ p, inc K p ≤ free P.part (List.range n) p) :
    degeneracy P false s = some (numberP P.part P.num (List.range n) K) := by
  unfold degeneracy
  rw [fold_some _ (fun i => degFactor P.part P.num n K i / (Nat.factorial (free P.part (List.range n) i - inc K i) : Rat)) _
    (fun i hi r => degStep_partial hP hs hK (List.mem_range.1 hi) r), one_mul]
  congr 1
  unfold numberP number degFactor
  rw [prod_map_range, Finset.prod_div_distrib, Finset.prod_div_distrib, Finset.prod_product]

/-! ### The weights of the summands -/

theorem wickTopoPartial_weight {P : Parts} {cc adm : Nat → Nat → Bool} (hord : ∀ i j, adm i j = true → i < j)
    (fuel : Nat) (s : TState) (C : Multiset (Nat × Nat)) (hs : Rep P s C) (nops : List (List Nat))
    (h : Ctx P.part P.num cc adm nops) (t : WPTerm) (ht : t ∈ wickTopoPartial S cc P fuel s nops) :
    (∃ s', Rep P s' (keyOf P.part t.2.2.1 + C) ∧ t.1 = degeneracy P false s') := by
  induction fuel generalizing s C nops t with
  | zero => simp [wickTopoPartial] at ht
  | succ fuel ih =>
    match nops with
    | [] => simp [wickTopoPartial] at ht
    | [] :: nops =>
      simp only [wickTopoPartial, List.mem_map] at ht
      obtain ⟨t', ht', rfl⟩ := ht
      exact ih s C hs nops h.tail t' ht'
    | (o :: rest) :: others =>
      simp only [wickTopoPartial, List.mem_append, List.mem_flatMap, List.mem_map] at ht
      rcases ht with ⟨p, hp, ht⟩ | ⟨t', ht', rfl⟩
      · split at ht
        · rename_i hcu
          simp only [Bool.and_eq_true] at hcu
          have hadm := (h.partner (by simp [pick_mem hp])).2 ⟨pick_mem hp, hcu.1⟩
          have hs' := hs.connect (hord _ _ hadm) (h.lt p.2.1 (by simp [pick_mem hp]))
          simp only [List.mem_cons] at ht
          rcases ht with rfl | ht
          · refine ⟨_, ?_, rfl⟩
            simpa [keyOf] using hs'
          · split at ht
            · simp at ht
            · simp only [List.mem_map] at ht
              obtain ⟨t', ht', rfl⟩ := ht
              obtain ⟨s'', h1, h2⟩ := ih _ _ hs' _ (h.pick hp) t' ht'
              refine ⟨s'', ?_, h2⟩
              simp only [keyOf_cons]
              rw [Multiset.add_cons] at h1
              rwa [Multiset.cons_add]
        · simp at ht
      · exact ih s C hs _ h.skip t' ht'

/-- The summands kept by the filter are summands of the unfiltered search. -/
theorem wickTopoPartial_subset (cc : Nat → Nat → Bool) (P : Parts) (fuel : Nat) (s : TState)
    (nops : List (List Nat)) (t : WPTerm) (ht : t ∈ wickTopoPartial S cc P fuel s nops) : t.2 ∈ wickPartial S cc fuel nops := by
  induction fuel generalizing s nops t with
  | zero => simp [wickTopoPartial] at ht
  | succ fuel ih =>
    match nops with
    | [] => simp [wickTopoPartial] at ht
    | [] :: nops =>
      simp only [wickTopoPartial, wickPartial, List.mem_map] at ht ⊢
      obtain ⟨t', ht', rfl⟩ := ht
      exact ⟨t'.2, ih s nops t' ht', rfl⟩
    | (o :: rest) :: others =>
      simp only [wickTopoPartial, wickPartial, List.mem_append, List.mem_flatMap] at ht ⊢
      rcases ht with ⟨p, hp, ht⟩ | ht
      · left
        refine ⟨p, hp, ?_⟩
        split at ht
        · rename_i hcu
          simp only [Bool.and_eq_true] at hcu
          rw [if_pos hcu.1]
          simp only [List.mem_cons] at ht ⊢
          rcases ht with rfl | ht
          · exact Or.inl rfl
          · right
            split at ht
            · simp at ht
            · rename_i h0
              rw [if_neg h0]
              simp only [List.mem_map] at ht ⊢
              obtain ⟨t', ht', rfl⟩ := ht
              exact ⟨t'.2, ih _ _ t' ht', rfl⟩
        · simp at ht
      · right
        simp only [List.mem_map] at ht ⊢
        obtain ⟨t', ht', rfl⟩ := ht
        exact ⟨t'.2, ih _ _ t' ht', rfl⟩

section
variable {P : Parts} {n : Nat} {cc : Nat → Nat → Bool} {nops : List (List Nat)}

theorem Input.invP (h : Input P n cc nops) : InvP P n TState.init nops.flatten :=
  ⟨fun x hx => by rw [h.flat] at hx; exact List.mem_range.1 hx, by rw [h.flat]; exact List.pairwise_lt_range,
    fun x _ => by simp [TState.init], fun x hx _ _ => by rw [h.flat]; exact List.mem_range.2 hx⟩

theorem Input.notDead (h : Input P n cc nops) (i : Nat) : ¬ Dead P n TState.init nops.flatten i := by
  rintro ⟨z, hz, _, _, hn⟩
  exact hn (by rw [h.flat]; exact List.mem_range.2 hz)

theorem partial_count (B : Multiset (Nat × Nat)) (nops : List (List Nat)) :
    (wickPartialAll S cc nops).countP (fun t => decide (kind P t.2.1 = B)) =
      cnt P.part (contP S cc (wickFuel nops) nops) B := by
  unfold wickPartialAll contP cnt
  rw [List.countP_append, List.countP_singleton, List.countP_cons, List.countP_map]
  rfl

theorem topo_partial_count (B : Multiset (Nat × Nat)) (nops : List (List Nat)) :
    (topoPartialTerms S cc P nops).countP (fun t => decide (kind P t.2.2.1 = B)) =
      cnt P.part (contTP S cc P (wickFuel nops) TState.init nops) B := by
  unfold topoPartialTerms contTP cnt
  rw [List.countP_append, List.countP_singleton, List.countP_cons, List.countP_map]
  rfl

theorem numberP_pos (part : Nat → Nat) (m : Nat) (l : List Nat) (B : Multiset (Nat × Nat)) : 0 < numberP part m l B := by
  unfold numberP number
  refine div_pos (div_pos ?_ ?_) ?_ <;> exact Finset.prod_pos fun _ _ => by exact_mod_cast Nat.factorial_pos _

open Classical in
/-- **C102** for partial contractions, uniqueness. Of all summands of the unfiltered search (the contraction-free one included) that make the
same number of contractions between every two partitions, the filter keeps exactly one. -/
theorem topology_partial_one_of_each_kind (h : Input P n cc nops) (B : Multiset (Nat × Nat)) :
    (topoPartialTerms S cc P nops).countP (fun t => decide (kind P t.2.2.1 = B)) =
      if ∃ t ∈ wickPartialAll S cc nops, kind P t.2.1 = B then 1 else 0 := by
  have h1 := cnt_topo_partial (S := S) h.wf h.ord _ TState.init 0 (Rep.init P) nops (Nat.le_refl _) h.ctx h.invP B
  have h2 := cnt_partial (S := S) _ nops (Nat.le_refl _) h.ctx B
  have h4 : (∃ t ∈ wickPartialAll S cc nops, kind P t.2.1 = B) ↔ 0 < cnt P.part (contP S cc (wickFuel nops) nops) B := by
    rw [← partial_count, List.countP_pos_iff]
    simp
  rw [topo_partial_count]
  by_cases hF : FitsP P.part (admOf P n cc nops) nops.flatten B
  · rw [if_pos ⟨hF, fun i hi => absurd hi (h.notDead i), by intro q _ q' hq'; simp at hq'⟩] at h1
    rw [if_pos hF] at h2
    have hn := numberP_pos P.part P.num nops.flatten B
    rw [← h2] at hn
    rw [if_pos (h4.2 (by exact_mod_cast hn))]
    exact_mod_cast h1
  · rw [if_neg (fun hh => hF hh.fits)] at h1
    rw [if_neg hF] at h2
    rw [if_neg (fun hh => by
      have := h4.1 hh
      have h2' : cnt P.part (contP S cc (wickFuel nops) nops) B = 0 := by exact_mod_cast h2
      omega)]
    exact_mod_cast h1

/-- **C102** for partial contractions, weights. The topological weight of a summand is the number of summands of the unfiltered search of
the same kind. -/
theorem topology_partial_weight (h : Input P n cc nops) (t : WPTerm) (ht : t ∈ topoPartialTerms S cc P nops) :
    t.2 ∈ wickPartialAll S cc nops ∧
    t.1 = some ((wickPartialAll S cc nops).countP (fun u => decide (kind P u.2.1 = kind P t.2.2.1)) : Rat) := by
  classical
  have hsub : t.2 ∈ wickPartialAll S cc nops := by
    simp only [topoPartialTerms, wickPartialAll, List.mem_append, List.mem_singleton] at ht ⊢
    rcases ht with ht | rfl
    · exact Or.inl (wickTopoPartial_subset cc P _ _ nops t ht)
    · exact Or.inr rfl
  refine ⟨hsub, ?_⟩
  have hw : ∃ s', Rep P s' (keyOf P.part t.2.2.1) ∧ (t.1 = degeneracy P false s' ∨ t.1 = some 1 ∧ t.2.2.1 = []) := by
    simp only [topoPartialTerms, List.mem_append, List.mem_singleton] at ht
    rcases ht with ht | rfl
    · obtain ⟨s', h1, h2⟩ := wickTopoPartial_weight h.ord _ TState.init 0 (Rep.init P) nops h.ctx t ht
      rw [add_zero] at h1
      exact ⟨s', h1, Or.inl h2⟩
    · exact ⟨TState.init, Rep.init P, Or.inr ⟨rfl, rfl⟩⟩
  obtain ⟨s', hs', hw⟩ := hw
  have h2 := cnt_partial (S := S) _ nops (Nat.le_refl _) h.ctx (keyOf P.part t.2.2.1)
  rw [← partial_count] at h2
  have hpos' : 0 < (wickPartialAll S cc nops).countP (fun u => decide (kind P u.2.1 = kind P t.2.2.1)) := by
    rw [List.countP_pos_iff]
    exact ⟨t.2, hsub, by simp⟩
  have hF : FitsP P.part (admOf P n cc nops) nops.flatten (keyOf P.part t.2.2.1) := by
    by_contra hc
    rw [if_neg hc] at h2
    have : (wickPartialAll S cc nops).countP (fun u => decide (kind P u.2.1 = kind P t.2.2.1)) = 0 := by exact_mod_cast h2
    omega
  rw [if_pos hF] at h2
  rw [h2]
  rcases hw with hw | ⟨hw, he⟩
  · rw [hw, degeneracy_partial h.wf hs' (by rw [← h.flat]; exact hF.1), ← h.flat]
  · rw [hw, he, keyOf_nil, numberP, number]
    congr 1
    have : (∏ p ∈ Finset.range P.num, (Nat.factorial (free P.part nops.flatten p) : Rat)) ≠ 0 :=
      Finset.prod_ne_zero_iff.2 fun q _ => by exact_mod_cast Nat.factorial_ne_zero _
    simp [inc, this]

/-- **C102** for partial contractions. If the value of a summand depends only on its kind, the weighted sum over the summands kept by the
filter is the sum over all summands. -/
theorem topology_partial_sum_of_kind {V : Type} [AddCommGroup V] [Module Rat V] (h : Input P n cc nops) (F : PartialTerm Nat → V)
    (hF : ∀ t ∈ wickPartialAll S cc nops, ∀ u ∈ wickPartialAll S cc nops, kind P t.2.1 = kind P u.2.1 → F t = F u) :
    ((topoPartialTerms S cc P nops).map fun t => (t.1.getD 0) • F t.2).sum = ((wickPartialAll S cc nops).map F).sum := by
  classical
  set all := wickPartialAll S cc nops with hall
  let g : Multiset (Nat × Nat) → V := fun B => if hB : ∃ t ∈ all, kind P t.2.1 = B then F hB.choose else 0
  have hg : ∀ t ∈ all, F t = g (kind P t.2.1) := by
    intro t ht
    have hB : ∃ u ∈ all, kind P u.2.1 = kind P t.2.1 := ⟨t, ht, rfl⟩
    simp only [g, dif_pos hB]
    exact hF t ht _ hB.choose_spec.1 hB.choose_spec.2.symm
  have hw := topology_partial_weight (S := S) h
  rw [List.map_congr_left hg]
  rw [List.map_congr_left (g := fun t : WPTerm =>
      (fun B => (all.countP (fun u => decide (kind P u.2.1 = B)) : Rat) • g B) (kind P t.2.2.1))
    (fun t ht => by
      obtain ⟨h1, h2⟩ := hw t ht
      rw [h2, hg _ h1]
      rfl)]
  let T : Finset (Multiset (Nat × Nat)) := (all.map fun t => kind P t.2.1).toFinset
  have hT : ∀ t ∈ all, kind P t.2.1 ∈ T := fun t ht => List.mem_toFinset.2 (List.mem_map.2 ⟨t, ht, rfl⟩)
  rw [sum_by_key all (fun t => kind P t.2.1) g T hT,
    sum_by_key (topoPartialTerms S cc P nops) (fun t => kind P t.2.2.1)
      (fun B => (all.countP (fun u => decide (kind P u.2.1 = B)) : Rat) • g B) T (fun t ht => hT _ (hw t ht).1)]
  apply Finset.sum_congr rfl
  intro B hB
  obtain ⟨u, hu, hue⟩ := List.mem_map.1 (List.mem_toFinset.1 hB)
  rw [topology_partial_one_of_each_kind h B, if_pos ⟨u, hu, hue⟩]
  simp

end

end SeQuant.Topology
