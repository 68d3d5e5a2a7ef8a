import Verif.Topology.Unique
import Mathlib.Data.List.GetD

/-!
# `set_op_partitions` establishes what the reduction needs (C102)
-/

namespace SeQuant.Topology

theorem emplace_mem (x y : Nat) (l : List Nat) : y ∈ emplace x l ↔ y = x ∨ y ∈ l := by
  induction l with
  | nil => simp [emplace]
  | cons a l ih =>
    simp only [emplace]
    split
    · simp
    · split
      · rename_i h; subst h; simp
      · simp [ih]; tauto

theorem emplace_sorted (x : Nat) (l : List Nat) (h : l.Pairwise (· < ·)) : (emplace x l).Pairwise (· < ·) := by
  induction l with
  | nil => simp [emplace]
  | cons a l ih =>
    obtain ⟨h1, h2⟩ := List.pairwise_cons.1 h
    simp only [emplace]
    split
    · rename_i hxa
      refine List.pairwise_cons.2 ⟨fun b hb => ?_, h⟩
      rcases List.mem_cons.1 hb with rfl | hb
      · exact hxa
      · exact Nat.lt_trans hxa (h1 b hb)
    · split
      · exact h
      · refine List.pairwise_cons.2 ⟨fun b hb => ?_, ih h2⟩
        rcases (emplace_mem x b l).1 hb with rfl | hb
        · omega
        · exact h1 b hb

theorem toSet_aux (l s : List Nat) : (∀ y, y ∈ l.foldl (fun s x => emplace x s) s ↔ y ∈ l ∨ y ∈ s) ∧
    (s.Pairwise (· < ·) → (l.foldl (fun s x => emplace x s) s).Pairwise (· < ·)) := by
  induction l generalizing s with
  | nil => simp
  | cons a l ih =>
    obtain ⟨h1, h2⟩ := ih (emplace a s)
    rw [List.foldl_cons]
    refine ⟨fun y => ?_, fun hs => h2 (emplace_sorted a s hs)⟩
    rw [h1, emplace_mem, List.mem_cons]
    tauto

theorem toSet_mem (l : List Nat) (y : Nat) : y ∈ toSet l ↔ y ∈ l := by
  have := (toSet_aux l []).1 y
  simpa [toSet] using this

theorem toSet_sorted (l : List Nat) : (toSet l).Pairwise (· < ·) := (toSet_aux l []).2 List.Pairwise.nil

theorem toSet_ne (l : List Nat) (h : l ≠ []) : toSet l ≠ [] := by
  intro hc
  obtain ⟨a, ha⟩ := List.exists_mem_of_ne_nil l h
  have := (toSet_mem l a).2 ha
  rw [hc] at this
  simp at this

theorem isSortedParts_iff (l : List (List Nat)) : isSortedParts l = true ↔ l.Pairwise fun x y => front x ≤ front y := by
  induction l with
  | nil => simp [isSortedParts]
  | cons x l ih =>
    cases l with
    | nil => simp [isSortedParts]
    | cons y l =>
      simp only [isSortedParts, Bool.and_eq_true, Bool.not_eq_true', decide_eq_false_iff_not, ih]
      constructor
      · rintro ⟨h1, h2⟩
        refine List.pairwise_cons.2 ⟨fun z hz => ?_, h2⟩
        rcases List.mem_cons.1 hz with rfl | hz
        · omega
        · have := (List.pairwise_cons.1 h2).1 z hz
          omega
      · intro h
        obtain ⟨h1, h2⟩ := List.pairwise_cons.1 h
        have := h1 y (by simp)
        exact ⟨by omega, h2⟩

theorem getD_set (l : List Nat) (x y v : Nat) (hx : x < l.length) : (l.set x v).getD y 0 = if y = x then v else l.getD y 0 := by
  by_cases h : y = x
  · subst h; simp [List.getD, hx]
  · rw [if_neg h]
    simp [List.getD, Ne.symm h]

/-- What one round of the inner loop establishes. -/
theorem fillOne_spec (n k : Nat) (l idx idx' : List Nat) (hl : idx.length = n) (h : fillOne n k l idx = some idx') :
    idx'.length = n ∧ (∀ x ∈ l, x < n ∧ idx.getD x 0 = 0) ∧
      ∀ x, idx'.getD x 0 = if x ∈ l then k + 1 else idx.getD x 0 := by
  induction l generalizing idx with
  | nil => simp only [fillOne, Option.some.injEq] at h; subst h; exact ⟨hl, by simp, by simp⟩
  | cons a l ih =>
    simp only [fillOne] at h
    split at h
    · rename_i hc
      obtain ⟨h1, h2, h3⟩ := ih (idx.set a (k + 1)) (by simpa using hl) h
      refine ⟨h1, fun x hx => ?_, fun x => ?_⟩
      · rcases List.mem_cons.1 hx with rfl | hx
        · exact hc
        · obtain ⟨h4, h5⟩ := h2 x hx
          rw [getD_set _ _ _ _ (by omega)] at h5
          split at h5
          · omega
          · exact ⟨h4, h5⟩
      · rw [h3, getD_set _ _ _ _ (by omega)]
        by_cases hx : x ∈ l
        · simp [hx]
        · by_cases hxa : x = a
          · simp [hxa]
          · simp [hx, hxa]
    · simp at h

theorem fillOne_isSome (n k : Nat) (l idx : List Nat) (hl : idx.length = n) (hnd : l.Nodup)
    (h : ∀ x ∈ l, x < n ∧ idx.getD x 0 = 0) : (fillOne n k l idx).isSome := by
  induction l generalizing idx with
  | nil => rfl
  | cons a l ih =>
    simp only [fillOne]
    rw [if_pos (h a (by simp))]
    obtain ⟨h1, h2⟩ := List.nodup_cons.1 hnd
    refine ih _ (by simpa using hl) h2 fun x hx => ?_
    rw [getD_set _ _ _ _ (by have := (h a (by simp)).1; omega), if_neg (fun e : x = a => h1 (e ▸ hx))]
    exact h x (by simp [hx])

theorem fillIdx_spec (n k : Nat) (ps : List (List Nat)) (idx idx' : List Nat) (hl : idx.length = n)
    (h : fillIdx n k ps idx = some idx') :
    idx'.length = n ∧ (∀ p ∈ ps, ∀ x ∈ p, x < n ∧ idx.getD x 0 = 0) ∧
      (∀ i x, x ∈ ps.getD i [] → idx'.getD x 0 = k + i + 1) ∧
      (∀ x, (∀ p ∈ ps, x ∉ p) → idx'.getD x 0 = idx.getD x 0) ∧ ps.Pairwise fun p q => ∀ x ∈ p, x ∉ q := by
  induction ps generalizing k idx with
  | nil => simp only [fillIdx, Option.some.injEq] at h; subst h; exact ⟨hl, by simp, by simp, by simp, by simp⟩
  | cons p ps ih =>
    simp only [fillIdx] at h
    cases h1 : fillOne n k p idx with
    | none => rw [h1] at h; simp at h
    | some idx1 =>
      rw [h1, Option.bind_some] at h
      obtain ⟨a1, a2, a3⟩ := fillOne_spec n k p idx idx1 hl h1
      obtain ⟨b1, b2, b3, b4, b5⟩ := ih (k + 1) idx1 a1 h
      have hdis : ∀ x ∈ p, ∀ q ∈ ps, x ∉ q := by
        intro x hx q hq hxq
        have := (b2 q hq x hxq).2
        rw [a3, if_pos hx] at this
        omega
      refine ⟨b1, ?_, ?_, ?_, List.pairwise_cons.2 ⟨fun q hq x hx => hdis x hx q hq, b5⟩⟩
      · intro q hq x hx
        rcases List.mem_cons.1 hq with rfl | hq
        · exact a2 x hx
        · obtain ⟨c1, c2⟩ := b2 q hq x hx
          rw [a3] at c2
          split at c2
          · omega
          · exact ⟨c1, c2⟩
      · intro i x hx
        cases i with
        | zero =>
          simp only [List.getD_cons_zero] at hx
          rw [b4 x (fun q hq => hdis x hx q hq), a3, if_pos hx]
          try rfl
        | succ i =>
          simp only [List.getD_cons_succ] at hx
          rw [b3 i x hx]; omega
      · intro x hx
        rw [b4 x (fun q hq => hx q (by simp [hq])), a3, if_neg (hx p (by simp))]

theorem fillIdx_isSome (n k : Nat) (ps : List (List Nat)) (idx : List Nat) (hl : idx.length = n)
    (hnd : ∀ p ∈ ps, p.Nodup) (h : ∀ p ∈ ps, ∀ x ∈ p, x < n ∧ idx.getD x 0 = 0)
    (hd : ps.Pairwise fun p q => ∀ x ∈ p, x ∉ q) : (fillIdx n k ps idx).isSome := by
  induction ps generalizing k idx with
  | nil => rfl
  | cons p ps ih =>
    simp only [fillIdx]
    have h1 := fillOne_isSome n k p idx hl (hnd p (by simp)) (h p (by simp))
    obtain ⟨idx1, h2⟩ := Option.isSome_iff_exists.1 h1
    rw [h2, Option.bind_some]
    obtain ⟨a1, a2, a3⟩ := fillOne_spec n k p idx idx1 hl h2
    obtain ⟨d1, d2⟩ := List.pairwise_cons.1 hd
    refine ih (k + 1) idx1 a1 (fun q hq => hnd q (by simp [hq])) (fun q hq x hx => ?_) d2
    rw [a3, if_neg (fun hxp => d1 q hq x hxp hx)]
    exact h q (by simp [hq]) x hx

/-- The sets handled by the loop: not empty, increasing, listed by their first members. -/
structure SetsOk (ps : List (List Nat)) : Prop where
  ne : ∀ p ∈ ps, p ≠ []
  inc : ∀ p ∈ ps, p.Pairwise (· < ·)
  sorted : ps.Pairwise fun x y => front x ≤ front y

theorem SetsOk.add {ps : List (List Nat)} (h : SetsOk ps) (ms : List Nat) :
    SetsOk ((ps ++ ms.map fun x => [x]).insertionSort fun x y => front x ≤ front y) := by
  have hm : ∀ p, p ∈ (ps ++ ms.map fun x => [x]).insertionSort (fun x y => front x ≤ front y) ↔ p ∈ ps ∨ ∃ x ∈ ms, [x] = p := by
    intro p
    rw [(List.perm_insertionSort _ _).mem_iff]
    simp
  refine ⟨fun p hp => ?_, fun p hp => ?_, ?_⟩
  · rcases (hm p).1 hp with hp | ⟨x, _, rfl⟩
    · exact h.ne p hp
    · simp
  · rcases (hm p).1 hp with hp | ⟨x, _, rfl⟩
    · exact h.inc p hp
    · simp
  · have : Std.Total (fun x y : List Nat => front x ≤ front y) := ⟨fun a b => Nat.le_total _ _⟩
    have : IsTrans (List Nat) (fun x y : List Nat => front x ≤ front y) := ⟨fun a b c => Nat.le_trans⟩
    exact List.pairwise_insertionSort _ _

theorem getD_mem_of_lt {α : Type} {ps : List (List α)} {i : Nat} (hi : i < ps.length) : ps.getD i [] ∈ ps := by
  rw [List.getD_eq_getElem _ _ hi]; exact List.getElem_mem hi

theorem eq_of_sorted {l l' : List Nat} (h : l.Pairwise (· < ·)) (h' : l'.Pairwise (· < ·)) (hm : ∀ x, x ∈ l ↔ x ∈ l') : l = l' := by
  have hp : l.Perm l' := (List.perm_ext_iff_of_nodup (h.imp Nat.ne_of_lt) (h'.imp Nat.ne_of_lt)).2 hm
  exact hp.eq_of_pairwise (le := (· < ·)) (fun a b _ _ h1 h2 => absurd h1 (Nat.lt_asymm h2)) h h'

theorem partLoop_wf (n fuel : Nat) (ps : List (List Nat)) (hok : SetsOk ps) (P : Parts) (h : partLoop n fuel ps = some P) :
    P.WF n := by
  induction fuel generalizing ps with
  | zero => simp [partLoop] at h
  | succ fuel ih =>
    simp only [partLoop] at h
    cases h1 : fillIdx n 0 ps (List.replicate n 0) with
    | none => rw [h1] at h; simp at h
    | some idx =>
      rw [h1, Option.bind_some] at h
      split at h
      · exact ih _ (hok.add _) h
      · rename_i h0
        simp only [Option.some.injEq] at h
        subst h
        obtain ⟨a1, a2, a3, a4, a5⟩ := fillIdx_spec n 0 ps _ idx (by simp) h1
        have hnz : ∀ x < n, idx.getD x 0 ≠ 0 := by
          intro x hx hc
          rw [List.getD_eq_getElem _ _ (by omega)] at hc
          apply h0
          rw [List.contains_iff_mem, ← hc]
          exact List.getElem_mem _
        have hin : ∀ x < n, ∃ i < ps.length, x ∈ ps.getD i [] := by
          intro x hx
          by_contra hc
          have : ∀ p ∈ ps, x ∉ p := by
            intro p hp hxp
            obtain ⟨i, hi, rfl⟩ := List.getElem_of_mem hp
            exact hc ⟨i, hi, by rw [List.getD_eq_getElem _ _ hi]; exact hxp⟩
          have h2 := a4 x this
          have h3 : (List.replicate n 0).getD x 0 = 0 := by simp [List.getD, hx]
          exact hnz x hx (by rw [h2, h3])
        have hpart : ∀ i x, x ∈ ps.getD i [] → (⟨ps, idx⟩ : Parts).part x = i := by
          intro i x hx
          simp only [Parts.part, a3 i x hx]
          omega
        have hmem : ∀ i < ps.length, ∀ x, x ∈ ps.getD i [] ↔ x < n ∧ (⟨ps, idx⟩ : Parts).part x = i := by
          intro i hi x
          constructor
          · intro hx
            exact ⟨(a2 _ (getD_mem_of_lt hi) x hx).1, hpart i x hx⟩
          · rintro ⟨hx, hp⟩
            obtain ⟨j, _, hj⟩ := hin x hx
            rw [hpart j x hj] at hp
            rw [← hp]
            exact hj
        refine ⟨fun x hx => ?_, fun i hi => ?_, fun i hi => ?_, fun i j hij hj => ?_⟩
        · obtain ⟨i, hi, hxi⟩ := hin x hx
          rw [hpart i x hxi]
          exact hi
        · apply eq_of_sorted (hok.inc _ (getD_mem_of_lt hi)) (List.Pairwise.filter _ List.pairwise_lt_range)
          intro x
          rw [hmem i hi]
          simp
        · exact hok.ne _ (getD_mem_of_lt hi)
        · have hj' : j < ps.length := hj
          have hi' : i < ps.length := by omega
          have hle := List.pairwise_iff_getElem.1 hok.sorted i j hi' hj' hij
          have hdis := List.pairwise_iff_getElem.1 a5 i j hi' hj' hij
          simp only [List.getD_eq_getElem _ _ hi', List.getD_eq_getElem _ _ hj']
          rcases Nat.lt_or_eq_of_le hle with h | h
          · exact h
          · exfalso
            have n1 := hok.ne _ (List.getElem_mem hi')
            have n2 := hok.ne _ (List.getElem_mem hj')
            have f1 : front ps[i] ∈ ps[i] := by
              cases hp : ps[i] with
              | nil => exact absurd hp n1
              | cons a l => simp [front]
            have f2 : front ps[j] ∈ ps[j] := by
              cases hp : ps[j] with
              | nil => exact absurd hp n2
              | cons a l => simp [front]
            rw [← h] at f2
            exact hdis _ f1 f2

theorem setsOk_input (input : List (List Nat)) (hne : ∀ p ∈ input, p ≠ []) (hs : isSortedParts (input.map toSet) = true) :
    SetsOk (input.map toSet) := by
  refine ⟨fun p hp => ?_, fun p hp => ?_, (isSortedParts_iff _).1 hs⟩
  · obtain ⟨q, hq, rfl⟩ := List.mem_map.1 hp
    exact toSet_ne q (hne q hq)
  · obtain ⟨q, hq, rfl⟩ := List.mem_map.1 hp
    exact toSet_sorted q

/-- **C102.** Whatever partitions `set_op_partitions` accepts, it completes them to a partition of all operators, listed by first
members. -/
theorem setOpPartitions_wf (n : Nat) (input : List (List Nat)) (P : Parts) (h : setOpPartitions n input = some P) : P.WF n := by
  simp only [setOpPartitions] at h
  split at h
  · simp at h
  · rename_i hne
    split at h
    · rename_i hs
      refine partLoop_wf n 3 _ (setsOk_input input (fun p hp hc => hne ?_) hs) P h
      rw [List.any_eq_true]
      exact ⟨p, hp, by rw [hc]; rfl⟩
    · simp at h

/-- **C102.** Nonempty disjoint partitions of existing operators, listed by first members, are accepted (no assertion fails, the loop ends
after at most two rounds) and kept; the operators in none of them become partitions of their own. -/
theorem setOpPartitions_complete (n : Nat) (input : List (List Nat)) (hne : ∀ p ∈ input, p ≠ [])
    (hlt : ∀ p ∈ input, ∀ x ∈ p, x < n) (hdis : input.Pairwise fun p q => ∀ x ∈ p, x ∉ q)
    (hs : (input.map toSet).Pairwise fun x y => front x ≤ front y) :
    ∃ P, setOpPartitions n input = some P ∧
      ∀ l, l ∈ P.parts ↔ (∃ p ∈ input, l = toSet p) ∨ ∃ x < n, (∀ p ∈ input, x ∉ p) ∧ l = [x] := by
  have hs' := (isSortedParts_iff _).2 hs
  have hok := setsOk_input input hne hs'
  have hany : input.any List.isEmpty = false := by
    rw [List.any_eq_false]
    intro p hp
    simpa using hne p hp
  simp only [setOpPartitions, hany, Bool.false_eq_true, if_false, hs', if_true]
  have hdis' : (input.map toSet).Pairwise fun p q => ∀ x ∈ p, x ∉ q := by
    rw [List.pairwise_map]
    exact hdis.imp fun h x hx hx' => h x ((toSet_mem _ _).1 hx) ((toSet_mem _ _).1 hx')
  have hz : ∀ x, (List.replicate n 0).getD x 0 = 0 := by
    intro x
    simp only [List.getD, List.getElem?_replicate]
    split <;> rfl
  have hlt' : ∀ p ∈ input.map toSet, ∀ x ∈ p, x < n ∧ (List.replicate n 0).getD x 0 = 0 := by
    intro p hp x hx
    obtain ⟨q, hq, rfl⟩ := List.mem_map.1 hp
    exact ⟨hlt q hq x ((toSet_mem _ _).1 hx), hz x⟩
  have h1 := fillIdx_isSome n 0 (input.map toSet) (List.replicate n 0) (by simp)
    (fun p hp => (hok.inc p hp).imp Nat.ne_of_lt) hlt' hdis'
  obtain ⟨idx, h2⟩ := Option.isSome_iff_exists.1 h1
  obtain ⟨a1, a2, a3, a4, a5⟩ := fillIdx_spec n 0 _ _ idx (by simp) h2
  have hmiss : ∀ x, x ∈ missing n idx ↔ x < n ∧ ∀ p ∈ input, x ∉ p := by
    intro x
    simp only [missing, List.mem_filter, List.mem_range, decide_eq_true_eq]
    refine and_congr_right fun hx => ⟨fun h p hp hxp => ?_, fun h => ?_⟩
    · obtain ⟨i, hi, he⟩ := List.getElem_of_mem (List.mem_map.2 ⟨p, hp, rfl⟩ : toSet p ∈ input.map toSet)
      have := a3 i x (by rw [List.getD_eq_getElem _ _ hi, he]; exact (toSet_mem _ _).2 hxp)
      omega
    · rw [a4 x, hz]
      intro p hp hxp
      obtain ⟨q, hq, rfl⟩ := List.mem_map.1 hp
      exact h q hq ((toSet_mem _ _).1 hxp)
  rw [partLoop, h2, Option.bind_some]
  by_cases hc : idx.contains 0 = true
  · rw [if_pos hc]
    set ps2 := (input.map toSet ++ (missing n idx).map fun x => [x]).insertionSort fun x y => front x ≤ front y with hps2
    have hperm : ps2.Perm (input.map toSet ++ (missing n idx).map fun x => [x]) := List.perm_insertionSort _ _
    have hm2 : ∀ p, p ∈ ps2 ↔ (∃ q ∈ input, p = toSet q) ∨ ∃ x ∈ missing n idx, p = [x] := by
      intro p
      rw [hperm.mem_iff]
      simp [eq_comm]
    have hd2 : ps2.Pairwise fun p q => ∀ x ∈ p, x ∉ q := by
      rw [hperm.pairwise_iff (by intro a b h x hx hx'; exact h x hx' hx)]
      rw [List.pairwise_append]
      refine ⟨hdis', ?_, ?_⟩
      · rw [List.pairwise_map]
        have : (missing n idx).Nodup := List.Nodup.filter _ List.nodup_range
        refine this.imp fun {a b} hab x hx hx' => ?_
        simp only [List.mem_singleton] at hx hx'
        exact hab (by rw [← hx, hx'])
      · intro p hp q hq x hx hx'
        obtain ⟨p', hp', rfl⟩ := List.mem_map.1 hp
        obtain ⟨y, hy, rfl⟩ := List.mem_map.1 hq
        simp only [List.mem_singleton] at hx'
        subst hx'
        exact ((hmiss x).1 hy).2 p' hp' ((toSet_mem _ _).1 hx)
    have hok2 := hok.add (missing n idx)
    have hlt2 : ∀ p ∈ ps2, ∀ x ∈ p, x < n ∧ (List.replicate n 0).getD x 0 = 0 := by
      intro p hp x hx
      refine ⟨?_, hz x⟩
      rcases (hm2 p).1 hp with ⟨q, hq, rfl⟩ | ⟨y, hy, rfl⟩
      · exact hlt q hq x ((toSet_mem _ _).1 hx)
      · simp only [List.mem_singleton] at hx
        subst hx
        exact ((hmiss x).1 hy).1
    obtain ⟨idx2, h4⟩ := Option.isSome_iff_exists.1 (fillIdx_isSome n 0 ps2 (List.replicate n 0) (by simp)
      (fun p hp => (hok2.inc p hp).imp Nat.ne_of_lt) hlt2 hd2)
    obtain ⟨b1, b2, b3, b4, b5⟩ := fillIdx_spec n 0 _ _ idx2 (by simp) h4
    have hnz : idx2.contains 0 = false := by
      by_contra hcc
      have hcc : 0 ∈ idx2 := by simpa using hcc
      obtain ⟨x, hx, he⟩ := List.getElem_of_mem hcc
      have hxn : x < n := by omega
      have hx2 : ∃ p ∈ ps2, x ∈ p := by
        by_cases hh : ∀ p ∈ input, x ∉ p
        · exact ⟨[x], (hm2 _).2 (Or.inr ⟨x, (hmiss x).2 ⟨hxn, hh⟩, rfl⟩), by simp⟩
        · push Not at hh
          obtain ⟨p, hp, hxp⟩ := hh
          exact ⟨toSet p, (hm2 _).2 (Or.inl ⟨p, hp, rfl⟩), (toSet_mem _ _).2 hxp⟩
      obtain ⟨p, hp, hxp⟩ := hx2
      obtain ⟨i, hi, rfl⟩ := List.getElem_of_mem hp
      have := b3 i x (by rw [List.getD_eq_getElem _ _ hi]; exact hxp)
      rw [List.getD_eq_getElem _ _ hx, he] at this
      omega
    rw [partLoop, h4, Option.bind_some, hnz]
    refine ⟨⟨ps2, idx2⟩, by simp, fun l => ?_⟩
    simp only [hm2, hmiss]
    refine or_congr Iff.rfl ⟨?_, ?_⟩
    · rintro ⟨x, ⟨h1, h2⟩, h3⟩; exact ⟨x, h1, h2, h3⟩
    · rintro ⟨x, h1, h2, h3⟩; exact ⟨x, ⟨h1, h2⟩, h3⟩
  · rw [if_neg hc]
    refine ⟨_, rfl, fun l => ?_⟩
    simp only [List.mem_map, eq_comm]
    constructor
    · exact Or.inl
    · rintro (h | ⟨x, hx, h3, rfl⟩)
      · exact h
      · exfalso
        have h5 := (hmiss x).2 ⟨hx, h3⟩
        simp only [missing, List.mem_filter, decide_eq_true_eq] at h5
        apply hc
        rw [List.contains_iff_mem, ← h5.2, List.getD_eq_getElem _ _ (by omega)]
        exact List.getElem_mem _

end SeQuant.Topology
