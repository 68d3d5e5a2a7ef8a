import Verif.Uncontr.Count

/-!
# With partial contractions, too, the filter keeps exactly one set of contractions of each kind
-/

namespace SeQuant.Topology

open SeQuant.Wick

variable {S : Statistics}

/-- The additional condition of the filter (wick.hpp:1336-1351): the left operator is the first free one of its partition. -/
theorem isUnique_partial (P : Parts) (s : TState) (o r : Nat) :
    isUnique P false s o r = (decide (s.ncontr (P.part o) = P.pord o) && isUnique P true s o r) := by
  unfold isUnique
  by_cases h : s.ncontr (P.part o) = P.pord o
  · simp [h]
  · simp [h]

/-- The search has passed the first free operator of the partition, so that no operator of it can be contracted any more. -/
def Dead (P : Parts) (n : Nat) (s : TState) (fl : List Nat) (i : Nat) : Prop :=
  ∃ z < n, P.part z = i ∧ P.pord z = s.ncontr i ∧ z ∉ fl

/-- Contracted operators are the first ones of their partitions; in a partition not passed the rest is still ahead. -/
structure InvP (P : Parts) (n : Nat) (s : TState) (fl : List Nat) : Prop where
  lt : ∀ x ∈ fl, x < n
  sorted : fl.Pairwise (· < ·)
  le : ∀ x ∈ fl, s.ncontr (P.part x) ≤ P.pord x
  alive : ∀ x < n, ¬ Dead P n s fl (P.part x) → s.ncontr (P.part x) ≤ P.pord x → x ∈ fl

section
variable {P : Parts} {n : Nat} {s : TState} {o : Nat} {rest : List Nat} {others : List (List Nat)}

theorem InvP.left (hP : P.WF n) {l : List Nat} (h : InvP P n s (o :: l)) :
    s.ncontr (P.part o) = P.pord o ↔ ¬ Dead P n s (o :: l) (P.part o) := by
  have ho : o < n := h.lt o (by simp)
  constructor
  · rintro he ⟨z, hz, hzp, hzo, hzn⟩
    have : z = o := hP.pord_inj hz ho hzp (by rw [hzo, he])
    exact hzn (by simp [this])
  · intro hd
    have hle := h.le o (by simp)
    obtain ⟨z, hz, hzp, hzo⟩ := hP.exists_pord ho hle
    have hzm : z ∈ o :: l := h.alive z hz (by rwa [hzp]) (by rw [hzp, hzo])
    have hoz : o ≤ z := by
      rcases List.mem_cons.1 hzm with rfl | hzm
      · exact Nat.le_refl _
      · exact Nat.le_of_lt ((List.pairwise_cons.1 h.sorted).1 z hzm)
    by_contra hne
    have := hP.pord_mono hz ho hzp (by omega)
    omega

theorem dead_skip (hP : P.WF n) {l : List Nat} (h : InvP P n s (o :: l)) (i : Nat) :
    Dead P n s l i ↔ Dead P n s (o :: l) i ∨ i = P.part o := by
  have ho : o < n := h.lt o (by simp)
  constructor
  · rintro ⟨z, hz, hzp, hzo, hzn⟩
    by_cases he : z = o
    · right; rw [← hzp, he]
    · left; exact ⟨z, hz, hzp, hzo, by simp [he, hzn]⟩
  · rintro (⟨z, hz, hzp, hzo, hzn⟩ | rfl)
    · exact ⟨z, hz, hzp, hzo, fun hm => hzn (List.mem_cons_of_mem _ hm)⟩
    · by_cases hd : Dead P n s (o :: l) (P.part o)
      · obtain ⟨z, hz, hzp, hzo, hzn⟩ := hd
        exact ⟨z, hz, hzp, hzo, fun hm => hzn (List.mem_cons_of_mem _ hm)⟩
      · refine ⟨o, ho, rfl, ((h.left hP).2 hd).symm, fun hm => ?_⟩
        exact absurd ((List.pairwise_cons.1 h.sorted).1 o hm) (Nat.lt_irrefl _)

theorem InvP.skip (hP : P.WF n) {l : List Nat} (h : InvP P n s (o :: l)) : InvP P n s l := by
  refine ⟨fun x hx => h.lt x (List.mem_cons_of_mem _ hx), (List.pairwise_cons.1 h.sorted).2,
    fun x hx => h.le x (List.mem_cons_of_mem _ hx), fun x hx hd hle => ?_⟩
  rw [dead_skip hP h, not_or] at hd
  rcases List.mem_cons.1 (h.alive x hx hd.1 hle) with rfl | hm
  · exact absurd rfl hd.2
  · exact hm

theorem dead_pick (hP : P.WF n) (h : InvP P n s ((o :: rest) :: others).flatten)
    {p : Nat × Nat × List (List Nat)} (hp : p ∈ picks others) (hne : P.part o ≠ P.part p.2.1)
    (hl : s.ncontr (P.part o) = P.pord o) (hr : s.ncontr (P.part p.2.1) = P.pord p.2.1) (i : Nat) :
    (Dead P n (s.connect P o p.2.1) (rest :: p.2.2).flatten i ↔ Dead P n s ((o :: rest) :: others).flatten i) ∧
      ((i = P.part o ∨ i = P.part p.2.1) → ¬ Dead P n s ((o :: rest) :: others).flatten i) := by
  have hnd : ((o :: rest) :: others).flatten.Nodup := h.sorted.imp fun h => Nat.ne_of_lt h
  have hm := pick_mem_iff hnd hp
  have ho : o < n := h.lt o (by simp)
  have hrm : p.2.1 ∈ ((o :: rest) :: others).flatten := by simp [pick_mem hp]
  have hrn : p.2.1 < n := h.lt _ hrm
  have nda : ¬ Dead P n s ((o :: rest) :: others).flatten (P.part o) := by
    rintro ⟨z, hz, hzp, hzo, hzn⟩
    have : z = o := hP.pord_inj hz ho hzp (by rw [hzo, hl])
    exact hzn (by simp [this])
  have ndb : ¬ Dead P n s ((o :: rest) :: others).flatten (P.part p.2.1) := by
    rintro ⟨z, hz, hzp, hzo, hzn⟩
    have : z = p.2.1 := hP.pord_inj hz hrn hzp (by rw [hzo, hr])
    exact hzn (this ▸ hrm)
  constructor
  · by_cases h1 : i = P.part o
    · subst h1
      refine iff_of_false ?_ nda
      rintro ⟨z, hz, hzp, hzo, hzn⟩
      simp only [TState.connect, upd, if_neg hne, if_pos] at hzo
      apply hzn
      rw [hm]
      refine ⟨h.alive z hz (by rwa [hzp]) (by rw [hzp]; omega), fun e => ?_, fun e => hne (by rw [← hzp, e])⟩
      rw [e] at hzo; omega
    · by_cases h2 : i = P.part p.2.1
      · subst h2
        refine iff_of_false ?_ ndb
        rintro ⟨z, hz, hzp, hzo, hzn⟩
        simp only [TState.connect, upd, if_neg (Ne.symm hne), if_pos] at hzo
        apply hzn
        rw [hm]
        refine ⟨h.alive z hz (by rwa [hzp]) (by rw [hzp]; omega), fun e => hne (by rw [← hzp, e]), fun e => ?_⟩
        rw [e] at hzo; omega
      · unfold Dead
        have hnc : (s.connect P o p.2.1).ncontr i = s.ncontr i := by
          simp only [TState.connect, upd, if_neg h1, if_neg h2]
        rw [hnc]
        constructor
        · rintro ⟨z, hz, hzp, hzo, hzn⟩
          refine ⟨z, hz, hzp, hzo, fun hz' => hzn ((hm z).2 ⟨hz', ?_, ?_⟩)⟩
          · rintro rfl; exact h1 hzp.symm
          · rintro rfl; exact h2 hzp.symm
        · rintro ⟨z, hz, hzp, hzo, hzn⟩
          exact ⟨z, hz, hzp, hzo, fun hz' => hzn ((hm z).1 hz').1⟩
  · rintro (rfl | rfl)
    · exact nda
    · exact ndb

theorem InvP.pick (hP : P.WF n) (h : InvP P n s ((o :: rest) :: others).flatten)
    {p : Nat × Nat × List (List Nat)} (hp : p ∈ picks others) (hne : P.part o ≠ P.part p.2.1)
    (hl : s.ncontr (P.part o) = P.pord o) (hr : s.ncontr (P.part p.2.1) = P.pord p.2.1) :
    InvP P n (s.connect P o p.2.1) (rest :: p.2.2).flatten := by
  have hnd : ((o :: rest) :: others).flatten.Nodup := h.sorted.imp fun h => Nat.ne_of_lt h
  have hm := pick_mem_iff hnd hp
  have ho : o < n := h.lt o (by simp)
  have hrn : p.2.1 < n := h.lt _ (by simp [pick_mem hp])
  have hnc : ∀ i, (s.connect P o p.2.1).ncontr i =
      s.ncontr i + (if i = P.part o then 1 else 0) + (if i = P.part p.2.1 then 1 else 0) := by
    intro i
    simp only [TState.connect, upd]
    by_cases h1 : i = P.part o
    · subst h1; simp [hne]
    · by_cases h2 : i = P.part p.2.1
      · subst h2; simp [Ne.symm hne]
      · simp [h1, h2]
  refine ⟨fun x hx => h.lt x ((hm x).1 hx).1, ?_, fun x hx => ?_, fun x hx hd hle => ?_⟩
  · rw [pick_nops hnd hp, flatten_map_filter]
    exact h.sorted.sublist List.filter_sublist
  · obtain ⟨h1, h2, h3⟩ := (hm x).1 hx
    have hxn := h.lt x h1
    have hle := h.le x h1
    rw [hnc]
    by_cases e1 : P.part x = P.part o
    · have : P.pord x ≠ P.pord o := fun e => h2 (hP.pord_inj hxn ho e1 e)
      rw [e1] at hle ⊢
      rw [if_pos rfl, if_neg hne]; omega
    · by_cases e2 : P.part x = P.part p.2.1
      · have : P.pord x ≠ P.pord p.2.1 := fun e => h3 (hP.pord_inj hxn hrn e2 e)
        rw [e2] at hle ⊢
        rw [if_neg (Ne.symm hne), if_pos rfl]; omega
      · rw [if_neg e1, if_neg e2]; omega
  · rw [(dead_pick hP h hp hne hl hr _).1] at hd
    rw [hnc] at hle
    refine (hm x).2 ⟨h.alive x hx hd (by omega), ?_, ?_⟩
    · rintro rfl
      rw [if_pos rfl] at hle; omega
    · rintro rfl
      rw [if_pos rfl] at hle; omega

end

/-- Phase and contractions of the filtered search below a call, with the empty set of contractions. -/
def contTP (S : Statistics) (cc : Nat → Nat → Bool) (P : Parts) (fuel : Nat) (s : TState) (nops : List (List Nat)) :
    List (Term Nat) :=
  (1, []) :: (wickTopoPartial S cc P fuel s nops).map fun t => (t.2.1, t.2.2.1)

theorem wickTopoPartial_none (cc : Nat → Nat → Bool) (P : Parts) (fuel : Nat) (s : TState) (nops : List (List Nat))
    (h : opsize nops = 0) : wickTopoPartial S cc P fuel s nops = [] := by
  induction fuel generalizing nops with
  | zero => rfl
  | succ fuel ih =>
    match nops with
    | [] => rfl
    | [] :: nops => simp only [wickTopoPartial]; rw [ih nops (by simpa [opsize] using h)]; rfl
    | (o :: rest) :: others => simp [opsize] at h

theorem contTP_step (cc : Nat → Nat → Bool) (P : Parts) (fuel : Nat) (s : TState) (o : Nat) (rest : List Nat)
    (others : List (List Nat)) :
    (contTP S cc P (fuel + 1) s ((o :: rest) :: others)).Perm
      (((picks others).flatMap fun p =>
        if cc o p.2.1 && isUnique P false s o p.2.1 then
          (contTP S cc P fuel (s.connect P o p.2.1) (rest :: p.2.2)).map fun t =>
            (phase S (rest.length + p.1) * t.1, (o, p.2.1) :: t.2) else []) ++ contTP S cc P fuel s (rest :: others)) := by
  have e : (wickTopoPartial S cc P (fuel + 1) s ((o :: rest) :: others)).map (fun t => (t.2.1, t.2.2.1)) =
      ((picks others).flatMap fun p =>
        if cc o p.2.1 && isUnique P false s o p.2.1 then
          (contTP S cc P fuel (s.connect P o p.2.1) (rest :: p.2.2)).map fun t =>
          (phase S (rest.length + p.1) * t.1, (o, p.2.1) :: t.2) else []) ++
        (wickTopoPartial S cc P fuel s (rest :: others)).map fun t => (t.2.1, t.2.2.1) := by
    simp only [wickTopoPartial, List.map_append, List.map_flatMap, List.map_map]
    congr 1
    congr 1
    funext p
    split
    · unfold contTP
      split
      · rename_i h0
        rw [wickTopoPartial_none _ _ _ _ _ h0]
        simp
      · simp [Function.comp_def]
    · rfl
  unfold contTP at e ⊢
  rw [e]
  exact List.perm_middle.symm

/-- The kinds that the filtered search can still make. -/
structure FitsT (P : Parts) (n : Nat) (adm : Nat → Nat → Bool) (s : TState) (C : Multiset (Nat × Nat)) (fl : List Nat)
    (B : Multiset (Nat × Nat)) : Prop where
  fits : FitsP P.part adm fl B
  dead : ∀ i, Dead P n s fl i → inc B i = 0
  compat : Compat C B

open Classical in
/-- **The filter keeps exactly one set of contractions of each kind that fits.** -/
theorem cnt_topo_partial {P : Parts} {n : Nat} (hP : P.WF n) {cc adm : Nat → Nat → Bool} (hord : ∀ i j, adm i j = true → i < j)
    (fuel : Nat) (s : TState) (C : Multiset (Nat × Nat)) (hs : Rep P s C) (nops : List (List Nat))
    (hfuel : wickFuel nops ≤ fuel) (h : Ctx P.part P.num cc adm nops) (hI : InvP P n s nops.flatten) (B : Multiset (Nat × Nat)) :
    (cnt P.part (contTP S cc P fuel s nops) B : Rat) = if FitsT P n adm s C nops.flatten B then 1 else 0 := by
  induction fuel generalizing s C nops B with
  | zero => simp [wickFuel] at hfuel
  | succ fuel ih =>
    match nops with
    | [] =>
      by_cases hB : B = 0
      · subst hB
        rw [List.flatten_nil, if_pos ⟨(fitsP_nil _ _ _).2 rfl, fun i _ => by simp [inc], by intro q hq; simp at hq⟩]
        simp [contTP, wickTopoPartial, cnt, keyOf_nil]
      · rw [List.flatten_nil, if_neg (fun hh => hB ((fitsP_nil _ _ _).1 hh.fits))]
        simp [contTP, wickTopoPartial, cnt, keyOf_nil, Ne.symm hB]
    | [] :: nops =>
      have e1 : contTP S cc P (fuel + 1) s ([] :: nops) = contTP S cc P fuel s nops := by
        simp [contTP, wickTopoPartial, Function.comp_def]
      rw [e1, ih s C hs nops (by simp [wickFuel, opsize] at hfuel ⊢; omega) h.tail (by simpa using hI)]
      simp
    | (o :: rest) :: others =>
      have hothers : others.flatten.Nodup := by
        have := h.nodup
        rw [List.flatten_cons] at this
        exact (List.nodup_append.mp this).2.1
      have hfl : ∀ p ∈ picks others, wickFuel (rest :: p.2.2) ≤ fuel := by
        intro p hp
        have hsz := picks_opsize others p hp
        have hlen : p.2.2.length = others.length := by
          rw [picks_filter others hothers p hp, List.length_map]
        simp [wickFuel, opsize] at hfuel hsz ⊢; omega
      have hIc : InvP P n s (o :: (rest :: others).flatten) := by rw [← skip_flatten]; exact hI
      have hskip := ih s C hs (rest :: others) (by simp [wickFuel, opsize] at hfuel ⊢; omega) h.skip (hIc.skip hP) B
      rw [cnt_perm P.part (contTP_step cc P fuel s o rest others), cnt_append, Nat.cast_add, hskip, cnt_flatMap]
      clear hskip
      set fl := ((o :: rest) :: others).flatten with hfld
      have hflc : fl = o :: (rest :: others).flatten := skip_flatten o rest others
      have ho : o ∈ fl := by simp [hfld]
      have hleft : s.ncontr (P.part o) = P.pord o ↔ ¬ Dead P n s fl (P.part o) := by rw [hflc]; exact hIc.left hP
      -- skipping the operator
      have hsk : FitsT P n adm s C (rest :: others).flatten B ↔ FitsT P n adm s C fl B ∧ inc B (P.part o) = 0 := by
        constructor
        · intro hh
          have h1 := (fitsP_skip (o := o)).1 hh.fits
          rw [← hflc] at h1
          have h2 : ∀ i, Dead P n s fl i ∨ i = P.part o → inc B i = 0 := fun i hi =>
            hh.dead i ((dead_skip hP hIc i).2 (by rwa [← hflc]))
          exact ⟨⟨h1.1, fun i hi => h2 i (Or.inl hi), hh.compat⟩, h2 _ (Or.inr rfl)⟩
        · rintro ⟨hh, h0⟩
          refine ⟨(fitsP_skip (o := o)).2 ⟨by rw [← hflc]; exact hh.fits, ?_⟩, fun i hi => ?_, hh.compat⟩
          · rw [h0, ← hflc]; exact (free_pos_iff _ _ _).2 ⟨o, ho, rfl⟩
          · rcases (dead_skip hP hIc i).1 hi with h1 | rfl
            · exact hh.dead i (by rwa [hflc])
            · exact h0
      -- contracting it
      have hterm : ∀ p ∈ picks others, (cnt P.part (if (cc o p.2.1 && isUnique P false s o p.2.1) = true then
            (contTP S cc P fuel (s.connect P o p.2.1) (rest :: p.2.2)).map fun t =>
              (phase S (rest.length + p.1) * t.1, (o, p.2.1) :: t.2) else []) B : Rat) =
          if (P.part o, P.part p.2.1) ∈ B ∧ (FitsP P.part adm fl B ∧ cc o p.2.1 = true) ∧
            (¬ Dead P n s fl (P.part o) ∧ (∀ q ∈ C, q.1 = P.part o → q.2 ≤ P.part p.2.1) ∧ inc C (P.part p.2.1) = P.pord p.2.1) ∧
            (∀ i, Dead P n s fl i → inc B i = 0) ∧
            Compat ((P.part o, P.part p.2.1) ::ₘ C) (B.erase (P.part o, P.part p.2.1)) then 1 else 0 := by
        intro p hp
        have hmem : p.2.1 ∈ fl := by simp [hfld, pick_mem hp]
        by_cases hc : cc o p.2.1 = true
        · have hadm := (h.partner (by simpa [hfld] using hmem)).2 ⟨pick_mem hp, hc⟩
          have hlt := hord _ _ hadm
          have hrm := h.lt _ hmem
          have hu : isUnique P false s o p.2.1 = true ↔ ¬ Dead P n s fl (P.part o) ∧
              (∀ q ∈ C, q.1 = P.part o → q.2 ≤ P.part p.2.1) ∧ inc C (P.part p.2.1) = P.pord p.2.1 := by
            rw [isUnique_partial, Bool.and_eq_true, decide_eq_true_eq, hleft, isUnique_iff hs hlt hrm]
          by_cases hun : isUnique P false s o p.2.1 = true
          · have hu' := hu.1 hun
            rw [if_pos (by simp [hc, hun]), cnt_map]
            by_cases hB : (P.part o, P.part p.2.1) ∈ B
            · have hne : P.part o ≠ P.part p.2.1 := by omega
              have hl := hleft.2 hu'.1
              have hr : s.ncontr (P.part p.2.1) = P.pord p.2.1 := by rw [hs.ncontr]; exact hu'.2.2
              have hdp := dead_pick hP hI hp hne hl hr
              rw [if_pos hB, ih (s.connect P o p.2.1) _ (hs.connect hlt hrm) _ (hfl p hp) (h.pick hp) (hI.pick hP hp hne hl hr)]
              congr 1
              have hinc := inc_erase _ _ hB
              refine propext ⟨fun hh => ⟨hB, ⟨(fitsP_pick h hp B hB hc).1 hh.fits, hc⟩, hu', fun i hi => ?_, hh.compat⟩,
                fun hh => ⟨(fitsP_pick h hp B hB hc).2 hh.2.1.1, fun i hi => ?_, hh.2.2.2.2⟩⟩
              · have h1 : i ≠ P.part o := fun e => (hdp i).2 (Or.inl e) hi
                have h2 : i ≠ P.part p.2.1 := fun e => (hdp i).2 (Or.inr e) hi
                rw [hinc, if_neg h1, if_neg h2, hh.dead i ((hdp i).1.2 hi)]
              · have := hh.2.2.2.1 i ((hdp i).1.1 hi)
                have := hinc i
                omega
            · rw [if_neg hB, if_neg (fun hh => hB hh.1)]
              simp
          · rw [if_neg (by simp [hun]), if_neg (fun hh => hun (hu.2 hh.2.2.1))]
            simp [cnt]
        · rw [if_neg (by simp [hc]), if_neg (fun hh => hc hh.2.1.2)]
          simp [cnt]
      rw [List.map_congr_left hterm, if_congr hsk rfl rfl]
      by_cases hFC : FitsT P n adm s C fl B
      · rw [if_pos hFC]
        obtain ⟨hF, hD, hC⟩ := hFC
        by_cases h0 : inc B (P.part o) = 0
        · rw [if_pos ⟨⟨hF, hD, hC⟩, h0⟩, List.sum_eq_zero, zero_add]
          intro z hz
          obtain ⟨p, hp, rfl⟩ := List.mem_map.1 hz
          rw [if_neg]
          rintro ⟨hB, _⟩
          have := (inc_pos_iff B (P.part o)).2 ⟨_, hB, Or.inl rfl⟩
          omega
        · rw [if_neg (fun hh => h0 hh.2), add_zero]
          have hnd : ¬ Dead P n s fl (P.part o) := fun hd => h0 (hD _ hd)
          -- the smallest right partition
          have hex : ∃ R, (P.part o, R) ∈ B := by
            have := FitsP.row h hF
            have hp : 0 < (B.map Prod.fst).count (P.part o) := by omega
            rw [Multiset.count_pos, Multiset.mem_map] at hp
            obtain ⟨q, hq1, hq2⟩ := hp
            exact ⟨q.2, by rw [← hq2]; exact hq1⟩
          have hR0 := Nat.find_spec hex
          have hmin : ∀ R, (P.part o, R) ∈ B → Nat.find hex ≤ R := fun R hR => Nat.find_min' hex hR
          set R0 := Nat.find hex with hR0d
          obtain ⟨_, y, hy, hye⟩ := hF.exists hR0
          simp only at hye
          have hyn : y < n := hI.lt y hy
          have hndR : ¬ Dead P n s fl R0 := by
            intro hd
            have h1 := hD _ hd
            have h2 := (inc_pos_iff B R0).2 ⟨_, hR0, Or.inr rfl⟩
            omega
          obtain ⟨r0, hr0n, hr0p, hr0o⟩ := hP.exists_pord hyn (hI.le y hy)
          have hr0R : P.part r0 = R0 := by rw [hr0p, hye]
          have hr0m : r0 ∈ fl := hI.alive r0 hr0n (by rw [hr0R]; exact hndR) (by rw [hr0p, hr0o])
          have hr0 : r0 ∈ others.flatten ∧ cc o r0 = true := FitsP.canc h hF hr0m (by rw [hr0R]; exact hR0)
          apply sum_one_hot _ _ (fun p => p.2.1) (by rw [picks_ops]; exact hothers) r0 (by rw [picks_ops]; exact hr0.1)
          · intro p hp hpr
            rw [if_pos]
            rw [hpr, hr0R]
            refine ⟨hR0, ⟨hF, hr0.2⟩, ⟨hnd, fun q hq h1 => ?_, ?_⟩, hD, ?_⟩
            · exact hC _ hR0 q hq h1
            · rw [← hs.ncontr, hr0o, hye]
            · intro q hq q' hq' he
              have hqB := Multiset.mem_of_mem_erase hq
              rcases Multiset.mem_cons.1 hq' with rfl | hq'
              · simp only at he ⊢
                apply hmin
                rw [he]
                exact hqB
              · exact hC q hqB q' hq' he
          · intro p hp hpr
            rw [if_neg]
            rintro ⟨hB, ⟨_, hc⟩, ⟨_, _, hu⟩, _, hcomp⟩
            have hmem : p.2.1 ∈ fl := by simp [hfld, pick_mem hp]
            have hRle := hmin _ hB
            have hReq : P.part p.2.1 = R0 := by
              by_contra hne
              have hin : (P.part o, R0) ∈ B.erase (P.part o, P.part p.2.1) :=
                (Multiset.mem_erase_of_ne (by simpa using Ne.symm hne)).2 hR0
              have := hcomp _ hin (P.part o, P.part p.2.1) (Multiset.mem_cons_self _ _) rfl
              simp only at this
              omega
            apply hpr
            apply hP.pord_inj (hI.lt _ hmem) hr0n (by rw [hReq, hr0R])
            rw [← hu, hr0o, hs.ncontr, hReq, hye]
      · rw [if_neg hFC, if_neg (fun hh => hFC hh.1), add_zero]
        apply List.sum_eq_zero
        intro z hz
        obtain ⟨p, hp, rfl⟩ := List.mem_map.1 hz
        rw [if_neg]
        rintro ⟨hB, ⟨hF, _⟩, ⟨_, hu, _⟩, hD, hcomp⟩
        refine hFC ⟨hF, hD, fun q hq q' hq' he => ?_⟩
        by_cases hqe : q = (P.part o, P.part p.2.1)
        · subst hqe
          exact hu q' hq' he
        · exact hcomp q ((Multiset.mem_erase_of_ne hqe).2 hq) q' (Multiset.mem_cons_of_mem hq') he

end SeQuant.Topology
