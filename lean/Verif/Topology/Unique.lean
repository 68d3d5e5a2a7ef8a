import Verif.Topology.Count
import Verif.Wick.ConnectProps

/-!
# The topological filter keeps exactly one set of contractions of each kind
-/

namespace SeQuant.Topology

open SeQuant.Wick

variable {S : Statistics}

/-- The partitions cover the operators `0 .. n-1`, every partition is the increasing list of its members, none is empty, and they are
listed by their first members. -/
structure Parts.WF (P : Parts) (n : Nat) : Prop where
  lt : ∀ x < n, P.part x < P.num
  members : ∀ i < P.num, P.parts.getD i [] = (List.range n).filter fun x => decide (P.part x = i)
  ne : ∀ i < P.num, P.parts.getD i [] ≠ []
  sorted : ∀ i j, i < j → j < P.num → front (P.parts.getD i []) < front (P.parts.getD j [])

section
variable {P : Parts} {n : Nat}

theorem Parts.WF.mem (h : P.WF n) {x : Nat} (hx : x < n) : x ∈ P.parts.getD (P.part x) [] := by
  rw [h.members _ (h.lt x hx)]; simp [hx]

theorem Parts.WF.pairwise (h : P.WF n) {i : Nat} (hi : i < P.num) : (P.parts.getD i []).Pairwise (· < ·) := by
  rw [h.members i hi]
  exact List.Pairwise.filter _ List.pairwise_lt_range

theorem Parts.WF.pord_lt (h : P.WF n) {x : Nat} (hx : x < n) : P.pord x < (P.parts.getD (P.part x) []).length :=
  List.idxOf_lt_length_of_mem (h.mem hx)

theorem Parts.WF.getElem_pord (h : P.WF n) {x : Nat} (hx : x < n) :
    (P.parts.getD (P.part x) [])[P.pord x]'(h.pord_lt hx) = x := List.getElem_idxOf _

theorem Parts.WF.pord_inj (h : P.WF n) {x y : Nat} (hx : x < n) (hy : y < n) (hp : P.part x = P.part y)
    (ho : P.pord x = P.pord y) : x = y := by
  have h1 := h.getElem_pord hx
  have h2 := h.getElem_pord hy
  rw [← h1, ← h2]
  simp only [hp, ho]

theorem Parts.WF.pord_mono (h : P.WF n) {x y : Nat} (hx : x < n) (hy : y < n) (hp : P.part x = P.part y)
    (ho : P.pord x < P.pord y) : x < y := by
  have h1 := h.getElem_pord hx
  have h2 := h.getElem_pord hy
  have hpw := List.pairwise_iff_getElem.1 (h.pairwise (h.lt y hy)) (P.pord x) (P.pord y)
    (by rw [← hp]; exact h.pord_lt hx) (h.pord_lt hy) ho
  rw [h2] at hpw
  simp only [hp] at h1
  rwa [h1] at hpw

theorem Parts.WF.exists_pord (h : P.WF n) {x k : Nat} (hx : x < n) (hk : k ≤ P.pord x) :
    ∃ z < n, P.part z = P.part x ∧ P.pord z = k := by
  have hlt : k < (P.parts.getD (P.part x) []).length := lt_of_le_of_lt hk (h.pord_lt hx)
  have hm := List.getElem_mem hlt
  set z := (P.parts.getD (P.part x) [])[k] with hz
  rw [h.members _ (h.lt x hx)] at hm
  simp only [List.mem_filter, List.mem_range, decide_eq_true_eq] at hm
  refine ⟨z, hm.1, hm.2, ?_⟩
  unfold Parts.pord
  rw [hm.2, hz]
  exact List.Nodup.idxOf_getElem ((h.pairwise (h.lt x hx)).imp (fun h => Nat.ne_of_lt h)) k hlt

end

/-- The state after contractions of kinds `C`. -/
structure Rep (P : Parts) (s : TState) (C : Multiset (Nat × Nat)) : Prop where
  cdeg : ∀ i j, i < j → j < P.num → s.cdeg (uptriIdx i j P.num) = C.count (i, j)
  ncontr : ∀ p, s.ncontr p = inc C p
  lt : ∀ q ∈ C, q.1 < q.2 ∧ q.2 < P.num

theorem Rep.init (P : Parts) : Rep P TState.init 0 :=
  ⟨fun _ _ _ _ => by simp [TState.init], fun _ => by simp [TState.init, inc], by simp⟩

theorem Rep.connect {P : Parts} {s : TState} {C : Multiset (Nat × Nat)} (h : Rep P s C) {o r : Nat} (hlt : P.part o < P.part r)
    (hr : P.part r < P.num) : Rep P (s.connect P o r) ((P.part o, P.part r) ::ₘ C) := by
  refine ⟨fun i j hij hj => ?_, fun p => ?_, ?_⟩
  · simp only [TState.connect, upd, Multiset.count_cons]
    by_cases hq : (i, j) = (P.part o, P.part r)
    · obtain ⟨rfl, rfl⟩ := Prod.mk.inj hq
      simp [h.cdeg _ _ hij hj]
    · have : uptriIdx i j P.num ≠ uptriIdx (P.part o) (P.part r) P.num := by
        intro he
        obtain ⟨h1, h2⟩ := uptri_inj _ _ _ _ _ hij hj hlt hr he
        exact hq (by rw [h1, h2])
      rw [if_neg this, if_neg hq, h.cdeg _ _ hij hj]
      rfl
  · rw [inc_cons, ← h.ncontr]
    simp only [TState.connect, upd]
    by_cases h1 : p = P.part r
    · subst h1
      have h2 : P.part r ≠ P.part o := by omega
      simp [h2]
    · by_cases h2 : p = P.part o
      · subst h2; simp [h1]
      · simp [h1, h2]
  · intro q hq
    rcases Multiset.mem_cons.1 hq with rfl | hq
    · exact ⟨hlt, hr⟩
    · exact h.lt q hq

/-- The filter in words: the partition of the left operator is not yet contracted with a later partition than that of the right
operator, and the right operator is the first free one of its partition. -/
theorem isUnique_iff {P : Parts} {s : TState} {C : Multiset (Nat × Nat)} (h : Rep P s C) {o r : Nat} (hlt : P.part o < P.part r)
    (hr : P.part r < P.num) :
    isUnique P true s o r = true ↔ (∀ q ∈ C, q.1 = P.part o → q.2 ≤ P.part r) ∧ inc C (P.part r) = P.pord r := by
  have hidx : ∀ k, uptriIdx (P.part o) (P.part r + 1) P.num + k = uptriIdx (P.part o) (P.part r + 1 + k) P.num := by
    intro k; unfold uptriIdx; omega
  unfold isUnique
  simp only [Bool.not_true, Bool.false_eq_true, if_false, true_and, hidx, h.ncontr]
  by_cases hpast : P.part r + 1 < P.num
  · rw [if_pos hpast]
    have hany : ((!(List.range (P.num - (P.part r + 1))).any fun k =>
        decide (s.cdeg (uptriIdx (P.part o) (P.part r + 1 + k) P.num) > 0)) = true) ↔
        ∀ q ∈ C, q.1 = P.part o → q.2 ≤ P.part r := by
      simp only [Bool.not_eq_true', List.any_eq_false, List.mem_range, gt_iff_lt, decide_eq_true_eq]
      constructor
      · intro H q hq hq1
        by_contra hc
        have hq2 := (h.lt q hq).2
        have := H (q.2 - (P.part r + 1)) (by omega)
        rw [show P.part r + 1 + (q.2 - (P.part r + 1)) = q.2 by omega, h.cdeg _ _ (by omega) hq2,
          show (P.part o, q.2) = q by rw [← hq1]] at this
        exact this (Multiset.count_pos.2 hq)
      · intro H k hk
        rw [h.cdeg _ _ (by omega) (by omega), Multiset.count_pos]
        intro hm
        have := H _ hm rfl
        simp only at this
        omega
    split
    · rename_i hu
      rw [hany] at hu
      simp only [decide_eq_true_eq]
      exact ⟨fun hh => ⟨hu, hh⟩, fun hh => hh.2⟩
    · rename_i hu
      rw [hany] at hu
      simp only [Bool.false_eq_true, false_iff, not_and]
      exact fun hh => absurd hh hu
  · rw [if_neg hpast]
    simp only [if_true, decide_eq_true_eq]
    constructor
    · intro hh
      refine ⟨fun q hq _ => ?_, hh⟩
      have := (h.lt q hq).2
      omega
    · exact fun hh => hh.2

/-- Contracted operators are the first ones of their partitions. -/
structure Inv (P : Parts) (n : Nat) (s : TState) (nops : List (List Nat)) : Prop where
  lt : ∀ x ∈ nops.flatten, x < n
  sorted : nops.flatten.Pairwise (· < ·)
  mem : ∀ x < n, x ∈ nops.flatten ↔ s.ncontr (P.part x) ≤ P.pord x

/-- Kinds made so far and kinds to be made are in increasing order of the right partition. -/
def Compat (C B : Multiset (Nat × Nat)) : Prop := ∀ q ∈ B, ∀ q' ∈ C, q'.1 = q.1 → q'.2 ≤ q.2

/-- The left operator is the first free one of its partition ("this is ensured automatically if full_contractions_==true"). -/
theorem Inv.left {P : Parts} {n : Nat} (hP : P.WF n) {s : TState} {o : Nat} {rest : List Nat} {others : List (List Nat)}
    (h : Inv P n s ((o :: rest) :: others)) : s.ncontr (P.part o) = P.pord o := by
  have ho : o < n := h.lt o (by simp)
  have hle := (h.mem o ho).1 (by simp)
  obtain ⟨z, hz, hzp, hzo⟩ := hP.exists_pord ho hle
  have hzm : z ∈ ((o :: rest) :: others).flatten := (h.mem z hz).2 (by rw [hzp, hzo])
  have hoz : o ≤ z := by
    have hs := h.sorted
    rw [List.flatten_cons, List.cons_append, List.pairwise_cons] at hs
    rw [List.flatten_cons, List.cons_append, List.mem_cons] at hzm
    rcases hzm with rfl | hzm
    · exact Nat.le_refl _
    · exact Nat.le_of_lt (hs.1 z hzm)
  by_contra hne
  have := hP.pord_mono hz ho hzp (by omega)
  omega

theorem Inv.pick {P : Parts} {n : Nat} (hP : P.WF n) {s : TState} {o : Nat} {rest : List Nat} {others : List (List Nat)}
    (h : Inv P n s ((o :: rest) :: others)) {p : Nat × Nat × List (List Nat)} (hp : p ∈ picks others)
    (hne : P.part o ≠ P.part p.2.1) (hr : s.ncontr (P.part p.2.1) = P.pord p.2.1) :
    Inv P n (s.connect P o p.2.1) (rest :: p.2.2) := by
  have hnd : ((o :: rest) :: others).flatten.Nodup := h.sorted.imp fun h => Nat.ne_of_lt h
  have hm := pick_mem_iff hnd hp
  have hl := h.left hP
  have ho : o < n := h.lt o (by simp)
  have hrn : p.2.1 < n := h.lt _ (by simp [pick_mem hp])
  refine ⟨fun x hx => h.lt x ((hm x).1 hx).1, ?_, fun x hx => ?_⟩
  · rw [pick_nops hnd hp, flatten_map_filter]
    exact h.sorted.sublist List.filter_sublist
  · rw [hm, h.mem x hx]
    simp only [TState.connect, upd]
    by_cases h1 : P.part x = P.part p.2.1
    · rw [if_pos h1, if_neg (Ne.symm hne), h1, hr]
      have hxo : x ≠ o := fun e => hne (by rw [← e, h1])
      constructor
      · rintro ⟨h2, _, h3⟩
        have : P.pord x ≠ P.pord p.2.1 := fun e => h3 (hP.pord_inj hx hrn h1 e)
        omega
      · intro h2
        exact ⟨by omega, hxo, fun e => by rw [e] at h2; omega⟩
    · rw [if_neg h1]
      have hxr : x ≠ p.2.1 := fun e => h1 (by rw [e])
      by_cases h2 : P.part x = P.part o
      · rw [if_pos h2, h2, hl]
        constructor
        · rintro ⟨h3, h4, _⟩
          have : P.pord x ≠ P.pord o := fun e => h4 (hP.pord_inj hx ho h2 e)
          omega
        · intro h3
          exact ⟨by omega, fun e => by rw [e] at h3; omega, hxr⟩
      · rw [if_neg h2]
        have hxo : x ≠ o := fun e => h2 (by rw [e])
        exact ⟨fun h => h.1, fun h => ⟨h, hxo, hxr⟩⟩

theorem Inv.tail {P : Parts} {n : Nat} {s : TState} {nops : List (List Nat)} (h : Inv P n s ([] :: nops)) : Inv P n s nops :=
  ⟨by simpa using h.lt, by simpa using h.sorted, by simpa using h.mem⟩

/-- The summands of the filtered search below a call, without their weights. -/
def contTopo (S : Statistics) (isQpAnn : Nat → Bool) (cc : Nat → Nat → Bool) (P : Parts) (fuel : Nat) (s : TState)
    (nops : List (List Nat)) : List (Term Nat) :=
  if opsize nops = 0 then [(1, [])] else (wickTopo S isQpAnn cc P fuel s nops).map fun t => t.2

theorem wickTopo_step (isQpAnn : Nat → Bool) (cc : Nat → Nat → Bool) (P : Parts) (fuel : Nat) (s : TState) (o : Nat)
    (rest : List Nat) (others : List (List Nat)) :
    (wickTopo S isQpAnn cc P (fuel + 1) s ((o :: rest) :: others)).map (fun t => t.2) =
      if !isQpAnn o then [] else (picks others).flatMap fun p =>
        if cc o p.2.1 && isUnique P true s o p.2.1 then
          (contTopo S isQpAnn cc P fuel (s.connect P o p.2.1) (rest :: p.2.2)).map fun t =>
          (phase S (rest.length + p.1) * t.1, (o, p.2.1) :: t.2) else [] := by
  simp only [wickTopo]
  split
  · rfl
  · rw [List.map_flatMap]
    congr 1
    funext p
    split
    · unfold contTopo
      split <;> simp
    · rfl

theorem sum_one_hot {ι : Type} (l : List ι) (f : ι → Rat) (key : ι → Nat) (hnd : (l.map key).Nodup) (r : Nat) (hr : r ∈ l.map key)
    (h1 : ∀ i ∈ l, key i = r → f i = 1) (h0 : ∀ i ∈ l, key i ≠ r → f i = 0) : (l.map f).sum = 1 := by
  induction l with
  | nil => simp at hr
  | cons a l ih =>
    simp only [List.map_cons, List.nodup_cons] at hnd
    rw [List.map_cons, List.sum_cons]
    by_cases ha : key a = r
    · rw [h1 a (by simp) ha]
      have : (l.map f).sum = 0 := by
        apply List.sum_eq_zero
        intro z hz
        obtain ⟨i, hi, rfl⟩ := List.mem_map.1 hz
        exact h0 i (by simp [hi]) fun e => hnd.1 (List.mem_map.2 ⟨i, hi, by rw [e, ha]⟩)
      rw [this, add_zero]
    · rw [h0 a (by simp) ha, zero_add]
      refine ih hnd.2 ?_ (fun i hi => h1 i (by simp [hi])) (fun i hi => h0 i (by simp [hi]))
      simp only [List.map_cons, List.mem_cons] at hr
      exact hr.resolve_left (Ne.symm ha)

open Classical in
/-- **The filter keeps exactly one set of contractions of each kind that fits.** -/
theorem cnt_topo {P : Parts} {n : Nat} (hP : P.WF n) {cc adm : Nat → Nat → Bool} (isQpAnn : Nat → Bool)
    (hq : ∀ x y, cc x y = true → isQpAnn x = true) (hord : ∀ i j, adm i j = true → i < j)
    (fuel : Nat) (s : TState) (C : Multiset (Nat × Nat)) (hs : Rep P s C) (nops : List (List Nat))
    (hfuel : wickFuel nops ≤ fuel) (h : Ctx P.part P.num cc adm nops) (hI : Inv P n s nops) (B : Multiset (Nat × Nat)) :
    (cnt P.part (contTopo S isQpAnn cc P fuel s nops) B : Rat) =
      if Fits P.part adm nops.flatten B ∧ Compat C B then 1 else 0 := by
  induction fuel generalizing s C nops B with
  | zero => simp [wickFuel] at hfuel
  | succ fuel ih =>
    by_cases h0 : opsize nops = 0
    · rw [flatten_of_opsize h0]
      by_cases hB : B = 0
      · subst hB
        rw [if_pos ⟨(fits_nil _ _ _).2 rfl, by intro q hq; simp at hq⟩]
        simp [contTopo, h0, cnt, keyOf_nil]
      · rw [if_neg (fun hh => hB ((fits_nil _ _ _).1 hh.1))]
        simp [contTopo, h0, cnt, keyOf_nil, Ne.symm hB]
    · match nops with
      | [] => simp [opsize] at h0
      | [] :: nops =>
        have e1 : contTopo S isQpAnn cc P (fuel + 1) s ([] :: nops) = contTopo S isQpAnn cc P fuel s nops := by
          have : opsize ([] :: nops) = opsize nops := by simp [opsize]
          simp only [contTopo, this, wickTopo]
        rw [e1, ih s C hs nops (by simp [wickFuel, opsize] at hfuel ⊢; omega) h.tail hI.tail]
        simp
      | (o :: rest) :: others =>
        have hothers : others.flatten.Nodup := by
          have := h.nodup
          rw [List.flatten_cons] at this
          exact (List.nodup_append.mp this).2.1
        have hfl : ∀ p ∈ picks others, wickFuel (rest :: p.2.2) ≤ fuel := by
          intro p hp
          have hsz := picks_opsize others p hp
          have hlen : p.2.2.length = others.length := by
            rw [picks_filter others hothers p hp, List.length_map]
          simp [wickFuel, opsize] at hfuel hsz ⊢; omega
        set fl := ((o :: rest) :: others).flatten with hfld
        have hLpos : 0 < free P.part fl (P.part o) := (free_pos_iff _ _ _).2 ⟨o, by simp [hfld], rfl⟩
        rw [contTopo, if_neg h0, wickTopo_step]
        -- a fitting kind uses the partition of the first operator
        have hrow : Fits P.part adm fl B → ∃ y ∈ others.flatten, (P.part o, P.part y) ∈ B ∧ cc o y = true := by
          intro hF
          have := Fits.row h hF
          rw [← hfld] at this
          have hp : 0 < (B.map Prod.fst).count (P.part o) := by omega
          rw [Multiset.count_pos, Multiset.mem_map] at hp
          obtain ⟨q, hq1, hq2⟩ := hp
          obtain ⟨_, y, hy, hye⟩ := hF.exists hq1
          have hmem : (P.part o, P.part y) ∈ B := by rw [hye, ← hq2]; exact hq1
          have := Fits.canc h hF hy hmem
          exact ⟨y, this.1, hmem, this.2⟩
        by_cases hqa : isQpAnn o = true
        · simp only [hqa, Bool.not_true, Bool.false_eq_true, if_false]
          rw [cnt_flatMap]
          have hterm : ∀ p ∈ picks others, (cnt P.part (if (cc o p.2.1 && isUnique P true s o p.2.1) = true then
                (contTopo S isQpAnn cc P fuel (s.connect P o p.2.1) (rest :: p.2.2)).map fun t =>
                  (phase S (rest.length + p.1) * t.1, (o, p.2.1) :: t.2) else []) B : Rat) =
              if (P.part o, P.part p.2.1) ∈ B ∧ (Fits P.part adm fl B ∧ cc o p.2.1 = true) ∧
                ((∀ q ∈ C, q.1 = P.part o → q.2 ≤ P.part p.2.1) ∧ inc C (P.part p.2.1) = P.pord p.2.1) ∧
                Compat ((P.part o, P.part p.2.1) ::ₘ C) (B.erase (P.part o, P.part p.2.1)) then 1 else 0 := by
            intro p hp
            have hmem : p.2.1 ∈ fl := by simp [hfld, pick_mem hp]
            by_cases hc : cc o p.2.1 = true
            · have hadm := (h.partner (by simpa [hfld] using hmem)).2 ⟨pick_mem hp, hc⟩
              have hlt := hord _ _ hadm
              have hrm := h.lt _ hmem
              have hu := isUnique_iff hs hlt hrm
              by_cases hun : isUnique P true s o p.2.1 = true
              · have hu' := hu.1 hun
                rw [if_pos (by simp [hc, hun]), cnt_map]
                by_cases hB : (P.part o, P.part p.2.1) ∈ B
                · rw [if_pos hB, ih (s.connect P o p.2.1) _ (hs.connect hlt hrm) _ (hfl p hp) (h.pick hp)
                    (hI.pick hP hp (by omega) (by rw [hs.ncontr]; exact hu'.2))]
                  congr 1
                  rw [fits_pick h hp B hB hc]
                  exact propext ⟨fun hh => ⟨hB, ⟨hh.1, hc⟩, hu', hh.2⟩, fun hh => ⟨hh.2.1.1, hh.2.2.2⟩⟩
                · rw [if_neg hB, if_neg (fun hh => hB hh.1)]
                  simp
              · rw [if_neg (by simp [hun]), if_neg (fun hh => hun (hu.2 hh.2.2.1))]
                simp [cnt]
            · rw [if_neg (by simp [hc]), if_neg (fun hh => hc hh.2.1.2)]
              simp [cnt]
          rw [List.map_congr_left hterm]
          by_cases hFC : Fits P.part adm fl B ∧ Compat C B
          · rw [if_pos hFC]
            obtain ⟨hF, hC⟩ := hFC
            -- the smallest right partition
            have hex : ∃ R, (P.part o, R) ∈ B := by
              obtain ⟨y, _, hy, _⟩ := hrow hF
              exact ⟨_, hy⟩
            have hR0 := Nat.find_spec hex
            have hmin : ∀ R, (P.part o, R) ∈ B → Nat.find hex ≤ R := fun R hR => Nat.find_min' hex hR
            set R0 := Nat.find hex with hR0d
            obtain ⟨_, y, hy, hye⟩ := hF.exists hR0
            simp only at hye
            have hyn : y < n := hI.lt y hy
            obtain ⟨r0, hr0n, hr0p, hr0o⟩ := hP.exists_pord hyn ((hI.mem y hyn).1 hy)
            have hr0m : r0 ∈ fl := (hI.mem r0 hr0n).2 (by rw [hr0p, hr0o])
            have hr0R : P.part r0 = R0 := by rw [hr0p, hye]
            have hr0 : r0 ∈ others.flatten ∧ cc o r0 = true := Fits.canc h hF hr0m (by rw [hr0R]; exact hR0)
            apply sum_one_hot _ _ (fun p => p.2.1) (by rw [picks_ops]; exact hothers) r0 (by rw [picks_ops]; exact hr0.1)
            · intro p hp hpr
              rw [if_pos]
              rw [hpr, hr0R]
              refine ⟨hR0, ⟨hF, hr0.2⟩, ⟨fun q hq h1 => ?_, ?_⟩, ?_⟩
              · exact hC _ hR0 q hq h1
              · rw [← hs.ncontr, hr0o, hye]
              · intro q hq q' hq' he
                have hqB := Multiset.mem_of_mem_erase hq
                rcases Multiset.mem_cons.1 hq' with rfl | hq'
                · simp only at he ⊢
                  apply hmin
                  rw [he]
                  exact hqB
                · exact hC q hqB q' hq' he
            · intro p hp hpr
              rw [if_neg]
              rintro ⟨hB, ⟨_, hc⟩, ⟨_, hu⟩, hcomp⟩
              have hmem : p.2.1 ∈ fl := by simp [hfld, pick_mem hp]
              have hRle := hmin _ hB
              have hReq : P.part p.2.1 = R0 := by
                by_contra hne
                have hin : (P.part o, R0) ∈ B.erase (P.part o, P.part p.2.1) :=
                  (Multiset.mem_erase_of_ne (by simpa using Ne.symm hne)).2 hR0
                have := hcomp _ hin (P.part o, P.part p.2.1) (Multiset.mem_cons_self _ _) rfl
                simp only at this
                omega
              apply hpr
              apply hP.pord_inj (hI.lt _ hmem) hr0n (by rw [hReq, hr0R])
              rw [← hu, hr0o, hs.ncontr, hReq, hye]
          · rw [if_neg hFC]
            apply List.sum_eq_zero
            intro z hz
            obtain ⟨p, hp, rfl⟩ := List.mem_map.1 hz
            rw [if_neg]
            rintro ⟨hB, ⟨hF, _⟩, ⟨hu, _⟩, hcomp⟩
            refine hFC ⟨hF, fun q hq q' hq' he => ?_⟩
            by_cases hqe : q = (P.part o, P.part p.2.1)
            · subst hqe
              exact hu q' hq' he
            · exact hcomp q ((Multiset.mem_erase_of_ne hqe).2 hq) q' (Multiset.mem_cons_of_mem hq') he
        · simp only [hqa, Bool.not_false, if_true]
          rw [if_neg]
          · simp [cnt]
          · rintro ⟨hF, _⟩
            obtain ⟨y, _, _, hc⟩ := hrow hF
            exact hqa (hq o y hc)

end SeQuant.Topology
