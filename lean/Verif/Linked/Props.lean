import Verif.Linked.Filter
import Verif.Linked.Cs
import Mathlib.Data.List.GetD
import Mathlib.Tactic.NoncommRing

/-!
# C112, C113: what required and avoided connections guarantee, and the linked form of coupled-cluster theory
-/

namespace SeQuant.Linked

open SeQuant.Wick

variable {Op K A : Type} {S : Statistics}

/-! ### Bits of the constraints -/

theorem hasDuplicates_iff (ps : List (Nat × Nat)) : hasDuplicates ps = false ↔ ps.Nodup := by
  induction ps with
  | nil => simp [hasDuplicates]
  | cons p ps ih => simp [hasDuplicates, ih]

/-- **C112 (exceptions).** An exception is thrown exactly if a pair is given twice or an ordinal is out of range. -/
theorem setPairs_refuses (n : Nat) (ps : List (Nat × Nat)) :
    setPairs n ps = none ↔ ¬ ps.Nodup ∨ ∃ p ∈ ps, n ≤ p.1 ∨ n ≤ p.2 := by
  unfold setPairs
  by_cases h1 : hasDuplicates ps = true
  · rw [if_pos h1]
    simp only [true_iff]
    left; rw [← hasDuplicates_iff]; simp [h1]
  · rw [if_neg h1]
    have h1' : ps.Nodup := (hasDuplicates_iff ps).mp (by simpa using h1)
    by_cases h2 : (ps.any fun p => decide (n ≤ p.1) || decide (n ≤ p.2)) = true
    · rw [if_pos h2]
      simp only [true_iff]
      right; simpa using h2
    · rw [if_neg h2]
      constructor
      · intro h; split at h <;> cases h
      · rintro (h | h)
        · exact absurd h1' h
        · exact absurd (by simpa using h) h2

theorem foldl_bits (ps : List (Nat × Nat)) (b : Nat → Nat → Bool) (i j : Nat) :
    ps.foldl (fun b p => upd2 (upd2 b p.1 p.2 false) p.2 p.1 false) b i j =
      (b i j && !(decide ((i, j) ∈ ps) || decide ((j, i) ∈ ps))) := by
  induction ps generalizing b with
  | nil => simp
  | cons p ps ih =>
    rw [List.foldl_cons, ih, upd2_apply, upd2_apply]
    obtain ⟨a, b'⟩ := p
    by_cases h1 : i = b' ∧ j = a
    · rw [if_pos h1]; obtain ⟨rfl, rfl⟩ := h1; simp
    · rw [if_neg h1]
      by_cases h2 : i = a ∧ j = b'
      · rw [if_pos h2]; obtain ⟨rfl, rfl⟩ := h2; simp
      · rw [if_neg h2]
        have e1 : ((i, j) = (a, b')) = False := by simp only [Prod.mk.injEq, eq_iff_iff, iff_false]; exact h2
        have e2 : ((j, i) = (a, b')) = False := by
          simp only [Prod.mk.injEq, eq_iff_iff, iff_false]; exact fun h => h1 ⟨h.2, h.1⟩
        simp only [List.mem_cons, e1, e2, false_or]

theorem setPairs_ok (n : Nat) (ps : List (Nat × Nat)) (h1 : ps.Nodup) (h2 : ∀ p ∈ ps, p.1 < n ∧ p.2 < n) :
    ∃ b, setPairs n ps = some b ∧ (ps = [] → b = none) ∧
      (ps ≠ [] → ∃ t, b = some t ∧ ∀ i j, t i j = !(decide ((i, j) ∈ ps) || decide ((j, i) ∈ ps))) := by
  have hnone : setPairs n ps ≠ none := by
    intro h
    rcases (setPairs_refuses n ps).mp h with h | ⟨p, hp, h⟩
    · exact h h1
    · have := h2 p hp; omega
  unfold setPairs at hnone ⊢
  by_cases d1 : hasDuplicates ps = true
  · rw [if_pos d1] at hnone; exact absurd rfl hnone
  · rw [if_neg d1] at hnone ⊢
    by_cases d2 : (ps.any fun p => decide (n ≤ p.1) || decide (n ≤ p.2)) = true
    · rw [if_pos d2] at hnone; exact absurd rfl hnone
    · rw [if_neg d2]
      by_cases d3 : ps.length ≠ 0
      · rw [if_pos d3]
        refine ⟨_, rfl, fun h => absurd (by simp [h]) d3, fun _ => ⟨_, rfl, fun i j => ?_⟩⟩
        rw [foldl_bits]; simp
      · rw [if_neg d3]
        refine ⟨_, rfl, fun _ => rfl, fun h => absurd (List.length_eq_zero_iff.mp (by omega)) h⟩

variable [DecidableEq Op]

/-! ### The specification: two normal operators of the sequence are joined by one of the contractions -/

/-- One of the contractions joins the normal operators with ordinals `i` and `j`. -/
def joins (nops : List (List Op)) (cs : List (Op × Op)) (i j : Nat) : Bool := meets (nops.getD i []) (nops.getD j []) cs

/-- The ordinal of the normal operator that holds an operator. -/
def ordinal (nops : List (List Op)) (x : Op) : Nat := nops.findIdx fun l => decide (x ∈ l)

theorem ordinal_eq (nops : List (List Op)) (hnd : nops.flatten.Nodup) (x : Op) (i : Nat) (h : x ∈ nops.getD i []) :
    ordinal nops x = i := by
  induction nops generalizing i with
  | nil => simp at h
  | cons l nops ih =>
    simp only [List.flatten_cons, List.nodup_append] at hnd
    unfold ordinal
    rw [List.findIdx_cons]
    match i with
    | 0 =>
      have : x ∈ l := by simpa using h
      simp [this]
    | i + 1 =>
      have hx : x ∈ nops.getD i [] := by simpa using h
      have hm : x ∈ nops.flatten := by
        by_cases hi : i < nops.length
        · rw [List.getD_eq_getElem nops [] hi] at hx
          exact List.mem_flatten.mpr ⟨_, List.getElem_mem hi, hx⟩
        · rw [List.getD_eq_default nops [] (by omega)] at hx; simp at hx
      have hl : x ∉ l := fun hxl => hnd.2.2 x hxl x hm rfl
      have := ih hnd.2.1 i hx
      unfold ordinal at this
      simp [hl, this]

theorem ordinal_iff (nops : List (List Op)) (hnd : nops.flatten.Nodup) (x : Op) (hx : x ∈ nops.flatten) (i : Nat) :
    ordinal nops x = i ↔ x ∈ nops.getD i [] := by
  constructor
  · intro h
    obtain ⟨l, hl, hxl⟩ := List.mem_flatten.mp hx
    obtain ⟨j, hj, rfl⟩ := List.getElem_of_mem hl
    have hxj : x ∈ nops.getD j [] := by rw [List.getD_eq_getElem nops [] hj]; exact hxl
    rw [← h, ordinal_eq nops hnd x j hxj]; exact hxj
  · exact ordinal_eq nops hnd x i

theorem joined_joins (nops : List (List Op)) (hnd : nops.flatten.Nodup) (cs : List (Op × Op))
    (hcs : ∀ x ∈ pairOps cs, x ∈ nops.flatten) (i j : Nat) : joined (ordinal nops) cs i j = joins nops cs i j := by
  unfold joined joins meets
  have key : ∀ p ∈ cs, ∀ k, decide (ordinal nops p.1 = k) = decide (p.1 ∈ nops.getD k []) ∧
      decide (ordinal nops p.2 = k) = decide (p.2 ∈ nops.getD k []) := by
    intro p hp k
    have m1 : p.1 ∈ nops.flatten := hcs _ (by simp only [pairOps, List.mem_flatMap]; exact ⟨p, hp, by simp⟩)
    have m2 : p.2 ∈ nops.flatten := hcs _ (by simp only [pairOps, List.mem_flatMap]; exact ⟨p, hp, by simp⟩)
    exact ⟨by simp only [ordinal_iff nops hnd _ m1], by simp only [ordinal_iff nops hnd _ m2]⟩
  rw [Bool.eq_iff_iff, List.any_eq_true, List.any_eq_true]
  constructor
  · rintro ⟨p, hp, h⟩
    refine ⟨p, hp, ?_⟩
    rw [(key p hp i).1, (key p hp i).2, (key p hp j).1, (key p hp j).2] at h
    exact h
  · rintro ⟨p, hp, h⟩
    refine ⟨p, hp, ?_⟩
    rw [(key p hp i).1, (key p hp i).2, (key p hp j).1, (key p hp j).2]
    exact h

theorem joins_symm (nops : List (List Op)) (cs : List (Op × Op)) (i j : Nat) : joins nops cs i j = joins nops cs j i := by
  unfold joins meets
  congr 1; funext p
  rw [Bool.or_comm]

theorem map_snd_zipIdx {α : Type} (l : List α) : (l.zipIdx.map fun p => (p.2, p.1)).map Prod.snd = l := by
  rw [List.map_map]; simp [Function.comp_def]

omit [DecidableEq Op] in
theorem mem_zip (nops : List (List Op)) (l : Nop Op) (h : l ∈ nops.zipIdx.map fun p => (p.2, p.1)) :
    l.1 < nops.length ∧ l.2 = nops.getD l.1 [] := by
  simp only [List.mem_map] at h
  obtain ⟨p, hp, rfl⟩ := h
  have := List.mem_zipIdx hp
  obtain ⟨_, h2, h3⟩ := this
  refine ⟨by simpa using h2, ?_⟩
  simp only [Nat.sub_zero] at h3
  rw [h3, List.getD_eq_getElem nops [] (by simpa using h2)]

/-- **C112.** With full contractions, the engine produces exactly those sets of contractions of the unconstrained search, in the same
order and with the same phase, in which all required pairs of normal operators are joined by a contraction and no avoided pair is. -/
theorem constrained_exact (isQpAnn : Op → Bool) (cc : Op → Op → Bool) (required avoid : List (Nat × Nat)) (nops : List (List Op))
    (hnd : nops.flatten.Nodup) (hr : required.Nodup) (ha : avoid.Nodup)
    (hr' : ∀ p ∈ required, p.1 < nops.length ∧ p.2 < nops.length) (ha' : ∀ p ∈ avoid, p.1 < nops.length ∧ p.2 < nops.length)
    (hne : ∀ p ∈ required, nops.getD p.1 [] ≠ [] ∧ nops.getD p.2 [] ≠ []) :
    wickFullConn S isQpAnn cc required avoid nops =
      some ((wickFull S isQpAnn cc (wickFuel nops) nops).filter fun t =>
        (required.all fun p => joins nops t.2 p.1 p.2) && (avoid.all fun p => !joins nops t.2 p.1 p.2)) := by
  obtain ⟨target, ht, ht0, ht1⟩ := setPairs_ok nops.length required hr hr'
  obtain ⟨avoided, hv, hv0, hv1⟩ := setPairs_ok nops.length avoid ha ha'
  have hready : Ready (plainCfg (Op := Op) nops.length).nnop (ordinal nops) target (initState (plainCfg (Op := Op) nops.length)).nopConn
      (nops.zipIdx.map fun p => (p.2, p.1)) := by
    refine ⟨?_, ?_, ?_, fun _ _ => rfl, ?_⟩
    · intro l hl o ho
      obtain ⟨_, e⟩ := mem_zip nops l hl
      exact ordinal_eq nops hnd o l.1 (e ▸ ho)
    · intro l hl; exact (mem_zip nops l hl).1
    · rw [List.map_map]
      have : (Prod.fst ∘ fun p : List Op × Nat => (p.2, p.1)) = Prod.snd := rfl
      rw [this, List.zipIdx_map_snd]
      exact List.nodup_range'
    · intro t hte k hk hempty
      rw [needs_zero]
      intro j hj
      right
      by_cases hreq : required = []
      · rw [ht0 hreq] at hte; cases hte
      · obtain ⟨t', e, hb⟩ := ht1 hreq
        rw [e] at hte
        cases hte
        rw [hb]
        have hk0 : nops.getD k [] = [] := by
          have := hempty (k, nops.getD k []) ?_ rfl
          · exact this
          · simp only [List.mem_map]
            refine ⟨(nops.getD k [], k), ?_, rfl⟩
            rw [List.getD_eq_getElem nops [] hk]
            exact List.mk_mem_zipIdx_iff_getElem?.mpr (List.getElem?_eq_getElem hk)
        have n1 : (k, j) ∉ required := fun h => (hne _ h).1 hk0
        have n2 : (j, k) ∉ required := fun h => (hne _ h).2 hk0
        simp [n1, n2]
  unfold wickFullConn
  rw [ht, hv]
  simp only [Option.bind_eq_bind, Option.bind_some]
  rw [wickConn_filter S isQpAnn cc (plainCfg nops.length) (ordinal nops) target avoided _ _ _ hready, map_snd_zipIdx]
  congr 1
  apply List.filter_congr
  intro t htm
  have hperm := wickFull_perm S isQpAnn cc _ nops t htm
  have hin : ∀ x ∈ pairOps t.2, x ∈ nops.flatten := fun x hx => hperm.mem_iff.mp hx
  congr 1
  · by_cases hreq : required = []
    · rw [ht0 hreq, hreq]; rfl
    · obtain ⟨t', e, hb⟩ := ht1 hreq
      rw [e, Bool.eq_iff_iff, okT_iff, List.all_eq_true]
      constructor
      · intro h p hp
        obtain ⟨h1, h2⟩ := hr' p hp
        rcases h p.1 h1 p.2 h2 with h | h | h
        · rw [hb] at h; simp [hp] at h
        · cases h
        · rwa [joined_joins nops hnd t.2 hin] at h
      · intro h i hi j hj
        by_cases hm : (i, j) ∈ required
        · right; right; rw [joined_joins nops hnd t.2 hin]; exact h _ hm
        · by_cases hm' : (j, i) ∈ required
          · right; right; rw [joined_joins nops hnd t.2 hin, joins_symm]; exact h _ hm'
          · left; rw [hb]; simp [hm, hm']
  · by_cases havd : avoid = []
    · rw [hv0 havd, havd]; rfl
    · obtain ⟨a, e, hb⟩ := hv1 havd
      rw [e]
      simp only [okA]
      rw [Bool.eq_iff_iff, List.all_eq_true, List.all_eq_true]
      constructor
      · intro h p hp
        rw [← joined_joins nops hnd t.2 hin, Bool.not_eq_true']
        unfold joined
        rw [List.any_eq_false]
        intro q hq hj
        have := h q hq
        rw [hb] at this
        simp only [Bool.or_eq_true, Bool.and_eq_true, decide_eq_true_eq] at hj
        rcases hj with ⟨h1, h2⟩ | ⟨h1, h2⟩ <;> simp [h1, h2, hp] at this
      · intro h q hq
        rw [hb]
        have key : ∀ p ∈ avoid, joined (ordinal nops) t.2 p.1 p.2 = false := by
          intro p hp
          have := h p hp
          rw [joined_joins nops hnd t.2 hin]; simpa using this
        have e1 : (ordinal nops q.1, ordinal nops q.2) ∉ avoid := by
          intro hm
          have := key _ hm
          unfold joined at this
          rw [List.any_eq_false] at this
          exact this q hq (by simp)
        have e2 : (ordinal nops q.2, ordinal nops q.1) ∉ avoid := by
          intro hm
          have := key _ hm
          unfold joined at this
          rw [List.any_eq_false] at this
          exact this q hq (by simp)
        simp [e1, e2]

variable [CommRing K] [Ring A] [Algebra K A]

/-- **C113.** The nested commutator `[...[[X, T₁], T₂], ..., Tₖ]`. -/
def nest (X : A) : List A → A
  | [] => X
  | T :: Ts => nest (X * T - T * X) Ts

omit [DecidableEq Op] in
theorem vac_pf (W : Alg S Op K A) (V : Vac W) (nops : List (List Op)) : V.vac (W.prod nops) = pf S W.c nops := by
  by_cases h : 0 < opsize nops
  · rw [wick_full W V (fun _ => true) (fun _ _ => true) (fun o h => by cases h) (fun x y h => by cases h) nops h,
      wickFull_pf (fun _ => true) (fun _ _ => true) (fun x y h => by cases h) (fun x y h => by cases h) _ nops h (Nat.le_refl _)]
  · rw [prod_of_opsize_zero W nops (by omega), V.vac_one]
    clear V
    induction nops with
    | nil => rfl
    | cons l ls ih =>
      simp only [opsize, List.map_cons, List.sum_cons] at h
      have hl : l = [] := List.length_eq_zero_iff.mp (by omega)
      rw [hl, pf_empty, ih (by simp only [opsize]; omega)]

omit [DecidableEq Op] in
theorem prod_append (W : Alg S Op K A) (a b : List (List Op)) : W.prod (a ++ b) = W.prod a * W.prod b := by
  simp [Alg.prod]

omit [DecidableEq Op] in
theorem nest_sub (X Y : A) (Ts : List A) : nest (X - Y) Ts = nest X Ts - nest Y Ts := by
  induction Ts generalizing X Y with
  | nil => rfl
  | cons T Ts ih =>
    simp only [nest]
    rw [← ih]
    congr 1
    noncomm_ring

omit [DecidableEq Op] in
theorem pfNest_vac (W : Alg S Op K A) (V : Vac W) (pre : List (List Op)) (H : List Op) (post L R Ts : List (List Op)) :
    pfNest S W.c pre H post L R Ts =
      V.vac (W.prod pre * nest (W.prod L * W.N H * W.prod R) (Ts.map W.N) * W.prod post) := by
  induction Ts generalizing L R with
  | nil =>
    simp only [pfNest, List.map_nil, nest]
    rw [← vac_pf W V, prod_append, prod_append, prod_cons, prod_append]
    simp only [mul_assoc]
  | cons T Ts ih =>
    simp only [pfNest, List.map_cons, nest]
    rw [ih, ih, nest_sub, ← map_sub]
    congr 1
    rw [prod_append, prod_cons, prod_cons]
    have e1 : W.prod L * W.N H * (W.prod R * (W.N T * W.prod [])) = W.prod L * W.N H * W.prod R * W.N T := by
      simp [Alg.prod, mul_assoc]
    have e2 : W.N T * W.prod L * W.N H * W.prod R = W.N T * (W.prod L * W.N H * W.prod R) := by simp only [mul_assoc]
    rw [e1, e2, mul_sub, sub_mul]

theorem getD_mid {α : Type} (pre : List α) (d x : α) (l : List α) : (pre ++ x :: l).getD pre.length d = x := by
  simp [List.getD]

theorem getD_after {α : Type} (pre : List α) (d x : α) (l : List α) (i : Nat) :
    (pre ++ x :: l).getD (pre.length + 1 + i) d = l.getD i d := by
  simp only [List.getD]
  rw [List.getElem?_append_right (by omega), show pre.length + 1 + i - pre.length = i + 1 by omega]
  simp

/-- The required connections of the linked form: each `T` with `H`. -/
def linkPairs (npre nT : Nat) : List (Nat × Nat) := (List.range nT).map fun i => (npre, npre + 1 + i)

/-- **C113.** If the `T`s consist of an even number of quasiparticle creators (any number for bosons), the vacuum expectation value of
a product containing `H T₁ ... Tₖ` restricted by required connections of every `T` with `H` equals the expectation value with the
nested commutator `[...[H, T₁], ..., Tₖ]` in place of the product: the linked form of coupled-cluster theory.  Whatever stands to the left and
right is arbitrary. -/
theorem linked (W : Alg S Op K A) (V : Vac W) (isQpAnn : Op → Bool) (canContract : Op → Op → Bool)
    (hann : ∀ o, isQpAnn o = false → W.an o = 0) (hc : ∀ x y, canContract x y = false → W.c x y = 0)
    (pre : List (List Op)) (H : List Op) (Ts post : List (List Op)) (hH : H ≠ []) (hne : ∀ T ∈ Ts, T ≠ [])
    (hcr : ∀ T ∈ Ts, ∀ t ∈ T, W.an t = 0) (heven : ∀ T ∈ Ts, (S.zeta : K) ^ T.length = 1)
    (hnd : (pre ++ H :: (Ts ++ post)).flatten.Nodup) :
    ∃ terms, wickFullConn S isQpAnn canContract (linkPairs pre.length Ts.length) [] (pre ++ H :: (Ts ++ post)) = some terms ∧
      (terms.map fun t => (t.1 : K) * pairProd W.c t.2).sum =
        V.vac (W.prod pre * nest (W.N H) (Ts.map W.N) * W.prod post) := by
  have hcan : ∀ x y, W.an x = 0 → W.c x y = 0 := by
    intro x y h
    have h1 := W.an_cr x y
    rw [h, zero_mul, mul_zero, smul_zero, zero_add] at h1
    have h2 := congrArg V.vac h1
    rw [map_zero, map_smul, V.vac_one, smul_eq_mul, mul_one] at h2
    exact h2.symm
  have hT : ∀ i < Ts.length, (pre ++ H :: (Ts ++ post)).getD (pre.length + 1 + i) [] = Ts.getD i [] := by
    intro i hi
    rw [getD_after]
    simp only [List.getD]
    rw [List.getElem?_append_left hi]
  have hmem : ∀ p ∈ linkPairs pre.length Ts.length, p.1 = pre.length ∧ ∃ i < Ts.length, p.2 = pre.length + 1 + i := by
    intro p hp
    simp only [linkPairs, List.mem_map, List.mem_range] at hp
    obtain ⟨i, hi, rfl⟩ := hp
    exact ⟨rfl, i, hi, rfl⟩
  refine ⟨_, constrained_exact isQpAnn canContract (linkPairs pre.length Ts.length) [] _ hnd ?_ (by simp) ?_ (by simp) ?_, ?_⟩
  · unfold linkPairs
    rw [List.nodup_map_iff]
    · exact List.nodup_range
    · intro i j h; simp only [Prod.mk.injEq] at h; omega
  · intro p hp
    obtain ⟨e1, i, hi, e2⟩ := hmem p hp
    simp only [List.length_append, List.length_cons]
    omega
  · intro p hp
    obtain ⟨e1, i, hi, e2⟩ := hmem p hp
    rw [e1, e2, getD_mid, hT i hi, List.getD_eq_getElem Ts [] hi]
    exact ⟨hH, hne _ (List.getElem_mem hi)⟩
  · have hpos : 0 < opsize (pre ++ H :: (Ts ++ post)) := by
      rw [opsize_flatten]
      apply List.length_pos_of_ne_nil
      simp only [List.flatten_append, List.flatten_cons, ne_eq, List.append_eq_nil_iff, not_and]
      intro _ h; exact absurd h hH
    have h1 := filter_cs (S := S) isQpAnn canContract (pre ++ H :: (Ts ++ post)) hpos H Ts W.c
      (fun x y h => hcan x y (hann x h)) hc
    have h2 := cs_nest (S := S) (c := W.c) pre H post Ts [] [] (by simpa using heven)
      (by simpa using fun T hT t ht y => hcan t y (hcr T hT t ht)) (by simpa using hnd)
    simp only [List.nil_append] at h2
    rw [h2, pfNest_vac W V] at h1
    have e : W.prod [] * W.N H * W.prod [] = W.N H := by simp [Alg.prod]
    rw [e] at h1
    rw [← h1]
    congr 2
    apply List.filter_congr
    intro t _
    simp only [List.all_nil, Bool.and_true]
    rw [Bool.eq_iff_iff, List.all_eq_true, List.all_eq_true]
    constructor
    · intro h T hTm
      obtain ⟨i, hi, rfl⟩ := List.getElem_of_mem hTm
      have := h (pre.length, pre.length + 1 + i) (by
        simp only [linkPairs, List.mem_map, List.mem_range]; exact ⟨i, hi, rfl⟩)
      unfold joins at this
      rw [getD_mid, hT i hi, List.getD_eq_getElem Ts [] hi] at this
      exact this
    · intro h p hp
      obtain ⟨e1, i, hi, e2⟩ := hmem p hp
      unfold joins
      rw [e1, e2, getD_mid, hT i hi, List.getD_eq_getElem Ts [] hi]
      exact h _ (List.getElem_mem hi)

end SeQuant.Linked
