import Verif.Maker.Props
import Mathlib.Tactic.NormNum
import Mathlib.Tactic.Ring

/-!
# Operators and their quantum numbers, ranks and parameters (C111)
-/

namespace SeQuant.Maker

open SeQuant.Registry (OpClass)
open SeQuant.Mbpt (BaseSpace Spread Unique InSpace Ival Qns SpaceQ)
open Finset

/-- Is a base space part of one of the spaces of the context? -/
def Sel.has : Sel → BaseSpace → Bool
  | .particle, b => b.particle
  | .hole, b => b.hole
  | .complete, _ => true

/-- The elementary operators, whose spaces are `c`, act on states of the base spaces numbered `f`. -/
def Assigned (sp : List BaseSpace) (c : List Sel) (f : List Nat) : Prop :=
  List.Forall₂ (fun s i => ∃ b, sp[i]? = some b ∧ b.sqn = true ∧ s.has b = true) c f

theorem sum_count (f : List Nat) (n : Nat) (h : ∀ i ∈ f, i < n) : ∑ s ∈ range n, f.count s = f.length := by
  induction f with
  | nil => simp
  | cons i f ih =>
    simp only [List.count_cons, Finset.sum_add_distrib, List.length_cons]
    rw [ih fun j hj => h j (List.mem_cons_of_mem _ hj)]
    have : i ∈ range n := by simpa using h i (by simp)
    simp [this]

theorem assigned_spread (sp : List BaseSpace) (s : Sel) (n : Nat) (f : List Nat) (h : Assigned sp (List.replicate n s) f) :
    Spread s.has sp n (fun i => f.count i) := by
  have hm : ∀ i ∈ f, ∃ b, sp[i]? = some b ∧ b.sqn = true ∧ s.has b = true := by
    intro i hi
    obtain ⟨k, hk, rfl⟩ := List.getElem_of_mem hi
    have hk' : k < (List.replicate n s).length := by rw [List.Forall₂.length_eq h]; exact hk
    have := List.Forall₂.get h hk' hk
    simpa using this
  constructor
  · rw [sum_count _ _ fun i hi => ?_]
    · rw [← List.Forall₂.length_eq h, List.length_replicate]
    · obtain ⟨b, hb, -⟩ := hm i hi
      exact (List.getElem?_eq_some_iff.1 hb).1
  · intro i b hb hs
    apply List.count_eq_zero_of_not_mem
    intro hi
    obtain ⟨b', hb', h1, h2⟩ := hm i hi
    rw [hb] at hb'
    obtain rfl := Option.some.inj hb'
    simp [h1, h2] at hs

theorem deexcitation_sound (pBase hBase : Bool) (pr hr : Nat) (sp : List BaseSpace) (hp : pBase = true → Unique BaseSpace.particle sp)
    (hh : hBase = true → Unique BaseSpace.hole sp) (c d : Nat → Nat) (hc : Spread BaseSpace.hole sp hr c) (hd : Spread BaseSpace.particle sp pr d)
    (s : Nat) (p : SpaceQ) (h : (Mbpt.genericDeexcitation pBase hBase pr hr sp)[s]? = some p) : InSpace p (c s) (d s) := by
  rw [← Mbpt.adjoint_excitation, Mbpt.adjointQ, List.getElem?_map] at h
  obtain ⟨q, hq, rfl⟩ := Option.map_eq_some_iff.1 h
  exact (Mbpt.genericExcitation_sound_partial pBase hBase pr hr sp hp hh d c hd hc s q hq).symm

theorem assigned_nil (sp : List BaseSpace) (f : List Nat) (h : Assigned sp [] f) : f = [] := by
  cases h
  rfl

theorem spacesA_eq (np nh : Int) (c a : List Sel) (h : spacesA np nh = some (c, a)) :
    (np < 0 ∨ nh < 0) ∧ c = List.replicate nh.natAbs .hole ∧ a = List.replicate np.natAbs .particle ∨
    ¬(np < 0 ∨ nh < 0) ∧ c = List.replicate np.natAbs .particle ∧ a = List.replicate nh.natAbs .hole := by
  unfold spacesA at h
  split at h
  · exact absurd h (by simp)
  · split at h
    · exact absurd h (by simp)
    · rename_i h0 h1
      simp only [Option.some.injEq, Prod.mk.injEq] at h
      obtain ⟨rfl, rfl⟩ := h
      by_cases hd : np < 0 ∨ nh < 0
      · left
        have e1 : ¬ 0 < np := by omega
        have e2 : ¬ 0 < nh := by omega
        simp [e1, e2, hd]
      · right
        by_cases e1 : 0 < np <;> by_cases e2 : 0 < nh
        · simp [e1, e2, hd]
        · have : nh = 0 := by omega
          simp [e1, this]
          omega
        · have : np = 0 := by omega
          simp [e2, this]
          omega
        · omega

theorem spacesS_eq (k : Int) (c a : List Sel) (h : spacesS k = some (c, a)) :
    k < 0 ∧ c = List.replicate k.natAbs .hole ∧ a = List.replicate k.natAbs .particle ∨
    ¬ k < 0 ∧ c = List.replicate k.natAbs .particle ∧ a = List.replicate k.natAbs .hole := by
  unfold spacesS at h
  split at h
  · exact absurd h (by simp)
  · split at h
    · right
      simp only [Option.some.injEq, Prod.mk.injEq] at h
      exact ⟨by omega, h.1.symm, h.2.symm⟩
    · left
      simp only [Option.some.injEq, Prod.mk.injEq] at h
      exact ⟨by omega, h.1.symm, h.2.symm⟩

/-- The labels have the classes of the predefined registries. -/
def RightClasses (cls : String → OpClass) : Prop := cls "t" = .ex ∧ cls "λ" = .deex ∧ cls "R" = .ex ∧ cls "L" = .deex

/-- **C111**: the quantum numbers of an operator agree with its tensor form: wherever its creators and annihilators act, their numbers in each base
space are within the bounds. -/
theorem qns_sound (cls : String → OpClass) (hcls : RightClasses cls) (basis : Basis) (pBase hBase : Bool) (sp : List BaseSpace)
    (hp : pBase = true → Unique BaseSpace.particle sp) (hh : hBase = true → Unique BaseSpace.hole sp) (o : Op) (c a : List Sel)
    (ho : o.spaces cls basis = some (c, a)) (f g : List Nat) (hf : Assigned sp c f) (hg : Assigned sp a g) (s : Nat) (p : SpaceQ)
    (h : (o.qns basis pBase hBase sp)[s]? = some p) : InSpace p (f.count s) (g.count s) := by
  have exc : ∀ np nh : Nat, c = List.replicate np .particle → a = List.replicate nh .hole →
      (Mbpt.genericExcitation pBase hBase np nh sp)[s]? = some p → InSpace p (f.count s) (g.count s) := by
    intro np nh e1 e2 h
    subst e1 e2
    exact Mbpt.genericExcitation_sound_partial pBase hBase np nh sp hp hh _ _ (assigned_spread sp _ _ f hf) (assigned_spread sp _ _ g hg) s p h
  have dex : ∀ np nh : Nat, c = List.replicate nh .hole → a = List.replicate np .particle →
      (Mbpt.genericDeexcitation pBase hBase np nh sp)[s]? = some p → InSpace p (f.count s) (g.count s) := by
    intro np nh e1 e2 h
    subst e1 e2
    exact deexcitation_sound pBase hBase np nh sp hp hh _ _ (assigned_spread sp _ _ f hf) (assigned_spread sp _ _ g hg) s p h
  have hA : ∀ np nh : Int, spacesA np nh = some (c, a) → (Op.qns.qnsA pBase hBase sp np nh)[s]? = some p → InSpace p (f.count s) (g.count s) := by
    intro np nh e h
    unfold Op.qns.qnsA at h
    rcases spacesA_eq np nh c a e with ⟨h1, h2, h3⟩ | ⟨h1, h2, h3⟩
    · rw [if_pos h1] at h
      exact dex _ _ h2 h3 h
    · rw [if_neg h1] at h
      exact exc _ _ h2 h3 h
  have hS : ∀ k : Int, spacesS k = some (c, a) → (Op.qns.qnsS pBase hBase sp k)[s]? = some p → InSpace p (f.count s) (g.count s) := by
    intro k e h
    unfold Op.qns.qnsS at h
    rcases spacesS_eq k c a e with ⟨h1, h2, h3⟩ | ⟨h1, h2, h3⟩
    · rw [if_pos h1] at h
      exact dex _ _ h2 h3 h
    · rw [if_neg h1] at h
      exact exc _ _ h2 h3 h
  obtain ⟨c1, c2, c3, c4⟩ := hcls
  cases o with
  | gen label k =>
    have hl : c.length = k ∧ a.length = k := by
      replace ho : classSpaces (cls label) k k = some (c, a) := ho
      unfold classSpaces at ho
      split at ho
      · exact absurd ho (by simp)
      · cases hc : cls label <;> rw [hc] at ho <;> simp only [Option.some.injEq, Prod.mk.injEq] at ho <;> obtain ⟨rfl, rfl⟩ := ho <;> simp
    simp only [Op.qns, Mbpt.generalType, List.getElem?_replicate] at h
    split at h
    · obtain rfl := Option.some.inj h
      have l1 : f.count s ≤ k := by rw [← hl.1, List.Forall₂.length_eq hf]; exact List.count_le_length
      have l2 : g.count s ≤ k := by rw [← hl.2, List.Forall₂.length_eq hg]; exact List.count_le_length
      exact ⟨⟨by simp, by simpa using l1⟩, ⟨by simp, by simpa using l2⟩⟩
    · exact absurd h (by simp)
  | t k =>
    replace ho : classSpaces (cls "t") k k = some (c, a) := ho
    unfold classSpaces at ho
    rw [c1] at ho
    split at ho
    · exact absurd ho (by simp)
    · simp only [Option.some.injEq, Prod.mk.injEq] at ho
      exact exc _ _ ho.1.symm ho.2.symm h
  | lambda k =>
    replace ho : classSpaces (cls "λ") k k = some (c, a) := ho
    unfold classSpaces at ho
    rw [c2] at ho
    split at ho
    · exact absurd ho (by simp)
    · simp only [Option.some.injEq, Prod.mk.injEq] at ho
      exact dex _ _ ho.1.symm ho.2.symm h
  | r np nh norm =>
    replace ho : classSpaces (cls "R") np nh = some (c, a) := ho
    unfold classSpaces at ho
    rw [c3] at ho
    split at ho
    · exact absurd ho (by simp)
    · simp only [Option.some.injEq, Prod.mk.injEq] at ho
      exact exc _ _ ho.1.symm ho.2.symm h
  | l np nh norm =>
    replace ho : classSpaces (cls "L") nh np = some (c, a) := ho
    unfold classSpaces at ho
    rw [c4] at ho
    split at ho
    · exact absurd ho (by simp)
    · simp only [Option.some.injEq, Prod.mk.injEq] at ho
      exact dex _ _ ho.1.symm ho.2.symm h
  | A np nh norm => exact hA np nh ho h
  | S k norm => exact hS k ho h
  | P np nh norm =>
    replace ho : (if basis = .spinfree then (if np = nh then spacesS (-nh) else none) else spacesA (-np) (-nh)) = some (c, a) := ho
    replace h : (if basis = .spinfree then Op.qns.qnsS pBase hBase sp (-np) else Op.qns.qnsA pBase hBase sp (-np) (-nh))[s]? = some p := h
    by_cases hb : basis = .spinfree
    · rw [if_pos hb] at ho h
      split at ho
      · rename_i e
        rw [← e] at ho
        exact hS _ ho h
      · exact absurd ho (by simp)
    · rw [if_neg hb] at ho h
      exact hA _ _ ho h

/-- The tensor form has these spaces. -/
theorem tensor_spaces (cls : String → OpClass) (basis : Basis) (csv : Bool) (n : Nat) (o : Op) (t : Term Sel) (h : o.tensor cls basis csv n = some t) :
    o.spaces cls basis = some (t.opCre.map Idx.space, t.opAnn.map Idx.space) := by
  unfold Op.tensor at h
  cases hs : o.spaces cls basis with
  | none => rw [hs] at h; exact absurd h (by simp)
  | some ca =>
    obtain ⟨c, a⟩ := ca
    rw [hs] at h
    have key : ∀ label symm dep norm, make basis label c a [] symm dep norm n = some t → some (c, a) = some (t.opCre.map Idx.space, t.opAnn.map Idx.space) := by
      intro label symm dep norm hm
      obtain ⟨h1, h2, h3, h4, -⟩ := make_indices _ _ _ _ _ _ _ _ _ _ hm
      rw [h1, h2, h3, h4]
    cases o with
    | P np nh norm =>
      simp only at h
      split at h <;> exact key _ _ _ _ h
    | _ => exact key _ _ _ _ h

/-- **C111**: the operators that come in pairs are the adjoints of each other: creators and annihilators are exchanged. -/
theorem adjoint_pairs (cls : String → OpClass) (hcls : RightClasses cls) (basis : Basis) (k np nh : Nat) (norm : Norm) (norm' : Option Norm) (mp mh : Int) :
    (Op.lambda k).spaces cls basis = ((Op.t k).spaces cls basis).map Prod.swap ∧
    (Op.l np nh norm).spaces cls basis = ((Op.r np nh norm).spaces cls basis).map Prod.swap ∧
    (Op.A (-mp) (-mh) norm').spaces cls basis = ((Op.A mp mh norm').spaces cls basis).map Prod.swap ∧
    (Op.S (-mp) norm').spaces cls basis = ((Op.S mp norm').spaces cls basis).map Prod.swap ∧
    (Op.P (-mp) (-mh) norm').spaces cls basis = ((Op.P mp mh norm').spaces cls basis).map Prod.swap := by
  obtain ⟨c1, c2, c3, c4⟩ := hcls
  have hA : ∀ p h : Int, spacesA (-p) (-h) = (spacesA p h).map Prod.swap := by
    intro p h
    unfold spacesA
    by_cases h0 : p = 0 ∧ h = 0
    · simp [h0]
    · have h0' : ¬(-p = 0 ∧ -h = 0) := by omega
      rw [if_neg h0, if_neg h0']
      by_cases h1 : p ≠ 0 ∧ h ≠ 0 ∧ ¬((0 < p ∧ 0 < h) ∨ (p < 0 ∧ h < 0))
      · rw [if_pos h1, if_pos (show -p ≠ 0 ∧ -h ≠ 0 ∧ ¬((0 < -p ∧ 0 < -h) ∨ (-p < 0 ∧ -h < 0)) by omega)]
        rfl
      · rw [if_neg h1, if_neg (show ¬(-p ≠ 0 ∧ -h ≠ 0 ∧ ¬((0 < -p ∧ 0 < -h) ∨ (-p < 0 ∧ -h < 0))) by omega)]
        rcases lt_trichotomy p 0 with hp | hp | hp <;> rcases lt_trichotomy h 0 with hh | hh | hh
        all_goals first
          | omega
          | (simp [hp, hh, not_lt.2 hp.le, not_lt.2 hh.le])
  have hS : ∀ p : Int, spacesS (-p) = (spacesS p).map Prod.swap := by
    intro p
    unfold spacesS
    rcases lt_trichotomy p 0 with hp | hp | hp
    · simp [hp.ne, hp, not_lt.2 hp.le]
    · simp [hp]
    · simp [hp.ne', hp, not_lt.2 hp.le]
  refine ⟨?_, ?_, hA _ _, hS _, ?_⟩
  · simp only [Op.spaces, classSpaces, c1, c2]
    split <;> rfl
  · simp only [Op.spaces, classSpaces, c3, c4]
    by_cases h : np = 0 ∧ nh = 0
    · rw [if_pos h, if_pos h.symm]; rfl
    · rw [if_neg h, if_neg fun h' => h h'.symm]; rfl
  · simp only [Op.spaces]
    split
    · by_cases e : mp = mh
      · rw [if_pos e, if_pos (by rw [e]), hS]
      · rw [if_neg e, if_neg (by omega)]; rfl
    · rw [hA]

/-- `P` is the adjoint of the projector of the same ranks: `δl(np, nh)` de-excites, `δr(np, nh) = P(-np, -nh)` excites. -/
theorem projector_deexcites (cls : String → OpClass) (norm : Option Norm) (k np nh : Nat) (hk : 0 < k) (hn : 0 < np ∨ 0 < nh) :
    (Op.P k k norm).spaces cls .spinfree = some (List.replicate k .hole, List.replicate k .particle) ∧
    (Op.P (-k) (-k) norm).spaces cls .spinfree = some (List.replicate k .particle, List.replicate k .hole) ∧
    (Op.P np nh norm).spaces cls .spinor = some (List.replicate nh .hole, List.replicate np .particle) ∧
    (Op.P (-np) (-nh) norm).spaces cls .spinor = some (List.replicate np .particle, List.replicate nh .hole) := by
  refine ⟨?_, ?_, ?_, ?_⟩
  · simp [Op.spaces, spacesS]; omega
  · simp [Op.spaces, spacesS]; omega
  · cases hs : spacesA (-(np : Int)) (-(nh : Int)) with
    | none =>
      unfold spacesA at hs
      split at hs
      · omega
      · split at hs
        · omega
        · exact absurd hs (by simp)
    | some ca =>
      obtain ⟨c, a⟩ := ca
      show spacesA _ _ = _
      rw [hs]
      rcases spacesA_eq _ _ _ _ hs with ⟨h1, h2, h3⟩ | ⟨h1, h2, h3⟩
      · rw [h2, h3]; simp
      · omega
  · show spacesA _ _ = _
    rw [Int.neg_neg, Int.neg_neg]
    cases hs : spacesA (np : Int) (nh : Int) with
    | none =>
      unfold spacesA at hs
      split at hs
      · omega
      · split at hs
        · omega
        · exact absurd hs (by simp)
    | some ca =>
      obtain ⟨c, a⟩ := ca
      rcases spacesA_eq _ _ _ _ hs with ⟨h1, h2, h3⟩ | ⟨h1, h2, h3⟩
      · omega
      · rw [h2, h3]; simp

/-! ### Ranks -/

/-- **C111**: `T(K)` and `Λ(K)` have the ranks from 1, or from 2 if singles are to be skipped, up to `K`, each once; they are refused exactly if there
are none. -/
theorem ranksT_exact (K : Nat) (skip1 : Bool) :
    (ranksT K skip1 = none ↔ ∀ k, ¬((if skip1 then 2 else 1) ≤ k ∧ k ≤ K)) ∧
    ∀ l, ranksT K skip1 = some l → l.Nodup ∧ ∀ k, k ∈ l ↔ (if skip1 then 2 else 1) ≤ k ∧ k ≤ K := by
  unfold ranksT
  constructor
  · cases skip1
    · simp only [Bool.false_eq_true, if_false, gt_iff_lt]
      constructor
      · intro h k
        split at h
        · exact absurd h (by simp)
        · omega
      · intro h
        rw [if_neg]
        intro hK
        exact h 1 ⟨le_refl _, hK⟩
    · simp only [if_true, gt_iff_lt]
      constructor
      · intro h k
        split at h
        · exact absurd h (by simp)
        · omega
      · intro h
        rw [if_neg]
        intro hK
        exact h 2 ⟨le_refl _, hK⟩
  · intro l h
    by_cases hK : K > (if skip1 then 1 else 0)
    · rw [if_pos hK] at h
      obtain rfl := Option.some.inj h
      refine ⟨List.nodup_range.filter _, ?_⟩
      intro k
      simp only [List.mem_filter, List.mem_range, decide_eq_true_eq]
      omega
    · rw [if_neg hK] at h
      exact absurd h (by simp)

theorem mem_loopR (na nc a c : Nat) : (a, c) ∈ loopR na nc ↔ a ≤ na ∧ c ≤ nc ∧ a + nc = c + na ∧ (0 < a ∨ 0 < c) := by
  induction na generalizing nc with
  | zero =>
    cases nc with
    | zero => simp [loopR]; omega
    | succ nc => simp [loopR]; omega
  | succ na ih =>
    cases nc with
    | zero => simp [loopR]; omega
    | succ nc =>
      simp only [loopR, List.mem_cons, ih, Prod.mk.injEq]
      omega

theorem nodup_loopR (na nc : Nat) : (loopR na nc).Nodup := by
  induction na generalizing nc with
  | zero => cases nc <;> simp [loopR]
  | succ na ih =>
    cases nc with
    | zero => simp [loopR]
    | succ nc =>
      rw [loopR, List.nodup_cons]
      refine ⟨?_, ih nc⟩
      rw [mem_loopR]
      omega

/-- **C111**: `R(na, nc)` and `L(na, nc)` have, each once, the operators with at most `na` annihilators and `nc` creators that change the number of
particles by as much, other than the number 1. -/
theorem ranksR_exact (na nc : Nat) : (ranksR na nc = none ↔ na = 0 ∧ nc = 0) ∧
    ∀ l, ranksR na nc = some l → l.Nodup ∧ ∀ a c : Nat, (a, c) ∈ l ↔ a ≤ na ∧ c ≤ nc ∧ (a : Int) - c = na - nc ∧ (0 < a ∨ 0 < c) := by
  unfold ranksR
  constructor
  · constructor
    · intro h
      split at h
      · exact absurd h (by simp)
      · omega
    · intro h
      rw [if_neg (by omega)]
  · intro l h
    split at h
    · obtain rfl := Option.some.inj h
      refine ⟨nodup_loopR _ _, ?_⟩
      intro a c
      rw [mem_loopR]
      omega
    · exact absurd h (by simp)

/-! ### Parameters -/

theorem sorted_iff (l : List Nat) : (isSorted l && noAdjacent l) = true ↔ l.Pairwise (· < ·) := by
  induction l with
  | nil => simp [isSorted, noAdjacent]
  | cons a l ih =>
    cases l with
    | nil => simp [isSorted, noAdjacent]
    | cons b l =>
      have e : (isSorted (a :: b :: l) && noAdjacent (a :: b :: l)) = true ↔ a < b ∧ (isSorted (b :: l) && noAdjacent (b :: l)) = true := by
        simp only [isSorted, noAdjacent, Bool.and_eq_true, decide_eq_true_eq]
        constructor
        · rintro ⟨⟨h1, h2⟩, h3, h4⟩
          exact ⟨by omega, h2, h4⟩
        · rintro ⟨h1, h2, h4⟩
          exact ⟨⟨by omega, h2⟩, by omega, h4⟩
      rw [e, ih, List.pairwise_cons (a := a)]
      constructor
      · rintro ⟨h1, h2⟩
        refine ⟨?_, h2⟩
        intro c hc
        rcases List.mem_cons.1 hc with rfl | hc
        · exact h1
        · exact h1.trans ((List.pairwise_cons.1 h2).1 c hc)
      · rintro ⟨h1, h2⟩
        exact ⟨h1 b (by simp), h2⟩

/-- **C111**: which parameters are accepted. -/
theorem validate_exact (p : Params) :
    p.validate = true ↔ p.order ≤ 9 ∧ (p.nbatch = none ∨ p.ordinals = []) ∧ p.ordinals.Pairwise (· < ·) := by
  unfold Params.validate
  rw [Bool.and_eq_true, Bool.and_eq_true, Bool.or_eq_true, sorted_iff]
  cases hn : p.nbatch <;> cases ho : p.ordinals <;> simp

/-- **C111**: the batching indices are distinct and those asked for: the ordinals given, or as many as asked for beginning with 1; none are made only if
none are asked for. -/
theorem batch_exact (p : Params) (hv : p.validate = true) :
    (p.batch = none ↔ p.nbatch = some 0) ∧ (p.batch = some none ↔ p.nbatch = none ∧ p.ordinals = []) ∧
    ∀ l, p.batch = some (some l) → l ≠ [] ∧ l.Nodup ∧ (p.ordinals ≠ [] → l = p.ordinals) ∧
      ∀ k, p.nbatch = some k → l.length = k ∧ ∀ i, i ∈ l ↔ 1 ≤ i ∧ i ≤ k := by
  obtain ⟨-, h2, h3⟩ := (validate_exact p).1 hv
  unfold Params.batch
  rw [if_pos hv]
  cases ho : p.ordinals with
  | nil =>
    simp only [List.isEmpty_nil, if_true]
    match hn : p.nbatch with
    | none => simp
    | some 0 => simp
    | some (k + 1) =>
      simp only [reduceCtorEq, Option.some.injEq, Nat.add_eq_zero_iff, one_ne_zero, and_false, false_and, true_and, ne_eq, not_true, false_implies,
        forall_eq', iff_self]
      refine ⟨?_, ?_, ?_, ?_⟩
      · simp
      · exact (List.nodup_range).map fun a b h => by simpa using h
      · simp
      · intro i
        simp only [List.mem_map, List.mem_range]
        constructor
        · rintro ⟨a, h, rfl⟩; omega
        · rintro ⟨h1, h2⟩; exact ⟨i - 1, by omega, by omega⟩
  | cons a l =>
    have hn : p.nbatch = none := by simpa [ho] using h2
    rw [ho] at h3
    simp only [List.isEmpty_cons, Bool.false_eq_true, if_false, hn]
    simp only [reduceCtorEq, Option.some.injEq, and_false, forall_eq', ne_eq, not_false_eq_true, true_and, true_implies, false_implies, implies_true,
      and_true, iff_self]
    exact h3.imp fun h => h.ne

/-! ### The explicit Fock operator -/

section Fock

variable {γ : Type} [Fintype γ] [DecidableEq γ]

/-- The matrix element between `p` and `q` of what `F(false, occ)` adds to `h`: the summed indices run over `occ`, the Kronecker delta makes them
equal; an antisymmetric `g` has the elements `g - g` with the last two exchanged. -/
def fockValue (basis : Basis) (g : γ → γ → γ → γ → ℚ) (occ : γ → Bool) (p q : γ) : ℚ :=
  let val (m1 m2 : γ) : Bool ⊕ Bool → γ
    | .inl false => p
    | .inl true => q
    | .inr false => m1
    | .inr true => m2
  let elem (l r : List γ) : ℚ := match l, r with
    | [a, b], [c, d] => if (fockTerms basis).2 = .antisymm then g a b c d - g a b d c else g a b c d
    | _, _ => 0
  ∑ m1 ∈ univ.filter (fun m => occ m = true), ∑ m2 ∈ univ.filter (fun m => occ m = true),
    ((fockTerms basis).1.map fun t => (if t.neg then -1 else 1) * elem (t.bra.map (val m1 m2)) (t.ket.map (val m1 m2))).sum * if m1 = m2 then 1 else 0

/-- **C111**: in a spinor basis the explicit Fock operator has the elements `∑_m ⟨pm||qm⟩`. -/
theorem fock_spinor (g : γ → γ → γ → γ → ℚ) (occ : γ → Bool) (p q : γ) :
    fockValue .spinor g occ p q = ∑ m ∈ univ.filter (fun m => occ m = true), (g p m q m - g p m m q) := by
  unfold fockValue
  apply Finset.sum_congr rfl
  intro m hm
  rw [Finset.sum_eq_single_of_mem m hm]
  · simp [fockTerms]
  · intro m' _ hne
    simp [Ne.symm hne]

theorem fock_spinfree (g : γ → γ → γ → γ → ℚ) (occ : γ → Bool) (p q : γ) :
    fockValue .spinfree g occ p q = ∑ m ∈ univ.filter (fun m => occ m = true), (g p m q m - g p m m q) := by
  unfold fockValue
  apply Finset.sum_congr rfl
  intro m hm
  rw [Finset.sum_eq_single_of_mem m hm]
  · simp [fockTerms, sub_eq_add_neg]
  · intro m' _ hne
    simp [Ne.symm hne]

/-- Two-electron integrals over orbitals with spin, of an interaction that does not depend on it. -/
def spinG (g : γ → γ → γ → γ → ℚ) (a b c d : γ × Bool) : ℚ := if a.2 = c.2 ∧ b.2 = d.2 then g a.1 b.1 c.1 d.1 else 0

/-- Summing over the spin of doubly occupied orbitals gives twice the Coulomb minus the exchange part. -/
theorem fock_summed (g : γ → γ → γ → γ → ℚ) (occ : γ → Bool) (p q : γ) (s : Bool) :
    fockValue .spinor (spinG g) (fun m => occ m.1) (p, s) (q, s) = ∑ m ∈ univ.filter (fun m => occ m = true), (2 * g p m q m - g p m m q) := by
  rw [fock_spinor, Finset.sum_filter, Fintype.sum_prod_type, Finset.sum_filter]
  apply Finset.sum_congr rfl
  intro m _
  cases s <;> by_cases h : occ m = true <;> simp [h, spinG]

end Fock

/-- **C111**, refuted: in a spin-free basis the explicit Fock operator has `J - K` instead of `2 J - K`, which is what the operator in a spinor basis is
for doubly occupied orbitals. -/
theorem fock_spinfree_wrong : ¬ ∀ (g : Fin 1 → Fin 1 → Fin 1 → Fin 1 → ℚ) (occ : Fin 1 → Bool) (p q : Fin 1) (s : Bool),
    fockValue .spinfree g occ p q = fockValue .spinor (spinG g) (fun m => occ m.1) (p, s) (q, s) := by
  intro h
  have := h (fun _ _ _ _ => 1) (fun _ => true) 0 0 true
  rw [fock_spinfree, fock_summed (fun _ _ _ _ => 1) (fun _ => true) 0 0 true] at this
  simp at this
  norm_num at this

/-! ### Limits and examples -/

/-- **C111**, refuted without the condition on the classes: only the presence of a label in the registry is checked, so that if `t` is registered as a
general operator its tensor form acts on all states but its quantum numbers are those of an excitation. -/
theorem class_not_checked : ¬ ∀ (cls : String → OpClass) (sp : List BaseSpace) (o : Op) (c a : List Sel), o.spaces cls .spinor = some (c, a) →
    ∀ f g : List Nat, Assigned sp c f → Assigned sp a g → ∀ s p, (o.qns .spinor true true sp)[s]? = some p →
      Unique BaseSpace.particle sp → Unique BaseSpace.hole sp → InSpace p (f.count s) (g.count s) := by
  intro h
  have := h (fun _ => .gen) [⟨true, false, true⟩, ⟨true, true, false⟩] (.t 1) [.complete] [.complete] rfl [0] [0]
    (.cons ⟨_, rfl, rfl, rfl⟩ .nil) (.cons ⟨_, rfl, rfl, rfl⟩ .nil) 1 (⟨1, 1⟩, ⟨0, 0⟩) rfl
    (by intro s t b b' hs ht h1 h2
        match s, t with
        | 0, _ => simp at hs; subst hs; simp at h1
        | _, 0 => simp at ht; subst ht; simp at h2
        | 1, 1 => rfl
        | n + 2, _ => simp at hs
        | _, n + 2 => simp at ht)
    (by intro s t b b' hs ht h1 h2
        match s, t with
        | 1, _ => simp at hs; subst hs; simp at h1
        | _, 1 => simp at ht; subst ht; simp at h2
        | 0, 0 => rfl
        | n + 2, _ => simp at hs
        | _, n + 2 => simp at ht)
  simp [InSpace, Ival.Mem] at this

/-- `t(2)` in a spinor basis: `1/4 t_{a1 a2}^{i3 i4}`. -/
example : (Op.t 2).tensor (fun _ => .ex) .spinor false 0 = some ⟨.num (1 / 4), "t", [⟨.particle, 1, []⟩, ⟨.particle, 2, []⟩], [⟨.hole, 3, []⟩, ⟨.hole, 4, []⟩],
    [], .antisymm, [⟨.particle, 1, []⟩, ⟨.particle, 2, []⟩], [⟨.hole, 3, []⟩, ⟨.hole, 4, []⟩], 4⟩ := by decide +kernel

/-- With cluster-specific virtuals the particles depend on the holes. -/
example : (Op.t 1).tensor (fun _ => .ex) .spinor true 7 = some ⟨.num 1, "t", [⟨.particle, 9, [(.hole, 8)]⟩], [⟨.hole, 8, []⟩],
    [], .antisymm, [⟨.particle, 9, [(.hole, 8)]⟩], [⟨.hole, 8, []⟩], 9⟩ := by decide +kernel

/-- A projector that does not conserve the number of particles is refused in a spin-free basis. -/
example : (Op.P 1 2 none).tensor (fun _ => .gen) .spinfree false 0 = none ∧
    ((Op.P 1 2 none).tensor (fun _ => .gen) .spinor false 0).map (fun t => (t.coef, t.bra.map Idx.space, t.ket.map Idx.space)) =
      some (.one, [.hole, .hole], [.particle]) := by decide +kernel

example : ranksT 3 true = some [2, 3] ∧ ranksT 1 true = none ∧ ranksR 3 1 = some [(3, 1), (2, 0)] ∧ ranksR 2 2 = some [(2, 2), (1, 1)] := by decide

example : (Params.mk 1 none [1, 3]).validate = true ∧ (Params.mk 1 none [3, 1]).validate = false ∧ (Params.mk 1 none [1, 1]).validate = false ∧
    (Params.mk 1 (some 2) [1]).validate = false ∧ (Params.mk 1 (some 2) []).batch = some (some [1, 2]) := by decide

/-- Antisymmetric functions exist: a determinant. -/
example : Antisymm (γ := Bool) 2 0 (fun b _ => match b with
    | [x, y] => if x = y then (0 : ℚ) else if x then 1 else -1
    | _ => 0) := by
  constructor
  · decide +kernel
  · decide +kernel

end SeQuant.Maker
