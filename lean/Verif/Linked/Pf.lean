import Verif.Wick.Contractions
import Mathlib.Tactic.Ring

/-!
# Sums over full sets of contractions

The sum over all full sets of contractions as a function of the contractions `c`, by expansion of the first operator, and what happens
to it when a normal operator moves.
-/

namespace SeQuant.Linked

open SeQuant.Wick

variable {Op K : Type} [CommRing K]

/-- Expansion along the first operator. -/
def pfF (S : Statistics) (c : Op → Op → K) : Nat → List (List Op) → K
  | 0, _ => 0
  | _ + 1, [] => 1
  | f + 1, [] :: ns => pfF S c f ns
  | f + 1, (o :: r) :: ns =>
    ((picks ns).map fun p => (S.zeta : K) ^ (r.length + p.1) * c o p.2.1 * pfF S c f (r :: p.2.2)).sum

/-- The sum over all full sets of contractions (1 if there is no operator). -/
def pf (S : Statistics) (c : Op → Op → K) (nops : List (List Op)) : K := pfF S c (wickFuel nops) nops

variable {S : Statistics} {c c' : Op → Op → K}

theorem picks_length (ls : List (List Op)) (p : Nat × Op × List (List Op)) (h : p ∈ picks ls) : p.2.2.length = ls.length := by
  induction ls generalizing p with
  | nil => simp [picks] at h
  | cons l ls ih =>
    simp only [picks, List.mem_append, List.mem_map] at h
    rcases h with ⟨q, hq, rfl⟩ | ⟨q, hq, rfl⟩
    · simp
    · simp [ih q hq]

theorem fuel_pick (o : Op) (r : List Op) (ns : List (List Op)) (p : Nat × Op × List (List Op)) (h : p ∈ picks ns) :
    wickFuel (r :: p.2.2) < wickFuel ((o :: r) :: ns) := by
  have h1 := picks_length ns p h
  have h2 := picks_opsize ns p h
  simp only [wickFuel, opsize, List.map_cons, List.sum_cons, List.length_cons] at h1 h2 ⊢
  omega

theorem pfF_fuel (f f' : Nat) (nops : List (List Op)) (h : wickFuel nops ≤ f) (h' : wickFuel nops ≤ f') :
    pfF S c f nops = pfF S c f' nops := by
  induction f generalizing f' nops with
  | zero => simp [wickFuel] at h
  | succ f ih =>
    match f' with
    | 0 => simp [wickFuel] at h'
    | f' + 1 =>
      match nops with
      | [] => rfl
      | [] :: ns =>
        simp only [pfF]
        exact ih f' ns (by simp [wickFuel, opsize] at h ⊢; omega) (by simp [wickFuel, opsize] at h' ⊢; omega)
      | (o :: r) :: ns =>
        simp only [pfF]
        congr 1
        apply List.map_congr_left
        intro p hp
        have := fuel_pick o r ns p hp
        rw [ih f' (r :: p.2.2) (by omega) (by omega)]

theorem pf_nil : pf S c ([] : List (List Op)) = 1 := rfl

theorem pf_empty (ns : List (List Op)) : pf S c ([] :: ns) = pf S c ns := by
  unfold pf
  rw [show wickFuel (([] : List Op) :: ns) = wickFuel ns + 1 by simp [wickFuel, opsize]; omega]
  rfl

theorem pf_cons (o : Op) (r : List Op) (ns : List (List Op)) : pf S c ((o :: r) :: ns) =
    ((picks ns).map fun p => (S.zeta : K) ^ (r.length + p.1) * c o p.2.1 * pf S c (r :: p.2.2)).sum := by
  unfold pf
  rw [show wickFuel ((o :: r) :: ns) = (opsize (r :: ns) + ns.length + 2) + 1 by simp [wickFuel, opsize]; omega]
  simp only [pfF]
  congr 1
  apply List.map_congr_left
  intro p hp
  have := fuel_pick o r ns p hp
  have e : wickFuel ((o :: r) :: ns) = (opsize (r :: ns) + ns.length + 2) + 1 := by simp [wickFuel, opsize]; omega
  rw [pfF_fuel _ (wickFuel (r :: p.2.2)) _ (by omega) (Nat.le_refl _)]

/-- The summands of the engine add up to `pf`. -/
theorem wickFull_pf (isQpAnn : Op → Bool) (cc : Op → Op → Bool) (hann : ∀ x y, isQpAnn x = false → c x y = 0)
    (hc : ∀ x y, cc x y = false → c x y = 0) (fuel : Nat) (nops : List (List Op)) (hne : 0 < opsize nops) (hf : wickFuel nops ≤ fuel) :
    ((wickFull S isQpAnn cc fuel nops).map fun t => (t.1 : K) * pairProd c t.2).sum = pf S c nops := by
  induction fuel generalizing nops with
  | zero => simp [wickFuel] at hf
  | succ fuel ih =>
    match nops with
    | [] => simp [opsize] at hne
    | [] :: ns =>
      rw [pf_empty]
      simp only [wickFull]
      exact ih ns (by simpa [opsize] using hne) (by simp [wickFuel, opsize] at hf ⊢; omega)
    | (o :: r) :: ns =>
      rw [pf_cons]
      simp only [wickFull]
      by_cases hq : isQpAnn o = false
      · simp [hq, hann o _ hq]
      · rw [Bool.not_eq_false] at hq
        simp only [hq, Bool.not_true, Bool.false_eq_true, if_false]
        rw [sum_map_flatMap]
        apply sum_map_congr
        intro p hp
        have hfp := fuel_pick o r ns p hp
        by_cases hcc : cc o p.2.1 = false
        · simp [hcc, hc _ _ hcc]
        · rw [Bool.not_eq_false] at hcc
          simp only [hcc, if_true]
          have hph : ((phase S (r.length + p.1) : Int) : K) = (S.zeta : K) ^ (r.length + p.1) := by
            rw [phase_eq]; push_cast; rfl
          split
          · rename_i h0
            have : pf S c (r :: p.2.2) = 1 := by
              clear hfp hph
              generalize r :: p.2.2 = l at h0
              induction l with
              | nil => rfl
              | cons a l ih' =>
                simp only [opsize, List.map_cons, List.sum_cons] at h0
                have ha : a = [] := List.length_eq_zero_iff.mp (by omega)
                rw [ha, pf_empty, ih' (by simp only [opsize]; omega)]
            rw [this]
            simp [pairProd, hph]
          · rename_i h0
            rw [← ih (r :: p.2.2) (by omega) (by omega), List.map_map, mul_comm, ← sum_map_mul_right]
            apply sum_map_congr
            intro t ht
            simp [pairProd, hph]; ring

theorem picks_append (a b : List (List Op)) : picks (a ++ b) =
    ((picks a).map fun p => (p.1, p.2.1, p.2.2 ++ b)) ++ (picks b).map fun p => (opsize a + p.1, p.2.1, a ++ p.2.2) := by
  induction a with
  | nil => simp [picks, opsize]
  | cons l a ih =>
    simp only [List.cons_append, picks, ih, List.map_append, List.map_map, List.append_assoc]
    congr 1
    congr 1
    apply List.map_congr_left
    intro p _
    simp [opsize, Nat.add_assoc]

theorem mem_pick (ls : List (List Op)) (p : Nat × Op × List (List Op)) (h : p ∈ picks ls) :
    p.2.1 ∈ ls.flatten ∧ ∀ x ∈ p.2.2.flatten, x ∈ ls.flatten := by
  obtain ⟨pre, post, h1, h2, _⟩ := picks_split ls p h
  rw [h1, h2]
  refine ⟨by simp, fun x hx => ?_⟩
  simp only [List.mem_append, List.mem_cons] at hx ⊢
  tauto

/-- Only the contractions of an operator with an operator of a later normal operator matter. -/
theorem pf_congr (nops : List (List Op)) (h : ∀ x y, Later nops x y → c x y = c' x y) : pf S c nops = pf S c' nops := by
  generalize hn : wickFuel nops = n
  induction n using Nat.strong_induction_on generalizing nops with
  | _ n ih =>
    match nops with
    | [] => rfl
    | [] :: ns =>
      rw [pf_empty, pf_empty]
      refine ih (wickFuel ns) (by rw [← hn]; simp [wickFuel, opsize]) ns (fun x y hl => h x y (Or.inr hl)) rfl
    | (o :: r) :: ns =>
      rw [pf_cons, pf_cons]
      apply sum_map_congr
      intro p hp
      obtain ⟨m1, m2⟩ := mem_pick ns p hp
      rw [h o p.2.1 (Or.inl ⟨by simp, m1⟩)]
      congr 1
      refine ih _ (hn ▸ fuel_pick o r ns p hp) (r :: p.2.2) ?_ rfl
      intro x y hl
      apply h
      rcases hl with ⟨h1, h2⟩ | hl
      · exact Or.inl ⟨by simp [h1], m2 y h2⟩
      · exact Or.inr (later_of_pick ns p hp x y hl)
where
  later_of_pick (ls : List (List Op)) (p : Nat × Op × List (List Op)) (h : p ∈ picks ls) (x y : Op) (hl : Later p.2.2 x y) :
      Later ls x y := by
    induction ls generalizing p with
    | nil => simp [picks] at h
    | cons l ls ih =>
      simp only [picks, List.mem_append, List.mem_map] at h
      rcases h with ⟨q, hq, rfl⟩ | ⟨q, hq, rfl⟩
      · obtain ⟨pre, post, h1, h2, _⟩ := picksIn_split l q hq
        rcases hl with ⟨h3, h4⟩ | hl
        · refine Or.inl ⟨?_, h4⟩
          rw [h1]
          rw [h2] at h3
          simp only [List.mem_append, List.mem_cons] at h3 ⊢
          tauto
        · exact Or.inr hl
      · rcases hl with ⟨h3, h4⟩ | hl
        · exact Or.inl ⟨h3, (mem_pick ls q hq).2 y h4⟩
        · exact Or.inr (ih q hq hl)

/-- A normal operator that can be contracted with nothing. -/
theorem pf_dead (T : List Op) (hT : T ≠ []) (hc : ∀ t ∈ T, ∀ y, c t y = 0) (A post : List (List Op))
    (hA : ∀ x ∈ A.flatten, ∀ t ∈ T, c x t = 0) : pf S c (A ++ T :: post) = 0 := by
  generalize hn : wickFuel (A ++ T :: post) = n
  induction n using Nat.strong_induction_on generalizing A post with
  | _ n ih =>
    match A with
    | [] =>
      match T, hT with
      | t :: T', _ =>
        rw [List.nil_append, pf_cons]
        apply List.sum_eq_zero
        intro v hv
        simp only [List.mem_map] at hv
        obtain ⟨p, _, rfl⟩ := hv
        rw [hc t (by simp)]; ring
    | [] :: A =>
      rw [List.cons_append, pf_empty]
      exact ih _ (by rw [← hn]; simp [wickFuel, opsize]) A post (fun x hx => hA x (by simpa using hx)) rfl
    | (o :: r) :: A =>
      rw [List.cons_append, pf_cons]
      apply List.sum_eq_zero
      intro v hv
      simp only [List.mem_map] at hv
      obtain ⟨p, hp, rfl⟩ := hv
      have hfp := fuel_pick o r _ p hp
      rw [← List.cons_append, hn] at hfp
      rw [picks_append] at hp
      simp only [picks, List.mem_append, List.mem_map, List.map_append, List.map_map, Function.comp_apply] at hp
      have hsub : ∀ x ∈ r, ∀ t ∈ T, c x t = 0 := fun x hx => hA x (by simp [hx])
      rcases hp with ⟨q, hq, rfl⟩ | ⟨q, hq, rfl⟩ | ⟨q, hq, rfl⟩
      · have := ih _ hfp (r :: q.2.2) post (fun x hx => by
          simp only [List.flatten_cons, List.mem_append] at hx
          rcases hx with hx | hx
          · exact hsub x hx
          · exact hA x (by simp only [List.flatten_cons, List.mem_append]; exact Or.inr ((mem_pick A q hq).2 x hx))) rfl
        rw [List.cons_append] at this
        rw [this]; ring
      · obtain ⟨pre, post', h1, _, _⟩ := picksIn_split T q hq
        rw [hA o (by simp) q.2.1 (by rw [h1]; simp)]; ring
      · have := ih _ hfp (r :: A) q.2.2 (fun x hx => by
          simp only [List.flatten_cons, List.mem_append] at hx
          rcases hx with hx | hx
          · exact hsub x hx
          · exact hA x (by simp only [List.flatten_cons, List.mem_append]; exact Or.inr hx)) rfl
        rw [List.cons_append] at this
        rw [this]; ring

theorem opsize_append (a b : List (List Op)) : opsize (a ++ b) = opsize a + opsize b := by simp [opsize]

/-- An empty normal operator does not matter. -/
theorem pf_insert_nil (pre post : List (List Op)) : pf S c (pre ++ [] :: post) = pf S c (pre ++ post) := by
  generalize hn : wickFuel (pre ++ [] :: post) = n
  induction n using Nat.strong_induction_on generalizing pre post with
  | _ n ih =>
    match pre with
    | [] => rw [List.nil_append, pf_empty]; rfl
    | [] :: pre =>
      rw [List.cons_append, List.cons_append, pf_empty, pf_empty]
      exact ih _ (by rw [← hn]; simp [wickFuel, opsize]) pre post rfl
    | (o :: r) :: pre =>
      rw [List.cons_append, List.cons_append, pf_cons, pf_cons, picks_append, picks_append]
      simp only [picks, picksIn, List.map_nil, List.nil_append, List.map_append, List.sum_append, List.map_map, List.length_nil]
      congr 1
      · apply sum_map_congr
        intro q hq
        simp only [Function.comp_apply]
        have hfp := fuel_pick o r (pre ++ [] :: post) (q.1, q.2.1, q.2.2 ++ [] :: post)
          (by rw [picks_append, List.mem_append]; exact Or.inl (List.mem_map_of_mem hq))
        have := ih _ (by rw [← hn]; exact hfp) (r :: q.2.2) post rfl
        simp only [List.cons_append] at this
        rw [this]
      · apply sum_map_congr
        intro q hq
        simp only [Function.comp_apply]
        have hfp := fuel_pick o r (pre ++ [] :: post) (opsize pre + (0 + q.1), q.2.1, pre ++ [] :: q.2.2)
          (by
            rw [picks_append, List.mem_append]
            refine Or.inr (List.mem_map.mpr ⟨(0 + q.1, q.2.1, [] :: q.2.2), ?_, rfl⟩)
            simp only [picks, picksIn, List.map_nil, List.nil_append]
            exact List.mem_map.mpr ⟨q, hq, rfl⟩)
        have := ih _ (by rw [← hn]; exact hfp) (r :: pre) q.2.2 rfl
        simp only [List.cons_append] at this
        rw [this, Nat.zero_add]

theorem picksIn_length' (l : List Op) (p : Nat × Op × List Op) (h : p ∈ picksIn l) : l.length = p.2.2.length + 1 := by
  obtain ⟨pre, post, h1, h2, _⟩ := picksIn_split l p h
  rw [h1, h2]; simp; omega

theorem mem_pickIn (l : List Op) (p : Nat × Op × List Op) (h : p ∈ picksIn l) : p.2.1 ∈ l ∧ ∀ x ∈ p.2.2, x ∈ l := by
  obtain ⟨pre, post, h1, h2, _⟩ := picksIn_split l p h
  rw [h1, h2]
  refine ⟨by simp, fun x hx => ?_⟩
  simp only [List.mem_append, List.mem_cons] at hx ⊢
  tauto

/-- Two adjacent normal operators that are not contracted with each other may be exchanged; the right one consists of quasiparticle
creators. -/
theorem pf_swap (pre : List (List Op)) (X T : List Op) (post : List (List Op)) (hT : ∀ t ∈ T, ∀ y, c t y = 0)
    (hX : ∀ x ∈ X, ∀ t ∈ T, c x t = 0) :
    pf S c (pre ++ X :: T :: post) = (S.zeta : K) ^ (X.length * T.length) * pf S c (pre ++ T :: X :: post) := by
  generalize hn : wickFuel (pre ++ X :: T :: post) = n
  induction n using Nat.strong_induction_on generalizing pre X T post with
  | _ n ih =>
    match pre with
    | [] =>
      by_cases hTe : T = []
      · subst hTe
        have := pf_insert_nil (S := S) (c := c) [X] post
        simp only [List.cons_append, List.nil_append] at this
        simp [pf_empty, this]
      · have h1 := pf_dead (S := S) T hTe hT [X] post (by simpa using hX)
        have h2 := pf_dead (S := S) T hTe hT [] (X :: post) (by simp)
        simp only [List.cons_append, List.nil_append] at h1 h2 ⊢
        rw [h1, h2]; ring
    | [] :: pre =>
      rw [List.cons_append, List.cons_append, pf_empty, pf_empty]
      exact ih _ (by rw [← hn]; simp [wickFuel, opsize]) pre X T post hT hX rfl
    | (o :: r) :: pre =>
      have fuelOf : ∀ p ∈ picks (pre ++ X :: T :: post), wickFuel (r :: p.2.2) < n := by
        intro p hp
        have := fuel_pick o r _ p hp
        rwa [← List.cons_append, hn] at this
      rw [List.cons_append, List.cons_append, pf_cons, pf_cons, picks_append, picks_append]
      simp only [picks_append, picks, List.mem_append, List.mem_map] at fuelOf
      simp only [picks, List.map_append, List.sum_append, List.map_map, mul_add]
      have z2 : ∀ m : Nat, (S.zeta : K) ^ m * (S.zeta : K) ^ m = 1 := fun m => by rw [← pow_add]; exact zeta_pow_even S m
      have A : ∀ q ∈ picks pre, pf S c (r :: (q.2.2 ++ X :: T :: post)) =
          (S.zeta : K) ^ (X.length * T.length) * pf S c (r :: (q.2.2 ++ T :: X :: post)) := by
        intro q hq
        have := ih _ (fuelOf _ (Or.inl ⟨q, hq, rfl⟩)) (r :: q.2.2) X T post hT hX rfl
        simpa only [List.cons_append] using this
      have B : ∀ q ∈ picksIn X, pf S c (r :: (pre ++ q.2.2 :: T :: post)) =
          (S.zeta : K) ^ (q.2.2.length * T.length) * pf S c (r :: (pre ++ T :: q.2.2 :: post)) := by
        intro q hq
        have := ih _ (fuelOf _ (Or.inr ⟨_, Or.inl ⟨q, hq, rfl⟩, rfl⟩)) (r :: pre) q.2.2 T post hT
          (fun x hx => hX x ((mem_pickIn X q hq).2 x hx)) rfl
        simpa only [List.cons_append] using this
      have C : ∀ q ∈ picksIn T, pf S c (r :: (pre ++ X :: q.2.2 :: post)) =
          (S.zeta : K) ^ (X.length * q.2.2.length) * pf S c (r :: (pre ++ q.2.2 :: X :: post)) := by
        intro q hq
        have := ih _ (fuelOf _ (Or.inr ⟨_, Or.inr ⟨_, Or.inl ⟨q, hq, rfl⟩, rfl⟩, rfl⟩)) (r :: pre) X q.2.2 post
          (fun t ht => hT t ((mem_pickIn T q hq).2 t ht)) (fun x hx t ht => hX x hx t ((mem_pickIn T q hq).2 t ht)) rfl
        simpa only [List.cons_append] using this
      have D : ∀ q ∈ picks post, pf S c (r :: (pre ++ X :: T :: q.2.2)) =
          (S.zeta : K) ^ (X.length * T.length) * pf S c (r :: (pre ++ T :: X :: q.2.2)) := by
        intro q hq
        have := ih _ (fuelOf _ (Or.inr ⟨_, Or.inr ⟨_, Or.inr ⟨q, hq, rfl⟩, rfl⟩, rfl⟩)) (r :: pre) X T q.2.2 hT hX rfl
        simpa only [List.cons_append] using this
      have eA : ((picks pre).map ((fun p => (S.zeta : K) ^ (r.length + p.1) * c o p.2.1 * pf S c (r :: p.2.2)) ∘
            fun p => (p.1, p.2.1, p.2.2 ++ X :: T :: post))).sum =
          (S.zeta : K) ^ (X.length * T.length) *
            ((picks pre).map ((fun p => (S.zeta : K) ^ (r.length + p.1) * c o p.2.1 * pf S c (r :: p.2.2)) ∘
            fun p => (p.1, p.2.1, p.2.2 ++ T :: X :: post))).sum := by
        rw [← sum_map_mul_left]
        apply sum_map_congr
        intro q hq
        simp only [Function.comp_apply]
        rw [A q hq]; ring
      rw [eA]
      have eB : ∀ q ∈ picksIn X, (S.zeta : K) ^ (r.length + (opsize pre + q.1)) * c o q.2.1 * pf S c (r :: (pre ++ q.2.2 :: T :: post)) =
          (S.zeta : K) ^ (X.length * T.length) * ((S.zeta : K) ^ (r.length + (opsize pre + (T.length + q.1))) * c o q.2.1 *
            pf S c (r :: (pre ++ T :: q.2.2 :: post))) := by
        intro q hq
        rw [B q hq, picksIn_length' X q hq,
          show (S.zeta : K) ^ ((q.2.2.length + 1) * T.length) = (S.zeta : K) ^ (q.2.2.length * T.length) * (S.zeta : K) ^ T.length by
            rw [← pow_add]; congr 1; ring,
          show (S.zeta : K) ^ (r.length + (opsize pre + (T.length + q.1))) =
            (S.zeta : K) ^ T.length * (S.zeta : K) ^ (r.length + (opsize pre + q.1)) by
            rw [← pow_add]; congr 1; ring]
        linear_combination (-((S.zeta : K) ^ (r.length + (opsize pre + q.1)) * c o q.2.1 * (S.zeta : K) ^ (q.2.2.length * T.length) *
          pf S c (r :: (pre ++ T :: q.2.2 :: post)))) * z2 T.length
      have eC : ∀ q ∈ picksIn T, (S.zeta : K) ^ (r.length + (opsize pre + (X.length + q.1))) * c o q.2.1 *
            pf S c (r :: (pre ++ X :: q.2.2 :: post)) =
          (S.zeta : K) ^ (X.length * T.length) * ((S.zeta : K) ^ (r.length + (opsize pre + q.1)) * c o q.2.1 *
            pf S c (r :: (pre ++ q.2.2 :: X :: post))) := by
        intro q hq
        rw [C q hq, picksIn_length' T q hq,
          show (S.zeta : K) ^ (X.length * (q.2.2.length + 1)) = (S.zeta : K) ^ (X.length * q.2.2.length) * (S.zeta : K) ^ X.length by
            rw [← pow_add]; congr 1,
          show (S.zeta : K) ^ (r.length + (opsize pre + (X.length + q.1))) =
            (S.zeta : K) ^ X.length * (S.zeta : K) ^ (r.length + (opsize pre + q.1)) by
            rw [← pow_add]; congr 1; ring]
        ring
      have eD : ∀ q ∈ picks post, (S.zeta : K) ^ (r.length + (opsize pre + (X.length + (T.length + q.1)))) * c o q.2.1 *
            pf S c (r :: (pre ++ X :: T :: q.2.2)) =
          (S.zeta : K) ^ (X.length * T.length) * ((S.zeta : K) ^ (r.length + (opsize pre + (T.length + (X.length + q.1)))) * c o q.2.1 *
            pf S c (r :: (pre ++ T :: X :: q.2.2))) := by
        intro q hq
        rw [D q hq, show r.length + (opsize pre + (T.length + (X.length + q.1))) = r.length + (opsize pre + (X.length + (T.length + q.1))) by ring]
        ring
      simp only [← sum_map_mul_left]
      congr 1
      simp only [Function.comp_def]
      rw [sum_map_congr eB, sum_map_congr eC, sum_map_congr eD]
      ring

/-- A normal operator of quasiparticle creators moves to the left past normal operators that are not contracted with it. -/
theorem pf_move (T : List Op) (hz : (S.zeta : K) ^ T.length = 1) (hT : ∀ t ∈ T, ∀ y, c t y = 0) (pre Ys post : List (List Op))
    (hY : ∀ x ∈ Ys.flatten, ∀ t ∈ T, c x t = 0) :
    pf S c (pre ++ (Ys ++ T :: post)) = pf S c (pre ++ T :: (Ys ++ post)) := by
  induction Ys generalizing pre with
  | nil => rfl
  | cons Y Ys ih =>
    have h1 := ih (pre ++ [Y]) (fun x hx => hY x (by simp only [List.flatten_cons, List.mem_append]; exact Or.inr hx))
    simp only [List.append_assoc, List.cons_append, List.nil_append] at h1 ⊢
    rw [h1, pf_swap pre Y T (Ys ++ post) hT (fun x hx => hY x (by simp only [List.flatten_cons, List.mem_append]; exact Or.inl hx)),
      Nat.mul_comm, pow_mul, hz, one_pow, one_mul]

end SeQuant.Linked
