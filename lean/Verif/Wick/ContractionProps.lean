import Verif.Wick.Contractions
import Verif.Wick.Instances

/-!
# C01, C02: which contractions the Wick engine makes, and with which sign
-/

namespace SeQuant.Wick

open SeQuant.Sort SeQuant.Perm

variable {Op : Type} {S : Statistics}

/-- The sign of a rearrangement: `ζ^(parity of the permutation)`. -/
def Statistics.sgn (S : Statistics) (u : ℤˣ) : Int := if S = .FermiDirac then u else 1

theorem adj_sgn (S : Statistics) {n : Nat} {l l' : List Op} (h : Adj n l l') :
    ∃ σ : Equiv.Perm (Fin l.length), l' = List.ofFn (fun i => l.get (σ i)) ∧
      S.zeta ^ n = S.sgn (Equiv.Perm.sign σ) := by
  obtain ⟨σ, h1, h2⟩ := h.sign
  refine ⟨σ, h1, ?_⟩
  rw [h2]
  cases S <;> simp [Statistics.zeta, Statistics.sgn]

variable [DecidableEq Op]

/-- **C02**, second half. In partial-contraction mode every admissible set of contractions (including the empty one) gives exactly one
summand; it keeps the uncontracted operators in their normal operators, and its phase is the sign of the permutation that brings
the contracted pairs to the front. -/
theorem wick_partial_contractions (cc : Op → Op → Bool) (nops : List (List Op)) (hnd : nops.flatten.Nodup) :
    (∀ cs, cs ∈ (wickPartialAll S cc nops).map (fun t => t.2.1) ↔ IsContractionSet cc nops cs) ∧
    ((wickPartialAll S cc nops).map fun t => t.2.1).Nodup ∧
    ∀ t ∈ wickPartialAll S cc nops,
      t.2.2 = nops.map (List.filter fun x => decide (x ∉ pairOps t.2.1)) ∧
      ∃ σ : Equiv.Perm (Fin nops.flatten.length),
        pairOps t.2.1 ++ t.2.2.flatten = List.ofFn (fun i => nops.flatten.get (σ i)) ∧
        t.1 = S.sgn (Equiv.Perm.sign σ) := by
  have hgood : ∀ t ∈ wickPartial S cc (wickFuel nops) nops, GoodTerm S cc nops t :=
    fun t ht => wickPartial_good cc _ nops hnd t ht
  refine ⟨fun cs => ⟨fun h => ?_, fun h => ?_⟩, ?_, fun t ht => ?_⟩
  · simp only [wickPartialAll, List.map_append, List.mem_append, List.map_cons, List.map_nil, List.mem_singleton] at h
    rcases h with h | rfl
    · obtain ⟨t, ht, rfl⟩ := List.mem_map.mp h
      exact (hgood t ht).admissible
    · exact ⟨by simp, by simp [pairOps], by simp⟩
  · simp only [wickPartialAll, List.map_append, List.mem_append, List.map_cons, List.map_nil, List.mem_singleton]
    by_cases hne : cs = []
    · exact Or.inr hne
    · exact Or.inl (wickPartial_complete cc _ nops hnd (Nat.le_refl _) cs h hne)
  · simp only [wickPartialAll, List.map_append, List.map_cons, List.map_nil]
    rw [List.nodup_append]
    refine ⟨wickPartial_nodup cc _ nops hnd, by simp, ?_⟩
    intro a ha b hb
    obtain ⟨t, ht, rfl⟩ := List.mem_map.mp ha
    simp only [List.mem_singleton] at hb
    subst hb
    exact (hgood t ht).nonempty
  · simp only [wickPartialAll, List.mem_append, List.mem_singleton] at ht
    rcases ht with ht | rfl
    · refine ⟨(hgood t ht).remaining, ?_⟩
      obtain ⟨n, hn, hs⟩ := (hgood t ht).sign
      obtain ⟨σ, h1, h2⟩ := adj_sgn S hn
      exact ⟨σ, h1, by rw [hs, h2]⟩
    · obtain ⟨σ, h1, h2⟩ := adj_sgn S (Swaps.refl (comp := fun _ _ => true) nops.flatten)
      exact ⟨(map_filter_nil _).symm, σ, by simpa [pairOps] using h1, by simpa using h2⟩

theorem flatten_rem_nil (nops : List (List Op)) (cs : List (Op × Op)) (hall : ∀ x ∈ nops.flatten, x ∈ pairOps cs) :
    (nops.map (List.filter fun x => decide (x ∉ pairOps cs))).flatten = [] := by
  rw [flatten_map_filter, List.filter_eq_nil_iff]
  intro a ha
  simp [hall a ha]

theorem wickFull_good (isQpAnn : Op → Bool) (cc : Op → Op → Bool) (fuel : Nat) (nops : List (List Op))
    (hnd : nops.flatten.Nodup) (t : Term Op) (h : t ∈ wickFull S isQpAnn cc fuel nops) :
    GoodTerm S cc nops (t.1, t.2, nops.map (List.filter fun x => decide (x ∉ pairOps t.2))) ∧
      2 * t.2.length = opsize nops := by
  induction fuel generalizing nops t with
  | zero => simp [wickFull] at h
  | succ fuel ih =>
    match nops with
    | [] => simp [wickFull] at h
    | [] :: nops =>
      simp only [wickFull] at h
      obtain ⟨g, hl⟩ := ih nops (by simpa using hnd) t h
      refine ⟨⟨(isContractionSet_emptyCons ..).mpr g.admissible, g.nonempty, rfl, ?_⟩, by simpa [opsize] using hl⟩
      simpa using g.sign
    | (o :: rest) :: others =>
      have hnd' := hnd
      simp only [List.flatten_cons, List.cons_append, List.nodup_cons, List.mem_append, not_or] at hnd'
      simp only [wickFull] at h
      split at h
      · simp at h
      · simp only [List.mem_flatMap] at h
        obtain ⟨p, hp, h⟩ := h
        have hsz := picks_opsize others p hp
        have hsub : (rest :: p.2.2).flatten.Nodup := by
          have hf := picks_filter others (List.nodup_append.mp hnd'.2).2.1 p hp
          have hs : (rest :: p.2.2).flatten.Sublist (rest ++ others.flatten) := by
            rw [List.flatten_cons, hf, flatten_map_filter]
            exact List.Sublist.append (List.Sublist.refl _) List.filter_sublist
          exact hnd'.2.sublist hs
        split at h
        · rename_i hcc
          split at h
          · rename_i h0
            simp only [List.mem_singleton] at h
            subst h
            have := goodTerm_pick (S := S) cc o rest others hnd p hp hcc 1 [] (rest :: p.2.2)
              ⟨by simp, by simp [pairOps], by simp⟩ (map_filter_nil _).symm
              ⟨0, by simpa [pairOps] using Swaps.refl _, by simp⟩
            simp only [mul_one] at this
            refine ⟨⟨this.admissible, this.nonempty, rfl, ?_⟩, ?_⟩
            · rw [← this.remaining]; exact this.sign
            · simp only [opsize, List.map_cons, List.sum_cons, List.length_cons, List.length_nil] at h0 hsz ⊢; omega
          · simp only [List.mem_map] at h
            obtain ⟨t', ht', rfl⟩ := h
            obtain ⟨g, hl⟩ := ih _ hsub t' ht'
            have := goodTerm_pick cc o rest others hnd p hp hcc t'.1 t'.2 _ g.admissible g.remaining g.sign
            refine ⟨⟨this.admissible, this.nonempty, rfl, ?_⟩, ?_⟩
            · have hr := this.remaining
              simp only at hr
              simp only [← hr]
              exact this.sign
            · simp [opsize] at hl hsz ⊢; omega
        · simp at h

theorem wickFull_complete (isQpAnn : Op → Bool) (cc : Op → Op → Bool)
    (hq : ∀ x y, cc x y = true → isQpAnn x = true) (fuel : Nat) (nops : List (List Op)) (hnd : nops.flatten.Nodup)
    (hfuel : wickFuel nops ≤ fuel) (cs : List (Op × Op)) (hcs : IsContractionSet cc nops cs) (hne : cs ≠ [])
    (hall : 2 * cs.length = opsize nops) :
    cs ∈ (wickFull S isQpAnn cc fuel nops).map fun t => t.2 := by
  induction fuel generalizing nops cs with
  | zero => simp [wickFuel] at hfuel
  | succ fuel ih =>
    match nops with
    | [] =>
      cases cs with
      | nil => exact absurd rfl hne
      | cons p cs => have := (hcs.pairs p (by simp)).2; simp [Later] at this
    | [] :: nops =>
      simp only [wickFull]
      exact ih nops (by simpa using hnd) (by simp [wickFuel, opsize] at hfuel ⊢; omega) cs
        ((isContractionSet_emptyCons ..).mp hcs) hne (by simpa [opsize] using hall)
    | (o :: rest) :: others =>
      have hnd' := hnd
      simp only [List.flatten_cons, List.cons_append, List.nodup_cons, List.mem_append, not_or] at hnd'
      rw [isContractionSet_cons cc o rest others hnd] at hcs
      rcases hcs with ⟨y, cs', rfl, hy, hcc, hcs'⟩ | hcs
      · rw [← picks_ops others] at hy
        obtain ⟨p, hp, rfl⟩ := List.mem_map.mp hy
        rw [← picks_filter others (List.nodup_append.mp hnd'.2).2.1 p hp] at hcs'
        simp only [wickFull, hq _ _ hcc, Bool.not_true, Bool.false_eq_true, if_false, List.mem_map, List.mem_flatMap]
        have hsz := picks_opsize others p hp
        by_cases hnil : cs' = []
        · subst hnil
          refine ⟨(phase S (rest.length + p.1), [(o, p.2.1)]), ⟨p, hp, ?_⟩, rfl⟩
          rw [if_pos hcc, if_pos (by
            simp only [opsize, List.map_cons, List.sum_cons, List.length_cons, List.length_nil] at hall hsz ⊢; omega)]
          simp
        · have hsub : (rest :: p.2.2).flatten.Nodup := by
            have hf := picks_filter others (List.nodup_append.mp hnd'.2).2.1 p hp
            have hs : (rest :: p.2.2).flatten.Sublist (rest ++ others.flatten) := by
              rw [List.flatten_cons, hf, flatten_map_filter]
              exact List.Sublist.append (List.Sublist.refl _) List.filter_sublist
            exact hnd'.2.sublist hs
          have := ih (rest :: p.2.2) hsub (by simp [wickFuel, opsize] at hfuel hsz ⊢; omega) cs' hcs' hnil
            (by simp [opsize] at hall hsz ⊢; omega)
          obtain ⟨t, ht, rfl⟩ := List.mem_map.mp this
          have h0 : opsize (rest :: p.2.2) ≠ 0 := by
            have : t.2.length ≠ 0 := by simpa using hnil
            simp only [opsize, List.map_cons, List.sum_cons, List.length_cons] at hall hsz ⊢; omega
          refine ⟨(phase S (rest.length + p.1) * t.1, (o, p.2.1) :: t.2), ⟨p, hp, ?_⟩, rfl⟩
          rw [if_pos hcc, if_neg h0]
          exact List.mem_map.mpr ⟨t, ht, rfl⟩
      · exfalso
        have h1 : (pairOps cs).length ≤ (rest :: others).flatten.length :=
          (List.Nodup.subperm hcs.disjoint fun x hx => isContractionSet_mem hcs hx).length_le
        rw [pairOps_length, ← opsize_flatten] at h1
        simp [opsize] at hall h1; omega

theorem wickFull_nodup (isQpAnn : Op → Bool) (cc : Op → Op → Bool) (fuel : Nat) (nops : List (List Op))
    (hnd : nops.flatten.Nodup) : ((wickFull S isQpAnn cc fuel nops).map fun t => t.2).Nodup := by
  induction fuel generalizing nops with
  | zero => simp [wickFull]
  | succ fuel ih =>
    match nops with
    | [] => simp [wickFull]
    | [] :: nops => simp only [wickFull]; exact ih nops (by simpa using hnd)
    | (o :: rest) :: others =>
      have hnd' := hnd
      simp only [List.flatten_cons, List.cons_append, List.nodup_cons, List.mem_append, not_or] at hnd'
      have hsub : ∀ p ∈ picks others, (rest :: p.2.2).flatten.Nodup := fun p hp => by
        have hf := picks_filter others (List.nodup_append.mp hnd'.2).2.1 p hp
        have hs : (rest :: p.2.2).flatten.Sublist (rest ++ others.flatten) := by
          rw [List.flatten_cons, hf, flatten_map_filter]
          exact List.Sublist.append (List.Sublist.refl _) List.filter_sublist
        exact hnd'.2.sublist hs
      simp only [wickFull]
      split
      · simp
      · rw [List.map_flatMap, List.nodup_flatMap]
        constructor
        · intro p hp
          split
          · split
            · simp
            · have := (ih (rest :: p.2.2) (hsub p hp)).map (f := fun l => (o, p.2.1) :: l)
                  (fun a b h => by simpa using h)
              simpa [List.map_map, Function.comp_def] using this
          · simp
        · have hpn : (picks others).Pairwise (fun p q => p.2.1 ≠ q.2.1) := by
            have := (List.nodup_append.mp hnd'.2).2.1
            rw [← picks_ops others] at this
            exact List.pairwise_map.mp this
          refine hpn.imp ?_
          intro p q hpq x hx hx'
          have hfst : ∀ (p : Nat × Op × List (List Op)), x ∈ List.map (fun t : Term Op => t.2)
                (if cc o p.2.1 = true then
                  (if opsize (rest :: p.2.2) = 0 then [(phase S (rest.length + p.1), [(o, p.2.1)])]
                   else (wickFull S isQpAnn cc fuel (rest :: p.2.2)).map fun t =>
                    (phase S (rest.length + p.1) * t.1, (o, p.2.1) :: t.2)) else []) →
              x.head? = some (o, p.2.1) := by
            intro p hx
            split at hx
            · split at hx
              · simp at hx; subst hx; rfl
              · simp only [List.map_map, List.mem_map, Function.comp_def] at hx
                obtain ⟨t, _, rfl⟩ := hx
                rfl
            · simp at hx
          have h1 := hfst p hx
          have h2 := hfst q hx'
          rw [h1] at h2
          simp at h2
          exact hpq h2

/-- **C01**, combinatorial form. In full-contraction mode every complete admissible set of contractions gives exactly one summand, and its
phase is the sign of the permutation that brings the operators into the order of the pairs. -/
theorem wick_full_contractions (isQpAnn : Op → Bool) (cc : Op → Op → Bool)
    (hq : ∀ x y, cc x y = true → isQpAnn x = true) (nops : List (List Op)) (hnd : nops.flatten.Nodup)
    (hpos : 0 < opsize nops) :
    (∀ cs, cs ∈ (wickFull S isQpAnn cc (wickFuel nops) nops).map (fun t => t.2) ↔
      IsContractionSet cc nops cs ∧ (pairOps cs).Perm nops.flatten) ∧
    ((wickFull S isQpAnn cc (wickFuel nops) nops).map fun t => t.2).Nodup ∧
    ∀ t ∈ wickFull S isQpAnn cc (wickFuel nops) nops,
      ∃ σ : Equiv.Perm (Fin nops.flatten.length),
        pairOps t.2 = List.ofFn (fun i => nops.flatten.get (σ i)) ∧ t.1 = S.sgn (Equiv.Perm.sign σ) := by
  have hperm : ∀ cs, IsContractionSet cc nops cs → 2 * cs.length = opsize nops → (pairOps cs).Perm nops.flatten := by
    intro cs h hl
    apply (List.Nodup.subperm h.disjoint fun x hx => isContractionSet_mem h hx).perm_of_length_le
    rw [pairOps_length, hl, opsize_flatten]
  refine ⟨fun cs => ⟨fun h => ?_, fun h => ?_⟩, wickFull_nodup isQpAnn cc _ nops hnd, fun t ht => ?_⟩
  · obtain ⟨t, ht, rfl⟩ := List.mem_map.mp h
    obtain ⟨g, hl⟩ := wickFull_good isQpAnn cc _ nops hnd t ht
    exact ⟨g.admissible, hperm _ g.admissible hl⟩
  · have hl : 2 * cs.length = opsize nops := by
      rw [← pairOps_length, h.2.length_eq, opsize_flatten]
    exact wickFull_complete isQpAnn cc hq _ nops hnd (Nat.le_refl _) cs h.1
      (by rintro rfl; simp at hl; omega) hl
  · obtain ⟨g, hl⟩ := wickFull_good isQpAnn cc _ nops hnd t ht
    obtain ⟨n, hn, hs⟩ := g.sign
    simp only at hn hs
    rw [flatten_rem_nil nops t.2 (fun x hx => (hperm _ g.admissible hl).symm.subset hx), List.append_nil] at hn
    obtain ⟨σ, h1, h2⟩ := adj_sgn S hn
    exact ⟨σ, h1, by rw [hs, h2]⟩

/-! ### Concrete instances -/

open Inst

def f2Contract (x y : F2) : Bool := decide (f2c x y ≠ 0)
def f2Ann (x : F2) : Bool := decide (x = .a1 ∨ x = .a2)

/-- The hypotheses of `wick_full` hold for two fermionic modes, and the value of `⟨a1 a2 c1 c2⟩` comes out as `-1`. -/
example : fermi2Vac.vac (fermi2.prod [[.a1], [.a2], [.c1], [.c2]]) = -1 := by
  rw [wick_full fermi2 fermi2Vac f2Ann f2Contract (by intro o; cases o <;> simp [f2Ann, fermi2])
    (by intro x y; cases x <;> cases y <;> simp [f2Contract, f2c, fermi2]) _ (by decide)]
  decide +kernel

/-- Nothing contracts inside a normal operator: `⟨N[a1 c1]⟩ = 0`. -/
example : fermi2Vac.vac (fermi2.prod [[.a1, .c1]]) = 0 := by
  rw [wick_full fermi2 fermi2Vac f2Ann f2Contract (by intro o; cases o <;> simp [f2Ann, fermi2])
    (by intro x y; cases x <;> cases y <;> simp [f2Contract, f2c, fermi2]) _ (by decide)]
  decide +kernel

/-- One bosonic mode: `⟨a a c c⟩ = 2` (two complete sets of contractions). -/
example : bose1Vac.vac (bose1.prod [[false], [false], [true], [true]]) = 2 := by
  rw [wick_full bose1 bose1Vac (fun b => !b) (fun x y => !x && y) (by intro o; cases o <;> simp [bose1, bAn])
    (by intro x y; cases x <;> cases y <;> simp [bose1]) _ (by decide)]
  have : wickFull .BoseEinstein (fun b : Bool => !b) (fun x y : Bool => !x && y)
      (wickFuel [[false], [false], [true], [true]]) [[false], [false], [true], [true]] =
      [(1, [(false, true), (false, true)]), (1, [(false, true), (false, true)])] := by decide +kernel
  rw [this]
  norm_num [pairProd, bose1]

/-- `wick_partial_sum` for two fermionic modes: `a1 c1 = N[a1 c1] + 1`. -/
example : fermi2.prod [[.a1], [.c1]] = fermi2.N [.a1, .c1] + 1 := by
  rw [wick_partial_sum fermi2 f2Contract (by intro x y; cases x <;> cases y <;> simp [f2Contract, f2c, fermi2])]
  decide +kernel

example : ([[F2.a1], [F2.a2], [F2.c1], [F2.c2]] : List (List F2)).flatten.Nodup ∧
    ((wickPartialAll .FermiDirac f2Contract [[.a1], [.a2], [.c1], [.c2]]).map fun t => (t.1, t.2.1)) =
      [(-1, [(.a1, .c1)]), (-1, [(.a1, .c1), (.a2, .c2)]), (-1, [(.a2, .c2)]), (1, [])] := by decide +kernel

example : ∀ x y, f2Contract x y = true → f2Ann x = true := by intro x y; cases x <;> cases y <;> decide

end SeQuant.Wick
