import Verif.Wick.Lemmas

/-!
# C01, C02: the summands produced by the Wick engine reproduce the operator product
-/

namespace SeQuant.Wick

variable {Op K A : Type} [CommRing K] [Ring A] [Algebra K A] {S : Statistics}

/-- The number a list of contractions stands for. -/
def pairProd (c : Op → Op → K) (cs : List (Op × Op)) : K := (cs.map fun p => c p.1 p.2).prod

theorem sum_map_flatMap {ι κ M : Type} [AddCommGroup M] (l : List ι) (g : ι → List κ) (f : κ → M) :
    ((l.flatMap g).map f).sum = (l.map fun i => ((g i).map f).sum).sum := by
  induction l with
  | nil => rfl
  | cons a l ih => simp [ih]

theorem sum_map_congr {ι M : Type} [AddCommGroup M] {l : List ι} {f g : ι → M} (h : ∀ i ∈ l, f i = g i) :
    (l.map f).sum = (l.map g).sum := by
  rw [List.map_congr_left h]

theorem prod_of_opsize_zero (W : Alg S Op K A) (nops : List (List Op)) (h : opsize nops = 0) : W.prod nops = 1 := by
  induction nops with
  | nil => rfl
  | cons l ls ih =>
    simp only [opsize, List.map_cons, List.sum_cons] at h
    have hl : l = [] := List.length_eq_zero_iff.mp (by omega)
    rw [prod_cons, hl, ih (by simp only [opsize]; omega)]
    simp [Alg.N]

theorem vac_sum {W : Alg S Op K A} (V : Vac W) {ι : Type} (l : List ι) (f : ι → A) :
    V.vac (l.map f).sum = (l.map fun i => V.vac (f i)).sum := by
  induction l with
  | nil => simp
  | cons a l ih => simp [ih]

/-- **C01.** The fully contracted summands of the engine add up to the vacuum expectation value. -/
theorem wick_full (W : Alg S Op K A) (V : Vac W) (isQpAnn : Op → Bool) (canContract : Op → Op → Bool)
    (hann : ∀ o, isQpAnn o = false → W.an o = 0)
    (hc : ∀ x y, canContract x y = false → W.c x y = 0)
    (nops : List (List Op)) (hne : 0 < opsize nops) :
    V.vac (W.prod nops) =
      ((wickFull S isQpAnn canContract (wickFuel nops) nops).map fun t => (t.1 : K) * pairProd W.c t.2).sum := by
  suffices H : ∀ fuel (nops : List (List Op)), 0 < opsize nops → wickFuel nops ≤ fuel →
      V.vac (W.prod nops) =
      ((wickFull S isQpAnn canContract fuel nops).map fun t => (t.1 : K) * pairProd W.c t.2).sum from
    H _ nops hne (Nat.le_refl _)
  clear hne nops
  intro fuel
  induction fuel with
  | zero => intro nops _ h; simp [wickFuel] at h
  | succ fuel ih =>
    intro nops hpos hfuel
    match nops with
    | [] => simp [opsize] at hpos
    | [] :: nops =>
      simp only [wickFull]
      rw [← ih nops (by simpa [opsize] using hpos) (by simp [wickFuel, opsize] at hfuel ⊢; omega)]
      simp [prod_cons, Alg.N]
    | (o :: rest) :: others =>
      simp only [wickFull]
      rw [prod_cons, Alg.N, add_mul, map_add, mul_assoc, V.vac_cr, zero_add, smul_mul_assoc, mul_assoc]
      by_cases hq : isQpAnn o = false
      · simp [hq, hann o hq]
      · have hq : isQpAnn o = true := by simpa using hq
        simp only [hq, Bool.not_true, Bool.false_eq_true, if_false]
        rw [an_prod, mul_add, smul_add, map_add, mul_smul_comm, ← mul_assoc, map_smul, map_smul, V.vac_an,
          smul_zero, smul_zero, zero_add, ← sum_map_mul_left, ← sum_map_smul, vac_sum, sum_map_flatMap]
        apply sum_map_congr
        intro p hp
        have hsz := picks_opsize others p hp
        by_cases hcc : canContract o p.2.1 = false
        · simp [hcc, hc _ _ hcc]
        · have hcc : canContract o p.2.1 = true := by simpa using hcc
          simp only [hcc, if_true]
          rw [mul_smul_comm, smul_smul, map_smul, ← prod_cons, smul_eq_mul]
          have hph : ((phase S (rest.length + p.1) : Int) : K) = (S.zeta : K) ^ rest.length * (S.zeta : K) ^ p.1 := by
            rw [phase_eq]; push_cast; ring
          split
          · rename_i h0
            rw [prod_of_opsize_zero W _ h0, V.vac_one]
            simp [pairProd, hph]; ring
          · rename_i h0
            rw [ih (rest :: p.2.2) (by omega)
              (by simp [wickFuel, opsize] at hfuel hsz ⊢; omega), List.map_map, ← smul_eq_mul, ← sum_map_smul]
            apply sum_map_congr
            intro t ht
            simp [pairProd, hph]; ring

theorem flatten_restore (o : Op) (l : List (List Op)) : (restore o l).flatten = o :: l.flatten := by
  cases l <;> simp [restore]

theorem opsize_flatten (l : List (List Op)) : opsize l = l.flatten.length := by
  simp [opsize, List.length_flatten]

/-- The operators of a summand are the contracted ones and the remaining ones. -/
theorem wickPartial_size (canContract : Op → Op → Bool) (fuel : Nat) (nops : List (List Op)) (t : PartialTerm Op)
    (h : t ∈ wickPartial S canContract fuel nops) : t.2.2.flatten.length + 2 * t.2.1.length = opsize nops := by
  induction fuel generalizing nops t with
  | zero => simp [wickPartial] at h
  | succ fuel ih =>
    match nops with
    | [] => simp [wickPartial] at h
    | [] :: nops =>
      simp only [wickPartial, List.mem_map] at h
      obtain ⟨t', ht', rfl⟩ := h
      have := ih nops t' ht'
      simp [opsize] at this ⊢; omega
    | (o :: rest) :: others =>
      simp only [wickPartial, List.mem_append, List.mem_flatMap, List.mem_map] at h
      rcases h with ⟨p, hp, h⟩ | ⟨t', ht', rfl⟩
      · have hsz := picks_opsize others p hp
        split at h
        · simp only [List.mem_cons] at h
          rcases h with rfl | h
          · simp only [← opsize_flatten]
            simp [opsize] at hsz ⊢; omega
          · split at h
            · simp at h
            · simp only [List.mem_map] at h
              obtain ⟨t', ht', rfl⟩ := h
              have := ih _ t' ht'
              simp [opsize] at this hsz ⊢; omega
        · simp at h
      · have := ih _ t' ht'
        rw [flatten_restore]
        simp [opsize] at this ⊢; omega

theorem wickPartial_nil (canContract : Op → Op → Bool) (fuel : Nat) (nops : List (List Op)) (h : opsize nops = 0) :
    wickPartial S canContract fuel nops = [] := by
  induction fuel generalizing nops with
  | zero => rfl
  | succ fuel ih =>
    match nops with
    | [] => rfl
    | [] :: nops => simp [wickPartial, ih nops (by simpa [opsize] using h)]
    | (o :: rest) :: others => simp [opsize] at h

/-- **C02**, first half. The summands of the engine in partial-contraction mode add up to the operator product. -/
theorem wick_partial_sum (W : Alg S Op K A) (canContract : Op → Op → Bool)
    (hc : ∀ x y, canContract x y = false → W.c x y = 0) (nops : List (List Op)) :
    W.prod nops =
      ((wickPartialAll S canContract nops).map fun t =>
        ((t.1 : K) * pairProd W.c t.2.1) • W.N t.2.2.flatten).sum := by
  suffices H : ∀ fuel (nops : List (List Op)), wickFuel nops ≤ fuel →
      W.prod nops = ((wickPartial S canContract fuel nops).map fun t =>
        ((t.1 : K) * pairProd W.c t.2.1) • W.N t.2.2.flatten).sum + W.N nops.flatten by
    rw [wickPartialAll, List.map_append, List.sum_append, H _ nops (Nat.le_refl _)]
    simp [pairProd]
  clear nops
  intro fuel
  induction fuel with
  | zero => intro nops h; simp [wickFuel] at h
  | succ fuel ih =>
    intro nops hfuel
    match nops with
    | [] => simp [wickPartial, Alg.prod, Alg.N]
    | [] :: nops =>
      simp only [wickPartial, List.map_map, Function.comp_def]
      rw [prod_cons, ih nops (by simp [wickFuel, opsize] at hfuel ⊢; omega)]
      simp [Alg.N]
    | (o :: rest) :: others =>
      -- the left operator is kept
      have hkeep := ih (rest :: others) (by simp [wickFuel, opsize] at hfuel ⊢; omega)
      have e1 : W.prod ((o :: rest) :: others) =
          (W.cr o * W.prod (rest :: others) +
            ((S.zeta : K) ^ opsize (rest :: others)) • (W.prod (rest :: others) * W.an o)) +
          ((picks others).map fun p =>
            ((S.zeta : K) ^ (rest.length + p.1) * W.c o p.2.1) • W.prod (rest :: p.2.2)).sum := by
        rw [prod_cons, Alg.N, add_mul, mul_assoc, smul_mul_assoc, mul_assoc, an_prod, mul_add, ← sum_map_mul_left,
          smul_add, ← sum_map_smul, ← add_assoc]
        congr 1
        · rw [prod_cons, mul_smul_comm, smul_smul, ← pow_add, mul_assoc]
          simp [opsize]
        · apply sum_map_congr
          intro p hp
          rw [mul_smul_comm, smul_smul, prod_cons, pow_add, mul_assoc]
      rw [e1, hkeep]
      simp only [wickPartial, List.map_append, List.sum_append, List.map_map, Function.comp_def, flatten_restore]
      have e2 : ∀ l : List Op, ∀ k, opsize (rest :: others) = l.length + 2 * k →
          W.cr o * W.N l + ((S.zeta : K) ^ opsize (rest :: others)) • (W.N l * W.an o) = W.N (o :: l) := by
        intro l k h
        rw [Alg.N, h, pow_add, two_mul, zeta_pow_even, mul_one]
      have e3 : W.cr o * (((wickPartial S canContract fuel (rest :: others)).map fun t =>
            ((t.1 : K) * pairProd W.c t.2.1) • W.N t.2.2.flatten).sum + W.N (rest :: others).flatten) +
          ((S.zeta : K) ^ opsize (rest :: others)) • ((((wickPartial S canContract fuel (rest :: others)).map fun t =>
            ((t.1 : K) * pairProd W.c t.2.1) • W.N t.2.2.flatten).sum + W.N (rest :: others).flatten) * W.an o) =
          ((wickPartial S canContract fuel (rest :: others)).map fun t =>
            ((t.1 : K) * pairProd W.c t.2.1) • W.N (o :: t.2.2.flatten)).sum +
          W.N ((o :: rest) :: others).flatten := by
        have h0 := e2 (rest :: others).flatten 0 (by rw [← opsize_flatten]; rfl)
        have h1 : ((wickPartial S canContract fuel (rest :: others)).map fun t =>
            ((t.1 : K) * pairProd W.c t.2.1) • W.N (o :: t.2.2.flatten)).sum =
            ((wickPartial S canContract fuel (rest :: others)).map fun t =>
            W.cr o * (((t.1 : K) * pairProd W.c t.2.1) • W.N t.2.2.flatten) +
              ((S.zeta : K) ^ opsize (rest :: others)) •
                ((((t.1 : K) * pairProd W.c t.2.1) • W.N t.2.2.flatten) * W.an o)).sum := by
          apply sum_map_congr
          intro t ht
          rw [← e2 t.2.2.flatten t.2.1.length (by rw [← wickPartial_size canContract fuel _ t ht]), smul_add,
            mul_smul_comm, smul_mul_assoc, smul_comm]
        rw [h1, sum_map_add, sum_map_mul_left, sum_map_smul, sum_map_mul_right]
        have : ((o :: rest) :: others).flatten = o :: (rest :: others).flatten := by simp
        rw [this, ← h0, mul_add, add_mul, smul_add]
        abel
      rw [e3]
      have e4 : ((picks others).map fun p =>
            ((S.zeta : K) ^ (rest.length + p.1) * W.c o p.2.1) • W.prod (rest :: p.2.2)).sum =
          (((picks others).flatMap fun p =>
            if canContract o p.2.1 then
              (phase S (rest.length + p.1), [(o, p.2.1)], rest :: p.2.2) ::
                (if opsize (rest :: p.2.2) = 0 then []
                 else (wickPartial S canContract fuel (rest :: p.2.2)).map fun t =>
                  (phase S (rest.length + p.1) * t.1, (o, p.2.1) :: t.2.1, t.2.2))
            else []).map fun t : PartialTerm Op =>
              ((t.1 : K) * pairProd W.c t.2.1) • W.N t.2.2.flatten).sum := by
        rw [sum_map_flatMap]
        apply sum_map_congr
        intro p hp
        have hsz := picks_opsize others p hp
        by_cases hcc : canContract o p.2.1 = false
        · simp [hcc, hc _ _ hcc]
        · have hcc : canContract o p.2.1 = true := by simpa using hcc
          have hph : ((phase S (rest.length + p.1) : Int) : K) = (S.zeta : K) ^ (rest.length + p.1) := by
            rw [phase_eq]; push_cast; ring
          simp only [hcc, if_true, List.map_cons, List.sum_cons]
          have hz : (if opsize (rest :: p.2.2) = 0 then []
                 else (wickPartial S canContract fuel (rest :: p.2.2)).map fun t =>
                  (phase S (rest.length + p.1) * t.1, (o, p.2.1) :: t.2.1, t.2.2)) =
              (wickPartial S canContract fuel (rest :: p.2.2)).map fun t =>
                  (phase S (rest.length + p.1) * t.1, (o, p.2.1) :: t.2.1, t.2.2) := by
            split
            · rename_i h0
              rw [wickPartial_nil _ _ _ h0]; rfl
            · rfl
          rw [hz, ih (rest :: p.2.2) (by simp [wickFuel, opsize] at hfuel hsz ⊢; omega), smul_add, ← sum_map_smul,
            List.map_map, add_comm]
          congr 1
          · simp [pairProd, hph]
          · apply sum_map_congr
            intro t ht
            simp [pairProd, hph, smul_smul]
            congr 1
            ring
      rw [e4]
      abel

end SeQuant.Wick
