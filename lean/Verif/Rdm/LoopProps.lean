import Verif.Rdm.LoopLemmas
import Mathlib.Data.Fin.VecNotation

/-!
# What `num_closed_loops` counts (C93)
-/

namespace SeQuant.Rdm

variable {α : Type} [DecidableEq α]

/-- The spins of the particles `s` suit the new pairs: the upper index of a new pair, which belongs to the particle where it stands in the
initial list, and its lower index have the same spin. -/
def Suits (initU initL newU newL : List α) (s : Fin initU.length → Bool) : Prop :=
  ∀ (j : Nat) (i k : Fin initU.length), newU[j]? = some (initU[i.1]) → newL[j]? = initL[k.1]? → s i = s k

omit [DecidableEq α] in
/-- A rearrangement of a list without repetitions is a permutation of positions. -/
theorem exists_positions {l m : List α} (hl : l.Nodup) (h : m.Perm l) :
    ∃ p : Equiv.Perm (Fin l.length), m = List.ofFn fun j => l[(p j).1] := by
  have hm : m.Nodup := h.nodup_iff.2 hl
  have hlen : m.length = l.length := h.length_eq
  have hex : ∀ j : Fin l.length, ∃ i : Fin l.length, l[i.1] = m[j.1]'(by rw [hlen]; exact j.2) := fun j => by
    obtain ⟨i, hi, he⟩ := List.getElem_of_mem (h.mem_iff.1 (List.getElem_mem (by rw [hlen]; exact j.2 : j.1 < m.length)))
    exact ⟨⟨i, hi⟩, he⟩
  choose f hf using hex
  have hinj : Function.Injective f := fun a b hab => by
    have h1 := hf a
    rw [hab, hf b] at h1
    exact Fin.ext ((hm.getElem_inj_iff).1 h1).symm
  refine ⟨Equiv.ofBijective f (Finite.injective_iff_bijective.1 hinj), ?_⟩
  refine List.ext_getElem (by simp [hlen]) fun i h1 h2 => ?_
  rw [List.getElem_ofFn]
  exact (hf ⟨i, by omega⟩).symm

/-- Functions that are constant on cycles are functions of the cycles. -/
theorem card_constant {n : Nat} (σ : Equiv.Perm (Fin n)) :
    Nat.card {s : Fin n → Bool // ∀ i, s i = s (σ i)} = 2 ^ Nat.card (Quotient (Equiv.Perm.SameCycle.setoid σ)) := by
  classical
  have e : {s : Fin n → Bool // ∀ i, s i = s (σ i)} ≃ (Quotient (Equiv.Perm.SameCycle.setoid σ) → Bool) :=
    { toFun := fun s q => Quotient.liftOn q s.1 (by
        rintro a b hab
        obtain ⟨k, -, rfl⟩ := Equiv.Perm.SameCycle.exists_pow_eq' hab
        clear hab
        induction k with
        | zero => rfl
        | succ k ih => rw [ih, s.2, pow_succ', Equiv.Perm.mul_apply])
      invFun := fun g => ⟨fun i => g (Quotient.mk _ i), fun i =>
        congrArg g (Quotient.sound (Equiv.Perm.sameCycle_apply_right.2 (Equiv.Perm.SameCycle.refl σ i)))⟩
      left_inv := fun s => rfl
      right_inv := fun g => funext fun q => Quotient.inductionOn q fun _ => rfl }
  rw [Nat.card_congr e, Nat.card_fun]
  simp

/-- **C93.**  If the new upper and the new lower indices are rearrangements of the initial ones, of which no two have the same label, then
the call returns, no assertion fails and no access is out of range, and two to the power of the result is the number of the
assignments of spins to the particles for which the two indices of each new pair have the same spin. -/
theorem numClosedLoops_spin (checks : Bool) (fuel : Nat) (initU initL newU newL : List α) (hU : initU.Nodup) (hL : initL.Nodup)
    (hlen : initU.length = initL.length) (hnU : newU.Perm initU) (hnL : newL.Perm initL) (hf : initU.length < fuel) :
    ∃ c, numClosedLoops checks fuel initU initL newU newL = .ok c ∧
      2 ^ c = Nat.card {s : Fin initU.length → Bool // Suits initU initL newU newL s} := by
  obtain ⟨p, hp⟩ := exists_positions hU hnU
  obtain ⟨q, hq⟩ := exists_positions hL hnL
  let e : Fin initU.length ≃ Fin initL.length := finCongr hlen
  let σ : Equiv.Perm (Fin initU.length) := p.symm.trans ((e.trans q).trans e.symm)
  have hUi : Function.Injective fun i : Fin initU.length => initU[i.1] := fun a b h => Fin.ext ((hU.getElem_inj_iff).1 h)
  have hLi : Function.Injective fun i : Fin initU.length => initL[i.1]'(hlen ▸ i.2) := fun a b h => Fin.ext ((hL.getElem_inj_iff).1 h)
  have hiU : List.ofFn (fun i : Fin initU.length => initU[i.1]) = initU := by
    refine List.ext_getElem (by simp) fun i h1 h2 => by rw [List.getElem_ofFn]
  have hiL : List.ofFn (fun i : Fin initU.length => initL[i.1]'(hlen ▸ i.2)) = initL := by
    refine List.ext_getElem (by simp [hlen]) fun i h1 h2 => by rw [List.getElem_ofFn]
  have hσ : ∀ j, σ (p j) = e.symm (q (e j)) := fun j => by simp [σ]
  have hqL : (List.ofFn fun j => initL[(σ (p j)).1]'(hlen ▸ (σ (p j)).2)) = newL := by
    rw [hq]
    refine List.ext_getElem (by simp [hlen]) fun i h1 h2 => ?_
    simp only [List.getElem_ofFn, hσ]
    rfl
  have hpU : (List.ofFn fun j => initU[(p j).1]) = newU := hp.symm
  have hmain := numClosedLoops_ofFn (fun i : Fin initU.length => initU[i.1]) (fun i => initL[i.1]'(hlen ▸ i.2)) σ p checks fuel hUi hLi hf
  rw [hiU, hiL, hqL, hpU] at hmain
  refine ⟨_, hmain, ?_⟩
  rw [← card_constant σ]
  refine congrArg Nat.card (congrArg Subtype (funext fun s => propext ⟨?_, ?_⟩))
  · intro h j i k hj hk
    have hjn : j < initU.length := by
      have := (List.getElem?_eq_some_iff.1 hj).1
      rwa [hnU.length_eq] at this
    have h1 : newU[j]? = some (initU[(p ⟨j, hjn⟩).1]) := by
      rw [← hpU]
      exact getElem?_ofFn' (fun j => initU[(p j).1]) ⟨j, hjn⟩
    have h2 : newL[j]? = some (initL[(σ (p ⟨j, hjn⟩)).1]'(hlen ▸ (σ (p ⟨j, hjn⟩)).2)) := by
      rw [← hqL]
      exact getElem?_ofFn' (fun j => initL[(σ (p j)).1]'(hlen ▸ (σ (p j)).2)) ⟨j, hjn⟩
    rw [h1, Option.some.injEq] at hj
    rw [h2, List.getElem?_eq_getElem (hlen ▸ k.2), Option.some.injEq] at hk
    have hi : p ⟨j, hjn⟩ = i := hUi hj
    have hk' : σ (p ⟨j, hjn⟩) = k := hLi hk
    rw [← hk', hi]
    exact h i
  · intro h i
    refine h (p.symm i).1 i (σ i) ?_ ?_
    · rw [← hpU, getElem?_ofFn' (fun j => initU[(p j).1]) (p.symm i)]
      simp
    · rw [List.getElem?_eq_getElem (l := initL) (hlen ▸ (σ i).2), ← hqL,
        getElem?_ofFn' (fun j => initL[(σ (p j)).1]'(hlen ▸ (σ (p j)).2)) (p.symm i)]
      simp

/-- Two particles exchanged, the third kept: two loops. -/
example : numClosedLoops true 4 ["p", "q", "r"] ["i", "j", "k"] ["r", "p", "q"] ["k", "j", "i"] = .ok 2 := by decide +kernel
example : numClosedLoops true 4 ["p", "q", "r"] ["i", "j", "k"] ["p", "q", "r"] ["j", "k", "i"] = .ok 1 := by decide +kernel
example : ∃ c, numClosedLoops true 4 ["p", "q", "r"] ["i", "j", "k"] ["r", "p", "q"] ["k", "j", "i"] = .ok c ∧
    2 ^ c = Nat.card {s : Fin 3 → Bool // Suits ["p", "q", "r"] ["i", "j", "k"] ["r", "p", "q"] ["k", "j", "i"] s} :=
  numClosedLoops_spin true 4 _ _ _ _ (by decide) (by decide) rfl (by decide) (by decide) (by decide)

/-- A pair that is the pair of a particle is a loop; the result never exceeds the number of particles. -/
theorem numClosedLoops_le (checks : Bool) (fuel : Nat) (initU initL newU newL : List α) (hU : initU.Nodup) (hL : initL.Nodup)
    (hlen : initU.length = initL.length) (hnU : newU.Perm initU) (hnL : newL.Perm initL) (hf : initU.length < fuel) (c : Nat)
    (h : numClosedLoops checks fuel initU initL newU newL = .ok c) : c ≤ initU.length ∧ (0 < initU.length → 0 < c) := by
  obtain ⟨c', hc', hs⟩ := numClosedLoops_spin checks fuel initU initL newU newL hU hL hlen hnU hnL hf
  rw [h] at hc'
  have hcc : c = c' := by simpa using hc'
  subst hcc
  classical
  constructor
  · have h1 : Nat.card {s : Fin initU.length → Bool // Suits initU initL newU newL s} ≤ Nat.card (Fin initU.length → Bool) :=
      Nat.card_le_card_of_injective _ Subtype.val_injective
    rw [← hs] at h1
    have h2 : Nat.card (Fin initU.length → Bool) = 2 ^ initU.length := by simp
    rw [h2] at h1
    exact (Nat.pow_le_pow_iff_right (by decide)).1 h1
  · intro hpos
    by_contra h0
    have hz : c = 0 := by omega
    rw [hz, pow_zero, eq_comm, Nat.card_eq_one_iff_unique] at hs
    have := hs.1.elim ⟨fun _ => true, fun _ _ _ _ _ => rfl⟩ ⟨fun _ => false, fun _ _ _ _ _ => rfl⟩
    have := congrFun (congrArg Subtype.val this) ⟨0, hpos⟩
    simp at this

example : (2 : Nat) ≤ 3 ∧ (0 < 3 → 0 < 2) :=
  numClosedLoops_le true 4 ["p", "q", "r"] ["i", "j", "k"] ["r", "p", "q"] ["k", "j", "i"] (by decide) (by decide) rfl (by decide)
    (by decide) (by decide) 2 (by decide +kernel)

/-- If only some of the particles are in the new pairs, the assertion about the size of `in_loop` can fail, though there is nothing wrong
with the arguments: with four particles and an open chain whose pairs stand in reverse order, the end of the chain is put into
`in_loop` again and again. -/
theorem numClosedLoops_open_chain_fails :
    numClosedLoops true 5 ["p", "q", "r", "s"] ["i", "j", "k", "l"] ["r", "q", "p"] ["l", "k", "j"] = .error .assertion ∧
      numClosedLoops false 5 ["p", "q", "r", "s"] ["i", "j", "k", "l"] ["r", "q", "p"] ["l", "k", "j"] = .ok 0 := by
  constructor <;> decide +kernel

/-- A new upper index that is none of the initial ones is looked up at position `-1`. -/
theorem numClosedLoops_unknown (checks : Bool) (fuel : Nat) (initU initL newU newL : List α) (u l : α) (hu : u ∉ initU)
    (hlen : (u :: newU).length = (l :: newL).length) :
    numClosedLoops checks fuel initU initL (u :: newU) (l :: newL) = .error .outOfRange := by
  have h0 : loopBody checks fuel initU initL (u :: newU) (l :: newL) ([], 0) 0 = .error .outOfRange := by
    rw [loopBody, if_neg (by simp at hlen; simp [hlen])]
    have h1 : whereSame checks l ([] : List α) = .ok none := whereSame_none checks l [] (by simp)
    simp only [at', List.getElem?_cons_zero, bind, Except.bind, h1, whereSame_none checks u initU hu]
  rw [numClosedLoops, List.length_cons, List.range_succ_eq_map, List.foldlM_cons, h0]
  rfl

example : numClosedLoops true 4 ["p", "q"] ["i", "j"] ["z", "q"] ["i", "j"] = .error .outOfRange :=
  numClosedLoops_unknown true 4 ["p", "q"] ["i", "j"] ["q"] ["j"] "z" "i" (by decide) rfl

/-- If a lower index occurs twice, the loop can go on for ever: `q` is above `j` and `p` as well, so the chain of `p` never gets back. -/
theorem numClosedLoops_diverges (checks : Bool) (fuel : Nat) :
    numClosedLoops checks fuel ["p", "q"] ["i", "j"] ["p", "q"] ["j", "j"] = .error .fuel := by
  have hloop : ∀ (f : Nat) (il : List String), follow checks ["p", "q"] ["i", "j"] ["p", "q"] ["j", "j"] "i" f "j" il = .error .fuel := by
    intro f
    induction f with
    | zero => intro il; rfl
    | succ f ih =>
      intro il
      have h1 : whereSame checks "j" ["i", "j"] = .ok (some 1) := whereSame_some checks _ _ 1 (by decide) rfl
      have h2 : whereSame checks "q" ["p", "q"] = .ok (some 1) := whereSame_some checks _ _ 1 (by decide) rfl
      rw [follow, if_neg (by decide)]
      simp only [h1, h2, at', bind, Except.bind, List.getElem?_cons_succ, List.getElem?_cons_zero]
      exact ih _
  have h1 : whereSame checks "j" ([] : List String) = .ok none := whereSame_none checks _ _ (by simp)
  have h2 : whereSame checks "p" ["p", "q"] = .ok (some 0) := whereSame_some checks _ _ 0 (by decide) rfl
  have h0 : loopBody checks fuel ["p", "q"] ["i", "j"] ["p", "q"] ["j", "j"] ([], 0) 0 = .error .fuel := by
    rw [loopBody, if_neg (by simp)]
    simp only [at', List.getElem?_cons_zero, bind, Except.bind, h1, h2, hloop]
  rw [numClosedLoops]
  simp only [List.length_cons, List.length_nil, List.range_succ_eq_map, List.foldlM_cons, h0]
  rfl

end SeQuant.Rdm
