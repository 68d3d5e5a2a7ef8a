import Verif.Linked.Examples
import Verif.Wick.ContractionProps

/-!
# Where the expansions of the coupled-cluster model are truncated (C115)

Transcribes the ranks at which `CC::hbar`, `CC::t`, `CC::λ`, `CC::tʼ`, `CC::λʼ` and `CC::rdm` cut the series of nested commutators off by default
(`SeQuant/domain/mbpt/models/cc.cpp`:69-76, 92, 143-146, 222-225, 253-263, 317-328), and proves that all later terms vanish.
-/

namespace SeQuant.Cc

open SeQuant.Wick SeQuant.Linked

/-- `CC::hbar` (70) as used in `CC::t`, `CC::eom_r`, `CC::eom_l`. -/
def rankHbar (given : Option Nat) : Nat := given.getD 4

/-- `CC::λ` (143-146): `none` if the assertion fails. -/
def rankLambda (given : Option Nat) : Option Nat := let r := given.getD 4; if 1 ≤ r then some (r - 1) else none

/-- The Hamiltonian commuted with the perturbed amplitudes in `CC::tʼ` (260-263). -/
def rankPerturbed (given : Option Nat) : Nat := given.getD 3

/-- The perturbation in `CC::tʼ` (253-254) and `CC::λʼ` (317-318). -/
def rankPert (given : Option Nat) (rank : Nat) : Nat := given.getD (if rank = 1 then 2 else 4)

/-- `CC::rdm` (222-223) for the traditional ansatz. -/
def rankRdm (given : Option Nat) (rank N : Nat) : Nat := given.getD (min (2 * rank) (rank + N))

variable {Op K A : Type} {S : Statistics} [DecidableEq Op] [CommRing K] [Ring A] [Algebra K A]

omit [DecidableEq Op] in
theorem c_of_an (W : Alg S Op K A) (V : Vac W) (x y : Op) (h : W.an x = 0) : W.c x y = 0 := by
  have h1 := W.an_cr x y
  rw [h, zero_mul, mul_zero, smul_zero, zero_add] at h1
  have h2 := congrArg V.vac h1
  rw [map_zero, map_smul, V.vac_one, smul_eq_mul, mul_one] at h2
  exact h2.symm

/-- **C115**: the creators of the `T`s have to be absorbed by all the other operators; if there are more of them the expectation value of the nested
commutator vanishes. -/
theorem absorbed (W : Alg S Op K A) (V : Vac W) (pre : List (List Op)) (H : List Op) (Ts post : List (List Op)) (hH : H ≠ [])
    (hne : ∀ T ∈ Ts, T ≠ []) (hcr : ∀ T ∈ Ts, ∀ t ∈ T, W.an t = 0) (heven : ∀ T ∈ Ts, (S.zeta : K) ^ T.length = 1)
    (hnd : (pre ++ H :: (Ts ++ post)).flatten.Nodup) (hlen : pre.flatten.length + H.length + post.flatten.length < Ts.flatten.length) :
    V.vac (W.prod pre * nest (W.N H) (Ts.map W.N) * W.prod post) = 0 := by
  classical
  let cc : Op → Op → Bool := fun x y => decide (W.c x y ≠ 0)
  have hc : ∀ x y, cc x y = false → W.c x y = 0 := by
    intro x y h
    by_contra hn
    simp [cc, hn] at h
  have hcan := fun x y h => c_of_an W V x y h
  obtain ⟨terms, h1, h2⟩ := linked W V (fun _ => true) cc (fun o h => by cases h) hc pre H Ts post hH hne hcr heven hnd
  have hT : ∀ i < Ts.length, (pre ++ H :: (Ts ++ post)).getD (pre.length + 1 + i) [] = Ts.getD i [] := by
    intro i hi
    rw [getD_after]
    simp only [List.getD]
    rw [List.getElem?_append_left hi]
  have hmem : ∀ p ∈ linkPairs pre.length Ts.length, p.1 = pre.length ∧ ∃ i < Ts.length, p.2 = pre.length + 1 + i := by
    intro p hp
    simp only [linkPairs, List.mem_map, List.mem_range] at hp
    obtain ⟨i, hi, rfl⟩ := hp
    exact ⟨rfl, i, hi, rfl⟩
  rw [constrained_exact (fun _ => true) cc (linkPairs pre.length Ts.length) [] _ hnd ?_ (by simp) ?_ (by simp) ?_] at h1
  · have hempty : terms = [] := by
      rw [← Option.some.inj h1, List.filter_eq_nil_iff]
      intro t ht
      exfalso
      obtain ⟨hg, hl⟩ := wickFull_good (S := S) (fun _ => true) cc _ _ hnd t ht
      have hperm := wickFull_perm S (fun _ => true) cc _ _ t ht
      have hsub : ∀ x ∈ Ts.flatten, x ∈ t.2.map Prod.snd := by
        intro x hx
        have hx' : x ∈ pairOps t.2 := hperm.mem_iff.2 (by
          simp only [List.flatten_append, List.flatten_cons, List.mem_append]
          exact Or.inr (Or.inr (Or.inl hx)))
        simp only [pairOps, List.mem_flatMap] at hx'
        obtain ⟨p, hp, hxp⟩ := hx'
        simp only [List.mem_cons, List.not_mem_nil, or_false] at hxp
        rcases hxp with rfl | rfl
        · have := (hg.1.pairs p hp).1
          obtain ⟨T, hT, hxT⟩ := List.mem_flatten.1 hx
          simp [cc, hcan _ p.2 (hcr T hT _ hxT)] at this
        · exact List.mem_map.2 ⟨p, hp, rfl⟩
      have hTnd : Ts.flatten.Nodup := by
        simp only [List.flatten_append, List.flatten_cons] at hnd
        exact (List.nodup_append.1 (List.nodup_append.1 (List.nodup_append.1 hnd).2.1).2.1).1
      have h3 : Ts.flatten.length ≤ t.2.length := by
        have := (List.subperm_of_subset hTnd hsub).length_le
        simpa using this
      rw [opsize_flatten] at hl
      simp only [List.flatten_append, List.flatten_cons, List.length_append] at hl
      omega
    rw [← h2, hempty]
    rfl
  · unfold linkPairs
    rw [List.nodup_map_iff]
    · exact List.nodup_range
    · intro i j h; simp only [Prod.mk.injEq] at h; omega
  · intro p hp
    obtain ⟨e1, i, hi, e2⟩ := hmem p hp
    simp only [List.length_append, List.length_cons]
    omega
  · intro p hp
    obtain ⟨e1, i, hi, e2⟩ := hmem p hp
    rw [e1, e2, getD_mid, hT i hi, List.getD_eq_getElem Ts [] hi]
    exact ⟨hH, hne _ (List.getElem_mem hi)⟩

omit [DecidableEq Op] in
theorem flatten_length_ge (Ts : List (List Op)) (m : Nat) (h : ∀ T ∈ Ts, m ≤ T.length) : m * Ts.length ≤ Ts.flatten.length := by
  induction Ts with
  | nil => simp
  | cons T Ts ih =>
    have h1 := ih (fun x hx => h x (by simp [hx]))
    have h2 := h T (by simp)
    simp only [List.flatten_cons, List.length_append, List.length_cons, Nat.mul_add]
    omega

/-- Cluster operators: at least two quasiparticle creators and an even number of them. -/
structure Cluster (W : Alg S Op K A) (Ts : List (List Op)) : Prop where
  creators : ∀ T ∈ Ts, ∀ t ∈ T, W.an t = 0
  two : ∀ T ∈ Ts, 2 ≤ T.length
  even : ∀ T ∈ Ts, (S.zeta : K) ^ T.length = 1

/-- **C115 (amplitude equations).** The commutators of a two-body operator beyond the default rank vanish, whatever the projector. -/
theorem hbar_truncation (W : Alg S Op K A) (V : Vac W) (pre : List (List Op)) (H : List Op) (Ts post : List (List Op)) (hH : H ≠ [])
    (h4 : H.length ≤ 4) (hT : Cluster W Ts) (hnd : (pre ++ H :: (Ts ++ post)).flatten.Nodup) (hk : rankHbar none < Ts.length) :
    V.vac (W.prod pre * nest (W.N H) (Ts.map W.N) * W.prod post) = 0 :=
  (linked_terminates W V (fun _ => true) (fun _ _ => true) (fun o h => by cases h) (fun x y h => by cases h) pre H Ts post hH
    (fun T h => List.ne_nil_of_length_pos (by have := hT.two T h; omega)) hT.creators hT.even hnd
    (Nat.lt_of_le_of_lt h4 hk)).2

theorem nest_append (X : A) (Ts Us : List A) : nest X (Ts ++ Us) = nest (nest X Ts) Us := by
  induction Ts generalizing X with
  | nil => rfl
  | cons T Ts ih => exact ih _

/-- **C115 (Λ equations, perturbed amplitudes).** Commuted with one more operator of creators - the projector, or the perturbed amplitudes - the commutators
of a two-body operator vanish already beyond rank 3. -/
theorem lambda_truncation (W : Alg S Op K A) (V : Vac W) (pre : List (List Op)) (H : List Op) (Ts : List (List Op)) (P : List Op) (post : List (List Op))
    (hH : H ≠ []) (h4 : H.length ≤ 4) (hT : Cluster W (Ts ++ [P])) (hnd : (pre ++ H :: ((Ts ++ [P]) ++ post)).flatten.Nodup) (r : Nat)
    (hr : rankLambda none = some r ∨ rankPerturbed none = r) (hk : r < Ts.length) :
    V.vac (W.prod pre * (nest (W.N H) (Ts.map W.N) * W.N P - W.N P * nest (W.N H) (Ts.map W.N)) * W.prod post) = 0 := by
  have hr3 : r = 3 := by
    rcases hr with h | h
    · exact (Option.some.inj h).symm
    · exact h.symm
  have := hbar_truncation W V pre H (Ts ++ [P]) post hH h4 hT hnd (by simp [rankHbar]; omega)
  rw [List.map_append, nest_append] at this
  exact this

/-- **C115 (perturbations).** The commutators of a perturbation of rank 1 or 2 beyond the default rank vanish. -/
theorem pert_truncation (W : Alg S Op K A) (V : Vac W) (pre : List (List Op)) (H : List Op) (Ts post : List (List Op)) (rank : Nat) (hrank : rank ≤ 2)
    (hH : H ≠ []) (h2 : H.length = 2 * rank) (hT : Cluster W Ts) (hnd : (pre ++ H :: (Ts ++ post)).flatten.Nodup)
    (hk : rankPert none rank < Ts.length) : V.vac (W.prod pre * nest (W.N H) (Ts.map W.N) * W.prod post) = 0 := by
  refine (linked_terminates W V (fun _ => true) (fun _ _ => true) (fun o h => by cases h) (fun x y h => by cases h) pre H Ts post hH
    (fun T h => List.ne_nil_of_length_pos (by have := hT.two T h; omega)) hT.creators hT.even hnd ?_).2
  have hk' : (if rank = 1 then 2 else 4) < Ts.length := hk
  split at hk' <;> omega

/-- **C115 (density matrices).** With Λ of rank at most `N` on its left (or without), the commutators of a string of rank `r` beyond rank
`min (2 r) (r + N)` vanish. -/
theorem rdm_truncation (W : Alg S Op K A) (V : Vac W) (L a : List Op) (Ts : List (List Op)) (rank N : Nat) (ha : a ≠ []) (hal : a.length = 2 * rank)
    (hL : L.length ≤ 2 * N) (hT : Cluster W Ts) (hnd : ([L] ++ a :: (Ts ++ [])).flatten.Nodup) (hk : rankRdm none rank N < Ts.length) :
    V.vac (W.N L * nest (W.N a) (Ts.map W.N)) = 0 := by
  have hne : ∀ T ∈ Ts, T ≠ [] := fun T h => List.ne_nil_of_length_pos (by have := hT.two T h; omega)
  have e : V.vac (W.N L * nest (W.N a) (Ts.map W.N)) = V.vac (W.prod [L] * nest (W.N a) (Ts.map W.N) * W.prod []) := by
    simp [Alg.prod]
  rw [e]
  have hk' : min (2 * rank) (rank + N) < Ts.length := hk
  by_cases h : 2 * rank < Ts.length
  · exact (linked_terminates W V (fun _ => true) (fun _ _ => true) (fun o h => by cases h) (fun x y h => by cases h) [L] a Ts [] ha hne
      hT.creators hT.even hnd (by omega)).2
  · refine absorbed W V [L] a Ts [] ha hne hT.creators hT.even hnd ?_
    have := flatten_length_ge Ts 2 hT.two
    simp only [List.flatten_cons, List.flatten_nil, List.append_nil, List.length_nil]
    omega

/-! ### Examples -/

example : rankHbar none = 4 ∧ rankHbar (some 2) = 2 ∧ rankLambda none = some 3 ∧ rankLambda (some 0) = none ∧ rankPert none 1 = 2 ∧
    rankPert none 2 = 4 ∧ rankRdm none 2 1 = 3 ∧ rankRdm none 1 3 = 2 := by decide

open Inst in
/-- Two fermionic modes: three cluster operators `c₁c₂`, a string of rank 1, Λ of rank 1. -/
example : (copiesVac fermi2Vac).vac ((copies fermi2).N [(.a1, 0), (.a2, 0)] * nest ((copies fermi2).N [(.c1, 1), (.a1, 1)])
    ([[(.c1, 2), (.c2, 2)], [(.c1, 3), (.c2, 3)], [(.c1, 4), (.c2, 4)]].map (copies fermi2).N)) = 0 := by
  refine rdm_truncation (copies fermi2) (copiesVac fermi2Vac) _ _ _ 1 1 (by simp) rfl (by simp) ⟨?_, ?_, ?_⟩ (by decide +kernel) (by decide)
  · intro T hT t ht
    simp only [List.mem_cons, List.not_mem_nil, or_false] at hT
    rcases hT with rfl | rfl | rfl <;>
      (simp only [List.mem_cons, List.not_mem_nil, or_false] at ht
       rcases ht with rfl | rfl <;> rfl)
  · intro T hT
    simp only [List.mem_cons, List.not_mem_nil, or_false] at hT
    rcases hT with rfl | rfl | rfl <;> simp
  · intro T hT
    simp only [List.mem_cons, List.not_mem_nil, or_false] at hT
    rcases hT with rfl | rfl | rfl <;> decide +kernel

end SeQuant.Cc
