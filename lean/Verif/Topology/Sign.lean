import Verif.Topology.Props
import Verif.Wick.CommuteProps
import Mathlib.Algebra.BigOperators.Pi
import Mathlib.Algebra.Algebra.Rat
import Mathlib.Data.Fintype.Pi

/-!
# C103: antisymmetry inside the partitions is what the topological reduction needs
-/

namespace SeQuant.Topology

open SeQuant.Wick SeQuant.Sort SeQuant.Perm

variable {S : Statistics}

/-- A permutation of the operators `0 .. n-1` as a function on ordinals. -/
def ext {n : Nat} (τ : Equiv.Perm (Fin n)) (x : Nat) : Nat := if h : x < n then (τ ⟨x, h⟩ : Nat) else x

/-- The contractions after renaming the operators. -/
def relabel {n : Nat} (τ : Equiv.Perm (Fin n)) (cs : List (Nat × Nat)) : List (Nat × Nat) := cs.map fun p => (ext τ p.1, ext τ p.2)

/-- A renaming inside the partitions. -/
def Inside (P : Parts) {n : Nat} (τ : Equiv.Perm (Fin n)) : Prop := ∀ x : Fin n, P.part (τ x) = P.part x

theorem ext_val {n : Nat} (τ : Equiv.Perm (Fin n)) (x : Fin n) : ext τ x = τ x := by simp [ext]

theorem exists_perm_map {α β : Type} (f : α → β) (l l' : List α) (h : (l.map f).Perm (l'.map f)) :
    ∃ l'' : List α, l''.Perm l' ∧ l''.map f = l.map f := by
  induction l generalizing l' with
  | nil =>
    have : l' = [] := by simpa using h.symm
    exact ⟨[], by rw [this], rfl⟩
  | cons a l ih =>
    have ha : f a ∈ l'.map f := h.subset (by simp)
    obtain ⟨b, hb, hbe⟩ := List.mem_map.1 ha
    obtain ⟨p, q, rfl⟩ := List.append_of_mem hb
    have h2 : (l.map f).Perm ((p ++ q).map f) := by
      have h3 : ((p ++ b :: q).map f).Perm (f b :: (p ++ q).map f) := by
        rw [← List.map_cons]; exact List.perm_middle.map f
      have h4 := h.trans h3
      rw [List.map_cons, hbe] at h4
      exact h4.cons_inv
    obtain ⟨l'', h5, h6⟩ := ih _ h2
    exact ⟨b :: l'', (h5.cons b).trans List.perm_middle.symm, by simp [h6, hbe]⟩

/-- Rearranging pairs needs an even number of exchanges. -/
theorem adj_pairs {Op : Type} {cs cs' : List (Op × Op)} (h : cs.Perm cs') : ∃ k, Adj (2 * k) (pairOps cs) (pairOps cs') := by
  induction h with
  | nil => exact ⟨0, Swaps.refl _⟩
  | cons x _ ih =>
    obtain ⟨k, hk⟩ := ih
    exact ⟨k, by simpa [pairOps] using Adj.prepend [x.1, x.2] hk⟩
  | swap x y l =>
    refine ⟨2, ?_⟩
    have h1 := adj_block [y.1, y.2] [x.1, x.2]
    have := Adj.append (pairOps l) h1
    simpa [pairOps] using this
  | trans _ _ ih1 ih2 =>
    obtain ⟨a, ha⟩ := ih1
    obtain ⟨b, hb⟩ := ih2
    exact ⟨a + b, by rw [Nat.mul_add]; exact Swaps.trans ha hb⟩

theorem pairOps_inj {Op : Type} : ∀ (cs cs' : List (Op × Op)), pairOps cs = pairOps cs' → cs = cs'
  | [], [], _ => rfl
  | [], _ :: _, h => by simp [pairOps] at h
  | _ :: _, [], h => by simp [pairOps] at h
  | p :: cs, p' :: cs', h => by
    simp only [pairOps, List.flatMap_cons, List.cons_append, List.nil_append, List.cons.injEq] at h
    rw [Prod.ext h.1 h.2.1, pairOps_inj cs cs' h.2.2]

theorem pairOps_map {Op Op' : Type} (f : Op → Op') (cs : List (Op × Op)) :
    (pairOps cs).map f = pairOps (cs.map fun p => (f p.1, f p.2)) := by
  induction cs with
  | nil => rfl
  | cons p cs ih => simp only [pairOps, List.flatMap_cons, List.map_append, List.map_cons] at ih ⊢; rw [ih]; rfl

variable {P : Parts} {n : Nat} {cc : Nat → Nat → Bool} {nops : List (List Nat)}

/-- The phase of a summand as the sign of a rearrangement. -/
theorem full_adj (isQpAnn : Nat → Bool) (hflat : nops.flatten = List.range n) (t : Term Nat)
    (ht : t ∈ wickFull S isQpAnn cc (wickFuel nops) nops) :
    ∃ a, Adj a (List.range n) (pairOps t.2) ∧ t.1 = S.zeta ^ a := by
  have hnd : nops.flatten.Nodup := by rw [hflat]; exact List.nodup_range
  obtain ⟨g, hl⟩ := wickFull_good isQpAnn cc _ nops hnd t ht
  obtain ⟨a, ha, hs⟩ := g.sign
  simp only at ha hs
  have hperm : (pairOps t.2).Perm nops.flatten := by
    apply (List.Nodup.subperm g.admissible.disjoint fun x hx => isContractionSet_mem g.admissible hx).perm_of_length_le
    rw [pairOps_length, hl, opsize_flatten]
  rw [flatten_rem_nil nops t.2 (fun x hx => hperm.symm.subset hx), List.append_nil, hflat] at ha
  exact ⟨a, ha, hs⟩

theorem adj_range {a : Nat} {l : List Nat} (h : Adj a (List.range n) l) :
    ∃ σ : Equiv.Perm (Fin n), l = List.ofFn (fun i => (σ i : Nat)) ∧ S.zeta ^ a = S.sgn (Equiv.Perm.sign σ) := by
  obtain ⟨σ, h1, h2⟩ := adj_sgn S h
  have e : (List.range n).length = n := List.length_range
  refine ⟨(finCongr e).permCongr σ, ?_, ?_⟩
  · rw [h1]
    apply List.ext_getElem
    · simp
    · intro i hi1 hi2
      simp [Equiv.permCongr_apply]
  · rw [h2, Equiv.Perm.sign_permCongr]

theorem sgn_mul (S : Statistics) (u v : ℤˣ) : S.sgn (u * v) = S.sgn u * S.sgn v := by
  cases S <;> simp [Statistics.sgn]

theorem sgn_sq (S : Statistics) (u : ℤˣ) : S.sgn u * S.sgn u = 1 := by
  rw [← sgn_mul]
  have : u * u = 1 := Int.units_mul_self u
  rw [this]
  cases S <;> simp [Statistics.sgn]

theorem sgn_inv (S : Statistics) (u : ℤˣ) : S.sgn u⁻¹ = S.sgn u := by rw [Int.units_inv_eq_self]

/-- **Two summands of the same kind are renamings of each other inside the partitions, and their phases differ by the sign of the
renaming.** -/
theorem same_kind_renaming (isQpAnn : Nat → Bool) (hflat : nops.flatten = List.range n) (t u : Term Nat)
    (ht : t ∈ wickFull S isQpAnn cc (wickFuel nops) nops) (hu : u ∈ wickFull S isQpAnn cc (wickFuel nops) nops)
    (hk : kind P t.2 = kind P u.2) :
    ∃ τ : Equiv.Perm (Fin n), Inside P τ ∧ (relabel τ t.2).Perm u.2 ∧ u.1 = S.sgn (Equiv.Perm.sign τ) * t.1 := by
  obtain ⟨u', hu1, hu2⟩ := exists_perm_map (fun p : Nat × Nat => (P.part p.1, P.part p.2)) t.2 u.2 (Quotient.exact hk)
  obtain ⟨a, ha, hta⟩ := full_adj isQpAnn hflat t ht
  obtain ⟨b, hb, hub⟩ := full_adj isQpAnn hflat u hu
  obtain ⟨k, hk'⟩ := adj_pairs hu1.symm
  have hb' := Swaps.trans hb hk'
  obtain ⟨σ, s1, s2⟩ := adj_range (S := S) ha
  obtain ⟨ρ, r1, r2⟩ := adj_range (S := S) hb'
  have hub' : u.1 = S.sgn (Equiv.Perm.sign ρ) := by rw [hub, ← r2, pow_add, zetaInt_even, mul_one]
  have hmap : (pairOps t.2).map (ext (ρ * σ⁻¹)) = pairOps u' := by
    rw [s1, r1, List.map_ofFn]
    congr 1
    funext i
    simp [ext_val]
  refine ⟨ρ * σ⁻¹, fun x => ?_, ?_, ?_⟩
  · have hpart : (pairOps t.2).map P.part = (pairOps u').map P.part := by
      rw [pairOps_map, pairOps_map, hu2]
    rw [s1, r1, List.map_ofFn, List.map_ofFn] at hpart
    have := congrFun (List.ofFn_injective hpart) (σ⁻¹ x)
    simp only [Function.comp_apply] at this
    have hx : σ (σ⁻¹ x) = x := by simp
    rw [hx] at this
    rw [this]
    rfl
  · have : relabel (ρ * σ⁻¹) t.2 = u' := by
      apply pairOps_inj
      rw [relabel, ← pairOps_map, hmap]
    rw [this]
    exact hu1
  · rw [hub', hta, s2, Equiv.Perm.sign_mul, Equiv.Perm.sign_inv, sgn_mul, mul_assoc, sgn_sq, mul_one]

variable (isQpAnn : Nat → Bool) (hq : ∀ x y, cc x y = true → isQpAnn x = true)

include hq in
/-- **C103.** `V cs` is the factor that multiplies the contractions `cs` (the tensors with the contracted indices identified). If it does not
depend on the order in which the contractions are listed, and changes by the sign of the permutation (not at all for bosons) when
operators of one partition are exchanged, then the weighted sum over the summands kept by the filter is the sum over all summands. -/
theorem topology_sum {V : Type} [AddCommGroup V] [Module Rat V] (hpos : 0 < n) (h : Input P n cc nops)
    (val : List (Nat × Nat) → V) (hperm : ∀ cs cs', cs.Perm cs' → val cs = val cs')
    (hsym : ∀ τ : Equiv.Perm (Fin n), Inside P τ → ∀ cs, val (relabel τ cs) = S.sgn (Equiv.Perm.sign τ) • val cs) :
    ((topoTerms S isQpAnn cc P nops).map fun t => (t.1.getD 0) • (t.2.1 • val t.2.2)).sum =
      ((wickFull S isQpAnn cc (wickFuel nops) nops).map fun t => t.1 • val t.2).sum := by
  refine topology_sum_of_kind isQpAnn hq hpos h (fun t => t.1 • val t.2) ?_
  intro t ht u hu hk
  obtain ⟨τ, h1, h2, h3⟩ := same_kind_renaming isQpAnn h.flat t u ht hu hk
  rw [h3, ← hperm _ _ h2, hsym τ h1, smul_smul, mul_right_comm, sgn_sq, one_mul]

/-! ### Tensors -/

/-- Assignment of orbitals to the operators. -/
def look {n : Nat} {Orb : Type} [Inhabited Orb] (φ : Fin n → Orb) (x : Nat) : Orb := if h : x < n then φ ⟨x, h⟩ else default

/-- The factor of a summand: the sum over the orbitals of all operators of the tensors times the contractions, e.g. Kronecker
deltas. -/
def contracted {n : Nat} {Orb K : Type} [Inhabited Orb] [Fintype Orb] [DecidableEq Orb] [CommRing K] (T : (Fin n → Orb) → K)
    (c : Orb → Orb → K) (cs : List (Nat × Nat)) : K :=
  ∑ φ : Fin n → Orb, T φ * (cs.map fun p => c (look φ p.1) (look φ p.2)).prod

section
variable {Orb K : Type} [Inhabited Orb] [Fintype Orb] [DecidableEq Orb] [CommRing K]

omit [Fintype Orb] [DecidableEq Orb] in
theorem look_ext (τ : Equiv.Perm (Fin n)) (φ : Fin n → Orb) (x : Nat) : look φ (ext τ x) = look (φ ∘ τ) x := by
  unfold look ext
  by_cases h : x < n
  · simp [h]
  · simp [h]

theorem contracted_perm (T : (Fin n → Orb) → K) (c : Orb → Orb → K) (cs cs' : List (Nat × Nat)) (h : cs.Perm cs') :
    contracted T c cs = contracted T c cs' := by
  unfold contracted
  apply Finset.sum_congr rfl
  intro φ _
  rw [(h.map _).prod_eq]

theorem contracted_relabel (T : (Fin n → Orb) → K) (c : Orb → Orb → K) (τ : Equiv.Perm (Fin n)) (z : Int)
    (hT : ∀ φ, T (φ ∘ τ) = z • T φ) (hz : z * z = 1) (cs : List (Nat × Nat)) :
    contracted T c (relabel τ cs) = z • contracted T c cs := by
  unfold contracted relabel
  rw [Finset.smul_sum, ← Equiv.sum_comp (Equiv.arrowCongr τ (Equiv.refl Orb))]
  apply Finset.sum_congr rfl
  intro φ _
  have e : (Equiv.arrowCongr τ (Equiv.refl Orb) φ) ∘ τ = φ := by
    funext x
    simp [Equiv.arrowCongr]
  rw [List.map_map]
  simp only [Function.comp_def, look_ext]
  have e' : ∀ x, (fun i => Equiv.arrowCongr τ (Equiv.refl Orb) φ (τ i)) x = φ x := fun x => congrFun e x
  have hT' := hT (Equiv.arrowCongr τ (Equiv.refl Orb) φ)
  rw [e] at hT'
  have hTT : T (Equiv.arrowCongr τ (Equiv.refl Orb) φ) = z • T φ := by
    rw [hT', smul_smul, hz, one_smul]
  rw [hTT, smul_mul_assoc]
  have e2 : (fun i => Equiv.arrowCongr τ (Equiv.refl Orb) φ (τ i)) = φ := funext e'
  rw [e2]

end

include hq in
/-- **C103** for tensors. If the product of the tensors is antisymmetric (symmetric for bosons) under exchanges of operators of one
partition, the topological reduction does not change the result of the full contraction. -/
theorem topology_tensor_sum {Orb K : Type} [Inhabited Orb] [Fintype Orb] [DecidableEq Orb] [CommRing K] [Algebra Rat K] (hpos : 0 < n)
    (h : Input P n cc nops) (T : (Fin n → Orb) → K) (c : Orb → Orb → K)
    (hT : ∀ τ : Equiv.Perm (Fin n), Inside P τ → ∀ φ, T (φ ∘ τ) = S.sgn (Equiv.Perm.sign τ) • T φ) :
    ((topoTerms S isQpAnn cc P nops).map fun t => (t.1.getD 0) • (t.2.1 • contracted T c t.2.2)).sum =
      ((wickFull S isQpAnn cc (wickFuel nops) nops).map fun t => t.1 • contracted T c t.2).sum :=
  topology_sum isQpAnn hq hpos h (contracted T c) (contracted_perm T c)
    (fun τ hτ cs => contracted_relabel T c τ _ (hT τ hτ) (sgn_sq S _) cs)

end SeQuant.Topology
