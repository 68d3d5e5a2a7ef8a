import Verif.Uncontr.Props
import Verif.Topology.Sign
import Verif.Wick.NormalizeProps

/-!
# C103 for partial contractions, and the identity of operators that follows
-/

namespace SeQuant.Topology

open SeQuant.Wick SeQuant.Sort SeQuant.Perm

variable {S : Statistics} {P : Parts} {n : Nat} {cc : Nat → Nat → Bool} {nops : List (List Nat)}

theorem adj_of_perm {Op : Type} {l l' : List Op} (h : l.Perm l') : ∃ k, Adj k l l' := by
  induction h with
  | nil => exact ⟨0, Swaps.refl _⟩
  | cons x _ ih =>
    obtain ⟨k, hk⟩ := ih
    exact ⟨k, hk.cons x⟩
  | swap x y l => exact ⟨1, Swaps.step [] l y x (Swaps.refl _) rfl⟩
  | trans _ _ ih1 ih2 =>
    obtain ⟨a, ha⟩ := ih1
    obtain ⟨b, hb⟩ := ih2
    exact ⟨a + b, Swaps.trans ha hb⟩

/-- The phase of a summand as the sign of the rearrangement that brings the contracted pairs to the front. -/
theorem partial_adj (hflat : nops.flatten = List.range n) (t : PartialTerm Nat) (ht : t ∈ wickPartialAll S cc nops) :
    ∃ a, Adj a (List.range n) (pairOps t.2.1 ++ t.2.2.flatten) ∧ t.1 = S.zeta ^ a := by
  have hnd : nops.flatten.Nodup := by rw [hflat]; exact List.nodup_range
  simp only [wickPartialAll, List.mem_append, List.mem_singleton] at ht
  rcases ht with ht | rfl
  · obtain ⟨a, h1, h2⟩ := (wickPartial_good cc _ nops hnd t ht).sign
    rw [hflat] at h1
    exact ⟨a, h1, h2⟩
  · exact ⟨0, by simpa [pairOps, hflat] using Swaps.refl _, by simp⟩

theorem count_pairOps (part : Nat → Nat) (cs : List (Nat × Nat)) (i : Nat) :
    ((pairOps cs).map part).count i = inc (keyOf part cs) i := by
  induction cs with
  | nil => simp [pairOps, keyOf_nil, inc]
  | cons p cs ih =>
    rw [keyOf_cons, inc_cons, ← ih]
    simp only [pairOps, List.flatMap_cons, List.map_append, List.map_cons, List.map_nil, List.count_append, List.count_cons,
      List.count_nil, beq_iff_eq]
    simp only [eq_comm (a := i)]
    omega

/-- **Two summands of the same kind are renamings of each other inside the partitions, up to the order of the remaining operators; their
phases differ by the signs of the renaming and of that reordering.** -/
theorem same_kind_renaming_partial (hflat : nops.flatten = List.range n) (t u : PartialTerm Nat) (ht : t ∈ wickPartialAll S cc nops)
    (hu : u ∈ wickPartialAll S cc nops) (hk : kind P t.2.1 = kind P u.2.1) :
    ∃ τ : Equiv.Perm (Fin n), Inside P τ ∧ (relabel τ t.2.1).Perm u.2.1 ∧
      ∃ c, Adj c u.2.2.flatten (t.2.2.flatten.map (ext τ)) ∧ u.1 = S.sgn (Equiv.Perm.sign τ) * t.1 * S.zeta ^ c := by
  obtain ⟨u', hu1, hu2⟩ := exists_perm_map (fun p : Nat × Nat => (P.part p.1, P.part p.2)) t.2.1 u.2.1 (Quotient.exact hk)
  obtain ⟨a, ha, hta⟩ := partial_adj hflat t ht
  obtain ⟨b, hb, hub⟩ := partial_adj hflat u hu
  have hpart : (t.2.2.flatten.map P.part).Perm (u.2.2.flatten.map P.part) := by
    rw [List.perm_iff_count]
    intro i
    have h1 := (ha.perm.trans hb.perm.symm).map P.part |>.count_eq i
    rw [List.map_append, List.map_append, List.count_append, List.count_append, count_pairOps, count_pairOps, show keyOf P.part t.2.1 = keyOf P.part u.2.1 from hk] at h1
    omega
  obtain ⟨v, hv1, hv2⟩ := exists_perm_map P.part t.2.2.flatten u.2.2.flatten hpart
  obtain ⟨k, hk'⟩ := adj_pairs hu1.symm
  obtain ⟨c, hc⟩ := adj_of_perm hv1.symm
  have hb' := Swaps.trans (Swaps.trans hb (Adj.append u.2.2.flatten hk')) (Adj.prepend (pairOps u') hc)
  obtain ⟨σ, s1, s2⟩ := adj_range (S := S) ha
  obtain ⟨ρ, r1, r2⟩ := adj_range (S := S) hb'
  have hzc : S.zeta ^ c * S.zeta ^ c = 1 := by rw [← pow_add, ← two_mul]; exact zetaInt_even S c
  have hub' : u.1 = S.sgn (Equiv.Perm.sign ρ) * S.zeta ^ c := by
    rw [hub, ← r2, pow_add, pow_add, zetaInt_even, mul_one, mul_assoc, hzc, mul_one]
  have hmap : (pairOps t.2.1 ++ t.2.2.flatten).map (ext (ρ * σ⁻¹)) = pairOps u' ++ v := by
    rw [s1, r1, List.map_ofFn]
    congr 1
    funext i
    simp [ext_val]
  have hlen : ((pairOps t.2.1).map (ext (ρ * σ⁻¹))).length = (pairOps u').length := by
    have h1 := congrArg List.length hu2
    simp only [List.length_map] at h1
    rw [List.length_map, pairOps_length, pairOps_length, h1]
  rw [List.map_append] at hmap
  obtain ⟨hm1, hm2⟩ := List.append_inj hmap hlen
  refine ⟨ρ * σ⁻¹, fun x => ?_, ?_, c, ?_, ?_⟩
  · have hpp : (pairOps t.2.1 ++ t.2.2.flatten).map P.part = (pairOps u' ++ v).map P.part := by
      rw [List.map_append, List.map_append, pairOps_map, pairOps_map, hu2, hv2]
    rw [s1, r1, List.map_ofFn, List.map_ofFn] at hpp
    have := congrFun (List.ofFn_injective hpp) (σ⁻¹ x)
    simp only [Function.comp_apply] at this
    have hx : σ (σ⁻¹ x) = x := by simp
    rw [hx] at this
    rw [this]
    rfl
  · have : relabel (ρ * σ⁻¹) t.2.1 = u' := by
      apply pairOps_inj
      rw [relabel, ← pairOps_map, hm1]
    rw [this]
    exact hu1
  · rw [hm2]; exact hc
  · rw [hub', hta, s2, Equiv.Perm.sign_mul, Equiv.Perm.sign_inv, sgn_mul, mul_assoc (S.sgn _) (S.sgn _) (S.sgn _), sgn_sq, mul_one]

/-- **C103** for partial contractions. `val cs rem` is what a summand with contractions `cs` and remaining operators `rem` stands for. If it
does not depend on the order of the contractions, changes by the sign of the permutation when the remaining operators are
reordered, and by the sign of the permutation when operators of one partition are exchanged, then the weighted sum over the
summands kept by the filter is the sum over all summands. -/
theorem topology_partial_sum {V : Type} [AddCommGroup V] [Module Rat V] (h : Input P n cc nops)
    (val : List (Nat × Nat) → List Nat → V) (hperm : ∀ cs cs' rem, cs.Perm cs' → val cs rem = val cs' rem)
    (hrem : ∀ cs rem rem' a, Adj a rem rem' → val cs rem = S.zeta ^ a • val cs rem')
    (hsym : ∀ τ : Equiv.Perm (Fin n), Inside P τ → ∀ cs rem,
      val (relabel τ cs) (rem.map (ext τ)) = S.sgn (Equiv.Perm.sign τ) • val cs rem) :
    ((topoPartialTerms S cc P nops).map fun t => (t.1.getD 0) • (t.2.1 • val t.2.2.1 t.2.2.2.flatten)).sum =
      ((wickPartialAll S cc nops).map fun t => t.1 • val t.2.1 t.2.2.flatten).sum := by
  refine topology_partial_sum_of_kind h (fun t => t.1 • val t.2.1 t.2.2.flatten) ?_
  intro t ht u hu hk
  obtain ⟨τ, h1, h2, c, h3, h4⟩ := same_kind_renaming_partial h.flat t u ht hu hk
  have hzc : S.zeta ^ c * S.zeta ^ c = 1 := by rw [← pow_add, ← two_mul]; exact zetaInt_even S c
  rw [h4, hrem _ _ _ _ h3, ← hperm _ _ _ h2, hsym τ h1, smul_smul, smul_smul]
  congr 1
  rw [mul_assoc (S.sgn _ * t.1), hzc, mul_one, mul_right_comm, sgn_sq, one_mul]

/-! ### Operators -/

theorem adj_map {Op Op' : Type} (f : Op → Op') {a : Nat} {l l' : List Op} (h : Adj a l l') : Adj a (l.map f) (l'.map f) := by
  induction h with
  | refl => exact Swaps.refl _
  | step p q x y _ hc ih =>
    rw [List.map_append, List.map_cons, List.map_cons] at ih ⊢
    exact Swaps.step _ _ _ _ ih rfl

theorem sum_list_comm {ι κ M : Type} [AddCommMonoid M] (s : Finset ι) (l : List κ) (f : ι → κ → M) :
    ∑ i ∈ s, (l.map (f i)).sum = (l.map fun k => ∑ i ∈ s, f i k).sum := by
  induction l with
  | nil => simp
  | cons a l ih => simp [Finset.sum_add_distrib, ih]

theorem wickPartial_congr {cc cc' : Nat → Nat → Bool} (fuel : Nat) (nops : List (List Nat))
    (h : ∀ x ∈ nops.flatten, ∀ y ∈ nops.flatten, cc x y = cc' x y) : wickPartial S cc fuel nops = wickPartial S cc' fuel nops := by
  induction fuel generalizing nops with
  | zero => rfl
  | succ fuel ih =>
    match nops with
    | [] => rfl
    | [] :: nops => simp only [wickPartial]; rw [ih nops (by simpa using h)]
    | (o :: rest) :: others =>
      simp only [wickPartial]
      rw [ih (rest :: others) (fun x hx y hy => h x (by rw [skip_flatten]; exact List.mem_cons_of_mem _ hx) y
        (by rw [skip_flatten]; exact List.mem_cons_of_mem _ hy))]
      congr 1
      apply List.flatMap_congr
      intro p hp
      have hm : ∀ z ∈ (rest :: p.2.2).flatten, z ∈ ((o :: rest) :: others).flatten := by
        intro z hz
        obtain ⟨pre, post, h1, h2, _⟩ := picks_split others p hp
        rw [List.flatten_cons, h2] at hz
        rw [List.flatten_cons, h1]
        simp only [List.mem_append, List.mem_cons] at hz ⊢
        tauto
      rw [h o (by simp) p.2.1 (by simp [pick_mem hp]), ih (rest :: p.2.2) (fun x hx y hy => h x (hm x hx) y (hm y hy))]

theorem wickPartialAll_congr {cc cc' : Nat → Nat → Bool} (nops : List (List Nat))
    (h : ∀ x ∈ nops.flatten, ∀ y ∈ nops.flatten, cc x y = cc' x y) : wickPartialAll S cc nops = wickPartialAll S cc' nops := by
  unfold wickPartialAll
  rw [wickPartial_congr _ _ h]

/-- The algebra with operators named by ordinals. -/
def comap {Op K A : Type} [CommRing K] [Ring A] [Algebra K A] (W : Alg S Op K A) (f : Nat → Op) : Alg S Nat K A where
  cr x := W.cr (f x)
  an x := W.an (f x)
  c x y := W.c (f x) (f y)
  an_cr _ _ := W.an_cr _ _
  an_an _ _ := W.an_an _ _
  cr_cr _ _ := W.cr_cr _ _

section
variable {Op K A : Type} [CommRing K] [Ring A] [Algebra K A] (W : Alg S Op K A)

theorem comap_N (f : Nat → Op) (l : List Nat) : (comap W f).N l = W.N (l.map f) := by
  induction l with
  | nil => rfl
  | cons x l ih => simp only [Alg.N, ih, List.map_cons, List.length_map]; rfl

theorem comap_prod (f : Nat → Op) (nops : List (List Nat)) : (comap W f).prod nops = W.prod (nops.map (List.map f)) := by
  unfold Alg.prod
  rw [List.map_map]
  congr 1
  apply List.map_congr_left
  intro l _
  exact comap_N W f l

variable {Orb : Type} [Inhabited Orb] [Fintype Orb]

/-- The operator with ordinal `x` when the orbitals are assigned by `φ`; `op i` makes the operators of partition `i`. -/
def opAt (P : Parts) (op : Nat → Orb → Op) (φ : Fin n → Orb) (x : Nat) : Op := op (P.part x) (look φ x)

/-- What a summand stands for: the sum over all orbitals of the tensors, the contractions and the normal product of the remaining
operators. -/
def summand (P : Parts) (op : Nat → Orb → Op) (T : (Fin n → Orb) → K) (cs : List (Nat × Nat)) (rem : List Nat) : A :=
  ∑ φ : Fin n → Orb, (T φ * pairProd W.c (cs.map fun p => (opAt P op φ p.1, opAt P op φ p.2))) • W.N (rem.map (opAt P op φ))

theorem pairProd_perm (c : Op → Op → K) {cs cs' : List (Op × Op)} (h : cs.Perm cs') : pairProd c cs = pairProd c cs' := by
  unfold pairProd
  exact (h.map _).prod_eq

theorem summand_relabel (op : Nat → Orb → Op) (T : (Fin n → Orb) → K) (τ : Equiv.Perm (Fin n)) (hτ : Inside P τ) (z : Int)
    (hT : ∀ φ, T (φ ∘ τ) = z • T φ) (hz : z * z = 1) (cs : List (Nat × Nat)) (rem : List Nat) :
    summand W P op T (relabel τ cs) (rem.map (ext τ)) = z • summand W P op T cs rem := by
  have hop : ∀ (φ : Fin n → Orb) (x : Nat), opAt P op φ (ext τ x) = opAt P op (φ ∘ τ) x := by
    intro φ x
    unfold opAt
    rw [look_ext]
    congr 1
    unfold ext
    split
    · rename_i hx; exact hτ ⟨x, hx⟩
    · rfl
  unfold summand relabel
  rw [Finset.smul_sum, ← Equiv.sum_comp (Equiv.arrowCongr τ (Equiv.refl Orb))]
  apply Finset.sum_congr rfl
  intro φ _
  have e : (Equiv.arrowCongr τ (Equiv.refl Orb) φ) ∘ τ = φ := by
    funext x
    simp [Equiv.arrowCongr]
  have hT' := hT (Equiv.arrowCongr τ (Equiv.refl Orb) φ)
  rw [e] at hT'
  have hTT : T (Equiv.arrowCongr τ (Equiv.refl Orb) φ) = z • T φ := by
    rw [hT', smul_smul, hz, one_smul]
  rw [List.map_map, List.map_map]
  simp only [Function.comp_def, hop]
  have e2 : (fun i => Equiv.arrowCongr τ (Equiv.refl Orb) φ (τ i)) = φ := e
  rw [e2, hTT, smul_mul_assoc, smul_assoc]

end

/-- **C102, C103**, the identity of operators. A sum over orbitals of tensors times a product of normal-ordered operators, the tensors
antisymmetric (symmetric for bosons) under exchanges of operators of one partition, equals the weighted sum of the
summands that the engine makes with the topological reduction. -/
theorem topology_operator_identity {Op K A : Type} [CommRing K] [Ring A] [Algebra K A] [Module Rat A] (W : Alg S Op K A) {Orb : Type}
    [Inhabited Orb] [Fintype Orb] (h : Input P n cc nops) (op : Nat → Orb → Op)
    (hc : ∀ x < n, ∀ y < n, ∀ p q, cc x y = false → W.c (op (P.part x) p) (op (P.part y) q) = 0) (T : (Fin n → Orb) → K)
    (hT : ∀ τ : Equiv.Perm (Fin n), Inside P τ → ∀ φ, T (φ ∘ τ) = S.sgn (Equiv.Perm.sign τ) • T φ) :
    ∑ φ : Fin n → Orb, T φ • W.prod (nops.map (List.map (opAt P op φ))) =
      ((topoPartialTerms S cc P nops).map fun t =>
        (t.1.getD 0) • (t.2.1 • summand W P op T t.2.2.1 t.2.2.2.flatten)).sum := by
  rw [topology_partial_sum h (summand W P op T)]
  · have hW : ∀ φ : Fin n → Orb, T φ • W.prod (nops.map (List.map (opAt P op φ))) =
        ((wickPartialAll S cc nops).map fun t => t.1 • ((T φ * pairProd W.c (t.2.1.map fun p => (opAt P op φ p.1, opAt P op φ p.2))) •
          W.N (t.2.2.flatten.map (opAt P op φ)))).sum := by
      intro φ
      have hcc : wickPartialAll S cc nops = wickPartialAll S (fun x y => !(decide (x < n) && decide (y < n)) || cc x y) nops := by
        apply wickPartialAll_congr
        intro x hx y hy
        rw [h.flat, List.mem_range] at hx hy
        simp [hx, hy]
      rw [← comap_prod, wick_partial_sum (comap W (opAt P op φ)) (fun x y => !(decide (x < n) && decide (y < n)) || cc x y)
        (fun x y hxy => by
          simp only [Bool.or_eq_false_iff, Bool.not_eq_false', Bool.and_eq_true, decide_eq_true_eq] at hxy
          exact hc x hxy.1.1 y hxy.1.2 _ _ hxy.2) nops, ← hcc, List.smul_sum, List.map_map]
      congr 1
      apply List.map_congr_left
      intro t _
      simp only [Function.comp_apply]
      rw [comap_N, smul_smul, ← Int.cast_smul_eq_zsmul K, smul_smul]
      congr 1
      have : pairProd (comap W (opAt P op φ)).c t.2.1 =
          pairProd W.c (t.2.1.map fun p => (opAt P op φ p.1, opAt P op φ p.2)) := by
        unfold pairProd
        rw [List.map_map]
        rfl
      rw [this]
      ring
    simp only [hW]
    rw [sum_list_comm]
    congr 1
    apply List.map_congr_left
    intro t _
    unfold summand
    rw [Finset.smul_sum]
  · intro cs cs' rem hp
    unfold summand
    apply Finset.sum_congr rfl
    intro φ _
    rw [pairProd_perm W.c (hp.map _)]
  · intro cs rem rem' a ha
    unfold summand
    rw [Finset.smul_sum]
    apply Finset.sum_congr rfl
    intro φ _
    have := N_adj W (adj_map (opAt P op φ) ha)
    rw [this, smul_comm, ← Int.cast_smul_eq_zsmul K (S.zeta ^ a)]
    push_cast
    rfl
  · intro τ hτ cs rem
    exact summand_relabel W op T τ hτ _ (hT τ hτ) (sgn_sq S _) cs rem

/-! ### Expectation values -/

theorem wickFull_congr {cc cc' : Nat → Nat → Bool} {qa qa' : Nat → Bool} (fuel : Nat) (nops : List (List Nat))
    (h : ∀ x ∈ nops.flatten, ∀ y ∈ nops.flatten, cc x y = cc' x y) (hqa : ∀ x ∈ nops.flatten, qa x = qa' x) :
    wickFull S qa cc fuel nops = wickFull S qa' cc' fuel nops := by
  induction fuel generalizing nops with
  | zero => rfl
  | succ fuel ih =>
    match nops with
    | [] => rfl
    | [] :: nops => simp only [wickFull]; rw [ih nops (by simpa using h) (by simpa using hqa)]
    | (o :: rest) :: others =>
      simp only [wickFull]
      rw [hqa o (by simp)]
      split
      · rfl
      · apply List.flatMap_congr
        intro p hp
        have hm : ∀ z ∈ (rest :: p.2.2).flatten, z ∈ ((o :: rest) :: others).flatten := by
          intro z hz
          obtain ⟨pre, post, h1, h2, _⟩ := picks_split others p hp
          rw [List.flatten_cons, h2] at hz
          rw [List.flatten_cons, h1]
          simp only [List.mem_append, List.mem_cons] at hz ⊢
          tauto
        rw [h o (by simp) p.2.1 (by simp [pick_mem hp]),
          ih (rest :: p.2.2) (fun x hx y hy => h x (hm x hx) y (hm y hy)) (fun x hx => hqa x (hm x hx))]

/-- The vacuum of the algebra with operators named by ordinals. -/
def comapVac {Op K A : Type} [CommRing K] [Ring A] [Algebra K A] {W : Alg S Op K A} (V : Vac W) (f : Nat → Op) : Vac (comap W f) where
  vac := V.vac
  vac_one := V.vac_one
  vac_cr _ a := V.vac_cr _ a
  vac_an a _ := V.vac_an a _

/-- The value of a fully contracted summand: the sum over all orbitals of the tensors times the contractions. -/
def vacSummand {Op K Orb : Type} [CommRing K] [Inhabited Orb] [Fintype Orb] (c : Op → Op → K) (P : Parts) (op : Nat → Orb → Op)
    (T : (Fin n → Orb) → K) (cs : List (Nat × Nat)) : K :=
  ∑ φ : Fin n → Orb, T φ * pairProd c (cs.map fun p => (opAt P op φ p.1, opAt P op φ p.2))

theorem vacSummand_relabel {Op K Orb : Type} [CommRing K] [Inhabited Orb] [Fintype Orb] (c : Op → Op → K)
    (op : Nat → Orb → Op) (T : (Fin n → Orb) → K) (τ : Equiv.Perm (Fin n)) (hτ : Inside P τ) (z : Int)
    (hT : ∀ φ, T (φ ∘ τ) = z • T φ) (hz : z * z = 1) (cs : List (Nat × Nat)) :
    vacSummand c P op T (relabel τ cs) = z • vacSummand c P op T cs := by
  have hop : ∀ (φ : Fin n → Orb) (x : Nat), opAt P op φ (ext τ x) = opAt P op (φ ∘ τ) x := by
    intro φ x
    unfold opAt
    rw [look_ext]
    congr 1
    unfold ext
    split
    · rename_i hx; exact hτ ⟨x, hx⟩
    · rfl
  unfold vacSummand relabel
  rw [Finset.smul_sum, ← Equiv.sum_comp (Equiv.arrowCongr τ (Equiv.refl Orb))]
  apply Finset.sum_congr rfl
  intro φ _
  have e : (Equiv.arrowCongr τ (Equiv.refl Orb) φ) ∘ τ = φ := by
    funext x
    simp [Equiv.arrowCongr]
  have hT' := hT (Equiv.arrowCongr τ (Equiv.refl Orb) φ)
  rw [e] at hT'
  have hTT : T (Equiv.arrowCongr τ (Equiv.refl Orb) φ) = z • T φ := by
    rw [hT', smul_smul, hz, one_smul]
  rw [List.map_map]
  simp only [Function.comp_def, hop]
  have e2 : (fun i => Equiv.arrowCongr τ (Equiv.refl Orb) φ (τ i)) = φ := e
  rw [e2, hTT, smul_mul_assoc]

/-- **C102, C103**, expectation values. The expectation value of a sum over orbitals of tensors times a product of normal-ordered
operators, the tensors antisymmetric (symmetric for bosons) under exchanges of operators of one partition, is the weighted
sum of the summands that the engine makes with full contractions and the topological reduction. -/
theorem topology_vacuum_identity {Op K A : Type} [CommRing K] [Module Rat K] [Ring A] [Algebra K A] (W : Alg S Op K A) (V : Vac W)
    {Orb : Type} [Inhabited Orb] [Fintype Orb] (hpos : 0 < n) (h : Input P n cc nops) (op : Nat → Orb → Op) (isQpAnn : Nat → Bool)
    (hq : ∀ x y, cc x y = true → isQpAnn x = true) (hann : ∀ x < n, ∀ p, isQpAnn x = false → W.an (op (P.part x) p) = 0)
    (hc : ∀ x < n, ∀ y < n, ∀ p q, cc x y = false → W.c (op (P.part x) p) (op (P.part y) q) = 0) (T : (Fin n → Orb) → K)
    (hT : ∀ τ : Equiv.Perm (Fin n), Inside P τ → ∀ φ, T (φ ∘ τ) = S.sgn (Equiv.Perm.sign τ) • T φ) :
    ∑ φ : Fin n → Orb, T φ * V.vac (W.prod (nops.map (List.map (opAt P op φ)))) =
      ((topoTerms S isQpAnn cc P nops).map fun t => (t.1.getD 0) • (t.2.1 • vacSummand W.c P op T t.2.2)).sum := by
  rw [topology_sum isQpAnn hq hpos h (vacSummand W.c P op T)]
  · have hW : ∀ φ : Fin n → Orb, T φ * V.vac (W.prod (nops.map (List.map (opAt P op φ)))) =
        ((wickFull S isQpAnn cc (wickFuel nops) nops).map fun t =>
          t.1 • (T φ * pairProd W.c (t.2.map fun p => (opAt P op φ p.1, opAt P op φ p.2)))).sum := by
      intro φ
      have hcc : wickFull S isQpAnn cc (wickFuel nops) nops =
          wickFull S (fun x => !decide (x < n) || isQpAnn x) (fun x y => !(decide (x < n) && decide (y < n)) || cc x y)
            (wickFuel nops) nops := by
        apply wickFull_congr
        · intro x hx y hy
          rw [h.flat, List.mem_range] at hx hy
          simp [hx, hy]
        · intro x hx
          rw [h.flat, List.mem_range] at hx
          simp [hx]
      have hsz : 0 < opsize nops := by rw [opsize_flatten, h.flat, List.length_range]; exact hpos
      have hwf := wick_full (comap W (opAt P op φ)) (comapVac V (opAt P op φ)) (fun x => !decide (x < n) || isQpAnn x)
        (fun x y => !(decide (x < n) && decide (y < n)) || cc x y)
        (fun x hx => by
          simp only [Bool.or_eq_false_iff, Bool.not_eq_false', decide_eq_true_eq] at hx
          exact hann x hx.1 _ hx.2)
        (fun x y hxy => by
          simp only [Bool.or_eq_false_iff, Bool.not_eq_false', Bool.and_eq_true, decide_eq_true_eq] at hxy
          exact hc x hxy.1.1 y hxy.1.2 _ _ hxy.2) nops hsz
      rw [← comap_prod]
      have hv : V.vac ((comap W (opAt P op φ)).prod nops) = (comapVac V (opAt P op φ)).vac ((comap W (opAt P op φ)).prod nops) := rfl
      rw [hv, hwf, ← hcc, ← List.sum_map_mul_left]
      congr 1
      apply List.map_congr_left
      intro t _
      have : pairProd (comap W (opAt P op φ)).c t.2 =
          pairProd W.c (t.2.map fun p => (opAt P op φ p.1, opAt P op φ p.2)) := by
        unfold pairProd
        rw [List.map_map]
        rfl
      rw [this, zsmul_eq_mul]
      ring
    simp only [hW]
    rw [sum_list_comm]
    congr 1
    apply List.map_congr_left
    intro t _
    unfold vacSummand
    rw [Finset.smul_sum]
  · intro cs cs' hp
    unfold vacSummand
    apply Finset.sum_congr rfl
    intro φ _
    rw [pairProd_perm W.c (hp.map _)]
  · intro τ hτ cs
    exact vacSummand_relabel W.c op T τ hτ _ (hT τ hτ) (sgn_sq S _) cs

end SeQuant.Topology
