import Verif.Network.Spec
import Mathlib.Algebra.BigOperators.Group.Finset.Basic
import Mathlib.Algebra.BigOperators.GroupWithZero.Action

/-!
# Renaming of indices does not change the value
-/

namespace SeQuant.Network

open SeQuant.Sort SeQuant.Tensors

variable {L C S V A : Type}

def NT.mapIx (ρ : Ix S → Ix S) (n : NT L C S) : NT L C S :=
  { n with t := { n.t with bra := n.t.bra.map (Option.map ρ), ket := n.t.ket.map (Option.map ρ) }, aux := n.aux.map (Option.map ρ) }

theorem mem_slotIdx {ts : List (NT L C S)} {i : Ix S} : i ∈ slotIdx ts ↔ ∃ n ∈ ts, some i ∈ n.slots := by
  simp [slotIdx]

theorem slots_mapIx (ρ : Ix S → Ix S) (n : NT L C S) : (n.mapIx ρ).slots = n.slots.map (Option.map ρ) := by
  simp [NT.slots, NT.mapIx]

theorem slotIdx_mapIx (ρ : Ix S → Ix S) (ts : List (NT L C S)) : slotIdx (ts.map (NT.mapIx ρ)) = (slotIdx ts).map ρ := by
  induction ts with
  | nil => rfl
  | cons n ts ih =>
    have h1 : ∀ l : List (Option (Ix S)), (l.map (Option.map ρ)).filterMap id = (l.filterMap id).map ρ := by
      intro l
      induction l with
      | nil => rfl
      | cons a l ih => cases a <;> simpa using ih
    simp only [slotIdx, List.map_cons, List.flatMap_cons, List.filterMap_append, List.map_append] at ih ⊢
    rw [ih, slots_mapIx, h1]

theorem head_mapIx (ρ : Ix S → Ix S) (n : NT L C S) : (n.mapIx ρ).head = n.head := rfl

theorem resL_map_congr {σ σ' : Ix S → V} {ρ : Ix S → Ix S} {l : List (Option (Ix S))}
    (h : ∀ i, some i ∈ l → res σ' (ρ i) = res σ i) : resL σ' (l.map (Option.map ρ)) = resL σ l := by
  simp only [resL, List.map_map]
  refine List.map_congr_left fun a ha => ?_
  cases a with
  | none => rfl
  | some i => simp [h i ha]

theorem tval_mapIx (I : Interp L S V A) {σ σ' : Ix S → V} {ρ : Ix S → Ix S} (n : NT L C S)
    (h : ∀ i, some i ∈ n.slots → res σ' (ρ i) = res σ i) : tval I σ' (n.mapIx ρ) = tval I σ n := by
  simp only [NT.slots, List.mem_append] at h
  simp only [tval, NT.mapIx]
  rw [resL_map_congr fun i hi => h i (.inl (.inl hi)), resL_map_congr fun i hi => h i (.inl (.inr hi)),
    resL_map_congr fun i hi => h i (.inr hi)]

section
variable [Ring A] [DecidableEq S]

omit [DecidableEq S] in
theorem pval_mapIx (I : Interp L S V A) {σ σ' : Ix S → V} {ρ : Ix S → Ix S} (ts : List (NT L C S))
    (h : ∀ i ∈ slotIdx ts, res σ' (ρ i) = res σ i) : pval I σ' (ts.map (NT.mapIx ρ)) = pval I σ ts := by
  simp only [pval, List.map_map]
  congr 1
  refine List.map_congr_left fun n hn => ?_
  exact tval_mapIx I n fun i hi => h i (mem_slotIdx.2 ⟨n, hn, hi⟩)

/-- A renaming of indices: keeps spaces, acts on proto-indices as on indices, keeps named indices, is injective on anonymous ones and gives them names
that are not taken. -/
structure Renames (named : List (Ix S)) (ts : List (NT L C S)) (ρ : Ix S → Ix S) : Prop where
  space : ∀ i ∈ slotIdx ts, (ρ i).space = i.space
  protos : ∀ i ∈ slotIdx ts, ((ρ i).protos.map PIx.toIx).Perm (i.protos.map fun p => ρ p.toIx)
  pspace : ∀ i ∈ slotIdx ts, ∀ p ∈ i.protos, (ρ p.toIx).space = p.space
  fixed : ∀ i ∈ named, ρ i = i
  fresh : ∀ i ∈ slotIdx ts, i ∉ named → ρ i ∉ named
  inj : ∀ i ∈ slotIdx ts, ∀ j ∈ slotIdx ts, i ∉ named → j ∉ named → ρ i = ρ j → i = j

theorem mem_dummies {named : List (Ix S)} {ts : List (NT L C S)} {i : Ix S} : i ∈ dummies named ts ↔ i ∈ slotIdx ts ∧ i ∉ named := by
  simp [dummies]

theorem dummies_mapIx {named : List (Ix S)} {ts : List (NT L C S)} {ρ : Ix S → Ix S} (h : Renames named ts ρ) (j : Ix S) :
    j ∈ dummies named (ts.map (NT.mapIx ρ)) ↔ ∃ i ∈ dummies named ts, ρ i = j := by
  rw [mem_dummies, slotIdx_mapIx, List.mem_map]
  constructor
  · rintro ⟨⟨i, hi, rfl⟩, hn⟩
    refine ⟨i, mem_dummies.2 ⟨hi, fun hin => hn ?_⟩, rfl⟩
    rw [h.fixed i hin]; exact hin
  · rintro ⟨i, hi, rfl⟩
    rw [mem_dummies] at hi
    exact ⟨⟨i, hi.1, rfl⟩, h.fresh i hi.1 hi.2⟩

/-- **Renaming keeps the value.** -/
theorem value_renames [Fintype V] (I : Interp L S V A) (e : Ix S → V) {named : List (Ix S)} {ts : List (NT L C S)} {ρ : Ix S → Ix S}
    (hc : Closed named ts) (h : Renames named ts ρ) :
    value I (dummies named (ts.map (NT.mapIx ρ))) e (ts.map (NT.mapIx ρ)) = value I (dummies named ts) e ts := by
  classical
  set D := dummies named ts with hD
  set D' := dummies named (ts.map (NT.mapIx ρ)) with hD'
  have hmem : ∀ i, i ∈ D → ρ i ∈ D' := fun i hi => (dummies_mapIx h _).2 ⟨i, hi, rfl⟩
  let φ : D → D' := fun i => ⟨ρ i, hmem i i.2⟩
  have hφ : Function.Bijective φ := by
    constructor
    · rintro ⟨i, hi⟩ ⟨j, hj⟩ hij
      have : ρ i = ρ j := congrArg Subtype.val hij
      rw [hD, mem_dummies] at hi hj
      exact Subtype.ext (h.inj i hi.1 j hj.1 hi.2 hj.2 this)
    · rintro ⟨j, hj⟩
      obtain ⟨i, hi, rfl⟩ := (dummies_mapIx h _).1 hj
      exact ⟨⟨i, hi⟩, rfl⟩
  let E : D ≃ D' := Equiv.ofBijective φ hφ
  -- assignments correspond
  have hσ : ∀ f : D' → V, ∀ i, i ∈ D ∨ i ∈ named → extend D' e f (ρ i) = extend D e (fun d => f (E d)) i := by
    intro f i hi
    by_cases hin : i ∈ D
    · have h1 : ρ i ∈ D' := hmem i hin
      rw [extend, extend, dif_pos h1, dif_pos hin]
      rfl
    · have hn : i ∈ named := hi.resolve_left hin
      have h2 : i ∉ D' := fun hh => (mem_dummies.1 hh).2 hn
      rw [h.fixed i hn, extend, extend, dif_neg hin, dif_neg h2]
  have hcov : ∀ i ∈ slotIdx ts, i ∈ D ∨ i ∈ named := by
    intro i hi
    by_cases hn : i ∈ named
    · exact .inr hn
    · exact .inl (mem_dummies.2 ⟨hi, hn⟩)
  have hcovp : ∀ i ∈ slotIdx ts, ∀ p ∈ i.protos, p.toIx ∈ D ∨ p.toIx ∈ named := by
    intro i hi p hp
    rcases hc.slot i hi p hp with h1 | h1
    · exact .inr h1
    · exact hcov _ h1
  have hpv : ∀ f : D' → V, ∀ i ∈ slotIdx ts, protoVals (extend D' e f) (ρ i) = protoVals (extend D e (fun d => f (E d))) i := by
    intro f i hi
    have e1 : ∀ j : Ix S, ∀ τ : Ix S → V, protoVals τ j = ((j.protos.map PIx.toIx).map fun q => (q.space, τ q) : List (S × V)) := by
      intro j τ
      simp [protoVals, List.map_map, Function.comp_def, PIx.toIx]
    rw [e1, e1, Multiset.coe_eq_coe]
    refine ((h.protos i hi).map _).trans ?_
    rw [List.map_map, List.map_map]
    refine List.Perm.of_eq (List.map_congr_left fun p hp => ?_)
    simp only [Function.comp]
    rw [hσ f _ (hcovp i hi p hp), h.pspace i hi p hp]
    rfl
  have hres : ∀ f : D' → V, ∀ i ∈ slotIdx ts, res (extend D' e f) (ρ i) = res (extend D e (fun d => f (E d))) i := by
    intro f i hi
    rw [res, res, h.space i hi, hσ f i (hcov i hi), hpv f i hi]
  unfold value
  refine Fintype.sum_equiv (Equiv.arrowCongr E.symm (Equiv.refl V)) _ _ fun f => ?_
  have hf : (Equiv.arrowCongr E.symm (Equiv.refl V)) f = fun d => f (E d) := by
    funext d; simp [Equiv.arrowCongr]
  rw [hf, pval_mapIx I ts (hres f)]
  refine if_congr ?_ rfl rfl
  constructor
  · intro hh i hi
    have hs := (mem_dummies.1 hi).1
    have := hh (ρ i) (hmem i hi)
    rwa [h.space i hs, hpv f i hs, hσ f i (.inl hi)] at this
  · intro hh j hj
    obtain ⟨i, hi, rfl⟩ := (dummies_mapIx h _).1 hj
    have hs := (mem_dummies.1 hi).1
    rw [h.space i hs, hpv f i hs, hσ f i (.inl hi)]
    exact hh i hi

/-- Replacing the tensors by others with the same product of elements. -/
theorem value_congr [Fintype V] (I : Interp L S V A) (e : Ix S → V) (D : Finset (Ix S)) (z : ℤ) {ts ts' : List (NT L C S)}
    (h : ∀ σ, z • pval I σ ts' = pval I σ ts) : z • value I D e ts' = value I D e ts := by
  unfold value
  rw [Finset.smul_sum]
  refine Finset.sum_congr rfl fun f _ => ?_
  split
  · exact h _
  · simp

end

end SeQuant.Network
