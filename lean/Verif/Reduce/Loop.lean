import Verif.Reduce.Merge
import Mathlib.Algebra.BigOperators.Group.Finset.Sigma
import Mathlib.Algebra.Module.Defs
import Mathlib.Data.Fintype.Prod
import Mathlib.Data.Fintype.BigOperators
import Mathlib.Algebra.BigOperators.GroupWithZero.Action

/-!
# The loop of passes
-/

namespace SeQuant.Reduce

variable {T S V A : Type} [DecidableEq S] [DecidableEq V] [Fintype V] [Ring A]

/-- Number of orbitals of a space. -/
def dim (I : Interp T S V A) (s : S) : Nat := (Finset.univ.filter fun v => I.dom s v = true).card

/-- A summed index that does not occur multiplies the value by the size of its space. -/
theorem value_insert (I : Interp T S V A) {D : Finset (Idx S)} {d : Idx S} (hd : d ∉ D) (e : Idx S → V) {fs : List (Fac T S)} (hu : d ∉ used fs) :
    value I (insert d D) e fs = dim I d.space • value I D e fs := by
  let eqv : ({x // x ∈ insert d D} → V) ≃ V × (D → V) :=
    { toFun := fun f => (f ⟨d, Finset.mem_insert_self d D⟩, fun i => f ⟨i.1, Finset.mem_insert_of_mem i.2⟩)
      invFun := fun p i => if h : i.1 = d then p.1 else p.2 ⟨i.1, (Finset.mem_insert.1 i.2).resolve_left h⟩
      left_inv := by
        intro f; funext i
        by_cases h : i.1 = d
        · simp only [h, dif_pos]; congr 1; exact Subtype.ext h.symm
        · simp only [h, dif_neg, not_false_eq_true]
      right_inv := by
        rintro ⟨v, g⟩
        refine Prod.ext (by simp) ?_
        funext i
        have : i.1 ≠ d := fun h => hd (h ▸ i.2)
        simp [this] }
  unfold value
  rw [← Equiv.sum_comp eqv.symm, Fintype.sum_prod_type]
  have hterm : ∀ (v : V) (g : D → V),
      (if ∀ i : {x // x ∈ insert d D}, I.dom i.1.space (eqv.symm (v, g) i) = true then pval I (extend (insert d D) e (eqv.symm (v, g))) fs else 0) =
      if I.dom d.space v = true then (if ∀ i : D, I.dom i.1.space (g i) = true then pval I (extend D e g) fs else 0) else 0 := by
    intro v g
    have hval : ∀ i : {x // x ∈ insert d D}, eqv.symm (v, g) i = if h : i.1 = d then v else g ⟨i.1, (Finset.mem_insert.1 i.2).resolve_left h⟩ := fun _ => rfl
    have hp : pval I (extend (insert d D) e (eqv.symm (v, g))) fs = pval I (extend D e g) fs := by
      refine pval_congr I fun i hi => ?_
      have hid : i ≠ d := fun h => hu (h ▸ hi)
      by_cases hiD : i ∈ D
      · simp [extend, hiD, hval, hid]
      · simp [extend, hiD, hid]
    rw [hp]
    have hiff : (∀ i : {x // x ∈ insert d D}, I.dom i.1.space (eqv.symm (v, g) i) = true) ↔
        I.dom d.space v = true ∧ ∀ i : D, I.dom i.1.space (g i) = true := by
      constructor
      · intro h
        refine ⟨by simpa [hval] using h ⟨d, Finset.mem_insert_self d D⟩, fun i => ?_⟩
        have hne : i.1 ≠ d := fun hh => hd (hh ▸ i.2)
        simpa [hval, hne] using h ⟨i.1, Finset.mem_insert_of_mem i.2⟩
      · rintro ⟨h1, h2⟩ i
        rw [hval]
        by_cases h : i.1 = d
        · rw [dif_pos h, h]; exact h1
        · rw [dif_neg h]; exact h2 ⟨i.1, _⟩
    by_cases h1 : I.dom d.space v = true
    · by_cases h2 : ∀ i : D, I.dom i.1.space (g i) = true
      · rw [if_pos (hiff.2 ⟨h1, h2⟩), if_pos h1, if_pos h2]
      · rw [if_neg (fun h => h2 (hiff.1 h).2), if_pos h1, if_neg h2]
    · rw [if_neg (fun h => h1 (hiff.1 h).1), if_neg h1]
  simp only [hterm]
  have hout : ∀ v : V, (∑ g : D → V, if I.dom d.space v = true then (if ∀ i : D, I.dom i.1.space (g i) = true then pval I (extend D e g) fs else 0) else 0) =
      if I.dom d.space v = true then (∑ g : D → V, if ∀ i : D, I.dom i.1.space (g i) = true then pval I (extend D e g) fs else 0) else 0 := by
    intro v; split_ifs <;> simp
  simp only [hout]
  rw [← Finset.sum_filter, Finset.sum_const, dim]

theorem value_union (I : Interp T S V A) (e : Idx S → V) {fs : List (Fac T S)} (D : Finset (Idx S)) :
    ∀ l : List (Idx S), l.Nodup → (∀ i ∈ l, i ∉ D ∧ i ∉ used fs) →
      value I (D ∪ l.toFinset) e fs = ((l.map fun i => dim I i.space).prod) • value I D e fs
  | [], _, _ => by simp
  | i :: l, hnd, h => by
    have hnd' := List.nodup_cons.1 hnd
    have e1 : D ∪ (i :: l).toFinset = insert i (D ∪ l.toFinset) := by
      rw [List.toFinset_cons, Finset.union_insert]
    have hi := h i (by simp)
    rw [e1, value_insert I (by simp [hi.1, hnd'.1]) e hi.2, value_union I e D l hnd'.2 (fun j hj => h j (by simp [hj]))]
    rw [List.map_cons, List.prod_cons, mul_smul]

/-! ## A pass -/

omit [DecidableEq S] in
theorem used_map (ρ : Idx S → Idx S) (fs : List (Fac T S)) : used (fs.map (Fac.map ρ)) = (used fs).map ρ := by
  unfold used
  rw [List.map_flatMap, List.flatMap_map]
  refine List.flatMap_congr fun g _ => ?_
  cases g <;> simp [Fac.map, Fac.idx]

omit [DecidableEq S] in
theorem usedTens_map (ρ : Idx S → Idx S) (fs : List (Fac T S)) : usedTens (fs.map (Fac.map ρ)) = (usedTens fs).map ρ := by
  unfold usedTens
  rw [List.map_flatMap, List.flatMap_map]
  refine List.flatMap_congr fun g _ => ?_
  cases g <;> simp [Fac.map]

/-- Removal of trivial deltas. -/
def strip (fs : List (Fac T S)) : List (Fac T S) := fs.map fun g => if g.trivial then .one else g

theorem usedTens_strip (fs : List (Fac T S)) : usedTens (strip fs) = usedTens fs := by
  unfold usedTens strip
  rw [List.flatMap_map]
  refine List.flatMap_congr fun g _ => ?_
  cases g with
  | delta o b k => by_cases h : b = k <;> simp [Fac.trivial, h]
  | tens t l => simp [Fac.trivial]
  | one => simp [Fac.trivial]

theorem used_strip {fs : List (Fac T S)} {i : Idx S} (h : i ∈ used (strip fs)) : i ∈ used fs := by
  obtain ⟨g, hg, hi⟩ := mem_used.1 h
  obtain ⟨f, hf, rfl⟩ := List.mem_map.1 hg
  refine mem_used.2 ⟨f, hf, ?_⟩
  split_ifs at hi with ht
  · simp [Fac.idx] at hi
  · exact hi

omit [DecidableEq S] in
theorem usedTens_used {fs : List (Fac T S)} {i : Idx S} (h : i ∈ usedTens fs) : i ∈ used fs := by
  unfold usedTens at h
  obtain ⟨g, hg, hi⟩ := List.mem_flatMap.1 h
  refine mem_used.2 ⟨g, hg, ?_⟩
  cases g <;> simp_all [Fac.idx]

/-- The indices of the trivial deltas. -/
def trivIdx : List (Fac T S) → List (Idx S)
  | [] => []
  | .delta _ b k :: fs => if b = k then b :: trivIdx fs else trivIdx fs
  | _ :: fs => trivIdx fs

theorem trivIdx_length (fs : List (Fac T S)) : (trivIdx fs).length + deltas (strip fs) = deltas fs := by
  have hd : ∀ (g : Fac T S) (l : List (Fac T S)), deltas (g :: l) = deltas l + deltas [g] := by
    intro g l; unfold deltas; rw [List.countP_cons, List.countP_singleton]
  induction fs with
  | nil => rfl
  | cons g fs ih =>
    have hs : strip (g :: fs) = (if g.trivial then .one else g) :: strip fs := rfl
    rw [hs, hd g, hd _ (strip fs)]
    cases g with
    | delta o b k =>
      by_cases h : b = k
      · have e1 : trivIdx (Fac.delta o b k :: fs) = b :: trivIdx fs := by simp [trivIdx, h]
        have e2 : (if (Fac.delta o b k : Fac T S).trivial then (.one : Fac T S) else .delta o b k) = .one := by simp [Fac.trivial, h]
        have e3 : deltas [(.one : Fac T S)] = 0 := rfl
        have e4 : deltas [(.delta o b k : Fac T S)] = 1 := rfl
        rw [e1, e2, e3, e4, List.length_cons]; omega
      · have e1 : trivIdx (Fac.delta o b k :: fs) = trivIdx fs := by simp [trivIdx, h]
        have e2 : (if (Fac.delta o b k : Fac T S).trivial then (.one : Fac T S) else .delta o b k) = .delta o b k := by simp [Fac.trivial, h]
        rw [e1, e2]; omega
    | tens t l =>
      have e1 : trivIdx (Fac.tens t l :: fs) = trivIdx fs := rfl
      have e2 : (if (Fac.tens t l : Fac T S).trivial then (.one : Fac T S) else .tens t l) = .tens t l := rfl
      rw [e1, e2]; omega
    | one =>
      have e1 : trivIdx (Fac.one :: fs) = trivIdx fs := rfl
      have e2 : (if (Fac.one : Fac T S).trivial then (.one : Fac T S) else .one) = .one := rfl
      rw [e1, e2]; omega

theorem trivIdx_mem {fs : List (Fac T S)} {i : Idx S} (h : i ∈ used fs) (hn : i ∉ used (strip fs)) : i ∈ trivIdx fs := by
  induction fs with
  | nil => simp [used] at h
  | cons g fs ih =>
    have hu : used (g :: fs) = g.idx ++ used fs := by simp [used]
    have hs : used (strip (g :: fs)) = (if g.trivial then (.one : Fac T S) else g).idx ++ used (strip fs) := by simp [used, strip]
    rw [hu] at h; rw [hs] at hn
    simp only [List.mem_append, not_or] at h hn
    rcases h with h | h
    · cases g with
      | delta o b k =>
        by_cases hb : b = k
        · subst hb
          simp only [Fac.idx, List.mem_cons, List.not_mem_nil, or_false, or_self] at h
          simp [trivIdx, h]
        · simp [Fac.trivial, hb] at hn; exact absurd h hn.1
      | tens t l => simp [Fac.trivial] at hn; exact absurd h hn.1
      | one => simp [Fac.idx] at h
    · have := ih h hn.2
      cases g with
      | delta o b k => by_cases hb : b = k <;> simp [trivIdx, hb, this]
      | tens t l => simpa [trivIdx] using this
      | one => simpa [trivIdx] using this

omit [DecidableEq S] in
theorem deltas_map (ρ : Idx S → Idx S) (fs : List (Fac T S)) : deltas (fs.map (Fac.map ρ)) = deltas fs := by
  unfold deltas
  rw [List.countP_map]
  congr 1
  funext g
  cases g <;> rfl

theorem trivIdx_pos {fs : List (Fac T S)} (h : fs.any Fac.trivial = true) : 0 < (trivIdx fs).length := by
  induction fs with
  | nil => simp at h
  | cons g fs ih =>
    cases g with
    | delta o b k =>
      by_cases hb : b = k
      · simp [trivIdx, hb]
      · simp only [trivIdx, hb, if_false]; refine ih ?_; simpa [Fac.trivial, hb] using h
    | tens t l => refine ih ?_; simpa [Fac.trivial] using h
    | one => refine ih ?_; simpa [Fac.trivial] using h

/-! ## A pass with the indices of the product -/

/-- The pass of `reduce`. -/
def mkPass (I : Interp T S V A) (E : Env S) (ext : List (Idx S)) (e : Idx S → V) (fs : List (Fac T S)) : Pass T S V A :=
  ⟨I, E, ext, used fs, inner ext fs, e, fs⟩

omit [DecidableEq V] [Fintype V] [Ring A] in
theorem mkPass_wf {I : Interp T S V A} {E : Env S} {ext : List (Idx S)} {e : Idx S → V} {fs : List (Fac T S)} (hE : Exact I E)
    (htmp : ∀ i ∈ ext, i.ord < E.minTmp) : (mkPass I E ext e fs).WF where
  exact := hE
  D_all := fun i hi => List.mem_toFinset.1 (Finset.mem_filter.1 hi).1
  all_D := by
    intro i hi
    by_cases hx : i ∈ ext
    · exact Or.inr hx
    · exact Or.inl (Finset.mem_filter.2 ⟨List.mem_toFinset.2 hi, hx⟩)
  D_ext := by intro i hi; exact (Finset.mem_filter.1 hi).2
  ext_tmp := htmp

omit [DecidableEq V] [Fintype V] [Ring A] in
theorem rho_out {P : Pass T S V A} {st : St S} (h : Inv P st) {i : Idx S} (hi : i ∉ P.D) : st.rho i = i := by
  rcases rho_cases (st := st) i with ⟨c, hc, hs, _⟩ | ⟨_, h2⟩
  · exact absurd (h.src_mem c hc i hs) hi
  · exact h2

omit [DecidableEq V] [Fintype V] [Ring A] in
theorem inner_map {I : Interp T S V A} {E : Env S} {ext : List (Idx S)} {e : Idx S → V} {fs : List (Fac T S)} {st : St S}
    (h : Inv (mkPass I E ext e fs) st) : ((inner ext fs).image st.rho).filter (· ∉ ext) = inner ext (fs.map (Fac.map st.rho)) := by
  ext d
  simp only [inner, Finset.mem_filter, Finset.mem_image, List.mem_toFinset, used_map, List.mem_map]
  constructor
  · rintro ⟨⟨i, ⟨hi, _⟩, rfl⟩, hd⟩
    exact ⟨⟨i, hi, rfl⟩, hd⟩
  · rintro ⟨⟨i, hi, rfl⟩, hd⟩
    refine ⟨⟨i, ⟨hi, ?_⟩, rfl⟩, hd⟩
    intro hx
    have hD : i ∉ (mkPass I E ext e fs).D := fun hm => (Finset.mem_filter.1 hm).2 hx
    rw [rho_out h hD] at hd
    exact hd hx

/-- A pass: the value is that of the result, times the sizes of the spaces of the summed indices that no longer occur. -/
theorem pass_value {I : Interp T S V A} {E : Env S} {ext : List (Idx S)} {e : Idx S → V} {fs : List (Fac T S)} (hE : Exact I E)
    (htmp : ∀ i ∈ ext, i.ord < E.minTmp) (hext : ∀ i ∈ ext, I.dom i.space (e i) = true) {st : St S} (h : Inv (mkPass I E ext e fs) st) :
    ∃ L : List (Idx S), L.length + deltas (applyRules st.rho fs).1 ≤ deltas fs ∧
      value I (inner ext fs) e fs = ((L.map fun i => dim I i.space).prod) • value I (inner ext (applyRules st.rho fs).1) e (applyRules st.rho fs).1 ∧
      (Covered ext fs → L = [] ∧ Covered ext (applyRules st.rho fs).1) := by
  have hP := mkPass_wf (e := e) (fs := fs) hE htmp
  have hv := rules_value hP (fun i hi => hi) hext h
  show ∃ L : List (Idx S), L.length + deltas (strip (fs.map (Fac.map st.rho))) ≤ deltas fs ∧
      value I (inner ext fs) e fs = ((L.map fun i => dim I i.space).prod) • value I (inner ext (strip (fs.map (Fac.map st.rho)))) e (strip (fs.map (Fac.map st.rho))) ∧
      (Covered ext fs → L = [] ∧ Covered ext (strip (fs.map (Fac.map st.rho))))
  change value I (inner ext fs) e fs = value I (((inner ext fs).image st.rho).filter (· ∉ ext)) e (fs.map (Fac.map st.rho)) at hv
  rw [inner_map h] at hv
  generalize hgs : fs.map (Fac.map st.rho) = gs at *
  let L := ((inner ext gs) \ (inner ext (strip gs))).toList
  have hLm : ∀ i, i ∈ L ↔ i ∈ inner ext gs ∧ i ∉ inner ext (strip gs) := by intro i; simp [L]
  have hLnd : L.Nodup := Finset.nodup_toList _
  have hsub : inner ext (strip gs) ⊆ inner ext gs := by
    intro i hi
    simp only [inner, Finset.mem_filter, List.mem_toFinset] at hi ⊢
    exact ⟨used_strip hi.1, hi.2⟩
  have hun : inner ext (strip gs) ∪ L.toFinset = inner ext gs := by
    ext i
    simp only [Finset.mem_union, List.mem_toFinset, hLm]
    constructor
    · rintro (h | h)
      · exact hsub h
      · exact h.1
    · intro h
      by_cases h' : i ∈ inner ext (strip gs)
      · exact Or.inl h'
      · exact Or.inr ⟨h, h'⟩
  have hlost : ∀ i ∈ L, i ∉ used (strip gs) := by
    intro i hi hu
    have := (hLm i).1 hi
    exact this.2 (Finset.mem_filter.2 ⟨List.mem_toFinset.2 hu, (Finset.mem_filter.1 this.1).2⟩)
  refine ⟨L, ?_, ?_, ?_⟩
  · have h1 : L.length ≤ (trivIdx gs).length := by
      refine (hLnd.subperm ?_).length_le
      intro i hi
      have := (hLm i).1 hi
      refine trivIdx_mem ?_ (hlost i hi)
      simpa using (Finset.mem_filter.1 this.1).1
    have h2 := trivIdx_length gs
    have h3 := deltas_map st.rho fs
    rw [hgs] at h3
    omega
  · rw [hv, ← value_congr (fun σ => pval_trivial I σ gs)]
    have := value_union I e (fs := strip gs) (inner ext (strip gs)) L hLnd (fun i hi => ⟨((hLm i).1 hi).2, hlost i hi⟩)
    rw [hun] at this
    exact this
  · intro hc
    have hcg : Covered ext gs := by
      intro d hd hx
      rw [← hgs, used_map] at hd
      obtain ⟨i, hi, rfl⟩ := List.mem_map.1 hd
      rw [← hgs, usedTens_map]
      refine List.mem_map.2 ⟨i, hc i hi ?_, rfl⟩
      intro hix
      have hD : i ∉ (mkPass I E ext e fs).D := fun hm => (Finset.mem_filter.1 hm).2 hix
      rw [rho_out h hD] at hx
      exact hx hix
    have hcs : Covered ext (strip gs) := by
      intro d hd hx
      rw [usedTens_strip]; exact hcg d (used_strip hd) hx
    refine ⟨?_, hcs⟩
    refine List.eq_nil_iff_forall_not_mem.2 fun i hi => ?_
    have hm := (hLm i).1 hi
    simp only [inner, Finset.mem_filter, List.mem_toFinset] at hm
    have := hcg i hm.1.1 hm.1.2
    rw [← usedTens_strip] at this
    exact hlost i hi (usedTens_used this)

theorem deltas_lt {ρ : Idx S → Idx S} {fs : List (Fac T S)} (h : (applyRules ρ fs).2 = true) : deltas (applyRules ρ fs).1 < deltas fs := by
  have h1 := trivIdx_pos (fs := fs.map (Fac.map ρ)) h
  have h2 := trivIdx_length (fs.map (Fac.map ρ))
  have h3 := deltas_map ρ fs
  show deltas (strip (fs.map (Fac.map ρ))) < deltas fs
  omega

/-- The loop. -/
theorem reduce_loop {I : Interp T S V A} {E : Env S} {ext : List (Idx S)} {e : Idx S → V} (hE : Exact I E)
    (htmp : ∀ i ∈ ext, i.ord < E.minTmp) (hext : ∀ i ∈ ext, I.dom i.space (e i) = true) (nc : List (Fac T S) → List (Idx S)) :
    ∀ (fuel : Nat) (fs : List (Fac T S)), Post ((∃ s t, E.inter s t = .error .throw) ∨ fuel ≤ deltas fs) (value I (inner ext fs) e fs = 0)
      (fun r => ∃ L : List (Idx S), L.length + deltas r ≤ deltas fs ∧
        value I (inner ext fs) e fs = ((L.map fun i => dim I i.space).prod) • value I (inner ext r) e r ∧ (Covered ext fs → L = [] ∧ Covered ext r))
      (reduce E ext nc fuel fs)
  | 0, fs => Or.inr (Nat.zero_le _)
  | fuel + 1, fs => by
    unfold reduce
    have hP := mkPass_wf (e := e) (fs := fs) hE htmp
    have hr := rules_spec hP (nc fs) (fun i hi => hi)
    change Post (∃ s t, E.inter s t = .error .throw) (∀ σ, ¬ (mkPass I E ext e fs).Q σ) _ (rules E ext (nc fs) (used fs) fs) at hr
    cases hst : rules E ext (nc fs) (used fs) fs with
    | error z =>
      rw [hst] at hr
      cases z with
      | zero => exact value_zero fun σ hσ => hr σ ⟨hσ, hext⟩
      | throw => exact Or.inl hr
    | ok st =>
      rw [hst] at hr
      obtain ⟨L, hL1, hL2, hL3⟩ := pass_value hE htmp hext hr.1
      show Post _ _ _ (if (applyRules st.rho fs).2 = true then reduce E ext nc fuel (applyRules st.rho fs).1 else pure (applyRules st.rho fs).1)
      by_cases hm : (applyRules st.rho fs).2 = true
      · rw [if_pos hm]
        have hlt := deltas_lt hm
        have ih := reduce_loop hE htmp hext nc fuel (applyRules st.rho fs).1
        cases hres : reduce E ext nc fuel (applyRules st.rho fs).1 with
        | error z =>
          rw [hres] at ih
          cases z with
          | zero =>
            change value I _ e _ = 0 at ih
            show value I _ e _ = 0
            rw [hL2, ih, smul_zero]
          | throw =>
            rcases ih with ih | ih
            · exact Or.inl ih
            · exact Or.inr (by omega)
        | ok r =>
          rw [hres] at ih
          obtain ⟨M, hM1, hM2, hM3⟩ := ih
          refine ⟨L ++ M, ?_, ?_, ?_⟩
          · rw [List.length_append]; omega
          · rw [hL2, hM2, List.map_append, List.prod_append, mul_smul]
          · intro hc
            have h1 := hL3 hc
            have h2 := hM3 h1.2
            exact ⟨by rw [h1.1, h2.1]; rfl, h2.2⟩
      · rw [if_neg hm]
        exact ⟨L, hL1, hL2, hL3⟩

end SeQuant.Reduce
