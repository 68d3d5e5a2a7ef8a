import Verif.Reduce.Spec
import Mathlib.Algebra.BigOperators.Ring.Finset

/-!
# Values under replacement of indices
-/

namespace SeQuant.Reduce

variable {T S V A : Type} [DecidableEq S] [DecidableEq V] [Fintype V] [Ring A]

omit [DecidableEq S] [Fintype V] in
theorem fval_congr (I : Interp T S V A) {σ τ : Idx S → V} {g : Fac T S} (h : ∀ i ∈ g.idx, σ i = τ i) : fval I σ g = fval I τ g := by
  cases g with
  | delta o b k => simp only [fval]; rw [h b (by simp [Fac.idx]), h k (by simp [Fac.idx])]
  | tens t l => simp only [fval]; rw [List.map_congr_left (g := τ) (by intro i hi; exact h i hi)]
  | one => rfl

omit [DecidableEq S] in
theorem mem_used {fs : List (Fac T S)} {i : Idx S} : i ∈ used fs ↔ ∃ g ∈ fs, i ∈ g.idx := by simp [used]

omit [DecidableEq S] [Fintype V] in
theorem pval_congr (I : Interp T S V A) {σ τ : Idx S → V} {fs : List (Fac T S)} (h : ∀ i ∈ used fs, σ i = τ i) : pval I σ fs = pval I τ fs := by
  unfold pval
  rw [List.map_congr_left (g := fval I τ)]
  intro g hg
  exact fval_congr I fun i hi => h i (mem_used.2 ⟨g, hg, hi⟩)

omit [DecidableEq S] [Fintype V] in
theorem fval_map (I : Interp T S V A) (σ : Idx S → V) (ρ : Idx S → Idx S) (g : Fac T S) : fval I σ (g.map ρ) = fval I (fun i => σ (ρ i)) g := by
  cases g with
  | delta o b k => rfl
  | tens t l => simp [fval, Fac.map, Function.comp_def]
  | one => rfl

omit [DecidableEq S] [Fintype V] in
theorem pval_map (I : Interp T S V A) (σ : Idx S → V) (ρ : Idx S → Idx S) (fs : List (Fac T S)) :
    pval I σ (fs.map (Fac.map ρ)) = pval I (fun i => σ (ρ i)) fs := by
  unfold pval
  rw [List.map_map]
  congr 1
  exact List.map_congr_left fun g _ => fval_map I σ ρ g

omit [DecidableEq S] [Fintype V] in
theorem pval_delta {I : Interp T S V A} {σ : Idx S → V} {fs : List (Fac T S)} (h : pval I σ fs ≠ 0) {o : Bool} {b k : Idx S}
    (hm : Fac.delta o b k ∈ fs) : σ b = σ k := by
  by_contra hne
  refine h (List.prod_eq_zero ?_)
  refine List.mem_map.2 ⟨_, hm, ?_⟩
  simp [fval, hne]

omit [Fintype V] in
/-- Deltas with equal indices are 1. -/
theorem pval_trivial (I : Interp T S V A) (σ : Idx S → V) (fs : List (Fac T S)) :
    pval I σ (fs.map fun g => if g.trivial then .one else g) = pval I σ fs := by
  unfold pval
  rw [List.map_map]
  congr 1
  refine List.map_congr_left fun g _ => ?_
  cases g with
  | delta o b k =>
    by_cases hb : b = k
    · simp [Fac.trivial, fval, hb]
    · simp [Fac.trivial, fval, hb]
  | tens t l => simp [Fac.trivial]
  | one => simp [Fac.trivial]

/-- Assignments at which a term of the sum can be nonzero. -/
structure Adm (I : Interp T S V A) (D : Finset (Idx S)) (e : Idx S → V) (fs : List (Fac T S)) (σ : Idx S → V) : Prop where
  ext : ∀ i, i ∉ D → σ i = e i
  dom : ∀ i ∈ D, I.dom i.space (σ i) = true
  del : ∀ {o b k}, Fac.delta o b k ∈ fs → σ b = σ k

omit [Fintype V] in
theorem adm_of_ne {I : Interp T S V A} {D : Finset (Idx S)} {e : Idx S → V} {fs : List (Fac T S)} {f : D → V}
    (h : (if ∀ i : D, I.dom i.1.space (f i) = true then pval I (extend D e f) fs else 0) ≠ 0) : Adm I D e fs (extend D e f) := by
  split_ifs at h with hd
  · refine ⟨fun i hi => by simp [extend, hi], fun i hi => by simpa [extend, hi] using hd ⟨i, hi⟩, fun hm => pval_delta h hm⟩
  · exact absurd rfl h

theorem value_zero {I : Interp T S V A} {D : Finset (Idx S)} {e : Idx S → V} {fs : List (Fac T S)} (h : ∀ σ, ¬ Adm I D e fs σ) : value I D e fs = 0 := by
  unfold value
  refine Finset.sum_eq_zero fun f _ => ?_
  by_contra hne
  exact h _ (adm_of_ne hne)

theorem value_congr {I : Interp T S V A} {D : Finset (Idx S)} {e : Idx S → V} {fs gs : List (Fac T S)}
    (h : ∀ σ, pval I σ fs = pval I σ gs) : value I D e fs = value I D e gs := by
  unfold value
  refine Finset.sum_congr rfl fun f _ => ?_
  rw [h]

/-- Replacement of summed indices by other summed indices or by fixed ones. -/
theorem value_rule (I : Interp T S V A) {D D' : Finset (Idx S)} {e : Idx S → V} {fs : List (Fac T S)} {ρ rep : Idx S → Idx S}
    (hrep : ∀ d ∈ D', rep d ∈ D ∧ ρ (rep d) = d)
    (hout : ∀ i ∈ used fs, i ∉ D → ρ i = i ∧ i ∉ D')
    (hsub : ∀ i ∈ D, ∀ v, I.dom (ρ i).space v = true → I.dom i.space v = true)
    (he : ∀ i ∈ D, ρ i ∉ D' → I.dom (ρ i).space (e (ρ i)) = true)
    (hadm : ∀ σ, Adm I D e fs σ → (∀ d ∈ D', I.dom d.space (σ (rep d)) = true) ∧ ∀ i ∈ D, (ρ i ∈ D' → σ (rep (ρ i)) = σ i) ∧ (ρ i ∉ D' → e (ρ i) = σ i)) :
    value I D e fs = value I D' e (fs.map (Fac.map ρ)) := by
  unfold value
  refine Finset.sum_bij_ne_zero (fun f _ _ => fun d : D' => extend D e f (rep d.1)) (fun _ _ _ => Finset.mem_univ _) ?_ ?_ ?_
  · intro f _ hf g _ hg hfg
    funext i
    have hf' := ((hadm _ (adm_of_ne hf)).2 i.1 i.2)
    have hg' := ((hadm _ (adm_of_ne hg)).2 i.1 i.2)
    have e1 : extend D e f i.1 = f i := by simp [extend]
    have e2 : extend D e g i.1 = g i := by simp [extend]
    by_cases hi : ρ i.1 ∈ D'
    · have := congrFun hfg ⟨ρ i.1, hi⟩
      simp only at this
      rw [hf'.1 hi, hg'.1 hi, e1, e2] at this
      exact this
    · rw [← e1, ← e2, ← hf'.2 hi, ← hg'.2 hi]
  · intro τ _ hτ
    have hτ' := hτ
    split_ifs at hτ' with hd
    · let f : D → V := fun i => extend D' e τ (ρ i.1)
      have hext : ∀ i ∈ used fs, extend D e f i = extend D' e τ (ρ i) := by
        intro i hi
        by_cases hiD : i ∈ D
        · simp [extend, hiD, f]
        · have := hout i hi hiD
          rw [this.1]; simp [extend, hiD, this.2]
      have hdom : ∀ i : D, I.dom i.1.space (f i) = true := by
        intro i
        refine hsub i.1 i.2 _ ?_
        by_cases hi : ρ i.1 ∈ D'
        · simpa [f, extend, hi] using hd ⟨ρ i.1, hi⟩
        · simpa [f, extend, hi] using he i.1 i.2 hi
      refine ⟨f, Finset.mem_univ _, ?_, ?_⟩
      · rw [if_pos hdom, pval_congr I hext, ← pval_map]; exact hτ'
      · funext d
        have hr := hrep d.1 d.2
        simp [extend, hr.1, f, hr.2]
    · exact absurd rfl hτ'
  · intro f _ hf
    have had := hadm _ (adm_of_ne hf)
    split_ifs at hf with hd
    · rw [if_pos hd, if_pos, pval_map]
      · refine pval_congr I fun i hi => ?_
        by_cases hiD : i ∈ D
        · by_cases hi' : ρ i ∈ D'
          · rw [extend.eq_def D', dif_pos hi', (had.2 i hiD).1 hi']
          · rw [extend.eq_def D', dif_neg hi', (had.2 i hiD).2 hi']
        · have := hout i hi hiD
          rw [this.1]; simp [extend, hiD, this.2]
      · intro d; exact had.1 d.1 d.2
    · exact absurd rfl hf

end SeQuant.Reduce
