import Verif.Rules.Spec
import Mathlib.Algebra.BigOperators.Ring.List
import Mathlib.Tactic.Ring

/-!
# Sums over indices
-/

namespace SeQuant.Rules

set_option linter.unusedSectionVars false

variable {K L ι D : Type} [CommRing K] [DecidableEq ι] (V : Env K L ι D) (new : ι → Bool)

/-- `F` depends only on the values of the indices in `s`. -/
def Dep (s : List ι) (F : (ι → D) → K) : Prop := ∀ ρ ρ' : ι → D, (∀ i ∈ s, ρ i = ρ' i) → F ρ = F ρ'

variable {V new}

theorem Dep.mono {s s' : List ι} {F : (ι → D) → K} (h : Dep s F) (hs : ∀ i ∈ s, i ∈ s') : Dep s' F :=
  fun ρ ρ' hr => h ρ ρ' fun i hi => hr i (hs i hi)

theorem sumOver_dep {s : List ι} : ∀ (l : List ι) {F : (ι → D) → K}, Dep s F → Dep s (sumOver V l F)
  | [], _, h => h
  | i :: l, F, h => by
    intro ρ ρ' hr
    simp only [sumOver]
    congr 1
    refine List.map_congr_left fun v _ => ?_
    refine sumOver_dep l h _ _ fun j hj => ?_
    by_cases hji : j = i
    · subst hji; simp
    · rw [Function.update_of_ne hji, Function.update_of_ne hji]; exact hr j hj

theorem sumOver_append (a b : List ι) (F : (ι → D) → K) : sumOver V (a ++ b) F = sumOver V a (sumOver V b F) := by
  induction a with
  | nil => rfl
  | cons i a ih => funext ρ; simp only [List.cons_append, sumOver, ih]

theorem sumOver_congr (l : List ι) {F G : (ι → D) → K} (h : ∀ ρ, F ρ = G ρ) : sumOver V l F = sumOver V l G := by
  have : F = G := funext h
  rw [this]

theorem sumOver_zero (l : List ι) (ρ : ι → D) : sumOver V l (fun _ => (0 : K)) ρ = 0 := by
  induction l generalizing ρ with
  | nil => rfl
  | cons i l ih => simp only [sumOver, ih]; simp

theorem sumOver_mul (l : List ι) {s : List ι} {F G : (ι → D) → K} (hF : Dep s F) (hs : ∀ i ∈ l, i ∉ s) (ρ : ι → D) :
    sumOver V l (fun ρ => F ρ * G ρ) ρ = F ρ * sumOver V l G ρ := by
  induction l generalizing ρ with
  | nil => rfl
  | cons i l ih =>
    simp only [sumOver]
    rw [← List.sum_map_mul_left]
    congr 1
    refine List.map_congr_left fun v _ => ?_
    rw [ih (fun j hj => hs j (List.mem_cons_of_mem _ hj))]
    congr 1
    refine hF _ _ fun j hj => ?_
    have : j ≠ i := fun h => hs i List.mem_cons_self (h ▸ hj)
    rw [Function.update_of_ne this]

theorem sumOver_mul' (l : List ι) {s : List ι} {F G : (ι → D) → K} (hF : Dep s F) (hs : ∀ i ∈ l, i ∉ s) (ρ : ι → D) :
    sumOver V l (fun ρ => G ρ * F ρ) ρ = sumOver V l G ρ * F ρ := by
  rw [mul_comm, ← sumOver_mul l hF hs]
  exact congrFun (sumOver_congr l fun ρ => mul_comm _ _) ρ

theorem sumOver_smul (l : List ι) (c : K) (G : (ι → D) → K) (ρ : ι → D) : sumOver V l (fun ρ => c * G ρ) ρ = c * sumOver V l G ρ :=
  sumOver_mul (s := []) l (fun _ _ _ => rfl) (by simp) ρ

theorem slot_dep {ρ ρ' : ι → D} {i : ι} (h : ∀ j ∈ i :: V.protos i, ρ j = ρ' j) : slot V ρ i = slot V ρ' i := by
  unfold slot
  rw [h i List.mem_cons_self]
  congr 1
  exact List.map_congr_left fun j hj => h j (List.mem_cons_of_mem _ hj)

theorem slots_dep {ρ ρ' : ι → D} {l : List ι} (h : ∀ j ∈ l.flatMap (fun i => i :: V.protos i), ρ j = ρ' j) : l.map (slot V ρ) = l.map (slot V ρ') :=
  List.map_congr_left fun i hi => slot_dep fun j hj => h j (List.mem_flatMap.2 ⟨i, hi, hj⟩)

mutual
theorem pt_dep : (e : Ex K L ι) → Dep (occ V e) (pt V new e)
  | .const c => fun _ _ _ => rfl
  | .var v => fun _ _ _ => rfl
  | .ten t => by
    intro ρ ρ' h
    simp only [pt]
    have hm : ∀ l : List ι, (∀ i ∈ l, i ∈ t.bra ++ t.ket ++ t.aux) → l.map (slot V ρ) = l.map (slot V ρ') := by
      intro l hl
      refine slots_dep fun j hj => h j ?_
      obtain ⟨i, hi, hij⟩ := List.mem_flatMap.1 hj
      exact List.mem_flatMap.2 ⟨i, hl i hi, hij⟩
    rw [hm t.bra (by simp +contextual), hm t.ket (by simp +contextual), hm t.aux (by simp +contextual)]
  | .sum l => fun ρ ρ' h => ptSum_dep l ρ ρ' h
  | .prod c l => fun ρ ρ' h => by simp only [pt]; rw [ptProd_dep l ρ ρ' h]
theorem ptSum_dep : (l : List (Ex K L ι)) → Dep (occL V l) (ptSum V new l)
  | [] => fun _ _ _ => rfl
  | e :: l => fun ρ ρ' h => by
    simp only [ptSum]
    rw [ptSum_dep l ρ ρ' fun i hi => h i (by simp [occL, hi]), sumOver_dep _ (pt_dep e) ρ ρ' fun i hi => h i (by simp [occL, hi])]
theorem ptProd_dep : (l : List (Ex K L ι)) → Dep (occL V l) (ptProd V new l)
  | [] => fun _ _ _ => rfl
  | e :: l => fun ρ ρ' h => by
    simp only [ptProd]
    rw [ptProd_dep l ρ ρ' fun i hi => h i (by simp [occL, hi]), pt_dep e ρ ρ' fun i hi => h i (by simp [occL, hi])]
end

theorem val_dep (e : Ex K L ι) : Dep (occ V e) (val V new e) := sumOver_dep _ (pt_dep e)

mutual
theorem direct_occ : (e : Ex K L ι) → ∀ i ∈ direct V e, i ∈ occ V e
  | .const c, _, h => by simp [direct] at h
  | .var v, _, h => by simp [direct] at h
  | .ten t, _, h => h
  | .sum l, _, h => by simp [direct] at h
  | .prod c l, i, h => directL_occ l i h
theorem directL_occ : (l : List (Ex K L ι)) → ∀ i ∈ directL V l, i ∈ occL V l
  | [], _, h => by simp [directL] at h
  | e :: l, i, h => by
    simp only [directL, occL, List.mem_append] at h ⊢
    exact h.imp (direct_occ e i) (directL_occ l i)
end

theorem news_occ {e : Ex K L ι} {i : ι} (h : i ∈ news V new e) : i ∈ occ V e :=
  direct_occ e i (List.mem_of_mem_filter (List.mem_dedup.1 h))

theorem news_new {e : Ex K L ι} {i : ι} (h : i ∈ news V new e) : new i = true :=
  (List.mem_filter.1 (List.mem_dedup.1 h)).2

/-- No index of the expression is summed. -/
def Clean (V : Env K L ι D) (new : ι → Bool) (e : Ex K L ι) : Prop := ∀ i ∈ occ V e, new i = false

theorem Clean.news {e : Ex K L ι} (h : Clean V new e) : news V new e = [] := by
  cases hn : Rules.news V new e with
  | nil => rfl
  | cons i l =>
    have hi : i ∈ Rules.news V new e := by rw [hn]; exact List.mem_cons_self
    have := h i (news_occ hi)
    rw [news_new hi] at this
    simp at this

theorem Clean.val {e : Ex K L ι} (h : Clean V new e) : val V new e = pt V new e := by
  unfold Rules.val
  rw [h.news]
  rfl

/-! ### Products -/

def newsL (V : Env K L ι D) (new : ι → Bool) (l : List (Ex K L ι)) : List ι := ((directL V l).filter new).dedup

theorem newsL_occ {l : List (Ex K L ι)} {i : ι} (h : i ∈ newsL V new l) : i ∈ occL V l :=
  directL_occ l i (List.mem_of_mem_filter (List.mem_dedup.1 h))

theorem mem_occL {l : List (Ex K L ι)} {i : ι} : i ∈ occL V l ↔ ∃ e ∈ l, i ∈ occ V e := by
  induction l with
  | nil => simp [occL]
  | cons e l ih => simp [occL, ih]

theorem mem_directL {l : List (Ex K L ι)} {i : ι} : i ∈ directL V l ↔ ∃ e ∈ l, i ∈ direct V e := by
  induction l with
  | nil => simp [directL]
  | cons e l ih => simp [directL, ih]

/-- The summed indices of two factors are not shared. -/
def Apart (V : Env K L ι D) (new : ι → Bool) (e f : Ex K L ι) : Prop := (∀ i ∈ news V new e, i ∉ occ V f) ∧ ∀ i ∈ news V new f, i ∉ occ V e

/-- The values of the factors are multiplied if the summed indices of each factor occur in no other factor. -/
theorem prod_apart : ∀ (l : List (Ex K L ι)), l.Pairwise (Apart V new) → ∀ ρ,
    sumOver V (newsL V new l) (ptProd V new l) ρ = (l.map fun e => val V new e ρ).prod
  | [], _, ρ => rfl
  | e :: l, h, ρ => by
    obtain ⟨h1, h2⟩ := List.pairwise_cons.1 h
    have hd : List.Disjoint ((direct V e).filter new) ((directL V l).filter new) := by
      intro i hi hj
      obtain ⟨f, hf, hif⟩ := mem_directL.1 (List.mem_of_mem_filter hj)
      exact (h1 f hf).1 i (List.mem_dedup.2 hi) (direct_occ f i hif)
    have hn : newsL V new (e :: l) = news V new e ++ newsL V new l := by
      unfold newsL news
      rw [directL, List.filter_append, List.Disjoint.dedup_append hd]
    have hne : ∀ i ∈ newsL V new l, i ∉ occ V e := by
      intro i hi
      obtain ⟨hi1, hi2⟩ := List.mem_filter.1 (List.mem_dedup.1 hi)
      obtain ⟨f, hf, hif⟩ := mem_directL.1 hi1
      exact (h1 f hf).2 i (List.mem_dedup.2 (List.mem_filter.2 ⟨hif, hi2⟩))
    have hnl : ∀ i ∈ news V new e, i ∉ occL V l := by
      intro i hi hj
      obtain ⟨f, hf, hif⟩ := mem_occL.1 hj
      exact (h1 f hf).1 i hi hif
    rw [hn, sumOver_append]
    have step : ∀ ρ, sumOver V (newsL V new l) (ptProd V new (e :: l)) ρ = pt V new e ρ * (l.map fun e => val V new e ρ).prod := by
      intro ρ
      rw [← prod_apart l h2 ρ]
      exact sumOver_mul (newsL V new l) (pt_dep e) hne ρ
    rw [sumOver_congr _ step]
    rw [sumOver_mul' (s := occL V l) (news V new e) ?_ hnl ρ]
    · rfl
    · intro ρ ρ' hr
      exact congrArg List.prod (List.map_congr_left fun f hf => val_dep f ρ ρ' fun i hi => hr i (mem_occL.2 ⟨f, hf, hi⟩))

theorem val_prod (c : K) (l : List (Ex K L ι)) (ρ : ι → D) : val V new (.prod c l) ρ = c * sumOver V (newsL V new l) (ptProd V new l) ρ :=
  sumOver_smul _ _ _ _

theorem val_sum (l : List (Ex K L ι)) (ρ : ι → D) : val V new (.sum l) ρ = (l.map fun e => val V new e ρ).sum := by
  have : ∀ l : List (Ex K L ι), ptSum V new l ρ = (l.map fun e => val V new e ρ).sum := by
    intro l
    induction l with
    | nil => rfl
    | cons e l ih => simp only [ptSum, ih]; rfl
  exact this l

theorem ptProd_eq (l : List (Ex K L ι)) (ρ : ι → D) : ptProd V new l ρ = (l.map fun e => pt V new e ρ).prod := by
  induction l with
  | nil => rfl
  | cons e l ih => simp only [ptProd, ih]; rfl

theorem ptProd_append (a b : List (Ex K L ι)) (ρ : ι → D) : ptProd V new (a ++ b) ρ = ptProd V new a ρ * ptProd V new b ρ := by
  simp [ptProd_eq]

theorem pt_sum (l : List (Ex K L ι)) (ρ : ι → D) : pt V new (.sum l) ρ = (l.map fun e => val V new e ρ).sum := val_sum l ρ

theorem directL_append (a b : List (Ex K L ι)) : directL V (a ++ b) = directL V a ++ directL V b := by
  induction a with
  | nil => rfl
  | cons e a ih => simp [directL, ih]

theorem occL_append (a b : List (Ex K L ι)) : occL V (a ++ b) = occL V a ++ occL V b := by
  induction a with
  | nil => rfl
  | cons e a ih => simp [occL, ih]

section append

variable [DecidableEq K] [DecidableEq L]

mutual
theorem pAppend_pt (flat : Bool) (st : K × List (Ex K L ι)) : (e : Ex K L ι) →
    (∀ ρ, (pAppend flat st e).1 * ptProd V new (pAppend flat st e).2 ρ = st.1 * ptProd V new (st.2 ++ [e]) ρ) ∧
    directL V (pAppend flat st e).2 = directL V (st.2 ++ [e])
  | .const k => by
    simp only [pAppend, ptProd_append, directL_append, ptProd, directL, direct, pt]
    exact ⟨fun ρ => by ring, by simp⟩
  | .var v => ⟨fun _ => rfl, rfl⟩
  | .ten t => ⟨fun _ => rfl, rfl⟩
  | .sum l => ⟨fun _ => rfl, rfl⟩
  | .prod k l => by
    simp only [pAppend]
    split
    · obtain ⟨h1, h2⟩ := pAppendAll_pt flat (st.1 * k, st.2) l
      refine ⟨fun ρ => ?_, ?_⟩
      · rw [h1 ρ, ptProd_append, ptProd_append]
        simp only [ptProd, pt]
        ring
      · rw [h2, directL_append, directL_append]
        simp [directL, direct]
    · exact ⟨fun _ => rfl, rfl⟩
theorem pAppendAll_pt (flat : Bool) (st : K × List (Ex K L ι)) : (l : List (Ex K L ι)) →
    (∀ ρ, (pAppendAll flat st l).1 * ptProd V new (pAppendAll flat st l).2 ρ = st.1 * ptProd V new (st.2 ++ l) ρ) ∧
    directL V (pAppendAll flat st l).2 = directL V (st.2 ++ l)
  | [] => by simp [pAppendAll]
  | e :: l => by
    obtain ⟨h1, h2⟩ := pAppend_pt flat st e
    obtain ⟨h3, h4⟩ := pAppendAll_pt flat (pAppend flat st e) l
    simp only [pAppendAll]
    refine ⟨fun ρ => ?_, ?_⟩
    · rw [h3 ρ, ptProd_append, ← mul_assoc, h1 ρ, mul_assoc, ← ptProd_append]
      simp
    · rw [h4, directL_append, h2, ← directL_append]
      simp
end

mutual
theorem sAppend_val (st : List (Ex K L ι)) (ρ : ι → D) : (e : Ex K L ι) →
    val V new (.sum (sAppend st e)) ρ = val V new (.sum st) ρ + val V new e ρ
  | .const c => by
    simp only [sAppend]
    split
    · rename_i h
      subst h
      have : val V new (.const (0 : K) : Ex K L ι) ρ = 0 := rfl
      rw [this, add_zero]
    · simp [val_sum]
  | .var v => by simp [sAppend, val_sum]
  | .ten t => by simp [sAppend, val_sum]
  | .sum l => by
    simp only [sAppend]
    rw [sAppendAll_val st ρ l]
  | .prod c l => by
    simp only [sAppend]
    split
    · rename_i h
      subst h
      rw [val_prod, zero_mul, add_zero]
    · simp [val_sum]
theorem sAppendAll_val (st : List (Ex K L ι)) (ρ : ι → D) : (l : List (Ex K L ι)) →
    val V new (.sum (sAppendAll st l)) ρ = val V new (.sum st) ρ + val V new (.sum l) ρ
  | [] => by simp [sAppendAll, val_sum]
  | e :: l => by
    simp only [sAppendAll]
    rw [sAppendAll_val (sAppend st e) ρ l, sAppend_val st ρ e]
    simp only [val_sum, List.map_cons, List.sum_cons]
    ring
end

mutual
theorem pAppend_occ (flat : Bool) (st : K × List (Ex K L ι)) : (e : Ex K L ι) → occL V (pAppend flat st e).2 = occL V (st.2 ++ [e])
  | .const k => by simp [pAppend, occL_append, occL, occ]
  | .var v => rfl
  | .ten t => rfl
  | .sum l => rfl
  | .prod k l => by
    simp only [pAppend]
    split
    · rw [pAppendAll_occ flat (st.1 * k, st.2) l, occL_append, occL_append]
      simp [occL, occ]
    · rfl
theorem pAppendAll_occ (flat : Bool) (st : K × List (Ex K L ι)) : (l : List (Ex K L ι)) → occL V (pAppendAll flat st l).2 = occL V (st.2 ++ l)
  | [] => by simp [pAppendAll]
  | e :: l => by
    simp only [pAppendAll]
    rw [pAppendAll_occ flat (pAppend flat st e) l, occL_append, pAppend_occ flat st e, ← occL_append]
    simp
end

mutual
theorem sAppend_occ (st : List (Ex K L ι)) : (e : Ex K L ι) → ∀ i ∈ occL V (sAppend st e), i ∈ occL V st ∨ i ∈ occ V e
  | .const c, i, h => by
    simp only [sAppend] at h
    split at h
    · exact Or.inl h
    · rw [occL_append, List.mem_append] at h
      simpa [occL, occ] using h
  | .var v, i, h => by
    simp only [sAppend] at h
    rw [occL_append, List.mem_append] at h
    simpa [occL, occ] using h
  | .ten t, i, h => by
    simp only [sAppend] at h
    rw [occL_append, List.mem_append] at h
    simpa [occL] using h
  | .sum l, i, h => by
    simp only [sAppend] at h
    exact sAppendAll_occ st l i h
  | .prod c l, i, h => by
    simp only [sAppend] at h
    split at h
    · exact Or.inl h
    · rw [occL_append, List.mem_append] at h
      simpa [occL] using h
theorem sAppendAll_occ (st : List (Ex K L ι)) : (l : List (Ex K L ι)) → ∀ i ∈ occL V (sAppendAll st l), i ∈ occL V st ∨ i ∈ occL V l
  | [], i, h => Or.inl h
  | e :: l, i, h => by
    simp only [sAppendAll] at h
    rw [occL, List.mem_append]
    rcases sAppendAll_occ (sAppend st e) l i h with h | h
    · rcases sAppend_occ st e i h with h | h
      · exact Or.inl h
      · exact Or.inr (Or.inl h)
    · exact Or.inr (Or.inr h)
end

end append

end SeQuant.Rules
