import Verif.Replace.Model
import Mathlib.Tactic.Ring
import Mathlib.Tactic.Common
import Mathlib.Data.List.Nodup

/-!
# C120: replacing an atom by an expression
-/

namespace SeQuant.Replace

variable {K ι X : Type} [CommRing K]

/-! ## What is meant -/

/-- Values of tensors (from the values of the indices in bra, ket and aux) and of variables. -/
structure Interp (K X : Type) where
  ten : Nat → List X → List X → List X → K
  var : Nat → K

mutual
/-- The value of an expression for given values of all indices. -/
def val (I : Interp K X) (env : ι → X) : Ex K ι → K
  | .const c => c
  | .var v => I.var v
  | .tensor t => I.ten t.label (t.bra.map env) (t.ket.map env) (t.aux.map env)
  | .prod c fs => c * valProd I env fs
  | .sum ts => valSum I env ts
def valProd (I : Interp K X) (env : ι → X) : List (Ex K ι) → K
  | [] => 1
  | e :: l => val I env e * valProd I env l
def valSum (I : Interp K X) (env : ι → X) : List (Ex K ι) → K
  | [] => 0
  | e :: l => val I env e + valSum I env l
end

/-- The indices of `t` are replaced by those of `a` in the same slots. -/
def slotwise [DecidableEq ι] : List ι → List ι → ι → ι
  | x :: t, y :: a, i => if i = x then y else slotwise t a i
  | _, _, i => i

/-- A tensor, variable or constant. -/
def Simple : Ex K ι → Bool
  | .const _ => true
  | .var _ => true
  | .tensor _ => true
  | _ => false

mutual
/-- Sums of products of tensors, variables and constants. -/
def Plain : Ex K ι → Bool
  | .const _ => true
  | .var _ => true
  | .tensor _ => true
  | .prod _ fs => fs.all Simple
  | .sum ts => PlainL ts
def PlainL : List (Ex K ι) → Bool
  | [] => true
  | e :: l => Plain e && PlainL l
end

mutual
/-- All atoms below an expression satisfy `p`. -/
def AllAtoms (p : Ex K ι → Bool) : Ex K ι → Bool
  | .const c => p (.const c)
  | .var v => p (.var v)
  | .tensor t => p (.tensor t)
  | .prod c [] => p (.prod c [])
  | .prod _ (e :: l) => AllAtomsL p (e :: l)
  | .sum [] => p (.sum [])
  | .sum (e :: l) => AllAtomsL p (e :: l)
def AllAtomsL (p : Ex K ι → Bool) : List (Ex K ι) → Bool
  | [] => true
  | e :: l => AllAtoms p e && AllAtomsL p l
end

/-! ## Values -/

theorem valSum_append (I : Interp K X) (env : ι → X) (l m : List (Ex K ι)) : valSum I env (l ++ m) = valSum I env l + valSum I env m := by
  induction l with
  | nil => simp [valSum]
  | cons e l ih => simp only [List.cons_append, valSum, ih]; ring

theorem valProd_append (I : Interp K X) (env : ι → X) (l m : List (Ex K ι)) : valProd I env (l ++ m) = valProd I env l * valProd I env m := by
  induction l with
  | nil => simp [valProd]
  | cons e l ih => simp only [List.cons_append, valProd, ih]; ring

theorem val_addConst (I : Interp K X) (env : ι → X) (c : K) (l : List (Ex K ι)) : valSum I env (addConst c l) = valSum I env l + c := by
  induction l with
  | nil => simp [addConst, valSum, val]
  | cons e l ih =>
    cases e <;> simp only [addConst, valSum, val, ih] <;> ring

mutual
theorem val_sumAppend [DecidableEq K] (I : Interp K X) (env : ι → X) (acc : List (Ex K ι)) : ∀ e : Ex K ι,
    valSum I env (sumAppend acc e) = valSum I env acc + val I env e
  | .sum ts => by simp only [sumAppend, val]; exact val_sumAppendL I env acc ts
  | .const c => by
    simp only [sumAppend, val]
    split
    · next h => simp [h]
    · exact val_addConst I env c acc
  | .var v => by simp [sumAppend, valSum_append, valSum]
  | .tensor t => by simp [sumAppend, valSum_append, valSum]
  | .prod c fs => by
    simp only [sumAppend, Ex.isZero, decide_eq_true_eq]
    split
    · next h => simp [val, h]
    · simp [valSum_append, valSum]
theorem val_sumAppendL [DecidableEq K] (I : Interp K X) (env : ι → X) (acc : List (Ex K ι)) : ∀ l : List (Ex K ι),
    valSum I env (sumAppendL acc l) = valSum I env acc + valSum I env l
  | [] => by simp [sumAppendL, valSum]
  | e :: l => by
    simp only [sumAppendL, valSum]
    rw [val_sumAppendL I env (sumAppend acc e) l, val_sumAppend I env acc e]
    ring
end

theorem val_rename (I : Interp K X) (env : ι → X) (σ : ι → ι) (t : Tns ι) :
    val I env (.tensor (t.rename σ) : Ex K ι) = val I (env ∘ σ) (.tensor t : Ex K ι) := by
  simp [val, Tns.rename, List.map_map]

theorem transformFactors_val (I : Interp K X) (env : ι → X) (σ : ι → ι) (l : List (Ex K ι)) : ∀ (c : K) (acc : List (Ex K ι)), l.all Simple = true →
    ∃ e, transformFactors σ l c acc = some e ∧ val I env e = c * valProd I env acc * valProd I (env ∘ σ) l := by
  induction l with
  | nil => intro c acc _; exact ⟨_, rfl, by simp [val, valProd]⟩
  | cons x l ih =>
    intro c acc h
    rw [List.all_cons, Bool.and_eq_true] at h
    cases x with
    | const k =>
      obtain ⟨e, he, hv⟩ := ih (c * k) acc h.2
      refine ⟨e, he, ?_⟩
      rw [hv]
      simp only [valProd, val]
      ring
    | var v =>
      obtain ⟨e, he, hv⟩ := ih c (acc ++ [.var v]) h.2
      refine ⟨e, he, ?_⟩
      rw [hv, valProd_append]
      simp only [valProd, val]
      ring
    | tensor t =>
      obtain ⟨e, he, hv⟩ := ih c (acc ++ [.tensor (t.rename σ)]) h.2
      refine ⟨e, he, ?_⟩
      rw [hv, valProd_append]
      simp only [valProd, val_rename]
      ring
    | prod c fs => simp [Simple] at h
    | sum ts => simp [Simple] at h

mutual
/-- `transform_expr` renames. -/
theorem transform_val [DecidableEq K] (I : Interp K X) (env : ι → X) (σ : ι → ι) : ∀ e : Ex K ι, Plain e = true →
    ∃ e', transform σ e = some e' ∧ val I env e' = val I (env ∘ σ) e
  | .const c, _ => ⟨_, rfl, rfl⟩
  | .var v, _ => ⟨_, rfl, rfl⟩
  | .tensor t, _ => ⟨_, rfl, val_rename I env σ t⟩
  | .prod c fs, h => by
    obtain ⟨e, he, hv⟩ := transformFactors_val I env σ fs c [] (by simpa [Plain] using h)
    exact ⟨e, he, by rw [hv]; simp [val, valProd]⟩
  | .sum ts, h => by
    obtain ⟨l, hl, hv⟩ := transformTerms_val I env σ [] ts (by simpa [Plain] using h)
    refine ⟨.sum l, by rw [transform, hl]; rfl, ?_⟩
    simp only [val, hv, valSum, zero_add]
theorem transformTerms_val [DecidableEq K] (I : Interp K X) (env : ι → X) (σ : ι → ι) (acc : List (Ex K ι)) : ∀ l : List (Ex K ι), PlainL l = true →
    ∃ l', transformTerms σ acc l = some l' ∧ valSum I env l' = valSum I env acc + valSum I (env ∘ σ) l
  | [], _ => ⟨acc, rfl, by simp [valSum]⟩
  | e :: l, h => by
    rw [PlainL, Bool.and_eq_true] at h
    obtain ⟨e', he, hv⟩ := transform_val I env σ e h.1
    obtain ⟨l', hl, hw⟩ := transformTerms_val I env σ (sumAppend acc e') l h.2
    refine ⟨l', by rw [transformTerms, he]; exact hl, ?_⟩
    rw [hw, val_sumAppend, hv, valSum]
    ring
end

mutual
theorem val_congr (I : Interp K X) {env env' : ι → X} : ∀ e : Ex K ι, (∀ i ∈ used e, env i = env' i) → val I env e = val I env' e
  | .const c, _ => rfl
  | .var v, _ => rfl
  | .tensor t, h => by
    have hb : t.bra.map env = t.bra.map env' := List.map_congr_left fun i hi => h i (by simp [used, Tns.slots, hi])
    have hk : t.ket.map env = t.ket.map env' := List.map_congr_left fun i hi => h i (by simp [used, Tns.slots, hi])
    have ha : t.aux.map env = t.aux.map env' := List.map_congr_left fun i hi => h i (by simp [used, Tns.slots, hi])
    simp only [val, hb, hk, ha]
  | .prod c fs, h => by simp only [val]; rw [(valL_congr I fs fun i hi => h i (by simpa [used] using hi)).1]
  | .sum ts, h => by simp only [val]; rw [(valL_congr I ts fun i hi => h i (by simpa [used] using hi)).2]
theorem valL_congr (I : Interp K X) {env env' : ι → X} : ∀ l : List (Ex K ι), (∀ i ∈ usedL l, env i = env' i) →
    valProd I env l = valProd I env' l ∧ valSum I env l = valSum I env' l
  | [], _ => ⟨rfl, rfl⟩
  | e :: l, h => by
    have h1 := val_congr I e fun i hi => h i (by simp [usedL, hi])
    have h2 := valL_congr I l fun i hi => h i (by simp [usedL, hi])
    simp only [valProd, valSum, h1, h2.1, h2.2, and_self]
end

/-! ## The map of indices -/

theorem lookup_unique [DecidableEq ι] {i y : ι} : ∀ m : List (ι × ι), (i, y) ∈ m → (∀ y', (i, y') ∈ m → y' = y) → m.lookup i = some y
  | [], h, _ => by simp at h
  | (j, z) :: m, h, hu => by
    rw [List.lookup_cons]
    by_cases hj : i = j
    · subst hj
      simp [hu z (by simp)]
    · have : (i == j) = false := by simp [hj]
      rw [this]
      refine lookup_unique m ?_ fun y' hy' => hu y' (by simp [hy'])
      rcases List.mem_cons.1 h with e | h
      · exact absurd (congrArg Prod.fst e) hj
      · exact h

theorem lookup_none [DecidableEq ι] {i : ι} : ∀ m : List (ι × ι), (∀ y, (i, y) ∉ m) → m.lookup i = none
  | [], _ => rfl
  | (j, z) :: m, h => by
    rw [List.lookup_cons]
    by_cases hj : i = j
    · subst hj
      exact absurd (List.mem_cons_self) (h z)
    · have : (i == j) = false := by simp [hj]
      rw [this]
      exact lookup_none m fun y hy => h y (by simp [hy])

theorem slotwise_notMem [DecidableEq ι] {i : ι} : ∀ t a : List ι, i ∉ t → slotwise t a i = i
  | [], _, _ => by cases ‹List ι› <;> rfl
  | _ :: _, [], _ => rfl
  | x :: t, y :: a, h => by
    rw [List.mem_cons, not_or] at h
    rw [slotwise, if_neg h.1, slotwise_notMem t a h.2]

theorem slotwise_get [DecidableEq ι] {i y : ι} : ∀ (t a : List ι) (k : Nat), t.Nodup → t[k]? = some i → a[k]? = some y → slotwise t a i = y
  | [], _, k, _, h, _ => by simp at h
  | _ :: _, [], k, _, _, h => by simp at h
  | x :: t, z :: a, 0, _, h, h' => by
    simp only [List.getElem?_cons_zero, Option.some.injEq] at h h'
    rw [slotwise, if_pos h.symm, h']
  | x :: t, z :: a, k + 1, hn, h, h' => by
    simp only [List.getElem?_cons_succ] at h h'
    have hi : i ∈ t := List.mem_of_getElem? h
    have hx : i ≠ x := fun e => (List.nodup_cons.1 hn).1 (e ▸ hi)
    rw [slotwise, if_neg hx]
    exact slotwise_get t a k (List.nodup_cons.1 hn).2 h h'

theorem mem_replacements [DecidableEq ι] {mapping : List Nat} {t a : List ι} {x y : ι} :
    (x, y) ∈ replacements mapping t a ↔ x ≠ y ∧ ∃ k ∈ mapping, t[k]? = some x ∧ a[k]? = some y := by
  rw [replacements, List.mem_filterMap]
  constructor
  · rintro ⟨k, hk, h⟩
    split at h
    · next u v hu hv =>
      split at h
      · cases h
      · next hne =>
        simp only [Option.some.injEq, Prod.mk.injEq] at h
        obtain ⟨rfl, rfl⟩ := h
        exact ⟨hne, k, hk, hu, hv⟩
    · cases h
  · rintro ⟨hne, k, hk, hu, hv⟩
    exact ⟨k, hk, by simp [hu, hv, hne]⟩

omit [CommRing K] in
/-- On the indices of the replacement the map is the exchange of the indices slot by slot. -/
theorem subst_eq [DecidableEq ι] {t : Tns ι} {a : List ι} {r : Ex K ι} (hn : t.slots.Nodup) (hl : a.length = t.slots.length) {i : ι} (hi : i ∈ used r) :
    subst (replacements (indexMapping (.tensor t) r) t.slots a) i = slotwise t.slots a i := by
  by_cases hit : i ∈ t.slots
  · obtain ⟨k, hk⟩ := List.mem_iff_getElem?.1 hit
    have lk : k < t.slots.length := (List.getElem?_eq_some_iff.1 hk).1
    have ak : a[k]? = some (a[k]'(hl ▸ lk)) := List.getElem?_eq_getElem _
    rw [slotwise_get t.slots a k hn hk ak]
    have huniq : ∀ y', (i, y') ∈ replacements (indexMapping (.tensor t) r) t.slots a → y' = a[k]'(hl ▸ lk) := by
      intro y' hy'
      obtain ⟨-, k', -, h1, h2⟩ := mem_replacements.1 hy'
      have e : k' = k := by
        have l1 := (List.getElem?_eq_some_iff.1 h1)
        obtain ⟨l1, e1⟩ := l1
        obtain ⟨l2, e2⟩ := List.getElem?_eq_some_iff.1 hk
        exact (List.Nodup.getElem_inj_iff hn).1 (e1.trans e2.symm)
      subst e
      rw [ak] at h2
      exact (Option.some.inj h2).symm
    by_cases he : i = a[k]'(hl ▸ lk)
    · rw [subst, lookup_none, Option.getD_none, ← he]
      intro y hy
      rw [List.mem_reverse] at hy
      exact (mem_replacements.1 hy).1 (he.trans (huniq y hy).symm)
    · rw [subst, lookup_unique (y := a[k]'(hl ▸ lk)), Option.getD_some]
      · rw [List.mem_reverse, mem_replacements]
        refine ⟨he, k, ?_, hk, ak⟩
        rw [indexMapping, List.mem_filter]
        exact ⟨List.mem_range.2 lk, by rw [hk]; simp [hi]⟩
      · intro y' hy'
        exact huniq y' (List.mem_reverse.1 hy')
  · rw [slotwise_notMem _ _ hit, subst, lookup_none, Option.getD_none]
    intro y hy
    obtain ⟨-, k, -, h1, -⟩ := mem_replacements.1 (List.mem_reverse.1 hy)
    exact hit (List.mem_of_getElem? h1)

omit [CommRing K] in
/-- If no slot is mapped then the replacement has no index of the target. -/
theorem mapping_empty [DecidableEq ι] {t : Tns ι} {r : Ex K ι} (h : (indexMapping (.tensor t) r).isEmpty = true) {i : ι} (hi : i ∈ used r) :
    i ∉ t.slots := by
  intro hit
  obtain ⟨k, hk⟩ := List.mem_iff_getElem?.1 hit
  have lk : k < t.slots.length := (List.getElem?_eq_some_iff.1 hk).1
  have : k ∈ indexMapping (.tensor t) r := by
    rw [indexMapping, List.mem_filter]
    exact ⟨List.mem_range.2 lk, by rw [hk]; simp [hi]⟩
  rw [List.isEmpty_iff.1 h] at this
  simp at this

/-! ## Visiting -/

mutual
theorem visit_val [DecidableEq K] [DecidableEq ι] (I : Interp K X) (env : ι → X) (f : Ex K ι → Option (Ex K ι))
    (hf : ∀ e, e.isAtom = true → ∃ e', f e = some e' ∧ val I env e' = val I env e) :
    ∀ e : Ex K ι, ∃ e', visit f e = some e' ∧ val I env e' = val I env e
  | .const c => hf _ rfl
  | .var v => hf _ rfl
  | .tensor t => hf _ rfl
  | .prod c [] => hf _ rfl
  | .prod c (e :: l) => by
    obtain ⟨l', hl, h1, -⟩ := visitL_val I env f hf (e :: l)
    exact ⟨.prod c l', by rw [visit, hl]; rfl, by simp only [val, h1]⟩
  | .sum [] => hf _ rfl
  | .sum (e :: l) => by
    obtain ⟨l', hl, -, h2⟩ := visitL_val I env f hf (e :: l)
    exact ⟨.sum l', by rw [visit, hl]; rfl, by simp only [val, h2]⟩
theorem visitL_val [DecidableEq K] [DecidableEq ι] (I : Interp K X) (env : ι → X) (f : Ex K ι → Option (Ex K ι))
    (hf : ∀ e, e.isAtom = true → ∃ e', f e = some e' ∧ val I env e' = val I env e) :
    ∀ l : List (Ex K ι), ∃ l', visitL f l = some l' ∧ valProd I env l' = valProd I env l ∧ valSum I env l' = valSum I env l
  | [] => ⟨[], rfl, rfl, rfl⟩
  | e :: l => by
    obtain ⟨e', he, hv⟩ := visit_val I env f hf e
    obtain ⟨l', hl, h1, h2⟩ := visitL_val I env f hf l
    exact ⟨e' :: l', by rw [visitL, he, hl], by simp only [valProd, hv, h1], by simp only [valSum, hv, h2]⟩
end

theorem visitTop_val [DecidableEq K] [DecidableEq ι] (I : Interp K X) (env : ι → X) (f : Ex K ι → Option (Ex K ι))
    (hf : ∀ e, e.isAtom = true → ∃ e', f e = some e' ∧ val I env e' = val I env e) (e : Ex K ι) :
    ∃ e', visitTop f e = some e' ∧ val I env e' = val I env e := by
  cases e with
  | prod c fs =>
    obtain ⟨l', hl, h1, -⟩ := visitL_val I env f hf fs
    exact ⟨.prod c l', by rw [visitTop, hl]; rfl, by simp only [val, h1]⟩
  | sum ts =>
    obtain ⟨l', hl, -, h2⟩ := visitL_val I env f hf ts
    exact ⟨.sum l', by rw [visitTop, hl]; rfl, by simp only [val, h2]⟩
  | const c => exact ⟨_, rfl, rfl⟩
  | var v => exact ⟨_, rfl, rfl⟩
  | tensor t => exact ⟨_, rfl, rfl⟩

variable [DecidableEq K] [DecidableEq ι]

/-! ## The theorems -/

/-- **C120.** If the replacement is the definition of the target (for the indices of each match), then replacing the target does not change
the value; the expression itself must not be a match. -/
theorem replace_value_partial [Nonempty X] (I : Interp K X) (cmp : Ex K ι → Ex K ι → Bool) (e r : Ex K ι) (t : Tns ι) (hn : t.slots.Nodup) (hr : Plain r = true)
    (hcmp : ∀ x, cmp x (.tensor t) = true → ∃ a, x = .tensor a ∧ a.slots.length = t.slots.length)
    (hdef : ∀ a : Tns ι, cmp (.tensor a) (.tensor t) = true → ∀ env : ι → X,
      val I env (.tensor a : Ex K ι) = val I (env ∘ slotwise t.slots a.slots) r)
    (htop : cmp e (.tensor t) = false) :
    ∃ e', replace cmp e (.tensor t) r = some e' ∧ ∀ env : ι → X, val I env e' = val I env e := by
  have hv : ∀ env : ι → X, ∀ x : Ex K ι, x.isAtom = true →
      ∃ x', visitor cmp (.tensor t) r x = some x' ∧ val I env x' = val I env x := by
    intro env x _
    unfold visitor
    by_cases hx : cmp x (.tensor t) = true
    · rw [if_pos hx]
      obtain ⟨a, rfl, hl⟩ := hcmp x hx
      by_cases hm : (indexMapping (.tensor t) r).isEmpty = true
      · rw [if_pos hm]
        refine ⟨r, rfl, ?_⟩
        rw [hdef a hx env]
        refine val_congr I r fun i hi => ?_
        rw [Function.comp_apply, slotwise_notMem _ _ (mapping_empty hm hi)]
      · rw [if_neg hm]
        simp only
        rw [if_pos hl]
        obtain ⟨r', h1, h2⟩ := transform_val I env (subst (replacements (indexMapping (.tensor t) r) t.slots a.slots)) r hr
        refine ⟨r', h1, ?_⟩
        rw [h2, hdef a hx env]
        refine val_congr I r fun i hi => ?_
        rw [Function.comp_apply, Function.comp_apply, subst_eq hn hl hi]
    · rw [if_neg hx]
      exact ⟨x, rfl, rfl⟩
  have e0 : replace cmp e (.tensor t) r = visitTop (visitor cmp (.tensor t) r) e := by simp [replace, Ex.isAtom, htop]
  rw [e0]
  obtain ⟨x0⟩ := ‹Nonempty X›
  obtain ⟨e', h1, -⟩ := visitTop_val I (fun _ => x0) _ (hv fun _ => x0) e
  refine ⟨e', h1, fun env => ?_⟩
  obtain ⟨e'', h2, h3⟩ := visitTop_val I env _ (hv env) e
  rw [h1] at h2
  cases h2
  exact h3

/-- **C120.** If the target is not a tensor, any match may be the expression itself. -/
theorem replace_scalar_value (I : Interp K X) (env : ι → X) (cmp : Ex K ι → Ex K ι → Bool) (e r target : Ex K ι) (ha : target.isAtom = true)
    (ht : ∀ t, target ≠ .tensor t) (hdef : ∀ x, cmp x target = true → val I env x = val I env r) :
    ∃ e', replace cmp e target r = some e' ∧ val I env e' = val I env e := by
  have hm : indexMapping target r = [] := by
    cases target with
    | tensor t => exact absurd rfl (ht t)
    | _ => rfl
  unfold replace
  rw [ha]
  simp only [Bool.not_true, Bool.false_eq_true, if_false]
  by_cases hx : cmp e target = true
  · rw [if_pos hx]
    exact ⟨r, rfl, (hdef e hx).symm⟩
  · rw [if_neg hx]
    refine visitTop_val I env _ (fun x _ => ?_) e
    unfold visitor
    rw [hm]
    by_cases hx : cmp x target = true
    · rw [if_pos hx]
      exact ⟨r, rfl, (hdef x hx).symm⟩
    · rw [if_neg hx]
      exact ⟨x, rfl, rfl⟩

mutual
theorem visit_none (f : Ex K ι → Option (Ex K ι)) (p : Ex K ι → Bool) (hf : ∀ e, p e = true → f e = some e) :
    ∀ e : Ex K ι, AllAtoms p e = true → visit f e = some e
  | .const c, h => hf _ (by simpa [AllAtoms] using h)
  | .var v, h => hf _ (by simpa [AllAtoms] using h)
  | .tensor t, h => hf _ (by simpa [AllAtoms] using h)
  | .prod c [], h => hf _ (by simpa [AllAtoms] using h)
  | .prod c (e :: l), h => by rw [visit, visitL_none f p hf (e :: l) (by simpa [AllAtoms] using h)]; rfl
  | .sum [], h => hf _ (by simpa [AllAtoms] using h)
  | .sum (e :: l), h => by rw [visit, visitL_none f p hf (e :: l) (by simpa [AllAtoms] using h)]; rfl
theorem visitL_none (f : Ex K ι → Option (Ex K ι)) (p : Ex K ι → Bool) (hf : ∀ e, p e = true → f e = some e) :
    ∀ l : List (Ex K ι), AllAtomsL p l = true → visitL f l = some l
  | [], _ => rfl
  | e :: l, h => by
    rw [AllAtomsL, Bool.and_eq_true] at h
    rw [visitL, visit_none f p hf e h.1, visitL_none f p hf l h.2]
end

/-- **C120.** Nothing happens to an expression in which nothing matches. -/
theorem replace_none (cmp : Ex K ι → Ex K ι → Bool) (e r target : Ex K ι) (ha : target.isAtom = true)
    (h : AllAtoms (fun x => !cmp x target) e = true) (htop : cmp e target = false) : replace cmp e target r = some e := by
  have hf : ∀ x, (!cmp x target) = true → visitor cmp target r x = some x := by
    intro x hx
    unfold visitor
    rw [if_neg (by simpa using hx)]
  unfold replace
  rw [ha, htop]
  simp only [Bool.not_true, Bool.false_eq_true, if_false]
  cases e with
  | prod c fs => cases fs with
    | nil => rfl
    | cons x l => rw [visitTop, visitL_none _ _ hf (x :: l) (by simpa [AllAtoms] using h)]; rfl
  | sum ts => cases ts with
    | nil => rfl
    | cons x l => rw [visitTop, visitL_none _ _ hf (x :: l) (by simpa [AllAtoms] using h)]; rfl
  | _ => rfl

omit [CommRing K] [DecidableEq K] in
/-- The comparator of the tests fulfils the hypothesis of `replace_value_partial`. -/
theorem blockEq_slots {S : Type} [DecidableEq S] (space : ι → S) (eqv : Ex K ι → Ex K ι → Bool) (t : Tns ι)
    (heq : ∀ x, eqv x (.tensor t) = true → ∃ a, x = .tensor a) (x : Ex K ι) (h : blockEq space eqv x (.tensor t) = true) :
    ∃ a, x = .tensor a ∧ a.slots.length = t.slots.length := by
  cases x with
  | tensor a =>
    simp only [blockEq, Bool.and_eq_true, decide_eq_true_eq] at h
    exact ⟨a, rfl, h.1.2⟩
  | const c => obtain ⟨a, ha⟩ := heq _ h; cases ha
  | var v => obtain ⟨a, ha⟩ := heq _ h; cases ha
  | prod c fs => obtain ⟨a, ha⟩ := heq _ h; cases ha
  | sum ts => obtain ⟨a, ha⟩ := heq _ h; cases ha

omit [CommRing K] [DecidableEq K] in
/-- **C120.** The comparator of the tests finds two tensors equal exactly if their labels and the spaces of their slots, one by one, are. -/
theorem block_match {S : Type} [DecidableEq S] (space : ι → S) (eqv : Ex K ι → Ex K ι → Bool) (a t : Tns ι) :
    blockEq space eqv (.tensor a) (.tensor t) = true ↔ a.label = t.label ∧ a.slots.map space = t.slots.map space := by
  simp only [blockEq, Bool.and_eq_true, decide_eq_true_eq]
  constructor
  · rintro ⟨⟨h1, _⟩, h2⟩
    exact ⟨h1, h2⟩
  · rintro ⟨h1, h2⟩
    exact ⟨⟨h1, by simpa using congrArg List.length h2⟩, h2⟩

example : blockEq (K := Int) (fun i : Nat => i % 2) (fun _ _ => false) (.tensor ⟨0, [3], [4], []⟩) (.tensor ⟨0, [1], [2], []⟩) = true ∧
    blockEq (K := Int) (fun i : Nat => i % 2) (fun _ _ => false) (.tensor ⟨0, [3], [4], []⟩) (.tensor ⟨0, [2], [1], []⟩) = false := by
  refine ⟨(block_match _ _ _ _).2 ⟨rfl, rfl⟩, Bool.eq_false_iff.2 fun h => ?_⟩
  exact absurd ((block_match _ _ _ _).1 h).2 (by decide)

/-- **C120.** A composite target is refused. -/
theorem composite_refused (cmp : Ex K ι → Ex K ι → Bool) (e r : Ex K ι) (c : K) (x : Ex K ι) (l : List (Ex K ι)) :
    replace cmp e (.prod c (x :: l)) r = none ∧ replace cmp e (.sum (x :: l)) r = none := ⟨rfl, rfl⟩

/-- **C120.** If the expression itself matches, it becomes the replacement, whatever its indices are. -/
theorem whole_match (cmp : Ex K ι → Ex K ι → Bool) (e r target : Ex K ι) (ha : target.isAtom = true) (h : cmp e target = true) :
    replace cmp e target r = some r := by
  unfold replace
  rw [ha, h]
  rfl

/-! ## Witnesses -/

/-- Compares labels and spaces of tensors; all indices are in one space here. -/
def oneSpace : Ex Int Nat → Ex Int Nat → Bool := blockEq (fun _ => ()) fun _ _ => false

/-- A tensor with one index in bra and ket. -/
def t1 (label b k : Nat) : Ex Int Nat := .tensor ⟨label, [b], [k], []⟩

/-- The example of the documentation: `t{a1;a2} -> r{a1;a5}` in `var * t{a3;a4}` gives `var * r{a3;a5}`. -/
example : replace oneSpace (.prod 1 [.var 0, t1 0 3 4]) (t1 0 1 2) (t1 1 1 5) = some (.prod 1 [.var 0, t1 1 3 5]) := rfl

/-- Two matches in a sum of products, with a replacement that is a sum. -/
example : replace oneSpace (.sum [.prod 2 [t1 0 3 4, t1 0 4 3], t1 2 6 7]) (t1 0 1 2) (.sum [t1 1 2 1, .prod 3 [t1 1 1 2]]) =
    some (.sum [.prod 2 [.sum [t1 1 4 3, .prod 3 [t1 1 3 4]], .sum [t1 1 3 4, .prod 3 [t1 1 4 3]]], t1 2 6 7]) := rfl

/-- **C120.** The value changes if the expression itself is the match: `t{a3;a4}` becomes `r{a1;a2}` although `r{a1;a2}` defines `t{a1;a2}`. -/
theorem whole_match_wrong : ∃ I : Interp Int Nat,
    (∀ a : Tns Nat, oneSpace (.tensor a) (t1 0 1 2) = true → ∀ env : Nat → Nat,
      val I env (.tensor a : Ex Int Nat) = val I (env ∘ slotwise [1, 2] a.slots) (t1 1 1 2)) ∧
    ∃ e', replace oneSpace (t1 0 3 4) (t1 0 1 2) (t1 1 1 2) = some e' ∧ val I id e' ≠ val I id (t1 0 3 4) := by
  refine ⟨⟨fun _ b k x => ((b ++ k ++ x).headD 0 : Nat), fun _ => 0⟩, ?_, t1 1 1 2, rfl, by decide⟩
  intro a ha env
  simp only [oneSpace, blockEq, t1, Bool.and_eq_true, decide_eq_true_eq] at ha
  have h2 : a.slots.length = 2 := ha.1.2
  obtain ⟨x, y, hxy⟩ := List.length_eq_two.1 h2
  have e1 : a.bra.map env ++ a.ket.map env ++ a.aux.map env = [env x, env y] := by
    rw [← List.map_append, ← List.map_append]
    have : a.bra ++ a.ket ++ a.aux = [x, y] := hxy
    rw [this]
    rfl
  simp only [val, t1, e1, hxy]
  rfl

/-- **C120.** Summation indices of the replacement are not renamed: in `f{a3;a4} t{a4;a3}` with `t{a1;a2} -> g{a1;a3} h{a3;a2}` the index `a3`
stands in four slots afterwards. -/
theorem capture : ∃ e', replace oneSpace (.prod 1 [t1 2 3 4, t1 0 4 3]) (t1 0 1 2) (.prod 1 [t1 3 1 3, t1 4 3 2]) = some e' ∧
    (used e').count 3 = 4 ∧ (used (.prod 1 [t1 2 3 4, t1 0 4 3] : Ex Int Nat)).count 3 = 2 :=
  ⟨.prod 1 [t1 2 3 4, .prod 1 [t1 3 4 3, t1 4 3 3]], rfl, by decide, by decide⟩

/-- **C120.** A product with a sum in it is refused as replacement if it has an index of the target. -/
theorem nested_refused : replace oneSpace (.prod 1 [.var 0, t1 0 3 4]) (t1 0 1 2) (.prod 1 [t1 1 1 2, .sum [.var 1, .var 2]]) = none ∧
    replace oneSpace (.prod 1 [.var 0, t1 0 3 4]) (t1 0 1 2) (.prod 1 [t1 1 8 9, .sum [.var 1, .var 2]]) =
      some (.prod 1 [.var 0, .prod 1 [t1 1 8 9, .sum [.var 1, .var 2]]]) := ⟨rfl, rfl⟩

/-- **C120.** The comparator does not look at the distribution of the slots over bra, ket and aux. -/
theorem rank_ignored : replace oneSpace (.prod 1 [.var 0, .tensor ⟨0, [3, 4], [], []⟩]) (t1 0 1 2) (t1 1 1 2) = some (.prod 1 [.var 0, t1 1 3 4]) := rfl

/-! ## Results -/

/-- **C120.** After a replacement the indices of a result are the unpaired indices of its expression. -/
theorem result_groups (cmp : Ex K ι → Ex K ι → Bool) (r r' : Res K ι) (target repl : Ex K ι) (h : replaceRes cmp r target repl = some r') :
    replace cmp r.expr target repl = some r'.expr ∧ Optimize.uniqExpr (toU r'.expr) = some r'.groups := by
  unfold replaceRes at h
  split at h
  · cases h
  · next e he =>
    split at h
    · cases h
    · next g hg =>
      split at h
      · next hgr =>
        cases h
        exact ⟨he, by rw [hg, hgr]⟩
      · cases h
        exact ⟨he, hg⟩

/-- **C120.** A replacement that does nothing exchanges the indices of a result: `R{a2,a1} = t{a1,a2}` becomes `R{a1,a2} = t{a1,a2}`. -/
theorem result_reordered : replaceRes oneSpace ⟨⟨[2, 1], [], []⟩, .tensor ⟨0, [1, 2], [], []⟩⟩ (.var 7) (.var 8) =
    some ⟨⟨[1, 2], [], []⟩, .tensor ⟨0, [1, 2], [], []⟩⟩ := rfl

/-- **C120.** It removes the indices of `R{a1;i2} = A{i2;a1} t{a1;i2}`, where the indices of the antisymmetrizer pair up with the others. -/
theorem result_emptied : replaceRes oneSpace ⟨⟨[1], [2], []⟩, .prod 1 [t1 9 2 1, t1 0 1 2]⟩ (.var 7) (.var 8) =
    some ⟨⟨[], [], []⟩, .prod 1 [t1 9 2 1, t1 0 1 2]⟩ := rfl

end SeQuant.Replace
