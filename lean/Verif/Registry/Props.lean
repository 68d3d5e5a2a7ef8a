import Verif.Registry.Spec

/-!
# C106: the registry of operators is a finite function
-/

namespace SeQuant.Registry

variable {α : Type} [LinearOrder α]

/-! ### Maps -/

/-- Keys increase. -/
def Inc {β : Type} (m : List (α × β)) : Prop := m.Pairwise fun x y => x.1 < y.1

section Maps

variable {β : Type}

theorem find_none_of_lt (k : α) (m : List (α × β)) (h : ∀ x ∈ m, k < x.1) : find k m = none := by
  induction m with
  | nil => rfl
  | cons a m ih =>
    have h1 : k < a.1 := h a (by simp)
    rw [find, if_neg (ne_of_lt h1)]
    exact ih fun x hx => h x (List.mem_cons_of_mem _ hx)

theorem find_emplace (k l : α) (v : β) (m : List (α × β)) (hm : Inc m) :
    find l (emplace k v m) = if l = k then some ((find k m).getD v) else find l m := by
  induction m with
  | nil => by_cases h : l = k <;> simp [emplace, find, h]
  | cons a m ih =>
    obtain ⟨x, w⟩ := a
    have hm' := List.pairwise_cons.1 hm
    simp only [emplace]
    split
    · rename_i hlt
      by_cases h : l = k
      · subst h
        have : find l ((x, w) :: m) = none := find_none_of_lt l _ (by
          intro y hy
          rcases List.mem_cons.1 hy with rfl | hy
          · exact hlt
          · exact lt_trans hlt (hm'.1 y hy))
        rw [this]
        simp [find]
      · simp [find, h]
    · split
      · rename_i he
        subst he
        by_cases h : l = k <;> simp [find, h]
      · rename_i hne
        by_cases h : l = x
        · subst h
          simp [find, Ne.symm hne]
        · simp only [find, if_neg h, ih hm'.2, if_neg hne]

theorem mem_emplace (k : α) (v : β) (m : List (α × β)) (y : α × β) (h : y ∈ emplace k v m) : y = (k, v) ∨ y ∈ m := by
  induction m with
  | nil => simpa [emplace] using h
  | cons a m ih =>
    obtain ⟨x, w⟩ := a
    simp only [emplace] at h
    split at h
    · simpa using h
    · split at h
      · exact Or.inr h
      · rcases List.mem_cons.1 h with rfl | h
        · simp
        · rcases ih h with h | h
          · exact Or.inl h
          · exact Or.inr (List.mem_cons_of_mem _ h)

theorem inc_emplace (k : α) (v : β) (m : List (α × β)) (hm : Inc m) : Inc (emplace k v m) := by
  induction m with
  | nil => simp [emplace, Inc]
  | cons a m ih =>
    obtain ⟨x, w⟩ := a
    have hm' := List.pairwise_cons.1 hm
    simp only [emplace]
    split
    · rename_i hlt
      refine List.pairwise_cons.2 ⟨fun y hy => ?_, hm⟩
      rcases List.mem_cons.1 hy with rfl | hy
      · exact hlt
      · exact lt_trans hlt (hm'.1 y hy)
    · split
      · exact hm
      · rename_i h1 h2
        refine List.pairwise_cons.2 ⟨fun y hy => ?_, ih hm'.2⟩
        rcases mem_emplace k v m y hy with rfl | hy
        · exact lt_of_le_of_ne (not_lt.1 h1) (Ne.symm h2)
        · exact hm'.1 y hy

theorem find_insertOrAssign (k l : α) (v : β) (m : List (α × β)) :
    find l (insertOrAssign k v m) = if l = k then some v else find l m := by
  induction m with
  | nil => by_cases h : l = k <;> simp [insertOrAssign, find, h]
  | cons a m ih =>
    obtain ⟨x, w⟩ := a
    simp only [insertOrAssign]
    split
    · by_cases h : l = k <;> simp [find, h]
    · split
      · rename_i he
        subst he
        by_cases h : l = k <;> simp [find, h]
      · rename_i hne
        by_cases h : l = x
        · subst h
          simp [find, Ne.symm hne]
        · simp only [find, if_neg h, ih]

theorem mem_insertOrAssign (k : α) (v : β) (m : List (α × β)) (y : α × β) (h : y ∈ insertOrAssign k v m) : y.1 = k ∨ y ∈ m := by
  induction m with
  | nil => left; simp [insertOrAssign] at h; rw [h]
  | cons a m ih =>
    obtain ⟨x, w⟩ := a
    simp only [insertOrAssign] at h
    split at h
    · rcases List.mem_cons.1 h with rfl | h
      · exact Or.inl rfl
      · exact Or.inr h
    · split at h
      · rename_i he
        rcases List.mem_cons.1 h with rfl | h
        · exact Or.inl he.symm
        · exact Or.inr (List.mem_cons_of_mem _ h)
      · rcases List.mem_cons.1 h with rfl | h
        · simp
        · rcases ih h with h | h
          · exact Or.inl h
          · exact Or.inr (List.mem_cons_of_mem _ h)

theorem inc_insertOrAssign (k : α) (v : β) (m : List (α × β)) (hm : Inc m) : Inc (insertOrAssign k v m) := by
  induction m with
  | nil => simp [insertOrAssign, Inc]
  | cons a m ih =>
    obtain ⟨x, w⟩ := a
    have hm' := List.pairwise_cons.1 hm
    simp only [insertOrAssign]
    split
    · rename_i hlt
      refine List.pairwise_cons.2 ⟨fun y hy => ?_, hm⟩
      rcases List.mem_cons.1 hy with rfl | hy
      · exact hlt
      · exact lt_trans hlt (hm'.1 y hy)
    · split
      · exact List.pairwise_cons.2 hm'
      · rename_i h1 h2
        refine List.pairwise_cons.2 ⟨fun y hy => ?_, ih hm'.2⟩
        rcases mem_insertOrAssign k v m y hy with hy | hy
        · rw [hy]
          exact lt_of_le_of_ne (not_lt.1 h1) (Ne.symm h2)
        · exact hm'.1 y hy

theorem find_erase (k l : α) (m : List (α × β)) : find l (erase k m) = if l = k then none else find l m := by
  induction m with
  | nil => simp [erase, find]
  | cons a m ih =>
    obtain ⟨x, w⟩ := a
    unfold erase at ih ⊢
    rw [List.filter_cons]
    by_cases hx : x = k
    · subst hx
      simp only [ne_eq, not_true_eq_false, decide_false, Bool.false_eq_true, if_false]
      rw [show (fun x_1 : α × β => decide ¬x_1.1 = x) = fun x_1 : α × β => decide (x_1.1 ≠ x) from rfl, ih]
      by_cases h : l = x <;> simp [find, h]
    · simp only [ne_eq, hx, not_false_eq_true, decide_true, if_true, find]
      rw [show (fun x_1 : α × β => decide ¬x_1.1 = k) = fun x_1 : α × β => decide (x_1.1 ≠ k) from rfl, ih]
      by_cases h : l = x
      · subst h
        simp [hx]
      · simp [h]

theorem inc_erase (k : α) (m : List (α × β)) (hm : Inc m) : Inc (erase k m) := hm.sublist List.filter_sublist

theorem inc_ext (m m' : List (α × β)) (hm : Inc m) (hm' : Inc m') (h : ∀ l, find l m = find l m') : m = m' := by
  induction m generalizing m' with
  | nil =>
    cases m' with
    | nil => rfl
    | cons b m' =>
      have := h b.1
      simp [find] at this
  | cons a m ih =>
    cases m' with
    | nil =>
      have := h a.1
      simp [find] at this
    | cons b m' =>
      have p := List.pairwise_cons.1 hm
      have p' := List.pairwise_cons.1 hm'
      have key : a.1 = b.1 := by
        rcases lt_trichotomy a.1 b.1 with hl | hl | hl
        · have := h a.1
          rw [find_none_of_lt a.1 (b :: m')] at this
          · simp [find] at this
          · intro x hx
            rcases List.mem_cons.1 hx with rfl | hx
            · exact hl
            · exact lt_trans hl (p'.1 x hx)
        · exact hl
        · have := h b.1
          rw [find_none_of_lt b.1 (a :: m)] at this
          · simp [find] at this
          · intro x hx
            rcases List.mem_cons.1 hx with rfl | hx
            · exact hl
            · exact lt_trans hl (p.1 x hx)
      have hv : a.2 = b.2 := by
        have := h a.1
        simpa [find, key] using this
      rw [show a = b from Prod.ext key hv, ih m' p.2 p'.2]
      intro l
      by_cases hl : l = a.1
      · rw [hl, find_none_of_lt a.1 m p.1, key, find_none_of_lt b.1 m' p'.1]
      · have := h l
        simpa [find, hl, key ▸ hl] using this

theorem find_ofList (m : List (α × OpClass)) : Inc (ofList m) ∧
    ∀ l, find l (ofList m) = (m.find? fun x => decide (x.1 = l)).map Prod.snd := by
  have key : ∀ (m acc : List (α × OpClass)), Inc acc → Inc (m.foldl (fun l x => emplace x.1 x.2 l) acc) ∧
      ∀ l, find l (m.foldl (fun l x => emplace x.1 x.2 l) acc) =
        (find l acc).or ((m.find? fun x => decide (x.1 = l)).map Prod.snd) := by
    intro m
    induction m with
    | nil => intro acc ha; exact ⟨ha, fun l => by simp⟩
    | cons a m ih =>
      intro acc ha
      obtain ⟨h1, h2⟩ := ih (emplace a.1 a.2 acc) (inc_emplace _ _ _ ha)
      refine ⟨h1, fun l => ?_⟩
      rw [List.foldl_cons, h2, find_emplace _ _ _ _ ha, List.find?_cons]
      by_cases h : l = a.1
      · subst h
        cases hf : find a.1 acc <;> simp
      · simp [h, Ne.symm h]
  obtain ⟨h1, h2⟩ := key m [] List.Pairwise.nil
  exact ⟨h1, fun l => by rw [ofList, h2]; simp [find]⟩

end Maps

/-! ### Refinement -/

/-- The registry stored in two maps. -/
def absReg (m : List (α × OpClass)) (o : List (α × Herm)) : Reg α := fun l => (find l m).map fun c => (c, find l o)

/-- The objects of the program and of the specification correspond. -/
structure Rel (s : State α) (t : SState α) : Prop where
  regs : s.regs = t.refs.map fun r => ⟨r, r⟩
  ctxs : s.ctxs = t.ctxs
  len : s.heap.ops.length = t.store.length
  len' : s.heap.herms.length = t.store.length
  valid : ∀ k, some k ∈ t.refs → k < t.store.length
  val : ∀ k, t.store.getD k (fun _ => none) = absReg (s.heap.ops.getD k []) (s.heap.herms.getD k [])
  inc : ∀ k, Inc (s.heap.ops.getD k [])
  inc' : ∀ k, Inc (s.heap.herms.getD k [])
  sub : ∀ k l, find l (s.heap.ops.getD k []) = none → find l (s.heap.herms.getD k []) = none

theorem getD_append_one {γ : Type} (l : List γ) (x d : γ) (k : Nat) :
    (l ++ [x]).getD k d = if k = l.length then x else l.getD k d := by
  rcases Nat.lt_trichotomy k l.length with h | h | h
  · rw [if_neg (by omega)]
    simp [List.getD_eq_getElem?_getD, List.getElem?_append_left h]
  · subst h
    simp [List.getD_eq_getElem?_getD]
  · rw [if_neg (by omega)]
    simp only [List.getD_eq_getElem?_getD]
    rw [List.getElem?_eq_none (by simp; omega), List.getElem?_eq_none (by omega)]

theorem getD_set {γ : Type} (l : List γ) (x d : γ) (i k : Nat) (hi : i < l.length) :
    (l.set i x).getD k d = if k = i then x else l.getD k d := by
  by_cases h : k = i
  · subst h
    simp [List.getD_eq_getElem?_getD, hi]
  · simp [List.getD_eq_getElem?_getD, h, Ne.symm h]

variable {s : State α} {t : SState α}

theorem Rel.reg (R : Rel s t) (v : Nat) : s.reg v = ⟨t.ref v, t.ref v⟩ := by
  unfold State.reg SState.ref
  rw [R.regs]
  simp only [List.getD_eq_getElem?_getD, List.getElem?_map]
  cases t.refs[v]? <;> rfl

theorem Rel.ctx (R : Rel s t) (i : Nat) : s.ctx i = t.ctx i := by
  unfold State.ctx SState.ctx
  rw [R.ctxs]

theorem Rel.regsLen (R : Rel s t) : s.regs.length = t.refs.length := by
  rw [R.regs, List.length_map]

theorem Rel.ref_lt (R : Rel s t) {v k : Nat} (h : t.ref v = some k) : k < t.store.length := by
  apply R.valid
  unfold SState.ref at h
  rw [List.getD_eq_getElem?_getD] at h
  cases hv : t.refs[v]? with
  | none => rw [hv] at h; simp at h
  | some r =>
    rw [hv, Option.getD_some] at h
    subst h
    exact List.mem_of_getElem? hv

theorem Rel.init : Rel (State.init : State α) SState.init := by
  refine ⟨rfl, rfl, rfl, rfl, by simp [SState.init], fun k => ?_, fun k => ?_, fun k => ?_, fun k l _ => ?_⟩
  · funext l
    simp [SState.init, State.init, absReg, find]
  all_goals simp [State.init, find, Inc]

theorem Rel.alloc (R : Rel s t) (m : List (α × OpClass)) (o : List (α × Herm)) (hm : Inc m) (ho : Inc o)
    (hs : ∀ l, find l m = none → find l o = none) : Rel (s.alloc m o) (t.alloc (absReg m o)) := by
  refine ⟨?_, R.ctxs, ?_, ?_, ?_, fun k => ?_, fun k => ?_, fun k => ?_, fun k => ?_⟩
  · simp [State.alloc, SState.alloc, R.regs, R.len, R.len']
  · simp [State.alloc, SState.alloc, R.len]
  · simp [State.alloc, SState.alloc, R.len']
  · intro k hk
    simp only [SState.alloc, List.mem_append, List.mem_singleton, List.length_append, List.length_cons, List.length_nil] at hk ⊢
    rcases hk with hk | hk
    · have := R.valid k hk
      omega
    · simp only [Option.some.injEq] at hk
      subst hk
      simp
  all_goals
    simp only [State.alloc, SState.alloc, getD_append_one, R.len, R.len']
    by_cases h : k = t.store.length
    · subst h
      simp only [if_true]
      try assumption
    · simp only [h, if_false]
      first | exact R.val k | exact R.inc k | exact R.inc' k | exact R.sub k

theorem Rel.pushCtx (R : Rel s t) (c : Ctx) : Rel (s.pushCtx c) (t.pushCtx c) :=
  ⟨R.regs, by simp [State.pushCtx, SState.pushCtx, R.ctxs], R.len, R.len', R.valid, R.val, R.inc, R.inc', R.sub⟩

theorem Rel.setCtx (R : Rel s t) (i : Nat) (c : Ctx) : Rel (s.setCtx i c) (t.setCtx i c) :=
  ⟨R.regs, by simp [State.setCtx, SState.setCtx, R.ctxs], R.len, R.len', R.valid, R.val, R.inc, R.inc', R.sub⟩

theorem Rel.copy (R : Rel s t) (v : Nat) : Rel (s.copy v) (t.copy v) := by
  refine ⟨?_, R.ctxs, R.len, R.len', fun k hk => ?_, R.val, R.inc, R.inc', R.sub⟩
  · simp [State.copy, SState.copy, R.regs, R.reg v]
  · simp only [SState.copy, List.mem_append, List.mem_singleton] at hk
    rcases hk with hk | hk
    · exact R.valid k hk
    · exact R.ref_lt hk.symm

/-- The maps behind an object. -/
theorem Rel.maps (R : Rel s t) (v : Nat) :
    (t.ref v = none ∧ s.opsOf v = none ∧ s.hermsOf v = none ∧ t.get v = none) ∨
    ∃ k, t.ref v = some k ∧ k < t.store.length ∧ s.opsOf v = some (s.heap.ops.getD k []) ∧
      s.hermsOf v = some (s.heap.herms.getD k []) ∧
      t.get v = some (absReg (s.heap.ops.getD k []) (s.heap.herms.getD k [])) := by
  cases h : t.ref v with
  | none =>
    left
    simp [State.opsOf, State.hermsOf, SState.get, R.reg v, h]
  | some k =>
    right
    refine ⟨k, rfl, R.ref_lt h, ?_, ?_, ?_⟩
    · simp [State.opsOf, R.reg v, h]
    · simp [State.hermsOf, R.reg v, h]
    · unfold SState.get
      rw [h, Option.map_some, R.val k]

/-- Changing both maps behind an object. -/
theorem Rel.put (R : Rel s t) (v k : Nat) (hk : t.ref v = some k) (m : List (α × OpClass)) (o : List (α × Herm)) (hm : Inc m) (ho : Inc o)
    (hs : ∀ l, find l m = none → find l o = none) (r : Reg α) (hr : r = absReg m o) :
    Rel ⟨⟨s.heap.ops.set k m, s.heap.herms.set k o⟩, s.regs, s.ctxs⟩ (t.put v r) := by
  have hlt := R.ref_lt hk
  subst hr
  have hput : t.put v (absReg m o) = ⟨t.store.set k (absReg m o), t.refs, t.ctxs⟩ := by
    unfold SState.put
    rw [hk]
  rw [hput]
  refine ⟨R.regs, R.ctxs, ?_, ?_, ?_, fun k' => ?_, fun k' => ?_, fun k' => ?_, fun k' => ?_⟩
  · simpa using R.len
  · simpa using R.len'
  · intro k' hk'
    simpa using R.valid k' hk'
  · simp only
    rw [getD_set _ _ _ _ _ hlt, getD_set _ _ _ _ _ (by rw [R.len]; exact hlt), getD_set _ _ _ _ _ (by rw [R.len']; exact hlt)]
    by_cases h : k' = k
    · simp [h]
    · simp only [h, if_false]
      exact R.val k'
  · simp only
    rw [getD_set _ _ _ _ _ (by rw [R.len]; exact hlt)]
    split
    · exact hm
    · exact R.inc k'
  · simp only
    rw [getD_set _ _ _ _ _ (by rw [R.len']; exact hlt)]
    split
    · exact ho
    · exact R.inc' k'
  · simp only
    rw [getD_set _ _ _ _ _ (by rw [R.len]; exact hlt), getD_set _ _ _ _ _ (by rw [R.len']; exact hlt)]
    split
    · exact hs
    · exact R.sub k'

theorem set_getD_self {γ : Type} (l : List γ) (k : Nat) (d : γ) : l.set k (l.getD k d) = l := by
  apply List.ext_getElem?
  intro i
  rw [List.getElem?_set]
  by_cases h : k = i
  · subst h
    by_cases hl : k < l.length
    · simp [hl, List.getD_eq_getElem?_getD]
    · simp [hl]
  · simp [h]

theorem Rel.equal (R : Rel s t) (v w : Nat) : s.equal v w = t.equal v w := by
  unfold State.equal SState.equal
  rcases R.maps v with ⟨_, h2, h3, h4⟩ | ⟨k, _, _, h2, h3, h4⟩
  · simp [h2, h4]
  · rcases R.maps w with ⟨_, g2, g3, g4⟩ | ⟨k', _, _, g2, g3, g4⟩
    · simp [h2, h4, g2, g4]
    · simp only [h2, h3, h4, g2, g3, g4]
      have hiff : (absReg (s.heap.ops.getD k []) (s.heap.herms.getD k []) = absReg (s.heap.ops.getD k' []) (s.heap.herms.getD k' [])) ↔
          (s.heap.ops.getD k [] = s.heap.ops.getD k' [] ∧ s.heap.herms.getD k [] = s.heap.herms.getD k' []) := by
        constructor
        · intro h
          have h1 : ∀ l, find l (s.heap.ops.getD k []) = find l (s.heap.ops.getD k' []) ∧
              find l (s.heap.herms.getD k []) = find l (s.heap.herms.getD k' []) := by
            intro l
            have hl := congrFun h l
            unfold absReg at hl
            have e1 := R.sub k l
            have e2 := R.sub k' l
            cases a : find l (s.heap.ops.getD k []) <;> cases b : find l (s.heap.ops.getD k' []) <;> simp_all
          exact ⟨inc_ext _ _ (R.inc k) (R.inc k') fun l => (h1 l).1, inc_ext _ _ (R.inc' k) (R.inc' k') fun l => (h1 l).2⟩
        · rintro ⟨h1, h2⟩
          rw [h1, h2]
      by_cases h : s.heap.ops.getD k [] = s.heap.ops.getD k' []
      · simp only [h, if_true, Outcome.bool.injEq, decide_eq_decide]
        rw [h] at hiff
        rw [hiff]
        simp
      · simp only [h, if_false, Outcome.bool.injEq]
        symm
        rw [decide_eq_false_iff_not, hiff]
        exact fun e => h e.1

theorem Rel.move (R : Rel s t) (v w : Nat) : Rel ⟨s.heap, s.regs.set v (s.reg w), s.ctxs⟩ ⟨t.store, t.refs.set v (t.ref w), t.ctxs⟩ := by
  refine ⟨?_, R.ctxs, R.len, R.len', fun k hk => ?_, R.val, R.inc, R.inc', R.sub⟩
  · simp [R.regs, R.reg w, List.map_set]
  · rcases List.mem_or_eq_of_mem_set hk with h | h
    · exact R.valid k h
    · exact R.ref_lt h.symm

/-- Every call does the same to registries and to their maps. -/
theorem Rel.step (reserved : List α) (R : Rel s t) (c : Call α) (hc : c.notShare = true) :
    (exec reserved s c).1 = (specExec reserved t c).1 ∧ Rel (exec reserved s c).2 (specExec reserved t c).2 := by
  have absNil : absReg ([] : List (α × OpClass)) [] = fun _ => none := by funext l; rfl
  cases c with
  | share v => simp [Call.notShare] at hc
  | new =>
    refine ⟨by trivial, ?_⟩
    have := R.alloc [] [] List.Pairwise.nil List.Pairwise.nil (fun _ _ => rfl)
    rwa [absNil] at this
  | ofMap m =>
    refine ⟨by trivial, ?_⟩
    obtain ⟨h1, h2⟩ := find_ofList m
    have := R.alloc (ofList m) [] h1 List.Pairwise.nil (fun _ _ => rfl)
    rw [show absReg (ofList m) [] = ofEntries m by
      funext l
      simp only [absReg, h2, ofEntries, Option.map_map, find]
      rfl] at this
    exact this
  | copy v => exact ⟨by trivial, R.copy v⟩
  | move v =>
    refine ⟨rfl, ?_, R.ctxs, R.len, R.len', fun k hk => ?_, R.val, R.inc, R.inc', R.sub⟩
    · simp [exec, specExec, R.regs, R.reg v, List.map_set, nullHandle]
    · simp only [specExec, List.mem_append, List.mem_singleton] at hk
      rcases hk with hk | hk
      · rcases List.mem_or_eq_of_mem_set hk with h | h
        · exact R.valid k h
        · simp at h
      · exact R.ref_lt hk.symm
  | assign v w => exact ⟨by trivial, R.move v w⟩
  | moveAssign v w =>
    refine ⟨rfl, ?_, R.ctxs, R.len, R.len', fun k hk => ?_, R.val, R.inc, R.inc', R.sub⟩
    · simp [exec, specExec, R.regs, R.reg w, List.map_set, nullHandle]
    · simp only [specExec] at hk
      rcases List.mem_or_eq_of_mem_set hk with h | h
      · rcases List.mem_or_eq_of_mem_set h with h | h
        · exact R.valid k h
        · simp at h
      · exact R.ref_lt h.symm
  | clone v =>
    simp only [exec, specExec, State.clone]
    rcases R.maps v with ⟨_, h2, h3, h4⟩ | ⟨k, _, _, h2, h3, h4⟩
    · simp only [h2, h4]
      exact ⟨by trivial, R⟩
    · simp only [h2, h3, h4]
      exact ⟨by trivial, R.alloc _ _ (R.inc k) (R.inc' k) (R.sub k)⟩
  | add v l c =>
    simp only [exec, specExec, State.validate, State.contains]
    by_cases hr : l ∈ reserved
    · simp only [hr, if_true]
      exact ⟨by trivial, R⟩
    · simp only [hr, if_false]
      rcases R.maps v with ⟨_, h2, h3, h4⟩ | ⟨k, h1, hlt, h2, h3, h4⟩
      · simp only [h2, h4, Option.map_none]
        exact ⟨by trivial, R⟩
      · simp only [h2, h4, Option.map_some, absReg, Option.isSome_map]
        cases hf : find l (s.heap.ops.getD k []) with
        | some c' =>
          simp only [Option.isSome_some, if_true]
          exact ⟨by trivial, R⟩
        | none =>
          simp only [Option.isSome_none, Bool.false_eq_true, if_false, State.emplaceOp, h2]
          refine ⟨by trivial, ?_⟩
          have := R.put v k h1 (emplace l c (s.heap.ops.getD k [])) (s.heap.herms.getD k []) (inc_emplace _ _ _ (R.inc k)) (R.inc' k)
            (fun l' hl' => R.sub k l' (by
              rw [find_emplace _ _ _ _ (R.inc k)] at hl'
              split at hl'
              · simp at hl'
              · exact hl'))
            (update (absReg (s.heap.ops.getD k []) (s.heap.herms.getD k [])) l (some (c, none))) (by
              funext y
              unfold update absReg
              rw [find_emplace _ _ _ _ (R.inc k)]
              by_cases hy : y = l
              · subst hy
                rw [if_pos rfl, if_pos rfl, hf, R.sub k y hf]
                rfl
              · simp [hy])
          rw [set_getD_self] at this
          unfold State.setOps
          rw [R.reg v, h1]
          exact this
  | addHerm v l c h =>
    simp only [exec, specExec, State.validate, State.contains]
    by_cases hr : l ∈ reserved
    · simp only [hr, if_true]
      exact ⟨by trivial, R⟩
    · simp only [hr, if_false]
      rcases R.maps v with ⟨_, h2, h3, h4⟩ | ⟨k, h1, hlt, h2, h3, h4⟩
      · simp only [h2, h4, Option.map_none]
        exact ⟨by trivial, R⟩
      · simp only [h2, h4, Option.map_some, absReg, Option.isSome_map]
        cases hf : find l (s.heap.ops.getD k []) with
        | some c' =>
          simp only [Option.isSome_some, if_true]
          exact ⟨by trivial, R⟩
        | none =>
          simp only [Option.isSome_none, Bool.false_eq_true, if_false, State.emplaceOp, h2]
          have hset : s.setOps v (emplace l c (s.heap.ops.getD k [])) =
              ⟨⟨s.heap.ops.set k (emplace l c (s.heap.ops.getD k [])), s.heap.herms⟩, s.regs, s.ctxs⟩ := by
            unfold State.setOps
            rw [R.reg v, h1]
          rw [hset]
          have hreg : (⟨⟨s.heap.ops.set k (emplace l c (s.heap.ops.getD k [])), s.heap.herms⟩, s.regs, s.ctxs⟩ : State α).reg v =
              ⟨some k, some k⟩ := by
            have := R.reg v
            rw [h1] at this
            exact this
          simp only [State.assignHerm, State.hermsOf, hreg, Option.map_some, State.setHerms]
          refine ⟨by trivial, ?_⟩
          refine R.put v k h1 (emplace l c (s.heap.ops.getD k [])) (insertOrAssign l h (s.heap.herms.getD k []))
            (inc_emplace _ _ _ (R.inc k)) (inc_insertOrAssign _ _ _ (R.inc' k))
            (fun l' hl' => ?_) _ ?_
          · rw [find_emplace _ _ _ _ (R.inc k)] at hl'
            rw [find_insertOrAssign]
            split at hl'
            · simp at hl'
            · rename_i hne
              rw [if_neg hne]
              exact R.sub k l' hl'
          · funext y
            simp only [update, absReg]
            rw [find_emplace _ _ _ _ (R.inc k), find_insertOrAssign]
            by_cases hy : y = l
            · subst hy
              rw [if_pos rfl, if_pos rfl, if_pos rfl, hf]
              rfl
            · simp [hy]
  | setHerm v l h =>
    simp only [exec, specExec, State.require, State.contains]
    rcases R.maps v with ⟨_, h2, h3, h4⟩ | ⟨k, h1, hlt, h2, h3, h4⟩
    · simp only [h2, h4, Option.map_none]
      exact ⟨by trivial, R⟩
    · simp only [h2, h4, Option.map_some, absReg]
      cases hf : find l (s.heap.ops.getD k []) with
      | none =>
        simp only [Option.isSome_none, Option.map_none]
        exact ⟨by trivial, R⟩
      | some c' =>
        simp only [Option.isSome_some, Option.map_some, State.assignHerm, h3]
        refine ⟨by trivial, ?_⟩
        have := R.put v k h1 (s.heap.ops.getD k []) (insertOrAssign l h (s.heap.herms.getD k []))
            (R.inc k) (inc_insertOrAssign _ _ _ (R.inc' k))
            (fun l' hl' => by
              rw [find_insertOrAssign]
              by_cases hy : l' = l
              · subst hy
                rw [hf] at hl'
                simp at hl'
              · rw [if_neg hy]
                exact R.sub k l' hl')
            (update (absReg (s.heap.ops.getD k []) (s.heap.herms.getD k [])) l (some (c', some h))) (by
              funext y
              simp only [update, absReg]
              rw [find_insertOrAssign]
              by_cases hy : y = l
              · subst hy
                rw [if_pos rfl, if_pos rfl, hf]
                rfl
              · simp [hy])
        rw [set_getD_self] at this
        unfold State.setHerms
        rw [R.reg v, h1]
        exact this
  | remove v l =>
    simp only [exec, specExec, State.require, State.contains]
    rcases R.maps v with ⟨_, h2, h3, h4⟩ | ⟨k, h1, hlt, h2, h3, h4⟩
    · simp only [h2, h4, Option.map_none]
      exact ⟨by trivial, R⟩
    · simp only [h2, h4, Option.map_some, absReg, Option.isSome_map]
      cases hf : find l (s.heap.ops.getD k []) with
      | none =>
        simp only [Option.isSome_none, Bool.false_eq_true, if_false]
        exact ⟨by trivial, R⟩
      | some c' =>
        simp only [Option.isSome_some, if_true, h3]
        refine ⟨by trivial, ?_⟩
        have hset : s.setOps v (erase l (s.heap.ops.getD k [])) =
            ⟨⟨s.heap.ops.set k (erase l (s.heap.ops.getD k [])), s.heap.herms⟩, s.regs, s.ctxs⟩ := by
          unfold State.setOps
          rw [R.reg v, h1]
        rw [hset]
        have hreg : (⟨⟨s.heap.ops.set k (erase l (s.heap.ops.getD k [])), s.heap.herms⟩, s.regs, s.ctxs⟩ : State α).reg v =
            ⟨some k, some k⟩ := by
          have := R.reg v
          rw [h1] at this
          exact this
        simp only [hreg, State.setHerms]
        refine R.put v k h1 _ _ (inc_erase _ _ (R.inc k)) (inc_erase _ _ (R.inc' k)) (fun l' hl' => ?_) _ ?_
        · rw [find_erase] at hl' ⊢
          split
          · rfl
          · rename_i hne
            rw [if_neg hne] at hl'
            exact R.sub k l' hl'
        · funext y
          simp only [update, absReg]
          rw [find_erase, find_erase]
          by_cases hy : y = l <;> simp [hy]
  | purge v =>
    simp only [exec, specExec]
    rcases R.maps v with ⟨_, h2, h3, h4⟩ | ⟨k, h1, hlt, h2, h3, h4⟩
    · simp only [h2, h4]
      exact ⟨by trivial, R⟩
    · simp only [h2, h3, h4]
      refine ⟨by trivial, ?_⟩
      have hset : s.setOps v [] = ⟨⟨s.heap.ops.set k [], s.heap.herms⟩, s.regs, s.ctxs⟩ := by
        unfold State.setOps
        rw [R.reg v, h1]
      rw [hset]
      have hreg : (⟨⟨s.heap.ops.set k [], s.heap.herms⟩, s.regs, s.ctxs⟩ : State α).reg v = ⟨some k, some k⟩ := by
        have := R.reg v
        rw [h1] at this
        exact this
      simp only [hreg, State.setHerms]
      exact R.put v k h1 [] [] List.Pairwise.nil List.Pairwise.nil (fun _ _ => rfl) _ absNil.symm
  | contains v l =>
    simp only [exec, specExec, State.contains]
    rcases R.maps v with ⟨_, h2, h3, h4⟩ | ⟨k, h1, hlt, h2, h3, h4⟩
    · simp only [h2, h4, Option.map_none]
      exact ⟨by trivial, R⟩
    · simp only [h2, h4, Option.map_some, absReg, Option.isSome_map]
      exact ⟨by trivial, R⟩
  | toClass v l =>
    simp only [exec, specExec, State.toClass]
    rcases R.maps v with ⟨_, h2, h3, h4⟩ | ⟨k, h1, hlt, h2, h3, h4⟩
    · simp only [h2, h4]
      exact ⟨by trivial, R⟩
    · simp only [h2, h4, absReg]
      cases hf : find l (s.heap.ops.getD k []) <;> exact ⟨by trivial, R⟩
  | hermiticity v l =>
    simp only [exec, specExec, State.hermiticity, State.toClass]
    rcases R.maps v with ⟨_, h2, h3, h4⟩ | ⟨k, h1, hlt, h2, h3, h4⟩
    · simp only [h3, h4]
      exact ⟨by trivial, R⟩
    · simp only [h2, h3, h4, absReg]
      cases hf : find l (s.heap.ops.getD k []) with
      | none =>
        rw [R.sub k l hf]
        exact ⟨by trivial, R⟩
      | some c =>
        cases ho : find l (s.heap.herms.getD k []) <;> exact ⟨by trivial, R⟩
  | equal v w => exact ⟨R.equal v w, R⟩
  | ctxNew csv ptr => exact ⟨by trivial, R.pushCtx _⟩
  | ctxOf csv v =>
    refine ⟨by trivial, ?_⟩
    simp only [exec, specExec]
    rw [R.regsLen]
    exact (R.copy v).pushCtx _
  | ctxCopy i =>
    refine ⟨by trivial, ?_⟩
    simp only [exec, specExec]
    rw [R.ctx i]
    exact R.pushCtx _
  | ctxClone i =>
    simp only [exec, specExec]
    rw [R.ctx i]
    cases hi : (t.ctx i).reg with
    | none => exact ⟨by trivial, R.pushCtx _⟩
    | some v =>
      simp only [State.clone]
      rcases R.maps v with ⟨_, h2, h3, h4⟩ | ⟨k, _, _, h2, h3, h4⟩
      · simp only [h2, h4]
        exact ⟨by trivial, R⟩
      · simp only [h2, h3, h4]
        rw [R.regsLen]
        exact ⟨by trivial, (R.alloc _ _ (R.inc k) (R.inc' k) (R.sub k)).pushCtx _⟩
  | ctxSetReg i v =>
    refine ⟨by trivial, ?_⟩
    simp only [exec, specExec]
    rw [R.regsLen, R.ctx i]
    exact (R.copy v).setCtx i _
  | ctxSetPtr i ptr =>
    refine ⟨by trivial, ?_⟩
    simp only [exec, specExec]
    rw [R.ctx i]
    exact R.setCtx i _
  | ctxSetCsv i csv =>
    refine ⟨by trivial, ?_⟩
    simp only [exec, specExec]
    rw [R.ctx i]
    exact R.setCtx i _
  | ctxRegistry i =>
    simp only [exec, specExec]
    rw [R.ctx i]
    cases (t.ctx i).reg <;> exact ⟨by trivial, R⟩
  | ctxEqual i j =>
    simp only [exec, specExec]
    rw [R.ctx i, R.ctx j]
    by_cases h : (t.ctx i).csv = (t.ctx j).csv
    · simp only [h, ne_eq, not_true_eq_false, if_false]
      cases (t.ctx i).reg <;> cases (t.ctx j).reg
      · exact ⟨by trivial, R⟩
      · exact ⟨by trivial, R⟩
      · exact ⟨by trivial, R⟩
      · exact ⟨R.equal _ _, R⟩
    · simp only [h, ne_eq, not_false_eq_true, if_true]
      exact ⟨by trivial, R⟩

theorem run_refines_from (reserved : List α) (cs : List (Call α)) (hc : ∀ c ∈ cs, c.notShare = true) (R : Rel s t) :
    run reserved s cs = specRun reserved t cs := by
  induction cs generalizing s t with
  | nil => rfl
  | cons c cs ih =>
    obtain ⟨h1, h2⟩ := R.step reserved c (hc c (by simp))
    rw [run, specRun, h1, ih (fun c' h => hc c' (List.mem_cons_of_mem _ h)) h2]

/-- **C106.** Whatever sequence of calls is made on registries and contexts (none of which is built from the map of another one), every call
has the outcome it has for finite functions from labels to a class and an optional hermiticity, shared by copies and not by clones. -/
theorem run_refines (reserved : List α) (cs : List (Call α)) (hc : ∀ c ∈ cs, c.notShare = true) :
    run reserved State.init cs = specRun reserved SState.init cs :=
  run_refines_from reserved cs hc Rel.init

/-- **C106, violated.** Two registries built from one map of classes have overrides of their own: after one of them removes an operator, the
other still reports the hermiticity of an operator it does not contain, and gives it to an operator added later. -/
theorem shared_map_stale : run (α := Nat) [] State.init [.ofMap [(1, .gen)], .share 0, .setHerm 1 1 .antiHermitian, .remove 0 1, .contains 1 1,
      .toClass 1 1, .hermiticity 1 1, .add 1 1 .ex, .hermiticity 1 1, .hermiticity 0 1] =
    [.done, .done, .done, .done, .bool false, .throws, .herm .antiHermitian, .done, .herm .antiHermitian, .herm .nonHermitian] := by
  decide +kernel

/-! ### Questions asked of the default context -/

/-- **C106.** After any calls (`R` relates what the code holds to finite functions), the class and the hermiticity of a label as seen by the rest of
the library are those of the registry of the default context, except that reserved labels always are general and Hermitian; without a registry the
assertion fails. -/
theorem default_context_exact {s : State α} {t : SState α} (R : Rel s t) (reserved : List α) (i : Nat) (l : α) :
    (l ∈ reserved → toOpClass reserved s i l = .cls .gen ∧ opHermiticity reserved s i l = .herm .hermitian) ∧
    (l ∉ reserved → (t.ctx i).reg = none → toOpClass reserved s i l = .assertFails ∧ opHermiticity reserved s i l = .assertFails) ∧
    ∀ v, l ∉ reserved → (t.ctx i).reg = some v →
      toOpClass reserved s i l = (specExec reserved t (.toClass v l)).1 ∧ opHermiticity reserved s i l = (specExec reserved t (.hermiticity v l)).1 := by
  refine ⟨?_, ?_, ?_⟩
  · intro h
    simp [toOpClass, opHermiticity, h, defaultHerm]
  · intro h hr
    simp [toOpClass, opHermiticity, h, R.ctx i, hr]
  · intro v h hr
    have h1 := (R.step reserved (.toClass v l) rfl).1
    have h2 := (R.step reserved (.hermiticity v l) rfl).1
    rw [← h1, ← h2]
    simp [toOpClass, opHermiticity, h, R.ctx i, hr, exec]

/-! ### Examples -/

/-- The operators of the coupled-cluster and equation-of-motion ansätze have the classes the rest of the library expects. -/
theorem predefined_classes : (run reservedLabels State.init (minimalRegistry ++ [.toClass 0 "t", .toClass 0 "λ", .toClass 0 "R", .toClass 0 "L"])).drop 10 =
      [.cls .ex, .cls .deex, .cls .ex, .cls .deex] ∧
    (run reservedLabels State.init (legacyRegistry ++ [.toClass 0 "t", .toClass 0 "λ", .toClass 0 "R", .toClass 0 "L"])).drop 16 =
      [.cls .ex, .cls .deex, .cls .ex, .cls .deex] := by
  constructor <;> decide +kernel

/-- The predefined registries are accepted. -/
theorem predefined_accepted : run reservedLabels State.init minimalRegistry = List.replicate 10 .done ∧
    run reservedLabels State.init legacyRegistry = List.replicate 16 .done := by
  constructor <;> decide +kernel

/-- Copies share, clones do not; removing an operator removes its override; reserved and registered labels are rejected; a moved-from object
may not be used. -/
example : run (α := Nat) [9] State.init [.new, .add 0 1 .gen, .copy 0, .clone 0, .addHerm 0 2 .ex .hermitian, .contains 1 2, .contains 2 2,
      .equal 0 1, .equal 0 2, .hermiticity 1 2, .hermiticity 1 1, .remove 1 2, .add 0 2 .ex, .hermiticity 1 2, .add 0 9 .ex, .add 0 1 .ex,
      .move 0, .contains 0 1, .contains 3 1, .ctxOf true 1, .ctxClone 0, .ctxRegistry 1, .remove 5 1, .contains 1 1, .ctxEqual 0 1] =
    [.done, .done, .done, .done, .done, .bool true, .bool false, .bool true, .bool false, .herm .hermitian, .herm .hermitian, .done, .done,
      .herm .nonHermitian, .throws, .throws, .done, .ub, .bool true, .done, .done, .obj 5, .done, .bool true, .bool false] := by
  decide +kernel

end SeQuant.Registry
