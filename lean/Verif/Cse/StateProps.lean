import Verif.Cse.Lemmas

/-!
# What the replacer does to its state
-/

namespace SeQuant.Cse

open SeQuant.Eval SeQuant.Binarize SeQuant.Optimize

variable {L ι K H G S : Type} [Zero K] [One K] [Add K] [Mul K] [IntCast K] [DecidableEq K] (o : Opts L ι K H G)

/-- The names `qs` and the definitions `ds` are added to the state while nodes of the tree `n` are replaced. -/
structure Grows (cur : Nat) (n : Node L ι K H G) (st st' : St L ι K H G) (qs : List (Node L ι K H G × L)) (ds : List (Node L ι K H G)) : Prop where
  names : st'.names = st.names ++ qs
  defs : st'.defs = st.defs ++ ds
  mem : ∀ q ∈ qs, q.1 ∈ inner n ∧ o.isCommon q.1 = true
  define_ : List.Forall₂ (fun q d => define_ o q.1 q.2 = some d) qs ds
  label : ∀ (i : Nat) (q : Node L ι K H G × L), qs[i]? = some q → q.2 = o.gen q.1 (st.counter + i)
  counter : st'.counter = st.counter + qs.length
  off : st'.off = st.off + qs.length
  pos : st'.pos = st.pos ++ (List.range qs.length).map fun i => cur + st.off + i
  new : ∀ (i : Nat) (q : Node L ι K H G × L), qs[i]? = some q → ∀ p ∈ st.names ++ qs.take i, o.eqName p.1 q.1 = false

theorem Grows.nil (cur : Nat) (n : Node L ι K H G) (st : St L ι K H G) : Grows o cur n st st [] [] :=
  ⟨by simp, by simp, by simp, .nil, by simp, by simp, by simp, by simp, by simp⟩

variable {o}

theorem Grows.trans {cur : Nat} {n n₁ n₂ : Node L ι K H G} {st st₁ st₂ : St L ι K H G} {qs₁ qs₂ : List (Node L ι K H G × L)}
    {ds₁ ds₂ : List (Node L ι K H G)} (h₁ : Grows o cur n₁ st st₁ qs₁ ds₁) (h₂ : Grows o cur n₂ st₁ st₂ qs₂ ds₂)
    (i₁ : ∀ x ∈ inner n₁, x ∈ inner n) (i₂ : ∀ x ∈ inner n₂, x ∈ inner n) : Grows o cur n st st₂ (qs₁ ++ qs₂) (ds₁ ++ ds₂) where
  names := by rw [h₂.names, h₁.names, List.append_assoc]
  defs := by rw [h₂.defs, h₁.defs, List.append_assoc]
  mem := by
    intro q hq
    rcases List.mem_append.1 hq with hq | hq
    · exact ⟨i₁ _ (h₁.mem q hq).1, (h₁.mem q hq).2⟩
    · exact ⟨i₂ _ (h₂.mem q hq).1, (h₂.mem q hq).2⟩
  define_ := List.rel_append h₁.define_ h₂.define_
  label := by
    intro i q hq
    by_cases hi : i < qs₁.length
    · rw [List.getElem?_append_left hi] at hq
      exact h₁.label i q hq
    · rw [List.getElem?_append_right (by omega)] at hq
      rw [h₂.label _ q hq, h₁.counter]
      congr 1
      omega
  counter := by rw [h₂.counter, h₁.counter, List.length_append]; omega
  off := by rw [h₂.off, h₁.off, List.length_append]; omega
  pos := by
    rw [h₂.pos, h₁.pos, List.length_append, List.append_assoc, h₁.off]
    congr 1
    rw [List.range_add, List.map_append, List.map_map]
    congr 1
    refine List.map_congr_left fun i _ => ?_
    simp only [Function.comp_apply]
    omega
  new := by
    intro i q hq p hp
    by_cases hi : i < qs₁.length
    · rw [List.getElem?_append_left hi] at hq
      rw [List.take_append_of_le_length (by omega)] at hp
      exact h₁.new i q hq p hp
    · rw [List.getElem?_append_right (by omega)] at hq
      refine h₂.new _ q hq p ?_
      rw [h₁.names, List.append_assoc]
      rw [List.take_append, List.take_of_length_le (by omega)] at hp
      exact hp

theorem replaceNode_grows {cur : Nat} {root : Bool} {n m : Node L ι K H G} {st st' : St L ι K H G} (hn : n ∈ inner n) (hc : o.isCommon n = true)
    (h : replaceNode o cur root n st = some (m, st')) : ∃ qs ds, Grows o cur n st st' qs ds := by
  unfold replaceNode at h
  cases hf : st.names.find? (fun q => o.eqName q.1 n) with
  | some q =>
    simp only [hf] at h
    cases hp : place o root n q.2 with
    | none => simp [hp] at h
    | some m' =>
      simp only [hp, Option.some.injEq, Prod.mk.injEq] at h
      obtain ⟨_, rfl⟩ := h
      exact ⟨[], [], Grows.nil o _ _ _⟩
  | none =>
    simp only [hf] at h
    cases hd : define_ o n (o.gen n st.counter) with
    | none => simp [hd] at h
    | some d =>
      cases hp : place o root n (o.gen n st.counter) with
      | none => simp [hd, hp] at h
      | some m' =>
        simp only [hd, hp, Option.some.injEq, Prod.mk.injEq] at h
        obtain ⟨_, rfl⟩ := h
        refine ⟨[(n, o.gen n st.counter)], [d], ⟨rfl, rfl, by simpa using ⟨hn, hc⟩, .cons hd .nil, ?_, rfl, rfl, by simp, ?_⟩⟩
        · intro i q hq
          cases i with
          | zero => simp only [List.getElem?_cons_zero, Option.some.injEq] at hq; subst hq; rfl
          | succ i => simp at hq
        · intro i q hq p hp'
          cases i with
          | zero =>
            simp only [List.getElem?_cons_zero, Option.some.injEq] at hq
            subst hq
            simp only [List.take_zero, List.append_nil] at hp'
            have := List.find?_eq_none.1 hf p hp'
            simpa using this
          | succ i => simp at hq

theorem replaceIn_grows {cur : Nat} : ∀ {n m : Node L ι K H G} {root : Bool} {st st' : St L ι K H G}, replaceIn o cur root n st = some (m, st') →
    ∃ qs ds, Grows o cur n st st' qs ds := by
  intro n
  induction n with
  | leaf a =>
    intro m root st st' h
    rw [replaceIn, Option.some.injEq, Prod.mk.injEq] at h
    rw [← h.2]
    exact ⟨[], [], Grows.nil o _ _ _⟩
  | node a l r ihl ihr =>
    intro m root st st' h
    rw [replaceIn] at h
    by_cases hc : o.isCommon (.node a l r) = true
    · rw [if_pos hc] at h
      exact replaceNode_grows (by simp [inner]) hc h
    · rw [if_neg hc] at h
      cases hl : replaceIn o cur false l st with
      | none => simp [hl] at h
      | some x =>
        cases hr : replaceIn o cur false r x.2 with
        | none => simp [hl, hr] at h
        | some y =>
          simp only [hl, hr, Option.some.injEq, Prod.mk.injEq] at h
          obtain ⟨_, rfl⟩ := h
          obtain ⟨q1, d1, g1⟩ := ihl (m := x.1) (st' := x.2) hl
          obtain ⟨q2, d2, g2⟩ := ihr (m := y.1) (st' := y.2) hr
          exact ⟨_, _, g1.trans g2 (fun z hz => by simp [inner, hz]) (fun z hz => by simp [inner, hz])⟩

/-- Trees and names are only added. -/
theorem replaceAll_grows : ∀ {ts : List (Node L ι K H G)} {cur : Nat} {st st' : St L ι K H G} {out out' : List (Node L ι K H G)},
    replaceAll o cur ts st out = some (out', st') → (∃ l, out' = out ++ l) ∧ ∃ l, st'.names = st.names ++ l := by
  intro ts
  induction ts with
  | nil =>
    intro cur st st' out out' h
    rw [replaceAll, Option.some.injEq, Prod.mk.injEq] at h
    exact ⟨⟨[], by simp [h.1]⟩, ⟨[], by simp [h.2]⟩⟩
  | cons t ts ih =>
    intro cur st st' out out' h
    rw [replaceAll] at h
    cases hx : replaceIn o cur true t { st with defs := [] } with
    | none => simp [hx] at h
    | some x =>
      simp only [hx] at h
      obtain ⟨⟨l1, e1⟩, ⟨l2, e2⟩⟩ := ih h
      obtain ⟨qs, ds, g⟩ := replaceIn_grows (m := x.1) (st' := x.2) hx
      exact ⟨⟨x.2.defs ++ [x.1] ++ l1, by rw [e1]; simp⟩, ⟨qs ++ l2, by rw [e2, g.names]; simp⟩⟩

end SeQuant.Cse
