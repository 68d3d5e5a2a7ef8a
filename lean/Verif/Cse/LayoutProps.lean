import Verif.Cse.StateProps

/-!
# Where definitions of common subexpressions are put, and what is left of the trees (C77)
-/

namespace SeQuant.Cse

open SeQuant.Eval SeQuant.Binarize SeQuant.Optimize

variable {L ι K H G S : Type} [Zero K] [One K] [Add K] [Mul K] [IntCast K] [DecidableEq K] (o : Opts L ι K H G)

/-- `m` is `n` with its topmost common subexpressions replaced by names that are among `names`. -/
inductive Rew (names : List (Node L ι K H G × L)) : Bool → Node L ι K H G → Node L ι K H G → Prop
  | leaf (root : Bool) (a) : Rew names root (.leaf a) (.leaf a)
  | kept {root : Bool} {a l r l' r'} (h : o.isCommon (.node a l r) = false) (hl : Rew names false l l') (hr : Rew names false r r') :
      Rew names root (.node a l r) (.node a l' r')
  | name {root : Bool} {a l r m} (q : Node L ι K H G × L) (h : o.isCommon (.node a l r) = true) (hq : q ∈ names)
      (he : q.1 = .node a l r ∨ o.eqName q.1 (.node a l r) = true) (hp : place o root (.node a l r) q.2 = some m) : Rew names root (.node a l r) m

variable {o}

theorem Rew.mono {xs ys : List (Node L ι K H G × L)} (h : ∀ q ∈ xs, q ∈ ys) {root : Bool} {n m : Node L ι K H G} (hr : Rew o xs root n m) :
    Rew o ys root n m := by
  induction hr with
  | leaf root a => exact .leaf root a
  | kept hc _ _ ihl ihr => exact .kept hc ihl ihr
  | name q hc hq he hp => exact .name q hc (h q hq) he hp

theorem replaceNode_rew {cur : Nat} {root : Bool} {a} {l r m : Node L ι K H G} {st st' : St L ι K H G} (hc : o.isCommon (.node a l r) = true)
    (h : replaceNode o cur root (.node a l r) st = some (m, st')) : Rew o st'.names root (.node a l r) m := by
  unfold replaceNode at h
  cases hf : st.names.find? (fun q => o.eqName q.1 (.node a l r)) with
  | some q =>
    simp only [hf] at h
    cases hp : place o root (.node a l r) q.2 with
    | none => simp [hp] at h
    | some m' =>
      simp only [hp, Option.some.injEq, Prod.mk.injEq] at h
      obtain ⟨rfl, rfl⟩ := h
      exact .name q hc (List.mem_of_find?_eq_some hf) (Or.inr (by simpa using List.find?_some hf)) hp
  | none =>
    simp only [hf] at h
    cases hd : define_ o (.node a l r) (o.gen (.node a l r) st.counter) with
    | none => simp [hd] at h
    | some d =>
      cases hp : place o root (.node a l r) (o.gen (.node a l r) st.counter) with
      | none => simp [hd, hp] at h
      | some m' =>
        simp only [hd, hp, Option.some.injEq, Prod.mk.injEq] at h
        obtain ⟨rfl, rfl⟩ := h
        exact .name (.node a l r, o.gen (.node a l r) st.counter) hc (by simp) (Or.inl rfl) hp

theorem replaceIn_rew {cur : Nat} : ∀ {n m : Node L ι K H G} {root : Bool} {st st' : St L ι K H G}, replaceIn o cur root n st = some (m, st') →
    Rew o st'.names root n m := by
  intro n
  induction n with
  | leaf a =>
    intro m root st st' h
    rw [replaceIn, Option.some.injEq, Prod.mk.injEq] at h
    rw [← h.1]
    exact .leaf root a
  | node a l r ihl ihr =>
    intro m root st st' h
    rw [replaceIn] at h
    by_cases hc : o.isCommon (.node a l r) = true
    · rw [if_pos hc] at h
      exact replaceNode_rew hc h
    · rw [if_neg hc] at h
      cases hl : replaceIn o cur false l st with
      | none => simp [hl] at h
      | some x =>
        cases hr : replaceIn o cur false r x.2 with
        | none => simp [hl, hr] at h
        | some y =>
          simp only [hl, hr, Option.some.injEq, Prod.mk.injEq] at h
          obtain ⟨rfl, rfl⟩ := h
          obtain ⟨qs, ds, g⟩ := replaceIn_grows (m := y.1) (st' := y.2) hr
          refine .kept (by simpa using hc) ((ihl (m := x.1) (st' := x.2) hl).mono ?_) (ihr (m := y.1) (st' := y.2) hr)
          intro q hq
          rw [g.names]
          exact List.mem_append_left _ hq

/-- The tree for a name reads the name. -/
def Reads (o : Opts L ι K H G) : Prop := ∀ root n lbl m, place o root n lbl = some m → lbl ∈ reads m

/-- Every definition is used by the tree after it, if the tree for a name reads the name. -/
theorem replaceIn_uses {cur : Nat} (hp : Reads o) : ∀ {n m : Node L ι K H G} {root : Bool}
    {st st' : St L ι K H G}, replaceIn o cur root n st = some (m, st') → ∃ l, st'.names = st.names ++ l ∧ ∀ q ∈ l, q.2 ∈ reads m := by
  intro n
  induction n with
  | leaf a =>
    intro m root st st' h
    rw [replaceIn, Option.some.injEq, Prod.mk.injEq] at h
    rw [← h.2]
    exact ⟨[], by simp, by simp⟩
  | node a l r ihl ihr =>
    intro m root st st' h
    rw [replaceIn] at h
    by_cases hc : o.isCommon (.node a l r) = true
    · rw [if_pos hc] at h
      unfold replaceNode at h
      cases hf : st.names.find? (fun q => o.eqName q.1 (.node a l r)) with
      | some q =>
        simp only [hf] at h
        cases hpl : place o root (.node a l r) q.2 with
        | none => simp [hpl] at h
        | some m' =>
          simp only [hpl, Option.some.injEq, Prod.mk.injEq] at h
          obtain ⟨_, rfl⟩ := h
          exact ⟨[], by simp, by simp⟩
      | none =>
        simp only [hf] at h
        cases hd : define_ o (.node a l r) (o.gen (.node a l r) st.counter) with
        | none => simp [hd] at h
        | some d =>
          cases hpl : place o root (.node a l r) (o.gen (.node a l r) st.counter) with
          | none => simp [hd, hpl] at h
          | some m' =>
            simp only [hd, hpl, Option.some.injEq, Prod.mk.injEq] at h
            obtain ⟨rfl, rfl⟩ := h
            refine ⟨_, rfl, fun q hq => ?_⟩
            rw [List.mem_singleton] at hq
            subst hq
            exact hp _ _ _ _ hpl
    · rw [if_neg hc] at h
      cases hl : replaceIn o cur false l st with
      | none => simp [hl] at h
      | some x =>
        cases hr : replaceIn o cur false r x.2 with
        | none => simp [hl, hr] at h
        | some y =>
          simp only [hl, hr, Option.some.injEq, Prod.mk.injEq] at h
          obtain ⟨rfl, rfl⟩ := h
          obtain ⟨l1, e1, h1⟩ := ihl (m := x.1) (st' := x.2) hl
          obtain ⟨l2, e2, h2⟩ := ihr (m := y.1) (st' := y.2) hr
          refine ⟨l1 ++ l2, by rw [e2, e1, List.append_assoc], fun q hq => ?_⟩
          rcases List.mem_append.1 hq with hq | hq
          · simp [reads, h1 q hq]
          · simp [reads, h2 q hq]

/-- What became of the trees. -/
def unmarked (marks : List (Node L ι K H G × Bool)) : List (Node L ι K H G) := (marks.filter fun x => !x.2).map Prod.fst

/-- What is at a place of the output: a definition (`b`), which the tree after it uses, or what became of a tree; `i` definitions and `j` trees
come before it. -/
def Entry (o : Opts L ι K H G) (names : List (Node L ι K H G × L)) (ts new : List (Node L ι K H G)) (d : Node L ι K H G) (b : Bool) (i j : Nat) : Prop :=
  ∃ t m, ts[j]? = some t ∧ new[j]? = some m ∧
    if b then ∃ q, names[i]? = some q ∧ q.1 ∈ inner t ∧ o.isCommon q.1 = true ∧ define_ o q.1 q.2 = some d ∧ q.2 = o.gen q.1 (i + 1) ∧
      (∀ p ∈ names.take i, o.eqName p.1 q.1 = false) ∧ (Reads o → q.2 ∈ reads m)
    else d = m ∧ Rew o (names.take i) true t d

/-- The positions of the definitions, the first tree being at `k`. -/
def markedAt (k : Nat) (marks : List (Node L ι K H G × Bool)) : List Nat :=
  (marks.zipIdx k).filterMap fun x => if x.1.2 then some x.2 else none

omit [Zero K] [One K] [Add K] [Mul K] [IntCast K] [DecidableEq K] in
theorem markedAt_append (k : Nat) (a b : List (Node L ι K H G × Bool)) : markedAt k (a ++ b) = markedAt k a ++ markedAt (k + a.length) b := by
  simp [markedAt, List.zipIdx_append]

omit [Zero K] [One K] [Add K] [Mul K] [IntCast K] [DecidableEq K] in
theorem markedAt_defs : ∀ (ds : List (Node L ι K H G)) (k : Nat), markedAt k (ds.map fun d => (d, true)) = (List.range ds.length).map fun i => k + i := by
  intro ds
  induction ds with
  | nil => intro k; rfl
  | cons d ds ih =>
    intro k
    have := ih (k + 1)
    simp only [markedAt] at this ⊢
    simp only [List.map_cons, List.zipIdx_cons, List.filterMap_cons, if_true, List.length_cons, List.range_succ_eq_map]
    rw [this]
    simp only [Nat.add_zero, List.map_map, List.cons.injEq, true_and]
    refine List.map_congr_left fun i _ => ?_
    simp only [Function.comp_apply]
    omega

theorem replaceAll_layout : ∀ {ts : List (Node L ι K H G)} {cur : Nat} {st st' : St L ι K H G} {out out' : List (Node L ι K H G)},
    replaceAll o cur ts st out = some (out', st') → out.length = cur + st.off → st.counter = st.names.length + 1 →
    ∃ marks : List (Node L ι K H G × Bool), out' = out ++ marks.map Prod.fst ∧ st'.pos = st.pos ++ markedAt out.length marks ∧
      st.names.length + marks.countP (fun x => x.2) = st'.names.length ∧ marks.countP (fun x => !x.2) = ts.length ∧ (∃ l, st'.names = st.names ++ l) ∧
      ∀ k d b, marks[k]? = some (d, b) →
        Entry o st'.names ts (unmarked marks) d b (st.names.length + (marks.take k).countP fun x => x.2) ((marks.take k).countP fun x => !x.2) := by
  intro ts
  induction ts with
  | nil =>
    intro cur st st' out out' h _ _
    rw [replaceAll, Option.some.injEq, Prod.mk.injEq] at h
    obtain ⟨rfl, rfl⟩ := h
    exact ⟨[], by simp, by simp [markedAt], by simp, rfl, ⟨[], by simp⟩, by simp⟩
  | cons t ts ih =>
    intro cur st st' out out' h hlen hcnt
    rw [replaceAll] at h
    cases hx : replaceIn o cur true t { st with defs := [] } with
    | none => simp [hx] at h
    | some x =>
      simp only [hx] at h
      obtain ⟨qs, ds, g⟩ := replaceIn_grows (m := x.1) (st' := x.2) hx
      have huse := fun hR : Reads o => replaceIn_uses hR (m := x.1) (st' := x.2) hx
      have hrw := replaceIn_rew (m := x.1) (st' := x.2) hx
      have hql : qs.length = ds.length := g.define_.length_eq
      have gd : x.2.defs = ds := by rw [g.defs]; rfl
      have gn : x.2.names = st.names ++ qs := g.names
      have gc : x.2.counter = st.counter + qs.length := g.counter
      have go : x.2.off = st.off + qs.length := g.off
      rw [gd] at h
      obtain ⟨marks, e1, e2, e3, e4, ⟨l, e5⟩, e6⟩ := ih h (by simp only [List.length_append, List.length_cons, List.length_nil]; omega)
        (by rw [gn, List.length_append]; omega)
      have gp : x.2.pos = st.pos ++ (List.range qs.length).map fun i => cur + st.off + i := g.pos
      rw [gp] at e2
      have en : st'.names = st.names ++ qs ++ l := by rw [e5, gn]
      have cp1 : (ds.map fun d => (d, true)).countP (fun x : Node L ι K H G × Bool => x.2) = ds.length := by
        rw [List.countP_map]
        exact (List.countP_eq_length.2 (by simp)).trans rfl
      have cp2 : (ds.map fun d => (d, true)).countP (fun x : Node L ι K H G × Bool => !x.2) = 0 := by
        rw [List.countP_map]
        exact List.countP_eq_zero.2 (by simp)
      have eu : unmarked ((ds.map fun d => (d, true)) ++ (x.1, false) :: marks) = x.1 :: unmarked marks := by
        have : (ds.map fun d => (d, true)).filter (fun x : Node L ι K H G × Bool => !x.2) = [] := by simp
        simp only [unmarked, List.filter_append, this, List.nil_append, List.filter_cons, Bool.not_false, if_true, List.map_cons]
      refine ⟨(ds.map fun d => (d, true)) ++ (x.1, false) :: marks, ?_, ?_, ?_, ?_, ⟨qs ++ l, by rw [en, List.append_assoc]⟩, ?_⟩
      · rw [e1]
        simp [Function.comp_def]
      · have e7 : markedAt (out.length + ds.length) ((x.1, false) :: marks) = markedAt (out ++ ds ++ [x.1]).length marks := by
          simp [markedAt, List.zipIdx_cons, Nat.add_assoc]
        rw [markedAt_append, List.length_map, e7, e2, List.append_assoc, markedAt_defs, hql, hlen]
      · rw [List.countP_append, cp1, List.countP_cons]
        simp only [Bool.false_eq_true, if_false, Nat.add_zero]
        rw [gn, List.length_append] at e3
        omega
      · rw [List.countP_append, cp2, List.countP_cons]
        simp only [Bool.not_false, if_true, List.length_cons]
        omega
      · intro k d b hk
        rcases Nat.lt_trichotomy k ds.length with hlt | rfl | hgt
        · rw [List.getElem?_append_left (by simpa using hlt), List.getElem?_map, Option.map_eq_some_iff] at hk
          obtain ⟨d', hd', he⟩ := hk
          simp only [Prod.mk.injEq] at he
          obtain ⟨rfl, rfl⟩ := he
          have ht : List.take k ((ds.map fun d => (d, true)) ++ (x.1, false) :: marks) = (ds.take k).map fun d => (d, true) := by
            rw [List.take_append_of_le_length (by simp; omega), List.map_take]
          have c1 : ((ds.take k).map fun d => (d, true)).countP (fun x : Node L ι K H G × Bool => x.2) = k := by
            rw [List.countP_map]
            refine (List.countP_eq_length.2 (by simp)).trans ?_
            simp; omega
          have c2 : ((ds.take k).map fun d => (d, true)).countP (fun x : Node L ι K H G × Bool => !x.2) = 0 := by
            rw [List.countP_map]
            exact List.countP_eq_zero.2 (by simp)
          rw [ht, c1, c2, eu]
          obtain ⟨q, hq⟩ : ∃ q, qs[k]? = some q := ⟨qs[k]'(by omega), List.getElem?_eq_getElem (by omega)⟩
          have hqm : q ∈ qs := List.mem_of_getElem? hq
          refine ⟨t, x.1, rfl, rfl, ?_⟩
          simp only [if_true]
          refine ⟨q, ?_, (g.mem q hqm).1, (g.mem q hqm).2, ?_, ?_, ?_, ?_⟩
          · rw [en, List.append_assoc, List.getElem?_append_right (by omega), Nat.add_sub_cancel_left, List.getElem?_append_left (by omega)]
            exact hq
          · have := g.define_
            rw [List.forall₂_iff_get] at this
            have h2 := this.2 k (by omega) (by omega)
            rw [List.getElem?_eq_getElem (by omega), Option.some.injEq] at hq hd'
            simp only [List.get_eq_getElem] at h2
            rw [hq, hd'] at h2
            exact h2
          · rw [g.label k q hq]
            simp only [hcnt]
            congr 1
            omega
          · intro p hp
            refine g.new k q hq p ?_
            rw [en, List.append_assoc, List.take_append, List.take_of_length_le (by omega), Nat.add_sub_cancel_left,
              List.take_append_of_le_length (by omega)] at hp
            exact hp
          · intro hR
            obtain ⟨l', e', h'⟩ := huse hR
            rw [gn] at e'
            have e'' : qs = l' := List.append_cancel_left e'
            exact h' q (e'' ▸ hqm)
        · rw [List.getElem?_append_right (by simp)] at hk
          simp only [List.length_map, Nat.sub_self, List.getElem?_cons_zero, Option.some.injEq, Prod.mk.injEq] at hk
          obtain ⟨rfl, rfl⟩ := hk
          have ht : List.take ds.length ((ds.map fun d => (d, true)) ++ (x.1, false) :: marks) = ds.map fun d => (d, true) := by
            rw [List.take_append_of_le_length (by simp), List.take_of_length_le (by simp)]
          rw [ht, cp1, cp2, eu]
          refine ⟨t, x.1, rfl, rfl, ?_⟩
          rw [if_neg (by simp)]
          refine ⟨rfl, ?_⟩
          rw [en, List.take_append_of_le_length (by simp; omega), List.take_of_length_le (by simp; omega), ← gn]
          exact hrw
        · obtain ⟨k', rfl⟩ : ∃ k', k = ds.length + (k' + 1) := ⟨k - ds.length - 1, by omega⟩
          rw [List.getElem?_append_right (by simp)] at hk
          simp only [List.length_map, Nat.add_sub_cancel_left, List.getElem?_cons_succ] at hk
          have ht : List.take (ds.length + (k' + 1)) ((ds.map fun d => (d, true)) ++ (x.1, false) :: marks) =
              (ds.map fun d => (d, true)) ++ (x.1, false) :: marks.take k' := by
            rw [List.take_append, List.take_of_length_le (by simp)]
            simp
          rw [ht, eu, List.countP_append, List.countP_append, cp1, cp2, List.countP_cons, List.countP_cons]
          simp only [Bool.false_eq_true, if_false, Bool.not_false, if_true, Nat.add_zero, Nat.zero_add]
          obtain ⟨u, m, hu, hm, hb⟩ := e6 k' d b hk
          refine ⟨u, m, by simpa using hu, by simpa using hm, ?_⟩
          have ei : st.names.length + (ds.length + (marks.take k').countP fun x => x.2) = x.2.names.length + (marks.take k').countP fun x => x.2 := by
            rw [gn, List.length_append]; omega
          rw [ei]
          exact hb

end SeQuant.Cse
