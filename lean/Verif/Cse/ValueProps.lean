import Verif.Cse.StateProps

/-!
# Common subexpression elimination keeps the results (C76)
-/

namespace SeQuant.Cse

open SeQuant.Eval SeQuant.Binarize SeQuant.Optimize

variable {L ι K H G S : Type} [DecidableEq ι] [DecidableEq L] [DecidableEq S] [CommRing K] [Star K] [DecidableEq K]

/-- The indices of the operands of a sum, and of an adjoint, are among those of the node. -/
def Nested : Node L ι K H G → Prop
  | .leaf _ => True
  | .node a l r =>
    match a.op with
    | .prod => True
    | .sum => (∀ x ∈ l.label.idx, x ∈ a.idx) ∧ ∀ x ∈ r.label.idx, x ∈ a.idx
    | .adjoint => ∀ x ∈ l.label.idx, x ∈ a.idx

/-- What is needed of the trees `ts`, of the conversion of expressions and of the comparison of nodes in stores with the property `P`. -/
structure Laws (o : Opts L ι K H G) (sp : ι → S) (P : Store L ι S K → Prop) (ts : List (Node L ι K H G)) : Prop where
  space : ∀ D, P D → D.sp = sp
  /-- A node has every index once, a scalar has none, and the phase is a sign. -/
  shape : ∀ t ∈ ts, ∀ n ∈ inner t, n.label.idx.Nodup ∧ (n.label.isTensor = false → n.label.idx = []) ∧ n.label.phase * n.label.phase = 1
  nested : ∀ t ∈ ts, ∀ n ∈ inner t, Nested n
  /-- The tree for the name of a subexpression reads the name. -/
  tree : ∀ t ∈ ts, ∀ n ∈ inner t, ∀ lbl m, o.tr.tree (scaledBy n.label.phase (cseName o.sortIdx lbl n)) = some m →
    m.label.idx.toFinset = n.label.idx.toFinset ∧ ∀ D, P D → nodeVal D m = fun ρ => (n.label.phase : K) * nxVal D (cseName o.sortIdx lbl n) ρ
  res : ∀ n ∈ ts, n ∈ inner n → ∀ lbl m, o.tr.res n.label.expr (scaledBy n.label.phase (cseName o.sortIdx lbl n)) = some m →
    m.label.expr = n.label.expr ∧ m.label.idx.toFinset = n.label.idx.toFinset ∧
      ∀ D, P D → nodeVal D m = fun ρ => (n.label.phase : K) * nxVal D (cseName o.sortIdx lbl n) ρ
  /-- The tree for the definition of a subexpression has the value of the subexpression. -/
  def_ : ∀ t ∈ ts, ∀ n ∈ inner t, ∀ lbl e m, toExpr n = some e → o.tr.res (cseName o.sortIdx lbl n) e = some m →
    m.label.expr = cseName o.sortIdx lbl n ∧ ∀ D, P D → nodeVal D m = nodeVal D n
  /-- Nodes that compare equal have the same value up to their phases. -/
  coh : ∀ t ∈ ts, ∀ n ∈ inner t, ∀ u ∈ ts, ∀ m ∈ inner u, o.eqName m n = true → m.label.isTensor = n.label.isTensor ∧
    m.label.idx.map sp = n.label.idx.map sp ∧ ∀ D, P D → ∀ p, (m.label.phase : K) * nodeArr D m p = (n.label.phase : K) * nodeArr D n p

/-- A name has the value of its subexpression. -/
def Holds (sortIdx : List ι → List ι) (D : Store L ι S K) (q : Node L ι K H G × L) : Prop :=
  match cseName sortIdx q.2 q.1 with
  | .const _ => False
  | .var v => D.var v = nodeArr D q.1 []
  | .ten t => ∀ p, D.arr t.label t.slots (t.idx.map D.sp) p = nodeVal D q.1 (asg t.idx p)

variable {o : Opts L ι K H G} {sp : ι → S} {le : S → S → Bool} {P : Store L ι S K → Prop} {ts : List (Node L ι K H G)}

omit [DecidableEq ι] [DecidableEq L] [DecidableEq S] [CommRing K] [Star K] [DecidableEq K] in
theorem cseName_tensor {sortIdx : List ι → List ι} {lbl : L} {n : Node L ι K H G} (h : n.label.isTensor = true) :
    cseName sortIdx lbl n = .ten ⟨lbl, false, ⟨.nonsymm, false, false, [], []⟩, sortIdx n.label.idx⟩ := by
  unfold EE.isTensor at h
  unfold cseName
  split at h <;> simp_all

omit [DecidableEq ι] [DecidableEq L] [DecidableEq S] [CommRing K] [Star K] [DecidableEq K] in
theorem cseName_scalar {sortIdx : List ι → List ι} {lbl : L} {n : Node L ι K H G} (h : n.label.isTensor = false) :
    cseName sortIdx lbl n = .var lbl := by
  unfold EE.isTensor at h
  unfold cseName
  split at h <;> simp_all

/-- The name of a node that compares equal to the defining one has its value, up to the phases. -/
theorem name_value (L₀ : Laws o sp P ts) (hs : o.sortIdx = sortBy sp le) {t u n m : Node L ι K H G} (ht : t ∈ ts) (hn : n ∈ inner t) (hu : u ∈ ts)
    (hm : m ∈ inner u) (he : o.eqName m n = true) {lbl : L} {D : Store L ι S K} (hD : P D) (hh : Holds o.sortIdx D (m, lbl)) (h1 : m.label.phase = 1) :
    (fun ρ => (n.label.phase : K) * nxVal D (cseName o.sortIdx lbl n) ρ) = nodeVal D n := by
  obtain ⟨e1, e2, e3⟩ := L₀.coh t ht n hn u hu m hm he
  have e3 := e3 D hD
  rw [h1] at e3
  obtain ⟨s1, s2, s3⟩ := L₀.shape t ht n hn
  obtain ⟨r1, r2, -⟩ := L₀.shape u hu m hm
  have hp : (n.label.phase : K) * (n.label.phase : K) = 1 := by rw [← Int.cast_mul, s3, Int.cast_one]
  have key : ∀ p, (n.label.phase : K) * nodeArr D m p = nodeArr D n p := by
    intro p
    have := e3 p
    rw [Int.cast_one, one_mul] at this
    rw [this, ← mul_assoc, hp, one_mul]
  funext ρ
  cases hx : n.label.isTensor with
  | false =>
    have hx' : m.label.isTensor = false := by rw [e1, hx]
    rw [cseName_scalar hx]
    unfold Holds at hh
    simp only at hh
    rw [cseName_scalar hx'] at hh
    simp only at hh
    rw [nxVal, hh, key, nodeVal, s2 hx, List.map_nil]
  | true =>
    have hx' : m.label.isTensor = true := by rw [e1, hx]
    rw [cseName_tensor hx]
    unfold Holds at hh
    simp only at hh
    rw [cseName_tensor hx'] at hh
    simp only at hh
    have hsp := L₀.space D hD
    rw [hs] at hh ⊢
    rw [nxVal, Store.ten, if_neg (by simp)]
    have i1 : ∀ l : List ι, (⟨lbl, false, ⟨.nonsymm, false, false, [], []⟩, sortBy sp le l⟩ : Ten L ι).idx = sortBy sp le l := by
      intro l; simp [Ten.idx]
    have i2 : ∀ l : List ι, (⟨lbl, false, ⟨.nonsymm, false, false, [], []⟩, sortBy sp le l⟩ : Ten L ι).slots = l.length := by
      intro l; simp [Ten.slots, (sortBy_perm sp le l).length_eq]
    have hlen : m.label.idx.length = n.label.idx.length := by simpa using congrArg List.length e2
    have hh' := hh ((sortBy sp le n.label.idx).map ρ)
    rw [i1, i2, hsp, hlen, sort_map sp le e2] at hh'
    rw [i1, i2, hsp, hh', nodeVal, sort_asg sp le e2 r1, key, nodeVal]

/-- A replaced tree has the value of the tree it replaces. -/
theorem replaceIn_value (L₀ : Laws o sp P ts) (hs : o.sortIdx = sortBy sp le) {t : Node L ι K H G} (ht : t ∈ ts) {cur : Nat} :
    ∀ {n m : Node L ι K H G} {root : Bool} {st st' : St L ι K H G}, (∀ x ∈ inner n, x ∈ inner t) → (root = true → n = t) →
      (∀ q ∈ st.names, ∃ u ∈ ts, q.1 ∈ inner u) → (∀ x ∈ inner n, o.eqName x x = true) →
      replaceIn o cur root n st = some (m, st') → (∀ q ∈ st'.names, q.1.label.phase = 1) →
      m.label.idx.toFinset = n.label.idx.toFinset ∧ (root = true → m.label.expr = n.label.expr) ∧
        ∀ D, P D → (∀ q ∈ st'.names, Holds o.sortIdx D q) → nodeVal D m = nodeVal D n := by
  intro n
  induction n with
  | leaf a =>
    intro m root st st' _ _ _ _ h _
    rw [replaceIn, Option.some.injEq, Prod.mk.injEq] at h
    rw [← h.1]
    exact ⟨rfl, fun _ => rfl, fun _ _ _ => rfl⟩
  | node a l r ihl ihr =>
    intro m root st st' hin hroot hnames hrefl h hph
    have hself : (.node a l r : Node L ι K H G) ∈ inner (.node a l r : Node L ι K H G) := by simp [inner]
    have hn := hin _ hself
    rw [replaceIn] at h
    by_cases hc : o.isCommon (.node a l r) = true
    · rw [if_pos hc] at h
      -- the name that is used, and that it holds
      have main : ∀ q : Node L ι K H G × L, q ∈ st'.names → (∃ u ∈ ts, q.1 ∈ inner u) → o.eqName q.1 (.node a l r) = true →
          place o root (.node a l r) q.2 = some m → m.label.idx.toFinset = (ETree.node a l r).label.idx.toFinset ∧
            (root = true → m.label.expr = (ETree.node a l r).label.expr) ∧
            ∀ D, P D → (∀ q ∈ st'.names, Holds o.sortIdx D q) → nodeVal D m = nodeVal D (.node a l r) := by
        intro q hq ⟨u, hu, hqu⟩ he hp
        have hval : ∀ D, P D → (∀ q ∈ st'.names, Holds o.sortIdx D q) →
            (fun ρ => ((ETree.node a l r).label.phase : K) * nxVal D (cseName o.sortIdx q.2 (.node a l r)) ρ) = nodeVal D (.node a l r) :=
          fun D hD hh => name_value L₀ hs ht hn hu hqu he hD (hh q hq) (hph q hq)
        unfold place at hp
        cases root with
        | true =>
          have hnt := hroot rfl
          rw [if_pos rfl] at hp
          have hp' : o.tr.res (ETree.node a l r).label.expr (scaledBy (ETree.node a l r).label.phase (cseName o.sortIdx q.2 (.node a l r))) = some m := by
            cases hx : (ETree.node a l r).label.expr with
            | const c => rw [hx] at hp; simp at hp
            | var v => rw [hx] at hp; exact hp
            | ten v => rw [hx] at hp; exact hp
          obtain ⟨e1, e2, e3⟩ := L₀.res _ (hnt ▸ ht) hself q.2 m hp'
          exact ⟨e2, fun _ => e1, fun D hD hh => by rw [e3 D hD, hval D hD hh]⟩
        | false =>
          simp only [Bool.false_eq_true, if_false] at hp
          obtain ⟨e2, e3⟩ := L₀.tree t ht _ hn q.2 m hp
          exact ⟨e2, by simp, fun D hD hh => by rw [e3 D hD, hval D hD hh]⟩
      unfold replaceNode at h
      cases hf : st.names.find? (fun q => o.eqName q.1 (.node a l r)) with
      | some q =>
        simp only [hf] at h
        cases hp : place o root (.node a l r) q.2 with
        | none => simp [hp] at h
        | some m' =>
          simp only [hp, Option.some.injEq, Prod.mk.injEq] at h
          obtain ⟨rfl, rfl⟩ := h
          have hq := List.mem_of_find?_eq_some hf
          exact main q hq (hnames q hq) (by simpa using List.find?_some hf) hp
      | none =>
        simp only [hf] at h
        cases hd : define_ o (.node a l r) (o.gen (.node a l r) st.counter) with
        | none => simp [hd] at h
        | some d =>
          cases hp : place o root (.node a l r) (o.gen (.node a l r) st.counter) with
          | none => simp [hd, hp] at h
          | some m' =>
            simp only [hd, hp, Option.some.injEq, Prod.mk.injEq] at h
            obtain ⟨rfl, rfl⟩ := h
            exact main (.node a l r, o.gen (.node a l r) st.counter) (by simp) ⟨t, ht, hn⟩ (hrefl _ hself) hp
    · rw [if_neg hc] at h
      cases hl : replaceIn o cur false l st with
      | none => simp [hl] at h
      | some x =>
        cases hr : replaceIn o cur false r x.2 with
        | none => simp [hl, hr] at h
        | some y =>
          simp only [hl, hr, Option.some.injEq, Prod.mk.injEq] at h
          obtain ⟨rfl, rfl⟩ := h
          obtain ⟨q1, d1, g1⟩ := replaceIn_grows (m := x.1) (st' := x.2) hl
          obtain ⟨q2, d2, g2⟩ := replaceIn_grows (m := y.1) (st' := y.2) hr
          have hsub : ∀ q ∈ x.2.names, q ∈ y.2.names := fun q hq => by rw [g2.names]; exact List.mem_append_left _ hq
          have inl : ∀ z ∈ inner l, z ∈ inner (.node a l r : Node L ι K H G) := fun z hz => by simp [inner, hz]
          have inr : ∀ z ∈ inner r, z ∈ inner (.node a l r : Node L ι K H G) := fun z hz => by simp [inner, hz]
          have hnx : ∀ q ∈ x.2.names, ∃ u ∈ ts, q.1 ∈ inner u := by
            intro q hq
            rw [g1.names] at hq
            rcases List.mem_append.1 hq with hq | hq
            · exact hnames q hq
            · exact ⟨t, ht, hin _ (inl _ (g1.mem q hq).1)⟩
          obtain ⟨l1, -, l3⟩ := ihl (m := x.1) (st' := x.2) (fun z hz => hin z (inl z hz)) (by simp) hnames (fun z hz => hrefl z (inl z hz)) hl
            (fun q hq => hph q (hsub q hq))
          obtain ⟨r1, -, r3⟩ := ihr (m := y.1) (st' := y.2) (fun z hz => hin z (inr z hz)) (by simp) hnx (fun z hz => hrefl z (inr z hz)) hr hph
          refine ⟨rfl, fun _ => rfl, fun D hD hh => ?_⟩
          have vl := l3 D hD fun q hq => hh q (hsub q hq)
          have vr := r3 D hD hh
          have hnest := L₀.nested t ht _ hn
          unfold Nested at hnest
          have ml : ∀ z, z ∈ x.1.label.idx ↔ z ∈ l.label.idx := fun z => by rw [← List.mem_toFinset, l1, List.mem_toFinset]
          have mr : ∀ z, z ∈ y.1.label.idx ↔ z ∈ r.label.idx := fun z => by rw [← List.mem_toFinset, r1, List.mem_toFinset]
          cases ha : a.op with
          | prod => rw [nodeVal_prod D _ _ _ ha, nodeVal_prod D _ _ _ ha, l1, r1, vl, vr]
          | sum =>
            simp only [ha] at hnest
            rw [nodeVal_sum D _ _ _ ha (fun z hz => hnest.1 z ((ml z).1 hz)) (fun z hz => hnest.2 z ((mr z).1 hz)),
              nodeVal_sum D _ _ _ ha hnest.1 hnest.2, vl, vr]
          | adjoint =>
            simp only [ha] at hnest
            rw [nodeVal_adj D _ _ _ ha (fun z hz => hnest z ((ml z).1 hz)), nodeVal_adj D _ _ _ ha hnest, vl]

/-! ### Definitions -/

omit [DecidableEq ι] [DecidableEq L] [DecidableEq S] [CommRing K] [Star K] [DecidableEq K] in
theorem cseName_label (sortIdx : List ι → List ι) (lbl : L) (n : Node L ι K H G) : NX.label? (cseName sortIdx lbl n) = some lbl := by
  unfold cseName; split <;> rfl

/-- A name keeps its value when something else is assigned to. -/
theorem Holds.congr {sortIdx : List ι → List ι} {D E : Store L ι S K} {q : Node L ι K H G × L} (h : Holds sortIdx D q)
    (ha : AgreeOn (fun l => l = q.2 ∨ l ∈ reads q.1) D E) : Holds sortIdx E q := by
  have e1 := nodeArr_congr (ha.mono fun l (hl : l ∈ reads q.1) => Or.inr hl)
  have e2 := nodeVal_congr (ha.mono fun l (hl : l ∈ reads q.1) => Or.inr hl)
  have hlab := cseName_label sortIdx q.2 q.1
  unfold Holds at h ⊢
  cases hx : cseName sortIdx q.2 q.1 with
  | const c => rw [hx] at h; exact h
  | var v =>
    rw [hx] at h hlab
    simp only [NX.label?, Option.some.injEq] at h hlab
    simp only
    rw [← ha.var v (Or.inl hlab), h, e1]
  | ten t =>
    rw [hx] at h hlab
    simp only [NX.label?, Option.some.injEq] at h hlab
    simp only
    intro p
    rw [← ha.arr t.label (Or.inl hlab), ← ha.sp, h p, e2]

/-- A definition gives a name its value. -/
theorem assign_holds {sortIdx : List ι → List ι} {D : Store L ι S K} {q : Node L ι K H G × L} {d : Node L ι K H G}
    (he : d.label.expr = cseName sortIdx q.2 q.1) (hv : nodeVal D d = nodeVal D q.1) (hr : q.2 ∉ reads q.1)
    (h0 : q.1.label.isTensor = false → q.1.label.idx = []) : Holds sortIdx (assign D d) q := by
  have hag : AgreeOn (· ∈ reads q.1) D (assign D d) := by
    refine (assign_agree D d).mono fun l hl r hlr => ?_
    rw [he, cseName_label, Option.some.injEq] at hlr
    rintro rfl
    exact hr (hlr ▸ hl)
  unfold Holds
  cases hx : q.1.label.isTensor with
  | false =>
    have hc : cseName sortIdx q.2 q.1 = .var q.2 := cseName_scalar hx
    rw [hc] at he ⊢
    simp only
    rw [← nodeArr_congr hag]
    unfold assign
    rw [he]
    simp only [if_true]
    rw [hv, nodeVal, h0 hx, List.map_nil]
  | true =>
    have hc := cseName_tensor (sortIdx := sortIdx) (lbl := q.2) hx
    rw [hc] at he ⊢
    simp only
    intro p
    rw [← nodeVal_congr hag]
    unfold assign
    rw [he]
    simp only [and_self, if_true]
    rw [hv]

/-- Evaluating definitions makes the names hold. -/
theorem run_defs (L₀ : Laws o sp P ts) {B : List (Node L ι K H G)} (hB : ∀ D, P D → ∀ n ∈ B, P (assign D n)) :
    ∀ {qs : List (Node L ι K H G × L)} {ds : List (Node L ι K H G)} {old : List (Node L ι K H G × L)} {D : Store L ι S K},
      List.Forall₂ (fun q d => define_ o q.1 q.2 = some d) qs ds → (∀ d ∈ ds, d ∈ B) → (∀ q ∈ qs, ∃ u ∈ ts, q.1 ∈ inner u) →
      (∀ q ∈ old ++ qs, ∀ p ∈ old ++ qs, q.2 ∉ reads p.1) → ((old ++ qs).map Prod.snd).Nodup → P D → (∀ q ∈ old, Holds o.sortIdx D q) →
      P (run D ds) ∧ (∀ q ∈ old ++ qs, Holds o.sortIdx (run D ds) q) ∧ AgreeOn (fun l => ∀ q ∈ qs, l ≠ q.2) D (run D ds) := by
  intro qs
  induction qs with
  | nil =>
    intro ds old D h hb hq hr hd hD hh
    cases h
    exact ⟨hD, by rw [List.append_nil]; exact hh, AgreeOn.refl _ _⟩
  | cons q qs ih =>
    intro ds old D h hb hq hr hd hD hh
    cases h with
    | cons h1 h2 =>
      rename_i d ds
      obtain ⟨u, hu, hqu⟩ := hq q (by simp)
      have hdef : d.label.expr = cseName o.sortIdx q.2 q.1 ∧ ∀ D, P D → nodeVal D d = nodeVal D q.1 := by
        unfold define_ at h1
        cases hx : toExpr q.1 with
        | none => simp [hx] at h1
        | some e => simp only [hx] at h1; exact L₀.def_ u hu q.1 hqu q.2 e d hx h1
      have hD' : P (assign D d) := hB D hD d (hb d (by simp))
      have hnew : Holds o.sortIdx (assign D d) q := assign_holds hdef.1 (hdef.2 D hD) (hr q (by simp) q (by simp)) (L₀.shape u hu q.1 hqu).2.1
      have hold : ∀ p ∈ old, Holds o.sortIdx (assign D d) p := by
        intro p hp
        refine (hh p hp).congr ((assign_agree D d).mono fun l hl r hlr => ?_)
        rw [hdef.1, cseName_label, Option.some.injEq] at hlr
        rintro rfl
        rcases hl with hl | hl
        · rw [List.map_append, List.nodup_append] at hd
          exact hd.2.2 p.2 (List.mem_map_of_mem hp) q.2 (by simp) (by rw [← hl, hlr])
        · exact hr q (by simp) p (by simp [hp]) (hlr ▸ hl)
      have e : (old ++ [q]) ++ qs = old ++ q :: qs := by simp
      obtain ⟨g1, g2, g3⟩ := ih (old := old ++ [q]) h2 (fun x hx => hb x (by simp [hx])) (fun x hx => hq x (by simp [hx])) (by rw [e]; exact hr)
        (by rw [e]; exact hd) hD' (by
          intro p hp
          rcases List.mem_append.1 hp with hp | hp
          · exact hold p hp
          · rw [List.mem_singleton] at hp; subst hp; exact hnew)
      rw [e] at g2
      refine ⟨g1, g2, AgreeOn.trans ((assign_agree D d).mono fun l hl r hlr => ?_) (g3.mono fun l hl p hp => hl p (by simp [hp]))⟩
      rw [hdef.1, cseName_label, Option.some.injEq] at hlr
      rw [← hlr]
      exact hl q (by simp)

/-! ### All trees -/

/-- Labels of subexpressions are new and different from each other. -/
structure Fresh (o : Opts L ι K H G) (ts : List (Node L ι K H G)) : Prop where
  reads : ∀ n k, ∀ t ∈ ts, o.gen n k ∉ reads t
  roots : ∀ n k, ∀ t ∈ ts, NX.label? t.label.expr ≠ some (o.gen n k)
  inj : ∀ n k n' k', o.gen n k = o.gen n' k' → k = k'

/-- No tree assigns to what it, or a tree before it, reads. -/
def Single (ts : List (Node L ι K H G)) : Prop :=
  ∀ pre t post, ts = pre ++ t :: post → ∀ u ∈ pre ++ [t], ∀ r, NX.label? t.label.expr = some r → r ∉ reads u

/-- The labels of subexpressions. -/
def IsCse (o : Opts L ι K H G) (l : L) : Prop := ∃ n k, l = o.gen n k

/-- The trees from some tree on. -/
theorem replaceAll_value (L₀ : Laws o sp P ts) (hs : o.sortIdx = sortBy sp le) (hrefl : ∀ t ∈ ts, ∀ n ∈ inner t, o.eqName n n = true)
    (hf : Fresh o ts) (hsingle : Single ts) {final : List (Node L ι K H G)} (hP : ∀ D, P D → ∀ n, n ∈ ts ∨ n ∈ final → P (assign D n)) :
    ∀ {rest pre : List (Node L ι K H G)} {cur : Nat} {st st' : St L ι K H G} {out : List (Node L ι K H G)} {D E : Store L ι S K},
      ts = pre ++ rest → replaceAll o cur rest st out = some (final, st') → (∀ q ∈ st'.names, q.1.label.phase = 1) →
      (∀ q ∈ st.names, (∃ u ∈ pre, q.1 ∈ inner u) ∧ ∃ k < st.counter, q.2 = o.gen q.1 k) → (st.names.map Prod.snd).Nodup →
      P D → P E → AgreeOn (fun l => ¬ IsCse o l) D E → (∀ q ∈ st.names, Holds o.sortIdx E q) →
      ∃ more, final = out ++ more ∧ AgreeOn (fun l => ¬ IsCse o l) (run D rest) (run E more) := by
  intro rest
  induction rest with
  | nil =>
    intro pre cur st st' out D E hts h _ _ _ _ _ hag _
    rw [replaceAll, Option.some.injEq, Prod.mk.injEq] at h
    exact ⟨[], by simp [h.1], hag⟩
  | cons t rest ih =>
    intro pre cur st st' out D E hts h hph hnames hnd hD hE hag hh
    rw [replaceAll] at h
    cases hx : replaceIn o cur true t { st with defs := [] } with
    | none => simp [hx] at h
    | some x =>
      simp only [hx] at h
      have ht : t ∈ ts := by rw [hts]; simp
      obtain ⟨qs, ds, g⟩ := replaceIn_grows (m := x.1) (st' := x.2) hx
      have gn : x.2.names = st.names ++ qs := g.names
      have gd : x.2.defs = ds := by have := g.defs; simpa using this
      obtain ⟨⟨tail, e1⟩, ⟨l2, e2⟩⟩ := replaceAll_grows h
      rw [gd] at e1 h
      have hpre : ∀ u ∈ pre, u ∈ ts := fun u hu => by rw [hts]; simp [hu]
      have hstn : ∀ q ∈ st.names, ∃ u ∈ ts, q.1 ∈ inner u := fun q hq => by
        obtain ⟨⟨u, hu, hi⟩, -⟩ := hnames q hq
        exact ⟨u, hpre u hu, hi⟩
      have hxn : ∀ q ∈ x.2.names, (∃ u ∈ pre ++ [t], q.1 ∈ inner u) ∧ ∃ k < x.2.counter, q.2 = o.gen q.1 k := by
        intro q hq
        have hcnt : x.2.counter = st.counter + qs.length := g.counter
        rw [gn] at hq
        rcases List.mem_append.1 hq with hq | hq
        · obtain ⟨⟨u, hu, hi⟩, k, hk, e⟩ := hnames q hq
          exact ⟨⟨u, by simp [hu], hi⟩, k, by omega, e⟩
        · refine ⟨⟨t, by simp, (g.mem q hq).1⟩, ?_⟩
          obtain ⟨i, hi, e⟩ := List.getElem_of_mem hq
          exact ⟨st.counter + i, by omega, g.label i q (by rw [List.getElem?_eq_getElem hi, e])⟩
      have hxu : ∀ q ∈ x.2.names, ∃ u ∈ ts, q.1 ∈ inner u := fun q hq => by
        obtain ⟨⟨u, hu, hi⟩, -⟩ := hxn q hq
        rcases List.mem_append.1 hu with hu | hu
        · exact ⟨u, hpre u hu, hi⟩
        · rw [List.mem_singleton] at hu; subst hu; exact ⟨u, ht, hi⟩
      have hnodup : (x.2.names.map Prod.snd).Nodup := by
        rw [gn, List.map_append, List.nodup_append]
        refine ⟨hnd, ?_, ?_⟩
        · rw [List.nodup_iff_getElem?_ne_getElem?]
          intro i j hij hj
          simp only [List.length_map] at hj
          have hi : i < qs.length := by omega
          simp only [List.getElem?_map, List.getElem?_eq_getElem hi, List.getElem?_eq_getElem hj, Option.map_some, ne_eq, Option.some.injEq]
          intro e
          rw [g.label i _ (List.getElem?_eq_getElem hi), g.label j _ (List.getElem?_eq_getElem hj)] at e
          have := hf.inj _ _ _ _ e
          simp at this
          omega
        · intro a ha b hb hab
          obtain ⟨q, hq, rfl⟩ := List.mem_map.1 ha
          obtain ⟨p, hp, rfl⟩ := List.mem_map.1 hb
          obtain ⟨-, k, hk, e⟩ := hnames q hq
          obtain ⟨i, hi, ei⟩ := List.getElem_of_mem hp
          have e' := g.label i p (by rw [List.getElem?_eq_getElem hi, ei])
          rw [e, e'] at hab
          have := hf.inj _ _ _ _ hab
          simp at this
          omega
      have hreads : ∀ q ∈ x.2.names, ∀ p ∈ x.2.names, q.2 ∉ reads p.1 := by
        intro q hq p hp hmem
        obtain ⟨-, k, -, e⟩ := hxn q hq
        obtain ⟨u, hu, hi⟩ := hxu p hp
        exact hf.reads q.1 k u hu (e ▸ inner_reads hi _ hmem)
      have hfin : ∀ d ∈ ds, d ∈ final := fun d hd => by rw [e1]; simp [hd]
      have hxf : x.1 ∈ final := by rw [e1]; simp
      -- definitions
      obtain ⟨hE1, hh1, hag1⟩ := run_defs L₀ (B := final) (fun D hD n hn => hP D hD n (Or.inr hn)) (old := st.names) g.define_ hfin
        (fun q hq => hxu q (by rw [gn]; simp [hq])) (by rw [← gn]; exact hreads) (by rw [← gn]; exact hnodup) hE hh
      rw [← gn] at hh1
      have hag2 : AgreeOn (fun l => ¬ IsCse o l) D (run E ds) := hag.trans (hag1.mono fun l hl q hq e => hl (by
        obtain ⟨-, k, -, e'⟩ := hxn q (by rw [gn]; simp [hq])
        exact ⟨q.1, k, e.trans e'⟩))
      -- the tree
      obtain ⟨-, v2, v3⟩ := replaceIn_value L₀ hs ht (m := x.1) (st := { st with defs := [] }) (st' := x.2) (fun _ h => h) (fun _ => rfl) hstn (hrefl t ht) hx
        (fun q hq => hph q (by rw [e2]; simp [hq]))
      have hval : nodeVal D t = nodeVal (run E ds) x.1 := by
        rw [v3 _ hE1 hh1]
        exact nodeVal_congr (hag2.mono fun l hl ⟨n, k, e⟩ => hf.reads n k t ht (e ▸ hl))
      have hag3 : AgreeOn (fun l => ¬ IsCse o l) (assign D t) (assign (run E ds) x.1) := assign_congr hag2 (v2 rfl).symm hval
      have hh3 : ∀ q ∈ x.2.names, Holds o.sortIdx (assign (run E ds) x.1) q := by
        intro q hq
        refine (hh1 q hq).congr ((assign_agree _ x.1).mono fun l hl r hlr => ?_)
        rw [v2 rfl] at hlr
        rintro rfl
        rcases hl with hl | hl
        · obtain ⟨-, k, -, e⟩ := hxn q hq
          exact hf.roots q.1 k t ht (by rw [hlr, hl, e])
        · obtain ⟨⟨u, hu, hi⟩, -⟩ := hxn q hq
          exact hsingle pre t rest hts u hu l hlr (inner_reads hi _ hl)
      obtain ⟨more, m1, m2⟩ := ih (pre := pre ++ [t]) (by rw [hts]; simp) h hph hxn hnodup (hP D hD t (Or.inl ht)) (hP _ hE1 x.1 (Or.inr hxf)) hag3 hh3
      refine ⟨ds ++ [x.1] ++ more, by rw [m1]; simp, ?_⟩
      have r1 : run D (t :: rest) = run (assign D t) rest := rfl
      have r2 : run E (ds ++ [x.1] ++ more) = run (assign (run E ds) x.1) more := by simp [run, List.foldl_append]
      rw [r1, r2]
      exact m2

omit [DecidableEq ι] [CommRing K] [Star K] in
theorem same_refl [DecidableEq H] [DecidableEq G] (sp : ι → S) : ∀ n : Node L ι K H G, same sp n n = true := by
  have hl : ∀ a : EE L ι K H G, sameLabel sp a a = true := by
    intro a
    unfold sameLabel
    cases a.expr <;> cases a.graph <;> simp [blockEq]
  intro n
  induction n with
  | leaf a => rw [same]; exact hl a
  | node a l r ihl ihr => rw [same, ihl, ihr, hl]; simp

variable [DecidableEq H] [DecidableEq G]

/-- Evaluating the trees that are left, with the definitions inserted, gives the same results as evaluating the trees before, in all stores with the
property `P`, provided that the nodes that define names have phase 1, that the labels of subexpressions are new, and that no tree assigns to
what it, or a tree before it, reads. -/
theorem eliminate_names_partial (c : Call L ι K H G S) {ts out : List (Node L ι K H G)} {st : St L ι K H G}
    (h : replaceAll (c.opts ts) 0 ts St.init [] = some (out, st)) (hlaws : Laws (c.opts ts) c.sp P ts) (hf : Fresh (c.opts ts) ts) (hs : Single ts)
    (hP : ∀ D, P D → ∀ n, n ∈ ts ∨ n ∈ out → P (assign D n)) (hph : ∀ q ∈ st.names, q.1.label.phase = 1) {D : Store L ι S K} (hD : P D) :
    AgreeOn (fun l => ∀ n k, l ≠ c.gen n k) (run D ts) (run D out) := by
  obtain ⟨more, e, ha⟩ := replaceAll_value (le := c.le) hlaws rfl (fun _ _ n _ => same_refl c.sp n) hf hs hP (pre := []) rfl h hph (by simp [St.init])
    (by simp [St.init]) hD hD (AgreeOn.refl _ _) (by simp [St.init])
  rw [List.nil_append] at e
  rw [e]
  exact ha.mono fun l hl ⟨n, k, hc⟩ => hl n k hc

omit [DecidableEq ι] [DecidableEq L] [DecidableEq S] [CommRing K] [Star K] [DecidableEq K] [DecidableEq H] [DecidableEq G] in
/-- Names are those of common subexpressions. -/
theorem replaceAll_names [Zero K] [One K] [Add K] [Mul K] [IntCast K] [DecidableEq K] {o : Opts L ι K H G} : ∀ {ts : List (Node L ι K H G)} {cur : Nat}
    {st st' : St L ι K H G} {out out' : List (Node L ι K H G)}, replaceAll o cur ts st out = some (out', st') →
      ∀ q ∈ st'.names, q ∈ st.names ∨ ((∃ t ∈ ts, q.1 ∈ inner t) ∧ o.isCommon q.1 = true) := by
  intro ts
  induction ts with
  | nil =>
    intro cur st st' out out' h q hq
    rw [replaceAll, Option.some.injEq, Prod.mk.injEq] at h
    rw [← h.2] at hq
    exact Or.inl hq
  | cons t ts ih =>
    intro cur st st' out out' h q hq
    rw [replaceAll] at h
    cases hx : replaceIn o cur true t { st with defs := [] } with
    | none => simp [hx] at h
    | some x =>
      simp only [hx] at h
      obtain ⟨qs, ds, g⟩ := replaceIn_grows (m := x.1) (st' := x.2) hx
      rcases ih h q hq with hq | ⟨⟨u, hu, hi⟩, hc⟩
      · rw [g.names] at hq
        rcases List.mem_append.1 hq with hq | hq
        · exact Or.inl hq
        · exact Or.inr ⟨⟨t, by simp, (g.mem q hq).1⟩, (g.mem q hq).2⟩
      · exact Or.inr ⟨⟨u, by simp [hu], hi⟩, hc⟩

/-- The same if all nodes that are replaced have phase 1. -/
theorem eliminate_value_partial (c : Call L ι K H G S) {ts out : List (Node L ι K H G)} {pos : List Nat} (h : eliminate c ts = some (out, pos))
    (hlaws : Laws (c.opts ts) c.sp P ts) (hf : Fresh (c.opts ts) ts) (hs : Single ts)
    (hP : ∀ D, P D → ∀ n, n ∈ ts ∨ n ∈ out → P (assign D n))
    (hph : ∀ t ∈ ts, ∀ n ∈ inner t, (c.opts ts).isCommon n = true → n.label.phase = 1) {D : Store L ι S K} (hD : P D) :
    AgreeOn (fun l => ∀ n k, l ≠ c.gen n k) (run D ts) (run D out) := by
  unfold eliminate at h
  cases hx : replaceAll (c.opts ts) 0 ts St.init [] with
  | none => simp [hx] at h
  | some x =>
    simp only [hx, Option.some.injEq, Prod.mk.injEq] at h
    obtain ⟨rfl, rfl⟩ := h
    refine eliminate_names_partial c hx hlaws hf hs hP (fun q hq => ?_) hD
    rcases replaceAll_names hx q hq with h0 | ⟨⟨t, ht, hi⟩, hc⟩
    · simp [St.init] at h0
    · exact hph t ht _ hi hc

end SeQuant.Cse
