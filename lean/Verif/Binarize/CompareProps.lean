import Verif.Binarize.Networks

/-!
# Nodes that compare equal have the same value up to their phases (C57)
-/

namespace SeQuant.Binarize

open SeQuant.Eval SeQuant.Tensors SeQuant.Optimize

variable {L ι K H G S : Type} [DecidableEq ι] [CommRing K] [Star K]

/-- The array of a network: the elements with the given values of the listed indices, summed over all other indices. -/
noncomputable def netArr (D : Store L ι S K) (ts : List (Ten L ι)) (idx : List ι) (p : List Nat) : K :=
  sumL D.dims ((slotsOfTens ts).toFinset \ idx.toFinset).toList (tensProd D ts) (asg idx p)

/-- What is assumed of the canonicalization of networks of admissible tensors: networks with equal canonical graphs have the same array up to
the phases. -/
structure NetLaw (D : Store L ι S K) (cfg : Cfg L ι K H G) (Adm : Ten L ι → Prop) : Prop where
  unit : ∀ ts N, (cfg.net ts N).phase * (cfg.net ts N).phase = 1
  graph : ∀ ts ts' N N', (∀ t ∈ ts, Adm t) → (∀ t ∈ ts', Adm t) → (cfg.net ts N).graph = (cfg.net ts' N').graph →
    ∀ p, ((cfg.net ts N).phase : K) * netArr D ts (cfg.net ts N).idx p = ((cfg.net ts' N').phase : K) * netArr D ts' (cfg.net ts' N').idx p

/-- What is assumed of adjoint tensors: those that compare equal have the same array. -/
def AdjLaw [DecidableEq L] [DecidableEq S] (D : Store L ι S K) (Adm : Ten L ι → Prop) : Prop :=
  ∀ t u, Adm t → Adm u → t.adj = true → blockEq D.sp t u = true → ∀ p, D.ten t (asg t.idx p) = D.ten u (asg u.idx p)

/-- The phase of a product with a scalar is the product of the phases. -/
def PhasesKept (n : Node L ι K H G) : Prop :=
  match n with
  | .leaf _ => True
  | .node a l r => a.op = .prod → a.graph = none → a.phase = l.label.phase * r.label.phase

variable {D : Store L ι S K} {cfg : Cfg L ι K H G}

/-! ### Arrays of nodes -/

theorem pad_pad (k : Nat) (p : List Nat) : pad k (pad k p) = pad k p := by
  have h : (pad k p).length = k := by simp [pad]
  apply List.ext_getElem
  · simp [pad]
  · intro i h1 h2
    rw [h] at h2
    simp [pad, List.getElem?_range, h2]

theorem nodeArr_eq (n : Node L ι K H G) (h : Shape cfg n) (hn : n.label.idx.Nodup) (p : List Nat) :
    nodeArr D n p = nodeVal D n (asg n.label.idx p) := by
  cases n with
  | leaf a =>
    unfold nodeVal nodeArr
    simp only [plain, arrays, ETree.label] at hn ⊢
    cases ht : a.expr with
    | const c => rfl
    | var v => rfl
    | ten t =>
      simp only
      have e := (h.2.2 t ht).2
      rw [e] at hn ⊢
      rw [map_asg hn]
      rw [pad_pad]
  | node a l r =>
    unfold nodeVal nodeArr
    simp only [plain, ETree.label]
    cases a.op <;> simp only [arrays, asg_asg]

/-- The array of a node is that of its network. -/
theorem nodeArr_net {n : Node L ι K H G} (h : At D cfg n) (p : List Nat) :
    nodeArr D n p = scal D n * netArr D (collect n) n.label.idx p := by
  obtain ⟨⟨W, Q, hP⟩, hS⟩ := h
  rw [nodeArr_eq n hS hP.nodup, hP.val, netArr]
  have e : dummies W Q = (slotsOfTens (collect n)).toFinset \ n.label.idx.toFinset := by
    rw [dummies, hP.idx, List.toFinset_eq_of_perm _ _ hP.coll]
  rw [e]
  have := sumL_mul D.dims ((slotsOfTens (collect n)).toFinset \ n.label.idx.toFinset).toList (fun _ => scal D n) (tensProd D (collect n))
    (fun _ => False) (fun _ _ _ => rfl) (by simp)
  exact congrFun this _

theorem nodeArr_scalar_prod {a : EE L ι K H G} {l r : Node L ι K H G} (ha : a.op = .prod) (hl : At D cfg l) (hr : At D cfg r)
    (h : (r.label.idx = [] ∧ a.idx = l.label.idx) ∨ (l.label.idx = [] ∧ a.idx = r.label.idx)) (p : List Nat) :
    nodeArr D (.node a l r) p = nodeArr D l p * nodeArr D r p := by
  obtain ⟨⟨W, Q, hP⟩, hS⟩ := hl
  obtain ⟨⟨W', Q', hP'⟩, hS'⟩ := hr
  have e : nodeArr D (.node a l r) p = sumL D.dims ((l.label.idx.toFinset ∪ r.label.idx.toFinset) \ a.idx.toFinset).toList
      (fun ρ => nodeVal D l ρ * nodeVal D r ρ) (asg a.idx p) := by
    simp only [nodeVal, nodeArr, plain, ha, arrays]
  rw [e, nodeArr_eq l hS hP.nodup, nodeArr_eq r hS' hP'.nodup]
  rcases h with ⟨h1, h2⟩ | ⟨h1, h2⟩
  · have e0 : (l.label.idx.toFinset ∪ r.label.idx.toFinset) \ a.idx.toFinset = ∅ := by rw [h1, h2]; simp
    rw [e0, Finset.toList_empty]
    simp only [sumL]
    rw [h2, nodeVal_depends D r (asg l.label.idx p) (asg r.label.idx p) (by simp [h1])]
  · have e0 : (l.label.idx.toFinset ∪ r.label.idx.toFinset) \ a.idx.toFinset = ∅ := by rw [h1, h2]; simp
    rw [e0, Finset.toList_empty]
    simp only [sumL]
    rw [h2, nodeVal_depends D l (asg r.label.idx p) (asg l.label.idx p) (by simp [h1])]

/-! ### Comparison -/

variable [DecidableEq L] [DecidableEq K] [DecidableEq H] [DecidableEq G] [DecidableEq S]

omit [DecidableEq ι] in
theorem blockEq_iff {sp : ι → S} {t u : Ten L ι} : blockEq sp t u = true ↔
    t.label = u.label ∧ t.adj = u.adj ∧ t.slots = u.slots ∧ t.idx.length = u.idx.length ∧ t.idx.map sp = u.idx.map sp := by
  have e : ∀ t : Ten L ι, t.numSlots = t.slots := fun _ => rfl
  simp only [blockEq, Bool.and_eq_true, decide_eq_true_eq, e]
  tauto

omit [DecidableEq ι] [CommRing K] [Star K] in
theorem sameLabel_graph {sp : ι → S} {a b : EE L ι K H G} (h : sameLabel sp a b = true) : a.graph = b.graph := by
  unfold sameLabel at h
  simp only [Bool.and_eq_true] at h
  have := h.2
  split at this
  · rw [‹a.graph = none›, ‹b.graph = none›]
  · rw [‹a.graph = some _›, ‹b.graph = some _›, of_decide_eq_true this]
  · exact absurd this (by simp)

omit [DecidableEq ι] [CommRing K] [Star K] in
theorem sameLabel_expr {sp : ι → S} {a b : EE L ι K H G} (h : sameLabel sp a b = true) : (∃ c, a.expr = .const c ∧ b.expr = .const c) ∨
    (∃ v, a.expr = .var v ∧ b.expr = .var v) ∨
    (∃ t u, a.expr = .ten t ∧ b.expr = .ten u ∧ (a.graph = none → blockEq sp t u = true)) := by
  unfold sameLabel at h
  simp only [Bool.and_eq_true] at h
  have := h.1.2
  split at this
  · exact Or.inl ⟨_, ‹a.expr = _›, by rw [of_decide_eq_true this]; assumption⟩
  · exact Or.inr (Or.inl ⟨_, ‹a.expr = _›, by rw [of_decide_eq_true this]; assumption⟩)
  · refine Or.inr (Or.inr ⟨_, _, ‹a.expr = _›, ‹b.expr = _›, fun hg => ?_⟩)
    rw [if_pos hg] at this
    exact this
  · exact absurd this (by simp)

omit [DecidableEq ι] [CommRing K] [Star K] in
/-- Nodes that compare equal perform the same operation and have the same kind of intermediate. -/
theorem same_op {sp : ι → S} {a b : EE L ι K H G} {l r l' r' : Node L ι K H G} (hm : Shape cfg (.node a l r)) (hn : Shape cfg (.node b l' r'))
    (h : sameLabel sp a b = true) : a.op = b.op := by
  have key : ∀ {a b : EE L ι K H G} {l r l' r' : Node L ι K H G}, Shape cfg (.node a l r) → Shape cfg (.node b l' r') →
      a.graph = b.graph → ((∃ c, a.expr = .const c ∧ b.expr = .const c) ∨ (∃ v, a.expr = .var v ∧ b.expr = .var v) ∨
      (∃ t u, a.expr = .ten t ∧ b.expr = .ten u ∧ (a.graph = none → t.adj = u.adj))) → a.op = .prod → b.op = .adjoint → False := by
    intro a b l r l' r' hm hn hg he h1 h2
    simp only [Shape, h1] at hm
    simp only [Shape, h2] at hn
    obtain ⟨-, hbg, t, ht, hadj, -⟩ := hn
    rcases hm with ⟨N, hN, -⟩ | ⟨h3, h4, -⟩
    · rw [hg, hbg] at hN; simp at hN
    · rcases he with ⟨c, _, hc⟩ | ⟨v, _, hv⟩ | ⟨t', u, ht', hu, hadj'⟩
      · rw [ht] at hc; simp at hc
      · rw [ht] at hv; simp at hv
      · rw [ht] at hu
        simp only [NX.ten.injEq] at hu
        subst hu
        have := hadj' h3
        rw [h4 t' ht', hadj] at this
        simp at this
  have hg := sameLabel_graph h
  have he := sameLabel_expr h
  have hadj : ∀ t u : Ten L ι, (a.graph = none → blockEq sp t u = true) → a.graph = none → t.adj = u.adj :=
    fun t u hb hg => (blockEq_iff.1 (hb hg)).2.1
  cases ha : a.op <;> cases hb : b.op
  · rfl
  · simp only [Shape, ha] at hm
  · simp only [Shape, ha] at hm
  · simp only [Shape, hb] at hn
  · rfl
  · exfalso
    refine key hm hn hg ?_ ha hb
    rcases he with h | h | ⟨t, u, h1, h2, h3⟩
    · exact Or.inl h
    · exact Or.inr (Or.inl h)
    · exact Or.inr (Or.inr ⟨t, u, h1, h2, hadj t u h3⟩)
  · simp only [Shape, hb] at hn
  · exfalso
    refine key hn hm hg.symm ?_ hb ha
    rcases he with ⟨c, h1, h2⟩ | ⟨c, h1, h2⟩ | ⟨t, u, h1, h2, h3⟩
    · exact Or.inl ⟨c, h2, h1⟩
    · exact Or.inr (Or.inl ⟨c, h2, h1⟩)
    · exact Or.inr (Or.inr ⟨u, t, h2, h1, fun h => (hadj t u h3 (hg.trans h)).symm⟩)
  · rfl

omit [DecidableEq ι] [Star K] [CommRing K] in
theorem same_node {sp : ι → S} {a b : EE L ι K H G} {l r l' r' : Node L ι K H G} (h : same sp (.node a l r) (.node b l' r') = true) :
    sameLabel sp a b = true ∧ same sp l l' = true ∧ same sp r r' = true := by
  simp only [same, Bool.and_eq_true] at h
  tauto

/-- The scalars in nodes that compare equal agree. -/
theorem same_scal : ∀ {m n : Node L ι K H G}, Every (At D cfg) m → Every (At D cfg) n → same D.sp m n = true → scal D m = scal D n := by
  intro m
  induction m with
  | leaf a =>
    intro n hm hn h
    cases n with
    | node b l' r' => simp [same] at h
    | leaf b =>
      simp only [same] at h
      rcases sameLabel_expr h with ⟨c, h1, h2⟩ | ⟨v, h1, h2⟩ | ⟨t, u, h1, h2, -⟩ <;> simp [scal, h1, h2]
  | node a l r ihl ihr =>
    intro n hm hn h
    cases n with
    | leaf b => simp [same] at h
    | node b l' r' =>
      obtain ⟨h1, h2, h3⟩ := same_node h
      have hop := same_op hm.1.2 hn.1.2 h1
      have e1 := ihl hm.2.1 hn.2.1 h2
      have e2 := ihr hm.2.2 hn.2.2 h3
      simp only [scal, ← hop]
      cases a.op <;> simp [e1, e2]

/-- **C57** Nodes of trees without sums that compare equal have the same array up to their phases, for all arrays of the tensors: the cache may
take one for the other.  Partial: canonical graphs must tell networks apart (`NetLaw`), adjoint tensors must be told apart (`AdjLaw`), and the
phases of scalar networks must not be lost (`PhasesKept`). -/
theorem same_sound_partial {Adm : Ten L ι → Prop} (hnet : NetLaw D cfg Adm) (hadj : AdjLaw D Adm) : ∀ {m n : Node L ι K H G},
    Every (At D cfg) m → Every (At D cfg) n → Every PhasesKept m → Every PhasesKept n → (∀ t ∈ collect m, Adm t) → (∀ t ∈ collect n, Adm t) →
    same D.sp m n = true → ∀ p, (m.label.phase : K) * nodeArr D m p = (n.label.phase : K) * nodeArr D n p := by
  intro m
  induction m with
  | leaf a =>
    intro n hm hn _ _ hAm hAn h p
    cases n with
    | node b l' r' => simp [same] at h
    | leaf b =>
      simp only [same] at h
      have e1 : a.phase = 1 := hm.2.1
      have e2 : b.phase = 1 := hn.2.1
      simp only [ETree.label, e1, e2, nodeArr, plain, arrays]
      rcases sameLabel_expr h with ⟨c, h1, h2⟩ | ⟨v, h1, h2⟩ | ⟨t, u, h1, h2, h3⟩
      · simp only [h1, h2]
      · simp only [h1, h2]
      · have := blockEq_iff.1 (h3 hm.2.2.1)
        simp only [h1, h2, this.1, this.2.2.1, this.2.2.2.1, this.2.2.2.2]
  | node a l r ihl ihr =>
    intro n hm hn hpm hpn hAm hAn h p
    cases n with
    | leaf b => simp [same] at h
    | node b l' r' =>
      obtain ⟨h1, h2, h3⟩ := same_node h
      have hop := same_op hm.1.2 hn.1.2 h1
      have hg := sameLabel_graph h1
      have hmS := hm.1.2
      have hnS := hn.1.2
      cases ha : a.op with
      | sum => simp only [Shape, ha] at hmS
      | adjoint =>
        have hb : b.op = .adjoint := by rw [← hop, ha]
        simp only [Shape, ha] at hmS
        simp only [Shape, hb] at hnS
        obtain ⟨p1, g1, t, e1, a1, i1⟩ := hmS
        obtain ⟨p2, g2, u, e2, a2, i2⟩ := hnS
        have hcm : collect (.node a l r) = [t] := by simp [collect, ha, e1]
        have hcn : collect (.node b l' r') = [u] := by simp [collect, hb, e2]
        rw [hcm] at hAm
        rw [hcn] at hAn
        have hbl : blockEq D.sp t u = true := by
          rcases sameLabel_expr h1 with ⟨c, _, hc⟩ | ⟨v, _, hv⟩ | ⟨t', u', ht', hu', hb'⟩
          · rw [e2] at hc; simp at hc
          · rw [e2] at hv; simp at hv
          · rw [e1] at ht'
            rw [e2] at hu'
            simp only [NX.ten.injEq] at ht' hu'
            subst ht' hu'
            exact hb' g1
        have val : ∀ (a : EE L ι K H G) (l r : Node L ι K H G) (t : Ten L ι), At D cfg (.node a l r) → collect (.node a l r) = [t] →
            a.op = .adjoint → a.idx = t.idx → nodeArr D (.node a l r) p = D.ten t (asg t.idx p) := by
          intro a l r t hat hc ho hi
          rw [nodeArr_net hat p, netArr, hc]
          have : (slotsOfTens [t]).toFinset \ (ETree.node a l r).label.idx.toFinset = ∅ := by simp [slotsOfTens, ETree.label, hi]
          rw [this, Finset.toList_empty]
          simp [sumL, scal, ho, tensProd, ETree.label, hi]
        rw [val a l r t hm.1 hcm ha i1, val b l' r' u hn.1 hcn hb i2]
        simp only [ETree.label, p1, p2]
        rw [hadj t u (hAm t (by simp)) (hAn u (by simp)) a1 hbl p]
      | prod =>
        have hb : b.op = .prod := by rw [← hop, ha]
        have hcm : collect (.node a l r) = collect l ++ collect r := by simp [collect, ha]
        have hcn : collect (.node b l' r') = collect l' ++ collect r' := by simp [collect, hb]
        simp only [Shape, ha] at hmS
        simp only [Shape, hb] at hnS
        rcases hmS with ⟨N, g1, i1, p1⟩ | ⟨g1, -, i1⟩
        · rcases hnS with ⟨N', g2, i2, p2⟩ | ⟨g2, _⟩
          · have hs := same_scal hm hn h
            rw [nodeArr_net hm.1 p, nodeArr_net hn.1 p, ← hs, hcm, hcn]
            have hgr : (cfg.net (collect l ++ collect r) N).graph = (cfg.net (collect l' ++ collect r') N').graph := by
              rw [g1, g2] at hg
              exact Option.some.inj hg
            have := hnet.graph _ _ N N' (by rw [← hcm]; exact hAm) (by rw [← hcn]; exact hAn) hgr p
            simp only [ETree.label, i1, i2, p1, p2]
            rw [mul_left_comm, this, mul_left_comm]
          · rw [g1, g2] at hg; simp at hg
        · rcases hnS with ⟨N', g2, _⟩ | ⟨g2, -, i2⟩
          · rw [g1, g2] at hg; simp at hg
          · have el := ihl hm.2.1 hn.2.1 hpm.2.1 hpn.2.1 (fun t ht => hAm t (by simp [hcm, ht])) (fun t ht => hAn t (by simp [hcn, ht])) h2 p
            have er := ihr hm.2.2 hn.2.2 hpm.2.2 hpn.2.2 (fun t ht => hAm t (by simp [hcm, ht])) (fun t ht => hAn t (by simp [hcn, ht])) h3 p
            rw [nodeArr_scalar_prod ha hm.2.1.here hm.2.2.here i1 p, nodeArr_scalar_prod hb hn.2.1.here hn.2.2.here i2 p]
            have p1 : a.phase = l.label.phase * r.label.phase := hpm.1 ha g1
            have p2 : b.phase = l'.label.phase * r'.label.phase := hpn.1 hb g2
            show ((a.phase : Int) : K) * _ = ((b.phase : Int) : K) * _
            rw [p1, p2, Int.cast_mul, Int.cast_mul, mul_mul_mul_comm, el, er, mul_mul_mul_comm]

omit [Star K] [CommRing K] [DecidableEq L] [DecidableEq K] [DecidableEq H] [DecidableEq G] [DecidableEq S] in
theorem phase_unit [CommRing K] [Star K] {D : Store L ι S K} {Adm : Ten L ι → Prop} (hnet : NetLaw D cfg Adm) : ∀ {n : Node L ι K H G},
    Every (At D cfg) n → Every PhasesKept n → n.label.phase * n.label.phase = 1 := by
  intro n
  induction n with
  | leaf a =>
    intro h _
    have e : a.phase = 1 := h.2.1
    simp [ETree.label, e]
  | node a l r ihl ihr =>
    intro h hp
    have hS := h.1.2
    cases ha : a.op with
    | sum => simp only [Shape, ha] at hS
    | adjoint =>
      simp only [Shape, ha] at hS
      have e : a.phase = 1 := hS.1
      simp [ETree.label, e]
    | prod =>
      simp only [Shape, ha] at hS
      rcases hS with ⟨N, -, -, e⟩ | ⟨g, -⟩
      · simp only [ETree.label, e]
        exact hnet.unit _ _
      · have e : a.phase = l.label.phase * r.label.phase := hp.1 ha g
        show a.phase * a.phase = 1
        rw [e]
        have h1 := ihl h.2.1 hp.2.1
        have h2 := ihr h.2.2 hp.2.2
        calc _ = (l.label.phase * l.label.phase) * (r.label.phase * r.label.phase) := by ring
          _ = 1 := by rw [h1, h2]; rfl

end SeQuant.Binarize
