import Verif.Codegen.Names

/-!
# Properties of the export of evaluation trees
-/

namespace SeQuant.Codegen

open SeQuant.Eval (EOp)
open SeQuant.Export (Op)

variable {K : Type} [CommRing K]

set_option linter.unusedSectionVars false

/-- Inputs are never left in memory. -/
theorem leak_input {input : Nat → Bool} {Z : Name → Prop} {into : Option (Name × List Nat)} {t : P K} {ks : Name → Prop} {live : Name → Nat}
    (h : t.Scoped input Z into ks live) (m : Name) (hm : input m.stem = true) : t.leak m = 0 := by
  induction t generalizing into ks live with
  | leaf x => rfl
  | node op cl cr n a fac l r ihl ihr =>
    obtain ⟨_, _, _, _, hsel, _, hscl, hscr⟩ := h
    by_cases hh : op = .sum ∧ cl = false ∧ cr = false
    · obtain ⟨rfl, rfl, rfl⟩ := hh
      obtain ⟨h1, h2⟩ := hsel rfl
      rw [P.leak_none rfl rfl, ihl hscl, ihr hscr]
      have hu : ∀ t : P K, t.isLeaf = false → (∀ n, t.nodeName = some n → input n.stem = false) → t.expr.uses m = 0 := by
        intro t ht hn
        cases t with
        | leaf x => cases ht
        | node op cl cr n' a' fac l r =>
          rw [P.uses_node, if_neg]
          rintro rfl
          rw [hn m rfl] at hm; cases hm
      have own : ∀ {into t ks live}, P.Scoped (K := K) input Z into t ks live → ∀ n, t.nodeName = some n → input n.stem = false := by
        intro into t ks live h n hn
        cases t with
        | leaf x => cases hn
        | node => simp only [P.nodeName, Option.some.injEq] at hn; subst hn; exact h.1
      rw [hu l h1.symm (own hscl), hu r h2.symm (own hscr)]
    · rw [P.leak_some hh, ihl hscl, ihr hscr]

/-- Expanded expressions are safe and only their result is left in memory by the visitor. -/
theorem flat_safe {c : Ctx} {m : Name} (hz : ¬ Zeroed c m) {t : P K} (h : t.Flat m) : t.Safe c := by
  induction t with
  | leaf x => trivial
  | node op cl cr n a fac l r ihl ihr =>
    refine ⟨fun ho => ⟨Or.inl (h.1 ho).2, fun hh => ?_⟩, ihl h.2.1, ihr h.2.2⟩
    rw [(h.1 ho).1] at hh
    exact absurd hh hz

theorem flat_leak {input : Nat → Bool} {Z : Name → Prop} {into : Option (Name × List Nat)} {m : Name} {t : P K} {ks : Name → Prop} {live : Name → Nat}
    (hs : t.Scoped input Z into ks live) (h : t.Flat m) (n : Name) (hn : n ≠ m) : t.leak n = 0 := by
  induction t generalizing into ks live with
  | leaf x => rfl
  | node op cl cr n' a fac l r ihl ihr =>
    obtain ⟨_, _, _, _, hsel, _, hscl, hscr⟩ := hs
    by_cases hh : op = .sum ∧ cl = false ∧ cr = false
    · obtain ⟨rfl, rfl, rfl⟩ := hh
      obtain ⟨h1, h2⟩ := hsel rfl
      have hm := (h.1 rfl).1
      simp only [if_true] at hscl hscr
      have hu : ∀ {t : P K} {ks live}, t.isLeaf = false → t.Scoped input Z (some (n', a)) ks live → t.expr.uses n = 0 := by
        intro t ks live ht hs
        cases t with
        | leaf x => cases ht
        | node op cl cr n₂ a₂ fac l r =>
          have := congrArg Prod.fst (scoped_into hs rfl)
          rw [P.uses_node, if_neg]
          rintro rfl
          exact hn (this.trans hm)
      rw [P.leak_none rfl rfl, ihl hscl h.2.1, ihr hscr h.2.2, hu h1.symm hscl, hu h2.symm hscr]
    · rw [P.leak_some hh, ihl hscl h.2.1, ihr hscr h.2.2]

/-- What is known about the export of a tree. -/
structure Exported (input : Nat → Bool) (n : Name) (a : List Nat) (t : T K) (q : P K) (ps : PS) (code : Code K) : Prop where
  only : Only q.occ q.occIdx code
  decl : ∀ m, (∃ u, (m, u) ∈ ps.decl) ↔ q.occ m
  usage : ∀ m u, (m, u) ∈ ps.decl → (u = .terminal ↔ input m.stem = true)
  inds : ∀ i, i ∈ ps.idx ↔ q.occIdx i
  safe : t.Expanded → q.Safe ps.ctx
  leakIn : ∀ m, input m.stem = true → q.leak m = 0
  leakEx : t.Expanded → ∀ m, m ≠ n → q.leak m = 0
  own : input n.stem = false
  runs : ∀ (I : Interp K) (s : Mem K), Start I input s → ∃ s' v, run I code s = some s' ∧ s' n = ⟨none, some (some v)⟩ ∧
    (∀ m, input m.stem = true → s' m = s m) ∧ (∀ m, m ≠ n → ((s' m).mem.isSome = true ↔ 0 < q.leak m)) ∧
    (q.Safe ps.ctx → t.NoPhase → ((∀ x, I.cj x = x) ∨ t.NoAdj) → ∀ σ, v (a.map σ) = t.val I σ)

theorem ctxOk_empty (input : Nat → Bool) : CtxOk input Ctx.empty := by
  refine ⟨fun _ => rfl, fun n _ => ⟨rfl, rfl⟩, fun n _ => ⟨rfl, Or.inl rfl⟩⟩

/-- The export of a well-formed tree. -/
theorem exported {input : Nat → Bool} (p : Prunable) {op : EOp} {n : Name} {a : List Nat} {l r : T K}
    (hw : (T.node op n a l r).WF input) :
    ∃ q ps code, preprocess p (.node op n a l r) Ctx.empty = some (q, ps) ∧ exportTree p Ctx.empty (.node op n a l r) = some (code, ps) ∧
      Exported input n a (.node op n a l r) q ps code := by
  obtain ⟨q, up, ps, hpre, hpost⟩ := preF_spec p _ none (.node op n a l r) ⟨Ctx.empty, [], fun _ => 0, [], []⟩ (Nat.le_refl _) hw
    ⟨ctxOk_empty input, fun n h => absurd h (by simp)⟩ (fun q h => by cases h) (fun _ => rfl)
  have hup : up = [] := (hpost.keep rfl).1
  subst hup
  obtain ⟨op', cl, cr, fac, l', r', hq⟩ := hpost.root rfl _ _ _ _ _ rfl
  have hpp : preprocess p (.node op n a l r) Ctx.empty = some (q, ps) := by simp [preprocess, hpre]
  have hsc := hpost.scope (Zeroed ps.ctx) (fun _ _ h => h)
  have hkeys : (fun m => m ∈ (⟨Ctx.empty, [], fun _ => 0, [], []⟩ : PS).keys) = fun _ => False := by funext m; simp
  rw [hkeys] at hsc
  have hn : input n.stem = false := hw.1
  have hzn : ¬ Zeroed ps.ctx n := by
    have := hpost.top (Or.inl rfl) n (by rw [hq]; rfl)
    unfold Zeroed
    rw [this]
    show ¬ (ZeroStrat.create = ZeroStrat.always)
    decide
  have hflat : (T.node op n a l r).Expanded → q.Flat n := fun hex => hpost.flat (Or.inl rfl) hex n (by
    intro m hm; rw [hq] at hm; simp only [P.nodeName, Option.mem_def, Option.some.injEq] at hm; exact hm.symm)
  -- the generation does not depend on the interpretation
  have hgen : ∀ (I : Interp K) (s : Mem K), Start I input s → ∃ o g' s', gen ps.ctx q GS.empty = some (o, g') ∧ run I o s = some s' ∧
      GPost I input ps.ctx none (fun _ => False) (fun _ => 0) GS.empty s q g' s' := by
    intro I s hs
    refine gen_spec hpost.ctx q none (fun _ => False) (fun _ => 0) GS.empty s ?_ (fun _ => Nat.zero_le _) hsc hpost.ix
    exact ⟨fun m _ => by simp [GS.empty], fun m hm => absurd hm (by simp [GS.empty]), fun m hm => (hs m).2 hm,
      fun m _ hm => absurd hm (by simp [GS.empty]), fun m _ => (hs m).1, fun m _ hm => absurd hm (by simp [GS.empty]), fun m _ hk => hk.elim⟩
  obtain ⟨o, g', _, hg, _, _⟩ := hgen ⟨fun _ => 0, fun _ x => x, id, fun _ _ => 0⟩ (fun m => ⟨none, some (some fun _ => 0)⟩)
    (fun m => ⟨rfl, fun _ => rfl⟩)
  have hper : persistOps q = [.persist n] := by rw [hq]; rfl
  refine ⟨q, ps, o ++ [.persist n], hpp, ?_, ?_⟩
  · simp only [exportTree, hpp, hg, hper]
  · refine
      { only := (gen_only ps.ctx q hpost.ix hg).append ?_
        decl := fun m => ?_
        usage := fun m u h => ?_
        inds := fun i => ?_
        safe := fun hex => flat_safe hzn (hflat hex)
        leakIn := leak_input hsc
        leakEx := fun hex m hm => flat_leak hsc (hflat hex) m hm
        own := hn
        runs := fun I s hs => ?_ }
    · intro o ho
      simp only [List.mem_singleton] at ho
      subst ho
      refine ⟨fun m hm => ?_, fun i hi => by cases hi⟩
      simp only [opNames, List.mem_singleton] at hm
      subst hm
      rw [hq]; exact Or.inl rfl
    · rw [hpost.decl]; simp
    · exact (hpost.usage m u h).resolve_left (by simp)
    · rw [hpost.inds]; simp
    · obtain ⟨o', g₁, s₁, hg', hr, hp⟩ := hgen I s hs
      rw [hg] at hg'
      cases hg'
      have hc : ∀ m, g'.cnt m = (if m = n then 1 else 0) + q.leak m := by
        intro m
        rw [hp.cnt]
        have : q.expr.uses m = if m = n then 1 else 0 := by rw [hq]; exact P.uses_node m
        rw [this]; simp [GS.empty]
      have hn0 : 0 < g'.cnt n := by rw [hc, if_pos rfl]; omega
      have hrd := hp.inv.ready hn0
      refine ⟨Function.update s₁ n ⟨none, some (some (content s₁ n))⟩, content s₁ n, ?_, by simp, fun m hm => ?_, fun m hm => ?_,
        fun hsafe hph hcj σ => ?_⟩
      · rw [run_append, hr]
        simp only [Option.bind_some]
        rw [run_one]
        simp only [step]
        rw [if_pos hrd]
      · have hmn : m ≠ n := by rintro rfl; rw [hn] at hm; cases hm
        have h0 : g'.cnt m = 0 := by rw [hc, if_neg hmn, leak_input hsc m hm]
        have e1 := hp.inv.off m h0
        have e2 := hp.inv.disk m hm
        have e3 := hs m
        simp only [Function.update_of_ne hmn]
        cases hs1 : s₁ m with
        | mk x y =>
          cases hs2 : s m with
          | mk x' y' =>
            rw [hs1] at e1 e2; rw [hs2] at e3
            simp only at e1 e2 e3
            rw [e1, e2, e3.1, e3.2 hm]
      · rw [Function.update_of_ne hm]
        have h0 := hc m
        rw [if_neg hm, Nat.zero_add] at h0
        rw [← h0]
        constructor
        · intro hsome
          by_contra hh
          rw [hp.inv.off m (by omega)] at hsome; cases hsome
        · intro hpos
          have := hp.inv.ready hpos
          unfold ready at this
          cases hmem : (s₁ m).mem with
          | none => rw [hmem] at this; cases this
          | some w => rfl
      · have hv := hp.val hsafe _ _ _ _ _ _ _ _ hq (fun _ => 0) (fun _ _ => rfl) (fun hh => absurd rfl hh) (a.map σ)
        rw [hv, zero_add]
        have h1 := hpost.val hph I hcj σ
        rw [fv_nil, one_mul] at h1
        rw [← h1]
        refine P.val_local I q hpost.ix _ _ fun i hi => bind_map a σ i ?_
        rw [hq] at hi
        exact hi

/-! ### The value of the result -/

/-- **The generated program computes the value of the expression.**  Partial: no leaf may have a phase, an adjoint needs real numbers, and the
processed tree must be safe — no scalar factor at a sum with internal operands, no sum with two internal operands whose object is set to
zero when reused. -/
theorem export_value_partial {input : Nat → Bool} (p : Prunable) {op : EOp} {n : Name} {a : List Nat} {l r : T K}
    (hw : (T.node op n a l r).WF input) (hph : (T.node op n a l r).NoPhase) {q : P K} {ps ps' : PS} {code : Code K}
    (hpre : preprocess p (.node op n a l r) Ctx.empty = some (q, ps)) (hsafe : q.Safe ps.ctx)
    (hcode : exportTree p Ctx.empty (.node op n a l r) = some (code, ps'))
    (I : Interp K) (hcj : (∀ x, I.cj x = x) ∨ (T.node op n a l r).NoAdj) (s : Mem K) (hs : Start I input s) :
    ∃ s' v, run I code s = some s' ∧ (s' n).disk = some (some v) ∧ ∀ σ, v (a.map σ) = (T.node op n a l r).val I σ := by
  obtain ⟨q', ps₁, code', h1, h2, h3⟩ := exported p hw
  rw [hpre] at h1; cases h1
  rw [hcode] at h2; cases h2
  obtain ⟨s', v, r1, r2, _, _, r5⟩ := h3.runs I s hs
  exact ⟨s', v, r1, by rw [r2], r5 hsafe hph hcj⟩

/-- **The generated program computes the value of expanded expressions.**  Partial: no leaf may have a phase and an adjoint needs real numbers.
The export never fails, and no scalar factor, reuse of intermediates or order of operands changes the value. -/
theorem export_expanded_partial {input : Nat → Bool} (p : Prunable) {op : EOp} {n : Name} {a : List Nat} {l r : T K}
    (hw : (T.node op n a l r).WF input) (hph : (T.node op n a l r).NoPhase) (hex : (T.node op n a l r).Expanded) :
    ∃ code ps, exportTree p Ctx.empty (.node op n a l r) = some (code, ps) ∧
      ∀ I : Interp K, ((∀ x, I.cj x = x) ∨ (T.node op n a l r).NoAdj) → ∀ s, Start I input s →
        ∃ s' v, run I code s = some s' ∧ (s' n).disk = some (some v) ∧ ∀ σ, v (a.map σ) = (T.node op n a l r).val I σ := by
  obtain ⟨q, ps, code, _, h2, h3⟩ := exported p hw
  refine ⟨code, ps, h2, fun I hcj s hs => ?_⟩
  obtain ⟨s', v, r1, r2, _, _, r5⟩ := h3.runs I s hs
  exact ⟨s', v, r1, by rw [r2], r5 (h3.safe hex) hph hcj⟩

/-! ### The program uses the memory properly -/

/-- **The program never misuses an object**: the export of a well-formed tree never fails an assertion, the program never loads or creates an
object which is in memory, never computes with or persists one which is not there or has no value, leaves the inputs as they were and not in
memory, stores the result and changes no object which was not declared. -/
theorem export_runs {input : Nat → Bool} (p : Prunable) {op : EOp} {n : Name} {a : List Nat} {l r : T K}
    (hw : (T.node op n a l r).WF input) :
    ∃ code ps, exportTree p Ctx.empty (.node op n a l r) = some (code, ps) ∧
      ∀ (I : Interp K) (s : Mem K), Start I input s → ∃ s' v, run I code s = some s' ∧ s' n = ⟨none, some (some v)⟩ ∧
        (∀ m, input m.stem = true → s' m = s m) ∧ ∀ m, (∀ u, (m, u) ∉ ps.decl) → s' m = s m := by
  obtain ⟨q, ps, code, _, h2, h3⟩ := exported p hw
  refine ⟨code, ps, h2, fun I s hs => ?_⟩
  obtain ⟨s', v, r1, r2, r3, _, _⟩ := h3.runs I s hs
  refine ⟨s', v, r1, r2, r3, fun m hm => run_frame I r1 fun o ho hmo => ?_⟩
  obtain ⟨u, hu⟩ := (h3.decl m).2 ((h3.only o ho).1 m hmo)
  exact hm u hu

/-- **Nothing is left in memory** — partial: the expression must be expanded (see `export_leaks`). -/
theorem export_clean_partial {input : Nat → Bool} (p : Prunable) {op : EOp} {n : Name} {a : List Nat} {l r : T K}
    (hw : (T.node op n a l r).WF input) (hex : (T.node op n a l r).Expanded) {code : Code K} {ps : PS}
    (hcode : exportTree p Ctx.empty (.node op n a l r) = some (code, ps)) (I : Interp K) (s : Mem K) (hs : Start I input s) :
    ∃ s', run I code s = some s' ∧ ∀ m, (s' m).mem = none := by
  obtain ⟨q, ps, code, _, h2, h3⟩ := exported p hw
  rw [hcode] at h2; cases h2
  obtain ⟨s', v, r1, r2, _, r4, _⟩ := h3.runs I s hs
  refine ⟨s', r1, fun m => ?_⟩
  by_cases hm : m = n
  · rw [hm, r2]
  · have h0 := h3.leakEx hex m hm
    have := r4 m hm
    rw [h0] at this
    cases hmem : (s' m).mem with
    | none => rfl
    | some w => rw [hmem] at this; exact absurd (this.1 rfl) (by simp)

/-- **Every object and index of the program is declared**, and as a terminal exactly if it is an input. -/
theorem export_declares {input : Nat → Bool} (p : Prunable) {op : EOp} {n : Name} {a : List Nat} {l r : T K}
    (hw : (T.node op n a l r).WF input) {code : Code K} {ps : PS} (hcode : exportTree p Ctx.empty (.node op n a l r) = some (code, ps)) :
    (∀ o ∈ code, (∀ m ∈ opNames o, ∃ u, (m, u) ∈ ps.decl) ∧ ∀ i ∈ opIdx o, i ∈ ps.idx) ∧
    ∀ m u, (m, u) ∈ ps.decl → (u = .terminal ↔ input m.stem = true) := by
  obtain ⟨q, ps, code, _, h2, h3⟩ := exported p hw
  rw [hcode] at h2; cases h2
  exact ⟨fun o ho => ⟨fun m hm => (h3.decl m).2 ((h3.only o ho).1 m hm), fun i hi => (h3.inds i).2 ((h3.only o ho).2 i hi)⟩, h3.usage⟩

/-! ### Sequences of expressions -/

/-- The result of an expression. -/
def T.root : T K → Option (Name × List Nat)
  | .leaf _ _ => none
  | .node _ n a _ _ => some (n, a)

/-- Several expressions one after the other (824-842, 1003-1049): each with its own preprocessing, strategies and counters. -/
def exportAll (p : Prunable) : List (T K) → Option (List (Code K × PS))
  | [] => some []
  | t :: ts =>
    match exportTree p Ctx.empty t, exportAll p ts with
    | some q, some qs => some (q :: qs)
    | _, _ => none

theorem exportAll_get (p : Prunable) {ts : List (T K)} {qs : List (Code K × PS)} (h : exportAll p ts = some qs) (i : Nat) (hi : i < ts.length)
    (hi' : i < qs.length) {y : Code K × PS} (hy : qs[i] = y) : exportTree p Ctx.empty ts[i] = some y := by
  induction ts generalizing qs i with
  | nil => cases hi
  | cons t ts ih =>
    simp only [exportAll] at h
    cases h1 : exportTree p Ctx.empty t with
    | none => rw [h1] at h; cases h
    | some q =>
      cases h2 : exportAll p ts with
      | none => rw [h1, h2] at h; cases h
      | some qs' =>
        rw [h1, h2] at h
        cases h
        cases i with
        | zero => simp only [List.getElem_cons_zero] at hy ⊢; rw [h1, hy]
        | succ i =>
          simp only [List.getElem_cons_succ] at hy ⊢
          exact ih h2 i (by simpa using hi) (by simpa using hi') hy

/-- **A sequence of expanded expressions computes all results**: the programs run one after the other, starting with an empty memory and
ending with an empty memory, and every result which no later expression declares keeps its value.  Partial as `export_expanded_partial`. -/
theorem exportAll_partial {input : Nat → Bool} (p : Prunable) (ts : List (T K))
    (hts : ∀ t ∈ ts, t.isLeaf = false ∧ t.WF input ∧ t.NoPhase ∧ t.Expanded) :
    ∃ qs, exportAll p ts = some qs ∧ qs.length = ts.length ∧
      ((ts.zip qs).Pairwise (fun x y => ∀ n a, x.1.root = some (n, a) → ∀ u, (n, u) ∉ y.2.2.decl) →
        ∀ I : Interp K, ((∀ x, I.cj x = x) ∨ ∀ t ∈ ts, t.NoAdj) → ∀ s, Start I input s →
          ∃ s', run I (qs.flatMap Prod.fst) s = some s' ∧ Start I input s' ∧
            ∀ t ∈ ts, ∀ n a, t.root = some (n, a) → ∃ v, (s' n).disk = some (some v) ∧ ∀ σ, v (a.map σ) = t.val I σ) := by
  induction ts with
  | nil => exact ⟨[], rfl, rfl, fun _ I _ s hs => ⟨s, rfl, hs, fun t ht => by cases ht⟩⟩
  | cons t ts ih =>
    obtain ⟨qs, h1, h2, h3⟩ := ih fun t' ht' => hts t' (List.mem_cons_of_mem _ ht')
    obtain ⟨hl, hw, hph, hex⟩ := hts t List.mem_cons_self
    cases t with
    | leaf x neg => cases hl
    | node op n a l r =>
      obtain ⟨q, ps, code, _, e2, e3⟩ := exported p hw
      refine ⟨(code, ps) :: qs, by simp only [exportAll, e2, h1], by simp [h2], fun hpw I hcj s hs => ?_⟩
      rw [List.zip_cons_cons, List.pairwise_cons] at hpw
      obtain ⟨s₁, v, r1, r2, r3, r4, r5⟩ := e3.runs I s hs
      have hs₁ : Start I input s₁ := by
        intro m
        refine ⟨?_, fun hm => by rw [r3 m hm]; exact (hs m).2 hm⟩
        by_cases hm : m = n
        · rw [hm, r2]
        · have h0 := e3.leakEx hex m hm
          have := r4 m hm
          rw [h0] at this
          cases hmem : (s₁ m).mem with
          | none => rfl
          | some w => rw [hmem] at this; exact absurd (this.1 rfl) (by simp)
      obtain ⟨s₂, t1, t2, t3⟩ := h3 hpw.2 I (hcj.imp id fun h t ht => h t (List.mem_cons_of_mem _ ht)) s₁ hs₁
      refine ⟨s₂, ?_, t2, fun t ht n' a' hroot => ?_⟩
      · rw [List.flatMap_cons, run_append, r1]; exact t1
      · rcases List.mem_cons.1 ht with rfl | ht
        · cases hroot
          refine ⟨v, ?_, r5 (e3.safe hex) hph (hcj.imp id fun h => h _ List.mem_cons_self)⟩
          have : s₂ n = s₁ n := by
            refine run_frame I t1 fun o ho hno => ?_
            obtain ⟨y, hy, hoy⟩ := List.mem_flatMap.1 ho
            obtain ⟨i, hi, hyi⟩ := List.getElem_of_mem hy
            have hi' : i < ts.length := by rw [← h2]; exact hi
            have hz : (ts[i], y) ∈ ts.zip qs := by
              rw [← hyi]
              exact List.mem_iff_getElem.2 ⟨i, by simp [hi, hi'], by simp⟩
            have hnd := hpw.1 _ hz n a rfl
            -- what the later expression declares
            have hex' : exportTree p Ctx.empty ts[i] = some y := exportAll_get p h1 i hi' hi hyi
            obtain ⟨hl', hw', _, _⟩ := hts ts[i] (List.mem_cons_of_mem _ (List.getElem_mem hi'))
            cases hti : ts[i] with
            | leaf x neg => rw [hti] at hl'; cases hl'
            | node op' n' a' l' r' =>
              rw [hti] at hex' hw'
              obtain ⟨u, hu⟩ := ((export_declares p hw' hex').1 o hoy).1 n hno
              exact hnd u hu
          rw [this, r2]
        · exact t3 t ht n' a' hroot

/-! ### Examples -/

namespace Sample

def inpE (s : Nat) : Bool := decide (s < 50)
def nm (k : Nat) : Name := ⟨k, none, 0⟩
def lf (k : Nat) : T Int := .leaf (.obj (nm k) [0]) false
def nd (op : EOp) (l r : T Int) : T Int := .node op (nm 100) [0] l r
def rt (op : EOp) (l r : T Int) : T Int := .node op (nm 101) [0] l r
def IE : Interp Int := ⟨fun _ => 1, fun k x => x ^ k, fun x => x, fun n _ => n.stem⟩
def allE : Prunable := ⟨true, true⟩
def s0 : Mem Int := fun n => ⟨none, if inpE n.stem then some (some (IE.inp n)) else none⟩

theorem startE : Start IE inpE s0 := by
  intro n
  refine ⟨rfl, fun h => ?_⟩
  simp [s0, h]

/-- The stored value of the result. -/
def res (I : Interp Int) (s : Mem Int) (t : T Int) : Option Int :=
  match exportTree allE Ctx.empty t with
  | none => none
  | some (c, _) =>
    match run I c s with
    | none => none
    | some s' => ((s' (nm 101)).disk.bind id).map fun v => v [0]

/-- `R = (A B) (C D) + (F G) (H J)`: intermediates are renamed and reused. -/
def t3 : T Int :=
  rt .sum (nd .prod (nd .prod (lf 1) (lf 2)) (nd .prod (lf 3) (lf 4))) (nd .prod (nd .prod (lf 6) (lf 7)) (nd .prod (lf 8) (lf 9)))

example : t3.WF inpE ∧ t3.NoPhase ∧ t3.NoAdj := by decide +kernel
example : t3.Expanded := by simp [t3, rt, nd, lf, T.Expanded, T.NoSum]
example : res IE s0 t3 = some 3048 ∧ t3.val IE (fun _ => 0) = 3048 := by decide +kernel

/-- A contraction `R[0] = ½ A[0,1] B[1]` with a pruned factor, over a range of three. -/
def t4 : T Int :=
  .node .prod (nm 101) [0] (.node .prod (nm 100) [0, 1] (.leaf (.const 5) false) (.leaf (.obj (nm 1) [0, 1]) false)) (.leaf (.obj (nm 2) [1]) false)

def IE3 : Interp Int := ⟨fun _ => 3, fun k x => x ^ k, fun x => x, fun n pos => n.stem + pos.sum⟩
def s3 : Mem Int := fun n => ⟨none, if inpE n.stem then some (some (IE3.inp n)) else none⟩

example : t4.WF inpE ∧ t4.NoPhase ∧ t4.NoAdj := by decide +kernel
example : res IE3 s3 t4 = some 100 ∧ t4.val IE3 (fun _ => 0) = 100 := by decide +kernel

/-- Two expressions which share the name of an intermediate. -/
example : (match exportAll allE [t3, .node .prod (nm 102) [0] (nd .prod (lf 1) (lf 2)) (lf 3)] with
    | none => none
    | some qs => (run IE (qs.flatMap Prod.fst) s0).map fun s' =>
        [nm 101, nm 102].map fun n => ((s' n).disk.bind id).map fun v => v [0]) = some [some 3048, some 6] := by decide +kernel

/-! ### Where the code goes wrong -/

/-- `R = (A B + C D) E + (F G + H J) K`. -/
def t1 : T Int :=
  rt .sum (nd .prod (nd .sum (nd .prod (lf 1) (lf 2)) (nd .prod (lf 3) (lf 4))) (lf 5))
    (nd .prod (nd .sum (nd .prod (lf 6) (lf 7)) (nd .prod (lf 8) (lf 9))) (lf 10))

/-- **A partial sum is overwritten with zeros**: when the object of an intermediate is used again, every operand of a sum sets it to zero, and
the operands before it are lost (152-154, 477-495). -/
theorem export_zeroes_partial_sum : 
    ∃ (t : T Int) (x : Int), t.WF inpE ∧ t.NoPhase ∧ t.NoAdj ∧ Start IE inpE s0 ∧ res IE s0 t = some x ∧ x ≠ t.val IE fun _ => 0 :=
  ⟨t1, 780, by decide +kernel, by decide +kernel, by decide +kernel, startE, by decide +kernel, by decide +kernel⟩

/-- `R = (A B + C D) 2`. -/
def t2 : T Int := rt .prod (nd .sum (nd .prod (lf 1) (lf 2)) (nd .prod (lf 3) (lf 4))) (.leaf (.const 2) false)

/-- **A scalar factor of a sum of internal nodes is lost** (245-248). -/
theorem export_loses_scalar : 
    ∃ (t : T Int) (x : Int), t.WF inpE ∧ t.NoPhase ∧ t.NoAdj ∧ Start IE inpE s0 ∧ res IE s0 t = some x ∧ x ≠ t.val IE fun _ => 0 :=
  ⟨t2, 14, by decide +kernel, by decide +kernel, by decide +kernel, startE, by decide +kernel, by decide +kernel⟩

example : res IE s0 t1 = some 780 ∧ t1.val IE (fun _ => 0) = 1210 ∧ res IE s0 t2 = some 14 ∧ t2.val IE (fun _ => 0) = 28 := by decide +kernel

/-- **The phase of a leaf is lost.** -/
theorem export_ignores_phase : 
    ∃ (t : T Int) (x : Int), t.WF inpE ∧ t.Expanded ∧ t.NoAdj ∧ Start IE inpE s0 ∧ res IE s0 t = some x ∧ x ≠ t.val IE fun _ => 0 :=
  ⟨rt .prod (.leaf (.obj (nm 1) [0]) true) (lf 2), 2, by decide +kernel, by simp [rt, lf, T.Expanded, T.NoSum], by decide +kernel, startE,
    by decide +kernel, by decide +kernel⟩

/-- **An adjoint is exported without conjugation** (as documented at 230-233). -/
theorem export_ignores_conjugation :
    ∃ (I : Interp Int) (t : T Int) (x : Int), Start I inpE s0 ∧ t.WF inpE ∧ t.NoPhase ∧ t.Expanded ∧ res I s0 t = some x ∧ x ≠ t.val I fun _ => 0 :=
  ⟨{ IE with cj := fun x => -x }, rt .adjoint (lf 1) (.leaf (.const 1) false), 1, startE, by decide +kernel, by decide +kernel,
    by simp [rt, lf, T.Expanded, T.NoSum], by decide +kernel, by decide +kernel⟩

/-- Whether the object is in memory at the end. -/
def left (t : T Int) (m : Name) : Option Bool :=
  match exportTree allE Ctx.empty t with
  | none => none
  | some (c, _) => (run IE c s0).map fun s' => (s' m).mem.isSome

/-- **A sum of internal nodes inside a product stays in memory**: its operands are never dropped (245-248). -/
theorem export_leaks : ∃ (t : T Int) (m : Name), t.WF inpE ∧ t.NoPhase ∧ t.NoAdj ∧ left t m = some true :=
  ⟨rt .prod (nd .sum (nd .prod (lf 1) (lf 2)) (nd .prod (lf 3) (lf 4))) (lf 5), nm 100, by decide +kernel⟩

end Sample

end SeQuant.Codegen
