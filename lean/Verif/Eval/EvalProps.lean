import Verif.Eval.EvalLemmas

/-!
# C27: cached evaluation equals plain evaluation
-/

set_option linter.unusedSectionVars false

namespace SeQuant.Eval

variable {L K R M V : Type} [DecidableEq K]

/-- The mathematical operations a backend implements. -/
structure Alg (L V : Type) where
  leaf : L → V
  sum : ETree L → V → V → V
  prod : ETree L → V → V → V
  adj : ETree L → V → V
  scale : Int → V → V

/-- Direct recursive evaluation, without cache, phases, memory or hooks. -/
def plain (op : L → EOp) (A : Alg L V) : ETree L → V
  | .leaf a => A.leaf a
  | .node a l r =>
    match op a with
    | .sum => A.sum (.node a l r) (plain op A l) (plain op A r)
    | .prod => A.prod (.node a l r) (plain op A l) (plain op A r)
    | .adjoint => A.adj (.node a l r) (plain op A l)

/-- The value shared by all nodes with the same key: phase times value. -/
def canonical (env : Env L K R M) (A : Alg L V) (t : ETree L) : V :=
  if env.phase t.label = 1 then plain env.op A t else A.scale (env.phase t.label) (plain env.op A t)

/-- How objects in memory are seen: `val m r v` says that in memory `m` the object `r` has value `v`; `inv` is what the leaf evaluator relies
on. -/
structure View (M R V : Type) where
  val : M → R → V → Prop
  inv : M → Prop

/-- Values that exist in `m` exist in `m'`. -/
def Ext (W : View M R V) (m m' : M) : Prop := (W.inv m → W.inv m') ∧ ∀ r v, W.val m r v → W.val m' r v

/-- Whatever is in the cache is the canonical value of all nodes in `S` with that key. -/
def CacheOK (env : Env L K R M) (A : Alg L V) (W : View M R V) (S : ETree L → Prop) (mc : M × Cache K R) : Prop :=
  W.inv mc.1 ∧ ∀ k e r, mc.2 k = some e → e.data = some r → ∀ t, S t → env.key t = k → W.val mc.1 r (canonical env A t)

/-- The backend computes the operations of `A` in memory that it only extends; nodes of `S` with the same key have the same canonical
value; phases are their own inverses; hooks return what they replace. -/
structure Sound (env : Env L K R M) (A : Alg L V) (W : View M R V) (S : ETree L → Prop) : Prop where
  children : ∀ a l r, S (.node a l r) → S l ∧ S r
  leaf : ∀ a m, W.inv m → Ext W m (env.leaf a m).1 ∧ W.val (env.leaf a m).1 (env.leaf a m).2 (A.leaf a)
  sum : ∀ t x y m u v, W.val m x u → W.val m y v → Ext W m (env.sum t x y m).1 ∧ W.val (env.sum t x y m).1 (env.sum t x y m).2 (A.sum t u v)
  prod : ∀ t x y m u v, W.val m x u → W.val m y v → Ext W m (env.prod t x y m).1 ∧ W.val (env.prod t x y m).1 (env.prod t x y m).2 (A.prod t u v)
  adj : ∀ t x m u, W.val m x u → Ext W m (env.adj t x m).1 ∧ W.val (env.adj t x m).1 (env.adj t x m).2 (A.adj t u)
  scale : ∀ p x m u, W.val m x u → Ext W m (env.scale p x m).1 ∧ W.val (env.scale p x m).1 (env.scale p x m).2 (A.scale p u)
  phase : ∀ t, S t → ∀ v, A.scale (env.phase t.label) (A.scale (env.phase t.label) v) = v
  coherent : ∀ t t', S t → S t' → env.key t = env.key t' → canonical env A t = canonical env A t'
  custom : ∀ f, env.custom = some f → ∀ t mc, S t → CacheOK env A W S mc →
    Ext W mc.1 (f t mc).1.1 ∧ CacheOK env A W S (f t mc).1 ∧ ∀ r, (f t mc).2 = some r → W.val (f t mc).1.1 r (plain env.op A t)
  hook : ∀ h, env.hook = some h → ∀ t x y m u v, W.val m x u → W.val m y v →
    Ext W m (h t x y m).1 ∧ ∀ r, (h t x y m).2 = some r → W.val (h t x y m).1 r (A.prod t u v)

theorem Ext.refl (W : View M R V) (m : M) : Ext W m m := ⟨id, fun _ _ h => h⟩
theorem Ext.trans {W : View M R V} {a b c : M} (h : Ext W a b) (h' : Ext W b c) : Ext W a c := ⟨fun x => h'.1 (h.1 x), fun r v x => h'.2 r v (h.2 r v x)⟩

theorem CacheOK.ext {env : Env L K R M} {A : Alg L V} {W : View M R V} {S : ETree L → Prop} {m m' : M} {c : Cache K R}
    (h : CacheOK env A W S (m, c)) (he : Ext W m m') : CacheOK env A W S (m', c) :=
  ⟨he.1 h.1, fun k e r h1 h2 t h3 h4 => he.2 _ _ (h.2 k e r h1 h2 t h3 h4)⟩

theorem applyPhase_sound {env : Env L K R M} {A : Alg L V} {W : View M R V} {S : ETree L → Prop} (H : Sound env A W S)
    (t : ETree L) (r : R) (m : M) (v : V) (h : W.val m r v) :
    Ext W m (applyPhase env t r m).1 ∧
    W.val (applyPhase env t r m).1 (applyPhase env t r m).2 (if env.phase t.label = 1 then v else A.scale (env.phase t.label) v) := by
  unfold applyPhase
  by_cases hp : env.phase t.label = 1
  · simp only [hp, if_true]; exact ⟨Ext.refl _ _, h⟩
  · simp only [hp, if_false]; exact H.scale _ _ _ _ h

theorem canonical_inv {env : Env L K R M} {A : Alg L V} {W : View M R V} {S : ETree L → Prop} (H : Sound env A W S)
    (t : ETree L) (ht : S t) :
    (if env.phase t.label = 1 then canonical env A t else A.scale (env.phase t.label) (canonical env A t)) = plain env.op A t := by
  unfold canonical
  by_cases hp : env.phase t.label = 1
  · simp [hp]
  · simp only [hp, if_false]; exact H.phase t ht _

theorem access_ok {env : Env L K R M} {A : Alg L V} {W : View M R V} {S : ETree L → Prop} {m : M} {c : Cache K R}
    (h : CacheOK env A W S (m, c)) (k : K) : CacheOK env A W S (m, (c.access k).1) ∧
    ∀ r, (c.access k).2 = some r → ∀ t, S t → env.key t = k → W.val m r (canonical env A t) := by
  unfold Cache.access
  cases hc : c k with
  | none => exact ⟨h, by simp⟩
  | some e =>
    obtain ⟨-, -, f3, f4, -⟩ := access_fields e
    refine ⟨?_, ?_⟩
    · refine ⟨h.1, ?_⟩
      intro k' e' r h1 h2 t h3 h4
      simp only [Cache.set] at h1
      by_cases hk : k' = k
      · simp only [hk, if_true, Option.some.injEq] at h1
        subst h1
        rcases f3 with f3 | f3
        · rw [f3] at h2; exact h.2 k e r hc h2 t h3 (h4.trans hk)
        · rw [f3] at h2; simp at h2
      · simp only [hk, if_false] at h1; exact h.2 k' e' r h1 h2 t h3 h4
    · intro r hr t h3 h4
      simp only [f4] at hr
      exact h.2 k e r hc hr t h3 h4

theorem store_ok {env : Env L K R M} {A : Alg L V} {W : View M R V} {S : ETree L → Prop} {m : M} {c : Cache K R}
    (h : CacheOK env A W S (m, c)) (k : K) (d : R) (hd : ∀ t, S t → env.key t = k → W.val m d (canonical env A t)) :
    CacheOK env A W S (m, (c.store k d).1) := by
  unfold Cache.store
  cases hc : c k with
  | none => exact h
  | some e =>
    obtain ⟨-, -, f3, -, -⟩ := access_fields (e.store d)
    refine ⟨h.1, ?_⟩
    intro k' e' r h1 h2 t h3 h4
    simp only [Cache.set] at h1
    by_cases hk : k' = k
    · simp only [hk, if_true, Option.some.injEq] at h1
      subst h1
      rcases f3 with f3 | f3
      · rw [f3] at h2
        obtain rfl : d = r := by simpa [Entry.store] using h2
        exact hd t h3 (h4.trans hk)
      · rw [f3] at h2; simp at h2
    · simp only [hk, if_false] at h1; exact h.2 k' e' r h1 h2 t h3 h4

theorem finish_sound {env : Env L K R M} {A : Alg L V} {W : View M R V} {S : ETree L → Prop} (H : Sound env A W S)
    (t : ETree L) (ht : S t) (sa : Bool) (r : R) (mc : M × Cache K R) (hc : CacheOK env A W S mc) (hr : W.val mc.1 r (plain env.op A t)) :
    ∃ mc' r', finish env t sa r mc = some (mc', r') ∧ Ext W mc.1 mc'.1 ∧ CacheOK env A W S mc' ∧ W.val mc'.1 r' (plain env.op A t) := by
  unfold finish
  cases sa with
  | false => exact ⟨mc, r, rfl, Ext.refl _ _, hc, hr⟩
  | true =>
    simp only [Bool.not_true, Bool.false_eq_true, if_false, store_some]
    obtain ⟨e1, v1⟩ := applyPhase_sound H t r mc.1 _ hr
    obtain ⟨e2, v2⟩ := applyPhase_sound H t (applyPhase env t r mc.1).2 _ _ v1
    refine ⟨_, _, rfl, e1.trans e2, ?_, ?_⟩
    · refine CacheOK.ext (store_ok (hc.ext e1) _ _ ?_) e2
      intro t' h3 h4
      rw [H.coherent t' t h3 ht h4]
      exact v1
    · have := canonical_inv H t ht
      unfold canonical at this
      rw [← this]; exact v2

/-- The recursion computes the plain value. -/
theorem evalRec_sound {env : Env L K R M} {A : Alg L V} {W : View M R V} {S : ETree L → Prop} (H : Sound env A W S)
    (t : ETree L) : ∀ (ht : S t) (checked : Bool) (mc : M × Cache K R), CacheOK env A W S mc →
    ∃ mc' r, evalRec env checked t mc = some (mc', r) ∧ Ext W mc.1 mc'.1 ∧ CacheOK env A W S mc' ∧ W.val mc'.1 r (plain env.op A t) := by
  -- the common beginning of both kinds of nodes
  have start : ∀ (t : ETree L) (ht : S t) (checked : Bool) (mc : M × Cache K R) (hc : CacheOK env A W S mc),
      let acc : Cache K R × Option R := if checked then mc.2.access (env.key t) else (mc.2, none)
      CacheOK env A W S (mc.1, acc.1) ∧ (∀ r, acc.2 = some r → W.val mc.1 r (canonical env A t)) ∧
      let c := tryCustom env t (mc.1, acc.1)
      Ext W mc.1 c.1.1 ∧ CacheOK env A W S c.1 ∧ ∀ r, c.2 = some r → W.val c.1.1 r (plain env.op A t) := by
    intro t ht checked mc hc acc
    have h1 : CacheOK env A W S (mc.1, acc.1) ∧ ∀ r, acc.2 = some r → W.val mc.1 r (canonical env A t) := by
      cases checked with
      | false => exact ⟨hc, by simp [acc]⟩
      | true => exact ⟨(access_ok hc _).1, fun r hr => (access_ok hc (env.key t)).2 r hr t ht rfl⟩
    refine ⟨h1.1, h1.2, ?_⟩
    unfold tryCustom
    cases t.isLeaf with
    | true => exact ⟨Ext.refl _ _, h1.1, by simp⟩
    | false =>
      simp only [Bool.false_eq_true, if_false]
      cases hf : env.custom with
      | none => exact ⟨Ext.refl _ _, h1.1, by simp⟩
      | some f => exact H.custom f hf t _ ht h1.1
  have hit : ∀ (t : ETree L) (ht : S t) (m : M) (c : Cache K R) (ptr : R), CacheOK env A W S (m, c) → W.val m ptr (canonical env A t) →
      ∃ mc' r, some (((applyPhase env t ptr m).1, c), (applyPhase env t ptr m).2) = some (mc', r) ∧ Ext W m mc'.1 ∧
        CacheOK env A W S mc' ∧ W.val mc'.1 r (plain env.op A t) := by
    intro t ht m c ptr hc hv
    obtain ⟨e, v⟩ := applyPhase_sound H t ptr m _ hv
    rw [canonical_inv H t ht] at v
    exact ⟨_, _, rfl, e, hc.ext e, v⟩
  induction t with
  | leaf a =>
    intro ht checked mc hc
    obtain ⟨s1, s2, s3, s4, s5⟩ := start (.leaf a) ht checked mc hc
    rw [evalRec]
    generalize (if checked = true then mc.2.access (env.key (.leaf a)) else (mc.2, none)) = acc at s1 s2 s3 s4 s5 ⊢
    simp only
    cases h : acc.2 with
    | some ptr => exact hit _ ht _ _ _ s1 (s2 _ h)
    | none =>
      simp only
      generalize tryCustom env (.leaf a) (mc.1, acc.1) = c at s3 s4 s5 ⊢
      cases h2 : c.2 with
      | some r =>
        obtain ⟨mc', r', f1, f2, f3, f4⟩ := finish_sound H (.leaf a) ht _ r c.1 s4 (s5 r h2)
        exact ⟨mc', r', f1, s3.trans f2, f3, f4⟩
      | none =>
        obtain ⟨e1, v1⟩ := H.leaf a c.1.1 s4.1
        obtain ⟨mc', r', f1, f2, f3, f4⟩ := finish_sound H (.leaf a) ht _ (env.leaf a c.1.1).2 ((env.leaf a c.1.1).1, c.1.2) (CacheOK.ext s4 e1) v1
        exact ⟨mc', r', f1, (s3.trans e1).trans f2, f3, f4⟩
  | node a l r ihl ihr =>
    intro ht checked mc hc
    obtain ⟨s1, s2, s3, s4, s5⟩ := start (.node a l r) ht checked mc hc
    obtain ⟨htl, htr⟩ := H.children a l r ht
    rw [evalRec]
    generalize (if checked = true then mc.2.access (env.key (.node a l r)) else (mc.2, none)) = acc at s1 s2 s3 s4 s5 ⊢
    simp only
    cases h : acc.2 with
    | some ptr => exact hit _ ht _ _ _ s1 (s2 _ h)
    | none =>
      simp only
      generalize tryCustom env (.node a l r) (mc.1, acc.1) = c at s3 s4 s5 ⊢
      cases h2 : c.2 with
      | some r' =>
        obtain ⟨mc', r', f1, f2, f3, f4⟩ := finish_sound H (.node a l r) ht _ r' c.1 s4 (s5 r' h2)
        exact ⟨mc', r', f1, s3.trans f2, f3, f4⟩
      | none =>
        simp only
        obtain ⟨mc1, x, l1, l2, l3, l4⟩ := ihl htl true c.1 s4
        rw [l1]
        simp only
        by_cases hadj : env.op a = .adjoint
        · simp only [hadj, if_true]
          obtain ⟨e1, v1⟩ := H.adj (.node a l r) x mc1.1 _ l4
          obtain ⟨mc', r', f1, f2, f3, f4⟩ := finish_sound H (.node a l r) ht (if checked = true then acc.1.exists_ (env.key (.node a l r)) else false)
            (env.adj (.node a l r) x mc1.1).2 ((env.adj (.node a l r) x mc1.1).1, mc1.2) (CacheOK.ext l3 e1)
            (by simpa only [plain, hadj] using v1)
          exact ⟨mc', r', f1, ((s3.trans l2).trans e1).trans f2, f3, f4⟩
        · simp only [hadj, if_false]
          obtain ⟨mc2, y, r1, r2, r3, r4⟩ := ihr htr true mc1 l3
          rw [r1]
          simp only
          have hcomb : Ext W mc2.1 (combine env (.node a l r) x y mc2.1).1 ∧
              W.val (combine env (.node a l r) x y mc2.1).1 (combine env (.node a l r) x y mc2.1).2 (plain env.op A (.node a l r)) := by
            have lx := r2.2 _ _ l4
            unfold combine
            cases ho : env.op a with
            | adjoint => exact absurd ho hadj
            | sum =>
              simp only [ETree.label, ho, if_true]
              have := H.sum (.node a l r) x y mc2.1 _ _ lx r4
              simpa only [plain, ho] using this
            | prod =>
              simp only [ETree.label, ho, reduceCtorEq, if_false, plain]
              cases hh : env.hook with
              | none => exact H.prod (.node a l r) x y mc2.1 _ _ lx r4
              | some hk =>
                obtain ⟨g1, g2⟩ := H.hook hk hh (.node a l r) x y mc2.1 _ _ lx r4
                simp only
                cases hr : (hk (.node a l r) x y mc2.1).2 with
                | some z => exact ⟨g1, g2 z hr⟩
                | none =>
                  obtain ⟨g3, g4⟩ := H.prod (.node a l r) x y (hk (.node a l r) x y mc2.1).1 _ _ (g1.2 _ _ lx) (g1.2 _ _ r4)
                  exact ⟨g1.trans g3, g4⟩
          obtain ⟨e1, v1⟩ := hcomb
          obtain ⟨mc', r', f1, f2, f3, f4⟩ := finish_sound H (.node a l r) ht (if checked = true then acc.1.exists_ (env.key (.node a l r)) else false)
            (combine env (.node a l r) x y mc2.1).2 ((combine env (.node a l r) x y mc2.1).1, mc2.2) (CacheOK.ext r3 e1) v1
          exact ⟨mc', r', f1, (((s3.trans l2).trans r2).trans e1).trans f2, f3, f4⟩

/-- **C27** Whatever is in the cache, as long as it is consistent, the stack machine stops, fails no assertion, returns an object with the
plain value of the tree, changes the value of no existing object, and leaves a consistent cache. -/
theorem evaluate_correct {env : Env L K R M} {A : Alg L V} {W : View M R V} {S : ETree L → Prop} (H : Sound env A W S)
    (t : ETree L) (ht : S t) (checked : Bool) (mc : M × Cache K R) (hc : CacheOK env A W S mc) (fuel : Nat) (hf : t.rounds ≤ fuel) :
    ∃ mc' r, evaluate env fuel checked t mc = some (mc', r) ∧ W.val mc'.1 r (plain env.op A t) ∧ Ext W mc.1 mc'.1 ∧ CacheOK env A W S mc' := by
  rw [evaluate_eq env t checked mc fuel hf]
  obtain ⟨mc', r, a, b, c, d⟩ := evalRec_sound H t ht checked mc hc
  exact ⟨mc', r, a, d, b, c⟩

/-! ### Histories -/

/-- What can happen between two evaluations. -/
inductive Cmd (L : Type) where
  | eval (t : ETree L) (checked : Bool)
  | reset

/-- Run a history; collect the results with the memory in which they were returned. -/
def runCmds (env : Env L K R M) : List (Cmd L) → M × Cache K R → Option ((M × Cache K R) × List (ETree L × R))
  | [], mc => some (mc, [])
  | .reset :: cs, mc => runCmds env cs (mc.1, mc.2.reset)
  | .eval t checked :: cs, mc =>
    match evaluate env t.rounds checked t mc with
    | none => none
    | some (mc1, r) => (runCmds env cs mc1).map fun p => (p.1, (t, r) :: p.2)

/-- **C27** (all reachable cache states): from a newly made cache, with any registration, every evaluation in every history of evaluations
and resets returns the plain value, and it keeps this value to the end. -/
theorem runCmds_correct {env : Env L K R M} {A : Alg L V} {W : View M R V} {S : ETree L → Prop} (H : Sound env A W S)
    (reg : List (K × Nat)) (pers : K → Bool) (m : M) (cs : List (Cmd L)) (hm : W.inv m)
    (hS : ∀ t b, Cmd.eval t b ∈ cs → S t) :
    ∃ mc' rs, runCmds env cs (m, Cache.make reg pers) = some (mc', rs) ∧ (∀ p ∈ rs, W.val mc'.1 p.2 (plain env.op A p.1)) ∧
      rs.map Prod.fst = cs.filterMap fun c => match c with | .eval t _ => some t | .reset => none := by
  have gen : ∀ (cs : List (Cmd L)) (mc : M × Cache K R), (∀ t b, Cmd.eval t b ∈ cs → S t) → CacheOK env A W S mc →
      ∃ mc' rs, runCmds env cs mc = some (mc', rs) ∧ Ext W mc.1 mc'.1 ∧ (∀ p ∈ rs, W.val mc'.1 p.2 (plain env.op A p.1)) ∧
      rs.map Prod.fst = cs.filterMap fun c => match c with | .eval t _ => some t | .reset => none := by
    intro cs
    induction cs with
    | nil => intro mc _ _; exact ⟨mc, [], rfl, Ext.refl _ _, by simp, rfl⟩
    | cons c cs ih =>
      intro mc hS hc
      have hS' : ∀ t b, Cmd.eval t b ∈ cs → S t := fun t b h => hS t b (List.mem_cons_of_mem _ h)
      cases c with
      | reset =>
        have hr : CacheOK env A W S (mc.1, mc.2.reset) := by
          refine ⟨hc.1, ?_⟩
          intro k e r h1 h2 t h3 h4
          simp only [Cache.reset, Option.map_eq_some_iff] at h1
          obtain ⟨e0, h0, rfl⟩ := h1
          unfold Entry.reset at h2
          split at h2
          · exact hc.2 k e0 r h0 h2 t h3 h4
          · simp at h2
        obtain ⟨mc', rs, a, b, c, d⟩ := ih (mc.1, mc.2.reset) hS' hr
        exact ⟨mc', rs, a, b, c, by simpa using d⟩
      | eval t checked =>
        obtain ⟨mc1, r, a1, a2, a3, a4⟩ := evaluate_correct H t (hS t checked (by simp)) checked mc hc t.rounds (Nat.le_refl _)
        obtain ⟨mc', rs, b1, b2, b3, b4⟩ := ih mc1 hS' a4
        refine ⟨mc', (t, r) :: rs, by simp [runCmds, a1, b1], a3.trans b2, ?_, by simpa using b4⟩
        intro p hp
        simp only [List.mem_cons] at hp
        rcases hp with rfl | hp
        · exact b2.2 _ _ a2
        · exact b3 p hp
  obtain ⟨mc', rs, a, _, c, d⟩ := gen cs (m, Cache.make reg pers) hS (by
    refine ⟨hm, ?_⟩
    intro k e r h1 h2
    simp only [make_entry, Option.map_eq_some_iff] at h1
    obtain ⟨x, -, rfl⟩ := h1
    simp [Entry.new] at h2)
  exact ⟨mc', rs, a, c, d⟩

/-! ### A concrete backend -/

/-- Integer values, no memory; labels are (operation, phase, value for leaves); the key of a node is its canonical value. -/
def demo (key : ETree (EOp × Int × Int) → Int) : Env (EOp × Int × Int) Int Int Unit where
  key := key
  op a := a.1
  phase a := a.2.1
  leaf a _ := ((), a.2.2)
  sum _ x y _ := ((), x + y)
  prod _ x y _ := ((), x * y)
  adj _ x _ := ((), x)
  scale p x _ := ((), p * x)
  custom := none
  hook := none

def demoAlg : Alg (EOp × Int × Int) Int := ⟨fun a => a.2.2, fun _ x y => x + y, fun _ x y => x * y, fun _ x => x, fun p x => p * x⟩

/-- All nodes have phase 1 or -1. -/
def signed : ETree (EOp × Int × Int) → Prop
  | .leaf a => a.2.1 = 1 ∨ a.2.1 = -1
  | .node a l r => (a.2.1 = 1 ∨ a.2.1 = -1) ∧ signed l ∧ signed r

def demoKey (t : ETree (EOp × Int × Int)) : Int :=
  if t.label.2.1 = 1 then plain Prod.fst demoAlg t else t.label.2.1 * plain Prod.fst demoAlg t

/-- The hypotheses of the theorems can be met, with phases of both signs. -/
theorem demo_sound : Sound (demo demoKey) demoAlg ⟨fun _ r v => r = v, fun _ => True⟩ signed where
  children _ _ _ h := h.2
  leaf _ _ _ := ⟨Ext.refl _ _, rfl⟩
  sum := by rintro _ _ _ _ _ _ rfl rfl; exact ⟨Ext.refl _ _, rfl⟩
  prod := by rintro _ _ _ _ _ _ rfl rfl; exact ⟨Ext.refl _ _, rfl⟩
  adj := by rintro _ _ _ _ rfl; exact ⟨Ext.refl _ _, rfl⟩
  scale := by rintro _ _ _ _ rfl; exact ⟨Ext.refl _ _, rfl⟩
  phase t h v := by
    have : t.label.2.1 = 1 ∨ t.label.2.1 = -1 := by cases t with
      | leaf a => exact h
      | node a l r => exact h.1
    show t.label.2.1 * (t.label.2.1 * v) = v
    rcases this with h | h <;> rw [h] <;> omega
  coherent _ _ _ _ h := h
  custom _ h := by simp [demo] at h
  hook _ h := by simp [demo] at h

def n1 : ETree (EOp × Int × Int) := .node (.prod, -1, 0) (.leaf (.sum, 1, 2)) (.leaf (.sum, 1, 3))
def n2 : ETree (EOp × Int × Int) := .node (.prod, 1, 0) (.leaf (.sum, 1, -2)) (.leaf (.sum, 1, 3))

example : (evaluate (demo demoKey) 20 true (.node (.sum, 1, 0) n1 n2) ((), Cache.make [(-6, 2)] fun _ => false)).map Prod.snd = some 0 := by decide
example : plain Prod.fst demoAlg (.node (.sum, 1, 0) n1 n2) = 0 := by decide

/-- Coherence of keys is needed: if the key forgets the sign, the cached value of one node is taken for the other. -/
theorem incoherent_key : ∃ (key : ETree (EOp × Int × Int) → Int) (t : ETree (EOp × Int × Int)), signed t ∧
    (evaluate (demo key) t.rounds true t ((), Cache.make [(6, 2)] fun _ => false)).map Prod.snd ≠ some (plain Prod.fst demoAlg t) :=
  ⟨fun t => (plain Prod.fst demoAlg t).natAbs, .node (.sum, 1, 0) (.node (.prod, 1, 0) (.leaf (.sum, 1, 2)) (.leaf (.sum, 1, 3))) n2,
    by simp [signed, n2], by decide⟩

end SeQuant.Eval
