import Verif.Codegen.Prep
import Mathlib.Tactic.Ring

/-!
# The specification of the preprocessing
-/

namespace SeQuant.Codegen

open SeQuant.Eval (EOp)

variable {K : Type} [CommRing K]

set_option linter.unusedSectionVars false

/-- The object the node adds to. -/
def into : Option Par → Option (Name × List Nat)
  | none => none
  | some q => if q.op = .sum then some (q.n, q.a) else none

/-- What the parent guarantees. -/
structure ParOk (input : Nat → Bool) (q : Par) (t : T K) (s : PS) : Prop where
  other : q.op ≠ .sum → q.comp = true
  sum : q.op = .sum → q.comp = t.isLeaf ∧ Same q.a t.idx ∧ input q.n.stem = false ∧ 0 < s.cnt q.n

structure Post (input : Nat → Bool) (par : Option Par) (t : T K) (s : PS) (t' : P K) (up : List (EX K)) (s' : PS) : Prop where
  val : t.NoPhase → ∀ I : Interp K, ((∀ x, I.cj x = x) ∨ t.NoAdj) → ∀ σ, fv I up * t'.val I σ = t.val I σ
  idx : Same t'.idx t.idx
  ix : t'.Ix
  ups : ∀ x ∈ up, x.idx = [] ∧ x.Input input
  keep : underProd par = false → up = [] ∧ t'.isLeaf = t.isLeaf
  leaf : t.isLeaf = true → t'.isLeaf = true
  cnt : ∀ m, s'.cnt m = s.cnt m + t'.expr.uses m
  keys : ∀ m, m ∈ s'.keys ↔ m ∈ s.keys ∨ t'.names m
  ctx : CtxOk input s'.ctx
  mono : ∀ m, input m.stem = false → Zeroed s.ctx m → Zeroed s'.ctx m
  frame : ∀ m, input m.stem = false → 0 < s.cnt m → s'.ctx.get m = s.ctx.get m
  scope : ∀ Z : Name → Prop, (∀ m, input m.stem = false → Zeroed s'.ctx m → Z m) →
    t'.Scoped input Z (into par) (fun m => m ∈ s.keys) s.cnt
  top : (par = none ∨ ∃ m, into par = some m) → ∀ m ∈ t'.nodeName, s'.ctx.get m = s.ctx.get m
  root : par = none → ∀ op n a l r, t = .node op n a l r → ∃ op cl cr fac l' r', t' = .node op cl cr n a fac l' r'
  decl : ∀ m, (∃ u, (m, u) ∈ s'.decl) ↔ (∃ u, (m, u) ∈ s.decl) ∨ t'.occ m ∨ ∃ x ∈ up, x.name = some m
  usage : ∀ m u, (m, u) ∈ s'.decl → (m, u) ∈ s.decl ∨ (u = .terminal ↔ input m.stem = true)
  inds : ∀ i, i ∈ s'.idx ↔ i ∈ s.idx ∨ t'.occIdx i
  nosum : t.NoSum → ∀ m, t'.Flat m
  flat : (par = none ∨ ∃ m, into par = some m) → t.Expanded → ∀ m, (∀ n ∈ t'.nodeName, n = m) → t'.Flat m

theorem prune_isLeaf (p : Prunable) (pp : Bool) (x : EX K) (neg : Bool) : prune p pp (.leaf x neg) = .leaf x [] := rfl

/-- The part of the specification about leaves. -/
theorem post_leaf {input : Nat → Bool} (p : Prunable) (par : Option Par) (t : T K) (s : PS) (hw : t.WF input) (hs : SInv input s)
    (x : EX K) (up : List (EX K)) (h : prune p (underProd par) t = .leaf x up) :
    Post input par t s (.leaf x) up (track (contentLeaf (trackPruned s up) x) .terminal x) := by
  have hp := prune_ok p (underProd par) t hw
  rw [h] at hp
  obtain ⟨k1, k2, k3, k4⟩ := trackPruned_rest s up
  obtain ⟨c1, c2, c3, c4⟩ := contentLeaf_rest (trackPruned s up) x
  have hx : x.Input input := hp.wf
  have hctx := contentLeaf_ctx (input := input) (trackPruned s up) x (by rw [k2]; exact hs.ctx) hx
  rw [k2] at hctx
  have hups : ∀ y ∈ up, y.idx = [] ∧ y.Input input := hp.facs (by simp)
  refine
    { val := fun hph I _ σ => ?_
      idx := hp.idx
      ix := trivial
      ups := hups
      keep := fun hu => ?_
      leaf := fun _ => rfl
      cnt := fun m => ?_
      keys := fun m => ?_
      ctx := ?_
      mono := fun m hm hz => ?_
      frame := fun m hm _ => ?_
      scope := fun Z _ => hx
      top := fun _ m hm => by cases hm
      root := fun hn op n a l r ht => ?_
      decl := fun m => ?_
      usage := fun m u hu => ?_
      inds := fun i => ?_
      nosum := fun _ _ => trivial
      flat := fun _ _ _ _ => trivial }
  · have := hp.val hph I σ
    rw [fv_nil, one_mul] at this
    exact this
  · rw [hu] at h
    cases t with
    | leaf y neg => cases h; exact ⟨rfl, rfl⟩
    | node op n a l r =>
      obtain ⟨_, _, _, _, _, _, h'⟩ := prune_node p op n a l r
      rw [h'] at h; cases h
  · rw [track_cnt, c2, k3]; rfl
  · rw [track_keys, c1, k1]; rfl
  · rw [track_ctx]; exact hctx.1
  · unfold Zeroed at *; rw [track_ctx, hctx.2 m hm]; exact hz
  · rw [track_ctx, hctx.2 m hm]
  · subst hn ht
    obtain ⟨_, _, _, _, _, _, h'⟩ := prune_node p op n a l r
    rw [show underProd none = false from rfl, h'] at h; cases h
  · simp only [track_decl, c3, trackPruned_decl]
    constructor
    · rintro ⟨u, (hu | hu) | hu⟩
      · exact Or.inl ⟨u, hu⟩
      · exact Or.inr (Or.inr hu.2)
      · exact Or.inr (Or.inl hu.1)
    · rintro (⟨u, hu⟩ | hu | hu)
      · exact ⟨u, Or.inl (Or.inl hu)⟩
      · exact ⟨_, Or.inr ⟨hu, rfl⟩⟩
      · exact ⟨_, Or.inl (Or.inr ⟨rfl, hu⟩)⟩
  · rw [track_decl, c3, trackPruned_decl] at hu
    rcases hu with (hu | ⟨hu, y, hy, e⟩) | ⟨e, hu⟩
    · exact Or.inl hu
    · exact Or.inr ⟨fun _ => (hups y hy).2 m e, fun _ => hu⟩
    · exact Or.inr ⟨fun _ => hx m e, fun _ => hu⟩
  · rw [track_idx, c4, k4]; rfl

theorem uses_obj (n : Name) (a : List Nat) (m : Name) : (EX.obj n a : EX K).uses m = if m = n then 1 else 0 := by
  unfold EX.uses EX.name
  by_cases h : m = n
  · simp [h]
  · have : ¬ n = m := fun e => h e.symm
    simp [h, this]

theorem usageOf_ne (par : Option Par) : usageOf par ≠ .terminal := by
  cases par with
  | none => simp [usageOf]
  | some q => simp only [usageOf]; split <;> simp

theorem val_swap (I : Interp K) (op : EOp) (hop : op ≠ .adjoint) (n : Name) (a : List Nat) (l r : T K) (σ : Nat → Nat) :
    (T.node op n a l r).val I σ = (T.node op n a r l).val I σ := by
  cases op with
  | sum => simp only [T.val]; rw [add_comm]
  | adjoint => exact absurd rfl hop
  | prod =>
    simp only [T.val]
    rw [sumOver_perm (contr_perm (Same.refl a) (b' := r.idx ++ l.idx)
      ⟨by intro i; simp [or_comm], by intro i; simp [or_comm]⟩)]
    exact sumOver_congr (fun τ => mul_comm _ _) σ

set_option maxHeartbeats 2000000 in
/-- The part of the specification about internal nodes. -/
theorem post_node {input : Nat → Bool} (p : Prunable) (par : Option Par) (t : T K) (s : PS) (hw : t.WF input) (hs : SInv input s)
    (hpar : ∀ q, par = some q → ParOk input q t s) (hroot : par = none → s.keys = [])
    {op : EOp} {n : Name} {a : List Nat} {fac : List (EX K)} {l r : T K} (hpr : prune p (underProd par) t = .node op n a fac l r)
    {n' : Name} {s₁ : PS} (hc : ContentOk input (trackPruned s fac) (reuse par) n n' s₁)
    {l' r' : T K} (hlr : (l' = l ∧ r' = r) ∨ (l' = r ∧ r' = l ∧ op ≠ .adjoint))
    {cl cr : Bool} (hcl : cl = if op = .sum then l'.isLeaf else true) (hcr : cr = if op = .sum then r'.isLeaf else true)
    {e : Name × List Nat} (he : e = newExpr par n' a)
    {pl pr : P K} {ul ur : List (EX K)} {s₂ s₃ : PS}
    (hl : Post input (some ⟨op, e.1, e.2, cl⟩) l' (track s₁ (usageOf par) (.obj e.1 e.2 : EX K)) pl ul s₂)
    (hr : Post input (some ⟨op, e.1, e.2, cr⟩) r' s₂ pr ur s₃) :
    Post input par t s (.node op cl cr e.1 e.2 (fac ++ ul ++ ur) pl pr) [] (release (release s₃ pl.expr) pr.expr) := by
  have hp := prune_ok p (underProd par) t hw
  rw [hpr] at hp
  obtain ⟨k1, k2, k3, k4⟩ := trackPruned_rest s fac
  have htl : t.isLeaf = false := by
    cases t with
    | leaf x neg => rw [prune_isLeaf] at hpr; cases hpr
    | node => rfl
  have hidx : Same a t.idx := hp.idx
  have hn' : input n'.stem = false := by rw [hc.stem]; exact hp.wf.1
  -- the expression of the node
  have hsum : ∀ q, par = some q → q.op = .sum → e = (q.n, q.a) := by
    intro q hq ho
    have h1 := ((hpar q hq).sum ho).1
    rw [htl] at h1
    rw [he, hq]; simp [newExpr, h1]
  have hnot : into par = none → e = (n', a) := by
    intro hi
    cases par with
    | none => exact he
    | some q =>
      have : q.op ≠ .sum := by
        intro ho; simp [into, ho] at hi
      rw [he]; simp [newExpr, (hpar q rfl).other this]
  have hsome : ∀ m, into par = some m → ∃ q, par = some q ∧ q.op = .sum ∧ (q.n, q.a) = m := by
    intro m hm
    cases par with
    | none => cases hm
    | some q =>
      simp only [into] at hm
      split at hm
      · rename_i ho; cases hm; exact ⟨q, rfl, ho, rfl⟩
      · cases hm
  have hestem : input e.1.stem = false := by
    cases hi : into par with
    | none => rw [hnot hi]; exact hn'
    | some m =>
      obtain ⟨q, hq, ho, _⟩ := hsome m hi
      rw [hsum q hq ho]; exact ((hpar q hq).sum ho).2.2.1
  have heidx : Same e.2 t.idx := by
    cases hi : into par with
    | none => rw [hnot hi]; exact hidx
    | some m =>
      obtain ⟨q, hq, ho, _⟩ := hsome m hi
      rw [hsum q hq ho]; exact ((hpar q hq).sum ho).2.1
  have hea : Same e.2 a := heidx.trans hidx.symm
  -- counting
  have ct : ∀ m, (track s₁ (usageOf par) (.obj e.1 e.2 : EX K)).cnt m = s.cnt m + if m = e.1 then 1 else 0 := by
    intro m; rw [track_cnt, hc.cnt, k3, uses_obj]
  have c2 : ∀ m, s₂.cnt m = (s.cnt m + if m = e.1 then 1 else 0) + pl.expr.uses m := by intro m; rw [hl.cnt, ct]
  have c3 : ∀ m, s₃.cnt m = ((s.cnt m + if m = e.1 then 1 else 0) + pl.expr.uses m) + pr.expr.uses m := by intro m; rw [hr.cnt, c2]
  have ke : ∀ m, m ∈ (track s₁ (usageOf par) (.obj e.1 e.2 : EX K)).keys ↔ m ∈ s.keys ∨ m = e.1 := by
    intro m; rw [track_keys, hc.keys, k1]; simp [EX.name, eq_comm]
  obtain ⟨r1, r2, r3, r4⟩ := release_rest (release s₃ pl.expr) pr.expr
  obtain ⟨q1, q2, q3, q4⟩ := release_rest s₃ pl.expr
  have wl : (T.node op n a l r).WF input := hp.wf
  have hup : ∀ o cc, o ≠ EOp.prod → underProd (some ⟨o, e.1, e.2, cc⟩) = false := by
    intro o cc h; simp [underProd, h]
  have hinto' : ∀ cc, into (some ⟨op, e.1, e.2, cc⟩) = if op = .sum then some (e.1, e.2) else none := fun cc => rfl
  have hadjl : op = .adjoint → l' = l ∧ r' = r := by
    intro ho
    rcases hlr with h | h
    · exact h
    · exact absurd ho h.2.2
  have hsame : ∀ {P : T K → T K → Prop}, (P l r → P r l) → P l r → P l' r' := by
    intro P hh h0
    rcases hlr with ⟨rfl, rfl⟩ | ⟨rfl, rfl, _⟩
    · exact h0
    · exact hh h0
  refine
    { val := fun hph I hI σ => ?_
      idx := heidx
      ix := ?_
      ups := by simp
      keep := fun _ => ⟨rfl, htl.symm⟩
      leaf := fun h => by rw [htl] at h; cases h
      cnt := fun m => ?_
      keys := fun m => ?_
      ctx := ?_
      mono := fun m hm hz => ?_
      frame := fun m hm hc0 => ?_
      scope := fun Z hZ => ?_
      top := fun hh m hm => ?_
      root := fun hn op₀ n₀ a₀ l₀ r₀ ht => ?_
      decl := fun m => ?_
      usage := fun m u hu => ?_
      inds := fun i => ?_
      nosum := fun hns m => ?_
      flat := fun hh hex m hm => ?_ }
  · -- val
    rw [fv_nil, one_mul]
    have h0 := hp.val hph I σ
    rw [fv_nil, one_mul] at h0
    rw [← h0]
    have hphn : (T.node op n a l r).NoPhase := hp.phase hph
    have hph' : l'.NoPhase ∧ r'.NoPhase := hsame (P := fun x y => x.NoPhase ∧ y.NoPhase) And.symm hphn
    have hadj' : (∀ x, I.cj x = x) ∨ (T.node op n a l r).NoAdj := hI.imp id hp.adj
    have hIl : (∀ x, I.cj x = x) ∨ l'.NoAdj := hadj'.imp id fun h =>
      (hsame (P := fun x y => x.NoAdj ∧ y.NoAdj) And.symm ⟨h.2.1, h.2.2⟩).1
    have hIr : (∀ x, I.cj x = x) ∨ r'.NoAdj := hadj'.imp id fun h =>
      (hsame (P := fun x y => x.NoAdj ∧ y.NoAdj) And.symm ⟨h.2.1, h.2.2⟩).2
    have vl := hl.val hph'.1 I hIl
    have vr := hr.val hph'.2 I hIr
    have hsw : (T.node op n a l r).val I σ = (T.node op n a l' r').val I σ := by
      rcases hlr with ⟨rfl, rfl⟩ | ⟨rfl, rfl, ho⟩
      · rfl
      · exact val_swap I op ho n a _ _ σ
    show _ = fv I fac * (T.node op n a l r).val I σ
    rw [hsw]
    cases op with
    | sum =>
      have ul0 : ul = [] := (hl.keep (hup _ _ (by simp))).1
      have ur0 : ur = [] := (hr.keep (hup _ _ (by simp))).1
      subst ul0 ur0
      simp only [fv_nil, one_mul] at vl vr
      simp only [P.val, T.val, List.append_nil, vl, vr]
    | adjoint =>
      have ul0 : ul = [] := (hl.keep (hup _ _ (by simp))).1
      have ur0 : ur = [] := (hr.keep (hup _ _ (by simp))).1
      subst ul0 ur0
      simp only [fv_nil, one_mul] at vl vr
      have hcj : ∀ x, I.cj x = x := by
        rcases hadj' with h | h
        · exact h
        · exact absurd rfl h.1
      simp only [P.val, T.val, List.append_nil, vl, hcj]
    | prod =>
      simp only [P.val, T.val, fv_append]
      have e1 : ∀ τ, l'.val I τ * r'.val I τ = (fv I ul * fv I ur) * (pl.val I τ * pr.val I τ) := by
        intro τ; rw [← vl τ, ← vr τ]; ring
      rw [sumOver_congr e1, sumOver_mul]
      have hb : Same (pl.idx ++ pr.idx) (l'.idx ++ r'.idx) :=
        ⟨by intro i hi; rcases List.mem_append.1 hi with h | h
            · exact List.mem_append.2 (Or.inl (hl.idx.1 h))
            · exact List.mem_append.2 (Or.inr (hr.idx.1 h)),
          by intro i hi; rcases List.mem_append.1 hi with h | h
             · exact List.mem_append.2 (Or.inl (hl.idx.2 h))
             · exact List.mem_append.2 (Or.inr (hr.idx.2 h))⟩
      rw [sumOver_perm (contr_perm hea hb)]
      ring
  · -- ix
    refine ⟨hl.ix, hr.ix, ?_, ?_⟩
    · intro x hx
      simp only [List.mem_append] at hx
      rcases hx with (hx | hx) | hx
      · exact (hp.facs (by simp) x hx).1
      · exact (hl.ups x hx).1
      · exact (hr.ups x hx).1
    · cases op with
      | prod => trivial
      | sum =>
        have h4 : Same l.idx a ∧ Same r.idx a := wl.2.2.2
        have h5 : Same l'.idx a ∧ Same r'.idx a := hsame (P := fun x y => Same x.idx a ∧ Same y.idx a) And.symm h4
        exact ⟨((hl.idx.trans h5.1).trans hea.symm).1, ((hr.idx.trans h5.2).trans hea.symm).1⟩
      | adjoint =>
        have h4 : Same l.idx a ∧ _ := wl.2.2.2
        have h5 := (hadjl rfl).1
        rw [← h5] at h4
        exact ((hl.idx.trans h4.1).trans hea.symm).1
  · -- cnt
    rw [release_cnt, release_cnt, c3]
    show _ = s.cnt m + (EX.obj e.1 e.2 : EX K).uses m
    rw [uses_obj]
    omega
  · -- keys
    rw [r1, q1, hr.keys, hl.keys, ke]
    simp only [P.names]
    tauto
  · rw [r2, q2]; exact hr.ctx
  · -- mono
    have : Zeroed (track s₁ (usageOf par) (.obj e.1 e.2 : EX K)).ctx m := by
      rw [track_ctx]; exact hc.mono m (by rw [k2]; exact hz)
    have := hr.mono m hm (hl.mono m hm this)
    rw [r2, q2]; exact this
  · -- frame
    rw [r2, q2, hr.frame m hm (by rw [c2]; omega), hl.frame m hm (by rw [ct]; omega), track_ctx,
      hc.frame m (by rw [k3]; exact hc0), k2]
  · -- scope
    rw [r2, q2] at hZ
    have hZ2 : ∀ m, input m.stem = false → Zeroed s₂.ctx m → Z m := fun m hm h => hZ m hm (hr.mono m hm h)
    have hZ1 : ∀ m, input m.stem = false → Zeroed s₁.ctx m → Z m := fun m hm h =>
      hZ2 m hm (hl.mono m hm (by rw [track_ctx]; exact h))
    have sl := hl.scope Z hZ2
    have sr := hr.scope Z hZ
    rw [hinto'] at sl sr
    refine ⟨hestem, ?_, fun hi => ?_, fun m hm => ?_, fun ho => ?_, fun ho => ?_, ?_, ?_⟩
    · intro x hx
      simp only [List.mem_append] at hx
      rcases hx with (hx | hx) | hx
      · exact (hp.facs (by simp) x hx).2
      · exact (hl.ups x hx).2
      · exact (hr.ups x hx).2
    · have e1 : e.1 = n' := by rw [hnot hi]
      rw [e1]
      cases hq : par with
      | none =>
        have := hroot hq
        refine ⟨?_, fun h => by rw [this] at h; cases h⟩
        by_contra h0
        have := hs.keys n' (by omega)
        rw [hroot hq] at this; cases this
      | some q =>
        have : reuse par = true := by
          rw [hq] at hi ⊢
          have : q.op ≠ .sum := by intro ho; simp [into, ho] at hi
          simp [reuse, this]
        have h := hc.free this
        rw [k3, k1] at h
        exact ⟨h.1, fun hk => hZ1 n' hn' (h.2 hk)⟩
    · obtain ⟨q, hq, ho, hqn⟩ := hsome m hm
      have h := (hpar q hq).sum ho
      rw [hsum q hq ho]
      exact ⟨hqn, h.2.2.2, hs.keys _ h.2.2.2⟩
    · have h1 := (hl.keep (hup _ _ (by simp [ho]))).2
      have h2 := (hr.keep (hup _ _ (by simp [ho]))).2
      rw [h1, h2, hcl, hcr, if_pos ho, if_pos ho]
      exact ⟨rfl, rfl⟩
    · have h4 := wl.2.2.2
      subst ho
      obtain ⟨a1, a2⟩ := hadjl rfl
      exact ⟨hl.leaf (by rw [a1]; exact h4.2.1), hr.leaf (by rw [a2]; exact h4.2.2)⟩
    · have f1 : (fun m => m ∈ (track s₁ (usageOf par) (.obj e.1 e.2 : EX K)).keys) = fun m => m ∈ s.keys ∨ m = e.1 :=
        funext fun m => propext (ke m)
      have f2 : (track s₁ (usageOf par) (.obj e.1 e.2 : EX K)).cnt = fun m => s.cnt m + if m = e.1 then 1 else 0 := funext ct
      rw [f1, f2] at sl
      exact sl
    · have f1 : (fun m => m ∈ s₂.keys) = fun m => (m ∈ s.keys ∨ m = e.1) ∨ pl.names m :=
        funext fun m => propext (by rw [hl.keys, ke])
      have f2 : s₂.cnt = fun m => (s.cnt m + if m = e.1 then 1 else 0) + pl.expr.uses m := funext c2
      rw [f1, f2] at sr
      exact sr
  · -- top
    have e1 : m = e.1 := by simpa [P.nodeName, eq_comm] using hm
    subst e1
    rw [r2, q2, hr.frame _ hestem (by rw [c2]; simp), hl.frame _ hestem (by rw [ct]; simp), track_ctx]
    have : reuse par = false := by
      rcases hh with hh | ⟨m, hm⟩
      · rw [hh]; rfl
      · obtain ⟨q, hq, ho, _⟩ := hsome m hm
        rw [hq]; simp [reuse, ho]
    rw [(hc.same this).2, k2]
  · -- root
    subst hn ht
    have h1 := prune_name p _ hpr
    have h2 := (hc.same rfl).1
    have h3 : e = (n', a) := hnot rfl
    rw [h3, h2, h1.1, h1.2]
    exact ⟨_, _, _, _, _, _, rfl⟩
  · -- decl
    rw [r3, q3, hr.decl, hl.decl]
    simp only [track_decl, hc.decl, trackPruned_decl, P.occ, List.mem_append]
    constructor
    · rintro ((⟨u, (hu | hu) | hu⟩ | hu | ⟨x, hx, e⟩) | hu | ⟨x, hx, e⟩)
      · exact Or.inl ⟨u, hu⟩
      · obtain ⟨x, hx, e⟩ := hu.2; exact Or.inr (Or.inl (Or.inr (Or.inl ⟨x, Or.inl (Or.inl hx), e⟩)))
      · have := hu.1; simp only [EX.name, Option.some.injEq] at this
        exact Or.inr (Or.inl (Or.inl this.symm))
      · exact Or.inr (Or.inl (Or.inr (Or.inr (Or.inl hu))))
      · exact Or.inr (Or.inl (Or.inr (Or.inl ⟨x, Or.inl (Or.inr hx), e⟩)))
      · exact Or.inr (Or.inl (Or.inr (Or.inr (Or.inr hu))))
      · exact Or.inr (Or.inl (Or.inr (Or.inl ⟨x, Or.inr hx, e⟩)))
    · rintro (⟨u, hu⟩ | (rfl | ⟨x, (hx | hx) | hx, e⟩ | hu | hu) | ⟨x, hx, e⟩)
      · exact Or.inl (Or.inl ⟨u, Or.inl (Or.inl hu)⟩)
      · exact Or.inl (Or.inl ⟨_, Or.inr ⟨rfl, rfl⟩⟩)
      · exact Or.inl (Or.inl ⟨_, Or.inl (Or.inr ⟨rfl, x, hx, e⟩)⟩)
      · exact Or.inl (Or.inr (Or.inr ⟨x, hx, e⟩))
      · exact Or.inr (Or.inr ⟨x, hx, e⟩)
      · exact Or.inl (Or.inr (Or.inl hu))
      · exact Or.inr (Or.inl hu)
      · cases hx
  · -- usage
    rw [r3, q3] at hu
    rcases hr.usage m u hu with hu | hu
    · rcases hl.usage m u hu with hu | hu
      · rw [track_decl, hc.decl, trackPruned_decl] at hu
        rcases hu with (hu | ⟨hu, x, hx, e⟩) | ⟨e1, hu⟩
        · exact Or.inl hu
        · exact Or.inr ⟨fun _ => (hp.facs (by simp) x hx).2 m e, fun _ => hu⟩
        · refine Or.inr ⟨fun h => absurd (hu.symm.trans h) (usageOf_ne par), fun h => ?_⟩
          simp only [EX.name, Option.some.injEq] at e1
          rw [← e1, hestem] at h; cases h
      · exact Or.inr hu
    · exact Or.inr hu
  · -- inds
    rw [r4, q4, hr.inds, hl.inds, track_idx, hc.idx, k4]
    simp only [P.occIdx, EX.idx]
    tauto
  · -- nosum
    have h := hp.nosum hns
    have h' : l'.NoSum ∧ r'.NoSum := hsame (P := fun x y => x.NoSum ∧ y.NoSum) And.symm ⟨h.2.1, h.2.2⟩
    exact ⟨fun ho => absurd ho h.1, hl.nosum h'.1 m, hr.nosum h'.2 m⟩
  · -- flat
    cases t with
    | leaf x neg => cases htl
    | node op₀ n₀ a₀ l₀ r₀ =>
      by_cases ho : op₀ = .sum
      · subst ho
        rw [prune_other p _ n₀ a₀ l₀ r₀ (by simp)] at hpr
        cases hpr
        have hex' : l.Expanded ∧ r.Expanded := hex
        have h' : l'.Expanded ∧ r'.Expanded := hsame (P := fun x y => x.Expanded ∧ y.Expanded) And.symm hex'
        have ul0 : ul = [] := (hl.keep (hup _ _ (by simp))).1
        have ur0 : ur = [] := (hr.keep (hup _ _ (by simp))).1
        have hem : e.1 = m := hm e.1 rfl
        have nl : ∀ x ∈ pl.nodeName, x = m := by
          intro x hx
          have sl := hl.scope (fun _ => True) fun _ _ _ => trivial
          cases pl with
          | leaf y => cases hx
          | node =>
            simp only [P.nodeName, Option.mem_def, Option.some.injEq] at hx
            subst hx
            rw [← hem]
            exact congrArg Prod.fst (sl.2.2.2.1 (e.1, e.2) rfl).1
        have nr : ∀ x ∈ pr.nodeName, x = m := by
          intro x hx
          have sr := hr.scope (fun _ => True) fun _ _ _ => trivial
          cases pr with
          | leaf y => cases hx
          | node =>
            simp only [P.nodeName, Option.mem_def, Option.some.injEq] at hx
            subst hx
            rw [← hem]
            exact congrArg Prod.fst (sr.2.2.2.1 (e.1, e.2) rfl).1
        exact ⟨fun _ => ⟨hem, by rw [ul0, ur0]; rfl⟩, hl.flat (Or.inr ⟨(e.1, e.2), rfl⟩) h'.1 m nl, hr.flat (Or.inr ⟨(e.1, e.2), rfl⟩) h'.2 m nr⟩
      · have hns : (T.node op₀ n₀ a₀ l₀ r₀).NoSum := by
          cases op₀ with
          | sum => exact absurd rfl ho
          | prod => exact hex
          | adjoint => exact hex
        have h := hp.nosum hns
        have h' : l'.NoSum ∧ r'.NoSum := hsame (P := fun x y => x.NoSum ∧ y.NoSum) And.symm ⟨h.2.1, h.2.2⟩
        exact ⟨fun ho => absurd ho h.1, hl.nosum h'.1 m, hr.nosum h'.2 m⟩

/-- The specification of the preprocessing of a subtree. -/
theorem preF_spec {input : Nat → Bool} (p : Prunable) (f : Nat) (par : Option Par) (t : T K) (s : PS) (hf : t.size ≤ f)
    (hw : t.WF input) (hs : SInv input s) (hpar : ∀ q, par = some q → ParOk input q t s) (hroot : par = none → s.keys = []) :
    ∃ t' up s', preF p f par t s = some (t', up, s') ∧ Post input par t s t' up s' := by
  induction f generalizing par t s with
  | zero => cases t <;> simp [T.size] at hf
  | succ f ih =>
    simp only [preF]
    have hp := prune_ok p (underProd par) t hw
    cases hpr : prune p (underProd par) t with
    | leaf x up => exact ⟨_, _, _, rfl, post_leaf p par t s hw hs x up hpr⟩
    | node op n a fac l r =>
      rw [hpr] at hp
      obtain ⟨k1, k2, k3, k4⟩ := trackPruned_rest s fac
      have hs0 : SInv input (trackPruned s fac) := ⟨by rw [k2]; exact hs.ctx, by rw [k1, k3]; exact hs.keys⟩
      obtain ⟨n', s₁, hcn, hc⟩ := contentNode_ok hs0 (reuse par) n hp.wf.1
      simp only [hcn]
      generalize he : newExpr par n' a = e
      generalize hl' : (if l.size < r.size then r else l) = l'
      generalize hr' : (if l.size < r.size then l else r) = r'
      have wl : (T.node op n a l r).WF input := hp.wf
      have hlr : (l' = l ∧ r' = r) ∨ (l' = r ∧ r' = l ∧ op ≠ .adjoint) := by
        by_cases hlt : l.size < r.size
        · rw [if_pos hlt] at hl' hr'
          refine Or.inr ⟨hl'.symm, hr'.symm, ?_⟩
          rintro rfl
          have h4 := wl.2.2.2
          cases r with
          | leaf x neg => cases l <;> simp [T.size] at hlt
          | node => exact absurd h4.2.2 (by simp [T.isLeaf])
        · rw [if_neg hlt] at hl' hr'
          exact Or.inl ⟨hl'.symm, hr'.symm⟩
      have hszs : l.size + r.size + 1 ≤ t.size := hp.size
      have hsz : l'.size ≤ f ∧ r'.size ≤ f := by
        rcases hlr with ⟨rfl, rfl⟩ | ⟨rfl, rfl, _⟩ <;> exact ⟨by omega, by omega⟩
      have hwl : l'.WF input ∧ r'.WF input := by
        rcases hlr with ⟨rfl, rfl⟩ | ⟨rfl, rfl, _⟩
        · exact ⟨wl.2.1, wl.2.2.1⟩
        · exact ⟨wl.2.2.1, wl.2.1⟩
      have htl : t.isLeaf = false := by
        cases t with
        | leaf x neg => rw [prune_isLeaf] at hpr; cases hpr
        | node => rfl
      have hn' : input n'.stem = false := by rw [hc.stem]; exact hp.wf.1
      have hestem : input e.1.stem = false ∧ Same e.2 a := by
        rw [← he]
        cases par with
        | none => exact ⟨hn', Same.refl a⟩
        | some q =>
          simp only [newExpr]
          split
          · exact ⟨hn', Same.refl a⟩
          · rename_i hq
            have ho : q.op = .sum := by
              by_contra ho
              exact hq ((hpar q rfl).other ho)
            have h := (hpar q rfl).sum ho
            exact ⟨h.2.2.1, h.2.1.trans hp.idx.symm⟩
      have hs1 : SInv input (track s₁ (usageOf par) (.obj e.1 e.2 : EX K)) := by
        refine ⟨by rw [track_ctx]; exact hc.ctx, fun m hm => ?_⟩
        rw [track_cnt, hc.cnt] at hm
        rw [track_keys, hc.keys]
        by_cases hx : (EX.obj e.1 e.2 : EX K).name = some m
        · exact Or.inr hx
        · simp only [EX.uses, if_neg hx, Nat.add_zero] at hm
          exact Or.inl (hs0.keys m hm)
      have hce : 0 < (track s₁ (usageOf par) (.obj e.1 e.2 : EX K)).cnt e.1 := by
        rw [track_cnt, uses_obj]; simp
      have hsa : op = .sum → Same e.2 l'.idx ∧ Same e.2 r'.idx := by
        rintro rfl
        have h4 : Same l.idx a ∧ Same r.idx a := wl.2.2.2
        rcases hlr with ⟨rfl, rfl⟩ | ⟨rfl, rfl, _⟩
        · exact ⟨hestem.2.trans h4.1.symm, hestem.2.trans h4.2.symm⟩
        · exact ⟨hestem.2.trans h4.2.symm, hestem.2.trans h4.1.symm⟩
      obtain ⟨pl, ul, s₂, hgl, hl⟩ := ih (some ⟨op, e.1, e.2, if op = .sum then l'.isLeaf else true⟩) l' _ hsz.1 hwl.1 hs1
        (by
          intro q hq
          cases hq
          exact ⟨fun ho => if_neg ho, fun ho => ⟨if_pos ho, (hsa ho).1, hestem.1, hce⟩⟩)
        (by intro h; cases h)
      rw [hgl]
      have hs2 : SInv input s₂ := by
        refine ⟨hl.ctx, fun m hm => ?_⟩
        rw [hl.cnt] at hm
        rw [hl.keys]
        by_cases hx : pl.expr.name = some m
        · right
          cases pl with
          | leaf x => exact hx
          | node => simp only [P.expr, EX.name, Option.some.injEq] at hx; exact Or.inl hx.symm
        · simp only [EX.uses, if_neg hx, Nat.add_zero] at hm
          exact Or.inl (hs1.keys m hm)
      obtain ⟨pr, ur, s₃, hgr, hr⟩ := ih (some ⟨op, e.1, e.2, if op = .sum then r'.isLeaf else true⟩) r' _ hsz.2 hwl.2 hs2
        (by
          intro q hq
          cases hq
          exact ⟨fun ho => if_neg ho, fun ho => ⟨if_pos ho, (hsa ho).2, hestem.1, by rw [hl.cnt]; exact Nat.lt_of_lt_of_le hce (Nat.le_add_right _ _)⟩⟩)
        (by intro h; cases h)
      simp only [hgr]
      exact ⟨_, _, _, rfl, post_node p par t s hw hs hpar hroot hpr hc hlr rfl rfl he.symm hl hr⟩

end SeQuant.Codegen
