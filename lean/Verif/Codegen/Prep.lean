import Verif.Codegen.Value

/-!
# Preprocessing keeps values and scopes names
-/

namespace SeQuant.Codegen

open SeQuant.Eval (EOp)

variable {K : Type} [CommRing K]

set_option linter.unusedSectionVars false

/-- How often the expression counts as a use of the object. -/
def EX.uses (x : EX K) (n : Name) : Nat := if x.name = some n then 1 else 0

/-- The object is the one of a node. -/
def P.names : P K → Name → Prop
  | .leaf x, m => x.name = some m
  | .node _ _ _ n _ _ l r, m => m = n ∨ l.names m ∨ r.names m

/-- The object occurs in the tree or in a scalar factor. -/
def P.occ : P K → Name → Prop
  | .leaf x, m => x.name = some m
  | .node _ _ _ n _ fac l r, m => m = n ∨ (∃ x ∈ fac, x.name = some m) ∨ l.occ m ∨ r.occ m

/-- The index occurs in the tree. -/
def P.occIdx : P K → Nat → Prop
  | .leaf x, i => i ∈ x.idx
  | .node _ _ _ _ a _ l r, i => i ∈ a ∨ l.occIdx i ∨ r.occIdx i

/-- The name of an internal node. -/
def P.nodeName : P K → Option Name
  | .leaf _ => none
  | .node _ _ _ n _ _ _ _ => some n

/-- The objects of internal nodes are free when they are needed: `live` counts the uses at this point, `ks` are the objects used so far, and
those used again are set to zero.  With `into` the node adds to the object of the sum it belongs to. -/
def P.Scoped (input : Nat → Bool) (Z : Name → Prop) : Option (Name × List Nat) → P K → (Name → Prop) → (Name → Nat) → Prop
  | _, .leaf x, _, _ => x.Input input
  | into, .node op cl cr n a fac l r, ks, live =>
    input n.stem = false ∧ (∀ x ∈ fac, x.Input input) ∧
    (into = none → live n = 0 ∧ (ks n → Z n)) ∧ (∀ m, into = some m → (n, a) = m ∧ live n > 0 ∧ ks n) ∧
    (op = .sum → cl = l.isLeaf ∧ cr = r.isLeaf) ∧ (op = .adjoint → l.isLeaf = true ∧ r.isLeaf = true) ∧
    l.Scoped input Z (if op = .sum then some (n, a) else none) (fun m => ks m ∨ m = n) (fun m => live m + if m = n then 1 else 0) ∧
    r.Scoped input Z (if op = .sum then some (n, a) else none) (fun m => (ks m ∨ m = n) ∨ l.names m)
      (fun m => (live m + if m = n then 1 else 0) + l.expr.uses m)

/-- Sums only add to this object and have no scalar factor. -/
def P.Flat (m : Name) : P K → Prop
  | .leaf _ => True
  | .node op _ _ n _ fac l r => (op = .sum → n = m ∧ fac = []) ∧ l.Flat m ∧ r.Flat m

/-- Strategies as the preprocessing leaves them. -/
structure CtxOk (input : Nat → Bool) (c : Ctx) : Prop where
  glob : ∀ n, c.glob n = none
  inp : ∀ n, input n.stem = true → (c.get n).zero.onLoad = false ∧ (c.get n).zero.onReuse = false
  own : ∀ n, input n.stem = false → (c.get n).load = false ∧ ((c.get n).zero = .create ∨ (c.get n).zero = .always)

def Zeroed (c : Ctx) (n : Name) : Prop := (c.get n).zero = .always

instance (c : Ctx) (n : Name) : Decidable (Zeroed c n) := by unfold Zeroed; infer_instance

structure SInv (input : Nat → Bool) (s : PS) : Prop where
  ctx : CtxOk input s.ctx
  keys : ∀ n, 0 < s.cnt n → n ∈ s.keys

/-! ### Strategies -/

theorem get_eq {c : Ctx} (h : ∀ n, c.glob n = none) (n : Name) : c.get n = (c.loc n).getD {} := by
  unfold Ctx.get
  rw [h n]
  cases c.loc n <;> rfl

theorem get_setZero {c : Ctx} (h : ∀ n, c.glob n = none) (n m : Name) (z : ZeroStrat) :
    (c.setZero n z).get m = if m = n then { c.get m with zero := z } else c.get m := by
  rw [get_eq (c := c.setZero n z) h, get_eq h]
  by_cases hm : m = n
  · subst hm; simp [Ctx.setZero]
  · simp [Ctx.setZero, hm]

theorem get_setLoad {c : Ctx} (h : ∀ n, c.glob n = none) (n m : Name) :
    (c.setLoad n).get m = if m = n then { c.get m with load := true } else c.get m := by
  rw [get_eq (c := c.setLoad n) h, get_eq h]
  by_cases hm : m = n
  · subst hm; simp [Ctx.setLoad]
  · simp [Ctx.setLoad, hm]

theorem CtxOk.always {input : Nat → Bool} {c : Ctx} (h : CtxOk input c) (n : Name) (hn : input n.stem = false) :
    CtxOk input (c.setZero n .always) := by
  refine ⟨h.glob, fun m hm => ?_, fun m hm => ?_⟩
  · have : m ≠ n := by rintro rfl; simp [hn] at hm
    rw [get_setZero h.glob, if_neg this]; exact h.inp m hm
  · rw [get_setZero h.glob]
    by_cases e : m = n
    · rw [if_pos e]; exact ⟨(h.own m hm).1, Or.inr rfl⟩
    · rw [if_neg e]; exact h.own m hm

theorem get_leaf {c : Ctx} (h : ∀ n, c.glob n = none) (n m : Name) :
    ((c.setLoad n).setZero n .never).get m = if m = n then { load := true, zero := .never } else c.get m := by
  rw [get_setZero (c := c.setLoad n) h, get_setLoad h]
  by_cases e : m = n
  · simp [e]
  · simp [e]

theorem CtxOk.leaf {input : Nat → Bool} {c : Ctx} (h : CtxOk input c) (n : Name) (hn : input n.stem = true) :
    CtxOk input ((c.setLoad n).setZero n .never) := by
  refine ⟨h.glob, fun m hm => ?_, fun m hm => ?_⟩
  · rw [get_leaf h.glob]
    by_cases e : m = n
    · rw [if_pos e]; exact ⟨rfl, rfl⟩
    · rw [if_neg e]; exact h.inp m hm
  · have : m ≠ n := by rintro rfl; simp [hn] at hm
    rw [get_leaf h.glob, if_neg this]; exact h.own m hm

/-! ### Renaming -/

theorem candidate_inj (n : Name) {i j : Nat} (h : candidate n i = candidate n j) : i = j := by
  unfold candidate at h
  have := congrArg Name.num h
  simp only at this
  split_ifs at this <;> simp_all

theorem renameLoop_some {cnt : Name → Nat} {n m : Name} {f k : Nat} (h : renameLoop cnt n f k = some m) :
    cnt m = 0 ∧ ∃ j, m = candidate n j := by
  induction f generalizing k with
  | zero => cases h
  | succ f ih =>
    simp only [renameLoop] at h
    split at h
    · exact ih h
    · cases h
      exact ⟨by omega, k, rfl⟩

theorem renameLoop_none {cnt : Name → Nat} {n : Name} {f k : Nat} (h : renameLoop cnt n f k = none) :
    ∀ j, k ≤ j → j < k + f → 0 < cnt (candidate n j) := by
  induction f generalizing k with
  | zero => intro j h1 h2; omega
  | succ f ih =>
    simp only [renameLoop] at h
    split at h
    · rename_i hc
      intro j h1 h2
      by_cases e : j = k
      · subst e; exact hc
      · exact ih h j (by omega) (by omega)
    · cases h

/-- A free name is always found. -/
theorem rename_total {s : PS} (h : ∀ n, 0 < s.cnt n → n ∈ s.keys) (n : Name) : ∃ m, rename s n = some m := by
  cases hr : rename s n with
  | some m => exact ⟨m, rfl⟩
  | none =>
    exfalso
    have h1 := renameLoop_none hr
    have hnd : ((List.range (s.keys.length + 1)).map (candidate n)).Nodup :=
      List.Nodup.map (fun i j => candidate_inj n) List.nodup_range
    have hsub : ((List.range (s.keys.length + 1)).map (candidate n)) ⊆ s.keys := by
      intro m hm
      obtain ⟨j, hj, rfl⟩ := List.mem_map.1 hm
      exact h _ (h1 j (Nat.zero_le _) (by simpa using hj))
    have := (List.subperm_of_subset hnd hsub).length_le
    simp at this

theorem candidate_stem (n : Name) (k : Nat) : (candidate n k).stem = n.stem ∧ (candidate n k).blk = n.blk := ⟨rfl, rfl⟩

/-! ### Contents of nodes -/

structure ContentOk (input : Nat → Bool) (s : PS) (hr : Bool) (n n' : Name) (s' : PS) : Prop where
  stem : n'.stem = n.stem
  keys : s'.keys = s.keys
  cnt : s'.cnt = s.cnt
  decl : s'.decl = s.decl
  idx : s'.idx = s.idx
  ctx : CtxOk input s'.ctx
  free : hr = true → s.cnt n' = 0 ∧ (n' ∈ s.keys → Zeroed s'.ctx n')
  same : hr = false → n' = n ∧ s'.ctx = s.ctx
  mono : ∀ m, Zeroed s.ctx m → Zeroed s'.ctx m
  frame : ∀ m, 0 < s.cnt m → s'.ctx.get m = s.ctx.get m

theorem contentNode_ok {input : Nat → Bool} {s : PS} (hs : SInv input s) (hr : Bool) (n : Name) (hn : input n.stem = false) :
    ∃ n' s', contentNode s hr n = some (n', s') ∧ ContentOk input s hr n n' s' := by
  have hz : ∀ m, input m.stem = false → s.cnt m = 0 → m.stem = n.stem → hr = true →
      ContentOk input s hr n m { s with ctx := s.ctx.setZero m .always } := by
    intro m hm h0 hst hhr
    refine ⟨hst, rfl, rfl, rfl, rfl, hs.ctx.always m hm, fun _ => ⟨h0, fun _ => ?_⟩, fun h => ?_, fun k hk => ?_, fun k hk => ?_⟩
    · unfold Zeroed; simp only [get_setZero hs.ctx.glob]; simp
    · rw [hhr] at h; cases h
    · unfold Zeroed at *
      simp only [get_setZero hs.ctx.glob]
      by_cases e : k = m
      · rw [if_pos e]
      · rw [if_neg e]; exact hk
    · have : k ≠ m := by rintro rfl; omega
      simp only [get_setZero hs.ctx.glob, if_neg this]
  unfold contentNode
  by_cases h : hr = true ∧ n ∈ s.keys
  · rw [if_pos h]
    by_cases hc : s.cnt n > 0
    · rw [if_pos hc]
      obtain ⟨m, hm⟩ := rename_total hs.keys n
      rw [hm]
      obtain ⟨h0, j, rfl⟩ := renameLoop_some hm
      by_cases hk : candidate n j ∈ s.keys
      · exact ⟨candidate n j, _, by simp only [if_pos hk], hz (candidate n j) hn h0 rfl h.1⟩
      · refine ⟨candidate n j, s, by simp only [if_neg hk], rfl, rfl, rfl, rfl, rfl, hs.ctx, fun _ => ⟨h0, fun h' => absurd h' hk⟩, fun h' => ?_,
          fun m hm => hm, fun m hm => rfl⟩
        rw [h.1] at h'; cases h'
    · rw [if_neg hc]
      exact ⟨_, _, rfl, hz n hn (by omega) rfl h.1⟩
  · rw [if_neg h]
    refine ⟨_, _, rfl, rfl, rfl, rfl, rfl, rfl, hs.ctx, fun hh => ?_, fun _ => ⟨rfl, rfl⟩, fun m hm => hm, fun m hm => rfl⟩
    have hk : n ∉ s.keys := fun hk => h ⟨hh, hk⟩
    refine ⟨?_, fun h' => absurd h' hk⟩
    by_contra h0
    exact hk (hs.keys n (by omega))

/-! ### Counting -/

theorem track_cnt (s : PS) (u : Usage) (x : EX K) (m : Name) : (track s u x).cnt m = s.cnt m + x.uses m := by
  unfold track EX.uses
  cases hx : x.name with
  | none => simp
  | some n =>
    by_cases e : m = n
    · subst e; simp
    · have : ¬ (some n = some m) := by simpa using fun h => e h.symm
      simp [e, this]

theorem track_keys (s : PS) (u : Usage) (x : EX K) (m : Name) : m ∈ (track s u x).keys ↔ m ∈ s.keys ∨ x.name = some m := by
  unfold track
  cases hx : x.name with
  | none => simp
  | some n =>
    simp only [Option.some.injEq]
    split
    · rename_i hn
      refine ⟨Or.inl, ?_⟩
      rintro (h | rfl)
      · exact h
      · exact hn
    · rw [List.mem_cons]
      constructor
      · rintro (rfl | h)
        · exact Or.inr rfl
        · exact Or.inl h
      · rintro (h | rfl)
        · exact Or.inr h
        · exact Or.inl rfl

theorem track_ctx (s : PS) (u : Usage) (x : EX K) : (track s u x).ctx = s.ctx := by
  unfold track
  cases x.name <;> rfl

theorem track_decl (s : PS) (u : Usage) (x : EX K) (q : Name × Usage) : q ∈ (track s u x).decl ↔ q ∈ s.decl ∨ (x.name = some q.1 ∧ q.2 = u) := by
  unfold track
  cases hx : x.name with
  | none => simp
  | some n =>
    simp only [List.mem_cons, Option.some.injEq]
    obtain ⟨a, b⟩ := q
    simp only [Prod.mk.injEq]
    constructor
    · rintro (⟨rfl, rfl⟩ | h)
      · exact Or.inr ⟨rfl, rfl⟩
      · exact Or.inl h
    · rintro (h | ⟨rfl, rfl⟩)
      · exact Or.inr h
      · exact Or.inl ⟨rfl, rfl⟩

theorem track_idx (s : PS) (u : Usage) (x : EX K) (i : Nat) : i ∈ (track s u x).idx ↔ i ∈ s.idx ∨ i ∈ x.idx := by
  unfold track
  cases x with
  | obj n a => simp [EX.name, EX.idx, or_comm]
  | const c => simp [EX.name, EX.idx]
  | pow n k => simp [EX.name, EX.idx]

theorem release_cnt (s : PS) (x : EX K) (m : Name) : (release s x).cnt m = s.cnt m - x.uses m := by
  unfold release EX.uses
  cases hx : x.name with
  | none => simp
  | some n =>
    by_cases e : m = n
    · subst e; simp
    · have : ¬ (some n = some m) := by simpa using fun h => e h.symm
      simp [e, this]

theorem release_rest (s : PS) (x : EX K) :
    (release s x).keys = s.keys ∧ (release s x).ctx = s.ctx ∧ (release s x).decl = s.decl ∧ (release s x).idx = s.idx := by
  unfold release
  cases x.name <;> exact ⟨rfl, rfl, rfl, rfl⟩

theorem trackPruned_rest (s : PS) (fac : List (EX K)) :
    (trackPruned s fac).keys = s.keys ∧ (trackPruned s fac).ctx = s.ctx ∧ (trackPruned s fac).cnt = s.cnt ∧ (trackPruned s fac).idx = s.idx := by
  induction fac generalizing s with
  | nil => exact ⟨rfl, rfl, rfl, rfl⟩
  | cons x fac ih =>
    simp only [trackPruned]
    cases x.name with
    | none => exact ih s
    | some n => exact ih _

theorem trackPruned_decl (s : PS) (fac : List (EX K)) (q : Name × Usage) :
    q ∈ (trackPruned s fac).decl ↔ q ∈ s.decl ∨ (q.2 = .terminal ∧ ∃ x ∈ fac, x.name = some q.1) := by
  induction fac generalizing s with
  | nil => simp [trackPruned]
  | cons x fac ih =>
    simp only [trackPruned]
    cases hx : x.name with
    | none => rw [ih]; simp [hx]
    | some n =>
      simp only
      rw [ih]
      obtain ⟨a, b⟩ := q
      simp only [List.mem_cons, Prod.mk.injEq]
      constructor
      · rintro ((⟨rfl, rfl⟩ | h) | ⟨rfl, y, hy, e⟩)
        · exact Or.inr ⟨rfl, x, Or.inl rfl, hx⟩
        · exact Or.inl h
        · exact Or.inr ⟨rfl, y, Or.inr hy, e⟩
      · rintro (h | ⟨rfl, y, (rfl | hy), e⟩)
        · exact Or.inl (Or.inr h)
        · rw [hx] at e; cases e; exact Or.inl (Or.inl ⟨rfl, rfl⟩)
        · exact Or.inr ⟨rfl, y, hy, e⟩

theorem contentLeaf_rest (s : PS) (x : EX K) :
    (contentLeaf s x).keys = s.keys ∧ (contentLeaf s x).cnt = s.cnt ∧ (contentLeaf s x).decl = s.decl ∧ (contentLeaf s x).idx = s.idx := by
  unfold contentLeaf
  cases x.name <;> exact ⟨rfl, rfl, rfl, rfl⟩

theorem contentLeaf_ctx {input : Nat → Bool} (s : PS) (x : EX K) (h : CtxOk input s.ctx) (hx : x.Input input) :
    CtxOk input (contentLeaf s x).ctx ∧ ∀ m, input m.stem = false → (contentLeaf s x).ctx.get m = s.ctx.get m := by
  unfold contentLeaf
  cases hn : x.name with
  | none => exact ⟨h, fun m _ => rfl⟩
  | some n =>
    have hi := hx n hn
    refine ⟨h.leaf n hi, fun m hm => ?_⟩
    have : m ≠ n := by rintro rfl; simp [hi] at hm
    simp only [get_leaf h.glob, if_neg this]

end SeQuant.Codegen
