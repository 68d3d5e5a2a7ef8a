import Verif.Codegen.Gen

/-!
# The generated program computes the value of the processed tree
-/

namespace SeQuant.Codegen

open SeQuant.Eval (EOp)
open SeQuant.Export (Op)

variable {K : Type} [CommRing K]

set_option linter.unusedSectionVars false

/-- The uses which are never given back: the operands of sums which compute neither of them (245-248). -/
def P.leak : P K → Name → Nat
  | .leaf _, _ => 0
  | .node op cl cr _ _ _ l r, m => l.leak m + r.leak m + if op = .sum ∧ cl = false ∧ cr = false then l.expr.uses m + r.expr.uses m else 0

/-- Sums with internal nodes as operands have no scalar factor, and if their object is set to zero on reuse only the left operand is an
internal node. -/
def P.Safe (c : Ctx) : P K → Prop
  | .leaf _ => True
  | .node op _ _ n _ fac l r =>
    (op = .sum → (fac = [] ∨ (l.isLeaf = true ∧ r.isLeaf = true)) ∧ (Zeroed c n → r.isLeaf = true)) ∧ l.Safe c ∧ r.Safe c

instance P.decSafe (c : Ctx) : (t : P Int) → Decidable (t.Safe c)
  | .leaf x => by unfold P.Safe; infer_instance
  | .node op cl cr n a fac l r => by
    have := P.decSafe c l
    have := P.decSafe c r
    unfold P.Safe
    infer_instance

/-- What the generation of a subtree guarantees. -/
structure GPost (I : Interp K) (input : Nat → Bool) (c : Ctx) (into : Option (Name × List Nat)) (ks : Name → Prop) (live : Name → Nat) (g : GS)
    (s : Mem K) (t : P K) (g' : GS) (s' : Mem K) : Prop where
  inv : GInv I input (fun m => ks m ∨ t.names m) g' s'
  cnt : ∀ m, g'.cnt m = g.cnt m + t.expr.uses m + t.leak m
  frame : ∀ m, input m.stem = false → 0 < live m → t.nodeName ≠ some m → content s' m = content s m
  val : t.Safe c → ∀ op cl cr n a fac l r, t = .node op cl cr n a fac l r → ∀ b : Arr K,
    ((into = none ∨ Zeroed c n) → ∀ pos, b pos = 0) → (into ≠ none → ¬ Zeroed c n → b = content s n) →
    ∀ pos, content s' n pos = b pos + t.val I (bind a pos)

theorem P.leak_none {n : Name} {a : List Nat} {fac : List (EX K)} {cl cr : Bool} {l r : P K} (hl : cl = false) (hr : cr = false) (m : Name) :
    (P.node .sum cl cr n a fac l r).leak m = l.leak m + r.leak m + (l.expr.uses m + r.expr.uses m) := by
  show _ + _ = _
  rw [if_pos ⟨rfl, hl, hr⟩]

theorem P.leak_some {op : EOp} {n : Name} {a : List Nat} {fac : List (EX K)} {cl cr : Bool} {l r : P K}
    (h : ¬ (op = .sum ∧ cl = false ∧ cr = false)) (m : Name) : (P.node op cl cr n a fac l r).leak m = l.leak m + r.leak m := by
  show _ + _ = _
  rw [if_neg h, Nat.add_zero]

theorem P.uses_node {op : EOp} {n : Name} {a : List Nat} {fac : List (EX K)} {cl cr : Bool} {l r : P K} (m : Name) :
    (P.node op cl cr n a fac l r).expr.uses m = if m = n then 1 else 0 := uses_obj n a m

theorem P.names_expr (t : P K) (m : Name) (h : t.expr.name = some m) : t.names m := by
  cases t with
  | leaf x => exact h
  | node => simp only [P.expr, EX.name, Option.some.injEq] at h; exact Or.inl h.symm

theorem P.uses_pos (t : P K) (m : Name) (h : m ∈ t.expr.name) : t.expr.uses m = 1 := by
  have : t.expr.name = some m := h
  simp [EX.uses, this]

/-- The operand is in memory with its value. -/
theorem holds {I : Interp K} {input : Nat → Bool} {ks : Name → Prop} {g : GS} {s : Mem K} (h : GInv I input ks g s) (t : P K) (hix : t.Ix)
    (hleaf : ∀ x, t = .leaf x → x.Input input) (hc : ∀ m ∈ t.expr.name, 0 < g.cnt m)
    (hv : ∀ op cl cr n a fac l r, t = .node op cl cr n a fac l r → ∀ pos, content s n pos = t.val I (bind a pos)) (σ : Nat → Nat) :
    t.expr.val I (content s) σ = t.val I σ := by
  cases t with
  | leaf x => exact h.input_val (hleaf x rfl) hc σ
  | node op cl cr n a fac l r =>
    show content s n (a.map σ) = _
    rw [hv _ _ _ _ _ _ _ _ rfl]
    exact P.val_local I _ hix _ _ fun i hi => bind_map a σ i hi

theorem scoped_leaf {input : Nat → Bool} {Z : Name → Prop} {into : Option (Name × List Nat)} {t : P K} {ks : Name → Prop} {live : Name → Nat}
    (h : t.Scoped input Z into ks live) (x : EX K) (ht : t = .leaf x) : x.Input input := by subst ht; exact h

/-- An operand of something else than a sum has an object of its own. -/
theorem scoped_name {input : Nat → Bool} {Z : Name → Prop} {t : P K} {ks : Name → Prop} {live : Name → Nat}
    (h : t.Scoped input Z none ks live) (m : Name) (hm : t.nodeName = some m) : input m.stem = false ∧ live m = 0 := by
  cases t with
  | leaf x => cases hm
  | node => simp only [P.nodeName, Option.some.injEq] at hm; subst hm; exact ⟨h.1, (h.2.2.1 rfl).1⟩

theorem scoped_into {input : Nat → Bool} {Z : Name → Prop} {t : P K} {ks : Name → Prop} {live : Name → Nat} {q : Name × List Nat}
    (h : t.Scoped input Z (some q) ks live) {op cl cr n a fac l r} (ht : t = .node op cl cr n a fac l r) : (n, a) = q := by
  subst ht; exact (h.2.2.2.1 q rfl).1

theorem usesOf_pos {l : List (EX K)} {x : EX K} (hx : x ∈ l) {m : Name} (hm : m ∈ x.name) : 1 ≤ usesOf l m := by
  induction l with
  | nil => cases hx
  | cons y l ih =>
    rw [usesOf_cons]
    rcases List.mem_cons.1 hx with e | h
    · have : y.name = some m := by rw [← e]; exact hm
      rw [uses_some this, if_pos rfl]; omega
    · have := ih h; omega

theorem scoped_ne {input : Nat → Bool} {Z : Name → Prop} {into : Option (Name × List Nat)} {t : P K} {ks : Name → Prop} {live : Name → Nat}
    (h : t.Scoped input Z into ks live) {m n : Name} {a : List Nat} (hm : 0 < live m) (hn : into = none ∨ (into = some (n, a) ∧ m ≠ n)) :
    t.nodeName ≠ some m := by
  intro e
  rcases hn with rfl | ⟨rfl, hne⟩
  · have := (scoped_name h m e).2; omega
  · cases t with
    | leaf x => cases e
    | node =>
      have := congrArg Prod.fst (scoped_into h rfl)
      simp only [P.nodeName, Option.some.injEq] at e
      exact hne (e.symm.trans this)

theorem leaf_or_node (t : P K) : (∃ x, t = .leaf x) ∨ ∃ op cl cr n a fac l r, t = .node op cl cr n a fac l r := by
  cases t with
  | leaf x => exact Or.inl ⟨x, rfl⟩
  | node => exact Or.inr ⟨_, _, _, _, _, _, _, _, rfl⟩

/-- The computations of a node which does compute something. -/
theorem comp_spec {I : Interp K} {input : Nat → Bool} {ks : Name → Prop} {g : GS} {s : Mem K} (h : GInv I input ks g s) {op : EOp}
    {cl cr : Bool} {n : Name} (hn : input n.stem = false) (a : List Nat) (fac : List (EX K)) (hf : ∀ x ∈ fac, x.Input input) {xl xr : EX K}
    (hsel : ¬ (op = .sum ∧ cl = false ∧ cr = false)) (hc : ∀ m, usesOf (fac ++ [xr, xl]) m + (if m = n then 1 else 0) ≤ g.cnt m + usesOf fac m)
    (Q : Prop) (V : Arr K)
    (hV : ∀ g' s', GInv I input ks g' s' → (∀ m, input m.stem = false → content s' m = content s m) → (∀ m, g.cnt m ≤ g'.cnt m) →
      (∀ x ∈ fac, ∀ m ∈ x.name, 0 < g'.cnt m) →
      ∃ s'', run I ((summands op cl cr xl xr).map fun e => .compute n (a, fac ++ e)) s' = some s'' ∧ GInv I input ks g' s'' ∧
        (∀ m, m ≠ n → s'' m = s' m) ∧ (Q → ∀ pos, content s'' n pos = content s' n pos + V pos)) :
    ∃ o g' s', processComp g op cl cr n a fac xl xr = some (o, g') ∧ run I o s = some s' ∧ GInv I input ks g' s' ∧
      (∀ m, g'.cnt m = g.cnt m - usesOf [xr, xl] m) ∧
      (∀ m, input m.stem = false → 0 < g'.cnt m → m ≠ n → content s' m = content s m) ∧
      (Q → ∀ pos, content s' n pos = content s n pos + V pos) := by
  obtain ⟨s₁, a1, a2, a3, a4⟩ := loadFactors_spec fac h hf
  have hfc : ∀ x ∈ fac, ∀ m ∈ x.name, 0 < (loadFactors g fac).2.cnt m := by
    intro x hx m hm
    rw [a4]
    have := usesOf_pos hx hm
    omega
  obtain ⟨s₂, b1, b2, b3, b4⟩ := hV _ s₁ a2 (fun m hm => by unfold content; rw [a3 m hm]) (fun m => by rw [a4]; omega) hfc
  obtain ⟨o₁, g₁, s₃, c1, c2, c3, c4, c5⟩ := drops_spec fac.reverse b2 (fun m => by rw [usesOf_reverse, a4]; omega)
  have c5' : ∀ m, g₁.cnt m = g.cnt m := by intro m; rw [c5, usesOf_reverse, a4]; omega
  have hle : ∀ m, usesOf [xr, xl] m + (if m = n then 1 else 0) ≤ g.cnt m := by
    intro m
    have := hc m
    rw [usesOf_append] at this; omega
  obtain ⟨o₂, g₂, s₄, d1, d2, d3, d4, d5⟩ := drops_spec [xr, xl] c3 (fun m => by rw [c5']; have := hle m; omega)
  have d5' : ∀ m, g₂.cnt m = g.cnt m - usesOf [xr, xl] m := by intro m; rw [d5, c5']
  refine ⟨(loadFactors g fac).1 ++ ((summands op cl cr xl xr).map fun e => .compute n (a, fac ++ e)) ++ o₁ ++ o₂, g₂, s₄, ?_, ?_, d3, d5',
    fun m hm h0 hne => ?_, fun hQ pos => ?_⟩
  · simp only [processComp]
    rw [if_neg hsel]
    simp only [c1, d1]
  · rw [run_append, run_append, run_append, a1]
    simp only [Option.bind_some, b1, c2, d2]
  · have e4 : s₄ m = s₃ m := d4 m h0
    have e3 : s₃ m = s₂ m := c4 m (by rw [d5'] at h0; rw [c5']; omega)
    unfold content
    rw [e4, e3, b3 m hne, a3 m hm]
  · have hpos : 0 < g₂.cnt n := by rw [d5']; have := hle n; rw [if_pos rfl] at this; omega
    have e4 : s₄ n = s₃ n := d4 n hpos
    have e3 : s₃ n = s₂ n := c4 n (by rw [d5'] at hpos; rw [c5']; omega)
    have e5 : content s₄ n = content s₂ n := by unfold content; rw [e4, e3]
    have e6 : content s₁ n = content s n := by unfold content; rw [a3 n hn]
    rw [e5, b4 hQ pos, e6]

/-- The part of the node after its operands when it is not a sum. -/
theorem node_other {I : Interp K} {input : Nat → Bool} {ks : Name → Prop} {g : GS} {s : Mem K} (h : GInv I input ks g s) {op : EOp} (ho : op ≠ .sum)
    {cl cr : Bool} {n : Name} (hn : input n.stem = false) {a : List Nat} {fac : List (EX K)} (hf : ∀ x ∈ fac, x.Input input) {l r : P K}
    (hix : (P.node op cl cr n a fac l r).Ix) (hc : ∀ m, (if m = n then 1 else 0) + l.expr.uses m + r.expr.uses m ≤ g.cnt m)
    (hl : ∀ x, l = .leaf x → x.Input input) (hr : ∀ x, r = .leaf x → x.Input input)
    (hlo : ∀ m, l.nodeName = some m → input m.stem = false) (hro : ∀ m, r.nodeName = some m → input m.stem = false) :
    ∃ o g' s', processComp g op cl cr n a fac l.expr r.expr = some (o, g') ∧ run I o s = some s' ∧ GInv I input ks g' s' ∧
      (∀ m, g'.cnt m = g.cnt m - (l.expr.uses m + r.expr.uses m)) ∧
      (∀ m, input m.stem = false → 0 < g'.cnt m → m ≠ n → content s' m = content s m) ∧
      ((∀ op cl cr n a fac l' r', l = .node op cl cr n a fac l' r' → ∀ pos, content s n pos = l.val I (bind a pos)) ∧
        (∀ op cl cr n a fac l' r', r = .node op cl cr n a fac l' r' → ∀ pos, content s n pos = r.val I (bind a pos)) →
        ∀ pos, content s' n pos = content s n pos + (P.node op cl cr n a fac l r).val I (bind a pos)) := by
  have hu : ∀ m, usesOf [r.expr, l.expr] m = l.expr.uses m + r.expr.uses m := by intro m; simp [Nat.add_comm]
  obtain ⟨o, g', s', h1, h2, h3, h4, h5, h6⟩ := comp_spec h (op := op) (cl := cl) (cr := cr) hn a fac hf (xl := l.expr) (xr := r.expr) (fun hh => ho hh.1)
    (fun m => by rw [usesOf_append, hu]; have := hc m; omega)
    ((∀ op cl cr n a fac l' r', l = .node op cl cr n a fac l' r' → ∀ pos, content s n pos = l.val I (bind a pos)) ∧
      (∀ op cl cr n a fac l' r', r = .node op cl cr n a fac l' r' → ∀ pos, content s n pos = r.val I (bind a pos)))
    (fun pos => (P.node op cl cr n a fac l r).val I (bind a pos)) (by
      intro g' s' hg hs hle hfc
      have hcl : ∀ m ∈ l.expr.name, 0 < g'.cnt m := by
        intro m hm; have := hc m; have := hle m; have := l.uses_pos m hm; omega
      have hcr : ∀ m ∈ r.expr.name, 0 < g'.cnt m := by
        intro m hm; have := hc m; have := hle m; have := r.uses_pos m hm; omega
      have hcn : 0 < g'.cnt n := by have := hc n; have := hle n; rw [if_pos rfl] at *; omega
      have el := fun (vl : ∀ op cl cr n a fac l' r', l = .node op cl cr n a fac l' r' → ∀ pos, content s n pos = l.val I (bind a pos)) => holds hg l hix.1 hl hcl (by
        intro op cl cr n a fac l' r' e pos
        rw [hs n (hlo n (by rw [e]; rfl))]; exact vl _ _ _ _ _ _ _ _ e pos)
      have er := fun (vr : ∀ op cl cr n a fac l' r', r = .node op cl cr n a fac l' r' → ∀ pos, content s n pos = r.val I (bind a pos)) => holds hg r hix.2.1 hr hcr (by
        intro op cl cr n a fac l' r' e pos
        rw [hs n (hro n (by rw [e]; rfl))]; exact vr _ _ _ _ _ _ _ _ e pos)
      cases op with
      | sum => exact absurd rfl ho
      | prod =>
        obtain ⟨s'', i1, i2, i3, i4⟩ := compute_spec hg hn hcn a (fac ++ [l.expr, r.expr]) (by
          intro x hx
          rcases List.mem_append.1 hx with hx | hx
          · exact hfc x hx
          · simp only [List.mem_cons, List.not_mem_nil, or_false] at hx
            rcases hx with rfl | rfl
            · exact hcl
            · exact hcr)
        refine ⟨s'', ?_, i2, i3, fun hQ pos => ?_⟩
        · simp only [summands, List.map_cons, List.map_nil]
          rw [run_one]; exact i1
        · rw [i4, rhs_fac hg a fac _ hf hix.2.2.1 hfc]
          simp only [P.val]
          congr 1
          congr 1
          simp only [List.flatMap_cons, List.flatMap_nil, List.append_nil, List.map_cons, List.map_nil, List.prod_cons, List.prod_nil, mul_one]
          exact sumOver_congr (fun σ => by rw [el hQ.1, er hQ.2]) _
      | adjoint =>
        obtain ⟨s'', i1, i2, i3, i4⟩ := compute_spec hg hn hcn a (fac ++ [l.expr]) (by
          intro x hx
          rcases List.mem_append.1 hx with hx | hx
          · exact hfc x hx
          · simp only [List.mem_cons, List.not_mem_nil, or_false] at hx
            subst hx; exact hcl)
        refine ⟨s'', ?_, i2, i3, fun hQ pos => ?_⟩
        · simp only [summands, List.map_cons, List.map_nil]
          rw [run_one]; exact i1
        · rw [i4, rhs_fac hg a fac _ hf hix.2.2.1 hfc]
          simp only [P.val]
          congr 1
          congr 1
          have hla : l.expr.idx ⊆ a := hix.2.2.2
          simp only [List.flatMap_cons, List.flatMap_nil, List.append_nil, List.map_cons, List.map_nil, List.prod_cons, List.prod_nil, mul_one,
            contr_nil hla, sumOver]
          exact el hQ.1 _)
  exact ⟨o, g', s', h1, h2, h3, fun m => by rw [h4, hu], h5, h6⟩

/-- Adding a leaf. -/
theorem addLeaf {I : Interp K} {input : Nat → Bool} {ks : Name → Prop} {g : GS} {s : Mem K} (h : GInv I input ks g s) {n : Name}
    (hn : input n.stem = false) (h0 : 0 < g.cnt n) (a : List Nat) (fac : List (EX K)) (hf : ∀ x ∈ fac, x.Input input)
    (hi : ∀ x ∈ fac, x.idx = []) (hfc : ∀ x ∈ fac, ∀ m ∈ x.name, 0 < g.cnt m) (x : EX K) (hx : x.Input input)
    (hxc : ∀ m ∈ x.name, 0 < g.cnt m) (hxi : x.idx ⊆ a) :
    ∃ s', step I s (.compute n (a, fac ++ [x])) = some s' ∧ GInv I input ks g s' ∧ (∀ m, m ≠ n → s' m = s m) ∧
      ∀ pos, content s' n pos = content s n pos + fv I fac * x.val I I.inp (bind a pos) := by
  obtain ⟨s'', i1, i2, i3, i4⟩ := compute_spec h hn h0 a (fac ++ [x]) (by
    intro y hy
    rcases List.mem_append.1 hy with hy | hy
    · exact hfc y hy
    · simp only [List.mem_cons, List.not_mem_nil, or_false] at hy
      subst hy; exact hxc)
  refine ⟨s'', i1, i2, i3, fun pos => ?_⟩
  rw [i4, rhs_fac h a fac _ hf hi hfc]
  simp only [List.flatMap_cons, List.flatMap_nil, List.append_nil, List.map_cons, List.map_nil, List.prod_cons, List.prod_nil, mul_one,
    contr_nil hxi, sumOver]
  rw [h.input_val hx hxc]

/-- What a sum computes itself. -/
def leafVal (I : Interp K) (t : P K) (σ : Nat → Nat) : K := if t.isLeaf = true then t.val I σ else 0

/-- What the operands of a sum have added before. -/
def nodeVal (I : Interp K) (t : P K) (σ : Nat → Nat) : K := if t.isLeaf = true then 0 else t.val I σ

/-- The part of the node after its operands when it is a sum which computes something. -/
theorem node_sum {I : Interp K} {input : Nat → Bool} {ks : Name → Prop} {g : GS} {s : Mem K} (h : GInv I input ks g s)
    {n : Name} (hn : input n.stem = false) {a : List Nat} {fac : List (EX K)} (hf : ∀ x ∈ fac, x.Input input) {l r : P K}
    (hix : (P.node .sum l.isLeaf r.isLeaf n a fac l r).Ix) (hc : ∀ m, (if m = n then 1 else 0) + l.expr.uses m + r.expr.uses m ≤ g.cnt m)
    (hl : ∀ x, l = .leaf x → x.Input input) (hr : ∀ x, r = .leaf x → x.Input input) (hsel : ¬ (l.isLeaf = false ∧ r.isLeaf = false)) :
    ∃ o g' s', processComp g .sum l.isLeaf r.isLeaf n a fac l.expr r.expr = some (o, g') ∧ run I o s = some s' ∧ GInv I input ks g' s' ∧
      (∀ m, g'.cnt m = g.cnt m - (l.expr.uses m + r.expr.uses m)) ∧
      (∀ m, input m.stem = false → 0 < g'.cnt m → m ≠ n → content s' m = content s m) ∧
      ∀ pos, content s' n pos = content s n pos + fv I fac * (leafVal I l (bind a pos) + leafVal I r (bind a pos)) := by
  have hu : ∀ m, usesOf [r.expr, l.expr] m = l.expr.uses m + r.expr.uses m := by intro m; simp [Nat.add_comm]
  obtain ⟨o, g', s', h1, h2, h3, h4, h5, h6⟩ := comp_spec h (op := .sum) (cl := l.isLeaf) (cr := r.isLeaf) hn a fac hf (xl := l.expr) (xr := r.expr)
    (fun hh => hsel hh.2)
    (fun m => by rw [usesOf_append, hu]; have := hc m; omega) True (fun pos => fv I fac * (leafVal I l (bind a pos) + leafVal I r (bind a pos))) (by
      intro g' s' hg hs hle hfc
      have hcl : ∀ m ∈ l.expr.name, 0 < g'.cnt m := by
        intro m hm; have := hc m; have := hle m; have := l.uses_pos m hm; omega
      have hcr : ∀ m ∈ r.expr.name, 0 < g'.cnt m := by
        intro m hm; have := hc m; have := hle m; have := r.uses_pos m hm; omega
      have hcn : 0 < g'.cnt n := by have := hc n; have := hle n; rw [if_pos rfl] at *; omega
      have hla : l.expr.idx ⊆ a := hix.2.2.2.1
      have hra : r.expr.idx ⊆ a := hix.2.2.2.2
      obtain ⟨s₁, j1, j2, j3, j4⟩ : ∃ s₁, run I ((if l.isLeaf = true then [[l.expr]] else [] : List (List (EX K))).map fun e => Op.compute n (a, fac ++ e)) s' = some s₁ ∧
          GInv I input ks g' s₁ ∧ (∀ m, m ≠ n → s₁ m = s' m) ∧ ∀ pos, content s₁ n pos = content s' n pos + fv I fac * leafVal I l (bind a pos) := by
        cases l with
        | leaf x =>
          obtain ⟨s₁, i1, i2, i3, i4⟩ := addLeaf hg hn hcn a fac hf hix.2.2.1 hfc x (hl x rfl) hcl hla
          refine ⟨s₁, ?_, i2, i3, fun pos => by rw [i4]; rfl⟩
          simp only [P.isLeaf, if_true, List.map_cons, List.map_nil, P.expr]
          rw [run_one]; exact i1
        | node => exact ⟨s', rfl, hg, fun _ _ => rfl, fun pos => by simp [leafVal, P.isLeaf]⟩
      obtain ⟨s₂, k1, k2, k3, k4⟩ : ∃ s₂, run I ((if r.isLeaf = true then [[r.expr]] else [] : List (List (EX K))).map fun e => Op.compute n (a, fac ++ e)) s₁ = some s₂ ∧
          GInv I input ks g' s₂ ∧ (∀ m, m ≠ n → s₂ m = s₁ m) ∧ ∀ pos, content s₂ n pos = content s₁ n pos + fv I fac * leafVal I r (bind a pos) := by
        cases r with
        | leaf x =>
          obtain ⟨s₂, i1, i2, i3, i4⟩ := addLeaf j2 hn hcn a fac hf hix.2.2.1 hfc x (hr x rfl) hcr hra
          refine ⟨s₂, ?_, i2, i3, fun pos => by rw [i4]; rfl⟩
          simp only [P.isLeaf, if_true, List.map_cons, List.map_nil, P.expr]
          rw [run_one]; exact i1
        | node => exact ⟨s₁, rfl, j2, fun _ _ => rfl, fun pos => by simp [leafVal, P.isLeaf]⟩
      refine ⟨s₂, ?_, k2, fun m hm => (k3 m hm).trans (j3 m hm), fun _ pos => by rw [k4, j4]; ring⟩
      simp only [summands, List.map_append]
      rw [run_append, j1]
      exact k1)
  exact ⟨o, g', s', h1, h2, h3, fun m => by rw [h4, hu], h5, h6 trivial⟩

set_option maxHeartbeats 4000000 in
/-- The specification of the generation. -/
theorem gen_spec {I : Interp K} {input : Nat → Bool} {c : Ctx} (hctx : CtxOk input c) (t : P K) (into : Option (Name × List Nat)) (ks : Name → Prop)
    (live : Name → Nat) (g : GS) (s : Mem K) (h : GInv I input ks g s) (hlive : ∀ m, live m ≤ g.cnt m)
    (hsc : t.Scoped input (Zeroed c) into ks live) (hix : t.Ix) :
    ∃ o g' s', gen c t g = some (o, g') ∧ run I o s = some s' ∧ GPost I input c into ks live g s t g' s' := by
  induction t generalizing into ks live g s with
  | leaf x =>
    have hx : x.Input input := hsc
    have hks : ∀ m, input m.stem = false → (ks m ↔ ks m ∨ (P.leaf x).names m) := by
      intro m hm
      refine ⟨Or.inl, fun h' => h'.resolve_right fun hh => ?_⟩
      have := hx m hh
      rw [hm] at this; cases this
    cases hn : x.name with
    | none =>
      refine ⟨[], g, s, by simp [gen, loadExpr, hn], rfl, h.ks_congr hks, fun m => ?_, fun _ _ _ _ => rfl, fun _ _ _ _ _ _ _ _ _ e => by cases e⟩
      simp [P.expr, uses_none hn, P.leak]
    | some n =>
      have hin := hx n hn
      obtain ⟨s', h1, h2, h3⟩ := load_input h hctx hin
      refine ⟨(loadOrCreate c g n true).1, g.inc n, s', by simp [gen, loadExpr, hn, loadOrCreate], h1, h2.ks_congr hks, fun m => ?_,
        fun m hm _ _ => ?_, fun _ _ _ _ _ _ _ _ _ e => by cases e⟩
      · rw [inc_cnt]; simp [P.expr, uses_some hn, P.leak]
      · unfold content
        rw [h3 m]
        rintro rfl; rw [hm] at hin; cases hin
  | node op cl cr n a fac l r ihl ihr =>
    obtain ⟨hn, hf, hnone, hsome, hsel, hadj, hscl, hscr⟩ := hsc
    obtain ⟨s₀, e1, e2, e3, e4, e5⟩ := load_own h hctx hn (by
      intro hk
      cases hi : into with
      | none => exact Or.inl ((hnone hi).2 hk)
      | some q => exact Or.inr (Nat.lt_of_lt_of_le (hsome q hi).2.1 (hlive n)))
    obtain ⟨ol, g₁, s₁, l1, l2, l3⟩ := ihl _ _ _ (g.inc n) s₀ e2 (fun m => by rw [inc_cnt]; have := hlive m; omega) hscl hix.1
    obtain ⟨or, g₂, s₂, r1, r2, r3⟩ := ihr _ _ _ g₁ s₁ l3.inv (fun m => by rw [l3.cnt, inc_cnt]; have := hlive m; omega) hscr hix.2.1
    have c1 : ∀ m, g₁.cnt m = g.cnt m + (if m = n then 1 else 0) + l.expr.uses m + l.leak m := by intro m; rw [l3.cnt, inc_cnt]
    have c2 : ∀ m, g₂.cnt m = g.cnt m + (if m = n then 1 else 0) + l.expr.uses m + l.leak m + r.expr.uses m + r.leak m := by
      intro m; rw [r3.cnt, c1]
    have hle2 : ∀ m, (if m = n then 1 else 0) + l.expr.uses m + r.expr.uses m ≤ g₂.cnt m := by intro m; rw [c2]; omega
    have hks : ∀ m, input m.stem = false → ((((ks m ∨ m = n) ∨ l.names m) ∨ r.names m) ↔ (ks m ∨ (P.node op cl cr n a fac l r).names m)) := by
      intro m _; simp only [P.names, or_assoc]
    have hll : ∀ x, l = .leaf x → x.Input input := scoped_leaf hscl
    have hlr : ∀ x, r = .leaf x → x.Input input := scoped_leaf hscr
    -- other objects
    have hfr : ∀ m, input m.stem = false → 0 < live m → m ≠ n → content s₂ m = content s m := by
      intro m hm h0 hne
      have hin : (if op = EOp.sum then some (n, a) else none) = none ∨ ((if op = EOp.sum then some (n, a) else none) = some (n, a) ∧ m ≠ n) := by
        by_cases ho : op = .sum
        · exact Or.inr ⟨if_pos ho, hne⟩
        · exact Or.inl (if_neg ho)
      rw [r3.frame m hm (by omega) (scoped_ne hscr (by omega) hin), l3.frame m hm (by omega) (scoped_ne hscl (by omega) hin)]
      unfold content; rw [e3 m hne]
    -- the object at the beginning
    have hb : ∀ b : Arr K, ((into = none ∨ Zeroed c n) → ∀ pos, b pos = 0) → (into ≠ none → ¬ Zeroed c n → b = content s n) →
        ∀ pos, content s₀ n pos = b pos := by
      intro b b1 b2 pos
      by_cases hz : into = none ∨ Zeroed c n
      · rw [b1 hz]
        refine e4 ?_ pos
        rcases hz with hz | hz
        · by_cases hk : ks n
          · exact Or.inr ((hnone hz).2 hk)
          · exact Or.inl hk
        · exact Or.inr hz
      · have h1 : into ≠ none := fun e => hz (Or.inl e)
        have h2 : ¬ Zeroed c n := fun e => hz (Or.inr e)
        rw [b2 h1 h2]
        obtain ⟨q, hq⟩ := Option.ne_none_iff_exists'.1 h1
        exact e5 (hsome q hq).2.2 h2 pos
    by_cases ho : op = .sum
    · subst ho
      obtain ⟨rfl, rfl⟩ := hsel rfl
      simp only [if_true] at hscl hscr l3 r3
      -- the object after the operands
      have hv1 : l.Safe c → ∀ pos, content s₁ n pos = content s₀ n pos + nodeVal I l (bind a pos) := by
        intro hsl pos
        rcases leaf_or_node l with ⟨x, hx⟩ | ⟨op', cl', cr', n', a', fac', l', r', hx⟩
        · rw [l3.frame n hn (by simp) (by rw [hx]; simp [P.nodeName]), hx]; simp [nodeVal, P.isLeaf]
        · have hna := scoped_into hscl hx
          cases hna
          have hnv : nodeVal I l (bind a pos) = l.val I (bind a pos) := by rw [hx]; rfl
          rw [hnv]
          refine l3.val hsl _ _ _ _ _ _ _ _ hx (content s₀ n) (fun hz pos => ?_) (fun _ _ => rfl) pos
          rcases hz with hz | hz
          · cases hz
          · exact e4 (Or.inr hz) pos
      have hv2 : r.Safe c → (Zeroed c n → r.isLeaf = true) → ∀ pos, content s₂ n pos = content s₁ n pos + nodeVal I r (bind a pos) := by
        intro hsr hsf pos
        rcases leaf_or_node r with ⟨x, hx⟩ | ⟨op', cl', cr', n', a', fac', l', r', hx⟩
        · rw [r3.frame n hn (by simp) (by rw [hx]; simp [P.nodeName]), hx]; simp [nodeVal, P.isLeaf]
        · have hna := scoped_into hscr hx
          cases hna
          have hnv : nodeVal I r (bind a pos) = r.val I (bind a pos) := by rw [hx]; rfl
          rw [hnv]
          refine r3.val hsr _ _ _ _ _ _ _ _ hx (content s₁ n) (fun hz pos => ?_) (fun _ _ => rfl) pos
          rcases hz with hz | hz
          · cases hz
          · have := hsf hz
            rw [hx] at this; cases this
      by_cases hnn : l.isLeaf = false ∧ r.isLeaf = false
      · refine ⟨(loadOrCreate c g n false).1 ++ ol ++ or ++ [], g₂, s₂, ?_, ?_, ?_⟩
        · simp only [gen]
          rw [show (loadOrCreate c g n false : Code K × GS).2 = g.inc n from rfl, l1]
          simp only [r1]
          unfold processComp
          rw [if_pos ⟨rfl, hnn.1, hnn.2⟩]
        · rw [run_append, run_append, run_append, e1]
          simp only [Option.bind_some, l2, r2, run]
        · refine ⟨r3.inv.ks_congr hks, fun m => ?_, fun m hm h0 hne => hfr m hm h0 ?_, fun hsafe _ _ _ _ _ _ _ _ e b b1 b2 pos => ?_⟩
          · rw [c2]
            rw [P.leak_none hnn.1 hnn.2, P.uses_node]; omega
          · rintro rfl; exact hne rfl
          · cases e
            obtain ⟨hsf, hsl, hsr⟩ := hsafe
            replace hsf := hsf rfl
            rw [hv2 hsr hsf.2, hv1 hsl, hb b b1 b2]
            have hfac : fac = [] := hsf.1.resolve_right fun hh => by rw [hnn.1] at hh; cases hh.1
            simp only [P.val, nodeVal, hnn.1, hnn.2, hfac, fv_nil]
            simp only [if_neg (by simp : ¬ (false = true))]
            ring
      · obtain ⟨o, g₃, s₃, p1, p2, p3, p4, p5, p6⟩ := node_sum r3.inv hn hf hix hle2 hll hlr hnn
        refine ⟨(loadOrCreate c g n false).1 ++ ol ++ or ++ o, g₃, s₃, ?_, ?_, ?_⟩
        · simp only [gen]
          rw [show (loadOrCreate c g n false : Code K × GS).2 = g.inc n from rfl, l1]
          simp only [r1, p1]
        · rw [run_append, run_append, run_append, e1]
          simp only [Option.bind_some, l2, r2, p2]
        · have c3 : ∀ m, g₃.cnt m = g.cnt m + (if m = n then 1 else 0) + l.leak m + r.leak m := by intro m; rw [p4, c2]; omega
          refine ⟨p3.ks_congr hks, fun m => ?_, fun m hm h0 hne => ?_, fun hsafe _ _ _ _ _ _ _ _ e b b1 b2 pos => ?_⟩
          · rw [c3]
            rw [P.leak_some (fun hh => hnn hh.2), P.uses_node]; omega
          · have hmn : m ≠ n := by rintro rfl; exact hne rfl
            rw [p5 m hm (by rw [c3]; have := hlive m; omega) hmn]
            exact hfr m hm h0 hmn
          · cases e
            obtain ⟨hsf, hsl, hsr⟩ := hsafe
            replace hsf := hsf rfl
            rw [p6, hv2 hsr hsf.2, hv1 hsl, hb b b1 b2]
            simp only [P.val, nodeVal, leafVal]
            rcases hsf.1 with rfl | hh
            · simp only [fv_nil, one_mul]
              cases l.isLeaf <;> cases r.isLeaf <;> simp <;> ring
            · rw [hh.1, hh.2]; simp
    · have hin : (if op = EOp.sum then some (n, a) else none) = none := if_neg ho
      rw [hin] at hscl hscr l3 r3
      have hl0 := fun m hm => scoped_name hscl m hm
      have hr0 := fun m hm => scoped_name hscr m hm
      have hn1 : content s₁ n = content s₀ n := l3.frame n hn (by simp) (scoped_ne (n := n) (a := a) hscl (by simp) (Or.inl rfl))
      have hn2 : content s₂ n = content s₁ n := r3.frame n hn (by simp) (scoped_ne (n := n) (a := a) hscr (by simp) (Or.inl rfl))
      obtain ⟨o, g₃, s₃, p1, p2, p3, p4, p5, p6⟩ := node_other r3.inv ho (cl := cl) (cr := cr) hn hf hix hle2 hll hlr (fun m hm => (hl0 m hm).1)
        (fun m hm => (hr0 m hm).1)
      refine ⟨(loadOrCreate c g n false).1 ++ ol ++ or ++ o, g₃, s₃, ?_, ?_, ?_⟩
      · simp only [gen]
        rw [show (loadOrCreate c g n false : Code K × GS).2 = g.inc n from rfl, l1]
        simp only [r1, p1]
      · rw [run_append, run_append, run_append, e1]
        simp only [Option.bind_some, l2, r2, p2]
      · have c3 : ∀ m, g₃.cnt m = g.cnt m + (if m = n then 1 else 0) + l.leak m + r.leak m := by intro m; rw [p4, c2]; omega
        refine ⟨p3.ks_congr hks, fun m => ?_, fun m hm h0 hne => ?_, fun hsafe _ _ _ _ _ _ _ _ e b b1 b2 pos => ?_⟩
        · rw [c3]
          rw [P.leak_some (fun hh => ho hh.1), P.uses_node]; omega
        · have hmn : m ≠ n := by rintro rfl; exact hne rfl
          rw [p5 m hm (by rw [c3]; have := hlive m; omega) hmn]
          exact hfr m hm h0 hmn
        · cases e
          obtain ⟨_, hsl, hsr⟩ := hsafe
          rw [p6 ⟨?_, ?_⟩, hn2, hn1, hb b b1 b2]
          · intro op' cl' cr' n' a' fac' l' r' e pos
            have hnm : l.nodeName = some n' := by rw [e]; rfl
            have hu : l.expr.uses n' = 1 := l.uses_pos n' (by rw [e]; rfl)
            rw [r3.frame n' (hl0 n' hnm).1 (by omega) (scoped_ne (n := n) (a := a) hscr (by omega) (Or.inl rfl))]
            rw [l3.val hsl _ _ _ _ _ _ _ _ e (fun _ => 0) (fun _ _ => rfl) (fun hh => absurd rfl hh) pos, zero_add]
          · intro op' cl' cr' n' a' fac' l' r' e pos
            rw [r3.val hsr _ _ _ _ _ _ _ _ e (fun _ => 0) (fun _ _ => rfl) (fun hh => absurd rfl hh) pos, zero_add]

end SeQuant.Codegen
