import Verif.Codegen.Spec

/-!
# Values of trees before and after pruning
-/

namespace SeQuant.Codegen

open SeQuant.Eval (EOp)

variable {K : Type} [CommRing K]

set_option linter.unusedSectionVars false

/-! ### Sums over indices -/

theorem sumOver_congr {dim : Nat → Nat} {c : List Nat} {f g : (Nat → Nat) → K} (h : ∀ σ, f σ = g σ) (σ : Nat → Nat) :
    sumOver dim c f σ = sumOver dim c g σ := by
  have : f = g := funext h
  rw [this]

theorem sumOver_mul {dim : Nat → Nat} (c : List Nat) (k : K) (f : (Nat → Nat) → K) (σ : Nat → Nat) :
    sumOver dim c (fun τ => k * f τ) σ = k * sumOver dim c f σ := by
  induction c generalizing σ with
  | nil => rfl
  | cons i c ih => simp only [sumOver, ih, Finset.mul_sum]

theorem sumOver_perm {dim : Nat → Nat} {c c' : List Nat} (h : c.Perm c') (f : (Nat → Nat) → K) (σ : Nat → Nat) :
    sumOver dim c f σ = sumOver dim c' f σ := by
  induction h generalizing σ with
  | nil => rfl
  | cons i _ ih => simp only [sumOver, ih]
  | swap i j l =>
    by_cases hij : i = j
    · subst hij; rfl
    · simp only [sumOver]
      rw [Finset.sum_comm]
      refine Finset.sum_congr rfl fun x _ => Finset.sum_congr rfl fun y _ => ?_
      rw [Function.update_comm hij]
  | trans _ _ ih₁ ih₂ => rw [ih₁, ih₂]

/-- The sum depends on the assignment of the remaining indices only. -/
theorem sumOver_local {dim : Nat → Nat} {b : List Nat} {f : (Nat → Nat) → K}
    (hf : ∀ σ τ, (∀ i ∈ b, σ i = τ i) → f σ = f τ) (c : List Nat) (σ τ : Nat → Nat) (h : ∀ i ∈ b, i ∉ c → σ i = τ i) :
    sumOver dim c f σ = sumOver dim c f τ := by
  induction c generalizing σ τ with
  | nil => exact hf _ _ fun i hi => h i hi (by simp)
  | cons j c ih =>
    simp only [sumOver]
    refine Finset.sum_congr rfl fun x _ => ih _ _ fun i hi hic => ?_
    by_cases hij : i = j
    · subst hij; simp
    · simp only [Function.update_of_ne hij]
      exact h i hi (by simp [hij, hic])

theorem mem_contr {a b : List Nat} {i : Nat} : i ∈ contr a b ↔ i ∈ b ∧ i ∉ a := by simp [contr]

theorem Same.refl (a : List Nat) : Same a a := ⟨List.Subset.refl _, List.Subset.refl _⟩

theorem Same.symm {a b : List Nat} (h : Same a b) : Same b a := ⟨h.2, h.1⟩

theorem Same.trans {a b c : List Nat} (h : Same a b) (h' : Same b c) : Same a c :=
  ⟨List.Subset.trans h.1 h'.1, List.Subset.trans h'.2 h.2⟩

theorem Same.mem {a b : List Nat} (h : Same a b) (i : Nat) : i ∈ a ↔ i ∈ b := ⟨fun x => h.1 x, fun x => h.2 x⟩

theorem contr_perm {a a' b b' : List Nat} (ha : Same a a') (hb : Same b b') : (contr a b).Perm (contr a' b') := by
  refine (List.perm_ext_iff_of_nodup (List.nodup_dedup _) (List.nodup_dedup _)).2 fun i => ?_
  show i ∈ contr a b ↔ i ∈ contr a' b'
  rw [mem_contr, mem_contr, ha.mem, hb.mem]

theorem contr_nil {a b : List Nat} (h : b ⊆ a) : contr a b = [] := by
  refine List.eq_nil_iff_forall_not_mem.2 fun i hi => ?_
  rw [mem_contr] at hi
  exact hi.2 (h hi.1)

theorem bind_map (a : List Nat) (σ : Nat → Nat) (i : Nat) (h : i ∈ a) : bind a (a.map σ) i = σ i := by
  induction a with
  | nil => cases h
  | cons j a ih =>
    simp only [List.map_cons, bind]
    by_cases hij : i = j
    · simp [hij]
    · rw [if_neg hij]
      exact ih (by simpa [hij] using h)

/-! ### Scalars -/

/-- The value of a product of scalars. -/
def fv (I : Interp K) (fac : List (EX K)) : K := (fac.map (EX.val I I.inp fun _ => 0)).prod

theorem fv_append (I : Interp K) (a b : List (EX K)) : fv I (a ++ b) = fv I a * fv I b := by simp [fv]

@[simp] theorem fv_nil (I : Interp K) : fv I [] = 1 := rfl

theorem EX.val_local (I : Interp K) (m : Name → Arr K) (x : EX K) (σ τ : Nat → Nat) (h : ∀ i ∈ x.idx, σ i = τ i) :
    x.val I m σ = x.val I m τ := by
  cases x with
  | obj n a =>
    simp only [EX.val]
    congr 1
    exact List.map_congr_left h
  | const c => rfl
  | pow n k => rfl

theorem EX.val_scalar (I : Interp K) (m : Name → Arr K) (x : EX K) (h : x.idx = []) (σ τ : Nat → Nat) : x.val I m σ = x.val I m τ :=
  x.val_local I m σ τ (by simp [h])

theorem prunable_scalar {p : Prunable} {x : EX K} (h : p.ok x = true) : x.idx = [] := by
  cases x with
  | obj n a => cases a with
    | nil => rfl
    | cons i a => simp [Prunable.ok] at h
  | const c => rfl
  | pow n k => rfl

/-! ### Processed trees -/

def P.idx (t : P K) : List Nat := t.expr.idx

/-- The value the generated code is to compute. -/
def P.val (I : Interp K) : P K → (Nat → Nat) → K
  | .leaf x, σ => x.val I I.inp σ
  | .node .prod _ _ _ a fac l r, σ => fv I fac * sumOver I.dim (contr a (l.idx ++ r.idx)) (fun τ => l.val I τ * r.val I τ) σ
  | .node .sum _ _ _ _ fac l r, σ => fv I fac * (l.val I σ + r.val I σ)
  | .node .adjoint _ _ _ _ fac l _, σ => fv I fac * l.val I σ

/-- Indices of operands in processed trees. -/
def P.Ix : P K → Prop
  | .leaf _ => True
  | .node op _ _ _ a fac l r =>
    l.Ix ∧ r.Ix ∧ (∀ x ∈ fac, x.idx = []) ∧
    match op with
    | .prod => True
    | .sum => l.idx ⊆ a ∧ r.idx ⊆ a
    | .adjoint => l.idx ⊆ a

theorem P.val_local (I : Interp K) (t : P K) (h : t.Ix) (σ τ : Nat → Nat) (hσ : ∀ i ∈ t.idx, σ i = τ i) : t.val I σ = t.val I τ := by
  induction t generalizing σ τ with
  | leaf x => exact x.val_local I _ σ τ hσ
  | node op cl cr n a fac l r ihl ihr =>
    have hσ' : ∀ i ∈ a, σ i = τ i := hσ
    cases op with
    | sum =>
      simp only [P.Ix] at h
      simp only [P.val]
      rw [ihl h.1 σ τ fun i hi => hσ' i (h.2.2.2.1 hi), ihr h.2.1 σ τ fun i hi => hσ' i (h.2.2.2.2 hi)]
    | prod =>
      simp only [P.Ix] at h
      simp only [P.val]
      congr 1
      refine sumOver_local (b := l.idx ++ r.idx) (fun σ' τ' hh => ?_) _ σ τ fun i hi hc => ?_
      · rw [ihl h.1 σ' τ' fun i hi => hh i (by simp [hi]), ihr h.2.1 σ' τ' fun i hi => hh i (by simp [hi])]
      · rw [mem_contr] at hc
        exact hσ' i (by_contra fun hn => hc ⟨hi, hn⟩)
    | adjoint =>
      simp only [P.Ix] at h
      simp only [P.val]
      rw [ihl h.1 σ τ fun i hi => hσ' i (h.2.2.2 hi)]

/-! ### Pruning -/

/-- The node with another expression. -/
def T.set (n : Name) (a : List Nat) : T K → T K
  | .leaf x neg => .leaf x neg
  | .node op _ _ l r => .node op n a l r

theorem T.set_wf {input : Nat → Bool} {t : T K} (h : t.WF input) (n : Name) (a : List Nat) (ha : Same t.idx a) (hn : input n.stem = false) :
    (t.set n a).WF input := by
  cases t with
  | leaf x neg => exact h
  | node op m b l r =>
    replace ha : Same b a := ha
    refine ⟨hn, h.2.1, h.2.2.1, ?_⟩
    have h4 := h.2.2.2
    cases op with
    | sum => exact ⟨h4.1.trans ha, h4.2.trans ha⟩
    | prod => exact ⟨List.Subset.trans ha.2 h4.1, fun e => (h4.2.1 e).trans ha, fun e => (h4.2.2 e).trans ha⟩
    | adjoint => exact ⟨h4.1.trans ha, h4.2⟩

theorem T.set_val (I : Interp K) (t : T K) (n : Name) (a : List Nat) (ha : Same t.idx a) (σ : Nat → Nat) : (t.set n a).val I σ = t.val I σ := by
  cases t with
  | leaf x neg => rfl
  | node op m b l r =>
    replace ha : Same b a := ha
    cases op with
    | sum => rfl
    | prod => exact sumOver_perm (contr_perm ha.symm (Same.refl _)) _ σ
    | adjoint => rfl

theorem T.set_idx (t : T K) (n : Name) (a : List Nat) (ha : Same t.idx a) : Same (t.set n a).idx a := by
  cases t with
  | leaf x neg => exact ha
  | node op m b l r => exact Same.refl a

def Pruned.fac : Pruned K → List (EX K)
  | .leaf _ up => up
  | .node _ _ _ f _ _ => f

/-- The tree left by pruning. -/
def Pruned.tree : Pruned K → T K
  | .leaf x _ => .leaf x false
  | .node op n a _ l r => .node op n a l r

theorem T.phase_val (I : Interp K) {x : EX K} {neg : Bool} (h : (T.leaf x neg).NoPhase) (σ : Nat → Nat) :
    (T.leaf x neg).val I σ = x.val I I.inp σ := by
  have : neg = false := h
  subst this; rfl

/-- What holds of a step of the pruning loops. -/
structure PrunedOk (input : Nat → Bool) (t : T K) (fac : List (EX K)) (q : Pruned K) : Prop where
  wf : q.tree.WF input
  idx : Same q.tree.idx t.idx
  size : q.tree.size ≤ t.size
  facs : (∀ x ∈ fac, x.idx = [] ∧ x.Input input) → ∀ x ∈ q.fac, x.idx = [] ∧ x.Input input
  phase : t.NoPhase → q.tree.NoPhase
  adj : t.NoAdj → q.tree.NoAdj
  nosum : t.NoSum → q.tree.NoSum
  val : t.NoPhase → ∀ (I : Interp K) (σ : Nat → Nat), fv I q.fac * q.tree.val I σ = fv I fac * t.val I σ

theorem T.set_size (t : T K) (n : Name) (a : List Nat) : (t.set n a).size = t.size := by cases t <;> rfl
theorem T.set_phase {t : T K} (h : t.NoPhase) (n : Name) (a : List Nat) : (t.set n a).NoPhase := by cases t <;> exact h
theorem T.set_adj {t : T K} (h : t.NoAdj) (n : Name) (a : List Nat) : (t.set n a).NoAdj := by cases t <;> exact h
theorem T.set_nosum {t : T K} (h : t.NoSum) (n : Name) (a : List Nat) : (t.set n a).NoSum := by cases t <;> exact h

theorem PrunedOk.trans_left {input : Nat → Bool} {n : Name} {a : List Nat} {x : EX K} {neg : Bool} {r : T K} {fac : List (EX K)} {q : Pruned K}
    (hx : x.idx = []) (hw : (T.node .prod n a (.leaf x neg) r).WF input)
    (h : PrunedOk input (r.set n a) (fac ++ [x]) q) : PrunedOk input (.node .prod n a (.leaf x neg) r) fac q := by
  have hr : Same r.idx a := hw.2.2.2.2.1 hx
  refine ⟨h.wf, h.idx.trans (r.set_idx n a hr), ?_, fun hf => h.facs ?_, fun hp => h.phase (T.set_phase hp.2 n a),
    fun hp => h.adj (T.set_adj hp.2.2 n a), fun hp => h.nosum (T.set_nosum hp.2.2 n a), fun hp I σ => ?_⟩
  · have := h.size
    rw [T.set_size] at this
    simp only [T.size]; omega
  · intro y hy
    rcases List.mem_append.1 hy with hy | hy
    · exact hf y hy
    · rw [List.mem_singleton.1 hy]; exact ⟨hx, hw.2.1⟩
  · rw [h.val (T.set_phase hp.2 n a) I σ, fv_append, T.set_val I r n a hr σ]
    have e : contr a ((T.leaf x neg).idx ++ r.idx) = [] := contr_nil (by rw [show (T.leaf x neg).idx = [] from hx]; exact hr.1)
    have e2 : (T.node .prod n a (.leaf x neg) r).val I σ = (T.leaf x neg).val I σ * r.val I σ := by
      simp only [T.val]; rw [e]; rfl
    rw [e2, T.phase_val I hp.1, mul_assoc]
    congr 2
    rw [x.val_scalar I I.inp hx σ fun _ => 0]
    simp [fv]

theorem PrunedOk.trans_right {input : Nat → Bool} {n : Name} {a : List Nat} {x : EX K} {neg : Bool} {l : T K} {fac : List (EX K)} {q : Pruned K}
    (hx : x.idx = []) (hw : (T.node .prod n a l (.leaf x neg)).WF input)
    (h : PrunedOk input (l.set n a) (fac ++ [x]) q) : PrunedOk input (.node .prod n a l (.leaf x neg)) fac q := by
  have hl : Same l.idx a := hw.2.2.2.2.2 hx
  refine ⟨h.wf, h.idx.trans (l.set_idx n a hl), ?_, fun hf => h.facs ?_, fun hp => h.phase (T.set_phase hp.1 n a),
    fun hp => h.adj (T.set_adj hp.2.1 n a), fun hp => h.nosum (T.set_nosum hp.2.1 n a), fun hp I σ => ?_⟩
  · have := h.size
    rw [T.set_size] at this
    simp only [T.size]; omega
  · intro y hy
    rcases List.mem_append.1 hy with hy | hy
    · exact hf y hy
    · rw [List.mem_singleton.1 hy]; exact ⟨hx, hw.2.2.1⟩
  · rw [h.val (T.set_phase hp.1 n a) I σ, fv_append, T.set_val I l n a hl σ]
    have e : contr a (l.idx ++ (T.leaf x neg).idx) = [] := contr_nil (by
      rw [show (T.leaf x neg).idx = [] from hx, List.append_nil]; exact hl.1)
    have e2 : (T.node .prod n a l (.leaf x neg)).val I σ = l.val I σ * (T.leaf x neg).val I σ := by
      simp only [T.val]; rw [e]; rfl
    rw [e2, T.phase_val I hp.2, mul_assoc, mul_comm (l.val I σ)]
    congr 2
    rw [x.val_scalar I I.inp hx σ fun _ => 0]
    simp [fv]

theorem PrunedOk.done {input : Nat → Bool} {op : EOp} {n : Name} {a : List Nat} {l r : T K} (hw : (T.node op n a l r).WF input)
    (fac : List (EX K)) : PrunedOk input (.node op n a l r) fac (.node op n a fac l r) :=
  ⟨hw, Same.refl _, le_refl _, fun h => h, fun h => h, fun h => h, fun h => h, fun _ _ _ => rfl⟩

theorem PrunedOk.doneLeaf {input : Nat → Bool} {x : EX K} {neg : Bool} (hw : x.Input input) (fac : List (EX K)) :
    PrunedOk input (.leaf x neg) fac (.leaf x fac) :=
  ⟨hw, Same.refl _, le_refl _, fun h => h, fun _ => rfl, fun h => h, fun h => h, fun h I σ => by
    rw [T.phase_val I h]; rfl⟩

theorem pruneL_ok {input : Nat → Bool} (p : Prunable) (pp : Bool) (t : T K) (n : Name) (a : List Nat) (fac : List (EX K))
    (hw : (t.set n a).WF input) : PrunedOk input (t.set n a) fac (pruneL p pp t n a fac) := by
  induction t generalizing fac with
  | leaf x neg => exact PrunedOk.doneLeaf hw fac
  | node op m b l r ihl ihr =>
    simp only [pruneL]
    split
    · rename_i hop
      split
      · rename_i x hx
        cases l with
        | node => simp [prunable] at hx
        | leaf y neg =>
          simp only [prunable] at hx
          split at hx
          · rename_i hok
            cases hx
            have hs := prunable_scalar hok
            have h1 := hop.1
            subst h1
            exact PrunedOk.trans_left hs hw (ihr _ (T.set_wf hw.2.2.1 n a (hw.2.2.2.2.1 hs) hw.1))
          · cases hx
      · exact PrunedOk.done hw fac
    · exact PrunedOk.done hw fac

theorem pruneR_ok {input : Nat → Bool} (p : Prunable) (pp : Bool) (t : T K) (n : Name) (a : List Nat) (fac : List (EX K))
    (hw : (t.set n a).WF input) : PrunedOk input (t.set n a) fac (pruneR p pp t n a fac) := by
  induction t generalizing fac with
  | leaf x neg => exact PrunedOk.doneLeaf hw fac
  | node op m b l r ihl ihr =>
    simp only [pruneR]
    split
    · rename_i hop
      split
      · rename_i x hx
        cases r with
        | node => simp [prunable] at hx
        | leaf y neg =>
          simp only [prunable] at hx
          split at hx
          · rename_i hok
            cases hx
            have hs := prunable_scalar hok
            have h1 := hop.1
            subst h1
            exact PrunedOk.trans_right hs hw (ihl _ (T.set_wf hw.2.1 n a (hw.2.2.2.2.2 hs) hw.1))
          · cases hx
      · exact PrunedOk.done hw fac
    · exact PrunedOk.done hw fac

theorem PrunedOk.comp {input : Nat → Bool} {t : T K} {fac : List (EX K)} {op : EOp} {n : Name} {a : List Nat} {f : List (EX K)} {l r : T K}
    {q : Pruned K} (h : PrunedOk input t fac (.node op n a f l r)) (h' : PrunedOk input (.node op n a l r) f q) : PrunedOk input t fac q :=
  ⟨h'.wf, h'.idx.trans h.idx, le_trans h'.size h.size, fun hf => h'.facs (h.facs hf), fun x => h'.phase (h.phase x),
    fun x => h'.adj (h.adj x), fun x => h'.nosum (h.nosum x), fun hp I σ => (h'.val (h.phase hp) I σ).trans (h.val hp I σ)⟩

theorem prune_ok {input : Nat → Bool} (p : Prunable) (pp : Bool) (t : T K) (hw : t.WF input) : PrunedOk input t [] (prune p pp t) := by
  cases t with
  | leaf x neg => exact PrunedOk.doneLeaf hw []
  | node op n a l r =>
    have h := pruneL_ok p pp (.node op n a l r) n a [] hw
    simp only [prune]
    revert h
    generalize pruneL p pp (.node op n a l r) n a [] = q
    intro h
    cases q with
    | leaf x up => exact h
    | node op' n' a' f l' r' => exact h.comp (pruneR_ok p pp (.node op' n' a' l' r') n' a' f h.wf)

/-- Outside products pruning never turns an internal node into a leaf. -/
theorem pruneL_node (p : Prunable) (t : T K) (n : Name) (a : List Nat) (fac : List (EX K)) (h : t.isLeaf = false) :
    ∃ op n' a' f l r, pruneL p false t n a fac = .node op n' a' f l r := by
  induction t generalizing fac with
  | leaf x neg => cases h
  | node op m b l r ihl ihr =>
    simp only [pruneL]
    split
    · rename_i hop
      split
      · rename_i x hx
        cases l with
        | node => simp [prunable] at hx
        | leaf y neg =>
          refine ihr _ ?_
          simpa [mayPrune, T.isLeaf] using hop.2
      · exact ⟨_, _, _, _, _, _, rfl⟩
    · exact ⟨_, _, _, _, _, _, rfl⟩

theorem pruneR_node (p : Prunable) (t : T K) (n : Name) (a : List Nat) (fac : List (EX K)) (h : t.isLeaf = false) :
    ∃ op n' a' f l r, pruneR p false t n a fac = .node op n' a' f l r := by
  induction t generalizing fac with
  | leaf x neg => cases h
  | node op m b l r ihl ihr =>
    simp only [pruneR]
    split
    · rename_i hop
      split
      · rename_i x hx
        cases r with
        | node => simp [prunable] at hx
        | leaf y neg =>
          refine ihl _ ?_
          simpa [mayPrune, T.isLeaf] using hop.2
      · exact ⟨_, _, _, _, _, _, rfl⟩
    · exact ⟨_, _, _, _, _, _, rfl⟩

theorem prune_node (p : Prunable) (op : EOp) (n : Name) (a : List Nat) (l r : T K) :
    ∃ op' n' a' f l' r', prune p false (.node op n a l r) = .node op' n' a' f l' r' := by
  obtain ⟨op', n', a', f, l', r', h⟩ := pruneL_node p (.node op n a l r) n a [] rfl
  simp only [prune, h]
  exact pruneR_node p _ n' a' f rfl

/-- Pruning keeps the name of internal nodes. -/
theorem pruneL_name (p : Prunable) (pp : Bool) (t : T K) (n : Name) (a : List Nat) (fac : List (EX K)) {op n' a' f l r}
    (h : pruneL p pp t n a fac = .node op n' a' f l r) : n' = n ∧ a' = a := by
  induction t generalizing fac with
  | leaf x neg => cases h
  | node op m b l r ihl ihr =>
    simp only [pruneL] at h
    split at h
    · split at h
      · exact ihr _ h
      · cases h; exact ⟨rfl, rfl⟩
    · cases h; exact ⟨rfl, rfl⟩

theorem pruneR_name (p : Prunable) (pp : Bool) (t : T K) (n : Name) (a : List Nat) (fac : List (EX K)) {op n' a' f l r}
    (h : pruneR p pp t n a fac = .node op n' a' f l r) : n' = n ∧ a' = a := by
  induction t generalizing fac with
  | leaf x neg => cases h
  | node op m b l r ihl ihr =>
    simp only [pruneR] at h
    split at h
    · split at h
      · exact ihl _ h
      · cases h; exact ⟨rfl, rfl⟩
    · cases h; exact ⟨rfl, rfl⟩

theorem prune_name (p : Prunable) (pp : Bool) {op₀ n₀ a₀} {l₀ r₀ : T K} {op n a f l r}
    (h : prune p pp (.node op₀ n₀ a₀ l₀ r₀) = .node op n a f l r) : n = n₀ ∧ a = a₀ := by
  simp only [prune] at h
  split at h
  · cases h
  · rename_i h'
    obtain ⟨rfl, rfl⟩ := pruneL_name p pp _ _ _ _ h'
    exact pruneR_name p pp _ _ _ _ h

/-- A node which is not a product is not changed. -/
theorem prune_other (p : Prunable) (pp : Bool) {op : EOp} (n : Name) (a : List Nat) (l r : T K) (h : op ≠ .prod) :
    prune p pp (.node op n a l r) = .node op n a [] l r := by
  simp [prune, pruneL, pruneR, h]

/-- The first loop stops only where the first operand is no scalar, or where nothing may be pruned: in a product of two leaves that is no operand of
a product. -/
theorem pruneL_complete (p : Prunable) (pp : Bool) (t : T K) (n : Name) (a : List Nat) (fac : List (EX K)) {op n' a' f l r}
    (h : pruneL p pp t n a fac = .node op n' a' f l r) (ho : op = .prod) (hm : pp = true ∨ l.isLeaf = false ∨ r.isLeaf = false) :
    prunable p l = none := by
  induction t generalizing fac with
  | leaf x ph => simp [pruneL] at h
  | node op0 n0 a0 l0 r0 _ ihr =>
    simp only [pruneL] at h
    split at h
    · cases hp : prunable p l0 with
      | some x => simp only [hp] at h; exact ihr _ h
      | none =>
        simp only [hp, Pruned.node.injEq] at h
        obtain ⟨_, _, _, _, rfl, _⟩ := h
        exact hp
    · rename_i hc
      simp only [Pruned.node.injEq] at h
      obtain ⟨rfl, _, _, _, rfl, rfl⟩ := h
      exfalso
      apply hc
      refine ⟨ho, ?_⟩
      rcases hm with h1 | h1 | h1 <;> simp [mayPrune, h1]

/-- The second loop likewise. -/
theorem pruneR_complete (p : Prunable) (pp : Bool) (t : T K) (n : Name) (a : List Nat) (fac : List (EX K)) {op n' a' f l r}
    (h : pruneR p pp t n a fac = .node op n' a' f l r) (ho : op = .prod) (hm : pp = true ∨ l.isLeaf = false ∨ r.isLeaf = false) :
    prunable p r = none := by
  induction t generalizing fac with
  | leaf x ph => simp [pruneR] at h
  | node op0 n0 a0 l0 r0 ihl _ =>
    simp only [pruneR] at h
    split at h
    · cases hp : prunable p r0 with
      | some x => simp only [hp] at h; exact ihl _ h
      | none =>
        simp only [hp, Pruned.node.injEq] at h
        obtain ⟨_, _, _, _, _, rfl⟩ := h
        exact hp
    · rename_i hc
      simp only [Pruned.node.injEq] at h
      obtain ⟨rfl, _, _, _, rfl, rfl⟩ := h
      exfalso
      apply hc
      refine ⟨ho, ?_⟩
      rcases hm with h1 | h1 | h1 <;> simp [mayPrune, h1]

end SeQuant.Codegen
