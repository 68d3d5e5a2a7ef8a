import Verif.Optimize.ConnectProps
import Mathlib.Data.List.Perm.Basic
import Mathlib.Data.List.Perm.Subperm
import Mathlib.Data.List.NodupEquivFin
import Mathlib.Data.List.Range
import Mathlib.Algebra.BigOperators.Group.List.Basic

/-!
# The single-term optimizer returns an optimal contraction order (C30), well-formed sequences (C31)
-/

namespace SeQuant.Optimize

open SeQuant.Bits

/-! ### Trees over all tensors -/

/-- All tensors. -/
def fullMask (w nt : Nat) : BitVec w := BitVec.ofNat w (2 ^ nt - 1)

theorem fullMask_bit {w nt : Nat} (hnt : nt ≤ w) (i : Nat) : (fullMask w nt).getLsbD i = decide (i < nt) := by
  unfold fullMask
  have hw : 2 ^ nt ≤ 2 ^ w := Nat.pow_le_pow_right (by omega) hnt
  have hpos : 0 < 2 ^ nt := Nat.pow_pos (by omega)
  rw [BitVec.getLsbD, BitVec.toNat_ofNat, Nat.mod_eq_of_lt (by omega), Nat.testBit_two_pow_sub_one]

theorem fullMask_lt {w nt : Nat} (hnt : nt ≤ w) : (fullMask w nt).toNat < 2 ^ nt := by
  unfold fullMask
  have hw : 2 ^ nt ≤ 2 ^ w := Nat.pow_le_pow_right (by omega) hnt
  have hpos : 0 < 2 ^ nt := Nat.pow_pos (by omega)
  rw [BitVec.toNat_ofNat, Nat.mod_eq_of_lt (by omega)]
  omega

theorem fullMask_ne {w nt : Nat} (hnt : nt ≤ w) (h : 0 < nt) : fullMask w nt ≠ 0 := by
  intro he
  have := fullMask_bit (w := w) hnt 0
  rw [he] at this
  simp at this
  omega

theorem CTree.mem_leaves {w nt : Nat} (hnt : nt ≤ w) (t : CTree) (ht : ∀ i ∈ t.leaves, i < nt) (i : Nat) :
    i ∈ t.leaves ↔ (t.mask w).getLsbD i = true := by
  induction t with
  | leaf k =>
    have := ht k (by simp [CTree.leaves])
    rw [CTree.mask, getLsbD_bit (by omega)]
    simp only [CTree.leaves, List.mem_singleton, decide_eq_true_iff]
    exact eq_comm
  | node l r il ir =>
    simp only [CTree.leaves, List.mem_append] at ht ⊢
    rw [CTree.mask, BitVec.getLsbD_or, Bool.or_eq_true, il fun i h => ht i (.inl h), ir fun i h => ht i (.inr h)]

theorem CTree.valid_iff {w nt : Nat} (hnt : nt ≤ w) (t : CTree) : t.Valid w nt ↔ t.leaves.Nodup ∧ ∀ i ∈ t.leaves, i < nt := by
  induction t with
  | leaf k => simp [CTree.Valid, CTree.leaves]
  | node l r il ir =>
    simp only [CTree.Valid, CTree.leaves, il, ir, List.nodup_append', List.mem_append]
    constructor
    · rintro ⟨⟨h1, h2⟩, ⟨h3, h4⟩, h5⟩
      refine ⟨⟨h1, h3, ?_⟩, ?_⟩
      · intro i hi hj
        rw [l.mem_leaves hnt h2] at hi
        rw [r.mem_leaves hnt h4] at hj
        have : (l.mask w &&& r.mask w).getLsbD i = true := by rw [BitVec.getLsbD_and, hi, hj]; rfl
        rw [h5] at this
        simp at this
      · rintro i (h | h)
        · exact h2 i h
        · exact h4 i h
    · rintro ⟨⟨h1, h3, h5⟩, h6⟩
      have h2 : ∀ i ∈ l.leaves, i < nt := fun i h => h6 i (.inl h)
      have h4 : ∀ i ∈ r.leaves, i < nt := fun i h => h6 i (.inr h)
      refine ⟨⟨h1, h2⟩, ⟨h3, h4⟩, ?_⟩
      apply BitVec.eq_of_getLsbD_eq
      intro i _
      rw [BitVec.getLsbD_and]
      cases ha : (l.mask w).getLsbD i with
      | false => simp
      | true =>
        cases hb : (r.mask w).getLsbD i with
        | false => simp
        | true => exact absurd ((r.mem_leaves hnt h4 i).mpr hb) (h5 ((l.mem_leaves hnt h2 i).mpr ha))

/-- A tree over all tensors in the sense of subsets is a tree whose leaves are all tensors, each once. -/
theorem CTree.full_iff {w nt : Nat} (hnt : nt ≤ w) (t : CTree) : (t.Valid w nt ∧ t.mask w = fullMask w nt) ↔ t.leaves.Perm (List.range nt) := by
  rw [t.valid_iff hnt]
  constructor
  · rintro ⟨⟨h1, h2⟩, h3⟩
    rw [List.perm_ext_iff_of_nodup h1 List.nodup_range]
    intro i
    rw [t.mem_leaves hnt h2, h3, fullMask_bit hnt, List.mem_range, decide_eq_true_iff]
  · intro h
    have h2 : ∀ i ∈ t.leaves, i < nt := fun i hi => List.mem_range.mp (h.mem_iff.mp hi)
    refine ⟨⟨h.nodup_iff.mpr List.nodup_range, h2⟩, ?_⟩
    apply BitVec.eq_of_getLsbD_eq
    intro i _
    rw [Bool.eq_iff_iff, ← t.mem_leaves hnt h2, h.mem_iff, fullMask_bit hnt, List.mem_range, decide_eq_true_iff]

theorem CTree.leaves_pos (t : CTree) : 1 ≤ t.leaves.length := by
  induction t with
  | leaf _ => simp [CTree.leaves]
  | node l r il ir => simp only [CTree.leaves, List.length_append]; omega

/-! ### Optimality -/

/-- **C30**: for every number of tensors, every cost of contractions that does not depend on the order of the two operands, and every table of
allowed intermediates that can be worked through, the sequence is that of a contraction tree over all tensors, each once, that
has the least total cost among all trees with allowed intermediates. -/
theorem runAdditive_optimal {w : Nat} (cost : BitVec w → BitVec w → BitVec w → ℚ) (sym : ∀ n a b, cost n a b = cost n b a)
    (conn : BitVec w → Bool) (nt : Nat) (hpos : 0 < nt) (hnt : nt ≤ w) (hs : Splittable conn nt) (hfull : conn (fullMask w nt) = true)
    (ctx : AContext w) :
    ∃ t : CTree, runAdditive cost false ctx conn nt = some t.rpn ∧ t.leaves.Perm (List.range nt) ∧ t.AllConn conn ∧ t.Ordered ∧
      ∀ t' : CTree, t'.leaves.Perm (List.range nt) → t'.AllConn conn → t.cost cost ≤ t'.cost cost := by
  unfold runAdditive
  by_cases h1 : nt = 1
  · subst h1
    rw [if_pos rfl]
    refine ⟨.leaf 0, rfl, List.Perm.refl _, trivial, trivial, ?_⟩
    intro t' ht' _
    cases t' with
    | leaf i => exact le_refl _
    | node l r =>
      have := ht'.length_eq
      have := l.leaves_pos
      have := r.leaves_pos
      simp only [CTree.leaves, List.length_append, List.length_range] at *
      omega
  rw [if_neg h1]
  by_cases h2 : nt = 2
  · subst h2
    rw [if_pos rfl]
    have hm : (CTree.node (.leaf 0) (.leaf 1)).mask w = fullMask w 2 :=
      ((CTree.full_iff hnt (CTree.node (.leaf 0) (.leaf 1))).mpr (List.Perm.refl _)).2
    refine ⟨.node (.leaf 0) (.leaf 1), rfl, List.Perm.refl _, ⟨?_, trivial, trivial⟩, ⟨by simp [CTree.first], trivial, trivial⟩, ?_⟩
    · rw [show ((CTree.leaf 0).mask w ||| (CTree.leaf 1).mask w) = fullMask w 2 from hm]; exact hfull
    · intro t' ht' _
      have hlen := ht'.length_eq
      cases t' with
      | leaf i => simp [CTree.leaves] at hlen
      | node l r =>
        have hl := l.leaves_pos
        have hr := r.leaves_pos
        cases l with
        | node a b =>
          have := a.leaves_pos
          have := b.leaves_pos
          simp only [CTree.leaves, List.length_append, List.length_range] at *
          omega
        | leaf i =>
          cases r with
          | node a b =>
            have := a.leaves_pos
            have := b.leaves_pos
            simp only [CTree.leaves, List.length_append, List.length_range, List.length_singleton] at *
            omega
          | leaf j =>
            have hi : i ∈ List.range 2 := ht'.mem_iff.mp (by simp [CTree.leaves])
            have hj : j ∈ List.range 2 := ht'.mem_iff.mp (by simp [CTree.leaves])
            have hne : i ≠ j := by
              have := ht'.nodup_iff.mpr List.nodup_range
              simp [CTree.leaves] at this
              exact this
            simp only [List.mem_range] at hi hj
            have : (i = 0 ∧ j = 1) ∨ (i = 1 ∧ j = 0) := by omega
            rcases this with ⟨rfl, rfl⟩ | ⟨rfl, rfl⟩
            · exact le_refl _
            · simp only [CTree.cost, CTree.mask]
              rw [sym, BitVec.or_comm]
  rw [if_neg h2]
  have hgood := solve_good cost sym conn nt hnt hs ctx
  have htab := solve_table (additive cost false) (fun _ _ _ => rfl) conn nt hnt ctx AState.dflt
  generalize hst : (solve (additive cost false) conn nt ctx AState.dflt).2 = st at hgood htab
  have hun : ∀ n : BitVec w, n ≠ 0 → n.toNat < 2 ^ nt → conn n = false → popcount n.toNat ≠ 1 ∧ (st n).lp = 0 ∧ (st n).rp = 0 := by
    intro n h0 hn hc
    have hp : popcount n.toNat ≠ 1 := by
      intro hp
      obtain ⟨i, hi, rfl⟩ := (popcount_eq_one_iff n).mp hp
      have : i < nt := by
        rw [bit, BitVec.toNat_twoPow, Nat.mod_eq_of_lt (Nat.pow_lt_pow_right (by omega) hi)] at hn
        exact (Nat.pow_lt_pow_iff_right (by omega)).mp hn
      rw [hs.single i this] at hc
      simp at hc
    refine ⟨hp, ?_⟩
    rw [htab n h0 hn]
    unfold entry
    rw [if_neg hp, hc]
    exact ⟨rfl, rfl⟩
  obtain ⟨seq, e, hseq⟩ := reconstruct_good cost sym conn nt hnt st hgood hun
  have h0 := fullMask_ne (w := w) hnt hpos
  have hlt := fullMask_lt (w := w) hnt
  obtain ⟨t, a1, a2, a3, a4, a5, a6⟩ := hseq (fullMask w nt) h0 hlt hfull
  refine ⟨t, ?_, (t.full_iff hnt).mp ⟨a1, a4⟩, a2, a3, ?_⟩
  · rw [e, ← a5]; rfl
  · intro t' ht' hc'
    obtain ⟨v, hv⟩ := hgood (fullMask w nt) h0 hlt hfull
    have hvv := hv.ops.symm.trans a6
    simp only [Option.some.injEq] at hvv
    obtain ⟨b1, b2⟩ := (t'.full_iff hnt).mpr ht'
    rw [← hvv]
    exact hv.lower t' b1 hc' b2

theorem CTree.allConn_true {w : Nat} (t : CTree) : t.AllConn (fun _ : BitVec w => true) := by
  induction t with
  | leaf _ => trivial
  | node l r il ir => exact ⟨rfl, il, ir⟩

/-- **C30**: without pruning of outer products, or when the network is not connected, the returned order has the least cost among *all*
contraction trees over the given tensors. -/
theorem single_term_optimal_partial {w : Nat} {ι : Type} [DecidableEq ι] (net : List (List ι)) (targets : List ι) (prune : Bool)
    (cost : BitVec w → BitVec w → BitVec w → ℚ) (sym : ∀ n a b, cost n a b = cost n b a) (hpos : 0 < net.length) (hnt : net.length ≤ w)
    (ctx : AContext w)
    (h : prune = false ∨ connectedSubset (adjacency net targets) (fullMask w net.length) = false) :
    ∃ t : CTree, runAdditive cost false ctx (outerProductConnectivity (adjacency net targets) prune (fullMask w net.length)) net.length = some t.rpn ∧
      t.leaves.Perm (List.range net.length) ∧
      ∀ t' : CTree, t'.leaves.Perm (List.range net.length) → t.cost cost ≤ t'.cost cost := by
  have hall : outerProductConnectivity (adjacency net targets) prune (fullMask w net.length) = fun _ => true := by
    unfold outerProductConnectivity
    rcases h with rfl | h
    · rfl
    · rw [h]; cases prune <;> rfl
  rw [hall]
  obtain ⟨t, h1, h2, _, _, h5⟩ := runAdditive_optimal cost sym (fun _ => true) net.length hpos hnt (all_splittable _) rfl ctx
  exact ⟨t, h1, h2, fun t' ht' => h5 t' ht' t'.allConn_true⟩

/-- The intermediates of a tree are connected: no step is an outer product. -/
def CTree.NoOuter {w : Nat} (adj : Nat → BitVec w) : CTree → Prop
  | .leaf _ => True
  | .node l r => Connected adj (l.mask w ||| r.mask w) ∧ l.NoOuter adj ∧ r.NoOuter adj

/-- **C30**: with pruning, for a connected network, the order has the least cost among all contraction trees whose intermediates are all
connected; in particular such a tree exists. -/
theorem single_term_optimal_pruned_partial {w : Nat} {ι : Type} [DecidableEq ι] (net : List (List ι)) (targets : List ι)
    (cost : BitVec w → BitVec w → BitVec w → ℚ) (sym : ∀ n a b, cost n a b = cost n b a) (hpos : 0 < net.length) (hnt : net.length ≤ w)
    (ctx : AContext w) (hc : Connected (adjacency net targets) (fullMask w net.length)) :
    ∃ t : CTree, runAdditive cost false ctx (outerProductConnectivity (adjacency net targets) true (fullMask w net.length)) net.length = some t.rpn ∧
      t.leaves.Perm (List.range net.length) ∧ t.NoOuter (adjacency net targets : Nat → BitVec w) ∧
      ∀ t' : CTree, t'.leaves.Perm (List.range net.length) → t'.NoOuter (adjacency net targets : Nat → BitVec w) → t.cost cost ≤ t'.cost cost := by
  have hsym := adjacency_symm (w := w) net targets hnt
  have hcc := (connectedSubset_iff (adjacency net targets) hsym (fullMask w net.length)).mpr hc
  have hall : outerProductConnectivity (adjacency net targets) true (fullMask w net.length) = connectedSubset (adjacency net targets) := by
    unfold outerProductConnectivity
    rw [hcc]; rfl
  have hno : ∀ t : CTree, t.NoOuter (adjacency net targets : Nat → BitVec w) ↔ t.AllConn (connectedSubset (adjacency net targets : Nat → BitVec w)) := by
    intro t
    induction t with
    | leaf _ => exact Iff.rfl
    | node l r il ir => simp only [CTree.NoOuter, CTree.AllConn, il, ir, connectedSubset_iff _ hsym]
  rw [hall]
  obtain ⟨t, h1, h2, h3, _, h5⟩ := runAdditive_optimal cost sym (connectedSubset (adjacency net targets)) net.length hpos hnt
    (connectedSubset_splittable _ hsym _ hnt) hcc ctx
  exact ⟨t, h1, h2, (hno t).mpr h3, fun t' ht' hn' => h5 t' ht' ((hno t').mp hn')⟩

/-! ### Well-formed sequences (C31) -/

/-- **C31**: removing the contractions from a sequence leaves the tensors in the order of the leaves. -/
theorem CTree.rpn_leaves (t : CTree) : t.rpn.filter (· ≠ -1) = t.leaves.map (Int.ofNat ·) := by
  induction t with
  | leaf i =>
    have : ((i : Int) ≠ -1) := by omega
    simp [CTree.rpn, CTree.leaves, this]
  | node l r il ir => simp only [CTree.rpn, CTree.leaves, List.filter_append, il, ir, List.map_append]; simp

/-- A stack machine: numbers push, -1 combines the two topmost entries. -/
def runStack {α : Type} (push : Nat → α) (comb : α → α → α) : List Int → List α → Option (List α)
  | [], s => some s
  | i :: is, s =>
    if i = -1 then
      match s with
      | r :: l :: s => runStack push comb is (comb l r :: s)
      | _ => none
    else runStack push comb is (push i.toNat :: s)

/-- What the tree denotes. -/
def CTree.fold {α : Type} (push : Nat → α) (comb : α → α → α) : CTree → α
  | .leaf i => push i
  | .node l r => comb (l.fold push comb) (r.fold push comb)

/-- **C31**: running a sequence pushes the value of its tree, and never finds too few operands. -/
theorem runStack_rpn {α : Type} (push : Nat → α) (comb : α → α → α) (t : CTree) : ∀ (rest : List Int) (s : List α),
    runStack push comb (t.rpn ++ rest) s = runStack push comb rest (t.fold push comb :: s) := by
  induction t with
  | leaf i =>
    intro rest s
    have : ((i : Int) ≠ -1) := by omega
    simp [CTree.rpn, runStack, CTree.fold, this]
  | node l r il ir =>
    intro rest s
    simp only [CTree.rpn, List.append_assoc]
    rw [il, ir]
    simp [runStack, CTree.fold]

/-- In a commutative monoid the value of a tree is the product over its leaves. -/
theorem CTree.fold_mul {α : Type} [CommMonoid α] (f : Nat → α) (t : CTree) : t.fold f (· * ·) = (t.leaves.map f).prod := by
  induction t with
  | leaf i => simp [CTree.fold, CTree.leaves]
  | node l r il ir => simp [CTree.fold, CTree.leaves, il, ir]

/-- **C31**: for every network the sequence mentions each tensor exactly once, has one contraction less than tensors, runs without underflow to
exactly one result, and in every commutative interpretation that result is the product of all tensors. -/
theorem single_term_sequence {w : Nat} {ι : Type} [DecidableEq ι] (net : List (List ι)) (targets : List ι) (prune : Bool)
    (cost : BitVec w → BitVec w → BitVec w → ℚ) (sym : ∀ n a b, cost n a b = cost n b a) (hpos : 0 < net.length) (hnt : net.length ≤ w)
    (ctx : AContext w) :
    ∃ seq, runAdditive cost false ctx (outerProductConnectivity (adjacency net targets) prune (fullMask w net.length)) net.length = some seq ∧
      (seq.filter (· ≠ -1)).Perm ((List.range net.length).map (Int.ofNat ·)) ∧ seq.length = 2 * net.length - 1 ∧
      (∀ (α : Type) (push : Nat → α) (comb : α → α → α), ∃ x, runStack push comb seq [] = some [x]) ∧
      ∀ (α : Type) [CommMonoid α] (f : Nat → α), runStack f (· * ·) seq [] = some [((List.range net.length).map f).prod] := by
  obtain ⟨hs, hfull⟩ := connectivity_splittable (adjacency net targets : Nat → BitVec w) (adjacency_symm net targets hnt) prune (fullMask w net.length)
    net.length hnt
  obtain ⟨t, h1, h2, -, -, -⟩ := runAdditive_optimal cost sym _ net.length hpos hnt hs hfull ctx
  refine ⟨t.rpn, h1, ?_, ?_, ?_, ?_⟩
  · rw [t.rpn_leaves]; exact h2.map _
  · have : ∀ t : CTree, t.rpn.length + 1 = 2 * t.leaves.length := by
      intro t
      induction t with
      | leaf i => rfl
      | node l r il ir => simp only [CTree.rpn, CTree.leaves, List.length_append, List.length_singleton]; omega
    have hl := h2.length_eq
    rw [List.length_range] at hl
    have := this t
    omega
  · intro α push comb
    have := runStack_rpn push comb t [] []
    simp only [List.append_nil] at this
    exact ⟨_, by rw [this]; rfl⟩
  · intro α _ f
    have := runStack_rpn f (· * ·) t [] []
    simp only [List.append_nil] at this
    rw [this, t.fold_mul]
    show some _ = _
    rw [(h2.map f).prod_eq]

end SeQuant.Optimize
