import Verif.Optimize.DpLemmas
import Mathlib.Tactic.Linarith
import Mathlib.Tactic.Ring

/-!
# C30, C31: the additive model finds an optimal contraction tree, and its sequence is that tree in postfix order
-/

namespace SeQuant.Optimize

open SeQuant.Bits

/-- Binary contraction trees. -/
inductive CTree where
  | leaf (i : Nat)
  | node (l r : CTree)

namespace CTree

def leaves : CTree → List Nat
  | leaf i => [i]
  | node l r => l.leaves ++ r.leaves

/-- The set of tensors of a tree. -/
def mask (w : Nat) : CTree → BitVec w
  | leaf i => bit i
  | node l r => l.mask w ||| r.mask w

/-- Every tensor number is below `nt` and occurs at most once. -/
def Valid (w nt : Nat) : CTree → Prop
  | leaf i => i < nt
  | node l r => l.Valid w nt ∧ r.Valid w nt ∧ l.mask w &&& r.mask w = 0

/-- No intermediate is ruled out. -/
def AllConn {w : Nat} (conn : BitVec w → Bool) : CTree → Prop
  | leaf _ => True
  | node l r => conn (l.mask w ||| r.mask w) = true ∧ l.AllConn conn ∧ r.AllConn conn

/-- Total cost of all contractions. -/
def cost {w : Nat} (c : BitVec w → BitVec w → BitVec w → ℚ) : CTree → ℚ
  | leaf _ => 0
  | node l r => c (l.mask w ||| r.mask w) (l.mask w) (r.mask w) + l.cost c + r.cost c

/-- Postfix form: numbers of tensors, -1 for a contraction. -/
def rpn : CTree → List Int
  | leaf i => [(i : Int)]
  | node l r => l.rpn ++ r.rpn ++ [-1]

end CTree

theorem CTree.mask_ne_zero {w nt : Nat} (hnt : nt ≤ w) (t : CTree) (ht : t.Valid w nt) : t.mask w ≠ 0 := by
  induction t with
  | leaf i => exact bit_ne_zero (Nat.lt_of_lt_of_le ht hnt)
  | node l r il ir =>
    intro h
    have := il ht.1
    apply this
    apply BitVec.eq_of_getLsbD_eq
    intro i hi
    have : (l.mask w ||| r.mask w).getLsbD i = false := by
      show (CTree.mask w (.node l r)).getLsbD i = false
      rw [h]; simp
    rw [BitVec.getLsbD_or] at this
    simp at this ⊢
    exact this.1

theorem CTree.mask_split {w nt : Nat} (hnt : nt ≤ w) (l r : CTree) (ht : (CTree.node l r).Valid w nt) :
    Split ((CTree.node l r).mask w) (l.mask w) (r.mask w) :=
  ⟨l.mask_ne_zero hnt ht.1, r.mask_ne_zero hnt ht.2.1, ht.2.2, rfl⟩

/-- What the optimizer needs of the subsets it may form: single tensors are allowed, and every other allowed subset is the union of
two smaller allowed ones. -/
structure Splittable {w : Nat} (conn : BitVec w → Bool) (nt : Nat) : Prop where
  single : ∀ i, i < nt → conn (bit i : BitVec w) = true
  split : ∀ n : BitVec w, n.toNat < 2 ^ nt → conn n = true → 2 ≤ popcount n.toNat →
    ∃ a b, Split n a b ∧ conn a = true ∧ conn b = true

/-- The cost of a split in terms of the table. -/
def candidate {w : Nat} (cost : BitVec w → BitVec w → BitVec w → ℚ) (val : BitVec w → ℚ) (n : BitVec w) (p : BitVec w × BitVec w) : ℚ :=
  cost n p.1 p.2 + val p.1 + val p.2

theorem relax_fold {w : Nat} (cost : BitVec w → BitVec w → BitVec w → ℚ) (ctx : AContext w) (conn : BitVec w → Bool) (st : BitVec w → AState w)
    (val : BitVec w → ℚ) (n : BitVec w) (L : List (BitVec w × BitVec w))
    (hv : ∀ p ∈ L, p.1 ≠ 0 ∧ p.2 ≠ 0 ∧ conn p.1 = true ∧ conn p.2 = true → (st p.1).ops = some (val p.1) ∧ (st p.2).ops = some (val p.2)) (acc : AState w) :
    let ok : BitVec w × BitVec w → Prop := fun p => p.1 ≠ 0 ∧ p.2 ≠ 0 ∧ conn p.1 = true ∧ conn p.2 = true
    let res := L.foldl (fun acc p => if p.1 ≠ 0 ∧ p.2 ≠ 0 ∧ conn p.1 ∧ conn p.2 then
      (additive cost false).relax ctx n p.1 p.2 (st p.1) (st p.2) acc else acc) acc
    (∀ p ∈ L, ok p → ∃ v, res.ops = some v ∧ v ≤ candidate cost val n p) ∧
    (∀ v, acc.ops = some v → ∃ v', res.ops = some v' ∧ v' ≤ v) ∧
    (res = acc ∨ ∃ p ∈ L, ok p ∧ res.ops = some (candidate cost val n p) ∧ res.lp = p.1 ∧ res.rp = p.2) := by
  intro ok res
  induction L generalizing acc with
  | nil =>
    refine ⟨by simp, fun v hv => ⟨v, hv, le_refl _⟩, .inl rfl⟩
  | cons p L ih =>
    -- the state after `p`
    let acc' : AState w := if p.1 ≠ 0 ∧ p.2 ≠ 0 ∧ conn p.1 ∧ conn p.2 then
      (additive cost false).relax ctx n p.1 p.2 (st p.1) (st p.2) acc else acc
    have hres : res = L.foldl (fun acc p => if p.1 ≠ 0 ∧ p.2 ≠ 0 ∧ conn p.1 ∧ conn p.2 then
      (additive cost false).relax ctx n p.1 p.2 (st p.1) (st p.2) acc else acc) acc' := rfl
    obtain ⟨i1, i2, i3⟩ := ih (fun q hq => hv q (by simp [hq])) acc'
    rw [← hres] at i1 i2 i3
    by_cases hok : ok p
    · obtain ⟨v1, v2⟩ := hv p (by simp) hok
      have hacc' : acc' = if leMax (some (candidate cost val n p)) acc.ops then ⟨some (candidate cost val n p), p.1, p.2, acc.subnets⟩ else acc := by
        show (if _ then _ else _) = _
        rw [if_pos hok]
        simp only [additive, v1, v2, addMax, candidate, Bool.false_eq_true, if_false]
        rfl
      cases hle : leMax (some (candidate cost val n p)) acc.ops with
      | true =>
        rw [hle, if_pos rfl] at hacc'
        have hge : ∀ v, acc.ops = some v → candidate cost val n p ≤ v := by
          intro v h; rw [h] at hle; simpa [leMax] using hle
        obtain ⟨v', hv', hle'⟩ := i2 (candidate cost val n p) (by rw [hacc'])
        refine ⟨?_, ?_, ?_⟩
        · intro q hq hqok
          simp only [List.mem_cons] at hq
          rcases hq with rfl | hq
          · exact ⟨v', hv', hle'⟩
          · exact i1 q hq hqok
        · intro v hva
          exact ⟨v', hv', le_trans hle' (hge v hva)⟩
        · rcases i3 with h | ⟨q, hq, hq2⟩
          · right; refine ⟨p, by simp, hok, ?_, ?_, ?_⟩ <;> rw [h, hacc']
          · right; exact ⟨q, by simp [hq], hq2⟩
      | false =>
        rw [hle] at hacc'
        simp only [Bool.false_eq_true, if_false] at hacc'
        -- the accumulator holds a smaller number
        have : ∃ v, acc.ops = some v ∧ v ≤ candidate cost val n p := by
          cases h : acc.ops with
          | none => rw [h] at hle; simp [leMax] at hle
          | some v => rw [h] at hle; simp [leMax] at hle; exact ⟨v, rfl, hle.le⟩
        obtain ⟨v, hva, hvle⟩ := this
        rw [hacc'] at i2 i3
        obtain ⟨v', hv', hle'⟩ := i2 v hva
        refine ⟨?_, i2, ?_⟩
        · intro q hq hqok
          simp only [List.mem_cons] at hq
          rcases hq with rfl | hq
          · exact ⟨v', hv', le_trans hle' hvle⟩
          · exact i1 q hq hqok
        · rcases i3 with h | ⟨q, hq, hq2⟩
          · exact .inl h
          · right; exact ⟨q, by simp [hq], hq2⟩
    · have hacc' : acc' = acc := by
        show (if _ then _ else _) = _
        rw [if_neg hok]
      rw [hacc'] at i2 i3
      refine ⟨?_, i2, ?_⟩
      · intro q hq hqok
        simp only [List.mem_cons] at hq
        rcases hq with rfl | hq
        · exact absurd hqok hok
        · exact i1 q hq hqok
      · rcases i3 with h | ⟨q, hq, hq2⟩
        · exact .inl h
        · right; exact ⟨q, by simp [hq], hq2⟩

/-- What is known of a table entry. -/
structure Good {w : Nat} (cost : BitVec w → BitVec w → BitVec w → ℚ) (conn : BitVec w → Bool) (nt : Nat) (st : BitVec w → AState w)
    (n : BitVec w) (v : ℚ) : Prop where
  ops : (st n).ops = some v
  lower : ∀ t : CTree, t.Valid w nt → t.AllConn conn → t.mask w = n → v ≤ t.cost cost
  link : (popcount n.toNat = 1 ∧ v = 0) ∨ (Split n (st n).lp (st n).rp ∧ conn (st n).lp = true ∧ conn (st n).rp = true ∧
    ∃ a b, (st (st n).lp).ops = some a ∧ (st (st n).rp).ops = some b ∧ v = cost n (st n).lp (st n).rp + a + b)

theorem solve_good {w : Nat} (cost : BitVec w → BitVec w → BitVec w → ℚ) (sym : ∀ n a b, cost n a b = cost n b a)
    (conn : BitVec w → Bool) (nt : Nat) (hnt : nt ≤ w) (hs : Splittable conn nt) (ctx : AContext w) :
    ∀ n : BitVec w, n ≠ 0 → n.toNat < 2 ^ nt → conn n = true →
      ∃ v, Good cost conn nt (solve (additive cost false) conn nt ctx AState.dflt).2 n v := by
  have table := solve_table (additive cost false) (fun _ _ _ => rfl) conn nt hnt ctx AState.dflt
  generalize (solve (additive cost false) conn nt ctx AState.dflt).2 = st at table
  have main : ∀ k, ∀ n : BitVec w, n.toNat < k → n ≠ 0 → n.toNat < 2 ^ nt → conn n = true → ∃ v, Good cost conn nt st n v := by
    intro k
    induction k with
    | zero => intro n h; omega
    | succ k ih =>
      intro n hk h0 hn hc
      have ht := table n h0 hn
      unfold entry at ht
      by_cases hp : popcount n.toNat = 1
      · rw [if_pos hp] at ht
        refine ⟨0, by rw [ht]; rfl, ?_, .inl ⟨hp, rfl⟩⟩
        intro t hv _ hm
        cases t with
        | leaf i => exact le_refl _
        | node l r =>
          have := (CTree.mask_split hnt l r hv).popcount_ge
          rw [hm] at this; omega
      · rw [if_neg hp, if_pos hc] at ht
        have hp2 : 2 ≤ popcount n.toNat := by
          have : popcount n.toNat ≠ 0 := by rw [Ne, popcount_eq_zero]; exact h0
          omega
        -- values of smaller subsets
        let val : BitVec w → ℚ := fun p => ((st p).ops).getD 0
        have hval : ∀ a b, Split n a b → conn a = true → ∃ v, Good cost conn nt st a v ∧ val a = v := by
          intro a b hab hca
          have hl := hab.left_lt
          obtain ⟨v, g⟩ := ih a (by omega) hab.left (by omega) hca
          exact ⟨v, g, by simp [val, g.ops]⟩
        have hfold := relax_fold cost ctx conn st val n (bipartitions n) (by
          intro p hp hok
          have hab := split_of_mem hp hok.1 hok.2.1
          obtain ⟨v1, g1, e1⟩ := hval p.1 p.2 hab hok.2.2.1
          obtain ⟨v2, g2, e2⟩ := hval p.2 p.1 hab.symm hok.2.2.2
          exact ⟨by rw [g1.ops, e1], by rw [g2.ops, e2]⟩) ((additive cost false).init ctx n)
        simp only at hfold
        change (st n) = List.foldl _ _ _ at ht
        rw [← ht] at hfold
        obtain ⟨f1, -, f3⟩ := hfold
        obtain ⟨a0, b0, hab0, hca0, hcb0⟩ := hs.split n hn hc hp2
        -- some candidate exists
        have : ∃ v, (st n).ops = some v := by
          rcases hab0.mem_or with h | h
          · obtain ⟨v, hv, -⟩ := f1 (a0, b0) h ⟨hab0.left, hab0.right, hca0, hcb0⟩
            exact ⟨v, hv⟩
          · obtain ⟨v, hv, -⟩ := f1 (b0, a0) h ⟨hab0.right, hab0.left, hcb0, hca0⟩
            exact ⟨v, hv⟩
        obtain ⟨v, hv⟩ := this
        refine ⟨v, hv, ?_, ?_⟩
        · intro t htv htc hm
          cases t with
          | leaf i =>
            exfalso
            apply hp
            rw [← hm, popcount_eq_one_iff]
            exact ⟨i, Nat.lt_of_lt_of_le htv hnt, rfl⟩
          | node l r =>
            have hsp := CTree.mask_split hnt l r htv
            rw [hm] at hsp
            have conn_of : ∀ t : CTree, t.Valid w nt → t.AllConn conn → conn (t.mask w) = true := by
              intro t h1 h2
              cases t with
              | leaf i => exact hs.single i h1
              | node l r => exact h2.1
            have hcl := conn_of l htv.1 htc.2.1
            have hcr := conn_of r htv.2.1 htc.2.2
            obtain ⟨vl, gl, el⟩ := hval _ _ hsp hcl
            obtain ⟨vr, gr, er⟩ := hval _ _ hsp.symm hcr
            have bl := gl.lower l htv.1 htc.2.1 rfl
            have br := gr.lower r htv.2.1 htc.2.2 rfl
            have hcost : (CTree.node l r).cost cost = cost n (l.mask w) (r.mask w) + l.cost cost + r.cost cost := by
              show cost (l.mask w ||| r.mask w) _ _ + _ + _ = _
              rw [show l.mask w ||| r.mask w = n from hm]
            rw [hcost]
            rcases hsp.mem_or with h | h
            · obtain ⟨v', hv', hle⟩ := f1 _ h ⟨hsp.left, hsp.right, hcl, hcr⟩
              rw [hv] at hv'
              obtain rfl : v = v' := by simpa using hv'
              simp only [candidate, el, er] at hle
              linarith
            · obtain ⟨v', hv', hle⟩ := f1 _ h ⟨hsp.right, hsp.left, hcr, hcl⟩
              rw [hv] at hv'
              obtain rfl : v = v' := by simpa using hv'
              simp only [candidate, el, er] at hle
              rw [sym n (l.mask w)]
              linarith
        · right
          rcases f3 with h | ⟨p, hp, hok, h1, h2, h3⟩
          · rw [h] at hv; simp [additive] at hv
          · have hab := split_of_mem hp hok.1 hok.2.1
            obtain ⟨v1, g1, e1⟩ := hval p.1 p.2 hab hok.2.2.1
            obtain ⟨v2, g2, e2⟩ := hval p.2 p.1 hab.symm hok.2.2.2
            rw [h2, h3]
            refine ⟨hab, hok.2.2.1, hok.2.2.2, v1, v2, g1.ops, g2.ops, ?_⟩
            rw [hv] at h1
            simp only [Option.some.injEq] at h1
            rw [h1, candidate, e1, e2]
  intro n h0 hn hc
  exact main (n.toNat + 1) n (by omega) h0 hn hc

/-! ### Reconstruction -/

/-- First tensor of a tree. -/
def CTree.first : CTree → Nat
  | .leaf i => i
  | .node l _ => l.first

/-- In every contraction the operand with the smaller first tensor comes first. -/
def CTree.Ordered : CTree → Prop
  | .leaf _ => True
  | .node l r => l.first ≤ r.first ∧ l.Ordered ∧ r.Ordered

theorem CTree.rpn_cons (t : CTree) : ∃ rest, t.rpn = (t.first : Int) :: rest := by
  induction t with
  | leaf i => exact ⟨[], rfl⟩
  | node l r il ir =>
    obtain ⟨x, hx⟩ := il
    exact ⟨x ++ r.rpn ++ [-1], by simp [CTree.rpn, CTree.first, hx]⟩

theorem reconstruct_good {w : Nat} (cost : BitVec w → BitVec w → BitVec w → ℚ) (sym : ∀ n a b, cost n a b = cost n b a)
    (conn : BitVec w → Bool) (nt : Nat) (hnt : nt ≤ w) (st : BitVec w → AState w)
    (hg : ∀ n : BitVec w, n ≠ 0 → n.toNat < 2 ^ nt → conn n = true → ∃ v, Good cost conn nt st n v)
    (hun : ∀ n : BitVec w, n ≠ 0 → n.toNat < 2 ^ nt → conn n = false → popcount n.toNat ≠ 1 ∧ (st n).lp = 0 ∧ (st n).rp = 0) :
    ∃ seq : BitVec w → List Int, reconstruct st nt = some (seq (BitVec.ofNat w (2 ^ nt - 1))) ∧
      ∀ n : BitVec w, n ≠ 0 → n.toNat < 2 ^ nt → conn n = true → ∃ t : CTree, t.Valid w nt ∧ t.AllConn conn ∧ t.Ordered ∧ t.mask w = n ∧
        seq n = t.rpn ∧ (st n).ops = some (t.cost cost) := by
  have hw : 2 ^ nt ≤ 2 ^ w := Nat.pow_le_pow_right (by omega) hnt
  have key : ∀ k, k ≤ 2 ^ nt → ∃ seq : BitVec w → List Int,
      (List.range k).foldl (fun s i => s.bind fun seq => reconstructStep st seq i) (some fun _ => []) = some seq ∧
      ∀ n : BitVec w, n ≠ 0 → n.toNat < k → conn n = true → ∃ t : CTree, t.Valid w nt ∧ t.AllConn conn ∧ t.Ordered ∧ t.mask w = n ∧
        seq n = t.rpn ∧ (st n).ops = some (t.cost cost) := by
    intro k
    induction k with
    | zero => intro _; exact ⟨fun _ => [], rfl, fun n _ h => by omega⟩
    | succ k ih =>
      intro hk
      obtain ⟨seq, e, hseq⟩ := ih (by omega)
      rw [List.range_succ, List.foldl_append, e, List.foldl_cons, List.foldl_nil, Option.bind_some]
      have hto : (BitVec.ofNat w k).toNat = k := by rw [BitVec.toNat_ofNat, Nat.mod_eq_of_lt (by omega)]
      -- a helper: extending the table at `k`
      have extend : ∀ x : List Int, (∀ n : BitVec w, n = BitVec.ofNat w k → n ≠ 0 → conn n = true → ∃ t : CTree, t.Valid w nt ∧ t.AllConn conn ∧ t.Ordered ∧
          t.mask w = n ∧ x = t.rpn ∧ (st n).ops = some (t.cost cost)) →
          ∀ n : BitVec w, n ≠ 0 → n.toNat < k + 1 → conn n = true → ∃ t : CTree, t.Valid w nt ∧ t.AllConn conn ∧ t.Ordered ∧ t.mask w = n ∧
            Function.update seq (BitVec.ofNat w k) x n = t.rpn ∧ (st n).ops = some (t.cost cost) := by
        intro x hx n h0 hlt hc
        by_cases hnk : n = BitVec.ofNat w k
        · obtain ⟨t, t1, t2, t3, t4, t5, t6⟩ := hx n hnk h0 hc
          exact ⟨t, t1, t2, t3, t4, by rw [hnk, Function.update_self, t5], t6⟩
        · obtain ⟨t, t1, t2, t3, t4, t5, t6⟩ := hseq n h0 (by
            have : n.toNat ≠ k := by intro h; apply hnk; apply BitVec.eq_of_toNat_eq; rw [hto, h]
            omega) hc
          exact ⟨t, t1, t2, t3, t4, by rw [Function.update_of_ne hnk, t5], t6⟩
      unfold reconstructStep
      simp only
      by_cases hp1 : popcount (BitVec.ofNat w k).toNat = 1
      · rw [if_pos hp1]
        refine ⟨_, rfl, extend _ ?_⟩
        rintro n rfl h0 hc
        obtain ⟨v, g⟩ := hg _ h0 (by omega) hc
        obtain ⟨i, hi, hb⟩ := (popcount_eq_one_iff _).mp hp1
        have hint : i < nt := by
          by_contra hge
          have : 2 ^ nt ≤ k := by
            rw [← hto, hb, bit, BitVec.toNat_twoPow]
            rw [Nat.mod_eq_of_lt (Nat.pow_lt_pow_right (by omega) hi)]
            exact Nat.pow_le_pow_right (by omega) (by omega)
          omega
        refine ⟨.leaf i, hint, trivial, trivial, hb.symm, ?_, ?_⟩
        · rw [hb, ctz_bit hi]; rfl
        · rw [g.ops]
          rcases g.link with ⟨-, h⟩ | ⟨hs, _⟩
          · rw [h]; rfl
          · exact absurd hs.popcount_ge (by omega)
      · rw [if_neg hp1]
        by_cases hp2 : 2 ≤ popcount (BitVec.ofNat w k).toNat
        · rw [if_pos hp2]
          have h0 : BitVec.ofNat w k ≠ 0 := by
            intro h; rw [h] at hp2; simp [popcount] at hp2
          cases hc : conn (BitVec.ofNat w k) with
          | false =>
            obtain ⟨-, u1, u2⟩ := hun _ h0 (by omega) hc
            rw [if_pos ⟨u1, u2⟩]
            refine ⟨seq, rfl, ?_⟩
            intro n h0 hlt hcn
            apply hseq n h0 _ hcn
            have : n.toNat ≠ k := by
              intro h
              have : n = BitVec.ofNat w k := by apply BitVec.eq_of_toNat_eq; rw [hto, h]
              rw [this, hc] at hcn; simp at hcn
            omega
          | true =>
            obtain ⟨v, g⟩ := hg _ h0 (by omega) hc
            rcases g.link with h | ⟨hs, c1, c2, a, b, o1, o2, hvv⟩
            · exact absurd h.1 hp1
            · have hl := hs.left_lt
              have hr := hs.right_lt
              rw [if_neg (fun h => hs.left h.1)]
              obtain ⟨t, t1, t2, t3, t4, t5, t6⟩ := hseq _ hs.left (by omega) c1
              obtain ⟨u, u1, u2, u3, u4, u5, u6⟩ := hseq _ hs.right (by omega) c2
              obtain ⟨x, hx⟩ := t.rpn_cons
              obtain ⟨y, hy⟩ := u.rpn_cons
              rw [t5, u5, hx, hy]
              simp only
              refine ⟨_, rfl, extend _ ?_⟩
              rintro n rfl _ _
              rw [← hx, ← hy]
              have ha : a = t.cost cost := by rw [t6] at o1; simpa using o1.symm
              have hb : b = u.cost cost := by rw [u6] at o2; simpa using o2.symm
              have hvv' : v = cost (BitVec.ofNat w k) (t.mask w) (u.mask w) + t.cost cost + u.cost cost := by
                rw [hvv, t4, u4, ha, hb]
              have hun : t.mask w ||| u.mask w = BitVec.ofNat w k := by rw [t4, u4]; exact hs.union
              have hdj : t.mask w &&& u.mask w = 0 := by rw [t4, u4]; exact hs.disj
              by_cases hlt : (t.first : Int) < (u.first : Int)
              · rw [if_pos hlt]
                refine ⟨.node t u, ⟨t1, u1, hdj⟩, ⟨by rw [hun]; exact hc, t2, u2⟩, ⟨by omega, t3, u3⟩, hun, rfl, ?_⟩
                rw [g.ops, hvv']
                simp only [CTree.cost, hun]
              · rw [if_neg hlt]
                have hun' : u.mask w ||| t.mask w = BitVec.ofNat w k := by rw [BitVec.or_comm]; exact hun
                refine ⟨.node u t, ⟨u1, t1, by rw [BitVec.and_comm]; exact hdj⟩, ⟨by rw [hun']; exact hc, u2, t2⟩, ⟨by omega, u3, t3⟩, hun', rfl, ?_⟩
                rw [g.ops, hvv', sym]
                simp only [CTree.cost, hun']
                congr 1; ring
        · rw [if_neg hp2]
          refine ⟨seq, rfl, ?_⟩
          intro n h0 hlt hcn
          apply hseq n h0 _ hcn
          have : n.toNat ≠ k := by
            intro h
            have hnk : n = BitVec.ofNat w k := by apply BitVec.eq_of_toNat_eq; rw [hto, h]
            have : popcount (BitVec.ofNat w k).toNat = 0 := by omega
            rw [popcount_eq_zero] at this
            rw [hnk] at h0; exact h0 this
          omega
  obtain ⟨seq, e, hseq⟩ := key (2 ^ nt) (Nat.le_refl _)
  exact ⟨seq, by rw [reconstruct, e]; rfl, hseq⟩

end SeQuant.Optimize
