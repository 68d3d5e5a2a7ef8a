import Verif.Optimize.ParetoProps
import Verif.Optimize.DpOptimal

/-!
# C47: the peak-memory model finds an order of evaluation with the least peak and, among those, the least cost
-/

namespace SeQuant.Optimize

open SeQuant.Bits

/-! ### Memory of an evaluation sequence -/

/-- All inputs are in memory from the start.  A contraction allocates its result while both operands are present and then releases the operands.
`(stack, resident, peak)`. -/
structure Mem (w : Nat) where
  stack : List (BitVec w)
  resident : ℚ
  peak : ℚ

def memStep {w : Nat} (S : BitVec w → ℚ) (m : Mem w) (x : Int) : Mem w :=
  if 0 ≤ x then { m with stack := bit x.toNat :: m.stack }
  else match m.stack with
    | r :: l :: rest => ⟨(l ||| r) :: rest, m.resident + S (l ||| r) - S l - S r, max m.peak (m.resident + S (l ||| r))⟩
    | _ => m

/-- Most memory ever in use while the sequence is carried out on tensors `0 … nt - 1`. -/
def seqPeak {w : Nat} (S : BitVec w → ℚ) (nt : Nat) (seq : List Int) : ℚ :=
  let total := ((List.range nt).map fun i => S (bit i)).sum
  (seq.foldl (memStep S) ⟨[], total, total⟩).peak

namespace CTree

/-- Size of all inputs. -/
def leafSum {w : Nat} (S : BitVec w → ℚ) (t : CTree) : ℚ := (t.leaves.map fun i => S (bit i)).sum

/-- Peak of a tree whose left operands are evaluated first. -/
def peakOf {w : Nat} (S : BitVec w → ℚ) : CTree → ℚ
  | leaf i => S (bit i)
  | node l r => max (max (r.leafSum S + l.peakOf S) (S (l.mask w) + r.peakOf S)) (S (l.mask w) + S (r.mask w) + S (l.mask w ||| r.mask w))

theorem leafSum_node {w : Nat} (S : BitVec w → ℚ) (l r : CTree) : (node l r).leafSum S = l.leafSum S + r.leafSum S := by
  simp [leafSum, leaves]

theorem le_peakOf {w : Nat} (S : BitVec w → ℚ) (h : ∀ n, 0 ≤ S n) (t : CTree) : S (t.mask w) ≤ t.peakOf S := by
  cases t with
  | leaf i => exact le_refl _
  | node l r =>
    refine le_trans ?_ (le_max_right _ _)
    have := h (l.mask w)
    have := h (r.mask w)
    show S (l.mask w ||| r.mask w) ≤ _
    linarith

theorem peakOf_nonneg {w : Nat} (S : BitVec w → ℚ) (h : ∀ n, 0 ≤ S n) (t : CTree) : 0 ≤ t.peakOf S := le_trans (h _) (t.le_peakOf S h)

theorem run_mem {w : Nat} (S : BitVec w → ℚ) (h : ∀ n, 0 ≤ S n) (t : CTree) (stack : List (BitVec w)) (M P : ℚ) (hP : M + t.leafSum S ≤ P) :
    t.rpn.foldl (memStep S) ⟨stack, M + t.leafSum S, P⟩ = ⟨t.mask w :: stack, M + S (t.mask w), max P (M + t.peakOf S)⟩ := by
  induction t generalizing stack M P with
  | leaf i =>
    have : (leaf i).leafSum S = S (bit i) := by simp [leafSum, leaves]
    rw [this] at hP ⊢
    simp [rpn, memStep, mask, peakOf, max_eq_left hP]
  | node l r il ir =>
    have e1 : M + (node l r).leafSum S = (M + r.leafSum S) + l.leafSum S := by rw [leafSum_node]; ring
    rw [e1] at hP ⊢
    rw [rpn, List.foldl_append, List.foldl_append, il _ _ _ hP]
    have e2 : M + r.leafSum S + S (l.mask w) = (M + S (l.mask w)) + r.leafSum S := by ring
    rw [e2, ir _ _ _ ?_]
    · simp only [List.foldl_cons, List.foldl_nil, memStep]
      rw [if_neg (by omega)]
      simp only [mask, peakOf, Mem.mk.injEq, true_and]
      constructor
      · ring
      · rw [max_assoc, max_assoc]
        congr 1
        rw [← max_add_add_left, ← max_add_add_left, max_assoc]
        simp only [add_assoc]
    · have := l.le_peakOf S h
      refine le_trans ?_ (le_max_right _ _)
      linarith

end CTree

/-- The peak of the sequence of a tree over all tensors. -/
theorem seqPeak_rpn {w nt : Nat} (S : BitVec w → ℚ) (h : ∀ n, 0 ≤ S n) (t : CTree) (ht : t.leaves.Perm (List.range nt)) :
    seqPeak S nt t.rpn = t.peakOf S := by
  have hs : ((List.range nt).map fun i => S (bit i)).sum = t.leafSum S := (ht.map _).sum_eq.symm
  have hle : ∀ t : CTree, t.leafSum S ≤ t.peakOf S := by
    intro t
    induction t with
    | leaf i => simp [CTree.leafSum, CTree.leaves, CTree.peakOf]
    | node l r il ir =>
      rw [CTree.leafSum_node]
      refine le_trans ?_ ((le_max_left _ _).trans (le_max_left _ _))
      linarith
  unfold seqPeak
  simp only [hs]
  have := t.run_mem S h [] 0 (t.leafSum S) (by linarith)
  rw [zero_add] at this
  rw [this]
  simp [max_eq_right (hle t)]

/-! ### Nested insertion loops -/

section covers

variable {w : Nat}

abbrev Dom (a b : FrontPoint w) : Prop := WDom FrontPoint.peak FrontPoint.flops a b

/-- A step that inserts points with property `Q`. -/
structure Inserts (step : List (FrontPoint w) → List (FrontPoint w)) (Q : FrontPoint w → Prop) : Prop where
  mem : ∀ acc x, x ∈ step acc → x ∈ acc ∨ Q x
  old : ∀ acc, ∀ x ∈ acc, ∃ y ∈ step acc, Dom y x
  new : ∀ acc x, Q x → ∃ y ∈ step acc, Dom y x

theorem inserts_one (p : FrontPoint w) : Inserts (fun acc => paretoInsert FrontPoint.peak FrontPoint.flops acc p) (fun x => x = p) where
  mem := by
    intro acc x hx
    simp only [paretoInsert] at hx
    split at hx
    · exact .inl hx
    · rcases List.mem_append.mp hx with hx | hx
      · exact .inl (List.mem_filter.mp hx).1
      · exact .inr (List.mem_singleton.mp hx)
  old := by
    intro acc x hx
    simp only [paretoInsert]
    split
    · exact ⟨x, hx, WDom.refl x⟩
    · by_cases h : Dom p x
      · exact ⟨p, by simp, h⟩
      · refine ⟨x, List.mem_append_left _ (List.mem_filter.mpr ⟨hx, ?_⟩), WDom.refl x⟩
        simp only [Bool.not_eq_true', decide_eq_false_iff_not]
        exact h
  new := by
    rintro acc x rfl
    simp only [paretoInsert]
    split
    · rename_i h
      obtain ⟨e, he, hw⟩ := List.any_eq_true.mp h
      exact ⟨e, he, of_decide_eq_true hw⟩
    · exact ⟨x, by simp, WDom.refl x⟩

theorem inserts_fold {α : Type} (L : List α) (step : α → List (FrontPoint w) → List (FrontPoint w)) (Q : α → FrontPoint w → Prop)
    (h : ∀ a ∈ L, Inserts (step a) (Q a)) : Inserts (fun acc => L.foldl (fun acc a => step a acc) acc) (fun x => ∃ a ∈ L, Q a x) := by
  induction L with
  | nil => exact ⟨fun acc x hx => .inl hx, fun acc x hx => ⟨x, hx, WDom.refl x⟩, fun acc x h => by simp at h⟩
  | cons a L ih =>
    have ha := h a (by simp)
    have hL := ih fun b hb => h b (by simp [hb])
    refine ⟨?_, ?_, ?_⟩
    · intro acc x hx
      rw [List.foldl_cons] at hx
      rcases hL.mem _ x hx with hx | ⟨b, hb, hq⟩
      · rcases ha.mem _ x hx with hx | hx
        · exact .inl hx
        · exact .inr ⟨a, by simp, hx⟩
      · exact .inr ⟨b, by simp [hb], hq⟩
    · intro acc x hx
      rw [List.foldl_cons]
      obtain ⟨y, hy, h1⟩ := ha.old acc x hx
      obtain ⟨z, hz, h2⟩ := hL.old _ y hy
      exact ⟨z, hz, h2.trans h1⟩
    · rintro acc x ⟨b, hb, hq⟩
      rw [List.foldl_cons]
      rcases List.mem_cons.mp hb with rfl | hb
      · obtain ⟨y, hy, h1⟩ := ha.new acc x hq
        obtain ⟨z, hz, h2⟩ := hL.old _ y hy
        exact ⟨z, hz, h2.trans h1⟩
      · exact hL.new _ x ⟨b, hb, hq⟩

/-- A step that is sometimes skipped. -/
theorem inserts_if {step : List (FrontPoint w) → List (FrontPoint w)} {Q : FrontPoint w → Prop} (c : Prop) [Decidable c] (h : c → Inserts step Q) :
    Inserts (fun acc => if c then step acc else acc) (fun x => c ∧ Q x) := by
  by_cases hc : c
  · have := h hc
    refine ⟨?_, ?_, ?_⟩
    · intro acc x hx
      rw [if_pos hc] at hx
      exact (this.mem acc x hx).imp_right fun h => ⟨hc, h⟩
    · intro acc x hx; rw [if_pos hc]; exact this.old acc x hx
    · intro acc x hx; rw [if_pos hc]; exact this.new acc x hx.2
  · refine ⟨?_, ?_, ?_⟩
    · intro acc x hx; rw [if_neg hc] at hx; exact .inl hx
    · intro acc x hx; rw [if_neg hc]; exact ⟨x, hx, WDom.refl x⟩
    · intro acc x hx; exact absurd hx.1 hc

/-- What relaxing inserts. -/
theorem relax_inserts (ctx : PContext w) (n lp rp : BitVec w) (sl sr : List (FrontPoint w)) :
    Inserts (fun acc => peakModel.relax ctx n lp rp sl sr acc)
      (fun x => ∃ i a j b, sl[i]? = some a ∧ sr[j]? = some b ∧ x = frontPoint ctx n lp rp i j a b) := by
  have h : Inserts (fun acc => peakModel.relax ctx n lp rp sl sr acc)
      (fun x => ∃ a ∈ sl.zipIdx, ∃ b ∈ sr.zipIdx, x = frontPoint ctx n lp rp a.2 b.2 a.1 b.1) := by
    apply inserts_fold sl.zipIdx (fun (a : FrontPoint w × Nat) acc => sr.zipIdx.foldl (fun acc b =>
      paretoInsert FrontPoint.peak FrontPoint.flops acc (frontPoint ctx n lp rp a.2 b.2 a.1 b.1)) acc)
      (fun a x => ∃ b ∈ sr.zipIdx, x = frontPoint ctx n lp rp a.2 b.2 a.1 b.1)
    intro a _
    apply inserts_fold sr.zipIdx (fun (b : FrontPoint w × Nat) acc =>
      paretoInsert FrontPoint.peak FrontPoint.flops acc (frontPoint ctx n lp rp a.2 b.2 a.1 b.1))
      (fun b x => x = frontPoint ctx n lp rp a.2 b.2 a.1 b.1)
    intro b _
    exact inserts_one _
  refine ⟨?_, h.old, ?_⟩
  · intro acc x hx
    refine (h.mem acc x hx).imp_right ?_
    rintro ⟨⟨a, i⟩, ha, ⟨b, j⟩, hb, rfl⟩
    exact ⟨i, a, j, b, List.mem_zipIdx_iff_getElem?.mp ha, List.mem_zipIdx_iff_getElem?.mp hb, rfl⟩
  · rintro acc x ⟨i, a, j, b, ha, hb, rfl⟩
    exact h.new acc _ ⟨(a, i), List.mem_zipIdx_iff_getElem?.mpr ha, (b, j), List.mem_zipIdx_iff_getElem?.mpr hb, rfl⟩

theorem relaxAll_inserts (ctx : PContext w) (conn : BitVec w → Bool) (st : BitVec w → List (FrontPoint w)) (n : BitVec w) :
    (∀ x ∈ relaxAll peakModel conn ctx st n, ∃ p ∈ bipartitions n, (p.1 ≠ 0 ∧ p.2 ≠ 0 ∧ conn p.1 = true ∧ conn p.2 = true) ∧
      ∃ i a j b, (st p.1)[i]? = some a ∧ (st p.2)[j]? = some b ∧ x = frontPoint ctx n p.1 p.2 i j a b) ∧
    (∀ p ∈ bipartitions n, (p.1 ≠ 0 ∧ p.2 ≠ 0 ∧ conn p.1 = true ∧ conn p.2 = true) → ∀ i a j b, (st p.1)[i]? = some a → (st p.2)[j]? = some b →
      ∃ y ∈ relaxAll peakModel conn ctx st n, Dom y (frontPoint ctx n p.1 p.2 i j a b)) := by
  have h : Inserts (fun acc => (bipartitions n).foldl (fun acc p => if p.1 ≠ 0 ∧ p.2 ≠ 0 ∧ conn p.1 = true ∧ conn p.2 = true then
      peakModel.relax ctx n p.1 p.2 (st p.1) (st p.2) acc else acc) acc)
      (fun x => ∃ p ∈ bipartitions n, (p.1 ≠ 0 ∧ p.2 ≠ 0 ∧ conn p.1 = true ∧ conn p.2 = true) ∧
        ∃ i a j b, (st p.1)[i]? = some a ∧ (st p.2)[j]? = some b ∧ x = frontPoint ctx n p.1 p.2 i j a b) :=
    inserts_fold (bipartitions n) (fun p acc => if p.1 ≠ 0 ∧ p.2 ≠ 0 ∧ conn p.1 = true ∧ conn p.2 = true then
      peakModel.relax ctx n p.1 p.2 (st p.1) (st p.2) acc else acc)
      (fun p x => (p.1 ≠ 0 ∧ p.2 ≠ 0 ∧ conn p.1 = true ∧ conn p.2 = true) ∧
        ∃ i a j b, (st p.1)[i]? = some a ∧ (st p.2)[j]? = some b ∧ x = frontPoint ctx n p.1 p.2 i j a b)
      fun p _ => inserts_if _ fun _ => relax_inserts ctx n p.1 p.2 (st p.1) (st p.2)
  constructor
  · intro x hx
    rcases h.mem [] x hx with hx | ⟨p, hp, hok, hq⟩
    · simp at hx
    · exact ⟨p, hp, hok, hq⟩
  · intro p hp hok i a j b ha hb
    exact h.new [] _ ⟨p, hp, hok, i, a, j, b, ha, hb, rfl⟩

end covers

/-! ### The table -/

theorem leafTotal_mask {w nt : Nat} (hnt : nt ≤ w) (S : BitVec w → ℚ) (t : CTree) (ht : t.Valid w nt) : leafTotal S nt (t.mask w) = t.leafSum S := by
  have gen : ∀ (L : List Nat) (s : ℚ), L.foldl (fun s b => if (t.mask w).getLsbD b then s + S (bit b) else s) s =
      s + ((L.filter fun b => (t.mask w).getLsbD b).map fun b => S (bit b)).sum := by
    intro L
    induction L with
    | nil => intro s; simp
    | cons b L ih =>
      intro s
      rw [List.foldl_cons, ih]
      cases h : (t.mask w).getLsbD b with
      | true => rw [List.filter_cons_of_pos (by simpa using h)]; simp [add_assoc]
      | false => rw [List.filter_cons_of_neg (by simpa using h)]; simp
  unfold leafTotal
  rw [gen, zero_add, CTree.leafSum]
  apply List.Perm.sum_eq
  apply List.Perm.map
  obtain ⟨h1, h2⟩ := (t.valid_iff hnt).mp ht
  rw [List.perm_ext_iff_of_nodup (List.nodup_range.filter _) h1]
  intro i
  rw [List.mem_filter, List.mem_range, t.mem_leaves hnt h2]
  constructor
  · exact fun h => h.2
  · exact fun h => ⟨h2 i ((t.mem_leaves hnt h2 i).mpr h), h⟩

structure FrontGood {w : Nat} (S : BitVec w → ℚ) (op : BitVec w → BitVec w → BitVec w → ℚ) (conn : BitVec w → Bool) (nt : Nat)
    (st : BitVec w → List (FrontPoint w)) (n : BitVec w) : Prop where
  sound : ∀ i fp, (st n)[i]? = some fp → ∃ t : CTree, t.Valid w nt ∧ t.AllConn conn ∧ t.mask w = n ∧ t.peakOf S = fp.peak ∧ t.cost op = fp.flops ∧
    ∀ fuel, n.toNat < fuel → peakBuild st fuel n i = some t.rpn
  complete : ∀ t : CTree, t.Valid w nt → t.AllConn conn → t.mask w = n → ∃ fp ∈ st n, fp.peak ≤ t.peakOf S ∧ fp.flops ≤ t.cost op

theorem solve_front {w : Nat} (S : BitVec w → ℚ) (op : BitVec w → BitVec w → BitVec w → ℚ) (sym : ∀ n a b, op n a b = op n b a)
    (conn : BitVec w → Bool) (nt : Nat) (hnt : nt ≤ w) (hs : ∀ i, i < nt → conn (bit i : BitVec w) = true) :
    ∀ n : BitVec w, n ≠ 0 → n.toNat < 2 ^ nt → conn n = true →
      FrontGood S op conn nt (solve peakModel conn nt ⟨S, leafTotal S nt, op⟩ []).2 n := by
  have table := solve_table (peakModel (w := w)) (fun _ _ _ => rfl) conn nt hnt ⟨S, leafTotal S nt, op⟩ []
  generalize (solve peakModel conn nt ⟨S, leafTotal S nt, op⟩ []).2 = st at table
  have main : ∀ k, ∀ n : BitVec w, n.toNat < k → n ≠ 0 → n.toNat < 2 ^ nt → conn n = true → FrontGood S op conn nt st n := by
    intro k
    induction k with
    | zero => intro n h; omega
    | succ k ih =>
      intro n hk h0 hn hc
      have ht := table n h0 hn
      unfold entry at ht
      by_cases hp : popcount n.toNat = 1
      · rw [if_pos hp] at ht
        obtain ⟨i, hi, rfl⟩ := (popcount_eq_one_iff n).mp hp
        have hint : i < nt := by
          rw [bit, BitVec.toNat_twoPow, Nat.mod_eq_of_lt (Nat.pow_lt_pow_right (by omega) hi)] at hn
          exact (Nat.pow_lt_pow_iff_right (by omega)).mp hn
        constructor
        · intro j fp hj
          rw [ht] at hj
          have hfp : fp = ⟨S (bit i), 0, 0, 0, true, 0, 0⟩ := by
            have := List.mem_of_getElem? hj
            simpa [peakModel] using this
          subst hfp
          refine ⟨.leaf i, hint, trivial, rfl, rfl, rfl, ?_⟩
          intro fuel hf
          cases fuel with
          | zero => omega
          | succ fuel => rw [peakBuild, if_pos hp, ctz_bit hi]; rfl
        · intro t hv _ hm
          rw [ht]
          refine ⟨⟨S (bit i), 0, 0, 0, true, 0, 0⟩, by simp [peakModel], ?_⟩
          cases t with
          | leaf j =>
            simp only [CTree.peakOf, CTree.cost]
            rw [show bit j = bit i from hm]
            exact ⟨le_refl _, le_refl _⟩
          | node l r =>
            have := (CTree.mask_split hnt l r hv).popcount_ge
            rw [hm] at this; omega
      · rw [if_neg hp, if_pos hc] at ht
        obtain ⟨hmem, hnew⟩ := relaxAll_inserts ⟨S, leafTotal S nt, op⟩ conn st n
        rw [← ht] at hmem hnew
        constructor
        · intro i fp hi
          obtain ⟨p, hpb, hok, i1, a, i2, b, ha, hb, rfl⟩ := hmem fp (List.mem_of_getElem? hi)
          have hab := split_of_mem hpb hok.1 hok.2.1
          have hl := hab.left_lt
          have hr := hab.right_lt
          obtain ⟨t, t1, t2, t3, t4, t5, t6⟩ := (ih p.1 (by omega) hok.1 (by omega) hok.2.2.1).sound i1 a ha
          obtain ⟨u, u1, u2, u3, u4, u5, u6⟩ := (ih p.2 (by omega) hok.2.1 (by omega) hok.2.2.2).sound i2 b hb
          have L1 : leafTotal S nt p.1 = t.leafSum S := by rw [← t3]; exact leafTotal_mask hnt S t t1
          have L2 : leafTotal S nt p.2 = u.leafSum S := by rw [← u3]; exact leafTotal_mask hnt S u u1
          have hun : t.mask w ||| u.mask w = n := by rw [t3, u3]; exact hab.union
          have hun' : u.mask w ||| t.mask w = n := by rw [BitVec.or_comm]; exact hun
          have hdj : t.mask w &&& u.mask w = 0 := by rw [t3, u3]; exact hab.disj
          have pk1 : (CTree.node t u).peakOf S = max (max (leafTotal S nt p.2 + a.peak) (S p.1 + b.peak)) (S p.1 + S p.2 + S (p.1 ||| p.2)) := by
            rw [CTree.peakOf, L2, t4, u4, t3, u3]
          have pk2 : (CTree.node u t).peakOf S = max (max (leafTotal S nt p.1 + b.peak) (S p.2 + a.peak)) (S p.1 + S p.2 + S (p.1 ||| p.2)) := by
            rw [CTree.peakOf, L1, t4, u4, t3, u3, BitVec.or_comm p.2 p.1, add_comm (S p.2) (S p.1)]
          by_cases hle : (CTree.node t u).peakOf S ≤ (CTree.node u t).peakOf S
          · have hd : (frontPoint (w := w) ⟨S, leafTotal S nt, op⟩ n p.1 p.2 i1 i2 a b).lpFirst = true := by
              simp only [frontPoint]
              rw [← pk1, ← pk2]; exact decide_eq_true hle
            refine ⟨.node t u, ⟨t1, u1, hdj⟩, ⟨by rw [hun]; exact hc, t2, u2⟩, hun, ?_, ?_, ?_⟩
            · simp only [frontPoint]
              rw [← pk1, ← pk2, min_eq_left hle]
            · simp only [frontPoint, CTree.cost]
              rw [hun, t5, u5, t3, u3]; ring
            · intro fuel hf
              cases fuel with
              | zero => omega
              | succ fuel =>
                rw [peakBuild, if_neg hp, hi]
                simp only [hd, if_true]
                simp only [frontPoint]
                rw [t6 fuel (by omega), u6 fuel (by omega)]
                rfl
          · have hd : (frontPoint (w := w) ⟨S, leafTotal S nt, op⟩ n p.1 p.2 i1 i2 a b).lpFirst = false := by
              simp only [frontPoint]
              rw [← pk1, ← pk2]; exact decide_eq_false hle
            refine ⟨.node u t, ⟨u1, t1, by rw [BitVec.and_comm]; exact hdj⟩, ⟨by rw [hun']; exact hc, u2, t2⟩, hun', ?_, ?_, ?_⟩
            · simp only [frontPoint]
              rw [← pk1, ← pk2, min_eq_right (le_of_not_ge hle)]
            · simp only [frontPoint, CTree.cost]
              rw [hun', t5, u5, t3, u3, sym]; ring
            · intro fuel hf
              cases fuel with
              | zero => omega
              | succ fuel =>
                rw [peakBuild, if_neg hp, hi]
                simp only [hd, Bool.false_eq_true, if_false]
                simp only [frontPoint]
                rw [t6 fuel (by omega), u6 fuel (by omega)]
                rfl
        · intro t htv htc hm
          cases t with
          | leaf i =>
            exfalso
            apply hp
            rw [← hm, popcount_eq_one_iff]
            exact ⟨i, Nat.lt_of_lt_of_le htv hnt, rfl⟩
          | node l r =>
            have hsp := CTree.mask_split hnt l r htv
            rw [hm] at hsp
            have conn_of : ∀ t : CTree, t.Valid w nt → t.AllConn conn → conn (t.mask w) = true := by
              intro t h1 h2
              cases t with
              | leaf i => exact hs i h1
              | node l r => exact h2.1
            have hcl := conn_of l htv.1 htc.2.1
            have hcr := conn_of r htv.2.1 htc.2.2
            have hll := hsp.left_lt
            have hrl := hsp.right_lt
            obtain ⟨a, ha, a1, a2⟩ := (ih (l.mask w) (by omega) hsp.left (by omega) hcl).complete l htv.1 htc.2.1 rfl
            obtain ⟨b, hb, b1, b2⟩ := (ih (r.mask w) (by omega) hsp.right (by omega) hcr).complete r htv.2.1 htc.2.2 rfl
            obtain ⟨i, hi, ei⟩ := List.mem_iff_getElem.mp ha
            obtain ⟨j, hj, ej⟩ := List.mem_iff_getElem.mp hb
            have ha' : (st (l.mask w))[i]? = some a := by rw [List.getElem?_eq_getElem hi, ei]
            have hb' : (st (r.mask w))[j]? = some b := by rw [List.getElem?_eq_getElem hj, ej]
            have L1 := leafTotal_mask hnt S l htv.1
            have L2 := leafTotal_mask hnt S r htv.2.1
            have hun : l.mask w ||| r.mask w = n := hm
            rcases hsp.mem_or with h | h
            · obtain ⟨y, hy, d1, d2⟩ := hnew _ h ⟨hsp.left, hsp.right, hcl, hcr⟩ i a j b ha' hb'
              refine ⟨y, hy, ?_, ?_⟩
              · refine d1.trans ((min_le_left _ _).trans ?_)
                simp only [CTree.peakOf]
                rw [L2]
                exact max_le_max (max_le_max (by linarith) (by linarith)) (le_refl _)
              · refine d2.trans ?_
                simp only [frontPoint, CTree.cost]
                rw [hun]; linarith
            · obtain ⟨y, hy, d1, d2⟩ := hnew _ h ⟨hsp.right, hsp.left, hcr, hcl⟩ j b i a hb' ha'
              refine ⟨y, hy, ?_, ?_⟩
              · refine d1.trans ((min_le_right _ _).trans ?_)
                simp only [CTree.peakOf]
                rw [L2, BitVec.or_comm (r.mask w)]
                exact max_le_max (max_le_max (by linarith) (by linarith)) (by linarith)
              · refine d2.trans ?_
                simp only [frontPoint, CTree.cost]
                rw [hun, sym n (r.mask w)]; linarith
  intro n h0 hn hc
  exact main (n.toNat + 1) n (by omega) h0 hn hc

/-! ### The choice at the root -/

theorem foldl_min (x : ℚ) (xs : List ℚ) : xs.foldl min x ∈ x :: xs ∧ ∀ y ∈ x :: xs, xs.foldl min x ≤ y := by
  induction xs generalizing x with
  | nil => simp
  | cons z xs ih =>
    rw [List.foldl_cons]
    obtain ⟨h1, h2⟩ := ih (min x z)
    constructor
    · rcases List.mem_cons.mp h1 with h | h
      · rw [h]
        rcases min_choice x z with h | h <;> rw [h] <;> simp
      · simp [h]
    · intro y hy
      have hm := h2 (min x z) (by simp)
      rcases List.mem_cons.mp hy with rfl | hy
      · exact hm.trans (min_le_left _ _)
      · rcases List.mem_cons.mp hy with rfl | hy
        · exact hm.trans (min_le_right _ _)
        · exact h2 y (by simp [hy])

/-- The choice at the root: the least flops among the points whose peak is within the tolerance, and the least peak among those. -/
theorem rootChoice_spec {w : Nat} (tol : ℚ) (htol : 0 ≤ tol) (root : List (FrontPoint w)) (hne : root ≠ []) (hpk : ∀ p ∈ root, 0 ≤ p.peak) :
    ∃ k p m, rootChoice tol root = some k ∧ root[k]? = some p ∧ (∃ q ∈ root, q.peak = m) ∧ (∀ q ∈ root, m ≤ q.peak) ∧ p.peak ≤ m * (1 + tol) ∧
      ∀ q ∈ root, q.peak ≤ m * (1 + tol) → p.flops < q.flops ∨ (p.flops = q.flops ∧ p.peak ≤ q.peak) := by
  cases hm : root.map FrontPoint.peak with
  | nil => simp at hm; exact absurd hm hne
  | cons x xs =>
    obtain ⟨m1, m2⟩ := foldl_min x xs
    rw [← hm] at m1 m2
    generalize hmm : xs.foldl min x = m at m1 m2
    obtain ⟨q0, hq0, hq0m⟩ := List.mem_map.mp m1
    have hm0 : 0 ≤ m := by rw [← hq0m]; exact hpk q0 hq0
    have hmt : m ≤ m * (1 + tol) := by
      have := mul_nonneg hm0 htol
      linarith
    generalize hth : m * (1 + tol) = th at hmt
    have hrc : rootChoice tol root = (List.range root.length).foldl (rootStep th root) none := by
      unfold rootChoice
      rw [hm]
      simp only
      rw [hmm, hth]
    have key : ∀ n, n ≤ root.length → ∃ r, (List.range n).foldl (rootStep th root) none = r ∧
        ((r = none ∧ ∀ i q, i < n → root[i]? = some q → ¬ q.peak ≤ th) ∨ ∃ k p, r = some k ∧ root[k]? = some p ∧ p.peak ≤ th ∧
          ∀ i q, i < n → root[i]? = some q → q.peak ≤ th → p.flops < q.flops ∨ (p.flops = q.flops ∧ p.peak ≤ q.peak)) := by
      intro n
      induction n with
      | zero => intro _; exact ⟨none, rfl, .inl ⟨rfl, by omega⟩⟩
      | succ n ih =>
        intro hn
        obtain ⟨r, e, hr⟩ := ih (by omega)
        rw [List.range_succ, List.foldl_append, e, List.foldl_cons, List.foldl_nil]
        have hx : root[n]? = some (root[n]'(by omega)) := List.getElem?_eq_getElem (by omega)
        generalize root[n]'(by omega) = x at hx
        unfold rootStep
        rw [hx]
        simp only
        have last : ∀ i q, i < n + 1 → root[i]? = some q → i < n ∨ q = x := by
          intro i q hi hq
          rcases Nat.lt_or_ge i n with h | h
          · exact .inl h
          · have : i = n := by omega
            subst this
            rw [hx] at hq
            exact .inr (by simpa using hq.symm)
        by_cases hxp : x.peak ≤ th
        · rw [if_pos hxp]
          rcases hr with ⟨rfl, hr⟩ | ⟨k, p, rfl, hk, hpt, hr⟩
          · refine ⟨_, rfl, .inr ⟨n, x, rfl, hx, hxp, ?_⟩⟩
            intro i q hi hq hqt
            rcases last i q hi hq with h | rfl
            · exact absurd hqt (hr i q h hq)
            · exact .inr ⟨rfl, le_refl _⟩
          · simp only [hk]
            by_cases hb : x.flops < p.flops ∨ (x.flops = p.flops ∧ x.peak < p.peak)
            · rw [if_pos hb]
              refine ⟨_, rfl, .inr ⟨n, x, rfl, hx, hxp, ?_⟩⟩
              intro i q hi hq hqt
              rcases last i q hi hq with h | rfl
              · rcases hr i q h hq hqt with h1 | ⟨h1, h2⟩ <;> rcases hb with h3 | ⟨h3, h4⟩
                · exact .inl (by linarith)
                · exact .inl (by linarith)
                · exact .inl (by linarith)
                · exact .inr ⟨h3.trans h1, by linarith⟩
              · exact .inr ⟨rfl, le_refl _⟩
            · rw [if_neg hb]
              refine ⟨_, rfl, .inr ⟨k, p, rfl, hk, hpt, ?_⟩⟩
              intro i q hi hq hqt
              rcases last i q hi hq with h | rfl
              · exact hr i q h hq hqt
              · rcases lt_trichotomy p.flops q.flops with h | h | h
                · exact .inl h
                · exact .inr ⟨h, by
                    by_contra hc
                    exact hb (.inr ⟨h.symm, by linarith⟩)⟩
                · exact absurd (.inl h) hb
        · rw [if_neg hxp]
          rcases hr with ⟨rfl, hr⟩ | ⟨k, p, rfl, hk, hpt, hr⟩
          · refine ⟨_, rfl, .inl ⟨rfl, ?_⟩⟩
            intro i q hi hq
            rcases last i q hi hq with h | rfl
            · exact hr i q h hq
            · exact hxp
          · refine ⟨_, rfl, .inr ⟨k, p, rfl, hk, hpt, ?_⟩⟩
            intro i q hi hq hqt
            rcases last i q hi hq with h | rfl
            · exact hr i q h hq hqt
            · exact absurd hqt hxp
    obtain ⟨r, e, hr⟩ := key root.length (le_refl _)
    have memIdx : ∀ q ∈ root, ∃ i, i < root.length ∧ root[i]? = some q := by
      intro q hq
      obtain ⟨i, hi, rfl⟩ := List.mem_iff_getElem.mp hq
      exact ⟨i, hi, List.getElem?_eq_getElem hi⟩
    rcases hr with ⟨rfl, hr⟩ | ⟨k, p, rfl, hk, hpt, hr⟩
    · obtain ⟨i, hi, hq⟩ := memIdx q0 hq0
      exact absurd (by rw [hq0m]; exact hmt) (hr i q0 hi hq)
    · refine ⟨k, p, m, by rw [hrc, e], hk, ⟨q0, hq0, hq0m⟩, fun q hq => m2 _ (List.mem_map.mpr ⟨q, hq, rfl⟩), by rw [hth]; exact hpt, ?_⟩
      intro q hq hqt
      obtain ⟨i, hi, hqi⟩ := memIdx q hq
      exact hr i q hi hqi (by rw [hth] at hqt; exact hqt)

/-! ### Optimality -/

/-- **C47**: for every number of tensors, sizes of intermediates and tolerance, the returned sequence carries out a contraction tree over all
tensors, in an order such that with `m` the least peak memory of all orders of all (allowed) trees its peak is at most `m * (1 + tol)`, and no tree and
order within that bound costs less. -/
theorem runPeak_optimal {w : Nat} (tol : ℚ) (htol : 0 ≤ tol) (S : BitVec w → ℚ) (hS : ∀ n, 0 ≤ S n) (op : BitVec w → BitVec w → BitVec w → ℚ)
    (sym : ∀ n a b, op n a b = op n b a) (conn : BitVec w → Bool) (nt : Nat) (hpos : 0 < nt) (hnt : nt ≤ w) (hs : Splittable conn nt)
    (hfull : conn (fullMask w nt) = true) :
    ∃ t : CTree, ∃ m : ℚ, runPeak tol S op conn nt = some t.rpn ∧ t.leaves.Perm (List.range nt) ∧ t.AllConn conn ∧
      (∃ t' : CTree, t'.leaves.Perm (List.range nt) ∧ t'.AllConn conn ∧ seqPeak S nt t'.rpn = m) ∧
      (∀ t' : CTree, t'.leaves.Perm (List.range nt) → t'.AllConn conn → m ≤ seqPeak S nt t'.rpn) ∧
      seqPeak S nt t.rpn ≤ m * (1 + tol) ∧
      ∀ t' : CTree, t'.leaves.Perm (List.range nt) → t'.AllConn conn → seqPeak S nt t'.rpn ≤ m * (1 + tol) → t.cost op ≤ t'.cost op := by
  have le_tol : ∀ m : ℚ, 0 ≤ m → m ≤ m * (1 + tol) := by
    intro m hm
    have := mul_nonneg hm htol
    linarith
  -- when all trees have the same peak and cost
  have trivialCase : ∀ t : CTree, t.leaves.Perm (List.range nt) → t.AllConn conn →
      (∀ t' : CTree, t'.leaves.Perm (List.range nt) → t'.peakOf S = t.peakOf S ∧ t.cost op = t'.cost op) → runPeak tol S op conn nt = some t.rpn →
      ∃ t : CTree, ∃ m : ℚ, runPeak tol S op conn nt = some t.rpn ∧ t.leaves.Perm (List.range nt) ∧ t.AllConn conn ∧
      (∃ t' : CTree, t'.leaves.Perm (List.range nt) ∧ t'.AllConn conn ∧ seqPeak S nt t'.rpn = m) ∧
      (∀ t' : CTree, t'.leaves.Perm (List.range nt) → t'.AllConn conn → m ≤ seqPeak S nt t'.rpn) ∧
      seqPeak S nt t.rpn ≤ m * (1 + tol) ∧
      ∀ t' : CTree, t'.leaves.Perm (List.range nt) → t'.AllConn conn → seqPeak S nt t'.rpn ≤ m * (1 + tol) → t.cost op ≤ t'.cost op := by
    intro t h1 h2 h3 h4
    refine ⟨t, t.peakOf S, h4, h1, h2, ⟨t, h1, h2, seqPeak_rpn S hS t h1⟩, ?_, ?_, ?_⟩
    · intro t' ht' _
      rw [seqPeak_rpn S hS t' ht', (h3 t' ht').1]
    · rw [seqPeak_rpn S hS t h1]; exact le_tol _ (t.peakOf_nonneg S hS)
    · intro t' ht' _ _
      exact (h3 t' ht').2.le
  by_cases h1 : nt = 1
  · subst h1
    refine trivialCase (.leaf 0) (List.Perm.refl _) trivial ?_ (by simp [runPeak, CTree.rpn])
    intro t' ht'
    cases t' with
    | leaf i =>
      have : i ∈ List.range 1 := ht'.mem_iff.mp (by simp [CTree.leaves])
      rw [List.mem_range] at this
      have : i = 0 := by omega
      subst this
      exact ⟨rfl, rfl⟩
    | node l r =>
      have := ht'.length_eq
      have := l.leaves_pos
      have := r.leaves_pos
      simp only [CTree.leaves, List.length_append, List.length_range] at *
      omega
  by_cases h2 : nt = 2
  · subst h2
    have hm : (CTree.node (.leaf 0) (.leaf 1)).mask w = fullMask w 2 :=
      ((CTree.full_iff hnt (CTree.node (.leaf 0) (.leaf 1))).mpr (List.Perm.refl _)).2
    refine trivialCase (.node (.leaf 0) (.leaf 1)) (List.Perm.refl _) ⟨?_, trivial, trivial⟩ ?_ (by simp [runPeak, CTree.rpn])
    · rw [show ((CTree.leaf 0).mask w ||| (CTree.leaf 1).mask w) = fullMask w 2 from hm]; exact hfull
    · intro t' ht'
      have hlen := ht'.length_eq
      cases t' with
      | leaf i => simp [CTree.leaves] at hlen
      | node l r =>
        have hl := l.leaves_pos
        have hr := r.leaves_pos
        cases l with
        | node a b =>
          have := a.leaves_pos
          have := b.leaves_pos
          simp only [CTree.leaves, List.length_append, List.length_range] at *
          omega
        | leaf i =>
          cases r with
          | node a b =>
            have := a.leaves_pos
            have := b.leaves_pos
            simp only [CTree.leaves, List.length_append, List.length_range, List.length_singleton] at *
            omega
          | leaf j =>
            have hi : i ∈ List.range 2 := ht'.mem_iff.mp (by simp [CTree.leaves])
            have hj : j ∈ List.range 2 := ht'.mem_iff.mp (by simp [CTree.leaves])
            have hne : i ≠ j := by
              have := ht'.nodup_iff.mpr List.nodup_range
              simp [CTree.leaves] at this
              exact this
            simp only [List.mem_range] at hi hj
            have : (i = 0 ∧ j = 1) ∨ (i = 1 ∧ j = 0) := by omega
            rcases this with ⟨rfl, rfl⟩ | ⟨rfl, rfl⟩
            · exact ⟨rfl, rfl⟩
            · simp only [CTree.peakOf, CTree.cost, CTree.mask, CTree.leafSum, CTree.leaves, List.map_cons, List.map_nil, List.sum_singleton]
              rw [sym, BitVec.or_comm (bit 1), add_comm (S (bit 1)) (S (bit 0)), add_comm (S (bit 0)) (S (bit 1))]
              exact ⟨rfl, rfl⟩
  have front := solve_front S op sym conn nt hnt hs.single (fullMask w nt) (fullMask_ne hnt hpos) (fullMask_lt hnt) hfull
  have hrun : runPeak tol S op conn nt = (rootChoice tol ((solve peakModel conn nt ⟨S, leafTotal S nt, op⟩ []).2 (fullMask w nt))).bind
      fun best => peakBuild (solve peakModel conn nt ⟨S, leafTotal S nt, op⟩ []).2 (2 ^ nt) (fullMask w nt) best := by
    unfold runPeak
    rw [if_neg h1, if_neg h2]
    rfl
  generalize (solve peakModel conn nt ⟨S, leafTotal S nt, op⟩ []).2 = st at front hrun
  -- some tree exists
  obtain ⟨t0, -, p0, c0, -, -⟩ := runAdditive_optimal op sym conn nt hpos hnt hs hfull ⟨fun _ => 0, fun _ => 0⟩
  have toMask : ∀ t : CTree, t.leaves.Perm (List.range nt) → t.Valid w nt ∧ t.mask w = fullMask w nt := fun t h => (t.full_iff hnt).mpr h
  obtain ⟨f0, hf0, -, -⟩ := front.complete t0 (toMask t0 p0).1 c0 (toMask t0 p0).2
  have hne : st (fullMask w nt) ≠ [] := by intro h; rw [h] at hf0; simp at hf0
  have treeOf : ∀ q ∈ st (fullMask w nt), ∃ t : CTree, t.leaves.Perm (List.range nt) ∧ t.AllConn conn ∧ seqPeak S nt t.rpn = q.peak ∧ t.cost op = q.flops := by
    intro q hq
    obtain ⟨i, hi, rfl⟩ := List.mem_iff_getElem.mp hq
    obtain ⟨t, a1, a2, a3, a4, a5, -⟩ := front.sound i _ (List.getElem?_eq_getElem hi)
    have hp := (t.full_iff hnt).mp ⟨a1, a3⟩
    exact ⟨t, hp, a2, by rw [seqPeak_rpn S hS t hp, a4], a5⟩
  obtain ⟨k, p, m, e1, e2, ⟨q0, hq0, hq0m⟩, e3, e4, e5⟩ := rootChoice_spec tol htol (st (fullMask w nt)) hne (by
    intro q hq
    obtain ⟨t, a1, a2, a3, a4⟩ := treeOf q hq
    rw [← a3, seqPeak_rpn S hS t a1]
    exact t.peakOf_nonneg S hS)
  obtain ⟨t, a1, a2, a3, a4, a5, a6⟩ := front.sound k p e2
  have hp := (t.full_iff hnt).mp ⟨a1, a3⟩
  refine ⟨t, m, ?_, hp, a2, ?_, ?_, ?_, ?_⟩
  · rw [hrun, e1, Option.bind_some, a6 _ (fullMask_lt hnt)]
  · obtain ⟨t', b1, b2, b3, -⟩ := treeOf q0 hq0
    exact ⟨t', b1, b2, b3.trans hq0m⟩
  · intro t' ht' hc'
    obtain ⟨f, hf, f1, -⟩ := front.complete t' (toMask t' ht').1 hc' (toMask t' ht').2
    rw [seqPeak_rpn S hS t' ht']
    exact (e3 f hf).trans f1
  · rw [seqPeak_rpn S hS t hp, a4]; exact e4
  · intro t' ht' hc' hle
    rw [seqPeak_rpn S hS t' ht'] at hle
    obtain ⟨f, hf, f1, f2⟩ := front.complete t' (toMask t' ht').1 hc' (toMask t' ht').2
    rw [a5]
    rcases e5 f hf (f1.trans hle) with h | ⟨h, -⟩ <;> linarith

/-- Three tensors: combining the two small ones first has the lower peak. -/
example : runPeak 0 (fun n : BitVec 8 => if n = 7 then 1 else if n = 3 then 50 else if n = 6 then 2 else if n = 5 then 50 else 10) (fun _ _ _ => 1) (fun _ => true) 3 =
    some [0, 1, 2, -1, -1] ∧
    seqPeak (fun n : BitVec 8 => if n = 7 then 1 else if n = 3 then 50 else if n = 6 then 2 else if n = 5 then 50 else 10) 3 [0, 1, 2, -1, -1] = 32 ∧
    seqPeak (fun n : BitVec 8 => if n = 7 then 1 else if n = 3 then 50 else if n = 6 then 2 else if n = 5 then 50 else 10) 3 [0, 1, -1, 2, -1] = 80 := by
  decide +kernel

end SeQuant.Optimize
