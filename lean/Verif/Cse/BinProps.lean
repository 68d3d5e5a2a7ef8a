import Verif.Cse.ValueProps
import Verif.Cse.ExprProps
import Verif.Binarize.Props

/-!
# Subexpression elimination with `binarize` (C75, C76)
-/

namespace SeQuant.Cse

open SeQuant.Eval SeQuant.Binarize SeQuant.Optimize

variable {L ι K H G S : Type} [DecidableEq ι] [CommRing K] [Star K] [DecidableEq K]

variable {D : Store L ι S K} {cfg : Cfg L ι K H G}

omit [DecidableEq ι] [Star K] [DecidableEq K] in
theorem binTen_idx (hc : ∀ t : Ten L ι, (canonTen cfg t).idx.Perm t.idx) {t : Ten L ι} {x : Node L ι K H G} (h : binTen cfg t = some x) :
    x.label.idx.Perm t.idx := by
  have hl : ∀ {t : Ten L ι} {x : Node L ι K H G}, leafTen cfg t = some x → x.label.idx.Perm t.idx := by
    intro t x h
    unfold leafTen at h
    by_cases h0 : t.idx = []
    · simp [h0] at h
    · rw [if_neg h0, Option.some.injEq] at h
      rw [← h]
      exact hc t
  unfold binTen at h
  by_cases ha : t.adj = true
  · rw [if_pos ha] at h
    cases hx : (leafTen cfg t.adjoint : Option (Node L ι K H G)) with
    | none => simp [hx] at h
    | some b =>
      simp only [hx, Option.some.injEq] at h
      rw [← h]
      exact List.Perm.refl _
  · rw [if_neg ha] at h
    exact hl h

omit [DecidableEq K] in
theorem nodeVal_rename (D : Store L ι S K) (b : EE L ι K H G) (x : NX L ι K) (l r : Node L ι K H G) :
    nodeVal D (.node { b with expr := x } l r) = nodeVal D (.node b l r) := by
  funext ρ
  unfold nodeVal nodeArr
  cases hb : b.op <;> simp only [plain, hb, arrays, ETree.label]

/-- The tree for a result has the value of the expression and the name of the result. -/
theorem binRes_value (hc : Lawful cfg) {r : NX L ι K} {e : Ex L ι K} {m : Node L ι K H G} (h : binRes cfg r e = some m)
    (hw : WF D cfg (NX.idx r).toFinset e) (hn : (NX.idx r).Nodup) (hi : openOf (NX.idx r).toFinset (slots (NX.idx r).toFinset e) = (NX.idx r).toFinset) :
    m.label.expr = r ∧ m.label.idx.toFinset = (NX.idx r).toFinset ∧ nodeVal D m = value D (NX.idx r).toFinset e := by
  obtain ⟨n, hb, inv⟩ := bin_inv hc _ e hw
  unfold binRes at h
  rw [hb] at h
  simp only at h
  have key : ∀ a l' r', wrap cfg r n = some (.node a l' r') → a.idx.toFinset = (NX.idx r).toFinset ∧
      ∀ ex, nodeVal D (.node { a with expr := ex } l' r' : Node L ι K H G) = value D (NX.idx r).toFinset e := by
    intro a l' r' hwr
    cases n with
    | node b l₁ r₁ =>
      rw [wrap, Option.some.injEq, ETree.node.injEq] at hwr
      obtain ⟨rfl, rfl, rfl⟩ := hwr
      · refine ⟨inv.idx.trans hi, fun ex => ?_⟩
        exact (nodeVal_rename D b ex l₁ r₁).trans inv.val
      · rintro x hx
        cases hx
    | leaf b =>
      have hv : nodeVal D (.leaf b : Node L ι K H G) = value D (NX.idx r).toFinset e := inv.val
      have hidx : b.idx.toFinset = (NX.idx r).toFinset := inv.idx.trans hi
      have hprod : ∀ (a : EE L ι K H G), a.op = .prod → a.idx.toFinset = (NX.idx r).toFinset →
          nodeVal D (.node a (.leaf b) (leafConst cfg 1) : Node L ι K H G) = value D (NX.idx r).toFinset e := by
        intro a ha hi'
        rw [nodeVal_prod D _ _ _ ha]
        have e0 : ((ETree.leaf b : Node L ι K H G).label.idx.toFinset ∪ (leafConst cfg 1 : Node L ι K H G).label.idx.toFinset) \ a.idx.toFinset = ∅ := by
          simp only [leafConst, ETree.label, List.toFinset_nil, Finset.union_empty]
          rw [hi', hidx]; simp
        rw [e0, Finset.toList_empty]
        funext ρ
        simp only [sumL]
        rw [hv]
        have : nodeVal D (leafConst cfg 1 : Node L ι K H G) ρ = 1 := by simp [nodeVal, nodeArr, plain, arrays, leafConst]
        rw [this, mul_one]
      cases r with
      | const c => simp [wrap] at hwr
      | var v =>
        simp only [wrap, Option.some.injEq, ETree.node.injEq] at hwr
        obtain ⟨rfl, rfl, rfl⟩ := hwr
        have hi' : ({ (leafVar cfg v : Node L ι K H G).label with op := .prod } : EE L ι K H G).idx.toFinset = (NX.idx (.var v : NX L ι K)).toFinset := rfl
        exact ⟨hi', fun ex => hprod _ rfl hi'⟩
      | ten t =>
        simp only [wrap] at hwr
        cases hx : binTen cfg t with
        | none => simp [hx] at hwr
        | some x =>
          simp only [hx, Option.some.injEq, ETree.node.injEq] at hwr
          obtain ⟨rfl, rfl, rfl⟩ := hwr
          have hi' : x.label.idx.toFinset = (NX.idx (.ten t : NX L ι K)).toFinset := List.toFinset_eq_of_perm _ _ (binTen_idx hc.canon_idx hx)
          exact ⟨hi', fun ex => hprod _ rfl hi'⟩
  cases hwr : wrap cfg r n with
  | none => simp [hwr] at h
  | some w =>
    simp only [hwr] at h
    cases w with
    | leaf b => simp [rename] at h
    | node a l' r' =>
      obtain ⟨k1, k2⟩ := key a l' r' hwr
      cases hx : a.expr <;> cases r <;> simp only [rename, hx, Option.some.injEq, reduceCtorEq] at h
      · rw [← h]
        exact ⟨rfl, k1, k2 _⟩
      · rw [← h]
        exact ⟨rfl, k1, k2 _⟩

/-- The name of a subexpression is not rearranged. -/
def Plain (cfg : Cfg L ι K H G) : Prop := cfg.cn ⟨.nonsymm, false, false, [], []⟩ = (none, ⟨.nonsymm, false, false, [], []⟩)

/-- A tensor made for the name of a subexpression. -/
def nameTen (lbl : L) (l : List ι) : Ten L ι := ⟨lbl, false, ⟨.nonsymm, false, false, [], []⟩, l⟩

omit [DecidableEq ι] [DecidableEq K] in
theorem nameTen_good (hp : Plain cfg) (lbl : L) (l : List ι) : leafPhase cfg (bare (nameTen lbl l)) = 1 ∧ DataSymm D cfg (bare (nameTen lbl l)) := by
  have hb : bare (nameTen lbl l) = nameTen lbl l := rfl
  have h1 : leafPhase cfg (nameTen lbl l) = 1 := by
    have : cfg.cn (nameTen lbl l).s = (none, (nameTen lbl l).s) := hp
    simp [leafPhase, this]
  have h2 : canonTen cfg (nameTen lbl l) = nameTen lbl l := by
    have : cfg.cn (nameTen lbl l).s = (none, (nameTen lbl l).s) := hp
    simp [canonTen, this]
  rw [hb]
  refine ⟨h1, fun ρ => ?_⟩
  rw [h1, h2, Int.cast_one, one_mul]

omit [DecidableEq ι] in
theorem nameTen_idx (lbl : L) (l : List ι) : (nameTen lbl l).idx = l := by simp [nameTen, Ten.idx]

/-- The value of the expression that takes the place of a subexpression. -/
theorem scaledBy_value (V : Finset ι) (p : Int) (x : NX L ι K) (hn : (NX.idx x).Nodup) :
    slots V (scaledBy p x) = NX.idx x ∧ value D V (scaledBy p x) = fun ρ => (p : K) * nxVal D x ρ := by
  have e1 : ∀ W : Finset ι, slots W (ofNX x) = NX.idx x := by
    intro W
    cases x <;> simp [ofNX, slots, NX.idx]
  have e2 : ∀ W : Finset ι, body D W (ofNX x) = nxVal D x := by
    intro W
    cases x <;> simp [ofNX, body, nxVal]
  unfold scaledBy
  by_cases h1 : p = 1
  · rw [if_pos h1, h1]
    refine ⟨e1 V, ?_⟩
    rw [value, e1, dummies_nodup hn, Finset.toList_empty, e2]
    funext ρ
    simp [sumL]
  · rw [if_neg h1]
    have e3 : slots V (.prod (p : K) [ofNX x]) = NX.idx x := by simp only [slots, slotsProd, e1, List.append_nil]
    refine ⟨e3, ?_⟩
    rw [value, e3, dummies_nodup hn, Finset.toList_empty]
    funext ρ
    simp only [sumL, body, bodyProd, e2, mul_one]

omit [DecidableEq K] in
theorem scaledBy_wf (hp : Plain cfg) (V : Finset ι) (p : Int) (x : NX L ι K)
    (hx : (∃ v, x = .var v) ∨ ∃ lbl l, x = .ten (nameTen lbl l) ∧ l ≠ [] ∧ l.Nodup) : WF D cfg V (scaledBy p x) := by
  have hw : ∀ W : Finset ι, WF D cfg W (ofNX x) := by
    intro W
    rcases hx with ⟨v, rfl⟩ | ⟨lbl, l, rfl, h0, hn⟩
    · rw [ofNX, WF]; trivial
    · rw [ofNX, WF, nameTen_idx]
      exact ⟨h0, hn, nameTen_good hp lbl l⟩
  unfold scaledBy
  by_cases h1 : p = 1
  · rw [if_pos h1]; exact hw V
  · rw [if_neg h1, WF, WFProd, WFProd]
    exact ⟨hw _, trivial⟩

variable {sp : ι → S} {le : S → S → Bool}

omit [CommRing K] [Star K] [DecidableEq K] in
theorem cseName_idx (lbl : L) (n : Node L ι K H G) (h0 : n.label.isTensor = false → n.label.idx = []) :
    (NX.idx (cseName (sortBy sp le) lbl n)).Perm n.label.idx := by
  cases hx : n.label.isTensor with
  | false => rw [cseName_scalar hx, h0 hx]; exact List.Perm.refl _
  | true =>
    rw [cseName_tensor hx]
    have : (NX.idx (NX.ten (nameTen lbl (sortBy sp le n.label.idx)) : NX L ι K)) = sortBy sp le n.label.idx := nameTen_idx _ _
    exact (List.Perm.of_eq this).trans (sortBy_perm sp le _)

omit [CommRing K] [Star K] [DecidableEq K] in
theorem cseName_kind (lbl : L) (n : Node L ι K H G) (hn : n.label.idx.Nodup) (h0 : n.label.isTensor = true → n.label.idx ≠ []) :
    (∃ v, cseName (sortBy sp le) lbl n = .var v) ∨ ∃ lbl' l, cseName (sortBy sp le) lbl n = .ten (nameTen lbl' l) ∧ l ≠ [] ∧ l.Nodup := by
  cases hx : n.label.isTensor with
  | false => exact Or.inl ⟨lbl, cseName_scalar hx⟩
  | true =>
    refine Or.inr ⟨lbl, sortBy sp le n.label.idx, cseName_tensor hx, ?_, (sortBy_perm sp le _).nodup_iff.2 hn⟩
    intro h
    exact h0 hx (List.Perm.eq_nil ((h ▸ sortBy_perm sp le n.label.idx).symm))

/-- What is needed of the trees for `binarize`: the expression of every inner node is well-formed and has the value of the node. -/
structure BinLaws (cfg : Cfg L ι K H G) (P : Store L ι S K → Prop) (ts : List (Node L ι K H G)) : Prop where
  lawful : Lawful cfg
  plain : Plain cfg
  nodup : ∀ t ∈ ts, ∀ n ∈ inner t, n.label.idx.Nodup
  fits : ∀ t ∈ ts, ∀ n ∈ inner t, ∀ D, P D → Fits D n.label.idx.toFinset n
  clean : ∀ t ∈ ts, ∀ n ∈ inner t, Clean n
  wf : ∀ t ∈ ts, ∀ n ∈ inner t, ∀ D, P D → ∀ e, toExpr n = some e → WF D cfg n.label.idx.toFinset e
  kind : ∀ t ∈ ts, ∀ n ∈ inner t, n.label.isTensor = true ↔ n.label.idx ≠ []
  /-- The name of a tree that is a subexpression itself has the indices of the tree. -/
  root : ∀ n ∈ ts, n ∈ inner n → (NX.idx n.label.expr).Perm n.label.idx

/-- `binarize` keeps values as subexpression elimination needs it. -/
theorem binTrans_laws {o : Opts L ι K H G} {P : Store L ι S K → Prop} {ts : List (Node L ι K H G)} (hb : BinLaws cfg P ts)
    (htr : o.tr = binTrans cfg) (hs : o.sortIdx = sortBy sp le) (space : ∀ D, P D → D.sp = sp)
    (sign : ∀ t ∈ ts, ∀ n ∈ inner t, n.label.phase * n.label.phase = 1) (nested : ∀ t ∈ ts, ∀ n ∈ inner t, Nested n)
    (coh : ∀ t ∈ ts, ∀ n ∈ inner t, ∀ u ∈ ts, ∀ m ∈ inner u, o.eqName m n = true → m.label.isTensor = n.label.isTensor ∧
      m.label.idx.map sp = n.label.idx.map sp ∧ ∀ D, P D → ∀ p, (m.label.phase : K) * nodeArr D m p = (n.label.phase : K) * nodeArr D n p)
    (hne : ∃ D, P D) : Laws o sp P ts := by
  have scalar : ∀ t ∈ ts, ∀ n ∈ inner t, n.label.isTensor = false → n.label.idx = [] := by
    intro t ht n hn hx
    by_contra h
    rw [(hb.kind t ht n hn).2 h] at hx
    exact absurd hx (by simp)
  refine ⟨space, fun t ht n hn => ⟨hb.nodup t ht n hn, scalar t ht n hn, sign t ht n hn⟩, nested, ?_, ?_, ?_, coh⟩
  · intro t ht n hn lbl m h
    rw [htr, hs] at h
    rw [hs]
    change bin cfg ∅ (scaledBy n.label.phase (cseName (sortBy sp le) lbl n)) = some m at h
    have hi := cseName_idx (sp := sp) (le := le) lbl n (scalar t ht n hn)
    have hnd := hi.nodup_iff.2 (hb.nodup t ht n hn)
    have hw : ∀ D : Store L ι S K, WF D cfg ∅ (scaledBy n.label.phase (cseName (sortBy sp le) lbl n)) := fun D =>
      scaledBy_wf hb.plain _ _ _ (cseName_kind lbl n (hb.nodup t ht n hn) (hb.kind t ht n hn).1)
    have inv : ∀ D : Store L ι S K, Inv D ∅ (scaledBy n.label.phase (cseName (sortBy sp le) lbl n)) m := by
      intro D
      obtain ⟨n', h1, h2⟩ := bin_inv hb.lawful ∅ _ (hw D)
      rw [h, Option.some.injEq] at h1
      rw [h1]; exact h2
    obtain ⟨D₀, -⟩ := hne
    refine ⟨?_, fun D _ => (inv D).val.trans (scaledBy_value (D := D) ∅ n.label.phase _ hnd).2⟩
    rw [(inv D₀).idx, (scaledBy_value (D := D₀) ∅ n.label.phase _ hnd).1, openOf_nodup hnd]
    exact List.toFinset_eq_of_perm _ _ hi
  · intro n ht hn lbl m h
    rw [htr, hs] at h
    rw [hs]
    change binRes cfg n.label.expr (scaledBy n.label.phase (cseName (sortBy sp le) lbl n)) = some m at h
    have hi := cseName_idx (sp := sp) (le := le) lbl n (scalar n ht n hn)
    have hnd := hi.nodup_iff.2 (hb.nodup n ht n hn)
    have hr := hb.root n ht hn
    have hval : ∀ D : Store L ι S K, m.label.expr = n.label.expr ∧ m.label.idx.toFinset = (NX.idx n.label.expr).toFinset ∧
        nodeVal D m = value D (NX.idx n.label.expr).toFinset (scaledBy n.label.phase (cseName (sortBy sp le) lbl n)) := by
      intro D
      refine binRes_value hb.lawful h (scaledBy_wf hb.plain _ _ _ (cseName_kind lbl n (hb.nodup n ht n hn) (hb.kind n ht n hn).1))
        (hr.nodup_iff.2 (hb.nodup n ht n hn)) ?_
      rw [(scaledBy_value (D := D) _ n.label.phase _ hnd).1, openOf_nodup hnd]
      exact List.toFinset_eq_of_perm _ _ (hi.trans hr.symm)
    obtain ⟨D₀, -⟩ := hne
    exact ⟨(hval D₀).1, (hval D₀).2.1.trans (List.toFinset_eq_of_perm _ _ hr), fun D _ => (hval D).2.2.trans (scaledBy_value (D := D) _ _ _ hnd).2⟩
  · intro t ht n hn lbl e m he h
    rw [htr, hs] at h
    rw [hs]
    change binRes cfg (cseName (sortBy sp le) lbl n) e = some m at h
    have hi := cseName_idx (sp := sp) (le := le) lbl n (scalar t ht n hn)
    have hfs := List.toFinset_eq_of_perm _ _ hi
    have hval : ∀ D : Store L ι S K, P D → m.label.expr = cseName (sortBy sp le) lbl n ∧ nodeVal D m = nodeVal D n := by
      intro D hD
      have g := toExpr_gives D (hb.fits t ht n hn D hD) (hb.clean t ht n hn) he
      obtain ⟨v1, -, v3⟩ := binRes_value (D := D) hb.lawful h (by rw [hfs]; exact hb.wf t ht n hn D hD e he) (hi.nodup_iff.2 (hb.nodup t ht n hn))
        (by rw [hfs]; exact g.idx.symm)
      rw [hfs] at v3
      exact ⟨v1, v3.trans g.val.symm⟩
    obtain ⟨D₀, hD₀⟩ := hne
    exact ⟨(hval D₀ hD₀).1, fun D hD => (hval D hD).2⟩

end SeQuant.Cse
