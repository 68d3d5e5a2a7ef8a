import Verif.Binarize.Props
import Verif.Binarize.CompareModel

/-!
# Nodes of trees without sums are tensor networks
-/

namespace SeQuant.Binarize

open SeQuant.Eval SeQuant.Tensors SeQuant.Optimize

variable {L ι K H G S : Type} [DecidableEq ι] [CommRing K] [Star K]

variable (D : Store L ι S K)

/-- The scalars in a tree without sums. -/
def scal : Node L ι K H G → K
  | .leaf a =>
    match a.expr with
    | .const c => c
    | .var v => D.var v
    | .ten _ => 1
  | .node a l r =>
    match a.op with
    | .prod => scal l * scal r
    | _ => 1

/-- The value of a node before it is summed. -/
def netBody (n : Node L ι K H G) (ρ : ι → Nat) : K := scal D n * tensProd D (collect n) ρ

/-- All nodes of a tree. -/
def Every {A : Type} (P : ETree A → Prop) : ETree A → Prop
  | .leaf a => P (.leaf a)
  | .node a l r => P (.node a l r) ∧ Every P l ∧ Every P r

theorem Every.here {A : Type} {P : ETree A → Prop} {n : ETree A} (h : Every P n) : P n := by
  cases n with
  | leaf a => exact h
  | node a l r => exact h.1

/-- What the constructors of nodes without sums ensure. -/
def Shape (cfg : Cfg L ι K H G) : Node L ι K H G → Prop
  | .leaf a => a.phase = 1 ∧ a.graph = none ∧ ∀ t, a.expr = .ten t → t.adj = false ∧ a.idx = t.idx
  | .node a l r =>
    match a.op with
    | .sum => False
    | .adjoint => a.phase = 1 ∧ a.graph = none ∧ ∃ t, a.expr = .ten t ∧ t.adj = true ∧ a.idx = t.idx
    | .prod =>
      (∃ N, a.graph = some (cfg.net (collect l ++ collect r) N).graph ∧ a.idx = (cfg.net (collect l ++ collect r) N).idx ∧
        a.phase = (cfg.net (collect l ++ collect r) N).phase) ∨
      (a.graph = none ∧ (∀ t, a.expr = .ten t → t.adj = false) ∧
        ((r.label.idx = [] ∧ a.idx = l.label.idx) ∨ (l.label.idx = [] ∧ a.idx = r.label.idx)))

/-- A node that computes its network. -/
def At (cfg : Cfg L ι K H G) (n : Node L ι K H G) : Prop := (∃ W Q, PInv D W Q (netBody D n) n) ∧ Shape cfg n

omit [DecidableEq ι] in
theorem netBody_prod (a : EE L ι K H G) (l r : Node L ι K H G) (h : a.op = .prod) :
    netBody D (.node a l r) = fun ρ => netBody D l ρ * netBody D r ρ := by
  funext ρ
  simp only [netBody, scal, collect, h, tensProd, List.map_append, List.prod_append]
  ring

omit [CommRing K] [Star K] in
theorem makeProd_op (cfg : Cfg L ι K H G) (h : H) (im : Finset ι) (m n : Node L ι K H G) : (makeProd cfg h im m n).op = .prod := by
  unfold makeProd
  split
  · simp only; split <;> rfl
  all_goals rfl

theorem PInv.scalar {D : Store L ι S K} {W : Finset ι} {Q : List ι} {B : (ι → Nat) → K} {n : Node L ι K H G} (h : PInv D W Q B n)
    (hs : ∀ t, n.label.expr ≠ .ten t) : n.label.idx = [] := by
  by_contra hcon
  have := h.kind.2 hcon
  unfold EE.isTensor at this
  split at this
  · exact hs _ (by assumption)
  · exact absurd this (by decide)

theorem makeProd_shape (cfg : Cfg L ι K H G) {W W' : Finset ι} {Q q : List ι} {B b : (ι → Nat) → K} {m n : Node L ι K H G}
    (hm : PInv D W Q B m) (hn : PInv D W' q b n) (h : H) (im : Finset ι) : Shape cfg (.node (makeProd cfg h im m n) m n) := by
  have hadj : ∀ t : Ten L ι, (imedLike cfg t).adj = false := by
    intro t
    unfold imedLike imedTen
    split <;> rfl
  unfold Shape
  simp only [makeProd_op]
  unfold makeProd
  split
  · left
    refine ⟨named (collect m ++ collect n) im, ?_⟩
    simp only
    split
    · rename_i h0
      exact ⟨rfl, h0.symm, rfl⟩
    · exact ⟨rfl, rfl, rfl⟩
  · rename_i t ht hns
    right
    refine ⟨rfl, ?_, Or.inl ⟨hn.scalar hns, rfl⟩⟩
    rintro u hu
    simp only [NX.ten.injEq] at hu
    subst hu
    exact hadj t
  · rename_i t ht hns
    right
    refine ⟨rfl, ?_, Or.inr ⟨hm.scalar hns, rfl⟩⟩
    rintro u hu
    simp only [NX.ten.injEq] at hu
    subst hu
    exact hadj t
  · rename_i h1 h2 h3
    right
    refine ⟨rfl, by simp, Or.inl ⟨hn.scalar (by assumption), ?_⟩⟩
    exact (hm.scalar (by assumption)).symm

variable (cfg : Cfg L ι K H G)

/-- The nodes compute the factors, as networks. -/
def AllNet (V P : Finset ι) : List (Ex L ι K) → List (Node L ι K H G) → Prop
  | [], [] => True
  | e :: l, n :: ns => (Inv D (allIdx e ∩ (V ∪ P ∪ allIdxU l)) e n ∧ body D (allIdx e ∩ (V ∪ P ∪ allIdxU l)) e = netBody D n ∧
      Every (At D cfg) n) ∧ AllNet V (P ∪ allIdx e) l ns
  | _, _ => False

variable {D cfg}

theorem AllNet.inv {V : Finset ι} : ∀ {P : Finset ι} {l : List (Ex L ι K)} {ns : List (Node L ι K H G)}, AllNet D cfg V P l ns → AllInv D V P l ns
  | _, [], [], _ => trivial
  | _, [], _ :: _, h => h.elim
  | _, _ :: _, [], h => h.elim
  | _, _ :: _, _ :: _, h => ⟨h.1.1, AllNet.inv h.2⟩

theorem foldProd_net (hc : Lawful cfg) (V : Finset ι) (hs : List H) : ∀ (post pre : List (Ex L ι K)) (m : Node L ι K H G)
    (ns : List (Node L ι K H G)) (Q : List ι), PInv D (V ∪ allIdxU post) Q (netBody D m) m → (∀ x ∈ Q, x ∈ allIdxU pre) →
    (∀ x ∈ allIdxU pre, x ∈ V ∨ x ∈ allIdxU post → x ∈ Q) → AllNet D cfg V (allIdxU pre) post ns → Every (At D cfg) m →
    (fun ρ => netBody D m ρ * bodyProd D V (allIdxU pre) post ρ) =
      netBody D (foldProd cfg hs (ltrImed ((pre ++ post).map allIdx) V) pre.length m ns) ∧
    Every (At D cfg) (foldProd cfg hs (ltrImed ((pre ++ post).map allIdx) V) pre.length m ns) := by
  intro post
  induction post with
  | nil =>
    intro pre m ns Q hm _ _ hns hE
    cases ns with
    | cons n ns => exact absurd hns (by simp [AllNet])
    | nil =>
      refine ⟨?_, by rw [foldProd]; exact hE⟩
      funext ρ
      simp only [bodyProd, mul_one, foldProd]
  | cons e post ih =>
    intro pre m ns Q hm hQ hP hns hE
    cases ns with
    | nil => exact absurd hns (by simp [AllNet])
    | cons n ns =>
      obtain ⟨⟨hn, hb, hEn⟩, hns⟩ := hns
      have s : Step V (allIdxU pre) (allIdxU post) (allIdx e) Q (slots (allIdx e ∩ (V ∪ allIdxU pre ∪ allIdxU post)) e) := by
        refine ⟨hQ, fun x hx => slots_sub _ e x hx, fun x hx h => hP x hx ?_, fun x hx h => kept_slots _ e x hx ?_⟩
        · rw [allIdxU, Finset.mem_union]; tauto
        · simp only [Finset.mem_inter, Finset.mem_union]; tauto
      have hstep := makeProd_inv hc s (B := netBody D m) (b := body D (allIdx e ∩ (V ∪ allIdxU pre ∪ allIdxU post)) e) (m := m) (n := n)
        (hm.congr fun x _ => by simp only [allIdxU, Finset.mem_union]; tauto) hn (imedHash cfg hs pre.length)
        ((ltrImed ((pre ++ e :: post).map allIdx) V).getD pre.length ∅) (ltrImed_mem V pre e post)
      have hshape := makeProd_shape (D := D) cfg hm hn (imedHash cfg hs pre.length) ((ltrImed ((pre ++ e :: post).map allIdx) V).getD pre.length ∅)
      have hbody : netBody D (.node (makeProd cfg (imedHash cfg hs pre.length) ((ltrImed ((pre ++ e :: post).map allIdx) V).getD pre.length ∅) m n)
          m n) = fun ρ => netBody D m ρ * body D (allIdx e ∩ (V ∪ allIdxU pre ∪ allIdxU post)) e ρ := by
        rw [netBody_prod D _ _ _ (makeProd_op _ _ _ _ _), hb]
      rw [← hbody] at hstep
      have := ih (pre ++ [e]) _ ns _ hstep ?_ ?_ ?_ ⟨⟨⟨_, _, hstep⟩, hshape⟩, hE, hEn⟩
      · rw [allIdxU_snoc, hbody] at this
        rw [foldProd, bodyProd]
        simp only [List.append_assoc, mul_assoc, List.length_append, List.length_singleton, List.singleton_append] at this ⊢
        exact this
      · intro x hx
        rw [allIdxU_snoc, Finset.mem_union]
        rcases List.mem_append.1 hx with h | h
        · exact Or.inl (hQ x h)
        · exact Or.inr (s.sub' x h)
      · intro x hx h
        rw [allIdxU_snoc, Finset.mem_union] at hx
        rw [List.mem_append]
        rcases hx with hx | hx
        · exact Or.inl (s.have_ x hx (by tauto))
        · exact Or.inr (s.have' x hx (by tauto))
      · rw [allIdxU_snoc]
        exact hns

theorem scaleNode_net (hc : Lawful cfg) {W : Finset ι} {Q : List ι} {n : Node L ι K H G} (h : PInv D W Q (netBody D n) n)
    (hE : Every (At D cfg) n) (c : K) :
    (fun ρ => c * netBody D n ρ) = netBody D (scaleNode cfg c n) ∧ Every (At D cfg) (scaleNode cfg c n) := by
  have hb : (fun ρ => c * netBody D n ρ) = netBody D (scaleNode cfg c n) := by
    rw [scaleNode, netBody_prod D _ _ _ rfl]
    funext ρ
    have : netBody D (leafConst cfg c : Node L ι K H G) ρ = c := by simp [netBody, scal, leafConst, collect, tensProd]
    rw [this, mul_comm]
  refine ⟨hb, ⟨⟨W, Q, hb ▸ scaleNode_inv hc h c⟩, ?_⟩, hE, ?_⟩
  · right
    refine ⟨rfl, ?_, Or.inl ⟨rfl, rfl⟩⟩
    intro t ht
    have ht' : (scaleNode cfg c n).label.expr = .ten t := ht
    rw [scaleNode_expr] at ht'
    split at ht'
    · simp only [NX.ten.injEq] at ht'
      subst ht'
      unfold imedLike imedTen
      split <;> rfl
    · simp at ht'
    · simp at ht'
  · refine ⟨⟨∅, [], ?_⟩, rfl, rfl, by simp [leafConst]⟩
    have e : netBody D (leafConst cfg c : Node L ι K H G) = fun _ => c := by
      funext ρ; simp [netBody, scal, leafConst, collect, tensProd]
    show PInv D ∅ [] (netBody D (leafConst cfg c : Node L ι K H G)) _
    rw [e]
    exact leafConst_inv c ∅

theorem leafTen_net (hc : Lawful cfg) (t : Ten L ι) (V : Finset ι) (ha : t.adj = false) (h0 : t.idx ≠ []) (hn : t.idx.Nodup)
    (hp : leafPhase cfg t = 1) (hsym : DataSymm D cfg t) : ∃ n, leafTen cfg t = some n ∧ PInv D V t.idx (D.ten t) n ∧
      D.ten t = netBody D n ∧ Every (At D cfg) n := by
  obtain ⟨n, h1, h2⟩ := leafTen_inv hc t V ha h0 hn hp hsym
  have hb : D.ten t = netBody D n := by
    rw [leafTen, if_neg h0, Option.some.injEq] at h1
    subst h1
    funext ρ
    rw [hsym ρ, hp]
    simp [netBody, scal, collect, tensProd]
  refine ⟨n, h1, h2, hb, ?_⟩
  have hat : ∃ W Q, PInv D W Q (netBody D n) n := ⟨V, t.idx, hb ▸ h2⟩
  rw [leafTen, if_neg h0, Option.some.injEq] at h1
  subst h1
  refine ⟨hat, hp, rfl, ?_⟩
  intro u hu
  simp only [NX.ten.injEq] at hu
  subst hu
  exact ⟨ha, rfl⟩

mutual
/-- Expressions without sums. -/
def NoSum : Ex L ι K → Prop
  | .const _ => True
  | .var _ => True
  | .ten _ => True
  | .sum _ => False
  | .prod _ l => NoSumL l

def NoSumL : List (Ex L ι K) → Prop
  | [] => True
  | e :: l => NoSum e ∧ NoSumL l
end

variable [DecidableEq K]

mutual
/-- Every node of the tree made from an expression without sums computes its network. -/
theorem bin_net (hc : Lawful cfg) (V : Finset ι) : ∀ e : Ex L ι K, WF D cfg V e → NoSum e →
    ∃ n, bin cfg V e = some n ∧ Inv D V e n ∧ body D V e = netBody D n ∧ Every (At D cfg) n
  | .const c, _, _ => by
    have h := leafConst_inv (D := D) (cfg := cfg) c V
    have e : body D V (.const c : Ex L ι K) = netBody D (leafConst cfg c : Node L ι K H G) := by
      rw [body]; funext ρ; simp [netBody, scal, leafConst, collect, tensProd]
    have e' : (fun _ : ι → Nat => c) = netBody D (leafConst cfg c : Node L ι K H G) := by rw [← e, body]
    refine ⟨_, by rw [bin], ?_, e, ⟨V, [], e' ▸ h⟩, rfl, rfl, by simp [leafConst]⟩
    rw [Inv, e, slots, ← e']
    exact h
  | .var v, _, _ => by
    have h := leafVar_inv (D := D) (cfg := cfg) v V
    have e : body D V (.var v : Ex L ι K) = netBody D (leafVar cfg v : Node L ι K H G) := by
      rw [body]; funext ρ; simp [netBody, scal, leafVar, collect, tensProd]
    have e' : (fun _ : ι → Nat => D.var v) = netBody D (leafVar cfg v : Node L ι K H G) := by rw [← e, body]
    refine ⟨_, by rw [bin], ?_, e, ⟨V, [], e' ▸ h⟩, rfl, rfl, by simp [leafVar]⟩
    rw [Inv, e, slots, ← e']
    exact h
  | .ten t, h, _ => by
    rw [WF] at h
    obtain ⟨h0, hn, hp, hsym⟩ := h
    have eb : body D V (.ten t : Ex L ι K) = D.ten t := by rw [body]
    simp only [Inv, slots, eb, bin]
    by_cases ha : t.adj = true
    · obtain ⟨n, h1, h2⟩ := binTen_inv hc t V h0 hn hp hsym
      rw [bare, if_pos ha] at hp hsym
      have hperm := adjoint_idx t
      obtain ⟨b, hb1, hb2, hb3, hb4⟩ := leafTen_net hc t.adjoint V (by simp [Ten.adjoint, ha])
        (fun h => h0 (by rw [h] at hperm; exact hperm.nil_eq.symm)) (hperm.nodup_iff.2 hn) hp hsym
      have hb : D.ten t = netBody D n := by
        rw [binTen, if_pos ha, hb1] at h1
        simp only [Option.some.injEq] at h1
        subst h1
        funext ρ
        simp [netBody, scal, collect, tensProd]
      refine ⟨n, h1, h2, hb, ?_⟩
      have hat : ∃ W Q, PInv D W Q (netBody D n) n := ⟨V, t.idx, hb ▸ h2⟩
      rw [binTen, if_pos ha, hb1] at h1
      simp only [Option.some.injEq] at h1
      subst h1
      refine ⟨⟨hat, rfl, rfl, t, rfl, ha, rfl⟩, hb4, ⟨∅, [], ?_⟩, rfl, rfl, by simp [leafConst]⟩
      have e : netBody D (leafConst cfg (1 : K) : Node L ι K H G) = fun _ => 1 := by
        funext ρ; simp [netBody, scal, leafConst, collect, tensProd]
      show PInv D ∅ [] (netBody D (leafConst cfg (1 : K) : Node L ι K H G)) _
      rw [e]
      exact leafConst_inv 1 ∅
    · rw [bare, if_neg ha] at hp hsym
      rw [binTen, if_neg ha]
      obtain ⟨n, h1, h2, h3, h4⟩ := leafTen_net hc t V (by simpa using ha) h0 hn hp hsym
      exact ⟨n, h1, h2, h3, h4⟩
  | .sum l, _, h => by rw [NoSum] at h; exact h.elim
  | .prod c [], _, _ => by
    have h := leafConst_inv (D := D) (cfg := cfg) c V
    have e : body D V (.prod c [] : Ex L ι K) = netBody D (leafConst cfg c : Node L ι K H G) := by
      rw [body]; funext ρ; simp [netBody, scal, leafConst, collect, tensProd, bodyProd]
    have e' : (fun _ : ι → Nat => c) = netBody D (leafConst cfg c : Node L ι K H G) := by
      funext ρ; simp [netBody, scal, leafConst, collect, tensProd]
    refine ⟨_, by rw [bin], ?_, e, ⟨V, [], e' ▸ h⟩, rfl, rfl, by simp [leafConst]⟩
    rw [Inv, e, slots, slotsProd, ← e']
    exact h
  | .prod c (e :: l), h, hs => by
    obtain ⟨n0, hn0, hInv⟩ := bin_inv hc V _ h
    rw [WF] at h
    rw [NoSum] at hs
    obtain ⟨ns, h3, h4⟩ := binAll_net hc V ∅ (e :: l) h hs
    cases ns with
    | nil => exact absurd h4 (by simp [AllNet])
    | cons n ns =>
      obtain ⟨⟨hn, hbn, hEn⟩, hns⟩ := h4
      have hpre : allIdxU [e] = (∅ : Finset ι) ∪ allIdx e := by simp [allIdxU]
      have hPn : PInv D (V ∪ allIdxU l) (slots (allIdx e ∩ (V ∪ ∅ ∪ allIdxU l)) e) (netBody D n) n := by
        rw [← hbn]
        refine PInv.congr hn fun x hx => ?_
        have := slots_sub _ e x hx
        simp only [Finset.mem_inter, Finset.mem_union, Finset.notMem_empty]
        tauto
      have hQ : ∀ x ∈ slots (allIdx e ∩ (V ∪ ∅ ∪ allIdxU l)) e, x ∈ allIdxU [e] := by
        intro x hx
        rw [hpre, Finset.mem_union]
        exact Or.inr (slots_sub _ e x hx)
      have hQ' : ∀ x ∈ allIdxU [e], x ∈ V ∨ x ∈ allIdxU l → x ∈ slots (allIdx e ∩ (V ∪ ∅ ∪ allIdxU l)) e := by
        intro x hx h
        rw [hpre, Finset.empty_union] at hx
        refine kept_slots _ e x hx ?_
        simp only [Finset.mem_inter, Finset.mem_union, Finset.notMem_empty]
        tauto
      have hns' : AllNet D cfg V (allIdxU [e]) l ns := by rw [hpre]; exact hns
      have hfold := foldProd_net hc V ((n :: ns).map (·.label.hash)) l [e] n ns _ hPn hQ hQ' hns' hEn
      have hinv := foldProd_inv hc V ((n :: ns).map (·.label.hash)) l [e] n ns _ _ hPn hQ hQ' hns'.inv
      rw [hfold.1] at hinv
      have hbd : (fun ρ => bodyProd D V ∅ (e :: l) ρ) =
          netBody D (foldProd cfg ((n :: ns).map (·.label.hash)) (ltrImed ((e :: l).map allIdx) V) 1 n ns) := by
        have := hfold.1
        rw [hpre] at this
        rw [bodyProd, hbn]
        exact this
      have hb : bin cfg V (.prod c (e :: l)) = binProd cfg c (ltrImed ((e :: l).map allIdx) V) (n :: ns) := by
        rw [bin, ltrChildren_eq, h3]
      rw [hb, binProd] at hn0
      refine ⟨n0, by rw [hb, binProd]; exact hn0, hInv, ?_⟩
      by_cases h1 : c = 1
      · subst h1
        simp only [if_true, Option.some.injEq] at hn0
        subst hn0
        have e2 : body D V (.prod 1 (e :: l) : Ex L ι K) = fun ρ => bodyProd D V ∅ (e :: l) ρ := by
          rw [body]; funext ρ; rw [one_mul]
        exact ⟨e2.trans hbd, hfold.2⟩
      · simp only [if_neg h1, Option.some.injEq] at hn0
        subst hn0
        have e2 : body D V (.prod c (e :: l) : Ex L ι K) = fun ρ => c * bodyProd D V ∅ (e :: l) ρ := by rw [body]
        obtain ⟨x1, x2⟩ := scaleNode_net hc hinv hfold.2 c
        refine ⟨?_, x2⟩
        rw [e2]
        have : ∀ ρ, bodyProd D V ∅ (e :: l) ρ =
            netBody D (foldProd cfg ((n :: ns).map (·.label.hash)) (ltrImed ((e :: l).map allIdx) V) 1 n ns) ρ := fun ρ => congrFun hbd ρ
        simp only [this]
        exact x1

theorem binAll_net (hc : Lawful cfg) (V P : Finset ι) : ∀ l : List (Ex L ι K), WFProd D cfg V P l → NoSumL l →
    ∃ ns, binAll cfg (keptSets V P l) l = some ns ∧ AllNet D cfg V P l ns
  | [], _, _ => ⟨[], by rw [binAll], by rw [AllNet]; trivial⟩
  | e :: l, h, hs => by
    rw [WFProd] at h
    rw [NoSumL] at hs
    obtain ⟨n, h1, h2⟩ := bin_net hc _ e h.1 hs.1
    obtain ⟨ns, h3, h4⟩ := binAll_net hc V _ l h.2 hs.2
    refine ⟨n :: ns, ?_, ?_⟩
    · rw [binAll]
      simp only [keptSets, List.headD_cons, List.tail_cons, h1, h3]
    · exact ⟨h2, h4⟩
end

end SeQuant.Binarize
