import Verif.Binarize.Lemmas

/-!
# Binarization preserves the value of expressions (C56)
-/

namespace SeQuant.Binarize

open SeQuant.Eval SeQuant.Tensors SeQuant.Optimize

variable {L ι K H G S : Type} [DecidableEq ι] [CommRing K] [Star K]

/-! ### Values of nodes -/

omit [DecidableEq ι] in
theorem filterMap_arrange_fst (bra ket : List (Option ι)) : ((arrangeSlots bra ket).1.filterMap id).Perm (bra.filterMap id) := by
  have h : ∀ b k : List (Option ι), ((pairs b k).map (·.1) ++ (leftover b k).filterMap id).Perm (b.filterMap id) := by
    intro b
    induction b with
    | nil => intro k; cases k <;> simp [pairs, leftover]
    | cons x b ih =>
      intro k
      cases k with
      | nil => cases x <;> simp [pairs, leftover]
      | cons y k =>
        cases x with
        | none => cases y <;> simpa [pairs, leftover] using ih k
        | some x =>
          cases y with
          | none =>
            simp only [pairs, leftover, List.filterMap_cons, id]
            exact List.perm_middle.trans ((ih k).cons x)
          | some y =>
            simp only [pairs, leftover, List.filterMap_cons, id, List.map_cons, List.cons_append]
            exact (ih k).cons x
  have := h bra ket
  simpa [arrangeSlots, List.filterMap_append, List.filterMap_map, Function.comp_def, List.filterMap_some] using this

omit [DecidableEq ι] in
theorem filterMap_arrange_snd (bra ket : List (Option ι)) : ((arrangeSlots bra ket).2.filterMap id).Perm (ket.filterMap id) := by
  have h : ∀ b k : List (Option ι), ((pairs b k).map (·.2) ++ (leftover k b).filterMap id).Perm (k.filterMap id) := by
    intro b
    induction b with
    | nil => intro k; cases k <;> simp [pairs, leftover]
    | cons x b ih =>
      intro k
      cases k with
      | nil => cases x <;> simp [pairs, leftover]
      | cons y k =>
        cases y with
        | none => cases x <;> simpa [pairs, leftover] using ih k
        | some y =>
          cases x with
          | none =>
            simp only [pairs, leftover, List.filterMap_cons, id]
            exact List.perm_middle.trans ((ih k).cons y)
          | some x =>
            simp only [pairs, leftover, List.filterMap_cons, id, List.map_cons, List.cons_append]
            exact (ih k).cons y
  have := h bra ket
  simpa [arrangeSlots, List.filterMap_append, List.filterMap_map, Function.comp_def, List.filterMap_some] using this

omit [DecidableEq ι] in
theorem adjoint_idx (t : Ten L ι) : t.adjoint.idx.Perm t.idx := by
  have key : ((swapBraKet t.s).bra.filterMap id ++ (swapBraKet t.s).ket.filterMap id).Perm (t.s.bra.filterMap id ++ t.s.ket.filterMap id) := by
    unfold swapBraKet canonicalizeSlots
    split
    · split
      · exact ((filterMap_arrange_fst _ _).append (filterMap_arrange_snd _ _)).trans List.perm_append_comm
      · exact List.perm_append_comm
    · exact List.perm_append_comm
  exact key.append_right _

theorem asg_map {idx : List ι} {x : ι} (h : x ∈ idx) (ρ : ι → Nat) : asg idx (idx.map ρ) x = ρ x := by
  have := List.idxOf_lt_length_iff.2 h
  simp [asg, h, List.getD, this]

omit [DecidableEq ι] in
theorem pad_map (l : List ι) (ρ : ι → Nat) : pad l.length (l.map ρ) = l.map ρ := by
  apply List.ext_getElem
  · simp [pad]
  · intro i h1 h2
    simp only [List.length_map] at h2
    simp [pad, List.getD, h2]

theorem map_asg {idx : List ι} (h : idx.Nodup) (p : List Nat) : idx.map (asg idx p) = pad idx.length p := by
  apply List.ext_getElem
  · simp [pad]
  · intro i h1 h2
    simp only [List.length_map] at h1
    have hi : idx.idxOf idx[i] = i := by
      have hm : idx.idxOf idx[i] < idx.length := List.idxOf_lt_length_iff.2 (List.getElem_mem h1)
      exact (List.Nodup.getElem_inj_iff h (hi := hm) (hj := h1)).1 (List.getElem_idxOf hm)
    simp [pad, asg, hi]

theorem asg_asg (idx : List ι) (p : List Nat) : asg idx (idx.map (asg idx p)) = asg idx p := by
  funext x
  by_cases h : x ∈ idx
  · exact asg_map h _
  · simp [asg, h]

variable (D : Store L ι S K)

omit [DecidableEq ι] in
theorem map_depends {R : Type} [CommRing R] (u : List Nat → R) (l : List ι) : Optimize.DependsOn (fun ρ : ι → Nat => u (l.map ρ)) (· ∈ l) := by
  intro σ τ h
  show u _ = u _
  rw [List.map_congr_left h]

theorem nodeVal_depends (n : Node L ι K H G) : Optimize.DependsOn (nodeVal D n) (· ∈ n.label.idx) := map_depends _ _

theorem nodeVal_prod (a : EE L ι K H G) (l r : Node L ι K H G) (ha : a.op = .prod) : nodeVal D (.node a l r) =
    sumL D.dims ((l.label.idx.toFinset ∪ r.label.idx.toFinset) \ a.idx.toFinset).toList fun ρ => nodeVal D l ρ * nodeVal D r ρ := by
  funext ρ
  have e : nodeVal D (.node a l r) ρ = sumL D.dims ((l.label.idx.toFinset ∪ r.label.idx.toFinset) \ a.idx.toFinset).toList
      (fun ρ => nodeVal D l ρ * nodeVal D r ρ) (asg a.idx (a.idx.map ρ)) := by
    simp only [nodeVal, nodeArr, plain, ha, ETree.label, arrays]
  rw [e]
  refine sumL_depends D.dims _ (fun ρ => nodeVal D l ρ * nodeVal D r ρ) (fun x => x ∈ l.label.idx ∨ x ∈ r.label.idx) ?_ _ _ ?_
  · intro σ τ h
    show _ * _ = _ * _
    rw [nodeVal_depends D l σ τ fun x hx => h x (Or.inl hx), nodeVal_depends D r σ τ fun x hx => h x (Or.inr hx)]
  · intro x ⟨h1, h2⟩
    refine asg_map ?_ ρ
    rw [Finset.mem_toList] at h2
    simp only [Finset.mem_sdiff, Finset.mem_union, List.mem_toFinset] at h2
    tauto

theorem nodeVal_sum (a : EE L ι K H G) (l r : Node L ι K H G) (ha : a.op = .sum) (hl : ∀ x ∈ l.label.idx, x ∈ a.idx)
    (hr : ∀ x ∈ r.label.idx, x ∈ a.idx) : nodeVal D (.node a l r) = fun ρ => nodeVal D l ρ + nodeVal D r ρ := by
  funext ρ
  have e : nodeVal D (.node a l r) ρ = nodeVal D l (asg a.idx (a.idx.map ρ)) + nodeVal D r (asg a.idx (a.idx.map ρ)) := by
    simp only [nodeVal, nodeArr, plain, ha, ETree.label, arrays]
  rw [e, nodeVal_depends D l _ ρ fun x hx => asg_map (hl x hx) ρ, nodeVal_depends D r _ ρ fun x hx => asg_map (hr x hx) ρ]

theorem nodeVal_adj (a : EE L ι K H G) (l r : Node L ι K H G) (ha : a.op = .adjoint) (hl : ∀ x ∈ l.label.idx, x ∈ a.idx) :
    nodeVal D (.node a l r) = fun ρ => star (nodeVal D l ρ) := by
  funext ρ
  have e : nodeVal D (.node a l r) ρ = star (nodeVal D l (asg a.idx (a.idx.map ρ))) := by
    simp only [nodeVal, nodeArr, plain, ha, ETree.label, arrays]
  rw [e, nodeVal_depends D l _ ρ fun x hx => asg_map (hl x hx) ρ]

/-! ### Sums over indices -/

omit [Star K] in
theorem sumL_mul_sumL (dims : ι → Nat) (A B : List ι) (f g : (ι → Nat) → K) (s t : ι → Prop) (hf : Optimize.DependsOn f s) (hg : Optimize.DependsOn g t)
    (hA : ∀ x ∈ A, ¬ t x) (hB : ∀ x ∈ B, ¬ s x) :
    (fun ρ => sumL dims A f ρ * sumL dims B g ρ) = sumL dims (A ++ B) fun ρ => f ρ * g ρ := by
  rw [sumL_append, sumL_mul dims B f g s hf hB]
  have hG : Optimize.DependsOn (sumL dims B g) t := by
    intro σ τ h
    exact sumL_depends dims B g t hg σ τ fun x hx => h x hx.1
  exact (sumL_mul' dims A (sumL dims B g) f t hG hA).symm

/-! ### Invariants -/

variable (cfg : Cfg L ι K H G)

/-- What is assumed of the parameters: canonicalization and sorting permute indices, the canonicalization of networks returns the named
indices.  `canonTen_idx` below proves the first for the block canonicalizer. -/
structure Lawful (cfg : Cfg L ι K H G) : Prop where
  canon_idx : ∀ t : Ten L ι, (canonTen cfg t).idx.Perm t.idx
  sort : ∀ l, (cfg.srt l).Perm l
  net_idx : ∀ ts N, N ⊆ (slotsOfTens ts).toFinset → (cfg.net ts N).idx.Nodup ∧ (cfg.net ts N).idx.toFinset = N

/-- The array for a tensor has the symmetry that its canonicalization relies on.  `dataSymm_of_respects` shows that this holds if the array has
the symmetries declared for the tensor. -/
def DataSymm (t : Ten L ι) : Prop := ∀ ρ, D.ten t ρ = (leafPhase cfg t : K) * D.ten (canonTen cfg t) ρ

/-- The tensor without its adjoint marker: the one made a leaf. -/
def bare (t : Ten L ι) : Ten L ι := if t.adj = true then t.adjoint else t

/-- A node that computes the sum of `B` over the repeated indices among the slots `Q`, except those in `W`. -/
structure PInv (W : Finset ι) (Q : List ι) (B : (ι → Nat) → K) (n : Node L ι K H G) : Prop where
  nodup : n.label.idx.Nodup
  idx : n.label.idx.toFinset = openOf W Q
  kind : n.label.isTensor = true ↔ n.label.idx ≠ []
  expr : ∀ t, n.label.expr = .ten t → t.idx.Nodup ∧ t.idx.toFinset = n.label.idx.toFinset
  coll : (slotsOfTens (collect n)).Perm Q
  dep : Optimize.DependsOn B (· ∈ Q)
  val : nodeVal D n = sumL D.dims (dummies W Q).toList B

/-- The node computes the value of the expression. -/
def Inv (V : Finset ι) (e : Ex L ι K) (n : Node L ι K H G) : Prop := PInv D V (slots V e) (body D V e) n

theorem PInv.congr {D : Store L ι S K} {W W' : Finset ι} {Q : List ι} {B : (ι → Nat) → K} {n : Node L ι K H G} (h : PInv D W Q B n)
    (hW : ∀ x ∈ Q, x ∈ W ↔ x ∈ W') : PInv D W' Q B n := by
  have ho : openOf W Q = openOf W' Q := by
    ext x
    rw [mem_openOf, mem_openOf]
    exact and_congr_right fun hx => by rw [hW x hx]
  exact ⟨h.nodup, by rw [h.idx, ho], h.kind, h.expr, h.coll, h.dep, by rw [h.val, dummies, dummies, ho]⟩

theorem toFinset_eq_empty_iff' {l : List ι} : l.toFinset = ∅ ↔ l = [] := List.toFinset_eq_empty_iff l

theorem PInv.tensor_iff {D : Store L ι S K} {W : Finset ι} {Q : List ι} {B : (ι → Nat) → K} {n : Node L ι K H G} (h : PInv D W Q B n) :
    n.label.isTensor = true ↔ openOf W Q ≠ ∅ := by
  rw [h.kind, ← h.idx, Ne, Ne, toFinset_eq_empty_iff']

variable {cfg D}

omit [CommRing K] [Star K] in
theorem imedTen_idx (hc : Lawful cfg) (b k a : List ι) : (imedTen cfg b k a).idx.Perm (b ++ k ++ a) := by
  unfold imedTen Ten.idx
  split
  · simpa using hc.sort _
  · simp only [List.filterMap_map, Function.comp_def, id, List.filterMap_some]
    exact ((hc.sort b).append (hc.sort k)).append (hc.sort a)

omit [CommRing K] [Star K] in
theorem imedLike_idx (hc : Lawful cfg) (t : Ten L ι) : (imedLike cfg t).idx.Perm t.idx := imedTen_idx hc _ _ _

/-! ### Leaves -/

theorem leafConst_inv (c : K) (V : Finset ι) : PInv D V [] (fun _ => c) (leafConst cfg c : Node L ι K H G) where
  nodup := List.nodup_nil
  idx := by simp [leafConst, ETree.label, openOf]
  kind := by simp [leafConst, ETree.label, EE.isTensor]
  expr := by simp [leafConst, ETree.label]
  coll := by simp [leafConst, collect, slotsOfTens]
  dep := fun _ _ _ => rfl
  val := by
    funext ρ
    simp [nodeVal, nodeArr, plain, leafConst, ETree.label, arrays, dummies, sumL]

theorem leafVar_inv (v : L) (V : Finset ι) : PInv D V [] (fun _ => D.var v) (leafVar cfg v : Node L ι K H G) where
  nodup := List.nodup_nil
  idx := by simp [leafVar, ETree.label, openOf]
  kind := by simp [leafVar, ETree.label, EE.isTensor]
  expr := by simp [leafVar, ETree.label]
  coll := by simp [leafVar, collect, slotsOfTens]
  dep := fun _ _ _ => rfl
  val := by
    funext ρ
    simp [nodeVal, nodeArr, plain, leafVar, ETree.label, arrays, dummies, sumL]

omit [DecidableEq ι] [CommRing K] in
theorem ten_depends (t : Ten L ι) : Optimize.DependsOn (D.ten t) (· ∈ t.idx) := by
  intro σ τ h
  unfold Store.ten
  split
  · rw [List.map_congr_left fun x hx => h x ((adjoint_idx t).mem_iff.1 hx)]
  · rw [List.map_congr_left h]

theorem leafTen_inv (hc : Lawful cfg) (t : Ten L ι) (V : Finset ι) (ha : t.adj = false) (h0 : t.idx ≠ []) (hn : t.idx.Nodup)
    (hp : leafPhase cfg t = 1) (hsym : DataSymm D cfg t) : ∃ n, leafTen cfg t = some n ∧ PInv D V t.idx (D.ten t) n := by
  have hperm := hc.canon_idx t
  have hcn : (canonTen cfg t).idx.Nodup := hperm.nodup_iff.2 hn
  have hset : (canonTen cfg t).idx.toFinset = t.idx.toFinset := List.toFinset_eq_of_perm _ _ hperm
  refine ⟨_, by rw [leafTen, if_neg h0], ?_⟩
  refine ⟨hcn, ?_, ?_, ?_, ?_, ten_depends t, ?_⟩
  · rw [openOf_nodup hn]; exact hset
  · simp only [ETree.label, EE.isTensor, true_iff]
    intro h
    rw [h] at hperm
    exact h0 hperm.nil_eq.symm
  · intro u hu
    simp only [ETree.label, NX.ten.injEq] at hu
    subst hu
    exact ⟨hcn, rfl⟩
  · simpa [collect, slotsOfTens] using hperm
  · rw [dummies_nodup hn, Finset.toList_empty]
    funext ρ
    rw [sumL, hsym ρ, hp, Int.cast_one, one_mul]
    have ha' : (canonTen cfg t).adj = false := ha
    simp [nodeVal, nodeArr, plain, ETree.label, arrays, Store.ten, ha', pad_map]

theorem binTen_inv (hc : Lawful cfg) (t : Ten L ι) (V : Finset ι) (h0 : t.idx ≠ []) (hn : t.idx.Nodup)
    (hp : leafPhase cfg (bare t) = 1) (hsym : DataSymm D cfg (bare t)) : ∃ n, binTen cfg t = some n ∧ PInv D V t.idx (D.ten t) n := by
  by_cases ha : t.adj = true
  · rw [bare, if_pos ha] at hp hsym
    have hperm := adjoint_idx t
    have ha' : t.adjoint.adj = false := by simp [Ten.adjoint, ha]
    have h0' : t.adjoint.idx ≠ [] := fun h => h0 (by rw [h] at hperm; exact hperm.nil_eq.symm)
    obtain ⟨n, hn1, hn2⟩ := leafTen_inv hc t.adjoint V ha' h0' (hperm.nodup_iff.2 hn) hp hsym
    refine ⟨_, by rw [binTen, if_pos ha, hn1], ?_⟩
    refine ⟨hn, by rw [openOf_nodup hn]; rfl, ?_, ?_, ?_, ten_depends t, ?_⟩
    · simp only [ETree.label, EE.isTensor, true_iff]; exact h0
    · intro u hu
      simp only [ETree.label, NX.ten.injEq] at hu
      subst hu
      exact ⟨hn, rfl⟩
    · simp [collect, slotsOfTens]
    · rw [dummies_nodup hn, Finset.toList_empty]
      rw [nodeVal_adj D _ _ _ rfl]
      · funext ρ
        rw [hn2.val, dummies_nodup (hperm.nodup_iff.2 hn), Finset.toList_empty]
        simp only [sumL]
        have e1 : D.ten t ρ = star (D.arr t.label t.adjoint.slots (t.adjoint.idx.map D.sp) (t.adjoint.idx.map ρ)) := by
          rw [Store.ten, if_pos ha]
        have e2 : D.ten t.adjoint ρ = D.arr t.label t.adjoint.slots (t.adjoint.idx.map D.sp) (t.adjoint.idx.map ρ) := by
          rw [Store.ten, ha', if_neg (by decide)]
          rfl
        rw [e1, e2]
      · intro x hx
        have : x ∈ n.label.idx.toFinset := by simpa using hx
        rw [hn2.idx, mem_openOf] at this
        exact hperm.mem_iff.1 this.1
  · rw [bare, if_neg ha] at hp hsym
    rw [binTen, if_neg ha]
    exact leafTen_inv hc t V (by simpa using ha) h0 hn hp hsym

/-! ### Products -/

omit [DecidableEq ι] in
theorem slotsOfTens_append (a b : List (Ten L ι)) : slotsOfTens (a ++ b) = slotsOfTens a ++ slotsOfTens b := by
  simp [slotsOfTens]

theorem targetGroups_perm (ts : List (Ten L ι)) (U : Finset ι) :
    ((targetGroups ts U).1 ++ (targetGroups ts U).2.1 ++ (targetGroups ts U).2.2).Perm (openList U (slotsOfTens ts)) := by
  have hsplit : ∀ (p : ι → Bool) (l : List ι), (l.filter p ++ l.filter fun x => !p x).Perm l := fun p l => List.filter_append_perm p l
  generalize hb : (fun x => decide (x ∈ (ts.map fun t => t.s.bra.filterMap id).flatten)) = inBra
  generalize hk : (fun x => decide (x ∈ (ts.map fun t => t.s.ket.filterMap id).flatten)) = inKet
  generalize hu : (slotsOfTens ts).dedup = used
  have e : (targetGroups ts U) = ((used.filter fun x => (slotsOfTens ts).count x = 1).filter inBra,
      (used.filter fun x => (slotsOfTens ts).count x = 1).filter (fun x => !inBra x && inKet x),
      (used.filter fun x => (slotsOfTens ts).count x = 1).filter (fun x => !inBra x && !inKet x) ++
        used.filter fun x => decide (1 < (slotsOfTens ts).count x ∧ x ∈ U)) := by
    subst hb hk hu
    rfl
  rw [e]
  generalize hs : used.filter (fun x => decide ((slotsOfTens ts).count x = 1)) = single
  have h1 : (single.filter inBra ++ single.filter (fun x => !inBra x && inKet x) ++ single.filter (fun x => !inBra x && !inKet x)).Perm single := by
    have a := hsplit inBra single
    have b := hsplit inKet (single.filter fun x => !inBra x)
    rw [List.filter_filter, List.filter_filter] at b
    rw [List.append_assoc]
    refine List.Perm.trans (List.Perm.append_left _ ?_) a
    have c1 : (single.filter fun x => !inBra x && inKet x) = single.filter fun x => inKet x && !inBra x := by
      congr 1; funext x; rw [Bool.and_comm]
    have c2 : (single.filter fun x => !inBra x && !inKet x) = single.filter fun x => !inKet x && !inBra x := by
      congr 1; funext x; rw [Bool.and_comm]
    rw [c1, c2]
    exact b
  rw [← List.append_assoc]
  refine (h1.append_right _).trans ?_
  rw [List.perm_ext_iff_of_nodup]
  · intro x
    rw [mem_openList, mem_openOf]
    simp only [← hs, ← hu, List.mem_append, List.mem_filter, List.mem_dedup, decide_eq_true_eq]
    constructor
    · rintro (h | h)
      · exact ⟨h.1, Or.inl h.2⟩
      · exact ⟨h.1, Or.inr h.2.2⟩
    · rintro ⟨h, h'⟩
      by_cases h1 : (slotsOfTens ts).count x = 1
      · exact Or.inl ⟨h, h1⟩
      · have := List.count_pos_iff.2 h
        exact Or.inr ⟨h, by omega, by tauto⟩
  · have hd : used.Nodup := by rw [← hu]; exact List.nodup_dedup _
    rw [List.nodup_append, ← hs]
    refine ⟨hd.filter _, hd.filter _, ?_⟩
    rintro x hx _ hy rfl
    simp only [List.mem_filter, decide_eq_true_eq] at hx hy
    omega
  · exact openList_nodup _ _

theorem named_eq {V R P A : Finset ι} {Q q : List ι} (s : Step V P R A Q q) (ts : List (Ten L ι)) (hts : (slotsOfTens ts).Perm (Q ++ q))
    (im : Finset ι) (him : ∀ x, x ∈ im ↔ (x ∈ P ∨ x ∈ A) ∧ (x ∈ V ∨ x ∈ R)) :
    named ts im = openOf (V ∪ R) (Q ++ q) ∧ openOf im (slotsOfTens ts) = openOf (V ∪ R) (Q ++ q) := by
  have hQ : ∀ x, x ∈ im → x ∈ Q ++ q := by
    intro x hx
    rw [him] at hx
    rw [List.mem_append]
    rcases hx.1 with h | h
    · exact Or.inl (s.have_ x h (by tauto))
    · exact Or.inr (s.have' x h (by tauto))
  have hP : ∀ x ∈ Q ++ q, x ∈ im ↔ x ∈ V ∪ R := by
    intro x hx
    rw [him, Finset.mem_union]
    have : x ∈ P ∨ x ∈ A := by
      rcases List.mem_append.1 hx with h | h
      · exact Or.inl (s.sub x h)
      · exact Or.inr (s.sub' x h)
    tauto
  have ho : openOf im (slotsOfTens ts) = openOf (V ∪ R) (Q ++ q) := by
    rw [openOf_perm hts]
    ext x
    rw [mem_openOf, mem_openOf]
    exact and_congr_right fun hx => by rw [hP x hx]
  refine ⟨?_, ho⟩
  rw [← ho]
  ext x
  simp only [named, Finset.mem_union, Finset.mem_filter, List.mem_toFinset, mem_openOf]
  constructor
  · rintro (h | h)
    · exact ⟨h.1, Or.inl h.2⟩
    · exact ⟨hts.mem_iff.2 (hQ x h), Or.inr h⟩
  · tauto

/-- One step of the fold over factors. -/
theorem makeProd_inv (hc : Lawful cfg) {V P R A : Finset ι} {Q q : List ι} (s : Step V P R A Q q) {B b : (ι → Nat) → K}
    {m n : Node L ι K H G} (hm : PInv D (V ∪ A ∪ R) Q B m) (hn : PInv D (A ∩ (V ∪ P ∪ R)) q b n) (h : H) (im : Finset ι)
    (him : ∀ x, x ∈ im ↔ (x ∈ P ∨ x ∈ A) ∧ (x ∈ V ∨ x ∈ R)) :
    PInv D (V ∪ R) (Q ++ q) (fun ρ => B ρ * b ρ) (.node (makeProd cfg h im m n) m n) := by
  have hcoll : (slotsOfTens (collect m ++ collect n)).Perm (Q ++ q) := by
    rw [slotsOfTens_append]; exact hm.coll.append hn.coll
  obtain ⟨hnamed, hopen⟩ := named_eq s _ hcoll im him
  have hop : (makeProd cfg h im m n).op = .prod := by
    unfold makeProd; split
    · simp only; split <;> rfl
    all_goals rfl
  -- the label of the node
  have key : (makeProd cfg h im m n).idx.Nodup ∧ (makeProd cfg h im m n).idx.toFinset = openOf (V ∪ R) (Q ++ q) ∧
      ((makeProd cfg h im m n).isTensor = true ↔ (makeProd cfg h im m n).idx ≠ []) ∧
      ∀ t, (makeProd cfg h im m n).expr = .ten t → t.idx.Nodup ∧ t.idx.toFinset = (makeProd cfg h im m n).idx.toFinset := by
    have hempty : ∀ {W : Finset ι} {l : List ι} {C : (ι → Nat) → K} {k : Node L ι K H G}, PInv D W l C k →
        (∀ t, k.label.expr ≠ .ten t) → openOf W l = ∅ := by
      intro W l C k hk hne
      by_contra hcon
      have := hk.tensor_iff.2 hcon
      unfold EE.isTensor at this
      split at this
      · exact hne _ (by assumption)
      · exact absurd this (by decide)
    have hten : ∀ {W : Finset ι} {l : List ι} {C : (ι → Nat) → K} {k : Node L ι K H G}, PInv D W l C k →
        ∀ t, k.label.expr = .ten t → k.label.idx ≠ [] := by
      intro W l C k hk t ht
      exact hk.kind.1 (by simp [EE.isTensor, ht])
    have hsame : ∀ {W : Finset ι} {l : List ι} {C : (ι → Nat) → K} {k : Node L ι K H G} (hk : PInv D W l C k) (t : Ten L ι)
        (ht : k.label.expr = .ten t), (imedLike cfg t).idx.Nodup ∧ (imedLike cfg t).idx.toFinset = k.label.idx.toFinset := by
      intro W l C k hk t ht
      have hp := imedLike_idx hc t
      exact ⟨hp.nodup_iff.2 (hk.expr t ht).1, by rw [List.toFinset_eq_of_perm _ _ hp, (hk.expr t ht).2]⟩
    unfold makeProd
    split
    · -- two tensors
      simp only
      have hN := hc.net_idx (collect m ++ collect n) (named (collect m ++ collect n) im) (by
        rw [hnamed, List.toFinset_eq_of_perm _ _ hcoll]
        exact Finset.filter_subset _ _)
      split
      · rename_i h0
        refine ⟨List.nodup_nil, ?_, by simp [EE.isTensor], by simp⟩
        rw [h0] at hN
        rw [← hnamed, ← hN.2]
      · rename_i h0
        refine ⟨hN.1, by rw [hN.2, hnamed], by simpa [EE.isTensor] using h0, ?_⟩
        intro t ht
        simp only [NX.ten.injEq] at ht
        subst ht
        have hp := (imedTen_idx hc _ _ _).trans (targetGroups_perm (collect m ++ collect n) im)
        refine ⟨hp.nodup_iff.2 (openList_nodup _ _), ?_⟩
        rw [List.toFinset_eq_of_perm _ _ hp, openList_toFinset, hopen, hN.2, hnamed]
    · -- a tensor and a scalar
      rename_i t ht hns
      have h1 := hempty hn (fun u hu => hns u hu)
      refine ⟨hm.nodup, by rw [hm.idx, s.open_left h1], by simpa [EE.isTensor] using hten hm t ht, ?_⟩
      intro u hu
      simp only [NX.ten.injEq] at hu
      subst hu
      exact hsame hm t ht
    · -- a scalar and a tensor
      rename_i t ht hns
      have h1 : openOf (V ∪ A ∪ R) Q = ∅ := hempty hm (fun u hu => hns u hu)
      refine ⟨hn.nodup, by rw [hn.idx, s.open_right h1], by simpa [EE.isTensor] using hten hn t ht, ?_⟩
      intro u hu
      simp only [NX.ten.injEq] at hu
      subst hu
      exact hsame hn t ht
    · -- two scalars
      rename_i h1 h2 h3
      have e1 : openOf (V ∪ A ∪ R) Q = ∅ := hempty hm (by assumption)
      have e2 : openOf (A ∩ (V ∪ P ∪ R)) q = ∅ := hempty hn (by assumption)
      refine ⟨List.nodup_nil, ?_, by simp [EE.isTensor], by simp⟩
      rw [s.open_left e2, e1]
      rfl
  refine ⟨key.1, key.2.1, key.2.2.1, key.2.2.2, ?_, ?_, ?_⟩
  · rw [collect, hop]
    exact hcoll
  · intro σ τ hst
    show _ * _ = _ * _
    rw [hm.dep σ τ fun x hx => hst x (List.mem_append_left _ hx), hn.dep σ τ fun x hx => hst x (List.mem_append_right _ hx)]
  · rw [nodeVal_prod D _ _ _ hop, key.2.1, hm.idx, hn.idx, hm.val, hn.val, ← sumL_perm D.dims s.dummies_eq, sumL_append]
    rw [sumL_mul_sumL D.dims _ _ B b (· ∈ Q) (· ∈ q) hm.dep hn.dep]
    · intro x hx
      rw [Finset.mem_toList] at hx
      exact (s.dummy_left hx).1
    · intro x hx
      rw [Finset.mem_toList] at hx
      exact (s.dummy_right hx).1

variable (D) in
/-- The nodes compute the factors. -/
def AllInv (V P : Finset ι) : List (Ex L ι K) → List (Node L ι K H G) → Prop
  | [], [] => True
  | e :: l, n :: ns => Inv D (allIdx e ∩ (V ∪ P ∪ allIdxU l)) e n ∧ AllInv V (P ∪ allIdx e) l ns
  | _, _ => False

omit [CommRing K] [Star K] in
theorem allIdxU_snoc (pre : List (Ex L ι K)) (e : Ex L ι K) : allIdxU (pre ++ [e]) = allIdxU pre ∪ allIdx e := by
  ext x
  simp only [mem_allIdxU, Finset.mem_union, List.mem_append, List.mem_singleton]
  constructor
  · rintro ⟨f, h | rfl, hx⟩
    · exact Or.inl ⟨f, h, hx⟩
    · exact Or.inr hx
  · rintro (⟨f, h, hx⟩ | hx)
    · exact ⟨f, Or.inl h, hx⟩
    · exact ⟨e, Or.inr rfl, hx⟩

theorem foldProd_inv (hc : Lawful cfg) (V : Finset ι) (hs : List H) : ∀ (post pre : List (Ex L ι K)) (m : Node L ι K H G)
    (ns : List (Node L ι K H G)) (Q : List ι) (B : (ι → Nat) → K), PInv D (V ∪ allIdxU post) Q B m → (∀ x ∈ Q, x ∈ allIdxU pre) →
    (∀ x ∈ allIdxU pre, x ∈ V ∨ x ∈ allIdxU post → x ∈ Q) → AllInv D V (allIdxU pre) post ns →
    PInv D V (Q ++ slotsProd V (allIdxU pre) post) (fun ρ => B ρ * bodyProd D V (allIdxU pre) post ρ)
      (foldProd cfg hs (ltrImed ((pre ++ post).map allIdx) V) pre.length m ns) := by
  intro post
  induction post with
  | nil =>
    intro pre m ns Q B hm _ _ hns
    cases ns with
    | cons n ns => exact absurd hns (by simp [AllInv])
    | nil =>
      simp only [slotsProd, List.append_nil, bodyProd, mul_one, foldProd]
      simpa [allIdxU] using hm
  | cons e post ih =>
    intro pre m ns Q B hm hQ hP hns
    cases ns with
    | nil => exact absurd hns (by simp [AllInv])
    | cons n ns =>
      obtain ⟨hn, hns⟩ := hns
      have s : Step V (allIdxU pre) (allIdxU post) (allIdx e) Q (slots (allIdx e ∩ (V ∪ allIdxU pre ∪ allIdxU post)) e) := by
        refine ⟨hQ, fun x hx => slots_sub _ e x hx, fun x hx h => hP x hx ?_, fun x hx h => kept_slots _ e x hx ?_⟩
        · rw [allIdxU, Finset.mem_union]; tauto
        · simp only [Finset.mem_inter, Finset.mem_union]; tauto
      have hstep := makeProd_inv hc s (B := B) (b := body D (allIdx e ∩ (V ∪ allIdxU pre ∪ allIdxU post)) e) (m := m) (n := n)
        (hm.congr fun x _ => by simp only [allIdxU, Finset.mem_union]; tauto) hn (imedHash cfg hs pre.length)
        ((ltrImed ((pre ++ e :: post).map allIdx) V).getD pre.length ∅) (ltrImed_mem V pre e post)
      have := ih (pre ++ [e]) _ ns _ _ hstep ?_ ?_ ?_
      · rw [allIdxU_snoc] at this
        rw [foldProd, slotsProd, bodyProd]
        simp only [List.append_assoc, mul_assoc, List.length_append, List.length_singleton, List.singleton_append] at this ⊢
        exact this
      · intro x hx
        rw [allIdxU_snoc, Finset.mem_union]
        rcases List.mem_append.1 hx with h | h
        · exact Or.inl (hQ x h)
        · exact Or.inr (s.sub' x h)
      · intro x hx h
        rw [allIdxU_snoc, Finset.mem_union] at hx
        rw [List.mem_append]
        rcases hx with hx | hx
        · exact Or.inl (s.have_ x hx (by tauto))
        · exact Or.inr (s.have' x hx (by tauto))
      · rw [allIdxU_snoc]
        exact hns

omit [DecidableEq ι] [Star K] in
theorem scaleNode_expr (c : K) (n : Node L ι K H G) : (scaleNode cfg c n).label.expr = match n.label.expr with
    | .ten t => .ten (imedLike cfg t)
    | .const a => .const (a * c)
    | .var _ => .var cfg.lblZ := rfl

theorem scaleNode_inv (hc : Lawful cfg) {W : Finset ι} {Q : List ι} {B : (ι → Nat) → K} {n : Node L ι K H G} (h : PInv D W Q B n) (c : K) :
    PInv D W Q (fun ρ => c * B ρ) (scaleNode cfg c n) where
  nodup := h.nodup
  idx := h.idx
  kind := by
    have e : (scaleNode cfg c n).label.isTensor = n.label.isTensor := by
      unfold EE.isTensor
      rw [scaleNode_expr]
      cases n.label.expr <;> rfl
    rw [e]
    exact h.kind
  expr := by
    intro t ht
    rw [scaleNode_expr] at ht
    split at ht
    · rename_i u hu
      simp only [NX.ten.injEq] at ht
      subst ht
      have hp := imedLike_idx hc u
      refine ⟨hp.nodup_iff.2 (h.expr u hu).1, ?_⟩
      rw [List.toFinset_eq_of_perm _ _ hp]
      exact (h.expr u hu).2
    · simp at ht
    · simp at ht
  coll := by
    have : collect (scaleNode cfg c n) = collect n := by simp [scaleNode, collect, leafConst]
    rw [this]
    exact h.coll
  dep := fun σ τ hst => by show c * _ = c * _; rw [h.dep σ τ hst]
  val := by
    rw [scaleNode, nodeVal_prod D _ _ _ rfl]
    have e : ((n.label.idx.toFinset ∪ (leafConst cfg c : Node L ι K H G).label.idx.toFinset) \ n.label.idx.toFinset).toList = [] := by
      simp [leafConst, ETree.label]
    have hv := sumL_mul D.dims (dummies W Q).toList (fun _ => c) B (fun _ => False) (fun _ _ _ => rfl) (by simp)
    rw [hv]
    funext ρ
    simp only [e, sumL, h.val, mul_comm c]
    congr 1

/-! ### Sums -/

variable (D) in
/-- A node with indices `O` that computes `B`. -/
structure SInv (O : Finset ι) (B : (ι → Nat) → K) (n : Node L ι K H G) : Prop where
  nodup : n.label.idx.Nodup
  idx : n.label.idx.toFinset = O
  kind : n.label.isTensor = true ↔ n.label.idx ≠ []
  expr : ∀ t, n.label.expr = .ten t → t.idx.Nodup ∧ t.idx.toFinset = n.label.idx.toFinset
  val : nodeVal D n = B

theorem SInv.tensor_iff {O : Finset ι} {B : (ι → Nat) → K} {n : Node L ι K H G} (h : SInv D O B n) : n.label.isTensor = true ↔ O ≠ ∅ := by
  rw [h.kind, ← h.idx, Ne, Ne, toFinset_eq_empty_iff']

theorem SInv.mem {O : Finset ι} {B : (ι → Nat) → K} {n : Node L ι K H G} (h : SInv D O B n) (x : ι) : x ∈ n.label.idx ↔ x ∈ O := by
  rw [← h.idx, List.mem_toFinset]

theorem PInv.toSInv {W : Finset ι} {Q : List ι} {B : (ι → Nat) → K} {n : Node L ι K H G} (h : PInv D W Q B n) :
    SInv D (openOf W Q) (sumL D.dims (dummies W Q).toList B) n := ⟨h.nodup, h.idx, h.kind, h.expr, h.val⟩

theorem makeSum_inv (hc : Lawful cfg) {O : Finset ι} {B b : (ι → Nat) → K} {m n : Node L ι K H G} (hm : SInv D O B m) (hn : SInv D O b n)
    (h : H) : SInv D O (fun ρ => B ρ + b ρ) (.node (makeSum cfg (decide (O ≠ ∅)) h m.label) m n) ∧
    (makeSum cfg (decide (O ≠ ∅)) h m.label).op = .sum := by
  have hop : (makeSum cfg (decide (O ≠ ∅)) h m.label).op = .sum := by unfold makeSum; split <;> rfl
  have key : (makeSum cfg (decide (O ≠ ∅)) h m.label).idx.Nodup ∧ (makeSum cfg (decide (O ≠ ∅)) h m.label).idx.toFinset = O ∧
      ((makeSum cfg (decide (O ≠ ∅)) h m.label).isTensor = true ↔ (makeSum cfg (decide (O ≠ ∅)) h m.label).idx ≠ []) ∧
      ∀ t, (makeSum cfg (decide (O ≠ ∅)) h m.label).expr = .ten t →
        t.idx.Nodup ∧ t.idx.toFinset = (makeSum cfg (decide (O ≠ ∅)) h m.label).idx.toFinset := by
    unfold makeSum
    split
    · rename_i t hO ht
      have hO : O ≠ ∅ := by simpa using hO
      refine ⟨hm.nodup, hm.idx, ?_, ?_⟩
      · simp only [EE.isTensor, true_iff]
        exact hm.kind.1 (hm.tensor_iff.2 hO)
      · intro u hu
        simp only [NX.ten.injEq] at hu
        subst hu
        have hp := imedLike_idx hc t
        exact ⟨hp.nodup_iff.2 (hm.expr t ht).1, by rw [List.toFinset_eq_of_perm _ _ hp, (hm.expr t ht).2]⟩
    · rename_i hno
      have hO : O = ∅ := by
        by_contra hcon
        have ht := hm.tensor_iff.2 hcon
        unfold EE.isTensor at ht
        split at ht
        · rename_i t ht'
          exact hno t (by simpa using hcon) ht'
        · exact absurd ht (by decide)
      refine ⟨List.nodup_nil, by simp [hO], by simp [EE.isTensor], by simp⟩
  refine ⟨⟨key.1, key.2.1, key.2.2.1, key.2.2.2, ?_⟩, hop⟩
  have hmem : ∀ x, x ∈ (makeSum cfg (decide (O ≠ ∅)) h m.label).idx ↔ x ∈ O := fun x => by
    have := congrArg (x ∈ ·) key.2.1
    simpa only [List.mem_toFinset, eq_iff_iff] using this
  rw [nodeVal_sum D _ _ _ hop (fun x hx => (hmem x).2 ((hm.mem x).1 hx)) (fun x hx => (hmem x).2 ((hn.mem x).1 hx)), hm.val, hn.val]

variable (D) in
/-- The nodes compute the summands. -/
def SumInv (V O : Finset ι) : List (Ex L ι K) → List (Node L ι K H G) → Prop
  | [], [] => True
  | e :: l, n :: ns => (Inv D V e n ∧ openOf V (slots V e) = O) ∧ SumInv V O l ns
  | _, _ => False

theorem foldSum_inv (hc : Lawful cfg) (V O : Finset ι) (hs : List H) : ∀ (l : List (Ex L ι K)) (ns : List (Node L ι K H G)) (i : Nat)
    (m : Node L ι K H G) (B : (ι → Nat) → K), SInv D O B m → SumInv D V O l ns →
    SInv D O (fun ρ => B ρ + bodySum D V l ρ) (foldSum cfg (decide (O ≠ ∅)) hs i m ns) ∧
      ((l ≠ [] ∨ ∃ a x y, m = .node a x y ∧ a.op = .sum) →
        ∃ a x y, foldSum cfg (decide (O ≠ ∅)) hs i m ns = .node a x y ∧ a.op = .sum) := by
  intro l
  induction l with
  | nil =>
    intro ns i m B hm hns
    cases ns with
    | cons n ns => exact absurd hns (by simp [SumInv])
    | nil => simpa [foldSum, bodySum] using hm
  | cons e l ih =>
    intro ns i m B hm hns
    cases ns with
    | nil => exact absurd hns (by simp [SumInv])
    | cons n ns =>
      obtain ⟨⟨hn, hO⟩, hns⟩ := hns
      have hn' := hn.toSInv
      rw [hO] at hn'
      obtain ⟨h1, h2⟩ := makeSum_inv hc hm hn' (imedHashLazy cfg hs i)
      obtain ⟨a, b⟩ := ih ns (i + 1) _ _ h1 hns
      refine ⟨?_, fun _ => b (Or.inr ⟨_, _, _, rfl, h2⟩)⟩
      rw [foldSum, bodySum]
      simp only [add_assoc] at a
      exact a

/-! ### Expressions -/

variable (D cfg) in
mutual
/-- The expressions for which the value is preserved: tensors have indices, none of them twice, and are canonical up to a rearrangement with
sign `+1` that the data allow; sums have at least two summands, all with the same indices. -/
def WF (V : Finset ι) : Ex L ι K → Prop
  | .const _ => True
  | .var _ => True
  | .ten t => t.idx ≠ [] ∧ t.idx.Nodup ∧ leafPhase cfg (bare t) = 1 ∧ DataSymm D cfg (bare t)
  | .sum l => 2 ≤ l.length ∧ WFSum V (slotsHead V l).toFinset l
  | .prod _ l => WFProd V ∅ l

def WFSum (V O : Finset ι) : List (Ex L ι K) → Prop
  | [] => True
  | e :: l => (WF V e ∧ openOf V (slots V e) = O) ∧ WFSum V O l

def WFProd (V P : Finset ι) : List (Ex L ι K) → Prop
  | [] => True
  | e :: l => WF (allIdx e ∩ (V ∪ P ∪ allIdxU l)) e ∧ WFProd V (P ∪ allIdx e) l
end

theorem sumInv_all {V O : Finset ι} : ∀ {l : List (Ex L ι K)} {ns : List (Node L ι K H G)}, SumInv D V O l ns →
    ∀ n ∈ ns, (n.label.isTensor = true ↔ O ≠ ∅)
  | [], [], _ => by simp
  | [], _ :: _, h => by simp [SumInv] at h
  | _ :: _, [], h => by simp [SumInv] at h
  | e :: l, n :: ns, h => by
    intro m hm
    rcases List.mem_cons.1 hm with rfl | hm
    · rw [h.1.1.tensor_iff, h.1.2]
    · exact sumInv_all h.2 m hm

theorem bodySum_depends {V O : Finset ι} : ∀ {l : List (Ex L ι K)} {ns : List (Node L ι K H G)}, SumInv D V O l ns →
    Optimize.DependsOn (bodySum D V l) (· ∈ O)
  | [], _, _ => fun _ _ _ => by rw [bodySum]
  | _ :: _, [], h => by simp [SumInv] at h
  | e :: l, n :: ns, h => by
    intro σ τ hst
    rw [bodySum]
    have h1 : sumL D.dims (dummies V (slots V e)).toList (body D V e) σ = sumL D.dims (dummies V (slots V e)).toList (body D V e) τ := by
      refine sumL_depends D.dims _ _ (· ∈ slots V e) h.1.1.dep σ τ fun x hx => hst x ?_
      rw [← h.1.2]
      by_contra hcon
      exact hx.2 (Finset.mem_toList.2 (Finset.mem_sdiff.2 ⟨List.mem_toFinset.2 hx.1, hcon⟩))
    show _ + _ = _ + _
    rw [h1, bodySum_depends h.2 σ τ hst]

variable [DecidableEq K]

mutual
/-- The tree made from a well-formed expression computes its value. -/
theorem bin_inv (hc : Lawful cfg) (V : Finset ι) : ∀ e : Ex L ι K, WF D cfg V e → ∃ n, bin cfg V e = some n ∧ Inv D V e n
  | .const c, _ => ⟨_, by rw [bin], by
      have := leafConst_inv (D := D) (cfg := cfg) c V
      simpa [Inv, slots, body] using this⟩
  | .var v, _ => ⟨_, by rw [bin], by
      have := leafVar_inv (D := D) (cfg := cfg) v V
      simpa [Inv, slots, body] using this⟩
  | .ten t, h => by
    rw [WF] at h
    obtain ⟨n, h1, h2⟩ := binTen_inv hc t V h.1 h.2.1 h.2.2.1 h.2.2.2
    refine ⟨n, by rw [bin, h1], ?_⟩
    rw [Inv, slots]
    have e : body D V (.ten t : Ex L ι K) = D.ten t := by rw [body]
    rw [e]
    exact h2
  | .sum [], h => by rw [WF] at h; simp at h
  | .sum [e], h => by rw [WF] at h; simp at h
  | .sum (e :: f :: l), h => by
    rw [WF] at h
    have h2 := h.2
    have hO : (slotsHead V (e :: f :: l)).toFinset = openOf V (slots V e) := by rw [slotsHead_cons, openList_toFinset]
    obtain ⟨ns, h3, h4⟩ := binAll_sum hc V _ (e :: f :: l) h2
    cases ns with
    | nil => exact absurd h4 (by simp [SumInv])
    | cons n ns =>
      have hall := sumInv_all h4
      have hdec : ((n :: ns).all (·.label.isTensor)) = decide ((slotsHead V (e :: f :: l)).toFinset ≠ ∅) := by
        rw [Bool.eq_iff_iff, List.all_eq_true, decide_eq_true_eq]
        exact ⟨fun h => (hall n (by simp)).1 (h n (by simp)), fun h m hm => (hall m hm).2 h⟩
      have hguard : ((n :: ns).all (·.label.isTensor) || (n :: ns).all (! ·.label.isTensor)) = true := by
        by_cases hO : (slotsHead V (e :: f :: l)).toFinset ≠ ∅
        · rw [hdec, decide_eq_true hO]; rfl
        · rw [Bool.or_eq_true]
          right
          rw [List.all_eq_true]
          intro m hm
          have := hall m hm
          cases hb : m.label.isTensor with
          | false => rfl
          | true => exact absurd (this.1 hb) hO
      refine ⟨_, by rw [bin, h3]; simp only; rw [binSum, if_pos hguard], ?_⟩
      obtain ⟨⟨hn, hO'⟩, hns⟩ := h4
      have hn' := hn.toSInv
      rw [hO'] at hn'
      obtain ⟨a, b⟩ := foldSum_inv hc V _ ((n :: ns).map (·.label.hash)) (f :: l) ns 1 n _ hn' hns
      obtain ⟨d, x, y, hd, hds⟩ := b (Or.inl (by simp))
      rw [← hdec] at a hd
      have hnd : (slots V (.sum (e :: f :: l) : Ex L ι K)).Nodup := by
        rw [slots, slotsHead_cons]; exact openList_nodup _ _
      have hs : (slots V (.sum (e :: f :: l) : Ex L ι K)).toFinset = (slotsHead V (e :: f :: l)).toFinset := by rw [slots]
      refine ⟨a.nodup, by rw [a.idx, openOf_nodup hnd, hs], a.kind, a.expr, ?_, ?_, ?_⟩
      · have hidx := a.idx
        have hkind := a.kind
        have hexpr := a.expr
        rw [hd] at hidx hkind hexpr ⊢
        have hcol : slotsOfTens (collect (.node d x y : Node L ι K H G)) = match d.expr with | .ten t => t.idx | _ => [] := by
          rw [collect, hds]
          cases hde : d.expr <;> simp [slotsOfTens]
        rw [hcol]
        cases hde : d.expr with
        | ten t =>
          obtain ⟨e1, e2⟩ := hexpr t hde
          simp only
          rw [List.perm_ext_iff_of_nodup e1 hnd]
          intro z
          rw [← List.mem_toFinset, ← List.mem_toFinset, e2, hidx, hs]
        | const c =>
          have : d.idx = [] := by
            by_contra hcon
            have := hkind.2 hcon
            simp [ETree.label, EE.isTensor, hde] at this
          simp only [ETree.label, this] at hidx
          have h0 : slots V (.sum (e :: f :: l) : Ex L ι K) = [] := by
            rw [← toFinset_eq_empty_iff', hs, ← hidx]; rfl
          rw [h0]
        | var v =>
          have : d.idx = [] := by
            by_contra hcon
            have := hkind.2 hcon
            simp [ETree.label, EE.isTensor, hde] at this
          simp only [ETree.label, this] at hidx
          have h0 : slots V (.sum (e :: f :: l) : Ex L ι K) = [] := by
            rw [← toFinset_eq_empty_iff', hs, ← hidx]; rfl
          rw [h0]
      · have e1 : body D V (.sum (e :: f :: l) : Ex L ι K) = bodySum D V (e :: f :: l) := by rw [body]
        rw [e1]
        have hdep := bodySum_depends (D := D) (V := V) (O := (slotsHead V (e :: f :: l)).toFinset) (l := e :: f :: l) (ns := n :: ns)
          ⟨⟨hn, hO'⟩, hns⟩
        intro σ τ hst
        refine hdep σ τ fun z hz => hst z ?_
        show z ∈ slots V _
        rw [← List.mem_toFinset, hs]
        exact hz
      · rw [dummies_nodup hnd, Finset.toList_empty, a.val]
        have e1 : body D V (.sum (e :: f :: l) : Ex L ι K) = bodySum D V (e :: f :: l) := by rw [body]
        rw [e1, bodySum]
        rfl
  | .prod c [], _ => ⟨_, by rw [bin], by
      have := leafConst_inv (D := D) (cfg := cfg) c V
      simpa [Inv, slots, slotsProd, body, bodyProd] using this⟩
  | .prod c (e :: l), h => by
    rw [WF] at h
    obtain ⟨ns, h3, h4⟩ := binAll_prod hc V ∅ (e :: l) h
    cases ns with
    | nil => exact absurd h4 (by simp [AllInv])
    | cons n ns =>
      obtain ⟨hn, hns⟩ := h4
      have hpre : allIdxU [e] = (∅ : Finset ι) ∪ allIdx e := by simp [allIdxU]
      have hfold := foldProd_inv (D := D) hc V ((n :: ns).map (·.label.hash)) l [e] n ns
        (slots (allIdx e ∩ (V ∪ ∅ ∪ allIdxU l)) e) (body D (allIdx e ∩ (V ∪ ∅ ∪ allIdxU l)) e) ?_ ?_ ?_ ?_
      · have e1 : PInv D V (slots V (.prod c (e :: l) : Ex L ι K)) (fun ρ => bodyProd D V ∅ (e :: l) ρ)
            (foldProd cfg ((n :: ns).map (·.label.hash)) (ltrImed ((e :: l).map allIdx) V) 1 n ns) := by
          rw [hpre] at hfold
          rw [slots, slotsProd, bodyProd]
          exact hfold
        have hb : bin cfg V (.prod c (e :: l)) = binProd cfg c (ltrImed ((e :: l).map allIdx) V) (n :: ns) := by
          rw [bin, ltrChildren_eq, h3]
        rw [hb, binProd]
        by_cases h1 : c = 1
        · subst h1
          refine ⟨_, if_pos rfl, ?_⟩
          have e2 : body D V (.prod 1 (e :: l) : Ex L ι K) = fun ρ => bodyProd D V ∅ (e :: l) ρ := by
            rw [body]; funext ρ; rw [one_mul]
          rw [Inv, e2]
          exact e1
        · refine ⟨_, if_neg h1, ?_⟩
          have e2 : body D V (.prod c (e :: l) : Ex L ι K) = fun ρ => c * bodyProd D V ∅ (e :: l) ρ := by rw [body]
          rw [Inv, e2]
          exact scaleNode_inv hc e1 c
      · refine PInv.congr hn fun x hx => ?_
        have := slots_sub _ e x hx
        simp only [Finset.mem_inter, Finset.mem_union, Finset.notMem_empty]
        tauto
      · intro x hx
        rw [hpre, Finset.mem_union]
        exact Or.inr (slots_sub _ e x hx)
      · intro x hx h
        rw [hpre, Finset.empty_union] at hx
        refine kept_slots _ e x hx ?_
        simp only [Finset.mem_inter, Finset.mem_union, Finset.notMem_empty]
        tauto
      · rw [hpre]
        exact hns

theorem binAll_sum (hc : Lawful cfg) (V O : Finset ι) : ∀ l : List (Ex L ι K), WFSum D cfg V O l →
    ∃ ns, binAll cfg (l.map fun _ => V) l = some ns ∧ SumInv D V O l ns
  | [], _ => ⟨[], by rw [binAll], by rw [SumInv]; trivial⟩
  | e :: l, h => by
    rw [WFSum] at h
    obtain ⟨n, h1, h2⟩ := bin_inv hc V e h.1.1
    obtain ⟨ns, h3, h4⟩ := binAll_sum hc V O l h.2
    refine ⟨n :: ns, ?_, ?_⟩
    · rw [binAll]
      simp only [List.map_cons, List.headD_cons, List.tail_cons, h1, h3]
    · exact ⟨⟨h2, h.1.2⟩, h4⟩

theorem binAll_prod (hc : Lawful cfg) (V P : Finset ι) : ∀ l : List (Ex L ι K), WFProd D cfg V P l →
    ∃ ns, binAll cfg (keptSets V P l) l = some ns ∧ AllInv D V P l ns
  | [], _ => ⟨[], by rw [binAll], by rw [AllInv]; trivial⟩
  | e :: l, h => by
    rw [WFProd] at h
    obtain ⟨n, h1, h2⟩ := bin_inv hc _ e h.1
    obtain ⟨ns, h3, h4⟩ := binAll_prod hc V _ l h.2
    refine ⟨n :: ns, ?_, ?_⟩
    · rw [binAll]
      simp only [keptSets, List.headD_cons, List.tail_cons, h1, h3]
    · exact ⟨h2, h4⟩
end

/-- **C56**: the tree made from an expression evaluates to the value of the expression.

Partial: for expressions that are well-formed (`WF`); leaves whose canonicalization changes the sign, single tensors with a repeated index and
proto-indices are not covered. -/
theorem binarize_value_partial (hc : Lawful cfg) (V : Finset ι) (e : Ex L ι K) (h : WF D cfg V e) :
    ∃ n, bin cfg V e = some n ∧ nodeVal D n = value D V e ∧ n.label.idx.Nodup ∧ n.label.idx.toFinset = openOf V (slots V e) := by
  obtain ⟨n, h1, h2⟩ := bin_inv hc V e h
  exact ⟨n, h1, h2.val, h2.nodup, h2.idx⟩

end SeQuant.Binarize
