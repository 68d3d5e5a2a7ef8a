import Verif.Binarize.Cached

/-!
# Comparison of nodes: an example and failures (C57)
-/

namespace SeQuant.Binarize

open SeQuant.Eval SeQuant.Tensors SeQuant.Optimize

/-! ### Networks told apart by their sorted tensors -/

/-- Leaves are left alone; networks are canonicalized by sorting the indices of (anti)symmetric tensors.  All hashes collide. -/
def cmpCfg : Cfg String Nat Int Unit (List (Ten String Nat) × Finset Nat) where
  cn s := (none, s)
  srt l := l.mergeSort
  merge := false
  lblI := "I"
  lblZ := "Z"
  hashTen _ := ()
  hashConst _ := ()
  hashVar _ := ()
  unordered _ := ()
  combine _ _ := ()
  hashAdj := ()
  net ts N := ⟨(slotsOfTens (ts.map (canonTen exCfg))).dedup.filter (· ∈ N), (ts.map (leafPhase exCfg)).prod, (), (ts.map (canonTen exCfg), N)⟩

theorem canon_slots : ∀ ts : List (Ten String Nat), (slotsOfTens (ts.map (canonTen exCfg))).Perm (slotsOfTens ts)
  | [] => List.Perm.refl _
  | t :: ts => (exCfg_lawful.canon_idx t).append (canon_slots ts)

theorem cmpCfg_lawful : Lawful cmpCfg where
  canon_idx t := List.Perm.refl _
  sort l := List.mergeSort_perm l _
  net_idx ts N h := by
    refine ⟨(List.nodup_dedup _).filter _, ?_⟩
    ext x
    simp only [cmpCfg, List.mem_toFinset, List.mem_filter, List.mem_dedup, decide_eq_true_eq, (canon_slots ts).mem_iff]
    exact ⟨fun h => h.2, fun hx => ⟨List.mem_toFinset.1 (h hx), hx⟩⟩

theorem leafPhase_sq (t : Ten String Nat) : leafPhase exCfg t * leafPhase exCfg t = 1 := by
  unfold leafPhase
  split <;> rfl

theorem tensProd_canon {S : Type} [Star Int] (D : Store String Nat S Int) : ∀ ts : List (Ten String Nat), (∀ t ∈ ts, DataSymm D exCfg t) →
    tensProd D ts = fun ρ => (ts.map (leafPhase exCfg)).prod * tensProd D (ts.map (canonTen exCfg)) ρ
  | [], _ => by funext ρ; simp [tensProd]
  | t :: ts, h => by
    funext ρ
    have ih := congrFun (tensProd_canon D ts fun u hu => h u (by simp [hu])) ρ
    simp only [tensProd] at ih
    simp only [tensProd, List.map_cons, List.prod_cons, ih, h t (by simp) ρ, Int.cast_id]
    ring

theorem phases_sq : ∀ ts : List (Ten String Nat), (ts.map (leafPhase exCfg)).prod * (ts.map (leafPhase exCfg)).prod = 1
  | [] => rfl
  | t :: ts => by
    have := phases_sq ts
    have h := leafPhase_sq t
    rw [List.map_cons, List.prod_cons, mul_mul_mul_comm, h, this]
    rfl

theorem cmpCfg_net {S : Type} [Star Int] (D : Store String Nat S Int) : NetLaw D cmpCfg (DataSymm D exCfg) where
  unit ts _ := phases_sq ts
  graph ts ts' N N' h h' hg p := by
    have g1 : ts.map (canonTen exCfg) = ts'.map (canonTen exCfg) := congrArg Prod.fst hg
    have g2 : N = N' := congrArg Prod.snd hg
    have hi : (cmpCfg.net ts N).idx = (cmpCfg.net ts' N').idx := by simp only [cmpCfg, g1, g2]
    have hs : (slotsOfTens ts).toFinset = (slotsOfTens ts').toFinset := by
      rw [← List.toFinset_eq_of_perm _ _ (canon_slots ts), g1, List.toFinset_eq_of_perm _ _ (canon_slots ts')]
    have key : ∀ ts : List (Ten String Nat), (∀ t ∈ ts, DataSymm D exCfg t) → ∀ N J, ((cmpCfg.net ts N).phase : Int) *
        netArr D ts J p = netArr D (ts.map (canonTen exCfg)) J p := by
      intro ts h N J
      have e : (slotsOfTens (ts.map (canonTen exCfg))).toFinset = (slotsOfTens ts).toFinset := List.toFinset_eq_of_perm _ _ (canon_slots ts)
      rw [netArr, netArr, e, tensProd_canon D ts h]
      have := sumL_mul D.dims ((slotsOfTens ts).toFinset \ J.toFinset).toList (fun _ => (ts.map (leafPhase exCfg)).prod)
        (tensProd D (ts.map (canonTen exCfg))) (fun _ => False) (fun _ _ _ => rfl) (by simp)
      rw [congrFun this, ← mul_assoc]
      have e2 : (cmpCfg.net ts N).phase = (ts.map (leafPhase exCfg)).prod := rfl
      rw [e2, phases_sq, one_mul]
    rw [Int.cast_id, Int.cast_id, key ts h N _, key ts' h' N' _, g1, hi]

/-- Tensors for which the laws hold. -/
def cmpAdm {S : Type} [Star Int] (D : Store String Nat S Int) (t : Ten String Nat) : Prop := DataSymm D exCfg t ∧ FullAdj (fun _ => 1) (fun _ => 1) t

/-- `g{b;k}` with two bra and two ket indices. -/
def cmpG (a b c d : Nat) : Ten String Nat := ⟨"g", false, ⟨.antisymm, false, true, [some a, some b], [some c, some d]⟩, []⟩

/-- The array of `exD`, but all indices are in one space. -/
def cmpD : Store String Nat Unit Int where
  sp _ := ()
  dims _ := 2
  arr := fun s _ _ p => match s, p with
    | "g", [a, b, c, d] => ((a : Int) - b) * (c - d)
    | "f", [a, b] => (a : Int) - b
    | _, [a, b] => a
    | _, [a, b, c] => a
    | _, _ => 0
  var s := if s = "x" then 3 else 2

theorem cmpG_symm [Star Int] (a b c d : Nat) (h : (canonTen exCfg (cmpG a b c d), leafPhase exCfg (cmpG a b c d)) = (cmpG b a c d, -1)) :
    DataSymm cmpD exCfg (cmpG a b c d) := by
  intro ρ
  have e := congrArg Prod.fst h
  have e1 := congrArg Prod.snd h
  simp only at e e1
  rw [e, e1]
  simp only [Store.ten, cmpG, cmpD, Ten.idx, List.filterMap_cons, List.filterMap_nil, id, Bool.false_eq_true, if_false, List.cons_append,
    List.nil_append, List.append_nil, List.map_cons, List.map_nil]
  push_cast
  ring

theorem symm_of_fixed [Star Int] {S : Type} (D : Store String Nat S Int) (t : Ten String Nat)
    (h : (canonTen exCfg t, leafPhase exCfg t) = (t, 1)) : DataSymm D exCfg t := by
  intro ρ
  have e := congrArg Prod.fst h
  have e1 := congrArg Prod.snd h
  simp only at e e1
  rw [e, e1, Int.cast_one, one_mul]

def cmpE (t : Ten String Nat) : Ex String Nat Int := .prod 5 [.ten t, .ten (exT "t" 3 1)]

/-- Decides `PhasesKept` for all nodes. -/
def keptB {L ι K H G : Type} [DecidableEq G] : Node L ι K H G → Bool
  | .leaf _ => true
  | .node a l r => (! (decide (a.op = .prod) && a.graph.isNone) || decide (a.phase = l.label.phase * r.label.phase)) && keptB l && keptB r

theorem keptB_sound {L ι K H G : Type} [DecidableEq G] : ∀ n : Node L ι K H G, keptB n = true → Every PhasesKept n
  | .leaf _, _ => trivial
  | .node a l r, h => by
    simp only [keptB, Bool.and_eq_true, Bool.or_eq_true, Bool.not_eq_true', decide_eq_true_eq] at h
    refine ⟨?_, keptB_sound l h.1.2, keptB_sound r h.2⟩
    intro h1 h2
    rcases h.1.1 with h3 | h3
    · rw [h2] at h3; simp [h1] at h3
    · exact h3

theorem cmpE_wf [Star Int] (t : Ten String Nat) (ht : t.idx ≠ []) (hn : t.idx.Nodup) (ha : t.adj = false) : WF cmpD cmpCfg ∅ (cmpE t) := by
  have triv : ∀ u : Ten String Nat, DataSymm cmpD cmpCfg u := by
    intro u ρ
    have e : canonTen cmpCfg u = u := rfl
    have e1 : leafPhase cmpCfg u = 1 := rfl
    rw [e, e1, Int.cast_one, one_mul]
  rw [cmpE, WF, WFProd, WFProd, WFProd, WF, WF]
  exact ⟨⟨ht, hn, rfl, triv _⟩, ⟨by decide, by decide, rfl, triv _⟩, trivial⟩

/-- `5 g{2,1;3,4} t{3;1}` and `5 g{1,2;3,4} t{3;1}` are taken for the same, with opposite phases: one is minus the other. -/
example [Star Int] : ∃ m n, bin cmpCfg ∅ (cmpE (cmpG 2 1 3 4)) = some m ∧ bin cmpCfg ∅ (cmpE (cmpG 1 2 3 4)) = some n ∧
    same cmpD.sp m n = true ∧ ∀ p, nodeArr cmpD m p = - nodeArr cmpD n p := by
  obtain ⟨m, hm, -, -, hmE⟩ := bin_net cmpCfg_lawful ∅ _ (cmpE_wf (cmpG 2 1 3 4) (by decide) (by decide) rfl) (by simp [cmpE, NoSum, NoSumL])
  obtain ⟨n, hn, -, -, hnE⟩ := bin_net cmpCfg_lawful ∅ _ (cmpE_wf (cmpG 1 2 3 4) (by decide) (by decide) rfl) (by simp [cmpE, NoSum, NoSumL])
  have both : (match bin cmpCfg ∅ (cmpE (cmpG 2 1 3 4)), bin cmpCfg ∅ (cmpE (cmpG 1 2 3 4)) with
      | some m, some n => same cmpD.sp m n && decide (m.label.phase = -1) && decide (n.label.phase = 1) && keptB m && keptB n &&
          decide (collect m = [cmpG 2 1 3 4, exT "t" 3 1]) && decide (collect n = [cmpG 1 2 3 4, exT "t" 3 1])
      | _, _ => false) = true := by decide +kernel
  rw [hm, hn] at both
  simp only [Bool.and_eq_true, decide_eq_true_eq] at both
  obtain ⟨⟨⟨⟨⟨⟨h1, h2⟩, h3⟩, h4⟩, h5⟩, h6⟩, h7⟩ := both
  refine ⟨m, n, hm, hn, h1, fun p => ?_⟩
  have hnet := cmpCfg_net cmpD
  have adm : ∀ t : Ten String Nat, t = cmpG 2 1 3 4 ∨ t = cmpG 1 2 3 4 ∨ t = exT "t" 3 1 → cmpAdm cmpD t := by
    rintro t (rfl | rfl | rfl)
    · exact ⟨cmpG_symm 2 1 3 4 (by decide +kernel), fun h => by simp [cmpG] at h⟩
    · exact ⟨symm_of_fixed _ _ (by decide +kernel), fun h => by simp [cmpG] at h⟩
    · exact ⟨symm_of_fixed _ _ (by decide +kernel), fun h => by simp [exT] at h⟩
  have := same_sound_partial (Adm := cmpAdm cmpD) ⟨hnet.unit, fun ts ts' N N' h h' => hnet.graph ts ts' N N' (fun t ht => (h t ht).1) fun t ht => (h' t ht).1⟩
    (fun t u ht hu => adjLaw_full cmpD _ _ t u ht.2 hu.2) hmE hnE (keptB_sound m h4) (keptB_sound n h5)
    (fun t ht => adm t (by rw [h6] at ht; simp at ht; tauto)) (fun t ht => adm t (by rw [h7] at ht; simp at ht; tauto)) h1 p
  rw [h2, h3] at this
  simp only [Int.cast_id, Int.reduceNeg, neg_mul, one_mul] at this
  omega

/-! ### Failures -/

/-- **C57 fails** for sums: `A{1;2} + B{1;2}` and `A{1;2} + B{2;1}`, with indices in the same space, compare equal. -/
theorem same_sum_violated [Star Int] : ∃ m n, bin cmpCfg ∅ (.sum [.ten (exT "A" 1 2), .ten (exT "f" 1 2)]) = some m ∧
    bin cmpCfg ∅ (.sum [.ten (exT "A" 1 2), .ten (exT "f" 2 1)]) = some n ∧ same cmpD.sp m n = true ∧ m.label.phase = n.label.phase ∧
    nodeArr cmpD m [0, 1] = -1 ∧ nodeArr cmpD n [0, 1] = 1 := by
  refine ⟨_, _, rfl, rfl, ?_, rfl, ?_, ?_⟩
  · decide +kernel
  · rfl
  · rfl

/-- An adjoint tensor. -/
def cmpT (b k : List Nat) : Ten String Nat := ⟨"t", true, ⟨.nonsymm, false, false, b.map some, k.map some⟩, []⟩

/-- **C57 fails** for adjoint tensors whose label does not fix the number of bra indices: `t⁺{1,2;3}` and `t⁺{1;2,3}` compare equal. -/
theorem same_adjoint_violated : letI : Star Int := ⟨id⟩; ∃ m n, bin cmpCfg ∅ (.ten (cmpT [1, 2] [3])) = some m ∧
    bin cmpCfg ∅ (.ten (cmpT [1] [2, 3])) = some n ∧ same cmpD.sp m n = true ∧ m.label.phase = n.label.phase ∧
    nodeArr cmpD m [4, 5, 6] = 6 ∧ nodeArr cmpD n [4, 5, 6] = 5 := by
  refine ⟨_, _, rfl, rfl, ?_, rfl, ?_, ?_⟩
  · decide +kernel
  · rfl
  · rfl

/-- An antisymmetric tensor without ket. -/
def cmpF (a b : Nat) : Ten String Nat := ⟨"f", false, ⟨.antisymm, false, true, [some a, some b], []⟩, []⟩

/-- `F{a,b} t{;1,2} x`. -/
def cmpS (a b : Nat) : Ex String Nat Int := .prod 1 [.ten (cmpF a b), .ten ⟨"t", false, ⟨.nonsymm, false, false, [], [some 1, some 2]⟩, []⟩, .var "x"]

theorem cmpS_arr [Star Int] (a b : Nat) (h : a ≠ b) (hab : ({a, b} : Finset Nat) = {1, 2}) : ∃ n, bin cmpCfg ∅ (cmpS a b) = some n ∧
    nodeArr cmpD n [] = scal cmpD n * netArr cmpD (collect n) n.label.idx [] := by
  have triv : ∀ u : Ten String Nat, DataSymm cmpD cmpCfg u := by
    intro u ρ
    have e : canonTen cmpCfg u = u := rfl
    have e1 : leafPhase cmpCfg u = 1 := rfl
    rw [e, e1, Int.cast_one, one_mul]
  have hw : WF cmpD cmpCfg ∅ (cmpS a b) := by
    rw [cmpS, WF, WFProd, WFProd, WFProd, WFProd, WF, WF, WF]
    exact ⟨⟨by simp [cmpF, Ten.idx], by simp [cmpF, Ten.idx, h], rfl, triv _⟩, ⟨by decide, by decide, rfl, triv _⟩, trivial, trivial⟩
  obtain ⟨n, h1, -, -, h2⟩ := bin_net cmpCfg_lawful ∅ _ hw (by simp [cmpS, NoSum, NoSumL])
  exact ⟨n, h1, nodeArr_net h2.here []⟩

/-- The sum over both indices. -/
theorem netArr_two [Star Int] (ts : List (Ten String Nat)) (h : (slotsOfTens ts).toFinset = {1, 2}) :
    netArr cmpD ts [] [] = sumL cmpD.dims [1, 2] (tensProd cmpD ts) (asg [] []) := by
  rw [netArr, h]
  refine congrFun (sumL_perm _ ?_ _) _
  rw [List.perm_ext_iff_of_nodup (Finset.nodup_toList _) (by decide)]
  intro x
  simp

/-- **C57 fails** for scalar networks with a phase: the product with a scalar drops it, so `f{1,2} t{;1,2} x` and `f{2,1} t{;1,2} x` compare
equal with the same phase. -/
theorem same_phase_violated [Star Int] : ∃ m n, bin cmpCfg ∅ (cmpS 1 2) = some m ∧ bin cmpCfg ∅ (cmpS 2 1) = some n ∧ same cmpD.sp m n = true ∧
    m.label.phase = n.label.phase ∧ nodeArr cmpD m [] = 3 ∧ nodeArr cmpD n [] = -3 := by
  obtain ⟨m, hm, vm⟩ := cmpS_arr 1 2 (by decide) (by decide)
  obtain ⟨n, hn, vn⟩ := cmpS_arr 2 1 (by decide) (by decide)
  have both : (match bin cmpCfg ∅ (cmpS 1 2), bin cmpCfg ∅ (cmpS 2 1) with
      | some m, some n => same cmpD.sp m n && decide (m.label.phase = n.label.phase) && decide (m.label.idx = []) && decide (n.label.idx = []) &&
          decide (collect m = [cmpF 1 2, ⟨"t", false, ⟨.nonsymm, false, false, [], [some 1, some 2]⟩, []⟩]) &&
          decide (collect n = [cmpF 2 1, ⟨"t", false, ⟨.nonsymm, false, false, [], [some 1, some 2]⟩, []⟩]) &&
          decide (scal cmpD m = 3) && decide (scal cmpD n = 3)
      | _, _ => false) = true := by decide +kernel
  rw [hm, hn] at both
  simp only [Bool.and_eq_true, decide_eq_true_eq] at both
  obtain ⟨⟨⟨⟨⟨⟨⟨h1, h2⟩, h3⟩, h4⟩, h5⟩, h6⟩, h7⟩, h8⟩ := both
  refine ⟨m, n, hm, hn, h1, h2, ?_, ?_⟩
  · rw [vm, h3, h5, h7, netArr_two _ (by decide)]
    rfl
  · rw [vn, h4, h6, h8, netArr_two _ (by decide)]
    rfl

/-- Operations are not compared: with colliding hashes `x + y` and `x y` compare equal. -/
theorem same_op_collision [Star Int] : ∃ m n, bin cmpCfg ∅ (.sum [.var "x", .var "y"]) = some m ∧
    bin cmpCfg ∅ (.prod 1 [.var "x", .var "y"]) = some n ∧ same cmpD.sp m n = true ∧ m.label.phase = n.label.phase ∧
    nodeArr cmpD m [] = 5 ∧ nodeArr cmpD n [] = 6 := by
  obtain ⟨n, h1, -, -, h2⟩ := bin_net (D := cmpD) cmpCfg_lawful ∅ (.prod 1 [.var "x", .var "y"])
    (by rw [WF, WFProd, WFProd, WFProd, WF, WF]; exact ⟨trivial, trivial, trivial⟩) (by simp [NoSum, NoSumL])
  have e := nodeArr_net h2.here []
  have h3 : bin cmpCfg ∅ (.prod 1 [.var "x", .var "y"]) = some (.node (makeProd cmpCfg () ∅ (leafVar cmpCfg "x") (leafVar cmpCfg "y"))
    (leafVar cmpCfg "x") (leafVar cmpCfg "y")) := rfl
  rw [h3, Option.some.injEq] at h1
  subst h1
  refine ⟨_, _, rfl, h3, ?_, rfl, rfl, ?_⟩
  · decide +kernel
  · rw [e]
    have e1 : slotsOfTens (collect (.node (makeProd cmpCfg () ∅ (leafVar cmpCfg "x") (leafVar cmpCfg "y"))
      (leafVar cmpCfg "x") (leafVar cmpCfg "y"))) = [] := rfl
    rw [netArr, e1, List.toFinset_nil, Finset.empty_sdiff, Finset.toList_empty]
    rfl

end SeQuant.Binarize
