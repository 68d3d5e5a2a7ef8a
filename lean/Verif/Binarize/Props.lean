import Verif.Binarize.Block

/-!
# Binarization: consequences, examples and failures (C56)
-/

namespace SeQuant.Binarize

open SeQuant.Eval SeQuant.Tensors SeQuant.Optimize

variable {L ι K H G S : Type} [DecidableEq ι] [CommRing K] [Star K] [DecidableEq K]

/-! ### Products of tensors -/

/-- The product of the values of tensors. -/
def tensProd (D : Store L ι S K) (ts : List (Ten L ι)) (ρ : ι → Nat) : K := (ts.map fun t => D.ten t ρ).prod

omit [CommRing K] [Star K] [DecidableEq K] in
theorem slotsProd_tens (V : Finset ι) : ∀ (ts : List (Ten L ι)) (P : Finset ι),
    slotsProd V P (ts.map (Ex.ten (K := K))) = slotsOfTens ts
  | [], _ => by simp [slotsProd, slotsOfTens]
  | t :: ts, P => by
    have ih := slotsProd_tens V ts (P ∪ allIdx (.ten t : Ex L ι K))
    rw [List.map_cons, slotsProd, slots, ih]
    simp [slotsOfTens]

omit [DecidableEq K] in
theorem bodyProd_tens (D : Store L ι S K) (V : Finset ι) : ∀ (ts : List (Ten L ι)) (P : Finset ι),
    bodyProd D V P (ts.map (Ex.ten (K := K))) = tensProd D ts
  | [], _ => by rw [List.map_nil, bodyProd]; rfl
  | t :: ts, P => by
    rw [List.map_cons, bodyProd]
    funext ρ
    rw [bodyProd_tens D V ts]
    simp only [tensProd, List.map_cons, List.prod_cons]
    congr 1

omit [DecidableEq K] in
/-- Einstein's convention: the value of a product of tensors is the sum, over all values of the indices that occur more than once and are not
in `V`, of the product of the elements. -/
theorem value_tens (D : Store L ι S K) (V : Finset ι) (c : K) (ts : List (Ten L ι)) :
    value D V (.prod c (ts.map .ten)) =
      sumL D.dims ((slotsOfTens ts).dedup.filter fun x => 1 < (slotsOfTens ts).count x ∧ x ∉ V) fun ρ => c * tensProd D ts ρ := by
  have e1 : slots V (.prod c (ts.map .ten) : Ex L ι K) = slotsOfTens ts := by rw [slots, slotsProd_tens]
  have e2 : body D V (.prod c (ts.map .ten) : Ex L ι K) = fun ρ => c * tensProd D ts ρ := by rw [body, bodyProd_tens]
  rw [value, e1, e2]
  apply sumL_perm
  rw [List.perm_ext_iff_of_nodup (Finset.nodup_toList _) ((List.nodup_dedup _).filter _)]
  intro x
  rw [Finset.mem_toList, mem_dummies]
  simp only [List.mem_filter, List.mem_dedup, decide_eq_true_eq]
  constructor
  · rintro ⟨h1, h2, h3⟩
    have := List.count_pos_iff.2 h1
    exact ⟨h1, by omega, h3⟩
  · rintro ⟨h1, h2, h3⟩
    exact ⟨h1, by omega, h3⟩

variable {D : Store L ι S K} {cfg : Cfg L ι K H G}

omit [DecidableEq K] in
theorem wfProd_tens (V : Finset ι) : ∀ (ts : List (Ten L ι)) (P : Finset ι),
    (∀ t ∈ ts, t.idx ≠ [] ∧ t.idx.Nodup ∧ leafPhase cfg (bare t) = 1 ∧ DataSymm D cfg (bare t)) → WFProd D cfg V P (ts.map .ten)
  | [], _, _ => by rw [List.map_nil, WFProd]; trivial
  | t :: ts, P, h => by
    rw [List.map_cons, WFProd, WF]
    exact ⟨h t (by simp), wfProd_tens V ts _ fun u hu => h u (by simp [hu])⟩

/-- The tree made from a product of tensors evaluates to the Einstein sum. -/
theorem binarize_tens_partial (hc : Lawful cfg) (V : Finset ι) (c : K) (ts : List (Ten L ι))
    (h : ∀ t ∈ ts, t.idx ≠ [] ∧ t.idx.Nodup ∧ leafPhase cfg (bare t) = 1 ∧ DataSymm D cfg (bare t)) :
    ∃ n, bin cfg V (.prod c (ts.map .ten)) = some n ∧ nodeVal D n =
      sumL D.dims ((slotsOfTens ts).dedup.filter fun x => 1 < (slotsOfTens ts).count x ∧ x ∉ V) fun ρ => c * tensProd D ts ρ := by
  obtain ⟨n, h1, h2, _⟩ := binarize_value_partial (D := D) hc V (.prod c (ts.map .ten)) (by rw [WF]; exact wfProd_tens V ts ∅ h)
  exact ⟨n, h1, by rw [h2, value_tens]⟩

/-! ### Failures -/

omit [DecidableEq K] in
/-- A leaf whose canonicalization changes the sign evaluates to the negative of the tensor. -/
theorem leaf_sign_lost [DecidableEq K] (V : Finset ι) (t : Ten L ι) (ha : t.adj = false) (h0 : t.idx ≠ []) (hn : t.idx.Nodup)
    (hp : leafPhase cfg t = -1) (hsym : DataSymm D cfg t) :
    ∃ n, bin cfg V (.ten t) = some n ∧ nodeVal D n = fun ρ => - value D V (.ten t) ρ := by
  refine ⟨_, by rw [bin, binTen, if_neg (by simp [ha]), leafTen, if_neg h0], ?_⟩
  funext ρ
  have e : value D V (.ten t : Ex L ι K) ρ = D.ten t ρ := by
    rw [value, slots, dummies_nodup hn, Finset.toList_empty]
    simp only [sumL]
    rw [body]
  rw [e, hsym ρ, hp]
  have ha' : (canonTen cfg t).adj = false := ha
  simp [nodeVal, nodeArr, plain, ETree.label, arrays, Store.ten, ha', pad_map]

/-! ### Example -/

section example_

def exSorted (a b : Option Nat) : Bool := decide (a.getD 0 < b.getD 0)

def exPair (a b : Option Nat × Option Nat) : Bool := exSorted a.1 b.1

/-- Indices are numbers; hashes are left out. -/
def exCfg : Cfg String Nat Int Unit Unit where
  cn := blockCn 20 exSorted exSorted exPair
  srt l := l.mergeSort
  merge := false
  lblI := "I"
  lblZ := "Z"
  hashTen _ := ()
  hashConst _ := ()
  hashVar _ := ()
  unordered _ := ()
  combine _ _ := ()
  hashAdj := ()
  net ts N := ⟨(slotsOfTens ts).dedup.filter (· ∈ N), 1, (), ()⟩

theorem exCfg_lawful : Lawful exCfg where
  canon_idx := canonTen_idx exCfg 20 exSorted exSorted exPair rfl
  sort l := List.mergeSort_perm l _
  net_idx ts N h := by
    refine ⟨(List.nodup_dedup _).filter _, ?_⟩
    ext x
    simp only [exCfg, List.mem_toFinset, List.mem_filter, List.mem_dedup, decide_eq_true_eq]
    exact ⟨fun h => h.2, fun hx => ⟨List.mem_toFinset.1 (h hx), hx⟩⟩

/-- A tensor without symmetry. -/
def exT (s : String) (b k : Nat) : Ten String Nat := ⟨s, false, ⟨.nonsymm, false, false, [some b], [some k]⟩, []⟩

theorem exT_good {S : Type} (D : Store String Nat S Int) [Star Int] (s : String) (b k : Nat) (h : b ≠ k) :
    (exT s b k).idx ≠ [] ∧ (exT s b k).idx.Nodup ∧ leafPhase exCfg (bare (exT s b k)) = 1 ∧ DataSymm D exCfg (bare (exT s b k)) := by
  refine ⟨by simp [exT, Ten.idx], by simp [exT, Ten.idx, h], rfl, ?_⟩
  intro ρ
  have e : canonTen exCfg (bare (exT s b k)) = bare (exT s b k) := rfl
  have e1 : leafPhase exCfg (bare (exT s b k)) = 1 := rfl
  rw [e, e1, Int.cast_one, one_mul]

/-- `2 (A{1;2} + B{1;2}) C{2;3}`, whatever the arrays are. -/
def exE : Ex String Nat Int := .prod 2 [.sum [.ten (exT "A" 1 2), .ten (exT "B" 1 2)], .ten (exT "C" 2 3)]

theorem exE_wf {S : Type} (D : Store String Nat S Int) [Star Int] : WF D exCfg ∅ exE := by
  have hA := exT_good D "A" 1 2 (by decide)
  have hB := exT_good D "B" 1 2 (by decide)
  have hC := exT_good D "C" 2 3 (by decide)
  rw [exE, WF, WFProd, WFProd, WFProd]
  refine ⟨?_, ?_, trivial⟩
  · rw [WF, WFSum, WFSum, WFSum, WF, WF, slotsHead_cons, openList_toFinset]
    refine ⟨by decide, ⟨hA, ?_⟩, ⟨hB, ?_⟩, trivial⟩
    · rw [slots]
    · rw [slots, slots]; rfl
  · rw [WF]
    exact hC

example {S : Type} (D : Store String Nat S Int) [Star Int] : ∃ n, bin exCfg ∅ exE = some n ∧ nodeVal D n = value D ∅ exE ∧
    n.label.idx.toFinset = {1, 3} := by
  obtain ⟨n, h1, h2, _, h3⟩ := binarize_value_partial (D := D) exCfg_lawful ∅ exE (exE_wf D)
  refine ⟨n, h1, h2, ?_⟩
  rw [h3]
  have : slots ∅ exE = [1, 2, 2, 3] := by
    decide +kernel
  rw [this]
  decide

/-- `A{1;2} B{2;3}` is the matrix product. -/
example {S : Type} (D : Store String Nat S Int) [Star Int] : ∃ n, bin exCfg ∅ (.prod 1 ([exT "A" 1 2, exT "B" 2 3].map .ten)) = some n ∧
    nodeVal D n = sumL D.dims [2] fun ρ => 1 * tensProd D [exT "A" 1 2, exT "B" 2 3] ρ := by
  refine binarize_tens_partial exCfg_lawful ∅ 1 _ ?_
  intro t ht
  simp only [List.mem_cons, List.not_mem_nil, or_false] at ht
  rcases ht with rfl | rfl
  · exact exT_good D "A" 1 2 (by decide)
  · exact exT_good D "B" 2 3 (by decide)

/-- An antisymmetric tensor with its bra indices out of order. -/
def exG : Ten String Nat := ⟨"g", false, ⟨.antisymm, false, true, [some 2, some 1], [some 3, some 4]⟩, []⟩

/-- An antisymmetric array; every index has a space of its own. -/
def exD : Store String Nat Nat Int where
  sp := id
  dims _ := 2
  arr s _ _ p := match s, p with
    | "g", [a, b, c, d] => ((a : Int) - b) * (c - d)
    | _, [a, b] => a + 2 * b + 1
    | _, _ => 0
  var _ := 0

theorem exG_symm [Star Int] : DataSymm exD exCfg exG := by
  have e : canonTen exCfg exG = ⟨"g", false, ⟨.antisymm, false, true, [some 1, some 2], [some 3, some 4]⟩, []⟩ := by decide +kernel
  have e1 : leafPhase exCfg exG = -1 := by decide +kernel
  intro ρ
  rw [e, e1]
  simp only [Store.ten, exG, exD, Ten.idx, List.filterMap_cons, List.filterMap_nil, id, Bool.false_eq_true, if_false, List.cons_append,
    List.nil_append, List.append_nil, List.map_cons, List.map_nil]
  push_cast
  ring

/-- **C56 fails** for tensors that the canonicalization of leaves changes by a sign: `g{2,1;3,4}` evaluates to minus its value. -/
theorem binarize_value_violated [Star Int] : ∃ (ρ : Nat → Nat) (n : Node String Nat Int Unit Unit), Lawful exCfg ∧ DataSymm exD exCfg exG ∧
    bin exCfg ∅ (.ten exG) = some n ∧ nodeVal exD n ρ = 1 ∧ value exD ∅ (.ten exG : Ex String Nat Int) ρ = -1 := by
  obtain ⟨n, h1, h2⟩ := leaf_sign_lost (D := exD) (cfg := exCfg) ∅ exG rfl (by decide) (by decide) (by decide +kernel) exG_symm
  have hv : ∀ ρ : Nat → Nat, value exD ∅ (.ten exG : Ex String Nat Int) ρ = ((ρ 2 : Int) - ρ 1) * (ρ 3 - ρ 4) := by
    intro ρ
    rw [value, slots, dummies_nodup (by decide), Finset.toList_empty]
    simp only [sumL]
    rw [body]
    rfl
  refine ⟨fun x => if x = 1 ∨ x = 3 then 1 else 0, n, exCfg_lawful, exG_symm, h1, ?_, ?_⟩
  · rw [h2]; show -value _ _ _ _ = _; rw [hv]; rfl
  · rw [hv]; rfl

/-- **C56 fails** for a tensor with a repeated index: `t{1;1}` evaluates to the array of its diagonal elements, not to the trace. -/
theorem binarize_trace_violated [Star Int] : ∃ (n : Node String Nat Int Unit Unit), bin exCfg ∅ (.ten (exT "t" 1 1)) = some n ∧
    (∀ ρ, nodeVal exD n ρ = 3 * ρ 1 + 1) ∧ ∀ ρ, value exD ∅ (.ten (exT "t" 1 1) : Ex String Nat Int) ρ = 5 := by
  refine ⟨_, rfl, fun ρ => ?_, fun ρ => ?_⟩
  · show (((ρ 1 : Int) + 2 * (ρ 1 : Int)) + 1) = _
    ring
  · have hd : dummies ∅ [1, 1] = ({1} : Finset Nat) := by decide
    have hs : slots ∅ (.ten (exT "t" 1 1) : Ex String Nat Int) = [1, 1] := by rw [slots]; rfl
    rw [value, hs, hd, Finset.toList_singleton]
    have hb : body exD ∅ (.ten (exT "t" 1 1) : Ex String Nat Int) = fun ρ => (ρ 1 : Int) + 2 * ρ 1 + 1 := by rw [body]; rfl
    rw [hb]
    simp [sumL, exD, Finset.sum_range_succ]

end example_

end SeQuant.Binarize
