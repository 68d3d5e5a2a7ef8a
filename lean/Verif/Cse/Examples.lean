import Verif.Cse.BinProps
import Verif.Binarize.CompareExamples

/-!
# Trees and expressions, subexpression elimination: examples and failures (C75, C76)
-/

namespace SeQuant.Cse

open SeQuant.Eval SeQuant.Tensors SeQuant.Binarize SeQuant.Optimize

deriving instance DecidableEq for SeQuant.Binarize.EE

abbrev Gr := List (Ten String Nat) × Finset Nat

instance : DecidableEq (Node String Nat Int Unit Gr) := fun a b => SeQuant.Eval.instDecidableEqETree a b

/-- Like `cmpCfg`, sorted by insertion. -/
def cseCfg : Cfg String Nat Int Unit Gr := { cmpCfg with srt := fun l => l.insertionSort (· ≤ ·) }

theorem cseCfg_lawful : Lawful cseCfg := ⟨cmpCfg_lawful.canon_idx, fun l => List.perm_insertionSort _ l, cmpCfg_lawful.net_idx⟩

theorem cse_symm [Star Int] {S : Type} (D : Store String Nat S Int) (t : Ten String Nat) : DataSymm D cseCfg t := by
  intro ρ
  have e : canonTen cseCfg t = t := rfl
  have e1 : leafPhase cseCfg t = 1 := rfl
  rw [e, e1, Int.cast_one, one_mul]

/-- Subexpressions are called `CSE1`, `CSE2`, ...; all indices are in one space. -/
def cseCall : Call String Nat Int Unit Gr Unit :=
  ⟨binTrans cseCfg, fun _ => (), fun _ _ => true, [], fun _ _ => true, fun _ k => String.ofList ('C' :: 'S' :: 'E' :: List.replicate k '|')⟩

/-! ### Two trees with a common subexpression -/

def nAB : Node String Nat Int Unit Gr :=
  let a := .leaf ⟨.prod, .ten (exT "A" 1 2), [1, 2], 1, (), none⟩
  let b := .leaf ⟨.prod, .ten (exT "B" 2 3), [2, 3], 1, (), none⟩
  .node ⟨.prod, .ten (exT "I" 1 3), [1, 3], 1, (), some ([exT "A" 1 2, exT "B" 2 3], {1, 3})⟩ a b

/-- `r{1;4} = A{1;2} B{2;3} c{3;4}`. -/
def nABC (r c : String) : Node String Nat Int Unit Gr :=
  .node ⟨.prod, .ten (exT r 1 4), [1, 4], 1, (), some ([exT "A" 1 2, exT "B" 2 3, exT c 3 4], {1, 4})⟩ nAB
    (.leaf ⟨.prod, .ten (exT c 3 4), [3, 4], 1, (), none⟩)

def eABC (c : String) : Ex String Nat Int := .prod 1 [.ten (exT "A" 1 2), .ten (exT "B" 2 3), .ten (exT c 3 4)]

def exTrees : List (Node String Nat Int Unit Gr) := [nABC "R" "C", nABC "T" "E"]

example : binRes cseCfg (.ten (exT "R" 1 4)) (eABC "C") = some (nABC "R" "C") ∧ binRes cseCfg (.ten (exT "T" 1 4)) (eABC "E") = some (nABC "T" "E") := by
  decide +kernel

/-- The name of the common subexpression. -/
def exName : Ten String Nat := ⟨"CSE|", false, ⟨.nonsymm, false, false, [], []⟩, [1, 3]⟩

/-- `R` with the subexpression replaced. -/
def exUse (r c : String) : Node String Nat Int Unit Gr :=
  .node ⟨.prod, .ten (exT r 1 4), [1, 4], 1, (), some ([exT "A" 1 2, exT "B" 2 3, exT c 3 4], {1, 4})⟩
    (.leaf ⟨.prod, .ten exName, [1, 3], 1, (), none⟩) (.leaf ⟨.prod, .ten (exT c 3 4), [3, 4], 1, (), none⟩)

/-- Its definition. -/
def exDef : Node String Nat Int Unit Gr :=
  match nAB with
  | .node a l r => .node { a with expr := .ten exName } l r
  | n => n

def exOut : List (Node String Nat Int Unit Gr) := [exDef, exUse "R" "C", exUse "T" "E"]

theorem ex_eliminate : eliminate cseCall exTrees = some (exOut, [0]) := by decide +kernel

theorem ex_inner {t n : Node String Nat Int Unit Gr} (ht : t ∈ exTrees) (hn : n ∈ inner t) : n = nABC "R" "C" ∨ n = nABC "T" "E" ∨ n = nAB := by
  simp only [exTrees, List.mem_cons, List.not_mem_nil, or_false] at ht
  rcases ht with rfl | rfl <;> simp [nABC, nAB, inner] at hn ⊢ <;> tauto

def eAB : Ex String Nat Int := .prod 1 [.ten (exT "A" 1 2), .ten (exT "B" 2 3)]

theorem nAB_expr : toExpr nAB = some eAB := rfl

theorem nABC_expr (r c : String) : toExpr (nABC r c) = some (.prod 1 [eAB, .ten (exT c 3 4)]) := by
  rw [nABC, toExpr, nAB_expr]
  rfl

theorem nAB_fits [Star Int] {S : Type} (D : Store String Nat S Int) : Fits D {1, 3} nAB := by
  rw [nAB, Fits]
  simp only
  intro x y hx hy
  simp only [toExpr, ofNX, Option.some.injEq] at hx hy
  subst hx hy
  refine ⟨?_, ?_, by decide, by decide⟩
  · rw [Fits]; exact ⟨rfl, by decide, rfl⟩
  · rw [Fits]; exact ⟨rfl, by decide, rfl⟩

theorem idx_exT (s : String) (b k : Nat) : (exT s b k).idx = [b, k] := rfl

theorem allIdx_eAB : allIdx eAB = {1, 2, 3} := by decide

theorem nABC_fits [Star Int] {S : Type} (D : Store String Nat S Int) (r c : String) : Fits D {1, 4} (nABC r c) := by
  rw [nABC, Fits]
  simp only
  intro x y hx hy
  rw [nAB_expr, Option.some.injEq] at hx
  simp only [toExpr, ofNX, Option.some.injEq] at hy
  subst hx hy
  have e2 : allIdx (.ten (exT c 3 4) : Ex String Nat Int) = {3, 4} := by rw [allIdx, idx_exT]; decide
  rw [allIdx_eAB, e2]
  have v1 : ({1, 2, 3} ∩ ({1, 4} ∪ {3, 4}) : Finset Nat) = {1, 3} := by decide
  refine ⟨by rw [v1]; exact nAB_fits D, ?_, by decide, ?_⟩
  · rw [Fits]; exact ⟨rfl, by rw [idx_exT]; decide, rfl⟩
  · rw [slots, idx_exT]; decide

theorem nAB_clean : Clean nAB := by
  rw [nAB, Clean]
  simp only
  refine ⟨trivial, trivial, fun x y hx hy => ?_⟩
  simp only [toExpr, ofNX, Option.some.injEq] at hx hy
  subst hx hy
  trivial

theorem nABC_clean (r c : String) : Clean (nABC r c) := by
  rw [nABC, Clean]
  simp only
  refine ⟨nAB_clean, trivial, fun x y hx hy => ?_⟩
  rw [nAB_expr, Option.some.injEq] at hx
  simp only [toExpr, ofNX, Option.some.injEq] at hy
  subst hx hy
  trivial

/-- **C75** `((A B) c)`: the expression made from a tree with the value of the tree. -/
example [Star Int] {S : Type} (D : Store String Nat S Int) :
    nodeVal D (nABC "R" "C") = value D {1, 4} (.prod 1 [.prod 1 [.ten (exT "A" 1 2), .ten (exT "B" 2 3)], .ten (exT "C" 3 4)]) :=
  (toExpr_gives D (nABC_fits D "R" "C") (nABC_clean "R" "C") (nABC_expr "R" "C")).val

theorem ex_wf [Star Int] {S : Type} (D : Store String Nat S Int) (V : Finset Nat) (s : String) (b k : Nat) (h : b ≠ k) :
    WF D cseCfg V (.ten (exT s b k) : Ex String Nat Int) := by
  rw [WF]
  exact ⟨by simp [idx_exT], by simp [idx_exT, h], rfl, cse_symm D _⟩

theorem eAB_wf [Star Int] {S : Type} (D : Store String Nat S Int) (V : Finset Nat) : WF D cseCfg V eAB := by
  rw [eAB, WF, WFProd, WFProd, WFProd]
  exact ⟨ex_wf D _ _ _ _ (by decide), ex_wf D _ _ _ _ (by decide), trivial⟩

theorem ex_laws [Star Int] : BinLaws cseCfg (fun _ : Store String Nat Unit Int => True) exTrees where
  lawful := cseCfg_lawful
  plain := rfl
  nodup t ht n hn := by rcases ex_inner ht hn with rfl | rfl | rfl <;> decide
  fits t ht n hn D _ := by
    rcases ex_inner ht hn with rfl | rfl | rfl
    · exact nABC_fits D _ _
    · exact nABC_fits D _ _
    · exact nAB_fits D
  clean t ht n hn := by
    rcases ex_inner ht hn with rfl | rfl | rfl
    · exact nABC_clean _ _
    · exact nABC_clean _ _
    · exact nAB_clean
  wf t ht n hn D _ e he := by
    have h2 : ∀ c : String, ∀ V, WF D cseCfg V (.prod 1 [eAB, .ten (exT c 3 4)] : Ex String Nat Int) := by
      intro c V
      rw [WF, WFProd, WFProd, WFProd]
      exact ⟨eAB_wf D _, ex_wf D _ _ _ _ (by decide), trivial⟩
    rcases ex_inner ht hn with rfl | rfl | rfl
    · rw [nABC_expr, Option.some.injEq] at he; rw [← he]; exact h2 _ _
    · rw [nABC_expr, Option.some.injEq] at he; rw [← he]; exact h2 _ _
    · rw [nAB_expr, Option.some.injEq] at he; rw [← he]; exact eAB_wf D _
  kind t ht n hn := by rcases ex_inner ht hn with rfl | rfl | rfl <;> decide
  root n ht hn := by
    simp only [exTrees, List.mem_cons, List.not_mem_nil, or_false] at ht
    rcases ht with rfl | rfl <;> exact List.Perm.refl _

theorem ex_same : ∀ n ∈ [nABC "R" "C", nABC "T" "E", nAB], ∀ m ∈ [nABC "R" "C", nABC "T" "E", nAB],
    same (fun _ : Nat => ()) m n = true → m = n := by decide +kernel

/-- **C76** `A B` is computed once: for all arrays, the three trees give the same `R` and `T` as the two trees before. -/
example [Star Int] (D : Store String Nat Unit Int) : (run D exOut).arr "R" = (run D exTrees).arr "R" ∧ (run D exOut).arr "T" = (run D exTrees).arr "T" := by
  have hl : Laws (cseCall.opts exTrees) cseCall.sp (fun _ : Store String Nat Unit Int => True) exTrees := by
    refine binTrans_laws (le := cseCall.le) ex_laws rfl rfl (fun D _ => rfl) ?_ ?_ ?_ ⟨D, trivial⟩
    · intro t ht n hn
      rcases ex_inner ht hn with rfl | rfl | rfl <;> decide
    · intro t ht n hn
      rcases ex_inner ht hn with rfl | rfl | rfl <;> exact trivial
    · intro t ht n hn u hu m hm he
      have h1 := ex_inner ht hn
      have h2 := ex_inner hu hm
      have := ex_same n (by simpa using h1) m (by simpa using h2) he
      rw [this]
      exact ⟨rfl, rfl, fun _ _ _ => rfl⟩
  have hlen : ∀ k, 3 ≤ (List.replicate k '|').length + 3 := by omega
  have hne : ∀ (s : String) (k : Nat), s.toList.length < 3 → cseCall.gen nAB k ≠ s := by
    intro s k hs h
    have := congrArg (fun s => s.toList.length) h
    simp [cseCall] at this
    omega
  have hf : Fresh (cseCall.opts exTrees) exTrees := by
    refine ⟨?_, ?_, ?_⟩
    · intro n k t ht h
      have e : (cseCall.opts exTrees).gen n k = cseCall.gen nAB k := rfl
      rw [e] at h
      simp only [exTrees, List.mem_cons, List.not_mem_nil, or_false] at ht
      rcases ht with rfl | rfl <;> simp [nABC, nAB, reads, NX.label?, exT] at h <;> rcases h with h | h | h <;> exact hne _ k (by decide) h
    · intro n k t ht h
      have e : (cseCall.opts exTrees).gen n k = cseCall.gen nAB k := rfl
      rw [e] at h
      simp only [exTrees, List.mem_cons, List.not_mem_nil, or_false] at ht
      rcases ht with rfl | rfl <;> simp only [nABC, ETree.label, NX.label?, exT, Option.some.injEq] at h <;> exact hne _ k (by decide) h.symm
    · intro n k n' k' h
      have := congrArg (fun s => s.toList.length) h
      simpa [Call.opts, cseCall] using this
  have hs : Single exTrees := by
    intro pre t post h u hu r hr
    have hu' : u ∈ exTrees := by
      rw [h]
      rcases List.mem_append.1 hu with hu | hu
      · exact List.mem_append_left _ hu
      · rw [List.mem_singleton] at hu; subst hu; simp
    have ht' : t ∈ exTrees := by rw [h]; simp
    have key : ∀ t ∈ exTrees, ∀ u ∈ exTrees, ∀ r ∈ (NX.label? t.label.expr).toList, r ∉ reads u := by decide +kernel
    exact key t ht' u hu' r (by rw [hr]; simp)
  have := eliminate_value_partial (D := D) cseCall ex_eliminate hl hf hs (fun _ _ _ _ => trivial) (by
    intro t ht n hn _
    rcases ex_inner ht hn with rfl | rfl | rfl <;> decide) trivial
  exact ⟨(this.arr "R" fun n k => (hne "R" k (by decide)).symm).symm, (this.arr "T" fun n k => (hne "T" k (by decide)).symm).symm⟩

end SeQuant.Cse
