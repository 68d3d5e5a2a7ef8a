import Verif.Cse.Examples

/-!
# Where expressions made from trees and eliminated subexpressions have a different value (C75, C76)
-/

namespace SeQuant.Cse

open SeQuant.Eval SeQuant.Tensors SeQuant.Binarize SeQuant.Optimize

/-! ### Expressions -/

/-- All variables and all elements are 1. -/
def oneD : Store String Nat Unit Int := ⟨fun _ => (), fun _ => 1, fun _ _ _ _ => 1, fun _ => 1⟩

/-- The node for the scalar of a product. -/
def nScale (c : Int) (n : Node String Nat Int Unit Gr) : Node String Nat Int Unit Gr := scaleNode cseCfg c n

theorem nScale_val [Star Int] (c : Int) (n : Node String Nat Int Unit Gr) (h : (nScale c n).label.idx = n.label.idx) (ρ : Nat → Nat)
    (ho : (nScale c n).label.op = .prod) : nodeVal oneD (nScale c n) ρ = nodeVal oneD n ρ * c := by
  have e : nScale c n = .node (nScale c n).label n (leafConst cseCfg c) := rfl
  rw [e, nodeVal_prod oneD _ _ _ ho, h]
  have e0 : (n.label.idx.toFinset ∪ (leafConst cseCfg c : Node String Nat Int Unit Gr).label.idx.toFinset) \ n.label.idx.toFinset = ∅ := by
    simp [leafConst, ETree.label]
  rw [e0, Finset.toList_empty]
  rfl

/-- `x + y` and `x y` of variables. -/
def nVars (op : EOp) : Node String Nat Int Unit Gr := .node ⟨op, .var "Z", [], 1, (), none⟩ (leafVar cseCfg "x") (leafVar cseCfg "y")

/-- **C75 fails** for sums: `2 (x + y)` becomes `2 x y`. -/
theorem toExpr_sum_violated [Star Int] : bin cseCfg ∅ (.prod 2 [.sum [.var "x", .var "y"]]) = some (nScale 2 (nVars .sum)) ∧
    toExpr (nScale 2 (nVars .sum)) = some (.prod 2 [.var "x", .var "y"]) ∧ nodeVal oneD (nScale 2 (nVars .sum)) (fun _ => 0) = 4 ∧
    value oneD ∅ (.prod 2 [.var "x", .var "y"] : Ex String Nat Int) (fun _ => 0) = 2 := by
  refine ⟨rfl, rfl, ?_, ?_⟩
  · rw [nScale_val _ _ rfl _ rfl]
    rfl
  · simp [value, slots, slotsProd, dummies, openOf, sumL, body, bodyProd, oneD]

/-- **C75 fails** for variables: `2 x` becomes `2`. -/
theorem toExpr_var_violated [Star Int] (D : Store String Nat Unit Int) (h : D.var "x" ≠ 1) :
    bin cseCfg ∅ (.prod 2 [.var "x"]) = some (nScale 2 (leafVar cseCfg "x")) ∧ toExpr (nScale 2 (leafVar cseCfg "x")) = some (.prod 2 []) ∧
    value D ∅ (.prod 2 [.var "x"] : Ex String Nat Int) ≠ value D ∅ (.prod 2 [] : Ex String Nat Int) := by
  refine ⟨rfl, rfl, fun he => h ?_⟩
  have := congrFun he fun _ => 0
  simp [value, slots, slotsProd, dummies, openOf, sumL, body, bodyProd] at this
  exact this

/-- **C75 fails** for nested scalars: `3 (2 (x y))` becomes `3 x y`. -/
theorem toExpr_scalar_violated [Star Int] : bin cseCfg ∅ (.prod 3 [.prod 2 [.var "x", .var "y"]]) = some (nScale 3 (nScale 2 (nVars .prod))) ∧
    toExpr (nScale 3 (nScale 2 (nVars .prod))) = some (.prod 3 [.var "x", .var "y"]) ∧
    nodeVal oneD (nScale 3 (nScale 2 (nVars .prod))) (fun _ => 0) = 6 ∧
    value oneD ∅ (.prod 3 [.var "x", .var "y"] : Ex String Nat Int) (fun _ => 0) = 3 := by
  refine ⟨rfl, rfl, ?_, ?_⟩
  · rw [nScale_val _ _ rfl _ rfl, nScale_val _ _ rfl _ rfl]
    have : nodeVal oneD (nVars .prod) (fun _ => 0) = 1 := by
      rw [nVars, nodeVal_prod _ _ _ _ rfl]
      simp [leafVar, ETree.label, sumL, nodeVal, nodeArr, plain, arrays, oneD]
    rw [this]
    rfl
  · simp [value, slots, slotsProd, dummies, openOf, sumL, body, bodyProd, oneD]

/-- A product of two constants has no expression: an assertion fails. -/
theorem toExpr_consts_fails (c d : Int) (hc : c ≠ 1) : bin cseCfg ∅ (.prod c [.const d]) = some (nScale c (leafConst cseCfg d)) ∧
    toExpr (nScale c (leafConst cseCfg d)) = none := by
  refine ⟨?_, rfl⟩
  simp only [bin, List.map_cons, List.map_nil, binAll]
  simp [binProd, foldProd, hc, nScale]

/-! ### Subexpressions -/

/-- `f{2,1} t{;1,2}`: its canonicalization changes the sign. -/
def nFT : Node String Nat Int Unit Gr :=
  let f := cmpF 2 1
  let t : Ten String Nat := ⟨"t", false, ⟨.nonsymm, false, false, [], [some 1, some 2]⟩, []⟩
  .node ⟨.prod, .var "Z", [], -1, (), some (cseCfg.net [f, t] ∅).graph⟩ (.leaf ⟨.prod, .ten f, [2, 1], 1, (), none⟩)
    (.leaf ⟨.prod, .ten t, [1, 2], 1, (), none⟩)

/-- `r = v (f t)`. -/
def nFTv (r v : String) : Node String Nat Int Unit Gr := .node ⟨.prod, .var r, [], 1, (), none⟩ nFT (leafVar cseCfg v)

/-- `CSE = f t`. -/
def dFT : Node String Nat Int Unit Gr :=
  match nFT with
  | .node a l r => .node { a with expr := .var "CSE|" } l r
  | n => n

/-- `r = v (-CSE)`. -/
def uFTv (r v : String) : Node String Nat Int Unit Gr :=
  .node ⟨.prod, .var r, [], 1, (), none⟩ (nScale (-1) (leafVar cseCfg "CSE|")) (leafVar cseCfg v)

def eFTv (v : String) : Ex String Nat Int :=
  .prod 1 [.ten (cmpF 2 1), .ten ⟨"t", false, ⟨.nonsymm, false, false, [], [some 1, some 2]⟩, []⟩, .var v]

theorem nFT_val [Star Int] (E : Store String Nat Unit Int) (h1 : E.arr = cmpD.arr) (h2 : E.dims = cmpD.dims) : nodeVal E nFT (fun _ => 0) = -1 := by
  rw [nFT, nodeVal_prod _ _ _ _ rfl]
  have e : (({2, 1} ∪ {1, 2} : Finset Nat) \ ∅) = {1, 2} := by decide
  have h : ∀ f : (Nat → Nat) → Int, sumL E.dims (({1, 2} : Finset Nat)).toList f = sumL E.dims [1, 2] f := by
    intro f
    apply sumL_perm
    rw [List.perm_ext_iff_of_nodup (Finset.nodup_toList _) (by decide)]
    intro x
    simp
  have e2 : ((ETree.leaf ⟨EOp.prod, NX.ten (cmpF 2 1), [2, 1], 1, (), none⟩ : Node String Nat Int Unit Gr).label.idx.toFinset ∪
      (ETree.leaf ⟨EOp.prod, NX.ten ⟨"t", false, ⟨.nonsymm, false, false, [], [some 1, some 2]⟩, []⟩, [1, 2], 1, (), none⟩ :
        Node String Nat Int Unit Gr).label.idx.toFinset) \ ([] : List Nat).toFinset = {1, 2} := by decide
  simp only
  rw [e2, h, h2]
  simp only [nodeVal, nodeArr, plain, arrays, h1, ETree.label]
  rfl

/-- **C76 fails** for subexpressions with phase -1: the definition has the value of the subexpression without the phase, but every use is multiplied
by the phase.  `R = f{2,1} t{;1,2} x` and `T = f{2,1} t{;1,2} y` change their sign, with an array `f` that is antisymmetric. -/
theorem eliminate_sign_violated [Star Int] : binRes cseCfg (.var "R") (eFTv "x") = some (nFTv "R" "x") ∧
    binRes cseCfg (.var "T") (eFTv "y") = some (nFTv "T" "y") ∧
    eliminate cseCall [nFTv "R" "x", nFTv "T" "y"] = some ([dFT, uFTv "R" "x", uFTv "T" "y"], [0]) ∧
    (run cmpD [nFTv "R" "x", nFTv "T" "y"]).var "R" = -3 ∧ (run cmpD [dFT, uFTv "R" "x", uFTv "T" "y"]).var "R" = 3 := by
  have prod0 : ∀ (E : Store String Nat Unit Int) (r v : String) (n : Node String Nat Int Unit Gr), n.label.idx = [] →
      nodeVal E (.node ⟨.prod, .var r, [], 1, (), none⟩ n (leafVar cseCfg v)) (fun _ => 0) = nodeVal E n (fun _ => 0) * E.var v := by
    intro E r v n h
    rw [nodeVal_prod _ _ _ _ rfl, h]
    have e0 : (([] : List Nat).toFinset ∪ (leafVar cseCfg v : Node String Nat Int Unit Gr).label.idx.toFinset) \ ([] : List Nat).toFinset = ∅ := rfl
    simp only
    rw [e0, Finset.toList_empty]
    rfl
  have scale0 : ∀ (E : Store String Nat Unit Int), nodeVal E (nScale (-1) (leafVar cseCfg "CSE|")) (fun _ => 0) = - E.var "CSE|" := by
    intro E
    have e : nScale (-1) (leafVar cseCfg "CSE|") = .node (nScale (-1) (leafVar cseCfg "CSE|")).label (leafVar cseCfg "CSE|") (leafConst cseCfg (-1)) := rfl
    rw [e, nodeVal_prod _ _ _ _ rfl]
    have e0 : ((leafVar cseCfg "CSE|" : Node String Nat Int Unit Gr).label.idx.toFinset ∪
      (leafConst cseCfg (-1) : Node String Nat Int Unit Gr).label.idx.toFinset) \ (nScale (-1) (leafVar cseCfg "CSE|")).label.idx.toFinset = ∅ := rfl
    rw [e0, Finset.toList_empty]
    simp [sumL, nodeVal, nodeArr, plain, arrays, leafVar, leafConst]
  have vd : ∀ E : Store String Nat Unit Int, nodeVal E dFT = nodeVal E nFT := fun E => nodeVal_rename E _ _ _ _
  refine ⟨by decide +kernel, by decide +kernel, by decide +kernel, ?_, ?_⟩
  · have e1 : (run cmpD [nFTv "R" "x", nFTv "T" "y"]).var "R" = nodeVal cmpD (nFTv "R" "x") (fun _ => 0) := by
      simp [run, assign, nFTv, ETree.label]
    rw [e1, nFTv, prod0 _ _ _ _ rfl, nFT_val _ rfl rfl]
    rfl
  · have e0 : (assign cmpD dFT).var "CSE|" = -1 := by
      have : (assign cmpD dFT).var "CSE|" = nodeVal cmpD dFT (fun _ => 0) := by simp [assign, dFT, nFT, ETree.label]
      rw [this, vd, nFT_val _ rfl rfl]
    have e2 : (assign cmpD dFT).var "x" = 3 := by
      have : (assign cmpD dFT).var "x" = cmpD.var "x" := by simp [assign, dFT, nFT, ETree.label]
      rw [this]
      rfl
    have e1 : (run cmpD [dFT, uFTv "R" "x", uFTv "T" "y"]).var "R" = nodeVal (assign cmpD dFT) (uFTv "R" "x") (fun _ => 0) := by
      simp [run, uFTv, assign, dFT, nFT, ETree.label]
    rw [e1, uFTv, prod0 _ _ _ _ rfl, scale0, e0, e2]
    rfl

end SeQuant.Cse
