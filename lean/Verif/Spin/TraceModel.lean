import Verif.Spin.Model

/-!
# Model of spin tracing, part 2: `closed_shell_spintrace` and `spintrace`

Transcribes `SeQuant/domain/mbpt/spin.cpp:275-364, 929-1090, 1648-1880`.

Simplifications beyond those of `Model`:
* `closedShell` starts after the call of `simplify` on line 959; the calls before it are `expandA`, `symmetrize`, `expandAntisymm`,
  `rapidSimplify` and `expand` (all modelled), and `simplify` (canonicalization is not modelled here);
* groups of external indices are lists of indices (`as_view_of_index_groups` forgets the slots);
* the check of lines 1657-1673, which compares the number of given and of determined external indices, is left out;
* `Index::LabelCompare` is taken to order and identify indices in the same way as `std::less<Index>`.
-/

namespace SeQuant.Spins

open SeQuant.Expression SeQuant.Perm SeQuant.Sort
open SeQuant.Tensors (Sym)

variable {K ι : Type}

section closed
variable [LinearOrder ι] [Field K] [DecidableEq K]

/-- Does `trace_product` collect the indices of this tensor (spin.cpp:993-996, 1009-1012)? -/
def collects (collect : Bool) (t : Tn ι) : Bool := collect || (decide (t.lab ≠ .A) && decide (t.lab ≠ .S))

/-- `get_bra_indices` (spin.cpp:1006-1019). -/
def braIndices (collect : Bool) : List (Expr K (Atm ι)) → List ι
  | [] => []
  | .atom (.tens t) :: l => (if collects collect t then t.bra else []) ++ braIndices collect l
  | _ :: l => braIndices collect l

/-- `get_ket_indices` (spin.cpp:990-1003). -/
def ketIndices (collect : Bool) : List (Expr K (Atm ι)) → List ι
  | [] => []
  | .atom (.tens t) :: l => (if collects collect t then t.ket else []) ++ ketIndices collect l
  | _ :: l => ketIndices collect l

/-- `substitute_ext_idx` for all groups (spin.cpp:1022-1032), on the two lists of indices. -/
def substExt : List (List ι) → List ι × List ι → Res (List ι × List ι)
  | [], st => .ok st
  | [x, y] :: gs, st =>
    substExt gs (st.1.map fun i => if i = x then y else i, st.2.map fun i => if i = x then y else i)
  | _ :: _, _ => .error .assertion

/-- The precondition checked by `count_cycles` (permutation.hpp:70-77). -/
def cyclesPre (v0 v1 : List ι) : Bool := decide (v0.length = v1.length) && (v0 ++ v1).all fun x => decide ((v0 ++ v1).count x = 2)

/-- `trace_product` in `closed_shell_spintrace_impl` (spin.cpp:968-1039); `pow2` asserts that the exponent is less than 64 (math.hpp:16-20).
The symmetrizers are removed before the indices are collected, but stay in the result. -/
def closedProduct (checks : Bool) (fuel : Nat) (groups : List (List ι)) (c : K) (l : List (Expr K (Atm ι))) : Res (Expr K (Atm ι)) := do
  let temp := l.filter fun f => !hasLab .S f
  let st ← substExt groups (braIndices groups.isEmpty temp, ketIndices groups.isEmpty temp)
  if checks && !cyclesPre st.2 st.1 then .error .assertion
  else do
    let n ← ofOption (countCycles fuel st.2 st.1)
    if checks && decide (64 ≤ n) then .error .assertion
    else return .prod (c * ((2 ^ n : Nat) : K)) l

/-- The loop over the summands (spin.cpp:1050-1060). -/
def closedSummands (checks : Bool) (fuel : Nat) (groups : List (List ι)) : List (Expr K (Atm ι)) → Res (List (Expr K (Atm ι)))
  | [] => .ok []
  | .prod c l :: es => do return (← closedProduct checks fuel groups c l) :: (← closedSummands checks fuel groups es)
  | .atom (.tens t) :: es => do
    return (← closedProduct checks fuel groups 1 [.atom (.tens t)]) :: (← closedSummands checks fuel groups es)
  | .const c :: es => do return .const c :: (← closedSummands checks fuel groups es)
  | .atom (.var n) :: es => do return .atom (.var n) :: (← closedSummands checks fuel groups es)
  | _ :: _ => .error .assertion

/-- `closed_shell_spintrace_impl` from line 1041 on. -/
def closedShell (checks : Bool) (fuel : Nat) (groups : List (List ι)) : Expr K (Atm ι) → Res (Expr K (Atm ι))
  | .const c => .ok (.const c)
  | .atom (.var n) => .ok (.atom (.var n))
  | .atom (.tens t) => closedProduct checks fuel groups 1 [.atom (.tens t)]
  | .atom (.oper _) => .error .thrown
  | .prod c l => closedProduct checks fuel groups c l
  | .sum _ l => do return mkSum (← closedSummands checks fuel groups l)

end closed

/-! ## `spintrace` -/

section general
variable [SpinIx ι] [Field K] [DecidableEq K]

/-- All indices of the tensors (`get_used_indices`, core/utility/indices.hpp:299-380). -/
def usedL : List (Expr K (Atm ι)) → List ι
  | [] => []
  | .atom (.tens t) :: l => t.bra ++ t.ket ++ t.aux ++ usedL l
  | _ :: l => usedL l

/-- The groups that are given a spin together (spin.cpp:1729-1768): internal indices one by one, then the external groups. -/
def spinGroups (ext : List (List ι)) (l : List (Expr K (Atm ι))) : List (List ι) :=
  ((setOf (usedL l)).filter fun i => decide (i ∉ ext.flatten)).map (fun i => [i]) ++ ext

/-- `index_replacements` for one case (spin.cpp:1779-1792). -/
def replacements (groups : List (List ι)) (k : Nat) : List (ι × ι) :=
  build (groups.zipIdx.flatMap fun p => p.1.map fun i => (i, SpinIx.setSpin i (if k.testBit p.2 then .beta else .alpha)))

/-- `append_spin` of a product (spin.cpp:275-315). -/
def appendSpin (m : List (ι × ι)) (c : K) (l : List (Expr K (Atm ι))) : Res (Expr K (Atm ι)) :=
  if l.all plain then .ok (mkProd .Recursively c (l.map (transformF m))) else .error .thrown

/-- Without spin (`remove_spin_from_tensor`, spin.cpp:318-329); auxiliary indices stay. -/
def Tn.spinFree (t : Tn ι) : Tn ι :=
  { t with bra := t.bra.map (SpinIx.setSpin · .any), ket := t.ket.map (SpinIx.setSpin · .any) }

/-- The factors in `remove_spin_from_product` (spin.cpp:331-347). -/
def removeSpinF : List (Expr K (Atm ι)) → Res (List (Expr K (Atm ι)))
  | [] => .ok []
  | .atom (.tens t) :: l => do return .atom (.tens t.spinFree) :: (← removeSpinF l)
  | .atom (.var n) :: l => do return .atom (.var n) :: (← removeSpinF l)
  | .const c :: l => do return .const c :: (← removeSpinF l)
  | _ :: _ => .error .thrown

mutual
/-- `remove_spin` (spin.cpp:317-364). -/
def removeSpin : Expr K (Atm ι) → Res (Expr K (Atm ι))
  | .const c => .ok (.const c)
  | .atom (.var n) => .ok (.atom (.var n))
  | .atom (.tens t) => .ok (.atom (.tens t.spinFree))
  | .atom (.oper _) => .error .thrown
  | .prod c l => do return mkProd .Recursively c (← removeSpinF l)
  | .sum _ l => do return mkSum (← removeSpinL l)
def removeSpinL : List (Expr K (Atm ι)) → Res (List (Expr K (Atm ι)))
  | [] => .ok []
  | e :: l => do return (← removeSpin e) :: (← removeSpinL l)
end

/-- `spintrace_tensor` (spin.cpp:1678-1680). -/
def traceTensor (t : Tn ι) : Res (Expr K (Atm ι)) := do
  if ← canExpand t then expandAntisymmT false t else return .const 0

/-- The first loop of `spintrace_product` (spin.cpp:1691-1700): `false` = a tensor cannot be expanded. -/
def allExpand : List (Expr K (Atm ι)) → Res Bool
  | [] => .ok true
  | .atom (.tens t) :: l => do if ← canExpand t then allExpand l else return false
  | .prod _ _ :: _ => .error .thrown
  | .sum _ _ :: _ => .error .thrown
  | _ :: l => allExpand l

/-- The second loop (spin.cpp:1703-1715). -/
def traceFactors : List (Expr K (Atm ι)) → Res (List (Expr K (Atm ι)))
  | [] => .ok []
  | .atom (.tens t) :: l => do return (← traceTensor t) :: (← traceFactors l)
  | .atom (.var n) :: l => do return .atom (.var n) :: (← traceFactors l)
  | .const c :: l => do return .const c :: (← traceFactors l)
  | _ :: _ => .error .thrown

/-- `spintrace_product` (spin.cpp:1685-1721). -/
def traceProd (fuel : Nat) (c : K) (l : List (Expr K (Atm ι))) : Res (Expr K (Atm ι)) := do
  if ← allExpand l then do
    let fs ← traceFactors l
    let e ← ofOption (expand fuel (mkProd .Recursively c fs))
    ofOption (rapidSimplify fuel e)
  else return .const 0

/-- The test of line 1805. -/
def isZeroConst : Expr K (Atm ι) → Bool
  | .const d => decide (d = 0)
  | _ => false

/-- `remove_spin` if requested. -/
def maybeRemove (spinfree : Bool) (e : Expr K (Atm ι)) : Res (Expr K (Atm ι)) := if spinfree then removeSpin e else .ok e

/-- The summands of a sum (spin.cpp:1810-1822). -/
def traceSum (fuel : Nat) (spinfree : Bool) : List (Expr K (Atm ι)) → Res (List (Expr K (Atm ι)))
  | [] => .ok []
  | .atom (.tens t) :: l => do return (← maybeRemove spinfree (mkSum [← traceTensor t])) :: (← traceSum fuel spinfree l)
  | .prod c' l' :: l => do return (← maybeRemove spinfree (mkSum [← traceProd fuel c' l'])) :: (← traceSum fuel spinfree l)
  | s :: l => do return (← maybeRemove spinfree (mkSum [s])) :: (← traceSum fuel spinfree l)

/-- One spin case (spin.cpp:1795-1825): what is appended to the result.  `expr` is the product without spin. -/
def traceCase (fuel : Nat) (spinfree : Bool) (expr : Expr K (Atm ι)) (m : List (ι × ι)) (c : K) (l : List (Expr K (Atm ι))) :
    Res (List (Expr K (Atm ι))) := do
  let e ← ofOption (rapidSimplify fuel (← appendSpin m c l))
  match e with
  | .atom (.tens t) => do return [← maybeRemove spinfree (← traceTensor t)]
  | .prod c' l' => do
    let r ← traceProd fuel c' l'
    if isZeroConst r then return [] else return [← maybeRemove spinfree r]
  | .sum _ l' => traceSum fuel spinfree l'
  | _ => return [expr]

def traceCases (fuel : Nat) (spinfree : Bool) (expr : Expr K (Atm ι)) (groups : List (List ι)) (c : K) (l : List (Expr K (Atm ι))) :
    List Nat → Res (List (Expr K (Atm ι)))
  | [] => .ok []
  | k :: ks => do
    return (← traceCase fuel spinfree expr (replacements groups k) c l) ++ (← traceCases fuel spinfree expr groups c l ks)

/-- `trace_product` in `spintrace_impl` (spin.cpp:1724-1828); line 1772 allows 64 groups, but `pow2` on line 1773 only 63. -/
def traceProduct (fuel : Nat) (spinfree : Bool) (ext : List (List ι)) (c : K) (l : List (Expr K (Atm ι))) : Res (Expr K (Atm ι)) :=
  match clone (.prod c l) with
  | .prod c' l' => do
    let groups := spinGroups ext l'
    if 64 ≤ groups.length then .error .assertion
    else return mkSum (← traceCases fuel spinfree (.prod c' l') groups c' l' (List.range (2 ^ groups.length)))
  | e => .ok e

/-- The loop over the terms (spin.cpp:1841-1851). -/
def traceSummands (fuel : Nat) (spinfree : Bool) (ext : List (List ι)) : List (Expr K (Atm ι)) → Res (List (Expr K (Atm ι)))
  | [] => .ok []
  | .prod c l :: es => do return (← traceProduct fuel spinfree ext c l) :: (← traceSummands fuel spinfree ext es)
  | .atom (.tens t) :: es => do
    return (← traceProduct fuel spinfree ext 1 [.atom (.tens t)]) :: (← traceSummands fuel spinfree ext es)
  | e :: es => do return e :: (← traceSummands fuel spinfree ext es)

/-- `spintrace_impl` after the antisymmetrizers are expanded (spin.cpp:1834-1859).  `result` is set in the loop over the summands (line 1850):
for an empty sum it stays null. -/
def spintraceTerms (fuel : Nat) (spinfree : Bool) (ext : List (List ι)) : Expr K (Atm ι) → Res (Expr K (Atm ι))
  | .atom (.tens t) => traceProduct fuel spinfree ext 1 [.atom (.tens t)]
  | .prod c l => traceProduct fuel spinfree ext c l
  | .sum _ [] => .error .null
  | .sum _ (e :: l) => do return mkSum (← traceSummands fuel spinfree ext (e :: l))
  | _ => .error .thrown

/-- `spintrace_impl` (spin.cpp:1648-1859). -/
def spintrace (fuel : Nat) (spinfree : Bool) (ext : List (List ι)) (e : Expr K (Atm ι)) : Res (Expr K (Atm ι)) :=
  match e with
  | .const c => .ok (.const c)
  | .atom (.var n) => .ok (.atom (.var n))
  | e => do
    let e' ← if hasTensor .A e then expandA e else .ok e
    spintraceTerms fuel spinfree ext e'

end general

end SeQuant.Spins
