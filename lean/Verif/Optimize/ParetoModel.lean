import Verif.Optimize.DpModel

/-!
# Pareto frontiers and the peak-memory model (C32, C47)

Transcribes `SeQuant/core/optimize/cost_model.hpp` 236-261 and 293-471.

Simplifications: exact rationals instead of `double`; the secondary cost of a contraction (`w * roofline_op_cost(...)`, 386-391), the
footprints `S` and the index sets are given as functions of subsets.
-/

namespace SeQuant.Optimize

open SeQuant.Bits

section frontier

variable {P : Type} (peak flops : P → ℚ)

/-- `pareto_insert` (240-250). -/
def paretoInsert (f : List P) (p : P) : List P :=
  if f.any fun e => decide (peak e ≤ peak p ∧ flops e ≤ flops p) then f
  else (f.filter fun e => !decide (peak p ≤ peak e ∧ flops p ≤ flops e)) ++ [p]

/-- `f[i]` is a better choice than `f[best]` (256-258). -/
def lexBetter (a b : P) : Bool := decide (peak a < peak b ∨ (peak a = peak b ∧ flops a < flops b))

/-- `pareto_best` (253-261): the position chosen. -/
def paretoBest (f : List P) : Nat :=
  (List.range (f.length - 1)).foldl (fun best i =>
    match f[i + 1]?, f[best]? with
    | some a, some b => if lexBetter peak flops a b then i + 1 else best
    | _, _ => best) 0

end frontier

/-- `PeakModel::FrontPoint` (333-341). -/
structure FrontPoint (w : Nat) where
  peak : ℚ
  flops : ℚ
  lp : BitVec w
  rp : BitVec w
  lpFirst : Bool
  lpIdx : Nat
  rpIdx : Nat

/-- `PeakModel::Context` (362-372); `op n lp rp` is `cflops` (386-391). -/
structure PContext (w : Nat) where
  S : BitVec w → ℚ
  L : BitVec w → ℚ
  op : BitVec w → BitVec w → BitVec w → ℚ

/-- The candidate of one pair of points (393-405). -/
def frontPoint {w : Nat} (ctx : PContext w) (n lp rp : BitVec w) (li ri : Nat) (a b : FrontPoint w) : FrontPoint w :=
  let both := ctx.S lp + ctx.S rp + ctx.S (lp ||| rp)
  let lFirst := max (max (ctx.L rp + a.peak) (ctx.S lp + b.peak)) both
  let rFirst := max (max (ctx.L lp + b.peak) (ctx.S rp + a.peak)) both
  ⟨min lFirst rFirst, a.flops + b.flops + ctx.op n lp rp, lp, rp, decide (lFirst ≤ rFirst), li, ri⟩

/-- `PeakModel` (293-433).  The bodies of the two loops over frontier points (393-405) are visited in the same order. -/
def peakModel {w : Nat} : Model w (PContext w) (List (FrontPoint w)) where
  leaf ctx n := [⟨ctx.S n, 0, 0, 0, true, 0, 0⟩]
  init _ _ := []
  relax ctx n lp rp sl sr acc :=
    sl.zipIdx.foldl (fun acc a => sr.zipIdx.foldl (fun acc b =>
      paretoInsert FrontPoint.peak FrontPoint.flops acc (frontPoint ctx n lp rp a.2 b.2 a.1 b.1)) acc) acc
  finalize ctx _ st := (ctx, st)

/-- The body of the loop at the root (445-450). -/
def rootStep {w : Nat} (thresh : ℚ) (root : List (FrontPoint w)) (best : Option Nat) (i : Nat) : Option Nat :=
  match root[i]? with
  | none => best
  | some p =>
    if p.peak ≤ thresh then
      match best with
      | none => some i
      | some k => match root[k]? with
        | none => best
        | some q => if p.flops < q.flops ∨ (p.flops = q.flops ∧ p.peak < q.peak) then some i else best
    else best

/-- The choice at the root (436-450): `none` if nothing qualifies (the code then uses index -1). -/
def rootChoice {w : Nat} (tol : ℚ) (root : List (FrontPoint w)) : Option Nat :=
  match root.map FrontPoint.peak with
  | [] => none
  | x :: xs => (List.range root.length).foldl (rootStep ((xs.foldl min x) * (1 + tol)) root) none

/-- The recursion `build` (438-451); `fuel` bounds its depth. -/
def peakBuild {w : Nat} (st : BitVec w → List (FrontPoint w)) : Nat → BitVec w → Nat → Option (List Int)
  | 0, _, _ => none
  | fuel + 1, n, idx =>
    if popcount n.toNat = 1 then some [(ctz n.toNat : Int)]
    else match (st n)[idx]? with
      | none => none
      | some fp =>
        let fs := if fp.lpFirst then fp.lp else fp.rp
        let fi := if fp.lpFirst then fp.lpIdx else fp.rpIdx
        let ss := if fp.lpFirst then fp.rp else fp.lp
        let si := if fp.lpFirst then fp.rpIdx else fp.lpIdx
        match peakBuild st fuel fs fi, peakBuild st fuel ss si with
        | some s, some b => some (s ++ b ++ [-1])
        | _, _ => none

/-- `L[n]` (369-371): sum of the sizes of the tensors of `n`, lowest first. -/
def leafTotal {w : Nat} (S : BitVec w → ℚ) (nt : Nat) (n : BitVec w) : ℚ :=
  (List.range nt).foldl (fun s b => if n.getLsbD b then s + S (bit b) else s) 0

/-- `run_single_term_opt` (58-67) for the peak model. -/
def runPeak {w : Nat} (tol : ℚ) (S : BitVec w → ℚ) (op : BitVec w → BitVec w → BitVec w → ℚ) (conn : BitVec w → Bool) (nt : Nat) : Option (List Int) :=
  if nt = 1 then some [0]
  else if nt = 2 then some [0, 1, -1]
  else
    let ctx : PContext w := ⟨S, leafTotal S nt, op⟩
    let st := (solve peakModel conn nt ctx []).2
    let full := BitVec.ofNat w (2 ^ nt - 1)
    (rootChoice tol (st full)).bind fun best => peakBuild st (2 ^ nt) full best

end SeQuant.Optimize
