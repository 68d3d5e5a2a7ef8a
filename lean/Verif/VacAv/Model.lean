import Mathlib.Data.List.Basic

/-!
# Model of expectation values of products of operators (`SeQuant/domain/mbpt/vac_av.cpp:23-158`)

Labels are numbers.  Screening (`can_change_qns`), expansion, lowering to tensors, simplification and the evaluation of a product of tensors
(`tensor::expectation_value_impl`, i.e. Wick's theorem) are parameters.
-/

namespace SeQuant.VacAv

abbrev Label := Nat

/-- Expressions as far as they are told apart here. -/
inductive Expr
  | op (l : Label)
  | nop (id : Nat)
  | scalar (z : Int)
  | tensor (id : Nat)
  | prod (z : Int) (fs : List Expr)
  | sum (ts : List Expr)

def Expr.isSum : Expr → Bool
  | .sum _ => true
  | _ => false

/-- `oplbl2pos`: labels to positions. -/
abbrev PosMap := List (Label × List Nat)

/-- `find` followed by `emplace` or `emplace_back` (vac_av.cpp:88-93). -/
def addPos (l : Label) (p : Nat) : PosMap → PosMap
  | [] => [(l, [p])]
  | (x, ps) :: m => if x = l then (x, ps ++ [p]) :: m else (x, ps) :: addPos l p m

/-- The state of the loop over the factors: `oplbl2pos`, `pos`, `ops_only`. -/
structure Scan where
  map : PosMap
  pos : Nat
  opsOnly : Bool

/-- The loop (vac_av.cpp:84-102). -/
def scanStep (s : Scan) : Expr → Scan
  | .op l => ⟨addPos l s.pos s.map, s.pos + 1, s.opsOnly⟩
  | .nop _ => ⟨s.map, s.pos + 1, false⟩
  | _ => ⟨s.map, s.pos, false⟩

def scan (fs : List Expr) : Scan := fs.foldl scanStep ⟨[], 0, true⟩

/-- `lower_label_pairs` (vac_av.cpp:30-51). -/
def lowerPairs (m : PosMap) (pairs : List (Label × Label)) : List (Nat × Nat) :=
  pairs.flatMap fun p =>
    match m.lookup p.1, m.lookup p.2 with
    | some is, some js => is.flatMap fun i => (js.filter fun j => decide (i < j)).map fun j => (i, j)
    | _, _ => []

/-- The parameters. -/
structure Cfg (V : Type) where
  /-- `can_change_qns(expr, qns_t{})`. -/
  canChange : List Expr → Bool
  /-- lowering, simplification and `tensor::expectation_value_impl`, with the lists of pairs that must and must not be connected. -/
  eval : Int → List Expr → List (Nat × Nat) → List (Nat × Nat) → V
  /-- `expand` and `simplify` of a product with a sum among its factors. -/
  expand : Int → List Expr → Expr

/-- What a call returns; `none` = an `Exception` ("unknown expression type") or the fuel ran out. -/
def vacAvProduct {V : Type} [Zero V] (c : Cfg V) (connect avoid : List (Label × Label)) (screen : Bool) (z : Int) (fs : List Expr) : V :=
  let s := scan fs
  if s.opsOnly && screen && !c.canChange fs then 0
  else c.eval z fs (lowerPairs s.map connect) (lowerPairs s.map avoid)

/-- `expectation_value_impl` (vac_av.cpp:61-158); values are added where the code builds a sum. -/
def vacAv {V : Type} [Zero V] [Add V] (ofScalar : Int → V) (c : Cfg V) (connect avoid : List (Label × Label)) (screen : Bool) :
    Nat → Expr → Option V
  | 0, _ => none
  | fuel + 1, .prod z fs =>
    if fs.any Expr.isSum then vacAv ofScalar c connect avoid screen fuel (c.expand z fs)
    else some (vacAvProduct c connect avoid screen z fs)
  | fuel + 1, .sum ts =>
    ts.foldl (fun acc t => acc.bind fun a => (vacAv ofScalar c connect avoid screen fuel t).map fun v => a + v) (some 0)
  | _ + 1, .op _ => some 0
  | _ + 1, .scalar z => some (ofScalar z)
  | _ + 1, _ => none

end SeQuant.VacAv
