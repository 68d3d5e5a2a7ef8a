import Verif.Eval.EvalModel
import Verif.Optimize.NetModel
import Verif.Tensor.CanonModel

/-!
# Model of the binarization of expressions

`EvalExpr` and `binarize` (`SeQuant/core/eval/eval_expr.hpp`, `SeQuant/core/eval/eval_expr.cpp`).

Simplifications: indices have no proto-indices (so `is_tot` is false, eval_expr.cpp:41-43); `Power` leaves behave like `Variable` leaves and are
left out; the result type of a node always agrees with the kind of its expression (asserted at 202) and is not kept separately; hash functions
and the canonicalization of tensor networks are parameters.
-/

namespace SeQuant.Binarize

open SeQuant.Eval SeQuant.Tensors SeQuant.Optimize

/-- A `Tensor`: `adj` tells whether the label ends in the marker of adjoints. -/
structure Ten (L ι : Type) where
  label : L
  adj : Bool
  s : Tens ι
  aux : List ι
  deriving DecidableEq

variable {L ι K H G : Type}

/-- `const_indices()`: all nonempty slots of bra, ket and aux. -/
def Ten.idx (t : Ten L ι) : List ι := t.s.bra.filterMap id ++ t.s.ket.filterMap id ++ t.aux

/-- `Tensor::adjoint` (tensor.cpp:25-41). -/
def Ten.adjoint (t : Ten L ι) : Ten L ι :=
  { t with s := swapBraKet t.s, adj := !t.adj }

/-- Expressions. -/
inductive Ex (L ι K : Type) where
  | const (c : K)
  | var (v : L)
  | ten (t : Ten L ι)
  | sum (l : List (Ex L ι K))
  | prod (c : K) (l : List (Ex L ι K))

/-- The expression kept in a node. -/
inductive NX (L ι K : Type) where
  | const (c : K)
  | var (v : L)
  | ten (t : Ten L ι)
  deriving DecidableEq

/-- `EvalExpr` (eval_expr.hpp:69-288); the operation of leaves is not used. -/
structure EE (L ι K H G : Type) where
  op : EOp
  expr : NX L ι K
  /-- `canon_indices_`. -/
  idx : List ι
  /-- `canon_phase_`. -/
  phase : Int
  hash : H
  graph : Option G

abbrev Node (L ι K H G : Type) := ETree (EE L ι K H G)

/-- What `TensorNetwork::canonicalize_slots` returns. -/
structure NetInfo (ι H G : Type) where
  idx : List ι
  phase : Int
  hash : H
  graph : G

/-- Parameters of the model. -/
structure Cfg (L ι K H G : Type) where
  /-- `TensorBlockCanonicalizer{}.apply` (see `Tensors.canonBlock`). -/
  cn : Tens ι → Option Int × Tens ι
  /-- `std::ranges::sort`. -/
  srt : List ι → List ι
  /-- `BinarizationOptions::merge_indices`. -/
  merge : Bool
  /-- `label_tensor`, `label_scalar` (48-49). -/
  lblI : L
  lblZ : L
  hashTen : Ten L ι → H
  hashConst : K → H
  hashVar : L → H
  /-- `hash::range_unordered`. -/
  unordered : List H → H
  /-- `hash::combine`. -/
  combine : H → H → H
  hashAdj : H
  /-- `canonicalize_slots` of the network of these tensors with these named indices (566-567). -/
  net : List (Ten L ι) → Finset ι → NetInfo ι H G

section build

variable (cfg : Cfg L ι K H G)

def EE.isTensor (a : EE L ι K H G) : Bool :=
  match a.expr with
  | .ten _ => true
  | _ => false

/-- `EvalExpr(Constant)`, `binarize(Constant)` (164-168, 383). -/
def leafConst (c : K) : Node L ι K H G := .leaf ⟨.prod, .const c, [], 1, cfg.hashConst c, none⟩

/-- `EvalExpr(Variable)`, `binarize(Variable)` (170-174, 385). -/
def leafVar (v : L) : Node L ι K H G := .leaf ⟨.prod, .var v, [], 1, cfg.hashVar v, none⟩

/-- The tensor a leaf is made with: block-canonicalized in place (156-157). -/
def canonTen (t : Ten L ι) : Ten L ι := { t with s := (cfg.cn t.s).2 }

/-- `canon_phase_` of a leaf (158). -/
def leafPhase (t : Ten L ι) : Int := if (cfg.cn t.s).1.isSome then -1 else 1

/-- `EvalExpr(Tensor)` (136-162); `none`: failed assertion. -/
def leafTen (t : Ten L ι) : Option (Node L ι K H G) :=
  if t.idx = [] then none
  else some (.leaf ⟨.prod, .ten (canonTen cfg t), (canonTen cfg t).idx, leafPhase cfg t, cfg.hashTen (canonTen cfg t), none⟩)

/-- `binarize(Tensor)` (389-430). -/
def binTen [One K] (t : Ten L ι) : Option (Node L ι K H G) :=
  if t.adj = true then
    match leafTen cfg t.adjoint with
    | none => none
    | some bare => some (.node ⟨.adjoint, .ten t, t.idx, 1, cfg.combine bare.label.hash cfg.hashAdj, none⟩ bare (leafConst cfg 1))
  else leafTen cfg t

/-- `detail::make_tensor` without symmetries (51-89). -/
def imedTen (b k a : List ι) : Ten L ι :=
  if cfg.merge then ⟨cfg.lblI, false, ⟨.nonsymm, false, false, [], []⟩, cfg.srt (b ++ k ++ a)⟩
  else ⟨cfg.lblI, false, ⟨.nonsymm, false, false, (cfg.srt b).map some, (cfg.srt k).map some⟩, cfg.srt a⟩

/-- The intermediate with the slots of a tensor (462, 531, 599). -/
def imedLike (t : Ten L ι) : Ten L ι := imedTen cfg (t.s.bra.filterMap id) (t.s.ket.filterMap id) t.aux

/-- `imed_hashes` (330-336): the hash of the first `i + 1` operands. -/
def imedHash (hs : List H) (i : Nat) : H := cfg.unordered (hs.take (i + 1))

/-- The same view evaluated lazily, as in `make_sum` (453, 456): the counter of `inits` (algorithm.hpp:157-163) counts the elements looked at, so
the `i`-th step, which looks at one element only, gets the hash of the first `i` operands. -/
def imedHashLazy (hs : List H) (i : Nat) : H := cfg.unordered (hs.take i)

/-! ### Sums -/

/-- `make_sum` (452-477). -/
def makeSum (allTensors : Bool) (h : H) (left : EE L ι K H G) : EE L ι K H G :=
  match allTensors, left.expr with
  | true, .ten t => ⟨.sum, .ten (imedLike cfg t), left.idx, 1, h, none⟩
  | _, _ => ⟨.sum, .var cfg.lblZ, [], 1, h, none⟩

/-- `fold_left_to_node(summands, make_sum)` (479; binary_node.hpp:763-791), from the `i`-th summand on. -/
def foldSum (allTensors : Bool) (hs : List H) : Nat → Node L ι K H G → List (Node L ι K H G) → Node L ι K H G
  | _, left, [] => left
  | i, left, right :: l => foldSum allTensors hs (i + 1) (.node (makeSum cfg allTensors (imedHashLazy cfg hs i) left.label) left right) l

/-- The end of `binarize(Sum)` (442-479); `none`: failed assertion (448, binary_node.hpp:775). -/
def binSum (ns : List (Node L ι K H G)) : Option (Node L ι K H G) :=
  match ns with
  | [] => none
  | n :: l =>
    if ns.all (·.label.isTensor) || ns.all (! ·.label.isTensor) then
      some (foldSum cfg (ns.all (·.label.isTensor)) (ns.map (·.label.hash)) 1 n l)
    else none

/-! ### Products -/

/-- `collect_tensor_factors` (364-381). -/
def collect : Node L ι K H G → List (Ten L ι)
  | .leaf a =>
    match a.expr with
    | .ten t => [t]
    | _ => []
  | .node a l r =>
    match a.op, a.expr with
    | .prod, _ => collect l ++ collect r
    | _, .ten t => [t]
    | _, _ => []

variable [DecidableEq ι]

/-- All nonempty slots of tensors. -/
def slotsOfTens (ts : List (Ten L ι)) : List ι := (ts.map Ten.idx).flatten

/-- `ext_indices` of the network (tensor_network/v3.cpp:1497-1515) and the indices that stay (563-564). -/
def named (ts : List (Ten L ι)) (uncontracted : Finset ι) : Finset ι :=
  ((slotsOfTens ts).toFinset.filter fun x => (slotsOfTens ts).count x = 1) ∪ uncontracted

/-- `target_indices` (543-560): bra, ket and aux of the result; `used` are the indices of `get_used_indices_with_counts`. -/
def targetGroups (ts : List (Ten L ι)) (uncontracted : Finset ι) : List ι × List ι × List ι :=
  let used := (slotsOfTens ts).dedup
  let single := used.filter fun x => (slotsOfTens ts).count x = 1
  let inBra := fun x => decide (x ∈ (ts.map fun t => t.s.bra.filterMap id).flatten)
  let inKet := fun x => decide (x ∈ (ts.map fun t => t.s.ket.filterMap id).flatten)
  (single.filter inBra, single.filter (fun x => !inBra x && inKet x),
    single.filter (fun x => !inBra x && !inKet x) ++ used.filter fun x => decide (1 < (slotsOfTens ts).count x ∧ x ∈ uncontracted))

/-- `make_prod` (510-590). -/
def makeProd (h : H) (uncontracted : Finset ι) (left right : Node L ι K H G) : EE L ι K H G :=
  match left.label.expr, right.label.expr with
  | .ten _, .ten _ =>
    let ts := collect left ++ collect right
    let canon := cfg.net ts (named ts uncontracted)
    let h := cfg.combine h canon.hash
    if canon.idx = [] then ⟨.prod, .var cfg.lblZ, [], canon.phase, h, some canon.graph⟩
    else
      let g := targetGroups ts uncontracted
      ⟨.prod, .ten (imedTen cfg g.1 g.2.1 g.2.2), canon.idx, canon.phase, h, some canon.graph⟩
  | .ten t, _ => ⟨.prod, .ten (imedLike cfg t), left.label.idx, left.label.phase, h, none⟩
  | _, .ten t => ⟨.prod, .ten (imedLike cfg t), right.label.idx, right.label.phase, h, none⟩
  | _, _ => ⟨.prod, .var cfg.lblZ, [], 1, h, none⟩

/-- `fold_left_to_node(factors, make_prod)` (593, 595), from the `i`-th factor on. -/
def foldProd (hs : List H) (imed : List (Finset ι)) : Nat → Node L ι K H G → List (Node L ι K H G) → Node L ι K H G
  | _, left, [] => left
  | i, left, right :: l =>
    foldProd hs imed (i + 1) (.node (makeProd cfg (imedHash cfg hs i) (imed.getD i ∅) left right) left right) l

/-- The node for the scalar of a product (594-614). -/
def scaleNode [Mul K] (c : K) (left : Node L ι K H G) : Node L ι K H G :=
  let right : Node L ι K H G := leafConst cfg c
  let expr : NX L ι K := match left.label.expr with
    | .ten t => .ten (imedLike cfg t)
    | .const a => .const (a * c)
    | .var _ => .var cfg.lblZ
  .node ⟨.prod, expr, left.label.idx, left.label.phase, cfg.combine left.label.hash right.label.hash, none⟩ left right

/-- The end of `binarize(Product)` (507-615). -/
def binProd [Mul K] [One K] [DecidableEq K] (c : K) (imed : List (Finset ι)) (ns : List (Node L ι K H G)) : Option (Node L ι K H G) :=
  match ns with
  | [] => none
  | n :: l =>
    let left := foldProd cfg (ns.map (·.label.hash)) imed 1 n l
    if c = 1 then some left else some (scaleNode cfg c left)

end build

/-! ### Expressions -/

mutual
/-- `all_indices` (343-357): of a sum, only the first summand counts. -/
def allIdx [DecidableEq ι] : Ex L ι K → Finset ι
  | .const _ => ∅
  | .var _ => ∅
  | .ten t => t.idx.toFinset
  | .sum l => allIdxHead l
  | .prod _ l => allIdxU l

def allIdxHead [DecidableEq ι] : List (Ex L ι K) → Finset ι
  | [] => ∅
  | e :: _ => allIdx e

def allIdxU [DecidableEq ι] : List (Ex L ι K) → Finset ι
  | [] => ∅
  | e :: l => allIdx e ∪ allIdxU l
end

mutual
/-- `impl::binarize` (620-641) with `binarize(Sum)` (432-480) and `binarize(Product)` (482-616). -/
def bin [DecidableEq ι] [Mul K] [One K] [DecidableEq K] (cfg : Cfg L ι K H G) (U : Finset ι) : Ex L ι K → Option (Node L ι K H G)
  | .const c => some (leafConst cfg c)
  | .var v => some (leafVar cfg v)
  | .ten t => binTen cfg t
  | .sum l =>
    match binAll cfg (l.map fun _ => U) l with
    | none => none
    | some ns => binSum cfg ns
  | .prod c [] => some (leafConst cfg c)
  | .prod c (e :: l) =>
    match binAll cfg (ltrChildren ((e :: l).map allIdx) U) (e :: l) with
    | none => none
    | some ns => binProd cfg c (ltrImed ((e :: l).map allIdx) U) ns

/-- Binarizes each operand with its own set of indices that stay. -/
def binAll [DecidableEq ι] [Mul K] [One K] [DecidableEq K] (cfg : Cfg L ι K H G) : List (Finset ι) → List (Ex L ι K) → Option (List (Node L ι K H G))
  | _, [] => some []
  | Us, e :: l =>
    match bin cfg (Us.headD ∅) e, binAll cfg Us.tail l with
    | some n, some ns => some (n :: ns)
    | _, _ => none
end

end SeQuant.Binarize
