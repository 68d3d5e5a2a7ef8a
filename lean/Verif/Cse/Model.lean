import Verif.Cse.ExprModel
import Verif.Binarize.CompareModel
import Mathlib.Data.List.Sort

/-!
# Model of common subexpression elimination

`eliminate_common_subexpressions` (`SeQuant/core/optimize/common_subexpression_elimination.hpp`) with the comparison of nodes that singles out
batch indices (`SeQuant/core/utility/tensor.hpp:87-147`), and `binarize(ResultExpr)` (`SeQuant/core/eval/eval_expr.hpp:442-491`).

Simplifications: those of `Verif.Binarize.Model` and `Verif.Cse.ExprModel`; a hash table is the list of its entries in the order they were made
(hashes are part of the comparison, so entries with different hashes are never taken for the same); a predicate that is asked about an entry of
the table (`filter_predicate`) is a pure function.
-/

namespace SeQuant.Cse

open SeQuant.Eval SeQuant.Binarize SeQuant.Tensors

variable {L ι K H G S : Type}

/-! ### Comparison -/

section compare

variable [DecidableEq ι] [DecidableEq L] [DecidableEq K] [DecidableEq H] [DecidableEq G] [DecidableEq S]

/-- `IndexSpecificTensorBlockEqualComparator` (tensor.hpp:87-156): besides the blocks, the positions of the indices among the specific ones (the
number of specific ones if it is not among them) are compared. -/
def blockEqB (sp : ι → S) (B : List ι) (t u : Ten L ι) : Bool :=
  blockEq sp t u && (t.idx.zip u.idx).all fun p => decide (p.1 = p.2) || decide (B.idxOf p.1 = B.idxOf p.2)

/-- The comparison of two nodes without their children (eval_node_compare.hpp:62-111). -/
def sameLabelB (sp : ι → S) (B : List ι) (a b : EE L ι K H G) : Bool :=
  decide (a.hash = b.hash) &&
  (match a.expr, b.expr with
    | .const c, .const d => decide (c = d)
    | .var v, .var w => decide (v = w)
    | .ten t, .ten u => if a.graph = none then blockEqB sp B t u else true
    | _, _ => false) &&
  (match a.graph, b.graph with
    | none, none => true
    | some g, some g' => decide (g = g')
    | _, _ => false)

/-- `TreeNodeEqualityComparator::operator()` with specific indices (eval_node_compare.hpp:39-40, 54-125). -/
def sameB (sp : ι → S) (B : List ι) : Node L ι K H G → Node L ι K H G → Bool
  | .leaf a, .leaf b => sameLabelB sp B a b
  | .node a l r, .node b l' r' =>
    decide (size (.node a l r) = size (.node b l' r')) && sameLabelB sp B a b && sameB sp B l l' && sameB sp B r r'
  | _, _ => false

end compare

/-! ### Finding -/

/-- `++it->second` for the entry of a node (common_subexpression_elimination.hpp:48). -/
def bump {N : Type} (eq : N → N → Bool) (n : N) : List (N × Nat) → List (N × Nat)
  | [] => []
  | q :: l => if eq q.1 n then (q.1, q.2 + 1) :: l else q :: bump eq n l

/-- `visit_internal` with `SubexpressionIdentifier` (39-55): the children of a node that is in the table are not visited. -/
def ident {A : Type} (eq : ETree A → ETree A → Bool) : ETree A → List (ETree A × Nat) → List (ETree A × Nat)
  | .leaf _, tab => tab
  | .node a l r, tab =>
    if tab.any (fun q => eq q.1 (.node a l r)) then bump eq (.node a l r) tab
    else ident eq r (ident eq l (tab ++ [(.node a l r, 1)]))

/-- All trees (269-274). -/
def identAll {A : Type} (eq : ETree A → ETree A → Bool) (ts : List (ETree A)) : List (ETree A × Nat) := ts.foldl (fun tab t => ident eq t tab) []

/-- `take_subexpression_map` and the filter (57-77, 276-282). -/
def common {A : Type} (eq : ETree A → ETree A → Bool) (keep : ETree A → Nat → Bool) (ts : List (ETree A)) : List (ETree A × Nat) :=
  (identAll eq ts).filter fun q => decide (2 ≤ q.2) && keep q.1 q.2

/-! ### Replacing -/

/-- The conversion of expressions to trees (`expr_to_tree`); `none`: failed assertion. -/
structure Trans (L ι K H G : Type) where
  tree : Ex L ι K → Option (Node L ι K H G)
  res : NX L ι K → Ex L ι K → Option (Node L ι K H G)

/-- What `SubexpressionReplacer` is made with. -/
structure Opts (L ι K H G : Type) where
  tr : Trans L ι K H G
  /-- `subexpressions.find(tree) != end`. -/
  isCommon : Node L ι K H G → Bool
  /-- The comparison of `cse_names`. -/
  eqName : Node L ι K H G → Node L ι K H G → Bool
  /-- `label_gen`. -/
  gen : Node L ι K H G → Nat → L
  /-- `std::ranges::stable_sort` by space. -/
  sortIdx : List ι → List ι

/-- The name of a subexpression (134-153). -/
def cseName (sortIdx : List ι → List ι) (lbl : L) (n : Node L ι K H G) : NX L ι K :=
  match n.label.expr with
  | .ten _ => .ten ⟨lbl, false, ⟨.nonsymm, false, false, [], []⟩, sortIdx n.label.idx⟩
  | _ => .var lbl

/-- `expr *= ex<Constant>(phase)` unless the phase is 1 (176-178; expr.cpp:144-158). -/
def scaledBy [IntCast K] (p : Int) (e : NX L ι K) : Ex L ι K := if p = 1 then ofNX e else .prod p [ofNX e]

/-- The state of the replacer. -/
structure St (L ι K H G : Type) where
  /-- `cse_names`. -/
  names : List (Node L ι K H G × L)
  /-- `name_counter`. -/
  counter : Nat
  /-- `expr_offset`. -/
  off : Nat
  /-- `cse_definition_indices`. -/
  pos : List Nat
  /-- The definitions inserted before the current tree. -/
  defs : List (Node L ι K H G)

section replace

variable [Zero K] [One K] [Add K] [Mul K] [IntCast K] [DecidableEq K] (o : Opts L ι K H G)

/-- What takes the place of a node (180-194). -/
def place (root : Bool) (n : Node L ι K H G) (lbl : L) : Option (Node L ι K H G) :=
  if root then
    match n.label.expr with
    | .const _ => none
    | x => o.tr.res x (scaledBy n.label.phase (cseName o.sortIdx lbl n))
  else o.tr.tree (scaledBy n.label.phase (cseName o.sortIdx lbl n))

/-- The definition of a subexpression (165-173). -/
def define_ (n : Node L ι K H G) (lbl : L) : Option (Node L ι K H G) :=
  match toExpr n with
  | none => none
  | some e => o.tr.res (cseName o.sortIdx lbl n) e

/-- A node of the table (128-207); `cur`: `current_expr_idx`. -/
def replaceNode (cur : Nat) (root : Bool) (n : Node L ι K H G) (st : St L ι K H G) : Option (Node L ι K H G × St L ι K H G) :=
  match st.names.find? (fun q => o.eqName q.1 n) with
  | some q =>
    match place o root n q.2 with
    | none => none
    | some m => some (m, st)
  | none =>
    match define_ o n (o.gen n st.counter), place o root n (o.gen n st.counter) with
    | some d, some m => some (m, ⟨st.names ++ [(n, o.gen n st.counter)], st.counter + 1, st.off + 1, st.pos ++ [cur + st.off], st.defs ++ [d]⟩)
    | _, _ => none

/-- `visit_internal` with `SubexpressionReplacer` (118-208). -/
def replaceIn (cur : Nat) : Bool → Node L ι K H G → St L ι K H G → Option (Node L ι K H G × St L ι K H G)
  | _, .leaf a, st => some (.leaf a, st)
  | root, .node a l r, st =>
    if o.isCommon (.node a l r) then replaceNode o cur root (.node a l r) st
    else
      match replaceIn cur false l st with
      | none => none
      | some x =>
        match replaceIn cur false r x.2 with
        | none => none
        | some y => some (.node a x.1 y.1, y.2)

/-- `perform_replacements` (105-116): definitions are inserted before the current tree, after those inserted already. -/
def replaceAll : Nat → List (Node L ι K H G) → St L ι K H G → List (Node L ι K H G) → Option (List (Node L ι K H G) × St L ι K H G)
  | _, [], st, out => some (out, st)
  | cur, n :: ns, st, out =>
    match replaceIn o cur true n { st with defs := [] } with
    | none => none
    | some x => replaceAll (cur + 1) ns x.2 (out ++ x.2.defs ++ [x.1])

end replace

/-- The state before the first tree. -/
def St.init : St L ι K H G := ⟨[], 1, 0, [], []⟩

/-- What `eliminate_common_subexpressions` is called with: `le` orders the spaces. -/
structure Call (L ι K H G S : Type) where
  tr : Trans L ι K H G
  sp : ι → S
  le : S → S → Bool
  batch : List ι
  keep : Node L ι K H G → Nat → Bool
  gen : Node L ι K H G → Nat → L

/-- Sorts indices by their space, stably. -/
def sortBy (sp : ι → S) (le : S → S → Bool) (l : List ι) : List ι := l.insertionSort fun x y => le (sp x) (sp y) = true

section eliminate

variable [DecidableEq ι] [DecidableEq L] [DecidableEq K] [DecidableEq H] [DecidableEq G] [DecidableEq S] [Zero K] [One K] [Add K] [Mul K] [IntCast K]

/-- The replacer (284-286); the table keeps the comparison with batch indices (59-62), the names do not (221). -/
def Call.opts (c : Call L ι K H G S) (ts : List (Node L ι K H G)) : Opts L ι K H G where
  tr := c.tr
  isCommon n := (common (sameB c.sp c.batch) c.keep ts).any fun q => sameB c.sp c.batch q.1 n
  eqName := same c.sp
  gen := c.gen
  sortIdx := sortBy c.sp c.le

/-- `eliminate_common_subexpressions` (256-291): the new trees and the positions of the definitions. -/
def eliminate (c : Call L ι K H G S) (ts : List (Node L ι K H G)) : Option (List (Node L ι K H G) × List Nat) :=
  match replaceAll (c.opts ts) 0 ts St.init [] with
  | none => none
  | some x => some (x.1, x.2.pos)

end eliminate

/-! ### Trees of results -/

/-- The indices of a result. -/
def NX.idx : NX L ι K → List ι
  | .ten t => t.idx
  | _ => []

/-- The node of a result (eval_expr.hpp:461-476): a leaf is multiplied by 1. -/
def wrap [One K] (cfg : Cfg L ι K H G) (r : NX L ι K) : Node L ι K H G → Option (Node L ι K H G)
  | .leaf a =>
    match r with
    | .const _ => none
    | .var v => some (.node { (leafVar cfg v).label with op := .prod } (.leaf a) (leafConst cfg 1))
    | .ten t =>
      match binTen cfg t with
      | none => none
      | some x => some (.node { x.label with op := .prod } (.leaf a) (leafConst cfg 1))
  | n => some n

/-- The root gets the name of the result (480-488). -/
def rename (r : NX L ι K) : Node L ι K H G → Option (Node L ι K H G)
  | .leaf _ => none
  | .node a l r' =>
    match a.expr, r with
    | .var _, .var v => some (.node { a with expr := .var v } l r')
    | .ten _, .ten t => some (.node { a with expr := .ten t } l r')
    | _, _ => none

/-- `binarize(ResultExpr)` (442-491). -/
def binRes [DecidableEq ι] [DecidableEq K] [Mul K] [One K] (cfg : Cfg L ι K H G) (r : NX L ι K) (e : Ex L ι K) : Option (Node L ι K H G) :=
  match bin cfg (NX.idx r).toFinset e with
  | none => none
  | some n =>
    match wrap cfg r n with
    | none => none
    | some m => rename r m

/-- The conversion with `binarize`. -/
def binTrans [DecidableEq ι] [DecidableEq K] [Mul K] [One K] (cfg : Cfg L ι K H G) : Trans L ι K H G := ⟨bin cfg ∅, binRes cfg⟩

end SeQuant.Cse
