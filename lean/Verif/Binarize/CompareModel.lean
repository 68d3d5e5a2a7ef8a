import Verif.Binarize.Model

/-!
# Comparison of evaluation nodes

`TreeNodeEqualityComparator` (`SeQuant/core/eval/eval_node_compare.hpp:33-129`) and the block comparator it uses
(`SeQuant/core/utility/tensor.hpp:22-147`), without specific indices (the default).  The cache takes nodes that compare equal for the same.
-/

namespace SeQuant.Binarize

open SeQuant.Eval

variable {L ι K H G S : Type} [DecidableEq L] [DecidableEq K] [DecidableEq H] [DecidableEq G] [DecidableEq S]

/-- `num_slots`. -/
def Ten.numSlots (t : Ten L ι) : Nat := t.s.bra.length + t.s.ket.length + t.aux.length

/-- `TensorBlockEqualComparator` (tensor.hpp:22-79): label, numbers of slots and of indices, sequence of spaces. -/
def blockEq (sp : ι → S) (t u : Ten L ι) : Bool :=
  decide (t.label = u.label) && decide (t.adj = u.adj) && decide (t.numSlots = u.numSlots) &&
    decide (t.idx.length = u.idx.length) && decide (t.idx.map sp = u.idx.map sp)

/-- `FullBinaryNode::size`. -/
def size {A : Type} : ETree A → Nat
  | .leaf _ => 1
  | .node _ l r => size l + size r + 1

/-- The comparison of two nodes without their children (eval_node_compare.hpp:62-111). -/
def sameLabel (sp : ι → S) (a b : EE L ι K H G) : Bool :=
  decide (a.hash = b.hash) &&
  (match a.expr, b.expr with
    | .const c, .const d => decide (c = d)
    | .var v, .var w => decide (v = w)
    | .ten t, .ten u => if a.graph = none then blockEq sp t u else true
    | _, _ => false) &&
  (match a.graph, b.graph with
    | none, none => true
    | some g, some g' => decide (g = g')
    | _, _ => false)

/-- `TreeNodeEqualityComparator::operator()` (53-125). -/
def same (sp : ι → S) : Node L ι K H G → Node L ι K H G → Bool
  | .leaf a, .leaf b => sameLabel sp a b
  | .node a l r, .node b l' r' =>
    decide (size (.node a l r) = size (.node b l' r')) && sameLabel sp a b && same sp l l' && same sp r r'
  | _, _ => false

end SeQuant.Binarize
