import Verif.Cse.Model
import Verif.Binarize.ValueProps

/-!
# What a sequence of evaluation trees computes

Every tree is the right-hand side of an assignment: its root has the name of the result.  The trees are evaluated one after the other; a later
one reads what earlier ones have written.
-/

namespace SeQuant.Cse

open SeQuant.Eval SeQuant.Binarize SeQuant.Optimize

variable {L ι K H G S : Type} [DecidableEq ι] [DecidableEq L] [DecidableEq S] [CommRing K] [Star K]

/-- The label of a name. -/
def NX.label? : NX L ι K → Option L
  | .const _ => none
  | .var v => some v
  | .ten t => some t.label

/-- The labels of the tensors and variables a tree reads. -/
def reads : Node L ι K H G → List L
  | .leaf a => (NX.label? a.expr).toList
  | .node _ l r => reads l ++ reads r

/-- The inner nodes of a tree. -/
def inner {A : Type} : ETree A → List (ETree A)
  | .leaf _ => []
  | .node a l r => .node a l r :: (inner l ++ inner r)

/-- Evaluates a tree and keeps the result under its name; the order of the dimensions is that of the indices of the name. -/
noncomputable def assign (D : Store L ι S K) (n : Node L ι K H G) : Store L ι S K :=
  match n.label.expr with
  | .const _ => D
  | .var v => { D with var := fun w => if w = v then nodeVal D n (fun _ => 0) else D.var w }
  | .ten t => { D with arr := fun l k s p => if l = t.label ∧ k = t.slots ∧ s = t.idx.map D.sp then nodeVal D n (asg t.idx p) else D.arr l k s p }

/-- Evaluates trees one after the other. -/
noncomputable def run (D : Store L ι S K) (ts : List (Node L ι K H G)) : Store L ι S K := ts.foldl assign D

/-- Two stores that agree about all tensors and variables with certain labels. -/
structure AgreeOn (X : L → Prop) (D E : Store L ι S K) : Prop where
  sp : D.sp = E.sp
  dims : D.dims = E.dims
  arr : ∀ l, X l → D.arr l = E.arr l
  var : ∀ l, X l → D.var l = E.var l

/-- The value of a name. -/
def nxVal (D : Store L ι S K) : NX L ι K → (ι → Nat) → K
  | .const c => fun _ => c
  | .var v => fun _ => D.var v
  | .ten t => D.ten t

end SeQuant.Cse
