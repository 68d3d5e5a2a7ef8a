import Verif.Binarize.CompareModel

/-!
# Model of the extraction of subtrees

`extract_subtrees` (`SeQuant/core/optimize/extract_subtrees.hpp`).  The predicate is a pure function of the node, in its current state, and of its
values for the children; a hash table is the list of its entries in the order they were made.  `reset`: the payload with `op_type_` reset.
-/

namespace SeQuant.Cse

open SeQuant.Eval

variable {A : Type}

/-- `insert` of the set: an element that compares equal to one of the set is not inserted. -/
def insertSet (eq : ETree A → ETree A → Bool) (res : List (ETree A)) (n : ETree A) : List (ETree A) :=
  if res.any (fun x => eq x n) then res else res ++ [n]

/-- The leaf that takes the place of a node (extract_subtrees.hpp:20-23). -/
def hole (reset : A → A) (n : ETree A) : ETree A := .leaf (reset n.label)

/-- `extract_subtrees_visit` (26-41) with `capture` (17-24): the node afterwards, the value of the predicate and the set. -/
def extractIn (pred : ETree A → Bool → Bool → Bool) (reset : A → A) (eq : ETree A → ETree A → Bool) :
    ETree A → List (ETree A) → ETree A × Bool × List (ETree A)
  | .leaf a, res => (.leaf a, pred (.leaf a) false false, res)
  | .node a l r, res =>
    let x := extractIn pred reset eq l res
    let y := extractIn pred reset eq r x.2.2
    if pred (.node a x.1 y.1) x.2.1 y.2.1 then (.node a x.1 y.1, true, y.2.2)
    else
      let res1 := if x.2.1 then insertSet eq y.2.2 x.1 else y.2.2
      let res2 := if y.2.1 then insertSet eq res1 y.1 else res1
      (.node a (if x.2.1 then hole reset x.1 else x.1) (if y.2.1 then hole reset y.1 else y.1), false, res2)

/-- One root (83-86). -/
def extractRoot (pred : ETree A → Bool → Bool → Bool) (reset : A → A) (eq : ETree A → ETree A → Bool) (t : ETree A) (res : List (ETree A)) :
    ETree A × List (ETree A) :=
  let x := extractIn pred reset eq t res
  if x.2.1 then (hole reset x.1, insertSet eq x.2.2 x.1) else (x.1, x.2.2)

/-- `extract_subtrees` (72-89): the trees afterwards and the set. -/
def extract (pred : ETree A → Bool → Bool → Bool) (reset : A → A) (eq : ETree A → ETree A → Bool) : List (ETree A) → List (ETree A) →
    List (ETree A) × List (ETree A)
  | [], res => ([], res)
  | t :: ts, res =>
    let x := extractRoot pred reset eq t res
    let y := extract pred reset eq ts x.2
    (x.1 :: y.1, y.2)

end SeQuant.Cse
