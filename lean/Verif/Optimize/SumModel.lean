import Verif.Expression.Model

/-!
# Reordering of sums for reuse (C36)

Transcribes `SeQuant/core/optimize/sum.cpp`.

Simplifications: ordered maps and sets are sorted lists; hash values of nodes are arbitrary natural numbers; of the evaluation trees built
by `binarize` (eval_expr.cpp:383-616) only the number of internal nodes is modelled.
-/

namespace SeQuant.Optimize

open SeQuant.Expression

section clusters

/-- The visitor (sum.cpp:42-49): enter position `p`, not smaller than the ones entered before, under hash value `h`. -/
def addPos : List (Nat × List Nat) → Nat → Nat → List (Nat × List Nat)
  | [], h, p => [(h, [p])]
  | (k, v) :: m, h, p =>
    if h = k then (k, if p ∈ v then v else v ++ [p]) :: m
    else if h < k then (h, [p]) :: (k, v) :: m
    else (k, v) :: addPos m h p

/-- `positions` (39-60); `H p` are the hash values visited for summand `p`. -/
def positionsOf (n : Nat) (H : Nat → List Nat) : List (Nat × List Nat) :=
  (List.range n).foldl (fun m p => (H p).foldl (fun m h => addPos m h p) m) []

/-- One entry of `connections` (65-71). -/
def addConn : List (Nat × List Nat) → Nat → List Nat → List (Nat × List Nat)
  | [], a, vs => [(a, vs)]
  | (k, v) :: m, a, vs =>
    if a = k then (k, v ++ vs) :: m
    else if a < k then (a, vs) :: (k, v) :: m
    else (k, v) :: addConn m a vs

/-- `connections` (62-73).  A set of positions is never empty. -/
def connectionsOf (pos : List (Nat × List Nat)) : List (Nat × List Nat) :=
  pos.foldl (fun c kv => match kv.2 with
    | [] => c
    | a :: vs => addConn c a vs) []

/-- The positions connected with `p` (91-93). -/
def connOf (c : List (Nat × List Nat)) (p : Nat) : List Nat := (c.lookup p).getD []

/-- A bound for the number of rounds of the loop, see `dfsLoop_total`. -/
def dfsWeight (c : List (Nat × List Nat)) : Nat → Nat → Nat
  | 0, _ => 1
  | d + 1, p => 1 + ((connOf c p).map (dfsWeight c d)).sum

/-- The loop (84-94) with the top of the stack in front: `visited` and the cluster.  The connections of a position are pushed even if it was
visited before.  The first argument bounds the number of rounds. -/
def dfsLoop (c : List (Nat × List Nat)) : Nat → List Nat → List Nat → List Nat → Option (List Nat × List Nat)
  | _, [], vis, cl => some (vis, cl)
  | 0, _ :: _, _, _ => none
  | f + 1, p :: st, vis, cl =>
    if p ∈ vis then dfsLoop c f (connOf c p ++ st) vis cl
    else dfsLoop c f (connOf c p ++ st) (vis ++ [p]) (cl ++ [p])

/-- The loop over the keys of `connections` (76-97). -/
def clusterLoop (n : Nat) (c : List (Nat × List Nat)) : List Nat → List Nat → List (List Nat) → Option (List (List Nat))
  | [], _, res => some res
  | k :: ks, vis, res =>
    if k ∈ vis then clusterLoop n c ks vis res
    else match dfsLoop c (dfsWeight c n k) [k] vis [] with
      | none => none
      | some (vis', cl) => clusterLoop n c ks vis' (res ++ [cl])

/-- `clusters` (30-99) of `n` summands. -/
def clustersOf (n : Nat) (H : Nat → List Nat) : Option (List (List Nat)) :=
  let c := connectionsOf (positionsOf n H)
  clusterLoop n c (c.map Prod.fst) [] []

end clusters

variable {K A : Type}

/-- `has_only_single_atom` (19-28); an empty product or sum is an atom (expr.hpp:152). -/
def onlySingleAtom : Expr K A → Bool
  | .const _ => true
  | .atom _ => true
  | .prod _ [] => true
  | .prod _ [e] => onlySingleAtom e
  | .prod _ (_ :: _ :: _) => false
  | .sum _ [] => true
  | .sum _ [e] => onlySingleAtom e
  | .sum _ (_ :: _ :: _) => false

mutual
/-- Number of internal nodes of the tree built by `binarize` (eval_expr.cpp:383-616), `none` if it fails (empty sum); `adj a` says that `a` is
an adjoint tensor, which becomes an internal node. -/
def internalNodes [One K] [DecidableEq K] (adj : A → Bool) : Expr K A → Option Nat
  | .const _ => some 0
  | .atom a => some (if adj a then 1 else 0)
  | .prod _ [] => some 0
  | .prod c (e :: l) => (internalNodesL adj (e :: l)).map fun k => k + l.length + (if c = 1 then 0 else 1)
  | .sum _ [] => none
  | .sum _ (e :: l) => (internalNodesL adj (e :: l)).map fun k => k + l.length
def internalNodesL [One K] [DecidableEq K] (adj : A → Bool) : List (Expr K A) → Option Nat
  | [] => some 0
  | e :: l =>
    match internalNodes adj e, internalNodesL adj l with
    | some a, some b => some (a + b)
    | _, _ => none
end

variable [Mul K] [Add K] [Zero K] [One K] [Neg K] [DecidableEq K] [Atoms K A]

/-- Number of nodes visited for one summand (53-57). -/
def visitCount (adj : A → Bool) (e : Expr K A) : Option Nat :=
  match internalNodes adj e with
  | none => none
  | some k => some (if onlySingleAtom e then 1 else k)

/-- `clusters(sum)` (101-111); `h p k` is the hash value of the `k`-th node visited for summand `p`. -/
def clustersSum (adj : A → Bool) (h : Nat → Nat → Nat) (l : List (Expr K A)) : Option (List (List Nat)) :=
  match l.mapM (visitCount adj) with
  | none => none
  | some cnt => clustersOf l.length fun p => (List.range (cnt.getD p 0)).map (h p)

/-- `reorder` (113-132) of a sum with summands `l`. -/
def reorderSum (adj : A → Bool) (h : Nat → Nat → Nat) (l : List (Expr K A)) : Option (Expr K A) :=
  match clustersSum adj h l with
  | none => none
  | some cs =>
    let st := sAppendAll clone (none, []) (cs.flatten.map fun p => l.getD p (.const 0))
    if st.2.length = l.length then some (.sum st.1 st.2) else none

end SeQuant.Optimize
