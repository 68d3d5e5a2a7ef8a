/-!
# Model of Hugenholtz vertices

`HugenholtzVertex` (`SeQuant/core/hugenholtz.hpp:25-176`).  The sets of edge indices (`flat_set`) are sorted lists; `equals_` is a parameter.
`none` stands for a failed assertion or an exception.
-/

namespace SeQuant.Vertices

variable {E : Type}

/-- `HugenholtzVertex`: `edge_to_group_` and `groups_` (172-174). -/
structure Vtx (E : Type) where
  toGroup : List Nat
  groups : List (E × List Nat)
deriving DecidableEq

/-- `flat_set::insert` of a new element. -/
def insertSorted (x : Nat) : List Nat → List Nat
  | [] => [x]
  | y :: l => if x < y then x :: y :: l else y :: insertSorted x l

/-- `insert` with the assertion that the element is new (52-53, 164-165). -/
def setInsert (x : Nat) (s : List Nat) : Option (List Nat) := if x ∈ s then none else some (insertSorted x s)

variable (eq : E → E → Bool)

/-- `find_if` over the groups (44-46, 142-144). -/
def findGroup (groups : List (E × List Nat)) (edge : E) : Option Nat := groups.findIdx? fun g => eq g.1 edge

/-- Puts an edge index into the group of the edge; returns the groups and the number of the group (47-55, 158-168). -/
def addTo (groups : List (E × List Nat)) (j : Option Nat) (i : Nat) (edge : E) : Option (List (E × List Nat) × Nat) :=
  match j with
  | none => some (groups ++ [(edge, [i])], groups.length)
  | some j =>
    match groups[j]? with
    | none => none
    | some g => (setInsert i g.2).map fun s => (groups.set j (g.1, s), j)

/-- One round of the constructor (43-57). -/
def append (v : Vtx E) (edge : E) : Option (Vtx E) :=
  (addTo v.groups (findGroup eq v.groups edge) v.toGroup.length edge).map fun p => ⟨v.toGroup ++ [p.2], p.1⟩

/-- The constructor (36-58). -/
def make (edges : List E) : Option (Vtx E) := edges.foldlM (append eq) ⟨[], []⟩

/-- `num_edges` (62). -/
def Vtx.numEdges (v : Vtx E) : Nat := v.toGroup.length

/-- `num_groups` (71). -/
def Vtx.numGroups (v : Vtx E) : Nat := v.groups.length

/-- `num_nonempty_groups` (76-81). -/
def Vtx.numNonempty (v : Vtx E) : Nat := v.groups.foldl (fun n g => n + if g.2.isEmpty then 0 else 1) 0

/-- `group` (86-89). -/
def Vtx.group (v : Vtx E) (i : Nat) : Option (E × List Nat) :=
  match v.toGroup[i]? with
  | none => none
  | some j => v.groups[j]?

/-- `group_size` (100-104). -/
def Vtx.groupSize (v : Vtx E) (i : Nat) : Option Nat :=
  match v.group i with
  | none => none
  | some g => if 0 < g.2.length then some g.2.length else none

/-- The decrement of the indices after an erased one (123-130). -/
def shiftDown (i : Nat) (s : List Nat) : List Nat := s.map fun e => if i ≤ e then e - 1 else e

/-- The increment of the indices after an inserted one (148-154). -/
def shiftUp (i : Nat) (s : List Nat) : List Nat := s.map fun e => if i ≤ e then e + 1 else e

/-- `erase` (109-132). -/
def erase (v : Vtx E) (i : Nat) (edge : E) : Option (Vtx E) :=
  match v.toGroup[i]? with
  | none => none
  | some j =>
    match v.groups[j]? with
    | none => none
    | some g =>
      if (findGroup eq v.groups edge).isNone then none
      else if i ∉ g.2 then none
      else if eq g.1 edge = false then none
      else
        let groups := v.groups.set j (g.1, g.2.erase i)
        if groups.any fun g => g.2.any fun e => decide (i ≤ e) && decide (e = 0) then none
        else some ⟨v.toGroup.eraseIdx i, groups.map fun g => (g.1, shiftDown i g.2)⟩

/-- `insert` (136-169). -/
def insert (v : Vtx E) (i : Nat) (edge : E) : Option (Vtx E) :=
  if v.toGroup.length < i then none
  else
    let j := findGroup eq v.groups edge
    let groups := if i < v.toGroup.length then v.groups.map fun g => (g.1, shiftUp i g.2) else v.groups
    (addTo groups j i edge).map fun p => ⟨v.toGroup.insertIdx i p.2, p.1⟩

/-! ### Normal operators -/

/-- `NormalOperator` (op.hpp:498-747): the operators and what is kept with them.  `hash` is the memoized `hash_value_` (expr.hpp:430). -/
structure NOp (E H : Type) where
  ops : List E
  ncre : Nat
  hug : Option (Vtx E)
  hash : Option H

/-- What is needed from `Op`: `action() == Create`, `adjoint()`, the hash of a sequence. -/
structure OpCfg (E H : Type) where
  eq : E → E → Bool
  cre : E → Bool
  adj : E → E
  hashOf : List E → H
  /-- `transform`: `none` if the index is not changed. -/
  subst : E → Option E

section nop

variable {H : Type} [DecidableEq H] (C : OpCfg E H)

/-- The constructor from creators and annihilators, the latter given in the opposite order (520-549). -/
def mk (cres anns : List E) : NOp E H := ⟨cres ++ anns.reverse, cres.length, none, none⟩

/-- `hug` (612-618). -/
def hug (n : NOp E H) : Option (NOp E H × Vtx E) :=
  match n.hug with
  | some v => some (n, v)
  | none => (make C.eq n.ops).map fun v => ({ n with hug := some v }, v)

/-- `hash_value` with `memoizing_hash` (455-469): the assertion fails if the memoized value is out of date. -/
def hashValue (n : NOp E H) : Option (NOp E H × H) :=
  match n.hash with
  | none => some ({ n with hash := some (C.hashOf n.ops) }, C.hashOf n.ops)
  | some h => if h = C.hashOf n.ops then some (n, h) else none

/-- `erase` (695-699). -/
def eraseOp (n : NOp E H) (i : Nat) : Option (NOp E H) :=
  match n.ops[i]? with
  | none => none
  | some e =>
    let ncre := if C.cre e then n.ncre - 1 else n.ncre
    match n.hug with
    | none => some { n with ops := n.ops.eraseIdx i, ncre := ncre }
    | some v => (erase C.eq v i e).map fun v => { n with ops := n.ops.eraseIdx i, ncre := ncre, hug := some v }

/-- `insert` (702-708). -/
def insertOp (n : NOp E H) (i : Nat) (e : E) : Option (NOp E H) :=
  if n.ops.length < i then none
  else
    let ncre := if C.cre e then n.ncre + 1 else n.ncre
    match n.hug with
    | none => some { n with ops := n.ops.insertIdx i e, ncre := ncre }
    | some v => (insert C.eq v i e).map fun v => { n with ops := n.ops.insertIdx i e, ncre := ncre, hug := some v }

/-- `adjoint` (718-723, 440-444). -/
def adjointOp (n : NOp E H) : NOp E H := ⟨n.ops.reverse.map C.adj, n.ops.length - n.ncre, none, none⟩

/-- `transform_indices` (731-740). -/
def transformOp (n : NOp E H) : NOp E H :=
  let ops := n.ops.map fun e => (C.subst e).getD e
  if n.ops.any fun e => (C.subst e).isSome then { n with ops := ops, hash := none } else { n with ops := ops }

end nop

end SeQuant.Vertices
