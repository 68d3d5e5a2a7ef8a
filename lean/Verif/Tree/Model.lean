import Mathlib.Data.List.Basic

/-!
# Full binary trees

Transcribes `SeQuant/core/binary_node.hpp`: the visit loop, copying, transformation, folding, moving and destruction.
-/

namespace SeQuant.Nodes

/-- The abstract value of a `FullBinaryNode` (binary_node.hpp:230-242). -/
inductive Tree (α : Type) where
  | leaf (a : α)
  | node (a : α) (l r : Tree α)
deriving DecidableEq

variable {α β S : Type}

namespace Tree

/-- `operator*` (475). -/
def data : Tree α → α
  | leaf a => a
  | node a _ _ => a

/-- `size` (465-471). -/
def size : Tree α → Nat
  | leaf _ => 1
  | node _ l r => l.size + r.size + 1

end Tree

/-! ### Visiting

A pointer to a node of the tree is represented by the way to it from the root, last step first: `false :: p` is the left child of `p`.
Two pointers are equal exactly if the ways are.  That `parent_` points to the parent is an invariant of the constructors, proved in
`CopyProps`. -/

abbrev Ptr := List Bool

/-- The node a pointer points to. -/
def sub (T : Tree α) : Ptr → Option (Tree α)
  | [] => some T
  | d :: p =>
    match sub T p with
    | some (.node _ l r) => some (if d then r else l)
    | _ => none

/-- The context passed to the visitor, one of the single orders or `Any` (37-48). -/
inductive Ctx where
  | any | pre | in_ | post
deriving DecidableEq

/-- A set of orders (37-48). -/
structure Orders where
  pre : Bool
  in_ : Bool
  post : Bool
deriving DecidableEq

/-- `VisitLeaf`, `VisitInternal`, `VisitAll` (95-101). -/
inductive Kind where
  | leaf | internal | all
deriving DecidableEq

/-- `get_parent_ptr` (129-132). -/
def parent : Ptr → Option Ptr
  | [] => none
  | _ :: p => some p

/-- The loop ended, an assertion failed, or the fuel ran out. -/
inductive Outcome (S : Type) where
  | done (s : S)
  | failed
  | running

/-- A visitor has a state; it returns whether to continue with the subtree. -/
abbrev Visitor (S : Type) := S → Ptr → Ctx → S × Bool

/-- The loop of `detail::visit` (162-218), one round per unit of fuel. -/
def visitLoop (o : Orders) (k : Kind) (f : Visitor S) (T : Tree α) : Nat → S → Option Ptr → Ptr → Outcome S
  | _, s, none, _ => .done s
  | 0, _, some _, _ => .running
  | fuel + 1, s, some cur, prev =>
    match sub T cur with
    | none => .failed
    | some (.leaf _) =>
      let r := if k ≠ .internal then f s cur .any else (s, true)
      visitLoop o k f T fuel r.1 (if r.2 then parent cur else parent cur) cur
    | some (.node _ _ _) =>
      if prev = false :: cur then
        let r := if o.in_ && decide (k ≠ .leaf) then f s cur .in_ else (s, true)
        visitLoop o k f T fuel r.1 (if r.2 then some (true :: cur) else parent cur) cur
      else if prev = true :: cur then
        let r := if o.post && decide (k ≠ .leaf) then f s cur .post else (s, true)
        visitLoop o k f T fuel r.1 (if r.2 then parent cur else parent cur) cur
      else if cur = [] ∨ parent cur = some prev then
        let r := if o.pre && decide (k ≠ .leaf) then f s cur .pre else (s, true)
        visitLoop o k f T fuel r.1 (if r.2 then some (false :: cur) else parent cur) cur
      else .failed

/-- `visit`, `visit_internal`, `visit_leaf` on the node `p` of the tree (541-604): the macro (62-87) does nothing for no order at all;
otherwise both pointers start at the node (156-157). -/
def visit (o : Orders) (k : Kind) (f : Visitor S) (T : Tree α) (fuel : Nat) (s : S) (p : Ptr) : Outcome S :=
  if o = ⟨false, false, false⟩ then .done s else visitLoop o k f T fuel s (some p) p

/-! ### Copying on a heap -/

/-- The members of `FullBinaryNode` (236-242); `none` is the null pointer. -/
structure HNode (α : Type) where
  data : α
  left : Option Nat
  right : Option Nat
  parent : Option Nat

/-- Memory: allocated nodes, and a bound above which no address has been used. -/
structure Heap (α : Type) where
  get : Nat → Option (HNode α)
  next : Nat

/-- `node->parent_ = p`, if there is a node. -/
def setParent (h : Heap α) (a : Option Nat) (p : Nat) : Heap α :=
  match a with
  | none => h
  | some a => { h with get := fun b => if b = a then (h.get a).map fun n => { n with parent := some p } else h.get b }

/-- Construction of a node from data and two owned children (300, 330-338) in fresh memory. -/
def alloc (h : Heap α) (d : α) (l r : Option Nat) : Heap α × Nat :=
  let h1 : Heap α := ⟨fun b => if b = h.next then some ⟨d, l, r, none⟩ else h.get b, h.next + 1⟩
  (setParent (setParent h1 l h.next) r h.next, h.next)

/-- `struct Frame` (248-253, 711-716). -/
structure Frame where
  src : Nat
  stage : Nat
  left : Option Nat
  right : Option Nat

/-- The loop of `deep_copy` (257-281) and of `transform_node` (720-744), which differ in the types only: `read` looks up a source node,
`fn` is applied to its data.  The first frame of the list is the top of the stack.  The result is the new memory and `ret`; `none` =
dangling pointer or out of fuel. -/
def copyLoop (read : Heap β → Nat → Option (HNode α)) (fn : α → β) : Nat → Heap β → List Frame → Option Nat → Option (Heap β × Option Nat)
  | _, h, [], ret => some (h, ret)
  | 0, _, _ :: _, _ => none
  | fuel + 1, h, f :: stk, ret =>
    match read h f.src with
    | none => none
    | some n =>
      match n.left, n.right with
      | none, none =>
        let (h', b) := alloc h (fn n.data) none none
        copyLoop read fn fuel h' stk (some b)
      | l, r =>
        if f.stage = 0 then
          match l with
          | some l => copyLoop read fn fuel h (⟨l, 0, none, none⟩ :: { f with stage := 1 } :: stk) ret
          | none => none
        else if f.stage = 1 then
          match r with
          | some r => copyLoop read fn fuel h (⟨r, 0, none, none⟩ :: { f with stage := 2, left := ret } :: stk) none
          | none => none
        else
          let (h', b) := alloc h (fn n.data) f.left ret
          copyLoop read fn fuel h' stk (some b)

/-- `deep_copy` (244-283). -/
def deepCopy (fuel : Nat) (h : Heap α) (a : Nat) : Option (Heap α × Option Nat) :=
  copyLoop (fun h a => h.get a) id fuel h [⟨a, 0, none, none⟩] none

/-- The copy constructor (340-351): copies of the children under a new node. -/
def copyCtor (fuel : Nat) (h : Heap α) (a : Nat) : Option (Heap α × Nat) := do
  let n ← h.get a
  let (h1, l) ← match n.left with
    | some l => deepCopy fuel h l
    | none => some (h, none)
  let (h2, r) ← match n.right with
    | some r => deepCopy fuel h1 r
    | none => some (h1, none)
  return alloc h2 n.data l r

/-- The move constructor (368-374, 376-398): a new node takes over data and children. -/
def moveCtor (h : Heap α) (a : Nat) : Option (Heap α × Nat) := do
  let n ← h.get a
  let (h1, b) := alloc h n.data n.left n.right
  let n' ← h1.get a
  return ({ h1 with get := fun c => if c = a then some { n' with left := none, right := none } else h1.get c }, b)

/-- `transform_node` (700-746) from a source heap into a target heap. -/
def transformNode (fn : α → β) (fuel : Nat) (src : Heap α) (h : Heap β) (a : Nat) : Option (Heap β × Nat) := do
  let r ← copyLoop (fun _ a => src.get a) fn fuel h [⟨a, 0, none, none⟩] none
  moveCtor r.1 (← r.2)

/-! ### Destruction -/

/-- The loop of the destructor (411-417): `pending` with its back first, and the nodes freed so far. -/
def destroyLoop (h : Nat → Option (HNode α)) : Nat → List Nat → List Nat → Option (List Nat)
  | _, [], freed => some freed
  | 0, _ :: _, _ => none
  | fuel + 1, a :: pending, freed =>
    match h a with
    | none => none
    | some n =>
      let p1 := match n.left with | some l => l :: pending | none => pending
      let p2 := match n.right with | some r => r :: p1 | none => p1
      destroyLoop h fuel p2 (a :: freed)

/-- The destructor of the node `a` (406-418): the nodes it frees. -/
def destroy (fuel : Nat) (h : Nat → Option (HNode α)) (a : Nat) : Option (List Nat) :=
  match h a with
  | none => none
  | some n =>
    let p1 := match n.left with | some l => [l] | none => []
    let p2 := match n.right with | some r => r :: p1 | none => p1
    destroyLoop h fuel p2 []

/-! ### Folding -/

/-- `fold_left_to_node` (763-791) on values of trees; `none` = failed assertion. -/
def foldLeft (op : Tree α → Tree α → α) : List (Tree α) → Option (Tree α)
  | [] => none
  | t :: ts => some (ts.foldl (fun l r => .node (op l r) l r) t)

/-- The constructor from a container (499-531); `none` = dereferenced end iterator. -/
def ofContainer (b1 : β → α) (b2 : α → α → α) : List β → Option (Tree α)
  | [] => none
  | x :: xs => some (xs.foldl (fun acc v => .node (b2 acc.data (b1 v)) acc (.leaf (b1 v))) (.leaf (b1 x)))

end SeQuant.Nodes
