import Verif.Eval.EvalModel
import Verif.Export.GenModel

/-!
# Model of the generation of code from evaluation trees

`PreprocessVisitor` and `GenerationVisitor` (`SeQuant/core/export/export.hpp`), `rename` (`SeQuant/core/export/export.cpp`) and the strategies kept
in `ExportContext` (`SeQuant/core/export/context.cpp`).

Simplifications:
* Stems of labels, indices and descriptions of blocks (what `TensorBlockLessThanComparator` looks at besides the label) are numbers; the digits
  at the end of a label are a number or absent.  A `Variable` is an object without indices (a tensor has at least one).
* The context is an `ExportContext` itself: `rewrite` changes nothing (context.cpp:233-235) and there are no batch indices (267-270).
* `Power` has a variable as its base (one with a constant base is a constant); the exponent is a number which stands for it.
* The identifiers of nodes (`id`) only serve to find the scalar factor of a node and to tell left from right: the factor is kept in the node.
* Internal nodes are tensors or variables (the code throws or fails an assertion otherwise, 100, 308-311).
-/

namespace SeQuant.Codegen

open SeQuant.Eval (EOp)
open SeQuant.Export (Op)

/-- What the maps of the code use as the key of a tensor or variable: the label, split into stem and number at its end, and the block. -/
structure Name where
  stem : Nat
  num : Option Nat
  blk : Nat
  deriving DecidableEq

/-- The expression of a node: a tensor or variable with its indices, a constant, or a power of a variable. -/
inductive EX (K : Type) where
  | obj (n : Name) (a : List Nat)
  | const (c : K)
  | pow (n : Name) (k : Nat)
  deriving DecidableEq

/-- `ExportNode` as made by `to_export_tree`; `neg` tells whether the `canon_phase` of the leaf is -1. -/
inductive T (K : Type) where
  | leaf (x : EX K) (neg : Bool)
  | node (op : EOp) (n : Name) (a : List Nat) (l r : T K)
  deriving DecidableEq

/-- `ExportNode` after the preprocessing; `cl`, `cr`: `ComputeSelection`, `fac`: the factors of the `scalarFactors` of the node. -/
inductive P (K : Type) where
  | leaf (x : EX K)
  | node (op : EOp) (cl cr : Bool) (n : Name) (a : List Nat) (fac : List (EX K)) (l r : P K)
  deriving DecidableEq

variable {K : Type}

/-- The tensor or variable of an expression (the base of a power). -/
def EX.name : EX K → Option Name
  | .obj n _ => some n
  | .const _ => none
  | .pow n _ => some n

def EX.idx : EX K → List Nat
  | .obj _ a => a
  | .const _ => []
  | .pow _ _ => []

def T.isLeaf : T K → Bool
  | .leaf _ _ => true
  | .node .. => false

def P.isLeaf : P K → Bool
  | .leaf _ => true
  | .node .. => false

/-- `size()` (binary_node.hpp:465-471). -/
def T.size : T K → Nat
  | .leaf _ _ => 1
  | .node _ _ _ l r => l.size + r.size + 1

/-- `node->expr()`. -/
def P.expr : P K → EX K
  | .leaf x => x
  | .node _ _ _ n a _ _ _ => .obj n a

/-! ### Strategies (context.hpp:19-48, context.cpp:85-231) -/

/-- `ZeroStrategy`: the three bits (25-31). -/
structure ZeroStrat where
  onLoad : Bool
  onCreate : Bool
  onReuse : Bool
  deriving DecidableEq

def ZeroStrat.never : ZeroStrat := ⟨false, false, false⟩
def ZeroStrat.create : ZeroStrat := ⟨false, true, false⟩
def ZeroStrat.always : ZeroStrat := ⟨true, true, true⟩

/-- `StrategyPair` (40-48); `load`: `LoadStrategy::Load`. -/
structure Strat where
  load : Bool := false
  zero : ZeroStrat := .create
  deriving DecidableEq

/-- `ExportContext`: the strategies for all expressions and those of the current one. -/
structure Ctx where
  glob : Name → Option Strat
  loc : Name → Option Strat

def Ctx.empty : Ctx := ⟨fun _ => none, fun _ => none⟩

/-- `loadStrategy`, `zeroStrategy` (85-127, 159-201). -/
def Ctx.get (c : Ctx) (n : Name) : Strat :=
  match c.glob n with
  | some s => s
  | none =>
    match c.loc n with
    | some s => s
    | none => {}

/-- `setLoadStrategy(n, Load)` for the current expression (129-157). -/
def Ctx.setLoad (c : Ctx) (n : Name) : Ctx :=
  { c with loc := Function.update c.loc n (some { (c.loc n).getD {} with load := true }) }

/-- `setZeroStrategy` for the current expression (203-231). -/
def Ctx.setZero (c : Ctx) (n : Name) (z : ZeroStrat) : Ctx :=
  { c with loc := Function.update c.loc n (some { (c.loc n).getD {} with zero := z }) }

/-! ### Preprocessing -/

/-- `Usage` (context.hpp:51-56). -/
inductive Usage where
  | none | result | intermediate | terminal
  deriving DecidableEq

/-- `PreprocessResult` (34-42) and the context.  `keys`, `cnt`: the keys and values of `tensorReferences` and `variableReferences`;
`decl`: what is ored into `tensors` and `variables`; `idx`: `indices`. -/
structure PS where
  ctx : Ctx
  keys : List Name
  cnt : Name → Nat
  decl : List (Name × Usage)
  idx : List Nat

/-- `PrunableScalars` (generator.hpp:26-31). -/
structure Prunable where
  consts : Bool
  vars : Bool
  deriving DecidableEq

/-- Whether `prune_scalar_factor` (343-420) removes this leaf. -/
def Prunable.ok (p : Prunable) : EX K → Bool
  | .const _ => p.consts
  | .pow _ _ => p.vars
  | .obj _ [] => p.vars
  | .obj _ (_ :: _) => false

/-- The leaf `prune_scalar_factor` removes. -/
def prunable (p : Prunable) : T K → Option (EX K)
  | .leaf x _ => if p.ok x then some x else none
  | .node .. => none

/-- `may_prune` (553-578) of a product; `pp`: the node has a parent which is a product. -/
def mayPrune (pp : Bool) (l r : T K) : Bool := !(l.isLeaf && r.isLeaf) || pp

/-- A node after `prune_scalar_factors`; in a leaf `up` is passed on to the parent (647-659). -/
inductive Pruned (K : Type) where
  | leaf (x : EX K) (up : List (EX K))
  | node (op : EOp) (n : Name) (a : List Nat) (fac : List (EX K)) (l r : T K)

/-- The first loop of `prune_scalar_factors` (642-660) with `prune_scalar_factor`: the other child takes the place of the node, an internal
one with the expression of the node (398-399). -/
def pruneL (p : Prunable) (pp : Bool) : T K → Name → List Nat → List (EX K) → Pruned K
  | .leaf x _, _, _, fac => .leaf x fac
  | .node op _ _ l r, n, a, fac =>
    if op = .prod ∧ mayPrune pp l r = true then
      match prunable p l with
      | some x => pruneL p pp r n a (fac ++ [x])
      | none => .node op n a fac l r
    else .node op n a fac l r

/-- The second loop (662-677). -/
def pruneR (p : Prunable) (pp : Bool) : T K → Name → List Nat → List (EX K) → Pruned K
  | .leaf x _, _, _, fac => .leaf x fac
  | .node op _ _ l r, n, a, fac =>
    if op = .prod ∧ mayPrune pp l r = true then
      match prunable p r with
      | some x => pruneR p pp l n a (fac ++ [x])
      | none => .node op n a fac l r
    else .node op n a fac l r

/-- `prune_scalar_factors` (641-678). -/
def prune (p : Prunable) (pp : Bool) : T K → Pruned K
  | .leaf x _ => .leaf x []
  | .node op n a l r =>
    match pruneL p pp (.node op n a l r) n a [] with
    | .leaf x up => .leaf x up
    | .node op' n' a' fac l' r' => pruneR p pp (.node op' n' a' l' r') n' a' fac

/-- The names `rename` tries (export.cpp:31-37). -/
def candidate (n : Name) (k : Nat) : Name := { n with num := if k = 0 then none else some (k + 1) }

/-- The loop of `rename` (33-37); `none`: no name found within so many steps. -/
def renameLoop (cnt : Name → Nat) (n : Name) : Nat → Nat → Option Name
  | 0, _ => none
  | f + 1, k => if cnt (candidate n k) > 0 then renameLoop cnt n f (k + 1) else some (candidate n k)

/-- `rename` (17-66). -/
def rename (s : PS) (n : Name) : Option Name := renameLoop s.cnt n (s.keys.length + 1) 0

/-- `preprocess` of a leaf (445-448). -/
def contentLeaf (s : PS) (x : EX K) : PS :=
  match x.name with
  | none => s
  | some n => { s with ctx := (s.ctx.setLoad n).setZero n .never }

/-- `preprocess` of an internal node (449-497). -/
def contentNode (s : PS) (handleReuse : Bool) (n : Name) : Option (Name × PS) :=
  if handleReuse = true ∧ n ∈ s.keys then
    if s.cnt n > 0 then
      match rename s n with
      | none => none
      | some n' => some (n', if n' ∈ s.keys then { s with ctx := s.ctx.setZero n' .always } else s)
    else some (n, { s with ctx := s.ctx.setZero n .always })
  else some (n, s)

/-- `track_usage` (505-548). -/
def track (s : PS) (u : Usage) (x : EX K) : PS :=
  match x.name with
  | none => s
  | some n =>
    { s with
      keys := if n ∈ s.keys then s.keys else n :: s.keys
      cnt := Function.update s.cnt n (s.cnt n + 1)
      decl := (n, u) :: s.decl
      idx := x.idx ++ s.idx }

/-- The declarations of the pruned variables (366, 375). -/
def trackPruned (s : PS) : List (EX K) → PS
  | [] => s
  | x :: fac =>
    match x.name with
    | none => trackPruned s fac
    | some n => trackPruned { s with decl := (n, .terminal) :: s.decl } fac

/-- `release_used_terms` for one child (748-784). -/
def release (s : PS) (x : EX K) : PS :=
  match x.name with
  | none => s
  | some n => { s with cnt := Function.update s.cnt n (s.cnt n - 1) }

/-- What a child needs to know about its parent; `comp`: whether the parent computes (adds) the child. -/
structure Par where
  op : EOp
  n : Name
  a : List Nat
  comp : Bool

/-- Whether the parent is a product (553-578). -/
def underProd : Option Par → Bool
  | none => false
  | some q => decide (q.op = .prod)

/-- Whether reuse is handled (471-472). -/
def reuse : Option Par → Bool
  | none => false
  | some q => decide (q.op ≠ .sum)

/-- The expression of the node after `prune_redundant_intermediate` (723-746). -/
def newExpr (par : Option Par) (n : Name) (a : List Nat) : Name × List Nat :=
  match par with
  | some q => if q.comp then (n, a) else (q.n, q.a)
  | none => (n, a)

/-- The usage of an internal node (505-548). -/
def usageOf : Option Par → Usage
  | none => .result
  | some q => if q.op = .sum then .none else .intermediate

/-- `PreprocessVisitor` on a subtree (608-639), in the order of `visit` (binary_node.hpp:148-219); also the factors which go to the parent.
The number bounds the depth; `preF_spec` shows that the size of the tree suffices. -/
def preF (p : Prunable) : Nat → Option Par → T K → PS → Option (P K × List (EX K) × PS)
  | 0, _, _, _ => none
  | f + 1, par, t, s =>
    match prune p (underProd par) t with
    | .leaf x up => some (.leaf x, up, track (contentLeaf (trackPruned s up) x) .terminal x)
    | .node op n a fac l r =>
      match contentNode (trackPruned s fac) (reuse par) n with
      | none => none
      | some (n', s₁) =>
        -- rebalance_tree (693-697)
        let l' := if l.size < r.size then r else l
        let r' := if l.size < r.size then l else r
        -- set_compute_selection (699-721)
        let cl := if op = .sum then l'.isLeaf else true
        let cr := if op = .sum then r'.isLeaf else true
        let e := newExpr par n' a
        match preF p f (some ⟨op, e.1, e.2, cl⟩) l' (track s₁ (usageOf par) (.obj e.1 e.2 : EX K)) with
        | none => none
        | some (pl, ul, s₂) =>
          match preF p f (some ⟨op, e.1, e.2, cr⟩) r' s₂ with
          | none => none
          | some (pr, ur, s₃) =>
            some (.node op cl cr e.1 e.2 (fac ++ ul ++ ur) pl pr, [], release (release s₃ pl.expr) pr.expr)

/-- `preprocess_and_maybe_log` (795-819). -/
def preprocess (p : Prunable) (t : T K) (c : Ctx) : Option (P K × PS) :=
  (preF p t.size none t ⟨c, [], fun _ => 0, [], []⟩).map fun q => (q.1, q.2.2)

/-! ### Generation -/

/-- The argument of `compute`: the indices of the result and the factors of the product. -/
abbrev Rhs (K : Type) := List Nat × List (EX K)

abbrev Code (K : Type) := List (Op Name (Rhs K))

/-- `m_tensorUses` and `m_variableUses` (330-332): keys and values. -/
structure GS where
  used : List Name
  cnt : Name → Nat

def GS.empty : GS := ⟨[], fun _ => 0⟩

/-- `m_tensorUses[n]++`. -/
def GS.inc (g : GS) (n : Name) : GS :=
  ⟨if n ∈ g.used then g.used else n :: g.used, Function.update g.cnt n (g.cnt n + 1)⟩

/-- `load_or_create` of a tensor or variable (109-156). -/
def loadOrCreate (c : Ctx) (g : GS) (n : Name) (isLeaf : Bool) : Code K × GS :=
  let st := c.get n
  let usedBefore := decide (n ∈ g.used)
  let loaded := usedBefore && decide (g.cnt n > 0)
  let create := !isLeaf && !usedBefore && !st.load
  let load := !create && !loaded
  let ops : Code K :=
    if create then [.create n st.zero.onCreate]
    else if load then (if st.zero.onLoad then [.loadZero n] else [.load n])
    else if st.zero.onReuse then [.zero n]
    else []
  (ops, g.inc n)

/-- `load_or_create` of a node (158-182). -/
def loadExpr (c : Ctx) (g : GS) (x : EX K) (isLeaf : Bool) : Code K × GS :=
  match x.name with
  | none => ([], g)
  | some n => loadOrCreate c g n isLeaf

/-- `drop` (184-210); `none`: failed assertion. -/
def drop (g : GS) (x : EX K) : Option (Code K × GS) :=
  match x.name with
  | none => some ([], g)
  | some n =>
    if g.cnt n > 0 then
      some (if g.cnt n - 1 = 0 then [.unload n] else [],
        ⟨if n ∈ g.used then g.used else n :: g.used, Function.update g.cnt n (g.cnt n - 1)⟩)
    else none

/-- `drop` one after the other. -/
def drops (g : GS) : List (EX K) → Option (Code K × GS)
  | [] => some ([], g)
  | x :: l =>
    match drop g x with
    | none => none
    | some (o, g') =>
      match drops g' l with
      | none => none
      | some (o', g'') => some (o ++ o', g'')

/-- `handle_factor` for all factors (271-298). -/
def loadFactors (g : GS) : List (EX K) → Code K × GS
  | [] => ([], g)
  | x :: l =>
    match x.name with
    | none => loadFactors g l
    | some n =>
      let o : Code K := if g.cnt n = 0 then [.load n] else []
      let q := loadFactors (g.inc n) l
      (o ++ q.1, q.2)

/-- The expressions `process_computation` computes (217-262). -/
def summands (op : EOp) (cl cr : Bool) (xl xr : EX K) : List (List (EX K)) :=
  match op with
  | .prod => [[xl, xr]]
  | .adjoint => [[xl]]
  | .sum => (if cl then [[xl]] else []) ++ (if cr then [[xr]] else [])

/-- `process_computation` (212-324). -/
def processComp (g : GS) (op : EOp) (cl cr : Bool) (n : Name) (a : List Nat) (fac : List (EX K)) (xl xr : EX K) : Option (Code K × GS) :=
  if op = .sum ∧ cl = false ∧ cr = false then some ([], g)
  else
    let q := loadFactors g fac
    let comp : Code K := (summands op cl cr xl xr).map fun e => .compute n (a, fac ++ e)
    match drops q.2 fac.reverse with
    | none => none
    | some (o₁, g₁) =>
      match drops g₁ [xr, xl] with
      | none => none
      | some (o₂, g₂) => some (q.1 ++ comp ++ o₁ ++ o₂, g₂)

/-- `GenerationVisitor` on a subtree (72-90). -/
def gen (c : Ctx) : P K → GS → Option (Code K × GS)
  | .leaf x, g => some (loadExpr c g x true)
  | .node op cl cr n a fac l r, g =>
    let q := loadOrCreate c g n false
    match gen c l q.2 with
    | none => none
    | some (ol, g₁) =>
      match gen c r g₁ with
      | none => none
      | some (or, g₂) =>
        match processComp g₂ op cl cr n a fac l.expr r.expr with
        | none => none
        | some (op', g₃) => some (q.1 ++ ol ++ or ++ op', g₃)

/-- The object persisted when the root is visited the second time (92-105). -/
def persistOps : P K → Code K
  | .leaf _ => []
  | .node _ _ _ n _ _ _ _ => [.persist n]

/-- `export_expression` for one tree (824-842, 1003-1049): the generated code and the result of the preprocessing. -/
def exportTree (p : Prunable) (c : Ctx) (t : T K) : Option (Code K × PS) :=
  match preprocess p t c with
  | none => none
  | some (q, s) =>
    match gen s.ctx q GS.empty with
    | none => none
    | some (o, _) => some (o ++ persistOps q, s)

end SeQuant.Codegen
