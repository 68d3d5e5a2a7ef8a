import Verif.Eval.CacheModel

/-!
# Evaluation of expression trees

Transcribes the stack machine `evaluate` and its wrappers (`SeQuant/core/eval/eval.hpp`).  Results are references `R` into a memory `M`
on which the operations of the backend act; logging and timing are left out.
-/

namespace SeQuant.Eval

/-- `EvalOp` of an internal node (eval_expr.hpp). -/
inductive EOp where
  | sum | prod | adjoint
deriving DecidableEq

/-- `EvalNode`: the label stands for the `EvalExpr` of the node. -/
inductive ETree (L : Type) where
  | leaf (a : L)
  | node (a : L) (l r : ETree L)
deriving DecidableEq

variable {L K R M : Type}

def ETree.label : ETree L → L
  | leaf a => a
  | node a _ _ => a

def ETree.isLeaf : ETree L → Bool
  | leaf _ => true
  | node _ _ _ => false

/-- Everything `evaluate` uses: properties of nodes, the leaf evaluator, the backend and the hooks kept in the cache manager. -/
structure Env (L K R M : Type) where
  /-- The class of a node under the key comparator of the cache (eval_node_compare.hpp:34-129). -/
  key : ETree L → K
  op : L → EOp
  /-- `canon_phase`. -/
  phase : L → Int
  /-- `le(node)`. -/
  leaf : L → M → M × R
  sum : ETree L → R → R → M → M × R
  prod : ETree L → R → R → M → M × R
  adj : ETree L → R → M → M × R
  /-- `Result::mult_by_phase`. -/
  scale : Int → R → M → M × R
  /-- `custom_evaluator`. -/
  custom : Option (ETree L → M × Cache K R → (M × Cache K R) × Option R)
  /-- `shaped_product_hook`. -/
  hook : Option (ETree L → R → R → M → M × Option R)

variable [DecidableEq K]

/-- `apply_phase` (528-547). -/
def applyPhase (env : Env L K R M) (t : ETree L) (r : R) (m : M) : M × R :=
  if env.phase t.label = 1 then (m, r) else env.scale (env.phase t.label) r m

/-- `finish_phase_b` (568-575); `none` = null pointer. -/
def finish (env : Env L K R M) (t : ETree L) (storeAfter : Bool) (r : R) (mc : M × Cache K R) : Option ((M × Cache K R) × R) :=
  if !storeAfter then some (mc, r)
  else
    let a := applyPhase env t r mc.1
    let s := mc.2.store (env.key t) a.2
    match s.2 with
    | none => none
    | some ptr =>
      let b := applyPhase env t ptr a.1
      some ((b.1, s.1), b.2)

/-- The call of the custom evaluator (615-637): intercepted result, if any. -/
def tryCustom (env : Env L K R M) (t : ETree L) (mc : M × Cache K R) : (M × Cache K R) × Option R :=
  if t.isLeaf then (mc, none)
  else match env.custom with
    | none => (mc, none)
    | some f => f t mc

/-- The combination of two operands (699-731). -/
def combine (env : Env L K R M) (t : ETree L) (x y : R) (m : M) : M × R :=
  if env.op t.label = .sum then env.sum t x y m
  else
    let h : M × Option R := match env.hook with
      | some h => h t x y m
      | none => (m, none)
    match h.2 with
    | some r => (h.1, r)
    | none => env.prod t x y h.1

inductive Stage where
  | enter | needLeft | needRight | needLeftAdj
deriving DecidableEq

/-- `struct Frame` (555-561). -/
structure Frame (L R : Type) where
  node : ETree L
  checked : Bool
  stage : Stage := .enter
  storeAfter : Bool := false
  left : Option R := none

/-- The state of the machine: memory and cache, stack (top first), `ret`. -/
structure Machine (L K R M : Type) where
  mc : M × Cache K R
  stk : List (Frame L R)
  ret : Option R

/-- `finalize(finish_phase_b(f, r))` (587-590). -/
def finalize (env : Env L K R M) (f : Frame L R) (stk : List (Frame L R)) (r : R) (mc : M × Cache K R) : Option (Machine L K R M) :=
  (finish env f.node f.storeAfter r mc).map fun p => ⟨p.1, stk, some p.2⟩

/-- One round of the loop (592-762); `none` = failed assertion or missing child. -/
def step (env : Env L K R M) (mc : M × Cache K R) (f : Frame L R) (stk : List (Frame L R)) (ret : Option R) : Option (Machine L K R M) :=
  match f.stage with
  | .enter =>
    let acc : Cache K R × Option R := if f.checked then mc.2.access (env.key f.node) else (mc.2, none)
    match acc.2 with
    | some ptr =>
      let a := applyPhase env f.node ptr mc.1
      some ⟨(a.1, acc.1), stk, some a.2⟩
    | none =>
      let f1 := { f with storeAfter := if f.checked then acc.1.exists_ (env.key f.node) else f.storeAfter }
      let c := tryCustom env f.node (mc.1, acc.1)
      match c.2 with
      | some r => finalize env f1 stk r c.1
      | none =>
        match f.node with
        | .leaf a =>
          let r := env.leaf a c.1.1
          finalize env f1 stk r.2 (r.1, c.1.2)
        | .node a l _ =>
          let f2 := { f1 with stage := if env.op a = .adjoint then Stage.needLeftAdj else Stage.needLeft }
          some ⟨c.1, { node := l, checked := true } :: f2 :: stk, ret⟩
  | .needLeftAdj =>
    match ret with
    | none => none
    | some x =>
      let r := env.adj f.node x mc.1
      finalize env f stk r.2 (r.1, mc.2)
  | .needLeft =>
    match ret, f.node with
    | some x, .node _ _ r => some ⟨mc, { node := r, checked := true } :: { f with left := some x, stage := .needRight } :: stk, none⟩
    | _, _ => none
  | .needRight =>
    match f.left, ret with
    | some x, some y =>
      let r := combine env f.node x y mc.1
      finalize env f stk r.2 (r.1, mc.2)
    | _, _ => none

/-- The loop (592-763) and `return ret` (765), one round per unit of fuel. -/
def run (env : Env L K R M) : Nat → Machine L K R M → Option ((M × Cache K R) × R)
  | fuel, ⟨mc, stk, ret⟩ =>
    match stk with
    | [] => ret.map fun r => (mc, r)
    | f :: stk =>
      match fuel with
      | 0 => none
      | fuel + 1 =>
        match step env mc f stk ret with
        | some s => run env fuel s
        | none => none

/-- `evaluate<EvalTrace, Cache>(node, le, cache)` (519-766). -/
def evaluate (env : Env L K R M) (fuel : Nat) (checked : Bool) (t : ETree L) (mc : M × Cache K R) : Option ((M × Cache K R) × R) :=
  run env fuel ⟨mc, [{ node := t, checked := checked }], none⟩

/-! ### Layouts and sequences -/

/-- What the wrappers need beyond `evaluate`: `Result::permute` and `Result::add_inplace`. -/
structure Accum (L R M : Type) where
  permute : ETree L → R → M → M × R
  addInplace : R → R → M → M

/-- `evaluate(node, layout, le, cache)` (782-828); `perm` tells whether the layout differs from the default one. -/
def evaluateLayout (env : Env L K R M) (ac : Accum L R M) (perm : Bool) (fuel : Nat) (t : ETree L) (mc : M × Cache K R) :
    Option ((M × Cache K R) × R) :=
  match evaluate env fuel true t mc with
  | none => none
  | some (mc1, r) => if perm then let p := ac.permute t r mc1.1; some ((p.1, mc1.2), p.2) else some (mc1, r)

/-- The loop of `evaluate(nodes, layout, le, cache)` (862-886). -/
def evaluateSeq (env : Env L K R M) (ac : Accum L R M) (perm : Bool) (fuel : Nat) :
    List (ETree L) → Option R → M × Cache K R → Option ((M × Cache K R) × Option R)
  | [], result, mc => some (mc, result)
  | n :: ns, none, mc =>
    match evaluateLayout env ac perm fuel n mc with
    | none => none
    | some (mc1, r) => evaluateSeq env ac perm fuel ns (some r) mc1
  | n :: ns, some result, mc =>
    match evaluateLayout env ac perm fuel n mc with
    | none => none
    | some (mc1, pre) => evaluateSeq env ac perm fuel ns (some result) (ac.addInplace result pre mc1.1, mc1.2)

end SeQuant.Eval
