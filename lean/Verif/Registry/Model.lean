import Mathlib.Order.Defs.LinearOrder
import Mathlib.Data.List.Basic
import Mathlib.Data.String.Basic

/-!
# Model of the registry of operators and of the many-body context
(`SeQuant/domain/mbpt/op_registry.hpp`, `op_registry.cpp`, `context.hpp`, `context.cpp`, `SeQuant/core/reserved.hpp`)

`OpRegistry` holds two shared pointers, to the map of classes and to the map of overridden hermiticities.  The maps live in a heap
(`Heap`), an `OpRegistry` object is a pair of pointers (`Handle`; null after a move), objects are numbered in the order of their construction.
Labels are any linearly ordered type; the predefined registries use strings.
-/

namespace SeQuant.Registry

/-- `OpClass` (op_registry.hpp:20). -/
inductive OpClass
  | ex | deex | gen
  deriving DecidableEq, Repr

/-- `Hermiticity` (attr.hpp). -/
inductive Herm
  | hermitian | antiHermitian | nonHermitian
  deriving DecidableEq, Repr

/-- `default_hermiticity` (op_registry.hpp:28-31). -/
def defaultHerm (c : OpClass) : Herm := if c = .gen then .hermitian else .nonHermitian

section Maps

variable {α β : Type} [LinearOrder α]

/-- `container::map::emplace`: maps are lists with increasing keys; a key that is present is kept. -/
def emplace (k : α) (v : β) : List (α × β) → List (α × β)
  | [] => [(k, v)]
  | (x, w) :: l => if k < x then (k, v) :: (x, w) :: l else if k = x then (x, w) :: l else (x, w) :: emplace k v l

/-- `container::map::insert_or_assign`. -/
def insertOrAssign (k : α) (v : β) : List (α × β) → List (α × β)
  | [] => [(k, v)]
  | (x, w) :: l => if k < x then (k, v) :: (x, w) :: l else if k = x then (x, v) :: l else (x, w) :: insertOrAssign k v l

/-- `container::map::find`. -/
def find (k : α) : List (α × β) → Option β
  | [] => none
  | (x, w) :: l => if k = x then some w else find k l

/-- `container::map::erase`. -/
def erase (k : α) (l : List (α × β)) : List (α × β) := l.filter fun x => decide (x.1 ≠ k)

/-- A map from its elements (the first of equal keys is kept). -/
def ofList (m : List (α × β)) : List (α × β) := m.foldl (fun l x => emplace x.1 x.2 l) []

end Maps

/-- What a call does: it returns (a value), throws an `Exception`, fails an assertion, or has no defined behavior (a null pointer is
dereferenced). -/
inductive Outcome
  | done | throws | assertFails | ub
  | bool (b : Bool)
  | cls (c : OpClass)
  | herm (h : Herm)
  | obj (v : Nat)
  deriving DecidableEq, Repr

/-- The maps owned by shared pointers. -/
structure Heap (α : Type) where
  ops : List (List (α × OpClass))
  herms : List (List (α × Herm))

/-- `OpRegistry::ops_`, `OpRegistry::herm_overrides_` (op_registry.hpp:129-132). -/
structure Handle where
  ops : Option Nat
  herm : Option Nat
  deriving DecidableEq, Repr

/-- `mbpt::Context` (context.hpp:92-94): `csv_` and a shared pointer to an `OpRegistry` object. -/
structure Ctx where
  csv : Bool
  reg : Option Nat
  deriving DecidableEq, Repr

/-- All objects. -/
structure State (α : Type) where
  heap : Heap α
  regs : List Handle
  ctxs : List Ctx

/-- Calls; `v`, `w` number `OpRegistry` objects, `i`, `j` contexts. -/
inductive Call (α : Type)
  | new
  | ofMap (m : List (α × OpClass))
  | share (v : Nat)
  | copy (v : Nat)
  | move (v : Nat)
  | assign (v w : Nat)
  | moveAssign (v w : Nat)
  | clone (v : Nat)
  | add (v : Nat) (l : α) (c : OpClass)
  | addHerm (v : Nat) (l : α) (c : OpClass) (h : Herm)
  | setHerm (v : Nat) (l : α) (h : Herm)
  | remove (v : Nat) (l : α)
  | purge (v : Nat)
  | contains (v : Nat) (l : α)
  | toClass (v : Nat) (l : α)
  | hermiticity (v : Nat) (l : α)
  | equal (v w : Nat)
  | ctxNew (csv : Bool) (ptr : Option Nat)
  | ctxOf (csv : Bool) (v : Nat)
  | ctxCopy (i : Nat)
  | ctxClone (i : Nat)
  | ctxSetReg (i v : Nat)
  | ctxSetPtr (i : Nat) (ptr : Option Nat)
  | ctxSetCsv (i : Nat) (csv : Bool)
  | ctxRegistry (i : Nat)
  | ctxEqual (i j : Nat)

section Exec

variable {α : Type} [LinearOrder α]

def nullHandle : Handle := ⟨none, none⟩

def State.reg (s : State α) (v : Nat) : Handle := s.regs.getD v nullHandle

def State.ctx (s : State α) (i : Nat) : Ctx := s.ctxs.getD i ⟨false, none⟩

/-- `ops_->…`: the map behind a pointer, `none` for a null pointer. -/
def State.opsOf (s : State α) (v : Nat) : Option (List (α × OpClass)) := (s.reg v).ops.map fun k => s.heap.ops.getD k []

def State.hermsOf (s : State α) (v : Nat) : Option (List (α × Herm)) := (s.reg v).herm.map fun k => s.heap.herms.getD k []

def State.setOps (s : State α) (v : Nat) (m : List (α × OpClass)) : State α :=
  match (s.reg v).ops with
  | none => s
  | some k => ⟨⟨s.heap.ops.set k m, s.heap.herms⟩, s.regs, s.ctxs⟩

def State.setHerms (s : State α) (v : Nat) (m : List (α × Herm)) : State α :=
  match (s.reg v).herm with
  | none => s
  | some k => ⟨⟨s.heap.ops, s.heap.herms.set k m⟩, s.regs, s.ctxs⟩

/-- A new object with new maps. -/
def State.alloc (s : State α) (m : List (α × OpClass)) (h : List (α × Herm)) : State α :=
  ⟨⟨s.heap.ops ++ [m], s.heap.herms ++ [h]⟩, s.regs ++ [⟨some s.heap.ops.length, some s.heap.herms.length⟩], s.ctxs⟩

/-- `contains` (op_registry.cpp:69-71); `none` = null pointer. -/
def State.contains (s : State α) (v : Nat) (l : α) : Option Bool := (s.opsOf v).map fun m => (find l m).isSome

/-- `validate_op` (op_registry.cpp:12-21), with the continuation run if nothing is thrown. -/
def State.validate (reserved : List α) (s : State α) (v : Nat) (l : α) (k : State α → Outcome × State α) : Outcome × State α :=
  if l ∈ reserved then (.throws, s)
  else match s.contains v l with
    | none => (.ub, s)
    | some true => (.throws, s)
    | some false => k s

/-- `contains` followed by `throw` if it is false (op_registry.cpp:51-54, 60-63). -/
def State.require (s : State α) (v : Nat) (l : α) (k : State α → Outcome × State α) : Outcome × State α :=
  match s.contains v l with
  | none => (.ub, s)
  | some false => (.throws, s)
  | some true => k s

/-- `ops_->emplace(op, action)` (op_registry.cpp:37, 44). -/
def State.emplaceOp (s : State α) (v : Nat) (l : α) (c : OpClass) : State α :=
  match s.opsOf v with
  | none => s
  | some m => s.setOps v (emplace l c m)

/-- `herm_overrides_->insert_or_assign(op, hermiticity)` (op_registry.cpp:45, 55). -/
def State.assignHerm (s : State α) (v : Nat) (l : α) (h : Herm) : Outcome × State α :=
  match s.hermsOf v with
  | none => (.ub, s)
  | some m => (.done, s.setHerms v (insertOrAssign l h m))

/-- `to_class` (op_registry.cpp:73-80). -/
def State.toClass (s : State α) (v : Nat) (l : α) : Outcome :=
  match s.opsOf v with
  | none => .ub
  | some m => match find l m with
    | none => .throws
    | some c => .cls c

/-- `hermiticity` (op_registry.cpp:82-86). -/
def State.hermiticity (s : State α) (v : Nat) (l : α) : Outcome :=
  match s.hermsOf v with
  | none => .ub
  | some o => match find l o with
    | some h => .herm h
    | none => match s.toClass v l with
      | .cls c => .herm (defaultHerm c)
      | r => r

/-- `operator==` of registries (op_registry.hpp:141-144). -/
def State.equal (s : State α) (v w : Nat) : Outcome :=
  match s.opsOf v, s.opsOf w with
  | some a, some b =>
    if a = b then
      match s.hermsOf v, s.hermsOf w with
      | some a', some b' => .bool (decide (a' = b'))
      | _, _ => .ub
    else .bool false
  | _, _ => .ub

/-- `OpRegistry::clone` (op_registry.cpp:88-95). -/
def State.clone (s : State α) (v : Nat) : Outcome × State α :=
  match s.opsOf v, s.hermsOf v with
  | some m, some h => (.done, s.alloc m h)
  | _, _ => (.ub, s)

def State.setCtx (s : State α) (i : Nat) (c : Ctx) : State α := ⟨s.heap, s.regs, s.ctxs.set i c⟩

def State.pushCtx (s : State α) (c : Ctx) : State α := ⟨s.heap, s.regs, s.ctxs ++ [c]⟩

/-- The copy constructor (op_registry.hpp:57-58). -/
def State.copy (s : State α) (v : Nat) : State α := ⟨s.heap, s.regs ++ [s.reg v], s.ctxs⟩

/-- One call. -/
def exec (reserved : List α) (s : State α) : Call α → Outcome × State α
  | .new => (.done, s.alloc [] [])                                                  -- op_registry.hpp:44-47
  | .ofMap m => (.done, s.alloc (ofList m) [])                                      -- op_registry.hpp:51-54, a map not shared with others
  | .share v => (.done, ⟨⟨s.heap.ops, s.heap.herms ++ [[]]⟩,                       -- op_registry.hpp:51-54, the map of another object
      s.regs ++ [⟨(s.reg v).ops, some s.heap.herms.length⟩], s.ctxs⟩)
  | .copy v => (.done, s.copy v)
  | .move v => (.done, ⟨s.heap, s.regs.set v nullHandle ++ [s.reg v], s.ctxs⟩)      -- op_registry.hpp:61-63
  | .assign v w => (.done, ⟨s.heap, s.regs.set v (s.reg w), s.ctxs⟩)                -- op_registry.cpp:23-27
  | .moveAssign v w => (.done, ⟨s.heap, (s.regs.set w nullHandle).set v (s.reg w), s.ctxs⟩)  -- op_registry.cpp:29-33
  | .clone v => s.clone v
  | .add v l c => s.validate reserved v l fun s => (.done, s.emplaceOp v l c)       -- op_registry.cpp:35-39
  | .addHerm v l c h => s.validate reserved v l fun s => (s.emplaceOp v l c).assignHerm v l h   -- op_registry.cpp:41-47
  | .setHerm v l h => s.require v l fun s => s.assignHerm v l h                     -- op_registry.cpp:49-57
  | .remove v l => s.require v l fun s =>                                           -- op_registry.cpp:59-67
      match s.opsOf v, s.hermsOf v with
      | some m, some o => (.done, (s.setOps v (erase l m)).setHerms v (erase l o))
      | _, _ => (.ub, s)
  | .purge v =>                                                                     -- op_registry.hpp:123-126
      match s.opsOf v, s.hermsOf v with
      | some _, some _ => (.done, (s.setOps v []).setHerms v [])
      | _, _ => (.ub, s)
  | .contains v l =>
      match s.contains v l with
      | none => (.ub, s)
      | some b => (.bool b, s)
  | .toClass v l => (s.toClass v l, s)
  | .hermiticity v l => (s.hermiticity v l, s)
  | .equal v w => (s.equal v w, s)
  | .ctxNew csv ptr => (.done, s.pushCtx ⟨csv, ptr⟩)                                -- context.cpp:16-23
  | .ctxOf csv v => (.done, (s.copy v).pushCtx ⟨csv, some s.regs.length⟩)           -- context.cpp:16-23 with `op_registry`
  | .ctxCopy i => (.done, s.pushCtx (s.ctx i))
  | .ctxClone i =>                                                                  -- context.cpp:25-31
      match (s.ctx i).reg with
      | none => (.done, s.pushCtx (s.ctx i))
      | some v =>
        match s.clone v with
        | (.done, s') => (.done, s'.pushCtx ⟨(s.ctx i).csv, some s.regs.length⟩)
        | r => r
  | .ctxSetReg i v => (.done, (s.copy v).setCtx i ⟨(s.ctx i).csv, some s.regs.length⟩)   -- context.cpp:45-48
  | .ctxSetPtr i ptr => (.done, s.setCtx i ⟨(s.ctx i).csv, ptr⟩)                    -- context.cpp:50-53
  | .ctxSetCsv i csv => (.done, s.setCtx i ⟨csv, (s.ctx i).reg⟩)                    -- context.cpp:55-58
  | .ctxRegistry i =>                                                               -- context.cpp:35-43
      match (s.ctx i).reg with
      | none => (.assertFails, s)
      | some v => (.obj v, s)
  | .ctxEqual i j =>                                                                -- context.cpp:60-68
      if (s.ctx i).csv ≠ (s.ctx j).csv then (.bool false, s)
      else match (s.ctx i).reg, (s.ctx j).reg with
        | none, none => (.bool true, s)
        | some v, some w => (s.equal v w, s)
        | _, _ => (.bool false, s)

/-- No object. -/
def State.init : State α := ⟨⟨[], []⟩, [], []⟩

/-- A sequence of calls: the outcomes. -/
def run (reserved : List α) : State α → List (Call α) → List Outcome
  | _, [] => []
  | s, c :: cs => (exec reserved s c).1 :: run reserved (exec reserved s c).2 cs

end Exec

/-! ### Predefined registries -/

/-- `reserved::labels` (reserved.hpp:17-57): `Â`, `Ŝ`, `P̂`, `δ`, `s`. -/
def reservedLabels : List String := ["Â", "Ŝ", "P̂", "δ", "s"]

/-- `make_minimal_registry` (context.cpp:112-127). -/
def minimalRegistry : List (Call String) :=
  [.new, .add 0 "h" .gen, .add 0 "g" .gen, .add 0 "f" .gen, .add 0 "θ" .gen, .add 0 "ã" .gen, .add 0 "t" .ex, .add 0 "λ" .deex,
    .add 0 "R" .ex, .add 0 "L" .deex]

/-- `make_legacy_registry` (context.cpp:129-155). -/
def legacyRegistry : List (Call String) :=
  [.new, .add 0 "h" .gen, .add 0 "f" .gen, .add 0 "f̃" .gen, .add 0 "g" .gen, .add 0 "θ" .gen, .add 0 "ã" .gen, .add 0 "t" .ex,
    .add 0 "λ" .deex, .add 0 "R" .ex, .add 0 "L" .deex, .add 0 "F" .gen, .add 0 "GR" .gen, .add 0 "C" .gen, .add 0 "γ" .gen,
    .add 0 "κ" .gen]

/-- `to_op_class` (context.cpp:157-164) in a state in which context `i` is the default one. -/
def toOpClass {α : Type} [LinearOrder α] (reserved : List α) (s : State α) (i : Nat) (l : α) : Outcome :=
  if l ∈ reserved then .cls .gen
  else match (s.ctx i).reg with
    | none => .assertFails
    | some v => s.toClass v l

/-- `op_hermiticity` (context.cpp:166-173). -/
def opHermiticity {α : Type} [LinearOrder α] (reserved : List α) (s : State α) (i : Nat) (l : α) : Outcome :=
  if l ∈ reserved then .herm (defaultHerm .gen)
  else match (s.ctx i).reg with
    | none => .assertFails
    | some v => s.hermiticity v l

end SeQuant.Registry
