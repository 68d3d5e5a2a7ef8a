import Verif.Registry.Model

/-!
# What a registry of operators is

A registry is a finite function from labels to a class and possibly an explicit hermiticity.  Objects refer to registries: copies refer to the
same one, clones to one of their own.
-/

namespace SeQuant.Registry

variable {α : Type}

/-- The contents of a registry. -/
abbrev Reg (α : Type) := α → Option (OpClass × Option Herm)

/-- Registries, the objects referring to them (`none` after a move), and the contexts. -/
structure SState (α : Type) where
  store : List (Reg α)
  refs : List (Option Nat)
  ctxs : List Ctx

def SState.ref (t : SState α) (v : Nat) : Option Nat := t.refs.getD v none

def SState.ctx (t : SState α) (i : Nat) : Ctx := t.ctxs.getD i ⟨false, none⟩

/-- The registry an object refers to. -/
def SState.get (t : SState α) (v : Nat) : Option (Reg α) := (t.ref v).map fun k => t.store.getD k fun _ => none

/-- Changes the registry an object refers to. -/
def SState.put (t : SState α) (v : Nat) (r : Reg α) : SState α :=
  match t.ref v with
  | none => t
  | some k => ⟨t.store.set k r, t.refs, t.ctxs⟩

def SState.alloc (t : SState α) (r : Reg α) : SState α := ⟨t.store ++ [r], t.refs ++ [some t.store.length], t.ctxs⟩

def SState.copy (t : SState α) (v : Nat) : SState α := ⟨t.store, t.refs ++ [t.ref v], t.ctxs⟩

def SState.setCtx (t : SState α) (i : Nat) (c : Ctx) : SState α := ⟨t.store, t.refs, t.ctxs.set i c⟩

def SState.pushCtx (t : SState α) (c : Ctx) : SState α := ⟨t.store, t.refs, t.ctxs ++ [c]⟩

/-- `f` with another value at one point. -/
def update [DecidableEq α] (r : Reg α) (l : α) (x : Option (OpClass × Option Herm)) : Reg α := fun y => if y = l then x else r y

/-- The hermiticity of an entry: the explicit one, or that of its class. -/
def hermOf (e : OpClass × Option Herm) : Herm := e.2.getD (if e.1 = .gen then .hermitian else .nonHermitian)

/-- The first entry of a list of labels and classes. -/
def ofEntries [DecidableEq α] (m : List (α × OpClass)) : Reg α := fun l => ((m.find? fun x => decide (x.1 = l)).map fun x => (x.2, none))

open Classical in
/-- Equality of the contents of two objects. -/
noncomputable def SState.equal (t : SState α) (v w : Nat) : Outcome :=
  match t.get v, t.get w with
  | some a, some b => .bool (decide (a = b))
  | _, _ => .ub

/-- One call on registries. -/
noncomputable def specExec [DecidableEq α] (reserved : List α) (t : SState α) : Call α → Outcome × SState α
  | .new => (.done, t.alloc fun _ => none)
  | .ofMap m => (.done, t.alloc (ofEntries m))
  | .share _ => (.ub, t)
  | .copy v => (.done, t.copy v)
  | .move v => (.done, ⟨t.store, t.refs.set v none ++ [t.ref v], t.ctxs⟩)
  | .assign v w => (.done, ⟨t.store, t.refs.set v (t.ref w), t.ctxs⟩)
  | .moveAssign v w => (.done, ⟨t.store, (t.refs.set w none).set v (t.ref w), t.ctxs⟩)
  | .clone v =>
    match t.get v with
    | none => (.ub, t)
    | some r => (.done, t.alloc r)
  | .add v l c =>
    if l ∈ reserved then (.throws, t)
    else match t.get v with
      | none => (.ub, t)
      | some r => if (r l).isSome then (.throws, t) else (.done, t.put v (update r l (some (c, none))))
  | .addHerm v l c h =>
    if l ∈ reserved then (.throws, t)
    else match t.get v with
      | none => (.ub, t)
      | some r => if (r l).isSome then (.throws, t) else (.done, t.put v (update r l (some (c, some h))))
  | .setHerm v l h =>
    match t.get v with
    | none => (.ub, t)
    | some r => match r l with
      | none => (.throws, t)
      | some (c, _) => (.done, t.put v (update r l (some (c, some h))))
  | .remove v l =>
    match t.get v with
    | none => (.ub, t)
    | some r => if (r l).isSome then (.done, t.put v (update r l none)) else (.throws, t)
  | .purge v =>
    match t.get v with
    | none => (.ub, t)
    | some _ => (.done, t.put v fun _ => none)
  | .contains v l =>
    match t.get v with
    | none => (.ub, t)
    | some r => (.bool (r l).isSome, t)
  | .toClass v l =>
    match t.get v with
    | none => (.ub, t)
    | some r => match r l with
      | none => (.throws, t)
      | some e => (.cls e.1, t)
  | .hermiticity v l =>
    match t.get v with
    | none => (.ub, t)
    | some r => match r l with
      | none => (.throws, t)
      | some e => (.herm (hermOf e), t)
  | .equal v w => (t.equal v w, t)
  | .ctxNew csv ptr => (.done, t.pushCtx ⟨csv, ptr⟩)
  | .ctxOf csv v => (.done, (t.copy v).pushCtx ⟨csv, some t.refs.length⟩)
  | .ctxCopy i => (.done, t.pushCtx (t.ctx i))
  | .ctxClone i =>
    match (t.ctx i).reg with
    | none => (.done, t.pushCtx (t.ctx i))
    | some v => match t.get v with
      | none => (.ub, t)
      | some r => (.done, (t.alloc r).pushCtx ⟨(t.ctx i).csv, some t.refs.length⟩)
  | .ctxSetReg i v => (.done, (t.copy v).setCtx i ⟨(t.ctx i).csv, some t.refs.length⟩)
  | .ctxSetPtr i ptr => (.done, t.setCtx i ⟨(t.ctx i).csv, ptr⟩)
  | .ctxSetCsv i csv => (.done, t.setCtx i ⟨csv, (t.ctx i).reg⟩)
  | .ctxRegistry i =>
    match (t.ctx i).reg with
    | none => (.assertFails, t)
    | some v => (.obj v, t)
  | .ctxEqual i j =>
    if (t.ctx i).csv ≠ (t.ctx j).csv then (.bool false, t)
    else match (t.ctx i).reg, (t.ctx j).reg with
      | none, none => (.bool true, t)
      | some v, some w => (t.equal v w, t)
      | _, _ => (.bool false, t)

def SState.init : SState α := ⟨[], [], []⟩

/-- A sequence of calls. -/
noncomputable def specRun [DecidableEq α] (reserved : List α) : SState α → List (Call α) → List Outcome
  | _, [] => []
  | t, c :: cs => (specExec reserved t c).1 :: specRun reserved (specExec reserved t c).2 cs

/-- The call does not build an object from the map of another one. -/
def Call.notShare : Call α → Bool
  | .share _ => false
  | _ => true

end SeQuant.Registry
