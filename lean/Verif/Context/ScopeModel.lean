/-!
# Default contexts and their scopes

Model of `core/utility/context.hpp`, `core/context.cpp` and `core/utility/scope.hpp`.

* A `Context` (core/context.hpp:199-212) is a set of plain values and a `std::shared_ptr` to an `IndexSpaceRegistry`.  The
  values compared before the registries (vacuum, metric, strict symmetry, single-particle basis, first dummy ordinal) are
  lumped into `pre`, those compared after (canonicalization options, typesetting) into `post`.
* A registry (core/index_space_registry.hpp:1365-1390) is a `std::shared_ptr` to a set of spaces and the designations of the vacuum,
  reference, complete, hole and particle spaces, lumped into `spec`.  Pointers are addresses (`Nat`); a heap gives the content.
* `Statistics` (core/attr.hpp:159-163).  The `flat_map<Statistics, Context>` is a list of entries, sorted by key.

Not modelled: threads (the mutex of core/context.cpp:41-43), the references returned by `get_default_context`, which a later change of
the map invalidates, and the content of space sets, which `operator==` compares only after it has found the pointers equal.
-/

namespace SeQuant.Contexts

/-- core/attr.hpp:159-163. -/
inductive Stat where
  | fermi
  | bose
  | arbitrary
  deriving DecidableEq, Repr

/-- Order of the enumerators. -/
def Stat.ord : Stat → Nat
  | .fermi => 0
  | .bose => 1
  | .arbitrary => 2

/-- core/index_space_registry.hpp:1365-1390. -/
structure Reg where
  spaces : Nat
  spec : Nat
  deriving DecidableEq, Repr

/-- core/context.hpp:199-212. -/
structure Ctx where
  pre : Nat
  reg : Option Nat
  post : Nat
  deriving DecidableEq, Repr

/-- `Context{}`: default values and no registry (core/context.hpp:92-102, core/context.cpp:120-135). -/
def Ctx.default : Ctx := ⟨0, none, 0⟩

/-- The `container::map<Statistics, Context>`. -/
abbrev CtxMap := List (Stat × Ctx)

/-- The global state: the map of default contexts and the registries in memory. -/
structure State where
  cur : CtxMap
  heap : Nat → Reg

/-- `operator==(const Context&, const Context&)` (core/context.cpp:19-35) for distinct objects; `none`: a null pointer is
dereferenced (lines 29-30). -/
def ctxEq (h : Nat → Reg) (a b : Ctx) : Option Bool :=
  if a.pre ≠ b.pre then some false
  else
    match a.reg, b.reg with
    | some p, some q => some (decide ((h p).spaces = (h q).spaces) && decide (a.post = b.post))
    | _, _ => none

/-- Elementwise comparison of maps of equal size, in order, stopping at the first difference (`std::equal`). -/
def entriesEq (h : Nat → Reg) : CtxMap → CtxMap → Option Bool
  | (s, a) :: l, (t, b) :: m =>
    if s ≠ t then some false
    else
      match ctxEq h a b with
      | some true => entriesEq h l m
      | r => r
  | _, _ => some true

/-- `operator==` of two flat maps: sizes first. -/
def mapEq (h : Nat → Reg) (l m : CtxMap) : Option Bool :=
  if l.length ≠ m.length then some false else entriesEq h l m

/-- `contexts.find(s)`. -/
def find (l : CtxMap) (s : Stat) : Option Ctx :=
  (l.find? (fun e => decide (e.1 = s))).map (·.2)

/-- `it->second = ctx` or `contexts.emplace(s, ctx)` of a sorted map (core/context.cpp:64-76). -/
def setEntry (l : CtxMap) (c : Ctx) (s : Stat) : CtxMap :=
  match l with
  | [] => [(s, c)]
  | (t, d) :: m =>
    if t = s then (t, c) :: m
    else if s.ord < t.ord then (s, c) :: (t, d) :: m
    else (t, d) :: setEntry m c s

/-- `set_default_context(const map&)` (core/context.cpp:82-86). -/
def setEntries (l : CtxMap) : CtxMap → CtxMap
  | [] => l
  | (s, c) :: m => setEntries (setEntry l c s) m

/-- `get_default_context(s)` (core/context.cpp:45-62): the context, and the map, to which the default may have been added. -/
def getDefault (l : CtxMap) (s : Stat) : Ctx × CtxMap :=
  let l' := if find l s = none ∧ s = .arbitrary then setEntry l Ctx.default .arbitrary else l
  match find l' s with
  | some c => (c, l')
  | none =>
    -- `get_default_context(Statistics::Arbitrary)`
    let l'' := if find l' .arbitrary = none then setEntry l' Ctx.default .arbitrary else l'
    ((find l'' .arbitrary).getD Ctx.default, l'')

/-- How a piece of a program ends. -/
inductive Result where
  | ok (σ : State)
  | threw (σ : State)
  | ub

/-- Statements; the operands may depend on the state.  `scope` is a block that begins with
`auto resetter = set_scoped_default_context(m)`. -/
inductive Stmt where
  | set (s : Stat) (c : State → Ctx)
  | setMap (m : State → CtxMap)
  | reset
  | get (s : Stat)
  | mutate (p : Nat) (r : State → Reg)
  | throw
  | scope (m : State → CtxMap) (body : List Stmt)

/-- End of a block with a resetter: the destructor runs whether the block ends normally or by an exception
(core/utility/context.hpp:39-41). -/
def restore (prev : Option CtxMap) : Result → Result
  | .ok σ => .ok { σ with cur := prev.getD σ.cur }
  | .threw σ => .threw { σ with cur := prev.getD σ.cur }
  | .ub => .ub

/-- `set_scoped_implicit_context` (core/utility/context.hpp:51-59): the state in which the block begins and the
previous context kept by the resetter; `none`: undefined behaviour. -/
def enter (σ : State) (m : CtxMap) : Option (State × Option CtxMap) :=
  match mapEq σ.heap σ.cur m with
  | none => none
  | some false => some ({ σ with cur := m }, some σ.cur)
  | some true => some (σ, none)

mutual
/-- Execution of a statement. -/
def exec (σ : State) : Stmt → Result
  | .set s c => .ok { σ with cur := setEntry σ.cur (c σ) s }
  | .setMap m => .ok { σ with cur := setEntries σ.cur (m σ) }
  | .reset => .ok { σ with cur := [] }
  | .get s => .ok { σ with cur := (getDefault σ.cur s).2 }
  | .mutate p r => .ok { σ with heap := fun q => if q = p then r σ else σ.heap q }
  | .throw => .threw σ
  | .scope m body =>
    match enter σ (m σ) with
    | none => .ub
    | some (σ', prev) => restore prev (execAll σ' body)

/-- Execution of a sequence of statements. -/
def execAll (σ : State) : List Stmt → Result
  | [] => .ok σ
  | s :: l =>
    match exec σ s with
    | .ok σ' => execAll σ' l
    | r => r
end

/-- The map of `set_scoped_default_context(Context)` (core/context.cpp:106-110). -/
def scopedMap (c : Ctx) : CtxMap := [(.arbitrary, c)]

/-! ## Scope guards (core/utility/scope.hpp:38-70, the version used without `<experimental/scope>`) -/

/-- A guard: is it alive, has it been released. -/
structure Guard where
  alive : Bool
  released : Bool
  deriving DecidableEq, Repr

/-- What is done with guards; guards are numbered in order of creation. -/
inductive GuardOp where
  /-- `make_scope_exit(f)` (the result is constructed in place) -/
  | make
  /-- move construction from guard `i` (line 44: defaulted, so the flag is copied) -/
  | move (i : Nat)
  /-- `release()` (line 57) -/
  | release (i : Nat)
  /-- the destructor (lines 47-52) -/
  | destroy (i : Nat)
  deriving DecidableEq, Repr

/-- One step: the guards and the number of calls of the action. -/
def guardStep (st : List Guard × Nat) : GuardOp → List Guard × Nat
  | .make => (st.1 ++ [⟨true, false⟩], st.2)
  | .move i => (st.1 ++ [⟨true, (st.1[i]?.map (·.released)).getD true⟩], st.2)
  | .release i =>
    match st.1[i]? with
    | some g => (st.1.set i { g with released := true }, st.2)
    | none => st
  | .destroy i =>
    match st.1[i]? with
    | some ⟨true, false⟩ => (st.1.set i ⟨false, true⟩, st.2 + 1)
    | some ⟨true, true⟩ => (st.1.set i ⟨false, true⟩, st.2)
    | _ => st

/-- A history. -/
def guardRun (st : List Guard × Nat) (l : List GuardOp) : List Guard × Nat := l.foldl guardStep st

end SeQuant.Contexts
