import Mathlib.Data.List.Basic

/-!
# The cache of intermediate results

Transcribes `entry` and `CacheManager` (`SeQuant/core/eval/cache_manager.hpp`).  Keys are equivalence classes of the key comparator.
`size_t` counts are unbounded; their conversion to `int` is not.  Sizes in bytes are not modelled.
-/

namespace SeQuant.Eval

variable {K R : Type}

/-- `class entry` (cache_manager.hpp:77-98). -/
structure Entry (R : Type) where
  maxLife : Nat
  life : Nat
  data : Option R
  persistent : Bool

/-- `entry::entry` (101-105). -/
def Entry.new (count : Nat) (persistent : Bool) : Entry R := ⟨count, count, none, persistent⟩

/-- `static_cast<int>` of a `size_t`. -/
def toInt (n : Nat) : Int := (BitVec.ofNat 32 n).toInt

/-- `entry::decay` (147-149). -/
def Entry.decay (e : Entry R) : Entry R × Int := if e.life > 0 then ({ e with life := e.life - 1 }, toInt (e.life - 1)) else (e, 0)

/-- `entry::access` (107-115). -/
def Entry.access (e : Entry R) : Entry R × Option R :=
  match e.data with
  | none => (e, none)
  | some d =>
    if e.persistent then (e, some d)
    else
      let (e', n) := e.decay
      if n = 0 then ({ e' with data := none }, some d) else (e', some d)

/-- `entry::store` (117-121). -/
def Entry.store (e : Entry R) (d : R) : Entry R := { e with data := some d }

/-- `entry::reset` (123-129). -/
def Entry.reset (e : Entry R) : Entry R :=
  if e.persistent then { e with life := e.maxLife } else { e with life := e.maxLife, data := none }

/-- `cache_map_` (158) as the partial function it represents. -/
abbrev Cache (K R : Type) := K → Option (Entry R)

def Cache.set [DecidableEq K] (c : Cache K R) (k : K) (e : Entry R) : Cache K R := fun k' => if k' = k then some e else c k'

/-- `CacheManager::access` (243-247). -/
def Cache.access [DecidableEq K] (c : Cache K R) (k : K) : Cache K R × Option R :=
  match c k with
  | some e => (c.set k e.access.1, e.access.2)
  | none => (c, none)

/-- `CacheManager::store` (153-156, 257-261): stores and reads back. -/
def Cache.store [DecidableEq K] (c : Cache K R) (k : K) (d : R) : Cache K R × Option R :=
  match c k with
  | some e => (c.set k (e.store d).access.1, (e.store d).access.2)
  | none => (c, some d)

/-- `CacheManager::exists` (267-269). -/
def Cache.exists_ (c : Cache K R) (k : K) : Bool := (c k).isSome

/-- `CacheManager::reset` (220-223). -/
def Cache.reset (c : Cache K R) : Cache K R := fun k => (c k).map Entry.reset

/-- `CacheManager::alive` (304-307). -/
def Cache.alive (c : Cache K R) (k : K) : Bool := match c k with | some e => e.data.isSome | none => false

/-- The constructor (211-215): `try_emplace` keeps the first entry for a key. -/
def Cache.make [DecidableEq K] (decaying : List (K × Nat)) (isPersistent : K → Bool) : Cache K R :=
  decaying.foldl (fun c e => if (c e.1).isSome then c else c.set e.1 (.new e.2 (isPersistent e.1))) fun _ => none

end SeQuant.Eval
