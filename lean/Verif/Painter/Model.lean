import Mathlib.Data.List.Basic

/-!
# Model of the vertex painter (`SeQuant/core/tensor_network/vertex_painter.{hpp,cpp}`)

Objects are compared by the painter through a few attributes only, so labels, indices and bundles of protoindices are numbers, and
`Index::color()`, `Index::proto_indices_color` (index.hpp:759-787), `hash::value` and `hash::combine` (hash.hpp:114-118) are arbitrary
functions.  `used_colors_` (a map) is a list of entries.  `std::size_t` has 64 bits and `VertexColor` 32 (typedefs.hpp:16).
-/

namespace SeQuant.Painter

/-- What `to_hash_value(const AbstractTensor &)` looks at (vertex_painter.cpp:17-43). -/
structure Ten where
  label : Nat
  bra : Nat
  ket : Nat
  aux : Nat
  symm : Nat
  columns : Nat
  /-- `braket_symmetry() == BraKetSymmetry::Symm` -/
  braketSymm : Bool
  /-- the code of the bra-ket symmetry -/
  braket : Nat
  deriving DecidableEq, Repr

/-- `VertexData` (vertex_painter.hpp:54-56). -/
inductive Obj
  | tensor (t : Ten)
  | index (i : Nat)
  | bundle (b : Nat)
  | bra (id : Nat)
  | ket (id : Nat)
  | aux (id : Nat)
  | column (id size symm : Nat)
  deriving DecidableEq, Repr

/-- What a painter is made from, and the functions it calls. -/
structure Cfg where
  /-- `named_indices_` in the order of the set -/
  named : List Nat
  /-- `distinct_named_indices_` -/
  distinct : Bool
  /-- `Index::color()` -/
  idxColor : Nat → Nat
  /-- `Index::proto_indices_color` -/
  bundleColor : Nat → Nat
  /-- `hash::value` -/
  value : Nat → Nat
  /-- `hash::combine` -/
  combine : Nat → Nat → Nat

/-- Number of values of `std::size_t`. -/
def sizeT : Nat := 2 ^ 64

/-- Number of values of `VertexColor`. -/
def colors : Nat := 2 ^ 32

/-- `default_salt` (vertex_painter.hpp:112). -/
def defaultSalt : Nat := 0x43d2c59cb15b73f0

/-- The state of a painter. -/
structure State where
  used : List (Nat × Obj)
  salt : Option Nat

def State.new : State := ⟨[], none⟩

/-- `salt()` (vertex_painter.hpp:101). -/
def State.saltValue (p : State) : Nat := p.salt.getD defaultSalt

/-- `to_hash_value(std::initializer_list<std::size_t>)` (vertex_painter.cpp:119-128); the list is not empty. -/
def toHash (c : Cfg) (salt : Nat) : List Nat → Nat
  | [] => 0
  | x :: xs => xs.foldl c.combine (c.combine x salt)

/-- `to_color` (vertex_painter.cpp:115-117, 130-157): the lower bits of the hash. -/
def toColor (c : Cfg) (salt : Nat) (xs : List Nat) : Nat := toHash c salt xs % colors

/-- `to_hash_value(const AbstractTensor &)` (vertex_painter.cpp:17-43). -/
def tensorHash (c : Cfg) (salt : Nat) (t : Ten) : Nat :=
  let swap := t.braketSymm && decide (t.bra > t.ket)
  let b := if swap then t.ket else t.bra
  let k := if swap then t.bra else t.ket
  toHash c salt [c.value t.label, c.value b, c.value k, c.value t.aux, c.value t.symm, c.value t.columns, c.value t.braket]

/-- The value an index is hashed from (vertex_painter.cpp:86-104). -/
def indexPreColor (c : Cfg) (i : Nat) : Nat :=
  ((if i ∈ c.named then (if c.distinct then c.named.idxOf i else (c.idxColor i + 0xabcd) % sizeT) else c.idxColor i) + 0xaa) % sizeT

/-- The color before collisions are looked at (vertex_painter.cpp:45-84, 106-113). -/
def startColor (c : Cfg) (salt : Nat) : Obj → Nat
  | .tensor t => toColor c salt [tensorHash c salt t]
  | .index i => toColor c salt [indexPreColor c i]
  | .bundle b => toColor c salt [c.bundleColor b]
  | .bra id => toColor c salt [(id + 0xff) % sizeT]
  | .ket id => toColor c salt [(id + 0xff00) % sizeT]
  | .aux id => toColor c salt [(id + 3 * 0xff0000) % sizeT]
  | .column id size symm => if size = 1 then toColor c salt [id] else toColor c salt [id, size, symm]

/-- `may_have_same_color` (vertex_painter.cpp:159-215); `idxOf` is the position of the iterator returned by `find`. -/
def mayHaveSame (c : Cfg) : Obj → Obj → Bool
  | .tensor t, .tensor t' => decide (t.label = t'.label)
  | .bra i, .bra i' => decide (i = i')
  | .ket i, .ket i' => decide (i = i')
  | .aux i, .aux i' => decide (i = i')
  | .column i _ _, .column i' _ _ => decide (i = i')
  | .index i, .index i' =>
    if c.distinct && decide (c.named.idxOf i ≠ c.named.idxOf i') then false
    else decide (c.idxColor i = c.idxColor i')
  | .bundle b, .bundle b' => decide (c.bundleColor b = c.bundleColor b')
  | _, _ => false

/-- The loop of `ensure_uniqueness` (vertex_painter.hpp:143-151); `none` = it does not end within `fuel` steps.  `color++` wraps. -/
def search (c : Cfg) (used : List (Nat × Obj)) (val : Obj) : Nat → Nat → Option Nat
  | 0, _ => none
  | fuel + 1, color =>
    match used.lookup color with
    | none => some color
    | some data => if mayHaveSame c data val then some color else search c used val fuel ((color + 1) % colors)

/-- `ensure_uniqueness` (vertex_painter.hpp:141-164). -/
def ensureUnique (c : Cfg) (p : State) (color : Nat) (val : Obj) : Option (Nat × State) :=
  (search c p.used val (p.used.length + 1) color).map fun color =>
    (color, if (p.used.lookup color).isNone then { p with used := (color, val) :: p.used } else p)

/-- What the graph builders ask of a painter. -/
inductive Action
  /-- `operator()` of an object that is not a tensor -/
  | paint (o : Obj)
  /-- `apply_shade(const AbstractTensor &)`, which also paints the tensor (vertex_painter.cpp:75-82) -/
  | shade (t : Ten)
  /-- `apply_shade(std::size_t)` -/
  | salt (s : Nat)
  /-- `reset_shade` -/
  | reset
  deriving DecidableEq, Repr

/-- A painted object, the salt in use and the color. -/
structure Painted where
  obj : Obj
  salt : Nat
  color : Nat
  deriving DecidableEq, Repr

/-- One request: the painted object with its color, if any. -/
def act (c : Cfg) (p : State) : Action → Option (Option Painted × State)
  | .paint o => (ensureUnique c p (startColor c p.saltValue o) o).map fun r => (some ⟨o, p.saltValue, r.1⟩, r.2)
  | .shade t =>
    let color := startColor c p.saltValue (.tensor t)
    let p' : State := { p with salt := some (tensorHash c p.saltValue t) }
    (ensureUnique c p' color (.tensor t)).map fun r => (some ⟨.tensor t, p.saltValue, r.1⟩, r.2)
  | .salt s => some (none, { p with salt := some s })
  | .reset => some (none, { p with salt := none })

/-- A sequence of requests: all painted objects with their colors. -/
def run (c : Cfg) : State → List Action → Option (List Painted × State)
  | p, [] => some ([], p)
  | p, a :: as => (act c p a).bind fun r => (run c r.2 as).map fun r' => (r.1.toList ++ r'.1, r'.2)

end SeQuant.Painter
