import Verif.Layout.Model
import Mathlib.Data.Nat.Digits.Lemmas

/-!
# Export for ITF

`ItfContext` (core/export/itf.cpp) and the parts of `ItfGenerator` (core/export/itf.hpp) that name indices and open loops.

Simplifications:
* indices and spaces are those of `Verif.Layout.Model`; the order of indices (`Index::operator<`) is a parameter;
* text is a list of bytes, or a list of lines where only indentation and loops matter.
-/

namespace SeQuant.Itf

open SeQuant.Layout

/-! ## Two-electron integrals (itf.cpp:108-222) -/

/-- Label of the rewritten integral. -/
inductive Label
  | J
  | K
deriving DecidableEq, Repr

/-- Bra and ket of a tensor with two slots each. -/
structure Four where
  /-- `bra[0]` -/
  b0 : Idx
  /-- `bra[1]` -/
  b1 : Idx
  /-- `ket[0]` -/
  k0 : Idx
  /-- `ket[1]` -/
  k1 : Idx
deriving DecidableEq, Repr

/-- `needs_swap` for the spaces of two indices (reordering_context.cpp:250-253). -/
def nsw (size : Nat → Nat) (layout : MemLayout) (i j : Idx) : Bool := needsSwap size layout (some i.space) (some j.space)

/-- `is_ordered` (reordering_context.cpp:245-248). -/
def isOrdered (size : Nat → Nat) (layout : MemLayout) (i j : Idx) : Bool :=
  lessSize layout (size i.space) (size j.space) || decide (size i.space = size j.space)

/-- itf.cpp:125-129: bra and ket of each particle are exchanged if their spaces ask for it. -/
def orderParticles (size : Nat → Nat) (layout : MemLayout) (t : Four) : Four :=
  let t := if nsw size layout t.b0 t.k0 then ⟨t.k0, t.b1, t.b0, t.k1⟩ else t
  if nsw size layout t.b1 t.k1 then ⟨t.b0, t.k1, t.k0, t.b1⟩ else t

/-- itf.cpp:131-136 -/
def swapCols (size : Nat → Nat) (layout : MemLayout) (t : Four) : Bool :=
  if t.b0.space ≠ t.b1.space then nsw size layout t.b0 t.b1
  else if t.k0.space ≠ t.k1.space then nsw size layout t.k0 t.k1
  else false

/-- itf.cpp:131-141 -/
def orderCols (size : Nat → Nat) (layout : MemLayout) (t : Four) : Four :=
  if swapCols size layout t then ⟨t.b1, t.b0, t.k1, t.k0⟩ else t

/-- `is_exceptional_J` (itf.cpp:204-222). -/
def isExceptionalJ (size : Nat → Nat) (layout : MemLayout) (t : Four) : Bool :=
  decide (t.b0.space = t.b1.space) && decide (t.k0.space ≠ t.k1.space) && isOrdered size layout t.k0 t.k1 && decide (t.k0.space = t.b0.space)

/-- The four places `p1_1`, `p1_2`, `p2_1`, `p2_2` (itf.cpp:151-171): the two indices of each particle. -/
structure Places where
  /-- `*p1_1` -/
  p11 : Idx
  /-- `*p1_2` -/
  p12 : Idx
  /-- `*p2_1` -/
  p21 : Idx
  /-- `*p2_2` -/
  p22 : Idx
deriving DecidableEq, Repr

/-- itf.cpp:155-171: the label, and bra and ket with `bra[1]` and `ket[0]` exchanged for `J`. -/
def labelled (size : Nat → Nat) (layout : MemLayout) (t : Four) : Label × Four :=
  if isExceptionalJ size layout t || nsw size layout t.b1 t.k0 then (.J, ⟨t.b0, t.k0, t.b1, t.k1⟩) else (.K, t)

/-- What the pointers point at (itf.cpp:160-163, 167-170). -/
def toPlaces : Label × Four → Places
  | (.J, t) => ⟨t.b0, t.b1, t.k0, t.k1⟩
  | (.K, t) => ⟨t.b0, t.k0, t.b1, t.k1⟩

/-- Bra and ket after writing through the pointers. -/
def ofPlaces : Label → Places → Four
  | .J, p => ⟨p.p11, p.p12, p.p21, p.p22⟩
  | .K, p => ⟨p.p11, p.p21, p.p12, p.p22⟩

/-- itf.cpp:178-189 -/
def polish (lt : Idx → Idx → Bool) (p : Places) : Places :=
  let p := if p.p11.space = p.p12.space ∧ lt p.p12 p.p11 then ⟨p.p12, p.p11, p.p21, p.p22⟩ else p
  let p := if p.p21.space = p.p22.space ∧ lt p.p22 p.p21 then ⟨p.p11, p.p12, p.p22, p.p21⟩ else p
  if p.p11.space = p.p21.space ∧ p.p12.space = p.p22.space then
    if lt p.p21 p.p11 ∨ (p.p11 = p.p21 ∧ lt p.p22 p.p12) then ⟨p.p21, p.p22, p.p11, p.p12⟩ else p
  else p

/-- itf.cpp:122-189 -/
def integral (lt : Idx → Idx → Bool) (size : Nat → Nat) (layout : MemLayout) (t : Four) : Label × Four :=
  let r := labelled size layout (orderCols size layout (orderParticles size layout t))
  (r.1, ofPlaces r.1 (polish lt (toPlaces r)))

/-- Label of a tensor before export; `true` if it is the label of the integrals. After export also `J` and `K`. -/
inductive Name
  | integrals
  | other (n : Nat)
  | made (l : Label)
deriving DecidableEq, Repr

/-- `ItfContext::rewrite` (itf.cpp:108-202): the new tensor and whether it was modified.
A tensor with four indices and ranks two and two has no auxiliary indices (no slot is empty). -/
def rewrite (S : Sorters) (lt : Idx → Idx → Bool) (size : Nat → Nat) (layout : MemLayout) (enabled : Bool) (n : Name) (t : Tens) :
    Name × Tens × Bool :=
  match n, t.bra, t.ket, t.aux with
  | .integrals, [b0, b1], [k0, k1], [] =>
    let r := integral lt size layout ⟨b0, b1, k0, k1⟩
    let t' : Tens := { t with bra := [r.2.b0, r.2.b1], ket := [r.2.k0, r.2.k1] }
    (.made r.1, rewritten S size layout enabled t', true)
  | n, _, _, _ => (n, rewritten S size layout enabled t, (Layout.rewrite S size layout enabled t).isSome)

/-! ## Names of indices (itf.cpp:15-47, itf.hpp:145-193) -/

/-- `std::to_string` of a number, as bytes. -/
def toStr (n : Nat) : List Nat := if n = 0 then [48] else ((Nat.digits 10 n).reverse.map (· + 48))

/-- `index_name` (itf.cpp:15-47); `none` is the failed assertion. `key` is `base_key` in UTF-8.
`m_index_label_limits` is never filled, so the limit is always `'z'` (122). -/
def indexName (offset : Nat) (key : List Nat) (ordinal : Nat) : Option (List Nat) :=
  if ordinal < offset then none
  else
    let o := ordinal - offset
    match key with
    | [c] => if c + o > 122 then some (key ++ toStr o) else some [c + o]
    | _ => some (key ++ toStr o)

/-- `represent(Index)` (itf.hpp:145-160) without proto-indices; `ordinal().value()` of an index without ordinal throws. -/
def represent (offset : Nat) (key : List Nat) (ordinal : Option Nat) : Option (List Nat) :=
  match ordinal with
  | none => none
  | some o => (indexName offset key o).map fun n => if n.length > 1 then [123] ++ n ++ [125] else n

/-- The indices of `represent(Tensor)` (itf.hpp:186-188), one after another. -/
def representAll (offset : Nat) : List (List Nat × Option Nat) → Option (List Nat)
  | [] => some []
  | i :: l => (represent offset i.1 i.2).bind fun s => (representAll offset l).map fun r => s ++ r

/-! ## Batched expressions -/

/-- `m_batch_indices`: lists by id; `ID_GLOBAL` is `none`. -/
abbrev BatchMap := List (Option Nat × List Idx)

/-- `std::map::find` -/
def BatchMap.find (m : BatchMap) (id : Option Nat) : Option (List Idx) := m.lookup id

/-- The common part of `batch_indices`, `is_batched` and `is_index_batched` (itf.cpp:243-247, 257-261, 268-272). -/
def BatchMap.findOrGlobal (m : BatchMap) (id : Option Nat) : Option (List Idx) :=
  match m.find id with
  | some l => some l
  | none => if id.isSome then m.find none else none

/-- `batch_indices` (itf.cpp:241-254). -/
def batchIndices (m : BatchMap) (id : Option Nat) : List Idx := (m.findOrGlobal id).getD []

/-- `is_batched` (itf.cpp:256-264). -/
def isBatched (m : BatchMap) (id : Option Nat) : Bool :=
  match m.findOrGlobal id with
  | some l => !l.isEmpty
  | none => false

/-- `is_index_batched` (itf.cpp:266-279). -/
def isIndexBatched (m : BatchMap) (i : Idx) (id : Option Nat) : Bool :=
  match m.findOrGlobal id with
  | some l => l.contains i
  | none => false

/-- A line of generated code with its indentation. -/
inductive Line
  /-- `for [...]:` -/
  | loop (indent : Nat) (idxs : List Idx)
  /-- a statement of the expression with this id -/
  | stmt (indent : Nat) (expr : Nat)
  /-- anything else -/
  | other (indent : Nat)
deriving DecidableEq, Repr

/-- State of the generator (itf.hpp:485-488). -/
structure Gen where
  /-- `m_generated` -/
  out : List Line
  /-- `m_indent_level` -/
  indent : Nat
  /-- `m_currentBatchIndices` -/
  cur : List Idx
deriving DecidableEq, Repr

/-- `end_batching` (itf.hpp:560-566). -/
def endBatching (g : Gen) : Gen := if g.cur.isEmpty then g else { g with indent := 0, cur := [] }

/-- `num_shared` (itf.hpp:428-436). -/
def numShared : List Idx → List Idx → Nat
  | a :: l, b :: m => if a = b then numShared l m + 1 else 0
  | _, _ => 0

/-- itf.hpp:458-467 -/
def openLoop (batch : List Idx) (shared : Nat) (g : Gen) : Gen :=
  ⟨g.out ++ [.loop g.indent (batch.drop shared)], g.indent + 1, batch⟩

/-- `begin_expression` (itf.hpp:414-471) for an expression with the given batch indices. `fuse` is `num_fuseable`, a result of
`partition_point`; nothing is assumed of it. Blank lines are left out. -/
def beginExpression (fuse : List Idx → Nat) (m : BatchMap) (id : Nat) (g : Gen) : Gen :=
  if isBatched m (some id) then
    let batch := batchIndices m (some id)
    let shared := numShared g.cur batch
    if shared ≥ fuse batch && shared = g.cur.length then
      if batch.length = shared then g else openLoop batch shared g
    else openLoop batch 0 (endBatching g)
  else endBatching g

/-- Events of an export in the order of export.hpp:996-1060. -/
inductive Event
  /-- `begin_export` -/
  | beginExport
  /-- a global or section declaration, a comment -/
  | declare
  /-- `begin_named_section` -/
  | beginSection
  /-- `begin_expression` -/
  | beginExpr (id : Nat)
  /-- a statement of the expression -/
  | stmt (id : Nat)
  /-- `end_named_section` -/
  | endSection
  /-- `end_export` -/
  | endExport
deriving DecidableEq, Repr

/-- One event (itf.hpp:237-405, 414-481). -/
def step (fuse : List Idx → Nat) (m : BatchMap) (g : Gen) : Event → Gen
  | .beginExport => { g with out := [] }
  | .declare => { g with out := g.out ++ [.other g.indent] }
  | .beginSection => { g with out := g.out ++ [.other g.indent] }
  | .beginExpr id => beginExpression fuse m id g
  | .stmt id => { g with out := g.out ++ [.stmt g.indent id] }
  | .endSection => endBatching g
  | .endExport => let g := endBatching g; { g with out := g.out ++ [.other g.indent] }

/-- A group of expressions: each an id and the number of its statements. -/
abbrev Group := List (Nat × Nat)

/-- `export_expression` (export.hpp:824-842). -/
def exprEvents (e : Nat × Nat) : List Event := .beginExpr e.1 :: List.replicate e.2 (.stmt e.1)

/-- `export_groups` after preprocessing (export.hpp:996-1060), with `decls` lines of declarations. -/
def exportEvents (decls : Nat) (groups : List Group) : List Event :=
  .beginExport :: (List.replicate decls .declare ++
    groups.flatMap (fun gr => .beginSection :: (gr.flatMap exprEvents ++ [.endSection])) ++ [.endExport])

/-- All events. -/
def runEvents (fuse : List Idx → Nat) (m : BatchMap) (g : Gen) (l : List Event) : Gen := l.foldl (step fuse m) g

end SeQuant.Itf
