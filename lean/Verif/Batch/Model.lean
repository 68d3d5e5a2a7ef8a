import Verif.Batch.Arrays
import Verif.Batch.Family

/-!
# Evaluation in batches over a contracted index

Transcribes `contracted_indices`, `batch_axis`, `index_position`, `find_leaf_carrying`, `subtree_any`, `make_batched_scratch` and the evaluator
made by `make_batched_custom_evaluator` (`SeQuant/core/eval/eval.hpp:423-493, 1113-1408`).  Results are objects on a heap.  Left out: logging,
the scope guard, and objects that the leaf evaluator creates only to be asked for batches or sliced.
-/

namespace SeQuant.Batch

open SeQuant.Eval

variable {L I K F : Type} [DecidableEq I] [DecidableEq K] [CommRing F]

/-- What the evaluator is made from, and what it asks of nodes and of the backend. -/
structure BatchEnv (L I K F : Type) where
  /-- Classes of nodes under the comparator of the cache. -/
  key : ETree L → K
  op : L → EOp
  /-- `canon_phase`. -/
  phase : L → Int
  /-- `canon_indices`. -/
  ix : L → List I
  conj : F → F
  /-- Elements of the arrays that the leaf evaluator yields. -/
  elem : L → List Nat → F
  /-- The range of values of an index. -/
  ext : I → Nat × Nat
  /-- Objects kept by the leaf evaluator. -/
  tbl : L → Option Nat
  /-- The tiles of a mode of a leaf's array. -/
  tiles : L → Nat → List Tile
  accept : I → Bool
  /-- `space().approximate_size()`. -/
  size : I → Nat
  /-- `target_batch_size`. -/
  target : I → Nat
  isVolatile : ETree L → Bool
  persistentOnly : Bool
  /-- The keys of the cache, in the order in which its map is run through. -/
  keys : List (ETree L)

variable (B : BatchEnv L I K F)

/-- `contracted_indices` (426-442). -/
def contractedIndices : ETree L → List I
  | .leaf _ => []
  | .node a l r => if B.op a = .prod then (B.ix l.label).filter fun i => (B.ix r.label).contains i && !(B.ix a).contains i else []

/-- `batch_axis` (451-460). -/
def batchAxis (t : ETree L) : Option I :=
  (contractedIndices B t).foldl (fun best i =>
    if !B.accept i then best
    else match best with
      | none => some i
      | some b => if B.size b < B.size i then some i else best) none

/-- `index_position` (471-477). -/
def indexPosition (t : ETree L) (i : I) : Option Nat := if i ∈ B.ix t.label then some ((B.ix t.label).idxOf i) else none

/-- `find_leaf_carrying` (483-492). -/
def findLeafCarrying : ETree L → I → Option (L × Nat)
  | .leaf a, i => (indexPosition B (.leaf a) i).map fun p => (a, p)
  | .node _ l r, i => match findLeafCarrying l i with
    | some x => some x
    | none => findLeafCarrying r i

/-- `subtree_any` (1114-1119). -/
def subtreeAny (pred : ETree L → Bool) : ETree L → Bool
  | .leaf a => pred (.leaf a)
  | .node a l r => pred (.node a l r) || subtreeAny pred l || subtreeAny pred r

/-! ### The scratch cache -/

/-- `Meta` (1163-1167) with the node that is the key of its entry. -/
structure Meta (L : Type) where
  node : ETree L
  count : Nat
  sig : Option Nat
  consistent : Bool

/-- Counting a further encounter of a node (1174-1180). -/
def bump (k : K) (sig : Option Nat) (e : Meta L) : Meta L :=
  if B.key e.node = k then { e with count := e.count + 1, consistent := e.consistent && decide (e.sig = sig) } else e

/-- `visit` (1170-1194). -/
def visit (axis : I) : ETree L → List (Meta L) → List (Meta L)
  | .leaf _, ms => ms
  | .node a l r, ms =>
    let sig := indexPosition B (.node a l r) axis
    match ms.find? fun e => decide (B.key e.node = B.key (.node a l r)) with
    | none => visit axis r (visit axis l (ms ++ [⟨.node a l r, 1, sig, true⟩]))
    | some e =>
      let ms' := ms.map (bump B (B.key (.node a l r)) sig)
      if e.sig = sig then ms' else visit axis r (visit axis l ms')

/-- A member of the group: which one (0 = the node that triggered batching), root, batch axis. -/
structure Member (L I : Type) where
  id : Nat
  root : ETree L
  axis : I

/-- The walk over all members (1195-1200). -/
def walk : List (Member L I) → List (Meta L) → List (Meta L)
  | [], ms => ms
  | m :: rest, ms =>
    match m.root with
    | .leaf _ => walk rest ms
    | .node _ l r => walk rest (visit B m.axis r (visit B m.axis l ms))

/-- `CacheManager::persistent` (cache_manager.hpp:311-314). -/
def isPersistent (c : Cache K Nat) (k : K) : Bool := match c k with
  | some e => e.persistent
  | none => false

/-- `seedable` (1210). -/
def seedable (real : Cache K Nat) (e : Meta L) : Bool := e.consistent && e.sig.isNone && isPersistent real (B.key e.node) && real.alive (B.key e.node)

/-- `make_batched_scratch` (1159-1221): registered keys with counts, then the nodes to seed. -/
def makeScratch (members : List (Member L I)) (real : Cache K Nat) : Cache K Nat × List (ETree L) :=
  let ms := walk B members []
  let seeds := (ms.filter (seedable B real)).map Meta.node
  let reg := (ms.filter fun e => e.consistent && (seedable B real e || decide (e.count ≥ 2))).map fun e => (B.key e.node, e.count)
  (Cache.make reg fun k => decide (k ∈ seeds.map B.key), seeds)

/-- Copying the seeds (1351): `bs.cache.store(*s, cache.access(*s))`. -/
def plantSeeds : List (ETree L) → Cache K Nat → Cache K Nat → Option (Cache K Nat × Cache K Nat)
  | [], real, scratch => some (real, scratch)
  | s :: ss, real, scratch =>
    match (real.access (B.key s)).2 with
    | none => none
    | some r => plantSeeds ss (real.access (B.key s)).1 (scratch.store (B.key s) r).1

/-! ### The passes over the batches -/

/-- The array of a leaf. -/
def leafArr (a : L) : Arr F := tab ((B.ix a).map B.ext) (B.elem a)

/-- The values that full evaluation computes. -/
def fullAlg : Alg L (Arr F) := arrAlg B.ix B.conj (leafArr B)

/-- `le_g` (1373-1379): leaves that carry the axis are sliced, into new objects. -/
def slicedLeaf (axis : I) (b : Nat × Nat) (a : L) : Arr F :=
  match indexPosition B (.leaf a) axis with
  | some p => sliceMode (leafArr B a) p b.1 b.2
  | none => leafArr B a

def slicedTbl (axis : I) (a : L) : Option Nat := if axis ∈ B.ix a then none else B.tbl a

def slicedAlg (axis : I) (b : Nat × Nat) : Alg L (Arr F) := arrAlg B.ix B.conj (slicedLeaf B axis b)

/-- Evaluation of a member on the scratch cache; it has no custom evaluator and no hook. -/
def scratchEnv (axis : I) (b : Nat × Nat) : Env L K Nat (Mem (Arr F)) :=
  heapEnv B.key B.op B.phase (slicedAlg B axis b) (slicedTbl B axis)

/-- One batch (1368-1386). -/
def memberPass (b : Nat × Nat) : List (Member L I) → List (Option Nat) → Mem (Arr F) × Cache K Nat →
    Option ((Mem (Arr F) × Cache K Nat) × List (Option Nat))
  | [], _, mc => some (mc, [])
  | _ :: _, [], _ => none
  | k :: ks, a :: as, mc =>
    match evaluate (scratchEnv B k.axis b) k.root.rounds true k.root mc with
    | none => none
    | some (mc1, part) =>
      let s : Mem (Arr F) × Nat := match a with
        | none => (mc1.1, part)
        | some o => (mc1.1.set o (addArr (mc1.1.get o) (mc1.1.get part)), o)
      match memberPass b ks as (s.1, mc1.2) with
      | none => none
      | some (mc', as') => some (mc', some s.2 :: as')

/-- The loop over the batches (1365-1387). -/
def batchPass (layer : List (Member L I)) : List (Nat × Nat) → List (Option Nat) → Mem (Arr F) × Cache K Nat →
    Option ((Mem (Arr F) × Cache K Nat) × List (Option Nat))
  | [], accs, mc => some (mc, accs)
  | b :: bs, accs, mc =>
    if b.1 = b.2 then batchPass layer bs accs mc
    else match memberPass B b layer accs (mc.1, mc.2.reset) with
      | none => none
      | some (mc', accs') => batchPass layer bs accs' mc'

/-- Storing the results of a layer (1394-1404); a null result is an error. -/
def storeResults : List (Member L I) → List (Option Nat) → Mem (Arr F) × Cache K Nat → Option Nat →
    Option ((Mem (Arr F) × Cache K Nat) × Option Nat)
  | [], _, mc, tr => some (mc, tr)
  | _ :: _, [], _, _ => none
  | _ :: _, none :: _, _, _ => none
  | k :: ks, some v :: as, mc, tr =>
    if k.id = 0 then storeResults ks as mc (some v)
    else
      let s : Mem (Arr F) × Nat := if B.phase k.root.label ≠ 1 then mc.1.alloc ((fullAlg B).scale (B.phase k.root.label) (mc.1.get v)) else (mc.1, v)
      storeResults ks as (s.1, (mc.2.store (B.key k.root) s.2).1) tr

/-- One layer (1353-1405). -/
def layerPass (layer : List (Member L I)) (batches : List (Nat × Nat)) (mc : Mem (Arr F) × Cache K Nat) (tr : Option Nat) :
    Option ((Mem (Arr F) × Cache K Nat) × Option Nat) :=
  let bs := makeScratch B layer mc.2
  match plantSeeds B bs.2 mc.2 bs.1 with
  | none => none
  | some (real, scratch) =>
    match batchPass B layer batches (layer.map fun _ => none) (mc.1, scratch) with
    | none => none
    | some ((m, _), accs) => storeResults B layer accs (m, real) tr

def layersPass (batches : List (Nat × Nat)) : List (List (Member L I)) → Mem (Arr F) × Cache K Nat → Option Nat →
    Option ((Mem (Arr F) × Cache K Nat) × Option Nat)
  | [], mc, tr => some (mc, tr)
  | layer :: rest, mc, tr =>
    match layerPass B layer batches mc tr with
    | none => none
    | some (mc', tr') => layersPass batches rest mc' tr'

/-! ### The group and its layers -/

/-- `contains` (1296-1304). -/
def nodeIn (inner : ETree L) : ETree L → Bool
  | .leaf a => decide (B.key (.leaf a) = B.key inner)
  | .node a l r => decide (B.key (.node a l r) = B.key inner) || nodeIn inner l || nodeIn inner r

def contains (outer inner : ETree L) : Bool := match outer with
  | .leaf _ => false
  | .node _ l r => nodeIn B inner l || nodeIn B inner r

def isOuter (remaining : List (Member L I)) (m : Member L I) : Bool :=
  remaining.any fun o => decide (m.id ≠ o.id) && contains B m.root o.root

/-- The layers (1305-1321), one round per unit of fuel; `none` = failed assertion. -/
def layersOf : Nat → List (Member L I) → Option (List (List (Member L I)))
  | _, [] => some []
  | 0, _ :: _ => none
  | n + 1, m :: ms =>
    let layer := (m :: ms).filter fun x => !isOuter B (m :: ms) x
    let rest := (m :: ms).filter (isOuter B (m :: ms))
    if layer = [] then none else (layersOf n rest).map (layer :: ·)

/-- The batches of an index, asked from a leaf (1253-1257). -/
def batchesOf (t : ETree L) (i : I) : Option (List (Nat × Nat)) :=
  (findLeafCarrying B t i).map fun lp => modeBatches (B.tiles lp.1 lp.2) (B.target i)

/-- Whether a key of the cache joins the group, and with which axis (1278-1290). -/
def joins (real : Cache K Nat) (t : ETree L) (batches : List (Nat × Nat)) (k : ETree L) : Option I :=
  if !isPersistent real (B.key k) || real.alive (B.key k) then none
  else if B.key k = B.key t then none
  else match batchAxis B k with
    | none => none
    | some i =>
      if subtreeAny B.isVolatile k then none
      else if batchesOf B k i ≠ some batches then none
      else some i

/-- The members that join, numbered from `n` on. -/
def joining (real : Cache K Nat) (t : ETree L) (batches : List (Nat × Nat)) : Nat → List (ETree L) → List (Member L I)
  | _, [] => []
  | n, k :: ks => match joins B real t batches k with
    | some i => ⟨n, k, i⟩ :: joining real t batches (n + 1) ks
    | none => joining real t batches (n + 1) ks

/-- The group (1277-1291). -/
def groupOf (real : Cache K Nat) (t : ETree L) (axis : I) (batches : List (Nat × Nat)) : List (Member L I) :=
  ⟨0, t, axis⟩ :: joining B real t batches 1 B.keys

/-- The custom evaluator (1234-1408): outer `none` = failed assertion or null pointer, inner `none` = it declines. -/
def batched (t : ETree L) (mc : Mem (Arr F) × Cache K Nat) : Option ((Mem (Arr F) × Cache K Nat) × Option Nat) :=
  match batchAxis B t with
  | none => some (mc, none)
  | some axis =>
    if B.persistentOnly && subtreeAny B.isVolatile t then some (mc, none)
    else match batchesOf B t axis with
      | none => some (mc, none)
      | some batches =>
        if batches.length ≤ 1 then some (mc, none)
        else
          let group := groupOf B mc.2 t axis batches
          match layersOf B group.length group with
          | none => none
          | some layers =>
            match layersPass B batches layers mc none with
            | none => none
            | some (_, none) => none
            | some (mc', some r) => some (mc', some r)

/-- `evaluate` with a cache whose custom evaluator is the batched one. -/
def batchedEnv : Env L K Nat (Mem (Arr F)) :=
  { heapEnv B.key B.op B.phase (fullAlg B) B.tbl with custom := some fun t mc => (batched B t mc).getD (mc, none) }

end SeQuant.Batch
