import Verif.Tensor.CanonModel
import Mathlib.Data.List.Defs

/-!
# Model of the canonicalization of tensor networks

`TensorNetworkV3::init_edges`, `canonicalize_graph`, `canonicalize` (`SeQuant/core/tensor_network/v3.cpp`), the helpers of
`SeQuant/core/tensor_network/utils.hpp`, `IndexFactory` (`SeQuant/core/index.hpp:1105-1191`) and the permutations of slots of
`SeQuant/core/expressions/abstract_tensor.hpp:264-393`.

Simplifications: all proto-indices are symmetric (the code asserts this, v3.cpp:1227); proto-indices have none themselves (asserted too); the graph
canonizer is an arbitrary function from vertices to ordinals; edges keep the number of their vertices only; `add_vertex` does not throw (the constructors
of tensors reject repeated indices).  `none` stands for a failed assertion, an access out of range, or a sort that needs more than `fuel` rounds.
-/

namespace SeQuant.Network

open SeQuant.Sort SeQuant.Tensors

/-- An index without proto-indices. -/
structure PIx (S : Type) where
  space : S
  ord : Nat
deriving DecidableEq, Repr

/-- `Index`. -/
structure Ix (S : Type) where
  space : S
  ord : Nat
  protos : List (PIx S)
deriving DecidableEq, Repr

def PIx.toIx {S : Type} (p : PIx S) : Ix S := ⟨p.space, p.ord, []⟩

/-- `AbstractTensor`: slots and symmetries are those of `Tens`; `cnum`: `is_cnumber`; a null index is `none`. -/
structure NT (L C S : Type) where
  label : L
  color : C
  cnum : Bool
  t : Tens (Ix S)
  aux : List (Option (Ix S))
deriving DecidableEq

variable {L C S : Type}

def NT.slots (n : NT L C S) : List (Option (Ix S)) := n.t.bra ++ n.t.ket ++ n.aux

/-- Orders: `Index::FullLabelCompare` and `operator<` of indices without proto-indices. -/
structure Ords (S : Type) where
  ilt : Ix S → Ix S → Bool
  plt : PIx S → PIx S → Bool

variable [DecidableEq S]

/-! ## Edges -/

/-- `Edge`: its index and the number of its vertices. -/
structure Edge (S : Type) where
  idx : Ix S
  count : Nat
deriving DecidableEq

/-- `idx_insert` (v3.cpp:1420-1443): `lower_bound`, then insertion or connection. -/
def insertEdge (O : Ords S) (i : Ix S) : List (Edge S) → List (Edge S)
  | [] => [⟨i, 1⟩]
  | e :: l =>
    if O.ilt e.idx i then e :: insertEdge O i l
    else if e.idx = i then ⟨i, e.count + 1⟩ :: l
    else ⟨i, 1⟩ :: e :: l

/-- The nonnull indices of all slots, in the order of the loop (1456-1488). -/
def slotIdx (ts : List (NT L C S)) : List (Ix S) := (ts.flatMap NT.slots).filterMap id

/-- `edges_` (1456-1488). -/
def initEdges (O : Ords S) (ts : List (NT L C S)) : List (Edge S) := (slotIdx ts).foldl (fun es i => insertEdge O i es) []

/-- Externals that are slots (1496-1510). -/
def ext0 (es : List (Edge S)) : List (Ix S) := (es.filter (fun e => e.count = 1)).map Edge.idx

/-- `pure_proto_indices_` (1512-1529). -/
def pureProtos (es : List (Edge S)) : List (Ix S) :=
  ((es.flatMap (fun e => e.idx.protos)).map PIx.toIx).dedup.filter (fun p => !(es.map Edge.idx).contains p)

/-- `ext_indices_` (1494-1560). -/
def extIndices (es : List (Edge S)) : List (Ix S) :=
  let e0 := ext0 es
  let pure := pureProtos es
  (e0 ++ ((e0.flatMap Ix.protos).map PIx.toIx).filter (fun p => !pure.contains p) ++ pure).dedup

/-! ## Fresh indices -/

/-- The `do … while (!valid)` loop of `IndexFactory::make` (index.hpp:1163-1181): `n` is the counter of the space. -/
def freshOrd (named : List (Ix S)) (i : Ix S) : Nat → Nat → Option Nat
  | 0, _ => none
  | fuel + 1, n => if (⟨i.space, n + 1, i.protos⟩ : Ix S) ∈ named then freshOrd named i fuel (n + 1) else some (n + 1)

/-- `IndexFactory::make(idx)` with the validator "not named" and `min_index = 1` (1159-1183); `c`: the counters. -/
def make (named : List (Ix S)) (c : S → Nat) (i : Ix S) : Option (Ix S × (S → Nat)) :=
  (freshOrd named i (named.length + 1) (c i.space)).map fun n => (⟨i.space, n, i.protos⟩, fun s => if s = i.space then n else c s)

/-- The loop that fills `idxrepl` (v3.cpp:363-370). -/
def relabel (named : List (Ix S)) : (S → Nat) → List (Ix S) → Option (List (Ix S × Ix S))
  | _, [] => some []
  | c, i :: l =>
    if i ∈ named then relabel named c l
    else do
      let r ← make named c i
      let m ← relabel named r.2 l
      return if i = r.1 then m else (i, r.1) :: m

/-! ## Replacement of indices -/

/-- A proto-index with its tag. -/
structure TP (S : Type) where
  p : PIx S
  tag : Bool
deriving DecidableEq

/-- An index with its tag. -/
structure TI (S : Type) where
  space : S
  ord : Nat
  protos : List (TP S)
  tag : Bool
deriving DecidableEq

/-- The index with the given tag; its proto-indices are not tagged. -/
def TI.of (i : Ix S) (tag : Bool) : TI S := ⟨i.space, i.ord, i.protos.map (fun p => ⟨p, false⟩), tag⟩

/-- `reset_tag`. -/
def TI.reset (t : TI S) : Ix S := ⟨t.space, t.ord, t.protos.map TP.p⟩

/-- `index_map.find`. -/
def look (m : List (Ix S × Ix S)) (i : Ix S) : Option (Ix S) := (m.find? fun e => e.1 = i).map Prod.snd

def insertP (O : Ords S) (a : TP S) : List (TP S) → List (TP S)
  | [] => [a]
  | b :: l => if O.plt b.p a.p then b :: insertP O a l else a :: b :: l

/-- `canonicalize_proto_indices` (index.hpp:1093-1096). -/
def sortP (O : Ords S) : List (TP S) → List (TP S)
  | [] => []
  | a :: l => insertP O a (sortP O l)

/-- `Index::transform` of a proto-index. -/
def transP (m : List (Ix S × Ix S)) (q : TP S) : Option (TP S × Bool) :=
  if q.tag then some (q, false)
  else
    match look m q.p.toIx with
    | some v => if v.protos = [] then some (⟨⟨v.space, v.ord⟩, true⟩, true) else none
    | none => some (q, false)

def transPs (m : List (Ix S × Ix S)) : List (TP S) → Option (List (TP S) × Bool)
  | [] => some ([], false)
  | q :: l => do
    let r ← transP m q
    let rs ← transPs m l
    return (r.1 :: rs.1, r.2 || rs.2)

/-- `Index::transform` (index.hpp:821-874). -/
def transI (O : Ords S) (m : List (Ix S × Ix S)) (t : TI S) : Option (TI S × Bool) :=
  match (if t.tag then none else look m t.reset) with
  | some v => some (TI.of v true, true)
  | none => do
    let r ← transPs m t.protos
    if r.2 then
      let t' : TI S := { t with protos := sortP O r.1 }
      match (if t.tag then none else look m t'.reset) with
      | some v => return (TI.of v true, true)
      | none => return (t', true)
    else return ({ t with protos := r.1 }, false)

/-- `Tensor::transform_indices` (tensor.hpp:745-753). -/
def transL (O : Ords S) (m : List (Ix S × Ix S)) : List (Option (TI S)) → Option (List (Option (TI S)) × Bool)
  | [] => some ([], false)
  | none :: l => do
    let rs ← transL O m l
    return (none :: rs.1, rs.2)
  | some t :: l => do
    let r ← transI O m t
    let rs ← transL O m l
    return (some r.1 :: rs.1, r.2 || rs.2)

/-- The loop of `apply_index_replacements` with `self_consistent = true` (utils.hpp:161-164). -/
def replLoop (O : Ords S) (m : List (Ix S × Ix S)) : Nat → List (Option (TI S)) → Option (List (Option (TI S)))
  | 0, _ => none
  | fuel + 1, l => do
    let r ← transL O m l
    if r.2 then replLoop O m fuel r.1 else return r.1

/-- `apply_index_replacements` (utils.hpp:149-167) on the slots of a tensor. -/
def replSlots (O : Ords S) (fuel : Nat) (m : List (Ix S × Ix S)) (l : List (Option (Ix S))) : Option (List (Option (Ix S))) :=
  (replLoop O m fuel (l.map (Option.map fun i => TI.of i false))).map (List.map (Option.map TI.reset))

def replTensor (O : Ords S) (fuel : Nat) (m : List (Ix S × Ix S)) (n : NT L C S) : Option (NT L C S) := do
  let l ← replSlots O fuel m n.slots
  let nb := n.t.bra.length
  let nk := n.t.ket.length
  return { n with t := { n.t with bra := l.take nb, ket := (l.drop nb).take nk }, aux := l.drop (nb + nk) }

/-! ## Sorting via ordinals -/

/-- `sort_then_replace_by_ordinals` (utils.hpp:185-205): the ordinals and whether the number of swaps is even. -/
def sortOrdinals (fuel : Nat) (iseq : List Nat) : Option (List Nat × Bool) :=
  (bubbleSort (fun a b => decide (iseq.getD a 0 < iseq.getD b 0)) fuel (List.range iseq.length)).map fun r => (r.1, counterIsEven r.2)

/-- Stable insertion: before the first element that `a` does not come after. -/
def insertS {α : Type} (lt : α → α → Bool) (a : α) : List α → List α
  | [] => [a]
  | b :: l => if lt b a then b :: insertS lt a l else a :: b :: l

/-- `std::stable_sort`. -/
def stableSortS {α : Type} (lt : α → α → Bool) : List α → List α
  | [] => []
  | a :: l => insertS lt a (stableSortS lt l)

def swapAt {α : Type} (l : List α) (i j : Nat) : Option (List α) :=
  match l[i]?, l[j]? with
  | some a, some b => some ((l.set i b).set j a)
  | _, _ => none

/-- One round of the loop (utils.hpp:239-256). -/
def cycleStep {α : Type} (st : List α × List Nat) (i : Nat) : Option (List α × List Nat) := do
  let p ← st.2[i]?
  if p = i then return st
  else
    let k ← (List.range st.1.length).find? (fun k => decide (i < k) && decide (st.2[k]? = some i))
    return (← swapAt st.1 i p, ← swapAt st.2 i k)

/-- The loop that brings the elements into order (utils.hpp:239-256) and the result (258). -/
def applyOrdinals {α : Type} (seq : List α) (ords : List Nat) : Option (List α × List Nat) :=
  (List.range seq.length).foldlM cycleStep (seq, ords)

/-- `sort_via_ordinals<OrderType::StrictWeak>`; `std::sort` is modelled as insertion sort. -/
def sortStrict {α : Type} (seq : List α) (lt : Nat → Nat → Bool) : Option (List α × List Nat) :=
  applyOrdinals seq (stableSortS lt (List.range seq.length))

/-- `sort_via_ordinals<OrderType::Weak>` (utils.hpp:221-259). -/
def sortWeak {α : Type} (fuel : Nat) (seq : List α) (lt : Nat → Nat → Bool) : Option (List α × List Nat) := do
  let r ← bubbleSort lt fuel (List.range seq.length)
  applyOrdinals seq r.1

/-! ## Vertices of the graph -/

/-- `VertexType`. -/
inductive VT where
  | core | braket | braBundle | ketBundle | bra | ket | aux | index | indexBundle
deriving DecidableEq, Repr

/-- The vertices of a tensor (v3.cpp:991-1196). -/
def tensorVTs (n : NT L C S) : List VT :=
  let nb := n.t.bra.length
  let nk := n.t.ket.length
  [.core] ++ List.replicate (if n.t.sym = .nonsymm then max nb nk + 1 else 1) .braket ++ [.braBundle, .ketBundle]
    ++ List.replicate nb .bra ++ List.replicate nk .ket ++ List.replicate n.aux.length .aux

/-- The vertices of the edges and of new bundles of proto-indices (1204-1261). -/
def edgeVTs : List (List (PIx S)) → List (Ix S) → List VT
  | _, [] => []
  | seen, i :: l =>
    if i.protos = [] ∨ i.protos ∈ seen then .index :: edgeVTs seen l else .index :: .indexBundle :: edgeVTs (i.protos :: seen) l

/-- `graph.vertex_types`. -/
def graphVTs (ts : List (NT L C S)) (es : List (Edge S)) : List VT :=
  ts.flatMap tensorVTs ++ edgeVTs [] (es.map Edge.idx) ++ (pureProtos es).map (fun _ => .index)

/-- The images of the vertices of type `ty` among the vertices `vts`, of which the first has ordinal `v`. -/
def ordsOf (π : Nat → Nat) (v : Nat) (ty : VT) (vts : List VT) : List Nat :=
  ((vts.zipIdx v).filter (fun x => x.1 = ty)).map (fun x => π x.2)

/-! ## Permutation of slots -/

/-- `permute_impl` (abstract_tensor.hpp:315-326). -/
def permuteImpl {α : Type} (l : List α) (perm : List Nat) : Option (List α) :=
  if l.length = perm.length then perm.mapM (fun p => l[p]?) else none

/-- `permute_columns_impl` (328-393). -/
def permuteColumns {α : Type} (bra ket : List (Option α)) (perm : List Nat) : Option (List (Option α) × List (Option α)) :=
  if max bra.length ket.length = perm.length then
    let z := bra.zip ket
    let npaired := (z.filter (fun x => x.1.isSome && x.2.isSome)).length
    let nbra := (z.filter (fun x => x.1.isSome && !x.2.isSome)).length + (bra.length - ket.length)
    if ket.length < bra.length ∧ ket.length ≠ npaired then none
    else
      let q := perm.filter (· < npaired) ++ perm.filter (fun i => decide (npaired ≤ i) && decide (i < npaired + nbra))
        ++ perm.filter (npaired + nbra ≤ ·)
      do return (← (q.take bra.length).mapM (fun p => bra[p]?), ← (q.take ket.length).mapM (fun p => ket[p]?))
  else none

/-- The permutation of columns or of bra and ket slots (v3.cpp:390-430); `some none`: the tensor was not found in the map (`continue`). -/
def permuteSlots (fuel : Nat) (π : Nat → Nat) (v : Nat) (n : NT L C S) : Option (Option (Tens (Ix S) × Int)) :=
  let vts := tensorVTs n
  if n.t.sym = .nonsymm then
    let cs := (ordsOf π v .braket vts).drop 1
    if cs = [] then some none
    else do
      let o ← sortOrdinals fuel cs
      let bk ← permuteColumns n.t.bra n.t.ket o.1
      return some ({ n.t with bra := bk.1, ket := bk.2 }, 1)
  else
    if n.t.bra = [] ∧ n.t.ket = [] then some none
    else do
      let ob ← sortOrdinals fuel (ordsOf π v .bra vts)
      let ok ← sortOrdinals fuel (ordsOf π v .ket vts)
      let b ← permuteImpl n.t.bra ob.1
      let k ← permuteImpl n.t.ket ok.1
      return some ({ n.t with bra := b, ket := k },
        if n.t.sym = .antisymm then (if ob.2 then 1 else -1) * (if ok.2 then 1 else -1) else 1)

/-- The permutation of the slots of one tensor (v3.cpp:386-440): the tensor and the sign.  `v`: ordinal of its first vertex. -/
def permuteTensor (fuel : Nat) (π : Nat → Nat) (v : Nat) (n : NT L C S) : Option (NT L C S × Int) :=
  if n.t.col = false then some (n, 1)
  else do
    match ← permuteSlots fuel π v n with
    | none => return (n, 1)
    | some r =>
      if n.t.braket = true ∧ (ordsOf π v .ketBundle (tensorVTs n)).headD 0 < (ordsOf π v .braBundle (tensorVTs n)).headD 0 then
        return ({ n with t := swapBraKet r.1 }, r.2)
      else return ({ n with t := r.1 }, r.2)

/-- The loop over the tensors (386-440). -/
def permuteAll (fuel : Nat) (π : Nat → Nat) : Nat → List (NT L C S) → Option (List (NT L C S) × Int)
  | _, [] => some ([], 1)
  | v, n :: l => do
    let r ← permuteTensor fuel π v n
    let rs ← permuteAll fuel π (v + (tensorVTs n).length) l
    return (r.1 :: rs.1, r.2 * rs.2)

/-! ## The stages -/

variable [DecidableEq C]

/-- `tensors_commute` (utils.hpp:32-37). -/
def commute (a b : NT L C S) : Bool := !(decide (a.color = b.color) && !a.cnum && !b.cnum)

/-- `TensorNetworkV3::canonicalize_graph` (v3.cpp:143-473) with `canonize_perm = π`: the tensors, `tensor_input_ordinals_` and the sign. -/
def canonGraph (O : Ords S) (fuel : Nat) (π : Nat → Nat) (named : List (Ix S)) (ts : List (NT L C S)) :
    Option (List (NT L C S) × List Nat × Int) := do
  let es := initEdges O ts
  let vts := graphVTs ts es
  let iv := ordsOf π 0 .index vts
  let tv := ordsOf π 0 .core vts
  let es' ← sortStrict es (fun a b => decide (iv.getD a 0 < iv.getD b 0))
  let m ← relabel named (fun _ => 0) (es'.1.map Edge.idx)
  let ts1 ← ts.mapM (replTensor O fuel m)
  let p ← permuteAll fuel π 0 ts1
  let r ← sortWeak fuel p.1 (fun a b =>
    match p.1[a]?, p.1[b]? with
    | some x, some y => if commute x y then decide (tv.getD a 0 < tv.getD b 0) else false
    | _, _ => false)
  return (r.1, r.2, p.2)

/-- Parameters of the lexicographic stage: the comparators of the canonicalizers of single tensors (tensor_canonicalizer.hpp/.cpp), the order of
edges (`Edge::operator<`), the order of tensors behind `tensors_commute` in `CanonicalTensorCompare` (utils.hpp:106-133; the flag is `blocks_only`). -/
structure Lex (L C S : Type) where
  spaceLess : Option (Ix S) → Option (Ix S) → Bool
  blockIdx : Option (Ix S) → Option (Ix S) → Bool
  blockPair : Option (Ix S) × Option (Ix S) → Option (Ix S) × Option (Ix S) → Bool
  idx : Option (Ix S) → Option (Ix S) → Bool
  pair : Option (Ix S) × Option (Ix S) → Option (Ix S) × Option (Ix S) → Bool
  edge : Edge S → Edge S → Bool
  base : Bool → NT L C S → NT L C S → Bool

/-- `CanonicalTensorCompare` (utils.hpp:94-137). -/
def tcmp (X : Lex L C S) (blocks : Bool) (a b : NT L C S) : Bool := if commute a b then X.base blocks a b else false

/-- `do_individual_canonicalization` (v3.cpp:1590-1609): the tensors and the byproduct. -/
def canonEach (f : Tens (Ix S) → Option (Option Int × Tens (Ix S))) : List (NT L C S) → Option (List (NT L C S) × Int)
  | [] => some ([], 1)
  | n :: l => do
    let r ← f n.t
    let rs ← canonEach f l
    return ({ n with t := r.2 } :: rs.1, r.1.getD 1 * rs.2)

/-- The order of the edges (v3.cpp:571-588): named ones first, then by `Edge::operator<`. -/
def lexEdges (X : Lex L C S) (named : List (Ix S)) (es : List (Edge S)) : List (Edge S) :=
  stableSortS X.edge (es.filter (fun e => e.idx ∈ named)) ++ stableSortS X.edge (es.filter (fun e => e.idx ∉ named))

/-- The loop that fills `idxrepl` (598-606): the assertion that the index is anonymous, then a fresh index. -/
def relabelLex (named : List (Ix S)) : (S → Nat) → List (Ix S) → Option (List (Ix S × Ix S))
  | _, [] => some []
  | c, i :: l =>
    if i ∈ named then none
    else do
      let r ← make named c i
      let m ← relabelLex named r.2 l
      return if i = r.1 then m else (i, r.1) :: m

/-- The lexicographic stage (543-643) up to the final sort: the tensors with their ordinals and the byproduct.  `N`: the named indices; by default these are
a reference to `ext_indices_`, which `init_edges` updates.  The assertion that the tensors are still sorted by blocks (631-632) is not modelled. -/
def canonLex (O : Ords S) (X : Lex L C S) (fuel : Nat) (N : List (NT L C S) → List (Ix S)) (ts : List (NT L C S)) (ords : List Nat) :
    Option (List (NT L C S) × List Nat × Int) := do
  let b ← canonEach (canonBlock fuel X.spaceLess X.blockIdx X.blockPair) ts
  let z ← bubbleSort (fun x y => tcmp X true x.1 y.1) fuel (b.1.zip ords)
  let ts1 := z.1.map Prod.fst
  let named := N ts1
  let es := lexEdges X named (initEdges O ts1)
  let m ← relabelLex named (fun _ => 0) ((es.drop named.length).map Edge.idx)
  let ts2 ← ts1.mapM (replTensor O fuel m)
  let d ← canonEach (canonCore fuel X.idx X.pair) ts2
  return (d.1, z.1.map Prod.snd, b.2 * d.2)

/-- The final `std::stable_sort` (637-641). -/
def lexSort (X : Lex L C S) (ts : List (NT L C S)) : List (NT L C S) := stableSortS (tcmp X false) ts

/-- The named indices (516-523): those given, by default the external ones. -/
def namedOf (O : Ords S) (opt : Option (List (Ix S))) (ts : List (NT L C S)) : List (Ix S) := opt.getD (extIndices (initEdges O ts))

/-- The topological stage, if asked for (525-541). -/
def topoStage (O : Ords S) (fuel : Nat) (π : Nat → Nat) (topo : Bool) (opt : Option (List (Ix S))) (ts : List (NT L C S)) :
    Option (List (NT L C S) × List Nat × Int) :=
  if topo then canonGraph O fuel π (namedOf O opt ts) ts else some (ts, List.range ts.length, 1)

/-- `TensorNetworkV3::canonicalize` (493-645); `topo`, `lex`: the flags of the method.  The result: tensors, `tensor_input_ordinals_`, byproduct. -/
def canonicalize (O : Ords S) (X : Lex L C S) (fuel : Nat) (π : Nat → Nat) (topo lex : Bool) (opt : Option (List (Ix S))) (ts : List (NT L C S)) :
    Option (List (NT L C S) × List Nat × Int) := do
  let r ← topoStage O fuel π topo opt ts
  if lex then
    let q ← canonLex O X fuel (namedOf O opt) r.1 r.2.1
    return (lexSort X q.1, q.2.1, r.2.2 * q.2.2)
  else return r

end SeQuant.Network
