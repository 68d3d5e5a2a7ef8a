import Mathlib.Algebra.BigOperators.Group.List.Basic
import Mathlib.Algebra.Ring.Defs
import Mathlib.Data.List.Nodup
import Mathlib.Logic.Function.Basic

/-!
# Dense arrays and the results of the BTAS and TAPP backends

Model of `core/eval/backends/tapp/tensor.hpp` (row-major layout), `core/eval/backends/tapp/ops.hpp`
(`contract`, `permute`, `scal`, `dot`), `batch_indices` and `batched_contract` of
`core/eval/backends/btas/result.hpp:131-284`, and the operations `sum`, `prod`, `mult_by_phase`, `permute`,
`adjoint`, `add_inplace` of `ResultTensorBTAS`, `ResultTensorTAPP` (`tapp/result.hpp:157-299`) and
`ResultScalar` (`core/eval/result.hpp:401-471`).

Simplifications: numbers form a commutative semiring instead of floating point (integers do not overflow), the
functions of the libraries BTAS and TAPP (`btas::permute`, `btas::contract`, `btas::dot`, `btas::scal`,
`TAPP_execute_product`) are modelled by what they are documented to compute and fail outside of their
preconditions, logging is left out, and type identifiers are constructors of `Res`.
-/

namespace SeQuant.Dense

/-- annotations are hashes of labels, `btas/eval_expr.hpp:30-43`. -/
abbrev Label := Int

inductive Err
  /-- a `SEQUANT_ASSERT` or `assert` fails -/
  | assertion
  /-- the precondition of a library function does not hold -/
  | library
  /-- `detail::invalid_operand` -/
  | invalidOperand
  /-- `detail::unimplemented_method` -/
  | unimplemented
  deriving DecidableEq, Repr

/-- `compute_strides`, `tapp/tensor.hpp:40-49`: the loop goes from the last mode to the first. -/
def strides : List Nat → List Nat
  | [] => []
  | [_] => [1]
  | _ :: e :: es => ((strides (e :: es)).headD 1 * e) :: strides (e :: es)

/-- `compute_volume`, `tapp/tensor.hpp:52-56`. -/
def volume (ext : List Nat) : Nat := if ext = [] then 1 else ext.foldl (· * ·) 1

/-- `offset`, `offset_from_vec`, `tapp/tensor.hpp:256-272`. -/
def offset (st x : List Nat) : Nat := (x.zip st).foldl (fun o p => o + p.1 * p.2) 0

/-- `TAPPTensor`, `tapp/tensor.hpp:79-273`, and `btas::Tensor`: extents and data. The strides are always
those of the extents. The handle is not modelled here. -/
structure Arr (K : Type) where
  ext : List Nat
  data : List K
  deriving DecidableEq

variable {K : Type}

/-- `operator()`, `tapp/tensor.hpp:206-227`. -/
def Arr.at_ [Zero K] (a : Arr K) (x : List Nat) : K := a.data.getD (offset (strides a.ext) x) 0

/-- the multi-index at a position of the data. -/
def unravel : List Nat → Nat → List Nat
  | [], _ => []
  | _ :: es, k => (k / volume es) :: unravel es (k % volume es)

/-- the array with given elements. -/
def gen (ext : List Nat) (f : List Nat → K) : Arr K :=
  ⟨ext, (List.range (volume ext)).map fun k => f (unravel ext k)⟩

/-- the values of labels that a multi-index gives. -/
def env (ann : List Label) (x : List Nat) : Label → Nat := fun l => x.getD (ann.idxOf l) 0

/-- the extent of a label as found in a list of labels, used by the libraries. -/
def extentOf (ann : List Label) (ext : List Nat) (l : Label) : Nat := ext.getD (ann.idxOf l) 0

/-- sum over all values of some labels. -/
def sumOver [AddCommMonoid K] (dim : Label → Nat) : List Label → (Label → Nat) → ((Label → Nat) → K) → K
  | [], σ, f => f σ
  | l :: ls, σ, f => ((List.range (dim l)).map fun v => sumOver dim ls (Function.update σ l v) f).sum

/-- the extent of a label in a product. -/
def dimOf (ia : List Label) (ea : List Nat) (ib : List Label) (eb : List Nat) (l : Label) : Nat :=
  if l ∈ ia then extentOf ia ea l else extentOf ib eb l

/-- labels that are summed in a product. -/
def summed (ia ib ic : List Label) : List Label := ((ia ++ ib).filter fun l => l ∉ ic).dedup

/-- the extents agree with the extents of labels. -/
def fits (dim : Label → Nat) (ann : List Label) (ext : List Nat) : Bool := decide (ext = ann.map dim)

/-- `TAPP_create_tensor_product` and `TAPP_execute_product` (library): `D = α A B + β C`, here with
`C = D = c` as always in SeQuant. -/
def product [CommSemiring K] [DecidableEq K] (α : K) (a : Arr K) (ia : List Label) (b : Arr K) (ib : List Label)
    (β : K) (c : Arr K) (ic : List Label) : Except Err (Arr K) :=
  let dim := dimOf ia a.ext ib b.ext
  if fits dim ia a.ext && fits dim ib b.ext && fits dim ic c.ext && decide ic.Nodup
      && ic.all (fun l => ia.contains l || ib.contains l) then
    .ok (gen c.ext fun y =>
      α * sumOver dim (summed ia ib ic) (env ic y) (fun σ => a.at_ (ia.map σ) * b.at_ (ib.map σ))
        + if β ≠ 0 then β * c.at_ y else 0)
  else .error .library

/-- the scan over `idx_A` and `idx_B` for one label, `tapp/ops.hpp:86-101`. -/
def findExtent (idx : List Label) (ext : List Nat) (l : Label) : Option Nat :=
  ((idx.zip ext).find? fun p => p.1 == l).map Prod.snd

/-- `compute_result_extents`, `tapp/ops.hpp:79-105`. -/
def computeResultExtents (a : Arr K) (ia : List Label) (b : Arr K) (ib : List Label) :
    List Label → Except Err (List Nat)
  | [] => .ok []
  | l :: ls =>
    match (findExtent ia a.ext l).or (findExtent ib b.ext l) with
    | none => .error .assertion
    | some e => (computeResultExtents a ia b ib ls).map (e :: ·)

/-- `contract`, `tapp/ops.hpp:120-160`. -/
def contractTapp [CommSemiring K] [DecidableEq K] (α : K) (a : Arr K) (ia : List Label) (b : Arr K) (ib : List Label)
    (β : K) (c : Arr K) (ic : List Label) : Except Err (Arr K) :=
  if c.data.length = 0 then do
    let ext ← computeResultExtents a ia b ib ic
    product α a ia b ib β ⟨ext, List.replicate (volume ext) 0⟩ ic
  else product α a ia b ib β c ic

/-- a default constructed tensor, `tapp/tensor.hpp:86-87`. -/
def emptyArr : Arr K := ⟨[], []⟩

/-- `permute`, `tapp/ops.hpp:169-216`. -/
def permuteTapp [CommSemiring K] [DecidableEq K] (a : Arr K) (si di : List Label) : Except Err (Arr K) :=
  if si.length = a.ext.length ∧ di.length = a.ext.length then
    let ext := di.map fun l => (findExtent si a.ext l).getD 0
    product 1 a si ⟨[], [1]⟩ [] 0 ⟨ext, List.replicate (volume ext) 0⟩ di
  else .error .assertion

/-- `scal`, `tapp/ops.hpp:222-226`, and `btas::scal`. -/
def scal [Mul K] (α : K) (a : Arr K) : Arr K := ⟨a.ext, a.data.map (· * α)⟩

/-- `dot`, `tapp/ops.hpp:235-243`, and `btas::dot` of real arrays. -/
def dot [CommSemiring K] (a b : Arr K) : Except Err K :=
  if a.ext = b.ext then .ok ((List.zipWith (· * ·) a.data b.data).foldl (· + ·) 0) else .error .assertion

/-- `operator+=`, `tapp/tensor.hpp:190-194`, and `operator+`, `operator+=` of BTAS. -/
def addArr [Add K] (a b : Arr K) : Except Err (Arr K) :=
  if a.ext = b.ext then .ok ⟨a.ext, List.zipWith (· + ·) a.data b.data⟩ else .error .assertion

/-- `btas::permute` with annotations (library). -/
def permuteBtas [Zero K] (a : Arr K) (si di : List Label) : Except Err (Arr K) :=
  if si.length = a.ext.length ∧ si.Nodup ∧ si.Perm di then
    .ok (gen (di.map (extentOf si a.ext)) fun y => a.at_ (si.map (env di y)))
  else .error .library

/-- `btas::contract` into an empty array (library): labels of both operands are summed, the others are labels
of the result. -/
def contractBtas [CommSemiring K] (α : K) (a : Arr K) (ia : List Label) (b : Arr K) (ib : List Label)
    (ic : List Label) : Except Err (Arr K) :=
  let dim := dimOf ia a.ext ib b.ext
  if fits dim ia a.ext && fits dim ib b.ext && decide ia.Nodup && decide ib.Nodup && decide ic.Nodup
      && ia.all (fun l => ib.contains l != ic.contains l) && ib.all (fun l => ia.contains l != ic.contains l)
      && ic.all (fun l => ia.contains l || ib.contains l) then
    .ok (gen (ic.map dim) fun y =>
      α * sumOver dim (summed ia ib ic) (env ic y) (fun σ => a.at_ (ia.map σ) * b.at_ (ib.map σ)))
  else .error .library

/-- `batch_indices`, `btas/result.hpp:140-149`. -/
def batchIndices (la ra ca : List Label) : List Label := ca.filter fun x => la.contains x && ra.contains x

/-- `rest`, `btas/result.hpp:170-175`. -/
def restOf (batch v : List Label) : List Label := v.filter fun x => !batch.contains x

/-- `tail_extents`, `btas/result.hpp:190-198`. -/
def tailExtents (t : Arr K) (skip : Nat) : List Nat × Nat :=
  (t.ext.drop skip, (t.ext.drop skip).foldl (· * ·) 1)

/-- the loop that finds `P`, `btas/result.hpp:203-208`. -/
def batchCount (l r : Arr K) (nb : Nat) : Except Err Nat :=
  (List.range nb).foldlM (fun p i =>
    if l.ext.getD i 0 = r.ext.getD i 0 then .ok (p * l.ext.getD i 0) else .error Err.assertion) 1

/-- extents of the labels of the result, `btas/result.hpp:213-226`. -/
def resultExtents (rl rr : List Label) (el er : List Nat) : List Label → Except Err (List Nat)
  | [] => .ok []
  | x :: xs =>
    if x ∈ rl then (resultExtents rl rr el er xs).map (extentOf rl el x :: ·)
    else if x ∈ rr then (resultExtents rl rr el er xs).map (extentOf rr er x :: ·)
    else .error .assertion

/-- `slice`, `btas/result.hpp:237-242`. -/
def slice (src : Arr K) (off : Nat) (ext : List Nat) (sz : Nat) : Arr K := ⟨ext, (src.data.drop off).take sz⟩

/-- the part of the result for one value of the batch, `btas/result.hpp:244-277`. -/
def batchBlock [CommSemiring K] (α : K) (lp rp : Arr K) (rl rr rc : List Label) (rlext : List Nat) (rlsz : Nat)
    (rrext : List Nat) (rrsz rcsz b : Nat) : Except Err (List K) :=
  if rc = [] then
    if rl = [] then .ok [α * (lp.data.getD (b * rlsz) 0 * rp.data.getD (b * rrsz) 0)]
    else do
      let rb ← permuteBtas (slice rp (b * rrsz) rrext rrsz) rr rl
      let d ← dot (slice lp (b * rlsz) rlext rlsz) rb
      .ok [α * d]
  else if rl = [] ∨ rr = [] then do
    let s := α * (if rl = [] then lp.data.getD (b * rlsz) 0 else rp.data.getD (b * rrsz) 0)
    let cb ← if rl = [] then permuteBtas (slice rp (b * rrsz) rrext rrsz) rr rc
      else permuteBtas (slice lp (b * rlsz) rlext rlsz) rl rc
    .ok ((scal s cb).data.take rcsz)
  else do
    let cb ← contractBtas α (slice lp (b * rlsz) rlext rlsz) rl (slice rp (b * rrsz) rrext rrsz) rr rc
    .ok (cb.data.take rcsz)

/-- `batched_contract`, `btas/result.hpp:162-284`. The parts are written to consecutive places of the result;
here they are concatenated. -/
def batchedContract [CommSemiring K] (α : K) (l : Arr K) (la : List Label) (r : Arr K) (ra : List Label)
    (ca batch : List Label) : Except Err (Arr K) := do
  let rl := restOf batch la
  let rr := restOf batch ra
  let rc := restOf batch ca
  let lp ← permuteBtas l la (batch ++ rl)
  let rp ← permuteBtas r ra (batch ++ rr)
  let nb := batch.length
  let p ← batchCount lp rp nb
  let (rlext, rlsz) := tailExtents lp nb
  let (rrext, rrsz) := tailExtents rp nb
  let rcext ← resultExtents rl rr rlext rrext rc
  let rcsz := rcext.foldl (· * ·) 1
  let blocks ← (List.range p).mapM (batchBlock α lp rp rl rr rc rlext rlsz rrext rrsz rcsz)
  permuteBtas ⟨lp.ext.take nb ++ rcext, blocks.flatten⟩ (batch ++ rc) ca

/-- `Result`: a scalar or an array, `core/eval/result.hpp:226-400`. -/
inductive Res (K : Type)
  | scalar (v : K)
  | tensor (a : Arr K)
  deriving DecidableEq

/-- `ResultTensorBTAS::prod` and `ResultScalar::prod`, `btas/result.hpp:325-374`,
`core/eval/result.hpp:424-439`. -/
def prodBtas [CommSemiring K] : Res K → Res K → List Label → List Label → List Label → Except Err (Res K)
  | .scalar u, .scalar v, _, _, _ => .ok (.scalar (u * v))
  | .tensor a, .scalar v, la, _, ca => (permuteBtas a la ca).map fun t => .tensor (scal v t)
  | .scalar u, .tensor b, _, ra, ca => (permuteBtas b ra ca).map fun t => .tensor (scal u t)
  | .tensor a, .tensor b, la, ra, ca =>
    if ca = [] then do
      let r ← permuteBtas b ra la
      (dot a r).map .scalar
    else if batchIndices la ra ca ≠ [] then
      (batchedContract 1 a la b ra ca (batchIndices la ra ca)).map .tensor
    else (contractBtas 1 a la b ra ca).map .tensor

/-- `ResultTensorTAPP::prod` and `ResultScalar::prod`, `tapp/result.hpp:191-230`. -/
def prodTapp [CommSemiring K] [DecidableEq K] :
    Res K → Res K → List Label → List Label → List Label → Except Err (Res K)
  | .scalar u, .scalar v, _, _, _ => .ok (.scalar (u * v))
  | .tensor a, .scalar v, la, _, ca => (permuteTapp a la ca).map fun t => .tensor (scal v t)
  | .scalar u, .tensor b, _, ra, ca => (permuteTapp b ra ca).map fun t => .tensor (scal u t)
  | .tensor a, .tensor b, la, ra, ca =>
    if ca = [] then do
      let r ← permuteTapp b ra la
      (dot a r).map .scalar
    else (contractTapp 1 a la b ra 0 emptyArr ca).map .tensor

/-- `sum` with the permutation of the backend, `btas/result.hpp:309-323`, `tapp/result.hpp:174-189`,
`core/eval/result.hpp:410-422`. -/
def sumWith [Add K] (permute : Arr K → List Label → List Label → Except Err (Arr K)) :
    Res K → Res K → List Label → List Label → List Label → Except Err (Res K)
  | .scalar u, .scalar v, _, _, _ => .ok (.scalar (u + v))
  | .scalar _, .tensor _, _, _, _ => .error .invalidOperand
  | .tensor _, .scalar _, _, _, _ => .error .assertion
  | .tensor a, .tensor b, la, ra, ca => do
    let l ← permute a la ca
    let r ← permute b ra ca
    (addArr l r).map .tensor

/-- `mult_by_phase`, `btas/result.hpp:376-380`, `tapp/result.hpp:232-236`, `core/eval/result.hpp:461-463`. -/
def multByPhase [Mul K] (factor : K) : Res K → Res K
  | .scalar v => .scalar (v * factor)
  | .tensor a => .tensor (scal factor a)

/-- `permute`, `btas/result.hpp:382-393`, `tapp/result.hpp:238-249`, `core/eval/result.hpp:441-444`. -/
def permuteWith (permute : Arr K → List Label → List Label → Except Err (Arr K)) :
    Res K → List Label → List Label → Except Err (Res K)
  | .scalar _, _, _ => .error .unimplemented
  | .tensor a, pre, post => (permute a pre post).map .tensor

/-- `adjoint`, `btas/result.hpp:395-412`, `tapp/result.hpp:251-270`, `core/eval/result.hpp:293-296`;
`conj` is the identity for real numbers. -/
def adjointWith (permute : Arr K → List Label → List Label → Except Err (Arr K)) (conj : K → K) :
    Res K → List Label → List Label → Except Err (Res K)
  | .scalar _, _, _ => .error .unimplemented
  | .tensor a, pre, post => (permute a pre post).map fun t => .tensor ⟨t.ext, t.data.map conj⟩

/-- `add_inplace`, `btas/result.hpp:414-424`, `tapp/result.hpp:272-282`, `core/eval/result.hpp:446-451`. -/
def addInplace [Add K] : Res K → Res K → Except Err (Res K)
  | .scalar u, .scalar v => .ok (.scalar (u + v))
  | .tensor a, .tensor b => (addArr a b).map .tensor
  | .scalar _, .tensor _ => .error .assertion
  | .tensor _, .scalar _ => .error .assertion

/-- `size_in_bytes` of `ResultTensorBTAS`, `btas/result.hpp:437-441`: `sizeof(T)` is the size of the array
object, not of a number. -/
def sizeBtas (sizeofArr : Nat) (a : Arr K) : Nat := volume a.ext * sizeofArr

/-- `size_in_bytes` of `ResultTensorTAPP`, `tapp/result.hpp:295-298`. -/
def sizeTapp (sizeofNum : Nat) (a : Arr K) : Nat := a.data.length * sizeofNum

end SeQuant.Dense
