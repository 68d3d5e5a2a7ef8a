import Verif.Expression.Model
import Verif.Perm.Model
import Verif.Sort.Model
import Verif.Tensor.CanonModel
import Mathlib.Algebra.Field.Defs
import Mathlib.Data.Nat.Factorial.Basic

/-!
# Model of spin tracing, part 1: spin labels, expansion of antisymmetric tensors and of the operators `A`, `S`, `P`

Transcribes `SeQuant/domain/mbpt/spin.cpp` and the parts of `core/expressions/abstract_tensor.cpp` it uses.

Simplifications, here and in `TraceModel`:
* indices have no proto-indices and no tags (tags only prevent that an index is replaced twice by one map; here a map is applied once to every
  index of a tensor); slots are not empty;
* the bra-ket and column symmetry of tensors are not modelled, nor is the validation by the constructor of `Tensor`;
* a leaf that is neither constant, variable nor tensor (normal operators, powers, ...) is `Atm.oper`; it has none of the labels `A`, `S`, `P`;
* the loops `do ... while (std::next_permutation(...))` and `bubble_sort` are those of `Perm.Model` and `Sort.Model`, run with a number of
  rounds that is shown to suffice (`arrangements_spec`, `phase_spec` in `Lemmas`).
-/

namespace SeQuant.Spins

open SeQuant.Expression SeQuant.Perm SeQuant.Sort
open SeQuant.Tensors (Sym)

/-- `mbpt::Spin` (domain/mbpt/space_qns.hpp:29-40). -/
inductive Spin where
  | alpha
  | beta
  | any
  deriving DecidableEq, Repr

/-- What the code asks of an `Index`: the order, `to_spin(idx.space().qns())` and `make_index_with_spincase` (spin.cpp:55-83). -/
class SpinIx (ι : Type) extends LinearOrder ι where
  spin : ι → Spin
  setSpin : ι → Spin → ι
  spin_set : ∀ i s, spin (setSpin i s) = s
  set_set : ∀ i s s', setSpin (setSpin i s) s' = setSpin i s'
  set_spin : ∀ i, setSpin i (spin i) = i

/-- Labels; the first three are the reserved ones (core/reserved.hpp). -/
inductive Lab where
  | A
  | S
  | P
  | other (name : String)
  deriving DecidableEq, Repr

/-- `Tensor`. -/
structure Tn (ι : Type) where
  lab : Lab
  bra : List ι
  ket : List ι
  aux : List ι
  sym : Sym
  deriving DecidableEq, Repr

/-- Leaves of expressions other than constants. -/
inductive Atm (ι : Type) where
  | tens (t : Tn ι)
  | var (name : String)
  | oper (n : Nat)
  deriving DecidableEq, Repr

instance {K ι : Type} : Atoms K (Atm ι) := ⟨fun _ => false, fun _ => none⟩

/-- Abnormal outcomes: a C++ exception, a failed assertion, a null pointer instead of an expression, or the fuel given to the model was too
small. -/
inductive Err where
  | thrown
  | assertion
  | null
  | fuel
  deriving DecidableEq, Repr

abbrev Res (α : Type) := Except Err α

def ofOption {α : Type} : Option α → Res α
  | some a => .ok a
  | none => .error .fuel

variable {K ι : Type}

/-- Is the factor a tensor with this label? -/
def hasLab (lab : Lab) : Expr K (Atm ι) → Bool
  | .atom (.tens t) => decide (t.lab = lab)
  | _ => false

/-- The first tensor with this label among the factors. -/
def findLab (lab : Lab) : List (Expr K (Atm ι)) → Option (Tn ι)
  | [] => none
  | .atom (.tens t) :: l => if t.lab = lab then some t else findLab lab l
  | _ :: l => findLab lab l

mutual
/-- `has_tensor` (abstract_tensor.cpp:14-33). -/
def hasTensor (lab : Lab) : Expr K (Atm ι) → Bool
  | .const _ => false
  | .atom a => hasLab lab (.atom a : Expr K (Atm ι))
  | .prod _ l => l.any (hasLab lab)
  | .sum _ l => hasTensorL lab l
def hasTensorL (lab : Lab) : List (Expr K (Atm ι)) → Bool
  | [] => false
  | e :: l => hasTensor lab e || hasTensorL lab l
end

section basics
variable [LinearOrder ι]

/-- `std::less<Index>`. -/
def lt (a b : ι) : Bool := decide (a < b)

/-- The number of exchanges counted by `bubble_sort`. -/
def swaps (l : List ι) : Nat := ((bubbleSort lt (l.length * l.length + 1) l).map (·.2)).getD 0

/-- `reset_ts_swap_counter(); bubble_sort(l); ts_swap_counter_is_even() ? 1 : -1` (e.g. spin.cpp:587-589). -/
def phase (l : List ι) : Int := if counterIsEven (swaps l) then 1 else -1

/-- `get_phase` of a tensor (spin.cpp:446-453): bra and ket share the counter. -/
def phase2 (b k : List ι) : Int := if counterIsEven (swaps b + swaps k) then 1 else -1

/-- The arrangements seen by `do { ... } while (std::next_permutation(l.begin(), l.end()))`, in order. -/
def arrangements (l : List ι) : List (List ι) :=
  ((enumerate lt (l.length.factorial + 1) 0 l).getD []).map (·.1)

/-! ## Maps of indices -/

/-- `container::map<Index, Index>::emplace`: the list is kept in the order of the keys; an existing key is left alone. -/
def emplace : List (ι × ι) → ι → ι → List (ι × ι)
  | [], k, v => [(k, v)]
  | (k', v') :: m, k, v =>
    if k < k' then (k, v) :: (k', v') :: m else if k = k' then (k', v') :: m else (k', v') :: emplace m k v

/-- A sequence of `emplace`. -/
def build (ps : List (ι × ι)) : List (ι × ι) := ps.foldl (fun m p => emplace m p.1 p.2) []

/-- `Index::transform` without tags and proto-indices (index.hpp:823-874). -/
def get (m : List (ι × ι)) (i : ι) : ι := (m.lookup i).getD i

/-- `container::set<Index>` made from a range. -/
def setOf (l : List ι) : List ι := (build (l.map fun i => (i, i))).map (·.1)

/-- `Tensor::transform_indices` (tensor.hpp:746-753). -/
def Tn.transform (m : List (ι × ι)) (t : Tn ι) : Tn ι :=
  { t with bra := t.bra.map (get m), ket := t.ket.map (get m), aux := t.aux.map (get m) }

/-- `list[i]` for the entries `i` of `p`, which are in range. -/
def pick (l : List ι) (p : List Nat) : List ι := p.filterMap fun j => l[j]?

end basics

section ops
variable [Field K] [DecidableEq K]

/-- `remove_tensor` of a product (abstract_tensor.cpp:43-55): all tensors with the label are removed. -/
def removeP (lab : Lab) (c : K) (l : List (Expr K (Atm ι))) : K × List (Expr K (Atm ι)) :=
  pAppendAll clone .Recursively (c, []) (l.filter fun f => !hasLab lab f)

variable [LinearOrder ι]

/-- The replacement in one factor (e.g. spin.cpp:596-602): only tensors are changed. -/
def transformF (m : List (ι × ι)) : Expr K (Atm ι) → Expr K (Atm ι)
  | .atom (.tens t) => .atom (.tens (t.transform m))
  | e => e

/-- A factor that is not a constant, variable or tensor makes `symmetrize_expr`, `expand_P_op`, ... throw. -/
def plain : Expr K (Atm ι) → Bool
  | .const _ => true
  | .atom (.tens _) => true
  | .atom (.var _) => true
  | _ => false

/-! ## Expansion of the antisymmetrizer -/

/-- `A_maps` (spin.cpp:525-551). -/
def aMaps (A : Tn ι) : List (List (ι × ι)) :=
  (arrangements (List.range A.ket.length)).flatMap fun kp =>
    (arrangements (List.range A.bra.length)).map fun bp =>
      build (A.bra.zip (pick A.bra bp) ++ A.ket.zip (pick A.ket kp))

/-- The product made for one map (spin.cpp:582-604). -/
def aTerm (A : Tn ι) (c : K) (l : List (Expr K (Atm ι))) (m : List (ι × ι)) : Expr K (Atm ι) :=
  let nf : K := 1 / ((A.bra.length.factorial * A.ket.length.factorial : Nat) : K)
  let st := pAppendAll clone .Recursively (c, []) ((removeP .A c l).2.map (transformF m))
  .prod (st.1 * ((phase (m.map (·.2)) : K) * nf)) st.2

/-- `expand_A_op` of a product (spin.cpp:553-611). -/
def expandAProd (c : K) (l : List (Expr K (Atm ι))) : Expr K (Atm ι) :=
  match findLab .A l with
  | none => .prod c l
  | some A =>
    if A.bra.length ≤ 1 ∧ A.ket.length ≤ 1 then .prod (removeP .A c l).1 (removeP .A c l).2
    else mkSum ((aMaps A).map (aTerm A c l))

mutual
/-- `expand_A_op` (spin.cpp:731-746). -/
def expandA : Expr K (Atm ι) → Res (Expr K (Atm ι))
  | .const c => .ok (.const c)
  | .atom (.oper _) => .error .thrown
  | .atom a => .ok (.atom a)
  | .prod c l => .ok (expandAProd c l)
  | .sum _ l => do return mkSum (← expandAL l)
def expandAL : List (Expr K (Atm ι)) → Res (List (Expr K (Atm ι)))
  | [] => .ok []
  | e :: l => do return (← expandA e) :: (← expandAL l)
end

/-! ## The antisymmetrizer in terms of the particle symmetrizer -/

/-- `maps_from_list` (spin.cpp:652-668). -/
def mapsFromList (l : List ι) : List (List (ι × ι)) :=
  (arrangements (List.range l.length)).map fun p => build (l.zip (pick l p))

/-- The symmetrizer made from `A` (spin.cpp:633-645). -/
def symmetrizer (A : Tn ι) : Tn ι :=
  if A.bra.length = A.ket.length then ⟨.S, A.bra, A.ket, A.aux, .nonsymm⟩
  else
    let n := min A.bra.length A.ket.length
    ⟨.S, A.bra.take n, A.ket.take n, A.aux, .nonsymm⟩

/-- `symmetrize_expr` of a product (spin.cpp:613-711).  `checks`: assertions are enabled; the assertion of line 631 calls `Tensor::rank`,
which throws for unequal ranks (tensor.hpp:664-669). -/
def symmetrizeProd (checks : Bool) (c : K) (l : List (Expr K (Atm ι))) : Res (Expr K (Atm ι)) :=
  match findLab .A l with
  | none => .ok (.prod c l)
  | some A =>
    if A.bra.length = A.ket.length ∧ A.bra.length = 1 then .ok (.prod (removeP .A c l).1 (removeP .A c l).2)
    else if checks ∧ A.bra.length ≠ A.ket.length then .error .thrown
    else if checks ∧ A.bra.length ≤ 1 then .error .assertion
    else
      let S := symmetrizer A
      let nf : K := 1 / ((S.ket.length.factorial : Nat) : K)
      let maps := if A.ket.length ≤ A.bra.length then mapsFromList A.bra else mapsFromList A.ket
      if (removeP .A c l).2.all plain then
        .ok (mkSum (maps.map fun m =>
          mkProd .Recursively (c * nf * (phase (m.map (·.2)) : K))
            (.atom (.tens S) :: (removeP .A c l).2.map (transformF m))))
      else .error .thrown

mutual
/-- `symmetrize_expr` (spin.cpp:713-729). -/
def symmetrize (checks : Bool) : Expr K (Atm ι) → Res (Expr K (Atm ι))
  | .const c => .ok (.const c)
  | .atom (.oper _) => .error .thrown
  | .atom a => .ok (.atom a)
  | .prod c l => symmetrizeProd checks c l
  | .sum _ l => do return mkSum (← symmetrizeL checks l)
def symmetrizeL (checks : Bool) : List (Expr K (Atm ι)) → Res (List (Expr K (Atm ι)))
  | [] => .ok []
  | e :: l => do return (← symmetrize checks e) :: (← symmetrizeL checks l)
end

/-- The pairs emplaced by one round of `S_replacement_maps` (spin.cpp:845-853). -/
def sPairs (S : Tn ι) (p : List Nat) : List (ι × ι) :=
  ((S.bra.zip (pick S.bra p)).zip (S.ket.zip (pick S.ket p))).flatMap fun q => [q.1, q.2]

/-- `S_replacement_maps` (spin.cpp:835-858). -/
def sMapList (S : Tn ι) : Res (List (List (ι × ι))) :=
  if S.bra.length ≤ 1 ∨ S.bra.length ≠ S.ket.length then .error .assertion
  else .ok ((arrangements (List.range S.bra.length)).map fun p => build (sPairs S p))

/-- `expand_S_product` (spin.cpp:872-910). -/
def sProduct (c : K) (l : List (Expr K (Atm ι))) : Res (Expr K (Atm ι)) :=
  match findLab .S l with
  | none => .ok (.prod c l)
  | some S => do
    let maps ← sMapList S
    let nf : K := 1 / ((S.ket.length.factorial : Nat) : K)
    return mkSum (maps.map fun m => mkProd .Recursively (c * nf) ((removeP .S c l).2.map (transformF m)))

/-- The loop over the summands in `S_maps` (spin.cpp:915-922).  Line 919 asks whether the *sum* is a variable, so variables (and sums and
other leaves) among the summands are skipped. -/
def sSummands : List (Expr K (Atm ι)) → Res (List (Expr K (Atm ι)))
  | [] => .ok []
  | .prod c l :: es => do return (← sProduct c l) :: (← sSummands es)
  | .const c :: es => do return .const c :: (← sSummands es)
  | .atom (.tens t) :: es => do return .atom (.tens t) :: (← sSummands es)
  | _ :: es => sSummands es

/-- `S_maps` (spin.cpp:860-927). -/
def sMaps : Expr K (Atm ι) → Res (Expr K (Atm ι))
  | .const c => .ok (.const c)
  | .atom a => .ok (.atom a)
  | .prod c l =>
    if hasTensor .S (.prod c l : Expr K (Atm ι)) then do return mkSum [← sProduct c l] else .ok (.prod c l)
  | .sum ci l =>
    if hasTensor .S (.sum ci l : Expr K (Atm ι)) then do return mkSum (← sSummands l) else .ok (.sum ci l)

/-! ## Transpositions -/

/-- Consecutive pairs; a left-over element fails the assertions of lines 755 and 762. -/
def pairUp : List ι → Option (List (ι × ι))
  | [] => some []
  | [_] => none
  | a :: b :: l => (pairUp l).map fun ps => (a, b) :: (b, a) :: ps

/-- `P_maps` (spin.cpp:748-770). -/
def pMap (P : Tn ι) : Res (List (ι × ι)) :=
  if P.bra.length % 2 ≠ 0 ∨ P.ket.length % 2 ≠ 0 then .error .assertion
  else match pairUp (P.bra ++ P.ket) with
    | none => .error .assertion
    | some ps =>
      if (build ps).length = P.bra.length + P.ket.length then .ok (build ps) else .error .assertion

/-- The loop of lines 778-791: `none` = a `P` of rank 1,1 was met, else the list of maps. -/
def pScan : List (Expr K (Atm ι)) → Res (Option (List (List (ι × ι))))
  | [] => .ok (some [])
  | .atom (.tens t) :: l =>
    if t.lab = .P ∧ (1 < t.bra.length ∨ 1 < t.ket.length) then do
      let m ← pMap t
      return (← pScan l).map (m :: ·)
    else if t.lab = .P ∧ t.bra.length = 1 ∧ t.ket.length = 1 then .ok none
    else pScan l
  | _ :: l => pScan l

/-- `expand_P_op` of a product (spin.cpp:772-817). -/
def expandPProd (c : K) (l : List (Expr K (Atm ι))) : Res (Expr K (Atm ι)) := do
  match ← pScan l with
  | none => return .prod (removeP .P c l).1 (removeP .P c l).2
  | some [] => return .prod c l
  | some maps =>
    if (removeP .P c l).2.all plain then
      return mkSum (maps.map fun m => mkProd .Recursively c ((removeP .P c l).2.map (transformF m)))
    else .error .thrown

mutual
/-- `expand_P_op` (spin.cpp:819-833). -/
def expandP : Expr K (Atm ι) → Res (Expr K (Atm ι))
  | .const c => .ok (.const c)
  | .atom (.oper _) => .error .thrown
  | .atom a => .ok (.atom a)
  | .prod c l => expandPProd c l
  | .sum _ l => do return mkSum (← expandPL l)
def expandPL : List (Expr K (Atm ι)) → Res (List (Expr K (Atm ι)))
  | [] => .ok []
  | e :: l => do return (← expandP e) :: (← expandPL l)
end

end ops

/-! ## Antisymmetric tensors -/

section antisymm
variable [SpinIx ι]

/-- `ms_conserving_columns` (spin.cpp:366-378). -/
def msConserving (t : Tn ι) : Bool := (t.bra.zip t.ket).all fun p => decide (SpinIx.spin p.1 = SpinIx.spin p.2)

/-- `ms_uniform_tensor` (spin.cpp:380-396). -/
def msUniform (t : Tn ι) : Bool :=
  match t.bra ++ t.ket with
  | [] => true
  | i :: l => l.all fun j => decide (SpinIx.spin j = SpinIx.spin i)

/-- `can_expand` (spin.cpp:398-426). -/
def canExpand (t : Tn ι) : Res Bool :=
  if t.bra.length ≠ t.ket.length then .error .assertion
  else if (t.bra ++ t.ket).any (fun i => decide (SpinIx.spin i = .any)) then .error .assertion
  else .ok (decide (t.bra.countP (fun i => decide (SpinIx.spin i = .alpha)) =
    t.ket.countP (fun i => decide (SpinIx.spin i = .alpha))))

variable [Field K] [DecidableEq K]

/-- `expand_antisymm` of a tensor (spin.cpp:428-482). -/
def expandAntisymmT (skip : Bool) (t : Tn ι) : Res (Expr K (Atm ι)) :=
  if t.bra.length ≠ t.ket.length then .error .assertion
  else if t.bra.length ≤ 1 then .ok (.atom (.tens { t with sym := .nonsymm }))
  else if skip && msUniform t then .ok (.atom (.tens t))
  else if t.sym = .antisymm then
    let ks := setOf t.ket
    .ok (mkSum (((arrangements (setOf t.bra)).map fun b => ({ t with bra := b, ket := ks, sym := .nonsymm } : Tn ι)).filterMap fun u =>
      if msConserving u then
        let st := pAppend clone .Recursively ((1 * (phase2 u.bra u.ket : K) : K), []) (.atom (.tens u) : Expr K (Atm ι))
        some (.prod (st.1 * (phase2 t.bra t.ket : K)) st.2)
      else none))
  else .ok (.atom (.tens t))

/-- The factors in `expand_product` (spin.cpp:491-505). -/
def expandAntisymmF (skip : Bool) : List (Expr K (Atm ι)) → Res (List (Expr K (Atm ι)))
  | [] => .ok []
  | .atom (.tens t) :: l => do return (← expandAntisymmT skip t) :: (← expandAntisymmF skip l)
  | .atom (.var n) :: l => do return .atom (.var n) :: (← expandAntisymmF skip l)
  | .const c :: l => do return .const c :: (← expandAntisymmF skip l)
  | _ :: _ => .error .thrown

mutual
/-- `expand_antisymm` (spin.cpp:484-523). -/
def expandAntisymm (fuel : Nat) (skip : Bool) : Expr K (Atm ι) → Res (Expr K (Atm ι))
  | .const c => .ok (.const c)
  | .atom (.var n) => .ok (.atom (.var n))
  | .atom (.tens t) => expandAntisymmT skip t
  | .atom (.oper _) => .error .thrown
  | .prod c l => do ofOption (rapidSimplify fuel (mkProd .No c (← expandAntisymmF skip l)))
  | .sum _ l => do return mkSum (← expandAntisymmL fuel skip l)
def expandAntisymmL (fuel : Nat) (skip : Bool) : List (Expr K (Atm ι)) → Res (List (Expr K (Atm ι)))
  | [] => .ok []
  | e :: l => do return (← expandAntisymm fuel skip e) :: (← expandAntisymmL fuel skip l)
end

end antisymm

end SeQuant.Spins
