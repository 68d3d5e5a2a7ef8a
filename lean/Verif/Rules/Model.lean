import Mathlib.Algebra.Ring.Defs

/-!
# Model of the rules that factorize tensors

`density_fit` (`SeQuant/domain/mbpt/rules/df.cpp`), `tensor_hypercontract` (`rules/thc.cpp`) and `csv_transform` (`rules/csv.cpp`).

Simplifications: tensors have no empty slots (so `bra_net_rank` is `bra_rank`); of the symmetries of a tensor only whether it is antisymmetric is kept;
`Sum::append` does not merge constants (this is modelled in `Expression`).  `none` stands for a failed assertion.
-/

namespace SeQuant.Rules

/-- `Tensor`; `anti`: `symmetry() == Antisymm`. -/
structure Ten (L ι : Type) where
  label : L
  bra : List ι
  ket : List ι
  aux : List ι
  anti : Bool
deriving DecidableEq

inductive Ex (K L ι : Type) where
  | const (c : K)
  | var (v : L)
  | ten (t : Ten L ι)
  | sum (l : List (Ex K L ι))
  | prod (c : K) (l : List (Ex K L ι))

variable {K L ι : Type} [CommRing K] [DecidableEq K] [DecidableEq L]

mutual
/-- `Product::append(1, factor, flat ? Yes : No)` (product.hpp:152-179). -/
def pAppend (flat : Bool) (st : K × List (Ex K L ι)) : Ex K L ι → K × List (Ex K L ι)
  | .const k => (st.1 * k, st.2)
  | .prod k l => if flat then pAppendAll flat (st.1 * k, st.2) l else (st.1, st.2 ++ [.prod k l])
  | .var v => (st.1, st.2 ++ [.var v])
  | .ten t => (st.1, st.2 ++ [.ten t])
  | .sum l => (st.1, st.2 ++ [.sum l])
def pAppendAll (flat : Bool) (st : K × List (Ex K L ι)) : List (Ex K L ι) → K × List (Ex K L ι)
  | [] => st
  | e :: l => pAppendAll flat (pAppend flat st e) l
end

mutual
/-- `Sum::append` (sum.hpp:127-151). -/
def sAppend (st : List (Ex K L ι)) : Ex K L ι → List (Ex K L ι)
  | .sum l => sAppendAll st l
  | .const c => if c = 0 then st else st ++ [.const c]
  | .prod c l => if c = 0 then st else st ++ [.prod c l]
  | .var v => st ++ [.var v]
  | .ten t => st ++ [.ten t]
def sAppendAll (st : List (Ex K L ι)) : List (Ex K L ι) → List (Ex K L ι)
  | [] => st
  | e :: l => sAppendAll (sAppend st e) l
end

/-! ### Density fitting -/

/-- Label of the tensors to replace and of the factors; `Index(aux_space, n)`. -/
structure DfCfg (L ι : Type) where
  tensor : L
  factor : L
  aux : Nat → ι

/-- `density_fit_impl` (df.cpp:18-52). -/
def dfImpl (C : DfCfg L ι) (t : Ten L ι) (x : ι) : Option (Ex K L ι) :=
  match t.bra, t.ket, t.aux with
  | [p, q], [r, s], [] =>
    let f (a b : ι) : Ex K L ι := .ten ⟨C.factor, [a], [b], [x], false⟩
    if t.anti then some (.sum [.prod 1 [f p r, f q s], .prod (-1) [f q r, f p s]]) else some (.prod 1 [f p r, f q s])
  | _, _, _ => none

/-- `process_tensor` (59-68): `some none` is a null pointer. -/
def dfTensor (C : DfCfg L ι) (t : Ten L ι) (n : Nat) : Option (Option (Ex K L ι)) :=
  if t.label = C.tensor ∧ t.bra.length = 2 ∧ t.ket.length = 2 ∧ t.aux.length = 0 then (dfImpl C t (C.aux n)).map some else some none

/-- The loop over the factors (84-95); state: `aux_ix`, `result`. -/
def dfFactors (C : DfCfg L ι) : Nat → K × List (Ex K L ι) → List (Ex K L ι) → Option (K × List (Ex K L ι))
  | _, st, [] => some st
  | n, st, .ten t :: l => do
    match ← dfTensor C t (n + 1) with
    | some e => dfFactors C (n + 1) (pAppend true st e) l
    | none => dfFactors C (n + 1) (pAppend false st (.ten t)) l
  | n, st, f :: l => dfFactors C n (pAppend false st f) l

mutual
/-- `density_fit` (54-99). -/
def df (C : DfCfg L ι) : Ex K L ι → Option (Ex K L ι)
  | .sum l => (dfSum C [] l).map .sum
  | .ten t => (dfTensor C t 1).map fun r => r.getD (.ten t)
  | .prod c l => (dfFactors C 0 (1 * c, []) l).map fun st => .prod st.1 st.2
  | .const c => some (.const c)
  | .var v => some (.var v)
def dfSum (C : DfCfg L ι) (st : List (Ex K L ι)) : List (Ex K L ι) → Option (List (Ex K L ι))
  | [] => some st
  | e :: l => do dfSum C (sAppend st (← df C e)) l
end

/-! ### Tensor hypercontraction -/

structure ThcCfg (L ι : Type) where
  tensor : L
  factor : L
  core : L
  aux : Nat → ι

/-- `tensor_hypercontract_impl` (thc.cpp:18-46). -/
def thcImpl (C : ThcCfg L ι) (t : Ten L ι) (x y : ι) : Option (Ex K L ι) :=
  match t.bra, t.ket, t.aux with
  | [p, q], [r, s], [] =>
    let b (a x : ι) : Ex K L ι := .ten ⟨C.factor, [a], [], [x], false⟩
    let k (a x : ι) : Ex K L ι := .ten ⟨C.factor, [], [a], [x], false⟩
    let z : Ex K L ι := .ten ⟨C.core, [], [], [x, y], false⟩
    if t.anti then some (.sum [.prod 1 [b p x, k r x, z, b q y, k s y], .prod (-1) [b q x, k r x, z, b p y, k s y]])
    else some (.prod 1 [b p x, k r x, z, b q y, k s y])
  | _, _, _ => none

/-- The loop over the factors (75-87). -/
def thcFactors (C : ThcCfg L ι) : Nat → K × List (Ex K L ι) → List (Ex K L ι) → Option (K × List (Ex K L ι))
  | _, st, [] => some st
  | n, st, .ten t :: l =>
    if t.label = C.tensor then do thcFactors C (n + 2) (pAppend true st (← thcImpl C t (C.aux (n + 1)) (C.aux (n + 2)))) l
    else thcFactors C n (pAppend false st (.ten t)) l
  | n, st, f :: l => thcFactors C n (pAppend false st f) l

mutual
/-- `tensor_hypercontract` (48-92). -/
def thc (C : ThcCfg L ι) : Ex K L ι → Option (Ex K L ι)
  | .sum l => (thcSum C [] l).map .sum
  | .ten t => if t.label = C.tensor ∧ t.bra.length = 2 ∧ t.ket.length = 2 then thcImpl C t (C.aux 1) (C.aux 2) else some (.ten t)
  | .prod c l => (thcFactors C 0 (1 * c, []) l).map fun st => .prod st.1 st.2
  | .const c => some (.const c)
  | .var v => some (.var v)
def thcSum (C : ThcCfg L ι) (st : List (Ex K L ι)) : List (Ex K L ι) → Option (List (Ex K L ι))
  | [] => some st
  | e :: l => do thcSum C (sAppend st (← thc C e)) l
end

/-! ### Transformation to cluster-specific virtuals -/

/-- `orth`: the basis is neither AO nor PAO (csv.cpp:38-42); `hasProto`, `drop`, `ordLt`: `Index::has_proto_indices`, `drop_proto_indices`,
`ordinal_compare`; `tmp n`: the `n`-th `Index::make_tmp_index(csv_basis)`. -/
structure CsvCfg (L ι : Type) where
  coeff : L
  overlap : L
  labels : List L
  orth : Bool
  hasProto : ι → Bool
  drop : ι → ι
  ordLt : ι → ι → Bool
  tmp : Nat → ι

/-- One of the loops over slots (78-98): the transformed slots, the coefficients, the next temporary index. -/
def csvSlots (C : CsvCfg L ι) (coeff : ι → ι → Ex K L ι) : Nat → List ι → List ι × List (Ex K L ι) × Nat
  | n, [] => ([], [], n)
  | n, i :: l =>
    if C.hasProto i then
      let r := csvSlots C coeff (n + 1) l
      (C.tmp n :: r.1, coeff i (C.tmp n) :: r.2.1, r.2.2)
    else
      let r := csvSlots C coeff n l
      (i :: r.1, r.2.1, r.2.2)

def coeffBra (C : CsvCfg L ι) (i x : ι) : Ex K L ι := .ten ⟨C.coeff, [i], [x], [], false⟩
def coeffKet (C : CsvCfg L ι) (i x : ι) : Ex K L ι := .ten ⟨C.coeff, [x], [i], [], false⟩

/-- `csv_transform_impl` (23-106); `some (none, n)` is a null pointer. -/
def csvImpl (C : CsvCfg L ι) (n : Nat) (t : Ten L ι) : Option (Option (Ex K L ι) × Nat) :=
  if !(t.bra ++ t.ket).any C.hasProto then some (none, n)
  else if t.aux.any C.hasProto then none
  else if C.orth ∧ t.label = C.overlap then
    match t.bra, t.ket, t.aux with
    | [a], [b], [] =>
      if C.hasProto a ∧ C.hasProto b then
        let d := if C.ordLt a b then C.drop a else C.drop b
        some (some (.prod 1 [.ten ⟨C.coeff, [a], [d], [], false⟩, .ten ⟨C.coeff, [d], [b], [], false⟩]), n)
      else some (some (.prod 1 [.ten ⟨C.coeff, [a], [b], [], false⟩]), n)
    | _, _, _ => none
  else
    let b := csvSlots C (coeffBra (K := K) C) n t.bra
    let k := csvSlots C (coeffKet (K := K) C) b.2.2 t.ket
    some (some (.prod 1 (.ten { t with bra := b.1, ket := k.1 } :: (b.2.1 ++ k.2.1))), k.2.2)

mutual
/-- `csv_transform` (108-144). -/
def csv (C : CsvCfg L ι) (n : Nat) : Ex K L ι → Option (Option (Ex K L ι) × Nat)
  | .sum l => (csvSum C n [] l).map fun r => (some (.sum r.1), r.2)
  | .ten t =>
    if t.label ∉ C.labels then some (some (.ten t), n)
    else if !(t.bra ++ t.ket ++ t.aux).any C.hasProto then some (some (.ten t), n)
    else csvImpl C n t
  | .prod c l => (csvProd C n (1 * c, []) l).map fun r => (some (.prod r.1.1 r.1.2), r.2)
  | .const c => some (some (.const c), n)
  | .var v => some (some (.var v), n)
/-- `ex<Sum>` of the results (113-118); `Sum::append` asserts that the summand is not null. -/
def csvSum (C : CsvCfg L ι) (n : Nat) (st : List (Ex K L ι)) : List (Ex K L ι) → Option (List (Ex K L ι) × Nat)
  | [] => some (st, n)
  | e :: l => do
    match ← csv C n e with
    | (some e', n') => csvSum C n' (sAppend st e') l
    | (none, _) => none
/-- The loop over the factors (130-138). -/
def csvProd (C : CsvCfg L ι) (n : Nat) (st : K × List (Ex K L ι)) : List (Ex K L ι) → Option ((K × List (Ex K L ι)) × Nat)
  | [] => some (st, n)
  | e :: l => do
    match ← csv C n e with
    | (some e', n') => csvProd C n' (pAppend false st e') l
    | (none, n') => csvProd C n' (pAppend false st e) l
end

end SeQuant.Rules
