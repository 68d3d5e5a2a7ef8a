import Verif.Sort.Model

/-!
# Model of the tensor canonicalizers and of the slots of tensors

`DefaultTensorCanonicalizer::apply` (core/tensor_canonicalizer.hpp:174-242), `TensorBlockCanonicalizer::apply`
(core/tensor_canonicalizer.cpp:277-319) and `Tensor::canonicalize_slots` (core/expressions/tensor.hpp:199-255).

A slot is an index or empty (`Index::null`).  Labels and auxiliary indices are not touched by this code and left out; tags enter only through
the comparators, which are parameters.  The swap counter counts the exchanges made by `bubble_sort` (see `Sort.Model`).
-/

namespace SeQuant.Tensors

open SeQuant.Sort

/-- `Symmetry` (core/attr.hpp). -/
inductive Sym where
  | nonsymm
  | symm
  | antisymm
  deriving DecidableEq, Repr

/-- What matters of a `Tensor` here: `braket` is `_braket_symmetry() == BraKetSymmetry::Symm`, `col` is
`_column_symmetry() == ColumnSymmetry::Symm`. -/
structure Tens (ι : Type) where
  sym : Sym
  braket : Bool
  col : Bool
  bra : List (Option ι)
  ket : List (Option ι)
  deriving DecidableEq, Repr

variable {ι : Type}

/-! ## Slots -/

/-- The pairs of nonempty slots, in order (tensor.hpp:215-228). -/
def pairs : List (Option ι) → List (Option ι) → List (ι × ι)
  | some b :: bs, some k :: ks => (b, k) :: pairs bs ks
  | _ :: bs, _ :: ks => pairs bs ks
  | _, _ => []

/-- What is left in the first range after the pairs have been moved out, which leaves null indices. -/
def leftover : List (Option ι) → List (Option ι) → List (Option ι)
  | some _ :: bs, some _ :: ks => none :: leftover bs ks
  | b :: bs, _ :: ks => b :: leftover bs ks
  | b :: bs, [] => b :: bs
  | [], _ => []

/-- The rearranged slots (tensor.hpp:209-252). -/
def arrangeSlots (bra ket : List (Option ι)) : List (Option ι) × List (Option ι) :=
  let ps := pairs bra ket
  let bo := (leftover bra ket).filterMap id
  let ko := (leftover ket bra).filterMap id
  (ps.map (fun p => some p.1) ++ bo.map some, ps.map (fun p => some p.2) ++ bo.map (fun _ => none) ++ ko.map some)

/-- `canonicalize_slots` (tensor.hpp:199-255). -/
def canonicalizeSlots (t : Tens ι) : Tens ι :=
  if t.sym = .nonsymm ∧ t.col = true then
    if t.bra.any Option.isNone || t.ket.any Option.isNone then
      { t with bra := (arrangeSlots t.bra t.ket).1, ket := (arrangeSlots t.bra t.ket).2 }
    else t
  else t

/-- `_swap_bra_ket` (tensor.hpp:964-972). -/
def swapBraKet (t : Tens ι) : Tens ι := canonicalizeSlots { t with bra := t.ket, ket := t.bra }

/-! ## The default canonicalizer -/

/-- `DefaultTensorCanonicalizer::apply(t, idxcmp, paircmp)` (tensor_canonicalizer.hpp:178-237): the phase (`none`: null pointer) and the
tensor; outer `none`: some sort has not finished within `fuel` rounds. -/
def canonCore (fuel : Nat) (idxcmp : Option ι → Option ι → Bool) (paircmp : Option ι × Option ι → Option ι × Option ι → Bool)
    (t : Tens ι) : Option (Option Int × Tens ι) :=
  if t.col = false then some (none, t)
  else if t.bra.length = 1 ∧ t.ket.length = 1 then some (none, t)
  else
    match t.sym with
    | .nonsymm =>
      let rank := min t.bra.length t.ket.length
      match bubbleSort paircmp fuel ((t.bra.take rank).zip (t.ket.take rank)) with
      | none => none
      | some (z, _) =>
        if rank < t.bra.length then
          match bubbleSort idxcmp fuel (t.bra.drop rank) with
          | none => none
          | some (r, _) => some (none, { t with bra := z.map (·.1) ++ r, ket := z.map (·.2) ++ t.ket.drop rank })
        else if rank < t.ket.length then
          match bubbleSort idxcmp fuel (t.ket.drop rank) with
          | none => none
          | some (r, _) => some (none, { t with bra := z.map (·.1) ++ t.bra.drop rank, ket := z.map (·.2) ++ r })
        else some (none, { t with bra := z.map (·.1) ++ t.bra.drop rank, ket := z.map (·.2) ++ t.ket.drop rank })
    | s =>
      match bubbleSort idxcmp fuel t.bra, bubbleSort idxcmp fuel t.ket with
      | some (b, n), some (k, m) =>
        let even := if s = .antisymm then counterIsEven (n + m) else true
        some (if s = .antisymm then (if even = false then some (-1) else none) else none, { t with bra := b, ket := k })
      | _, _ => none

/-! ## The block canonicalizer -/

/-- `ranges::lexicographical_compare`. -/
def lexLess (lt : Option ι → Option ι → Bool) : List (Option ι) → List (Option ι) → Bool
  | _, [] => false
  | [], _ :: _ => true
  | a :: l, b :: m => if lt a b then true else if lt b a then false else lexLess lt l m

/-- Sorting by color (the order of indices of the same color does not matter for `lexLess`). -/
def sortBy (lt : Option ι → Option ι → Bool) (l : List (Option ι)) : List (Option ι) := l.mergeSort (fun a b => !lt b a)

/-- The choice of the orientation (tensor_canonicalizer.cpp:289-313). -/
def orient (lt : Option ι → Option ι → Bool) (t : Tens ι) : Tens ι :=
  if t.braket = true then
    if lexLess lt (sortBy lt t.bra) (sortBy lt t.ket) = true then swapBraKet t else t
  else t

/-- `TensorBlockCanonicalizer::apply` (tensor_canonicalizer.cpp:277-319). -/
def canonBlock (fuel : Nat) (spaceLess : Option ι → Option ι → Bool) (idxcmp : Option ι → Option ι → Bool)
    (paircmp : Option ι × Option ι → Option ι × Option ι → Bool) (t : Tens ι) : Option (Option Int × Tens ι) :=
  canonCore fuel idxcmp paircmp (orient spaceLess t)

end SeQuant.Tensors
