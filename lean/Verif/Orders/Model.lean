import Mathlib.Order.Defs.LinearOrder
import Mathlib.Data.List.Lex

/-!
# Orders of tensors and operators (C123)

Transcribes `Tensor::static_less_than` (`SeQuant/core/expressions/tensor.hpp`:855-893), `NormalOperator::static_less_than` (`core/op.hpp`:750-797), `operator<` of
abstract tensors (tensor.hpp:769-776, op.hpp:927-934), `Operator::static_less_than` of many-body operators (`domain/mbpt/op.ipp`:86-120) with the order of quantum
numbers (`domain/mbpt/op.hpp`:283-289), `operator<=>` and `operator==` of index spaces (`core/space.hpp`:586-608), `TensorBlockCompare`
(`core/tensor_network/utils.hpp`:39-77), `TensorBlockLessThanComparator` and `IndexSpecificTensorBlockLessThanComparator` (`core/utility/tensor.hpp`:22-60, 87-133).

Simplifications: labels, indices and attributes of spaces are elements of linear orders; hash functions are parameters; the comparison of addresses (an object is not
less than itself) is left out; a normal-ordered operator is the lists of the indices of its creators and annihilators (all with the same action).
-/

namespace SeQuant.Orders

/-- `std::lexicographical_compare`. -/
def lexLt {α : Type} [LinearOrder α] : List α → List α → Bool
  | [], [] => false
  | [], _ :: _ => true
  | _ :: _, [] => false
  | a :: l, b :: m => if a < b then true else if b < a then false else lexLt l m

/-- What the order of tensors looks at. -/
structure Ten (L I : Type) where
  label : L
  bra : List I
  ket : List I
  aux : List I
deriving DecidableEq

section tensors

variable {L I : Type} [LinearOrder L] [LinearOrder I]

/-- `Tensor::static_less_than` (tensor.hpp:855-893). -/
def tensorLess (hash : List I → Nat) (a b : Ten L I) : Bool :=
  if a.label ≠ b.label then decide (a.label < b.label)
  else if a.bra.length ≠ b.bra.length then decide (a.bra.length < b.bra.length)
  else if a.ket.length ≠ b.ket.length then decide (a.ket.length < b.ket.length)
  else if a.aux.length ≠ b.aux.length then decide (a.aux.length < b.aux.length)
  else if hash a.bra ≠ hash b.bra then lexLt a.bra b.bra
  else if a.ket ≠ b.ket then lexLt a.ket b.ket
  else lexLt a.aux b.aux

/-- A normal-ordered operator. -/
structure Nop (I : Type) where
  cre : List I
  ann : List I
deriving DecidableEq

/-- `NormalOperator::static_less_than` (op.hpp:750-797). -/
def nopLess (hash : List I → Nat) (a b : Nop I) : Bool :=
  if a.cre.length = b.cre.length then
    if a.ann.length = b.ann.length then
      if hash a.cre = hash b.cre then
        if hash a.ann = hash b.ann then false else lexLt a.ann b.ann
      else lexLt a.cre b.cre
    else decide (a.ann.length < b.ann.length)
  else decide (a.cre.length < b.cre.length)

/-- `operator<` of abstract tensors (tensor.hpp:769-776, op.hpp:927-934). -/
def abstractLess (hash : List I → Nat) : Ten L I ⊕ Nop I → Ten L I ⊕ Nop I → Bool
  | .inl a, .inl b => tensorLess hash a b
  | .inr a, .inr b => nopLess hash a b
  | _, _ => false

end tensors

/-! ## Many-body operators -/

section operators

variable {L : Type} [LinearOrder L]

/-- The order of quantum numbers (mbpt/op.hpp:283-289): lower and upper ends. -/
def qnsLess : List (Int × Int) → List (Int × Int) → Bool
  | [], [] => false
  | [], _ :: _ => true
  | _ :: _, [] => false
  | a :: l, b :: m =>
    let less := fun x y : Int × Int => if x.1 ≠ y.1 then decide (x.1 < y.1) else decide (x.2 < y.2)
    if less a b then true else if less b a then false else qnsLess l m

/-- `Operator::static_less_than` (mbpt/op.ipp:86-120); an operator is its label and the quantum numbers of its action on the vacuum. -/
def operatorLess (cardinal : List L) (a b : L × List (Int × Int)) : Bool :=
  if a.1 = b.1 then qnsLess a.2 b.2
  else
    let ia := cardinal.idxOf a.1
    let ib := cardinal.idxOf b.1
    if ia < cardinal.length ∧ ib < cardinal.length then
      if ia ≠ ib then decide (ia < ib) else qnsLess a.2 b.2
    else if ia < cardinal.length ∧ ¬ ib < cardinal.length then true
    else if ¬ ia < cardinal.length ∧ ib < cardinal.length then false
    else if a.1 = b.1 then qnsLess a.2 b.2
    else decide (a.1 < b.1)

end operators

/-! ## Blocks of tensors -/

/-- Index spaces: the attribute, whether it is the reserved one, the base key. -/
structure Spaces (S : Type) where
  attr : S → Nat
  key : S → Nat
  reserved : Nat

section blocks

variable {S : Type}

/-- `s != t` (space.hpp:604-608). -/
def Spaces.ne (P : Spaces S) (s t : S) : Bool := !(P.attr s == P.attr t && P.key s == P.key t)

/-- `s < t` (space.hpp:586-598). -/
def Spaces.less (P : Spaces S) (s t : S) : Bool :=
  if P.attr s ≠ P.attr t then decide (P.attr s < P.attr t)
  else if P.attr s = P.reserved ∧ P.key s ≠ P.key t then decide (P.key s < P.key t)
  else false

/-- The loops over spaces (utility/tensor.hpp:47-59, tensor_network/utils.hpp:62-68): the result, or `none` if no pair differs. -/
def spacesLoop (P : Spaces S) : List S → List S → Option Bool
  | s :: l, t :: m => if P.ne s t then some (P.less s t) else spacesLoop P l m
  | _, _ => none

variable {L I : Type} [LinearOrder L]

/-- `TensorBlockCompare` (tensor_network/utils.hpp:39-77). -/
def blockCompare (P : Spaces S) (space : I → S) (a b : Ten L I) : Bool :=
  if a.label ≠ b.label then decide (a.label < b.label)
  else if a.bra.length ≠ b.bra.length then decide (a.bra.length < b.bra.length)
  else if a.ket.length ≠ b.ket.length then decide (a.ket.length < b.ket.length)
  else if a.aux.length ≠ b.aux.length then decide (a.aux.length < b.aux.length)
  else match spacesLoop P (a.bra.map space) (b.bra.map space) with
    | some r => r
    | none => match spacesLoop P (a.ket.map space) (b.ket.map space) with
      | some r => r
      | none => match spacesLoop P (a.aux.map space) (b.aux.map space) with
        | some r => r
        | none => false

/-- Tensors with empty slots: the label and the slots of all three groups. -/
structure Slotted (L I : Type) where
  label : L
  bra : List (Option I)
  ket : List (Option I)
  aux : List (Option I)
deriving DecidableEq

def Slotted.slots (a : Slotted L I) : List (Option I) := a.bra ++ a.ket ++ a.aux

/-- `indices()`: those of the slots that are not empty. -/
def Slotted.indices (a : Slotted L I) : List I := a.slots.filterMap id

/-- `TensorBlockLessThanComparator` (utility/tensor.hpp:22-60, 81-82). -/
def blockLess (P : Spaces S) (space : I → S) (a b : Slotted L I) : Bool :=
  if a.label ≠ b.label then decide (a.label < b.label)
  else if a.slots.length ≠ b.slots.length then decide (a.slots.length < b.slots.length)
  else if a.indices.length ≠ b.indices.length then decide (a.indices.length < b.indices.length)
  else (spacesLoop P (a.indices.map space) (b.indices.map space)).getD false

/-- `TensorBlockEqualComparator` (utility/tensor.hpp:22-60, 78-79). -/
def blockEqual (P : Spaces S) (space : I → S) (a b : Slotted L I) : Bool :=
  if a.label ≠ b.label then false
  else if a.slots.length ≠ b.slots.length then false
  else if a.indices.length ≠ b.indices.length then false
  else match spacesLoop P (a.indices.map space) (b.indices.map space) with
    | some _ => false
    | none => true

variable [DecidableEq I]

/-- The loop over the positions of the indices (114-130). -/
def posLoop (ext : List I) : List I → List I → Bool
  | i :: l, j :: m =>
    if i ≠ j then
      if ext.idxOf i ≠ ext.idxOf j then decide (ext.idxOf i < ext.idxOf j) else posLoop ext l m
    else posLoop ext l m
  | _, _ => false

/-- `IndexSpecificTensorBlockLessThanComparator` (utility/tensor.hpp:99-133, 158-159). -/
def indexSpecificLess (P : Spaces S) (space : I → S) (ext : List I) (a b : Slotted L I) : Bool :=
  if !blockEqual P space a b then blockLess P space a b
  else posLoop ext a.indices b.indices

end blocks

end SeQuant.Orders
