import Mathlib.Data.List.Sort

/-!
# Reordering of indices for a memory layout

`ReorderingContext::rewrite` (core/export/reordering_context.cpp:96-227) and its helpers.

Simplifications:
* spaces are numbers with a size (`approximate_size`); the default constructed space is `none`, of size 0 (space.hpp:550);
* an index is a space and a number (its label or, in an element of an array, its value); no slot is empty;
* `std::sort` and `ranges::sort` are not stable: they are any functions that sort (`Sorters`); `stable_sort` is `insertionSort`;
* a tensor is its indices and its symmetries.
-/

namespace SeQuant.Layout

/-- `MemoryLayout` (core/memory_layout.hpp). -/
inductive MemLayout
  | rowMajor
  | columnMajor
  | unspecified
deriving DecidableEq, Repr

/-- `Symmetry`. -/
inductive Symmetry
  | nonsymm
  | symm
  | antisymm
deriving DecidableEq, Repr

/-- `BraKetSymmetry`. -/
inductive BraKet
  | nonsymm
  | symm
  | conjugate
deriving DecidableEq, Repr

/-- An index. -/
structure Idx where
  /-- `space()` -/
  space : Nat
  /-- label, or value in an element -/
  num : Nat
deriving DecidableEq, Repr

/-- The parts of a tensor that matter here. -/
structure Tens where
  /-- bra -/
  bra : List Idx
  /-- ket -/
  ket : List Idx
  /-- aux -/
  aux : List Idx
  /-- `symmetry()` -/
  symm : Symmetry
  /-- `braket_symmetry()` -/
  braket : BraKet
  /-- `column_symmetry() == ColumnSymmetry::Symm` -/
  column : Bool
deriving DecidableEq, Repr

/-- Sizes of spaces; `none` is the default constructed space. -/
def sizeOf (size : Nat → Nat) : Option Nat → Nat
  | none => 0
  | some s => size s

/-- `max_space_size_idx` (reordering_context.cpp:15-28). -/
def maxSpace (size : Nat → Nat) (l : List Idx) : Option Nat :=
  l.foldl (fun m i => if size i.space > sizeOf size m then some i.space else m) none

/-- `relevant_space` (reordering_context.cpp:30-50). -/
def relevantSpace (layout : MemLayout) (l : List Idx) : Option Nat :=
  match layout with
  | .rowMajor => l.getLast?.map (·.space)
  | .columnMajor => l.head?.map (·.space)
  | .unspecified => none

/-- `is_less` on sizes (reordering_context.cpp:229-243). -/
def lessSize (layout : MemLayout) (m n : Nat) : Bool :=
  match layout with
  | .rowMajor => decide (m < n)
  | .columnMajor => decide (m > n)
  | .unspecified => false

/-- `is_less`, `is_ordered`, `needs_swap` (reordering_context.cpp:229-253). -/
def needsSwap (size : Nat → Nat) (layout : MemLayout) (l r : Option Nat) : Bool :=
  decide (l ≠ r) && !(lessSize layout (sizeOf size l) (sizeOf size r) || decide (sizeOf size l = sizeOf size r))

/-- The comparator of `rewrite` (reordering_context.cpp:104-106). -/
def less (size : Nat → Nat) (layout : MemLayout) (i j : Idx) : Bool := lessSize layout (size i.space) (size j.space)

/-- `PairComparator` (reordering_context.cpp:52-94). -/
def pairLess (cmp : Idx → Idx → Bool) (first : Bool) (l r : Idx × Idx) : Bool :=
  if first then cmp l.1 r.1 || (!cmp r.1 l.1 && cmp l.2 r.2)
  else cmp l.2 r.2 || (!cmp r.2 l.2 && cmp l.1 r.1)

/-- `is_sorted`: no element is less than its predecessor. -/
def isSorted {α : Type} (cmp : α → α → Bool) : List α → Bool
  | a :: b :: l => !cmp b a && isSorted cmp (b :: l)
  | _ => true

/-- `std::sort` and `ranges::sort` for the two kinds of elements. -/
structure Sorters where
  /-- on indices -/
  one : (Idx → Idx → Bool) → List Idx → List Idx
  /-- on pairs -/
  two : (Idx × Idx → Idx × Idx → Bool) → List (Idx × Idx) → List (Idx × Idx)

/-- `std::stable_sort`. -/
def stableSort (cmp : Idx → Idx → Bool) (l : List Idx) : List Idx := l.insertionSort (fun a b => cmp b a = false)

/-- The decisions of `rewrite` (reordering_context.cpp:108-147). -/
structure Plan where
  /-- `bra_over_ket` -/
  braOverKet : Bool
  /-- `sort_bra` -/
  sortBra : Bool
  /-- `sort_ket` -/
  sortKet : Bool
  /-- `sort_particles` -/
  sortParticles : Bool
  /-- `swap_braket` -/
  swap : Bool
  /-- `prioritize_aux` -/
  auxFirst : Bool
deriving DecidableEq, Repr

/-- reordering_context.cpp:108-147 -/
def plan (size : Nat → Nat) (layout : MemLayout) (t : Tens) : Plan :=
  let cmp := less size layout
  let braOverKet := decide (sizeOf size (maxSpace size t.bra) ≥ sizeOf size (maxSpace size t.ket))
  let sortBra := decide (t.symm = .symm) && !isSorted cmp t.bra
  let sortKet := decide (t.symm = .symm) && !isSorted cmp t.ket
  let sortParticles := !sortBra && !sortKet && decide (t.bra ≠ []) && decide (t.bra.length = t.ket.length) && t.column &&
    !isSorted (pairLess cmp braOverKet) (t.bra.zip t.ket)
  let relBra := if sortBra || (sortParticles && braOverKet) then maxSpace size t.bra else relevantSpace layout t.bra
  let relKet := if sortKet || (sortParticles && !braOverKet) then maxSpace size t.ket else relevantSpace layout t.ket
  let swap := decide (t.bra ≠ []) && decide (t.ket ≠ []) && decide (t.braket = .symm) && needsSwap size layout relBra relKet
  let auxFirst := decide (t.aux ≠ []) && needsSwap size layout (if swap then relKet else relBra) (relevantSpace layout t.aux)
  ⟨braOverKet, sortBra, sortKet, sortParticles, swap, auxFirst⟩

/-- Bra and ket after sorting (reordering_context.cpp:199-211). -/
def sortedBraKet (S : Sorters) (cmp : Idx → Idx → Bool) (p : Plan) (bra ket : List Idx) : List Idx × List Idx :=
  let b := if p.sortBra then S.one cmp bra else bra
  let k := if p.sortKet then S.one cmp ket else ket
  if p.sortParticles then
    let z := S.two (pairLess cmp p.braOverKet) (b.zip k)
    (z.map (·.1), z.map (·.2))
  else (b, k)

/-- `rewrite` (reordering_context.cpp:96-227): the indices in their new order, or `none` if the tensor is left as it is.
`enabled` is `m_rewrite`. The new tensor has them all as auxiliary indices and no symmetry. -/
def rewrite (S : Sorters) (size : Nat → Nat) (layout : MemLayout) (enabled : Bool) (t : Tens) : Option (List Idx) :=
  if !enabled then none
  else
    let p := plan size layout t
    if !p.sortBra && !p.sortKet && !p.swap && !p.auxFirst && !p.sortParticles then none
    else
      let cmp := less size layout
      let (b, k) := sortedBraKet S cmp p t.bra t.ket
      let bk := if p.swap then k ++ b else b ++ k
      let a := stableSort cmp t.aux
      some (if p.auxFirst then a ++ bk else bk ++ a)

/-- The tensor afterwards (reordering_context.cpp:222-224). -/
def rewritten (S : Sorters) (size : Nat → Nat) (layout : MemLayout) (enabled : Bool) (t : Tens) : Tens :=
  match rewrite S size layout enabled t with
  | none => t
  | some l => ⟨[], [], l, .nonsymm, .nonsymm, false⟩

/-- All indices of a tensor in the order of its slots, which is the order of the modes of the exported array. -/
def Tens.indices (t : Tens) : List Idx := t.bra ++ t.ket ++ t.aux

end SeQuant.Layout
