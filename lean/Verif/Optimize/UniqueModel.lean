import Mathlib.Data.List.Basic

/-!
# Non-repeated indices of expressions (C33)

Transcribes `SeQuant/core/utility/indices.hpp` 59-82, 92-107 and 142-264.

Simplifications: the set `encounteredIndices` is a list; expressions are reduced to what these functions look at (`UExpr`).
-/

namespace SeQuant.Optimize

variable {ι : Type} [DecidableEq ι]

/-- `IndexGroups` (70-82). -/
structure Groups (ι : Type) where
  bra : List ι
  ket : List ι
  aux : List ι
deriving DecidableEq

inductive Slot
  | bra
  | ket
  | aux
deriving DecidableEq

/-- `groups.<slot>.push_back(i)`. -/
def Groups.push (g : Groups ι) : Slot → ι → Groups ι
  | .bra, i => { g with bra := g.bra ++ [i] }
  | .ket, i => { g with ket := g.ket ++ [i] }
  | .aux, i => { g with aux := g.aux ++ [i] }

/-- `detail::remove_one` (59-66) on one group. -/
def Groups.removeOne (g : Groups ι) : Slot → ι → Groups ι
  | .bra, i => { g with bra := g.bra.erase i }
  | .ket, i => { g with ket := g.ket.erase i }
  | .aux, i => { g with aux := g.aux.erase i }

/-- The body of one of the loops: the slot being read and the groups from which a repeated index is removed. -/
def uniqStep (slot : Slot) (from_ : List Slot) (st : List ι × Groups ι) (i : ι) : List ι × Groups ι :=
  if i ∈ st.1 then (st.1, from_.foldl (fun g s => g.removeOne s i) st.2) else (i :: st.1, st.2.push slot i)

/-- `get_unique_indices(Tensor)` (143-183). -/
def uniqTensor (bra ket aux : List ι) : Groups ι :=
  let st := bra.foldl (uniqStep .bra [.bra]) ([], ⟨[], [], []⟩)
  let st := ket.foldl (uniqStep .ket [.bra, .ket]) st
  let st := aux.foldl (uniqStep .aux [.bra, .ket, .aux]) st
  st.2

/-- One factor (205-238). -/
def uniqFactor (st : List ι × Groups ι) (g : Groups ι) : List ι × Groups ι :=
  let st := g.bra.foldl (uniqStep .bra [.bra, .ket, .aux]) st
  let st := g.ket.foldl (uniqStep .ket [.bra, .ket, .aux]) st
  g.aux.foldl (uniqStep .aux [.bra, .ket, .aux]) st

/-- `get_unique_indices(Product)` (200-242) given the groups of the factors. -/
def uniqProduct (gs : List (Groups ι)) : Groups ι := (gs.foldl uniqFactor ([], ⟨[], [], []⟩)).2

/-- Expressions as seen by `get_unique_indices(Expr)` (246-264); `scalar`: constants, variables and powers (92-107). -/
inductive UExpr (ι : Type)
  | scalar
  | tensor (bra ket aux : List ι)
  | prod (l : List (UExpr ι))
  | sum (l : List (UExpr ι))
  | other

mutual
/-- `get_unique_indices` (246-268); `none`: an exception. -/
def uniqExpr : UExpr ι → Option (Groups ι)
  | .scalar => some ⟨[], [], []⟩
  | .tensor b k a => some (uniqTensor b k a)
  | .prod l => (uniqExprs l).map uniqProduct
  | .sum l => uniqFirst l
  | .other => none
def uniqExprs : List (UExpr ι) → Option (List (Groups ι))
  | [] => some []
  | e :: l => match uniqExpr e, uniqExprs l with
    | some g, some gs => some (g :: gs)
    | _, _ => none
/-- `get_unique_indices(Sum)` (190-197). -/
def uniqFirst : List (UExpr ι) → Option (Groups ι)
  | [] => some ⟨[], [], []⟩
  | e :: _ => uniqExpr e
end

end SeQuant.Optimize
