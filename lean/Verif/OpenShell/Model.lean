import Verif.Spin.Model
import Mathlib.Data.List.FinRange
import Mathlib.Algebra.Field.Rat

/-!
# Permutation operators of the spin cases of an open-shell residual

`open_shell_P_op_vector` and `merge_tensors`, transcribed from `/repo/SeQuant/domain/mbpt/spin.cpp:1228-1235, 1267-1367`.

Simplified: the positions `idx` are elements of `Fin n` instead of `int`; `expand` of the product of the two sums is the list of all
products of their summands, and each of these is a coefficient and at most one tensor for the bra and one for the ket; the tensor without
indices stands for no tensor.  Coefficients are rational numbers.
-/

namespace SeQuant.OpenShell

open SeQuant.Spins (Tn Lab)
open SeQuant.Tensors (Sym)

/-- The loops of lines 1304-1325 over `a < b`: all pairs of elements, the first before the second. -/
def pairs {α : Type} : List α → List (α × α)
  | [] => []
  | x :: l => l.map (x, ·) ++ pairs l

/-- `alpha_spin` of line 1285. -/
def alphaSpin (n i : Nat) : List (Fin n) := (List.finRange n).take (n - i)

/-- `beta_spin` of line 1286. -/
def betaSpin (n i : Nat) : List (Fin n) := (List.finRange n).drop (n - i)

/-- The positions in the tensors of `P_bra_list` and `P_ket_list`, lines 1288-1326. -/
def pList (n i : Nat) : List (List (Fin n)) :=
  ((alphaSpin n i).flatMap fun j => (betaSpin n i).map fun k => [j, k]) ++
  if 1 < (alphaSpin n i).length ∧ 1 < (betaSpin n i).length then
    (pairs (alphaSpin n i)).flatMap fun x => (pairs (betaSpin n i)).map fun y => [x.1, y.1, x.2, y.2]
  else []

/-- `prefactor` of lines 1334 and 1339. -/
def prefactor {α : Type} (l : List α) : Int := if l.length = 4 then 1 else -1

/-- `bra_permutations` and `ket_permutations`, lines 1328-1341. -/
def permutations (n i : Nat) : List (Int × List (Fin n)) := (1, []) :: (pList n i).map fun l => (prefactor l, l)

/-- One summand of an element of the result: its scalar, and the tensor `P`, if there is one. -/
structure PTerm (ι : Type) where
  coef : Rat
  tensor : Option (Tn ι)
  deriving DecidableEq

/-- A tensor `P` over positions; none for the constant. -/
def pTensor {ι : Type} (bra ket : List ι) : Option (Tn ι) :=
  if bra.isEmpty && ket.isEmpty then none else some ⟨.P, bra, ket, [], .symm⟩

/-- `merge_tensors` (lines 1228-1235), applied if there are two tensors (lines 1348-1363). -/
def mergeTensors {ι : Type} : Option (Tn ι) → Option (Tn ι) → Option (Tn ι)
  | none, t => t
  | t, none => t
  | some s, some t => some ⟨s.lab, s.bra ++ t.bra, s.ket ++ t.ket, s.aux ++ t.aux, s.sym⟩

/-- Lines 1343-1363: the product of the two sums over the product of their sizes. -/
def mixedCase {ι : Type} (n : Nat) (bra ket : Fin n → ι) (i : Nat) : List (PTerm ι) :=
  (permutations n i).flatMap fun b => (permutations n i).map fun k =>
    ⟨(b.1 : Rat) * k.1 / ((permutations n i).length * (permutations n i).length),
      mergeTensors (pTensor (b.2.map bra) []) (pTensor [] (k.2.map ket))⟩

/-- `open_shell_P_op_vector(A)`, element `i`, for an antisymmetrizer of rank `n` with the given indices. -/
def openP {ι : Type} (n : Nat) (bra ket : Fin n → ι) (i : Nat) : List (PTerm ι) :=
  if i = 0 ∨ i = n then [⟨1, none⟩] else mixedCase n bra ket i

end SeQuant.OpenShell
