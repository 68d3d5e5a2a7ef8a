import Verif.Rdm.Loops
import Verif.Expression.Model

/-!
# Model of the reduction of densities: `antisymm::max_similarity`, `antisymm::spin_sum` (domain/mbpt/antisymmetrizer.cpp:307-451) and the
conversion of cumulants to densities (domain/mbpt/rdm.cpp:5-135)

Expressions are those of `Verif.Expression.Model`; their atoms are tensors and normal operators.  Simplifications:
* an index is its label (`α`); `to_latex` and `label` distinguish the same indices;
* tensors keep label, bra and ket only;
* the functions change the expression in place, the model returns the changed expression;
* `antisymmetrize` (the constructor at lines 216-236, its products are C42 and C50) and `simplify` are parameters.
-/

namespace SeQuant.Rdm

open SeQuant.Expression

/-- Tensors and normal operators (`FNOperator`). -/
inductive At (α : Type) where
  | tensor (label : String) (bra ket : List α)
  | op (cre ann : List α)
  deriving DecidableEq

/-- Neither tensors nor normal operators are zero or powers. -/
instance (α : Type) : Atoms Rat (At α) where
  isZero _ := false
  flat _ := none

/-- `Tensor::rank` (expressions/tensor.hpp:664-669), `NormalOperator::rank` (op.hpp:603-608). -/
def At.rank {α : Type} : At α → Except Err Nat
  | .tensor _ bra ket => if bra.length ≠ ket.length then .error .thrown else .ok bra.length
  | .op cre ann => if cre.length ≠ ann.length then .error .thrown else .ok cre.length

/-- The upper indices: the ket of a tensor (lines 333, 421), the creators of an operator (lines 370, 430). -/
def At.upper {α : Type} : At α → List α
  | .tensor _ _ ket => ket
  | .op cre _ => cre

/-- The lower indices: the bra of a tensor (lines 334, 422), the annihilators of an operator (lines 372, 431). -/
def At.lower {α : Type} : At α → List α
  | .tensor _ bra _ => bra
  | .op _ ann => ann

/-- The same tensor or operator with other indices (lines 347-349, 387-388). -/
def At.withIndices {α : Type} (upper lower : List α) : At α → At α
  | .tensor l _ _ => .tensor l lower upper
  | .op _ _ => .op upper lower

/-- `std::map::emplace` does not replace an existing entry. -/
def emplace {α : Type} [DecidableEq α] (m : List (α × α)) (u l : α) : List (α × α) :=
  match m.lookup u with
  | some _ => m
  | none => m ++ [(u, l)]

/-- The loop that fills `original_map` (lines 312-316). -/
def originalMap {α : Type} [DecidableEq α] (upper lower : List α) : Except Err (List (α × α)) :=
  (List.range upper.length).foldlM (fun m i => do .ok (emplace m (← at' upper i) (← at' lower i))) []

/-- Is `l` the partner of `u`?  (Lines 326-332, 338-343, 356-369 and 377-382.)  A missing entry fails the assertion, without assertions
`end()` is dereferenced. -/
def isPair {α : Type} [DecidableEq α] (checks : Bool) (m : List (α × α)) (u l : α) : Except Err Bool :=
  match m.lookup u with
  | some l' => .ok (decide (l' = l))
  | none => if checks then .error .assertion else .error .outOfRange

/-- How many of the two pairs are pairs of the map (lines 325-335 and 337-344). -/
def countPairs {α : Type} [DecidableEq α] (checks : Bool) (m : List (α × α)) (upper lower : List α) : Except Err Nat := do
  let a ← isPair checks m (← at' upper 0) (← at' lower 0)
  let b ← isPair checks m (← at' upper 1) (← at' lower 1)
  .ok (a.toNat + b.toNat)

/-- `std::iter_swap(l.begin(), l.begin() + 1)` (lines 336, 375). -/
def swap2 {α : Type} : List α → List α
  | a :: b :: l => b :: a :: l
  | l => l

/-- The body of the loops of `max_similarity` for a tensor or operator (lines 319-390): the new factor. -/
def similarAtom {α : Type} [DecidableEq α] (checks : Bool) (m : List (α × α)) (t : At α) : Except Err (Expr Rat (At α)) := do
  if (← t.rank) = 2 then
    let og ← countPairs checks m t.upper t.lower
    let new ← countPairs checks m t.upper (swap2 t.lower)
    if og < new then .ok (mulE (.const (-1)) (.atom (t.withIndices t.upper (swap2 t.lower))))
    else .ok (.atom t)
  else .ok (.atom t)

/-- The loop over the factors of one product (lines 318-391); other factors are not touched. -/
def similarFactors {α : Type} [DecidableEq α] (checks : Bool) (m : List (α × α)) : List (Expr Rat (At α)) → Except Err (List (Expr Rat (At α)))
  | [] => .ok []
  | .atom t :: l => do .ok ((← similarAtom checks m t) :: (← similarFactors checks m l))
  | e :: l => do .ok (e :: (← similarFactors checks m l))

/-- `product->as<Product>()` (lines 318, 416): anything else is a failed cast. -/
def asProduct {α : Type} : Expr Rat (At α) → Except Err (Rat × List (Expr Rat (At α)))
  | .prod c l => .ok (c, l)
  | _ => .error .type

/-- The loop over the summands (lines 317-392). -/
def similarTerms {α : Type} [DecidableEq α] (checks : Bool) (m : List (α × α)) : List (Expr Rat (At α)) → Except Err (List (Expr Rat (At α)))
  | [] => .ok []
  | e :: l => do
    let (c, fs) ← asProduct e
    let fs' ← similarFactors checks m fs
    .ok (.prod c fs' :: (← similarTerms checks m l))

/-- `antisymm::max_similarity` (lines 307-395). -/
def maxSimilarity {α : Type} [DecidableEq α] (checks : Bool) (simplify : Expr Rat (At α) → Expr Rat (At α)) (upper lower : List α) :
    Expr Rat (At α) → Except Err (Expr Rat (At α))
  | .sum ci l => do
    let m ← originalMap upper lower
    .ok (simplify (.sum ci (← similarTerms checks m l)))
  | _ => .error .type

/-- One factor in the loop of `spin_sum` (lines 416-435): the indices that are collected and the new factor. -/
def spinFactor {α : Type} : Expr Rat (At α) → Except Err (List α × List α × Expr Rat (At α))
  | .atom (.tensor l bra ket) =>
    if l = "γ" then do
      let _ ← (At.tensor l bra ket).rank
      .ok (ket, bra, .atom (.tensor "Γ" bra ket))
    else .ok ([], [], .atom (.tensor l bra ket))
  | .atom (.op cre ann) => do
    let _ ← (At.op cre ann).rank
    .ok (cre, ann, .atom (.op cre ann))
  | e => .ok ([], [], e)

/-- The loop over the factors (lines 416-435): `new_upper`, `new_lower` and the new factors. -/
def spinFactors {α : Type} : List (Expr Rat (At α)) → Except Err (List α × List α × List (Expr Rat (At α)))
  | [] => .ok ([], [], [])
  | e :: l => do
    let (u, d, e') ← spinFactor e
    let (us, ds, l') ← spinFactors l
    .ok (u ++ us, d ++ ds, e' :: l')

/-- The loop over the summands (lines 409-445); `pow2` fails beyond 63 (math.hpp:16-19), which is out of reach here because the exponent
is bounded by the number of indices; it is not modelled. -/
def spinTerms {α : Type} [DecidableEq α] (checks : Bool) (fuel : Nat) (upper lower : List α) (ret : Expr Rat (At α)) :
    List (Expr Rat (At α)) → Except Err (Expr Rat (At α))
  | [] => .ok ret
  | e :: l => do
    let (c, fs) ← asProduct e
    let (newU, newL, fs') ← spinFactors fs
    let n ← numClosedLoops checks fuel upper lower newU newL
    let prefactor := if n = 0 then (.const (1 / 8) : Expr Rat (At α)) else mulE (.const (2 ^ n)) (.const (1 / 8))
    spinTerms checks fuel upper lower (addE (mulE (.prod c fs') prefactor) ret) l

/-- `antisymm::spin_sum` (lines 397-451) before the last `canonicalize` (line 446).  `similar` is what `max_similarity` leaves in the
expression. -/
def spinSum {α : Type} [DecidableEq α] (checks : Bool) (fuel : Nat) (simplify : Expr Rat (At α) → Expr Rat (At α)) (upper lower : List α)
    (e : Expr Rat (At α)) (singlet : Bool) : Except Err (Expr Rat (At α)) := do
  if singlet then
    match ← maxSimilarity checks simplify upper lower e with
    | .sum _ l => spinTerms checks fuel upper lower (.const 0) l
    | _ => .error .type
  else .error .thrown

/-! ### rdm.cpp -/

/-- The checks at the head of the three conversions (rdm.cpp:20-22, 31-33, 49-51): a cumulant of rank `r`, its bra and ket. -/
def cumulant {α : Type} (r : Nat) : Expr Rat (At α) → Except Err (List α × List α)
  | .atom (.tensor l bra ket) => do
    if (← (At.tensor l bra ket).rank) ≠ r then .error .assertion
    else if l ≠ "κ" then .error .assertion
    else .ok (bra, ket)
  | _ => .error .assertion

def gamma {α : Type} (bra ket : List α) : Expr Rat (At α) := .atom (.tensor "γ" bra ket)
def kappa {α : Type} (bra ket : List α) : Expr Rat (At α) := .atom (.tensor "κ" bra ket)

/-- `cumu_to_density` (rdm.cpp:19-28). -/
def cumuToDensity {α : Type} (e : Expr Rat (At α)) : Except Err (Expr Rat (At α)) := do
  let (bra, ket) ← cumulant 1 e
  .ok (gamma [← at' bra 0] [← at' ket 0])

/-- `cumu2_to_density` (rdm.cpp:30-46). -/
def cumu2ToDensity {α : Type} (anti : Expr Rat (At α) → Expr Rat (At α)) (e : Expr Rat (At α)) : Except Err (Expr Rat (At α)) := do
  let (bra, ket) ← cumulant 2 e
  let d0 ← at' ket 0
  let u0 ← at' bra 0
  let d1 ← at' ket 1
  let u1 ← at' bra 1
  .ok (addE (gamma [u0, u1] [d0, d1]) (mulE (.const (-1)) (anti (mulE (gamma [u0] [d0]) (gamma [u1] [d1])))))

/-- The test of the two loops of `cumu3_to_density` (rdm.cpp:74-76, 83-85). -/
def isCumulant {α : Type} (r : Nat) : Expr Rat (At α) → Except Err Bool
  | .atom (.tensor l bra ket) =>
    if l = "κ" then do .ok (decide ((← (At.tensor l bra ket).rank) = r)) else .ok false
  | _ => .ok false

/-- A loop over all factors of all summands that replaces the cumulants of rank `r` (rdm.cpp:72-80, 81-89). -/
def convertFactors {α : Type} (r : Nat) (conv : Expr Rat (At α) → Except Err (Expr Rat (At α))) :
    List (Expr Rat (At α)) → Except Err (List (Expr Rat (At α)))
  | [] => .ok []
  | e :: l => do
    let e' ← if ← isCumulant r e then conv e else .ok e
    .ok (e' :: (← convertFactors r conv l))

def convertTerms {α : Type} (r : Nat) (conv : Expr Rat (At α) → Except Err (Expr Rat (At α))) :
    List (Expr Rat (At α)) → Except Err (List (Expr Rat (At α)))
  | [] => .ok []
  | e :: l => do
    let (c, fs) ← asProduct e
    let fs' ← convertFactors r conv fs
    .ok (.prod c fs' :: (← convertTerms r conv l))

/-- `temp_result->as<Sum>().summands()` with the loop body applied. -/
def convertSum {α : Type} (r : Nat) (conv : Expr Rat (At α) → Except Err (Expr Rat (At α))) :
    Expr Rat (At α) → Except Err (Expr Rat (At α))
  | .sum ci l => do .ok (.sum ci (← convertTerms r conv l))
  | _ => .error .type

/-- `cumu3_to_density` (rdm.cpp:48-91).  Line 70 multiplies where the formula has a sum. -/
def cumu3ToDensity {α : Type} (anti : Expr Rat (At α) → Expr Rat (At α)) (e : Expr Rat (At α)) : Except Err (Expr Rat (At α)) := do
  let (bra, ket) ← cumulant 3 e
  let d0 ← at' ket 0
  let u0 ← at' bra 0
  let d1 ← at' ket 1
  let u1 ← at' bra 1
  let d2 ← at' ket 2
  let u2 ← at' bra 2
  let g1 := gamma [u0] [d0]
  let a := anti (addE (mulE (mulE g1 (gamma [u1] [d1])) (gamma [u2] [d2])) (mulE g1 (kappa [u1, u2] [d1, d2])))
  let temp := mulE (mulE (gamma [u0, u1, u2] [d0, d1, d2]) (.const (-1))) a
  convertSum 1 cumuToDensity (← convertSum 2 (cumu2ToDensity anti) temp)

/-- The checks of `one_body_sub` and `two_body_decomp` (rdm.cpp:95-98, 111-118): a normal operator of rank `r`, its creators and
annihilators. -/
def operator {α : Type} (r : Nat) : Expr Rat (At α) → Except Err (List α × List α)
  | .atom (.op cre ann) => do
    if (← (At.op cre ann).rank) ≠ r then .error .assertion else .ok (cre, ann)
  | _ => .error .assertion

/-- `one_body_sub` (rdm.cpp:93-105). -/
def oneBodySub {α : Type} (e : Expr Rat (At α)) : Except Err (Expr Rat (At α)) := do
  let (cre, ann) ← operator 1 e
  let d0 ← at' ann 0
  let u0 ← at' cre 0
  .ok (addE (.atom (.op [u0] [d0])) (mulE (.const (-1)) (kappa [d0] [u0])))

/-- `two_body_decomp` (rdm.cpp:107-135). -/
def twoBodyDecomp {α : Type} (anti : Expr Rat (At α) → Expr Rat (At α)) (e : Expr Rat (At α)) : Except Err (Expr Rat (At α)) := do
  let (cre, ann) ← operator 2 e
  let d0 ← at' ann 0
  let d1 ← at' ann 1
  let u0 ← at' cre 0
  let u1 ← at' cre 1
  let k1 := kappa [d0] [u0]
  let t1 := mulE k1 (.atom (.op [u1] [d1]))
  let t2 := mulE k1 (kappa [d1] [u1])
  let t3 := kappa [d0, d1] [u0, u1]
  .ok (addE (.atom (.op [u0, u1] [d0, d1])) (mulE (.const (-1)) (anti (addE (addE t1 t2) t3))))

end SeQuant.Rdm
