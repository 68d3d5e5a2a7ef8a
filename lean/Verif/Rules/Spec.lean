import Verif.Rules.Model
import Mathlib.Algebra.BigOperators.Group.List.Basic
import Mathlib.Data.List.Dedup

/-!
# Values of expressions with indices that are summed
-/

namespace SeQuant.Rules

variable {K L ι D : Type} [CommRing K] [DecidableEq ι]

/-- Arrays, the range of each index and its proto-indices.  The entry selected by an index depends on the values of its proto-indices. -/
structure Env (K L ι D : Type) where
  var : L → K
  arr : L → Bool → List (D × List D) → List (D × List D) → List (D × List D) → K
  rng : ι → List D
  protos : ι → List ι

/-- The sum over the values of some indices. -/
def sumOver (V : Env K L ι D) : List ι → ((ι → D) → K) → (ι → D) → K
  | [], F, ρ => F ρ
  | i :: l, F, ρ => ((V.rng i).map fun v => sumOver V l F (Function.update ρ i v)).sum

/-- What an index selects. -/
def slot (V : Env K L ι D) (ρ : ι → D) (i : ι) : D × List D := (ρ i, (V.protos i).map ρ)

/-- The indices and proto-indices of a tensor. -/
def Ten.idx (V : Env K L ι D) (t : Ten L ι) : List ι := (t.bra ++ t.ket ++ t.aux).flatMap fun i => i :: V.protos i

mutual
/-- The indices in the scope of a term: those of its factors, but not those in sums. -/
def direct (V : Env K L ι D) : Ex K L ι → List ι
  | .ten t => t.idx V
  | .prod _ l => directL V l
  | .sum _ => []
  | .const _ => []
  | .var _ => []
def directL (V : Env K L ι D) : List (Ex K L ι) → List ι
  | [] => []
  | e :: l => direct V e ++ directL V l
end

mutual
/-- All indices. -/
def occ (V : Env K L ι D) : Ex K L ι → List ι
  | .ten t => t.idx V
  | .prod _ l => occL V l
  | .sum l => occL V l
  | .const _ => []
  | .var _ => []
def occL (V : Env K L ι D) : List (Ex K L ι) → List ι
  | [] => []
  | e :: l => occ V e ++ occL V l
end

/-- The indices of a term that are summed: each of those in `new` once. -/
def news (V : Env K L ι D) (new : ι → Bool) (e : Ex K L ι) : List ι := ((direct V e).filter new).dedup

mutual
/-- The value for given values of the indices in scope. -/
def pt (V : Env K L ι D) (new : ι → Bool) : Ex K L ι → (ι → D) → K
  | .const c, _ => c
  | .var v, _ => V.var v
  | .ten t, ρ => V.arr t.label t.anti (t.bra.map (slot V ρ)) (t.ket.map (slot V ρ)) (t.aux.map (slot V ρ))
  | .sum l, ρ => ptSum V new l ρ
  | .prod c l, ρ => c * ptProd V new l ρ
def ptSum (V : Env K L ι D) (new : ι → Bool) : List (Ex K L ι) → (ι → D) → K
  | [], _ => 0
  | e :: l, ρ => sumOver V (news V new e) (pt V new e) ρ + ptSum V new l ρ
def ptProd (V : Env K L ι D) (new : ι → Bool) : List (Ex K L ι) → (ι → D) → K
  | [], _ => 1
  | e :: l, ρ => pt V new e ρ * ptProd V new l ρ
end

/-- The value of an expression: in each term, the indices in `new` are summed. -/
def val (V : Env K L ι D) (new : ι → Bool) (e : Ex K L ι) : (ι → D) → K := sumOver V (news V new e) (pt V new e)

end SeQuant.Rules
