import Verif.Rules.Model

/-!
# Model of `pop_tensor` (core/utility/expr.cpp:474-537)

Expressions are those of `Rules.Model`.  `none` = a failed assertion.  The expression is modified in place in the code; here the new
expression is returned with the removed tensor.  Operators, powers and other types, for which the code throws (536), do not occur.
-/

namespace SeQuant.Rules

variable {K L ι : Type} [CommRing K] [DecidableEq K] [DecidableEq L] [DecidableEq ι]

/-- Lines 504-505 and 485-486: `if (!tensor.has_value()) tensor = popped;`. -/
def keep (tensor popped : Option (Ten L ι)) : Option (Ten L ι) := if tensor.isSome then tensor else popped

/-- Lines 507-509: factors that became the constant zero are left out. -/
def popFactor (st : K × List (Ex K L ι)) : Ex K L ι → K × List (Ex K L ι)
  | .const c => if c = 0 then st else pAppend false st (.const c)
  | e => pAppend false st e

/-- Lines 512-518. -/
def popFinish (st : K × List (Ex K L ι)) : Ex K L ι :=
  match st.2 with
  | [] => .const 0
  | [f] => if st.1 = 1 then f else .prod st.1 st.2
  | _ => .prod st.1 st.2

mutual
/-- `pop_tensor`. -/
def pop (lab : L) : Ex K L ι → Option (Option (Ten L ι) × Ex K L ι)
  | .const c => some (none, .const c)
  | .var v => some (none, .var v)
  | .ten t => if t.label = lab then some (some t, .const 0) else some (none, .ten t)
  | .sum l => (popSum lab none [] l).map fun r => (r.1, .sum r.2)
  | .prod c l => (popProd lab none (1 * c, []) l).map fun r => (r.1, popFinish r.2)
/-- The loop of lines 481-490. -/
def popSum (lab : L) (tensor : Option (Ten L ι)) (st : List (Ex K L ι)) : List (Ex K L ι) → Option (Option (Ten L ι) × List (Ex K L ι))
  | [] => some (tensor, st)
  | e :: l => do
    let r ← pop lab e
    if keep tensor r.1 = r.1 then popSum lab (keep tensor r.1) (sAppend st r.2) l else none
/-- The loop of lines 500-510. -/
def popProd (lab : L) (tensor : Option (Ten L ι)) (st : K × List (Ex K L ι)) :
    List (Ex K L ι) → Option (Option (Ten L ι) × (K × List (Ex K L ι)))
  | [] => some (tensor, st)
  | e :: l => do
    let r ← pop lab e
    if r.1 = none ∨ keep tensor r.1 = r.1 then popProd lab (keep tensor r.1) (popFactor st r.2) l else none
end

end SeQuant.Rules
