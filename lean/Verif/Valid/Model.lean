import Verif.Optimize.UniqueModel

/-!
# Validity of expressions (C122)

Transcribes `is_valid` (`SeQuant/core/utility/expr.cpp`:290-413).

Simplifications: expressions are reduced to what the function looks at; messages are an enumeration; the numerical values of scalars are left out but for their
denominators; the right-hand side of a result without its symmetrizer (`pop_tensor`, 390-392) is a parameter; `get_unique_indices` is in area Optimize.
-/

namespace SeQuant.Valid

open SeQuant.Optimize

variable {ι : Type} [DecidableEq ι]

/-- Expressions: a null pointer, constants and products with the denominators of the real and imaginary part, variables, tensors, sums, anything else (powers,
normal-ordered operators). -/
inductive VExpr (ι : Type)
  | null
  | const (re im : Int)
  | var
  | tensor (bra ket aux : List ι)
  | prod (re im : Int) (l : List (VExpr ι))
  | sum (l : List (VExpr ι))
  | other

/-- The messages (298-406). -/
inductive Msg
  | isNull
  | constRe
  | constIm
  | factorRe
  | factorIm
  | moreThanTwice
  | inconsistent
  | resultBra
  | resultKet
  | resultAux
deriving DecidableEq

/-- What a call does: it returns true; it sets the message and returns false; an assertion fails (377); `summand(0)` of an empty sum (363). -/
inductive Verdict
  | valid
  | invalid (m : Msg)
  | assertFails
  | outOfRange
deriving DecidableEq

mutual
/-- What `get_unique_indices` sees. -/
def toU : VExpr ι → UExpr ι
  | .null => .other
  | .const _ _ => .scalar
  | .var => .scalar
  | .tensor b k a => .tensor b k a
  | .prod _ _ l => .prod (toUs l)
  | .sum l => .sum (toUs l)
  | .other => .other
def toUs : List (VExpr ι) → List (UExpr ι)
  | [] => []
  | e :: l => toU e :: toUs l
end

/-- `get_unique_indices` of a part that has been found valid. -/
def unique (e : VExpr ι) : Groups ι := (uniqExpr (toU e)).getD ⟨[], [], []⟩

/-- `index_counter` (340-347). -/
def counter (l : List (VExpr ι)) (i : ι) : Nat := (l.map fun f => ((unique f).bra ++ (unique f).ket ++ (unique f).aux).count i).sum

/-- The indices that are counted. -/
def counted (l : List (VExpr ι)) : List ι := l.flatMap fun f => (unique f).bra ++ (unique f).ket ++ (unique f).aux

/-- `compare` (365-369). -/
def sameGroups (r g : Groups ι) : Bool := r.bra.isPerm g.bra && r.ket.isPerm g.ket && r.aux.isPerm g.aux

/-- The branch for products (326-354). -/
def checkProd (re im : Int) (l : List (VExpr ι)) : Verdict :=
  if re = 0 then .invalid .factorRe
  else if im = 0 then .invalid .factorIm
  else if (counted l).any fun i => decide (2 < counter l i) then .invalid .moreThanTwice
  else .valid

/-- The branch for sums (355-375). -/
def checkSum : List (VExpr ι) → Verdict
  | [] => .outOfRange
  | e :: l => if (e :: l).all fun f => sameGroups (unique e) (unique f) then .valid else .invalid .inconsistent

mutual
/-- `is_valid` (296-381). -/
def isValid : VExpr ι → Verdict
  | .null => .invalid .isNull
  | .const re im => if re = 0 then .invalid .constRe else if im = 0 then .invalid .constIm else .valid
  | .var => .valid
  | .tensor _ _ _ => .valid
  | .prod re im l => match isValids l with
    | .valid => checkProd re im l
    | v => v
  | .sum l => match isValids l with
    | .valid => checkSum l
    | v => v
  | .other => .assertFails
/-- The loop over the parts (305-312). -/
def isValids : List (VExpr ι) → Verdict
  | [] => .valid
  | e :: l => match isValid e with
    | .valid => isValids l
    | v => v
end

/-- `is_valid` for results (383-413): the groups of the result, the expression, the expression without its symmetrizer. -/
def isValidResult (lhs : Groups ι) (e rhs : VExpr ι) : Verdict :=
  match isValid e with
  | .valid =>
    if !lhs.bra.isPerm (unique rhs).bra then .invalid .resultBra
    else if !lhs.ket.isPerm (unique rhs).ket then .invalid .resultKet
    else if !lhs.aux.isPerm (unique rhs).aux then .invalid .resultAux
    else .valid
  | v => v

end SeQuant.Valid
