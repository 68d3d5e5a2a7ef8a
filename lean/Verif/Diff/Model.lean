/-!
# Textual differences of expressions (C126)

Transcription of `diff` and `toplevel_diff` (core/utility/expr.cpp:21-289).

Simplified: scalars, indices and their texts are parameters (`str` for `to_string(Complex)`, 24-39; `nz` for what `toplevel_diff(Index, Index)`,
132-163, says about indices that differ); symmetries are numbers; comparisons are exact (the comparison of hash values that comes first in
`static_equal` changes nothing as long as equal objects have equal hash values); names of types are left out of the text; objects of other types
(`other`) have no subexpressions.
-/

namespace SeQuant.Diff

abbrev Txt := List Char

/-- What a call does: return a text, run into undefined behaviour or abort. -/
inductive Out where
  | text (s : Txt)
  | ub
  | aborts
  deriving DecidableEq, Repr

def Out.bind : Out → (Txt → Out) → Out
  | .text s, f => f s
  | .ub, _ => .ub
  | .aborts, _ => .aborts

/-- `Tensor`, as far as it is compared (tensor.hpp:835-853). -/
structure Tn (I : Type) where
  label : Txt
  symm : Nat := 0
  colSymm : Nat := 0
  bkSymm : Nat := 0
  bra : List I
  ket : List I
  aux : List I := []
  deriving DecidableEq

/-- `Expr`. -/
inductive Ex (I C : Type) where
  | const (c : C)
  | var (label : Txt) (conj : Bool)
  | tensor (t : Tn I)
  | sum (l : List (Ex I C))
  | prod (c : C) (l : List (Ex I C))
  | other (kind id : Nat)

/-- `type_id()`. -/
def Ex.ty {I C : Type} : Ex I C → Nat
  | .const _ => 0
  | .var _ _ => 1
  | .tensor _ => 2
  | .sum _ => 3
  | .prod _ _ => 4
  | .other k _ => k + 5

section
variable {I C : Type} [DecidableEq I] [DecidableEq C]

mutual
/-- `operator==(Expr, Expr)` (expr.hpp:505-510) and the functions `static_equal` (constant.hpp:129-131, variable.hpp:80-83, tensor.hpp:835-853,
sum.hpp:348-361, product.hpp:457-471). -/
def Ex.beq : Ex I C → Ex I C → Bool
  | .const a, .const b => decide (a = b)
  | .var a x, .var b y => decide (a = b) && decide (x = y)
  | .tensor t, .tensor u => decide (t = u)
  | .sum l, .sum m => beqs l m
  | .prod c l, .prod d m => decide (c = d) && beqs l m
  | .other k i, .other k' j => decide (k = k') && decide (i = j)
  | _, _ => false

/-- `std::equal` after the comparison of the sizes. -/
def beqs : List (Ex I C) → List (Ex I C) → Bool
  | [], [] => true
  | x :: l, y :: m => x.beq y && beqs l m
  | _, _ => false
end

variable (str : C → Txt) (nz : I → I → Txt)

/-- `toplevel_diff(Constant, Constant)` (41-47). -/
def constDiff (a b : C) : Txt := if a = b then [] else str a ++ " vs. ".toList ++ str b

/-- `toplevel_diff(Variable, Variable)` (49-61): the text between the two belongs to the second branch of the first conditional. -/
def varDiff (a : Txt) (x : Bool) (b : Txt) (y : Bool) : Txt :=
  if a = b ∧ x = y then []
  else if a ≠ b then a ++ " vs. ".toList ++ b
  else (if x then "conjugated".toList else "non-conjugated".toList ++ " vs. ".toList) ++ (if y then "conjugated".toList else "non-conjugated".toList)

/-- `toplevel_diff(Index, Index)` (132-135). -/
def idxDiff (a b : I) : Txt := if a = b then [] else nz a b

/-- `IndexSpace`, as far as it is looked at here. -/
structure Sp where
  type : BitVec 32
  qns : BitVec 32
  key : Txt
  size : Nat

/-- `operator==(IndexSpace, IndexSpace)` (space.hpp:604-608): the size is not compared. -/
def Sp.same (s t : Sp) : Bool := decide (s.type = t.type) && decide (s.qns = t.qns) && decide (s.key = t.key)

/-- `std::bitset<32>` as text: the highest bit first. -/
def bitText (b : BitVec 32) : Txt := (List.range 32).reverse.map fun i => if b.getLsbD i then '1' else '0'

/-- `diff_spaces` (100-130); what is marked as unreachable is undefined behaviour. -/
def spaceDiff (s t : Sp) : Out :=
  if s.same t then .text []
  else if s.type ≠ t.type then .text ("Types differ: ".toList ++ bitText s.type ++ " vs. ".toList ++ bitText t.type)
  else if s.qns ≠ t.qns then .text ("QNs differ: ".toList ++ bitText s.qns ++ " vs. ".toList ++ bitText t.qns)
  else if s.key ≠ t.key then .text ("Base key differs: ".toList ++ s.key ++ " vs. ".toList ++ t.key)
  else if s.size ≠ t.size then .text ("Size differs: ".toList ++ (toString s.size).toList ++ " vs. ".toList ++ (toString t.size).toList)
  else .ub

/-- The loop of `diff_indices` (80-95). -/
def idxLoop (i : Nat) (acc : Txt) : List I → List I → Txt
  | a :: l, b :: m =>
    let d := idxDiff nz a b
    if d = [] then idxLoop (i + 1) acc l m
    else idxLoop (i + 1) ((if acc = [] then [] else acc ++ ", ".toList) ++ "#".toList ++ (toString (i + 1)).toList ++ ": ".toList ++ d) l m
  | _, _ => acc

/-- `diff_indices` (65-98). -/
def idxsDiff (l m : List I) : Txt :=
  if l.length ≠ m.length then (toString l.length).toList ++ " indices vs. ".toList ++ (toString m.length).toList ++ " indices".toList
  else idxLoop nz 0 [] l m

/-- `toplevel_diff(Tensor, Tensor)` (165-208): the text for kets compares the bras, that for auxiliary indices the kets. -/
def tensorDiff (t u : Tn I) : Out :=
  if t = u then .text []
  else if t.label ≠ u.label then .text ("Names differ: ".toList ++ t.label ++ " vs. ".toList ++ u.label)
  else if t.bra.length + t.ket.length + t.aux.length ≠ u.bra.length + u.ket.length + u.aux.length then
    .text ((toString (t.bra.length + t.ket.length + t.aux.length)).toList ++ " indices vs. ".toList ++
      (toString (u.bra.length + u.ket.length + u.aux.length)).toList ++ " indices".toList)
  else if t.symm ≠ u.symm then .text ("Symmetry differs: ".toList ++ (toString t.symm).toList ++ " vs. ".toList ++ (toString u.symm).toList)
  else if t.colSymm ≠ u.colSymm then
    .text ("Particle-Symmetry differs: ".toList ++ (toString t.colSymm).toList ++ " vs. ".toList ++ (toString u.colSymm).toList)
  else if t.bkSymm ≠ u.bkSymm then
    .text ("BraKet-Symmetry differs: ".toList ++ (toString t.bkSymm).toList ++ " vs. ".toList ++ (toString u.bkSymm).toList)
  else if t.bra ≠ u.bra then .text ("Bra indices differ: ".toList ++ idxsDiff nz t.bra u.bra)
  else if t.ket ≠ u.ket then .text ("Ket indices differ: ".toList ++ idxsDiff nz t.bra u.bra)
  else if t.aux ≠ u.aux then .text ("Aux indices differ: ".toList ++ idxsDiff nz t.ket u.ket)
  else .aborts

/-- `toplevel_diff(Product, Product)` (215-222). -/
def prodDiff (c d : C) : Txt := if c ≠ d then "Prefactor differs: ".toList ++ constDiff str c d else []

/-- The end of `diff` (268-288): the text about the subexpressions, if any, or that about the object itself. -/
def finish (nested top : Txt) : Txt :=
  if nested ≠ [] then "Subexpression diff begin:\n".toList ++ nested ++ "Subexpression diff end".toList else top

mutual
/-- `diff` (224-289). -/
def diff (a b : Ex I C) : Out := match a, b with
  | .sum l, .sum m => if beqs l m then .text [] else (diffs 1 l m).bind fun s => .text (finish s [])
  | .prod c l, .prod d m =>
    if decide (c = d) && beqs l m then .text [] else (diffs 1 l m).bind fun s => .text (finish s (prodDiff str c d))
  | .const c, .const d => .text (constDiff str c d)
  | .var a x, .var b y => .text (varDiff a x b y)
  | .tensor t, .tensor u => tensorDiff nz t u
  | .other k i, .other k' j =>
    if k = k' ∧ i = j then .text [] else if k = k' then .aborts else .text "Types differ: ".toList
  | _, _ => .text "Types differ: ".toList

/-- The loop over the subexpressions (250-266).  Both sizes are those of the first expression (240-241), so the comparison of the sizes (243-246) never
fails, and the loop reads past the end of the second expression if that has fewer subexpressions. -/
def diffs (i : Nat) : List (Ex I C) → List (Ex I C) → Out
  | [], _ => .text []
  | _ :: _, [] => .ub
  | x :: l, y :: m => (diff x y).bind fun d => (diffs (i + 1) l m).bind fun s =>
    .text (if d = [] then s else "Sub-Expr #".toList ++ (toString i).toList ++ ":\n".toList ++ d ++ "\n".toList ++ s)
end

end

end SeQuant.Diff
