import Verif.Latex.Model

/-
`to_latex_align`, transcribed from
`/repo/SeQuant/core/expressions/expr_algorithms.cpp:22-80`, and `Sum::to_latex`,
`/repo/SeQuant/core/expressions/sum.hpp:226-247`.

The LaTeX of a summand is a string of characters without further structure.  A position
is a natural number or `npos` (`none`); `npos + 1` is `0`.  The outcome `throws` stands
for a failed assertion or an exception of the standard library, `ub` for a division by
zero.
-/

namespace SeQuant.Latex

/-- A string. -/
abbrev Str := List Nat

/-- The first occurrence of a pattern in a string. -/
def findS (pat : Str) : Str → Option Nat
  | [] => none
  | c :: r => if pat.isPrefixOf (c :: r) then some 0 else (findS pat r).map (· + 1)

/-- `std::wstring::find(pat, k)` for a non-empty pattern. -/
def findFrom (pat s : Str) (k : Nat) : Option Nat := (findS pat (s.drop k)).map (· + k)

/-- `L" + "`. -/
def plusPat : Str := w! " + "
/-- `L" - "`. -/
def minusPat : Str := w! " - "
/-- `expr_algorithms.cpp:54`. -/
def blockStr : Str := w! "\n\\end{align}\n\\begin{align}\n& "
/-- `expr_algorithms.cpp:59`. -/
def lineStr : Str := w! "\\\\\n& "
/-- `expr_algorithms.cpp:29, 76`. -/
def beginStr : Str := w! "\\begin{align}\n& "
/-- `expr_algorithms.cpp:78`. -/
def endStr : Str := w! "\n\\end{align}"

/-- The variables of the loop, `expr_algorithms.cpp:29-37`. -/
structure Scan where
  result : Str
  line : Nat
  term : Nat
  pos : Option Nat
  plus : Option Nat
  minus : Option Nat
  lastPlus : Bool
  more : Bool
  deriving DecidableEq

/-- `insert_into_result_at(pos + 1, str)`, `expr_algorithms.cpp:38-50`. -/
def Scan.insert (st : Scan) (str : Str) : Outcome Scan :=
  match st.pos with
  | none => .throws
  | some p =>
    if st.result.length < p + 1 then .throws
    else
      let result := st.result.take (p + 1) ++ str ++ st.result.drop (p + 1)
      let pos := some (p + str.length)
      let plus := st.plus.map (· + str.length)
      let minus := st.minus.map (· + str.length)
      if pos ≠ plus ∧ plus ≠ plus.bind (findFrom plusPat result) then .throws
      else if pos ≠ minus ∧ minus ≠ minus.bind (findFrom minusPat result) then .throws
      else .ok { st with result := result, pos := pos, plus := plus, minus := minus }

/-- `expr_algorithms.cpp:52-62`: a new block, a new line, or nothing. -/
def Scan.break (maxLines maxTerms : Nat) (st : Scan) : Outcome Scan :=
  if 0 < maxLines ∧ st.line = maxLines then
    match st.insert blockStr with
    | .ok st => .ok { st with line := 0 }
    | o => o
  else if st.term ≠ 0 then
    if maxTerms = 0 then .ub
    else if st.term % maxTerms = 0 then
      match st.insert lineStr with
      | .ok st => .ok { st with line := st.line + 1 }
      | o => o
    else .ok st
  else .ok st

/-- `npos` is larger than every position. -/
def minPos : Option Nat → Option Nat → Option Nat
  | none, b => b
  | a, none => a
  | some a, some b => some (min a b)

/-- `find(pat, pos + 1)`. -/
def findNext (pat s : Str) : Option Nat → Option Nat
  | none => findFrom pat s 0
  | some p => findFrom pat s (p + 1)

/-- `expr_algorithms.cpp:63-73`. -/
def Scan.next (st : Scan) : Scan :=
  let plus := if st.plus = some 0 ∨ st.lastPlus = true then findNext plusPat st.result st.plus else st.plus
  let minus :=
    if st.minus = some 0 ∨ st.lastPlus = false then findNext minusPat st.result st.minus
    else st.minus
  let pos := minPos plus minus
  { st with
    plus := plus
    minus := minus
    pos := pos
    lastPlus := decide (pos = plus)
    term := if pos.isSome then st.term + 1 else st.term
    more := pos.isSome }

/-- The loop, `expr_algorithms.cpp:51-74`.  `fuel` bounds the number of passes; `none`:
it was too small. -/
def alignLoop (maxLines maxTerms : Nat) : Nat → Scan → Option (Outcome Str)
  | 0, st => if st.more then none else some (.ok st.result)
  | fuel + 1, st =>
    if st.more then
      match st.break maxLines maxTerms with
      | .ok st => alignLoop maxLines maxTerms fuel st.next
      | .throws => some .throws
      | .ub => some .ub
    else some (.ok st.result)

/-- `Sum::to_latex`: `true` marks the products whose scalar is negative; their LaTeX is
that of `to_latex(true)`, without the sign. -/
def sumBody : Bool → List (Bool × Str) → Str
  | _, [] => []
  | _, (true, t) :: ts => w! " - " ++ t ++ sumBody false ts
  | first, (false, t) :: ts => (if first then t else w! " + " ++ t) ++ sumBody false ts

/-- `Sum::to_latex`, `sum.hpp:226-247`. -/
def sumLatex (ts : List (Bool × Str)) : Str := w! "{ \\bigl(" ++ sumBody true ts ++ w! "\\bigr) }"

/-- `to_latex_align`; `text` is the LaTeX of the expression, `isSum` tells whether it is
a sum. -/
def alignText (isSum : Bool) (text : Str) (maxLines maxTerms : Nat) : Option (Outcome Str) :=
  if isSum then
    let result := text.drop 7
    if result.length < 8 then some .throws
    else
      let result := beginStr ++ (result.take (result.length - 8) ++ w! ")")
      match alignLoop maxLines maxTerms (result.length + 2)
          ⟨result, 0, 0, some 0, some 0, some 0, false, true⟩ with
      | some (.ok r) => some (.ok (r ++ endStr))
      | o => o
  else some (.ok (beginStr ++ text ++ endStr))

end SeQuant.Latex
