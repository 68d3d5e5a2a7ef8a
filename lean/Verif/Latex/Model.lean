/-
Conversion of Unicode characters to LaTeX, transcribed from
`/repo/SeQuant/core/io/latex/latex.cpp:67-285` and
`/repo/SeQuant/core/io/latex/latex.hpp:182-196`.

A string is the list of the values of its characters (`Nat`).  The templates are
instantiated for `char`, `char8_t` (`sizeof(Char) == 1`, called narrow here) and for
`wchar_t`, `char16_t`, `char32_t` (wide).  Values are unbounded, which covers every
width.  The comparisons of `char` values happen after the branch that refuses
non-ASCII narrow characters, so the wrap-around of `static_cast<char>(0x3B1)` is not
reachable and is not modelled.
-/

namespace SeQuant.Latex

open Lean in
/-- `w! "ab"` is the list of the values of the characters of the literal, `[97, 98]`. -/
macro "w!" s:str : term => do
  let cs := s.getString.toList.map fun c => Syntax.mkNumLit (toString c.toNat)
  `(([$(cs.toArray),*] : List Nat))

/-- What a call does: it returns, it throws `Exception`, or it moves an iterator past
the end of the string and reads there (undefined behaviour). -/
inductive Outcome (α : Type) where
  | ok (a : α)
  | throws
  | ub
  deriving DecidableEq, Repr

/-- `is_ascii`, `latex.cpp:123, 177`. -/
@[irreducible] def isAscii (c : Nat) : Bool := c ≤ 0x7F

/-- `lc`, `latex.cpp:74-87`. -/
@[irreducible] def lcTable : List (List Nat) :=
  [w! "\\alpha", w! "\\beta", w! "\\gamma", w! "\\delta", w! "\\epsilon", w! "\\zeta",
   w! "\\eta", w! "\\theta", w! "\\iota", w! "\\kappa", w! "\\lambda", w! "\\mu", w! "\\nu",
   w! "\\xi", w! "o", w! "\\pi", w! "\\rho", w! "\\varsigma", w! "\\sigma", w! "\\tau",
   w! "\\upsilon", w! "\\phi", w! "\\chi", w! "\\psi", w! "\\omega"]

/-- `uc`, `latex.cpp:88-101`; the empty string stands at the unassigned code point
`0x3A2`. -/
@[irreducible] def ucTable : List (List Nat) :=
  [w! "A", w! "B", w! "\\Gamma", w! "\\Delta", w! "E", w! "Z", w! "H", w! "\\Theta", w! "I",
   w! "K", w! "\\Lambda", w! "M", w! "N", w! "\\Xi", w! "O", w! "\\Pi", w! "P", w! "",
   w! "\\Sigma", w! "T", w! "\\Upsilon", w! "\\Phi", w! "X", w! "\\Psi", w! "\\Omega"]

/-- `is_lc`, `latex.cpp:102-106`. -/
@[irreducible] def isLc (c : Nat) : Bool := 0x3B1 ≤ c && c ≤ 0x3C9

/-- `is_uc`, `latex.cpp:107-112`. -/
@[irreducible] def isUc (c : Nat) : Bool := 0x391 ≤ c && c ≤ 0x3A9 && c != 0x3A2

/-- The lambda `append`, `latex.cpp:119-122, 173-176`: `pre` is what of the string
stands before the iterator. -/
def append (pre res s : List Nat) : List Nat :=
  if res.isEmpty then pre ++ s else res ++ s

/-- `lc[ch_addr]` with the assertions around it, `latex.cpp:135-139`. -/
@[irreducible] def lcEntry (ch : Nat) : Option (List Nat) := (lcTable[ch - 0x3B1]?).filter (!·.isEmpty)

/-- `uc[ch_addr]` with the assertions around it, `latex.cpp:142-146`. -/
@[irreducible] def ucEntry (ch : Nat) : Option (List Nat) := (ucTable[ch - 0x391]?).filter (!·.isEmpty)

/-- The loop of `greek_characters_to_string_impl`, `latex.cpp:118-154`.  An index out of
the table or an empty entry of it would fail an assertion; `none` stands for that. -/
def greekLoop (wide : Bool) : (pre res : List Nat) → List Nat → Outcome (Option (List Nat))
  | _, res, [] => .ok (some res)
  | pre, res, ch :: rest =>
    if !wide && !isAscii ch then .throws
    else if !isAscii ch then
      if isLc ch then
        match lcEntry ch with
        | some s => greekLoop wide (pre ++ [ch]) (append pre res s) rest
        | none => .ok none
      else if isUc ch then
        match ucEntry ch with
        | some s => greekLoop wide (pre ++ [ch]) (append pre res s) rest
        | none => .ok none
      else greekLoop wide (pre ++ [ch]) (if !res.isEmpty then res ++ [ch] else res) rest
    else greekLoop wide (pre ++ [ch]) (if !res.isEmpty then res ++ [ch] else res) rest

/-- `greek_characters_to_string_impl`, `latex.cpp:69-160`. -/
def greek (wide : Bool) (str : List Nat) : Outcome (Option (List Nat)) :=
  match greekLoop wide [] [] str with
  | .ok (some res) => .ok (some (if !res.isEmpty then res else str))
  | o => o

/-- The `switch` over the character that follows, `latex.cpp:198-223`. -/
@[irreducible] def markMacro (c : Nat) : Option (List Nat) :=
  if c = 0x303 then some (w! "\\tilde{")
  else if c = 0x301 then some (w! "\\acute{")
  else if c = 0x300 then some (w! "\\grave{")
  else if c = 0x30C then some (w! "\\check{")
  else if c = 0x302 then some (w! "\\hat{")
  else none

/-- The tables of characters with a tilde, `latex.cpp:227-253`. -/
@[irreducible] def tildeTable : List (Nat × List Nat) :=
  [(0xE3, w! "\\tilde{a}"), (0x1EBD, w! "\\tilde{e}"), (0xF1, w! "\\tilde{n}"),
   (0xF5, w! "\\tilde{o}"), (0x169, w! "\\tilde{u}"), (0x1E7D, w! "\\tilde{v}"),
   (0xC3, w! "\\tilde{A}"), (0x1EBC, w! "\\tilde{E}"), (0xD1, w! "\\tilde{N}"),
   (0xD5, w! "\\tilde{O}"), (0x168, w! "\\tilde{U}"), (0x1E7C, w! "\\tilde{V}")]

/-- The tables of characters with a circumflex, `latex.cpp:254-277`. -/
@[irreducible] def hatTable : List (Nat × List Nat) :=
  [(0xE2, w! "\\hat{a}"), (0xEA, w! "\\hat{e}"), (0xEE, w! "\\hat{i}"), (0xF4, w! "\\hat{o}"),
   (0xC2, w! "\\hat{A}"), (0xCA, w! "\\hat{E}"), (0xCE, w! "\\hat{I}"), (0xD4, w! "\\hat{O}"),
   (0x15C, w! "\\hat{S}")]

/-- One block of look-ups, `latex.cpp:227-277`: nothing is appended if the character is
not in the table. -/
def lookAppend (table : List (Nat × List Nat)) (ch : Nat) (pre res : List Nat) : List Nat :=
  match table.lookup ch with
  | some s => append pre res s
  | none => res

/-- The value of `next_ch` after `latex.cpp:180`: it keeps its old value at the last
character. -/
def nextCh (old : Option Nat) : List Nat → Option Nat
  | [] => old
  | c :: _ => some c

/-- The macro chosen by `latex.cpp:190-224`. -/
def macroOf (next : Option Nat) : Option (List Nat) :=
  match next with
  | some c => if !isAscii c then markMacro c else none
  | none => none

/-- The loop of `diactrics_to_string_impl`, `latex.cpp:172-279`.  After a mark the
iterator moves twice (`it += 1` and `++it`); at the last character the second move leaves
the string. -/
def diaLoop (wide : Bool) : (pre res : List Nat) → (next : Option Nat) → List Nat →
    Outcome (List Nat)
  | _, res, _, [] => .ok res
  | pre, res, next, ch :: rest =>
    let next' := nextCh next rest
    if !wide && ((pre.isEmpty && !isAscii ch) ||
        (match next' with | some c => !isAscii c | none => false)) then .throws
    else
      match macroOf next' with
      | some m =>
        let res' := append pre (append pre (append pre res m) [ch]) (w! "}")
        match rest with
        | [] => .ub
        | c :: rest' => diaLoop wide (pre ++ [ch, c]) res' next' rest'
      | none =>
        let res' :=
          if !isAscii ch then lookAppend hatTable ch pre (lookAppend tildeTable ch pre res)
          else res
        diaLoop wide (pre ++ [ch]) res' next' rest

/-- `diactrics_to_string_impl`, `latex.cpp:162-285`. -/
def dia (wide : Bool) (str : List Nat) : Outcome (List Nat) :=
  match diaLoop wide [] [] none str with
  | .ok res => .ok (if !res.isEmpty then res else str)
  | o => o

/-- `utf_to_string`, `latex.hpp:182-196`. -/
def utf (wide : Bool) (str : List Nat) : Outcome (Option (List Nat)) :=
  match dia wide str with
  | .ok t => greek wide t
  | .throws => .throws
  | .ub => .ub

end SeQuant.Latex
