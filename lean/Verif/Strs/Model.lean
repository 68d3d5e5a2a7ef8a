/-!
# Conversion of strings (C128)

Transcription of `toUtf8`, `toUtf16` (core/utility/string.cpp:12-32) and `string_to` for integers (core/utility/conversion.hpp:24-57, 79-103).

Simplified: UTF-8 text is given by the list of its code points, so malformed UTF-8 is left out; `utf8::utf16to8`, `utf8::utf8to16` (utfcpp, not part of the
repository) and `std::from_chars` are assumed to follow the definitions of UTF-16 and of the C++ standard; `wchar_t` is wider than 16 bits and
`char` is signed (as on Linux on x86).  Characters are given by their codes.
-/

namespace SeQuant.Strs

/-- A result, a `ConversionException`, an exception of utfcpp or a failed assertion. -/
inductive Out (α : Type) where
  | ok (a : α)
  | throws
  | badUtf
  | aborts
  deriving DecidableEq, Repr

/-- A leading and a trailing surrogate. -/
def isLead (u : Nat) : Bool := decide (0xD800 ≤ u) && decide (u < 0xDC00)
def isTrail (u : Nat) : Bool := decide (0xDC00 ≤ u) && decide (u < 0xE000)

/-- `utf8::utf8to16`: code points above `0xFFFF` become two units. -/
def enc16 : List Nat → List Nat
  | [] => []
  | c :: l => if 0xFFFF < c then (0xD800 + (c - 0x10000) / 0x400) :: (0xDC00 + (c - 0x10000) % 0x400) :: enc16 l else c :: enc16 l

/-- `utf8::utf16to8`: surrogates without partner are an exception. -/
def dec16 : List Nat → Option (List Nat)
  | [] => some []
  | u :: l =>
    if isLead u then match l with
      | [] => none
      | v :: m => if isTrail v then (dec16 m).map ((0x10000 + (u - 0xD800) * 0x400 + (v - 0xDC00)) :: ·) else none
    else if isTrail u then none
    else (dec16 l).map (u :: ·)

/-- `toUtf8` (string.cpp:12-22); `checks` says whether assertions are compiled in.  The copy into 16-bit characters cuts off the rest. -/
def toUtf8 (checks : Bool) (w : List Nat) : Out (List Nat) :=
  if checks && w.any (fun c => decide (0xFFFF < c)) then .aborts
  else match dec16 (w.map (· % 0x10000)) with
    | some s => .ok s
    | none => .badUtf

/-- `toUtf16` (string.cpp:26-32). -/
def toUtf16 (s : List Nat) : List Nat := enc16 s

/-- The value of a digit in bases up to 36. -/
def digit (base : Nat) (c : Nat) : Option Nat :=
  if 48 ≤ c ∧ c ≤ 57 ∧ c - 48 < base then some (c - 48)
  else if 97 ≤ c ∧ c ≤ 122 ∧ c - 87 < base then some (c - 87)
  else if 65 ≤ c ∧ c ≤ 90 ∧ c - 55 < base then some (c - 55)
  else none

/-- The digits at the beginning of a text, as far as they go: number so far, how many, rest. -/
def digits (base acc n : Nat) : List Nat → Nat × Nat × List Nat
  | [] => (acc, n, [])
  | c :: l => match digit base c with
    | some d => digits base (acc * base + d) (n + 1) l
    | none => (acc, n, c :: l)

/-- The end of `string_to_impl` (conversion.hpp:34-56) after `std::from_chars` has read digits: nothing read, out of range, rest left. -/
def finish (lo hi : Int) (v : Int) (n : Nat) (rest : List Nat) : Out Int :=
  if n = 0 then .throws
  else if v < lo ∨ hi < v then .throws
  else if rest ≠ [] then .throws
  else .ok v

/-- `string_to<T>(std::string_view, base)` (conversion.hpp:24-57, 79-85) for an integral type with range `lo`..`hi`: a minus sign (45) only for signed
types, no plus sign, no blanks. -/
def stringTo (signed : Bool) (lo hi : Int) (base : Nat) (s : List Nat) : Out Int :=
  if signed = true ∧ s.head? = some 45 then
    finish lo hi (-((digits base 0 0 s.tail).1 : Int)) (digits base 0 0 s.tail).2.1 (digits base 0 0 s.tail).2.2
  else finish lo hi (digits base 0 0 s).1 (digits base 0 0 s).2.1 (digits base 0 0 s).2.2

/-- `string_to<T>(std::wstring_view, base)` (conversion.hpp:87-103): the message of the exception needs `toUtf8` (line 93). -/
def wstringTo (checks signed : Bool) (lo hi : Int) (base : Nat) (s : List Nat) : Out Int :=
  if s.any (fun c => decide (127 < c)) then
    match toUtf8 checks s with
    | .ok _ => .throws
    | .throws => .throws
    | .badUtf => .badUtf
    | .aborts => .aborts
  else stringTo signed lo hi base s

end SeQuant.Strs
