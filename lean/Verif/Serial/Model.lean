import Verif.Expression.Model
import Mathlib.Algebra.Field.Rat
import Mathlib.Algebra.Ring.Rat
import Mathlib.Tactic.Ring

/-!
# Model of the serialization of expressions, version 1

`core/io/serialization/v1/serialize.cpp` (writer), `deserialize.cpp` (grammar for `boost::spirit::x3`), `semantic_actions.hpp` and
`ast_conversions.hpp` (reader).

* Text is a list of characters.  The character classes of the grammar (letters, word components, index characters, space), the labels of normal
  operators and the labels of spaces known to the registry are parameters (`Lex`).
* The grammar is transcribed rule by rule as recognizers with the semantics of x3: ordered choice, greedy repetition, a failing
  sequence gives back what it has read, a parser after `>` that fails throws.  Literals and lexemes first skip space.
* Numbers are read as `double`: the model keeps integer values with the rounding of the accumulation in
  x3; fractions and exponents (`0.5`, `1e3`), which the writer never produces, are not modelled, nor is the overflow of `double`.
* The conversion of the syntax tree to expressions is done while reading.
* `fuel` bounds the recursion and the loops.
-/

namespace SeQuant.Serial

open SeQuant.Expression

/-! ## Data -/

/-- `Constant::scalar_type`, `Complex<rational>` (core/complex.hpp, core/rational.hpp). -/
@[ext] structure CQ where
  re : Rat
  im : Rat
  deriving DecidableEq, Repr

namespace CQ

instance : Zero CQ := ⟨⟨0, 0⟩⟩
instance : One CQ := ⟨⟨1, 0⟩⟩
instance : Add CQ := ⟨fun a b => ⟨a.re + b.re, a.im + b.im⟩⟩
instance : Neg CQ := ⟨fun a => ⟨-a.re, -a.im⟩⟩
instance : Mul CQ := ⟨fun a b => ⟨a.re * b.re - a.im * b.im, a.re * b.im + a.im * b.re⟩⟩

@[simp] theorem zero_re : (0 : CQ).re = 0 := rfl
@[simp] theorem zero_im : (0 : CQ).im = 0 := rfl
@[simp] theorem one_re : (1 : CQ).re = 1 := rfl
@[simp] theorem one_im : (1 : CQ).im = 0 := rfl
@[simp] theorem add_re (a b : CQ) : (a + b).re = a.re + b.re := rfl
@[simp] theorem add_im (a b : CQ) : (a + b).im = a.im + b.im := rfl
@[simp] theorem neg_re (a : CQ) : (-a).re = -a.re := rfl
@[simp] theorem neg_im (a : CQ) : (-a).im = -a.im := rfl
@[simp] theorem mul_re (a b : CQ) : (a * b).re = a.re * b.re - a.im * b.im := rfl
@[simp] theorem mul_im (a b : CQ) : (a * b).im = a.re * b.im + a.im * b.re := rfl

instance : CommRing CQ where
  add_assoc a b c := by ext <;> simp <;> ring
  zero_add a := by ext <;> simp
  add_zero a := by ext <;> simp
  add_comm a b := by ext <;> simp <;> ring
  left_distrib a b c := by ext <;> simp <;> ring
  right_distrib a b c := by ext <;> simp <;> ring
  zero_mul a := by ext <;> simp
  mul_zero a := by ext <;> simp
  mul_assoc a b c := by ext <;> simp <;> ring
  one_mul a := by ext <;> simp
  mul_one a := by ext <;> simp
  mul_comm a b := by ext <;> simp <;> ring
  neg_add_cancel a := by ext <;> simp
  nsmul := nsmulRec
  zsmul := zsmulRec

/-- A real rational. -/
def ofRat (q : Rat) : CQ := ⟨q, 0⟩

end CQ

/-- An index: base label and ordinal (`Index::label()` is `base_ordinal`), and its proto indices, of which only the labels matter here. -/
structure Idx where
  base : List Char
  ord : Option Nat
  protos : List (List Char × Option Nat)
  deriving DecidableEq, Repr

/-- `Symmetry`. -/
inductive PermSym where
  | symm | antisymm | nonsymm
  deriving DecidableEq, Repr

/-- `std::variant<BraKetSymmetry, Hermiticity>`. -/
inductive BraKetSym where
  | conjugate | symm | nonsymm | hermitian | antiHermitian
  deriving DecidableEq, Repr

/-- `ColumnSymmetry`. -/
inductive ColSym where
  | symm | nonsymm
  deriving DecidableEq, Repr

/-- Leaves other than constants; `none` in a bundle of indices is an empty slot. -/
inductive Atom where
  | var (name : List Char) (conj : Bool)
  | pow (base : CQ ⊕ (List Char × Bool)) (exp : Rat) (conj : Bool)
  | tensor (name : List Char) (bra ket aux : List (Option Idx)) (p : PermSym) (b : BraKetSym) (c : ColSym)
  | op (name : List Char) (ann cre : List (Option Idx))
  deriving DecidableEq

/-- `Power::is_zero` (power.hpp:77-80); flattening is not used here. -/
instance : Atoms CQ Atom where
  isZero
    | .pow (.inl c) e _ => decide (0 < e) && decide (c = 0)
    | _ => false
  flat _ := none

abbrev Ex := Expr CQ Atom

/-- The character classes of the grammar, the labels of normal operators, and the spaces known to the registry. -/
structure Lex where
  /-- `x3::unicode::alpha` -/
  alpha : Char → Bool
  /-- `word_components` (deserialize.cpp:75-84) -/
  word : Char → Bool
  /-- the characters of `index_name` (deserialize.cpp:96-98) -/
  idx : Char → Bool
  /-- `x3::unicode::space` -/
  space : Char → Bool
  /-- `FNOperator::labels()` and `BNOperator::labels()` -/
  opLabel : List Char → Bool
  /-- `index_space_registry()->retrieve(label)` succeeds -/
  known : List Char → Bool

/-! ## Writing -/

/-- Decimal digits of a number below `2 ^ fuel`. -/
def digitsF : Nat → Nat → List Char
  | 0, _ => []
  | fuel + 1, n => if n < 10 then [Char.ofNat (48 + n)] else digitsF fuel (n / 10) ++ [Char.ofNat (48 + n % 10)]

/-- `str()` of a nonnegative integer. -/
def digits (n : Nat) : List Char := digitsF (n.log2 + 1) n

/-- `str()` of an integer. -/
def intText (i : Int) : List Char := (if i < 0 then ['-'] else []) ++ digits i.natAbs

/-- `n` or `n/d`. -/
def fracText (n : Int) (d : Nat) : List Char := intText n ++ (if d ≠ 1 then '/' :: digits d else [])

/-- `serialize_scalar` (serialize.cpp:89-130). -/
def scalarText (c : CQ) : List Char :=
  if c = 0 then ['0']
  else
    let re := if c.re.num ≠ 0 then fracText c.re.num c.re.den else []
    if c.im.num ≠ 0 then
      if re ≠ [] then
        if c.im.num < 0 then re ++ " - i ".toList ++ fracText (-c.im.num) c.im.den
        else re ++ " + i ".toList ++ fracText c.im.num c.im.den
      else fracText c.im.num c.im.den
    else re

/-- Elements separated by commas (`serialize_indices`, serialize.cpp:20-34). -/
def commas : List (List Char) → List Char
  | [] => []
  | [x] => x
  | x :: l => x ++ ',' :: commas l

/-- `Index::label()`. -/
def labelText (l : List Char × Option Nat) : List Char :=
  match l.2 with
  | some n => l.1 ++ '_' :: digits n
  | none => l.1

/-- `to_string(const Index&)` (serialize.cpp:268-285). -/
def idxText (i : Idx) : List Char :=
  labelText (i.base, i.ord) ++ (if i.protos ≠ [] then '<' :: commas (i.protos.map labelText) ++ ['>'] else [])

/-- An empty slot has an empty label. -/
def slotText : Option Idx → List Char
  | some i => idxText i
  | none => []

def permText : PermSym → Char
  | .symm => 'S'
  | .antisymm => 'A'
  | .nonsymm => 'N'

/-- `BraKetSymmetry` (serialize.cpp:65-76); tensors have no other kind. -/
def braketText : BraKetSym → Char
  | .conjugate => 'C'
  | .symm => 'S'
  | .nonsymm => 'N'
  | .hermitian => 'C'
  | .antiHermitian => 'N'

def colText : ColSym → Char
  | .symm => 'S'
  | .nonsymm => 'N'

/-- Leaves (serialize.cpp:142-162, 287-329). -/
def atomText (annot : Bool) : Atom → List Char
  | .var n conj => n ++ (if conj then ['^', '*'] else [])
  | .pow base e conj =>
    let b := match base with
      | .inl c => '(' :: scalarText c ++ [')']
      | .inr (n, false) => n
      | .inr (n, true) => '(' :: (n ++ ['^', '*']) ++ [')']
    let core := b ++ ['^', '('] ++ scalarText (CQ.ofRat e) ++ [')']
    if conj then '(' :: core ++ [')', '^', '*'] else core
  | .tensor n bra ket aux p b c =>
    n ++ '{' :: commas (bra.map slotText) ++ (if ket ≠ [] then ';' :: commas (ket.map slotText) else [])
      ++ (if aux ≠ [] then (if ket = [] then [';'] else []) ++ ';' :: commas (aux.map slotText) else [])
      ++ '}' :: (if annot then [':', permText p, '-', braketText b, '-', colText c] else [])
  | .op n ann cre =>
    n ++ '{' :: commas (ann.map slotText) ++ (if cre ≠ [] then ';' :: commas (cre.map slotText) else []) ++ ['}']

/-- How an addend is written if its own text is `s` (serialize.cpp:201-220). -/
def addendText (first isSum : Bool) (s : List Char) : List Char :=
  let cur := if isSum then s ++ '(' :: s ++ [')'] else s
  let neg := !isSum && decide (s.head? = some '-')
  if first then cur
  else if neg then " - ".toList ++ cur.tail
  else " + ".toList ++ cur

mutual
/-- `to_string(const Expr&)` (serialize.cpp:164-254). -/
def text (annot : Bool) : Ex → List Char
  | .const c => scalarText c
  | .atom a => atomText annot a
  | .prod c l => (if c ≠ 1 then scalarText c ++ [' '] else []) ++ factorsText annot l
  | .sum _ l => addendsText annot true l
/-- The loop of serialize.cpp:173-190. -/
def factorsText (annot : Bool) : List Ex → List Char
  | [] => []
  | e :: l =>
    (if e.isProd || e.isSum then '(' :: text annot e ++ [')'] else text annot e)
      ++ (if l.isEmpty then [] else " * ".toList) ++ factorsText annot l
/-- The loop of serialize.cpp:198-221. -/
def addendsText (annot : Bool) (first : Bool) : List Ex → List Char
  | [] => []
  | e :: l => addendText first e.isSum (text annot e) ++ addendsText annot false l
end

mutual
/-- `front()` is not called on an empty string (serialize.cpp:209). -/
def defined (annot : Bool) : Ex → Bool
  | .const _ => true
  | .atom _ => true
  | .prod _ l => definedL annot l
  | .sum _ l => definedL annot l && definedS annot l
def definedL (annot : Bool) : List Ex → Bool
  | [] => true
  | e :: l => defined annot e && definedL annot l
def definedS (annot : Bool) : List Ex → Bool
  | [] => true
  | e :: l => (e.isSum || !(text annot e).isEmpty) && definedS annot l
end

/-- `to_string`; `none`: undefined behaviour. -/
def write (annot : Bool) (e : Ex) : Option (List Char) := if defined annot e then some (text annot e) else none

/-! ## Reading -/

/-- Outcome of a parser: success with the rest of the input, failure (other alternatives are tried), an exception, undefined behaviour,
`fuel` exhausted. -/
inductive Res (α : Type) where
  | ok (a : α) (rest : List Char)
  | fail
  | throw
  | ub
  | stuck

namespace Res

/-- Sequence. -/
def bind {α β : Type} : Res α → (α → List Char → Res β) → Res β
  | ok a r, f => f a r
  | fail, _ => fail
  | throw, _ => throw
  | ub, _ => ub
  | stuck, _ => stuck

/-- Ordered choice. -/
def or {α : Type} : Res α → Res α → Res α
  | fail, b => b
  | a, _ => a

/-- After `>`. -/
def expect {α : Type} : Res α → Res α
  | fail => throw
  | a => a

/-- `-p` with a default. -/
def opt {α : Type} (d : α) (cs : List Char) : Res α → Res α
  | fail => ok d cs
  | a => a

end Res

/-- Pre-skip. -/
def skip (L : Lex) (cs : List Char) : List Char := cs.dropWhile L.space

/-- A literal inside a lexeme. -/
def rawLit (s : List Char) (cs : List Char) : Res Unit :=
  match s, cs with
  | [], r => .ok () r
  | _ :: _, [] => .fail
  | a :: s, b :: r => if a = b then rawLit s r else .fail

/-- A literal. -/
def lit (L : Lex) (s : List Char) (cs : List Char) : Res Unit := rawLit s (skip L cs)

/-- The values of `double` that occur: integers, and infinity and NaN. -/
inductive Dbl where
  | fin (neg : Bool) (n : Nat)
  | special
  deriving DecidableEq, Repr

/-- Rounding of an integer to a `double` (to nearest, ties to even). -/
def rne (n : Nat) : Nat :=
  if n ≤ 2 ^ 53 then n
  else
    let s := n.log2 - 52
    let q := n / 2 ^ s
    let r := n % 2 ^ s
    (if 2 ^ (s - 1) < r ∨ (r = 2 ^ (s - 1) ∧ q % 2 = 1) then q + 1 else q) * 2 ^ s

/-- Accumulation of a digit. -/
def accDigit (n : Nat) (c : Char) : Nat := rne (rne (n * 10) + (c.toNat - 48))

/-- `nan` or `inf` or `infinity`, in any case: the number of characters. -/
def specialLen (cs : List Char) : Option Nat :=
  let low := (cs.take 8).map Char.toLower
  if low.take 3 = "nan".toList then some 3
  else if low.take 3 = "inf".toList then (if low = "infinity".toList then some 8 else some 3)
  else none

/-- `x3::double_`. -/
def doubleP (L : Lex) (cs : List Char) : Res Dbl :=
  let s := skip L cs
  let neg := decide (s.head? = some '-')
  let r := if neg || decide (s.head? = some '+') then s.tail else s
  let ds := r.takeWhile Char.isDigit
  if ds ≠ [] then .ok (.fin neg (ds.foldl accDigit 0)) (r.dropWhile Char.isDigit)
  else
    match specialLen r with
    | some k => .ok .special (r.drop k)
    | none => .fail

/-- `number` (deserialize.cpp:92); a missing denominator is 1 (ast.hpp:41). -/
def numberP (L : Lex) (cs : List Char) : Res (Dbl × Dbl) :=
  (doubleP L cs).bind fun n r =>
    (((lit L ['/'] r).bind fun _ r' => doubleP L r').opt (.fin false 1) r).bind fun d r' => .ok (n, d) r'

/-- `to_constant` (ast_conversions.hpp:215-228), also for exponents (lines 366-378): the value, or what goes wrong.  Casting a `double`
that is not within the range of `std::int64_t` is undefined. -/
def toRat (n : Dbl × Dbl) (r : List Char) : Res Rat :=
  match n with
  | (.fin s a, .fin t b) =>
    if a < 2 ^ 63 ∧ b < 2 ^ 63 then
      if b = 0 then .throw
      else .ok ((if s then -(a : Rat) else a) / (if t then -(b : Rat) else b)) r
    else .ub
  | _ => .ub

/-- `name` (deserialize.cpp:88-90). -/
def nameP (L : Lex) (cs : List Char) : Res (List Char) :=
  match cs with
  | [] => .fail
  | c :: r =>
    if L.alpha c then
      let run := r.takeWhile L.word
      if run.getLast?.any (fun d => decide (d ≠ '_')) then .ok (c :: run) (r.dropWhile L.word) else .ok [c] r
    else .fail

/-- `variable` (deserialize.cpp:94). -/
def variableP (L : Lex) (cs : List Char) : Res (List Char × Bool) :=
  (nameP L (skip L cs)).bind fun n r =>
    (((rawLit ['^', '*'] r).bind fun _ r' => .ok true r').opt false r).bind fun b r' => .ok (n, b) r'

/-- `x3::uint_`. -/
def uintP (cs : List Char) : Res Nat :=
  let ds := cs.takeWhile Char.isDigit
  let v := ds.foldl (fun n c => n * 10 + (c.toNat - 48)) 0
  if ds ≠ [] ∧ v < 2 ^ 32 then .ok v (cs.dropWhile Char.isDigit) else .fail

/-- `index_label` (deserialize.cpp:100-102) without pre-skip. -/
def labelP (L : Lex) (cs : List Char) : Res (List Char × Option Nat) :=
  let n := cs.takeWhile L.idx
  if n ≠ [] then
    ((rawLit ['_'] (cs.dropWhile L.idx)).opt () (cs.dropWhile L.idx)).bind fun _ r =>
      (uintP r).bind fun v r' => .ok (n, some v) r'
  else .fail

/-- `*(sep >> p)`: a failure of `p` gives back the separator. -/
def sepLoop {α : Type} (p : List Char → Res α) (sep : List Char → Res Unit) : Nat → List Char → Res (List α)
  | 0, _ => .stuck
  | fuel + 1, cs =>
    (((sep cs).bind fun _ r => p r).bind fun a r => (sepLoop p sep fuel r).bind fun l r' => .ok (a :: l) r').opt [] cs

/-- `p % sep`. -/
def listP {α : Type} (fuel : Nat) (p : List Char → Res α) (sep : List Char → Res Unit) (cs : List Char) : Res (List α) :=
  (p cs).bind fun a r => (sepLoop p sep fuel r).bind fun l r' => .ok (a :: l) r'

/-- `index` (deserialize.cpp:104-106), and `to_index` (ast_conversions.hpp:43-87), which throws for unknown spaces. -/
def indexP (L : Lex) (fuel : Nat) (cs : List Char) : Res Idx :=
  (labelP L (skip L cs)).bind fun l r =>
    (((lit L ['<'] r).bind fun _ r1 =>
        (listP fuel (fun x => labelP L (skip L x)) (lit L [',']) r1).bind fun ps r2 =>
          (lit L ['>'] r2).bind fun _ r3 => .ok ps r3).opt [] r).bind fun ps r' =>
      if L.known l.1 && ps.all (fun p => L.known p.1) then .ok ⟨l.1, l.2, ps⟩ r' else .throw

/-- `-(index % ',')`. -/
def indicesP (L : Lex) (fuel : Nat) (cs : List Char) : Res (List (Option Idx)) :=
  ((listP fuel (indexP L fuel) (lit L [',']) cs).opt [] cs).bind fun l r => .ok (l.map some) r

/-- `index_groups` (deserialize.cpp:109-111) and `make_indices` (ast_conversions.hpp:89-124): bra, ket, auxiliary indices. -/
def groupsP (L : Lex) (fuel : Nat) (cs : List Char) : Res (List (Option Idx) × List (Option Idx) × List (Option Idx)) :=
  ((lit L ['_', '{'] cs).bind fun _ r => (indicesP L fuel r).expect.bind fun b r => (lit L ['}', '^', '{'] r).expect.bind fun _ r =>
      (indicesP L fuel r).expect.bind fun k r => (lit L ['}'] r).expect.bind fun _ r => .ok (b, k, []) r).or
  (((lit L ['^', '{'] cs).bind fun _ r => (indicesP L fuel r).expect.bind fun k r => (lit L ['}', '_', '{'] r).expect.bind fun _ r =>
      (indicesP L fuel r).expect.bind fun b r => (lit L ['}'] r).expect.bind fun _ r => .ok (b, k, []) r).or
  ((lit L ['{'] cs).bind fun _ r => (indicesP L fuel r).expect.bind fun b r =>
      (((lit L [';'] r).bind fun _ r => (indicesP L fuel r).expect).opt [] r).expect.bind fun k r =>
      (((lit L [';'] r).bind fun _ r => (indicesP L fuel r).expect).opt [] r).expect.bind fun x r =>
      (lit L ['}'] r).expect.bind fun _ r => .ok (b, k, x) r))

/-- A capital letter inside a lexeme. -/
def upperP (cs : List Char) : Res Char :=
  match cs with
  | c :: r => if c.isUpper then .ok c r else .fail
  | [] => .fail

/-- `symmetry_spec` (deserialize.cpp:113-115). -/
def symmetryP (cs : List Char) : Res (Char × Option Char × Option Char) :=
  (rawLit [':'] cs).bind fun _ r => (upperP r).bind fun a r =>
    (((rawLit ['-'] r).bind fun _ r => (upperP r).bind fun b r => .ok (some b) r).opt none r).bind fun b r =>
    (((rawLit ['-'] r).bind fun _ r => (upperP r).bind fun c r => .ok (some c) r).opt none r).bind fun c r => .ok (a, b, c) r

/-- `to_perm_symmetry` (ast_conversions.hpp:126-147). -/
def toPerm (c : Char) : Option PermSym :=
  if c = 'A' then some .antisymm else if c = 'S' then some .symm else if c = 'N' then some .nonsymm else none

/-- `to_braket_symmetry` (ast_conversions.hpp:149-192). -/
def toBraKet (d : BraKetSym) : Option Char → Option BraKetSym
  | none => some d
  | some c =>
    if c = 'C' then some .conjugate else if c = 'S' then some .symm else if c = 'N' then some .nonsymm
    else if c = 'H' then some .hermitian else if c = 'A' then some .antiHermitian else none

/-- `to_column_symmetry` (ast_conversions.hpp:194-213). -/
def toCol (d : ColSym) : Option Char → Option ColSym
  | none => some d
  | some c => if c = 'S' then some .symm else if c = 'N' then some .nonsymm else none

/-- `DefaultSymmetries`. -/
structure Defaults where
  p : PermSym
  b : BraKetSym
  c : ColSym

/-- `tensor` (deserialize.cpp:117-119) and its conversion (ast_conversions.hpp:282-344).  The symmetry of a normal operator is not
checked in the model. -/
def tensorP (L : Lex) (D : Defaults) (fuel : Nat) (cs : List Char) : Res Atom :=
  (nameP L (skip L cs)).bind fun n r => (groupsP L fuel r).bind fun g r =>
    (((symmetryP r).bind fun s r' => .ok (some s) r').opt none r).bind fun s r =>
      if L.opLabel n then
        if g.2.2 = [] then .ok (.op n g.1 g.2.1) r else .throw
      else
        match s with
        | none => .ok (.tensor n g.1 g.2.1 g.2.2 D.p D.b D.c) r
        | some (a, b, c) =>
          match toPerm a, toBraKet D.b b, toCol D.c c with
          | some p, some q, some s => .ok (.tensor n g.1 g.2.1 g.2.2 p q s) r
          | _, _, _ => .throw

/-- `number | variable`, the base of a power. -/
def baseP (L : Lex) (cs : List Char) : Res ((Dbl × Dbl) ⊕ (List Char × Bool)) :=
  ((numberP L cs).bind fun n r => .ok (.inl n) r).or ((variableP L cs).bind fun v r => .ok (.inr v) r)

/-- `power_core` (deserialize.cpp:123-124). -/
def powerCoreP (L : Lex) (cs : List Char) : Res (((Dbl × Dbl) ⊕ (List Char × Bool)) × (Dbl × Dbl)) :=
  (((lit L ['('] cs).bind fun _ r => (baseP L r).bind fun b r => (lit L [')'] r).bind fun _ r => .ok b r).or (baseP L cs)).bind fun b r =>
    (lit L ['^'] r).bind fun _ r => (lit L ['('] r).bind fun _ r => (numberP L r).bind fun e r =>
      (lit L [')'] r).bind fun _ r => .ok (b, e) r

/-- `power` (deserialize.cpp:125-126) and its conversion (ast_conversions.hpp:361-385). -/
def powerP (L : Lex) (cs : List Char) : Res Atom :=
  (((powerCoreP L cs).bind fun p r => .ok (p, false) r).or
    ((lit L ['('] cs).bind fun _ r => (powerCoreP L r).bind fun p r => (lit L [')'] r).bind fun _ r =>
      (lit L ['^', '*'] r).bind fun _ r => .ok (p, true) r)).bind fun x r =>
    match x.1.1 with
    | .inl n => (toRat n r).bind fun q r => (toRat x.1.2 r).bind fun e r => .ok (.pow (.inl (CQ.ofRat q)) e x.2) r
    | .inr v => (toRat x.1.2 r).bind fun e r => .ok (.pow (.inr v) e x.2) r

/-- A factor: a number, or anything else converted to an expression. -/
inductive Item where
  | num (q : Rat)
  | ex (e : Ex)

/-- `grouped` (deserialize.cpp:128-130); `rec` reads a sum. -/
def groupedP (L : Lex) (D : Defaults) (fuel : Nat) (rec : List Char → Res Ex) (cs : List Char) : Res Item :=
  ((powerP L cs).bind fun a r => .ok (.ex (.atom a)) r).or
  (((lit L ['('] cs).bind fun _ r => (rec r).expect.bind fun e r => (lit L [')'] r).expect.bind fun _ r => .ok (.ex e) r).or
  ((((numberP L cs).bind fun n r => (toRat n r).bind fun q r => .ok (.num q) r).or
    (((tensorP L D fuel cs).bind fun a r => .ok (.ex (.atom a)) r).or
    ((variableP L cs).bind fun v r => .ok (.ex (.atom (.var v.1 v.2))) r)))))

/-- `product` (deserialize.cpp:132). -/
def productP (L : Lex) (D : Defaults) (fuel : Nat) (rec : List Char → Res Ex) (cs : List Char) : Res (List Item) :=
  listP fuel (groupedP L D fuel rec) (fun r => (lit L ['*'] r).opt () r) cs

def Item.nums : List Item → Rat
  | [] => 1
  | .num q :: l => q * Item.nums l
  | .ex _ :: l => Item.nums l

def Item.exprs : List Item → List Ex
  | [] => []
  | .num _ :: l => Item.exprs l
  | .ex e :: l => e :: Item.exprs l

/-- `ast_to_expr(const ast::Product&)` (ast_conversions.hpp:403-444). -/
def convProduct (l : List Item) : Ex :=
  match l with
  | [.num q] => .const (CQ.ofRat q)
  | [.ex e] => e
  | l =>
    match Item.exprs l with
    | [] => .const (CQ.ofRat (Item.nums l))
    | [e] => if Item.nums l = 1 then e else mkProd .No (CQ.ofRat (Item.nums l)) [e]
    | es => mkProd .No (CQ.ofRat (Item.nums l)) es

/-- `ast_to_expr(const ast::Sum&)` for at least one summand (ast_conversions.hpp:446-467). -/
def convSum (l : List Ex) : Ex :=
  match l with
  | [e] => e
  | l => mkSum l

/-- `process_addend` (semantic_actions.hpp:47-71). -/
def addend (neg : Bool) (l : List Item) : Ex := convProduct (if neg then .num (-1) :: l else l)

/-- `*addend` (deserialize.cpp:136-138). -/
def addLoop (L : Lex) (product : List Char → Res (List Item)) : Nat → List Char → Res (List Ex)
  | 0, _ => .stuck
  | fuel + 1, cs =>
    ((((lit L ['+'] cs).bind fun _ r => .ok false r).or ((lit L ['-'] cs).bind fun _ r => .ok true r)).bind fun neg r =>
      (product r).expect.bind fun l r => (addLoop L product fuel r).bind fun es r => .ok (addend neg l :: es) r).opt [] cs

/-- `sum` (deserialize.cpp:134-138).  The `'-'` of the first addend, once read, is not given back. -/
def sumP (L : Lex) (D : Defaults) : Nat → List Char → Res Ex
  | 0, _ => .stuck
  | fuel + 1, cs =>
    (((lit L ['-'] cs).bind fun _ r => .ok true r).or (((lit L ['+'] cs).opt () cs).bind fun _ r => .ok false r)).bind fun neg r =>
      (productP L D fuel (sumP L D fuel) r).bind fun l r =>
        (addLoop L (productP L D fuel (sumP L D fuel)) fuel r).bind fun es r => .ok (convSum (addend neg l :: es)) r

/-- What `from_string<ExprPtr>` does. -/
inductive Outcome where
  | null
  | expr (e : Ex)
  | throw
  | ub
  | stuck

/-- `from_string<ExprPtr>` (deserialize.cpp:140, 205-245, 293). -/
def read (L : Lex) (D : Defaults) (fuel : Nat) (cs : List Char) : Outcome :=
  match sumP L D fuel cs with
  | .ok e r => if skip L r = [] then .expr e else .throw
  | .fail => if skip L cs = [] then .null else .throw
  | .throw => .throw
  | .ub => .ub
  | .stuck => .stuck

end SeQuant.Serial
