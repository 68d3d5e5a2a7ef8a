import Verif.Serial.Model
import Verif.Expression.Lemmas

/-!
# Specification for the serialization: which expressions, and which character classes

Nothing here refers to the reader.
-/

namespace SeQuant.Serial

open SeQuant.Expression

/-- What the proofs need to know about the character classes: they hold for the classes of Unicode used by the code. -/
structure Lex.Ok (L : Lex) : Prop where
  alpha_word : ∀ c, L.alpha c = true → L.word c = true
  word_space : ∀ c, L.word c = true → L.space c = false
  idx_space : ∀ c, L.idx c = true → L.space c = false
  punct : ∀ c ∈ ['(', ')', '*', '^', '{', '}', ';', ',', '<', '>', '/', '+', '-', ':'],
    L.word c = false ∧ L.idx c = false ∧ L.space c = false
  under : L.alpha '_' = false ∧ L.idx '_' = false ∧ L.space '_' = false
  digit : ∀ c, c.isDigit = true → L.alpha c = false ∧ L.idx c = false ∧ L.space c = false
  blank : L.space ' ' = true

/-- A real rational that survives the `double`s of the reader. -/
def ScalarOk (c : CQ) : Prop := c.im = 0 ∧ c.re.num.natAbs ≤ 2 ^ 53 ∧ c.re.den ≤ 2 ^ 53

instance (c : CQ) : Decidable (ScalarOk c) := by unfold ScalarOk; infer_instance

/-- The name is one the grammar can read: a letter, then word components not ending in an underscore; it does not start like a special
floating point value. -/
def NameOk (L : Lex) (n : List Char) : Bool :=
  match n with
  | [] => false
  | c :: r =>
    L.alpha c && r.all L.word && (r.isEmpty || decide (r.getLast? ≠ some '_')) &&
      decide ((n.take 3).map Char.toLower ≠ "nan".toList) && decide ((n.take 3).map Char.toLower ≠ "inf".toList)

/-- The label of an index is readable and its space known. -/
def LabelOk (L : Lex) (l : List Char × Option Nat) : Bool :=
  !l.1.isEmpty && l.1.all L.idx && l.2.any (fun n => decide (n < 2 ^ 32)) && L.known l.1

/-- The slot is occupied, by an index with readable labels. -/
def SlotOk (L : Lex) : Option Idx → Bool
  | some i => LabelOk L (i.base, i.ord) && i.protos.all (LabelOk L)
  | none => false

/-- Leaves that are written and read faithfully. -/
def AtomOk (L : Lex) (D : Defaults) (annot : Bool) : Atom → Prop
  | .var n _ => NameOk L n = true
  | .pow (.inl c) e _ => ScalarOk c ∧ ScalarOk (CQ.ofRat e)
  | .pow (.inr v) e _ => NameOk L v.1 = true ∧ ScalarOk (CQ.ofRat e)
  | .tensor n bra ket aux p b c =>
    NameOk L n = true ∧ L.opLabel n = false ∧ (∀ s ∈ bra ++ ket ++ aux, SlotOk L s = true) ∧
      b ∈ [BraKetSym.conjugate, .symm, .nonsymm] ∧ (annot = true ∨ (p = D.p ∧ b = D.b ∧ c = D.c))
  | .op n ann cre => NameOk L n = true ∧ L.opLabel n = true ∧ ∀ s ∈ ann ++ cre, SlotOk L s = true

mutual
/-- Expressions whose text can be read: real scalars of moderate size, faithful leaves, no empty sum, no product without factors and scalar, no
sum directly inside a sum. -/
def ExprOk (L : Lex) (D : Defaults) (annot : Bool) : Ex → Prop
  | .const c => ScalarOk c
  | .atom a => AtomOk L D annot a
  | .prod c l => ScalarOk c ∧ (c ≠ 1 ∨ l ≠ []) ∧ FactorsOk L D annot l
  | .sum _ l => l ≠ [] ∧ AddendsOk L D annot l
def FactorsOk (L : Lex) (D : Defaults) (annot : Bool) : List Ex → Prop
  | [] => True
  | e :: l => ExprOk L D annot e ∧ FactorsOk L D annot l
def AddendsOk (L : Lex) (D : Defaults) (annot : Bool) : List Ex → Prop
  | [] => True
  | e :: l => (e.isSum = false ∧ ExprOk L D annot e) ∧ AddendsOk L D annot l
end

/-- Two expressions have the same value under every interpretation of the leaves in every algebra. -/
def SameValue (e e' : Ex) : Prop :=
  ∀ (R : Type) [Ring R] [Algebra CQ R] (I : Atom → R), Interp CQ I → eval I e = eval I e'

end SeQuant.Serial
