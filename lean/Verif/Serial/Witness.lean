import Verif.Serial.Props

/-!
# Serialization: examples, and expressions that are not written and read faithfully
-/

namespace SeQuant.Serial

open SeQuant.Expression

/-! ## Comparing expressions -/

mutual
/-- Equality of expressions, computed. -/
def exEq : Ex → Ex → Bool
  | .const a, .const b => decide (a = b)
  | .atom a, .atom b => decide (a = b)
  | .prod a l, .prod b m => decide (a = b) && exEqL l m
  | .sum a l, .sum b m => decide (a = b) && exEqL l m
  | _, _ => false
def exEqL : List Ex → List Ex → Bool
  | [], [] => true
  | a :: l, b :: m => exEq a b && exEqL l m
  | _, _ => false
end

mutual
theorem exEq_iff : (a b : Ex) → (exEq a b = true ↔ a = b)
  | .const a, b => by cases b <;> simp [exEq]
  | .atom a, b => by cases b <;> simp [exEq]
  | .prod a l, b => by
    cases b with
    | prod b m => simp [exEq, exEqL_iff l m]
    | _ => simp [exEq]
  | .sum a l, b => by
    cases b with
    | sum b m => simp [exEq, exEqL_iff l m]
    | _ => simp [exEq]
theorem exEqL_iff : (l m : List Ex) → (exEqL l m = true ↔ l = m)
  | [], [] => by simp [exEqL]
  | [], _ :: _ => by simp [exEqL]
  | _ :: _, [] => by simp [exEqL]
  | a :: l, b :: m => by simp [exEqL, exEq_iff a b, exEqL_iff l m]
end

instance : DecidableEq Ex := fun a b => decidable_of_iff _ (exEq_iff a b)

deriving instance DecidableEq for Outcome

/-! ## A concrete choice of character classes -/

/-- ASCII, without the arrows and subscripts of the code; `a` is the label of the normal operators, `i` and `a` those of the spaces. -/
def ascii : Lex where
  alpha := Char.isAlpha
  word c := c.isAlphanum || c == '_'
  idx := Char.isAlpha
  space := Char.isWhitespace
  opLabel n := n == ['a']
  known n := n == ['i'] || n == ['a']

theorem ascii_ok : ascii.Ok where
  alpha_word c h := by
    have h : c.isAlpha = true := h
    show (c.isAlphanum || c == '_') = true
    simp [Char.isAlphanum, h]
  word_space c h := by
    have h : (c.isAlphanum || c == '_') = true := h
    show c.isWhitespace = false
    by_contra hc
    rw [Bool.not_eq_false] at hc
    have : ((c = ' ' ∨ c = '\t') ∨ c = '\r') ∨ c = '\n' := by simpa [Char.isWhitespace] using hc
    rcases this with ((rfl | rfl) | rfl) | rfl <;> revert h <;> decide
  idx_space c h := by
    have h : c.isAlpha = true := h
    show c.isWhitespace = false
    by_contra hc
    rw [Bool.not_eq_false] at hc
    have : ((c = ' ' ∨ c = '\t') ∨ c = '\r') ∨ c = '\n' := by simpa [Char.isWhitespace] using hc
    rcases this with ((rfl | rfl) | rfl) | rfl <;> revert h <;> decide
  punct := by decide
  under := by decide
  digit c h := by
    have hd : (48 : UInt32) ≤ c.val ∧ c.val ≤ 57 := by simpa [Char.isDigit] using h
    refine ⟨?_, ?_, ?_⟩
    · show c.isAlpha = false
      simp only [Char.isAlpha, Char.isUpper, Char.isLower, Bool.or_eq_false_iff, decide_eq_false_iff_not, UInt32.le_iff_toNat_le, ge_iff_le,
        Bool.and_eq_false_iff] at hd ⊢
      simp at hd ⊢
      omega
    · show c.isAlpha = false
      simp only [Char.isAlpha, Char.isUpper, Char.isLower, Bool.or_eq_false_iff, decide_eq_false_iff_not, UInt32.le_iff_toNat_le, ge_iff_le,
        Bool.and_eq_false_iff] at hd ⊢
      simp at hd ⊢
      omega
    · show c.isWhitespace = false
      by_contra hc
      rw [Bool.not_eq_false] at hc
      have : ((c = ' ' ∨ c = '\t') ∨ c = '\r') ∨ c = '\n' := by simpa [Char.isWhitespace] using hc
      rcases this with ((rfl | rfl) | rfl) | rfl <;> revert h <;> decide
  blank := by decide

/-- Default symmetries. -/
def dflt : Defaults := ⟨.nonsymm, .conjugate, .symm⟩

/-- `i_1`. -/
def i1 : Idx := ⟨['i'], some 1, []⟩
/-- `a_1<i_1>`. -/
def a1i1 : Idx := ⟨['a'], some 1, [(['i'], some 1)]⟩
/-- `t{a_1<i_1>;i_1}` -/
def t1 : Ex := .atom (.tensor ['t'] [some a1i1] [some i1] [] .antisymm .nonsymm .symm)
def va : Ex := .atom (.var ['x'] true)
def vb : Ex := .atom (.var "y_2".toList false)

/-- `-1/2 t{..} * x^* + 3 (y_2)^(1/2)^... `. -/
def sample : Ex :=
  .sum (some 2) [.prod ⟨-1/2, 0⟩ [t1, va], .prod 1 [vb, .sum none [va, vb]], .const ⟨-3, 0⟩,
    .atom (.pow (.inr (['x'], true)) (1/2) true), .prod ⟨7/3, 0⟩ [.atom (.op ['a'] [some i1] [])]]

example : text true sample =
    "-1/2 t{a_1<i_1>;i_1}:A-N-S * x^* + y_2 * (x^* + y_2) - 3 + ((x^*)^(1/2))^* + 7/3 a{i_1}".toList := by decide +kernel

example : ExprOk ascii dflt true sample ∧ Expression.Norm sample ∧ Proper sample := by
  refine ⟨?_, ?_, ?_⟩
  · simp only [sample, t1, va, vb, ExprOk, FactorsOk, AddendsOk, AtomOk]
    decide +kernel
  · have h1 : Expression.Norm (.sum none [va, vb]) := by
      simp only [va, vb, Expression.Norm, Expression.NormS]
      exact ⟨by decide +kernel, .inl ⟨trivial, by decide +kernel⟩⟩
    rw [sample, Expression.Norm]
    refine ⟨?_, .inr ⟨[_, _], _, _, rfl, rfl, by simp [Expr.isConst], by simp [Expr.isConst]⟩⟩
    have h2 : Expression.Norm (.prod 1 [vb, .sum none [va, vb]]) := by
      rw [Expression.Norm, NormP_iff]
      intro x hx
      simp only [List.mem_cons, List.not_mem_nil, or_false] at hx
      rcases hx with rfl | rfl
      · exact ⟨by simp only [vb, Expression.Norm], rfl, rfl⟩
      · exact ⟨h1, rfl, rfl⟩
    rw [NormS_iff]
    intro x hx
    simp only [List.mem_cons, List.not_mem_nil, or_false] at hx
    rcases hx with rfl | rfl | rfl | rfl | rfl
    · exact ⟨by simp only [t1, va, Expression.Norm, Expression.NormP]; decide +kernel, rfl, by decide +kernel⟩
    · exact ⟨h2, rfl, by decide +kernel⟩
    · exact ⟨by simp only [Expression.Norm], rfl, by decide +kernel⟩
    · exact ⟨by simp only [Expression.Norm], rfl, by decide +kernel⟩
    · exact ⟨by simp only [Expression.Norm, Expression.NormP]; decide +kernel, rfl, by decide +kernel⟩
  · simp only [sample, t1, va, vb, Proper, ProperL]
    decide +kernel

example : read ascii dflt 200 (text true sample) = .expr sample := by decide +kernel

/-- Reading rejects unknown spaces, junk after an expression, a denominator zero, and index groups left open; blank text is no expression. -/
example : read ascii dflt 200 "t{z_1;i_1}".toList = .throw ∧ read ascii dflt 200 "x )".toList = .throw ∧
    read ascii dflt 200 "1/0".toList = .throw ∧ read ascii dflt 200 "t{i_1".toList = .throw ∧ read ascii dflt 200 " ".toList = .null := by
  decide +kernel

/-! ## What goes wrong -/

/-- All leaves are zero. -/
theorem interp_zero : Interp CQ (fun _ : Atom => (0 : CQ)) where
  zero _ _ := rfl
  flat_const a c h := by simp [Atoms.flat] at h
  flat_atom a c h := by simp [Atoms.flat] at h

/-- The variable `n` is one, all other leaves are zero. -/
def oneAt (n : List Char) : Atom → CQ
  | .var m _ => if m = n then 1 else 0
  | _ => 0

theorem interp_oneAt (n : List Char) : Interp CQ (oneAt n) where
  zero a h := by cases a <;> simp [Atoms.isZero] at h; rfl
  flat_const a c h := by simp [Atoms.flat] at h
  flat_atom a c h := by simp [Atoms.flat] at h

theorem not_same {e e' : Ex} (I : Atom → CQ) (hI : Interp CQ I) (h : eval I e ≠ eval I e') : ¬ SameValue e e' :=
  fun hs => h (hs CQ I hI)

/-- C39 fails for imaginary constants: they are written without the imaginary unit. -/
theorem roundtrip_fails_imaginary : text true (.const ⟨0, 2⟩) = ['2'] ∧
    read ascii dflt 10 (text true (.const ⟨0, 2⟩)) = .expr (.const ⟨2, 0⟩) ∧ ¬ SameValue (.const ⟨0, 2⟩) (.const ⟨2, 0⟩) := by
  refine ⟨by decide +kernel, by decide +kernel, not_same _ interp_zero ?_⟩
  simp only [eval, Algebra.algebraMap_self, RingHom.id_apply]
  decide +kernel

/-- C39 fails for complex constants: the imaginary unit is read as a variable. -/
theorem roundtrip_fails_complex : text true (.const ⟨1, 2⟩) = "1 + i 2".toList ∧
    read ascii dflt 20 (text true (.const ⟨1, 2⟩)) = .expr (.sum (some 0) [.const ⟨1, 0⟩, .prod ⟨2, 0⟩ [.atom (.var ['i'] false)]]) ∧
    ¬ SameValue (.const ⟨1, 2⟩) (.sum (some 0) [.const ⟨1, 0⟩, .prod ⟨2, 0⟩ [.atom (.var ['i'] false)]]) := by
  refine ⟨by decide +kernel, by decide +kernel, not_same _ interp_zero ?_⟩
  simp only [eval, evalSum, evalProd, Algebra.algebraMap_self, RingHom.id_apply]
  decide +kernel

/-- C39 fails for sums in sums: the inner sum is written twice. -/
theorem roundtrip_fails_nested : text true (.sum none [vb, .sum none [vb, vb]]) = "y_2 + y_2 + y_2(y_2 + y_2)".toList ∧
    read ascii dflt 50 (text true (.sum none [vb, .sum none [vb, vb]])) = .expr (.sum none [vb, vb, .prod 1 [vb, .sum none [vb, vb]]]) ∧
    ¬ SameValue (.sum none [vb, .sum none [vb, vb]]) (.sum none [vb, vb, .prod 1 [vb, .sum none [vb, vb]]]) := by
  refine ⟨by decide +kernel, by decide +kernel, not_same _ (interp_oneAt "y_2".toList) ?_⟩
  simp only [eval, evalSum, evalProd, vb, oneAt]
  decide +kernel

/-- C39 fails for a product without factors whose scalar is one: writing it as a summand is undefined, as a factor it cannot be read. -/
theorem roundtrip_fails_empty : write true (.sum none [.prod 1 [], vb]) = none ∧
    text true (.prod 1 [vb, .prod 1 []]) = "y_2 * ()".toList ∧ read ascii dflt 20 (text true (.prod 1 [vb, .prod 1 []])) = .throw ∧
    read ascii dflt 20 (text true (.prod 1 [])) = .null := by decide +kernel

/-- C39 fails for names starting like special floating point values. -/
theorem roundtrip_fails_inf : read ascii dflt 20 (text true (.atom (.var "info".toList false))) = .ub ∧
    read ascii dflt 20 (text true (.atom (.var "Nancy".toList false))) = .ub := by decide +kernel

/-- C39 fails for integers above `2 ^ 53`; `2 ^ 63` has undefined behaviour. -/
theorem roundtrip_fails_large : read ascii dflt 30 (text true (.const ⟨9007199254740993, 0⟩)) = .expr (.const ⟨9007199254740992, 0⟩) ∧
    read ascii dflt 30 (text true (.const ⟨9223372036854775808, 0⟩)) = .ub := by decide +kernel

/-- C39 fails for empty slots, for indices without ordinal and for ordinals of 33 bits. -/
theorem roundtrip_fails_slots :
    read ascii dflt 30 (text true (.atom (.tensor ['t'] [none, some i1] [some i1] [] .nonsymm .nonsymm .symm))) = .throw ∧
    read ascii dflt 30 (text true (.atom (.tensor ['t'] [some ⟨['i'], none, []⟩] [] [] .nonsymm .nonsymm .symm))) = .throw ∧
    read ascii dflt 40 (text true (.atom (.tensor ['t'] [some ⟨['i'], some 4294967296, []⟩] [] [] .nonsymm .nonsymm .symm))) = .throw := by
  decide +kernel

/-- C39 fails for tensors with the label of a normal operator: they become operators. -/
theorem roundtrip_fails_label :
    read ascii dflt 30 (text true (.atom (.tensor ['a'] [some i1] [some i1] [] .nonsymm .nonsymm .symm))) =
      .expr (.atom (.op ['a'] [some i1] [some i1])) := by decide +kernel

/-- C39 fails if symmetries are not annotated: they become the defaults. -/
theorem roundtrip_fails_symmetry :
    read ascii dflt 30 (text false (.atom (.tensor ['t'] [some i1] [some i1] [] .antisymm .nonsymm .symm))) =
      .expr (.atom (.tensor ['t'] [some i1] [some i1] [] .nonsymm .conjugate .symm)) := by decide +kernel

/-- A name of several letters followed by `_{` is split: the underscore is a component of the name, but may not be its end, hence only the first
letter is taken for a name, and what follows for a further factor. -/
theorem read_splits_subscript : read ascii dflt 40 "t_{i_1}^{i_1}".toList = .expr (.atom (.tensor ['t'] [some i1] [some i1] [] .nonsymm .conjugate .symm)) ∧
    read ascii dflt 40 "gt_{i_1}^{i_1}".toList =
      .expr (.prod 1 [.atom (.var ['g'] false), .atom (.tensor ['t'] [some i1] [some i1] [] .nonsymm .conjugate .symm)]) := by decide +kernel

end SeQuant.Serial
