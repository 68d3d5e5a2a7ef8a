import Verif.Julia.Props

/-!
# Domains of tensors for TensorKit (C127)

Transcription of `JuliaTensorKitGenerator::domain` (core/export/julia_tensor_kit.hpp:76-100); a tensor is given by the texts of the dimensions of
its bra indices and of the others.
-/

namespace SeQuant.Julia

/-- The loop (88-97). -/
def domLoop (b n i : Nat) : List Txt → Txt
  | [] => []
  | d :: l => "ℝ^".toList ++ d ++ (if i = b - 1 then ", ".toList else if i + 1 < n then " ⊗ ".toList else []) ++ domLoop b n (i + 1) l

/-- `domain` (76-100); `none` is an exception. -/
def domain (bra rest : List Txt) : Option Txt :=
  if bra.length = 0 ∧ 0 < bra.length + rest.length then none else some (domLoop bra.length (bra.length + rest.length) 0 (bra ++ rest))

/-- A tensor product of spaces. -/
def space : List Txt → Txt
  | [] => []
  | [d] => "ℝ^".toList ++ d
  | d :: e :: l => "ℝ^".toList ++ d ++ " ⊗ ".toList ++ space (e :: l)

theorem loop_rest (l : List Txt) (b n i : Nat) (hb : 0 < b) (hi : b ≤ i) (hn : i + l.length = n) : domLoop b n i l = space l := by
  induction l generalizing i with
  | nil => rfl
  | cons d l ih =>
    have h1 : ¬ i = b - 1 := by omega
    cases l with
    | nil =>
      have h2 : ¬ i + 1 < n := by simp at hn; omega
      simp only [domLoop, space, if_neg h1, if_neg h2, List.append_nil]
    | cons e l =>
      have h2 : i + 1 < n := by simp at hn; omega
      rw [domLoop, if_neg h1, if_pos h2, ih (i + 1) (by omega) (by simp at hn ⊢; omega), space]

theorem loop_bra (l r : List Txt) (hl : l ≠ []) (b n i : Nat) (hi : i + l.length = b) (hn : b + r.length = n) :
    domLoop b n i (l ++ r) = space l ++ ", ".toList ++ space r := by
  induction l generalizing i with
  | nil => exact absurd rfl hl
  | cons d l ih =>
    cases l with
    | nil =>
      have h1 : i = b - 1 := by simp at hi; omega
      rw [List.cons_append, List.nil_append, domLoop, if_pos h1, loop_rest r b n (i + 1) (by simp at hi; omega) (by simp at hi; omega)
        (by simp at hi; omega), space]
    | cons e l =>
      have h1 : ¬ i = b - 1 := by simp at hi; omega
      have h2 : i + 1 < n := by simp at hi; omega
      rw [List.cons_append, domLoop, if_neg h1, if_pos h2, ih (by simp) (i + 1) (by simp at hi ⊢; omega), space]
      simp only [List.append_assoc]

/-- **C127.** The domain of a tensor for TensorKit is the product of the spaces of its bra indices, a comma, and that of the others; without bra
indices there is none. -/
theorem kit_domain (bra rest : List Txt) : (bra ≠ [] → domain bra rest = some (space bra ++ ", ".toList ++ space rest)) ∧
    (domain [] (rest) = if rest = [] then some [] else none) := by
  constructor
  · intro h
    have h0 : ¬ (bra.length = 0 ∧ 0 < bra.length + rest.length) := fun hc => h (List.length_eq_zero_iff.1 hc.1)
    rw [domain, if_neg h0, loop_bra bra rest h _ _ 0 (by omega) rfl]
  · cases rest with
    | nil => rfl
    | cons d l => simp [domain]

example : domain [['o'], ['o']] [['v'], ['x']] = some "ℝ^o ⊗ ℝ^o, ℝ^v ⊗ ℝ^x".toList := by
  rw [(kit_domain _ _).1 (by simp)]
  decide

end SeQuant.Julia
