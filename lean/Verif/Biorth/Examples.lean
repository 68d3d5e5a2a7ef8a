import Verif.Biorth.TransformProps
import Verif.Biorth.Spin
import Mathlib.Data.Fin.VecNotation
import Mathlib.Tactic.NormNum

/-!
# Biorthogonalization: examples
-/

namespace SeQuant.Biorth

open Equiv (Perm)
open SeQuant.Symm (Ten)

/-- One of the conventions of libperm. -/
def lib0 : Lib := ⟨false, false⟩

/-! ### C82 -/

example : (List.range 6).map (fun r => cycles (lib0.unrank r 3)) = [1, 1, 2, 2, 2, 3] := by decide +kernel

example : ov (1 : Perm (Fin 3)) = 8 := by unfold ov; rw [cycles_one]; norm_num

/-- The exchange of two particles keeps two of the four distributions of spins. -/
example : ov (Equiv.swap 0 1 : Perm (Fin 2)) = -2 := by
  have : cycles (Equiv.swap 0 1 : Perm (Fin 2)) = 1 := by decide +kernel
  rw [ov_spins, card_spins, this, Equiv.Perm.sign_swap (by decide)]
  norm_num

example : biorthRow 3 = some [17 / 120, -7 / 120, -1 / 120, -1 / 120, -1 / 120, -7 / 120] := by decide +kernel

example : biorthRow 2 = some [1 / 3, 1 / 6] := by decide +kernel

example : biorthRow 0 = none ∧ biorthRow 6 = none := ⟨(biorthRow_correct lib0 0).2 (by omega), (biorthRow_correct lib0 6).2 (by omega)⟩

/-- The entries of the hardcoded matrix. -/
def hardRows (L : Lib) (n : Nat) : Option (List (List ℚ)) := (hardMatrix L n).map fun m => List.ofFn fun i => List.ofFn fun j => m.2 i j

example : hardRows lib0 2 = some [[1 / 3, 1 / 6], [1 / 6, 1 / 3]] := by decide +kernel

/-- The diagonal of the hardcoded matrix for three particles is not constant. -/
example : ((hardMatrix lib0 3).map fun m => List.ofFn fun i => m.2 i i) = some [17 / 120, -1 / 120, 17 / 120, -7 / 120, -1 / 120, 17 / 120] := by decide +kernel

example : (nnsTable 3).map (List.map (quot ℚ)) = some [-1 / 5, -1 / 5, -1 / 5, -1 / 5, -1 / 5, 1] := by decide +kernel

/-! ### C83 -/

/-- An array with three modes in the bra and three in the ket. -/
def arr (q : Nat) : Ten ℚ := ⟨[2, 2, 2, 2, 2, q], fun i => if i = [0, 0, 0, 0, 0, 1] then 1 else 0⟩

example (pinv : (n : Nat) → Matrix (Fin n.factorial) (Fin n.factorial) ℚ) : ∃ v : Perm (Fin 3) → ℚ, Projector v (normalization lib0 3) ∧
    ∃ r, nnsProject lib0 pinv (arr 2) 3 = .ok r ∧ ProjOf v (arr 2) r 3 := by
  obtain ⟨v, hv, h, -⟩ := (nnsProject_spec lib0 pinv (arr 2) 3 3 rfl (by omega)).2 (by omega) (by omega)
  exact ⟨v, hv, h ⟨[2, 2, 2], 2, rfl⟩⟩

example (pinv : (n : Nat) → Matrix (Fin n.factorial) (Fin n.factorial) ℚ) : nnsProject lib0 pinv (arr 3) 3 = .error .shapes := by
  obtain ⟨v, -, -, h⟩ := (nnsProject_spec lib0 pinv (arr 3) 3 3 rfl (by omega)).2 (by omega) (by omega)
  refine h ?_
  rintro ⟨sb, q, e⟩
  have := congrArg List.reverse e
  simp [arr, List.replicate_succ] at this
  omega

example (pinv : (n : Nat) → Matrix (Fin n.factorial) (Fin n.factorial) ℚ) : nnsProject lib0 pinv (arr 3) 4 = .ok (arr 3) :=
  (nnsProject_spec lib0 pinv (arr 3) 4 2 rfl (by omega)).1 (.inr (by omega))

/-- The projected array: permutations that put the one into another position have weight -1/5. -/
example : ((nnsProject lib0 (fun _ => 0) (arr 2) 3).toOption.map fun r => [r.at_ [0, 0, 0, 0, 0, 1], r.at_ [0, 0, 0, 0, 1, 0], r.at_ [0, 0, 0, 1, 0, 0], r.at_ [0, 0, 0, 0, 1, 1]]) =
      some [4 / 5, -2 / 5, -2 / 5, 0] := by
  decide +kernel

/-! ### C84 -/

/-- Pairs of indices of two spaces. -/
def ext2 : Pairing 2 := fun i => (⟨0, i⟩, ⟨1, i⟩)

set_option synthInstance.maxSize 1024 in
example : (transformSingle lib0 0 ext2).toOption = some [[(1 / 6, 0, [(⟨1, 0⟩, ⟨1, 1⟩), (⟨1, 1⟩, ⟨1, 0⟩)]), (1 / 3, 0, [])]] := by decide +kernel

example : ext2.Wf := ⟨by decide, by decide, by decide⟩

example : ∃ ts b, transformSingle lib0 0 ext2 = .ok [ts] ∧ Biorthogonalizer b (normalization lib0 2) ∧
    ∀ (E : Nat → (Idx → Nat) → ℚ) (x : Idx → Nat) (k : Fin 2 → Nat), termsVal E ts (put ext2 x k) = act b (fun k => E 0 (put ext2 x k)) k :=
  transformSingle_value lib0 0 ext2 (by omega) ⟨by decide, by decide, by decide⟩ (by decide) (by omega)

/-- Second indices of different spaces: the first ones are exchanged. -/
def mixed : Pairing 2 := fun i => (⟨0, i⟩, ⟨1 + i, i⟩)

example : createFor mixed (Equiv.swap 0 1) [mixed] = .ok (0, [(⟨0, 0⟩, ⟨0, 1⟩), (⟨0, 1⟩, ⟨0, 0⟩)]) := by decide +kernel

/-- Neither the first nor the second indices can be exchanged. -/
example : createFor (n := 2) (fun i => (⟨3 + i, i⟩, ⟨1 + i, i⟩)) (Equiv.swap 0 1) [fun i => (⟨3 + i, i⟩, ⟨1 + i, i⟩)] = .error .missing := by decide +kernel

example : transform (n := 2) lib0 0 [] [] = .ok [] := rfl

/-- `2 t(a1, i1) + g(a1)` with `a1` replaced by `a2`, times 1/2. -/
example : transformExpr [(⟨1, 1⟩, ⟨1, 2⟩)] (1 / 2) (.sum [.product 2 [.tensor 0 [⟨1, 1⟩, ⟨0, 1⟩]], .tensor 1 [⟨1, 1⟩]]) =
    .ok (.sum [.product (2 * (1 / 2)) [.tensor 0 [⟨1, 2⟩, ⟨0, 1⟩]], .product (1 / 2) [.tensor 1 [⟨1, 2⟩]]]) := by
  simp [transformExpr, transformTerms, transformFactors, transformTensor, Repl.apply, List.lookup, Except.map]
  rfl

/-- A sum inside a product is refused. -/
example : transformExpr [] 1 (.product 1 [.sum [.var 0]]) = .error .type :=
  (transformExpr_spec (F := ℚ) [] 1 (.product 1 [.sum [.var 0]])).2 fun h => h (.sum [.var 0]) (by simp)

end SeQuant.Biorth
