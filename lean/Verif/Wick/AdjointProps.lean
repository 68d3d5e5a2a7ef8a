import Verif.Wick.NormalizeProps
import Verif.Wick.Instances
import Mathlib.Algebra.Star.Basic
import Mathlib.Algebra.Star.Module
import Mathlib.Algebra.Star.BigOperators
import Mathlib.LinearAlgebra.Matrix.ConjTranspose

/-!
# C04, operators: `Op::adjoint`, `Operator::adjoint`, `NormalOperator::adjoint`, `NormalOperatorSequence::adjoint`
-/

set_option linter.unusedSectionVars false

namespace SeQuant.Wick

/-- `Action` (op.hpp:26). -/
inductive Action | Create | Annihilate
  deriving DecidableEq, Repr

/-- `sequant::adjoint(Action)` (op.hpp:29-32). -/
def Action.adjoint : Action → Action
  | .Create => .Annihilate
  | .Annihilate => .Create

/-- `Op` (op.hpp:45-75): an index and an action. -/
structure Elem (Idx : Type) where
  index : Idx
  action : Action
  deriving DecidableEq, Repr

/-- `Op::adjoint` (op.hpp:71). -/
def Elem.adjoint {Idx : Type} (o : Elem Idx) : Elem Idx := { o with action := o.action.adjoint }

/-- `Operator::adjoint` (op.hpp:375-379). -/
def opAdjoint {Idx : Type} (l : List (Elem Idx)) : List (Elem Idx) := l.reverse.map Elem.adjoint

/-- `NormalOperator` (op.hpp:491-745): vacuum, operators, `ncreators_`.  The cached Hugenholtz vertex is not modelled. -/
structure NOp (Idx : Type) where
  vacuum : Nat
  ops : List (Elem Idx)
  ncreators : Nat
  deriving DecidableEq, Repr

/-- The constructor from creators and annihilators (op.hpp:530-562). -/
def NOp.mk' {Idx : Type} (v : Nat) (cre ann : List Idx) : NOp Idx where
  vacuum := v
  ops := cre.map (fun i => ⟨i, .Create⟩) ++ ann.reverse.map (fun i => ⟨i, .Annihilate⟩)
  ncreators := cre.length

/-- `NormalOperator::adjoint` (op.hpp:718-723); `nannihilators()` is evaluated after the reversal. -/
def NOp.adjoint {Idx : Type} (n : NOp Idx) : NOp Idx where
  vacuum := n.vacuum
  ops := opAdjoint n.ops
  ncreators := (opAdjoint n.ops).length - n.ncreators

/-- `NormalOperatorSequence::adjoint` (op.hpp:1045-1050). -/
def seqAdjoint {Idx : Type} (l : List (NOp Idx)) : List (NOp Idx) := l.reverse.map NOp.adjoint

variable {Idx : Type}

theorem Elem.adjoint_adjoint (o : Elem Idx) : o.adjoint.adjoint = o := by
  cases o with | mk i a => cases a <;> rfl

/-- **C04** (operator strings): the adjoint is an involution. -/
theorem opAdjoint_opAdjoint (l : List (Elem Idx)) : opAdjoint (opAdjoint l) = l := by
  simp [opAdjoint, ← List.map_reverse, Function.comp_def, Elem.adjoint_adjoint]

/-- `ncreators_` never exceeds the number of operators. -/
def NOp.WF (n : NOp Idx) : Prop := n.ncreators = (n.ops.filter (fun o => decide (o.action = .Create))).length

theorem NOp.mk'_wf (v : Nat) (cre ann : List Idx) : (NOp.mk' v cre ann).WF := by
  have h1 : (cre.map (fun i => (⟨i, .Create⟩ : Elem Idx))).filter (fun o => decide (o.action = .Create)) =
      cre.map (fun i => ⟨i, .Create⟩) := by rw [List.filter_eq_self]; simp
  have h2 : (ann.reverse.map (fun i => (⟨i, .Annihilate⟩ : Elem Idx))).filter (fun o => decide (o.action = .Create)) = [] := by
    rw [List.filter_eq_nil_iff]; simp
  simp only [WF, mk', List.filter_append, h1, h2]; simp

theorem NOp.adjoint_wf (n : NOp Idx) (h : n.WF) : n.adjoint.WF := by
  have key : ∀ l : List (Elem Idx), ((l.map Elem.adjoint).filter (fun o => decide (o.action = .Create))).length =
      l.length - (l.filter (fun o => decide (o.action = .Create))).length := by
    intro l
    induction l with
    | nil => rfl
    | cons o l ih =>
      have := List.length_filter_le (fun o : Elem Idx => decide (o.action = .Create)) l
      cases o with
      | mk i a =>
        cases a
        · simp only [List.map_cons, Elem.adjoint, Action.adjoint, List.filter_cons, reduceCtorEq, decide_false,
            Bool.false_eq_true, if_false, decide_true, if_true, List.length_cons] at ih ⊢
          rw [ih]; omega
        · simp only [List.map_cons, Elem.adjoint, Action.adjoint, List.filter_cons, reduceCtorEq, decide_false,
            Bool.false_eq_true, if_false, decide_true, if_true, List.length_cons] at ih ⊢
          rw [ih]; omega
  have h2 := key n.ops.reverse
  have h3 : (n.ops.reverse.filter (fun o => decide (o.action = .Create))).length =
      (n.ops.filter (fun o => decide (o.action = .Create))).length := (n.ops.reverse_perm.filter _).length_eq
  simp only [WF, adjoint, opAdjoint] at h ⊢
  rw [h2, h3, List.length_map, h]

/-- **C04** (normal operators): the adjoint is an involution on every well-formed normal operator. -/
theorem NOp.adjoint_adjoint (n : NOp Idx) (h : n.WF) : n.adjoint.adjoint = n := by
  have hle : n.ncreators ≤ n.ops.length := by rw [h]; exact List.length_filter_le _ _
  have hlen : ∀ l : List (Elem Idx), (opAdjoint l).length = l.length := by intro l; simp [opAdjoint]
  cases n with
  | mk v ops k =>
    simp only [adjoint, opAdjoint_opAdjoint, hlen, NOp.mk.injEq, true_and]
    simp only at hle
    omega

/-- **C04** (normal operators): the adjoint exchanges creators and annihilators. -/
theorem NOp.adjoint_mk' (v : Nat) (cre ann : List Idx) : (NOp.mk' v cre ann).adjoint = NOp.mk' v ann cre := by
  simp [adjoint, mk', opAdjoint, Elem.adjoint, Action.adjoint, Function.comp_def, List.map_reverse]

/-- **C04** (sequences of normal operators). -/
theorem seqAdjoint_seqAdjoint (l : List (NOp Idx)) (h : ∀ n ∈ l, n.WF) : seqAdjoint (seqAdjoint l) = l := by
  simp only [seqAdjoint, ← List.map_reverse, List.reverse_reverse, List.map_map]
  conv_rhs => rw [← List.map_id l]
  exact List.map_congr_left fun n hn => NOp.adjoint_adjoint n (h n hn)

example : (NOp.mk' 0 ["p", "q"] ["r"]).adjoint = NOp.mk' 0 ["r"] ["p", "q"] := by decide

/-! ### Denotation -/

section
variable {Op K A : Type} [CommRing K] [StarRing K] [Ring A] [StarRing A] [Algebra K A] [StarModule K A] {S : Statistics}

omit [StarRing K] [StarRing A] [StarModule K A] in
/-- Splitting off the last operator of a normal-ordered product. -/
theorem N_concat (W : Alg S Op K A) (m : List Op) (b : Op) :
    W.N (m ++ [b]) = W.N m * W.an b + ((S.zeta : K) ^ m.length) • (W.cr b * W.N m) := by
  induction m with
  | nil => simp [Alg.N, add_comm]
  | cons o m ih =>
    have hz := zeta_sq (K := K) S
    have e1 : W.cr o * (W.cr b * W.N m) = (S.zeta : K) • (W.cr b * (W.cr o * W.N m)) := by
      rw [← mul_assoc, W.cr_cr, smul_mul_assoc, mul_assoc]
    have e2 : W.N m * (W.an b * W.an o) = (S.zeta : K) • (W.N m * (W.an o * W.an b)) := by
      rw [W.an_an, mul_smul_comm]
    simp only [List.cons_append, Alg.N, ih, List.length_append, List.length_cons, List.length_nil, Nat.zero_add]
    generalize ((S.zeta : Int) : K) = z at *
    simp only [mul_add, add_mul, smul_add, mul_smul_comm, smul_mul_assoc, mul_assoc, e1, e2, smul_smul]
    have h1 : z ^ (m.length + 1) * z = z ^ m.length := by rw [pow_succ, mul_assoc, hz, mul_one]
    rw [h1, ← pow_succ]
    abel

theorem star_zeta (n : Nat) : star ((S.zeta : K) ^ n) = (S.zeta : K) ^ n := by
  rw [star_pow, star_intCast]

/-- **C04** (denotation of a normal operator): in every star algebra in which `adj` exchanges creation and annihilation parts, the
adjoint string denotes the adjoint of the normal-ordered product. -/
theorem star_N (W : Alg S Op K A) (adj : Op → Op) (h1 : ∀ o, star (W.cr o) = W.an (adj o)) (h2 : ∀ o, star (W.an o) = W.cr (adj o))
    (l : List Op) : star (W.N l) = W.N (l.reverse.map adj) := by
  induction l with
  | nil => simp [Alg.N]
  | cons o l ih =>
    rw [List.reverse_cons, List.map_append, List.map_singleton, N_concat, Alg.N]
    simp only [star_add, star_mul, star_smul, ih, h1, h2, List.length_map, List.length_reverse, star_zeta]

/-- **C04** (denotation of a sequence). -/
theorem star_prod_nop (W : Alg S Op K A) (adj : Op → Op) (h1 : ∀ o, star (W.cr o) = W.an (adj o))
    (h2 : ∀ o, star (W.an o) = W.cr (adj o)) (ls : List (List Op)) :
    star (W.prod ls) = W.prod (ls.reverse.map fun l => l.reverse.map adj) := by
  induction ls with
  | nil => simp [Alg.prod]
  | cons l ls ih =>
    rw [prod_cons, star_mul, ih, star_N W adj h1 h2]
    simp [Alg.prod, List.map_reverse]

/-- **C04** (denotation of a plain operator string, which is the product of its elements). -/
theorem star_string (W : Alg S Op K A) (adj : Op → Op) (h1 : ∀ o, star (W.cr o) = W.an (adj o))
    (h2 : ∀ o, star (W.an o) = W.cr (adj o)) (l : List Op) :
    star ((l.map fun o => W.cr o + W.an o).prod) = ((l.reverse.map adj).map fun o => W.cr o + W.an o).prod := by
  induction l with
  | nil => simp
  | cons o l ih =>
    rw [List.map_cons, List.prod_cons, star_mul, ih]
    simp [h1, h2, add_comm, List.map_reverse]

end

/-- The model's adjoint of a string is the one used in `star_N`. -/
theorem opAdjoint_eq (l : List (Elem Idx)) : opAdjoint l = l.reverse.map Elem.adjoint := rfl

namespace Inst

def f2adj : F2 → F2
  | .a1 => .c1 | .a2 => .c2 | .c1 => .a1 | .c2 => .a2

/-- The hypotheses hold for two fermionic modes, with the conjugate transpose as star. -/
example (l : List F2) : star (fermi2.N l) = fermi2.N (l.reverse.map f2adj) :=
  star_N fermi2 f2adj (by intro o; cases o <;> decide +kernel) (by intro o; cases o <;> decide +kernel) l

end Inst

end SeQuant.Wick
