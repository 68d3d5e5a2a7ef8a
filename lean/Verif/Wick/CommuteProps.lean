import Verif.Wick.NormalizeProps
import Verif.Wick.Instances
import Verif.Expression.Spec
import Mathlib.Algebra.Group.Commute.Defs
import Mathlib.Algebra.Ring.Commute

/-!
# C05: `commutes_with`
-/

set_option linter.unusedSectionVars false

namespace SeQuant.Wick

open SeQuant.Perm SeQuant.Sort
open SeQuant.Expression (Expr eval evalProd evalSum)

/-- Leaves: a c-number, an `Operator<S>`, or a `NormalOperator<S>` with its vacuum. -/
inductive Leaf (Cn Op : Type) where
  | cnum (x : Cn)
  | op (l : List Op)
  | nop (v : Nat) (l : List Op)

variable {Cn Op K A : Type}

/-- `Operator::commutes_with_atom` and `NormalOperator::commutes_with_atom` (op.hpp:414-424, 801-837) together with the c-number test
of `Expr::commutes_with` (expr.hpp:213-215).  `canContract v l r` stands for lines 804-814. -/
def commutesAtom (canContract : Nat → Op → Op → Bool) : Leaf Cn Op → Leaf Cn Op → Bool
  | .cnum _, _ => true
  | _, .cnum _ => true
  | .nop v l, .nop w m => if v = w then l.all fun x => m.all fun y => !canContract v x y else false
  | _, _ => false

mutual
/-- `Expr::commutes_with` for an atom `this` (expr.hpp:213-221).  Constants, empty products and empty sums are c-number atoms. -/
def commutesA (cc : Nat → Op → Op → Bool) (a : Leaf Cn Op) : Expr K (Leaf Cn Op) → Bool
  | .const _ => true
  | .atom b => commutesAtom cc a b
  | .prod _ l => commutesAL cc a l
  | .sum _ l => commutesAL cc a l
def commutesAL (cc : Nat → Op → Op → Bool) (a : Leaf Cn Op) : List (Expr K (Leaf Cn Op)) → Bool
  | [] => true
  | e :: l => commutesA cc a e && commutesAL cc a l
end

mutual
/-- `Expr::commutes_with` (expr.hpp:209-228).  A c-number atom `this` does not look at `that` (line 217), with the same result. -/
def commutesWith (cc : Nat → Op → Op → Bool) : Expr K (Leaf Cn Op) → Expr K (Leaf Cn Op) → Bool
  | .const _, _ => true
  | .atom a, f => commutesA cc a f
  | .prod _ l, f => commutesWithL cc l f
  | .sum _ l, f => commutesWithL cc l f
def commutesWithL (cc : Nat → Op → Op → Bool) : List (Expr K (Leaf Cn Op)) → Expr K (Leaf Cn Op) → Bool
  | [], _ => true
  | e :: l, f => commutesWith cc e f && commutesWithL cc l f
end

/-! ### Normal-ordered products without contractions between them -/

section
variable [CommRing K] [Ring A] [Algebra K A] {S : Statistics}

theorem an_N_free (W : Alg S Op K A) (o : Op) (l : List Op) (h : ∀ b ∈ l, W.c o b = 0) :
    W.an o * W.N l = ((S.zeta : K) ^ l.length) • (W.N l * W.an o) := by
  rw [an_N]
  have : ((picksIn l).map fun p => ((S.zeta : K) ^ p.1 * W.c o p.2.1) • W.N p.2.2) =
      (picksIn l).map fun _ => (0 : A) := by
    apply List.map_congr_left
    intro p hp
    have hm : p.2.1 ∈ l := by
      clear h
      induction l generalizing p with
      | nil => simp [picksIn] at hp
      | cons x l ih =>
        simp only [picksIn, List.mem_cons, List.mem_map] at hp
        rcases hp with rfl | ⟨q, hq, rfl⟩
        · simp
        · exact List.mem_cons_of_mem _ (ih q hq)
    rw [h _ hm]; simp
  rw [this]; simp

theorem N_append (W : Alg S Op K A) (l m : List Op) (h : ∀ a ∈ l, ∀ b ∈ m, W.c a b = 0) :
    W.N l * W.N m = W.N (l ++ m) := by
  induction l with
  | nil => simp [Alg.N]
  | cons o l ih =>
    have ih' := ih (fun a ha => h a (by simp [ha]))
    rw [List.cons_append, Alg.N, Alg.N, ← ih', add_mul, smul_mul_assoc, mul_assoc (W.N l), an_N_free W o m (h o (by simp)),
      mul_smul_comm, smul_smul, List.length_append, pow_add, mul_assoc, mul_assoc]

theorem adj_block (l m : List Op) : Adj (l.length * m.length) (l ++ m) (m ++ l) := by
  induction l with
  | nil => simpa using Swaps.refl (comp := fun _ _ => true) m
  | cons x l ih =>
    have h1 : Adj (l.length * m.length) (x :: (l ++ m)) (x :: (m ++ l)) := ih.cons x
    have h2 := adj_move x m l
    have := h1.trans h2
    rw [List.length_cons, Nat.add_mul, Nat.one_mul]
    exact this

/-- Two normal-ordered products without contractions in either direction commute up to the sign of the block exchange. -/
theorem N_commute_sign (W : Alg S Op K A) (l m : List Op) (h1 : ∀ a ∈ l, ∀ b ∈ m, W.c a b = 0)
    (h2 : ∀ b ∈ m, ∀ a ∈ l, W.c b a = 0) :
    W.N l * W.N m = ((S.zeta : K) ^ (l.length * m.length)) • (W.N m * W.N l) := by
  rw [N_append W l m h1, N_append W m l h2, N_adj W (adj_block l m)]

/-- The value of a leaf: c-numbers are central, operator strings are products, normal operators are normal-ordered with respect to
their vacuum. -/
def Leaf.val (cval : Cn → K) (W : Nat → Alg S Op K A) : Leaf Cn Op → A
  | .cnum x => algebraMap K A (cval x)
  | .op l => (l.map fun o => (W 0).cr o + (W 0).an o).prod
  | .nop v l => (W v).N l

/-- Leaves that are safe to exchange without a sign. -/
def Leaf.even (S : Statistics) : Leaf Cn Op → Prop
  | .nop _ l => S = .BoseEinstein ∨ Even l.length
  | _ => True

theorem commutesAtom_sound {cc : Nat → Op → Op → Bool} (cval : Cn → K) (W : Nat → Alg S Op K A)
    (hcc : ∀ v x y, cc v x y = false → (W v).c x y = 0) (a b : Leaf Cn Op) (ha : a.even S) (h1 : commutesAtom cc a b = true)
    (h2 : commutesAtom cc b a = true) : Commute (a.val cval W) (b.val cval W) := by
  cases a with
  | cnum x => exact Algebra.commutes _ _
  | op l =>
    cases b with
    | cnum x => exact (Algebra.commutes _ _).symm
    | op m => simp [commutesAtom] at h1
    | nop w m => simp [commutesAtom] at h1
  | nop v l =>
    cases b with
    | cnum x => exact (Algebra.commutes _ _).symm
    | op m => simp [commutesAtom] at h1
    | nop w m =>
      simp only [commutesAtom] at h1 h2
      split at h1
      · rename_i hvw
        subst hvw
        simp only [if_true, List.all_eq_true, Bool.not_eq_true'] at h1 h2
        show (W v).N l * (W v).N m = (W v).N m * (W v).N l
        rw [N_commute_sign (W v) l m (fun a ha b hb => hcc v a b (h1 a ha b hb)) (fun b hb a ha => hcc v b a (h2 b hb a ha))]
        have : (S.zeta : K) ^ (l.length * m.length) = 1 := by
          rcases ha with rfl | he
          · simp [Statistics.zeta]
          · obtain ⟨k, hk⟩ := he
            rw [hk, Nat.add_mul]; exact zeta_pow_even S _
        rw [this, one_smul]
      · simp at h1

mutual
def allLeaves (P : Leaf Cn Op → Prop) : Expr K (Leaf Cn Op) → Prop
  | .const _ => True
  | .atom a => P a
  | .prod _ l => allLeavesL P l
  | .sum _ l => allLeavesL P l
def allLeavesL (P : Leaf Cn Op → Prop) : List (Expr K (Leaf Cn Op)) → Prop
  | [] => True
  | e :: l => allLeaves P e ∧ allLeavesL P l
end

section tree
variable {cc : Nat → Op → Op → Bool}

mutual
/-- The report is a conjunction over pairs of leaves. -/
theorem commutesA_iff (a : Leaf Cn Op) (e : Expr K (Leaf Cn Op)) :
    commutesA cc a e = true ↔ allLeaves (fun b => commutesAtom cc a b = true) e := by
  match e with
  | .const c => simp [commutesA, allLeaves]
  | .atom b => simp [commutesA, allLeaves]
  | .prod c l => simp only [commutesA, allLeaves]; exact commutesAL_iff a l
  | .sum c l => simp only [commutesA, allLeaves]; exact commutesAL_iff a l
theorem commutesAL_iff (a : Leaf Cn Op) (l : List (Expr K (Leaf Cn Op))) :
    commutesAL cc a l = true ↔ allLeavesL (fun b => commutesAtom cc a b = true) l := by
  match l with
  | [] => simp [commutesAL, allLeavesL]
  | e :: l => simp [commutesAL, allLeavesL, commutesA_iff a e, commutesAL_iff a l]
end

mutual
theorem commutesWith_iff (e f : Expr K (Leaf Cn Op)) :
    commutesWith cc e f = true ↔ allLeaves (fun a => allLeaves (fun b => commutesAtom cc a b = true) f) e := by
  match e with
  | .const c => simp [commutesWith, allLeaves]
  | .atom b => simp [commutesWith, allLeaves, commutesA_iff]
  | .prod c l => simp only [commutesWith, allLeaves]; exact commutesWithL_iff l f
  | .sum c l => simp only [commutesWith, allLeaves]; exact commutesWithL_iff l f
theorem commutesWithL_iff (l : List (Expr K (Leaf Cn Op))) (f : Expr K (Leaf Cn Op)) :
    commutesWithL cc l f = true ↔ allLeavesL (fun a => allLeaves (fun b => commutesAtom cc a b = true) f) l := by
  match l with
  | [] => simp [commutesWithL, allLeavesL]
  | e :: l => simp [commutesWithL, allLeavesL, commutesWith_iff e f, commutesWithL_iff l f]
end

mutual
theorem eval_commute {I : Leaf Cn Op → A} (x : A) (e : Expr K (Leaf Cn Op)) (h : allLeaves (fun b => Commute x (I b)) e) :
    Commute x (eval I e) := by
  match e with
  | .const c => exact (Algebra.commutes _ _).symm
  | .atom b => exact h
  | .prod c l => simp only [eval]; exact ((evalL_commute x l h).1).smul_right c
  | .sum c l => simp only [eval]; exact (evalL_commute x l h).2
theorem evalL_commute {I : Leaf Cn Op → A} (x : A) (l : List (Expr K (Leaf Cn Op))) (h : allLeavesL (fun b => Commute x (I b)) l) :
    Commute x (evalProd I l) ∧ Commute x (evalSum I l) := by
  match l with
  | [] => exact ⟨Commute.one_right x, Commute.zero_right x⟩
  | e :: l =>
    have h1 := eval_commute x e h.1
    have h2 := evalL_commute x l h.2
    exact ⟨h1.mul_right h2.1, h1.add_right h2.2⟩
end

mutual
theorem allLeaves_mono {P Q : Leaf Cn Op → Prop} (h : ∀ a, P a → Q a) (e : Expr K (Leaf Cn Op)) (he : allLeaves P e) :
    allLeaves Q e := by
  match e with
  | .const c => trivial
  | .atom b => exact h b he
  | .prod c l => exact allLeavesL_mono h l he
  | .sum c l => exact allLeavesL_mono h l he
theorem allLeavesL_mono {P Q : Leaf Cn Op → Prop} (h : ∀ a, P a → Q a) (l : List (Expr K (Leaf Cn Op))) (he : allLeavesL P l) :
    allLeavesL Q l := by
  match l with
  | [] => trivial
  | e :: l => exact ⟨allLeaves_mono h e he.1, allLeavesL_mono h l he.2⟩
end

mutual
theorem allLeaves_and {P Q : Leaf Cn Op → Prop} (e : Expr K (Leaf Cn Op)) (h1 : allLeaves P e) (h2 : allLeaves Q e) :
    allLeaves (fun a => P a ∧ Q a) e := by
  match e with
  | .const c => trivial
  | .atom b => exact ⟨h1, h2⟩
  | .prod c l => exact allLeavesL_and l h1 h2
  | .sum c l => exact allLeavesL_and l h1 h2
theorem allLeavesL_and {P Q : Leaf Cn Op → Prop} (l : List (Expr K (Leaf Cn Op))) (h1 : allLeavesL P l) (h2 : allLeavesL Q l) :
    allLeavesL (fun a => P a ∧ Q a) l := by
  match l with
  | [] => trivial
  | e :: l => exact ⟨allLeaves_and e h1.1 h2.1, allLeavesL_and l h1.2 h2.2⟩
end

mutual
theorem allLeaves_all {ι : Type} {P : ι → Leaf Cn Op → Prop} (e : Expr K (Leaf Cn Op)) (h : ∀ i, allLeaves (P i) e) :
    allLeaves (fun a => ∀ i, P i a) e := by
  match e with
  | .const c => trivial
  | .atom b => exact h
  | .prod c l => exact allLeavesL_all l h
  | .sum c l => exact allLeavesL_all l h
theorem allLeavesL_all {ι : Type} {P : ι → Leaf Cn Op → Prop} (l : List (Expr K (Leaf Cn Op))) (h : ∀ i, allLeavesL (P i) l) :
    allLeavesL (fun a => ∀ i, P i a) l := by
  match l with
  | [] => trivial
  | e :: l => exact ⟨allLeaves_all e fun i => (h i).1, allLeavesL_all l fun i => (h i).2⟩
end

mutual
/-- Exchanging the two quantifiers over leaves. -/
theorem allLeaves_swap {P : Leaf Cn Op → Leaf Cn Op → Prop} (e f : Expr K (Leaf Cn Op))
    (h : allLeaves (fun a => allLeaves (fun b => P a b) f) e) : allLeaves (fun b => allLeaves (fun a => P a b) e) f := by
  match e with
  | .const c => exact allLeaves_true f (fun _ => trivial)
  | .atom a => exact h
  | .prod c l => exact allLeavesL_swap l f h
  | .sum c l => exact allLeavesL_swap l f h
theorem allLeavesL_swap {P : Leaf Cn Op → Leaf Cn Op → Prop} (l : List (Expr K (Leaf Cn Op))) (f : Expr K (Leaf Cn Op))
    (h : allLeavesL (fun a => allLeaves (fun b => P a b) f) l) : allLeaves (fun b => allLeavesL (fun a => P a b) l) f := by
  match l with
  | [] => exact allLeaves_true f (fun _ => trivial)
  | e :: l => exact allLeaves_and f (allLeaves_swap e f h.1) (allLeavesL_swap l f h.2)
theorem allLeaves_true {Q : Leaf Cn Op → Prop} (f : Expr K (Leaf Cn Op)) (h : ∀ a, Q a) : allLeaves Q f := by
  match f with
  | .const c => trivial
  | .atom a => exact h a
  | .prod c l => exact allLeavesL_true l h
  | .sum c l => exact allLeavesL_true l h
theorem allLeavesL_true {Q : Leaf Cn Op → Prop} (l : List (Expr K (Leaf Cn Op))) (h : ∀ a, Q a) : allLeavesL Q l := by
  match l with
  | [] => trivial
  | e :: l => exact ⟨allLeaves_true e h, allLeavesL_true l h⟩
end

/-- **C05, partial**: two expressions that are reported to commute *in both directions* and of which one contains only bosonic
operators or normal operators with an even number of elements have commuting values, so exchanging them in a product is allowed.
Missing: a report in one direction only and odd fermionic operators, for which the statement is false. -/
theorem commutesWith_partial (cval : Cn → K) (W : Nat → Alg S Op K A) (hcc : ∀ v x y, cc v x y = false → (W v).c x y = 0)
    (e f : Expr K (Leaf Cn Op)) (he : allLeaves (fun a => a.even S) e) (h1 : commutesWith cc e f = true)
    (h2 : commutesWith cc f e = true) :
    eval (Leaf.val cval W) e * eval (Leaf.val cval W) f = eval (Leaf.val cval W) f * eval (Leaf.val cval W) e := by
  rw [commutesWith_iff] at h1 h2
  have h2' := allLeaves_swap f e h2
  have h := allLeaves_and e he (allLeaves_and e h1 h2')
  have key : allLeaves (fun a => Commute (eval (Leaf.val cval W) f) (Leaf.val cval W a)) e := by
    refine allLeaves_mono ?_ e h
    rintro a ⟨ha, h3, h4⟩
    refine (eval_commute _ f ?_).symm
    exact allLeaves_mono (fun b hb => commutesAtom_sound cval W hcc a b ha hb.1 hb.2) f (allLeaves_and f h3 h4)
  exact (eval_commute _ e key).symm

end tree
end

/-! ### Refutations and examples -/
namespace Inst

/-- Contraction test of two fermionic modes that belong to different index spaces, with one vacuum. -/
def f2cc (_ : Nat) (x y : F2) : Bool := decide (f2c x y ≠ 0)

abbrev L := Leaf Unit F2
abbrev F2E := Expr Int L
def f2W (_ : Nat) : Alg .FermiDirac F2 Int M4 := fermi2
def f2val : L → M4 := Leaf.val (fun _ => 1) f2W

end Inst

open Inst in
/-- **C05 is false**: the particle-conserving operators `c1 a2` and `c1 a1` are reported to commute but do not, and the report in the
other direction differs. -/
theorem commutesWith_asymmetric :
    commutesWith f2cc (.atom (.nop 0 [.c1, .a2]) : F2E) (.atom (.nop 0 [.c1, .a1])) = true ∧
    commutesWith f2cc (.atom (.nop 0 [.c1, .a1]) : F2E) (.atom (.nop 0 [.c1, .a2])) = false ∧
    eval f2val (.atom (.nop 0 [.c1, .a2]) : F2E) * eval f2val (.atom (.nop 0 [.c1, .a1]) : F2E) ≠
      eval f2val (.atom (.nop 0 [.c1, .a1]) : F2E) * eval f2val (.atom (.nop 0 [.c1, .a2]) : F2E) :=
  ⟨rfl, rfl, by decide +kernel⟩

open Inst in
/-- **C05 is false** for odd fermionic operators even if reported in both directions: two creators anticommute. -/
theorem commutesWith_odd :
    commutesWith f2cc (.atom (.nop 0 [.c1]) : F2E) (.atom (.nop 0 [.c2])) = true ∧
    commutesWith f2cc (.atom (.nop 0 [.c2]) : F2E) (.atom (.nop 0 [.c1])) = true ∧
    eval f2val (.atom (.nop 0 [.c1]) : F2E) * eval f2val (.atom (.nop 0 [.c2]) : F2E) ≠
      eval f2val (.atom (.nop 0 [.c2]) : F2E) * eval f2val (.atom (.nop 0 [.c1]) : F2E) :=
  ⟨rfl, rfl, by decide +kernel⟩

open Inst in
/-- `2 c1 a1 + 3` and `c2 a2`. -/
example : eval f2val (.sum none [.prod 2 [.atom (.nop 0 [.c1, .a1])], .const 3] : F2E) * eval f2val (.atom (.nop 0 [.c2, .a2]) : F2E) =
    eval f2val (.atom (.nop 0 [.c2, .a2]) : F2E) * eval f2val (.sum none [.prod 2 [.atom (.nop 0 [.c1, .a1])], .const 3] : F2E) :=
  commutesWith_partial (cc := f2cc) (fun _ => 1) f2W (by intro v x y h; simpa [f2cc, f2W, fermi2] using h) _ _
    ⟨⟨Or.inr ⟨1, rfl⟩, trivial⟩, trivial, trivial⟩ rfl rfl

end SeQuant.Wick
