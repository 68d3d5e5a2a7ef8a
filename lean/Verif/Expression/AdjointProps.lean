import Verif.Expression.Shape
import Verif.Expression.Instances
import Mathlib.Algebra.Star.Basic
import Mathlib.Algebra.Star.Module
import Mathlib.Algebra.Star.BigOperators
import Mathlib.LinearAlgebra.Matrix.ConjTranspose

/-!
# C04, expressions: `adjoint(expr)`, `Constant::adjoint`, `Product::adjoint`, `Sum::adjoint`
-/

set_option linter.unusedSectionVars false

namespace SeQuant.Expression

variable {K A R : Type} [CommRing K] [DecidableEq K] [StarRing K] [Ring R] [StarRing R] [Algebra K R] [StarModule K R] [Atoms K A]
  {I : A → R}

/-- `Expr::adjoint()` in place: `Constant` (expr.cpp:192-195), `Product` (378-388), `Sum` (421-427); `aadj` is the adjoint of the other
leaves.  `adjoint(subexpr)` clones first (expr.cpp:186-190).  The first argument bounds the depth (`adjF_stable`). -/
def adjF (aadj : A → A) : Nat → Expr K A → Expr K A
  | _, .const c => .const (star c)
  | _, .atom a => .atom (aadj a)
  | n + 1, .prod c l => mkProd .Recursively (star c) (l.reverse.map fun f => adjF aadj n (clone f))
  | n + 1, .sum _ l => mkSum (l.map fun f => adjF aadj n (clone f))
  | 0, e => e

/-- `adjoint(expr)` (expr.cpp:186-190). -/
def adjointE (aadj : A → A) (e : Expr K A) : Expr K A := adjF aadj e.depth (clone e)

/-- Any sufficient depth bound gives the same result. -/
theorem adjF_stable (aadj : A → A) (n m : Nat) (e : Expr K A) (h : e.depth ≤ n) (hm : e.depth ≤ m) :
    adjF aadj n e = adjF aadj m e := by
  induction n generalizing m e with
  | zero =>
    cases e <;> simp [Expr.depth] at h <;> cases m <;> rfl
  | succ n ih =>
    cases e with
    | const c => cases m <;> rfl
    | atom c => cases m <;> rfl
    | prod c l =>
      simp only [Expr.depth] at h hm
      obtain ⟨m, rfl⟩ : ∃ k, m = k + 1 := ⟨m - 1, by omega⟩
      simp only [adjF]
      congr 1
      apply List.map_congr_left
      intro f hf
      have hf' : f.depth ≤ depthL l := (depthL_le_iff l _).1 (le_refl _) f (by simpa using hf)
      have := cloneF_depth f.depth f _ hf'
      exact ih m _ (by unfold clone; omega) (by unfold clone; omega)
    | sum c l =>
      simp only [Expr.depth] at h hm
      obtain ⟨m, rfl⟩ : ∃ k, m = k + 1 := ⟨m - 1, by omega⟩
      simp only [adjF]
      congr 1
      apply List.map_congr_left
      intro f hf
      have hf' : f.depth ≤ depthL l := (depthL_le_iff l _).1 (le_refl _) f hf
      have := cloneF_depth f.depth f _ hf'
      exact ih m _ (by unfold clone; omega) (by unfold clone; omega)

theorem evalProd_reverse_star (f : Expr K A → Expr K A) (l : List (Expr K A)) (h : ∀ e ∈ l, eval I (f e) = star (eval I e)) :
    evalProd I (l.reverse.map f) = star (evalProd I l) := by
  induction l with
  | nil => simp [evalProd]
  | cons e l ih =>
    rw [List.reverse_cons, List.map_append, evalProd_append, ih (fun x hx => h x (by simp [hx]))]
    simp [evalProd, h e (by simp)]

theorem evalSum_star (f : Expr K A → Expr K A) (l : List (Expr K A)) (h : ∀ e ∈ l, eval I (f e) = star (eval I e)) :
    evalSum I (l.map f) = star (evalSum I l) := by
  induction l with
  | nil => simp [evalSum]
  | cons e l ih =>
    simp [evalSum, ih (fun x hx => h x (by simp [hx])), h e (by simp)]

theorem adjF_val (hI : Interp K I) (aadj : A → A) (ha : ∀ a, I (aadj a) = star (I a)) (n : Nat) (e : Expr K A) (h : e.depth ≤ n) :
    eval I (adjF aadj n e) = star (eval I e) := by
  induction n generalizing e with
  | zero =>
    cases e <;> simp [Expr.depth] at h
    · simp only [adjF, eval, algebraMap_star_comm]
    · simp [adjF, eval, ha]
  | succ n ih =>
    have hsub : ∀ f : Expr K A, f.depth ≤ n → eval I (adjF aadj n (clone f)) = star (eval I f) := by
      intro f hf
      rw [ih (clone f) (cloneF_depth f.depth f _ hf), clone_val hI]
    cases e with
    | const c => simp only [adjF, eval, algebraMap_star_comm]
    | atom c => simp [adjF, eval, ha]
    | prod c l =>
      simp only [Expr.depth] at h
      have hl : depthL l ≤ n := by omega
      rw [depthL_le_iff] at hl
      rw [adjF, mkProd_val hI, evalProd_reverse_star _ _ (fun f hf => hsub f (hl f hf)), eval, star_smul]
    | sum c l =>
      simp only [Expr.depth] at h
      have hl : depthL l ≤ n := by omega
      rw [depthL_le_iff] at hl
      rw [adjF, mkSum_val hI, evalSum_star _ _ (fun f hf => hsub f (hl f hf)), eval]

/-- **C04** (value): the adjoint of every expression denotes the adjoint of its value; the adjoint reverses products. -/
theorem adjoint_val (hI : Interp K I) (aadj : A → A) (ha : ∀ a, I (aadj a) = star (I a)) (e : Expr K A) :
    eval I (adjointE aadj e) = star (eval I e) := by
  rw [adjointE, adjF_val hI aadj ha _ (clone e) (cloneF_depth _ _ _ (le_refl _)), clone_val hI]

/-- **C04** (product): the adjoint of a product has the value of the reversed product of the adjoints of the factors, times the
conjugate scalar. -/
theorem adjoint_prod_val (hI : Interp K I) (aadj : A → A) (ha : ∀ a, I (aadj a) = star (I a)) (c : K) (l : List (Expr K A)) :
    eval I (adjointE aadj (.prod c l)) = star c • evalProd I (l.reverse.map (adjointE aadj)) := by
  rw [adjoint_val hI aadj ha, eval, star_smul, evalProd_reverse_star _ _ (fun e _ => adjoint_val hI aadj ha e)]

/-- **C04** (involution, by value). -/
theorem adjoint_adjoint_val (hI : Interp K I) (aadj : A → A) (ha : ∀ a, I (aadj a) = star (I a)) (e : Expr K A) :
    eval I (adjointE aadj (adjointE aadj e)) = eval I e := by
  rw [adjoint_val hI aadj ha, adjoint_val hI aadj ha, star_star]

/-! ### Structural involution on normalised expressions -/

mutual
/-- Normalised: what `flatten` and `rapid_simplify` leave alone: no product or constant in a product; in a sum no sum, no zero summand
and at most one constant, whose position is recorded. -/
def Norm : Expr K A → Prop
  | .const _ => True
  | .atom _ => True
  | .prod _ l => NormP l
  | .sum ci l => NormS l ∧
    ((ci = none ∧ ∀ e ∈ l, e.isConst = false) ∨
      ∃ p c q, l = p ++ .const c :: q ∧ ci = some p.length ∧ (∀ e ∈ p, e.isConst = false) ∧ ∀ e ∈ q, e.isConst = false)
def NormP : List (Expr K A) → Prop
  | [] => True
  | e :: l => (Norm e ∧ e.isProd = false ∧ e.isConst = false) ∧ NormP l
def NormS : List (Expr K A) → Prop
  | [] => True
  | e :: l => (Norm e ∧ e.isSum = false ∧ e.isZero = false) ∧ NormS l
end

omit [StarRing K] in
theorem NormP_iff (l : List (Expr K A)) : NormP l ↔ ∀ e ∈ l, Norm e ∧ e.isProd = false ∧ e.isConst = false := by
  induction l with
  | nil => simp [NormP]
  | cons e l ih => simp [NormP, ih]

omit [StarRing K] in
theorem NormS_iff (l : List (Expr K A)) : NormS l ↔ ∀ e ∈ l, Norm e ∧ e.isSum = false ∧ e.isZero = false := by
  induction l with
  | nil => simp [NormS]
  | cons e l ih => simp [NormS, ih]

omit [StarRing K] in
theorem pAppendAll_norm (cl : Expr K A → Expr K A) (m : Flatten) (c : K) (d l : List (Expr K A))
    (h : ∀ e ∈ l, e.isProd = false ∧ e.isConst = false ∧ cl e = e) : pAppendAll cl m (c, d) l = (c, d ++ l) := by
  induction l generalizing d with
  | nil => simp [pAppendAll]
  | cons e l ih =>
    have he := h e (by simp)
    have : pAppend cl m (c, d) e = (c, d ++ [e]) := by
      cases e <;> simp_all [pAppend, Expr.isProd, Expr.isConst]
    rw [pAppendAll, this, ih _ (fun x hx => h x (by simp [hx]))]; simp

omit [StarRing K] in
theorem sAppendAll_norm (cl : Expr K A → Expr K A) (ci : Option Nat) (d l : List (Expr K A))
    (h : ∀ e ∈ l, e.isSum = false ∧ e.isConst = false ∧ e.isZero = false ∧ cl e = e) :
    sAppendAll cl (ci, d) l = (ci, d ++ l) := by
  induction l generalizing d with
  | nil => simp [sAppendAll]
  | cons e l ih =>
    have he := h e (by simp)
    have : sAppend cl (ci, d) e = (ci, d ++ [e]) := by
      cases e <;> simp_all [sAppend, Expr.isSum, Expr.isConst]
    rw [sAppendAll, this, ih _ (fun x hx => h x (by simp [hx]))]; simp

omit [StarRing K] in
theorem sAppendAll_append_list (cl : Expr K A → Expr K A) (st : SState K A) (l m : List (Expr K A)) :
    sAppendAll cl st (l ++ m) = sAppendAll cl (sAppendAll cl st l) m := by
  induction l generalizing st with
  | nil => rfl
  | cons e l ih => simp only [List.cons_append, sAppendAll]; exact ih _

omit [StarRing K] in
theorem sAppendAll_sum (cl : Expr K A → Expr K A) (ci : Option Nat) (l : List (Expr K A)) (h : Norm (.sum ci l))
    (hcl : ∀ e ∈ l, cl e = e) : sAppendAll cl (none, []) l = (ci, l) := by
  simp only [Norm, NormS_iff] at h
  obtain ⟨h1, h2 | ⟨p, c, q, rfl, rfl, hp, hq⟩⟩ := h
  · rw [sAppendAll_norm cl none [] l (fun e he => ⟨(h1 e he).2.1, h2.2 e he, (h1 e he).2.2, hcl e he⟩)]
    simp [h2.1]
  · have hc : c ≠ 0 := by have := (h1 (.const c) (by simp)).2.2; simpa [Expr.isZero] using this
    rw [sAppendAll_append_list, sAppendAll_norm cl none [] p
      (fun e he => ⟨(h1 e (by simp [he])).2.1, hp e he, (h1 e (by simp [he])).2.2, hcl e (by simp [he])⟩)]
    simp only [sAppendAll, List.nil_append, sAppend, if_neg hc]
    rw [sAppendAll_norm cl _ _ q
      (fun e he => ⟨(h1 e (by simp [he])).2.1, hq e he, (h1 e (by simp [he])).2.2, hcl e (by simp [he])⟩)]
    simp

omit [StarRing K] in
/-- Cloning a normalised expression gives an identical one. -/
theorem cloneF_norm (n : Nat) (e : Expr K A) (h : Norm e) : cloneF n e = e := by
  induction n generalizing e with
  | zero => cases e <;> rfl
  | succ n ih =>
    cases e with
    | const c => rfl
    | atom a => rfl
    | prod c l =>
      simp only [Norm, NormP_iff] at h
      have hm : l.map (cloneF n) = l := by
        conv_rhs => rw [← List.map_id l]
        exact List.map_congr_left fun e he => ih e (h e he).1
      simp only [cloneF, foldl_pAppend, hm]
      rw [pAppendAll_norm _ _ _ _ _ (fun e he => ⟨(h e he).2.1, (h e he).2.2, ih e (h e he).1⟩)]
      simp
    | sum ci l =>
      have h' := h
      simp only [Norm, NormS_iff] at h'
      have hm : l.map (cloneF n) = l := by
        conv_rhs => rw [← List.map_id l]
        exact List.map_congr_left fun e he => ih e (h'.1 e he).1
      simp only [cloneF, foldl_sAppend, hm]
      rw [sAppendAll_sum _ ci l h (fun e he => ih e (h'.1 e he).1)]

omit [StarRing K] in
theorem clone_norm (e : Expr K A) (h : Norm e) : clone e = e := cloneF_norm _ e h

/-- The adjoint of a normalised expression, without rebuilding. -/
theorem adjF_norm (aadj : A → A) (hz : ∀ a, Atoms.isZero K (aadj a) = Atoms.isZero K a) (hinv : ∀ a, aadj (aadj a) = a)
    (n : Nat) (e : Expr K A) (h : Norm e) (hd : e.depth ≤ n) :
    Norm (adjF aadj n e) ∧ (adjF aadj n e).isSum = e.isSum ∧ (adjF aadj n e).isProd = e.isProd ∧
      (adjF aadj n e).isConst = e.isConst ∧ (adjF aadj n e).isZero = e.isZero ∧ (adjF aadj n e).depth ≤ n ∧
      adjF aadj n (adjF aadj n e) = e := by
  have hcz : ∀ c : K, (star c = 0) ↔ c = 0 := fun c => star_eq_zero
  induction n generalizing e with
  | zero =>
    cases e <;> simp [Expr.depth] at hd
    · simp [adjF, Norm, Expr.isSum, Expr.isProd, Expr.isConst, Expr.isZero, Expr.depth]
    · simp [adjF, Norm, Expr.isSum, Expr.isProd, Expr.isConst, Expr.isZero, Expr.depth, hz, hinv]
  | succ n ih =>
    cases e with
    | const c => simp [adjF, Norm, Expr.isSum, Expr.isProd, Expr.isConst, Expr.isZero, Expr.depth]
    | atom a => simp [adjF, Norm, Expr.isSum, Expr.isProd, Expr.isConst, Expr.isZero, Expr.depth, hz, hinv]
    | prod c l =>
      simp only [Expr.depth] at hd
      have hl : depthL l ≤ n := by omega
      rw [depthL_le_iff] at hl
      simp only [Norm, NormP_iff] at h
      have key : ∀ (c : K) (l : List (Expr K A)), (∀ e ∈ l, Norm e ∧ e.isProd = false ∧ e.isConst = false ∧ e.depth ≤ n) →
          adjF aadj (n + 1) (.prod c l) = .prod (star c) (l.reverse.map (adjF aadj n)) := by
        intro c l hl'
        have hm : (l.reverse.map fun f => adjF aadj n (clone f)) = l.reverse.map (adjF aadj n) :=
          List.map_congr_left fun e he => by rw [clone_norm e (hl' e (by simpa using he)).1]
        rw [adjF, hm, mkProd]
        rw [pAppendAll_norm]
        · rfl
        · intro e he
          simp only [List.mem_map, List.mem_reverse] at he
          obtain ⟨x, hx, rfl⟩ := he
          have h1 := hl' x hx
          have h2 := ih x h1.1 h1.2.2.2
          exact ⟨h2.2.2.1.trans h1.2.1, h2.2.2.2.1.trans h1.2.2.1, clone_norm _ h2.1⟩
      have himg : ∀ e ∈ l.reverse.map (adjF aadj n), Norm e ∧ e.isProd = false ∧ e.isConst = false ∧ e.depth ≤ n := by
        intro e he
        simp only [List.mem_map, List.mem_reverse] at he
        obtain ⟨x, hx, rfl⟩ := he
        have h2 := ih x (h x hx).1 (hl x hx)
        exact ⟨h2.1, h2.2.2.1.trans (h x hx).2.1, h2.2.2.2.1.trans (h x hx).2.2, h2.2.2.2.2.2.1⟩
      rw [key c l (fun e he => ⟨(h e he).1, (h e he).2.1, (h e he).2.2, hl e he⟩)]
      refine ⟨?_, rfl, rfl, rfl, ?_, ?_, ?_⟩
      · simp only [Norm, NormP_iff]
        exact fun e he => ⟨(himg e he).1, (himg e he).2.1, (himg e he).2.2.1⟩
      · simp [Expr.isZero]
      · simp only [Expr.depth]
        have : depthL (l.reverse.map (adjF aadj n)) ≤ n := by rw [depthL_le_iff]; exact fun e he => (himg e he).2.2.2
        omega
      · rw [key _ _ himg, star_star]
        congr 1
        rw [← List.map_reverse, List.reverse_reverse, List.map_map]
        conv_rhs => rw [← List.map_id l]
        exact List.map_congr_left fun e he => (ih e (h e he).1 (hl e he)).2.2.2.2.2.2
    | sum ci l =>
      simp only [Expr.depth] at hd
      have hl : depthL l ≤ n := by omega
      rw [depthL_le_iff] at hl
      have himg : ∀ (l : List (Expr K A)), (∀ e ∈ l, Norm e ∧ e.isSum = false ∧ e.isZero = false) → (∀ e ∈ l, e.depth ≤ n) →
          ∀ e ∈ l.map (adjF aadj n), Norm e ∧ e.isSum = false ∧ e.isZero = false ∧ e.depth ≤ n := by
        intro l h hl e he
        simp only [List.mem_map] at he
        obtain ⟨x, hx, rfl⟩ := he
        have h2 := ih x (h x hx).1 (hl x hx)
        exact ⟨h2.1, h2.2.1.trans (h x hx).2.1, h2.2.2.2.2.1.trans (h x hx).2.2, h2.2.2.2.2.2.1⟩
      have hnorm : ∀ (l : List (Expr K A)), Norm (.sum ci l) → (∀ e ∈ l, e.depth ≤ n) → Norm (.sum ci (l.map (adjF aadj n))) := by
        intro l h hl
        have h' := h
        simp only [Norm, NormS_iff] at h ⊢
        refine ⟨fun e he => ?_, ?_⟩
        · have := himg l h.1 hl e he
          exact ⟨this.1, this.2.1, this.2.2.1⟩
        · rcases h.2 with h2 | ⟨p, c, q, rfl, rfl, hp, hq⟩
          · left
            refine ⟨h2.1, ?_⟩
            intro e he
            simp only [List.mem_map] at he
            obtain ⟨x, hx, rfl⟩ := he
            exact (ih x (h.1 x hx).1 (hl x hx)).2.2.2.1.trans (h2.2 x hx)
          · right
            refine ⟨p.map (adjF aadj n), star c, q.map (adjF aadj n), ?_, by simp, ?_, ?_⟩
            · cases n <;> simp [adjF]
            · intro e he
              simp only [List.mem_map] at he
              obtain ⟨x, hx, rfl⟩ := he
              exact (ih x (h.1 x (by simp [hx])).1 (hl x (by simp [hx]))).2.2.2.1.trans (hp x hx)
            · intro e he
              simp only [List.mem_map] at he
              obtain ⟨x, hx, rfl⟩ := he
              exact (ih x (h.1 x (by simp [hx])).1 (hl x (by simp [hx]))).2.2.2.1.trans (hq x hx)
      have key : ∀ (l : List (Expr K A)), Norm (.sum ci l) → (∀ e ∈ l, e.depth ≤ n) →
          adjF aadj (n + 1) (.sum ci l) = .sum ci (l.map (adjF aadj n)) := by
        intro l h hl
        have hn := hnorm l h hl
        simp only [Norm, NormS_iff] at h
        have hm : (l.map fun f => adjF aadj n (clone f)) = l.map (adjF aadj n) :=
          List.map_congr_left fun e he => by rw [clone_norm e (h.1 e he).1]
        rw [adjF, hm, mkSum]
        rw [sAppendAll_sum clone ci _ hn]
        intro e he
        exact clone_norm _ (himg l h.1 hl e he).1
      have hn := hnorm l h hl
      have hs := h
      simp only [Norm, NormS_iff] at hs
      have hi := himg l hs.1 hl
      rw [key l h hl]
      refine ⟨hn, rfl, rfl, rfl, rfl, ?_, ?_⟩
      · simp only [Expr.depth]
        have : depthL (l.map (adjF aadj n)) ≤ n := by rw [depthL_le_iff]; exact fun e he => (hi e he).2.2.2
        omega
      · rw [key _ hn (fun e he => (hi e he).2.2.2)]
        congr 1
        rw [List.map_map]
        conv_rhs => rw [← List.map_id l]
        exact List.map_congr_left fun e he => (ih e (hs.1 e he).1 (hl e he)).2.2.2.2.2.2

/-- **C04, partial** (structure): on normalised expressions the adjoint is an involution.  Missing: expressions with nested products or
sums, constant factors or several constant summands, for which the rebuilt expression differs (but has the same value,
`adjoint_adjoint_val`). -/
theorem adjoint_adjoint_partial (aadj : A → A) (hz : ∀ a, Atoms.isZero K (aadj a) = Atoms.isZero K a) (hinv : ∀ a, aadj (aadj a) = a)
    (e : Expr K A) (h : Norm e) : adjointE aadj (adjointE aadj e) = e := by
  have h1 := adjF_norm aadj hz hinv e.depth e h (le_refl _)
  have h2 : adjointE aadj e = adjF aadj e.depth e := by rw [adjointE, clone_norm e h]
  rw [h2, adjointE, clone_norm _ h1.1, adjF_stable aadj _ e.depth _ (le_refl _) h1.2.2.2.2.2.1]
  exact h1.2.2.2.2.2.2

namespace Inst
/-- The transpose exchanges the two atoms of the instance. -/
def atAdj : At → At
  | .x => .y | .y => .x | .z => .z

theorem mat_adj (a : At) : mat (atAdj a) = star (mat a) := by cases a <;> decide +kernel
end Inst

open Inst in
/-- **C04 is false** structurally: a product inside a product is dissolved by the first adjoint. -/
theorem adjoint_adjoint_nested : adjointE atAdj (adjointE atAdj (.prod 1 [.prod 2 [X, Y]] : E)) ≠ .prod 1 [.prod 2 [X, Y]] := by
  have h : adjointE atAdj (adjointE atAdj (.prod 1 [.prod 2 [X, Y]] : E)) = .prod 2 [X, Y] := rfl
  rw [h]; simp

open Inst in
example : eval mat (adjointE atAdj (.prod 3 [X, X, .sum none [Y, .const 2]] : E)) =
    star (3 • (mat .x * mat .x * (mat .y + 2))) := by
  rw [adjoint_val mat_interp atAdj mat_adj]
  congr 1
  decide +kernel

open Inst in
example : adjointE atAdj (adjointE atAdj (.sum (some 1) [.prod 3 [X, Y], .const 2, Y] : E)) = .sum (some 1) [.prod 3 [X, Y], .const 2, Y] :=
  adjoint_adjoint_partial atAdj (by intro a; cases a <;> rfl) (by intro a; cases a <;> rfl) _ (by
    simp only [Norm, NormS, NormP]
    refine ⟨⟨⟨⟨⟨trivial, rfl, rfl⟩, ⟨trivial, rfl, rfl⟩, trivial⟩, rfl, rfl⟩, ⟨trivial, rfl, rfl⟩, ⟨trivial, rfl, rfl⟩, trivial⟩, Or.inr
      ⟨[.prod 3 [X, Y]], 2, [Y], rfl, rfl, ?_, ?_⟩⟩ <;> simp [Expr.isConst])

end SeQuant.Expression
