import Verif.Expression.AccumModel
import Verif.Expression.Lemmas
import Verif.Expression.Instances

set_option linter.unusedSectionVars false

/-! # C16 and C17: `HashingAccumulator` and the moving constructor of `Sum` -/

namespace SeQuant.Expression

variable {K A R : Type} [CommRing K] [DecidableEq K] [Ring R] [Algebra K R] [Atoms K A] {I : A → R}

theorem evalSum_set (l : List (Expr K A)) (i : Nat) (x y : Expr K A) (h : l[i]? = some x) :
    evalSum I (l.set i y) = evalSum I l - eval I x + eval I y := by
  induction l generalizing i with
  | nil => simp at h
  | cons e l ih =>
    cases i with
    | zero =>
      simp only [List.getElem?_cons_zero, Option.some.injEq] at h
      subst h; simp only [List.set_cons_zero, evalSum]; abel
    | succ i =>
      simp only [List.getElem?_cons_succ] at h
      simp only [List.set_cons_succ, evalSum, ih i h]; abel

theorem evalSum_erase (l : List (Expr K A)) (i : Nat) (x : Expr K A) (h : l[i]? = some x) :
    evalSum I (l.eraseIdx i) = evalSum I l - eval I x := by
  induction l generalizing i with
  | nil => simp at h
  | cons e l ih =>
    cases i with
    | zero =>
      simp only [List.getElem?_cons_zero, Option.some.injEq] at h
      subst h; simp only [List.eraseIdx_cons_zero, evalSum]; abel
    | succ i =>
      simp only [List.getElem?_cons_succ] at h
      simp only [List.eraseIdx_cons_succ, evalSum, ih i h]; abel

theorem isZero_val (hI : Interp K I) (e : Expr K A) (h : e.isZero = true) : eval I e = 0 := by
  cases e with
  | const c => simp only [Expr.isZero, decide_eq_true_eq] at h; simp [eval, h]
  | atom a => exact hI.zero a h
  | prod c l => simp only [Expr.isZero, decide_eq_true_eq] at h; simp [eval, h]
  | sum ci l => simp [Expr.isZero] at h

/-! ### C17 -/

theorem moveLoop_val (hI : Interp K I) (n : Nat) (l : List (Expr K A)) (it pos : Nat) (ci : Option Nat) (st : SState K A)
    (hpos : pos ≤ it) (hci : ∀ i, ci = some i → i < pos) (h : moveLoop n l it pos ci = .ok st) :
    evalSum I st.2 = evalSum I l := by
  induction n generalizing l it pos ci with
  | zero => simp [moveLoop] at h
  | succ n ih =>
    rw [moveLoop] at h
    split at h
    · simp only [Outcome.ok.injEq] at h; subst h; rfl
    · split at h
      · simp at h
      · rename_i s hs
        split at h
        · rename_i hz
          rw [ih _ _ _ _ (by omega) hci h, evalSum_erase l it s hs, isZero_val hI s hz, sub_zero]
        · split at h
          · rename_i c _
            split at h
            · rename_i i
              split at h
              · rename_i d hd
                have hi := hci i rfl
                rw [ih _ _ _ _ (by omega) hci h, evalSum_erase _ it (.const c), evalSum_set l i (.const d) _ hd]
                · simp only [eval, map_add]; abel
                · rw [List.getElem?_set_ne (by omega)]; exact hs
              · simp at h
            · refine ih _ _ _ _ (by omega) ?_ h
              intro i hi; simp only [Option.some.injEq] at hi; omega
          · exact ih _ _ _ _ (by omega) (fun i hi => by have := hci i hi; omega) h

/-- The step bound of the model is not a restriction. -/
theorem moveLoop_fuel (N n : Nat) (l : List (Expr K A)) (it pos : Nat) (ci : Option Nat) (hN : l.length ≤ N)
    (hn : l.length * (N + 2) + (l.length + 1 - it) < n) : moveLoop n l it pos ci ≠ .fuel := by
  induction n generalizing l it pos ci with
  | zero => omega
  | succ n ih =>
    rw [moveLoop]
    have her : ∀ (l' : List (Expr K A)) (pos' : Nat), l'.length + 1 = l.length → l'.length ≤ N ∧
        l'.length * (N + 2) + (l'.length + 1 - (pos' + 1)) < n := by
      intro l' p h
      refine ⟨by omega, ?_⟩
      have : l.length * (N + 2) = l'.length * (N + 2) + (N + 2) := by rw [← h]; ring
      omega
    split
    · simp
    · split
      · simp
      · rename_i hne s hs
        have hlt : it < l.length := by
          rcases Nat.lt_or_ge it l.length with h | h
          · exact h
          · rw [List.getElem?_eq_none h] at hs; simp at hs
        have hstep : l.length * (N + 2) + (l.length + 1 - (it + 1)) < n := by omega
        split
        · obtain ⟨h1, h2⟩ := her (l.eraseIdx it) pos (by rw [List.length_eraseIdx_of_lt hlt]; omega)
          exact ih _ _ _ _ h1 h2
        · split
          · split
            · split
              · rename_i i _ d hd
                obtain ⟨h1, h2⟩ := her ((l.set i (.const (d + _))).eraseIdx it) pos
                  (by rw [List.length_eraseIdx_of_lt (by simpa using hlt), List.length_set]; omega)
                exact ih _ _ _ _ h1 h2
              · simp
            · exact ih _ _ _ _ hN hstep
          · exact ih _ _ _ _ hN hstep

theorem moveOnly_fuel (l : List (Expr K A)) : moveOnly l ≠ .fuel :=
  moveLoop_fuel l.length _ l 0 0 none (le_refl _) (by ring_nf; omega)

/-- **C17, partial**: whenever the moving constructor completes without undefined behaviour or a failed assertion, the sum has the
value of the list.  Missing: it does not always complete, see `moveOnly_undefined`. -/
theorem moveOnly_val_partial (hI : Interp K I) (l : List (Expr K A)) (st : SState K A) (h : moveOnly l = .ok st) :
    eval I (.sum st.1 st.2) = evalSum I l := by
  simp only [eval]
  exact moveLoop_val hI _ l 0 0 none st (le_refl _) (by simp) h

theorem moveLoop_clean (n : Nat) (l : List (Expr K A)) (it : Nat) (ci : Option Nat) (hit : it ≤ l.length)
    (hz : ∀ e ∈ l, e.isZero = false) (hci : ∀ i, ci = some i → i < it ∧ ∃ c, l[i]? = some (.const c))
    (h1 : ∀ i j, i < j → it ≤ j → (∃ c, l[i]? = some (.const c)) → (∃ c, l[j]? = some (.const c)) → False)
    (hn : l.length - it < n) : ∃ ci', moveLoop n l it it ci = .ok (ci', l) ∧ IdxOk (ci', l) := by
  induction n generalizing it ci with
  | zero => omega
  | succ n ih =>
    rw [moveLoop]
    split
    · exact ⟨ci, rfl, fun i hi => (hci i hi).2⟩
    · rename_i hne
      have hlt : it < l.length := by omega
      rw [List.getElem?_eq_getElem hlt]
      have hmem : l[it] ∈ l := List.getElem_mem hlt
      have hz' := hz _ hmem
      simp only [hz', Bool.false_eq_true, if_false]
      split
      · rename_i c hc
        have hc' : l[it]? = some (.const c) := by rw [List.getElem?_eq_getElem hlt, hc]
        cases ci with
        | some i =>
          obtain ⟨h2, h3⟩ := hci i rfl
          exact absurd (h1 i it h2 (le_refl _) h3 ⟨c, hc'⟩) id
        | none =>
          refine ih (it + 1) _ (by omega) ?_ ?_ (by omega)
          · intro i hi
            simp only [Option.some.injEq] at hi
            subst hi
            exact ⟨by omega, c, hc'⟩
          · intro i j hij hj; exact h1 i j hij (by omega)
      · refine ih (it + 1) _ (by omega) ?_ ?_ (by omega)
        · intro i hi; have := hci i hi; exact ⟨by omega, this.2⟩
        · intro i j hij hj; exact h1 i j hij (by omega)

/-- **C17, partial**: for a list without zero summands and with at most one constant the constructor completes, keeps the list and
remembers a correct constant position.  Missing: lists with zero summands or several constants. -/
theorem moveOnly_clean_partial (l : List (Expr K A)) (hz : ∀ e ∈ l, e.isZero = false)
    (h1 : ∀ i j : Nat, i < j → (∃ c : K, l[i]? = some (.const c)) → (∃ c : K, l[j]? = some (.const c)) → False) :
    ∃ ci, moveOnly l = .ok (ci, l) ∧ IdxOk (ci, l) :=
  moveLoop_clean _ l 0 none (Nat.zero_le _) hz (by simp) (fun i j hij _ => h1 i j hij) (by ring_nf; omega)

example : moveOnly ([Inst.X, .const 3, Inst.Y] : List Inst.E) = .ok (some 1, [Inst.X, .const 3, Inst.Y]) := by rfl

/-- **C17 is false**: two constants make the loop step past the end of the vector. -/
theorem moveOnly_undefined : moveOnly ([.const 1, .const 2] : List Inst.E) = .undefined := by rfl

/-- **C17 is false**: so does a zero summand in last position. -/
theorem moveOnly_undefined_zero : moveOnly ([Inst.X, .const 0] : List Inst.E) = .undefined := by rfl

/-- Skipping an element also desynchronises the remembered position: here it denotes `Y`, not the constant. -/
theorem moveOnly_wrong_index : moveOnly ([.const 0, Inst.X, Inst.Y, .const 2] : List Inst.E) =
    .ok (some 1, [Inst.X, Inst.Y, .const 2]) := by rfl

/-! ### C16 -/

section
variable {cmp : Cmp K A}

theorem eqvL_val (hE : ∀ a b, cmp.eqv a b = true → eval I a = eval I b) (l m : List (Expr K A)) (h : eqvL cmp l m = true) :
    evalProd I l = evalProd I m := by
  induction l generalizing m with
  | nil => cases m <;> simp_all [eqvL]
  | cons a l ih =>
    cases m with
    | nil => simp [eqvL] at h
    | cons b m =>
      simp only [eqvL, Bool.and_eq_true] at h
      simp only [evalProd, hE a b h.1, ih m h.2]

theorem addIdenticalP_val (hE : ∀ a b, cmp.eqv a b = true → eval I a = eval I b) (x s y : Expr K A)
    (h : addIdenticalP cmp x s = some y) : eval I y = eval I x + eval I s := by
  cases x with
  | prod c l =>
    cases s with
    | prod d m =>
      simp only [addIdenticalP] at h
      split at h
      · rename_i he
        simp only [Option.some.injEq] at h
        subst h
        simp only [eval, eqvL_val hE l m he, add_smul]
      · simp at h
    | _ => simp [addIdenticalP] at h
  | _ => simp [addIdenticalP] at h

theorem addIdenticalE_val (hE : ∀ a b, cmp.eqv a b = true → eval I a = eval I b) (x s y : Expr K A)
    (h : addIdenticalE cmp x s = some y) : eval I y = eval I x + eval I s := by
  cases x with
  | prod c l =>
    match l with
    | [] => simp [addIdenticalE] at h
    | [f] =>
      simp only [addIdenticalE] at h
      split at h
      · rename_i he
        simp only [Option.some.injEq] at h
        subst h
        simp only [eval, evalProd, mul_one, add_smul, one_smul, hE f s he]
      · simp at h
    | _ :: _ :: _ => simp [addIdenticalE] at h
  | _ => simp [addIdenticalE] at h

theorem accOne_val (hI : Interp K I) (hE : ∀ a b, cmp.eqv a b = true → eval I a = eval I b)
    (hH : ∀ a b : K, cmp.hash (.const a) = cmp.hash (.const b) → a = b) (F : Find cmp) (st st' : List (Expr K A)) (s : Expr K A)
    (h : accOne cmp F st s = some st') : evalSum I st' = evalSum I st + eval I s := by
  unfold accOne at h
  split at h
  · simp only [Option.some.injEq] at h
    subst h; simp [evalSum_append, evalSum]
  · rename_i i hi
    obtain ⟨x, hx, hhash, hprop⟩ := F.sound st s i hi
    rw [hx] at h
    simp only at h
    split at h
    · split at h
      · simp only [Option.map_eq_some_iff] at h
        obtain ⟨y, hy, rfl⟩ := h
        rw [evalSum_set st i x y hx, addIdenticalP_val hE x s y hy]; abel
      · simp only [Option.map_eq_some_iff] at h
        obtain ⟨y, hy, rfl⟩ := h
        rw [evalSum_append, evalSum_erase st i x hx]
        simp only [evalSum, addIdenticalE_val hE _ x y hy, mkProd_val hI, evalProd, clone_val hI, one_smul, mul_one]; abel
    · split at h
      · simp only [Option.map_eq_some_iff] at h
        obtain ⟨y, hy, rfl⟩ := h
        rw [evalSum_set st i x y hx, addIdenticalE_val hE x s y hy]; abel
      · rename_i hsp hxp
        simp only [Option.some.injEq] at h
        subst h
        have hxs : eval I x = eval I s := by
          cases x with
          | const c =>
            cases s with
            | const d => rw [hH c d hhash]
            | prod _ _ => simp [Expr.isProd] at hsp
            | _ => simp [proportional] at hprop
          | atom c =>
            cases s with
            | atom d => exact hE _ _ hprop
            | prod _ _ => simp [Expr.isProd] at hsp
            | _ => simp [proportional] at hprop
          | prod _ _ => simp [Expr.isProd] at hxp
          | sum c l =>
            cases s with
            | sum d m => exact hE _ _ hprop
            | prod _ _ => simp [Expr.isProd] at hsp
            | _ => simp [proportional] at hprop
        have hp := pAppend_val (I := I) (clone_val hI) .Recursively ((1 : K) * (1 + 1), []) s
        simp only [pval, evalProd] at hp
        rw [evalSum_append, evalSum_erase st i x hx]
        simp only [evalSum, eval, hp, hxs]
        rw [one_mul, add_smul, one_smul, add_mul, one_mul]; abel

mutual
theorem accAppend_val (hI : Interp K I) (hE : ∀ a b, cmp.eqv a b = true → eval I a = eval I b)
    (hH : ∀ a b : K, cmp.hash (.const a) = cmp.hash (.const b) → a = b) (F : Find cmp) (flat : Bool) (st st' : List (Expr K A))
    (s : Expr K A) (h : accAppend cmp F flat st s = some st') : evalSum I st' = evalSum I st + eval I s := by
  match s with
  | .const c => exact accOne_val hI hE hH F st st' _ h
  | .atom c => exact accOne_val hI hE hH F st st' _ h
  | .prod c l => exact accOne_val hI hE hH F st st' _ h
  | .sum ci l =>
    simp only [accAppend] at h
    split at h
    · exact accAll_val hI hE hH F flat st st' l h
    · exact accOne_val hI hE hH F st st' _ h
theorem accAll_val (hI : Interp K I) (hE : ∀ a b, cmp.eqv a b = true → eval I a = eval I b)
    (hH : ∀ a b : K, cmp.hash (.const a) = cmp.hash (.const b) → a = b) (F : Find cmp) (flat : Bool) (st st' : List (Expr K A))
    (l : List (Expr K A)) (h : accAll cmp F flat st l = some st') : evalSum I st' = evalSum I st + evalSum I l := by
  match l with
  | [] => simp only [accAll, Option.some.injEq] at h; subst h; simp [evalSum]
  | s :: l =>
    simp only [accAll, Option.bind_eq_bind, Option.bind_eq_some_iff] at h
    obtain ⟨st1, h1, h2⟩ := h
    rw [accAll_val hI hE hH F flat st1 st' l h2, accAppend_val hI hE hH F flat st st1 s h1, evalSum, add_assoc]
end

/-- **C16, partial** (accumulating): the stored terms add up to the appended ones, whatever element `find` returns among several
candidates, however hashes of non-constants collide, with and without flattening.  Missing: colliding hashes of two different
constants (`accumulate_collision`) and repeated appending of one object (`accumulate_alias`). -/
theorem accumulate_partial (hI : Interp K I) (hE : ∀ a b, cmp.eqv a b = true → eval I a = eval I b)
    (hH : ∀ a b : K, cmp.hash (.const a) = cmp.hash (.const b) → a = b) (F : Find cmp) (flat : Bool) (st : List (Expr K A))
    (l : List (Expr K A)) (h : accAll cmp F flat [] l = some st) : evalSum I st = evalSum I l := by
  rw [accAll_val hI hE hH F flat [] st l h]; simp [evalSum]

theorem evalSum_perm {l m : List (Expr K A)} (h : l.Perm m) : evalSum I l = evalSum I m := by
  rw [evalSum_eq, evalSum_eq]; exact (h.map _).sum_eq

theorem evalSum_filter (hI : Interp K I) (l : List (Expr K A)) : evalSum I (l.filter fun e => !e.isZero) = evalSum I l := by
  induction l with
  | nil => rfl
  | cons e l ih =>
    by_cases h : e.isZero = true
    · simp [h, evalSum, ih, isZero_val hI e h]
    · simp [h, evalSum, ih]

/-- **C16, partial** (result): whenever `make_expr` completes, its result has the value of the stored terms, whatever the order of
traversal and sorting. -/
theorem makeExpr_val_partial (hI : Interp K I) (order : List (Expr K A) → List (Expr K A)) (ho : ∀ l, (order l).Perm l)
    (st : List (Expr K A)) (r : Expr K A) (h : accMakeExpr order st = .ok r) : eval I r = evalSum I st := by
  unfold accMakeExpr at h
  split at h
  · simp only [Outcome.ok.injEq] at h; subst h; simp [eval, evalSum]
  · simp only [Outcome.ok.injEq] at h; subst h; simp [evalSum]
  · split at h
    · rename_i s hs
      simp only [Outcome.ok.injEq] at h
      subst h
      rw [moveOnly_val_partial hI _ s hs, evalSum_perm (ho _), evalSum_filter hI]
    all_goals simp at h

/-- **C16, partial** (result): with at most one constant among the stored terms `make_expr` does complete. -/
theorem makeExpr_completes_partial (hI : Interp K I) (order : List (Expr K A) → List (Expr K A)) (ho : ∀ l, (order l).Perm l)
    (st : List (Expr K A)) (h1 : (st.filter Expr.isConst).length ≤ 1) :
    ∃ r, accMakeExpr order st = .ok r ∧ eval I r = evalSum I st := by
  suffices H : ∃ r, accMakeExpr order st = .ok r by
    obtain ⟨r, hr⟩ := H; exact ⟨r, hr, makeExpr_val_partial hI order ho st r hr⟩
  have hc : ((order (st.filter fun e => !e.isZero)).filter Expr.isConst).length ≤ 1 := by
    refine le_trans ?_ h1
    rw [((ho _).filter _).length_eq]
    exact (List.Sublist.filter _ List.filter_sublist).length_le
  obtain ⟨ci, hm, _⟩ := moveOnly_clean_partial (order (st.filter fun e => !e.isZero))
    (by
      intro e he
      have := (ho _).mem_iff.1 he
      simp only [List.mem_filter] at this
      simpa using this.2)
    (by
      generalize order (st.filter fun e => !e.isZero) = l at hc
      rintro i j hij ⟨c, hci⟩ ⟨d, hdj⟩
      have : ∀ (l : List (Expr K A)) (i : Nat) (c : K), l[i]? = some (.const c) → 1 ≤ (l.filter Expr.isConst).length := by
        intro l i c h
        refine List.length_pos_of_mem (a := .const c) ?_
        simp only [List.mem_filter, Expr.isConst, and_true]
        exact List.mem_of_getElem? h
      have h1 := this (l.take j) i c (by rw [List.getElem?_take_of_lt hij]; exact hci)
      have h2 := this (l.drop j) 0 d (by rw [List.getElem?_drop]; simpa using hdj)
      rw [← List.take_append_drop j l, List.filter_append, List.length_append] at hc
      omega)
  unfold accMakeExpr
  split
  · exact ⟨_, rfl⟩
  · exact ⟨_, rfl⟩
  · simp only [accMakeSum, hm]; exact ⟨_, rfl⟩

/-- **C16, partial** (`transform_sum_expr`, sum.hpp:402-429): the tasks append their results under a lock in an arbitrary order;
whatever the order, the value is the sum over all tasks. -/
theorem transformSum_partial (hI : Interp K I) (hE : ∀ a b, cmp.eqv a b = true → eval I a = eval I b)
    (hH : ∀ a b : K, cmp.hash (.const a) = cmp.hash (.const b) → a = b) (F : Find cmp) (flat : Bool)
    (order : List (Expr K A) → List (Expr K A)) (ho : ∀ l, (order l).Perm l) (tasks schedule : List (Expr K A))
    (hs : schedule.Perm tasks) (st : List (Expr K A)) (h : accAll cmp F flat [] schedule = some st) (r : Expr K A)
    (hr : accMakeExpr order st = .ok r) : eval I r = evalSum I tasks := by
  rw [makeExpr_val_partial hI order ho st r hr, accumulate_partial hI hE hH F flat st schedule h, evalSum_perm hs]

end

/-- **C16 is false** for one object appended three times: the stored object is the caller's, the second `append` doubles it in
place, the third adds the doubled one, giving 4 times the term instead of 3 times. -/
theorem accumulate_alias : (aliasAcc (fun _ => (1 : Int)) [0, 0, 0]).map (fun r => r.2 r.1) = some 4 := by rfl

/-- With distinct objects the same procedure gives the sum. -/
theorem accumulate_distinct (sc : Nat → K) (a : Nat) (l : List Nat) (h : a ∉ l) :
    (aliasAcc sc (a :: l)).map (fun r => r.2 r.1) = some (((a :: l).map sc).sum) := by
  simp only [aliasAcc, Option.map_some, Option.some.injEq, List.map_cons, List.sum_cons]
  suffices H : ∀ (l : List Nat) (sc' : Nat → K), a ∉ l → (∀ x, x ≠ a → sc' x = sc x) →
      (l.foldl (fun sc b => fun x => if x = a then sc a + sc b else sc x) sc') a = sc' a + (l.map sc).sum from
    H l sc h (fun _ _ => rfl)
  clear h l
  intro l
  induction l with
  | nil => intro sc' _ _; simp
  | cons b l ih =>
    intro sc' hl hsc
    simp only [List.mem_cons, not_or] at hl
    rw [List.foldl_cons, ih _ hl.2 (by intro x hx; simp [hx, hsc x hx])]
    simp only [if_true, List.map_cons, List.sum_cons, hsc b (Ne.symm hl.1)]
    ring

example : (aliasAcc (fun n => (n : Int)) [5, 7, 7]).map (fun r => r.2 r.1) = some 19 := by rfl

/-! ### A concrete comparison -/
namespace Inst

mutual
def beq : E → E → Bool
  | .const a, .const b => decide (a = b)
  | .atom a, .atom b => decide (a = b)
  | .prod c l, .prod d m => decide (c = d) && beqL l m
  | .sum _ l, .sum _ m => beqL l m
  | _, _ => false
def beqL : List E → List E → Bool
  | [], [] => true
  | a :: l, b :: m => beq a b && beqL l m
  | _, _ => false
end

mutual
theorem beq_val (a b : E) (h : beq a b = true) : eval mat a = eval mat b := by
  match a, b with
  | .const a, .const b => simp only [beq, decide_eq_true_eq] at h; rw [h]
  | .atom a, .atom b => simp only [beq, decide_eq_true_eq] at h; rw [h]
  | .prod c l, .prod d m =>
    simp only [beq, Bool.and_eq_true, decide_eq_true_eq] at h
    simp only [eval, h.1, (beqL_val l m h.2).1]
  | .sum c l, .sum d m =>
    simp only [beq] at h
    simp only [eval, (beqL_val l m h).2]
  | .const _, .atom _ => simp [beq] at h
  | .const _, .prod _ _ => simp [beq] at h
  | .const _, .sum _ _ => simp [beq] at h
  | .atom _, .const _ => simp [beq] at h
  | .atom _, .prod _ _ => simp [beq] at h
  | .atom _, .sum _ _ => simp [beq] at h
  | .prod _ _, .const _ => simp [beq] at h
  | .prod _ _, .atom _ => simp [beq] at h
  | .prod _ _, .sum _ _ => simp [beq] at h
  | .sum _ _, .const _ => simp [beq] at h
  | .sum _ _, .atom _ => simp [beq] at h
  | .sum _ _, .prod _ _ => simp [beq] at h
theorem beqL_val (l m : List E) (h : beqL l m = true) : evalProd mat l = evalProd mat m ∧ evalSum mat l = evalSum mat m := by
  match l, m with
  | [], [] => exact ⟨rfl, rfl⟩
  | a :: l, b :: m =>
    simp only [beqL, Bool.and_eq_true] at h
    have := beqL_val l m h.2
    simp only [evalProd, evalSum, beq_val a b h.1, this.1, this.2, and_self]
  | [], _ :: _ => simp [beqL] at h
  | _ :: _, [] => simp [beqL] at h
end

/-- A comparison whose hash function separates constants only. -/
def cmp : Cmp Int At where
  eqv := beq
  hash | .const c => 2 * c.natAbs + (if 0 < c then 1 else 0) | _ => 0

/-- The worst hash function. -/
def cmpBad : Cmp Int At where
  eqv := beq
  hash _ := 0

/-- First match. -/
def findFirst (cmp : Cmp Int At) : Find cmp where
  pick st s := st.findIdx? fun x => decide (cmp.hash x = cmp.hash s) && proportional cmp x s
  sound := by
    intro st s i h
    rw [List.findIdx?_eq_some_iff_getElem] at h
    obtain ⟨hi, h1, _⟩ := h
    simp only [Bool.and_eq_true, decide_eq_true_eq] at h1
    exact ⟨st[i], List.getElem?_eq_getElem hi, h1⟩
  complete := by
    intro st s h x hx
    rw [List.findIdx?_eq_none_iff] at h
    simpa using h x hx

theorem cmp_hash (a b : Int) (h : cmp.hash (.const a) = cmp.hash (.const b)) : a = b := by
  simp only [cmp] at h
  split at h <;> split at h <;> omega

/-- `X + 2X + Y + (Y + 3)` is collected to `3X + 2Y + 3`. -/
example : accAll cmp (findFirst cmp) true [] [X, .prod 2 [X], Y, .sum none [Y, .const 3]] =
    some [.prod 3 [X], .prod 2 [Y], .const 3] := by rfl

example (st : List E) (h : accAll cmp (findFirst cmp) true [] [X, .prod 2 [X], Y, .sum none [Y, .const 3]] = some st) :
    evalSum mat st = evalSum mat [X, .prod 2 [X], Y, .sum none [Y, .const 3]] :=
  accumulate_partial mat_interp beq_val cmp_hash _ _ st _ h

example : (accMakeExpr id ([.prod 3 [X], .prod 2 [Y], .const 3] : List E)) = .ok (.sum (some 2) [.prod 3 [X], .prod 2 [Y], .const 3]) := by
  rfl

end Inst

/-- **C16 is false** when the hashes of two constants collide: 1 and 2 are collected to 4. -/
theorem accumulate_collision : ∃ st, accAll Inst.cmpBad (Inst.findFirst Inst.cmpBad) true [] [.const 1, .const 2] = some st ∧
    evalSum Inst.mat st ≠ evalSum Inst.mat ([.const 1, .const 2] : List Inst.E) := ⟨[.prod 4 []], rfl, by decide +kernel⟩

/-- **C16 is false** for two different constants with different hashes as well: both are stored and `make_expr` runs into the
undefined behaviour of the moving constructor. -/
theorem accumulate_two_constants :
    (accAll Inst.cmp (Inst.findFirst Inst.cmp) true [] [.const 1, .const 2]).map (accMakeExpr id) = some .undefined := by rfl

end SeQuant.Expression
