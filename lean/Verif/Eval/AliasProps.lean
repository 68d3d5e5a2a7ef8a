import Verif.Eval.EvalProps
import Mathlib.Algebra.Group.Defs

/-!
# C28: evaluating a sequence of trees and summing the results in place

Results are objects on a heap: every operation of the backend allocates a new object, copies of a `ResultPtr` refer to the same object, and
`add_inplace` changes the object.
-/

set_option linter.unusedSectionVars false

namespace SeQuant.Eval

variable {L K V : Type} [DecidableEq K]

/-- Memory for results. -/
structure Mem (V : Type) where
  get : Nat → V
  next : Nat

def Mem.alloc (m : Mem V) (v : V) : Mem V × Nat := (⟨fun a => if a = m.next then v else m.get a, m.next + 1⟩, m.next)
def Mem.set (m : Mem V) (a : Nat) (v : V) : Mem V := { m with get := fun b => if b = a then v else m.get b }

/-- A backend on the heap (result.hpp:268-352, 410-463: `sum`, `prod`, `mult_by_phase`, `adjoint`, `permute` return new objects).  The leaf
evaluator returns an object that it owns if `tbl a` is an address, else a new one. -/
def heapEnv (key : ETree L → K) (op : L → EOp) (phase : L → Int) (A : Alg L V) (tbl : L → Option Nat) : Env L K Nat (Mem V) where
  key := key
  op := op
  phase := phase
  leaf a m := match tbl a with
    | some r => (m, r)
    | none => m.alloc (A.leaf a)
  sum t x y m := m.alloc (A.sum t (m.get x) (m.get y))
  prod t x y m := m.alloc (A.prod t (m.get x) (m.get y))
  adj t x m := m.alloc (A.adj t (m.get x))
  scale p x m := m.alloc (A.scale p (m.get x))
  custom := none
  hook := none

def heapAccum [Add V] (permV : ETree L → V → V) : Accum L Nat (Mem V) where
  permute t x m := m.alloc (permV t (m.get x))
  addInplace x y m := m.set x (m.get x + m.get y)

/-- Objects are allocated and have a value; the objects of the leaf evaluator have the right values. -/
def heapView (A : Alg L V) (tbl : L → Option Nat) : View (Mem V) Nat V where
  val m r v := r < m.next ∧ m.get r = v
  inv m := ∀ a r, tbl a = some r → r < m.next ∧ m.get r = A.leaf a

theorem ext_alloc (A : Alg L V) (tbl : L → Option Nat) (m : Mem V) (v : V) :
    Ext (heapView A tbl) m (m.alloc v).1 ∧ (heapView A tbl).val (m.alloc v).1 (m.alloc v).2 v := by
  refine ⟨⟨?_, ?_⟩, ?_⟩
  · intro h a r hr
    obtain ⟨h1, h2⟩ := h a r hr
    refine ⟨Nat.lt_succ_of_lt h1, ?_⟩
    have : r ≠ m.next := by omega
    simp [Mem.alloc, this, h2]
  · rintro r v ⟨h1, h2⟩
    refine ⟨Nat.lt_succ_of_lt h1, ?_⟩
    have : r ≠ m.next := by omega
    simp [Mem.alloc, this, h2]
  · exact ⟨Nat.lt_succ_self _, by simp [Mem.alloc]⟩

/-- Trees whose nodes have coherent keys and phases that are their own inverses. -/
structure Coherent (key : ETree L → K) (op : L → EOp) (phase : L → Int) (A : Alg L V) (S : ETree L → Prop) : Prop where
  children : ∀ a l r, S (.node a l r) → S l ∧ S r
  involution : ∀ t, S t → ∀ v, A.scale (phase t.label) (A.scale (phase t.label) v) = v
  coherent : ∀ t t', S t → S t' → key t = key t' →
    (if phase t.label = 1 then plain op A t else A.scale (phase t.label) (plain op A t)) =
    (if phase t'.label = 1 then plain op A t' else A.scale (phase t'.label) (plain op A t'))

theorem heap_sound {key : ETree L → K} {op : L → EOp} {phase : L → Int} {A : Alg L V} {S : ETree L → Prop} (tbl : L → Option Nat)
    (H : Coherent key op phase A S) : Sound (heapEnv key op phase A tbl) A (heapView A tbl) S where
  children := H.children
  leaf a m hi := by
    cases h : tbl a with
    | some r =>
      have : (heapEnv key op phase A tbl).leaf a m = (m, r) := by simp [heapEnv, h]
      rw [this]; exact ⟨Ext.refl _ _, hi a r h⟩
    | none =>
      have : (heapEnv key op phase A tbl).leaf a m = m.alloc (A.leaf a) := by simp [heapEnv, h]
      rw [this]; exact ext_alloc A tbl m _
  sum := by rintro _ _ _ m _ _ ⟨_, rfl⟩ ⟨_, rfl⟩; exact ext_alloc A tbl m _
  prod := by rintro _ _ _ m _ _ ⟨_, rfl⟩ ⟨_, rfl⟩; exact ext_alloc A tbl m _
  adj := by rintro _ _ m _ ⟨_, rfl⟩; exact ext_alloc A tbl m _
  scale := by rintro _ _ m _ ⟨_, rfl⟩; exact ext_alloc A tbl m _
  phase := H.involution
  coherent := H.coherent
  custom _ h := by simp [heapEnv] at h
  hook _ h := by simp [heapEnv] at h

/-! ### Who refers to an object -/

/-- An object that somebody else refers to: a cache entry or the leaf evaluator. -/
def Owned (tbl : L → Option Nat) (c : Cache K Nat) (r : Nat) : Prop :=
  (∃ k e, c k = some e ∧ e.data = some r) ∨ ∃ a, tbl a = some r

/-- The result of the tree is not an object of somebody else: the tree is not registered, and not a leaf whose object is kept; or it is
registered with phase -1, so that the result is a scaled copy. -/
def Private (key : ETree L → K) (phase : L → Int) (tbl : L → Option Nat) (c : Cache K Nat) (t : ETree L) : Prop :=
  if (c (key t)).isSome then phase t.label ≠ 1
  else match t with
    | .leaf a => tbl a = none
    | .node _ _ _ => True

theorem access_owned (tbl : L → Option Nat) (c : Cache K Nat) (k : K) :
    (∀ r, Owned tbl (c.access k).1 r → Owned tbl c r) ∧ (∀ r, (c.access k).2 = some r → Owned tbl c r) ∧
    ∀ k', ((c.access k).1 k').isSome = (c k').isSome := by
  unfold Cache.access
  cases hc : c k with
  | none => exact ⟨fun _ h => h, by simp, fun _ => rfl⟩
  | some e =>
    obtain ⟨-, -, f3, f4, -⟩ := access_fields e
    refine ⟨?_, ?_, ?_⟩
    · rintro r (⟨k', e', h1, h2⟩ | h)
      · left
        simp only [Cache.set] at h1
        by_cases hk : k' = k
        · simp only [hk, if_true, Option.some.injEq] at h1
          subst h1
          rcases f3 with f3 | f3
          · exact ⟨k, e, hc, by rw [← f3]; exact h2⟩
          · rw [f3] at h2; simp at h2
        · simp only [hk, if_false] at h1; exact ⟨k', e', h1, h2⟩
      · exact .inr h
    · intro r hr; simp only [f4] at hr; exact .inl ⟨k, e, hc, hr⟩
    · intro k'
      simp only [Cache.set]
      by_cases hk : k' = k
      · simp [hk, hc]
      · simp [hk]

theorem store_owned (tbl : L → Option Nat) (c : Cache K Nat) (k : K) (d : Nat) :
    (∀ r, Owned tbl (c.store k d).1 r → Owned tbl c r ∨ r = d) ∧ ∀ k', ((c.store k d).1 k').isSome = (c k').isSome := by
  unfold Cache.store
  cases hc : c k with
  | none => exact ⟨fun _ h => .inl h, fun _ => rfl⟩
  | some e =>
    obtain ⟨-, -, f3, -, -⟩ := access_fields (e.store d)
    refine ⟨?_, ?_⟩
    · rintro r (⟨k', e', h1, h2⟩ | h)
      · simp only [Cache.set] at h1
        by_cases hk : k' = k
        · simp only [hk, if_true, Option.some.injEq] at h1
          subst h1
          rcases f3 with f3 | f3
          · rw [f3] at h2; right; simpa [Entry.store, eq_comm] using h2
          · rw [f3] at h2; simp at h2
        · simp only [hk, if_false] at h1; exact .inl (.inl ⟨k', e', h1, h2⟩)
      · exact .inl (.inr h)
    · intro k'
      simp only [Cache.set]
      by_cases hk : k' = k
      · simp [hk, hc]
      · simp [hk]

/-- What an evaluation returns and what it leaves in the cache, in terms of ownership. -/
structure Traced (tbl : L → Option Nat) (mc mc' : Mem V × Cache K Nat) (r : Nat) : Prop where
  grow : mc.1.next ≤ mc'.1.next
  own : ∀ x, Owned tbl mc'.2 x → Owned tbl mc.2 x ∨ mc.1.next ≤ x
  ret : Owned tbl mc.2 r ∨ mc.1.next ≤ r
  reg : ∀ k, (mc'.2 k).isSome = (mc.2 k).isSome
  bound : (∀ x, Owned tbl mc.2 x → x < mc.1.next) → (∀ x, Owned tbl mc'.2 x → x < mc'.1.next) ∧ r < mc'.1.next

variable {key : ETree L → K} {op : L → EOp} {phase : L → Int} {A : Alg L V} {tbl : L → Option Nat}

theorem finish_traced (t : ETree L) (sa : Bool) (r : Nat) (mc0 mc mc' : Mem V × Cache K Nat) (r' : Nat)
    (h : finish (heapEnv key op phase A tbl) t sa r mc = some (mc', r')) (hsa : sa = (mc.2 (key t)).isSome ∨ sa = false)
    (h0 : Traced tbl mc0 mc r) :
    Traced tbl mc0 mc' r' ∧
      ((sa = true ∧ phase t.label ≠ 1) → ((∀ x, Owned tbl mc0.2 x → x < mc0.1.next) → ¬ Owned tbl mc'.2 r') ∧ mc0.1.next ≤ r') ∧
      (sa = false → mc' = mc ∧ r' = r) := by
  unfold finish at h
  cases sa with
  | false =>
    simp only [Bool.not_false, if_true, Option.some.injEq, Prod.mk.injEq] at h
    obtain ⟨rfl, rfl⟩ := h
    exact ⟨h0, by simp, fun _ => ⟨rfl, rfl⟩⟩
  | true =>
    simp only [Bool.not_true, Bool.false_eq_true, if_false, store_some, Option.some.injEq, Prod.mk.injEq] at h
    obtain ⟨rfl, rfl⟩ := h
    by_cases hp : phase t.label = 1
    · have e1 : ∀ r m, applyPhase (heapEnv key op phase A tbl) t r m = (m, r) := by intro r m; simp [applyPhase, heapEnv, hp]
      simp only [e1]
      refine ⟨?_, fun hh => absurd hp hh.2, by simp⟩
      obtain ⟨s1, s2⟩ := store_owned tbl mc.2 (key t) r
      refine ⟨h0.grow, ?_, h0.ret, fun k => (s2 k).trans (h0.reg k), ?_⟩
      · intro x hx
        rcases s1 x hx with hx | rfl
        · exact h0.own x hx
        · exact h0.ret
      · intro hb
        obtain ⟨b1, b2⟩ := h0.bound hb
        refine ⟨?_, b2⟩
        intro x hx
        rcases s1 x hx with hx | rfl
        · exact b1 x hx
        · exact b2
    · have e1 : ∀ r m, applyPhase (heapEnv key op phase A tbl) t r m = m.alloc (A.scale (phase t.label) (m.get r)) := by
        intro r m; simp [applyPhase, heapEnv, hp]
      simp only [e1]
      have g := h0.grow
      simp only [Mem.alloc]
      obtain ⟨s1, s2⟩ := store_owned tbl mc.2 (key t) mc.1.next
      refine ⟨⟨by simp only; omega, ?_, .inr (by omega), fun k => (s2 k).trans (h0.reg k), ?_⟩, fun _ => ⟨?_, by omega⟩, by simp⟩
      · intro x hx
        rcases s1 x hx with hx | rfl
        · exact h0.own x hx
        · exact .inr g
      · intro hb
        obtain ⟨b1, b2⟩ := h0.bound hb
        refine ⟨?_, by simp only; omega⟩
        intro x hx
        rcases s1 x hx with hx | rfl
        · have := b1 x hx; simp only; omega
        · simp only; omega
      · intro hb hx
        obtain ⟨b1, b2⟩ := h0.bound hb
        rcases s1 _ hx with hx | hx
        · have := b1 _ hx; omega
        · omega

theorem Traced.step {mc0 mc : Mem V × Cache K Nat} {r : Nat} (h : Traced tbl mc0 mc r) (v : V) :
    Traced tbl mc0 ((mc.1.alloc v).1, mc.2) (mc.1.alloc v).2 := by
  have := h.grow
  refine ⟨by simp only [Mem.alloc]; omega, h.own, .inr (by simp only [Mem.alloc]; omega), h.reg, fun hb => ⟨fun x hx => ?_, by simp [Mem.alloc]⟩⟩
  have := (h.bound hb).1 x hx
  simp only [Mem.alloc]; omega

theorem Traced.trans {mc0 mc1 mc2 : Mem V × Cache K Nat} {r r' : Nat} (h : Traced tbl mc0 mc1 r) (h' : Traced tbl mc1 mc2 r') : Traced tbl mc0 mc2 r' := by
  have g := h.grow
  refine ⟨Nat.le_trans h.grow h'.grow, ?_, ?_, fun k => (h'.reg k).trans (h.reg k), fun hb => h'.bound (h.bound hb).1⟩
  · intro x hx
    rcases h'.own x hx with hx | hx
    · exact h.own x hx
    · exact .inr (by omega)
  · rcases h'.ret with hx | hx
    · exact h.own _ hx
    · exact .inr (by omega)

theorem combine_heap (t : ETree L) (x y : Nat) (m : Mem V) : ∃ v, combine (heapEnv key op phase A tbl) t x y m = m.alloc v := by
  unfold combine
  by_cases h : op t.label = .sum
  · exact ⟨A.sum t (m.get x) (m.get y), by simp only [heapEnv, h, if_true]⟩
  · exact ⟨A.prod t (m.get x) (m.get y), by simp only [heapEnv, h, if_false]⟩

/-- Ownership through an evaluation; a private tree returns a new object that nobody else refers to. -/
theorem evalRec_traced (t : ETree L) : ∀ (checked : Bool) (mc mc' : Mem V × Cache K Nat) (r : Nat),
    evalRec (heapEnv key op phase A tbl) checked t mc = some (mc', r) → (∀ a r, tbl a = some r → r < mc.1.next) →
    Traced tbl mc mc' r ∧ (checked = true → Private key phase tbl mc.2 t → (∀ x, Owned tbl mc.2 x → x < mc.1.next) →
      ¬ Owned tbl mc'.2 r ∧ mc.1.next ≤ r) := by
  have hcust : ∀ (t : ETree L) (mc : Mem V × Cache K Nat), tryCustom (heapEnv key op phase A tbl) t mc = (mc, none) := by
    intro t mc; unfold tryCustom; simp [heapEnv]
  have hit : ∀ (t : ETree L) (mc : Mem V × Cache K Nat) (ptr : Nat) (mc' : Mem V × Cache K Nat) (r : Nat), (mc.2.access (key t)).2 = some ptr →
      some (((applyPhase (heapEnv key op phase A tbl) t ptr mc.1).1, (mc.2.access (key t)).1),
        (applyPhase (heapEnv key op phase A tbl) t ptr mc.1).2) = some (mc', r) →
      Traced tbl mc mc' r ∧ (Private key phase tbl mc.2 t → (∀ x, Owned tbl mc.2 x → x < mc.1.next) → ¬ Owned tbl mc'.2 r ∧ mc.1.next ≤ r) := by
    intro t mc ptr mc' r hptr he
    obtain ⟨a1, a2, a3⟩ := access_owned tbl mc.2 (key t)
    have hreg : (mc.2 (key t)).isSome = true := by
      unfold Cache.access at hptr
      cases hc : mc.2 (key t) with
      | none => simp [hc] at hptr
      | some e => rfl
    have t0 : Traced tbl mc (mc.1, (mc.2.access (key t)).1) ptr :=
      ⟨Nat.le_refl _, fun x hx => .inl (a1 x hx), .inl (a2 _ hptr), a3, fun hb => ⟨fun x hx => hb x (a1 x hx), hb _ (a2 _ hptr)⟩⟩
    simp only [Option.some.injEq, Prod.mk.injEq] at he
    obtain ⟨rfl, rfl⟩ := he
    by_cases hp : phase t.label = 1
    · have e1 : applyPhase (heapEnv key op phase A tbl) t ptr mc.1 = (mc.1, ptr) := by simp [applyPhase, heapEnv, hp]
      rw [e1]
      refine ⟨t0, fun hpr => ?_⟩
      simp [Private, hreg, hp] at hpr
    · have e1 : applyPhase (heapEnv key op phase A tbl) t ptr mc.1 = mc.1.alloc (A.scale (phase t.label) (mc.1.get ptr)) := by
        simp [applyPhase, heapEnv, hp]
      rw [e1]
      refine ⟨t0.step _, fun _ hb => ⟨fun ho => ?_, by simp [Mem.alloc]⟩⟩
      have := hb _ (a1 _ ho)
      simp [Mem.alloc] at this
  -- the end of both kinds of nodes: `r` is the new result
  have tail : ∀ (t : ETree L) (checked : Bool) (mc mc1 mc' : Mem V × Cache K Nat) (r r' : Nat),
      finish (heapEnv key op phase A tbl) t (if checked = true then (mc1.2 (key t)).isSome else false) r mc1 = some (mc', r') →
      Traced tbl mc mc1 r →
      ((mc.2 (key t)).isSome = false → Private key phase tbl mc.2 t → (∀ x, Owned tbl mc.2 x → x < mc.1.next) → ¬ Owned tbl mc1.2 r ∧ mc.1.next ≤ r) →
      Traced tbl mc mc' r' ∧ (checked = true → Private key phase tbl mc.2 t → (∀ x, Owned tbl mc.2 x → x < mc.1.next) →
        ¬ Owned tbl mc'.2 r' ∧ mc.1.next ≤ r') := by
    intro t checked mc mc1 mc' r r' hfin htr hpr
    obtain ⟨f1, f2, f3⟩ := finish_traced t _ r mc mc1 mc' r' hfin (by cases checked <;> simp) htr
    refine ⟨f1, fun hch hpv hb => ?_⟩
    subst hch
    simp only [if_true] at f2 f3
    cases hreg : (mc.2 (key t)).isSome with
    | true =>
      have : phase t.label ≠ 1 := by simpa [Private, hreg] using hpv
      have := f2 ⟨(htr.reg _).trans hreg, this⟩
      exact ⟨this.1 hb, this.2⟩
    | false =>
      obtain ⟨rfl, rfl⟩ := f3 ((htr.reg _).trans hreg)
      exact hpr hreg hpv hb
  induction t with
  | leaf a =>
    intro checked mc mc' r h htb
    rw [evalRec] at h
    simp only [hcust] at h
    have begin : ∀ (c : Cache K Nat), (∀ x, Owned tbl c x → Owned tbl mc.2 x) → (∀ k, (c k).isSome = (mc.2 k).isSome) →
        finish (heapEnv key op phase A tbl) (.leaf a) (if checked = true then (c (key (.leaf a))).isSome else false)
          ((heapEnv key op phase A tbl).leaf a mc.1).2 (((heapEnv key op phase A tbl).leaf a mc.1).1, c) = some (mc', r) →
        Traced tbl mc mc' r ∧ (checked = true → Private key phase tbl mc.2 (.leaf a) → (∀ x, Owned tbl mc.2 x → x < mc.1.next) →
          ¬ Owned tbl mc'.2 r ∧ mc.1.next ≤ r) := by
      intro c hown hreg hfin
      cases ht : tbl a with
      | some q =>
        have e : (heapEnv key op phase A tbl).leaf a mc.1 = (mc.1, q) := by simp [heapEnv, ht]
        rw [e] at hfin
        refine tail (.leaf a) checked mc (mc.1, c) mc' q r hfin ?_ ?_
        · exact ⟨Nat.le_refl _, fun x hx => .inl (hown x hx), .inl (.inr ⟨a, ht⟩), hreg, fun hb => ⟨fun x hx => hb x (hown x hx), htb a q ht⟩⟩
        · intro hr hp; simp [Private, hr, ht] at hp
      | none =>
        have e : (heapEnv key op phase A tbl).leaf a mc.1 = mc.1.alloc (A.leaf a) := by simp [heapEnv, ht]
        rw [e] at hfin
        refine tail (.leaf a) checked mc ((mc.1.alloc (A.leaf a)).1, c) mc' _ r hfin ?_ ?_
        · refine ⟨by simp [Mem.alloc], fun x hx => .inl (hown x hx), .inr (by simp [Mem.alloc]), hreg, fun hb => ⟨fun x hx => ?_, by simp [Mem.alloc]⟩⟩
          have := hb x (hown x hx); simp only [Mem.alloc]; omega
        · intro _ _ hb
          refine ⟨fun ho => ?_, by simp [Mem.alloc]⟩
          have := hb _ (hown _ ho); simp [Mem.alloc] at this
    cases checked with
    | false =>
      simp only [Bool.false_eq_true, if_false] at h
      exact begin mc.2 (fun _ h => h) (fun _ => rfl) (by simp only [Bool.false_eq_true, if_false]; exact h)
    | true =>
      simp only [if_true] at h
      obtain ⟨a1, a2, a3⟩ := access_owned tbl mc.2 (key (.leaf a))
      cases hacc : (mc.2.access (key (.leaf a))).2 with
      | some ptr =>
        have hacc' : (mc.2.access ((heapEnv key op phase A tbl).key (.leaf a))).2 = some ptr := hacc
        simp only [hacc'] at h
        obtain ⟨p, q⟩ := hit (.leaf a) mc ptr mc' r hacc h
        exact ⟨p, fun _ => q⟩
      | none =>
        have hacc' : (mc.2.access ((heapEnv key op phase A tbl).key (.leaf a))).2 = none := hacc
        simp only [hacc'] at h
        exact begin _ a1 a3 (by simp only [if_true]; exact h)
  | node a l r' ihl ihr =>
    intro checked mc mc' r h htb
    rw [evalRec] at h
    simp only [hcust] at h
    obtain ⟨a1, a2, a3⟩ := access_owned tbl mc.2 (key (.node a l r'))
    obtain ⟨acc, hacc⟩ : ∃ acc : Cache K Nat × Option Nat, acc = if checked = true then mc.2.access (key (.node a l r')) else (mc.2, none) := ⟨_, rfl⟩
    have hacc' : (if checked = true then mc.2.access ((heapEnv key op phase A tbl).key (.node a l r')) else (mc.2, none)) = acc := hacc.symm
    rw [hacc'] at h
    have hown : ∀ x, Owned tbl acc.1 x → Owned tbl mc.2 x := by
      intro x; rw [hacc]; cases checked
      · exact fun h => h
      · exact a1 x
    have hreg : ∀ k, (acc.1 k).isSome = (mc.2 k).isSome := by
      intro k; rw [hacc]; cases checked
      · rfl
      · exact a3 k
    cases h2 : acc.2 with
    | some ptr =>
      simp only [h2] at h
      cases checked with
      | false => simp [hacc] at h2
      | true =>
        simp only [if_true] at hacc
        rw [hacc] at h h2
        obtain ⟨p, q⟩ := hit (.node a l r') mc ptr mc' r h2 h
        exact ⟨p, fun _ => q⟩
    | none =>
      simp only [h2] at h
      clear hacc hacc'
      obtain ⟨c, _⟩ := acc
      simp only at h hown hreg
      have hsa : (if checked = true then Cache.exists_ c ((heapEnv key op phase A tbl).key (.node a l r')) else false) =
        (if checked = true then (c (key (.node a l r'))).isSome else false) := rfl
      rw [hsa] at h
      -- a fresh allocation after a traced run
      have fresh : ∀ (mc2 : Mem V × Cache K Nat) (y : Nat) (v : V), Traced tbl (mc.1, c) mc2 y →
          finish (heapEnv key op phase A tbl) (.node a l r') (if checked = true then (c (key (.node a l r'))).isSome else false)
            (mc2.1.alloc v).2 ((mc2.1.alloc v).1, mc2.2) = some (mc', r) →
          Traced tbl mc mc' r ∧ (checked = true → Private key phase tbl mc.2 (.node a l r') → (∀ x, Owned tbl mc.2 x → x < mc.1.next) →
            ¬ Owned tbl mc'.2 r ∧ mc.1.next ≤ r) := by
        intro mc2 y v htr hfin
        have hh : (c (key (.node a l r'))).isSome = (mc2.2 (key (.node a l r'))).isSome := (htr.reg _).symm
        rw [hh] at hfin
        have htr' : Traced tbl mc mc2 y := by
          refine ⟨htr.grow, fun x hx => ?_, ?_, fun k => (htr.reg k).trans (hreg k), fun hb => htr.bound fun x hx => hb x (hown x hx)⟩
          · exact (htr.own x hx).imp (hown x) id
          · exact htr.ret.imp (hown _) id
        refine tail (.node a l r') checked mc ((mc2.1.alloc v).1, mc2.2) mc' _ r hfin (htr'.step v) ?_
        intro _ _ hb
        have g := htr'.grow
        refine ⟨fun ho => ?_, by simp only [Mem.alloc]; omega⟩
        have := (htr'.bound hb).1 _ ho
        simp [Mem.alloc] at this
      cases hl : evalRec (heapEnv key op phase A tbl) true l (mc.1, c) with
      | none => simp [hl] at h
      | some p =>
        obtain ⟨mc1, x⟩ := p
        simp only [hl] at h
        obtain ⟨tl, -⟩ := ihl true (mc.1, c) mc1 x hl htb
        by_cases hadj : (heapEnv key op phase A tbl).op a = .adjoint
        · simp only [hadj, if_true] at h
          exact fresh mc1 x _ tl h
        · simp only [hadj, if_false] at h
          cases hr : evalRec (heapEnv key op phase A tbl) true r' mc1 with
          | none => simp [hr] at h
          | some q =>
            obtain ⟨mc2, y⟩ := q
            simp only [hr] at h
            have g := tl.grow
            obtain ⟨tr, -⟩ := ihr true mc1 mc2 y hr fun a q hq => Nat.lt_of_lt_of_le (htb a q hq) g
            obtain ⟨v, hv⟩ := combine_heap (key := key) (op := op) (phase := phase) (A := A) (tbl := tbl) (.node a l r') x y mc2.1
            rw [hv] at h
            exact fresh mc2 y v (tl.trans tr) h

/-! ### Sequences -/

/-- The value of a term in the layout asked for. -/
def termValue (op : L → EOp) (A : Alg L V) (permV : ETree L → V → V) (perm : Bool) (t : ETree L) : V :=
  if perm then permV t (plain op A t) else plain op A t

theorem evaluateLayout_correct [Add V] {S : ETree L → Prop} (H : Coherent key op phase A S) (permV : ETree L → V → V) (perm : Bool) (fuel : Nat)
    (t : ETree L) (ht : S t) (hf : t.rounds ≤ fuel) (mc : Mem V × Cache K Nat)
    (hc : CacheOK (heapEnv key op phase A tbl) A (heapView A tbl) S mc) (hb : ∀ x, Owned tbl mc.2 x → x < mc.1.next) :
    ∃ mc' r, evaluateLayout (heapEnv key op phase A tbl) (heapAccum permV) perm fuel t mc = some (mc', r) ∧
      (heapView A tbl).val mc'.1 r (termValue op A permV perm t) ∧ Ext (heapView A tbl) mc.1 mc'.1 ∧
      CacheOK (heapEnv key op phase A tbl) A (heapView A tbl) S mc' ∧ Traced tbl mc mc' r ∧
      ((perm = true ∨ Private key phase tbl mc.2 t) → ¬ Owned tbl mc'.2 r ∧ mc.1.next ≤ r) := by
  obtain ⟨mc1, r, e1, v1, x1, c1⟩ := evaluate_correct (heap_sound tbl H) t ht true mc hc fuel hf
  have e1' := e1
  rw [evaluate_eq _ t true mc fuel hf] at e1'
  obtain ⟨tr, pr⟩ := evalRec_traced t true mc mc1 r e1' fun a r hr => (hc.1 a r hr).1
  unfold evaluateLayout
  rw [e1]
  cases perm with
  | false =>
    refine ⟨mc1, r, rfl, v1, x1, c1, tr, ?_⟩
    rintro (h | h)
    · simp at h
    · exact pr rfl h hb
  | true =>
    obtain ⟨y1, w1⟩ := ext_alloc A tbl mc1.1 (permV t (mc1.1.get r))
    refine ⟨_, _, rfl, ?_, x1.trans y1, CacheOK.ext c1 y1, tr.step _, fun _ => ⟨fun ho => ?_, ?_⟩⟩
    · rw [v1.2] at w1
      have : (heapAccum permV).permute t r mc1.1 = mc1.1.alloc (permV t (mc1.1.get r)) := rfl
      rw [this, v1.2]; exact w1
    · have := (tr.bound hb).1 _ ho
      simp [heapAccum, Mem.alloc] at this
    · have := tr.grow
      simp only [heapAccum, Mem.alloc]; omega

/-- Changing an object nobody else refers to keeps the cache and the leaf evaluator intact. -/
theorem set_ok {S : ETree L → Prop} {mc : Mem V × Cache K Nat} (hc : CacheOK (heapEnv key op phase A tbl) A (heapView A tbl) S mc)
    (r : Nat) (v : V) (hr : ¬ Owned tbl mc.2 r) : CacheOK (heapEnv key op phase A tbl) A (heapView A tbl) S (mc.1.set r v, mc.2) := by
  refine ⟨?_, ?_⟩
  · intro a q hq
    obtain ⟨h1, h2⟩ := hc.1 a q hq
    have : q ≠ r := by rintro rfl; exact hr (.inr ⟨a, hq⟩)
    exact ⟨h1, by simp [Mem.set, this, h2]⟩
  · intro k e q h1 h2 t h3 h4
    obtain ⟨g1, g2⟩ := hc.2 k e q h1 h2 t h3 h4
    have : q ≠ r := by rintro rfl; exact hr (.inl ⟨k, e, h1, h2⟩)
    exact ⟨g1, by simp only [Mem.set, this, if_false]; exact g2⟩

theorem evaluateSeq_go [AddCommMonoid V] {S : ETree L → Prop} (H : Coherent key op phase A S) (permV : ETree L → V → V) (perm : Bool) (fuel : Nat)
    (ns : List (ETree L)) : ∀ (hn : ∀ t ∈ ns, S t ∧ t.rounds ≤ fuel) (mc : Mem V × Cache K Nat) (r : Nat) (v : V),
    CacheOK (heapEnv key op phase A tbl) A (heapView A tbl) S mc → (∀ x, Owned tbl mc.2 x → x < mc.1.next) → ¬ Owned tbl mc.2 r →
    (heapView A tbl).val mc.1 r v →
    ∃ mc', evaluateSeq (heapEnv key op phase A tbl) (heapAccum permV) perm fuel ns (some r) mc = some (mc', some r) ∧
      (heapView A tbl).val mc'.1 r ((ns.map (termValue op A permV perm)).foldl (· + ·) v) ∧
      CacheOK (heapEnv key op phase A tbl) A (heapView A tbl) S mc' := by
  induction ns with
  | nil => intro hn mc r v hc hb hr hv; exact ⟨mc, rfl, hv, hc⟩
  | cons t ns ih =>
    intro hn mc r v hc hb hr hv
    obtain ⟨mc1, q, e1, v1, x1, c1, tr, -⟩ := evaluateLayout_correct H permV perm fuel t (hn t (by simp)).1 (hn t (by simp)).2 mc hc hb
    have hrn := hv.1
    have hr1 : ¬ Owned tbl mc1.2 r := by
      intro ho
      rcases tr.own r ho with h | h
      · exact hr h
      · omega
    have hv1 := x1.2 _ _ hv
    obtain ⟨mc', s1, s2, s3⟩ := ih (fun t h => hn t (List.mem_cons_of_mem _ h)) (mc1.1.set r (mc1.1.get r + mc1.1.get q), mc1.2) r
      (v + termValue op A permV perm t) (set_ok c1 r _ hr1) (tr.bound hb).1 hr1
      ⟨hv1.1, by simp only [Mem.set, if_true]; rw [hv1.2, v1.2]⟩
    refine ⟨mc', ?_, s2, s3⟩
    rw [evaluateSeq, e1]
    exact s1

/-- **C28, partial** If the result of the first tree is not an object that the cache or the leaf evaluator refers to — it is permuted into
another layout, or the tree is not registered in the cache (and not a leaf object that the leaf evaluator keeps), or it has phase -1 — then
the sequence evaluates to the sum of the values of its trees, and neither cached values nor values of the leaf evaluator are disturbed.
Missing: first results that are shared (`sequence_disturbs_cache`, `sequence_disturbs_leaf`). -/
theorem evaluateSeq_partial [AddCommMonoid V] {S : ETree L → Prop} (H : Coherent key op phase A S) (permV : ETree L → V → V) (perm : Bool) (fuel : Nat)
    (t : ETree L) (ns : List (ETree L)) (hn : ∀ u ∈ t :: ns, S u ∧ u.rounds ≤ fuel) (mc : Mem V × Cache K Nat)
    (hc : CacheOK (heapEnv key op phase A tbl) A (heapView A tbl) S mc) (hb : ∀ x, Owned tbl mc.2 x → x < mc.1.next)
    (hp : perm = true ∨ Private key phase tbl mc.2 t) :
    ∃ mc' r, evaluateSeq (heapEnv key op phase A tbl) (heapAccum permV) perm fuel (t :: ns) none mc = some (mc', some r) ∧
      mc'.1.get r = ((t :: ns).map (termValue op A permV perm)).foldr (· + ·) 0 ∧
      CacheOK (heapEnv key op phase A tbl) A (heapView A tbl) S mc' := by
  obtain ⟨mc1, r, e1, v1, x1, c1, tr, pr⟩ := evaluateLayout_correct H permV perm fuel t (hn t (by simp)).1 (hn t (by simp)).2 mc hc hb
  obtain ⟨mc', s1, s2, s3⟩ := evaluateSeq_go H permV perm fuel ns (fun t h => hn t (List.mem_cons_of_mem _ h)) mc1 r _ c1 (tr.bound hb).1 (pr hp).1 v1
  refine ⟨mc', r, by rw [evaluateSeq, e1]; exact s1, ?_, s3⟩
  rw [s2.2]
  rw [List.map_cons, List.foldr_cons]
  have : ∀ (l : List V) (v : V), l.foldl (· + ·) v = v + l.foldr (· + ·) 0 := by
    intro l
    induction l with
    | nil => intro v; simp
    | cons a l ih => intro v; rw [List.foldl_cons, ih, List.foldr_cons, add_assoc]
  rw [this]

/-! ### Witnesses -/

/-- Integers; labels are (operation, phase, value for leaves); the key of a node is its canonical value. -/
theorem demo_coherent : Coherent demoKey Prod.fst (fun a => a.2.1) demoAlg signed where
  children := demo_sound.children
  involution := demo_sound.phase
  coherent := demo_sound.coherent

/-- A heap backend whose leaf evaluator keeps the object for the leaf of value 1 at address 0. -/
def demoHeap (tbl : EOp × Int × Int → Option Nat) : Env (EOp × Int × Int) Int Nat (Mem Int) := heapEnv demoKey Prod.fst (fun a => a.2.1) demoAlg tbl

def six : ETree (EOp × Int × Int) := .node (.prod, 1, 0) (.leaf (.sum, 1, 2)) (.leaf (.sum, 1, 3))
def one : ETree (EOp × Int × Int) := .leaf (.sum, 1, 1)
def keepOne : EOp × Int × Int → Option Nat := fun a => if a.2.2 = 1 then some 0 else none

def seqValue (tbl : EOp × Int × Int → Option Nat) (reg : List (Int × Nat)) (ts : List (ETree (EOp × Int × Int))) : Option Int :=
  match evaluateSeq (demoHeap tbl) (heapAccum fun _ v => v) false 50 ts none (⟨fun _ => 1, 1⟩, Cache.make reg fun _ => false) with
  | some (mc, some r) => some (mc.1.get r)
  | _ => none

/-- **C28 is false**: 6 + 1 + 6 with the product registered for three uses.  The first result is the cached object, the second term is added
to it, and the third term finds the changed object in the cache. -/
theorem sequence_disturbs_cache : seqValue (fun _ => none) [(6, 3)] [six, one, six] = some 14 ∧
    [six, one, six].map (plain Prod.fst demoAlg) = [6, 1, 6] := by decide

/-- **C28 is false**: 1 + 6 with a leaf evaluator that keeps its objects.  The sum is right but is written over the leaf, so that the next
evaluation of the leaf returns 7. -/
theorem sequence_disturbs_leaf : seqValue keepOne [] [one, six] = some 7 ∧ seqValue keepOne [] [one, six, one] = some 14 ∧
    [one, six, one].map (plain Prod.fst demoAlg) = [1, 6, 1] := by decide

/-- Without registration, or with a first term of its own, the sums are right. -/
example : seqValue keepOne [] [six, one, six] = some 13 ∧ seqValue keepOne [(7, 2), (6, 3)] [.node (.sum, 1, 0) one one, six, one, six] = some 15 := by decide

end SeQuant.Eval
