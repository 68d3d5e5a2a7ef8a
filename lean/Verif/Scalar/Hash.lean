import Verif.Scalar.Model
import Mathlib.Order.Defs.LinearOrder

/-!
# Memoized hashes of constants, variables and powers, and the order of powers (C91)

`Expr` keeps a hash (expr.hpp:430), `memoizing_hash` of `Constant` (constant.hpp:120-127), `Variable` (variable.hpp:64-78) and
`Power` (power.hpp:235-250) store it and assert that it is right when asked again. Operations that change the value must call
`reset_hash_value` (expr.hpp:438).

Simplifications: the hash of a value is any function; `hash::combine` is any function. Without assertions the stored hash is
returned unchecked (`checked = false`).
-/

namespace SeQuant.Scalar

/-- The functions that hash values. -/
structure Hasher (H : Type) where
  /-- `hash::value` of a complex rational (complex.hpp:55-59) -/
  ofConst : Cplx → H
  /-- label and mark of a variable (variable.hpp:66-67) -/
  ofVar : Nat → Bool → H
  /-- exponent and mark combined with the hash of the base (power.hpp:239-240) -/
  combine : H → ℚ → Bool → H

variable {H : Type}

/-- The hash of the value of a constant or variable. -/
def Hasher.base (h : Hasher H) : Base → H
  | .const z => h.ofConst z
  | .var l c => h.ofVar l c

/-- The hash of the value of a power (power.hpp:236-242). -/
def Hasher.pow (h : Hasher H) (p : Pow) : H :=
  if p.exponent = 1 ∧ p.conjugated = false then h.base p.base else h.combine (h.base p.base) p.exponent p.conjugated

/-- A `Constant` or `Variable` with its stored hash. -/
structure BObj (H : Type) where
  /-- value -/
  val : Base
  /-- `hash_value_` -/
  memo : Option H
deriving DecidableEq, Repr

/-- A `Power` with its base object and its stored hash. -/
structure PObj (H : Type) where
  /-- `base_` -/
  base : BObj H
  /-- `exponent_` -/
  exponent : ℚ
  /-- `conjugated_` -/
  conjugated : Bool
  /-- `hash_value_` -/
  memo : Option H
deriving DecidableEq, Repr

/-- The value of a power object. -/
def PObj.val (p : PObj H) : Pow := ⟨p.base.val, p.exponent, p.conjugated⟩

/-- Objects. -/
inductive Obj (H : Type)
  | base (b : BObj H)
  | pow (p : PObj H)
deriving DecidableEq, Repr

/-- Their values. -/
def Obj.val : Obj H → Sc
  | .base b => .base b.val
  | .pow p => .pow p.val

/-- The hash of the value that an object has. -/
def Hasher.obj (h : Hasher H) : Obj H → H
  | .base b => h.base b.val
  | .pow p => h.pow p.val

variable [DecidableEq H]

/-- `memoizing_hash` of constants and variables: the hash and the object afterwards. -/
def BObj.hash (h : Hasher H) (checked : Bool) (b : BObj H) : Except Err (H × BObj H) :=
  match b.memo with
  | none => .ok (h.base b.val, { b with memo := some (h.base b.val) })
  | some x => if checked && decide (x ≠ h.base b.val) then .error .assertion else .ok (x, b)

/-- `Power::memoizing_hash` (power.hpp:235-250). The base is asked first, also for the assertion. -/
def PObj.hash (h : Hasher H) (checked : Bool) (p : PObj H) : Except Err (H × PObj H) :=
  match p.memo with
  | none => do
    let (x, b) ← p.base.hash h checked
    let y := if p.exponent = 1 ∧ p.conjugated = false then x else h.combine x p.exponent p.conjugated
    .ok (y, { p with base := b, memo := some y })
  | some y =>
    if checked then do
      let (x, b) ← p.base.hash h checked
      if y = (if p.exponent = 1 ∧ p.conjugated = false then x else h.combine x p.exponent p.conjugated) then
        .ok (y, { p with base := b })
      else .error .assertion
    else .ok (y, p)

/-- `hash_value()` (expr.hpp:243-247). -/
def Obj.hash (h : Hasher H) (checked : Bool) : Obj H → Except Err (H × Obj H)
  | .base b => (b.hash h checked).map fun r => (r.1, .base r.2)
  | .pow p => (p.hash h checked).map fun r => (r.1, .pow r.2)

/-- `Constant::clone` makes a new object (constant.hpp:78), `Variable::clone` copies the object with the stored hash
(expr.cpp:214). -/
def BObj.clone (b : BObj H) : BObj H :=
  match b.val with
  | .const _ => { b with memo := none }
  | .var _ _ => b

/-- `Constant::adjoint` forgets the hash (expr.cpp:192-195), `Variable::adjoint` does not (expr.cpp:204,216). -/
def BObj.adjoint (b : BObj H) : BObj H :=
  match b.val with
  | .const _ => ⟨b.val.adjoint, none⟩
  | .var _ _ => ⟨b.val.adjoint, b.memo⟩

/-- What is done to an object. -/
inductive Op
  /-- `hash_value()` -/
  | hash
  /-- replaced by its clone -/
  | clone
  /-- `adjoint()` -/
  | adjoint
  /-- `Variable::set_label` -/
  | setLabel (l : Nat)
  /-- `Constant::operator*=`, `+=`, `-=` with a constant -/
  | mulC (z : Cplx)
  | addC (z : Cplx)
  | subC (z : Cplx)
  /-- `Power::operator*=` -/
  | mulPow (that : Sc)
  /-- `Power::flatten` -/
  | flatten
deriving DecidableEq, Repr

/-- The effect of an operation; operations that the class does not have are `notValid`. -/
def step (h : Hasher H) (checked : Bool) (o : Obj H) : Op → Except Err (Obj H)
  | .hash => (o.hash h checked).map (·.2)
  | .clone => match o with
    | .base b => .ok (.base b.clone)
    -- power.hpp:179-183: a new power with a clone of the base
    | .pow p => p.val.clone.map fun _ => .pow { p with base := p.base.clone, memo := none }
  | .adjoint => match o with
    | .base b => .ok (.base b.adjoint)
    -- power.hpp:69-72
    | .pow p => .ok (.pow { p with conjugated := !p.conjugated, memo := none })
  | .setLabel l => match o with
    -- expr.cpp:199-202
    | .base ⟨.var _ c, _⟩ => .ok (.base ⟨.var l c, none⟩)
    | _ => .error .notValid
  -- constant.hpp:83-108: the stored hash is kept
  | .mulC z => match o with
    | .base ⟨.const w, m⟩ => .ok (.base ⟨.const (w.mul z), m⟩)
    | _ => .error .notValid
  | .addC z => match o with
    | .base ⟨.const w, m⟩ => .ok (.base ⟨.const (w.add z), m⟩)
    | _ => .error .notValid
  | .subC z => match o with
    | .base ⟨.const w, m⟩ => .ok (.base ⟨.const (w.sub z), m⟩)
    | _ => .error .notValid
  | .mulPow that => match o with
    | .pow p => (p.val.mulAssign that).map fun q => .pow { p with exponent := q.exponent, memo := none }
    | _ => .error .notValid
  | .flatten => match o with
    | .base b => .ok (.base b)
    | .pow p =>
      if p.exponent = 1 then
        -- power.hpp:101-106: a clone of the base, with its adjoint taken
        .ok (.base (if p.conjugated then p.base.clone.adjoint else p.base.clone))
      else match Scalar.flatten (.pow p.val) with
        | .error e => .error e
        | .ok (.base b) => .ok (.base ⟨b, none⟩)
        | .ok _ => .ok (.pow p)

/-- Operations in sequence. -/
def run (h : Hasher H) (checked : Bool) (o : Obj H) : List Op → Except Err (Obj H)
  | [] => .ok o
  | op :: ops => do run h checked (← step h checked o op) ops

/-! ### What is stored is right -/

omit [DecidableEq H] in
/-- The stored hash of a constant or variable is the hash of its value. -/
def BObj.Fresh (h : Hasher H) (b : BObj H) : Prop := ∀ x, b.memo = some x → x = h.base b.val

/-- The stored hash of an object, and of its base, is the hash of its value. -/
def Obj.Fresh (h : Hasher H) : Obj H → Prop
  | .base b => b.Fresh h
  | .pow p => p.base.Fresh h ∧ ∀ x, p.memo = some x → x = h.pow p.val

/-- The operations that change a value and keep its stored hash: arithmetic in place of constants, the adjoint of a variable,
and flattening of a conjugated first power of a variable. -/
def Op.keeps (o : Obj H) : Op → Bool
  | .mulC _ | .addC _ | .subC _ => match o with
    | .base b => b.memo.isSome
    | _ => false
  | .adjoint => match o with
    | .base ⟨.var _ _, m⟩ => m.isSome
    | _ => false
  | .flatten => match o with
    | .pow ⟨⟨.var _ _, m⟩, e, true, _⟩ => decide (e = 1) && m.isSome
    | _ => false
  | _ => false

/-- No operation of the list keeps a hash of a value that it changes. -/
def Quiet (h : Hasher H) (checked : Bool) (o : Obj H) : List Op → Prop
  | [] => True
  | op :: ops => op.keeps o = false ∧ ∀ o', step h checked o op = .ok o' → Quiet h checked o' ops

omit [DecidableEq H] in
theorem BObj.fresh_none (h : Hasher H) (b : Base) : BObj.Fresh h ⟨b, none⟩ := by
  intro x hx; simp at hx

theorem BObj.hash_fresh (h : Hasher H) (checked : Bool) {b : BObj H} (hb : b.Fresh h) :
    b.hash h checked = .ok (h.base b.val, ⟨b.val, some (h.base b.val)⟩) := by
  rcases b with ⟨v, _ | x⟩
  · rfl
  · have := hb x rfl
    simp only at this
    subst this
    simp [BObj.hash]

omit [DecidableEq H] in
theorem BObj.clone_fresh (h : Hasher H) {b : BObj H} (hb : b.Fresh h) : b.clone.Fresh h := by
  rcases b with ⟨z | ⟨l, c⟩, m⟩
  · exact BObj.fresh_none h _
  · exact hb

omit [DecidableEq H] in
theorem BObj.clone_val (b : BObj H) : b.clone.val = b.val := by
  rcases b with ⟨z | ⟨l, c⟩, m⟩ <;> rfl

omit [DecidableEq H] in
theorem BObj.adjoint_fresh (h : Hasher H) {b : BObj H} (hb : (∃ z, b.val = .const z) ∨ b.memo = none) : b.adjoint.Fresh h := by
  rcases b with ⟨z | ⟨l, c⟩, m⟩
  · exact BObj.fresh_none h _
  · simp only [reduceCtorEq, exists_false, false_or] at hb
    subst hb
    exact BObj.fresh_none h _

theorem PObj.hash_fresh (h : Hasher H) (checked : Bool) {p : PObj H} (hb : p.base.Fresh h) (hp : ∀ x, p.memo = some x → x = h.pow p.val) :
    ∃ b, p.hash h checked = .ok (h.pow p.val, { p with base := b, memo := some (h.pow p.val) }) ∧ b.val = p.base.val ∧ b.Fresh h := by
  have h1 := BObj.hash_fresh h checked hb
  rcases p with ⟨b, e, c, _ | x⟩
  · refine ⟨⟨b.val, some (h.base b.val)⟩, ?_, rfl, ?_⟩
    · simp only at h1
      simp only [PObj.hash, h1, bind, Except.bind, PObj.val, Hasher.pow]
      rfl
    · intro x hx; simp only [Option.some.injEq] at hx; exact hx.symm
  · have hx : x = h.pow ⟨b.val, e, c⟩ := hp x rfl
    subst hx
    cases checked
    · exact ⟨b, by simp [PObj.hash, PObj.val], rfl, hb⟩
    · refine ⟨⟨b.val, some (h.base b.val)⟩, ?_, rfl, ?_⟩
      · simp only at h1
        simp only [PObj.hash, if_true, h1, bind, Except.bind, PObj.val, Hasher.pow]
        rfl
      · intro x hx; simp only [Option.some.injEq] at hx; exact hx.symm

/-- **A hash that is asked for is right**, and nothing fails, as long as what is stored is right. -/
theorem hash_right (h : Hasher H) (checked : Bool) {o : Obj H} (ho : o.Fresh h) :
    ∃ o', o.hash h checked = .ok (h.obj o, o') ∧ o'.val = o.val ∧ o'.Fresh h := by
  rcases o with b | p
  · have h1 := BObj.hash_fresh h checked ho
    refine ⟨.base ⟨b.val, some (h.base b.val)⟩, by simp only [Obj.hash, h1, Except.map]; rfl, rfl, ?_⟩
    intro x hx; simp only [Option.some.injEq] at hx; exact hx.symm
  · obtain ⟨b, h1, h2, h3⟩ := PObj.hash_fresh h checked ho.1 ho.2
    refine ⟨.pow { p with base := b, memo := some (h.pow p.val) }, by simp only [Obj.hash, h1, Except.map]; rfl, ?_, h3, ?_⟩
    · simp [Obj.val, PObj.val, h2]
    · intro x hx
      simp only [Option.some.injEq] at hx
      subst hx
      simp [PObj.val, h2]

/-- One operation. -/
theorem step_fresh (h : Hasher H) (checked : Bool) {o o' : Obj H} {op : Op} (ho : o.Fresh h) (hk : op.keeps o = false)
    (hs : step h checked o op = .ok o') : o'.Fresh h := by
  cases op with
  | hash =>
    obtain ⟨o1, h1, h2, h3⟩ := hash_right h checked ho
    simp only [step, h1, Except.map, Except.ok.injEq] at hs
    subst hs
    exact h3
  | clone =>
    rcases o with b | p
    · simp only [step, Except.ok.injEq] at hs
      subst hs
      exact BObj.clone_fresh h ho
    · simp only [step] at hs
      cases hc : p.val.clone with
      | error e => simp [hc, Except.map] at hs
      | ok q =>
        simp only [hc, Except.map, Except.ok.injEq] at hs
        subst hs
        exact ⟨BObj.clone_fresh h ho.1, by intro x hx; simp at hx⟩
  | adjoint =>
    rcases o with ⟨z | ⟨l, c⟩, m⟩ | p
    · simp only [step, Except.ok.injEq] at hs
      subst hs
      exact BObj.adjoint_fresh h (Or.inl ⟨z, rfl⟩)
    · simp only [step, Except.ok.injEq] at hs
      subst hs
      simp only [Op.keeps, Option.isSome_eq_false_iff, Option.isNone_iff_eq_none] at hk
      exact BObj.adjoint_fresh h (Or.inr hk)
    · simp only [step, Except.ok.injEq] at hs
      subst hs
      exact ⟨ho.1, by intro x hx; simp at hx⟩
  | setLabel l =>
    rcases o with ⟨z | ⟨l, c⟩, m⟩ | p
    · simp [step] at hs
    · simp only [step, Except.ok.injEq] at hs
      subst hs
      exact BObj.fresh_none h _
    · simp [step] at hs
  | mulC z | addC z | subC z =>
    rcases o with ⟨w | ⟨l, c⟩, m⟩ | p
    · simp only [Op.keeps, Option.isSome_eq_false_iff, Option.isNone_iff_eq_none] at hk
      simp only [step, Except.ok.injEq] at hs
      subst hs
      subst hk
      exact BObj.fresh_none h _
    · simp [step] at hs
    · simp [step] at hs
  | mulPow that =>
    rcases o with b | p
    · simp [step] at hs
    · simp only [step] at hs
      cases hc : p.val.mulAssign that with
      | error e => simp [hc, Except.map] at hs
      | ok q =>
        simp only [hc, Except.map, Except.ok.injEq] at hs
        subst hs
        exact ⟨ho.1, by intro x hx; simp at hx⟩
  | flatten =>
    rcases o with b | p
    · simp only [step, Except.ok.injEq] at hs
      subst hs
      exact ho
    · simp only [step] at hs
      split at hs
      · rename_i he
        simp only [Except.ok.injEq] at hs
        subst hs
        rcases p with ⟨⟨z | ⟨l, k⟩, m⟩, e, c, m'⟩
        · cases c
          · exact BObj.clone_fresh h ho.1
          · exact BObj.adjoint_fresh h (b := BObj.clone ⟨.const z, m⟩) (Or.inl ⟨z, rfl⟩)
        · cases c
          · exact BObj.clone_fresh h ho.1
          · simp only at he
            simp only [Op.keeps, he, decide_true, Bool.true_and, Option.isSome_eq_false_iff, Option.isNone_iff_eq_none] at hk
            exact BObj.adjoint_fresh h (b := BObj.clone ⟨.var l k, m⟩) (Or.inr hk)
      · split at hs
        · simp at hs
        · simp only [Except.ok.injEq] at hs
          subst hs
          exact BObj.fresh_none h _
        · simp only [Except.ok.injEq] at hs
          subst hs
          exact ho

/-- **Hashes stay right** under every sequence of operations without the ones named in `Op.keeps`. -/
theorem run_hash_partial (h : Hasher H) (checked : Bool) {o o' : Obj H} {ops : List Op} (ho : o.Fresh h)
    (hq : Quiet h checked o ops) (hr : run h checked o ops = .ok o') : o'.Fresh h ∧ ∃ o'', o'.hash h checked = .ok (h.obj o', o'') := by
  induction ops generalizing o with
  | nil =>
    simp only [run, Except.ok.injEq] at hr
    subst hr
    obtain ⟨o1, h1, -⟩ := hash_right h checked ho
    exact ⟨ho, o1, h1⟩
  | cons op ops ih =>
    simp only [run, bind, Except.bind] at hr
    cases hs : step h checked o op with
    | error e => simp [hs] at hr
    | ok o1 =>
      simp only [hs] at hr
      exact ih (step_fresh h checked ho hq.1 hs) (hq.2 o1 hs) hr

/-- **The adjoint of a variable whose hash was asked for keeps the old hash.** Asking again fails the assertion; without
assertions the hash of the other variable is returned. -/
theorem adjoint_stale (h : Hasher H) (l : Nat) (c : Bool) (hc : h.ofVar l c ≠ h.ofVar l (!c)) :
    (run h true (.base ⟨.var l c, none⟩) [.hash, .adjoint] = .ok (.base ⟨.var l (!c), some (h.ofVar l c)⟩)) ∧
      run h true (.base ⟨.var l c, none⟩) [.hash, .adjoint, .hash] = .error .assertion ∧
      ((Obj.base ⟨.var l (!c), some (h.ofVar l c)⟩).hash h false).map (·.1) = .ok (h.ofVar l c) := by
  refine ⟨rfl, ?_, rfl⟩
  simp [run, step, Obj.hash, BObj.hash, Hasher.base, BObj.adjoint, Base.adjoint, Except.map, bind, Except.bind, hc]

/-- The same for the clone that is taken to form an adjoint without changing the original. -/
theorem clone_adjoint_stale (h : Hasher H) (l : Nat) (c : Bool) (hc : h.ofVar l c ≠ h.ofVar l (!c)) :
    run h true (.base ⟨.var l c, none⟩) [.hash, .clone, .adjoint, .hash] = .error .assertion := by
  simp [run, step, Obj.hash, BObj.hash, BObj.clone, Hasher.base, BObj.adjoint, Base.adjoint, Except.map, bind, Except.bind, hc]

/-- **Arithmetic in place of constants keeps the old hash.** -/
theorem mulC_stale (h : Hasher H) (w z : Cplx) (hc : h.ofConst w ≠ h.ofConst (w.mul z)) :
    run h true (.base ⟨.const w, none⟩) [.hash, .mulC z, .hash] = .error .assertion := by
  simp [run, step, Obj.hash, BObj.hash, Hasher.base, Except.map, bind, Except.bind, hc]

/-- **Flattening a conjugated first power of a variable gives a variable with a wrong hash.** -/
theorem flatten_stale (h : Hasher H) (l : Nat) (hc : h.ofVar l false ≠ h.ofVar l true) :
    run h true (.pow ⟨⟨.var l false, none⟩, 1, true, none⟩) [.hash, .flatten, .hash] = .error .assertion := by
  simp [run, step, Obj.hash, PObj.hash, BObj.hash, BObj.clone, Hasher.base, BObj.adjoint, Base.adjoint, Except.map, bind, Except.bind, hc]

/-- A power never fails by itself: without the unsafe operations on its base (which only its own functions reach). -/
example : run (H := Nat) ⟨fun _ => 0, fun l c => 2 * l + c.toNat, fun x _ c => 10 * x + c.toNat⟩ true
    (.pow ⟨⟨.var 3 false, none⟩, 1 / 2, false, none⟩) [.hash, .adjoint, .hash, .mulPow (.base (.var 3 true)), .hash, .clone, .hash] =
    .ok (.pow ⟨⟨.var 3 false, some 6⟩, 3 / 2, true, some 61⟩) := by decide +kernel

/-! ### The order of powers -/

/-- `operator<` of constants and variables (expr.hpp:267-276, 459-461): by type, then by hash. `constFirst`: the type of constants was
registered before that of variables. -/
def baseLess [LinearOrder H] (h : Hasher H) (constFirst : Bool) : Base → Base → Bool
  | .const z, .const w => decide (h.ofConst z < h.ofConst w)
  | .var l c, .var l' c' => decide (h.ofVar l c < h.ofVar l' c')
  | .const _, .var _ _ => constFirst
  | .var _ _, .const _ => !constFirst

/-- `Power::static_less_than` (power.hpp:258-263). -/
def powLess [LinearOrder H] (h : Hasher H) (constFirst : Bool) (p q : Pow) : Bool :=
  if p.base ≠ q.base then baseLess h constFirst p.base q.base
  else if p.exponent ≠ q.exponent then decide (p.exponent < q.exponent)
  else decide (p.conjugated < q.conjugated)

/-- No two constants and no two variables have the same hash. -/
def Hasher.Inj (h : Hasher H) : Prop :=
  (∀ z w, h.ofConst z = h.ofConst w → z = w) ∧ ∀ l c l' c', h.ofVar l c = h.ofVar l' c' → l = l' ∧ c = c'

omit [DecidableEq H] in
theorem baseLess_trans [LinearOrder H] (h : Hasher H) (cf : Bool) {a b c : Base} (hab : baseLess h cf a b = true) (hbc : baseLess h cf b c = true) :
    baseLess h cf a c = true := by
  rcases a with z | ⟨l, k⟩ <;> rcases b with z' | ⟨l', k'⟩ <;> rcases c with z'' | ⟨l'', k''⟩
  all_goals simp only [baseLess, decide_eq_true_eq, Bool.not_eq_true'] at hab hbc ⊢
  all_goals first | exact lt_trans hab hbc | assumption | simp_all

omit [DecidableEq H] in
theorem baseLess_irrefl [LinearOrder H] (h : Hasher H) (cf : Bool) (a : Base) : baseLess h cf a a = false := by
  rcases a with z | ⟨l, k⟩ <;> simp [baseLess]

omit [DecidableEq H] in
theorem baseLess_total [LinearOrder H] (h : Hasher H) (hi : h.Inj) (cf : Bool) {a b : Base} (hab : a ≠ b) :
    baseLess h cf a b = true ∨ baseLess h cf b a = true := by
  rcases a with z | ⟨l, k⟩ <;> rcases b with z' | ⟨l', k'⟩
  · simp only [baseLess, decide_eq_true_eq]
    exact lt_or_gt_of_ne fun e => hab (congrArg _ (hi.1 _ _ e))
  · cases cf <;> simp [baseLess]
  · cases cf <;> simp [baseLess]
  · simp only [baseLess, decide_eq_true_eq]
    refine lt_or_gt_of_ne fun e => hab ?_
    obtain ⟨rfl, rfl⟩ := hi.2 _ _ _ _ e
    rfl

omit [DecidableEq H] in
/-- **Powers are ordered** strictly, and totally if hashes do not collide. -/
theorem powLess_order [LinearOrder H] (h : Hasher H) (cf : Bool) (hi : h.Inj) :
    (∀ p, powLess h cf p p = false) ∧ (∀ p q r, powLess h cf p q = true → powLess h cf q r = true → powLess h cf p r = true) ∧
      ∀ p q, p ≠ q → powLess h cf p q = true ∨ powLess h cf q p = true := by
  refine ⟨fun p => by simp [powLess], ?_, ?_⟩
  · rintro ⟨b, e, c⟩ ⟨b', e', c'⟩ ⟨b'', e'', c''⟩ h1 h2
    unfold powLess at h1 h2 ⊢
    simp only at h1 h2 ⊢
    by_cases e1 : b = b'
    · subst e1
      by_cases e2 : b = b''
      · subst e2
        simp only [ne_eq, not_true_eq_false, if_false] at h1 h2 ⊢
        by_cases f1 : e = e'
        · subst f1
          by_cases f2 : e = e''
          · subst f2
            simp only [not_true_eq_false, if_false, decide_eq_true_eq] at h1 h2 ⊢
            exact lt_trans h1 h2
          · simpa [f2] using h2
        · by_cases f2 : e' = e''
          · subst f2; simpa [f1] using h1
          · simp only [f1, f2, not_false_eq_true, if_true, decide_eq_true_eq] at h1 h2
            have := lt_trans h1 h2
            simp [ne_of_lt this, this]
      · simpa [e2] using h2
    · by_cases e2 : b' = b''
      · subst e2; simpa [e1] using h1
      · simp only [ne_eq, e1, e2, not_false_eq_true, if_true] at h1 h2
        have h3 := baseLess_trans h cf h1 h2
        have e3 : b ≠ b'' := by
          rintro rfl
          rw [baseLess_irrefl] at h3
          simp at h3
        simp [e3, h3]
  · rintro ⟨b, e, c⟩ ⟨b', e', c'⟩ hne
    unfold powLess
    simp only
    by_cases e1 : b = b'
    · subst e1
      by_cases f1 : e = e'
      · subst f1
        have : c ≠ c' := fun x => hne (by rw [x])
        simp only [ne_eq, not_true_eq_false, if_false, decide_eq_true_eq]
        exact lt_or_gt_of_ne this
      · simp [f1, Ne.symm f1]
    · have := baseLess_total h hi cf e1
      simpa [e1, Ne.symm e1] using this

omit [DecidableEq H] in
/-- With a collision the order is not a strict weak order: powers that cannot be told apart from a third one are ordered. -/
theorem powLess_collision [LinearOrder H] (h : Hasher H) (cf : Bool) {a b : Base} (hne : a ≠ b) (hab : baseLess h cf a b = false)
    (hba : baseLess h cf b a = false) : ∃ p q r, powLess h cf p q = false ∧ powLess h cf q p = false ∧ powLess h cf q r = false ∧
      powLess h cf r q = false ∧ powLess h cf p r = true := by
  refine ⟨⟨a, 2, false⟩, ⟨b, 2, false⟩, ⟨a, 3, false⟩, ?_, ?_, ?_, ?_, ?_⟩
  all_goals simp [powLess, hne, Ne.symm hne, hab, hba]
  decide +kernel

example : powLess (H := Nat) ⟨fun _ => 0, fun l c => 2 * l + c.toNat, fun x _ _ => x⟩ true ⟨.var 0 true, 5, false⟩ ⟨.var 1 false, 2, true⟩ = true := by
  decide +kernel

end SeQuant.Scalar
