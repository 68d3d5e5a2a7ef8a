import Verif.Dense.Model

/-!
# Handles of the arrays of the TAPP backend (C88)

Model of the special members of `TAPPTensor` and of `clear`, `create_info`, `destroy_info`
(`core/eval/backends/tapp/tensor.hpp:86-146, 230-254`). Handles are positive numbers, `0` is no handle.
The library gives out handles that were not given out before; creation may fail, then `check_error` throws.
Variables are numbers. The extents of an array from which another one was moved are unspecified (`rest`).
-/

namespace SeQuant.Dense

/-- an array: extents and handle. -/
structure Obj where
  ext : List Nat
  info : Nat
  deriving DecidableEq

/-- variables, handles with the extents that they describe, next handle, and whether a handle was destroyed
that is not there. -/
structure Mem where
  var : Nat → Option Obj
  live : Nat → Option (List Nat)
  next : Nat
  bad : Bool

def Mem.init : Mem := ⟨fun _ => none, fun _ => none, 1, false⟩

def put {A : Type} (f : Nat → A) (k : Nat) (v : A) : Nat → A := fun j => if j = k then v else f j

/-- `create_info`, `tensor.hpp:243-247`: the new handle, or nothing when the library fails. -/
def createInfo (m : Mem) (ext : List Nat) (ok : Bool) : Option (Mem × Nat) :=
  if ok then some ({ m with live := put m.live m.next (some ext), next := m.next + 1 }, m.next) else none

/-- `destroy_info`, `tensor.hpp:249-254`. -/
def destroyInfo (m : Mem) (info : Nat) : Mem :=
  if info = 0 then m
  else match m.live info with
    | some _ => { m with live := put m.live info none }
    | none => { m with bad := true }

inductive Op
  /-- default constructor, `tensor.hpp:86-87` -/
  | default (v : Nat)
  /-- constructor from extents, `tensor.hpp:90-96` -/
  | make (v : Nat) (ext : List Nat) (ok : Bool)
  /-- copy constructor, `tensor.hpp:111-114` -/
  | copy (v w : Nat) (ok : Bool)
  /-- move constructor, `tensor.hpp:116-122` -/
  | move (v w : Nat) (rest : List Nat)
  /-- copy assignment, `tensor.hpp:124-133` -/
  | copyAssign (v w : Nat) (ok : Bool)
  /-- move assignment, `tensor.hpp:135-145` -/
  | moveAssign (v w : Nat) (rest : List Nat)
  /-- `clear`, `tensor.hpp:230-235` -/
  | clear (v : Nat)
  /-- destructor, `tensor.hpp:109` -/
  | destroy (v : Nat)

/-- one operation; `none` if a variable is used that is not there, or declared twice. -/
def Mem.step (m : Mem) : Op → Option Mem
  | .default v => match m.var v with
    | some _ => none
    | none => some { m with var := put m.var v (some ⟨[], 0⟩) }
  | .make v ext ok => match m.var v with
    | some _ => none
    | none => match createInfo m ext ok with
      | none => some m
      | some (m', h) => some { m' with var := put m'.var v (some ⟨ext, h⟩) }
  | .copy v w ok => match m.var v, m.var w with
    | none, some o => match createInfo m o.ext ok with
      | none => some m
      | some (m', h) => some { m' with var := put m'.var v (some ⟨o.ext, h⟩) }
    | _, _ => none
  | .move v w rest => match m.var v, m.var w with
    | none, some o => some { m with var := put (put m.var v (some o)) w (some ⟨rest, 0⟩) }
    | _, _ => none
  | .copyAssign v w ok => match m.var v, m.var w with
    | some t, some o =>
      if v = w then some m
      else
        let m1 := destroyInfo m t.info
        match createInfo m1 o.ext ok with
        | none => some { m1 with var := put m1.var v (some ⟨o.ext, 0⟩) }
        | some (m2, h) => some { m2 with var := put m2.var v (some ⟨o.ext, h⟩) }
    | _, _ => none
  | .moveAssign v w rest => match m.var v, m.var w with
    | some t, some o =>
      if v = w then some m
      else
        let m1 := destroyInfo m t.info
        some { m1 with var := put (put m1.var v (some o)) w (some ⟨rest, 0⟩) }
    | _, _ => none
  | .clear v => match m.var v with
    | some t =>
      let m1 := destroyInfo m t.info
      some { m1 with var := put m1.var v (some ⟨[], 0⟩) }
    | none => none
  | .destroy v => match m.var v with
    | some t =>
      let m1 := destroyInfo m t.info
      some { m1 with var := put m1.var v none }
    | none => none

def Mem.run : List Op → Mem → Option Mem
  | [], m => some m
  | o :: os, m => (m.step o).bind (Mem.run os)

/-- handles belong to exactly one variable and describe its extents. -/
structure Owned (m : Mem) : Prop where
  pos : 0 < m.next
  fresh : ∀ h, m.next ≤ h → m.live h = none
  zero : m.live 0 = none
  describes : ∀ v o, m.var v = some o → o.info ≠ 0 → m.live o.info = some o.ext
  unique : ∀ v w o p, m.var v = some o → m.var w = some p → o.info = p.info → o.info ≠ 0 → v = w
  owner : ∀ h e, m.live h = some e → ∃ v o, m.var v = some o ∧ o.info = h
  good : m.bad = false

theorem put_same {A : Type} (f : Nat → A) (k : Nat) (v : A) : put f k v k = v := if_pos rfl
theorem put_other {A : Type} (f : Nat → A) {j k : Nat} (v : A) (h : j ≠ k) : put f k v j = f j := if_neg h

theorem Owned.init : Owned Mem.init where
  pos := by decide
  fresh := fun _ _ => rfl
  zero := rfl
  describes := fun _ _ h => by cases h
  unique := fun _ _ _ _ h => by cases h
  owner := fun _ _ h => by cases h
  good := rfl

variable {m : Mem}

/-- replacing the object of a variable by one without handle, its handle being destroyed. -/
theorem Owned.drop (h : Owned m) {v : Nat} {t : Obj} (hv : m.var v = some t) (n : Option Obj) (hn : ∀ o, n = some o → o.info = 0) :
    Owned { destroyInfo m t.info with var := put (destroyInfo m t.info).var v n } := by
  unfold destroyInfo
  split
  · rename_i h0
    refine ⟨h.pos, h.fresh, h.zero, ?_, ?_, ?_, h.good⟩
    · intro w o hw ho
      by_cases hwv : w = v
      · subst hwv; simp only [put_same] at hw; exact absurd (hn o hw) ho
      · simp only [put_other _ _ hwv] at hw; exact h.describes w o hw ho
    · intro w x o p hw hx he ho
      by_cases hwv : w = v
      · subst hwv; simp only [put_same] at hw; exact absurd (hn o hw) ho
      · by_cases hxv : x = v
        · subst hxv; simp only [put_same] at hx; exact absurd (he.trans (hn p hx)) ho
        · simp only [put_other _ _ hwv] at hw; simp only [put_other _ _ hxv] at hx
          exact h.unique w x o p hw hx he ho
    · intro k e hk
      obtain ⟨w, o, hw, hi⟩ := h.owner k e hk
      have hwv : w ≠ v := by
        rintro rfl
        rw [hv] at hw; cases hw
        rw [← hi, h0, h.zero] at hk; cases hk
      exact ⟨w, o, by simp only [put_other _ _ hwv]; exact hw, hi⟩
  · rename_i h0
    have hd := h.describes v t hv h0
    simp only [hd]
    refine ⟨h.pos, ?_, ?_, ?_, ?_, ?_, h.good⟩
    · intro k hk
      by_cases hkt : k = t.info
      · simp only [hkt, put_same]
      · simp only [put_other _ _ hkt]; exact h.fresh k hk
    · simp only [put_other _ _ (Ne.symm h0)]; exact h.zero
    · intro w o hw ho
      by_cases hwv : w = v
      · subst hwv; simp only [put_same] at hw; exact absurd (hn o hw) ho
      · simp only [put_other _ _ hwv] at hw
        have : o.info ≠ t.info := fun he => hwv (h.unique w v o t hw hv he ho)
        simp only [put_other _ _ this]; exact h.describes w o hw ho
    · intro w x o p hw hx he ho
      by_cases hwv : w = v
      · subst hwv; simp only [put_same] at hw; exact absurd (hn o hw) ho
      · by_cases hxv : x = v
        · subst hxv; simp only [put_same] at hx; exact absurd (he.trans (hn p hx)) ho
        · simp only [put_other _ _ hwv] at hw; simp only [put_other _ _ hxv] at hx
          exact h.unique w x o p hw hx he ho
    · intro k e hk
      by_cases hkt : k = t.info
      · simp only [hkt, put_same] at hk; cases hk
      · simp only [put_other _ _ hkt] at hk
        obtain ⟨w, o, hw, hi⟩ := h.owner k e hk
        have hwv : w ≠ v := by
          rintro rfl
          rw [hv] at hw; cases hw
          exact hkt hi.symm
        exact ⟨w, o, by simp only [put_other _ _ hwv]; exact hw, hi⟩

/-- a variable without handle gets a new one. -/
theorem Owned.create (h : Owned m) {v : Nat} (hv : ∀ o, m.var v = some o → o.info = 0) (ext : List Nat) :
    Owned { m with live := put m.live m.next (some ext), next := m.next + 1, var := put m.var v (some ⟨ext, m.next⟩) } := by
  have hlt : ∀ w o, m.var w = some o → o.info ≠ 0 → o.info ≠ m.next := by
    intro w o hw ho he
    have := h.describes w o hw ho
    rw [h.fresh _ (by omega)] at this; cases this
  have hp := h.pos
  refine ⟨Nat.succ_pos _, ?_, ?_, ?_, ?_, ?_, h.good⟩
  · intro k hk
    simp only at hk
    simp only [put_other _ _ (show k ≠ m.next by omega)]; exact h.fresh k (by omega)
  · simp only [put_other _ _ (show 0 ≠ m.next by omega)]; exact h.zero
  · intro w o hw ho
    by_cases hwv : w = v
    · subst hwv; simp only [put_same] at hw; cases hw; simp only [put_same]
    · simp only [put_other _ _ hwv] at hw
      simp only [put_other _ _ (hlt w o hw ho)]; exact h.describes w o hw ho
  · intro w x o p hw hx he ho
    by_cases hwv : w = v
    · by_cases hxv : x = v
      · rw [hwv, hxv]
      · subst hwv; simp only [put_same] at hw; cases hw
        simp only [put_other _ _ hxv] at hx
        exact absurd he.symm (hlt x p hx (by rw [← he]; exact ho))
    · by_cases hxv : x = v
      · subst hxv; simp only [put_same] at hx; cases hx
        simp only [put_other _ _ hwv] at hw
        exact absurd he (hlt w o hw ho)
      · simp only [put_other _ _ hwv] at hw; simp only [put_other _ _ hxv] at hx
        exact h.unique w x o p hw hx he ho
  · intro k e hk
    by_cases hkn : k = m.next
    · subst hkn; exact ⟨v, ⟨ext, m.next⟩, by simp only [put_same], rfl⟩
    · simp only [put_other _ _ hkn] at hk
      obtain ⟨w, o, hw, hi⟩ := h.owner k e hk
      have hwv : w ≠ v := by
        rintro rfl
        have := hv o hw
        rw [← hi, this, h.zero] at hk; cases hk
      exact ⟨w, o, by simp only [put_other _ _ hwv]; exact hw, hi⟩

/-- a variable without handle takes the handle of another. -/
theorem Owned.take (h : Owned m) {v w : Nat} {o : Obj} (hvw : v ≠ w) (hv : ∀ p, m.var v = some p → p.info = 0) (hw : m.var w = some o) (rest : List Nat) :
    Owned { m with var := put (put m.var v (some o)) w (some ⟨rest, 0⟩) } := by
  have get : ∀ x p, put (put m.var v (some o)) w (some ⟨rest, 0⟩) x = some p → p.info ≠ 0 → (x = v ∧ p = o) ∨ (x ≠ v ∧ x ≠ w ∧ m.var x = some p) := by
    intro x p hx hp
    by_cases hxw : x = w
    · subst hxw; simp only [put_same] at hx; cases hx; exact absurd rfl hp
    · rw [put_other _ _ hxw] at hx
      by_cases hxv : x = v
      · subst hxv; rw [put_same] at hx; cases hx; exact .inl ⟨rfl, rfl⟩
      · rw [put_other _ _ hxv] at hx; exact .inr ⟨hxv, hxw, hx⟩
  refine ⟨h.pos, h.fresh, h.zero, ?_, ?_, ?_, h.good⟩
  · intro x p hx hp
    rcases get x p hx hp with ⟨-, rfl⟩ | ⟨-, -, hx⟩
    · exact h.describes w p hw hp
    · exact h.describes x p hx hp
  · intro x y p q hx hy he hp
    rcases get x p hx hp with ⟨h1, h2⟩ | ⟨h1, h2, h3⟩ <;> rcases get y q hy (by rw [← he]; exact hp) with ⟨h4, h5⟩ | ⟨h4, h5, h6⟩
    · rw [h1, h4]
    · subst h2; exact absurd (h.unique w y p q hw h6 he hp) (Ne.symm h5)
    · subst h5; exact absurd (h.unique x w p q h3 hw he hp) h2
    · exact h.unique x y p q h3 h6 he hp
  · intro k e hk
    obtain ⟨x, p, hx, hi⟩ := h.owner k e hk
    have hk0 : p.info ≠ 0 := by
      intro h0
      rw [← hi, h0, h.zero] at hk; cases hk
    by_cases hxw : x = w
    · subst hxw
      rw [hw] at hx; cases hx
      exact ⟨v, o, by simp only [put_other _ _ hvw, put_same], hi⟩
    · have hxv : x ≠ v := by
        rintro rfl
        exact hk0 (hv p hx)
      exact ⟨x, p, by simp only [put_other _ _ hxw, put_other _ _ hxv]; exact hx, hi⟩

theorem destroyInfo_var (m : Mem) (i : Nat) : (destroyInfo m i).var = m.var := by
  unfold destroyInfo; split
  · rfl
  · split <;> rfl

theorem put_put {A : Type} (f : Nat → A) (k : Nat) (u v : A) : put (put f k u) k v = put f k v := by
  funext j; unfold put; split <;> rfl

theorem Owned.step (h : Owned m) {o : Op} {m' : Mem} (hs : m.step o = some m') : Owned m' := by
  cases o with
  | default v =>
    simp only [Mem.step] at hs
    split at hs
    · cases hs
    · rename_i hv
      cases hs
      refine ⟨h.pos, h.fresh, h.zero, ?_, ?_, ?_, h.good⟩
      · intro w o hw ho
        by_cases hwv : w = v
        · subst hwv; simp only [put_same] at hw; cases hw; exact absurd rfl ho
        · simp only [put_other _ _ hwv] at hw; exact h.describes w o hw ho
      · intro w x o p hw hx he ho
        by_cases hwv : w = v
        · subst hwv; simp only [put_same] at hw; cases hw; exact absurd rfl ho
        · by_cases hxv : x = v
          · subst hxv; simp only [put_same] at hx; cases hx; exact absurd he ho
          · simp only [put_other _ _ hwv] at hw; simp only [put_other _ _ hxv] at hx
            exact h.unique w x o p hw hx he ho
      · intro k e hk
        obtain ⟨w, o, hw, hi⟩ := h.owner k e hk
        have hwv : w ≠ v := by rintro rfl; rw [hv] at hw; cases hw
        exact ⟨w, o, by simp only [put_other _ _ hwv]; exact hw, hi⟩
  | make v ext ok =>
    simp only [Mem.step] at hs
    split at hs
    · cases hs
    · rename_i hv
      unfold createInfo at hs
      cases ok
      · simp at hs; cases hs; exact h
      · simp at hs; cases hs
        exact h.create (fun o ho => by rw [hv] at ho; cases ho) ext
  | copy v w ok =>
    simp only [Mem.step] at hs
    split at hs
    · rename_i o hv hw
      unfold createInfo at hs
      cases ok
      · simp at hs; cases hs; exact h
      · simp at hs; cases hs
        exact h.create (fun o ho => by rw [hv] at ho; cases ho) o.ext
    · cases hs
  | move v w rest =>
    simp only [Mem.step] at hs
    split at hs
    · rename_i o hv hw
      cases hs
      exact h.take (by rintro rfl; rw [hv] at hw; cases hw) (fun o ho => by rw [hv] at ho; cases ho) hw rest
    · cases hs
  | copyAssign v w ok =>
    simp only [Mem.step] at hs
    split at hs
    · rename_i t o hv hw
      split at hs
      · cases hs; exact h
      · rename_i hvw
        have hd := h.drop hv (some ⟨o.ext, 0⟩) (fun p hp => by cases hp; rfl)
        unfold createInfo at hs
        cases ok
        · simp at hs; cases hs; exact hd
        · simp at hs; cases hs
          have := hd.create (v := v) (fun p hp => by simp only [put_same] at hp; cases hp; rfl) o.ext
          simp only [put_put] at this
          exact this
    · cases hs
  | moveAssign v w rest =>
    simp only [Mem.step] at hs
    split at hs
    · rename_i t o hv hw
      split at hs
      · cases hs; exact h
      · rename_i hvw
        cases hs
        have hd := h.drop hv (some ⟨o.ext, 0⟩) (fun p hp => by cases hp; rfl)
        have := hd.take (v := v) (w := w) (o := o) hvw (fun p hp => by simp only [put_same] at hp; cases hp; rfl)
          (by simp only [put_other _ _ (Ne.symm hvw), destroyInfo_var]; exact hw) rest
        simp only [put_put] at this
        exact this
    · cases hs
  | clear v =>
    simp only [Mem.step] at hs
    split at hs
    · rename_i t hv
      cases hs
      exact h.drop hv _ (fun p hp => by cases hp; rfl)
    · cases hs
  | destroy v =>
    simp only [Mem.step] at hs
    split at hs
    · rename_i t hv
      cases hs
      exact h.drop hv _ (fun p hp => by cases hp)
    · cases hs

theorem Owned.run : ∀ (os : List Op) {m m' : Mem}, Owned m → Mem.run os m = some m' → Owned m'
  | [], _, _, h, hr => by cases hr; exact h
  | o :: os, m, m', h, hr => by
    simp only [Mem.run] at hr
    cases hs : m.step o with
    | none => rw [hs] at hr; cases hr
    | some m1 => rw [hs] at hr; exact Owned.run os (h.step hs) hr

/-- **No handle is destroyed twice, whatever is done with the arrays.** -/
theorem handles_good {os : List Op} {m : Mem} (h : Mem.run os Mem.init = some m) : m.bad = false := (Owned.init.run os h).good

/-- **A handle belongs to one array and describes it.** -/
theorem handles_describe {os : List Op} {m : Mem} (h : Mem.run os Mem.init = some m) {v : Nat} {o : Obj} (hv : m.var v = some o) (h0 : o.info ≠ 0) :
    m.live o.info = some o.ext ∧ ∀ w p, m.var w = some p → p.info = o.info → w = v :=
  ⟨(Owned.init.run os h).describes v o hv h0, fun w p hw he => (Owned.init.run os h).unique w v p o hw hv he (by rw [he]; exact h0)⟩

/-- **No handle is left when the arrays are gone.** -/
theorem handles_freed {os : List Op} {m : Mem} (h : Mem.run os Mem.init = some m) (hn : ∀ v, m.var v = none) (k : Nat) : m.live k = none := by
  cases hk : m.live k with
  | none => rfl
  | some e =>
    obtain ⟨v, o, hv, -⟩ := (Owned.init.run os h).owner k e hk
    rw [hn v] at hv; cases hv

/-- **Construction and assignment.** After a successful construction or assignment the array has a handle;
after it was moved from or cleared it has none. -/
theorem handles_after {m m' : Mem} {v w : Nat} {o : Obj} (hw : m.var w = some o) :
    (∀ ok, m.step (.copy v w ok) = some m' → ok = true → m'.var v = some ⟨o.ext, m.next⟩) ∧
    (∀ rest, m.step (.move v w rest) = some m' → m'.var v = some o ∧ m'.var w = some ⟨rest, 0⟩) ∧
    (∀ ok, v ≠ w → m.step (.copyAssign v w ok) = some m' → ok = true → ∃ k, m'.var v = some ⟨o.ext, k⟩ ∧ m'.live k = some o.ext) ∧
    (∀ rest, v ≠ w → m.step (.moveAssign v w rest) = some m' → m'.var v = some o ∧ m'.var w = some ⟨rest, 0⟩) := by
  refine ⟨?_, ?_, ?_, ?_⟩
  · intro ok hs hok
    subst hok
    simp only [Mem.step, hw] at hs
    split at hs
    · rename_i hw'
      cases hw'
      simp [createInfo] at hs; cases hs
      simp only [put_same]
    · cases hs
  · intro rest hs
    simp only [Mem.step, hw] at hs
    split at hs
    · rename_i hv hw'
      cases hw'
      have hvw : v ≠ w := by rintro rfl; rw [hw] at hv; cases hv
      cases hs
      exact ⟨by simp only [put_other _ _ hvw, put_same], by simp only [put_same]⟩
    · cases hs
  · intro ok hvw hs hok
    subst hok
    simp only [Mem.step, hw] at hs
    split at hs
    · rename_i hw'
      cases hw'
      rw [if_neg hvw] at hs
      simp [createInfo] at hs; cases hs
      exact ⟨_, put_same _ _ _, put_same _ _ _⟩
    · cases hs
  · intro rest hvw hs
    simp only [Mem.step, hw] at hs
    split at hs
    · rename_i hw'
      cases hw'
      rw [if_neg hvw] at hs
      cases hs
      exact ⟨by simp only [put_other _ _ hvw, put_same], by simp only [put_same]⟩
    · cases hs

-- make, copy, move out of the copy, assign it back, destroy all
example : ((Mem.run [.make 0 [2, 3] true, .copy 1 0 true, .move 2 1 [], .copyAssign 1 2 true, .moveAssign 0 1 [2], .clear 2, .destroy 0, .destroy 1, .destroy 2] Mem.init).map
    fun m => (m.bad, [m.live 1, m.live 2, m.live 3, m.live 4], m.next)) = some (false, [none, none, none, none], 4) := by decide
-- a failed copy assignment leaves an array without handle
example : ((Mem.run [.make 0 [2, 3] true, .make 1 [4] true, .copyAssign 0 1 false] Mem.init).map fun m => (m.var 0, m.live 1, m.live 2)) =
    some (some ⟨[4], 0⟩, none, some [4]) := by decide

end SeQuant.Dense
