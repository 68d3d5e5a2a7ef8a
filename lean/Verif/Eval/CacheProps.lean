import Verif.Eval.CacheModel
import Mathlib.Data.List.Induction

/-!
# C26: lifetimes of cache entries
-/

set_option linter.unusedSectionVars false

namespace SeQuant.Eval

variable {K R : Type} [DecidableEq K]

/-! ### Operations and histories -/

inductive Op (K R : Type) where
  | store (k : K) (d : R)
  | access (k : K)
  | reset

/-- One operation: the new cache and what it returned. -/
def Op.run (c : Cache K R) : Op K R → Cache K R × Option R
  | .store k d => c.store k d
  | .access k => c.access k
  | .reset => (c.reset, none)

def runOps (c : Cache K R) : List (Op K R) → Cache K R × List (Option R)
  | [] => (c, [])
  | o :: os => let r := o.run c; let rs := runOps r.1 os; (rs.1, r.2 :: rs.2)

theorem toInt_small {n : Nat} (h : n < 2 ^ 32) : toInt n = 0 ↔ n = 0 := by
  have hm : n % 2 ^ 32 = n := Nat.mod_eq_of_lt h
  unfold toInt
  rw [BitVec.toInt_eq_toNat_cond, BitVec.toNat_ofNat, hm]
  split <;> omega

/-! ### One entry -/

/-- `n` reads in a row. -/
def Entry.accesses (e : Entry R) : Nat → Entry R × List (Option R)
  | 0 => (e, [])
  | n + 1 => let r := e.access; let rs := r.1.accesses n; (rs.1, r.2 :: rs.2)

/-- An empty entry returns nothing. -/
theorem accesses_empty (e : Entry R) (h : e.data = none) (n : Nat) : e.accesses n = (e, List.replicate n none) := by
  induction n with
  | zero => rfl
  | succ n ih =>
    have : e.access = (e, none) := by simp [Entry.access, h]
    simp [Entry.accesses, this, ih, List.replicate_succ]

/-- **C26, partial** (lifetime of one entry): a value stored when `life` reads are left can be read `life` times, then it is released and
reads return nothing.  Missing: counts from 2^32 on, whose conversion to `int` releases the value too early (`entry_overflow`), and the
count 0, for which one read succeeds (`entry_zero`). -/
theorem entry_reads_partial (e : Entry R) (d : R) (hp : e.persistent = false) (h1 : 1 ≤ e.life) (h2 : e.life ≤ 2 ^ 32) (n : Nat) :
    ((e.store d).accesses n).2 = List.replicate (min n e.life) (some d) ++ List.replicate (n - e.life) none ∧
    (((e.store d).accesses n).1.data = if n < e.life then some d else none) ∧
    ((e.store d).accesses n).1.life = e.life - n := by
  induction n generalizing e with
  | zero => simp [Entry.accesses, Entry.store]; omega
  | succ n ih =>
    have hacc : (e.store d).access = if e.life = 1 then ({ e with life := 0, data := none }, some d) else
        ((({ e with life := e.life - 1 } : Entry R).store d), some d) := by
      have hd : (e.store d).decay = ({ e with life := e.life - 1, data := some d }, toInt (e.life - 1)) := by
        have : e.life > 0 := by omega
        simp [Entry.decay, Entry.store, this]
      unfold Entry.access
      rw [hd]
      simp only [Entry.store, hp, Bool.false_eq_true, if_false]
      simp only [toInt_small (show e.life - 1 < 2 ^ 32 by omega)]
      by_cases hl : e.life = 1
      · have : e.life - 1 = 0 := by omega
        simp only [this, hl, if_true, hp]
      · have : ¬ e.life - 1 = 0 := by omega
        simp only [this, hl, if_false, hp]
    rw [Entry.accesses, hacc]
    by_cases hl : e.life = 1
    · simp only [hl, if_true]
      rw [accesses_empty _ rfl]
      refine ⟨?_, by simp, by simp⟩
      have e1 : min (n + 1) 1 = 1 := by omega
      have e2 : n + 1 - 1 = n := by omega
      rw [e1, e2]; rfl
    · simp only [hl, if_false]
      obtain ⟨a, b, c⟩ := ih { e with life := e.life - 1 } hp (by simp only; omega) (by simp only; omega)
      refine ⟨?_, ?_, ?_⟩
      · rw [a]
        have e1 : min (n + 1) e.life = min n (e.life - 1) + 1 := by omega
        have e2 : n + 1 - e.life = n - (e.life - 1) := by omega
        rw [e1, e2, List.replicate_succ]; rfl
      · rw [b]
        by_cases h : n < e.life - 1
        · rw [if_pos h, if_pos (by omega)]
        · rw [if_neg h, if_neg (by omega)]
      · rw [c]; simp only; omega

/-- Reading a drained entry that is stored to again: each store allows one read. -/
theorem entry_zero (e : Entry R) (d : R) (hp : e.persistent = false) (h : e.life = 0) :
    (e.store d).access = ({ e with data := none }, some d) := by
  simp [Entry.access, Entry.store, Entry.decay, hp, h]

/-- **C26 is false** for large counts: registered for 2^32 + 1 reads, the value is released by the first. -/
theorem entry_overflow (d : R) :
    let e : Entry R := (Entry.new (2 ^ 32 + 1) false).store d
    (e.accesses 2).2 = [some d, none] := by
  have h : toInt (2 ^ 32) = 0 := by decide
  have hd : ((Entry.new (R := R) (2 ^ 32 + 1) false).store d).decay = (⟨2 ^ 32 + 1, 2 ^ 32, some d, false⟩, 0) := by
    have hl : ((Entry.new (R := R) (2 ^ 32 + 1) false).store d).life = 2 ^ 32 + 1 := rfl
    rw [Entry.decay, hl, if_pos (Nat.succ_pos _), Nat.add_sub_cancel, h]
    rfl
  simp only [Entry.accesses]
  have ha : ((Entry.new (R := R) (2 ^ 32 + 1) false).store d).access = (⟨2 ^ 32 + 1, 2 ^ 32, none, false⟩, some d) := by
    unfold Entry.access
    rw [hd]
    simp [Entry.store, Entry.new]
  rw [ha]
  rfl

/-- **C26** (persistent entries): whatever reads and resets follow a store, every read returns the value. -/
theorem entry_persistent (e : Entry R) (d : R) (hp : e.persistent = true) (he : e.data = some d) :
    e.access = (e, some d) ∧ e.reset.data = some d ∧ e.reset.persistent = true := by
  simp [Entry.access, Entry.reset, hp, he]

/-! ### Many entries, arbitrary histories -/

/-- What an operation does to the entry of key `k`. -/
def entryStep (k : K) (e : Entry R) : Op K R → Entry R × Option R
  | .store k' d => if k' = k then (e.store d).access else (e, none)
  | .access k' => if k' = k then e.access else (e, none)
  | .reset => (e.reset, none)

/-- What an operation on key `k` returns. -/
theorem run_entry (c : Cache K R) (o : Op K R) (k : K) (e : Entry R) (h : c k = some e) :
    (match o with | .store k' _ => k' = k | .access k' => k' = k | .reset => False) → (o.run c).2 = (entryStep k e o).2 := by
  intro hh
  cases o with
  | store k' d => subst hh; simp [Op.run, Cache.store, h, entryStep]
  | access k' => subst hh; simp [Op.run, Cache.access, h, entryStep]
  | reset => exact hh.elim

/-- The entries of different keys do not influence each other. -/
theorem run_entry_state (c : Cache K R) (o : Op K R) (k : K) (e : Entry R) (h : c k = some e) :
    (o.run c).1 k = some (entryStep k e o).1 := by
  cases o with
  | store k' d =>
    simp only [Op.run, Cache.store, entryStep]
    by_cases hk : k' = k
    · subst hk; simp [h, Cache.set]
    · have hk' : ¬ k = k' := fun hh => hk hh.symm
      cases hc : c k' with
      | none => simp [hk, h]
      | some e' => simp [Cache.set, hk, hk', h]
  | access k' =>
    simp only [Op.run, Cache.access, entryStep]
    by_cases hk : k' = k
    · subst hk; simp [h, Cache.set]
    · have hk' : ¬ k = k' := fun hh => hk hh.symm
      cases hc : c k' with
      | none => simp [hk, h]
      | some e' => simp [Cache.set, hk, hk', h]
  | reset => simp [Op.run, Cache.reset, h, entryStep]

/-- Keys that are not registered never get an entry: stores hand the value back, reads find nothing. -/
theorem run_unregistered (c : Cache K R) (o : Op K R) (k : K) (h : c k = none) :
    (o.run c).1 k = none ∧ (∀ d, o = .store k d → (o.run c).2 = some d) ∧ (o = .access k → (o.run c).2 = none) := by
  refine ⟨?_, ?_, ?_⟩
  · cases o with
    | store k' d =>
      simp only [Op.run, Cache.store]
      cases hc : c k' with
      | none => exact h
      | some e' =>
        have : k ≠ k' := by rintro rfl; simp [h] at hc
        simp [Cache.set, this, h]
    | access k' =>
      simp only [Op.run, Cache.access]
      cases hc : c k' with
      | none => exact h
      | some e' =>
        have : k ≠ k' := by rintro rfl; simp [h] at hc
        simp [Cache.set, this, h]
    | reset => simp [Op.run, Cache.reset, h]
  · rintro d rfl; simp [Op.run, Cache.store, h]
  · rintro rfl; simp [Op.run, Cache.access, h]

/-- The value that was last stored under `k` in a history (latest operation first), if it has not been dropped by a reset. -/
def lastStored (k : K) (persistent : Bool) : List (Op K R) → Option R
  | [] => none
  | .store k' d :: h => if k' = k then some d else lastStored k persistent h
  | .access _ :: h => lastStored k persistent h
  | .reset :: h => if persistent then lastStored k persistent h else none

def runAll (c : Cache K R) (os : List (Op K R)) : Cache K R := (runOps c os).1

theorem runAll_append (c : Cache K R) (os : List (Op K R)) (o : Op K R) : runAll c (os ++ [o]) = (o.run (runAll c os)).1 := by
  induction os generalizing c with
  | nil => rfl
  | cons a os ih => exact ih (a.run c).1

theorem access_fields (e : Entry R) : e.access.1.persistent = e.persistent ∧ e.access.1.maxLife = e.maxLife ∧
    (e.access.1.data = e.data ∨ e.access.1.data = none) ∧ e.access.2 = e.data ∧ (e.persistent = true → e.access.1 = e) := by
  unfold Entry.access
  cases hd : e.data with
  | none => simp [hd]
  | some d =>
    simp only
    by_cases hp : e.persistent = true
    · simp [hp, hd]
    · simp only [Bool.not_eq_true] at hp
      simp only [hp, Bool.false_eq_true, if_false, Entry.decay]
      by_cases hl : e.life > 0
      · simp only [hl, if_true]
        split <;> simp [hp, hd]
      · simp [hl, hp]

/-- **C26** (reads return the value last stored): after any history on a newly made cache, a read under `k` that succeeds returns the value
last stored under `k`, and nothing is served after a reset until the next store, except from persistent entries, which always serve. -/
theorem cache_history (c0 : Cache K R) (k : K) (e0 : Entry R) (h0 : c0 k = some e0) (hd : e0.data = none) (os : List (Op K R)) :
    ∃ e, runAll c0 os k = some e ∧ e.persistent = e0.persistent ∧ e.maxLife = e0.maxLife ∧
      (∀ d, ((runAll c0 os).access k).2 = some d → lastStored k e0.persistent os.reverse = some d) ∧
      (e0.persistent = true → ((runAll c0 os).access k).2 = lastStored k true os.reverse) := by
  suffices h : ∃ e, runAll c0 os k = some e ∧ e.persistent = e0.persistent ∧ e.maxLife = e0.maxLife ∧
      (∀ d, e.data = some d → lastStored k e0.persistent os.reverse = some d) ∧
      (e0.persistent = true → e.data = lastStored k true os.reverse) by
    obtain ⟨e, h1, h2, h3, h4, h5⟩ := h
    have hacc : ((runAll c0 os).access k).2 = e.data := by simp [Cache.access, h1, (access_fields e).2.2.2.1]
    exact ⟨e, h1, h2, h3, by rwa [hacc], by rwa [hacc]⟩
  induction os using List.reverseRecOn with
  | nil => exact ⟨e0, h0, rfl, rfl, by simp [hd], by simp [hd, lastStored]⟩
  | append_singleton os o ih =>
    obtain ⟨e, h1, h2, h3, h4, h5⟩ := ih
    rw [runAll_append, List.reverse_append]
    refine ⟨_, run_entry_state _ o k e h1, ?_⟩
    cases o with
    | store k' d =>
      simp only [entryStep, List.reverse_cons, List.reverse_nil, List.nil_append, List.cons_append, lastStored]
      by_cases hk : k' = k
      · simp only [hk, if_true]
        obtain ⟨f1, f2, f3, -, f5⟩ := access_fields (e.store d)
        refine ⟨f1.trans h2, f2.trans h3, ?_, ?_⟩
        · intro x hx
          rcases f3 with f3 | f3
          · rw [f3] at hx; exact hx
          · rw [f3] at hx; simp at hx
        · intro hp
          rw [f5 (h2.trans hp)]; rfl
      · simp only [hk, if_false]
        exact ⟨h2, h3, h4, h5⟩
    | access k' =>
      simp only [entryStep, List.reverse_cons, List.reverse_nil, List.nil_append, List.cons_append, lastStored]
      by_cases hk : k' = k
      · simp only [hk, if_true]
        obtain ⟨f1, f2, f3, -, f5⟩ := access_fields e
        refine ⟨f1.trans h2, f2.trans h3, ?_, ?_⟩
        · intro x hx
          rcases f3 with f3 | f3
          · rw [f3] at hx; exact h4 x hx
          · rw [f3] at hx; simp at hx
        · intro hp
          rw [f5 (h2.trans hp)]; exact h5 hp
      · simp only [hk, if_false]
        exact ⟨h2, h3, h4, h5⟩
    | reset =>
      simp only [entryStep, List.reverse_cons, List.reverse_nil, List.nil_append, List.cons_append, lastStored]
      cases hp : e0.persistent with
      | true =>
        have : e.reset = { e with life := e.maxLife } := by simp [Entry.reset, h2, hp]
        rw [this]
        refine ⟨h2.trans hp, h3, ?_, ?_⟩
        · intro d hd'; have := h4 d hd'; rw [hp] at this; simpa using this
        · intro _; simpa using h5 hp
      | false =>
        have : e.reset = { e with life := e.maxLife, data := none } := by simp [Entry.reset, h2, hp]
        rw [this]
        exact ⟨h2.trans hp, h3, by simp, by simp⟩

/-- The number of reads of `k` left is the registered count after a reset and goes down by one with each read that finds a value. -/
theorem cache_life (k : K) (e : Entry R) (o : Op K R) (hp : e.persistent = false) :
    (entryStep k e o).1.life = match o with
      | .store k' _ => if k' = k then e.life - 1 else e.life
      | .access k' => if k' = k ∧ e.data.isSome then e.life - 1 else e.life
      | .reset => e.maxLife := by
  cases o with
  | store k' d =>
    simp only [entryStep]
    by_cases hk : k' = k
    · simp only [hk, if_true, Entry.access, Entry.store, hp, Bool.false_eq_true, if_false, Entry.decay]
      by_cases hl : e.life > 0
      · simp only [hl, if_true]; split <;> rfl
      · simp [hl]; omega
    · simp [hk]
  | access k' =>
    simp only [entryStep]
    by_cases hk : k' = k
    · cases hd : e.data with
      | none => simp [hk, Entry.access, hd]
      | some d =>
        simp only [hk, if_true, Entry.access, hd, hp, Bool.false_eq_true, if_false, Entry.decay, Option.isSome_some, and_self]
        by_cases hl : e.life > 0
        · simp only [hl, if_true]; split <;> rfl
        · simp [hl]; omega
    · simp [hk]
  | reset => simp [entryStep, Entry.reset, hp]

/-- **C26, partial** (through the manager): the store itself counts as the first read, so a value registered for `n` uses can be read `n - 1`
more times. -/
theorem cache_store_reads_partial (c : Cache K R) (k : K) (e : Entry R) (d : R) (h : c k = some e) (hp : e.persistent = false)
    (h1 : 1 ≤ e.life) (h2 : e.life ≤ 2 ^ 32) (n : Nat) :
    (runOps c (.store k d :: List.replicate n (.access k))).2 =
      List.replicate (min (n + 1) e.life) (some d) ++ List.replicate (n + 1 - e.life) none := by
  have key : ∀ (n : Nat) (c : Cache K R) (e : Entry R), c k = some e → (runOps c (List.replicate n (.access k))).2 = (e.accesses n).2 := by
    intro n
    induction n with
    | zero => intro c e _; rfl
    | succ n ih =>
      intro c e hc
      rw [List.replicate_succ, runOps, Entry.accesses]
      simp only [Op.run, Cache.access, hc]
      rw [ih (c.set k e.access.1) e.access.1 (by simp [Cache.set])]
  have := (entry_reads_partial e d hp h1 h2 (n + 1)).1
  rw [Entry.accesses] at this
  rw [← this, runOps]
  simp only [Op.run, Cache.store, h]
  rw [key n _ (e.store d).access.1 (by simp [Cache.set])]

/-- The constructor registers every key with the first count given for it. -/
theorem make_entry (l : List (K × Nat)) (p : K → Bool) (k : K) :
    Cache.make (R := R) l p k = (l.find? fun e => e.1 = k).map fun e => .new e.2 (p k) := by
  have gen : ∀ (l : List (K × Nat)) (c : Cache K R),
      l.foldl (fun c e => if (c e.1).isSome then c else c.set e.1 (.new e.2 (p e.1))) c k =
        match c k with | some e => some e | none => (l.find? fun e => e.1 = k).map fun e => .new e.2 (p k) := by
    intro l
    induction l with
    | nil => intro c; cases hc : c k <;> simp [hc]
    | cons a l ih =>
      intro c
      rw [List.foldl_cons, ih]
      by_cases hk : a.1 = k
      · cases hc : c k with
        | none => simp [hk, hc, Cache.set]
        | some e => simp [hk, hc]
      · have hk' : ¬ k = a.1 := fun h => hk h.symm
        by_cases ha : (c a.1).isSome
        · simp [ha, hk]
        · simp [ha, Cache.set, hk, hk']
  exact gen l fun _ => none

/-! ### Examples -/

example : (runOps (Cache.make [(0, 2), (1, 3)] (· == 1)) [.store 0 'a', .store 1 'b', .access 0, .access 0, .access 1, .reset, .access 1, .access 2]).2 =
    [some 'a', some 'b', some 'a', none, some 'b', none, some 'b', none] := by decide

end SeQuant.Eval
