import Verif.Math.FactModel
import Mathlib.Data.Nat.Factorial.Basic
import Mathlib.Data.List.Basic

/-! # Factorials are correct for every schedule (C37) -/

namespace SeQuant.Arith

open Nat (factorial)

/-- `pow2` is the power of two, without wrap-around. -/
theorem pow2_correct (n : Nat) : (n ≤ 63 → (pow2 n).map BitVec.toNat = some (2 ^ n)) ∧ (63 < n → pow2 n = none) := by
  constructor
  · intro h
    have hp : (2 : Nat) ^ n < 2 ^ 64 := Nat.pow_lt_pow_right (by decide) (by omega)
    rw [pow2, if_pos h]
    simp only [Option.map_some, Option.some.injEq, BitVec.toNat_shiftLeft, Nat.shiftLeft_eq]
    rw [show (1 : BitVec 64).toNat = 1 from rfl, Nat.one_mul, Nat.mod_eq_of_lt hp]
  · intro h
    rw [pow2, if_neg (by omega)]

/-- The table of values. -/
theorem values_correct (n : Nat) (h : n ≤ 20) : values.getD n 0 = n.factorial := by
  have : ∀ m ∈ List.range 21, values.getD m 0 = m.factorial := by decide +kernel
  exact this n (by simp; omega)

/-- A vector holds 21!, 22!, ... -/
def FactVec (v : List Nat) : Prop := v = (List.range v.length).map fun i => (i + 21).factorial

theorem factVec_get {v : List Nat} (hv : FactVec v) {k : Nat} (hk : k < v.length) : v.getD k 0 = (k + 21).factorial := by
  rw [hv]
  simp [List.getD_eq_getElem?_getD, hk]

theorem factVec_nil : FactVec [] := rfl

theorem factVec_next {v : List Nat} (hv : FactVec v) : FactVec (v ++ [nextVal v]) := by
  have hn : nextVal v = (v.length + 21).factorial := by
    unfold nextVal
    split
    · rename_i h
      rw [h, values_correct 20 (by omega)]
      exact (Nat.factorial_succ 20 ▸ Nat.mul_comm _ _)
    · rename_i h
      have hl : v.getLastD 0 = v.getD (v.length - 1) 0 := by
        cases v with
        | nil => simp at h
        | cons a v =>
          rw [List.getLastD_cons]
          simp [List.getD_eq_getElem?_getD, List.getLastD_eq_getLast?, List.getLast?_eq_getElem?]
          cases v <;> simp
      rw [hl, factVec_get hv (by omega)]
      obtain ⟨m, hm⟩ : ∃ m, v.length = m + 1 := ⟨v.length - 1, by omega⟩
      rw [hm]
      simp only [Nat.add_sub_cancel]
      rw [show m + 1 + 21 = (m + 21) + 1 by omega, Nat.factorial_succ (m + 21), show m + 1 + 20 + 1 = m + 21 + 1 by omega, Nat.mul_comm]
  unfold FactVec
  rw [List.length_append, List.length_singleton, List.range_succ, List.map_append, ← hv, List.map_singleton, hn]

/-- Vectors are factorials, wherever they are kept. -/
def FactOpt (h : Option (List Nat)) : Prop := ∀ v, h = some v → FactVec v

/-- The invariant of one thread. -/
def LocOk (t : Nat) (mem : Option (List Nat)) (owner : Option Nat) : Loc → Prop
  | .idle => owner ≠ some t
  | .entry _ => owner ≠ some t
  | .loaded n h => owner ≠ some t ∧ FactOpt h ∧ 20 < n
  | .waiting n => owner ≠ some t ∧ 20 < n
  | .locked n => owner = some t ∧ 20 < n
  | .reloaded n h => owner = some t ∧ h = mem ∧ 20 < n
  | .extending n v => owner = some t ∧ FactVec v ∧ mem.getD [] <+: v ∧ 20 < n
  | .stored n v => owner = some t ∧ FactVec v ∧ n - 21 < v.length ∧ 20 < n
  | .done n r => owner ≠ some t ∧ r = n.factorial

/-- The invariant. -/
def FInv (s : FState) : Prop := FactOpt s.memvals ∧ ∀ t, LocOk t s.memvals s.owner (s.loc t)

theorem hit_correct {h : Option (List Nat)} (hh : FactOpt h) {n r : Nat} (hn : 20 < n) (e : hit h (n - 20 - 1) = some r) : r = n.factorial := by
  unfold hit at e
  split at e
  · cases e
  · rename_i v
    split at e
    · rename_i hk
      cases e
      rw [factVec_get (hh v rfl) hk]
      congr 1
      omega
    · cases e

/-- Threads that do not hold the mutex do not depend on the vector. -/
theorem locOk_other {t : Nat} {mem mem' : Option (List Nat)} {owner owner' : Option Nat} {l : Loc} (h : LocOk t mem owner l)
    (ho : owner ≠ some t) (ho' : owner' ≠ some t) : LocOk t mem' owner' l := by
  cases l <;> simp only [LocOk] at h ⊢ <;> first | exact ho' | exact ⟨ho', h.2⟩ | exact absurd h.1 ho

theorem finv_set {s : FState} (hs : FInv s) (t : Nat) (l : Loc) (hl : LocOk t s.memvals s.owner l) : FInv (s.set t l) := by
  refine ⟨hs.1, fun u => ?_⟩
  by_cases hu : u = t
  · subst hu; simpa [FState.set] using hl
  · simpa [FState.set, hu] using hs.2 u

/-- Changing owner and vector keeps the invariant if only thread `t` is concerned. -/
theorem finv_change {s : FState} (hs : FInv s) (t : Nat) (l : Loc) (mem : Option (List Nat)) (owner : Option Nat) (hmem : FactOpt mem)
    (hl : LocOk t mem owner l) (h1 : ∀ u, u ≠ t → s.owner ≠ some u) (h2 : ∀ u, u ≠ t → owner ≠ some u) :
    FInv { s.set t l with memvals := mem, owner := owner } := by
  refine ⟨hmem, fun u => ?_⟩
  by_cases hu : u = t
  · subst hu; simpa [FState.set] using hl
  · simpa [FState.set, hu] using locOk_other (hs.2 u) (h1 u hu) (h2 u hu)

theorem stepF_inv {s s' : FState} {t : Nat} (hs : FInv s) (h : stepF s t = some s') : FInv s' := by
  have ht := hs.2 t
  unfold stepF at h
  split at h
  · cases h
  · cases h
  · rename_i n hloc
    rw [hloc] at ht
    split at h
    · rename_i hn
      cases h
      exact finv_set hs t _ ⟨ht, values_correct n hn⟩
    · cases h
      exact finv_set hs t _ ⟨ht, hs.1, by omega⟩
  · rename_i n hd hloc
    rw [hloc] at ht
    split at h
    · rename_i r hr
      cases h
      exact finv_set hs t _ ⟨ht.1, hit_correct ht.2.1 ht.2.2 hr⟩
    · cases h
      exact finv_set hs t _ ⟨ht.1, ht.2.2⟩
  · rename_i n hloc
    rw [hloc] at ht
    split at h
    · rename_i ho
      cases h
      exact finv_change hs t (.locked n) s.memvals (some t) hs.1 ⟨rfl, ht.2⟩ (fun u _ => by simp [ho]) (fun u hu => by simpa using fun e => hu e.symm)
    · cases h
  · rename_i n hloc
    rw [hloc] at ht
    cases h
    exact finv_set hs t _ ⟨ht.1, rfl, ht.2⟩
  · rename_i n hd hloc
    rw [hloc] at ht
    have ho : ∀ u, u ≠ t → s.owner ≠ some u := fun u hu => by rw [ht.1]; simpa using fun e => hu e.symm
    split at h
    · rename_i r hr
      cases h
      exact finv_change hs t (.done n r) s.memvals none hs.1 ⟨by simp, hit_correct (ht.2.1 ▸ hs.1) ht.2.2 hr⟩ ho (by simp)
    · cases h
      refine finv_set hs t _ ⟨ht.1, ?_, ?_, ht.2.2⟩
      · cases hd with
        | none => exact factVec_nil
        | some v => exact (ht.2.1 ▸ hs.1 : FactOpt (some v)) v rfl
      · rw [ht.2.1]; exact List.prefix_rfl
  · rename_i n v hloc
    rw [hloc] at ht
    have ho : ∀ u, u ≠ t → s.owner ≠ some u := fun u hu => by rw [ht.1]; simpa using fun e => hu e.symm
    split at h
    · cases h
      exact finv_set hs t _ ⟨ht.1, factVec_next ht.2.1, ht.2.2.1.trans (List.prefix_append _ _), ht.2.2.2⟩
    · cases h
      exact finv_change hs t (.stored n v) (some v) s.owner (by intro w hw; cases hw; exact ht.2.1) ⟨ht.1, ht.2.1, by omega, ht.2.2.2⟩ ho ho
  · rename_i n v hloc
    rw [hloc] at ht
    have ho : ∀ u, u ≠ t → s.owner ≠ some u := fun u hu => by rw [ht.1]; simpa using fun e => hu e.symm
    cases h
    refine finv_change hs t (.done n _) s.memvals none hs.1 ⟨by simp, ?_⟩ ho (by simp)
    rw [show n - 20 - 1 = n - 21 by omega, factVec_get ht.2.1 ht.2.2.1]
    congr 1
    have := ht.2.2.2
    omega

theorem eventF_inv {s s' : FState} {e : FEvent} (hs : FInv s) (h : eventF s e = some s') : FInv s' := by
  cases e with
  | run t => exact stepF_inv hs h
  | call t n =>
    have ht := hs.2 t
    simp only [eventF] at h
    split at h
    · rename_i hloc
      rw [hloc] at ht
      cases h
      exact finv_set hs t _ ht
    · rename_i hloc
      rw [hloc] at ht
      cases h
      exact finv_set hs t _ ht.1
    · cases h

theorem initF_inv : FInv initF := ⟨by simp [FactOpt, initF], fun t => by simp [initF, LocOk]⟩

theorem runF_inv {s s' : FState} {es : List FEvent} (hs : FInv s) (h : runF s es = some s') : FInv s' := by
  induction es generalizing s with
  | nil => cases h; exact hs
  | cons e es ih =>
    simp only [runF] at h
    split at h
    · cases h
    · rename_i s1 h1
      exact ih (eventF_inv hs h1) h

/-- **C37**: after every history of calls and steps of any number of threads, every value returned is the factorial. -/
theorem factorial_correct (es : List FEvent) (s : FState) (h : runF initF es = some s) (t n r : Nat) (hd : s.loc t = .done n r) :
    r = n.factorial := by
  have := (runF_inv initF_inv h).2 t
  rw [hd] at this
  exact this.2

/-- **C37**: the shared vector always holds 21!, 22!, ... -/
theorem memvals_correct (es : List FEvent) (s : FState) (h : runF initF es = some s) (v : List Nat) (hv : s.memvals = some v) (k : Nat)
    (hk : k < v.length) : v.getD k 0 = (k + 21).factorial :=
  factVec_get ((runF_inv initF_inv h).1 v hv) hk

/-- The critical section. -/
def Loc.critical : Loc → Bool
  | .locked _ => true
  | .reloaded _ _ => true
  | .extending _ _ => true
  | .stored _ _ => true
  | _ => false

/-- **C37**: two threads are never in the critical section together. -/
theorem mutual_exclusion (es : List FEvent) (s : FState) (h : runF initF es = some s) (t u : Nat) (ht : (s.loc t).critical = true)
    (hu : (s.loc u).critical = true) : t = u := by
  have hi := runF_inv initF_inv h
  have key : ∀ t, (s.loc t).critical = true → s.owner = some t := by
    intro t ht
    have := hi.2 t
    generalize s.loc t = l at ht this
    cases l <;> simp [Loc.critical] at ht <;> exact this.1
  have := (key t ht).symm.trans (key u hu)
  exact Option.some.inj this

/-- **C37**: the vector only grows: what was read once stays valid. -/
theorem memvals_grow (s : FState) (hs : FInv s) (e : FEvent) (s' : FState) (h : eventF s e = some s') :
    s.memvals.getD [] <+: s'.memvals.getD [] := by
  cases e with
  | call t n =>
    simp only [eventF] at h
    split at h
    · cases h; exact List.prefix_rfl
    · cases h; exact List.prefix_rfl
    · cases h
  | run t =>
    have ht := hs.2 t
    simp only [eventF] at h
    unfold stepF at h
    split at h
    · cases h
    · cases h
    · split at h <;> cases h <;> exact List.prefix_rfl
    · split at h <;> cases h <;> exact List.prefix_rfl
    · split at h <;> cases h
      exact List.prefix_rfl
    · cases h; exact List.prefix_rfl
    · split at h <;> cases h <;> exact List.prefix_rfl
    · rename_i n v hloc
      rw [hloc] at ht
      split at h
      · cases h; exact List.prefix_rfl
      · cases h; exact ht.2.2.1
    · cases h; exact List.prefix_rfl

/-- A thread inside of the function. -/
def Loc.active : Loc → Bool
  | .idle => false
  | .done _ _ => false
  | _ => true

/-- The owner of the mutex is in the critical section. -/
theorem owner_critical (es : List FEvent) (s : FState) (h : runF initF es = some s) (t : Nat) (ho : s.owner = some t) :
    (s.loc t).critical = true := by
  have := (runF_inv initF_inv h).2 t
  generalize s.loc t = l at this
  cases l <;> simp only [LocOk] at this <;> first | rfl | exact absurd ho this | exact absurd ho this.1

/-- **C37**: no deadlock: while some thread is inside of the function, some thread inside of it can proceed. -/
theorem no_deadlock (es : List FEvent) (s : FState) (h : runF initF es = some s) (t : Nat)
    (ht : (s.loc t).active = true) : ∃ u s', (s.loc u).active = true ∧ stepF s u = some s' := by
  have hcrit : ∀ u, (s.loc u).critical = true → ∃ u s', (s.loc u).active = true ∧ stepF s u = some s' := by
    intro u hu
    refine ⟨u, ?_⟩
    unfold stepF
    generalize hl : s.loc u = l at hu
    cases l <;> simp [Loc.critical] at hu
    · exact ⟨_, rfl, rfl⟩
    · simp only
      split <;> exact ⟨_, rfl, rfl⟩
    · simp only
      split <;> exact ⟨_, rfl, rfl⟩
    · exact ⟨_, rfl, rfl⟩
  cases ho : s.owner with
  | some u => exact hcrit u (owner_critical es s h u ho)
  | none =>
    refine ⟨t, ?_⟩
    unfold stepF
    generalize hl : s.loc t = l at ht
    cases l <;> simp [Loc.active] at ht
    · simp only
      split <;> exact ⟨_, rfl, rfl⟩
    · simp only
      split <;> exact ⟨_, rfl, rfl⟩
    · simp only
      rw [if_pos ho]
      exact ⟨_, rfl, rfl⟩
    · exact ⟨_, rfl, rfl⟩
    · simp only
      split <;> exact ⟨_, rfl, rfl⟩
    · simp only
      split <;> exact ⟨_, rfl, rfl⟩
    · exact ⟨_, rfl, rfl⟩

/-- Number of own steps left at most. -/
def Loc.rank : Loc → Nat
  | .idle => 0
  | .done _ _ => 0
  | .entry n => n + 8
  | .loaded n _ => n + 7
  | .waiting n => n + 6
  | .locked n => n + 5
  | .reloaded n _ => n + 4
  | .extending n v => (n - 20 - 1 + 1 - v.length) + 2
  | .stored _ _ => 1

/-- **C37**: every step of a thread brings it closer to its return and leaves the other threads where they are: a call ends after at most
`n + 8` own steps. -/
theorem step_rank (s s' : FState) (t : Nat) (h : stepF s t = some s') :
    (s'.loc t).rank < (s.loc t).rank ∧ ∀ u, u ≠ t → s'.loc u = s.loc u := by
  have hset : ∀ l, (s.set t l).loc t = l := fun l => by simp [FState.set]
  have hoth : ∀ l u, u ≠ t → (s.set t l).loc u = s.loc u := fun l u hu => by simp [FState.set, hu]
  unfold stepF at h
  split at h <;> (try (cases h; done)) <;> rename_i hloc <;> rw [hloc]
  · split at h <;> cases h <;> exact ⟨by rw [hset]; simp only [Loc.rank]; omega, hoth _⟩
  · split at h <;> cases h <;> exact ⟨by rw [hset]; simp only [Loc.rank]; omega, hoth _⟩
  · split at h <;> cases h
    exact ⟨by rw [hset]; simp only [Loc.rank]; omega, hoth _⟩
  · cases h; exact ⟨by rw [hset]; simp only [Loc.rank]; omega, hoth _⟩
  · split at h <;> cases h <;> exact ⟨by rw [hset]; simp only [Loc.rank]; omega, hoth _⟩
  · split at h <;> cases h
    · exact ⟨by rw [hset]; simp only [Loc.rank, List.length_append, List.length_singleton]; omega, hoth _⟩
    · exact ⟨by rw [hset]; simp only [Loc.rank]; omega, hoth _⟩
  · cases h; exact ⟨by rw [hset]; exact Nat.one_pos, hoth _⟩

/-! ### Example: two threads race for 22! and 21!; the second finds the value of the first after locking -/

example : ((runF initF [.call 0 22, .call 1 21, .run 0, .run 1, .run 1, .run 0, .run 0, .run 0, .run 0, .run 0, .run 0, .run 0, .run 0,
    .run 1, .run 1, .run 1]).map fun s => (s.loc 0, s.loc 1, s.memvals)) =
    some (.done 22 1124000727777607680000, .done 21 51090942171709440000, some [51090942171709440000, 1124000727777607680000]) := by
  decide +kernel

/-- While one thread holds the mutex the other cannot enter. -/
example : (runF initF [.call 0 22, .call 1 21, .run 0, .run 1, .run 1, .run 0, .run 0, .run 1]).isNone = true := by
  decide +kernel

end SeQuant.Arith
