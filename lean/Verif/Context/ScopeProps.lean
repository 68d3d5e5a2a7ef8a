import Verif.Context.ScopeModel
import Mathlib.Data.List.Forall2

/-!
# C40: scoped contexts are restored; C49: scope guards act once
-/

namespace SeQuant.Contexts

/-! ## Looking up and setting entries -/

theorem find_nil (s : Stat) : find [] s = none := rfl

theorem find_cons (t : Stat) (c : Ctx) (l : CtxMap) (s : Stat) :
    find ((t, c) :: l) s = if t = s then some c else find l s := by
  unfold find
  by_cases h : t = s <;> simp [h]

/-- After setting an entry exactly that entry has changed. -/
theorem find_setEntry (l : CtxMap) (c : Ctx) (s t : Stat) :
    find (setEntry l c s) t = if s = t then some c else find l t := by
  induction l with
  | nil => simp [setEntry, find_cons]
  | cons e l ih =>
    obtain ⟨u, d⟩ := e
    unfold setEntry
    by_cases h1 : u = s
    · subst h1
      simp only [if_pos, find_cons]
      by_cases h2 : u = t <;> simp [h2]
    · simp only [if_neg h1]
      by_cases h2 : s.ord < u.ord
      · simp only [if_pos h2, find_cons]
      · simp only [if_neg h2, find_cons, ih]
        by_cases h3 : u = t
        · subst h3
          simp [Ne.symm h1]
        · simp [h3]

/-- The context in force for statistics `s`, as the documentation of `get_default_context` has it: the one set for `s`, else the one set for
arbitrary statistics, else the default one. -/
def inForce (l : CtxMap) (s : Stat) : Ctx :=
  match find l s with
  | some c => c
  | none =>
    match find l .arbitrary with
    | some c => c
    | none => Ctx.default

theorem inForce_setEntry_default (l : CtxMap) (h : find l .arbitrary = none) (s : Stat) :
    inForce (setEntry l Ctx.default .arbitrary) s = inForce l s := by
  unfold inForce
  simp only [find_setEntry, h]
  by_cases hs : Stat.arbitrary = s
  · subst hs
    simp [h]
  · simp [hs]

/-- `get_default_context` returns the context in force. -/
theorem getDefault_value (l : CtxMap) (s : Stat) : (getDefault l s).1 = inForce l s := by
  unfold getDefault inForce
  by_cases h1 : s = .arbitrary
  · subst h1
    cases h2 : find l .arbitrary with
    | none => simp [find_setEntry]
    | some c => simp [h2]
  · simp only [h1, and_false, if_false]
    cases h2 : find l s with
    | some c => rfl
    | none =>
      cases h3 : find l .arbitrary with
      | none => simp [find_setEntry]
      | some c => simp [h3]

/-- `get_default_context` may add an entry, but changes no context in force. -/
theorem getDefault_keeps (l : CtxMap) (s t : Stat) : inForce (getDefault l s).2 t = inForce l t := by
  unfold getDefault
  by_cases h1 : s = .arbitrary
  · subst h1
    cases h2 : find l .arbitrary with
    | none =>
      simp only [and_true, if_true, find_setEntry]
      exact inForce_setEntry_default l h2 t
    | some c => simp [h2]
  · simp only [h1, and_false, if_false]
    cases h2 : find l s with
    | some c => rfl
    | none =>
      cases h3 : find l .arbitrary with
      | none =>
        simp only [if_true]
        exact inForce_setEntry_default l h3 t
      | some c => simp

/-- It does add an entry. -/
example : getDefault [] .fermi = (Ctx.default, [(.arbitrary, Ctx.default)]) := by decide

/-- `set_default_context(ctx, s)` puts `ctx` in force for `s`. -/
theorem set_inForce (l : CtxMap) (c : Ctx) (s : Stat) : inForce (setEntry l c s) s = c := by
  simp [inForce, find_setEntry]

/-- ... and leaves the contexts set for other statistics alone. -/
theorem set_inForce_other (l : CtxMap) (c d : Ctx) (s t : Stat) (h : s ≠ t) (hd : find l t = some d) :
    inForce (setEntry l c s) t = d := by
  simp [inForce, find_setEntry, h, hd]

/-- In a scope of a single context that context is in force for all statistics. -/
theorem scopedMap_inForce (c : Ctx) (s : Stat) : inForce (scopedMap c) s = c := by
  cases s <;> rfl

/-- The entries remain sorted by statistics. -/
theorem setEntry_sorted (l : CtxMap) (c : Ctx) (s : Stat) (h : l.Pairwise (fun a b => a.1.ord < b.1.ord)) :
    (setEntry l c s).Pairwise (fun a b => a.1.ord < b.1.ord) := by
  have key : ∀ (l : CtxMap) (u : Stat), u.ord < s.ord → (∀ b ∈ l, u.ord < b.1.ord) →
      ∀ b ∈ setEntry l c s, u.ord < b.1.ord := by
    intro l u hu
    induction l with
    | nil =>
      intro _ b hb
      simp only [setEntry, List.mem_singleton] at hb
      subst hb
      exact hu
    | cons e l ih =>
      obtain ⟨t, d⟩ := e
      intro hall b hb
      have ht : u.ord < t.ord := hall (t, d) (by simp)
      have hl : ∀ b ∈ l, u.ord < b.1.ord := fun b hb => hall b (by simp [hb])
      unfold setEntry at hb
      split at hb
      · rcases List.mem_cons.1 hb with rfl | hb
        · exact ht
        · exact hl b hb
      · split at hb
        · rcases List.mem_cons.1 hb with rfl | hb
          · exact hu
          · rcases List.mem_cons.1 hb with rfl | hb
            · exact ht
            · exact hl b hb
        · rcases List.mem_cons.1 hb with rfl | hb
          · exact ht
          · exact ih hl b hb
  induction l with
  | nil => simp [setEntry]
  | cons e l ih =>
    obtain ⟨t, d⟩ := e
    rw [List.pairwise_cons] at h
    unfold setEntry
    by_cases h1 : t = s
    · simp only [if_pos h1]
      exact List.pairwise_cons.2 ⟨h.1, h.2⟩
    · simp only [if_neg h1]
      by_cases h2 : s.ord < t.ord
      · simp only [if_pos h2]
        refine List.pairwise_cons.2 ⟨?_, List.pairwise_cons.2 ⟨h.1, h.2⟩⟩
        intro b hb
        rcases List.mem_cons.1 hb with rfl | hb
        · exact h2
        · exact Nat.lt_trans h2 (h.1 b hb)
      · simp only [if_neg h2]
        refine List.pairwise_cons.2 ⟨?_, ih h.2⟩
        refine key l t ?_ h.1
        have : t.ord ≠ s.ord := by
          intro h3
          apply h1
          cases t <;> cases s <;> simp_all [Stat.ord]
        show t.ord < s.ord
        omega

/-! ## Scopes -/

/-- The state in which a piece of program ended, normally or by an exception. -/
def Ends (r : Result) (σ : State) : Prop := r = .ok σ ∨ r = .threw σ

theorem ends_restore {prev : CtxMap} {r : Result} {σ : State} (h : Ends (restore (some prev) r) σ) : σ.cur = prev := by
  rcases h with h | h <;> cases r <;> simp [restore] at h
  · rw [← h]
  · rw [← h]

/-- **C40, partial.**  If a scope is begun with contexts different from the current ones, then, whatever happens inside (changes of contexts,
other scopes, exceptions), the map of contexts after the scope is the one before it.  What is missing: scopes begun with contexts that
`operator==` takes for the current ones (`scope_equal_leaks`) and the content of the registries (`scope_registry_leaks`). -/
theorem scope_restores_partial (σ σ' : State) (m : State → CtxMap) (body : List Stmt)
    (hne : mapEq σ.heap σ.cur (m σ) = some false) (h : Ends (exec σ (.scope m body)) σ') : σ'.cur = σ.cur := by
  simp only [exec, enter, hne] at h
  exact ends_restore h

/-- ... and the block begins with the contexts of the scope. -/
theorem scope_begins (σ : State) (m : State → CtxMap) (hne : mapEq σ.heap σ.cur (m σ) = some false) :
    enter σ (m σ) = some ({ σ with cur := m σ }, some σ.cur) := by
  simp only [enter, hne]

/-- After setting a map of contexts, these are found, and the others as before. -/
theorem setEntries_find (l m : CtxMap) (hm : (m.map (·.1)).Nodup) (s : Stat) : find (setEntries l m) s = (find m s).or (find l s) := by
  induction m generalizing l with
  | nil => simp [setEntries, find_nil]
  | cons e m ih =>
    obtain ⟨t, c⟩ := e
    simp only [List.map_cons, List.nodup_cons] at hm
    rw [setEntries, ih _ hm.2, find_setEntry, find_cons]
    by_cases h : t = s
    · subst h
      have hn : find m t = none := by
        unfold find
        rw [Option.map_eq_none_iff, List.find?_eq_none]
        intro e he h'
        simp only [decide_eq_true_eq] at h'
        exact hm.1 (h' ▸ List.mem_map_of_mem he)
      simp [hn]
    · simp [h]

/-- After a reset every context is the default one. -/
theorem reset_inForce (σ σ' : State) (h : Ends (exec σ .reset) σ') (s : Stat) : inForce σ'.cur s = Ctx.default ∧ σ'.heap = σ.heap := by
  simp only [exec, Ends] at h
  rcases h with h | h
  · simp only [Result.ok.injEq] at h
    subst h
    exact ⟨rfl, rfl⟩
  · simp at h

/-- What `operator==` compares: everything but the registries, of which it compares the sets of spaces. -/
structure SameSettings (h : Nat → Reg) (a b : Ctx) : Prop where
  pre : a.pre = b.pre
  post : a.post = b.post
  spaces : ∃ p q, a.reg = some p ∧ b.reg = some q ∧ (h p).spaces = (h q).spaces

theorem ctxEq_true_iff (h : Nat → Reg) (a b : Ctx) : ctxEq h a b = some true ↔ SameSettings h a b := by
  unfold ctxEq
  by_cases hp : a.pre = b.pre
  · rw [if_neg (by simpa using hp)]
    cases ha : a.reg with
    | none => simp only [false_iff, reduceCtorEq]; rintro ⟨_, _, p, q, h1, _⟩; simp [ha] at h1
    | some p =>
      cases hb : b.reg with
      | none => simp only [false_iff, reduceCtorEq]; rintro ⟨_, _, p, q, _, h1, _⟩; simp [hb] at h1
      | some q =>
        simp only [Option.some.injEq, Bool.and_eq_true, decide_eq_true_eq]
        constructor
        · rintro ⟨h1, h2⟩
          exact ⟨hp, h2, p, q, ha, hb, h1⟩
        · rintro ⟨_, h2, p', q', h3, h4, h5⟩
          rw [ha] at h3
          rw [hb] at h4
          simp only [Option.some.injEq] at h3 h4
          subst h3 h4
          exact ⟨h5, h2⟩
  · rw [if_pos hp]
    simp only [Option.some.injEq, Bool.false_eq_true, false_iff]
    rintro ⟨h1, _⟩
    exact hp h1

/-- Maps compare equal exactly if they have entries for the same statistics, in the same order, with the same settings. -/
theorem mapEq_true_iff (h : Nat → Reg) (l m : CtxMap) :
    mapEq h l m = some true ↔ List.Forall₂ (fun a b => a.1 = b.1 ∧ SameSettings h a.2 b.2) l m := by
  unfold mapEq
  by_cases hl : l.length = m.length
  · rw [if_neg (by simpa using hl)]
    induction l generalizing m with
    | nil =>
      cases m with
      | nil => simp [entriesEq]
      | cons => simp at hl
    | cons a l ih =>
      cases m with
      | nil => simp at hl
      | cons b m =>
        obtain ⟨s, a⟩ := a
        obtain ⟨t, b⟩ := b
        simp only [List.length_cons, Nat.add_right_cancel_iff] at hl
        simp only [entriesEq, List.forall₂_cons]
        by_cases hs : s = t
        · rw [if_neg (by simpa using hs)]
          cases hc : ctxEq h a b with
          | none =>
            simp only [reduceCtorEq, false_iff]
            rintro ⟨⟨_, h1⟩, _⟩
            rw [← ctxEq_true_iff, hc] at h1
            simp at h1
          | some v =>
            cases v with
            | true =>
              simp only
              rw [ih m hl]
              constructor
              · exact fun h1 => ⟨⟨hs, (ctxEq_true_iff h a b).1 hc⟩, h1⟩
              · exact fun h1 => h1.2
            | false =>
              simp only [Option.some.injEq, Bool.false_eq_true, false_iff]
              rintro ⟨⟨_, h1⟩, _⟩
              rw [← ctxEq_true_iff, hc] at h1
              simp at h1
        · rw [if_pos hs]
          simp only [Option.some.injEq, Bool.false_eq_true, false_iff]
          rintro ⟨⟨h1, _⟩, _⟩
          exact hs h1
  · rw [if_pos hl]
    simp only [Option.some.injEq, Bool.false_eq_true, false_iff]
    intro h1
    exact hl h1.length_eq

/-- A scope begun with contexts that compare equal to the current ones is no scope at all. -/
theorem scope_equal_transparent (σ : State) (m : State → CtxMap) (body : List Stmt)
    (heq : mapEq σ.heap σ.cur (m σ) = some true) : exec σ (.scope m body) = execAll σ body := by
  simp only [exec, enter, heq]
  cases execAll σ body <;> simp [restore]

mutual
/-- Every naked change of the contexts happens inside a scope that keeps the previous contexts. -/
def Guarded (σ : State) : Stmt → Prop
  | .set _ _ => False
  | .setMap _ => False
  | .reset => False
  | .get _ => True
  | .mutate _ _ => True
  | .throw => True
  | .scope m body => mapEq σ.heap σ.cur (m σ) = some true → GuardedAll σ body

/-- ... along the execution of a sequence. -/
def GuardedAll (σ : State) : List Stmt → Prop
  | [] => True
  | s :: l => Guarded σ s ∧ ∀ σ', exec σ s = .ok σ' → GuardedAll σ' l
end

mutual
theorem guarded_inForce (σ σ' : State) (s : Stmt) (hg : Guarded σ s) (h : Ends (exec σ s) σ') (t : Stat) :
    inForce σ'.cur t = inForce σ.cur t := by
  match s with
  | .set _ _ => exact absurd hg (by simp [Guarded])
  | .setMap _ => exact absurd hg (by simp [Guarded])
  | .reset => exact absurd hg (by simp [Guarded])
  | .get u =>
    rcases h with h | h <;> simp [exec] at h
    rw [← h]
    exact getDefault_keeps σ.cur u t
  | .mutate p r =>
    rcases h with h | h <;> simp [exec] at h
    rw [← h]
  | .throw =>
    rcases h with h | h <;> simp [exec] at h
    rw [← h]
  | .scope m body =>
    cases hm : mapEq σ.heap σ.cur (m σ) with
    | none =>
      exfalso
      rcases h with h | h <;> simp [exec, enter, hm] at h
    | some b =>
      cases b with
      | false => rw [scope_restores_partial σ σ' m body hm h]
      | true =>
        rw [scope_equal_transparent σ m body hm] at h
        simp only [Guarded] at hg
        exact guardedAll_inForce σ σ' body (hg hm) h t

/-- **C40, partial.**  In every history, with scopes nested to any depth, in which naked changes occur only inside scopes that differ from
the contexts at their beginning, the contexts in force at the end are those at the beginning. -/
theorem guardedAll_inForce (σ σ' : State) (l : List Stmt) (hg : GuardedAll σ l) (h : Ends (execAll σ l) σ') (t : Stat) :
    inForce σ'.cur t = inForce σ.cur t := by
  match l with
  | [] =>
    rcases h with h | h <;> simp [execAll] at h
    rw [← h]
  | s :: l =>
    simp only [GuardedAll] at hg
    simp only [execAll] at h
    cases hs : exec σ s with
    | ub => rcases h with h | h <;> simp [hs] at h
    | threw τ =>
      simp only [hs] at h
      exact guarded_inForce σ σ' s hg.1 (by rw [hs]; exact h) t
    | ok τ =>
      simp only [hs] at h
      rw [guardedAll_inForce τ σ' l (hg.2 τ hs) h t]
      exact guarded_inForce σ τ s hg.1 (Or.inl hs) t
end

mutual
/-- No statement changes the registry at address `p`. -/
def Spares (p : Nat) : Stmt → Prop
  | .mutate q _ => q ≠ p
  | .scope _ body => SparesAll p body
  | _ => True

def SparesAll (p : Nat) : List Stmt → Prop
  | [] => True
  | s :: l => Spares p s ∧ SparesAll p l
end

theorem ends_restore_heap {prev : Option CtxMap} {r : Result} {σ : State} (h : Ends (restore prev r) σ) :
    ∃ τ, Ends r τ ∧ σ.heap = τ.heap := by
  rcases h with h | h <;> cases r <;> simp [restore] at h
  · exact ⟨_, Or.inl rfl, by rw [← h]⟩
  · exact ⟨_, Or.inr rfl, by rw [← h]⟩

mutual
theorem spares_heap (p : Nat) (σ σ' : State) (s : Stmt) (hs : Spares p s) (h : Ends (exec σ s) σ') :
    σ'.heap p = σ.heap p := by
  match s with
  | .set _ _ => rcases h with h | h <;> simp [exec] at h; rw [← h]
  | .setMap _ => rcases h with h | h <;> simp [exec] at h; rw [← h]
  | .reset => rcases h with h | h <;> simp [exec] at h; rw [← h]
  | .get _ => rcases h with h | h <;> simp [exec] at h; rw [← h]
  | .mutate q r =>
    rcases h with h | h <;> simp [exec] at h
    simp only [Spares] at hs
    rw [← h]
    simp [Ne.symm hs]
  | .throw => rcases h with h | h <;> simp [exec] at h; rw [← h]
  | .scope m body =>
    simp only [Spares] at hs
    simp only [exec] at h
    cases he : enter σ (m σ) with
    | none => rcases h with h | h <;> simp [he] at h
    | some x =>
      obtain ⟨σ₁, prev⟩ := x
      simp only [he] at h
      obtain ⟨τ, hτ, hh⟩ := ends_restore_heap h
      have h1 : σ₁.heap = σ.heap := by
        unfold enter at he
        split at he <;> simp at he
        · rw [← he.1]
        · rw [← he.1]
      rw [hh, sparesAll_heap p σ₁ τ body hs hτ, h1]

theorem sparesAll_heap (p : Nat) (σ σ' : State) (l : List Stmt) (hs : SparesAll p l) (h : Ends (execAll σ l) σ') :
    σ'.heap p = σ.heap p := by
  match l with
  | [] =>
    rcases h with h | h <;> simp [execAll] at h
    rw [← h]
  | s :: l =>
    simp only [SparesAll] at hs
    simp only [execAll] at h
    cases hx : exec σ s with
    | ub => rcases h with h | h <;> simp [hx] at h
    | threw τ =>
      simp only [hx] at h
      exact spares_heap p σ σ' s hs.1 (by rw [hx]; exact h)
    | ok τ =>
      simp only [hx] at h
      rw [sparesAll_heap p τ σ' l hs.2 h]
      exact spares_heap p σ τ s hs.1 (Or.inl hx)
end

/-- A context with the content of its registry. -/
def content (σ : State) (s : Stat) : Ctx × Option Reg :=
  (inForce σ.cur s, (inForce σ.cur s).reg.map σ.heap)

/-- **C40, partial.**  If in addition the block does not change the registry of a context, that context, with the content of its registry, is
what it was. -/
theorem scope_content_partial (σ σ' : State) (m : State → CtxMap) (body : List Stmt) (s : Stat)
    (hne : mapEq σ.heap σ.cur (m σ) = some false)
    (hreg : ∀ p, (inForce σ.cur s).reg = some p → SparesAll p body)
    (h : Ends (exec σ (.scope m body)) σ') : content σ' s = content σ s := by
  have h1 := scope_restores_partial σ σ' m body hne h
  unfold content
  rw [h1]
  congr 1
  cases hr : (inForce σ.cur s).reg with
  | none => rfl
  | some p =>
    simp only [Option.map_some]
    rw [spares_heap p σ σ' (.scope m body) (by simpa [Spares] using hreg p hr) h]

/-! ### A history to which the theorems apply -/

/-- Registries: 0 and 1 share a set of spaces but differ in the designated spaces, 2 has a set of its own. -/
def heap0 : Nat → Reg
  | 0 => ⟨7, 0⟩
  | 1 => ⟨7, 1⟩
  | _ => ⟨8, 0⟩

def c0 : Ctx := ⟨1, some 0, 0⟩
def c1 : Ctx := ⟨1, some 1, 0⟩
def c2 : Ctx := ⟨1, some 2, 0⟩
def s0 : State := ⟨[(.fermi, c0), (.arbitrary, c2)], heap0⟩

/-- The contexts at the end of a history, with a flag for an exception. -/
def finalMap : Result → Option (CtxMap × Bool)
  | .ok σ => some (σ.cur, true)
  | .threw σ => some (σ.cur, false)
  | .ub => none

example : finalMap (exec s0 (.scope (fun _ => scopedMap c2)
    [.set .bose (fun _ => c1), .scope (fun _ => []) [.get .fermi, .reset], .reset, .throw, .get .bose]))
      = some (s0.cur, false) := by decide

example : mapEq s0.heap s0.cur (scopedMap c2) = some false := by decide

/-! ### What goes wrong -/

/-- **C40 fails.**  A scope begun with the current contexts does not keep them: a change inside survives the scope. -/
theorem scope_equal_leaks :
    ∃ (σ σ' : State) (m : State → CtxMap) (body : List Stmt),
      exec σ (.scope m body) = .ok σ' ∧ inForce σ.cur .fermi ≠ inForce σ'.cur .fermi := by
  refine ⟨s0, ⟨[(.fermi, c2), (.arbitrary, c2)], heap0⟩, fun σ => σ.cur, [.set .fermi (fun _ => c2)], ?_, ?_⟩
  · rfl
  · decide

/-- A context that differs from the current one in the designated (vacuum, reference, ...) spaces only is not set: the comparison looks
only at the set of spaces, which copies of a registry share. -/
theorem scope_ignores_designations :
    ∃ (σ σ' : State) (c : Ctx), enter σ (scopedMap c) = some (σ', none) ∧
      (∃ p q, (inForce σ'.cur .fermi).reg = some p ∧ c.reg = some q ∧ (σ'.heap p).spec ≠ (σ'.heap q).spec) := by
  refine ⟨⟨scopedMap c0, heap0⟩, ⟨scopedMap c0, heap0⟩, c1, rfl, 0, 1, rfl, rfl, ?_⟩
  decide

/-- Comparing contexts without registries dereferences a null pointer, e.g. when the default context is made the scoped one after
`get_default_context()` has created it. -/
theorem scope_null_ub (h : Nat → Reg) :
    ∃ body, execAll ⟨[], h⟩ [.get .fermi, .scope (fun _ => scopedMap Ctx.default) body] = .ub :=
  ⟨[], rfl⟩

/-- The registry is shared, not copied: its changes inside the scope survive, even though the scope differs. -/
theorem scope_registry_leaks :
    ∃ (σ σ' : State) (m : State → CtxMap) (body : List Stmt),
      mapEq σ.heap σ.cur (m σ) = some false ∧ exec σ (.scope m body) = .ok σ' ∧ content σ .fermi ≠ content σ' .fermi := by
  refine ⟨s0, ⟨s0.cur, fun q => if q = 0 then ⟨7, 5⟩ else heap0 q⟩, fun _ => scopedMap { c0 with pre := 2 },
    [.mutate 0 (fun _ => ⟨7, 5⟩)], rfl, rfl, ?_⟩
  decide

/-! ## C49: scope guards -/

/-- Guards that would still act. -/
def pending (l : List Guard) : Nat := l.countP (fun g => g.alive && !g.released)

/-- How many guards a history makes or moves. -/
def made (l : List GuardOp) : Nat :=
  l.countP (fun o => match o with | .make => true | .move _ => true | _ => false)

/-- A history without moves. -/
def NoMove (l : List GuardOp) : Prop := ∀ o ∈ l, ∀ i, o ≠ .move i

theorem pending_set {l : List Guard} {i : Nat} {g : Guard} (g' : Guard) (h : l[i]? = some g) :
    pending (l.set i g') + (if g.alive && !g.released then 1 else 0)
      = pending l + (if g'.alive && !g'.released then 1 else 0) := by
  induction l generalizing i with
  | nil => simp at h
  | cons a l ih =>
    cases i with
    | zero =>
      simp only [List.getElem?_cons_zero, Option.some.injEq] at h
      subst h
      simp only [List.set_cons_zero, pending, List.countP_cons]
      omega
    | succ i =>
      simp only [List.getElem?_cons_succ] at h
      have := ih h
      simp only [List.set_cons_succ, pending, List.countP_cons] at *
      omega

theorem guardStep_bound (st : List Guard × Nat) (o : GuardOp) :
    (guardStep st o).2 + pending (guardStep st o).1 ≤ st.2 + pending st.1 + made [o] := by
  cases o with
  | make => simp [guardStep, pending, made]; omega
  | move i =>
    simp only [guardStep, pending, made, List.countP_append, List.countP_cons, List.countP_nil]
    split <;> simp <;> omega
  | release i =>
    simp only [guardStep]
    cases h : st.1[i]? with
    | none => simp
    | some g =>
      have := pending_set { g with released := true } h
      simp only [Bool.not_true, Bool.and_false, Bool.false_eq_true, if_false] at this
      simp only
      omega
  | destroy i =>
    simp only [guardStep]
    cases h : st.1[i]? with
    | none => simp
    | some g =>
      have := pending_set ⟨false, true⟩ h
      obtain ⟨a, r⟩ := g
      cases a <;> cases r <;> simp at this ⊢ <;> omega

/-- The action is called at most once for every guard made or moved. -/
theorem guard_bound (st : List Guard × Nat) (l : List GuardOp) :
    (guardRun st l).2 + pending (guardRun st l).1 ≤ st.2 + pending st.1 + made l := by
  induction l generalizing st with
  | nil => simp [guardRun, made]
  | cons o l ih =>
    have h1 := ih (guardStep st o)
    have h2 := guardStep_bound st o
    have h3 : made (o :: l) = made [o] + made l := by
      simp only [made, List.countP_cons, List.countP_nil]
      omega
    have h4 : guardRun st (o :: l) = guardRun (guardStep st o) l := rfl
    rw [h4, h3]
    omega

/-- **C49, partial.**  In histories without moves, one guard acts at most once. -/
theorem guard_once_partial (l : List GuardOp) (hm : NoMove l) (h1 : ∀ o ∈ l, o ≠ .make) :
    (guardRun ([], 0) (.make :: l)).2 ≤ 1 := by
  have h := guard_bound ([], 0) (.make :: l)
  have h2 : made (.make :: l) = 1 := by
    simp only [made, List.countP_cons, if_true]
    have : List.countP (fun o => match o with | GuardOp.make => true | .move _ => true | _ => false) l = 0 := by
      rw [List.countP_eq_zero]
      intro o ho
      cases o with
      | make => exact absurd rfl (h1 _ ho)
      | move i => exact absurd rfl (hm _ ho i)
      | release i => simp
      | destroy i => simp
    omega
  simp only [h2, pending, List.countP_nil] at h
  omega

/-- A dead guard stays as it is. -/
theorem guard_dead (n : Nat) (l : List GuardOp) (h : ∀ o ∈ l, o = .release 0 ∨ o = .destroy 0) :
    guardRun ([⟨false, true⟩], n) l = ([⟨false, true⟩], n) := by
  induction l with
  | nil => rfl
  | cons o l ih =>
    have : guardStep ([⟨false, true⟩], n) o = ([⟨false, true⟩], n) := by
      rcases h o (by simp) with rfl | rfl <;> rfl
    show guardRun (guardStep ([⟨false, true⟩], n) o) l = _
    rw [this]
    exact ih (fun o ho => h o (by simp [ho]))

/-- A released guard does not act. -/
theorem guard_released (n : Nat) (l : List GuardOp) (h : ∀ o ∈ l, o = .release 0 ∨ o = .destroy 0) :
    (guardRun ([⟨true, true⟩], n) l).2 = n := by
  induction l with
  | nil => rfl
  | cons o l ih =>
    rcases h o (by simp) with rfl | rfl
    · show (guardRun ([⟨true, true⟩], n) l).2 = n
      exact ih (fun o ho => h o (by simp [ho]))
    · show (guardRun ([⟨false, true⟩], n) l).2 = n
      rw [guard_dead n l (fun o ho => h o (by simp [ho]))]

/-- **C49, partial.**  A guard that is not moved acts exactly once, when destroyed, unless released before.  What is missing: guards that
are moved (`guard_move_twice`). -/
theorem guard_exact_partial (l : List GuardOp) (h : ∀ o ∈ l, o = .release 0 ∨ o = .destroy 0) :
    (guardRun ([], 0) (.make :: l)).2 = if l.head? = some (.destroy 0) then 1 else 0 := by
  cases l with
  | nil => rfl
  | cons o l =>
    have ht : ∀ o ∈ l, o = .release 0 ∨ o = .destroy 0 := fun o ho => h o (by simp [ho])
    rcases h o (by simp) with rfl | rfl
    · show (guardRun ([⟨true, true⟩], 0) l).2 = _
      rw [guard_released 0 l ht]
      simp
    · show (guardRun ([⟨false, true⟩], 1) l).2 = _
      rw [guard_dead 1 l ht]
      simp

/-- **C49 fails.**  The defaulted move constructor leaves the source armed: both guards act. -/
theorem guard_move_twice : (guardRun ([], 0) [.make, .move 0, .destroy 1, .destroy 0]).2 = 2 := by decide

/-- Releasing the new guard does not release the old one. -/
theorem guard_move_release : (guardRun ([], 0) [.make, .move 0, .release 1, .destroy 1, .destroy 0]).2 = 1 := by decide

example : (guardRun ([], 0) [.make, .release 0, .destroy 0]).2 = 0 := by decide
example : (guardRun ([], 0) [.make, .make, .release 0, .destroy 1, .destroy 0]).2 = 1 := by decide

end SeQuant.Contexts
