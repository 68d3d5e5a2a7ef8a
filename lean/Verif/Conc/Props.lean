import Verif.Conc.Model

/-!
# What shared counters and singletons guarantee (C129)
-/

namespace SeQuant.Conc

theorem upd_self {α : Type} (f : Nat → α) (t : Nat) (a : α) : upd f t a t = a := if_pos rfl
theorem upd_ne {α : Type} (f : Nat → α) (t u : Nat) (a : α) (h : u ≠ t) : upd f t a u = f u := if_neg h

/-! ## Counters -/

/-- The calls returned, one after the other, what their predecessors left. -/
def Chain (M v : Nat) : List (Nat × Nat) → Prop
  | [] => True
  | (x, _) :: l => x = (v + (l.map Prod.snd).sum) % M ∧ Chain M v l

theorem step_inv (M v : Nat) (s s' : St) (e : Ev) (h : step M s e = some s') (hi : s.mem = (v + (s.ret.map Prod.snd).sum) % M ∧ Chain M v s.ret) :
    s'.mem = (v + (s'.ret.map Prod.snd).sum) % M ∧ Chain M v s'.ret := by
  cases e with
  | load t inc =>
    simp only [step] at h
    split at h
    · injection h with h; subst h; exact hi
    · cases h
  | cas t sp =>
    simp only [step] at h
    split at h
    · cases h
    · rename_i x inc hp
      split at h
      · rename_i hc
        injection h with h
        subst h
        have e1 := hi.1
        rw [hc.1] at e1
        refine ⟨?_, e1, hi.2⟩
        simp only [List.map_cons, List.sum_cons]
        rw [e1, Nat.mod_add_mod]
        congr 1
        omega
      · injection h with h; subst h; exact hi

/-- **C129.** No increment is lost and every call returns the value that the calls before it left, for any number of threads and any interleaving. -/
theorem fetch_chain (M v : Nat) (hv : v < M) (es : List Ev) (s : St) (h : run M (start v) es = some s) :
    s.mem = (v + (s.ret.map Prod.snd).sum) % M ∧ Chain M v s.ret := by
  have key : ∀ (es : List Ev) (r : St), (r.mem = (v + (r.ret.map Prod.snd).sum) % M ∧ Chain M v r.ret) → run M r es = some s →
      s.mem = (v + (s.ret.map Prod.snd).sum) % M ∧ Chain M v s.ret := by
    intro es
    induction es with
    | nil => intro r hr h; injection h with h; subst h; exact hr
    | cons e es ih =>
      intro r hr h
      rw [run, Option.bind_eq_some_iff] at h
      obtain ⟨r', h1, h2⟩ := h
      exact ih r' (step_inv M v r r' e h1 hr) h2
  exact key es (start v) ⟨by simp [start, Nat.mod_eq_of_lt hv], trivial⟩ h

theorem chain_below (M v : Nat) (l : List (Nat × Nat)) (hc : Chain M v l) (hp : ∀ p ∈ l, 0 < p.2) (hs : v + (l.map Prod.snd).sum ≤ M) :
    (l.map Prod.fst).Nodup ∧ ∀ p ∈ l, p.1 < v + (l.map Prod.snd).sum := by
  induction l with
  | nil => exact ⟨List.nodup_nil, fun p hp => absurd hp List.not_mem_nil⟩
  | cons p l ih =>
    obtain ⟨x, i⟩ := p
    simp only [Chain] at hc
    simp only [List.map_cons, List.sum_cons] at hs ⊢
    have hi : 0 < i := hp (x, i) List.mem_cons_self
    obtain ⟨h1, h2⟩ := ih hc.2 (fun q hq => hp q (List.mem_cons_of_mem _ hq)) (by omega)
    have hx : x = v + (l.map Prod.snd).sum := by rw [hc.1]; exact Nat.mod_eq_of_lt (by omega)
    refine ⟨List.nodup_cons.2 ⟨?_, h1⟩, ?_⟩
    · intro hm
      obtain ⟨q, hq, he⟩ := List.mem_map.1 hm
      have := h2 q hq
      omega
    · intro q hq
      rcases List.mem_cons.1 hq with rfl | hq
      · show x < _
        omega
      · have := h2 q hq
        omega

/-- **C129, partial.** Returned values are unique among all threads as long as increments are positive and the counter has not wrapped around.  Missing:
counters that wrap around, for which it is wrong (`fetch_wrap`). -/
theorem fetch_unique_partial (M v : Nat) (hv : v < M) (es : List Ev) (s : St) (h : run M (start v) es = some s) (hp : ∀ p ∈ s.ret, 0 < p.2)
    (hs : v + (s.ret.map Prod.snd).sum ≤ M) : (s.ret.map Prod.fst).Nodup :=
  (chain_below M v s.ret (fetch_chain M v hv es s h).2 hp hs).1

/-- Two threads load the same value; the slower one has to try again. -/
def contended : List Ev := [.load 0 1, .load 1 2, .cas 1 false, .cas 0 false, .load 2 1, .cas 0 true, .cas 0 false, .cas 2 false, .cas 2 false]

example : (run 256 (start 7) contended).map (fun s => (s.mem, s.ret)) = some (11, [(10, 1), (9, 1), (7, 2)]) := by decide

/-- **C129.** Violated: with increment zero, or after wrapping around, values are returned again. -/
theorem fetch_wrap : (run 256 (start 0) [.load 0 0, .cas 0 false, .load 1 0, .cas 1 false]).map St.ret = some [(0, 0), (0, 0)] ∧
    (run 2 (start 0) [.load 0 1, .cas 0 false, .load 1 1, .cas 1 false, .load 2 1, .cas 2 false]).map St.ret = some [(0, 1), (1, 1), (0, 1)] := by decide

/-- **C129.** A failed attempt is only repeated because of others: if nobody interferes, the next exchange that does not fail spuriously succeeds. -/
theorem fetch_retry (M : Nat) (s s' : St) (t : Nat) (sp : Bool) (h : step M s (.cas t sp) = some s') (hf : s'.ret = s.ret) :
    ∃ inc s'', step M s' (.cas t false) = some s'' ∧ s''.ret = (s.mem, inc) :: s.ret := by
  simp only [step] at h
  split at h
  · cases h
  · rename_i v inc hp
    split at h
    · injection h with h
      subst h
      have := congrArg List.length hf
      simp at this
    · injection h with h
      subst h
      refine ⟨inc, ⟨(s.mem + inc) % M, upd (upd s.pc t (.loop s.mem inc)) t .out, (s.mem, inc) :: s.ret⟩, ?_, ?_⟩
      · simp only [step, upd_self]
        rw [if_pos ⟨trivial, trivial⟩]
      · rfl

example : ∃ s s', run 256 (start 7) (contended.take 3) = some s ∧ step 256 s (.cas 0 false) = some s' ∧ s'.ret = s.ret := by
  refine ⟨_, _, rfl, rfl, rfl⟩

/-! ## Singletons -/

/-- A thread is between the lock and its release. -/
def Inside (p : Spc) : Prop := p ≠ .out ∧ p ≠ .want

/-- Only the owner of the mutex is inside; whoever is about to construct knows that there is no instance; there is at most one. -/
structure Inv (s : Sing) : Prop where
  own : ∀ t, Inside (s.pc t) → s.lock = some t
  none_ : ∀ t, s.pc t = .making ∨ s.pc t = .setMaking → s.ptr = none
  one : s.ptr = none ∧ s.made = 0 ∧ s.ret = [] ∨ s.ptr = some 0 ∧ s.made = 1 ∧ ∀ p ∈ s.ret, p = 0

theorem inv_construct (s : Sing) (t : Nat) (h : Inv s) (hp : s.pc t = .making ∨ s.pc t = .setMaking) : Inv (construct s t) := by
  have hin : Inside (s.pc t) := by rcases hp with hp | hp <;> rw [hp] <;> exact ⟨by decide, by decide⟩
  have hl := h.own t hin
  have hn := h.none_ t hp
  have alone : ∀ u, ¬ Inside (upd s.pc t .out u) := by
    intro u hu
    by_cases e : u = t
    · rw [e, upd_self] at hu; exact hu.1 rfl
    · rw [upd_ne _ _ _ _ e] at hu
      have := h.own u hu
      rw [hl] at this
      injection this with this
      exact e this.symm
  refine ⟨fun u hu => absurd hu (alone u), fun u hu => absurd ?_ (alone u), .inr ?_⟩
  · rcases hu with hu | hu <;> (simp only [construct] at hu; rw [hu]; exact ⟨by decide, by decide⟩)
  · rcases h.one with ⟨-, h2, h3⟩ | ⟨h1, -⟩
    · simp [construct, h2, h3]
    · rw [hn] at h1; cases h1

theorem inv_move (s : Sing) (t : Nat) (h : Inv s) (q : Spc) (l : Option Nat) (r : List Nat)
    (h1 : Inside q → l = some t) (h2 : ∀ u, u ≠ t → Inside (s.pc u) → l = some u) (h3 : q = .making ∨ q = .setMaking → s.ptr = none)
    (h4 : s.ptr = none → r = s.ret) (h5 : ∀ p ∈ r, p ∈ s.ret ∨ s.ptr = some p) : Inv { s with lock := l, pc := upd s.pc t q, ret := r } := by
  refine ⟨?_, ?_, ?_⟩
  · intro u hu
    by_cases e : u = t
    · subst e; simp only [upd_self] at hu; exact h1 hu
    · simp only [upd_ne _ _ _ _ e] at hu; exact h2 u e hu
  · intro u hu
    by_cases e : u = t
    · subst e; simp only [upd_self] at hu; exact h3 hu
    · simp only [upd_ne _ _ _ _ e] at hu; exact h.none_ u hu
  · rcases h.one with ⟨a, b, c⟩ | ⟨a, b, c⟩
    · exact .inl ⟨a, b, by simp only [h4 a, c]⟩
    · refine .inr ⟨a, b, fun p hp => ?_⟩
      rcases h5 p hp with h6 | h6
      · exact c p h6
      · rw [a] at h6; injection h6 with h6; exact h6.symm

theorem others (s : Sing) (t : Nat) (h : Inv s) (ht : Inside (s.pc t)) (l : Option Nat) (u : Nat) (hu : u ≠ t) (hi : Inside (s.pc u)) : l = some u := by
  have a := h.own t ht
  rw [h.own u hi] at a
  injection a with a
  exact absurd a hu

theorem inv_step (s s' : Sing) (e : SEv) (h : Inv s) (hs : sstep s e = some s') : Inv s' := by
  have free : ∀ u, s.lock = none → ¬ Inside (s.pc u) := fun u hl hu => by have := h.own u hu; rw [hl] at this; cases this
  cases e with
  | read t =>
    simp only [sstep] at hs
    split at hs
    · split at hs
      · rename_i p hp
        injection hs with hs; subst hs
        refine ⟨h.own, h.none_, ?_⟩
        rcases h.one with ⟨a, -⟩ | ⟨a, b, c⟩
        · rw [hp] at a; cases a
        · refine .inr ⟨a, b, fun q hq => ?_⟩
          rcases List.mem_cons.1 hq with rfl | hq
          · rw [hp] at a; injection a
          · exact c q hq
      · rename_i hp
        injection hs with hs; subst hs
        exact inv_move s t h .want s.lock s.ret (fun hi => absurd rfl hi.2) (fun u _ hu => h.own u hu) (fun _ => hp) (fun _ => rfl) (fun _ hp => .inl hp)
    · cases hs
  | lock t =>
    simp only [sstep] at hs
    split at hs
    · rename_i hc
      injection hs with hs; subst hs
      exact inv_move s t h .locked (some t) s.ret (fun _ => rfl) (fun u _ hu => absurd hu (free u hc.2)) (fun hq => by rcases hq with hq | hq <;> cases hq)
        (fun _ => rfl) (fun _ hp => .inl hp)
    · cases hs
  | test t =>
    simp only [sstep] at hs
    split at hs
    · rename_i hc
      have ht : Inside (s.pc t) := by rw [hc]; exact ⟨by decide, by decide⟩
      split at hs
      · rename_i p hp
        injection hs with hs; subst hs
        refine inv_move s t h .out none (p :: s.ret) (fun hi => absurd rfl hi.1) (others s t h ht _) (fun hq => by rcases hq with hq | hq <;> cases hq)
          (fun hn => by rw [hp] at hn; cases hn) (fun q hq => ?_)
        rcases List.mem_cons.1 hq with rfl | hq
        · exact .inr hp
        · exact .inl hq
      · rename_i hp
        injection hs with hs; subst hs
        exact inv_move s t h .making s.lock s.ret (fun _ => h.own t ht) (others s t h ht _) (fun _ => hp) (fun _ => rfl) (fun _ hp => .inl hp)
    · cases hs
  | make t =>
    simp only [sstep] at hs
    split at hs
    · rename_i hc
      injection hs with hs; subst hs
      exact inv_construct s t h (.inl hc)
    · cases hs
  | setLock t =>
    simp only [sstep] at hs
    split at hs
    · rename_i hc
      injection hs with hs; subst hs
      exact inv_move s t h .setLocked (some t) s.ret (fun _ => rfl) (fun u _ hu => absurd hu (free u hc.2)) (fun hq => by rcases hq with hq | hq <;> cases hq)
        (fun _ => rfl) (fun _ hp => .inl hp)
    · cases hs
  | setTest t =>
    simp only [sstep] at hs
    split at hs
    · rename_i hc
      have ht : Inside (s.pc t) := by rw [hc]; exact ⟨by decide, by decide⟩
      split at hs
      · injection hs with hs; subst hs
        exact inv_move s t h .out none s.ret (fun hi => absurd rfl hi.1) (others s t h ht _) (fun hq => by rcases hq with hq | hq <;> cases hq)
          (fun _ => rfl) (fun _ hp => .inl hp)
      · rename_i hp
        injection hs with hs; subst hs
        exact inv_move s t h .setMaking s.lock s.ret (fun _ => h.own t ht) (others s t h ht _) (fun _ => hp) (fun _ => rfl) (fun _ hp => .inl hp)
    · cases hs
  | setMake t =>
    simp only [sstep] at hs
    split at hs
    · rename_i hc
      injection hs with hs; subst hs
      exact inv_construct s t h (.inr hc)
    · cases hs

theorem inv_run (es : List SEv) (s s' : Sing) (h : Inv s) (hr : srun s es = some s') : Inv s' := by
  induction es generalizing s with
  | nil => injection hr with hr; subst hr; exact h
  | cons e es ih =>
    rw [srun, Option.bind_eq_some_iff] at hr
    obtain ⟨r, h1, h2⟩ := hr
    exact ih r (inv_step s r e h h1) h2

theorem inv_fresh : Inv fresh := ⟨fun _ h => absurd rfl h.1, fun _ h => (by rcases h with h | h <;> cases h), .inl ⟨rfl, rfl, rfl⟩⟩

/-- **C129.** If memory is sequentially consistent, at most one instance is ever constructed, and all calls of all threads return it. -/
theorem single (es : List SEv) (s : Sing) (h : srun fresh es = some s) : s.made ≤ 1 ∧ ∀ p ∈ s.ret, s.ptr = some p := by
  rcases (inv_run es fresh s inv_fresh h).one with ⟨-, b, c⟩ | ⟨a, b, c⟩
  · exact ⟨by omega, fun p hp => by rw [c] at hp; cases hp⟩
  · exact ⟨by omega, fun p hp => by rw [a, c p hp]⟩

/-- Two threads see no instance; a third one sets it before they get the mutex. -/
def crowd : List SEv := [.read 0, .read 1, .setLock 2, .setTest 2, .setMake 2, .lock 1, .test 1, .read 3, .lock 0, .test 0, .setLock 1, .setTest 1]

example : (srun fresh crowd).map (fun s => (s.ptr, s.made, s.lock, s.ret)) = some (some 0, 1, none, [0, 0, 0, 0]) := by decide

/-- **C129.** Two threads that both saw no instance construct one. -/
theorem slow_path : (srun fresh [.read 0, .read 1, .lock 0, .test 0, .make 0, .lock 1, .test 1]).map (fun s => (s.made, s.ret)) = some (1, [0, 0]) ∧
    srun fresh [.read 0, .read 1, .lock 0, .lock 1] = none := ⟨by decide, rfl⟩

/-- **C129.** An instance stays: once there is one, no step changes the pointer. -/
theorem settled (es es' : List SEv) (s s' : Sing) (p : Nat) (h : srun fresh es = some s) (hp : s.ptr = some p) (h' : srun s es' = some s') : s'.ptr = some p := by
  have hi := inv_run es fresh s inv_fresh h
  clear h
  induction es' generalizing s with
  | nil => injection h' with h'; subst h'; exact hp
  | cons e es' ih =>
    rw [srun, Option.bind_eq_some_iff] at h'
    obtain ⟨r, h1, h2⟩ := h'
    have hr := inv_step s r e hi h1
    refine ih r ?_ h2 hr
    have keep : ∀ t, ¬ (s.pc t = .making ∨ s.pc t = .setMaking) := fun t ht => by have := hi.none_ t ht; rw [hp] at this; cases this
    cases e <;> simp only [sstep, hp] at h1 <;> split at h1 <;> first
      | cases h1; done
      | (rename_i hc; exact absurd (.inl hc) (keep _))
      | (rename_i hc; exact absurd (.inr hc) (keep _))
      | (injection h1 with h1; subst h1; rfl)

/-- A thread reads the pointer without holding the mutex while another one is about to write it: a data race, as the pointer is no atomic. -/
def Race (s : Sing) : Prop := ∃ t u, t ≠ u ∧ (sstep s (.read t)).isSome ∧ s.lock ≠ some t ∧ ((sstep s (.make u)).isSome ∨ (sstep s (.setMake u)).isSome)

/-- **C129.** Violated: two first calls of `instance` in different threads, or one together with `set_instance`, are a data race, so that the behaviour of the
program is undefined. -/
theorem singleton_race : (∃ s, srun fresh [.read 0, .lock 0, .test 0] = some s ∧ Race s) ∧ ∃ s, srun fresh [.setLock 0, .setTest 0] = some s ∧ Race s := by
  refine ⟨⟨_, rfl, 1, 0, by decide, rfl, by decide, .inl rfl⟩, ⟨_, rfl, 1, 0, by decide, rfl, by decide, .inr rfl⟩⟩

/-- **C129.** There is no race once there is an instance. -/
theorem no_race_later (es : List SEv) (s : Sing) (p : Nat) (h : srun fresh es = some s) (hp : s.ptr = some p) : ¬ Race s := by
  have hi := inv_run es fresh s inv_fresh h
  rintro ⟨t, u, -, -, -, h1 | h1⟩
  · simp only [sstep] at h1
    split at h1
    · rename_i hc; have := hi.none_ u (.inl hc); rw [hp] at this; cases this
    · cases h1
  · simp only [sstep] at h1
    split at h1
    · rename_i hc; have := hi.none_ u (.inr hc); rw [hp] at this; cases this
    · cases h1

example : ∃ s, srun fresh (crowd.take 5) = some s ∧ s.ptr = some 0 ∧ ¬ Race s :=
  ⟨_, rfl, rfl, no_race_later (crowd.take 5) _ 0 rfl rfl⟩

end SeQuant.Conc
