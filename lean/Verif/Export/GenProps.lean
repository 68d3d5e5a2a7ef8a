/-
Properties of the peephole optimizer for generated code (C34).
-/
import Verif.Export.GenModel

namespace SeQuant.Export

variable {α ε : Type} [DecidableEq α] {V : Type} [DecidableEq V]

/-! ### Runs -/

theorem run_append (S : Sem α ε V) (b : Bool) (p q : List (Op α ε)) (s : α → Cell V) :
    run S b (p ++ q) s = (run S b p s).bind (run S b q) := by
  induction p generalizing s with
  | nil => rfl
  | cons a p ih =>
    simp only [List.cons_append, run]
    cases step S b a s with
    | none => rfl
    | some t => simp [ih]

/-- `p` may be replaced by `q` in strict runs. -/
def Refines (S : Sem α ε V) (p q : List (Op α ε)) : Prop :=
  ∀ s s', run S true p s = some s' → run S true q s = some s'

theorem Refines.refl (S : Sem α ε V) (p : List (Op α ε)) : Refines S p p := fun _ _ h => h

theorem Refines.trans {S : Sem α ε V} {p q r : List (Op α ε)} (h₁ : Refines S p q)
    (h₂ : Refines S q r) : Refines S p r := fun s s' h => h₂ s s' (h₁ s s' h)

theorem Refines.append {S : Sem α ε V} {p q p' q' : List (Op α ε)} (h₁ : Refines S p p')
    (h₂ : Refines S q q') : Refines S (p ++ q) (p' ++ q') := by
  intro s s' h
  rw [run_append] at h ⊢
  cases hp : run S true p s with
  | none => rw [hp] at h; cases h
  | some t =>
    rw [hp] at h
    rw [h₁ s t hp]
    exact h₂ t s' h

/-- A run with the strict rule is a run in the ordinary sense. -/
theorem run_strict (S : Sem α ε V) (p : List (Op α ε)) (s s' : α → Cell V)
    (h : run S true p s = some s') : run S false p s = some s' := by
  induction p generalizing s with
  | nil => exact h
  | cons a p ih =>
    simp only [run] at h ⊢
    cases hs : step S true a s with
    | none => rw [hs] at h; cases h
    | some t =>
      rw [hs] at h
      have : step S false a s = some t := by
        cases a <;> simp only [step] at hs ⊢ <;> try exact hs
        case load o =>
          have e : ∀ c c' : Cell V, cellStep S true (.load o) c = some c' →
              cellStep S false (.load o) c = some c' := by
            intro c c' h
            simp only [cellStep] at h ⊢
            split at h
            · cases h
            · rename_i hn
              rw [if_neg (fun h' => hn (h'.imp_right (Or.imp_right (by simp))))]
              exact h
          cases h1 : cellStep S true (.load o) (s (Op.load o : Op α ε).obj) with
          | none => rw [h1] at hs; cases hs
          | some c' => rw [h1] at hs; rw [e _ _ h1]; exact hs
      rw [this]
      exact ih t h

/-! ### Locality -/

theorem step_local (S : Sem α ε V) (b : Bool) (a : Op α ε) (s : α → Cell V)
    (ha : a.action ≠ .none) :
    step S b a s = (cellStep S b a (s a.obj)).map (Function.update s a.obj) := by
  cases a <;> first | rfl | exact absurd rfl ha

theorem update_comm' {β : Type} (s : α → β) {x y : α} (h : x ≠ y) (u v : β) :
    Function.update (Function.update s x u) y v =
      Function.update (Function.update s y v) x u := by
  funext z
  simp only [Function.update_apply]
  by_cases h1 : z = y
  · subst h1
    simp [Ne.symm h]
  · simp [h1]

theorem step_comm (S : Sem α ε V) (b : Bool) (x y : Op α ε) (s : α → Cell V)
    (hx : x.action ≠ .none) (hy : y.action ≠ .none) (h : x.obj ≠ y.obj) :
    (step S b x s).bind (step S b y) = (step S b y s).bind (step S b x) := by
  rw [step_local S b x s hx, step_local S b y s hy]
  cases h1 : cellStep S b x (s x.obj) with
  | none =>
    cases h2 : cellStep S b y (s y.obj) with
    | none => rfl
    | some v =>
      simp only [Option.map_none, Option.map_some, Option.bind_none, Option.bind_some]
      rw [step_local S b x _ hx, Function.update_of_ne h, h1]
      rfl
  | some u =>
    cases h2 : cellStep S b y (s y.obj) with
    | none =>
      simp only [Option.map_none, Option.map_some, Option.bind_none, Option.bind_some]
      rw [step_local S b y _ hy, Function.update_of_ne h.symm, h2]
      rfl
    | some v =>
      simp only [Option.map_some, Option.bind_some]
      rw [step_local S b y _ hy, step_local S b x _ hx, Function.update_of_ne h.symm,
        Function.update_of_ne h, h1, h2]
      simp only [Option.map_some]
      rw [update_comm' s h]

theorem refines_swap (S : Sem α ε V) (x y : Op α ε) (hx : x.action ≠ .none)
    (hy : y.action ≠ .none) (h : x.obj ≠ y.obj) : Refines S [x, y] [y, x] := by
  intro s s' hr
  have e : ∀ u v : Op α ε, run S true [u, v] s = (step S true u s).bind (step S true v) := by
    intro u v
    simp only [run]
    cases step S true u s with
    | none => rfl
    | some t => simp
  rw [e] at hr ⊢
  rw [← step_comm S true x y s hx hy h]
  exact hr

/-! ### Cancellation -/

omit [DecidableEq α] in
theorem cell_load_unload (S : Sem α ε V) (o : α) (c c₁ c₂ : Cell V)
    (h₁ : cellStep S true (.load o) c = some c₁) (h₂ : cellStep S true (.unload o) c₁ = some c₂) :
    c₂ = c := by
  obtain ⟨m, st, l⟩ := c
  simp only [cellStep] at h₁
  split at h₁
  · cases h₁
  · rename_i hn
    push Not at hn
    obtain ⟨hm, hs, hl⟩ := hn
    cases h₁
    simp only [cellStep] at h₂
    split at h₂
    · cases h₂
      cases m with
      | none => simp
      | some _ => simp at hm
    · cases h₂

omit [DecidableEq α] in
theorem cell_unload_load (S : Sem α ε V) (o : α) (c c₁ c₂ : Cell V)
    (h₁ : cellStep S true (.unload o) c = some c₁) (h₂ : cellStep S true (.load o) c₁ = some c₂) :
    c₂ = c := by
  obtain ⟨m, st, l⟩ := c
  simp only [cellStep] at h₁
  split at h₁
  · cases h₁
    simp only [cellStep] at h₂
    split at h₂
    · cases h₂
    · rename_i hn
      cases h₂
      cases l <;> simp_all
  · cases h₁

theorem refines_cancel (S : Sem α ε V) (x y : Op α ε) (h : x.cancels y = true) :
    Refines S [x, y] [] := by
  intro s s' hr
  have key : x.action ≠ .none ∧ y.action ≠ .none ∧ y.obj = x.obj ∧
      ∀ c c₁ c₂, cellStep S true x c = some c₁ → cellStep S true y c₁ = some c₂ → c₂ = c := by
    cases x <;> cases y <;> simp only [Op.cancels, decide_eq_true_eq] at h <;>
      first
        | exact absurd h (by decide)
        | (subst h
           exact ⟨by simp [Op.action], by simp [Op.action], rfl,
            fun c c₁ c₂ => cell_load_unload S _ c c₁ c₂⟩)
        | (subst h
           exact ⟨by simp [Op.action], by simp [Op.action], rfl,
            fun c c₁ c₂ => cell_unload_load S _ c c₁ c₂⟩)
  obtain ⟨hx, hy, ho, hc⟩ := key
  simp only [run, step_local S true x s hx] at hr
  cases h1 : cellStep S true x (s x.obj) with
  | none => rw [h1] at hr; cases hr
  | some c₁ =>
    rw [h1] at hr
    simp only [Option.map_some, Option.bind_some] at hr
    rw [step_local S true y _ hy, ho, Function.update_self] at hr
    cases h2 : cellStep S true y c₁ with
    | none => rw [h2] at hr; cases hr
    | some c₂ =>
      rw [h2] at hr
      simp only [Option.map_some, Option.bind_some, Option.some.injEq] at hr
      rw [← hr, hc _ _ _ h1 h2]
      simp [run]

theorem firstCancel_spec (q q' : List (Op α ε)) (h : firstCancel q = some q') :
    ∃ l₁ x y l₂, q = l₁ ++ x :: y :: l₂ ∧ q' = l₁ ++ l₂ ∧ x.cancels y = true ∧
      ∀ k, ∀ (hk : k + 1 < q.length), k < l₁.length → (q[k].cancels q[k + 1]) = false := by
  induction q generalizing q' with
  | nil => simp [firstCancel] at h
  | cons a q ih =>
    cases q with
    | nil => simp [firstCancel] at h
    | cons b q =>
      simp only [firstCancel] at h
      split at h
      · rename_i hc
        cases h
        exact ⟨[], a, b, q', rfl, rfl, hc, fun k _ hk => absurd hk (by simp)⟩
      · rename_i hc
        simp only [Option.map_eq_some_iff] at h
        obtain ⟨q₁, h1, rfl⟩ := h
        obtain ⟨l₁, x, y, l₂, e1, e2, e3, e4⟩ := ih q₁ h1
        refine ⟨a :: l₁, x, y, l₂, by rw [e1]; rfl, by rw [e2]; rfl, e3, ?_⟩
        intro k hk hkl
        cases k with
        | zero => simpa using hc
        | succ k => exact e4 k (by simpa using hk) (by simpa using hkl)

theorem firstCancel_none (q : List (Op α ε)) (h : firstCancel q = none) :
    ∀ k, ∀ (hk : k + 1 < q.length), (q[k].cancels q[k + 1]) = false := by
  induction q with
  | nil => intro k hk; simp at hk
  | cons a q ih =>
    cases q with
    | nil => intro k hk; simp at hk
    | cons b q =>
      simp only [firstCancel] at h
      split at h
      · cases h
      · rename_i hc
        simp only [Option.map_eq_none_iff] at h
        intro k hk
        cases k with
        | zero => simpa using hc
        | succ k => exact ih h k (by simpa using hk)

theorem firstCancel_length (q q' : List (Op α ε)) (h : firstCancel q = some q') :
    q'.length + 2 = q.length := by
  obtain ⟨l₁, x, y, l₂, rfl, rfl, -, -⟩ := firstCancel_spec q q' h
  simp; omega

theorem cancelFuel_eq (n m : Nat) (q : List (Op α ε)) (hn : q.length ≤ n) (hm : q.length ≤ m) :
    cancelFuel n q = cancelFuel m q := by
  induction n generalizing m q with
  | zero =>
    have : q = [] := List.length_eq_zero_iff.1 (by omega)
    subst this
    cases m <;> rfl
  | succ n ih =>
    cases q with
    | nil => cases m <;> rfl
    | cons a q =>
      cases m with
      | zero => simp at hm
      | succ m =>
        simp only [cancelFuel]
        cases h : firstCancel (a :: q) with
        | none => rfl
        | some q' =>
          have := firstCancel_length _ _ h
          exact ih m q' (by omega) (by omega)

/-- The loop as it is written: stop at a queue without neighbours which cancel,
fail at an empty one. -/
theorem cancelLoop_eq (q : List (Op α ε)) :
    cancelLoop q = if q = [] then none else
      match firstCancel q with
      | none => some q
      | some q' => cancelLoop q' := by
  cases q with
  | nil => rfl
  | cons a q =>
    rw [if_neg (by simp), cancelLoop]
    simp only [List.length_cons, cancelFuel]
    cases h : firstCancel (a :: q) with
    | none => rfl
    | some q' =>
      have := firstCancel_length _ _ h
      exact cancelFuel_eq _ _ _ (by simp at this; omega) (Nat.le_refl _)

/-- What the cancellations do. -/
theorem cancelLoop_spec (P : List (Op α ε) → List (Op α ε) → Prop)
    (hrefl : ∀ q, P q q) (htrans : ∀ p q r, P p q → P q r → P p r)
    (hc : ∀ l₁ x y l₂, x.cancels y = true → P (l₁ ++ x :: y :: l₂) (l₁ ++ l₂)) :
    ∀ (q : List (Op α ε)) (q' : List (Op α ε)), cancelLoop q = some q' → P q q' := by
  intro q
  induction hn : q.length using Nat.strongRecOn generalizing q with
  | ind n ih =>
    intro q' h
    rw [cancelLoop_eq] at h
    split at h
    · cases h
    · split at h
      · cases h; exact hrefl _
      · rename_i q₁ h1
        have hl := firstCancel_length _ _ h1
        refine htrans _ _ _ ?_ (ih q₁.length (by omega) q₁ rfl q' h)
        obtain ⟨l₁, x, y, l₂, rfl, rfl, hxy, -⟩ := firstCancel_spec _ _ h1
        exact hc _ _ _ _ hxy

theorem cancelLoop_refines (S : Sem α ε V) (q q' : List (Op α ε))
    (h : cancelLoop q = some q') : Refines S q q' := by
  refine cancelLoop_spec (Refines S) (Refines.refl S) (fun _ _ _ => Refines.trans) ?_ q q' h
  intro l₁ x y l₂ hxy
  refine Refines.append (Refines.refl S l₁) ?_
  exact Refines.append (p := [x, y]) (p' := []) (refines_cancel S x y hxy) (Refines.refl S l₂)

theorem cancelLoop_sublist (q q' : List (Op α ε)) (h : cancelLoop q = some q') :
    q'.Sublist q := by
  refine cancelLoop_spec (fun a b => b.Sublist a) (fun _ => List.Sublist.refl _)
    (fun _ _ _ h1 h2 => h2.trans h1) ?_ q q' h
  intro l₁ x y l₂ _
  exact List.Sublist.append (List.Sublist.refl _)
    (List.Sublist.cons _ (List.Sublist.cons _ (List.Sublist.refl _)))

/-! ### The second stage -/

theorem pairsWith_obj {a b : Op α ε} (h : a.pairsWith b = true) : a.obj = b.obj := by
  simp only [Op.pairsWith] at h
  split at h
  · assumption
  · cases h

theorem pairsWith_dealloc {a b : Op α ε} (h : a.pairsWith b = true)
    (ha : a.action = .dealloc) : b.action = .alloc := by
  simp only [Op.pairsWith] at h
  split at h
  · rw [ha] at h; simpa using h
  · cases h

theorem pairsWith_dealloc_right {a b : Op α ε} (h : a.pairsWith b = true)
    (hb : b.action = .dealloc) : a.action = .alloc := by
  simp only [Op.pairsWith] at h
  split at h
  · cases ha : a.action <;> rw [ha, hb] at h <;> simp at h ⊢
  · cases h

theorem findUnpaired_lt (l st : List (Op α ε)) (n m : Nat) (h : findUnpaired l st n = some m) :
    n ≤ m ∧ m < n + l.length := by
  induction l generalizing st n with
  | nil => simp [findUnpaired] at h
  | cons a l ih =>
    simp only [findUnpaired] at h
    simp only [List.length_cons]
    split at h
    · have := ih _ _ h; omega
    · have := ih _ _ h; omega
    · split at h
      · split at h
        · have := ih _ _ h; omega
        · cases h; omega
      · cases h; omega

theorem unpairedBefore_lt (c : List (Op α ε)) (i j : Nat) (h : unpairedBefore c i = some j) :
    j < i := by
  simp only [unpairedBefore, Option.map_eq_some_iff] at h
  obtain ⟨n, hn, e⟩ := h
  have := findUnpaired_lt _ _ _ _ hn
  simp at this
  omega

/-- What the body of the loop does when it succeeds with active assertions. -/
theorem optimizePair_spec (c c' : List (Op α ε)) (f s : Nat) (b : Bool)
    (h : optimizePair true c f s = some (c', b)) :
    (c' = c ∧ b = false) ∨
    (b = true ∧ ∃ l₁ iop fop l₂ first inter second l₃,
      c = l₁ ++ iop :: fop :: (l₂ ++ first :: inter :: second :: l₃) ∧
      c' = l₁ ++ fop :: iop :: (l₂ ++ inter :: l₃) ∧
      first.action = .dealloc ∧ inter.action = .dealloc ∧ second.action = .alloc ∧
      first.obj = second.obj ∧ fop.action = .alloc ∧ iop.action = .alloc ∧
      fop.obj = first.obj ∧ iop.obj = inter.obj) := by
  unfold optimizePair at h
  split at h
  rotate_left
  · cases h
  rename_i first second hf hs
  simp only [Bool.true_and, Bool.not_eq_true', decide_eq_false_iff_not] at h
  split at h
  · cases h
  rename_i hfs
  split at h
  · cases h
  rename_i hp
  split at h
  · cases h; exact .inl ⟨rfl, rfl⟩
  rename_i hle
  split at h
  · cases h
  rename_i inter hi
  split at h
  · cases h; exact .inl ⟨rfl, rfl⟩
  · cases h; exact .inl ⟨rfl, rfl⟩
  rename_i hia
  split at h
  · cases h
  rename_i hfa
  split at h
  · cases h
  rename_i fa hfae
  split at h
  · cases h
  rename_i fop hfop
  split at h
  · cases h
  rename_i hfp
  split at h
  · cases h
  rename_i ia hiae
  split at h
  · cases h
  rename_i iop hiop
  split at h
  · cases h
  rename_i hip
  split at h
  rotate_left
  · cases h; exact .inl ⟨rfl, rfl⟩
  rename_i hd
  simp only [Bool.not_eq_false, not_not] at hp hfp hip hfa hfs
  cases h
  have l1 := unpairedBefore_lt _ _ _ hfae
  have l2 := unpairedBefore_lt _ _ _ hiae
  have hsa : second.action = .alloc := pairsWith_dealloc hp hfa
  have hs2 : s = f + 2 := by
    have : s = f + 1 ∨ s = f + 2 := by omega
    rcases this with e | e
    · subst e
      rw [hs] at hi
      cases hi
      rw [hsa] at hia
      cases hia
    · exact e
  have hfa1 : fa = ia + 1 := by omega
  subst hs2 hfa1
  refine .inr ⟨rfl, ?_⟩
  have hlen : f + 2 < c.length := (List.getElem?_eq_some_iff.1 hs).1
  have e1 : c = c.take ia ++ iop :: fop :: ((c.drop (ia + 2)).take (f - (ia + 2)) ++
      first :: inter :: second :: c.drop (f + 3)) := by
    obtain ⟨_, g1⟩ := List.getElem?_eq_some_iff.1 hiop
    obtain ⟨_, g2⟩ := List.getElem?_eq_some_iff.1 hfop
    obtain ⟨_, g3⟩ := List.getElem?_eq_some_iff.1 hf
    obtain ⟨_, g4⟩ := List.getElem?_eq_some_iff.1 hi
    obtain ⟨_, g5⟩ := List.getElem?_eq_some_iff.1 hs
    rw [← g1, ← g2, ← g3, ← g4, ← g5, List.getElem_cons_drop, List.getElem_cons_drop,
      List.getElem_cons_drop]
    have : c.drop f = (c.drop (ia + 2)).drop (f - (ia + 2)) := by
      rw [List.drop_drop]; congr 1; omega
    rw [this, List.take_append_drop, List.getElem_cons_drop, List.getElem_cons_drop,
      List.take_append_drop]
  have hl1 : (c.take ia).length = ia := by simp; omega
  have hl2 : ((c.drop (ia + 2)).take (f - (ia + 2))).length = f - (ia + 2) := by
    simp; omega
  generalize c.take ia = A at e1 hl1
  generalize (c.drop (ia + 2)).take (f - (ia + 2)) = B at e1 hl2
  generalize c.drop (f + 3) = C at e1
  refine ⟨A, iop, fop, B, first, inter, second, C, e1, ?_, hfa, hia, hsa, pairsWith_obj hp,
    pairsWith_dealloc_right hfp hfa, pairsWith_dealloc_right hip hia, pairsWith_obj hfp,
    pairsWith_obj hip⟩
  simp only [swapAt, hiop, hfop]
  subst e1
  have hf' : f = A.length + (2 + B.length) := by omega
  subst hl1 hf'
  have sw : ((A ++ iop :: fop :: (B ++ first :: inter :: second :: C)).set A.length fop).set
      (A.length + 1) iop = A ++ fop :: iop :: (B ++ first :: inter :: second :: C) := by
    simp
  rw [sw, List.eraseIdx_append_of_length_le (by omega), List.eraseIdx_append_of_length_le (by omega)]
  have n1 : A.length + (2 + B.length) + 2 - A.length = B.length + 2 + 2 := by omega
  have n2 : A.length + (2 + B.length) - A.length = B.length + 2 := by omega
  rw [n1, n2]
  simp only [List.eraseIdx_cons_succ]
  rw [List.eraseIdx_append_of_length_le (by omega), List.eraseIdx_append_of_length_le (by omega)]
  simp

omit [DecidableEq α] in
theorem dealloc_mem (S : Sem α ε V) (a : Op α ε) (c c' : Cell V) (ha : a.action = .dealloc)
    (h : cellStep S true a c = some c') : c.mem.isSome ∧ c'.mem = none := by
  cases a <;> simp only [Op.action, reduceCtorEq] at ha <;> simp only [cellStep] at h <;>
    split at h <;> simp_all <;> subst h <;> rfl

theorem dealloc_twice (S : Sem α ε V) (a b : Op α ε) (s s' : α → Cell V)
    (ha : a.action = .dealloc) (hb : b.action = .dealloc) (l : List (Op α ε))
    (h : run S true (a :: b :: l) s = some s') : a.obj ≠ b.obj := by
  intro e
  simp only [run] at h
  rw [step_local S true a s (by rw [ha]; decide)] at h
  cases h1 : cellStep S true a (s a.obj) with
  | none => rw [h1] at h; cases h
  | some c₁ =>
    rw [h1] at h
    simp only [Option.map_some, Option.bind_some] at h
    rw [step_local S true b _ (by rw [hb]; decide), ← e, Function.update_self] at h
    cases h2 : cellStep S true b c₁ with
    | none => rw [h2] at h; cases h
    | some c₂ =>
      have := dealloc_mem S b _ _ hb h2
      rw [(dealloc_mem S a _ _ ha h1).2] at this
      simp at this

omit [DecidableEq α] in
/-- `OnlyReload` survives one step of the second stage. -/
theorem onlyReload_step (l₁ l₂ l₃ : List (Op α ε)) (x y a b z : Op α ε)
    (hx : x.action = .alloc) (hy : y.action = .alloc)
    (h : OnlyReload (l₁ ++ x :: y :: (l₂ ++ a :: b :: z :: l₃))) :
    OnlyReload (l₁ ++ y :: x :: (l₂ ++ b :: l₃)) := by
  have h1 : OnlyReload (l₁ ++ x :: y :: (l₂ ++ b :: l₃)) := by
    refine List.Pairwise.sublist ?_ h
    refine List.Sublist.append (List.Sublist.refl _) ?_
    refine List.Sublist.cons_cons _ (List.Sublist.cons_cons _ ?_)
    refine List.Sublist.append (List.Sublist.refl _) ?_
    exact List.Sublist.cons _ (List.Sublist.cons_cons _ (List.Sublist.cons _ (List.Sublist.refl _)))
  unfold OnlyReload at h1 ⊢
  rw [List.pairwise_append] at h1 ⊢
  obtain ⟨p1, p2, p3⟩ := h1
  rw [List.pairwise_cons, List.pairwise_cons] at p2
  obtain ⟨q1, q2, q3⟩ := p2
  refine ⟨p1, ?_, ?_⟩
  · rw [List.pairwise_cons, List.pairwise_cons]
    refine ⟨?_, ?_, q3⟩
    · intro w hw
      rcases List.mem_cons.1 hw with rfl | hw
      · intro _ h2; rw [hy] at h2; cases h2
      · exact q2 w hw
    · intro w hw
      exact q1 w (List.mem_cons_of_mem _ hw)
  · intro u hu w hw
    refine p3 u hu w ?_
    simp only [List.mem_cons] at hw ⊢
    rcases hw with h | h | h
    · exact .inr (.inl h)
    · exact .inl h
    · exact .inr (.inr h)

theorem optimizePair_refines (S : Sem α ε V) (c c' : List (Op α ε)) (f s : Nat) (b : Bool)
    (ho : OnlyReload c) (h : optimizePair true c f s = some (c', b)) :
    Refines S c c' ∧ OnlyReload c' := by
  rcases optimizePair_spec c c' f s b h with ⟨rfl, -⟩ | ⟨-, l₁, iop, fop, l₂, first, inter, second,
    l₃, rfl, rfl, h1, h2, h3, h4, h5, h6, h7, h8⟩
  · exact ⟨Refines.refl S _, ho⟩
  · refine ⟨?_, onlyReload_step _ _ _ _ _ _ _ _ h6 h5 ho⟩
    -- the pair is an unload and a load
    have hpair : first = .unload first.obj ∧ second = .load second.obj := by
      have h9 := (List.pairwise_append.1 ho).2.1
      rw [List.pairwise_cons, List.pairwise_cons] at h9
      have h10 := (List.pairwise_append.1 h9.2.2).2.1
      rw [List.pairwise_cons] at h10
      exact h10.1 second (by simp) h4 h1 h3
    intro s s' hr
    -- the objects differ
    have hne : first.obj ≠ inter.obj := by
      have e : l₁ ++ iop :: fop :: (l₂ ++ first :: inter :: second :: l₃) =
          (l₁ ++ iop :: fop :: l₂) ++ first :: inter :: (second :: l₃) := by simp
      rw [e, run_append] at hr
      cases h11 : run S true (l₁ ++ iop :: fop :: l₂) s with
      | none => rw [h11] at hr; cases hr
      | some t =>
        rw [h11] at hr
        exact dealloc_twice S first inter t s' h1 h2 _ hr
    have r1 : Refines S [iop, fop] [fop, iop] :=
      refines_swap S iop fop (by rw [h6]; decide) (by rw [h5]; decide)
        (by rw [h7, h8]; exact hne.symm)
    have r2 : Refines S [first, inter, second] [inter] := by
      refine Refines.trans (q := [inter, first, second]) ?_ ?_
      · exact Refines.append (p := [first, inter]) (p' := [inter, first]) (q := [second])
          (refines_swap S first inter (by rw [h1]; decide) (by rw [h2]; decide) hne)
          (Refines.refl S _)
      · refine Refines.append (p := [inter]) (p' := [inter]) (q := [first, second]) (q' := [])
          (Refines.refl S _) (refines_cancel S _ _ ?_)
        rw [hpair.1, hpair.2, ← h4]
        simp [Op.cancels]
    have r : Refines S (l₁ ++ ([iop, fop] ++ (l₂ ++ ([first, inter, second] ++ l₃))))
        (l₁ ++ ([fop, iop] ++ (l₂ ++ ([inter] ++ l₃)))) :=
      Refines.append (Refines.refl S _) (Refines.append r1 (Refines.append (Refines.refl S _)
        (Refines.append r2 (Refines.refl S _))))
    exact r s s' hr

theorem optimizeLoop_refines (S : Sem α ε V) (ps : List (Nat × Nat)) (n : Nat)
    (c c' : List (Op α ε)) (ho : OnlyReload c) (h : optimizeLoop true ps n c = some c') :
    Refines S c c' := by
  induction ps generalizing n c with
  | nil => simp only [optimizeLoop, Option.some.injEq] at h; subst h; exact Refines.refl S _
  | cons p ps ih =>
    obtain ⟨f, s⟩ := p
    simp only [optimizeLoop] at h
    split at h
    · cases h
    · split at h
      · cases h
      · rename_i c₁ hc
        have := optimizePair_refines S _ _ _ _ _ ho hc
        exact this.1.trans (ih _ _ this.2 h)
      · rename_i c₁ hc
        have := optimizePair_refines S _ _ _ _ _ ho hc
        exact this.1.trans (ih _ _ this.2 h)

theorem processCache_refines (S : Sem α ε V) (ps : List (Nat × Nat))
    (c c' : List (Op α ε)) (ho : OnlyReload c) (h : processCache true c ps = some c') :
    Refines S c c' := by
  unfold processCache at h
  split at h
  · exact optimizeLoop_refines S _ _ _ _ ho h
  · split at h
    · cases h
    · exact optimizeLoop_refines S _ _ _ _ ho h

theorem genLoop_refines (S : Sem α ε V) (p queue cache : List (Op α ε)) (ps : List (Nat × Nat))
    (c' : List (Op α ε)) (ho : OnlyReload (cache ++ (queue ++ p)))
    (h : genLoop true p queue cache ps = some c') :
    Refines S (cache ++ (queue ++ p)) c' := by
  have key : ∀ (queue cache : List (Op α ε)) ps c ps' (rest : List (Op α ε)),
      OnlyReload (cache ++ (queue ++ rest)) →
      processQueue true queue cache ps = some (c, ps') →
      OnlyReload (c ++ rest) ∧ Refines S (cache ++ (queue ++ rest)) (c ++ rest) := by
    intro queue cache ps c ps' rest ho hq
    unfold processQueue at hq
    split at hq
    · cases hq
    · rename_i q' hc
      split at hq
      · cases hq
      · cases hq
        rw [List.append_assoc]
        refine ⟨List.Pairwise.sublist ?_ ho, ?_⟩
        · exact List.Sublist.append (List.Sublist.refl _)
            (List.Sublist.append (cancelLoop_sublist _ _ hc) (List.Sublist.refl _))
        · exact Refines.append (Refines.refl S _)
            (Refines.append (cancelLoop_refines S _ _ hc) (Refines.refl S _))
  induction p generalizing queue cache ps with
  | nil =>
    simp only [genLoop] at h
    split at h
    · cases h
    · rename_i c ps' hq
      have k := key _ _ _ _ _ [] ho hq
      rw [List.append_nil] at k
      exact k.2.trans (processCache_refines S _ _ _ k.1 h)
  | cons a p ih =>
    have hcons : ∀ a : Op α ε, genLoop true p (queue ++ [a]) cache ps = some c' →
        OnlyReload (cache ++ (queue ++ a :: p)) →
        Refines S (cache ++ (queue ++ a :: p)) c' := by
      intro a h ho
      have e : cache ++ (queue ++ a :: p) = cache ++ ((queue ++ [a]) ++ p) := by simp
      rw [e] at ho ⊢
      exact ih _ _ _ ho h
    cases a <;> simp only [genLoop] at h <;> try exact hcons _ h ho
    case compute o e =>
      split at h
      · cases h
      · rename_i c ps' hq
        have e : cache ++ (queue ++ .compute o e :: p) =
            cache ++ ((queue ++ [.compute o e]) ++ p) := by simp
        rw [e] at ho ⊢
        have k := key _ _ _ _ _ p ho hq
        exact k.2.trans (ih _ _ _ (by simpa using k.1) h)

/-- C34, with active assertions: if the calls made for an expression reload only
objects which were unloaded, never load an object whose value was lost by
unloading it, and no assertion fails, then the emitted program computes the same
values and leaves the same memory and the same stored values. -/
theorem optimize_preserves_partial (S : Sem α ε V) (p q : List (Op α ε)) (s s' : α → Cell V)
    (ho : OnlyReload p) (h : optimize true p = some q) (hr : run S true p s = some s') :
    run S false q s = some s' ∧ run S false p s = some s' :=
  ⟨run_strict S q s s' (genLoop_refines S p [] [] [] q (by simpa using ho) h s s' (by simpa using hr)),
    run_strict S p s s' hr⟩

/-- The same for an export of any number of expressions. -/
theorem optimizeAll_preserves_partial (S : Sem α ε V) (es : List (List (Op α ε)))
    (q : List (Op α ε)) (s s' : α → Cell V)
    (ho : ∀ p ∈ es, OnlyReload p) (h : optimizeAll true es = some q)
    (hr : run S true es.flatten s = some s') :
    run S false q s = some s' := by
  have key : Refines S es.flatten q := by
    clear hr
    induction es generalizing q with
    | nil => simp only [optimizeAll, Option.some.injEq] at h; subst h; exact Refines.refl S _
    | cons p es ih =>
      simp only [optimizeAll] at h
      split at h
      · cases h
      · rename_i q₁ hq
        simp only [Option.map_eq_some_iff] at h
        obtain ⟨q₂, h2, rfl⟩ := h
        rw [List.flatten_cons]
        refine Refines.append ?_ (ih _ (fun p hp => ho p (List.mem_cons_of_mem _ hp)) h2)
        intro s s' hr
        exact genLoop_refines S p [] [] [] q₁ (by simpa using ho p (by simp)) hq s s'
          (by simpa using hr)
  exact run_strict S q s s' (key s s' hr)

/-! ### What holds without conditions on the program -/

/-- Whether an operation computes or sets a value. -/
def Op.isWork (a : Op α ε) : Bool := decide (a.action = .none)

theorem cancels_action {x y : Op α ε} (h : x.cancels y = true) :
    x.action ≠ .none ∧ y.action ≠ .none := by
  cases x <;> cases y <;> simp [Op.cancels, Op.action] at h ⊢

theorem cancelLoop_work (q q' : List (Op α ε)) (h : cancelLoop q = some q') :
    q'.filter Op.isWork = q.filter Op.isWork := by
  refine cancelLoop_spec (fun a b => b.filter Op.isWork = a.filter Op.isWork) (fun _ => rfl)
    (fun _ _ _ h1 h2 => h2.trans h1) ?_ q q' h
  intro l₁ x y l₂ hxy
  obtain ⟨hx, hy⟩ := cancels_action hxy
  simp [Op.isWork, hx, hy]

theorem optimizePair_work (c c' : List (Op α ε)) (f s : Nat) (b : Bool)
    (h : optimizePair true c f s = some (c', b)) :
    c'.filter Op.isWork = c.filter Op.isWork ∧ c'.length ≤ c.length := by
  rcases optimizePair_spec c c' f s b h with ⟨rfl, -⟩ | ⟨-, l₁, iop, fop, l₂, first, inter, second,
    l₃, rfl, rfl, h1, h2, h3, h4, h5, h6, h7, h8⟩
  · exact ⟨rfl, Nat.le_refl _⟩
  · constructor
    · simp [Op.isWork, h1, h2, h3, h5, h6]
    · simp

theorem optimizeLoop_work (ps : List (Nat × Nat)) (n : Nat)
    (c c' : List (Op α ε)) (h : optimizeLoop true ps n c = some c') :
    c'.filter Op.isWork = c.filter Op.isWork ∧ c'.length ≤ c.length := by
  induction ps generalizing n c with
  | nil => simp only [optimizeLoop, Option.some.injEq] at h; subst h; exact ⟨rfl, Nat.le_refl _⟩
  | cons p ps ih =>
    obtain ⟨f, s⟩ := p
    simp only [optimizeLoop] at h
    split at h
    · cases h
    · split at h
      · cases h
      · rename_i c₁ hc
        have h1 := optimizePair_work _ _ _ _ _ hc
        have h2 := ih _ _ h
        exact ⟨h2.1.trans h1.1, Nat.le_trans h2.2 h1.2⟩
      · rename_i c₁ hc
        have h1 := optimizePair_work _ _ _ _ _ hc
        have h2 := ih _ _ h
        exact ⟨h2.1.trans h1.1, Nat.le_trans h2.2 h1.2⟩

theorem genLoop_work (p queue cache : List (Op α ε)) (ps : List (Nat × Nat))
    (c' : List (Op α ε)) (h : genLoop true p queue cache ps = some c') :
    c'.filter Op.isWork = (cache ++ (queue ++ p)).filter Op.isWork ∧
      c'.length ≤ (cache ++ (queue ++ p)).length := by
  have key : ∀ (queue cache : List (Op α ε)) ps c ps',
      processQueue true queue cache ps = some (c, ps') →
      c.filter Op.isWork = (cache ++ queue).filter Op.isWork ∧
        c.length ≤ (cache ++ queue).length := by
    intro queue cache ps c ps' hq
    unfold processQueue at hq
    split at hq
    · cases hq
    · rename_i q' hc
      split at hq
      · cases hq
      · cases hq
        have h1 := cancelLoop_work _ _ hc
        have h2 := (cancelLoop_sublist _ _ hc).length_le
        simp only [List.filter_append, List.length_append, h1]
        exact ⟨trivial, by omega⟩
  induction p generalizing queue cache ps with
  | nil =>
    simp only [genLoop] at h
    split at h
    · cases h
    · rename_i c ps' hq
      have k := key _ _ _ _ _ hq
      have : c'.filter Op.isWork = c.filter Op.isWork ∧ c'.length ≤ c.length := by
        unfold processCache at h
        split at h
        · exact optimizeLoop_work _ _ _ _ h
        · split at h
          · cases h
          · exact optimizeLoop_work _ _ _ _ h
      rw [List.append_nil]
      exact ⟨this.1.trans k.1, Nat.le_trans this.2 k.2⟩
  | cons a p ih =>
    have hcons : ∀ a : Op α ε, genLoop true p (queue ++ [a]) cache ps = some c' →
        c'.filter Op.isWork = (cache ++ (queue ++ a :: p)).filter Op.isWork ∧
          c'.length ≤ (cache ++ (queue ++ a :: p)).length := by
      intro a h
      have e : cache ++ (queue ++ a :: p) = cache ++ ((queue ++ [a]) ++ p) := by simp
      rw [e]
      exact ih _ _ _ h
    cases a <;> simp only [genLoop] at h <;> try exact hcons _ h
    case compute o e =>
      split at h
      · cases h
      · rename_i c ps' hq
        have k := key _ _ _ _ _ hq
        have i := ih _ _ _ h
        rw [List.nil_append] at i
        have e : cache ++ (queue ++ .compute o e :: p) =
            (cache ++ (queue ++ [.compute o e])) ++ p := by simp
        rw [e]
        simp only [List.filter_append, List.length_append] at k i ⊢
        exact ⟨by rw [i.1, k.1], by omega⟩

/-- C34, for every program: with active assertions the optimizer keeps all
computations and all settings to zero in their order, and does not make the
program longer. -/
theorem optimize_work (p q : List (Op α ε)) (h : optimize true p = some q) :
    q.filter Op.isWork = p.filter Op.isWork ∧ q.length ≤ p.length := by
  simpa using genLoop_work p [] [] [] q h

/-- After the first stage no load is next to an unload of the same object. -/
theorem cancelLoop_done (q q' : List (Op α ε)) (h : cancelLoop q = some q') :
    q' ≠ [] ∧ ∀ k, ∀ (hk : k + 1 < q'.length), (q'[k].cancels q'[k + 1]) = false := by
  induction hn : q.length using Nat.strongRecOn generalizing q with
  | ind n ih =>
    rw [cancelLoop_eq] at h
    split at h
    · cases h
    · rename_i hq
      split at h
      · rename_i h1
        cases h
        exact ⟨hq, firstCancel_none _ h1⟩
      · rename_i q₁ h1
        have hl := firstCancel_length _ _ h1
        exact ih q₁.length (by omega) q₁ h rfl

/-! ### Examples and witnesses -/

namespace GenInst

/-- Objects are numbers, computations add to the target the sum of the listed
objects. -/
def S : Sem Nat (List Nat) Int where
  zero := 0
  junk _ := 99
  ev o e m := do
    let r ← m o
    let vs ← e.mapM m
    pure (r + vs.sum)

def s₀ : Nat → Cell Int := fun n =>
  if n = 0 then ⟨none, none, false⟩ else ⟨none, some (n : Int), false⟩

/-- `R += A B; R += A C`, the order of the operands differing. -/
def prog : List (Op Nat (List Nat)) :=
  [.create 0 true, .load 1, .load 2, .compute 0 [1, 2], .unload 2, .unload 1,
   .load 2, .load 3, .compute 0 [2, 3], .unload 3, .unload 2, .persist 0]

/-- The optimizer is effective. -/
example : optimize true prog =
    some [.create 0 true, .load 2, .load 1, .compute 0 [1, 2], .unload 1,
      .load 3, .compute 0 [2, 3], .unload 3, .unload 2, .persist 0] := by decide +kernel

example : OnlyReload prog := by decide +kernel

example : (run S true prog s₀).map (fun s => (s 0).store) = some (some 8) := by decide +kernel

/-- C34 fails without the condition on the program: the value persisted is lost
when the object is loaded again behind the unloading of another one. -/
theorem optimize_drops_persist :
    ∃ p q : List (Op Nat (List Nat)), optimize true p = some q ∧
      ((run S true p s₀).map fun s => (s 1).store) = some (some 5) ∧
      ((run S true q s₀).map fun s => (s 1).store) = some (some 1) :=
  ⟨[.create 0 true, .load 4, .load 1, .compute 1 [4], .persist 1, .unload 4, .load 1,
    .compute 0 [1], .unload 1, .persist 0],
   [.create 0 true, .load 1, .load 4, .compute 1 [4], .unload 4,
    .compute 0 [1], .unload 1, .persist 0], by decide +kernel⟩

/-- C34 fails: an object loaded with zeros keeps its old value. -/
theorem optimize_drops_zero :
    ∃ p q : List (Op Nat (List Nat)), optimize true p = some q ∧
      ((run S true p s₀).map fun s => (s 0).store) = some (some 5) ∧
      ((run S true q s₀).map fun s => (s 0).store) = some (some 6) :=
  ⟨[.create 0 true, .load 4, .load 1, .compute 0 [1, 4], .unload 1, .unload 4, .loadZero 1,
    .compute 0 [1], .unload 1, .persist 0],
   [.create 0 true, .load 1, .load 4, .compute 0 [1, 4], .unload 4,
    .compute 0 [1], .unload 1, .persist 0], by decide +kernel⟩

/-- C34 fails: an object whose value was changed in memory is not loaded again
after unloading it, so the changed value is used (the stored one should be). -/
theorem optimize_keeps_dirty :
    ∃ p q : List (Op Nat (List Nat)), OnlyReload p ∧ optimize true p = some q ∧
      ((run S false p s₀).map fun s => (s 0).store) = some (some 1) ∧
      ((run S false q s₀).map fun s => (s 0).store) = some (some 5) :=
  ⟨[.create 0 true, .load 1, .load 4, .compute 1 [4], .unload 4, .unload 1, .load 1,
    .compute 0 [1], .unload 1, .persist 0],
   [.create 0 true, .load 1, .load 4, .compute 1 [4], .unload 4,
    .compute 0 [1], .unload 1, .persist 0], by decide +kernel⟩

/-- `R += A B; R += B A`: two pairs overlap. -/
def overlap : List (Op Nat (List Nat)) :=
  [.create 0 true, .load 1, .load 2, .compute 0 [1, 2], .unload 2, .unload 1,
   .load 2, .load 1, .compute 0 [2, 1], .unload 1, .unload 2, .persist 0]

/-- C34 fails: a correct program is rejected by an assertion, because the indices
of the second pair are reduced by two although one of the erased operations comes
after its first one. -/
theorem optimize_rejects :
    OnlyReload overlap ∧ (run S true overlap s₀).isSome = true ∧ optimize true overlap = none := by
  decide +kernel

/-- C34 fails: without active assertions a computation is erased instead. -/
theorem optimize_erases_compute :
    ((run S true overlap s₀).map fun s => (s 0).store) = some (some 6) ∧
    ∃ q, optimize false overlap = some q ∧
      q.filter Op.isWork = [.compute 0 [2, 1]] ∧
      overlap.filter Op.isWork = [.compute 0 [1, 2], .compute 0 [2, 1]] := by
  refine ⟨by decide +kernel, _, (by decide +kernel : optimize false overlap = some
    ((optimize false overlap).getD [])), by decide +kernel, by decide +kernel⟩

/-- C34 fails: a queue which is empty, or becomes empty, is read out of bounds. -/
theorem optimize_empty :
    optimize false ([] : List (Op Nat (List Nat))) = none ∧
    optimize false ([.load 1, .unload 1] : List (Op Nat (List Nat))) = none ∧
    optimize false ([.load 1, .compute 1 []] : List (Op Nat (List Nat))) = none := by
  decide +kernel

end GenInst

end SeQuant.Export
