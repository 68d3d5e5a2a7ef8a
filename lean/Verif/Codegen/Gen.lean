import Verif.Codegen.PrepMain

/-!
# The state of the generated program during the generation
-/

namespace SeQuant.Codegen

open SeQuant.Eval (EOp)
open SeQuant.Export (Op)

variable {K : Type} [CommRing K]

set_option linter.unusedSectionVars false

theorem run_append (I : Interp K) (p q : Code K) (s : Mem K) : run I (p ++ q) s = (run I p s).bind (run I q) := by
  induction p generalizing s with
  | nil => rfl
  | cons o p ih =>
    simp only [List.cons_append, run]
    cases step I s o with
    | none => rfl
    | some s' => exact ih s'

theorem run_one (I : Interp K) (o : Op Name (Rhs K)) (s : Mem K) : run I [o] s = step I s o := by
  simp only [run]; cases step I s o <;> rfl

/-- The state of the program agrees with the counters of the generation; `ks`: the objects used so far. -/
structure GInv (I : Interp K) (input : Nat → Bool) (ks : Name → Prop) (g : GS) (s : Mem K) : Prop where
  used : ∀ n, input n.stem = false → (n ∈ g.used ↔ ks n)
  cu : ∀ n, 0 < g.cnt n → n ∈ g.used
  disk : ∀ n, input n.stem = true → (s n).disk = some (some (I.inp n))
  inp : ∀ n, input n.stem = true → 0 < g.cnt n → (s n).mem = some (some (I.inp n))
  off : ∀ n, g.cnt n = 0 → (s n).mem = none
  own : ∀ n, input n.stem = false → 0 < g.cnt n → ∃ v, (s n).mem = some (some v)
  kept : ∀ n, input n.stem = false → ks n → ∃ d, (s n).disk = some d

theorem GInv.ready {I : Interp K} {input : Nat → Bool} {ks : Name → Prop} {g : GS} {s : Mem K} (h : GInv I input ks g s) {n : Name}
    (hn : 0 < g.cnt n) : ready s n = true := by
  unfold Codegen.ready
  cases hi : input n.stem with
  | true => rw [h.inp n hi hn]
  | false => obtain ⟨v, hv⟩ := h.own n hi hn; rw [hv]

theorem GInv.ks_congr {I : Interp K} {input : Nat → Bool} {ks ks' : Name → Prop} {g : GS} {s : Mem K} (h : GInv I input ks g s)
    (hk : ∀ n, input n.stem = false → (ks n ↔ ks' n)) : GInv I input ks' g s :=
  ⟨fun n hn => (h.used n hn).trans (hk n hn), h.cu, h.disk, h.inp, h.off, h.own, fun n hn hk' => h.kept n hn ((hk n hn).2 hk')⟩

theorem inc_cnt (g : GS) (n m : Name) : (g.inc n).cnt m = g.cnt m + if m = n then 1 else 0 := by
  by_cases h : m = n
  · subst h; simp [GS.inc]
  · simp [GS.inc, h]

theorem inc_used (g : GS) (n m : Name) : m ∈ (g.inc n).used ↔ m ∈ g.used ∨ m = n := by
  unfold GS.inc
  by_cases h : n ∈ g.used
  · simp only [if_pos h]
    constructor
    · exact Or.inl
    · rintro (h' | rfl)
      · exact h'
      · exact h
  · simp only [if_neg h, List.mem_cons]
    tauto

/-- One more use of an input. -/
theorem GInv.incInput {I : Interp K} {input : Nat → Bool} {ks : Name → Prop} {g : GS} {s s' : Mem K} (h : GInv I input ks g s) {n : Name}
    (hn : input n.stem = true) (he : ∀ m, m ≠ n → s' m = s m) (hs : s' n = ⟨some (some (I.inp n)), some (some (I.inp n))⟩) :
    GInv I input ks (g.inc n) s' := by
  have hne : ∀ m, input m.stem = false → m ≠ n := by rintro m hm rfl; rw [hm] at hn; cases hn
  refine ⟨fun m hm => ?_, fun m hm => ?_, fun m hm => ?_, fun m hm hc => ?_, fun m hm => ?_, fun m hm hc => ?_, fun m hm hk => ?_⟩
  · rw [inc_used]
    have := hne m hm
    rw [← h.used m hm]; tauto
  · rw [inc_used]
    rw [inc_cnt] at hm
    by_cases e : m = n
    · exact Or.inr e
    · rw [if_neg e] at hm; exact Or.inl (h.cu m (by omega))
  · by_cases e : m = n
    · subst e; rw [hs]
    · rw [he m e]; exact h.disk m hm
  · by_cases e : m = n
    · subst e; rw [hs]
    · rw [inc_cnt, if_neg e] at hc; rw [he m e]; exact h.inp m hm (by omega)
  · rw [inc_cnt] at hm
    by_cases e : m = n
    · rw [if_pos e] at hm; omega
    · rw [he m e]; exact h.off m (by omega)
  · have e := hne m hm
    rw [inc_cnt, if_neg e] at hc
    rw [he m e]; exact h.own m hm (by omega)
  · rw [he m (hne m hm)]; exact h.kept m hm hk

/-- One more use of an intermediate. -/
theorem GInv.incOwn {I : Interp K} {input : Nat → Bool} {ks : Name → Prop} {g : GS} {s s' : Mem K} (h : GInv I input ks g s) {n : Name}
    (hn : input n.stem = false) (he : ∀ m, m ≠ n → s' m = s m) {v : Arr K} (hs : (s' n).mem = some (some v)) {d : Option (Arr K)}
    (hd : (s' n).disk = some d) : GInv I input (fun m => ks m ∨ m = n) (g.inc n) s' := by
  have hne : ∀ m, input m.stem = true → m ≠ n := by rintro m hm rfl; rw [hm] at hn; cases hn
  refine ⟨fun m hm => ?_, fun m hm => ?_, fun m hm => ?_, fun m hm hc => ?_, fun m hm => ?_, fun m hm hc => ?_, fun m hm hk => ?_⟩
  · rw [inc_used, h.used m hm]
  · rw [inc_used]
    rw [inc_cnt] at hm
    by_cases e : m = n
    · exact Or.inr e
    · rw [if_neg e] at hm; exact Or.inl (h.cu m (by omega))
  · rw [he m (hne m hm)]; exact h.disk m hm
  · rw [inc_cnt, if_neg (hne m hm)] at hc; rw [he m (hne m hm)]; exact h.inp m hm (by omega)
  · rw [inc_cnt] at hm
    by_cases e : m = n
    · rw [if_pos e] at hm; omega
    · rw [he m e]; exact h.off m (by omega)
  · by_cases e : m = n
    · subst e; exact ⟨v, hs⟩
    · rw [inc_cnt, if_neg e] at hc
      rw [he m e]; exact h.own m hm (by omega)
  · by_cases e : m = n
    · subst e; exact ⟨d, hd⟩
    · rw [he m e]; exact h.kept m hm (hk.resolve_right e)

/-- Loading an input as a leaf. -/
theorem load_input {I : Interp K} {input : Nat → Bool} {ks : Name → Prop} {g : GS} {s : Mem K} {c : Ctx} (h : GInv I input ks g s)
    (hc : CtxOk input c) {n : Name} (hn : input n.stem = true) :
    ∃ s', run I (loadOrCreate c g n true).1 s = some s' ∧ GInv I input ks (g.inc n) s' ∧ ∀ m, m ≠ n → s' m = s m := by
  obtain ⟨h1, h2⟩ := hc.inp n hn
  by_cases h0 : 0 < g.cnt n
  · refine ⟨s, ?_, h.incInput hn (fun _ _ => rfl) ?_, fun _ _ => rfl⟩
    · have hu := h.cu n h0
      simp [loadOrCreate, hu, h0, h2, run]
    · have e1 := h.inp n hn h0
      have e2 := h.disk n hn
      cases hs : s n with
      | mk a b => rw [hs] at e1 e2; simp only at e1 e2; rw [e1, e2]
  · have h00 : g.cnt n = 0 := by omega
    have hm := h.off n h00
    have hd := h.disk n hn
    refine ⟨Function.update s n ⟨some (some (I.inp n)), some (some (I.inp n))⟩, ?_, h.incInput hn (fun m hm => by simp [hm]) (by simp),
      fun m hm => by simp [hm]⟩
    have : (loadOrCreate c g n true : Code K × GS).1 = [.load n] := by
      simp [loadOrCreate, h00, h1]
    rw [this, run_one]
    simp [step, hm, hd]

/-- Making or reusing the object of an internal node. -/
theorem load_own {I : Interp K} {input : Nat → Bool} {ks : Name → Prop} {g : GS} {s : Mem K} {c : Ctx} (h : GInv I input ks g s)
    (hc : CtxOk input c) {n : Name} (hn : input n.stem = false) (hr : ks n → Zeroed c n ∨ 0 < g.cnt n) :
    ∃ s', run I (loadOrCreate c g n false).1 s = some s' ∧ GInv I input (fun m => ks m ∨ m = n) (g.inc n) s' ∧
      (∀ m, m ≠ n → s' m = s m) ∧ (¬ ks n ∨ Zeroed c n → ∀ pos, content s' n pos = 0) ∧ (ks n → ¬ Zeroed c n → ∀ pos, content s' n pos = content s n pos) := by
  obtain ⟨hl, hz⟩ := hc.own n hn
  by_cases hk : ks n
  · have hu : n ∈ g.used := (h.used n hn).2 hk
    obtain ⟨d, hd⟩ := h.kept n hn hk
    by_cases hZ : Zeroed c n
    · have hZ' : (c.get n).zero = .always := hZ
      by_cases h0 : 0 < g.cnt n
      · obtain ⟨v, hv⟩ := h.own n hn h0
        refine ⟨Function.update s n ⟨some (some fun _ => 0), some d⟩, ?_, h.incOwn hn (fun m hm => by simp [hm]) (v := fun _ => 0) (by simp) (d := d) (by simp),
          fun m hm => by simp [hm], fun _ pos => ?_, fun _ h' => absurd hZ h'⟩
        · have : (loadOrCreate c g n false : Code K × GS).1 = [.zero n] := by
            simp [loadOrCreate, hu, h0, hl, hZ', ZeroStrat.always]
          rw [this, run_one]
          simp [step, hv, hd]
        · simp [content]
      · have h00 : g.cnt n = 0 := by omega
        have hm := h.off n h00
        refine ⟨Function.update s n ⟨some (some fun _ => 0), some d⟩, ?_, h.incOwn hn (fun m hm => by simp [hm]) (v := fun _ => 0) (by simp) (d := d) (by simp),
          fun m hm => by simp [hm], fun _ pos => ?_, fun _ h' => absurd hZ h'⟩
        · have : (loadOrCreate c g n false : Code K × GS).1 = [.loadZero n] := by
            simp [loadOrCreate, hu, h00, hZ', ZeroStrat.always]
          rw [this, run_one]
          simp [step, hm, hd]
        · simp [content]
    · have h0 := (hr hk).resolve_left hZ
      have hz' : (c.get n).zero = .create := hz.resolve_right hZ
      obtain ⟨v, hv⟩ := h.own n hn h0
      refine ⟨s, ?_, h.incOwn hn (fun _ _ => rfl) hv hd, fun _ _ => rfl, fun h' => ?_, fun _ _ _ => rfl⟩
      · simp [loadOrCreate, hu, h0, hz', ZeroStrat.create, run]
      · rcases h' with h' | h'
        · exact absurd hk h'
        · exact absurd h' hZ
  · have hu : n ∉ g.used := fun h' => hk ((h.used n hn).1 h')
    have h00 : g.cnt n = 0 := by
      by_contra h0
      exact hu (h.cu n (by omega))
    have hm := h.off n h00
    refine ⟨Function.update s n ⟨some (some fun _ => 0), some none⟩, ?_, h.incOwn hn (fun m hm => by simp [hm]) (v := fun _ => 0) (by simp) (d := none) (by simp),
      fun m hm => by simp [hm], fun _ pos => ?_, fun h' => absurd h' hk⟩
    · have hcr : (c.get n).zero.onCreate = true := by rcases hz with h | h <;> rw [h] <;> rfl
      have : (loadOrCreate c g n false : Code K × GS).1 = [.create n true] := by
        simp [loadOrCreate, hu, hl, hcr]
      rw [this, run_one]
      simp [step, hm]
    · simp [content]

/-- The uses of a list of expressions. -/
def usesOf (l : List (EX K)) (m : Name) : Nat := (l.map fun x => x.uses m).sum

@[simp] theorem usesOf_nil (m : Name) : usesOf ([] : List (EX K)) m = 0 := rfl
@[simp] theorem usesOf_cons (x : EX K) (l : List (EX K)) (m : Name) : usesOf (x :: l) m = x.uses m + usesOf l m := by simp [usesOf]
theorem usesOf_append (l l' : List (EX K)) (m : Name) : usesOf (l ++ l') m = usesOf l m + usesOf l' m := by simp [usesOf]
theorem usesOf_reverse (l : List (EX K)) (m : Name) : usesOf l.reverse m = usesOf l m := by simp [usesOf, List.sum_reverse]

theorem uses_none {x : EX K} (h : x.name = none) (m : Name) : x.uses m = 0 := by simp [EX.uses, h]
theorem uses_some {x : EX K} {n : Name} (h : x.name = some n) (m : Name) : x.uses m = if m = n then 1 else 0 := by
  unfold EX.uses; rw [h]
  by_cases e : m = n
  · simp [e]
  · have : ¬ n = m := fun h => e h.symm
    simp [e, this]

/-- Loading the scalar factors. -/
theorem loadFactors_spec {I : Interp K} {input : Nat → Bool} {ks : Name → Prop} (fac : List (EX K)) {g : GS} {s : Mem K}
    (h : GInv I input ks g s) (hf : ∀ x ∈ fac, x.Input input) :
    ∃ s', run I (loadFactors g fac).1 s = some s' ∧ GInv I input ks (loadFactors g fac).2 s' ∧
      (∀ m, input m.stem = false → s' m = s m) ∧ ∀ m, (loadFactors g fac).2.cnt m = g.cnt m + usesOf fac m := by
  induction fac generalizing g s with
  | nil => exact ⟨s, rfl, h, fun _ _ => rfl, fun m => rfl⟩
  | cons x fac ih =>
    have hf' : ∀ y ∈ fac, y.Input input := fun y hy => hf y (List.mem_cons_of_mem _ hy)
    cases hx : x.name with
    | none =>
      obtain ⟨s', h1, h2, h3, h4⟩ := ih h hf'
      simp only [loadFactors, hx]
      exact ⟨s', h1, h2, h3, fun m => by rw [h4, usesOf_cons, uses_none hx, Nat.zero_add]⟩
    | some n =>
      have hn : input n.stem = true := hf x List.mem_cons_self n hx
      have hd := h.disk n hn
      obtain ⟨s₁, e1, e2, e3⟩ : ∃ s₁, run I (if g.cnt n = 0 then [.load n] else [] : Code K) s = some s₁ ∧
          (∀ m, m ≠ n → s₁ m = s m) ∧ s₁ n = ⟨some (some (I.inp n)), some (some (I.inp n))⟩ := by
        by_cases h0 : g.cnt n = 0
        · rw [if_pos h0]
          refine ⟨Function.update s n ⟨some (some (I.inp n)), some (some (I.inp n))⟩, ?_, fun m hm => by simp [hm], by simp⟩
          rw [run_one]
          simp [step, h.off n h0, hd]
        · rw [if_neg h0]
          refine ⟨s, rfl, fun _ _ => rfl, ?_⟩
          have e1 := h.inp n hn (by omega)
          cases hs : s n with
          | mk a b => rw [hs] at e1 hd; simp only at e1 hd; rw [e1, hd]
      have h' := h.incInput hn e2 e3
      obtain ⟨s', h1, h2, h3, h4⟩ := ih h' hf'
      simp only [loadFactors, hx]
      refine ⟨s', ?_, h2, fun m hm => ?_, fun m => ?_⟩
      · rw [run_append, e1]; exact h1
      · rw [h3 m hm, e2 m]
        rintro rfl; rw [hm] at hn; cases hn
      · rw [h4, inc_cnt, usesOf_cons, uses_some hx]; omega

/-- Dropping objects. -/
theorem drops_spec {I : Interp K} {input : Nat → Bool} {ks : Name → Prop} (l : List (EX K)) {g : GS} {s : Mem K}
    (h : GInv I input ks g s) (hl : ∀ m, usesOf l m ≤ g.cnt m) :
    ∃ o g' s', drops g l = some (o, g') ∧ run I o s = some s' ∧ GInv I input ks g' s' ∧
      (∀ m, 0 < g'.cnt m → s' m = s m) ∧ (∀ m, g'.cnt m = g.cnt m - usesOf l m) := by
  induction l generalizing g s with
  | nil => exact ⟨[], g, s, rfl, rfl, h, fun _ _ => rfl, fun m => rfl⟩
  | cons x l ih =>
    cases hx : x.name with
    | none =>
      obtain ⟨o, g', s', h1, h2, h3, h4, h5⟩ := ih h (fun m => by have := hl m; rw [usesOf_cons] at this; omega)
      refine ⟨[] ++ o, g', s', ?_, by simpa using h2, h3, h4, fun m => by rw [h5, usesOf_cons, uses_none hx, Nat.zero_add]⟩
      simp [drops, drop, hx, h1]
    | some n =>
      have hn0 : 0 < g.cnt n := by
        have := hl n
        rw [usesOf_cons, uses_some hx, if_pos rfl] at this; omega
      have hu := h.cu n hn0
      have hready := h.ready hn0
      obtain ⟨v, hv⟩ : ∃ v, (s n).mem = some (some v) := by
        unfold ready at hready
        cases hm : (s n).mem with
        | none => rw [hm] at hready; cases hready
        | some w =>
          cases w with
          | none => rw [hm] at hready; cases hready
          | some v => exact ⟨v, rfl⟩
      obtain ⟨g₁, hg₁⟩ : ∃ g₁ : GS, g₁ = ⟨g.used, Function.update g.cnt n (g.cnt n - 1)⟩ := ⟨_, rfl⟩
      have c1 : ∀ m, g₁.cnt m = g.cnt m - if m = n then 1 else 0 := by
        intro m; rw [hg₁]
        by_cases e : m = n
        · subst e; simp
        · simp [e]
      have u1 : g₁.used = g.used := by rw [hg₁]
      obtain ⟨s₁, e1, e2, e3⟩ : ∃ s₁, run I (if g.cnt n - 1 = 0 then [.unload n] else [] : Code K) s = some s₁ ∧ GInv I input ks g₁ s₁ ∧
          ∀ m, 0 < g₁.cnt m → s₁ m = s m := by
        by_cases h0 : g.cnt n - 1 = 0
        · rw [if_pos h0]
          refine ⟨Function.update s n ⟨none, (s n).disk⟩, ?_, ?_, fun m hm => ?_⟩
          · rw [run_one]; simp [step, hv]
          · refine ⟨fun m hm => by rw [u1]; exact h.used m hm, fun m hm => by rw [u1]; exact h.cu m (by rw [c1] at hm; omega), fun m hm => ?_,
              fun m hm hc => ?_, fun m hm => ?_, fun m hm hc => ?_, fun m hm hk => ?_⟩
            · by_cases e : m = n
              · subst e; simpa using h.disk m hm
              · simpa [e] using h.disk m hm
            · by_cases e : m = n
              · rw [c1, if_pos e] at hc; subst e; omega
              · simpa [e] using h.inp m hm (by rw [c1, if_neg e] at hc; omega)
            · by_cases e : m = n
              · subst e; simp
              · simpa [e] using h.off m (by rw [c1, if_neg e] at hm; omega)
            · by_cases e : m = n
              · rw [c1, if_pos e] at hc; subst e; omega
              · simpa [e] using h.own m hm (by rw [c1, if_neg e] at hc; omega)
            · by_cases e : m = n
              · subst e; simpa using h.kept m hm hk
              · simpa [e] using h.kept m hm hk
          · by_cases e : m = n
            · rw [c1, if_pos e] at hm; subst e; omega
            · simp [e]
        · rw [if_neg h0]
          refine ⟨s, rfl, ?_, fun _ _ => rfl⟩
          have hp : ∀ m, 0 < g₁.cnt m ↔ 0 < g.cnt m := by
            intro m; rw [c1]
            by_cases e : m = n
            · subst e; rw [if_pos rfl]; omega
            · rw [if_neg e]; omega
          exact ⟨fun m hm => by rw [u1]; exact h.used m hm, fun m hm => by rw [u1]; exact h.cu m ((hp m).1 hm), h.disk,
            fun m hm hc => h.inp m hm ((hp m).1 hc), fun m hm => h.off m (by have := hp m; omega),
            fun m hm hc => h.own m hm ((hp m).1 hc), h.kept⟩
      obtain ⟨o, g', s', h1, h2, h3, h4, h5⟩ := ih e2 (fun m => by
        have := hl m; rw [usesOf_cons, uses_some hx] at this; rw [c1]; omega)
      refine ⟨(if g.cnt n - 1 = 0 then [.unload n] else []) ++ o, g', s', ?_, ?_, h3, fun m hm => ?_, fun m => ?_⟩
      · have hd : drop g x = some (if g.cnt n - 1 = 0 then [.unload n] else [], g₁) := by
          simp only [drop, hx]
          rw [if_pos hn0, if_pos hu, hg₁]
        simp only [drops, hd, h1]
      · rw [run_append, e1]; exact h2
      · rw [h4 m hm, e3 m]
        rw [h5] at hm; omega
      · rw [h5, c1, usesOf_cons, uses_some hx]; omega

/-- Inputs in memory have their content. -/
theorem GInv.input_val {I : Interp K} {input : Nat → Bool} {ks : Name → Prop} {g : GS} {s : Mem K} (h : GInv I input ks g s) {x : EX K}
    (hx : x.Input input) (hc : ∀ m ∈ x.name, 0 < g.cnt m) (σ : Nat → Nat) : x.val I (content s) σ = x.val I I.inp σ := by
  cases x with
  | obj n a =>
    have := h.inp n (hx n rfl) (hc n rfl)
    simp [EX.val, content, this]
  | const c => rfl
  | pow n k =>
    have := h.inp n (hx n rfl) (hc n rfl)
    simp [EX.val, content, this]

/-- A computation. -/
theorem compute_spec {I : Interp K} {input : Nat → Bool} {ks : Name → Prop} {g : GS} {s : Mem K} (h : GInv I input ks g s) {n : Name}
    (hn : input n.stem = false) (h0 : 0 < g.cnt n) (a : List Nat) (e : List (EX K)) (he : ∀ x ∈ e, ∀ m ∈ x.name, 0 < g.cnt m) :
    ∃ s', step I s (.compute n (a, e)) = some s' ∧ GInv I input ks g s' ∧ (∀ m, m ≠ n → s' m = s m) ∧
      ∀ pos, content s' n pos = content s n pos + rhs I s (a, e) pos := by
  have hne : ∀ m, input m.stem = true → m ≠ n := by rintro m hm rfl; rw [hm] at hn; cases hn
  refine ⟨Function.update s n ⟨some (some fun pos => content s n pos + rhs I s (a, e) pos), (s n).disk⟩, ?_, ?_, fun m hm => by simp [hm],
    fun pos => by simp [content]⟩
  · simp only [step]
    rw [if_pos ⟨h.ready h0, fun x hx m hm => h.ready (he x hx m hm)⟩]
  · refine ⟨h.used, h.cu, fun m hm => ?_, fun m hm hc => ?_, fun m hm => ?_, fun m hm hc => ?_, fun m hm hk => ?_⟩
    · simpa [hne m hm] using h.disk m hm
    · simpa [hne m hm] using h.inp m hm hc
    · by_cases e : m = n
      · subst e; omega
      · simpa [e] using h.off m hm
    · by_cases em : m = n
      · subst em; exact ⟨fun pos => content s m pos + rhs I s (a, e) pos, by simp⟩
      · simpa [em] using h.own m hm hc
    · by_cases e : m = n
      · subst e; simpa using h.kept m hm hk
      · simpa [e] using h.kept m hm hk

/-- What a computation adds, with the scalar factors in front. -/
theorem rhs_fac {I : Interp K} {input : Nat → Bool} {ks : Name → Prop} {g : GS} {s : Mem K} (h : GInv I input ks g s) (a : List Nat)
    (fac e : List (EX K)) (hf : ∀ x ∈ fac, x.Input input) (hi : ∀ x ∈ fac, x.idx = []) (hc : ∀ x ∈ fac, ∀ m ∈ x.name, 0 < g.cnt m)
    (pos : List Nat) :
    rhs I s (a, fac ++ e) pos =
      fv I fac * sumOver I.dim (contr a (e.flatMap EX.idx)) (fun σ => (e.map (EX.val I (content s) σ)).prod) (bind a pos) := by
  unfold rhs
  have h1 : (fac ++ e).flatMap EX.idx = e.flatMap EX.idx := by
    rw [List.flatMap_append]
    have : fac.flatMap EX.idx = [] := by
      rw [List.flatMap_eq_nil_iff]; exact hi
    rw [this, List.nil_append]
  simp only [h1]
  rw [← sumOver_mul]
  refine sumOver_congr (fun σ => ?_) _
  rw [List.map_append, List.prod_append]
  congr 1
  unfold fv
  congr 1
  refine List.map_congr_left fun x hx => ?_
  rw [h.input_val (hf x hx) (hc x hx)]
  exact EX.val_scalar I I.inp x (hi x hx) _ _

end SeQuant.Codegen
