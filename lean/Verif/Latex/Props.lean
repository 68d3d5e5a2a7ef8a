import Verif.Latex.Tables

/-
Property C116: conversion of Unicode characters to LaTeX.
-/

namespace SeQuant.Latex

attribute [local irreducible] greekOf accentOf composedOf

/-! ## What the conversion should do -/

/-- One character in LaTeX: a Greek letter by its name, any other by itself. -/
def spell (c : Nat) : List Nat := (greekOf c).getD [c]

/-- A base character with the mark on it, if there is one. -/
abbrev Seg := Nat × Option Nat

/-- The string cut into base characters with their marks. -/
def segs : List Nat → List Seg
  | [] => []
  | [c] => [(c, none)]
  | c :: m :: r =>
    if (accentOf m).isSome then (c, some m) :: segs r else (c, none) :: segs (m :: r)

/-- The spelling of a base character with its mark. -/
def Seg.spell : Seg → List Nat
  | (c, some m) => (accentOf m).getD [] ++ [c] ++ w! "}"
  | (c, none) => (composedOf c).getD [c]

/-- The spelling differs from the character. -/
def Seg.accented : Seg → Bool
  | (_, some _) => true
  | (c, none) => (composedOf c).isSome

/-! ## Greek letters -/

theorem greekLoop_step (pre res : List Nat) (ch : Nat) (rest : List Nat) :
    greekLoop true pre res (ch :: rest) =
      match greekOf ch with
      | some s => greekLoop true (pre ++ [ch]) (append pre res s) rest
      | none => greekLoop true (pre ++ [ch]) (if !res.isEmpty then res ++ [ch] else res) rest := by
  have hst := stepTable_eq ch
  rw [greekLoop]
  cases ha : isAscii ch
  · rw [stepTable, ha] at hst
    simp only [Bool.false_eq_true, if_false] at hst
    simp only [Bool.not_true, Bool.false_and, Bool.false_eq_true, if_false, Bool.not_false, if_true]
    cases hl : isLc ch
    · rw [hl] at hst
      simp only [Bool.false_eq_true, if_false] at hst ⊢
      cases hu : isUc ch
      · rw [hu] at hst
        simp only [Bool.false_eq_true, if_false] at hst ⊢
        rw [← hst]
      · rw [hu] at hst
        simp only [if_true] at hst ⊢
        have hn := ucEntry_some hu
        rw [hst] at hn ⊢
        rcases hg : greekOf ch with _ | s
        · exact absurd hg hn
        · rfl
    · rw [hl] at hst
      simp only [if_true] at hst ⊢
      have hn := lcEntry_some hl
      rw [hst] at hn ⊢
      rcases hg : greekOf ch with _ | s
      · exact absurd hg hn
      · rfl
  · rw [stepTable, ha] at hst
    simp only [if_true] at hst
    rw [← hst]
    simp only [Bool.not_true, Bool.and_false, Bool.false_eq_true, if_false]

theorem greekLoop_ne (rest : List Nat) : ∀ (pre res : List Nat), res ≠ [] →
    greekLoop true pre res rest = .ok (some (res ++ rest.flatMap spell)) := by
  induction rest with
  | nil => intro pre res _; simp [greekLoop]
  | cons ch rest ih =>
    intro pre res hres
    rw [greekLoop_step]
    have hb : res.isEmpty = false := by simpa using hres
    rcases hg : greekOf ch with _ | s
    · simp only [hb, Bool.not_false, if_true]
      rw [ih _ _ (by simp)]
      simp [spell, hg]
    · have : append pre res s = res ++ s := by simp [append, hb]
      simp only [this]
      rw [ih _ _ (by simp [hres])]
      simp [spell, hg]

theorem greekLoop_nil (rest : List Nat) : ∀ (pre : List Nat),
    greekLoop true pre [] rest =
      .ok (some (if ∀ c ∈ rest, greekOf c = none then [] else pre ++ rest.flatMap spell)) := by
  induction rest with
  | nil => intro pre; simp [greekLoop]
  | cons ch rest ih =>
    intro pre
    rw [greekLoop_step]
    rcases hg : greekOf ch with _ | s
    · simp only [List.isEmpty_nil, Bool.not_true, Bool.false_eq_true, if_false]
      rw [ih]
      simp [hg, spell]
    · have hs : s ≠ [] := greekOf_ne hg
      have : append pre [] s = pre ++ s := by simp [append]
      simp only [this]
      rw [greekLoop_ne _ _ _ (by simp [hs])]
      simp [hg, spell]

theorem flatMap_spell_self {t : List Nat} (h : ∀ c ∈ t, greekOf c = none) :
    t.flatMap spell = t := by
  induction t with
  | nil => rfl
  | cons c t ih =>
    rw [List.flatMap_cons, ih (fun x hx => h x (List.mem_cons_of_mem _ hx))]
    simp [spell, h c]

/-- **C116.** On wide strings every Greek letter is replaced by its name, every other
character is kept, the order is kept, and no assertion fails. -/
theorem greek_exact (str : List Nat) : greek true str = .ok (some (str.flatMap spell)) := by
  rw [greek, greekLoop_nil]
  by_cases h : ∀ c ∈ str, greekOf c = none
  · simp only [if_pos h, flatMap_spell_self h]
    simp
  · simp only [if_neg h, List.nil_append]
    cases hf : str.flatMap spell with
    | cons a t => simp
    | nil =>
      exfalso
      apply h
      intro c hc
      rw [List.flatMap_eq_nil_iff] at hf
      have := hf c hc
      rcases hg : greekOf c with _ | s
      · rfl
      · rw [spell, hg] at this
        exact absurd this (greekOf_ne hg)

example : greek true (w! "Ωαβ→x") = .ok (some (w! "\\Omega\\alpha\\beta→x")) := by decide +kernel

/-- **C116.** No Greek letter is left, and a second conversion changes nothing. -/
theorem greek_clean {str out : List Nat} (h : greek true str = .ok (some out)) :
    (∀ c ∈ out, greekOf c = none) ∧ greek true out = .ok (some out) := by
  rw [greek_exact] at h
  simp only [Outcome.ok.injEq, Option.some.injEq] at h
  have hc : ∀ c ∈ out, greekOf c = none := by
    intro c hc
    rw [← h, List.mem_flatMap] at hc
    obtain ⟨x, _, hx⟩ := hc
    rcases hg : greekOf x with _ | s
    · rw [spell, hg] at hx
      simp only [Option.getD_none, List.mem_singleton] at hx
      rw [hx, hg]
    · rw [spell, hg] at hx
      have := greekOf_ascii hg hx
      exact lookup_ascii ⟨c, by omega⟩
  refine ⟨hc, ?_⟩
  rw [greek_exact, flatMap_spell_self hc]

example : greek true (w! "\\Omega x") = .ok (some (w! "\\Omega x")) := by decide +kernel

theorem greekLoop_narrow (rest : List Nat) : ∀ (pre res : List Nat),
    greekLoop false pre res rest =
      if ∀ c ∈ rest, isAscii c = true then
        .ok (some (if res.isEmpty then res else res ++ rest)) else .throws := by
  induction rest with
  | nil => intro pre res; simp [greekLoop]
  | cons ch rest ih =>
    intro pre res
    rw [greekLoop]
    cases ha : isAscii ch
    · simp [ha]
    · simp only [Bool.not_false, Bool.not_true, Bool.and_false, Bool.false_eq_true, if_false]
      rw [ih]
      cases res <;> simp [ha]

/-- **C116.** Narrow strings are kept if they are ASCII and refused otherwise. -/
theorem greek_narrow (str : List Nat) :
    greek false str = if ∀ c ∈ str, c ≤ 0x7F then .ok (some str) else .throws := by
  rw [greek, greekLoop_narrow]
  by_cases h : ∀ c ∈ str, isAscii c = true
  · have h' : ∀ c ∈ str, c ≤ 0x7F := fun c hc => by simpa [isAscii] using h c hc
    rw [if_pos h, if_pos h']
    simp
  · have h' : ¬ ∀ c ∈ str, c ≤ 0x7F :=
      fun h' => h fun c hc => by simpa [isAscii] using h' c hc
    rw [if_neg h, if_neg h']

example : greek false (w! "t_1") = .ok (some (w! "t_1")) ∧ greek false [0xCE, 0xB1] = .throws := by
  decide +kernel

/-! ## Accents -/

theorem look_eq (c : Nat) (pre res : List Nat) :
    (if !isAscii c then lookAppend hatTable c pre (lookAppend tildeTable c pre res) else res) =
      match composedOf c with
      | some s => append pre res s
      | none => res := by
  cases ha : isAscii c
  · simp only [Bool.not_false, if_true]
    rcases tables_eq c with ⟨h1, h2⟩ | ⟨h1, h2⟩
    · simp only [lookAppend, h1, h2]
      cases composedOf c <;> rfl
    · simp only [lookAppend, h1, h2]
      cases composedOf c <;> rfl
  · have : composedOf c = none := by
      simp only [isAscii, decide_eq_true_eq] at ha
      exact composed_nonascii ⟨c, by omega⟩
    simp [this]

/-- The spelling of the accented characters alone. -/
def accentedOnly (S : List Seg) : List Nat := (S.filter Seg.accented).flatMap Seg.spell

/-- The last character stands without a mark of its own right after a marked one. -/
def stale : Bool → List Seg → Bool
  | _, [] => false
  | b, [(_, none)] => b
  | _, s :: S => stale s.2.isSome S

theorem accented_some (c m : Nat) : Seg.accented (c, some m) = true := rfl

theorem accented_none (c : Nat) : Seg.accented (c, none) = (composedOf c).isSome := rfl

theorem spell_some {c m : Nat} {a : List Nat} (h : accentOf m = some a) :
    Seg.spell (c, some m) = a ++ [c] ++ w! "}" := by
  rw [Seg.spell, h]
  rfl

theorem spell_none (c : Nat) : Seg.spell (c, none) = (composedOf c).getD [c] := rfl

theorem accentedOnly_pos {s : Seg} (h : s.accented = true) (S : List Seg) :
    accentedOnly (s :: S) = s.spell ++ accentedOnly S := by
  rw [accentedOnly, List.filter_cons_of_pos h, List.flatMap_cons]
  rfl

theorem accentedOnly_neg {s : Seg} (h : s.accented = false) (S : List Seg) :
    accentedOnly (s :: S) = accentedOnly S := by
  rw [accentedOnly, List.filter_cons_of_neg (by simp [h])]
  rfl

theorem segs_ne_nil (c : Nat) (r : List Nat) : segs (c :: r) ≠ [] := by
  cases r with
  | nil => simp [segs]
  | cons m r => rw [segs]; split <;> simp

theorem segs_plain {m : Nat} (h : accentOf m = none) (c : Nat) (r : List Nat) :
    segs (c :: m :: r) = (c, none) :: segs (m :: r) := by
  rw [segs, if_neg (by simp [h])]

theorem segs_marked {m : Nat} {a : List Nat} (h : accentOf m = some a) (c : Nat) (r : List Nat) :
    segs (c :: m :: r) = (c, some m) :: segs r := by
  rw [segs, if_pos (by simp [h])]

theorem stale_cons_none (b : Bool) (c : Nat) {S : List Seg} (h : S ≠ []) :
    stale b ((c, none) :: S) = stale false S := by
  cases S with
  | nil => exact absurd rfl h
  | cons s S => rfl

theorem stale_cons_some (b : Bool) (c m : Nat) (S : List Seg) :
    stale b ((c, some m) :: S) = stale true S := rfl

theorem diaLoop_cons (pre res : List Nat) (next : Option Nat) (ch : Nat) (rest : List Nat) :
    diaLoop true pre res next (ch :: rest) =
      match macroOf (nextCh next rest) with
      | some m =>
        match rest with
        | [] => .ub
        | c :: rest' => diaLoop true (pre ++ [ch, c])
            (append pre (append pre (append pre res m) [ch]) (w! "}")) (nextCh next rest) rest'
      | none => diaLoop true (pre ++ [ch])
          (match composedOf ch with
            | some s => append pre res s
            | none => res) (nextCh next rest) rest := by
  rw [← look_eq]
  rw [diaLoop]
  simp only [Bool.not_true, Bool.false_and, Bool.false_eq_true, if_false]
  rcases macroOf (nextCh next rest) with _ | m
  · rfl
  · cases rest <;> rfl

theorem append_ne {pre res s : List Nat} (h : res ≠ []) : append pre res s = res ++ s := by
  cases res with
  | nil => exact absurd rfl h
  | cons a t => simp [append]

theorem diaLoop_ne : ∀ (n : Nat) (rest : List Nat), rest.length ≤ n →
    ∀ (pre res : List Nat) (next : Option Nat), res ≠ [] →
    diaLoop true pre res next rest =
      if stale (macroOf next).isSome (segs rest) then .ub
      else .ok (res ++ accentedOnly (segs rest)) := by
  intro n
  induction n with
  | zero =>
    intro rest hn pre res next _
    have : rest = [] := List.length_eq_zero_iff.1 (by omega)
    subst this
    simp [diaLoop, segs, stale, accentedOnly]
  | succ n ih =>
    intro rest hn pre res next hres
    match rest with
    | [] => simp [diaLoop, segs, stale, accentedOnly]
    | [ch] =>
      rw [diaLoop_cons, show segs [ch] = [(ch, none)] from rfl]
      simp only [nextCh, stale]
      rcases hm : macroOf next with _ | m
      · simp only [diaLoop, Option.isSome_none, Bool.false_eq_true, if_false]
        rcases hc : composedOf ch with _ | s
        · rw [accentedOnly_neg (by rw [accented_none, hc]; rfl)]
          simp [accentedOnly]
        · rw [accentedOnly_pos (by rw [accented_none, hc]; rfl), spell_none, hc]
          simp [accentedOnly, append_ne hres]
      · simp
    | ch :: c :: r =>
      rw [diaLoop_cons]
      simp only [nextCh, macroOf_eq]
      rcases hm : accentOf c with _ | m
      · rw [segs_plain hm, stale_cons_none _ _ (segs_ne_nil _ _)]
        rcases hc : composedOf ch with _ | s
        · simp only
          rw [ih (c :: r) (by simp at hn ⊢; omega) _ _ _ hres, macroOf_eq, hm,
            accentedOnly_neg (by rw [accented_none, hc]; rfl)]
          rfl
        · simp only [append_ne hres]
          rw [ih (c :: r) (by simp at hn ⊢; omega) _ _ _ (by simp [hres]), macroOf_eq, hm,
            accentedOnly_pos (by rw [accented_none, hc]; rfl), spell_none, hc, List.append_assoc]
          rfl
      · simp only [segs_marked hm]
        have h1 : res ++ m ≠ [] := by simp [hres]
        have h2 : res ++ m ++ [ch] ≠ [] := by simp
        rw [append_ne hres, append_ne h1, append_ne h2,
          ih r (by simp at hn ⊢; omega) _ _ _ (by simp), stale_cons_some, macroOf_eq, hm,
          accentedOnly_pos (accented_some _ _), spell_some hm]
        simp

/-- The characters before the first accented one. -/
def lead (S : List Seg) : List Nat := (S.takeWhile fun s => !s.accented).flatMap Seg.spell

theorem lead_pos {s : Seg} (h : s.accented = true) (S : List Seg) : lead (s :: S) = [] := by
  rw [lead, List.takeWhile_cons_of_neg (by simp [h])]
  rfl

theorem lead_neg {s : Seg} (h : s.accented = false) (S : List Seg) :
    lead (s :: S) = s.spell ++ lead S := by
  rw [lead, List.takeWhile_cons_of_pos (by simp [h]), List.flatMap_cons]
  rfl

theorem any_pos {s : Seg} (h : s.accented = true) (S : List Seg) :
    (s :: S).any Seg.accented = true := by
  rw [List.any_cons, h, Bool.true_or]

theorem any_neg {s : Seg} (h : s.accented = false) (S : List Seg) :
    (s :: S).any Seg.accented = S.any Seg.accented := by
  rw [List.any_cons, h, Bool.false_or]

theorem diaLoop_nil : ∀ (n : Nat) (rest : List Nat), rest.length ≤ n →
    ∀ (pre : List Nat) (next : Option Nat), macroOf next = none →
    diaLoop true pre [] next rest =
      if stale false (segs rest) then .ub
      else .ok (if (segs rest).any Seg.accented then
        pre ++ lead (segs rest) ++ accentedOnly (segs rest) else []) := by
  intro n
  induction n with
  | zero =>
    intro rest hn pre next _
    have : rest = [] := List.length_eq_zero_iff.1 (by omega)
    subst this
    simp [diaLoop, segs, stale]
  | succ n ih =>
    intro rest hn pre next hnext
    match rest with
    | [] => simp [diaLoop, segs, stale]
    | [ch] =>
      rw [diaLoop_cons, show segs [ch] = [(ch, none)] from rfl]
      simp only [nextCh, stale, hnext, diaLoop]
      rcases hc : composedOf ch with _ | s
      · have h0 : Seg.accented (ch, none) = false := by rw [accented_none, hc]; rfl
        rw [any_neg h0]
        simp
      · have h0 : Seg.accented (ch, none) = true := by rw [accented_none, hc]; rfl
        rw [any_pos h0, lead_pos h0, accentedOnly_pos h0, spell_none, hc]
        simp [accentedOnly, append]
    | ch :: c :: r =>
      rw [diaLoop_cons]
      simp only [nextCh, macroOf_eq]
      rcases hm : accentOf c with _ | m
      · rw [segs_plain hm, stale_cons_none _ _ (segs_ne_nil _ _)]
        rcases hc : composedOf ch with _ | s
        · have h0 : Seg.accented (ch, none) = false := by rw [accented_none, hc]; rfl
          simp only
          rw [ih (c :: r) (by simp at hn ⊢; omega) _ _ (by rw [macroOf_eq, hm]),
            any_neg h0, lead_neg h0, accentedOnly_neg h0, spell_none, hc]
          simp
        · have h0 : Seg.accented (ch, none) = true := by rw [accented_none, hc]; rfl
          have hs : s ≠ [] := composedOf_ne hc
          simp only [show append pre [] s = pre ++ s by simp [append]]
          rw [diaLoop_ne _ (c :: r) (Nat.le_refl _) _ _ _ (by simp [hs]), macroOf_eq, hm,
            any_pos h0, lead_pos h0, accentedOnly_pos h0, spell_none, hc]
          simp
      · have h0 : Seg.accented (ch, some c) = true := accented_some _ _
        simp only [segs_marked hm]
        have hs : m ≠ [] := accentOf_ne hm
        have h1 : pre ++ m ≠ [] := by simp [hs]
        have h2 : pre ++ m ++ [ch] ≠ [] := by simp
        rw [show append pre [] m = pre ++ m by simp [append], append_ne h1, append_ne h2,
          diaLoop_ne _ r (Nat.le_refl _) _ _ _ (by simp), stale_cons_some, macroOf_eq, hm,
          any_pos h0, lead_pos h0, accentedOnly_pos h0, spell_some hm]
        simp

theorem segs_flat {str : List Nat} (h : ∀ s ∈ segs str, s.accented = false) :
    (segs str).flatMap Seg.spell = str := by
  induction hl : str.length using Nat.strongRecOn generalizing str with
  | ind n ih =>
    match str with
    | [] => rfl
    | [c] =>
      have := h (c, none) (by simp [segs])
      simp only [Seg.accented, Option.isSome_eq_false_iff, Option.isNone_iff_eq_none] at this
      simp [segs, Seg.spell, this]
    | c :: m :: r =>
      rw [segs] at h ⊢
      split
      · rename_i hm
        rw [if_pos hm] at h
        have := h (c, some m) (by simp)
        simp [Seg.accented] at this
      · rename_i hm
        rw [if_neg hm] at h
        have h0 := h (c, none) (by simp)
        simp only [Seg.accented, Option.isSome_eq_false_iff, Option.isNone_iff_eq_none] at h0
        rw [List.flatMap_cons, ih (m :: r).length (by simp [← hl])
          (fun s hs => h s (List.mem_cons_of_mem _ hs)) rfl]
        simp [Seg.spell, h0]

theorem lead_all {S : List Seg} (h : ∀ s ∈ S, s.accented = false) :
    lead S = S.flatMap Seg.spell := by
  induction S with
  | nil => rfl
  | cons s S ih =>
    rw [lead_neg (h s (by simp)), List.flatMap_cons,
      ih fun x hx => h x (List.mem_cons_of_mem _ hx)]

theorem accentedOnly_none {S : List Seg} (h : ∀ s ∈ S, s.accented = false) :
    accentedOnly S = [] := by
  rw [accentedOnly, List.filter_eq_nil_iff.2]
  · rfl
  · intro s hs; simp [h s hs]

theorem accent_spell_ne (s : Seg) (hs : s.accented = true) : s.spell ≠ [] := by
  obtain ⟨c, m⟩ := s
  cases m with
  | some m => simp [Seg.spell]
  | none =>
    simp only [Seg.accented, Option.isSome_iff_exists] at hs
    obtain ⟨t, ht⟩ := hs
    simp only [Seg.spell, ht, Option.getD_some]
    exact composedOf_ne ht

theorem spell_ne (s : Seg) : s.spell ≠ [] := by
  cases hs : s.accented
  · obtain ⟨c, m⟩ := s
    cases m with
    | some m => simp [Seg.accented] at hs
    | none =>
      simp only [Seg.accented, Option.isSome_eq_false_iff, Option.isNone_iff_eq_none] at hs
      simp [Seg.spell, hs]
  · exact accent_spell_ne s hs

/-- What the code returns, in closed form: the characters before the first accented one,
then the spelling of the accented characters only. -/
theorem dia_closed (str : List Nat) :
    dia true str =
      if stale false (segs str) then .ub
      else .ok (lead (segs str) ++ accentedOnly (segs str)) := by
  rw [dia, diaLoop_nil _ str (Nat.le_refl _) _ _ rfl]
  cases hst : stale false (segs str)
  · simp only [Bool.false_eq_true, if_false]
    cases ha : (segs str).any Seg.accented
    · have h : ∀ s ∈ segs str, s.accented = false := by simpa using ha
      simp [lead_all h, segs_flat h, accentedOnly_none h]
    · simp only [if_true, List.nil_append]
      have : (lead (segs str) ++ accentedOnly (segs str)) ≠ [] := by
        rw [List.any_eq_true] at ha
        obtain ⟨s, hs, hsa⟩ := ha
        intro h0
        rw [List.append_eq_nil_iff, accentedOnly, List.flatMap_eq_nil_iff] at h0
        exact spell_ne s (h0.2 s (by simp [hs, hsa]))
      cases hx : lead (segs str) ++ accentedOnly (segs str) with
      | nil => exact absurd hx this
      | cons a t => simp
  · simp

theorem stale_iff (S : List Seg) : ∀ b, stale b S = true ↔
    (b = true ∧ ∃ x, S = [(x, none)]) ∨
      ∃ T c m x, S = T ++ [(c, some m), (x, none)] := by
  induction S with
  | nil => intro b; simp [stale]
  | cons s S ih =>
    intro b
    obtain ⟨c, o⟩ := s
    cases S with
    | nil =>
      cases o with
      | none =>
        constructor
        · intro h; exact .inl ⟨h, c, rfl⟩
        · rintro (⟨h, _⟩ | ⟨T, c', m, x, h⟩)
          · exact h
          · have := congrArg List.length h
            simp at this
      | some m =>
        constructor
        · intro h; simp [stale] at h
        · rintro (⟨_, x, h⟩ | ⟨T, c', m, x, h⟩)
          · simp at h
          · have := congrArg List.length h
            simp at this
    | cons s' S' =>
      have hst : stale b ((c, o) :: s' :: S') = stale o.isSome (s' :: S') := by
        cases o <;> rfl
      rw [hst, ih]
      constructor
      · rintro (⟨h, x, hx⟩ | ⟨T, c', m, x, h⟩)
        · right
          obtain ⟨m, rfl⟩ := Option.isSome_iff_exists.1 h
          exact ⟨[], c, m, x, by rw [hx]; rfl⟩
        · right
          exact ⟨(c, o) :: T, c', m, x, by rw [h]; rfl⟩
      · rintro (⟨_, x, hx⟩ | ⟨T, c', m, x, h⟩)
        · simp at hx
        · cases T with
          | nil =>
            simp only [List.nil_append, List.cons.injEq, Prod.mk.injEq] at h
            left
            refine ⟨by simp [h.1.2], x, ?_⟩
            simp [h.2.1, h.2.2]
          | cons t T =>
            simp only [List.cons_append, List.cons.injEq] at h
            right
            exact ⟨T, c', m, x, h.2⟩

/-- **C116.** The iterator leaves the string exactly when the last character has no mark
of its own and follows a marked one. -/
theorem dia_ub_iff (str : List Nat) :
    dia true str = .ub ↔ ∃ T c m x, segs str = T ++ [(c, some m), (x, none)] := by
  rw [dia_closed]
  have := stale_iff (segs str) false
  simp only [Bool.false_eq_true, false_and, false_or] at this
  rw [← this]
  cases stale false (segs str) <;> simp

theorem lead_accented (S : List Seg) :
    lead S ++ accentedOnly S = S.flatMap Seg.spell ↔
      S.Pairwise fun s t => s.accented = true → t.accented = true := by
  have hall : ∀ T : List Seg, accentedOnly T = T.flatMap Seg.spell ↔
      ∀ s ∈ T, s.accented = true := by
    intro T
    constructor
    · intro h
      by_contra hc
      push Not at hc
      obtain ⟨s, hs, hsa⟩ := hc
      have hlen : (accentedOnly T).length < (T.flatMap Seg.spell).length := by
        clear h
        induction T with
        | nil => simp at hs
        | cons t T ih =>
          have hle : ∀ U : List Seg, (accentedOnly U).length ≤ (U.flatMap Seg.spell).length := by
            intro U
            induction U with
            | nil => simp [accentedOnly]
            | cons u U ihU =>
              cases hu : u.accented <;>
                simp only [accentedOnly, List.filter_cons, hu, if_true, Bool.false_eq_true, if_false,
                  List.flatMap_cons, List.length_append] at ihU ⊢ <;> omega
          have hT := hle T
          cases ht : t.accented
          · have h1 : 0 < t.spell.length := List.length_pos_iff.2 (spell_ne t)
            simp only [accentedOnly, List.filter_cons, ht, Bool.false_eq_true, if_false,
              List.flatMap_cons, List.length_append] at hT ⊢
            omega
          · rcases List.mem_cons.1 hs with rfl | hs'
            · exact absurd ht hsa
            · have := ih hs'
              simp only [accentedOnly, List.filter_cons, ht, if_true,
                List.flatMap_cons, List.length_append] at this ⊢
              omega
      rw [h] at hlen
      exact absurd hlen (Nat.lt_irrefl _)
    · intro h
      rw [accentedOnly, List.filter_eq_self.2 h]
  induction S with
  | nil => simp [lead, accentedOnly]
  | cons s S ih =>
    rw [List.pairwise_cons]
    cases hs : s.accented
    · have h1 : lead (s :: S) = s.spell ++ lead S := by simp [lead, hs]
      have h2 : accentedOnly (s :: S) = accentedOnly S := by simp [accentedOnly, hs]
      rw [h1, h2, List.flatMap_cons, List.append_assoc, List.append_cancel_left_eq]
      constructor
      · exact fun h => ⟨fun _ _ h' => absurd h' (by decide), ih.1 h⟩
      · exact fun h => ih.2 h.2
    · have h1 : lead (s :: S) = [] := by simp [lead, hs]
      rw [h1, List.nil_append, hall]
      constructor
      · intro h
        refine ⟨fun t ht _ => h t (List.mem_cons_of_mem _ ht), ?_⟩
        exact List.pairwise_of_forall_mem_list fun a _ b hb _ => h b (List.mem_cons_of_mem _ hb)
      · rintro ⟨h, _⟩ t ht
        rcases List.mem_cons.1 ht with rfl | ht
        · exact hs
        · exact h t ht rfl

/-- **C116.** Exactly when the conversion of accents is right: no character without
accent may follow one with an accent, and the string may not end with a precomposed
character right after a marked one. -/
theorem dia_right_iff (str : List Nat) :
    dia true str = .ok ((segs str).flatMap Seg.spell) ↔
      ((segs str).Pairwise fun s t => s.accented = true → t.accented = true) ∧
        ¬ ∃ T c m x, segs str = T ++ [(c, some m), (x, none)] := by
  rw [← lead_accented, ← dia_ub_iff, dia_closed]
  cases stale false (segs str) <;> simp

/-- **C116.** What is returned otherwise: all characters without accent that follow one
with an accent are lost. -/
theorem dia_exact {str : List Nat}
    (h : ¬ ∃ T c m x, segs str = T ++ [(c, some m), (x, none)]) :
    dia true str = .ok (((segs str).takeWhile fun s => !s.accented).flatMap Seg.spell ++
      ((segs str).filter Seg.accented).flatMap Seg.spell) := by
  rw [← dia_ub_iff, dia_closed] at h
  rw [dia_closed]
  cases hs : stale false (segs str)
  · simp only [Bool.false_eq_true, if_false]
    rfl
  · rw [hs] at h
    exact absurd rfl h

example : dia true (w! "R" ++ [0x302]) = .ok (w! "\\hat{R}") ∧
    dia true (w! "xyã") = .ok (w! "xy\\tilde{a}") := by decide +kernel

/-- **C116 (refuted).** Characters after an accented one are lost, and a single character
after a marked one makes the iterator leave the string. -/
theorem dia_loses :
    dia true (w! "ã_1") = .ok (w! "\\tilde{a}") ∧
    dia true (w! "t" ++ [0x303] ++ w! "_1") = .ok (w! "\\tilde{t}") ∧
    dia true (w! "t" ++ [0x303] ++ w! "1") = .ub := by decide +kernel

/-- **C116.** Strings without accents are kept. -/
theorem dia_plain {str : List Nat}
    (h : ∀ c ∈ str, accentOf c = none ∧ composedOf c = none) :
    dia true str = .ok str := by
  have hs : segs str = str.map fun c => (c, none) := by
    induction str with
    | nil => rfl
    | cons c str ih =>
      cases str with
      | nil => rfl
      | cons m r =>
        rw [segs, (h m (by simp)).1]
        simp only [Option.isSome_none, Bool.false_eq_true, if_false, List.map_cons]
        rw [ih (fun x hx => h x (List.mem_cons_of_mem _ hx))]
        rfl
  have hacc : ∀ s ∈ segs str, s.accented = false := by
    rw [hs]
    intro s hs'
    obtain ⟨c, hc, rfl⟩ := List.mem_map.1 hs'
    simp [Seg.accented, (h c hc).2]
  have := (dia_right_iff str).2 ⟨?_, ?_⟩
  · rw [this, segs_flat hacc]
  · exact List.pairwise_of_forall_mem_list fun a ha _ _ h' => by
      rw [hacc a ha] at h'; cases h'
  · rintro ⟨T, c, m, x, hx⟩
    have := hacc (c, some m) (by rw [hx]; simp)
    simp [Seg.accented] at this

theorem diaLoop_narrow (rest : List Nat) : ∀ (pre res : List Nat) (next : Option Nat),
    (∀ c, next = some c → isAscii c = true) → (pre = [] ∨ ∀ c, rest.head? = some c → isAscii c = true) →
    diaLoop false pre res next rest =
      if ∀ c ∈ rest, isAscii c = true then .ok res else .throws := by
  induction rest with
  | nil => intro pre res next _ _; simp [diaLoop]
  | cons ch rest ih =>
    intro pre res next hnext hpre
    rw [diaLoop]
    cases hch : isAscii ch
    · have : pre = [] := by
        rcases hpre with h | h
        · exact h
        · exact absurd (h ch rfl) (by simp [hch])
      subst this
      simp [hch]
    · cases rest with
      | nil =>
        have h2 : macroOf next = none := by
          cases next with
          | none => rfl
          | some c => simp [macroOf, hnext c rfl]
        cases next with
        | none => simp [nextCh, h2, hch, diaLoop]
        | some c => simp [nextCh, h2, hch, diaLoop, hnext c rfl]
      | cons c r =>
        cases hc : isAscii c
        · simp [nextCh, hc]
        · have h2 : macroOf (some c) = none := by simp [macroOf, hc]
          simp only [nextCh, hc, h2, Bool.not_true, Bool.and_false, Bool.or_false,
            Bool.false_eq_true, if_false]
          rw [ih _ _ _ (fun x hx => by simp at hx; rw [← hx]; exact hc)
            (.inr fun x hx => by simp at hx; rw [← hx]; exact hc)]
          simp [hch, hc]

/-- **C116.** Narrow strings are kept if they are ASCII and refused otherwise; here the
iterator never leaves the string. -/
theorem dia_narrow (str : List Nat) :
    dia false str = if ∀ c ∈ str, c ≤ 0x7F then .ok str else .throws := by
  rw [dia, diaLoop_narrow _ _ _ _ (by simp) (.inl rfl)]
  by_cases h : ∀ c ∈ str, isAscii c = true
  · have h' : ∀ c ∈ str, c ≤ 0x7F := fun c hc => by simpa [isAscii] using h c hc
    rw [if_pos h, if_pos h']
    simp
  · have h' : ¬ ∀ c ∈ str, c ≤ 0x7F :=
      fun h' => h fun c hc => by simpa [isAscii] using h' c hc
    rw [if_neg h, if_neg h']

example : dia false (w! "t_1") = .ok (w! "t_1") ∧ dia false [0x74, 0xCC] = .throws := by
  decide +kernel

/-! ## Both conversions -/

/-- **C116 (partial).** Accents and Greek letters are spelled, everything else is kept
and the order is kept, if no character without accent follows one with an accent and the
string does not end with a precomposed character right after a marked one. -/
theorem utf_partial {str : List Nat}
    (h : (segs str).Pairwise fun s t => s.accented = true → t.accented = true)
    (hend : ¬ ∃ T c m x, segs str = T ++ [(c, some m), (x, none)]) :
    utf true str = .ok (some (((segs str).flatMap Seg.spell).flatMap spell)) := by
  rw [utf, (dia_right_iff str).2 ⟨h, hend⟩]
  exact greek_exact _

example : utf true (w! "αβ") = .ok (some (w! "\\alpha\\beta")) ∧
    utf true (w! "Λ" ++ [0x302]) = .ok (some (w! "\\hat{\\Lambda}")) := by decide +kernel

/-- **C116.** Strings without accents. -/
theorem utf_plain {str : List Nat}
    (h : ∀ c ∈ str, accentOf c = none ∧ composedOf c = none) :
    utf true str = .ok (some (str.flatMap spell)) := by
  rw [utf, dia_plain h]
  exact greek_exact _

example : utf true (w! "κ↑") = .ok (some (w! "\\kappa↑")) := by decide +kernel

/-- **C116.** Narrow strings. -/
theorem utf_narrow (str : List Nat) :
    utf false str = if ∀ c ∈ str, c ≤ 0x7F then .ok (some str) else .throws := by
  rw [utf, dia_narrow]
  by_cases h : ∀ c ∈ str, c ≤ 0x7F
  · simp only [if_pos h]
    rw [greek_narrow, if_pos h]
  · simp only [if_neg h]

example : utf false (w! "f_o") = .ok (some (w! "f_o")) ∧ utf false [0xC3] = .throws := by
  decide +kernel

/-- **C116 (refuted).** The name of a Greek letter runs into a letter that follows, so
LaTeX reads one unknown command. -/
theorem utf_merges : utf true (w! "αb") = .ok (some (w! "\\alphab")) := by decide +kernel

end SeQuant.Latex
