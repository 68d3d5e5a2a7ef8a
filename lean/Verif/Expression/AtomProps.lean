import Verif.Expression.ExpandProps
import Verif.Expression.SimplifyProps

/-!
# Expansion and simplification introduce no atoms, and leave sums of flat products
-/

namespace SeQuant.Expression

variable {K A : Type}

mutual
/-- All atoms satisfy `P`. -/
def AtomsIn (P : A → Prop) : Expr K A → Prop
  | .const _ => True
  | .atom a => P a
  | .prod _ l => AtomsInL P l
  | .sum _ l => AtomsInL P l
def AtomsInL (P : A → Prop) : List (Expr K A) → Prop
  | [] => True
  | e :: l => AtomsIn P e ∧ AtomsInL P l
end

theorem atomsInL_iff {P : A → Prop} {l : List (Expr K A)} : AtomsInL P l ↔ ∀ e ∈ l, AtomsIn P e := by
  induction l with
  | nil => simp [AtomsInL]
  | cons e l ih => simp [AtomsInL, ih]

theorem atomsInL_append {P : A → Prop} {l m : List (Expr K A)} : AtomsInL P (l ++ m) ↔ AtomsInL P l ∧ AtomsInL P m := by
  simp only [atomsInL_iff, List.mem_append]
  exact ⟨fun h => ⟨fun e he => h e (Or.inl he), fun e he => h e (Or.inr he)⟩, fun h e he => he.elim (h.1 e) (h.2 e)⟩

section
variable [CommRing K] [DecidableEq K] [Atoms K A] {P : A → Prop}

omit [DecidableEq K] [Atoms K A] in
mutual
theorem pAppend_atoms {cl : Expr K A → Expr K A} (hc : ∀ e, AtomsIn P e → AtomsIn P (cl e)) (m : Flatten) (st : PState K A) (e : Expr K A)
    (hs : AtomsInL P st.2) (he : AtomsIn P e) : AtomsInL P (pAppend cl m st e).2 := by
  match e with
  | .const c => simpa [pAppend] using hs
  | .atom a => simp only [pAppend]; exact atomsInL_append.mpr ⟨hs, hc _ he, trivial⟩
  | .sum ci l => simp only [pAppend]; exact atomsInL_append.mpr ⟨hs, hc _ he, trivial⟩
  | .prod c l =>
    simp only [pAppend]
    split
    · exact atomsInL_append.mpr ⟨hs, hc _ he, trivial⟩
    · exact pAppendAll_atoms hc _ _ l hs (by simpa [AtomsIn] using he)
theorem pAppendAll_atoms {cl : Expr K A → Expr K A} (hc : ∀ e, AtomsIn P e → AtomsIn P (cl e)) (m : Flatten) (st : PState K A)
    (l : List (Expr K A)) (hs : AtomsInL P st.2) (hl : AtomsInL P l) : AtomsInL P (pAppendAll cl m st l).2 := by
  match l with
  | [] => simpa [pAppendAll] using hs
  | f :: l =>
    simp only [AtomsInL] at hl
    simp only [pAppendAll]
    exact pAppendAll_atoms hc m _ l (pAppend_atoms hc m st f hs hl.1) hl.2
end

omit [DecidableEq K] [Atoms K A] in
theorem addAt_atoms (l : List (Expr K A)) (i : Nat) (c : K) (hl : AtomsInL P l) : AtomsInL P (addAt l i c) := by
  unfold addAt
  split
  · rw [atomsInL_iff] at hl ⊢
    intro e he
    rcases List.mem_or_eq_of_mem_set he with h | h
    · exact hl e h
    · rw [h]; trivial
  · exact hl

mutual
theorem sAppend_atoms {cl : Expr K A → Expr K A} (hc : ∀ e, AtomsIn P e → AtomsIn P (cl e)) (st : SState K A) (e : Expr K A)
    (hs : AtomsInL P st.2) (he : AtomsIn P e) : AtomsInL P (sAppend cl st e).2 := by
  match e with
  | .const c =>
    simp only [sAppend]
    split
    · exact hs
    · split
      · exact addAt_atoms _ _ _ hs
      · exact atomsInL_append.mpr ⟨hs, trivial, trivial⟩
  | .atom a =>
    simp only [sAppend]
    split
    · exact hs
    · exact atomsInL_append.mpr ⟨hs, hc _ he, trivial⟩
  | .prod c l =>
    simp only [sAppend]
    split
    · exact hs
    · exact atomsInL_append.mpr ⟨hs, hc _ he, trivial⟩
  | .sum ci l =>
    simp only [sAppend]
    exact sAppendAll_atoms hc st l hs (by simpa [AtomsIn] using he)
theorem sAppendAll_atoms {cl : Expr K A → Expr K A} (hc : ∀ e, AtomsIn P e → AtomsIn P (cl e)) (st : SState K A)
    (l : List (Expr K A)) (hs : AtomsInL P st.2) (hl : AtomsInL P l) : AtomsInL P (sAppendAll cl st l).2 := by
  match l with
  | [] => simpa [sAppendAll] using hs
  | f :: l =>
    simp only [AtomsInL] at hl
    simp only [sAppendAll]
    exact sAppendAll_atoms hc _ l (sAppend_atoms hc st f hs hl.1) hl.2
end

omit [CommRing K] [DecidableEq K] [Atoms K A] in
theorem foldl_atoms {S : Type} (f : S → Expr K A → S) (g : S → List (Expr K A))
    (hf : ∀ s e, AtomsInL P (g s) → AtomsIn P e → AtomsInL P (g (f s e))) (l : List (Expr K A)) (s : S) (hs : AtomsInL P (g s))
    (hl : AtomsInL P l) : AtomsInL P (g (l.foldl f s)) := by
  induction l generalizing s with
  | nil => exact hs
  | cons e l ih => exact ih _ (hf s e hs hl.1) hl.2

theorem cloneF_atoms (n : Nat) (e : Expr K A) (he : AtomsIn P e) : AtomsIn P (cloneF n e) := by
  induction n generalizing e with
  | zero => cases e <;> exact he
  | succ n ih =>
    have hm : ∀ l : List (Expr K A), AtomsInL P l → AtomsInL P (l.map (cloneF n)) := by
      intro l hl
      rw [atomsInL_iff] at hl ⊢
      intro e he
      obtain ⟨x, hx, rfl⟩ := List.mem_map.mp he
      exact ih x (hl x hx)
    match e with
    | .const c => exact he
    | .atom a => exact he
    | .prod c l =>
      simp only [cloneF, AtomsIn]
      exact foldl_atoms _ (fun s : PState K A => s.2) (fun s e hs he => pAppend_atoms ih _ s e hs he) _ _ trivial (hm l he)
    | .sum ci l =>
      simp only [cloneF, AtomsIn]
      exact foldl_atoms _ (fun s : SState K A => s.2) (fun s e hs he => sAppend_atoms ih s e hs he) _ _ trivial (hm l he)

theorem clone_atoms (e : Expr K A) (he : AtomsIn P e) : AtomsIn P (clone e) := cloneF_atoms _ e he

theorem mkProd_atoms (m : Flatten) (c : K) (l : List (Expr K A)) (hl : AtomsInL P l) : AtomsIn P (mkProd m c l) :=
  pAppendAll_atoms clone_atoms m (c, []) l trivial hl

theorem mkSum_atoms (l : List (Expr K A)) (hl : AtomsInL P l) : AtomsIn P (mkSum l) :=
  sAppendAll_atoms clone_atoms (none, []) l trivial hl

omit [CommRing K] [DecidableEq K] [Atoms K A] in
theorem splitSum_atoms (l p ss q : List (Expr K A)) (h : splitSum l = some (p, ss, q)) (hl : AtomsInL P l) :
    AtomsInL P p ∧ AtomsInL P ss ∧ AtomsInL P q := by
  induction l generalizing p with
  | nil => simp [splitSum] at h
  | cons e l ih =>
    have aux : ∀ e : Expr K A, AtomsIn P e → ((splitSum l).map fun (p, ss, q) => (e :: p, ss, q)) = some (p, ss, q) →
        AtomsInL P p ∧ AtomsInL P ss ∧ AtomsInL P q := by
      intro e he h
      cases hs : splitSum l with
      | none => rw [hs] at h; simp at h
      | some x =>
        obtain ⟨p', ss', q'⟩ := x
        rw [hs] at h
        simp only [Option.map_some, Option.some.injEq, Prod.mk.injEq] at h
        obtain ⟨rfl, rfl, rfl⟩ := h
        obtain ⟨h1, h2, h3⟩ := ih p' hs hl.2
        exact ⟨⟨he, h1⟩, h2, h3⟩
    match e with
    | .sum ci s =>
      simp only [splitSum, Option.some.injEq, Prod.mk.injEq] at h
      obtain ⟨rfl, rfl, rfl⟩ := h
      exact ⟨trivial, by simpa [AtomsIn] using hl.1, hl.2⟩
    | .const c => exact aux _ hl.1 h
    | .atom c => exact aux _ hl.1 h
    | .prod c s => exact aux _ hl.1 h

theorem map_clone_atoms (l : List (Expr K A)) (hl : AtomsInL P l) : AtomsInL P (l.map clone) := by
  rw [atomsInL_iff] at hl ⊢
  intro e he
  obtain ⟨x, hx, rfl⟩ := List.mem_map.mp he
  exact clone_atoms x (hl x hx)

theorem expandProduct_atoms (c : K) (l : List (Expr K A)) (r : Expr K A) (h : expandProduct c l = some r) (hl : AtomsInL P l) :
    AtomsIn P r := by
  unfold expandProduct at h
  split at h
  · exact absurd h (by simp)
  · rename_i p ss q hs
    obtain ⟨h1, h2, h3⟩ := splitSum_atoms l p ss q hs hl
    cases h
    refine foldl_atoms _ (fun s : SState K A => s.2) (fun s e hs he => sAppend_atoms clone_atoms s _ hs ?_) _ _ trivial h2
    exact mkProd_atoms _ _ _ (atomsInL_append.mpr ⟨map_clone_atoms p h1, he, map_clone_atoms q h3⟩)

theorem expandSumLoop_atoms (l done : List (Expr K A)) (res : Option (SState K A)) (hd : AtomsInL P done)
    (hr : ∀ st, res = some st → AtomsInL P st.2) (hl : AtomsInL P l) (st : SState K A) (h : expandSumLoop done res l = some st) :
    AtomsInL P st.2 := by
  induction l generalizing done res with
  | nil => exact hr st h
  | cons e l ih =>
    have hstart : AtomsInL P (res.getD (done.foldl (fun st x => sAppend clone st x) (none, []))).2 := by
      cases res with
      | some s => exact hr s rfl
      | none => exact foldl_atoms _ (fun s : SState K A => s.2) (fun s e hs he => sAppend_atoms clone_atoms s _ hs he) _ _ trivial hd
    have hmap : ∀ st, (res.map fun st => sAppend clone st e) = some st → AtomsInL P st.2 := by
      intro st h
      cases res with
      | none => simp at h
      | some s => simp only [Option.map_some, Option.some.injEq] at h; rw [← h]; exact sAppend_atoms clone_atoms s e (hr s rfl) hl.1
    simp only [expandSumLoop] at h
    refine ih (done ++ [e]) _ (atomsInL_append.mpr ⟨hd, hl.1, trivial⟩) ?_ hl.2 h
    intro st' h'
    match e with
    | .prod c fs =>
      simp only at h'
      split at h'
      · rename_i e' he'
        cases h'
        exact sAppend_atoms clone_atoms _ _ hstart (expandProduct_atoms c fs e' he' (by simpa [AtomsIn] using hl.1))
      · exact hmap st' h'
    | .sum ci s => cases h'; exact sAppend_atoms clone_atoms _ _ hstart hl.1
    | .const c => exact hmap st' h'
    | .atom c => exact hmap st' h'

theorem expandStep_atoms (e : Expr K A) (he : AtomsIn P e) : AtomsIn P (expandStep e).1 := by
  match e with
  | .const c => exact he
  | .atom c => exact he
  | .prod c l =>
    simp only [expandStep]
    split
    · rename_i e' h'; exact expandProduct_atoms c l e' h' he
    · exact he
  | .sum ci l =>
    simp only [expandStep, expandSum]
    have hg : AtomsInL P ((expandSumLoop [] none l).getD (ci, l)).2 := by
      cases hr : expandSumLoop [] none l with
      | none => exact he
      | some st => exact expandSumLoop_atoms l [] none trivial (by simp) he st hr
    split
    · trivial
    · rename_i e' h'; rw [h'] at hg; exact hg.1
    · exact hg

/-- `Power::flatten` stays within `P`. -/
def FlatIn (K : Type) {A : Type} [Atoms K A] (P : A → Prop) : Prop := ∀ a b, P a → (Atoms.flat a : Option (K ⊕ A)) = some (.inr b) → P b

omit [CommRing K] [DecidableEq K] in
theorem flatAtom_atoms (hP : FlatIn K P) (e : Expr K A) (he : AtomsIn P e) : AtomsIn P (flatAtom e) := by
  match e with
  | .atom a =>
    simp only [flatAtom]
    split
    · trivial
    · rename_i b hb; exact hP a b he hb
    · exact he
  | .const c => exact he
  | .prod c l => exact he
  | .sum c l => exact he

omit [CommRing K] [DecidableEq K] in
theorem scanFactors_atoms (hP : FlatIn K P) (l : List (Expr K A)) (hl : AtomsInL P l) : AtomsInL P (scanFactors l).1 := by
  induction l with
  | nil => trivial
  | cons e l ih =>
    simp only [scanFactors]
    split
    · exact ⟨flatAtom_atoms hP e hl.1, hl.2⟩
    · exact ⟨flatAtom_atoms hP e hl.1, ih hl.2⟩

theorem simplifyStep_atoms (hP : FlatIn K P) (e : Expr K A) (he : AtomsIn P e) : AtomsIn P (simplifyStep e).1 := by
  match e with
  | .const c => exact he
  | .atom c => exact he
  | .prod c l =>
    simp only [simplifyStep, simplifyProduct]
    have h1 := scanFactors_atoms hP l (by simpa [AtomsIn] using he)
    have hg : AtomsInL P (if (scanFactors l).2 then pAppendAll clone .Recursively (c, []) (scanFactors l).1 else (c, (scanFactors l).1)).2 := by
      split
      · exact pAppendAll_atoms clone_atoms _ _ _ trivial h1
      · exact h1
    generalize (if (scanFactors l).2 then pAppendAll clone .Recursively (c, []) (scanFactors l).1 else (c, (scanFactors l).1)) = st at hg
    split
    · trivial
    · split
      · trivial
      · rename_i e' h'
        rw [h'] at hg
        split
        · exact hg.1
        · exact hg
      · exact hg
  | .sum ci l =>
    simp only [simplifyStep, simplifySum]
    split
    · trivial
    · simp only [AtomsIn, AtomsInL] at he; exact he.1
    · split
      · exact mkSum_atoms _ he
      · exact he

omit [CommRing K] [DecidableEq K] [Atoms K A] in
theorem loop_atoms {step : Expr K A → Expr K A × Bool} (hs : ∀ e, AtomsIn P e → AtomsIn P (step e).1) (n : Nat) (e r : Expr K A)
    (h : loop step n e = some r) (he : AtomsIn P e) : AtomsIn P r := by
  induction n generalizing e with
  | zero => simp [loop] at h
  | succ n ih =>
    simp only [loop] at h
    split at h
    · exact ih _ h (hs e he)
    · cases h; exact hs e he

omit [CommRing K] [DecidableEq K] [Atoms K A] in
mutual
theorem visit_atoms {f : Expr K A → Option (Expr K A)} (hf : ∀ e r, f e = some r → AtomsIn P e → AtomsIn P r) (e r : Expr K A)
    (h : visit f e = some r) (he : AtomsIn P e) : AtomsIn P r := by
  match e with
  | .const c => exact hf _ r (by simpa [visit] using h) he
  | .atom c => exact hf _ r (by simpa [visit] using h) he
  | .prod c l =>
    simp only [visit] at h
    cases hl : visitL f l with
    | none => simp [hl] at h
    | some l' =>
      simp only [hl, Option.bind_eq_bind, Option.bind_some] at h
      exact hf _ r h (visitL_atoms hf l l' hl he)
  | .sum c l =>
    simp only [visit] at h
    cases hl : visitL f l with
    | none => simp [hl] at h
    | some l' =>
      simp only [hl, Option.bind_eq_bind, Option.bind_some] at h
      exact hf _ r h (visitL_atoms hf l l' hl he)
theorem visitL_atoms {f : Expr K A → Option (Expr K A)} (hf : ∀ e r, f e = some r → AtomsIn P e → AtomsIn P r) (l r : List (Expr K A))
    (h : visitL f l = some r) (hl : AtomsInL P l) : AtomsInL P r := by
  match l with
  | [] => simp only [visitL, Option.some.injEq] at h; rw [← h]; trivial
  | e :: l =>
    simp only [visitL] at h
    cases he : visit f e with
    | none => simp [he] at h
    | some e' =>
      cases hl' : visitL f l with
      | none => simp [he, hl'] at h
      | some l' =>
        simp only [he, hl', Option.bind_eq_bind, Option.bind_some, pure, Option.some.injEq] at h
        rw [← h]
        exact ⟨visit_atoms hf e e' he hl.1, visitL_atoms hf l l' hl' hl.2⟩
end

/-- **C11**: expansion introduces no atoms. -/
theorem expand_atoms (n : Nat) (e r : Expr K A) (h : expand n e = some r) (he : AtomsIn P e) : AtomsIn P r :=
  visit_atoms (fun e r h he => loop_atoms expandStep_atoms n e r h he) e r h he

/-- **C13**: simplification introduces no atoms but flattened powers. -/
theorem rapidSimplify_atoms (hP : FlatIn K P) (n : Nat) (e r : Expr K A) (h : rapidSimplify n e = some r) (he : AtomsIn P e) : AtomsIn P r :=
  visit_atoms (fun e r h he => loop_atoms (simplifyStep_atoms hP) n e r h he) e r h he

/-! ### Shape of simplified expressions -/

/-- A constant, an atom or a product of atoms. -/
def FlatTerm : Expr K A → Prop
  | .const _ => True
  | .atom _ => True
  | .prod _ l => ∀ f ∈ l, ∃ a, f = .atom a
  | .sum _ _ => False

/-- A flat term or a sum of flat terms. -/
def FlatSum : Expr K A → Prop
  | .sum _ l => ∀ f ∈ l, FlatTerm f
  | e => FlatTerm e

theorem clone_flat (e : Expr K A) (he : FlatTerm e) : clone e = e := by
  match e with
  | .const c => rfl
  | .atom a => rfl
  | .prod c l =>
    have he' : ∀ f ∈ l, ∃ a, f = .atom a := he
    have hd : depthL l = 0 := by
      clear he
      induction l with
      | nil => rfl
      | cons f l ih =>
        obtain ⟨a, rfl⟩ := he' f (by simp)
        simp [depthL, Expr.depth, ih (fun g hg => he' g (by simp [hg]))]
    have gen : ∀ (l acc : List (Expr K A)), (∀ f ∈ l, ∃ a, f = .atom a) →
        l.foldl (fun st f => pAppend (fun x => x) .No st f) (c, acc) = (c, acc ++ l) := by
      intro l
      induction l with
      | nil => simp
      | cons f l ih =>
        intro acc hl
        obtain ⟨a, rfl⟩ := hl f (by simp)
        simp only [List.foldl_cons, pAppend]
        rw [ih _ (fun g hg => hl g (by simp [hg]))]
        simp
    simp only [clone, Expr.depth, hd, cloneF]
    rw [List.map_id', gen l [] he', List.nil_append]
  | .sum ci l => exact absurd he (by simp [FlatTerm])

theorem pAppendAll_flat (l : List (Expr K A)) (st : PState K A) (hs : ∀ f ∈ st.2, ∃ a, f = .atom a) (hl : ∀ f ∈ l, FlatTerm f) :
    ∀ f ∈ (pAppendAll clone .Recursively st l).2, ∃ a, f = .atom a := by
  have atoms : ∀ (l : List (Expr K A)) (st : PState K A), (∀ f ∈ l, ∃ a, f = .atom a) → (∀ f ∈ st.2, ∃ a, f = .atom a) →
      ∀ f ∈ (pAppendAll clone .Recursively st l).2, ∃ a, f = .atom a := by
    intro l
    induction l with
    | nil => intro st _ hs; simpa [pAppendAll] using hs
    | cons f l ih =>
      intro st hl hs
      obtain ⟨a, rfl⟩ := hl f (by simp)
      simp only [pAppendAll, pAppend]
      refine ih _ (fun g hg => hl g (by simp [hg])) ?_
      intro g hg
      simp only [List.mem_append, List.mem_singleton] at hg
      rcases hg with hg | rfl
      · exact hs g hg
      · exact ⟨a, rfl⟩
  induction l generalizing st with
  | nil => simpa [pAppendAll] using hs
  | cons f l ih =>
    have hf := hl f (by simp)
    simp only [pAppendAll]
    refine ih _ ?_ (fun g hg => hl g (by simp [hg]))
    match f with
    | .const c => simpa [pAppend] using hs
    | .atom a =>
      simp only [pAppend]
      intro g hg
      simp only [List.mem_append, List.mem_singleton] at hg
      rcases hg with hg | rfl
      · exact hs g hg
      · exact ⟨a, rfl⟩
    | .prod c l' =>
      simp only [pAppend]
      rw [if_neg (by decide)]
      exact atoms l' _ hf hs
    | .sum ci l' => exact absurd hf (by simp [FlatTerm])

omit [CommRing K] [DecidableEq K] in
theorem scanFactors_flat (l : List (Expr K A)) (hl : ∀ f ∈ l, FlatTerm f) :
    (∀ f ∈ (scanFactors l).1, FlatTerm f) ∧ ((scanFactors l).2 = false → ∀ f ∈ (scanFactors l).1, ∃ a, f = .atom a) := by
  have hfl : ∀ e : Expr K A, FlatTerm e → FlatTerm (flatAtom e) := by
    intro e he
    match e with
    | .atom a => simp only [flatAtom]; split <;> trivial
    | .const c => exact he
    | .prod c l => exact he
    | .sum c l => exact he
  induction l with
  | nil => simp [scanFactors]
  | cons e l ih =>
    obtain ⟨i1, i2⟩ := ih (fun g hg => hl g (by simp [hg]))
    have he := hfl e (hl e (by simp))
    simp only [scanFactors]
    split
    · refine ⟨?_, by simp⟩
      intro f hf
      rcases List.mem_cons.mp hf with rfl | hf
      · exact he
      · exact hl f (by simp [hf])
    · rename_i hn
      refine ⟨?_, ?_⟩
      · intro f hf
        rcases List.mem_cons.mp hf with rfl | hf
        · exact he
        · exact i1 f hf
      · intro h f hf
        rcases List.mem_cons.mp hf with rfl | hf
        · revert he hn
          cases flatAtom e with
          | const c => simp [Expr.isProd, Expr.isConst]
          | atom a => intro _ _; exact ⟨a, rfl⟩
          | prod c l => simp [Expr.isProd]
          | sum c l => simp [FlatTerm]
        · exact i2 h f hf

theorem simplifyProduct_flat (c : K) (l : List (Expr K A)) (hl : ∀ f ∈ l, FlatTerm f) : FlatTerm (simplifyProduct c l).1 := by
  obtain ⟨h1, h2⟩ := scanFactors_flat l hl
  simp only [simplifyProduct]
  have hg : ∀ f ∈ (if (scanFactors l).2 then pAppendAll clone .Recursively (c, []) (scanFactors l).1 else (c, (scanFactors l).1)).2,
      ∃ a, f = .atom a := by
    split
    · exact pAppendAll_flat _ _ (by simp) h1
    · rename_i h; exact h2 (by simpa using h)
  generalize (if (scanFactors l).2 then pAppendAll clone .Recursively (c, []) (scanFactors l).1 else (c, (scanFactors l).1)) = st at hg
  split
  · trivial
  · split
    · trivial
    · rename_i e' h'
      rw [h'] at hg
      split
      · obtain ⟨a, rfl⟩ := hg e' (by simp); trivial
      · exact hg
    · exact hg

omit [CommRing K] [DecidableEq K] [Atoms K A] in
theorem flatSL_flat (l : List (Expr K A)) (hl : ∀ f ∈ l, FlatTerm f) : flatSL l = l := by
  induction l with
  | nil => rfl
  | cons e l ih =>
    have he := hl e (by simp)
    rw [flatSL, ih (fun f hf => hl f (by simp [hf]))]
    cases e with
    | sum ci s => exact absurd he (by simp [FlatTerm])
    | _ => rfl

/-- What the loop of the visitor starts from: children are flat terms. -/
def Pre : Expr K A → Prop
  | .prod _ l => ∀ f ∈ l, FlatTerm f
  | e => FlatSum e

theorem loop_flat (n : Nat) (e r : Expr K A) (h : loop simplifyStep n e = some r)
    (he : Pre e) : FlatSum r ∧ (e.isSum = false → FlatTerm r) := by
  have hstep : ∀ e : Expr K A, Pre e →
      FlatSum (simplifyStep e).1 ∧ (e.isSum = false → FlatTerm (simplifyStep e).1) := by
    intro e he
    have hts : ∀ e : Expr K A, FlatTerm e → FlatSum e := by
      intro e h; cases e <;> first | exact h | exact absurd h (by simp [FlatTerm])
    match e with
    | .const c => exact ⟨trivial, fun _ => trivial⟩
    | .atom c => exact ⟨trivial, fun _ => trivial⟩
    | .prod c l =>
      have := simplifyProduct_flat c l he
      exact ⟨hts _ this, fun _ => this⟩
    | .sum ci l =>
      refine ⟨?_, by simp [Expr.isSum]⟩
      have he' : ∀ f ∈ l, FlatTerm f := he
      simp only [simplifyStep, simplifySum]
      split
      · trivial
      · rename_i e'; exact hts _ (he' e' (by simp))
      · split
        · refine sAppendAll_all (P := FlatTerm) (cl := clone) (fun _ => trivial) (none, []) _ (by simp) ?_
          intro e h _
          have he2 : e ∈ l := by
            rw [← flatSL_flat l he']; exact h
          have ht := he' e he2
          rw [clone_flat e ht]
          exact ht
        · exact he'
  have hin : ∀ e : Expr K A, FlatSum e → Pre e := by
    intro e h
    match e with
    | .const c => exact h
    | .atom c => exact h
    | .sum ci l => exact h
    | .prod c l =>
      intro f hf
      obtain ⟨a, rfl⟩ := h f hf
      trivial
  induction n generalizing e with
  | zero => simp [loop] at h
  | succ n ih =>
    simp only [loop] at h
    obtain ⟨h1, h2⟩ := hstep e he
    split at h
    · obtain ⟨j1, j2⟩ := ih _ h (hin _ h1)
      refine ⟨j1, fun hs => j2 ?_⟩
      have := h2 hs
      cases hq : (simplifyStep e).1 <;> first | rfl | (rw [hq] at this; exact absurd this (by simp [FlatTerm]))
    · cases h; exact ⟨h1, h2⟩

mutual
theorem simplify_noSum_flat (n : Nat) (e r : Expr K A) (h : visit (loop simplifyStep n) e = some r) (he : e.noSum) : FlatTerm r := by
  match e with
  | .const c => exact (loop_flat n (.const c) r (by simpa [visit] using h) trivial).2 rfl
  | .atom c => exact (loop_flat n (.atom c) r (by simpa [visit] using h) trivial).2 rfl
  | .prod c l =>
    simp only [visit] at h
    cases hl : visitL (loop simplifyStep n) l with
    | none => simp [hl] at h
    | some l' =>
      simp only [hl, Option.bind_eq_bind, Option.bind_some] at h
      simp only [Expr.noSum] at he
      exact (loop_flat n _ r h (simplifyL_noSum_flat n l l' hl he)).2 rfl
  | .sum c l => exact absurd he (by simp [Expr.noSum])
theorem simplifyL_noSum_flat (n : Nat) (l r : List (Expr K A)) (h : visitL (loop simplifyStep n) l = some r) (hl : noSumL l) :
    ∀ f ∈ r, FlatTerm f := by
  match l with
  | [] => simp only [visitL, Option.some.injEq] at h; rw [← h]; simp
  | e :: l =>
    simp only [visitL] at h
    simp only [noSumL] at hl
    cases he : visit (loop simplifyStep n) e with
    | none => simp [he] at h
    | some e' =>
      cases hl' : visitL (loop simplifyStep n) l with
      | none => simp [he, hl'] at h
      | some l' =>
        simp only [he, hl', Option.bind_eq_bind, Option.bind_some, pure, Option.some.injEq] at h
        rw [← h]
        intro f hf
        rcases List.mem_cons.mp hf with rfl | hf
        · exact simplify_noSum_flat n e _ he hl.1
        · exact simplifyL_noSum_flat n l l' hl' hl.2 f hf
end

/-- **C13**: simplification of an expanded expression gives a sum of products of atoms, or one such term. -/
theorem rapidSimplify_flat (n : Nat) (e r : Expr K A) (h : rapidSimplify n e = some r) (he : e.Expanded) : FlatSum r := by
  have hts : ∀ e : Expr K A, FlatTerm e → FlatSum e := by
    intro e h; cases e <;> first | exact h | exact absurd h (by simp [FlatTerm])
  match e with
  | .const c => exact hts _ (simplify_noSum_flat n _ r h he)
  | .atom c => exact hts _ (simplify_noSum_flat n _ r h he)
  | .prod c l => exact hts _ (simplify_noSum_flat n _ r h he)
  | .sum ci l =>
    simp only [rapidSimplify, visit] at h
    cases hl : visitL (loop simplifyStep n) l with
    | none => simp [hl] at h
    | some l' =>
      simp only [hl, Option.bind_eq_bind, Option.bind_some] at h
      simp only [Expr.Expanded] at he
      exact (loop_flat n _ r h (simplifyL_noSum_flat n l l' hl ((noSumL_iff l).mpr he))).1

end

/-- `X (Y + 2)` has no atoms but the first two, and neither has its expansion. -/
example : ∃ n r, expand n (.prod 3 [Inst.X, .sum none [Inst.Y, .const 2]] : Inst.E) = some r ∧ AtomsIn (fun a => a = .x ∨ a = .y) r := by
  obtain ⟨N, r, h, -⟩ := expand_correct Inst.mat_interp (.prod 3 [Inst.X, .sum none [Inst.Y, .const 2]] : Inst.E)
  exact ⟨N, r, h N le_rfl, expand_atoms N _ r (h N le_rfl) (by simp [AtomsIn, AtomsInL])⟩

example (r : Inst.E) (h : rapidSimplify 20 (.sum none [.prod 1 [.prod 2 [Inst.X, .const 3]], .const 0, .prod 0 [Inst.Y]] : Inst.E) = some r) :
    FlatSum r := rapidSimplify_flat 20 _ r h (by simp [Expr.Expanded, Expr.noSum, noSumL, Inst.X, Inst.Y])

end SeQuant.Expression
