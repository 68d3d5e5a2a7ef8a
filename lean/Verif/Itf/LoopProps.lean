import Verif.Itf.Model
import Mathlib.Data.List.Basic

/-!
# Loops over batched indices (C98)
-/

namespace SeQuant.Itf

open SeQuant.Layout

/-! ### Which indices are batched -/

/-- The three questions about an expression have answers that fit. -/
theorem isBatched_iff (m : BatchMap) (id : Option Nat) : isBatched m id = true ↔ batchIndices m id ≠ [] := by
  unfold isBatched batchIndices
  cases m.findOrGlobal id with
  | none => simp
  | some l => simp

theorem isIndexBatched_iff (m : BatchMap) (i : Idx) (id : Option Nat) : isIndexBatched m i id = true ↔ i ∈ batchIndices m id := by
  unfold isIndexBatched batchIndices
  cases m.findOrGlobal id with
  | none => simp
  | some l => simp

/-- Indices set for an expression are used for it, even an empty list; the global ones are used for the others. -/
theorem batchIndices_eq (m : BatchMap) (id : Nat) : batchIndices m (some id) = ((m.lookup (some id)).orElse fun _ => m.lookup none).getD [] := by
  unfold batchIndices BatchMap.findOrGlobal BatchMap.find
  cases m.lookup (some id) <;> simp

/-! ### Which loops a line is in -/

/-- Indentation of a line. -/
def Line.indentation : Line → Nat
  | .loop d _ => d
  | .stmt d _ => d
  | .other d => d

/-- A line ends the loops that are indented as much or more. The innermost loop comes first. -/
def pop (d : Nat) (st : List (Nat × List Idx)) : List (Nat × List Idx) := st.dropWhile fun p => decide (d ≤ p.1)

/-- The loops that are open after a line. -/
def stackStep (st : List (Nat × List Idx)) (l : Line) : List (Nat × List Idx) :=
  match l with
  | .loop d is => (d, is) :: pop d st
  | .stmt d _ => pop d st
  | .other d => pop d st

/-- The loops that are open after some lines. -/
def stackAfter (ls : List Line) : List (Nat × List Idx) := ls.foldl stackStep []

/-- The indices that are looped over in a line with indentation `d` after the lines `ls`, the outermost first. -/
def enclosing (ls : List Line) (d : Nat) : List Idx := ((pop d (stackAfter ls)).reverse.map (·.2)).flatten

/-- Two nested loops, then a line outside. -/
example : enclosing [.loop 0 [⟨1, 1⟩], .stmt 1 0, .loop 1 [⟨0, 1⟩, ⟨0, 2⟩]] 2 = [⟨1, 1⟩, ⟨0, 1⟩, ⟨0, 2⟩] ∧
    enclosing [.loop 0 [⟨1, 1⟩], .stmt 1 0, .loop 1 [⟨0, 1⟩, ⟨0, 2⟩], .stmt 2 1] 0 = [] := by decide

/-! ### Invariant of the generator -/

/-- Loops, innermost first, with their indentations. -/
def stackOf : List (List Idx) → List (Nat × List Idx)
  | [] => []
  | r :: rs => (rs.length, r) :: stackOf rs

theorem pop_stackOf (rs : List (List Idx)) : pop rs.length (stackOf rs) = stackOf rs := by
  cases rs with
  | nil => rfl
  | cons r rs => simp [pop, stackOf]

theorem pop_zero (st : List (Nat × List Idx)) : pop 0 st = [] := by
  induction st with
  | nil => rfl
  | cons a l ih => simpa [pop] using ih

theorem stackOf_snd (rs : List (List Idx)) : (stackOf rs).map (·.2) = rs := by
  induction rs with
  | nil => rfl
  | cons r rs ih => simp [stackOf, ih]

/-- What holds between events. -/
def Inv (g : Gen) : Prop :=
  ∃ rs : List (List Idx), pop g.indent (stackAfter g.out) = stackOf rs ∧ rs.length = g.indent ∧ rs.reverse.flatten = g.cur ∧ ∀ r ∈ rs, r ≠ []

theorem Inv.enclosing {g : Gen} (h : Inv g) : enclosing g.out g.indent = g.cur := by
  obtain ⟨rs, h1, h2, h3, h4⟩ := h
  unfold Itf.enclosing
  rw [h1, List.map_reverse, stackOf_snd, h3]

theorem Inv.zero {g : Gen} (h : Inv g) (hc : g.cur = []) : g.indent = 0 := by
  obtain ⟨rs, h1, h2, h3, h4⟩ := h
  rw [hc] at h3
  cases rs with
  | nil => simpa using h2.symm
  | cons r rs =>
    have : r = [] := by
      have := List.flatten_eq_nil_iff.1 h3 r (by simp)
      exact this
    exact absurd this (h4 r (by simp))

theorem stackAfter_append (ls : List Line) (l : Line) : stackAfter (ls ++ [l]) = stackStep (stackAfter ls) l := by
  simp [stackAfter]

theorem inv_line {g : Gen} (h : Inv g) (l : Line) (hl : l = .other g.indent ∨ ∃ id, l = .stmt g.indent id) : Inv { g with out := g.out ++ [l] } := by
  obtain ⟨rs, h1, h2, h3, h4⟩ := h
  refine ⟨rs, ?_, h2, h3, h4⟩
  simp only [stackAfter_append]
  have : stackStep (stackAfter g.out) l = stackOf rs := by
    rcases hl with rfl | ⟨id, rfl⟩ <;> exact h1
  rw [this, ← h2]
  exact pop_stackOf rs

theorem inv_endBatching {g : Gen} (h : Inv g) : Inv (endBatching g) ∧ (endBatching g).cur = [] ∧ (endBatching g).indent = 0 ∧ (endBatching g).out = g.out := by
  unfold endBatching
  by_cases hc : g.cur = []
  · rw [if_pos (by simp [hc])]
    exact ⟨h, hc, h.zero hc, rfl⟩
  · rw [if_neg (by simpa using hc)]
    exact ⟨⟨[], by simp [pop_zero, stackOf], rfl, rfl, by simp⟩, rfl, rfl, rfl⟩

theorem inv_openLoop {g : Gen} (h : Inv g) {batch : List Idx} {shared : Nat} (hs : batch.take shared = g.cur) (hne : shared < batch.length) :
    Inv (openLoop batch shared g) := by
  obtain ⟨rs, h1, h2, h3, h4⟩ := h
  refine ⟨batch.drop shared :: rs, ?_, ?_, ?_, ?_⟩
  · simp only [openLoop, stackAfter_append, stackStep]
    rw [h1]
    have : (g.indent, batch.drop shared) :: stackOf rs = stackOf (batch.drop shared :: rs) := by rw [stackOf, h2]
    rw [this]
    have := pop_stackOf (batch.drop shared :: rs)
    rw [List.length_cons, h2] at this
    exact this
  · simp [openLoop, h2]
  · simp only [List.reverse_cons, List.flatten_append, h3, openLoop, List.flatten_cons, List.flatten_nil, List.append_nil]
    rw [← hs, List.take_append_drop]
  · intro r hr
    rcases List.mem_cons.1 hr with rfl | hr
    · intro e
      have := congrArg List.length e
      simp at this
      omega
    · exact h4 r hr

theorem numShared_take (l m : List Idx) (h : numShared l m = l.length) : m.take l.length = l ∧ l.length ≤ m.length := by
  induction l generalizing m with
  | nil => simp
  | cons a l ih =>
    cases m with
    | nil => simp [numShared] at h
    | cons b m =>
      simp only [numShared] at h
      split at h
      · rename_i e
        obtain ⟨h1, h2⟩ := ih m (by simpa using h)
        simp [e, h1, h2]
      · simp at h

theorem inv_beginExpression {g : Gen} (h : Inv g) (fuse : List Idx → Nat) (m : BatchMap) (id : Nat) :
    Inv (beginExpression fuse m id g) ∧ (beginExpression fuse m id g).cur = batchIndices m (some id) := by
  unfold beginExpression
  by_cases hb : isBatched m (some id) = true
  · rw [if_pos hb]
    have hne := (isBatched_iff m (some id)).1 hb
    generalize batchIndices m (some id) = batch at hne
    simp only
    have hpos : 0 < batch.length := List.length_pos_iff.2 hne
    split
    · rename_i hc
      simp only [Bool.and_eq_true, decide_eq_true_eq] at hc
      obtain ⟨h1, h2⟩ := numShared_take g.cur batch hc.2
      split
      · rename_i he
        rw [hc.2] at he
        refine ⟨h, ?_⟩
        rw [← h1, ← he, List.take_length]
      · rename_i he
        refine ⟨inv_openLoop h (by rw [hc.2]; exact h1) (by omega), rfl⟩
    · obtain ⟨h1, h2, h3, _⟩ := inv_endBatching h
      exact ⟨inv_openLoop h1 (by rw [h2]; rfl) hpos, rfl⟩
  · rw [if_neg hb]
    obtain ⟨h1, h2, _, _⟩ := inv_endBatching h
    have : batchIndices m (some id) = [] := by
      by_contra hc
      exact hb ((isBatched_iff m (some id)).2 hc)
    exact ⟨h1, by rw [h2, this]⟩

/-! ### Every statement is in the right loops -/

/-- Statements are inside loops over exactly the batch indices of their expression, other lines are in no loop. -/
def WellLooped (m : BatchMap) (out : List Line) : Prop :=
  ∀ pre l post, out = pre ++ l :: post →
    match l with
    | .stmt d id => enclosing pre d = batchIndices m (some id)
    | .other d => enclosing pre d = []
    | .loop _ is => is ≠ []

theorem wellLooped_nil (m : BatchMap) : WellLooped m [] := by
  intro pre l post h
  simp at h

theorem wellLooped_append {m : BatchMap} {out : List Line} (h : WellLooped m out) {l : Line}
    (hl : match l with
    | .stmt d id => enclosing out d = batchIndices m (some id)
    | .other d => enclosing out d = []
    | .loop _ is => is ≠ []) : WellLooped m (out ++ [l]) := by
  intro pre l' post he
  rcases List.eq_nil_or_concat post with rfl | ⟨post', x, rfl⟩
  · obtain ⟨h1, h2⟩ := List.append_inj' he (by simp)
    cases h2
    subst h1
    exact hl
  · have he' : out ++ [l] = (pre ++ l' :: post') ++ [x] := by rw [he]; simp
    obtain ⟨h1, _⟩ := List.append_inj' he' (by simp)
    exact h pre l' post' h1

/-- The statements of some lines. -/
def stmtsOf (out : List Line) : List Nat := out.filterMap fun l => match l with | .stmt _ id => some id | _ => none

theorem run_stmts {g : Gen} (h : Inv g) (fuse : List Idx → Nat) {m : BatchMap} (hw : WellLooped m g.out) {id : Nat} (hc : g.cur = batchIndices m (some id)) (n : Nat) :
    Inv (runEvents fuse m g (List.replicate n (.stmt id))) ∧ WellLooped m (runEvents fuse m g (List.replicate n (.stmt id))).out ∧
      stmtsOf (runEvents fuse m g (List.replicate n (.stmt id))).out = stmtsOf g.out ++ List.replicate n id := by
  induction n generalizing g with
  | zero => simpa [runEvents] using ⟨h, hw⟩
  | succ n ih =>
    have h1 : Inv (step fuse m g (.stmt id)) := inv_line h _ (Or.inr ⟨id, rfl⟩)
    have h2 : WellLooped m (step fuse m g (.stmt id)).out := wellLooped_append hw (by simp only; rw [h.enclosing, hc])
    obtain ⟨a, b, c⟩ := ih (g := step fuse m g (.stmt id)) h1 h2 hc
    rw [List.replicate_succ]
    refine ⟨a, b, ?_⟩
    have : stmtsOf (step fuse m g (.stmt id)).out = stmtsOf g.out ++ [id] := by simp [step, stmtsOf]
    have c' : stmtsOf (runEvents fuse m g (Event.stmt id :: List.replicate n (.stmt id))).out = _ := c
    rw [c', this, List.replicate_succ]
    simp

theorem beginExpression_out {g : Gen} (h : Inv g) (fuse : List Idx → Nat) {m : BatchMap} (hw : WellLooped m g.out) (id : Nat) :
    WellLooped m (beginExpression fuse m id g).out ∧ stmtsOf (beginExpression fuse m id g).out = stmtsOf g.out := by
  unfold beginExpression
  obtain ⟨_, _, _, e⟩ := inv_endBatching h
  have hL : ∀ is d, is ≠ [] → WellLooped m (g.out ++ [.loop d is]) := fun is d hne => wellLooped_append hw hne
  have hS : ∀ is d, stmtsOf (g.out ++ [.loop d is]) = stmtsOf g.out := fun is d => by simp [stmtsOf]
  split
  · rename_i hb
    have hne := (isBatched_iff m (some id)).1 hb
    simp only
    split
    · rename_i hc
      simp only [Bool.and_eq_true, decide_eq_true_eq] at hc
      obtain ⟨h1, h2⟩ := numShared_take g.cur _ hc.2
      split
      · exact ⟨hw, rfl⟩
      · rename_i hn
        refine ⟨hL _ _ ?_, hS _ _⟩
        intro e'
        have := congrArg List.length e'
        simp at this
        omega
    · simp only [openLoop, e]
      exact ⟨hL _ _ (by simpa using hne), hS _ _⟩
  · rw [e]; exact ⟨hw, rfl⟩

theorem run_exprs {g : Gen} (h : Inv g) (fuse : List Idx → Nat) {m : BatchMap} (hw : WellLooped m g.out) (gr : Group) :
    Inv (runEvents fuse m g (gr.flatMap exprEvents)) ∧ WellLooped m (runEvents fuse m g (gr.flatMap exprEvents)).out ∧
      stmtsOf (runEvents fuse m g (gr.flatMap exprEvents)).out = stmtsOf g.out ++ gr.flatMap (fun e => List.replicate e.2 e.1) := by
  induction gr generalizing g with
  | nil => simpa [runEvents] using ⟨h, hw⟩
  | cons e gr ih =>
    obtain ⟨h1, h2⟩ := inv_beginExpression h fuse m e.1
    obtain ⟨h3, h4⟩ := beginExpression_out h fuse hw e.1
    obtain ⟨h5, h6, h7⟩ := run_stmts h1 fuse h3 h2 e.2
    obtain ⟨h8, h9, h10⟩ := ih h5 h6
    have heq : runEvents fuse m g ((e :: gr).flatMap exprEvents) =
        runEvents fuse m (runEvents fuse m (beginExpression fuse m e.1 g) (List.replicate e.2 (.stmt e.1))) (gr.flatMap exprEvents) := by
      simp only [List.flatMap_cons, exprEvents, runEvents, List.cons_append, List.foldl_cons, List.foldl_append]
      rfl
    rw [heq]
    refine ⟨h8, h9, ?_⟩
    rw [h10, h7, h4, List.flatMap_cons, List.append_assoc]

theorem run_others {g : Gen} (h : Inv g) (hc : g.cur = []) (fuse : List Idx → Nat) {m : BatchMap} (hw : WellLooped m g.out) (n : Nat) :
    Inv (runEvents fuse m g (List.replicate n .declare)) ∧ (runEvents fuse m g (List.replicate n .declare)).cur = [] ∧
      WellLooped m (runEvents fuse m g (List.replicate n .declare)).out ∧ stmtsOf (runEvents fuse m g (List.replicate n .declare)).out = stmtsOf g.out := by
  induction n generalizing g with
  | zero => simpa [runEvents] using ⟨h, hc, hw⟩
  | succ n ih =>
    have h1 : Inv (step fuse m g .declare) := inv_line h _ (Or.inl rfl)
    have h2 : WellLooped m (step fuse m g .declare).out := wellLooped_append hw (by simp only; rw [h.enclosing, hc])
    obtain ⟨a, b, c, d⟩ := ih h1 hc h2
    refine ⟨a, b, c, ?_⟩
    have d' : stmtsOf (runEvents fuse m g (List.replicate (n + 1) .declare)).out = stmtsOf (step fuse m g .declare).out := d
    rw [d']
    simp [step, stmtsOf]

theorem run_groups {g : Gen} (h : Inv g) (hc : g.cur = []) (fuse : List Idx → Nat) {m : BatchMap} (hw : WellLooped m g.out) (groups : List Group) :
    let r := runEvents fuse m g (groups.flatMap (fun gr => Event.beginSection :: (gr.flatMap exprEvents ++ [.endSection])))
    Inv r ∧ r.cur = [] ∧ WellLooped m r.out ∧ stmtsOf r.out = stmtsOf g.out ++ groups.flatten.flatMap (fun e => List.replicate e.2 e.1) := by
  induction groups generalizing g with
  | nil => simpa [runEvents] using ⟨h, hc, hw⟩
  | cons gr groups ih =>
    have h1 : Inv (step fuse m g .beginSection) := inv_line h _ (Or.inl rfl)
    have h2 : WellLooped m (step fuse m g .beginSection).out := wellLooped_append hw (by simp only; rw [h.enclosing, hc])
    have h3 : stmtsOf (step fuse m g .beginSection).out = stmtsOf g.out := by simp [step, stmtsOf]
    obtain ⟨h4, h5, h6⟩ := run_exprs h1 fuse h2 gr
    obtain ⟨h7, h8, _, h9⟩ := inv_endBatching h4
    obtain ⟨h10, h11, h12, h13⟩ := ih h7 h8 (by rw [h9]; exact h5)
    have heq : runEvents fuse m g ((gr :: groups).flatMap (fun gr => Event.beginSection :: (gr.flatMap exprEvents ++ [.endSection]))) =
        runEvents fuse m (endBatching (runEvents fuse m (step fuse m g .beginSection) (gr.flatMap exprEvents)))
          (groups.flatMap (fun gr => Event.beginSection :: (gr.flatMap exprEvents ++ [.endSection]))) := by
      simp only [List.flatMap_cons, runEvents, List.cons_append, List.foldl_cons, List.foldl_append, List.foldl_nil]
      rfl
    simp only
    rw [heq]
    refine ⟨h10, h11, h12, ?_⟩
    rw [h13, h9, h6, h3, List.flatten_cons, List.flatMap_append, List.append_assoc]

/-- **Every statement is inside loops over exactly the batch indices of its expression**, in their order, and every other line is in no loop; no
statement is lost; and afterwards the generator is as it was at the beginning. All this whatever loops are fused. -/
theorem export_loops (fuse : List Idx → Nat) (m : BatchMap) (decls : Nat) (groups : List Group) (out0 : List Line) :
    let r := runEvents fuse m ⟨out0, 0, []⟩ (exportEvents decls groups)
    WellLooped m r.out ∧ stmtsOf r.out = groups.flatten.flatMap (fun e => List.replicate e.2 e.1) ∧ r.indent = 0 ∧ r.cur = [] := by
  have i0 : Inv ⟨[], 0, []⟩ := ⟨[], rfl, rfl, rfl, by simp⟩
  obtain ⟨h1, h2, h3, h4⟩ := run_others i0 rfl fuse (m := m) (wellLooped_nil m) decls
  obtain ⟨h5, h6, h7, h8⟩ := run_groups h1 h2 fuse h3 groups
  obtain ⟨h9, h10, h11, h12⟩ := inv_endBatching h5
  have heq : runEvents fuse m ⟨out0, 0, []⟩ (exportEvents decls groups) =
      (fun g => { g with out := g.out ++ [.other g.indent] }) (endBatching (runEvents fuse m (runEvents fuse m ⟨[], 0, []⟩ (List.replicate decls .declare))
        (groups.flatMap (fun gr => Event.beginSection :: (gr.flatMap exprEvents ++ [.endSection]))))) := by
    simp only [exportEvents, runEvents, List.foldl_cons, List.foldl_append, List.foldl_nil]
    rfl
  simp only
  rw [heq]
  refine ⟨?_, ?_, h11, h10⟩
  · simp only
    rw [h12]
    apply wellLooped_append h7
    simp only
    have := h9.enclosing
    rw [h12] at this
    rw [this, h10]
  · simp only
    rw [h12]
    have : stmtsOf (runEvents fuse m (runEvents fuse m ⟨[], 0, []⟩ (List.replicate decls .declare))
        (groups.flatMap (fun gr => Event.beginSection :: (gr.flatMap exprEvents ++ [.endSection])))).out = _ := h8
    have e2 : ∀ (l : List Line) d, stmtsOf (l ++ [.other d]) = stmtsOf l := fun l d => by simp [stmtsOf]
    rw [e2, this, h4]
    rfl

/-- Two expressions share a loop over a virtual index, the second one has a loop of its own inside, the third has none. -/
def exMap : BatchMap := [(some 0, [⟨1, 1⟩]), (some 1, [⟨1, 1⟩, ⟨0, 1⟩]), (some 2, [])]

example : (runEvents (fun _ => 1) exMap ⟨[], 0, []⟩ (exportEvents 1 [[(0, 1), (1, 2), (2, 1)]])).out =
    [.other 0, .other 0, .loop 0 [⟨1, 1⟩], .stmt 1 0, .loop 1 [⟨0, 1⟩], .stmt 2 1, .stmt 2 1, .stmt 0 2, .other 0] := by decide

/-- **After an export that was ended by an exception the generator must not be used again**: `begin_export` removes the text but not the
batch indices, so the next export lacks the loop. -/
theorem export_after_abort_fails :
    let aborted := runEvents (fun _ => 1) exMap ⟨[], 0, []⟩ [.beginExport, .beginSection, .beginExpr 0, .stmt 0]
    let r := runEvents (fun _ => 1) exMap aborted (exportEvents 0 [[(0, 1)]])
    r.out = [.other 1, .stmt 1 0, .other 0] ∧ ¬WellLooped exMap r.out := by
  refine ⟨by decide, ?_⟩
  intro h
  have := h [.other 1] (.stmt 1 0) [.other 0] (by decide)
  revert this
  decide

end SeQuant.Itf
