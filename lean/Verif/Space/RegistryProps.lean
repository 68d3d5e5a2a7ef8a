import Verif.Space.AttrProps
import Mathlib.Data.List.Nodup
import Mathlib.Data.List.Perm.Basic

/-!
# C19: registry invariants over histories
-/

set_option linter.unusedSectionVars false

namespace SeQuant.Spaces

variable {Key : Type} [LinearOrder Key]

/-- Keys unique and attributes unique. -/
def Unique (l : List (Space Key)) : Prop := (l.map fun s => s.key).Nodup ∧ (l.map fun s => s.attr).Nodup

theorem insertByKey_perm (s : Space Key) (l : List (Space Key)) : (insertByKey s l).Perm (s :: l) := by
  induction l with
  | nil => exact List.Perm.refl _
  | cons t l ih =>
    unfold insertByKey
    split
    · exact List.Perm.refl _
    · exact (ih.cons t).trans (List.Perm.swap s t l)

theorem unique_perm {l m : List (Space Key)} (h : l.Perm m) : Unique l ↔ Unique m := by
  unfold Unique
  rw [(h.map _).nodup_iff, (h.map fun s : Space Key => s.attr).nodup_iff]

theorem unique_filter {l : List (Space Key)} (p : Space Key → Bool) (h : Unique l) : Unique (l.filter p) :=
  ⟨h.1.sublist (List.filter_sublist.map _), h.2.sublist (List.filter_sublist.map _)⟩

theorem addSpace_some {l l' : List (Space Key)} {s : Space Key} (h : addSpace l s = some l') :
    l' = insertByKey s l ∧ (∀ t ∈ l, t.key ≠ s.key) ∧ ∀ t ∈ l, t.attr ≠ s.attr := by
  unfold addSpace at h
  split at h
  · simp at h
  · rename_i h1
    split at h
    · simp at h
    · rename_i h2
      refine ⟨by simpa using h.symm, ?_, ?_⟩
      · intro t ht hk
        apply h1
        simp only [findKey, List.find?_isSome]
        exact ⟨t, ht, by simpa using hk⟩
      · intro t ht hk
        apply h2
        simp only [List.any_eq_true, decide_eq_true_eq]
        exact ⟨t, ht, hk.symm⟩

theorem addSpace_unique {l l' : List (Space Key)} {s : Space Key} (hl : Unique l) (h : addSpace l s = some l') : Unique l' := by
  obtain ⟨rfl, h1, h2⟩ := addSpace_some h
  rw [unique_perm (insertByKey_perm s l)]
  refine ⟨?_, ?_⟩
  · simp only [List.map_cons, List.nodup_cons, List.mem_map, not_exists, not_and]
    exact ⟨fun t ht hk => h1 t ht hk, hl.1⟩
  · simp only [List.map_cons, List.nodup_cons, List.mem_map, not_exists, not_and]
    exact ⟨fun t ht hk => h2 t ht hk, hl.2⟩

/-- Storage order of the flat set. -/
def SortedByKey (l : List (Space Key)) : Prop := l.Pairwise fun a b => a.key < b.key

theorem insertByKey_sorted (s : Space Key) (l : List (Space Key)) (hl : SortedByKey l) (h : ∀ t ∈ l, t.key ≠ s.key) :
    SortedByKey (insertByKey s l) := by
  induction l with
  | nil => simp [insertByKey, SortedByKey]
  | cons t l ih =>
    unfold SortedByKey at hl ih ⊢
    rw [List.pairwise_cons] at hl
    unfold insertByKey
    split
    · rename_i hlt
      rw [List.pairwise_cons, List.pairwise_cons]
      refine ⟨?_, hl.1, hl.2⟩
      intro x hx
      rcases List.mem_cons.1 hx with rfl | hx
      · exact hlt
      · exact lt_trans hlt (hl.1 x hx)
    · rename_i hge
      rw [List.pairwise_cons]
      refine ⟨?_, ih hl.2 (fun x hx => h x (by simp [hx]))⟩
      intro x hx
      rcases List.mem_cons.1 ((insertByKey_perm s l).mem_iff.1 hx) with rfl | hx
      · exact lt_of_le_of_ne (not_lt.1 hge) (h t (by simp))
      · exact hl.1 x hx

/-- What every stored set satisfies. -/
def SetOk (l : List (Space Key)) : Prop := SortedByKey l ∧ Unique l

theorem addSpace_ok {l l' : List (Space Key)} {s : Space Key} (hl : SetOk l) (h : addSpace l s = some l') : SetOk l' := by
  refine ⟨?_, addSpace_unique hl.2 h⟩
  obtain ⟨rfl, h1, _⟩ := addSpace_some h
  exact insertByKey_sorted s l hl.1 h1

theorem removeSpace_ok {l : List (Space Key)} (k : Key) (hl : SetOk l) : SetOk (removeSpace l k) :=
  ⟨List.Pairwise.sublist List.filter_sublist hl.1, unique_filter _ hl.2⟩

theorem null_ok (nk : Key) : SetOk [Space.null nk] := by simp [SetOk, SortedByKey, Unique]

theorem setHeap_ok {h : Nat → List (Space Key)} (hh : ∀ p, SetOk (h p)) (p : Nat) (l : List (Space Key)) (hl : SetOk l) :
    ∀ q, SetOk (setHeap h p l q) := by
  intro q
  unfold setHeap
  split
  · exact hl
  · exact hh q

theorem exec_ok (nk : Key) (w : World Key) (c : Cmd Key) (h : ∀ p, SetOk (w.heap p)) : ∀ p, SetOk ((exec nk w c).heap p) := by
  cases c with
  | new => exact setHeap_ok h _ _ (null_ok nk)
  | copy i => simp only [exec]; split <;> exact h
  | clone i =>
    simp only [exec]; split
    · exact setHeap_ok h _ _ (h _)
    · exact h
  | assign i j => simp only [exec]; split <;> exact h
  | add i s =>
    simp only [exec]; split
    · split
      · rename_i l hl; exact setHeap_ok h _ _ (addSpace_ok (h _) hl)
      · exact h
    · exact h
  | remove i k =>
    simp only [exec]; split
    · exact setHeap_ok h _ _ (removeSpace_ok k (h _))
    · exact h
  | replace i s =>
    simp only [exec]; split
    · rename_i r hr
      refine setHeap_ok h _ _ ?_
      cases ha : addSpace (removeSpace (w.heap r.ptr) s.key) s with
      | none => exact removeSpace_ok _ (h _)
      | some l => exact addSpace_ok (removeSpace_ok _ (h _)) ha
    · exact h
  | clear i =>
    simp only [exec]; split
    · exact setHeap_ok h _ _ (null_ok nk)
    · exact h
  | setMask i m => simp only [exec]; split <;> exact h
  | baseTypes i => simp only [exec]; split <;> exact h
  | baseSpaces i => simp only [exec]; split <;> exact h

/-- **C19** (uniqueness): after every history, in every registry, keys are unique and every attribute is registered at most once. -/
theorem registry_unique (nk : Key) (h : List (Cmd Key)) (i : Nat) (r : Reg Key)
    (_hr : (run nk emptyWorld h).regs[i]? = some r) :
    (((run nk emptyWorld h).heap r.ptr).map fun s => s.key).Nodup ∧ (((run nk emptyWorld h).heap r.ptr).map fun s => s.attr).Nodup := by
  have key : ∀ (w : World Key) (h : List (Cmd Key)), (∀ p, SetOk (w.heap p)) → ∀ p, SetOk ((run nk w h).heap p) := by
    intro w h
    induction h generalizing w with
    | nil => exact fun h => h
    | cons c h ih => exact fun hw => ih _ (exec_ok nk w c hw)
  exact (key emptyWorld h (by intro p; simp [emptyWorld, SetOk, SortedByKey, Unique]) r.ptr).2

/-- A retrieved space is the only one with its key or attributes. -/
theorem find_unique {l : List (Space Key)} (hl : Unique l) {s t : Space Key} (hs : s ∈ l) (ht : t ∈ l) :
    (s.key = t.key → s = t) ∧ (s.attr = t.attr → s = t) :=
  ⟨fun h => List.inj_on_of_nodup_map hl.1 hs ht h, fun h => List.inj_on_of_nodup_map hl.2 hs ht h⟩

/-! ### Memoized data -/

/-- The memoized data of every registry equal what would be recomputed. -/
def MemoOk (w : World Key) : Prop := ∀ (i : Nat) (r : Reg Key), w.regs[i]? = some r →
  (∀ t, r.memoTypes = some t → t = computeTypes (w.heap r.ptr)) ∧
  (∀ t, r.memoSpaces = some t → t = computeSpaces r.mask (w.heap r.ptr))

/-- Registry `r` has nothing memoized. -/
def Reg.fresh (r : Reg Key) : Prop := r.memoTypes = none ∧ r.memoSpaces = none

/-- No *other* registry that shares the set of registry `i` has memoized data. -/
def Exclusive (w : World Key) (i : Nat) : Prop := ∀ r, w.regs[i]? = some r → ∀ j r', j ≠ i → w.regs[j]? = some r' → r'.ptr = r.ptr →
  r'.fresh

/-- The operations after which memoized data can become stale: `clear`, assignment and a change of the mask of a registry with memoized
data, and updates through a shared set. -/
def Safe (w : World Key) : Cmd Key → Prop
  | .assign i _ => ∀ r, w.regs[i]? = some r → r.fresh
  | .clear i => ∀ r, w.regs[i]? = some r → r.fresh
  | .setMask i _ => ∀ r, w.regs[i]? = some r → r.memoSpaces = none
  | .add i _ => Exclusive w i
  | .remove i _ => Exclusive w i
  | .replace i _ => Exclusive w i
  | _ => True

def SafeRun (nk : Key) : World Key → List (Cmd Key) → Prop
  | _, [] => True
  | w, c :: h => Safe w c ∧ SafeRun nk (exec nk w c) h

def PtrOk (w : World Key) : Prop := ∀ (i : Nat) (r : Reg Key), w.regs[i]? = some r → r.ptr < w.next

theorem regs_append {w : World Key} {x r : Reg Key} {j : Nat} (h : (w.regs ++ [x])[j]? = some r) : w.regs[j]? = some r ∨ r = x := by
  rw [List.getElem?_append] at h
  split at h
  · exact Or.inl h
  · right
    simp only [List.getElem?_singleton] at h
    split at h <;> simp_all

theorem regs_set {w : World Key} {x r : Reg Key} {i j : Nat} (h : (w.regs.set i x)[j]? = some r) :
    (j ≠ i ∧ w.regs[j]? = some r) ∨ (j = i ∧ r = x) := by
  rw [List.getElem?_set] at h
  by_cases hij : i = j
  · subst hij
    rw [if_pos rfl] at h
    split at h
    · right; exact ⟨rfl, by simpa using h.symm⟩
    · simp at h
  · left; rw [if_neg hij] at h; exact ⟨Ne.symm hij, h⟩

theorem exec_ptr (nk : Key) (w : World Key) (c : Cmd Key) (hp : PtrOk w) : PtrOk (exec nk w c) := by
  have upd : ∀ (w' : World Key) (i : Nat) (r x : Reg Key), w'.regs = w.regs.set i x → w'.next ≥ w.next → x.ptr < w'.next →
      PtrOk w' := by
    intro w' i r x h1 h2 h3 j y hy
    rw [h1] at hy
    rcases regs_set hy with ⟨_, h⟩ | ⟨_, rfl⟩
    · exact lt_of_lt_of_le (hp j y h) h2
    · exact h3
  have app : ∀ (w' : World Key) (x : Reg Key), w'.regs = w.regs ++ [x] → w'.next ≥ w.next → x.ptr < w'.next → PtrOk w' := by
    intro w' x h1 h2 h3 j y hy
    rw [h1] at hy
    rcases regs_append hy with h | rfl
    · exact lt_of_lt_of_le (hp j y h) h2
    · exact h3
  cases c with
  | new => exact app _ _ rfl (by simp [exec]) (by simp [exec])
  | copy i =>
    simp only [exec]; split
    · rename_i r hr; exact app _ _ rfl (le_refl _) (hp i r hr)
    · exact hp
  | clone i =>
    simp only [exec]; split
    · exact app _ _ rfl (by simp) (by simp)
    · exact hp
  | assign i j =>
    simp only [exec]; split
    · rename_i r r' hr hr'; exact upd _ i r _ rfl (le_refl _) (hp j r' hr')
    · exact hp
  | add i s =>
    simp only [exec]; split
    · rename_i r hr
      split
      · exact upd _ i r _ rfl (le_refl _) (hp i r hr)
      · exact hp
    · exact hp
  | remove i s =>
    simp only [exec]; split
    · rename_i r hr; exact upd _ i r _ rfl (le_refl _) (hp i r hr)
    · exact hp
  | replace i s =>
    simp only [exec]; split
    · rename_i r hr; exact upd _ i r _ rfl (le_refl _) (hp i r hr)
    · exact hp
  | clear i =>
    simp only [exec]; split
    · rename_i r hr; exact upd _ i r _ rfl (by simp) (by simp)
    · exact hp
  | setMask i m =>
    simp only [exec]; split
    · rename_i r hr; exact upd _ i r _ rfl (le_refl _) (hp i r hr)
    · exact hp
  | baseTypes i =>
    simp only [exec]; split
    · rename_i r hr; exact upd _ i r _ rfl (le_refl _) (hp i r hr)
    · exact hp
  | baseSpaces i =>
    simp only [exec]; split
    · rename_i r hr; exact upd _ i r _ rfl (le_refl _) (hp i r hr)
    · exact hp

theorem exec_memo (nk : Key) (w : World Key) (c : Cmd Key) (hp : PtrOk w) (hm : MemoOk w) (hs : Safe w c) : MemoOk (exec nk w c) := by
  -- updates of the set of registry `i`
  have mutate : ∀ (i : Nat) (r : Reg Key) (l : List (Space Key)), w.regs[i]? = some r → Exclusive w i →
      MemoOk { w with heap := setHeap w.heap r.ptr l, regs := w.regs.set i { r with memoTypes := none, memoSpaces := none } } := by
    intro i r l hr he j y hy
    rcases regs_set hy with ⟨hj, h⟩ | ⟨_, rfl⟩
    · by_cases hpt : y.ptr = r.ptr
      · have := he r hr j y hj h hpt
        exact ⟨fun t ht => by rw [this.1] at ht; simp at ht, fun t ht => by rw [this.2] at ht; simp at ht⟩
      · simpa [setHeap, hpt] using hm j y h
    · exact ⟨fun t ht => by simp at ht, fun t ht => by simp at ht⟩
  have hfresh : ∀ (j : Nat) (y : Reg Key), w.regs[j]? = some y → y.ptr ≠ w.next := fun j y h => ne_of_lt (hp j y h)
  cases c with
  | new =>
    intro j y hy
    rcases regs_append hy with h | rfl
    · simpa [exec, setHeap, hfresh j y h] using hm j y h
    · exact ⟨fun t ht => by simp at ht, fun t ht => by simp at ht⟩
  | copy i =>
    simp only [exec]; split
    · intro j y hy
      rcases regs_append hy with h | rfl
      · exact hm j y h
      · exact ⟨fun t ht => by simp at ht, fun t ht => by simp at ht⟩
    · exact hm
  | clone i =>
    simp only [exec]; split
    · intro j y hy
      rcases regs_append hy with h | rfl
      · simpa [setHeap, hfresh j y h] using hm j y h
      · exact ⟨fun t ht => by simp at ht, fun t ht => by simp at ht⟩
    · exact hm
  | assign i j =>
    simp only [exec]; split
    · rename_i r r' hr hr'
      have hf := hs r hr
      intro j y hy
      rcases regs_set hy with ⟨_, h⟩ | ⟨_, rfl⟩
      · exact hm j y h
      · exact ⟨fun t ht => by simp [hf.1] at ht, fun t ht => by simp [hf.2] at ht⟩
    · exact hm
  | add i s =>
    simp only [exec]; split
    · rename_i r hr
      split
      · exact mutate i r _ hr hs
      · exact hm
    · exact hm
  | remove i s =>
    simp only [exec]; split
    · rename_i r hr; exact mutate i r _ hr hs
    · exact hm
  | replace i s =>
    simp only [exec]; split
    · rename_i r hr; exact mutate i r _ hr hs
    · exact hm
  | clear i =>
    simp only [exec]; split
    · rename_i r hr
      have hf := hs r hr
      intro j y hy
      rcases regs_set hy with ⟨_, h⟩ | ⟨_, rfl⟩
      · simpa [setHeap, hfresh j y h] using hm j y h
      · exact ⟨fun t ht => by simp [hf.1] at ht, fun t ht => by simp [hf.2] at ht⟩
    · exact hm
  | setMask i m =>
    simp only [exec]; split
    · rename_i r hr
      intro j y hy
      rcases regs_set hy with ⟨_, h⟩ | ⟨_, rfl⟩
      · exact hm j y h
      · exact ⟨fun t ht => (hm i r hr).1 t ht, fun t ht => by simp [hs r hr] at ht⟩
    · exact hm
  | baseTypes i =>
    simp only [exec]; split
    · rename_i r hr
      intro j y hy
      rcases regs_set hy with ⟨_, h⟩ | ⟨_, rfl⟩
      · exact hm j y h
      · refine ⟨fun t ht => ?_, (hm i r hr).2⟩
        simp only [Option.some.injEq] at ht
        cases hmt : r.memoTypes with
        | none => rw [hmt] at ht; exact ht.symm
        | some t' => rw [hmt] at ht; rw [← ht]; exact (hm i r hr).1 t' hmt
    · exact hm
  | baseSpaces i =>
    simp only [exec]; split
    · rename_i r hr
      intro j y hy
      rcases regs_set hy with ⟨_, h⟩ | ⟨_, rfl⟩
      · exact hm j y h
      · refine ⟨(hm i r hr).1, fun t ht => ?_⟩
        simp only [Option.some.injEq] at ht
        cases hmt : r.memoSpaces with
        | none => rw [hmt] at ht; exact ht.symm
        | some t' => rw [hmt] at ht; rw [← ht]; exact (hm i r hr).2 t' hmt
    · exact hm

/-- **C19, partial** (memoized data): after every history of safe operations the memoized base spaces and types of every registry are
those that would be recomputed.  Missing: the operations excluded by `Safe`, for which it is false (below). -/
theorem registry_memo_partial (nk : Key) (h : List (Cmd Key)) (hs : SafeRun nk emptyWorld h) : MemoOk (run nk emptyWorld h) := by
  have key : ∀ (w : World Key) (h : List (Cmd Key)), PtrOk w → MemoOk w → SafeRun nk w h → MemoOk (run nk w h) := by
    intro w h
    induction h generalizing w with
    | nil => exact fun _ hm _ => hm
    | cons c h ih => exact fun hp hm hs => ih _ (exec_ptr nk w c hp) (exec_memo nk w c hp hm hs.1) hs.2
  exact key emptyWorld h (by intro i r hr; simp [emptyWorld] at hr) (by intro i r hr; simp [emptyWorld] at hr) hs

/-- A single registry that is only filled, queried, and emptied by `remove` is always consistent. -/
theorem registry_memo_single_partial (nk : Key) (h : List (Cmd Key))
    (hh : ∀ c ∈ h, match c with
      | .add 0 _ | .remove 0 _ | .replace 0 _ | .baseTypes 0 | .baseSpaces 0 => True
      | _ => False) : MemoOk (run nk emptyWorld (.new :: h)) := by
  apply registry_memo_partial
  refine ⟨trivial, ?_⟩
  have key : ∀ (w : World Key) (h : List (Cmd Key)), w.regs.length = 1 →
      (∀ c ∈ h, match c with
        | .add 0 _ | .remove 0 _ | .replace 0 _ | .baseTypes 0 | .baseSpaces 0 => True
        | _ => False) → SafeRun nk w h := by
    intro w h
    induction h generalizing w with
    | nil => exact fun _ _ => trivial
    | cons c h ih =>
      intro hl hc
      have hx : Exclusive w 0 := by
        intro r hr j r' hj hr'
        have : j < w.regs.length := (List.getElem?_eq_some_iff.1 hr').1
        omega
      have hc0 := hc c (by simp)
      have hrest := fun x hx => hc x (List.mem_cons_of_mem _ hx)
      refine ⟨?_, ih _ ?_ hrest⟩
      · split at hc0 <;> first | exact hx | trivial
      · split at hc0
        · simp only [exec]; split
          · split <;> simp [hl]
          · exact hl
        · simp only [exec]; split <;> simp [hl]
        · simp only [exec]; split <;> simp [hl]
        · simp only [exec]; split <;> simp [hl]
        · simp only [exec]; split <;> simp [hl]
        · exact hc0.elim
  exact key _ h rfl hh

/-! ### Refutations -/

/-- A space with one base type. -/
def occ : Space Nat := ⟨⟨1#32, 0#32⟩, 1⟩
def virt : Space Nat := ⟨⟨2#32, 0#32⟩, 2⟩
def virtUp : Space Nat := ⟨⟨2#32, 1#32⟩, 3⟩

/-- What registry `i` answers to `base_space_types()` after a history, and what it should answer. -/
def answerTypes (h : List (Cmd Nat)) (i : Nat) : Option (List Mask × List Mask) := do
  let w := run 0 emptyWorld (h ++ [.baseTypes i])
  let r ← w.regs[i]?
  return ((← r.memoTypes), computeTypes (w.heap r.ptr))

def answerSpaces (h : List (Cmd Nat)) (i : Nat) : Option (List (Space Nat) × List (Space Nat)) := do
  let w := run 0 emptyWorld (h ++ [.baseSpaces i])
  let r ← w.regs[i]?
  return ((← r.memoSpaces), computeSpaces r.mask (w.heap r.ptr))

/-- **C19 is false** after `clear()`: the old base types are still reported. -/
theorem clear_stale : answerTypes [.new, .add 0 occ, .baseTypes 0, .clear 0] 0 = some ([1#32], []) := by decide

/-- **C19 is false** for copies: an update through a copy is not seen by the original. -/
theorem copy_stale : answerTypes [.new, .add 0 occ, .baseTypes 0, .copy 0, .add 1 virt] 0 = some ([1#32], [1#32, 2#32]) := by decide

/-- **C19 is false** after changing the particle mask. -/
theorem mask_stale : answerSpaces [.new, .add 0 virtUp, .baseSpaces 0, .setMask 0 1#32] 0 = some ([], [virtUp]) := by decide

/-- **C19 is false** after assignment. -/
theorem assign_stale : answerTypes [.new, .add 0 occ, .baseTypes 0, .new, .assign 0 1] 0 = some ([1#32], []) := by decide

/-- `base_space_types()` can report a type twice (`unique` is applied before `sort`). -/
theorem types_duplicate : answerTypes [.new, .add 0 ⟨⟨2#32, 0#32⟩, 1⟩, .add 0 ⟨⟨1#32, 0#32⟩, 2⟩, .add 0 ⟨⟨2#32, 1#32⟩, 3⟩] 0 =
    some ([1#32, 2#32, 2#32], [1#32, 2#32, 2#32]) := by decide

/-- A throwing `replace` loses the space that was to be replaced. -/
theorem replace_loses : (run 0 emptyWorld [.new, .add 0 occ, .add 0 virt, .replace 0 ⟨virt.attr, occ.key⟩]).heap 0 =
    [Space.null 0, virt] := by decide

example : answerTypes [.new, .add 0 virt, .baseTypes 0, .add 0 occ, .remove 0 5] 0 = some ([1#32, 2#32], [1#32, 2#32]) := by decide

example : MemoOk (run 0 emptyWorld [.new, .add 0 virt, .baseTypes 0, .add 0 occ, .baseSpaces 0, .replace 0 ⟨⟨4#32, 0#32⟩, 1⟩]) :=
  registry_memo_single_partial 0 [.add 0 virt, .baseTypes 0, .add 0 occ, .baseSpaces 0, .replace 0 ⟨⟨4#32, 0#32⟩, 1⟩] (by simp)

end SeQuant.Spaces
