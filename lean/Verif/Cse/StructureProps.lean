import Verif.Cse.CountProps
import Verif.Cse.Failures

/-!
# Common subexpression elimination: order of the trees, positions and use of definitions, completeness (C77)
-/

namespace SeQuant.Cse

open SeQuant.Eval SeQuant.Binarize SeQuant.Optimize

variable {L ι K H G S : Type} [DecidableEq ι] [DecidableEq L] [DecidableEq K] [DecidableEq H] [DecidableEq G] [DecidableEq S]
  [Zero K] [One K] [Add K] [Mul K] [IntCast K]

/-- **C77** The trees stay in order; before each, the definitions are inserted of the subexpressions that are common and occur in it for the first
time, numbered consecutively, and each is used by the tree; names stand only for what was defined before; the positions that are returned are those
of the definitions. -/
theorem eliminate_layout (c : Call L ι K H G S) {ts out : List (Node L ι K H G)} {pos : List Nat} (h : eliminate c ts = some (out, pos)) :
    ∃ (marks : List (Node L ι K H G × Bool)) (names : List (Node L ι K H G × L)), out = marks.map Prod.fst ∧ pos = markedAt 0 marks ∧
      marks.countP (fun x => x.2) = names.length ∧ marks.countP (fun x => !x.2) = ts.length ∧
      ∀ k d b, marks[k]? = some (d, b) →
        Entry (c.opts ts) names ts (unmarked marks) d b ((marks.take k).countP fun x => x.2) ((marks.take k).countP fun x => !x.2) := by
  unfold eliminate at h
  cases hx : replaceAll (c.opts ts) 0 ts St.init [] with
  | none => simp [hx] at h
  | some x =>
    simp only [hx, Option.some.injEq, Prod.mk.injEq] at h
    obtain ⟨rfl, rfl⟩ := h
    obtain ⟨marks, e1, e2, e3, e4, _, e6⟩ := replaceAll_layout (out' := x.1) (st' := x.2) hx rfl rfl
    refine ⟨marks, x.2.names, by simpa using e1, by simpa [St.init] using e2, by simpa [St.init] using e3, e4, ?_⟩
    simpa [St.init] using e6

omit [DecidableEq ι] [DecidableEq L] [DecidableEq K] [DecidableEq H] [DecidableEq G] [DecidableEq S] [Zero K] [One K] [Add K] [Mul K] [IntCast K] in
theorem markedAt_length (k : Nat) (marks : List (Node L ι K H G × Bool)) : (markedAt k marks).length = marks.countP (fun x => x.2) := by
  induction marks generalizing k with
  | nil => rfl
  | cons x marks ih =>
    have := ih (k + 1)
    simp only [markedAt, List.zipIdx_cons, List.filterMap_cons, List.countP_cons] at this ⊢
    cases hx : x.2 <;> simp [this]

omit [DecidableEq ι] [DecidableEq L] [DecidableEq K] [DecidableEq H] [DecidableEq G] [DecidableEq S] [Zero K] [One K] [Add K] [Mul K] [IntCast K] in
/-- The position of the `i`-th definition. -/
theorem mark_of_index : ∀ (marks : List (Node L ι K H G × Bool)) (i : Nat), i < marks.countP (fun x => x.2) →
    ∃ k d, marks[k]? = some (d, true) ∧ (marks.take k).countP (fun x => x.2) = i := by
  intro marks
  induction marks with
  | nil => intro i h; simp at h
  | cons x marks ih =>
    intro i h
    obtain ⟨y, b⟩ := x
    cases b with
    | false =>
      obtain ⟨k, d, h1, h2⟩ := ih i (by simpa [List.countP_cons] using h)
      exact ⟨k + 1, d, by simpa using h1, by simpa [List.countP_cons] using h2⟩
    | true =>
      cases i with
      | zero => exact ⟨0, y, rfl, rfl⟩
      | succ i =>
        obtain ⟨k, d, h1, h2⟩ := ih i (by simpa [List.countP_cons] using h)
        exact ⟨k + 1, d, by simpa using h1, by simpa [List.countP_cons] using h2⟩

/-- **C77** There are no more definitions than entries in the table of common subexpressions, so the capacity that is reserved
(common_subexpression_elimination.hpp:107) suffices: no insertion moves the trees that are being visited. -/
theorem eliminate_capacity (c : Call L ι K H G S) {ts out : List (Node L ι K H G)} {pos : List Nat} (h : eliminate c ts = some (out, pos)) :
    out.length = ts.length + pos.length ∧ pos.length ≤ (common (sameB c.sp c.batch) c.keep ts).length := by
  obtain ⟨marks, names, e1, e2, e3, e4, e5⟩ := eliminate_layout c h
  have hlen : marks.length = marks.countP (fun x => x.2) + marks.countP (fun x => !x.2) := by
    rw [List.length_eq_countP_add_countP (fun x : Node L ι K H G × Bool => x.2)]
    congr 1
    exact List.countP_congr (by simp)
  have key : ∀ i q, names[i]? = some q → (c.opts ts).isCommon q.1 = true ∧ ∀ p ∈ names.take i, same c.sp p.1 q.1 = false := by
    intro i q hq
    obtain ⟨hi, _⟩ := List.getElem?_eq_some_iff.1 hq
    obtain ⟨k, d, hk, hc⟩ := mark_of_index marks i (by omega)
    obtain ⟨t, m, _, _, hE⟩ := e5 k d true hk
    rw [if_pos rfl, hc] at hE
    obtain ⟨q', hq', _, h1, _, _, h2, _⟩ := hE
    rw [hq, Option.some.injEq] at hq'
    subst hq'
    exact ⟨h1, h2⟩
  constructor
  · rw [e1, e2, List.length_map, markedAt_length]
    omega
  · rw [e2, markedAt_length, e3, ← List.length_map (f := Prod.fst)]
    refine length_le_of_apart (sameB_equiv c.sp c.batch) ?_ ?_
    · rw [List.pairwise_map, List.pairwise_iff_getElem]
      intro i j hi hj hij
      by_contra hb
      rw [Bool.not_eq_false] at hb
      have := (key j names[j] (List.getElem?_eq_getElem hj)).2 names[i] (List.mem_take_iff_getElem.2 ⟨i, by omega, rfl⟩)
      rw [sameB_same c.sp c.batch _ _ hb] at this
      exact Bool.noConfusion this
    · intro x hx
      obtain ⟨q, hq, rfl⟩ := List.mem_map.1 hx
      obtain ⟨i, hi, rfl⟩ := List.mem_iff_getElem.1 hq
      exact (key i _ (List.getElem?_eq_getElem hi)).1

/-- **C77** Without a filter, no two inner nodes that are left of the trees are the same. -/
theorem eliminate_complete (c : Call L ι K H G S) (hk : c.keep = fun _ _ => true) (ts : List (Node L ι K H G)) :
    (ts.flatMap (kept (c.opts ts).isCommon)).Pairwise fun x y => sameB c.sp c.batch x y = false := by
  have := kept_apart (sameB_equiv (L := L) (K := K) (H := H) (G := G) c.sp c.batch) ts
  simpa only [Call.opts, hk] using this

omit [DecidableEq ι] [DecidableEq L] [DecidableEq K] [DecidableEq H] [DecidableEq G] [DecidableEq S] [Zero K] [One K] [Add K] [Mul K] [IntCast K] in
theorem visited_sublist {A : Type} {eq : ETree A → ETree A → Bool} : ∀ (t : ETree A) (tab : List (ETree A × Nat)), (visited eq t tab).Sublist (inner t) := by
  intro t
  induction t with
  | leaf a => intro tab; exact List.Sublist.refl _
  | node a l r ihl ihr =>
    intro tab
    rw [visited, inner]
    split
    · exact List.Sublist.cons_cons _ (List.nil_sublist _)
    · exact List.Sublist.cons_cons _ ((ihl _).append (ihr _))

omit [DecidableEq ι] [DecidableEq L] [DecidableEq K] [DecidableEq H] [DecidableEq G] [DecidableEq S] [Zero K] [One K] [Add K] [Mul K] [IntCast K] in
theorem visitedAll_sublist {A : Type} {eq : ETree A → ETree A → Bool} : ∀ (ts : List (ETree A)) (tab : List (ETree A × Nat)),
    (visitedAll eq ts tab).Sublist (ts.flatMap inner) := by
  intro ts
  induction ts with
  | nil => intro tab; exact List.Sublist.refl _
  | cons t ts ih =>
    intro tab
    rw [visitedAll, List.flatMap_cons]
    exact (visited_sublist t tab).append (ih _)

/-- **C77** What is replaced occurs at least twice in the trees. -/
theorem eliminate_twice (c : Call L ι K H G S) (ts : List (Node L ι K H G)) (n : Node L ι K H G) (h : (c.opts ts).isCommon n = true) :
    2 ≤ (ts.flatMap inner).countP fun m => sameB c.sp c.batch m n := by
  have he := sameB_equiv (L := L) (K := K) (H := H) (G := G) c.sp c.batch
  have hc := (identAll_from he ts tab_nil).2 n
  have h2 : 2 ≤ count (sameB c.sp c.batch) (identAll (sameB c.sp c.batch) ts) n := by
    apply (common_iff he).1
    obtain ⟨q, hq, hqn⟩ := List.any_eq_true.1 h
    refine List.any_eq_true.2 ⟨q, ?_, hqn⟩
    simp only [common, List.mem_filter, Bool.and_eq_true, Bool.and_true] at hq ⊢
    exact ⟨hq.1, hq.2.1⟩
  have h3 := (visitedAll_sublist (eq := sameB c.sp c.batch) ts []).countP_le (p := fun m => sameB c.sp c.batch m n)
  have h0 : count (sameB c.sp c.batch) ([] : List (Node L ι K H G × Nat)) n = 0 := rfl
  rw [h0, Nat.zero_add] at hc
  have h4 : 2 ≤ (visitedAll (sameB c.sp c.batch) ts []).countP fun m => sameB c.sp c.batch m n := hc ▸ h2
  exact h4.trans h3

/-- The trees that `binarize` makes for names read the names. -/
theorem binTrans_reads {cfg : Cfg L ι K H G} (o : Opts L ι K H G) (ho : o.tr = binTrans cfg) : Reads o := by
  have h1 : ∀ (V : Finset ι) (n : Node L ι K H G) (lbl : L) (m), bin cfg V (ofNX (cseName o.sortIdx lbl n)) = some m → lbl ∈ reads m := by
    intro V n lbl m hm
    unfold cseName at hm
    cases hx : n.label.expr with
    | ten t =>
      simp only [hx, ofNX, bin, binTen, leafTen] at hm
      rw [if_neg (by simp)] at hm
      split at hm
      · simp at hm
      · rw [Option.some.injEq] at hm
        subst hm
        simp [reads, NX.label?, canonTen]
    | const d =>
      simp only [hx, ofNX, bin, Option.some.injEq] at hm
      subst hm
      simp [reads, leafVar, NX.label?]
    | var v =>
      simp only [hx, ofNX, bin, Option.some.injEq] at hm
      subst hm
      simp [reads, leafVar, NX.label?]
  have h2 : ∀ (V : Finset ι) (n : Node L ι K H G) (lbl : L) (p : Int) (m), bin cfg V (scaledBy p (cseName o.sortIdx lbl n)) = some m → lbl ∈ reads m := by
    intro V n lbl p m hm
    unfold scaledBy at hm
    split at hm
    · exact h1 V n lbl m hm
    · simp only [bin, binAll] at hm
      generalize (ltrChildren (List.map allIdx [ofNX (cseName o.sortIdx lbl n)]) V).headD ∅ = W at hm
      cases hb : bin cfg W (ofNX (cseName o.sortIdx lbl n)) with
      | none => simp [hb] at hm
      | some x =>
        have := h1 _ n lbl x hb
        simp only [hb, binProd, foldProd] at hm
        split at hm <;> rw [Option.some.injEq] at hm <;> subst hm
        · exact this
        · simp [scaleNode, reads, this]
  have h3 : ∀ (x : NX L ι K) (n : Node L ι K H G) (lbl : L) (p : Int) (m), binRes cfg x (scaledBy p (cseName o.sortIdx lbl n)) = some m → lbl ∈ reads m := by
    intro x n lbl p m hm
    unfold binRes at hm
    cases hb : bin cfg (NX.idx x).toFinset (scaledBy p (cseName o.sortIdx lbl n)) with
    | none => simp [hb] at hm
    | some y =>
      have hy := h2 _ n lbl p y hb
      simp only [hb] at hm
      have hw : ∀ z, wrap cfg x y = some z → lbl ∈ reads z := by
        intro z hz
        cases y with
        | node a l r =>
          simp only [wrap, Option.some.injEq] at hz
          rw [← hz]
          exact hy
        | leaf a =>
          cases x with
          | const d => simp [wrap] at hz
          | var v =>
            simp only [wrap, Option.some.injEq] at hz
            subst hz
            simp only [reads, List.mem_append] at hy ⊢
            exact Or.inl hy
          | ten t =>
            simp only [wrap] at hz
            cases ht : binTen cfg t with
            | none => simp [ht] at hz
            | some u =>
              simp only [ht, Option.some.injEq] at hz
              subst hz
              simp only [reads, List.mem_append] at hy ⊢
              exact Or.inl hy
      cases hz : wrap cfg x y with
      | none => simp [hz] at hm
      | some z =>
        have hz' := hw z hz
        simp only [hz] at hm
        cases z with
        | leaf a => simp [rename] at hm
        | node a l r =>
          simp only [rename] at hm
          split at hm
          · rw [Option.some.injEq] at hm
            subst hm
            exact hz'
          · rw [Option.some.injEq] at hm
            subst hm
            exact hz'
          · simp at hm
  intro root n lbl m hm
  unfold place at hm
  rw [ho] at hm
  cases root with
  | false => exact h2 ∅ n lbl _ m hm
  | true =>
    simp only [if_true] at hm
    split at hm
    · simp at hm
    · exact h3 _ n lbl _ m hm

/-- **C77** The trees of the example: one definition, before the first tree, used by both. -/
example : ∃ marks names, exOut = marks.map Prod.fst ∧ [0] = markedAt 0 marks ∧ marks.countP (fun x => x.2) = names.length ∧ marks.countP (fun x => !x.2) = 2 ∧
    ∀ k d b, marks[k]? = some (d, b) →
      Entry (cseCall.opts exTrees) names exTrees (unmarked marks) d b ((marks.take k).countP fun x => x.2) ((marks.take k).countP fun x => !x.2) :=
  eliminate_layout cseCall ex_eliminate

example : [nABC "R" "C", nABC "T" "E"].flatMap (kept (cseCall.opts exTrees).isCommon) = [nABC "R" "C", nABC "T" "E"] := by decide +kernel

/-! ### A definition that is used once -/

/-- `r{1;5} = ((A{1;2} B{2;3}) C{3;4}) c{4;5}`. -/
def nABCc (r c : String) : Node String Nat Int Unit Gr :=
  .node ⟨.prod, .ten (exT r 1 5), [1, 5], 1, (), some ([exT "A" 1 2, exT "B" 2 3, exT "C" 3 4, exT c 4 5], {1, 5})⟩ (nABC "I" "C")
    (.leaf ⟨.prod, .ten (exT c 4 5), [4, 5], 1, (), none⟩)

def cseTen (k i j : Nat) : Ten String Nat :=
  ⟨String.ofList ('C' :: 'S' :: 'E' :: List.replicate k '|'), false, ⟨.nonsymm, false, false, [], []⟩, [i, j]⟩

/-- The first operand of a tree replaced by a name. -/
def withName (k i j : Nat) : Node String Nat Int Unit Gr → Node String Nat Int Unit Gr
  | .node a _ r => .node a (.leaf ⟨.prod, .ten (cseTen k i j), [i, j], 1, (), none⟩) r
  | n => n

def named (k i j : Nat) : Node String Nat Int Unit Gr → Node String Nat Int Unit Gr
  | .node a l r => .node { a with expr := .ten (cseTen k i j) } l r
  | n => n

/-- **C77 fails** for the number of uses: `A B` is found twice, in the first tree and in the third, but its first occurrence is part of the larger
subexpression `A B C`, whose definition keeps it.  Its definition, at position 3, is used by the last tree only. -/
theorem used_once : eliminate cseCall [nABCc "R" "E", nABCc "T" "F", nABC "U" "H"] =
      some ([named 1 1 4 (nABC "I" "C"), withName 1 1 4 (nABCc "R" "E"), withName 1 1 4 (nABCc "T" "F"), named 2 1 3 nAB, withName 2 1 3 (nABC "U" "H")], [0, 3]) ∧
    ([named 1 1 4 (nABC "I" "C"), withName 1 1 4 (nABCc "R" "E"), withName 1 1 4 (nABCc "T" "F"), named 2 1 3 nAB, withName 2 1 3 (nABC "U" "H")].flatMap
      reads).count (cseTen 2 1 3).label = 1 := by
  constructor
  · decide +kernel
  · decide +kernel

end SeQuant.Cse
