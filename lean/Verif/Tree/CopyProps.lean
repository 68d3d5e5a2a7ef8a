import Verif.Tree.Model

/-!
# C25: copying, transforming, folding and destroying trees
-/

set_option linter.unusedSectionVars false

namespace SeQuant.Nodes

variable {α β : Type}

/-! ### The specification -/

/-- Relabelled tree. -/
def Tree.map (f : α → β) : Tree α → Tree β
  | .leaf a => .leaf (f a)
  | .node a l r => .node (f a) (l.map f) (r.map f)

/-- The memory `g` holds the tree `t` at address `p`, with parent pointer `par` of its root and correct parent pointers below; `F` lists
the addresses of its nodes. -/
def Rep (g : Nat → Option (HNode α)) : Tree α → Nat → Option Nat → List Nat → Prop
  | .leaf a, p, par, F => g p = some ⟨a, none, none, par⟩ ∧ F = [p]
  | .node a l r, p, par, F => ∃ x y Fl Fr, g p = some ⟨a, some x, some y, par⟩ ∧ Rep g l x (some p) Fl ∧ Rep g r y (some p) Fr ∧
      F = p :: (Fl ++ Fr)

/-- Nothing is allocated beyond the bound. -/
def Heap.WF (h : Heap α) : Prop := ∀ c n, h.get c = some n → c < h.next

/-! ### Lemmas -/

theorem rep_congr {g g' : Nat → Option (HNode α)} (t : Tree α) : ∀ {p : Nat} {par : Option Nat} {F : List Nat}, Rep g t p par F →
    (∀ c ∈ F, g' c = g c) → Rep g' t p par F := by
  induction t with
  | leaf a =>
    rintro p par F ⟨h1, rfl⟩ h
    exact ⟨by rw [h p (by simp), h1], rfl⟩
  | node a l r ihl ihr =>
    rintro p par F ⟨x, y, Fl, Fr, h1, h2, h3, rfl⟩ h
    exact ⟨x, y, Fl, Fr, by rw [h p (by simp), h1], ihl h2 fun c hc => h c (by simp [hc]), ihr h3 fun c hc => h c (by simp [hc]), rfl⟩

theorem rep_head {g : Nat → Option (HNode α)} {t : Tree α} {p : Nat} {par : Option Nat} {F : List Nat} (h : Rep g t p par F) :
    ∃ F', F = p :: F' := by
  cases t with
  | leaf a => exact ⟨[], h.2⟩
  | node a l r => obtain ⟨x, y, Fl, Fr, -, -, -, rfl⟩ := h; exact ⟨_, rfl⟩

theorem rep_lt {h : Heap α} (hw : h.WF) {t : Tree α} : ∀ {p : Nat} {par : Option Nat} {F : List Nat}, Rep h.get t p par F →
    ∀ c ∈ F, c < h.next := by
  induction t with
  | leaf a =>
    rintro p par F ⟨h1, rfl⟩ c hc
    simp only [List.mem_singleton] at hc
    subst hc
    exact hw _ _ h1
  | node a l r ihl ihr =>
    rintro p par F ⟨x, y, Fl, Fr, h1, h2, h3, rfl⟩ c hc
    simp only [List.mem_cons, List.mem_append] at hc
    rcases hc with rfl | hc | hc
    · exact hw _ _ h1
    · exact ihl h2 c hc
    · exact ihr h3 c hc

/-- Changing the parent pointer of the root. -/
theorem rep_setRoot {g g' : Nat → Option (HNode α)} {t : Tree α} {b : Nat} {par q : Option Nat} {F : List Nat} (h : Rep g t b par F)
    (hn : F.Nodup) (hb : g' b = (g b).map fun n => { n with parent := q }) (hr : ∀ c ∈ F, c ≠ b → g' c = g c) : Rep g' t b q F := by
  cases t with
  | leaf a =>
    obtain ⟨h1, rfl⟩ := h
    exact ⟨by rw [hb, h1]; rfl, rfl⟩
  | node a l r =>
    obtain ⟨x, y, Fl, Fr, h1, h2, h3, rfl⟩ := h
    rw [List.nodup_cons] at hn
    refine ⟨x, y, Fl, Fr, by rw [hb, h1]; rfl, rep_congr l h2 ?_, rep_congr r h3 ?_, rfl⟩
    · intro c hc
      refine hr c (by simp [hc]) ?_
      rintro rfl
      exact hn.1 (by simp [hc])
    · intro c hc
      refine hr c (by simp [hc]) ?_
      rintro rfl
      exact hn.1 (by simp [hc])

theorem alloc_leaf (h : Heap α) (hw : h.WF) (d : α) :
    Rep (alloc h d none none).1.get (.leaf d) (alloc h d none none).2 none [h.next] ∧
    (alloc h d none none).2 = h.next ∧ (alloc h d none none).1.next = h.next + 1 ∧
    (∀ c < h.next, (alloc h d none none).1.get c = h.get c) ∧ (alloc h d none none).1.WF := by
  refine ⟨⟨by simp [alloc, setParent], rfl⟩, rfl, rfl, ?_, ?_⟩
  · intro c hc
    have : c ≠ h.next := by omega
    simp [alloc, setParent, this]
  · intro c n hc
    simp only [alloc, setParent] at hc ⊢
    split at hc
    · omega
    · have := hw _ _ hc; omega

/-- A new node over two trees. -/
theorem alloc_node (h : Heap α) (hw : h.WF) (d : α) {l r : Tree α} {bl br : Nat} {pl pr : Option Nat} {Fl Fr : List Nat}
    (hl : Rep h.get l bl pl Fl) (hr : Rep h.get r br pr Fr) (hn : (Fl ++ Fr).Nodup) :
    Rep (alloc h d (some bl) (some br)).1.get (.node d l r) (alloc h d (some bl) (some br)).2 none (h.next :: (Fl ++ Fr)) ∧
    (alloc h d (some bl) (some br)).2 = h.next ∧ (alloc h d (some bl) (some br)).1.next = h.next + 1 ∧
    (∀ c < h.next, c ≠ bl → c ≠ br → (alloc h d (some bl) (some br)).1.get c = h.get c) ∧ (alloc h d (some bl) (some br)).1.WF := by
  have hll := rep_lt hw hl
  have hrl := rep_lt hw hr
  obtain ⟨Fl', hFl⟩ := rep_head hl
  obtain ⟨Fr', hFr⟩ := rep_head hr
  have hbl : bl < h.next := hll bl (by simp [hFl])
  have hbr : br < h.next := hrl br (by simp [hFr])
  rw [List.nodup_append] at hn
  have hne : bl ≠ br := hn.2.2 bl (by simp [hFl]) br (by simp [hFr])
  have e1 : bl ≠ h.next := by omega
  have e2 : br ≠ h.next := by omega
  have hget : ∀ c, (alloc h d (some bl) (some br)).1.get c = if c = br then (h.get br).map fun n => { n with parent := some h.next } else
      if c = bl then (h.get bl).map fun n => { n with parent := some h.next } else
      if c = h.next then some ⟨d, some bl, some br, none⟩ else h.get c := by
    intro c
    simp only [alloc, setParent, if_neg hne.symm, if_neg e2, if_neg e1]
  refine ⟨⟨bl, br, Fl, Fr, ?_, ?_, ?_, rfl⟩, rfl, rfl, ?_, ?_⟩
  · rw [hget, if_neg, if_neg, if_pos] <;> simp [alloc] <;> omega
  · refine rep_setRoot hl hn.1 (by rw [hget, if_neg hne, if_pos rfl]; rfl) ?_
    intro c hc hcb
    have h1 : c ≠ br := hn.2.2 c hc br (by simp [hFr])
    have h2 := hll c hc
    rw [hget, if_neg h1, if_neg hcb, if_neg (by omega)]
  · refine rep_setRoot hr hn.2.1 (by rw [hget, if_pos rfl]; rfl) ?_
    intro c hc hcb
    have h1 : c ≠ bl := fun hb => hn.2.2 bl (by simp [hFl]) c hc hb.symm
    have h2 := hrl c hc
    rw [hget, if_neg hcb, if_neg h1, if_neg (by omega)]
  · intro c hc h1 h2
    rw [hget, if_neg h2, if_neg h1, if_neg (by omega)]
  · intro c n hc
    have : (alloc h d (some bl) (some br)).1.next = h.next + 1 := rfl
    rw [this]
    rw [hget] at hc
    split at hc
    · omega
    · split at hc
      · omega
      · split at hc
        · omega
        · have := hw _ _ hc; omega

/-- The loop copies one subtree and pops its frame. -/
theorem copyLoop_sub (read : Heap β → Nat → Option (HNode α)) (fn : α → β) (N : Nat) (h0 : Heap β) (t : Tree α) :
    ∀ (a : Nat) (par : Option Nat) (F : List Nat), Rep (read h0) t a par F →
    (∀ h' : Heap β, (∀ c < N, h'.get c = h0.get c) → ∀ c ∈ F, read h' c = read h0 c) →
    ∀ (h : Heap β), h.WF → N ≤ h.next → (∀ c < N, h.get c = h0.get c) →
    ∃ n h' b F', n ≤ 3 * t.size ∧ (∀ fuel stk ret, copyLoop read fn (n + fuel) h (⟨a, 0, none, none⟩ :: stk) ret = copyLoop read fn fuel h' stk (some b)) ∧
      Rep h'.get (t.map fn) b none F' ∧ F'.Nodup ∧ (∀ c ∈ F', h.next ≤ c ∧ c < h'.next) ∧ (∀ c < h.next, h'.get c = h.get c) ∧
      h.next ≤ h'.next ∧ h'.WF := by
  induction t with
  | leaf d =>
    rintro a par F ⟨h1, rfl⟩ hst h hw hN hag
    obtain ⟨a1, a2, a3, a4, a5⟩ := alloc_leaf h hw (fn d)
    refine ⟨1, (alloc h (fn d) none none).1, (alloc h (fn d) none none).2, [h.next], by simp [Tree.size], ?_, a1, by simp, ?_, a4, by omega, a5⟩
    · intro fuel stk ret
      rw [Nat.add_comm 1 fuel, copyLoop]
      simp only [hst h hag a (by simp), h1]
    · intro c hc
      simp only [List.mem_singleton] at hc
      subst hc
      omega
  | node d l r ihl ihr =>
    rintro a par F ⟨x, y, Fl, Fr, h1, h2, h3, rfl⟩ hst h hw hN hag
    obtain ⟨n1, g1, b1, G1, hn1, e1, r1, nd1, lt1, ag1, le1, w1⟩ := ihl x (some a) Fl h2 (fun h' hh c hc => hst h' hh c (by simp [hc])) h hw hN hag
    have hag1 : ∀ c < N, g1.get c = h0.get c := fun c hc => by rw [ag1 c (by omega), hag c hc]
    obtain ⟨n2, g2, b2, G2, hn2, e2, r2, nd2, lt2, ag2, le2, w2⟩ :=
      ihr y (some a) Fr h3 (fun h' hh c hc => hst h' hh c (by simp [hc])) g1 w1 (by omega) hag1
    have hag2 : ∀ c < N, g2.get c = h0.get c := fun c hc => by rw [ag2 c (by omega), hag1 c hc]
    have r1' : Rep g2.get (l.map fn) b1 none G1 := rep_congr _ r1 fun c hc => ag2 c (lt1 c hc).2
    have hnd : (G1 ++ G2).Nodup := by
      rw [List.nodup_append]
      refine ⟨nd1, nd2, ?_⟩
      intro c hc c' hc'
      have := (lt1 c hc).2
      have := (lt2 c' hc').1
      omega
    obtain ⟨a1, a2, a3, a4, a5⟩ := alloc_node g2 w2 (fn d) r1' r2 hnd
    obtain ⟨G1', hG1⟩ := rep_head r1
    obtain ⟨G2', hG2⟩ := rep_head r2
    have hb1 := lt1 b1 (by simp [hG1])
    have hb2 := lt2 b2 (by simp [hG2])
    refine ⟨n1 + n2 + 3, (alloc g2 (fn d) (some b1) (some b2)).1, (alloc g2 (fn d) (some b1) (some b2)).2, g2.next :: (G1 ++ G2), ?_, ?_, a1, ?_, ?_,
      ?_, by omega, a5⟩
    · simp only [Tree.size]; omega
    · intro fuel stk ret
      rw [show n1 + n2 + 3 + fuel = (n1 + ((n2 + (fuel + 1)) + 1)) + 1 by omega, copyLoop]
      simp only [hst h hag a (by simp), h1, if_true]
      rw [e1, copyLoop]
      simp only [hst g1 hag1 a (by simp), h1, Nat.one_ne_zero, if_false, if_true]
      rw [e2, copyLoop]
      simp only [hst g2 hag2 a (by simp), h1, Nat.succ_ne_self, if_false]
      rfl
    · rw [List.nodup_cons]
      refine ⟨?_, hnd⟩
      intro hc
      rcases List.mem_append.1 hc with hc | hc
      · have := (lt1 _ hc).2; omega
      · have := (lt2 _ hc).2; omega
    · intro c hc
      simp only [List.mem_cons, List.mem_append] at hc
      rcases hc with rfl | hc | hc
      · omega
      · have := lt1 c hc; omega
      · have := lt2 c hc; omega
    · intro c hc
      rw [a4 c (by omega) (by omega) (by omega), ag2 c (by omega), ag1 c hc]

theorem Tree.map_id (t : Tree α) : t.map id = t := by
  induction t with
  | leaf a => rfl
  | node a l r ihl ihr => simp [Tree.map, ihl, ihr]

theorem Tree.size_map (f : α → β) (t : Tree α) : (t.map f).size = t.size := by
  induction t with
  | leaf a => rfl
  | node a l r ihl ihr => simp [Tree.map, Tree.size, ihl, ihr]

theorem copyLoop_nil (read : Heap β → Nat → Option (HNode α)) (fn : α → β) (fuel : Nat) (h : Heap β) (ret : Option Nat) :
    copyLoop read fn fuel h [] ret = some (h, ret) := by cases fuel <;> rfl

/-! ### Theorems -/

/-- **C25** (`deep_copy`): the copy is an equal tree with correct parent pointers in new memory; everything that was allocated before is
unchanged. -/
theorem deepCopy_correct (h : Heap α) (hw : h.WF) (t : Tree α) (a : Nat) (par : Option Nat) (F : List Nat) (hr : Rep h.get t a par F)
    (fuel : Nat) (hf : 3 * t.size ≤ fuel) :
    ∃ h' b F', deepCopy fuel h a = some (h', some b) ∧ Rep h'.get t b none F' ∧ F'.Nodup ∧ (∀ c ∈ F', h.get c = none ∧ c ∉ F) ∧
      (∀ c < h.next, h'.get c = h.get c) ∧ Rep h'.get t a par F ∧ h.next ≤ h'.next ∧ h'.WF := by
  have hlt := rep_lt hw hr
  obtain ⟨n, h', b, F', hn, e, r, nd, lt, ag, le, w⟩ := copyLoop_sub (fun h a => h.get a) id h.next h t a par F hr
    (fun h' hh c hc => hh c (hlt c hc)) h hw (Nat.le_refl _) (fun _ _ => rfl)
  obtain ⟨m, rfl⟩ : ∃ m, fuel = n + m := ⟨fuel - n, by omega⟩
  refine ⟨h', b, F', by rw [deepCopy, e, copyLoop_nil], by rwa [Tree.map_id] at r, nd, ?_, ag, rep_congr t hr fun c hc => ag c (hlt c hc), le, w⟩
  intro c hc
  have h1 := (lt c hc).1
  constructor
  · cases hg : h.get c with
    | none => rfl
    | some x => have := hw _ _ hg; omega
  · intro hcF
    have := hlt c hcF
    omega

/-- **C25** (copy constructor): an equal tree with correct parent pointers, without nodes in common with the original. -/
theorem copyCtor_correct (h : Heap α) (hw : h.WF) (t : Tree α) (a : Nat) (par : Option Nat) (F : List Nat) (hr : Rep h.get t a par F)
    (fuel : Nat) (hf : 3 * t.size ≤ fuel) :
    ∃ h' b F', copyCtor fuel h a = some (h', b) ∧ Rep h'.get t b none F' ∧ F'.Nodup ∧ (∀ c ∈ F', h.get c = none ∧ c ∉ F) ∧
      (∀ c < h.next, h'.get c = h.get c) := by
  have hlt := rep_lt hw hr
  have hfresh : ∀ c, h.next ≤ c → h.get c = none ∧ c ∉ F := by
    intro c hc
    constructor
    · cases hg : h.get c with
      | none => rfl
      | some x => have := hw _ _ hg; omega
    · intro hcF
      have := hlt c hcF
      omega
  cases t with
  | leaf d =>
    obtain ⟨h1, rfl⟩ := hr
    obtain ⟨a1, a2, a3, a4, a5⟩ := alloc_leaf h hw d
    refine ⟨_, _, [h.next], by simp [copyCtor, h1], a1, by simp, ?_, a4⟩
    intro c hc
    simp only [List.mem_singleton] at hc
    subst hc
    exact hfresh _ (Nat.le_refl _)
  | node d l r =>
    obtain ⟨x, y, Fl, Fr, h1, h2, h3, rfl⟩ := hr
    simp only [Tree.size] at hf
    obtain ⟨n1, g1, b1, G1, hn1, e1, r1, nd1, lt1, ag1, le1, w1⟩ := copyLoop_sub (fun h a => h.get a) id h.next h l x (some a) Fl h2
      (fun h' hh c hc => hh c (hlt c (by simp [hc]))) h hw (Nat.le_refl _) (fun _ _ => rfl)
    have h3' : Rep g1.get r y (some a) Fr := rep_congr r h3 fun c hc => ag1 c (hlt c (by simp [hc]))
    have hlt' := rep_lt w1 h3'
    obtain ⟨n2, g2, b2, G2, hn2, e2, r2, nd2, lt2, ag2, le2, w2⟩ := copyLoop_sub (fun h a => h.get a) id g1.next g1 r y (some a) Fr h3'
      (fun h' hh c hc => hh c (hlt' c hc)) g1 w1 (Nat.le_refl _) (fun _ _ => rfl)
    rw [Tree.map_id] at r1 r2
    have r1' : Rep g2.get l b1 none G1 := rep_congr _ r1 fun c hc => ag2 c (lt1 c hc).2
    have hnd : (G1 ++ G2).Nodup := by
      rw [List.nodup_append]
      refine ⟨nd1, nd2, ?_⟩
      intro c hc c' hc'
      have := (lt1 c hc).2
      have := (lt2 c' hc').1
      omega
    obtain ⟨a1, a2, a3, a4, a5⟩ := alloc_node g2 w2 d r1' r2 hnd
    obtain ⟨G1', hG1⟩ := rep_head r1
    obtain ⟨G2', hG2⟩ := rep_head r2
    have hb1 := lt1 b1 (by simp [hG1])
    have hb2 := lt2 b2 (by simp [hG2])
    have c1 : deepCopy fuel h x = some (g1, some b1) := by
      obtain ⟨m, hm⟩ : ∃ m, fuel = n1 + m := ⟨fuel - n1, by omega⟩
      rw [hm, deepCopy, e1, copyLoop_nil]
    have c2 : deepCopy fuel g1 y = some (g2, some b2) := by
      obtain ⟨m, hm⟩ : ∃ m, fuel = n2 + m := ⟨fuel - n2, by omega⟩
      rw [hm, deepCopy, e2, copyLoop_nil]
    refine ⟨_, _, g2.next :: (G1 ++ G2), by simp [copyCtor, h1, c1, c2], a1, ?_, ?_, ?_⟩
    · rw [List.nodup_cons]
      refine ⟨?_, hnd⟩
      intro hc
      rcases List.mem_append.1 hc with hc | hc
      · have := (lt1 _ hc).2; omega
      · have := (lt2 _ hc).2; omega
    · intro c hc
      apply hfresh
      simp only [List.mem_cons, List.mem_append] at hc
      rcases hc with rfl | hc | hc
      · omega
      · have := lt1 c hc; omega
      · have := lt2 c hc; omega
    · intro c hc
      rw [a4 c (by omega) (by omega) (by omega), ag2 c (by omega), ag1 c hc]

/-- The move constructor keeps the tree and corrects the parent pointers of the children. -/
theorem moveCtor_correct (h : Heap α) (hw : h.WF) (t : Tree α) (a : Nat) (par : Option Nat) (F : List Nat) (hr : Rep h.get t a par F)
    (hn : F.Nodup) : ∃ h' b F', moveCtor h a = some (h', b) ∧ Rep h'.get t b none F' ∧ F'.Nodup ∧ (∀ c ∈ F', c = h.next ∨ c ∈ F) ∧ h'.WF ∧
      Rep h'.get (.leaf t.data) a par [a] ∧ a ∉ F' := by
  have hlt := rep_lt hw hr
  cases t with
  | leaf d =>
    obtain ⟨h1, rfl⟩ := hr
    have ha := hlt a (by simp)
    obtain ⟨a1, a2, a3, a4, a5⟩ := alloc_leaf h hw d
    refine ⟨_, _, [h.next], by simp only [moveCtor, h1, Option.bind_eq_bind, Option.bind_some, a4 a ha]; rfl, ?_, by simp, by simp, ?_, ⟨by simp [Tree.data], rfl⟩, by simp; omega⟩
    · refine ⟨?_, rfl⟩
      have : (alloc h d none none).2 ≠ a := by rw [a2]; omega
      simp only [if_neg this]
      exact a1.1
    · intro c n hc
      simp only at hc ⊢
      split at hc
      · omega
      · exact a5 _ _ hc
  | node d l r =>
    obtain ⟨x, y, Fl, Fr, h1, h2, h3, rfl⟩ := hr
    rw [List.nodup_cons] at hn
    have ha := hlt a (by simp)
    obtain ⟨a1, a2, a3, a4, a5⟩ := alloc_node h hw d h2 h3 hn.2
    obtain ⟨G1', hG1⟩ := rep_head h2
    obtain ⟨G2', hG2⟩ := rep_head h3
    have hax : a ≠ x := by rintro rfl; exact hn.1 (by simp [hG1])
    have hay : a ≠ y := by rintro rfl; exact hn.1 (by simp [hG2])
    refine ⟨_, _, h.next :: (Fl ++ Fr), by simp only [moveCtor, h1, Option.bind_eq_bind, Option.bind_some, a4 a ha hax hay]; rfl, ?_, ?_, ?_, ?_,
      ⟨by simp [Tree.data], rfl⟩, by
        simp only [List.mem_cons, not_or]; exact ⟨by omega, hn.1⟩⟩
    · refine rep_congr _ a1 ?_
      intro c hc
      have : c ≠ a := by
        rintro rfl
        simp only [List.mem_cons] at hc
        rcases hc with hc | hc
        · omega
        · exact hn.1 hc
      simp only [if_neg this]
    · rw [List.nodup_cons]
      refine ⟨?_, hn.2⟩
      intro hc
      have := hlt h.next (by simp only [List.mem_cons]; exact Or.inr hc)
      omega
    · intro c hc
      simp only [List.mem_cons] at hc ⊢
      exact hc.imp id Or.inr
    · intro c n hc
      simp only at hc ⊢
      split at hc
      · omega
      · exact a5 _ _ hc

/-- **C25** (`transform_node`): the result is the tree with the function applied to every label, with correct parent pointers, in new
memory. -/
theorem transformNode_correct (fn : α → β) (src : Heap α) (h : Heap β) (hw : h.WF) (t : Tree α) (a : Nat) (par : Option Nat) (F : List Nat)
    (hr : Rep src.get t a par F) (fuel : Nat) (hf : 3 * t.size ≤ fuel) :
    ∃ h' b F', transformNode fn fuel src h a = some (h', b) ∧ Rep h'.get (t.map fn) b none F' ∧ F'.Nodup ∧ (∀ c ∈ F', h.get c = none) := by
  obtain ⟨n, h1, b1, F1, hn, e, r, nd, lt, ag, le, w⟩ := copyLoop_sub (fun _ a => src.get a) fn 0 h t a par F hr
    (fun h' _ c _ => rfl) h hw (Nat.zero_le _) (fun _ _ => rfl)
  obtain ⟨m, rfl⟩ : ∃ m, fuel = n + m := ⟨fuel - n, by omega⟩
  obtain ⟨h2, b2, F2, m1, m2, m3, m4, m5, -⟩ := moveCtor_correct h1 w _ b1 none F1 r nd
  refine ⟨h2, b2, F2, by simp only [transformNode, e, copyLoop_nil, Option.bind_eq_bind, Option.bind_some, m1], m2, m3, ?_⟩
  intro c hc
  have : h.next ≤ c := by
    rcases m4 c hc with rfl | hc'
    · exact le
    · exact (lt c hc').1
  cases hg : h.get c with
  | none => rfl
  | some x => have := hw _ _ hg; omega

/-! ### Destruction -/

theorem destroyLoop_sub (g : Nat → Option (HNode α)) (t : Tree α) : ∀ (a : Nat) (par : Option Nat) (F : List Nat), Rep g t a par F →
    ∃ L : List Nat, L.Perm F ∧ ∀ fuel pending freed, destroyLoop g (t.size + fuel) (a :: pending) freed = destroyLoop g fuel pending (L ++ freed) := by
  induction t with
  | leaf d =>
    rintro a par F ⟨h1, rfl⟩
    refine ⟨[a], List.Perm.refl _, fun fuel pending freed => ?_⟩
    rw [show Tree.size (Tree.leaf d) + fuel = fuel + 1 by simp only [Tree.size]; omega, destroyLoop]
    simp [h1]
  | node d l r ihl ihr =>
    rintro a par F ⟨x, y, Fl, Fr, h1, h2, h3, rfl⟩
    obtain ⟨L1, p1, e1⟩ := ihl x _ Fl h2
    obtain ⟨L2, p2, e2⟩ := ihr y _ Fr h3
    refine ⟨L1 ++ (L2 ++ [a]), ?_, fun fuel pending freed => ?_⟩
    · exact (((p1.append (List.perm_append_singleton a L2)).trans List.perm_middle).trans ((p2.append_left Fl).cons a))
    · rw [show (Tree.node d l r).size + fuel = (r.size + (l.size + fuel)) + 1 by simp only [Tree.size]; omega, destroyLoop]
      simp only [h1]
      rw [e2, e1]
      simp

/-- **C25** (destructor): destroying a node frees every node below it exactly once, and nothing else. -/
theorem destroy_correct (g : Nat → Option (HNode α)) (t : Tree α) (a : Nat) (par : Option Nat) (F : List Nat) (hr : Rep g t a par F)
    (fuel : Nat) (hf : t.size ≤ fuel) : ∃ L, destroy fuel g a = some L ∧ (a :: L).Perm F := by
  have hnil : ∀ fuel (L : List Nat), destroyLoop g fuel [] L = some L := by intro fuel L; cases fuel <;> rfl
  cases t with
  | leaf d =>
    obtain ⟨h1, rfl⟩ := hr
    exact ⟨[], by simp [destroy, h1, hnil], List.Perm.refl _⟩
  | node d l r =>
    obtain ⟨x, y, Fl, Fr, h1, h2, h3, rfl⟩ := hr
    obtain ⟨L1, p1, e1⟩ := destroyLoop_sub g l x _ Fl h2
    obtain ⟨L2, p2, e2⟩ := destroyLoop_sub g r y _ Fr h3
    simp only [Tree.size] at hf
    obtain ⟨m, rfl⟩ : ∃ m, fuel = r.size + (l.size + m) := ⟨fuel - r.size - l.size, by omega⟩
    refine ⟨L1 ++ L2, ?_, (p1.append p2).cons a⟩
    simp only [destroy, h1]
    rw [e2, e1, hnil]
    simp

/-! ### Folding -/

/-- The labels of the leaves from left to right. -/
def Tree.leaves : Tree α → List α
  | .leaf a => [a]
  | .node _ l r => l.leaves ++ r.leaves

/-- The right children met when following `n` left children from the root, and what is left, in order from the bottom. -/
def Tree.spine : Nat → Tree α → List (Tree α)
  | 0, t => [t]
  | _ + 1, .leaf a => [.leaf a]
  | n + 1, .node _ l r => l.spine n ++ [r]

/-- Every label on the left spine is the operation applied to the two children. -/
def Tree.SpineOp (op : Tree α → Tree α → α) : Nat → Tree α → Prop
  | 0, _ => True
  | _ + 1, .leaf _ => False
  | n + 1, .node a l r => a = op l r ∧ l.SpineOp op n

/-- **C25** (`fold_left_to_node`): the result is the left-deep tree over the given trees in order, each new node labelled by the operation. -/
theorem foldLeft_correct (op : Tree α → Tree α → α) (ts : List (Tree α)) :
    (foldLeft op ts = none ↔ ts = []) ∧ ∀ t, foldLeft op ts = some t →
      t.spine (ts.length - 1) = ts ∧ t.SpineOp op (ts.length - 1) ∧ t.leaves = ts.flatMap Tree.leaves := by
  have key : ∀ (us : List (Tree α)) (t0 : Tree α) (n : Nat) (l0 : List (Tree α)), t0.spine n = l0 → t0.SpineOp op n → t0.leaves = l0.flatMap Tree.leaves →
      let t := us.foldl (fun l r => Tree.node (op l r) l r) t0
      t.spine (n + us.length) = l0 ++ us ∧ t.SpineOp op (n + us.length) ∧ t.leaves = (l0 ++ us).flatMap Tree.leaves := by
    intro us
    induction us with
    | nil => intro t0 n l0 h1 h2 h3; simpa using ⟨h1, h2, h3⟩
    | cons u us ih =>
      intro t0 n l0 h1 h2 h3
      have := ih (Tree.node (op t0 u) t0 u) (n + 1) (l0 ++ [u]) (by simp [Tree.spine, h1]) (by simp [Tree.SpineOp, h2])
        (by simp [Tree.leaves, h3])
      simp only [List.foldl_cons, List.length_cons]
      rw [show n + (us.length + 1) = n + 1 + us.length by omega]
      simpa using this
  cases ts with
  | nil => simp [foldLeft]
  | cons t0 us =>
    refine ⟨by simp [foldLeft], ?_⟩
    intro t ht
    simp only [foldLeft, Option.some.injEq] at ht
    subst ht
    have := key us t0 0 [t0] rfl trivial (by simp)
    simpa using this

/-- The constructor from a container gives the left-deep tree over the binarized elements. -/
theorem ofContainer_correct (b1 : β → α) (b2 : α → α → α) (xs : List β) :
    (ofContainer b1 b2 xs = none ↔ xs = []) ∧ ∀ t, ofContainer b1 b2 xs = some t →
      t.leaves = xs.map b1 ∧ t.size = 2 * xs.length - 1 ∧ some t = foldLeft (fun l r => b2 l.data r.data) (xs.map fun x => .leaf (b1 x)) := by
  cases xs with
  | nil => simp [ofContainer]
  | cons x xs =>
    refine ⟨by simp [ofContainer], ?_⟩
    intro t ht
    simp only [ofContainer, Option.some.injEq] at ht
    have hfold : some t = foldLeft (fun l r => b2 l.data r.data) ((x :: xs).map fun x => .leaf (b1 x)) := by
      simp only [foldLeft, List.map_cons, List.foldl_map, ← ht, Tree.data]
    refine ⟨?_, ?_, hfold⟩
    · have := ((foldLeft_correct _ _).2 t hfold.symm).2.2
      rw [this, List.flatMap_map]
      simp only [Tree.leaves]
      generalize x :: xs = l
      induction l with
      | nil => rfl
      | cons a l ih => simp [ih]
    · have : ∀ (us : List β) (t0 : Tree α), (us.foldl (fun acc v => Tree.node (b2 acc.data (b1 v)) acc (.leaf (b1 v))) t0).size = t0.size + 2 * us.length := by
        intro us
        induction us with
        | nil => intro t0; simp
        | cons u us ih => intro t0; rw [List.foldl_cons, ih]; simp [Tree.size]; omega
      rw [← ht, this]
      simp [Tree.size]
      omega

/-! ### Examples -/

/-- The memory after building `1(2,3)` by the constructors. -/
def h3 : Heap Nat :=
  let a := alloc ⟨fun _ => none, 0⟩ 2 none none
  let b := alloc a.1 3 none none
  (alloc b.1 1 (some a.2) (some b.2)).1

example : Rep h3.get (.node 1 (.leaf 2) (.leaf 3)) 2 none [2, 0, 1] := ⟨0, 1, [0], [1], rfl, ⟨rfl, rfl⟩, ⟨rfl, rfl⟩, rfl⟩

example : (deepCopy 9 h3 2).map Prod.snd = some (some 5) := rfl
example : (transformNode (· + 10) 9 h3 ⟨fun _ => none, 0⟩ 2).bind (fun r => (r.1.get r.2).map HNode.data) = some 11 := rfl
example : destroy 3 h3.get 2 = some [0, 1] := rfl
example : foldLeft (fun l r => l.data + r.data) [.leaf 1, .leaf 2, .leaf 3] = some (.node 6 (.node 3 (.leaf 1) (.leaf 2)) (.leaf 3)) := rfl

end SeQuant.Nodes
