import Verif.Cse.LayoutProps
import Mathlib.Data.Finset.Card

/-!
# Which subexpressions are found (C77)
-/

namespace SeQuant.Cse

open SeQuant.Eval SeQuant.Binarize SeQuant.Optimize

/-! ### The table -/

section table

variable {A : Type} {eq : ETree A → ETree A → Bool}

/-- An equivalence relation. -/
structure IsEquiv {N : Type} (eq : N → N → Bool) : Prop where
  refl : ∀ x, eq x x = true
  symm : ∀ x y, eq x y = true → eq y x = true
  trans : ∀ x y z, eq x y = true → eq y z = true → eq x z = true

/-- The inner nodes of a tree that are not below a node with the property `P`, and do not have it. -/
def kept (P : ETree A → Bool) : ETree A → List (ETree A)
  | .leaf _ => []
  | .node a l r => if P (.node a l r) then [] else .node a l r :: (kept P l ++ kept P r)

/-- How often the class of `n` was counted. -/
def count (eq : ETree A → ETree A → Bool) (tab : List (ETree A × Nat)) (n : ETree A) : Nat := (tab.map fun q => if eq q.1 n then q.2 else 0).sum

/-- Invariants of the table. -/
structure Tab (eq : ETree A → ETree A → Bool) (tab : List (ETree A × Nat)) : Prop where
  apart : tab.Pairwise fun p q => eq p.1 q.1 = false
  pos : ∀ q ∈ tab, 1 ≤ q.2

theorem count_append (a b : List (ETree A × Nat)) (n : ETree A) : count eq (a ++ b) n = count eq a n + count eq b n := by
  simp [count]

theorem bump_fst (n : ETree A) : ∀ tab : List (ETree A × Nat), (bump eq n tab).map Prod.fst = tab.map Prod.fst := by
  intro tab
  induction tab with
  | nil => rfl
  | cons q tab ih =>
    rw [bump]
    split
    · rfl
    · simp [ih]

theorem bump_pos (n : ETree A) : ∀ {tab : List (ETree A × Nat)}, (∀ q ∈ tab, 1 ≤ q.2) → ∀ q ∈ bump eq n tab, 1 ≤ q.2 := by
  intro tab
  induction tab with
  | nil => intro _ q hq; simp [bump] at hq
  | cons p tab ih =>
    intro h q hq
    rw [bump] at hq
    split at hq
    · rcases List.mem_cons.1 hq with rfl | hq
      · simp
      · exact h q (by simp [hq])
    · rcases List.mem_cons.1 hq with rfl | hq
      · exact h q (by simp)
      · exact ih (fun x hx => h x (by simp [hx])) q hq

theorem pairwise_fst {r : ETree A → ETree A → Prop} (tab : List (ETree A × Nat)) :
    tab.Pairwise (fun p q => r p.1 q.1) ↔ (tab.map Prod.fst).Pairwise r := List.pairwise_map.symm

theorem bump_tab {n : ETree A} {tab : List (ETree A × Nat)} (h : Tab eq tab) : Tab eq (bump eq n tab) where
  apart := by
    have := h.apart
    rw [pairwise_fst (r := fun x y => eq x y = false)] at this ⊢
    rw [bump_fst]
    exact this
  pos := bump_pos n h.pos

theorem count_bump (he : IsEquiv eq) (n m : ETree A) : ∀ tab : List (ETree A × Nat), tab.any (fun q => eq q.1 n) = true →
    count eq (bump eq n tab) m = count eq tab m + if eq n m then 1 else 0 := by
  intro tab
  induction tab with
  | nil => simp
  | cons q tab ih =>
    intro h
    rw [bump]
    by_cases hq : eq q.1 n = true
    · rw [if_pos hq]
      have e : eq q.1 m = eq n m := by
        apply Bool.eq_iff_iff.2
        exact ⟨fun h1 => he.trans _ _ _ (he.symm _ _ hq) h1, fun h1 => he.trans _ _ _ hq h1⟩
      simp only [count, List.map_cons, List.sum_cons, e]
      split <;> omega
    · rw [if_neg hq]
      have := ih (by simpa [hq] using h)
      simp only [count, List.map_cons, List.sum_cons] at this ⊢
      omega

theorem any_of_count {tab : List (ETree A × Nat)} {n : ETree A} (h : 1 ≤ count eq tab n) : tab.any (fun q => eq q.1 n) = true := by
  by_contra hc
  have : count eq tab n = 0 := by
    unfold count
    apply List.sum_eq_zero
    intro x hx
    obtain ⟨q, hq, rfl⟩ := List.mem_map.1 hx
    simp only [List.any_eq_true, not_exists, not_and, Bool.not_eq_true] at hc
    simp [hc q hq]
  omega

theorem count_ge {tab : List (ETree A × Nat)} {n : ETree A} {q : ETree A × Nat} (hq : q ∈ tab) (he : eq q.1 n = true) : q.2 ≤ count eq tab n := by
  induction tab with
  | nil => simp at hq
  | cons p tab ih =>
    rcases List.mem_cons.1 hq with rfl | hq
    · simp [count, he]
    · have := ih hq
      simp only [count, List.map_cons, List.sum_cons] at this ⊢
      omega

/-- With entries that are apart, the count is that of one entry. -/
theorem entry_of_count (he : IsEquiv eq) : ∀ {tab : List (ETree A × Nat)} {n : ETree A}, tab.Pairwise (fun p q => eq p.1 q.1 = false) →
    1 ≤ count eq tab n → ∃ q ∈ tab, eq q.1 n = true ∧ q.2 = count eq tab n := by
  intro tab
  induction tab with
  | nil => intro n _ h; simp [count] at h
  | cons p tab ih =>
    intro n hp h
    rw [List.pairwise_cons] at hp
    by_cases hpn : eq p.1 n = true
    · refine ⟨p, by simp, hpn, ?_⟩
      have h0 : count eq tab n = 0 := by
        by_contra hc
        obtain ⟨q, hq, hqn⟩ := List.any_eq_true.1 (any_of_count (Nat.one_le_iff_ne_zero.2 hc))
        have := hp.1 q hq
        rw [he.trans _ _ _ hpn (he.symm _ _ hqn)] at this
        exact Bool.noConfusion this
      simp only [count, List.map_cons, List.sum_cons, hpn, if_true] at h0 ⊢
      omega
    · have e : count eq (p :: tab) n = count eq tab n := by simp [count, hpn]
      rw [e] at h ⊢
      obtain ⟨q, hq, h1, h2⟩ := ih hp.2 h
      exact ⟨q, by simp [hq], h1, h2⟩

/-- The nodes `ident` asks about. -/
def visited (eq : ETree A → ETree A → Bool) : ETree A → List (ETree A × Nat) → List (ETree A)
  | .leaf _, _ => []
  | .node a l r, tab =>
    if tab.any (fun q => eq q.1 (.node a l r)) then [.node a l r]
    else .node a l r :: (visited eq l (tab ++ [(.node a l r, 1)]) ++ visited eq r (ident eq l (tab ++ [(.node a l r, 1)])))

theorem ident_tab (he : IsEquiv eq) : ∀ (t : ETree A) {tab : List (ETree A × Nat)}, Tab eq tab →
    Tab eq (ident eq t tab) ∧ ∀ m, count eq (ident eq t tab) m = count eq tab m + (visited eq t tab).countP fun n => eq n m := by
  intro t
  induction t with
  | leaf a => intro tab h; exact ⟨h, fun m => by simp [ident, visited]⟩
  | node a l r ihl ihr =>
    intro tab h
    by_cases hc : tab.any (fun q => eq q.1 (.node a l r)) = true
    · rw [ident, visited, if_pos hc, if_pos hc]
      refine ⟨bump_tab h, fun m => ?_⟩
      rw [count_bump he _ _ _ hc]
      simp [List.countP_cons]
    · rw [ident, visited, if_neg hc, if_neg hc]
      have h0 : Tab eq (tab ++ [(.node a l r, 1)]) := by
        constructor
        · rw [List.pairwise_append]
          refine ⟨h.apart, by simp, ?_⟩
          intro p hp q hq
          rw [List.mem_singleton] at hq
          subst hq
          simp only [List.any_eq_true, not_exists, not_and, Bool.not_eq_true] at hc
          exact hc p hp
        · intro q hq
          rcases List.mem_append.1 hq with hq | hq
          · exact h.pos q hq
          · rw [List.mem_singleton] at hq
            subst hq
            exact Nat.le_refl 1
      obtain ⟨h1, c1⟩ := ihl h0
      obtain ⟨h2, c2⟩ := ihr h1
      refine ⟨h2, fun m => ?_⟩
      rw [c2, c1, count_append, List.countP_cons, List.countP_append]
      have : count eq [(ETree.node a l r, 1)] m = if eq (.node a l r) m then 1 else 0 := by simp [count]
      rw [this]
      omega

/-- Nodes that are kept are among those asked about, when `P` holds for all that is counted twice in a table that is no smaller than the final one. -/
theorem kept_sublist (he : IsEquiv eq) {P : ETree A → Bool} : ∀ (t : ETree A) {tab : List (ETree A × Nat)}, Tab eq tab →
    (∀ n, 2 ≤ count eq (ident eq t tab) n → P n = true) → (kept P t).Sublist (visited eq t tab) := by
  intro t
  induction t with
  | leaf a => intro tab _ _; exact List.Sublist.refl _
  | node a l r ihl ihr =>
    intro tab h hP
    rw [kept]
    by_cases hp : P (.node a l r) = true
    · rw [if_pos hp]
      exact List.nil_sublist _
    · rw [if_neg hp]
      by_cases hc : tab.any (fun q => eq q.1 (.node a l r)) = true
      · exfalso
        apply hp
        apply hP
        rw [(ident_tab he _ h).2, visited, if_pos hc]
        obtain ⟨q, hq, hqn⟩ := List.any_eq_true.1 hc
        have := count_ge hq hqn
        have := h.pos q hq
        simp only [List.countP_cons, he.refl, if_true, List.countP_nil]
        omega
      · have h0 : Tab eq (tab ++ [(.node a l r, 1)]) := by
          have := (ident_tab he (.node a (.leaf a) (.leaf a)) (tab := tab) h).1
          constructor
          · rw [List.pairwise_append]
            refine ⟨h.apart, by simp, ?_⟩
            intro p hp' q hq
            rw [List.mem_singleton] at hq
            subst hq
            simp only [List.any_eq_true, not_exists, not_and, Bool.not_eq_true] at hc
            exact hc p hp'
          · intro q hq
            rcases List.mem_append.1 hq with hq | hq
            · exact h.pos q hq
            · rw [List.mem_singleton] at hq
              subst hq
              exact Nat.le_refl 1
        have e : ident eq (.node a l r) tab = ident eq r (ident eq l (tab ++ [(.node a l r, 1)])) := by rw [ident, if_neg hc]
        obtain ⟨h1, c1⟩ := ident_tab he l h0
        obtain ⟨h2, c2⟩ := ident_tab he r h1
        rw [visited, if_neg hc]
        refine List.Sublist.cons_cons _ (List.Sublist.append (ihl h0 fun n hn => ?_) (ihr h1 fun n hn => ?_))
        · apply hP
          rw [e, c2]
          omega
        · apply hP
          rw [e]
          exact hn

/-- The nodes asked about in all trees. -/
def visitedAll (eq : ETree A → ETree A → Bool) : List (ETree A) → List (ETree A × Nat) → List (ETree A)
  | [], _ => []
  | t :: ts, tab => visited eq t tab ++ visitedAll eq ts (ident eq t tab)

theorem identAll_from (he : IsEquiv eq) : ∀ (ts : List (ETree A)) {tab : List (ETree A × Nat)}, Tab eq tab →
    Tab eq (ts.foldl (fun tab t => ident eq t tab) tab) ∧
    ∀ m, count eq (ts.foldl (fun tab t => ident eq t tab) tab) m = count eq tab m + (visitedAll eq ts tab).countP fun n => eq n m := by
  intro ts
  induction ts with
  | nil => intro tab h; exact ⟨h, fun m => by simp [visitedAll]⟩
  | cons t ts ih =>
    intro tab h
    obtain ⟨h1, c1⟩ := ident_tab he t h
    obtain ⟨h2, c2⟩ := ih h1
    refine ⟨h2, fun m => ?_⟩
    rw [List.foldl_cons, c2, c1, visitedAll, List.countP_append]
    omega

theorem keptAll_sublist (he : IsEquiv eq) {P : ETree A → Bool} : ∀ (ts : List (ETree A)) {tab : List (ETree A × Nat)}, Tab eq tab →
    (∀ n, 2 ≤ count eq (ts.foldl (fun tab t => ident eq t tab) tab) n → P n = true) → (ts.flatMap (kept P)).Sublist (visitedAll eq ts tab) := by
  intro ts
  induction ts with
  | nil => intro tab _ _; exact List.Sublist.refl _
  | cons t ts ih =>
    intro tab h hP
    obtain ⟨h1, c1⟩ := ident_tab he t h
    obtain ⟨h2, c2⟩ := identAll_from he ts h1
    rw [List.flatMap_cons, visitedAll]
    refine List.Sublist.append (kept_sublist he t h fun n hn => ?_) (ih h1 fun n hn => hP n hn)
    apply hP
    rw [List.foldl_cons, c2]
    omega

theorem tab_nil : Tab eq [] := ⟨.nil, by simp⟩

/-- A class is common if and only if its count is at least 2. -/
theorem common_iff (he : IsEquiv eq) {ts : List (ETree A)} {n : ETree A} :
    (common eq (fun _ _ => true) ts).any (fun q => eq q.1 n) = true ↔ 2 ≤ count eq (identAll eq ts) n := by
  obtain ⟨h1, _⟩ := identAll_from he ts (tab_nil (eq := eq))
  constructor
  · intro h
    obtain ⟨q, hq, hqn⟩ := List.any_eq_true.1 h
    rw [common, List.mem_filter] at hq
    have := count_ge hq.1 hqn
    have h2 := hq.2
    simp only [Bool.and_true, decide_eq_true_eq] at h2
    omega
  · intro h
    obtain ⟨q, hq, hqn, hc⟩ := entry_of_count he (tab := identAll eq ts) (n := n) h1.apart (by omega)
    refine List.any_eq_true.2 ⟨q, ?_, hqn⟩
    rw [common, List.mem_filter]
    refine ⟨hq, ?_⟩
    simp only [Bool.and_true, decide_eq_true_eq]
    omega

theorem two_le_countP {N : Type} {P : N → Bool} : ∀ {l : List N} {i j : Nat} {x y : N}, i < j → l[i]? = some x → l[j]? = some y → P x = true → P y = true →
    2 ≤ l.countP P := by
  intro l
  induction l with
  | nil => intro i j x y _ h; simp at h
  | cons a l ih =>
    intro i j x y hij hi hj hx hy
    obtain ⟨j, rfl⟩ : ∃ j', j = j' + 1 := ⟨j - 1, by omega⟩
    rw [List.getElem?_cons_succ] at hj
    cases i with
    | zero =>
      simp only [List.getElem?_cons_zero, Option.some.injEq] at hi
      subst hi
      have : 0 < l.countP P := List.countP_pos_iff.2 ⟨y, List.mem_of_getElem? hj, hy⟩
      rw [List.countP_cons, hx]
      simp only [if_true]
      omega
    | succ i =>
      rw [List.getElem?_cons_succ] at hi
      have := ih (Nat.lt_of_succ_lt_succ hij) hi hj hx hy
      rw [List.countP_cons]
      omega

/-- No two of the nodes that are kept in all trees are the same. -/
theorem kept_apart (he : IsEquiv eq) (ts : List (ETree A)) :
    (ts.flatMap (kept fun n => (common eq (fun _ _ => true) ts).any fun q => eq q.1 n)).Pairwise fun x y => eq x y = false := by
  have hs := keptAll_sublist he (P := fun n => (common eq (fun _ _ => true) ts).any fun q => eq q.1 n) ts tab_nil (fun n hn => (common_iff he).2 hn)
  have hc := (identAll_from he ts (tab_nil (eq := eq))).2
  have hk : ∀ x ∈ ts.flatMap (kept fun n => (common eq (fun _ _ => true) ts).any fun q => eq q.1 n),
      (common eq (fun _ _ => true) ts).any (fun q => eq q.1 x) = false := by
    intro x hx
    obtain ⟨t, ht, hxt⟩ := List.mem_flatMap.1 hx
    clear hx ht
    induction t with
    | leaf a => simp [kept] at hxt
    | node a l r ihl ihr =>
      rw [kept] at hxt
      split at hxt
      · simp at hxt
      · rename_i hP
        rcases List.mem_cons.1 hxt with rfl | hxt
        · simpa using hP
        · rcases List.mem_append.1 hxt with h | h
          · exact ihl h
          · exact ihr h
  rw [List.pairwise_iff_getElem]
  intro i j hi hj hij
  by_contra hxy
  rw [Bool.not_eq_false] at hxy
  have h2 := two_le_countP (P := fun n => eq n (List.flatMap _ ts)[j]) hij (List.getElem?_eq_getElem hi) (List.getElem?_eq_getElem hj) hxy (he.refl _)
  have h3 := hs.countP_le (p := fun n => eq n (List.flatMap _ ts)[j])
  have h4 := hc (List.flatMap (kept fun n => (common eq (fun _ _ => true) ts).any fun q => eq q.1 n) ts)[j]
  have h5 : (common eq (fun _ _ => true) ts).any (fun q => eq q.1 (List.flatMap _ ts)[j]) = true := (common_iff he).2 (by
    unfold identAll
    rw [h4]
    omega)
  rw [hk _ (List.getElem_mem hj)] at h5
  exact Bool.noConfusion h5

end table

/-! ### The comparison -/

variable {L ι K H G S : Type} [DecidableEq ι] [DecidableEq L] [DecidableEq K] [DecidableEq H] [DecidableEq G] [DecidableEq S]

theorem sameB_same (sp : ι → S) (B : List ι) : ∀ n m : Node L ι K H G, sameB sp B n m = true → same sp n m = true := by
  have hl : ∀ a b : EE L ι K H G, sameLabelB sp B a b = true → sameLabel sp a b = true := by
    intro a b h
    unfold sameLabelB at h
    unfold sameLabel
    cases ha : a.expr <;> cases hb : b.expr <;> simp only [ha, hb] at h ⊢ <;> try exact h
    rename_i t u
    by_cases hg : a.graph = none
    · simp only [hg, if_true, blockEqB, Bool.and_eq_true] at h ⊢
      exact ⟨⟨h.1.1, h.1.2.1⟩, h.2⟩
    · simp only [hg, if_false, Bool.and_eq_true] at h ⊢
      exact h
  intro n
  induction n with
  | leaf a => intro m h; cases m with
    | leaf b => exact hl a b h
    | node b l r => simp [sameB] at h
  | node a l r ihl ihr => intro m h; cases m with
    | leaf b => simp [sameB] at h
    | node b l' r' =>
      simp only [sameB, same, Bool.and_eq_true] at h ⊢
      exact ⟨⟨⟨h.1.1.1, hl a b h.1.1.2⟩, ihl _ h.1.2⟩, ihr _ h.2⟩

theorem blockEqB_iff (sp : ι → S) (B : List ι) (t u : Ten L ι) : blockEqB sp B t u = true ↔
    t.label = u.label ∧ t.adj = u.adj ∧ t.numSlots = u.numSlots ∧ t.idx.map sp = u.idx.map sp ∧ t.idx.map B.idxOf = u.idx.map B.idxOf := by
  have key : ∀ l m : List ι, l.length = m.length →
      ((l.zip m).all (fun p => decide (p.1 = p.2) || decide (B.idxOf p.1 = B.idxOf p.2)) = true ↔ l.map B.idxOf = m.map B.idxOf) := by
    intro l
    induction l with
    | nil => intro m hm; cases m with
      | nil => simp
      | cons y m => simp at hm
    | cons x l ih => intro m hm; cases m with
      | nil => simp at hm
      | cons y m =>
        have := ih m (by simpa using hm)
        simp only [List.zip_cons_cons, List.all_cons, Bool.and_eq_true, List.map_cons, List.cons.injEq, Bool.or_eq_true, decide_eq_true_eq, this]
        constructor
        · rintro ⟨h | h, h2⟩
          · exact ⟨by rw [h], h2⟩
          · exact ⟨h, h2⟩
        · rintro ⟨h, h2⟩
          exact ⟨Or.inr h, h2⟩
  constructor
  · intro h
    simp only [blockEqB, blockEq, Bool.and_eq_true, decide_eq_true_eq] at h
    exact ⟨h.1.1.1.1.1, h.1.1.1.1.2, h.1.1.1.2, h.1.2, (key _ _ h.1.1.2).1 h.2⟩
  · rintro ⟨h1, h2, h3, h4, h5⟩
    have hlen : t.idx.length = u.idx.length := by simpa using congrArg List.length h4
    simp only [blockEqB, blockEq, Bool.and_eq_true, decide_eq_true_eq]
    exact ⟨⟨⟨⟨⟨h1, h2⟩, h3⟩, hlen⟩, h4⟩, (key _ _ hlen).2 h5⟩

/-- What two labels are compared by. -/
theorem sameLabelB_iff (sp : ι → S) (B : List ι) (a b : EE L ι K H G) : sameLabelB sp B a b = true ↔
    a.hash = b.hash ∧ a.graph = b.graph ∧
      match a.expr, b.expr with
      | .const c, .const d => c = d
      | .var v, .var w => v = w
      | .ten t, .ten u => a.graph = none → blockEqB sp B t u = true
      | _, _ => False := by
  unfold sameLabelB
  cases a.expr <;> cases b.expr <;> cases a.graph <;> cases b.graph <;> simp [and_assoc, and_comm, and_left_comm]

/-- The comparison is an equivalence relation. -/
theorem sameB_equiv (sp : ι → S) (B : List ι) : IsEquiv (sameB sp B : Node L ι K H G → Node L ι K H G → Bool) := by
  have lr : ∀ a : EE L ι K H G, sameLabelB sp B a a = true := by
    intro a
    rw [sameLabelB_iff]
    refine ⟨rfl, rfl, ?_⟩
    cases a.expr <;> simp [blockEqB_iff]
  have ls : ∀ a b : EE L ι K H G, sameLabelB sp B a b = true → sameLabelB sp B b a = true := by
    intro a b h
    rw [sameLabelB_iff] at h ⊢
    refine ⟨h.1.symm, h.2.1.symm, ?_⟩
    obtain ⟨_, h2, h3⟩ := h
    revert h3
    rw [← h2]
    cases a.expr <;> cases b.expr <;> simp only [imp_self, false_imp_iff, eq_comm]
    intro h3 hg
    have h4 := (blockEqB_iff sp B _ _).1 (h3 hg).symm
    exact ((blockEqB_iff sp B _ _).2 ⟨h4.1.symm, h4.2.1.symm, h4.2.2.1.symm, h4.2.2.2.1.symm, h4.2.2.2.2.symm⟩).symm
  have lt : ∀ a b c : EE L ι K H G, sameLabelB sp B a b = true → sameLabelB sp B b c = true → sameLabelB sp B a c = true := by
    intro a b c h h'
    rw [sameLabelB_iff] at h h' ⊢
    refine ⟨h.1.trans h'.1, h.2.1.trans h'.2.1, ?_⟩
    obtain ⟨_, h2, h3⟩ := h
    obtain ⟨_, _, h3'⟩ := h'
    revert h3 h3'
    rw [← h2]
    cases a.expr <;> cases b.expr <;> cases c.expr <;> simp only [false_imp_iff, imp_self, imp_true_iff, blockEqB_iff]
    · exact fun h h' => h.trans h'
    · exact fun h h' => h.trans h'
    · intro h h' hg
      obtain ⟨a1, a2, a3, a4, a5⟩ := h hg
      obtain ⟨b1, b2, b3, b4, b5⟩ := h' hg
      exact ⟨a1.trans b1, a2.trans b2, a3.trans b3, a4.trans b4, a5.trans b5⟩
  constructor
  · intro n
    induction n with
    | leaf a => exact lr a
    | node a l r ihl ihr => simp [sameB, lr, ihl, ihr]
  · intro n
    induction n with
    | leaf a => intro m h; cases m with
      | leaf b => exact ls a b h
      | node b l r => simp [sameB] at h
    | node a l r ihl ihr => intro m h; cases m with
      | leaf b => simp [sameB] at h
      | node b l' r' =>
        simp only [sameB, Bool.and_eq_true, decide_eq_true_eq] at h ⊢
        exact ⟨⟨⟨h.1.1.1.symm, ls a b h.1.1.2⟩, ihl _ h.1.2⟩, ihr _ h.2⟩
  · intro n
    induction n with
    | leaf a => intro m k h h'; cases m with
      | leaf b => cases k with
        | leaf c => exact lt a b c h h'
        | node c l r => simp [sameB] at h'
      | node b l r => simp [sameB] at h
    | node a l r ihl ihr => intro m k h h'; cases m with
      | leaf b => simp [sameB] at h
      | node b l' r' => cases k with
        | leaf c => simp [sameB] at h'
        | node c l'' r'' =>
          simp only [sameB, Bool.and_eq_true, decide_eq_true_eq] at h h' ⊢
          exact ⟨⟨⟨h.1.1.1.trans h'.1.1.1, lt a b c h.1.1.2 h'.1.1.2⟩, ihl _ _ h.1.2 h'.1.2⟩, ihr _ _ h.2 h'.2⟩

/-- Elements that are apart, each the same as an entry of a list, are no more than its entries. -/
theorem length_le_of_apart {N M : Type} {eq : N → N → Bool} (he : IsEquiv eq) {xs : List N} {tab : List (N × M)}
    (ha : xs.Pairwise fun x y => eq x y = false) (hx : ∀ x ∈ xs, tab.any (fun q => eq q.1 x) = true) : xs.length ≤ tab.length := by
  classical
  have hf : ∀ i : Fin xs.length, ∃ j : Fin tab.length, eq tab[j].1 xs[i] = true := by
    intro i
    obtain ⟨q, hq, hqx⟩ := List.any_eq_true.1 (hx _ (List.getElem_mem i.2))
    obtain ⟨j, hj, rfl⟩ := List.mem_iff_getElem.1 hq
    exact ⟨⟨j, hj⟩, hqx⟩
  choose f hf using hf
  have hinj : Function.Injective f := by
    intro i i' h
    by_contra hne
    have key : eq xs[i] xs[i'] = true := he.trans _ _ _ (he.symm _ _ (hf i)) (by rw [h]; exact hf i')
    rw [List.pairwise_iff_getElem] at ha
    rcases Nat.lt_or_gt_of_ne (fun h => hne (Fin.ext h)) with hlt | hlt
    · have := ha i i' i.2 i'.2 hlt
      rw [show eq xs[(i : Nat)] xs[(i' : Nat)] = true from key] at this
      exact Bool.noConfusion this
    · have := ha i' i i'.2 i.2 hlt
      rw [show eq xs[(i' : Nat)] xs[(i : Nat)] = true from he.symm _ _ key] at this
      exact Bool.noConfusion this
  simpa using Fintype.card_le_of_injective f hinj

end SeQuant.Cse
