import Verif.Tree.Model
import Mathlib.Data.List.Induction

/-!
# C24: visiting
-/

set_option linter.unusedSectionVars false

namespace SeQuant.Nodes

variable {α β S : Type}

/-! ### The specification: recursive traversal -/

/-- Call the visitor if `c` holds. -/
def callIf (c : Bool) (f : Visitor S) (s : S) (p : Ptr) (x : Ctx) : S × Bool := if c then f s p x else (s, true)

/-- Recursive traversal of the tree at `p`: before, between and after the subtrees; when the visitor declines, the rest of the node is
skipped. -/
def visitRec (o : Orders) (k : Kind) (f : Visitor S) : Tree α → Ptr → S → S
  | .leaf _, p, s => (callIf (decide (k ≠ .internal)) f s p .any).1
  | .node _ l r, p, s =>
    let a := callIf (o.pre && decide (k ≠ .leaf)) f s p .pre
    if a.2 then
      let b := callIf (o.in_ && decide (k ≠ .leaf)) f (visitRec o k f l (false :: p) a.1) p .in_
      if b.2 then
        (callIf (o.post && decide (k ≠ .leaf)) f (visitRec o k f r (true :: p) b.1) p .post).1
      else b.1
    else a.1

theorem sub_child {T : Tree α} {p : Ptr} {a : α} {l r : Tree α} (h : sub T p = some (.node a l r)) :
    sub T (false :: p) = some l ∧ sub T (true :: p) = some r := by simp [sub, h]

theorem visitLoop_sub (o : Orders) (k : Kind) (f : Visitor S) (T : Tree α) (t : Tree α) : ∀ (p prev : Ptr) (s : S), sub T p = some t →
    (p = [] ∧ prev = [] ∨ parent p = some prev) →
    ∃ n, n ≤ 3 * t.size ∧ ∀ fuel, visitLoop o k f T (n + fuel) s (some p) prev = visitLoop o k f T fuel (visitRec o k f t p s) (parent p) p := by
  induction t with
  | leaf a =>
    intro p prev s hs hp
    refine ⟨1, by simp [Tree.size], fun fuel => ?_⟩
    rw [Nat.add_comm 1 fuel, visitLoop]
    simp only [hs, ite_self, visitRec, callIf, decide_eq_true_eq]
  | node a l r ihl ihr =>
    intro p prev s hs hp
    obtain ⟨hl, hr⟩ := sub_child hs
    have h1 : prev ≠ false :: p := by
      rintro rfl
      rcases hp with ⟨-, h⟩ | h
      · simp at h
      · cases p with
        | nil => simp [parent] at h
        | cons d q =>
          simp only [parent, Option.some.injEq] at h
          have := congrArg List.length h
          simp at this
          omega
    have h2 : prev ≠ true :: p := by
      rintro rfl
      rcases hp with ⟨-, h⟩ | h
      · simp at h
      · cases p with
        | nil => simp [parent] at h
        | cons d q =>
          simp only [parent, Option.some.injEq] at h
          have := congrArg List.length h
          simp at this
          omega
    have h3 : p = [] ∨ parent p = some prev := hp.imp (fun h => h.1) id
    -- the step in pre-order
    have step1 : ∀ fuel, visitLoop o k f T (fuel + 1) s (some p) prev =
        visitLoop o k f T fuel (callIf (o.pre && decide (k ≠ .leaf)) f s p .pre).1
          (if (callIf (o.pre && decide (k ≠ .leaf)) f s p .pre).2 then some (false :: p) else parent p) p := by
      intro fuel
      rw [visitLoop]
      simp only [hs, if_neg h1, if_neg h2, if_pos h3, callIf]
      rfl
    have step2 : ∀ fuel s', visitLoop o k f T (fuel + 1) s' (some p) (false :: p) =
        visitLoop o k f T fuel (callIf (o.in_ && decide (k ≠ .leaf)) f s' p .in_).1
          (if (callIf (o.in_ && decide (k ≠ .leaf)) f s' p .in_).2 then some (true :: p) else parent p) p := by
      intro fuel s'
      rw [visitLoop]
      simp only [hs, if_true, callIf]
      rfl
    have step3 : ∀ fuel s', visitLoop o k f T (fuel + 1) s' (some p) (true :: p) =
        visitLoop o k f T fuel (callIf (o.post && decide (k ≠ .leaf)) f s' p .post).1 (parent p) p := by
      intro fuel s'
      rw [visitLoop]
      have : (true :: p) ≠ (false :: p) := by simp
      simp only [hs, if_neg this, if_true, callIf, ite_self]
    rw [visitRec]
    generalize hA : callIf (o.pre && decide (k ≠ .leaf)) f s p .pre = A at step1 ⊢
    by_cases ha : A.2 = true
    · simp only [ha, if_true] at step1 ⊢
      obtain ⟨n1, hn1, e1⟩ := ihl (false :: p) p A.1 hl (Or.inr rfl)
      generalize hB : callIf (o.in_ && decide (k ≠ .leaf)) f (visitRec o k f l (false :: p) A.1) p .in_ = B
      by_cases hb : B.2 = true
      · simp only [hb, if_true]
        obtain ⟨n2, hn2, e2⟩ := ihr (true :: p) p B.1 hr (Or.inr rfl)
        refine ⟨n1 + n2 + 3, by simp only [Tree.size]; omega, fun fuel => ?_⟩
        rw [show n1 + n2 + 3 + fuel = (n1 + (n2 + (fuel + 1) + 1)) + 1 by omega, step1, e1]
        simp only [parent]
        rw [step2, hB]
        simp only [hb, if_true]
        rw [e2]
        simp only [parent]
        rw [step3]
        rfl
      · simp only [Bool.not_eq_true] at hb
        simp only [hb, Bool.false_eq_true, if_false]
        refine ⟨n1 + 2, by simp only [Tree.size]; omega, fun fuel => ?_⟩
        rw [show n1 + 2 + fuel = (n1 + (fuel + 1)) + 1 by omega, step1, e1]
        simp only [parent]
        rw [step2, hB]
        simp only [hb, Bool.false_eq_true, if_false]
        rfl
    · simp only [Bool.not_eq_true] at ha
      simp only [ha, Bool.false_eq_true, if_false] at step1 ⊢
      refine ⟨1, by simp only [Tree.size]; omega, fun fuel => ?_⟩
      rw [Nat.add_comm 1 fuel, step1]

/-- **C24**: visiting a whole tree ends and calls the visitor exactly as the recursive traversal does, for every visitor with any state
and any pruning, every combination of orders and every selection of nodes. -/
theorem visit_correct (o : Orders) (ho : o ≠ ⟨false, false, false⟩) (k : Kind) (f : Visitor S) (T : Tree α) (s : S) (fuel : Nat)
    (hf : 3 * T.size ≤ fuel) : visit o k f T fuel s [] = .done (visitRec o k f T [] s) := by
  obtain ⟨n, hn, e⟩ := visitLoop_sub o k f T T [] [] s rfl (Or.inl ⟨rfl, rfl⟩)
  rw [visit, if_neg ho]
  obtain ⟨m, rfl⟩ : ∃ m, fuel = n + m := ⟨fuel - n, by omega⟩
  rw [e m]
  simp only [parent]
  cases m <;> rfl

/-- With no order at all nothing is visited, not even the leaves. -/
theorem visit_none (k : Kind) (f : Visitor S) (T : Tree α) (s : S) (fuel : Nat) (p : Ptr) :
    visit ⟨false, false, false⟩ k f T fuel s p = .done s := by simp [visit]

/-! ### What the recursive traversal visits -/

/-- The visitor that records the calls and never declines. -/
def recorder : Visitor (List (Ptr × Ctx)) := fun s p x => (s ++ [(p, x)], true)

/-- All nodes of the tree at `p` in pre-, in- and post-order. -/
def preOrder : Tree α → Ptr → List Ptr
  | .leaf _, p => [p]
  | .node _ l r, p => p :: (preOrder l (false :: p) ++ preOrder r (true :: p))
def inOrder : Tree α → Ptr → List Ptr
  | .leaf _, p => [p]
  | .node _ l r, p => inOrder l (false :: p) ++ p :: inOrder r (true :: p)
def postOrder : Tree α → Ptr → List Ptr
  | .leaf _, p => [p]
  | .node _ l r, p => postOrder l (false :: p) ++ (postOrder r (true :: p) ++ [p])
/-- The leaves from left to right. -/
def leafPtrs : Tree α → Ptr → List Ptr
  | .leaf _, p => [p]
  | .node _ l r, p => leafPtrs l (false :: p) ++ leafPtrs r (true :: p)
/-- The internal nodes in pre-order. -/
def internalPre : Tree α → Ptr → List Ptr
  | .leaf _, _ => []
  | .node _ l r, p => p :: (internalPre l (false :: p) ++ internalPre r (true :: p))

theorem visitRec_pre (t : Tree α) : ∀ (p : Ptr) (s : List (Ptr × Ctx)),
    (visitRec ⟨true, false, false⟩ .all recorder t p s).map Prod.fst = s.map Prod.fst ++ preOrder t p := by
  induction t with
  | leaf a => intro p s; simp [visitRec, callIf, recorder, preOrder]
  | node a l r ihl ihr => intro p s; simp [visitRec, callIf, recorder, preOrder, ihl, ihr]

theorem visitRec_in (t : Tree α) : ∀ (p : Ptr) (s : List (Ptr × Ctx)),
    (visitRec ⟨false, true, false⟩ .all recorder t p s).map Prod.fst = s.map Prod.fst ++ inOrder t p := by
  induction t with
  | leaf a => intro p s; simp [visitRec, callIf, recorder, inOrder]
  | node a l r ihl ihr => intro p s; simp [visitRec, callIf, recorder, inOrder, ihl, ihr]

theorem visitRec_post (t : Tree α) : ∀ (p : Ptr) (s : List (Ptr × Ctx)),
    (visitRec ⟨false, false, true⟩ .all recorder t p s).map Prod.fst = s.map Prod.fst ++ postOrder t p := by
  induction t with
  | leaf a => intro p s; simp [visitRec, callIf, recorder, postOrder]
  | node a l r ihl ihr => intro p s; simp [visitRec, callIf, recorder, postOrder, ihl, ihr]

theorem visitRec_leaf (o : Orders) (t : Tree α) : ∀ (p : Ptr) (s : List (Ptr × Ctx)),
    visitRec o .leaf recorder t p s = s ++ (leafPtrs t p).map fun q => (q, .any) := by
  induction t with
  | leaf a => intro p s; simp [visitRec, callIf, recorder, leafPtrs]
  | node a l r ihl ihr => intro p s; simp [visitRec, callIf, leafPtrs, ihl, ihr]

theorem visitRec_internal (t : Tree α) : ∀ (p : Ptr) (s : List (Ptr × Ctx)),
    visitRec ⟨true, false, false⟩ .internal recorder t p s = s ++ (internalPre t p).map fun q => (q, .pre) := by
  induction t with
  | leaf a => intro p s; simp [visitRec, callIf, internalPre]
  | node a l r ihl ihr => intro p s; simp [visitRec, callIf, recorder, internalPre, ihl, ihr]

/-- **C24**: without pruning, the pre-, in- and post-order visits call the visitor on the nodes in the respective order. -/
theorem visit_orders (T : Tree α) (fuel : Nat) (hf : 3 * T.size ≤ fuel) :
    (∃ r, visit ⟨true, false, false⟩ .all recorder T fuel [] [] = .done r ∧ r.map Prod.fst = preOrder T []) ∧
    (∃ r, visit ⟨false, true, false⟩ .all recorder T fuel [] [] = .done r ∧ r.map Prod.fst = inOrder T []) ∧
    (∃ r, visit ⟨false, false, true⟩ .all recorder T fuel [] [] = .done r ∧ r.map Prod.fst = postOrder T []) ∧
    (∀ o, o ≠ ⟨false, false, false⟩ → visit o .leaf recorder T fuel [] [] = .done ((leafPtrs T []).map fun q => (q, .any))) ∧
    visit ⟨true, false, false⟩ .internal recorder T fuel [] [] = .done ((internalPre T []).map fun q => (q, .pre)) := by
  refine ⟨⟨_, visit_correct _ (by decide) _ _ T [] fuel hf, ?_⟩, ⟨_, visit_correct _ (by decide) _ _ T [] fuel hf, ?_⟩,
    ⟨_, visit_correct _ (by decide) _ _ T [] fuel hf, ?_⟩, ?_, ?_⟩
  · rw [visitRec_pre]; simp
  · rw [visitRec_in]; simp
  · rw [visitRec_post]; simp
  · intro o ho; rw [visit_correct o ho _ _ T [] fuel hf, visitRec_leaf]; simp
  · rw [visit_correct _ (by decide) _ _ T [] fuel hf, visitRec_internal]; simp

/-- `q` lies below `p`. -/
def Below (p q : Ptr) : Prop := ∃ d, q = d ++ p

theorem sub_leaf (a : α) (d : Ptr) (x : Bool) : sub (Tree.leaf a) (d ++ [x]) = none := by
  induction d with
  | nil => simp [sub]
  | cons y d ih => simp only [List.cons_append, sub, ih]

theorem mem_preOrder (t : Tree α) : ∀ (p q : Ptr), q ∈ preOrder t p ↔ ∃ d, q = d ++ p ∧ (sub t d).isSome := by
  induction t with
  | leaf a =>
    intro p q
    simp only [preOrder, List.mem_singleton]
    constructor
    · rintro rfl; exact ⟨[], by simp, by simp [sub]⟩
    · rintro ⟨d, rfl, hd⟩
      cases d using List.reverseRecOn with
      | nil => rfl
      | append_singleton d x =>
        exfalso
        simp [sub_leaf] at hd
  | node a l r ihl ihr =>
    intro p q
    have hsub : ∀ (d : Ptr) (x : Bool), sub (Tree.node a l r) (d ++ [x]) = sub (if x then r else l) d := by
      intro d x
      induction d with
      | nil => cases x <;> simp [sub]
      | cons y d ih => simp only [List.cons_append, sub, ih]
    simp only [preOrder, List.mem_cons, List.mem_append, ihl, ihr]
    constructor
    · rintro (rfl | ⟨d, rfl, hd⟩ | ⟨d, rfl, hd⟩)
      · exact ⟨[], by simp, by simp [sub]⟩
      · exact ⟨d ++ [false], by simp, by rw [hsub]; simpa using hd⟩
      · exact ⟨d ++ [true], by simp, by rw [hsub]; simpa using hd⟩
    · rintro ⟨d, rfl, hd⟩
      cases d using List.reverseRecOn with
      | nil => exact Or.inl rfl
      | append_singleton d x =>
        rw [hsub] at hd
        cases x
        · exact Or.inr (Or.inl ⟨d, by simp, by simpa using hd⟩)
        · exact Or.inr (Or.inr ⟨d, by simp, by simpa using hd⟩)

theorem nodup_preOrder (t : Tree α) : ∀ p : Ptr, (preOrder t p).Nodup := by
  induction t with
  | leaf a => intro p; simp [preOrder]
  | node a l r ihl ihr =>
    intro p
    rw [preOrder, List.nodup_cons, List.nodup_append]
    refine ⟨?_, ihl _, ihr _, ?_⟩
    · intro h
      rw [List.mem_append] at h
      rcases h with h | h
      · obtain ⟨d, hd, -⟩ := (mem_preOrder _ _ _).1 h
        have := congrArg List.length hd; simp at this; omega
      · obtain ⟨d, hd, -⟩ := (mem_preOrder _ _ _).1 h
        have := congrArg List.length hd; simp at this; omega
    · intro x hx y hy hxy
      subst hxy
      obtain ⟨d, hd, -⟩ := (mem_preOrder _ _ _).1 hx
      obtain ⟨e, he, -⟩ := (mem_preOrder _ _ _).1 hy
      rw [hd] at he
      have hlen : d.length = e.length := by have := congrArg List.length he; simp at this; omega
      have := List.append_inj_right he hlen
      simp at this

theorem inOrder_perm (t : Tree α) : ∀ p : Ptr, (inOrder t p).Perm (preOrder t p) := by
  induction t with
  | leaf a => intro p; exact List.Perm.refl _
  | node a l r ihl ihr =>
    intro p
    rw [inOrder, preOrder]
    exact List.perm_middle.trans (((ihl _).append (ihr _)).cons p)

theorem postOrder_perm (t : Tree α) : ∀ p : Ptr, (postOrder t p).Perm (preOrder t p) := by
  induction t with
  | leaf a => intro p; exact List.Perm.refl _
  | node a l r ihl ihr =>
    intro p
    rw [postOrder, preOrder, ← List.append_assoc]
    exact (List.perm_append_singleton p _).trans (((ihl _).append (ihr _)).cons p)

/-- **C24** (exactly once): each of the three orders contains every node of the tree once and nothing else. -/
theorem orders_once (T : Tree α) (q : Ptr) :
    (preOrder T []).Nodup ∧ (inOrder T []).Nodup ∧ (postOrder T []).Nodup ∧
    (q ∈ preOrder T [] ↔ (sub T q).isSome) ∧ (q ∈ inOrder T [] ↔ (sub T q).isSome) ∧ (q ∈ postOrder T [] ↔ (sub T q).isSome) := by
  have h : q ∈ preOrder T [] ↔ (sub T q).isSome := by
    rw [mem_preOrder]
    constructor
    · rintro ⟨d, rfl, hd⟩; simpa using hd
    · intro h; exact ⟨q, by simp, h⟩
  refine ⟨nodup_preOrder T [], (inOrder_perm T []).nodup_iff.2 (nodup_preOrder T []), (postOrder_perm T []).nodup_iff.2 (nodup_preOrder T []),
    h, ?_, ?_⟩
  · rw [(inOrder_perm T []).mem_iff, h]
  · rw [(postOrder_perm T []).mem_iff, h]

/-! ### Visiting a node that is not the root -/

/-- **C24 is false** for subtrees: visiting an internal node that is not the root fails the assertion (200). -/
theorem visit_subtree_fails (o : Orders) (ho : o ≠ ⟨false, false, false⟩) (k : Kind) (f : Visitor S) (T : Tree α) (s : S) (fuel : Nat)
    (d : Bool) (p : Ptr) (a : α) (l r : Tree α) (h : sub T (d :: p) = some (.node a l r)) :
    visit o k f T (fuel + 1) s (d :: p) = .failed := by
  have h3 : ¬ (p = d :: p) := by intro h; have := congrArg List.length h; simp at this
  rw [visit, if_neg ho, visitLoop]
  simp [h, parent, h3]

/-- **C24 is false** for leaves below the root: visiting the left leaf of `1(2,3)` visits all of the tree except the root's pre-order
call. -/
theorem visit_leaf_escapes :
    ∃ r, visit ⟨true, true, true⟩ .all recorder (.node 1 (.leaf 2) (.leaf 3)) 10 [] [false] = .done r ∧
      r = [([false], .any), ([], .in_), ([true], .any), ([], .post)] := ⟨_, rfl, rfl⟩

/-! ### Examples -/

example : visit ⟨true, false, true⟩ .all recorder (.node 1 (.node 2 (.leaf 3) (.leaf 4)) (.leaf 5)) 15 [] [] =
    .done [([], .pre), ([false], .pre), ([false, false], .any), ([true, false], .any), ([false], .post), ([true], .any), ([], .post)] := rfl

/-- A visitor that prunes the left subtree. -/
example : visit ⟨true, true, false⟩ .all (fun s p x => (s ++ [(p, x)], p ≠ [false])) (.node 1 (.node 2 (.leaf 3) (.leaf 4)) (.leaf 5)) 15 [] [] =
    .done [([], .pre), ([false], .pre), ([], .in_), ([true], .any)] := rfl

end SeQuant.Nodes
