import Verif.Batch.Entries

/-!
# C80: examples, and what happens without a hypothesis
-/

namespace SeQuant.Batch

open SeQuant.Eval

variable {L I F : Type} [DecidableEq L] [DecidableEq I] [CommRing F]

/-- If only equal trees have the same key, positions of axes are aligned. -/
theorem keyOK_structural (B : BatchEnv L I (ETree L) F) (hk : B.key = id) (S : ETree L → Prop) (hc : ∀ a l r, S (.node a l r) → S l ∧ S r) :
    KeyOK B S := by
  refine ⟨hc, ?_, ?_, ?_⟩
  · rintro t t' _ _ h; rw [hk] at h; cases h; rfl
  · rintro t t' _ _ h; rw [hk] at h; cases h; rfl
  · intro t t' x x' _ _ h hx hx' hp u hu
    rw [hk] at h
    obtain rfl : t = t' := h
    refine ⟨u, hu, rfl, ?_⟩
    have absent : ∀ (y : I) (t : ETree L), Stays B.ix y t → y ∉ B.ix t.label → ∀ u, Sub u t → y ∉ B.ix u.label := by
      intro y t
      induction t with
      | leaf a => rintro _ h u hu; rw [show u = .leaf a from hu]; exact h
      | node a l r ihl ihr =>
        rintro ⟨h1, h2, h3⟩ h u (rfl | hu | hu)
        · exact h
        · exact ihl h2 (fun hm => h (h1 (.inl hm))) u hu
        · exact ihr h3 (fun hm => h (h1 (.inr hm))) u hu
    have hsub : Sub u t := (sub_iff u t).2 (.inr hu)
    unfold indexPosition at hp ⊢
    by_cases h1 : x ∈ B.ix t.label
    · by_cases h2 : x' ∈ B.ix t.label
      · simp only [h1, h2, if_true, Option.some.injEq] at hp
        obtain rfl : x = x' := (List.idxOf_inj h1).1 hp
        rfl
      · simp [h1, h2] at hp
    · by_cases h2 : x' ∈ B.ix t.label
      · simp [h1, h2] at hp
      · simp [absent x t hx h1 u hsub, absent x' t hx' h2 u hsub]

/-! ### Two products that share a sum

`R_ij = (A_iK + A'_iK) C_Kj` and `Q_i = (A_iK + A'_iK) D_K`; `Q` is kept in the cache. -/

/-- Labels: leaves 0 … 3 are `A`, `A'`, `C`, `D`; 4 the sum, 5 and 6 the products; 8 … 10 are for the tree below. -/
def demoIx : Nat → List Char
  | 0 => ['i', 'K'] | 1 => ['i', 'K'] | 2 => ['K', 'j'] | 3 => ['K'] | 4 => ['K', 'i'] | 5 => ['i', 'j'] | 6 => ['i']
  | 8 => [] | 9 => ['i', 'K'] | 10 => ['i'] | _ => []

def demoOp : Nat → EOp
  | 4 => .sum
  | _ => .prod

def demoSum : ETree Nat := .node 4 (.leaf 0) (.leaf 1)
def demoR : ETree Nat := .node 5 demoSum (.leaf 2)
def demoQ : ETree Nat := .node 6 demoSum (.leaf 3)

def demoEnv : BatchEnv Nat Char (ETree Nat) Int where
  key := id
  op := demoOp
  phase _ := 1
  ix := demoIx
  conj := id
  elem a v := match a, v with
    | 0, [i, k] => (i : Int) + 10 * k
    | 1, [i, k] => (i : Int) * k - 3
    | 2, [k, j] => 7 * (k : Int) - j
    | 3, [k] => 1 + (k : Int)
    | _, _ => 0
  ext c := if c = 'K' then (0, 5) else (0, 2)
  tbl _ := none
  tiles a p := if (demoIx a)[p]? = some 'K' then [(0, 2), (2, 4), (4, 5)] else [(0, 2)]
  accept c := c == 'K'
  size _ := 1
  target _ := 3
  isVolatile _ := false
  persistentOnly := false
  keys := [demoQ]

def demoS (t : ETree Nat) : Prop := t ∈ [demoR, demoQ, demoSum, .leaf 0, .leaf 1, .leaf 2, .leaf 3]

theorem demo_children : ∀ a l r, demoS (.node a l r) → demoS l ∧ demoS r := by
  intro a l r h
  simp only [demoS, demoR, demoQ, demoSum, List.mem_cons, ETree.node.injEq, reduceCtorEq, List.not_mem_nil, or_false] at h ⊢
  rcases h with ⟨rfl, rfl, rfl⟩ | ⟨rfl, rfl, rfl⟩ | ⟨rfl, rfl, rfl⟩ <;> simp

theorem demo_ok : BatchOK demoEnv demoS := by
  refine { toKeyOK := keyOK_structural demoEnv rfl demoS demo_children, sign := fun _ _ => .inl rfl, coherent := ?_, shaped := ?_, dummies := ?_,
           tiles := ?_, keys := ?_ }
  · rintro t t' _ _ h; cases (show t = t' from h); rfl
  · intro t ht
    simp only [demoS, List.mem_cons, List.not_mem_nil, or_false] at ht
    rcases ht with rfl | rfl | rfl | rfl | rfl | rfl | rfl
    all_goals simp [demoR, demoQ, demoSum, Shaped, demoEnv, demoIx, demoOp, ETree.label]
    all_goals (try (intro i; tauto))
  · intro a l r x ht hx
    simp only [demoS, demoR, demoQ, demoSum, List.mem_cons, ETree.node.injEq, reduceCtorEq, List.not_mem_nil, or_false] at ht
    rcases ht with ⟨rfl, rfl, rfl⟩ | ⟨rfl, rfl, rfl⟩ | ⟨rfl, rfl, rfl⟩
    · simp only [contractedIndices, demoEnv, demoIx, demoOp, ETree.label] at hx
      simp [Stays, demoEnv, demoIx, ETree.label]; tauto
    · simp only [contractedIndices, demoEnv, demoIx, demoOp, ETree.label] at hx
      simp [Stays, demoEnv, demoIx, ETree.label]; tauto
    · simp [Stays]
  · intro a i ha hi
    simp only [demoS, demoR, demoQ, demoSum, List.mem_cons, ETree.leaf.injEq, reduceCtorEq, List.not_mem_nil, or_false, false_or] at ha
    have key : ∀ a ∈ [0, 1, 2, 3], ∀ i ∈ demoEnv.ix a, Tiled (demoEnv.tiles a ((demoEnv.ix a).idxOf i)) ∧
        elementsRange (demoEnv.tiles a ((demoEnv.ix a).idxOf i)) = demoEnv.ext i := by decide
    exact key a (by simpa using ha) i hi
  · intro k hk
    simp only [demoEnv, List.mem_singleton] at hk
    subst hk; simp [demoS]

/-- No objects yet, an entry for `Q`. -/
def demoStart : Mem (Arr Int) × Cache (ETree Nat) Nat := (⟨fun _ => tab [] fun _ => 0, 0⟩, Cache.make [(demoQ, 2)] fun _ => true)

theorem demo_start : RealOK demoEnv demoS demoStart := by
  refine ⟨by intro a r h; simp [demoEnv] at h, ?_⟩
  intro k e r h1 h2
  simp only [demoStart, make_entry] at h1
  obtain ⟨p, -, rfl⟩ := Option.map_eq_some_iff.1 h1
  simp [Entry.new] at h2

/-- The elements of an object at some places. -/
def peek (m : Mem (Arr Int)) (o : Nat) (vs : List (List Nat)) : List Int := vs.map (m.get o).at_

example : batchesOf demoEnv demoR 'K' = some [(0, 2), (2, 5)] := by decide
example : (groupOf demoEnv demoStart.2 demoR 'K' [(0, 2), (2, 5)]).map (fun m => (m.id, m.root, m.axis)) = [(0, demoR, 'K'), (1, demoQ, 'K')] := by
  decide
-- the sum is evaluated once per batch
example : ((walk demoEnv (groupOf demoEnv demoStart.2 demoR 'K' [(0, 2), (2, 5)]) []).map fun e => (e.node, e.count, e.sig, e.consistent)) =
    [(demoSum, 2, some 0, true)] := by decide
example : ((batched demoEnv demoR demoStart).bind fun p => p.2.map fun r => peek p.1.1 r [[0, 0], [0, 1], [1, 0], [1, 1]]) =
    some (([[0, 0], [0, 1], [1, 0], [1, 1]] : List (List Nat)).map (plain demoOp (fullAlg demoEnv) demoR).at_) := by decide +kernel
example : (([[0, 0], [0, 1], [1, 0], [1, 1]] : List (List Nat)).map (plain demoOp (fullAlg demoEnv) demoR).at_) = [1890, 1805, 2170, 2070] := by decide +kernel
-- `Q` is there afterwards, with the right value
example : ((batched demoEnv demoR demoStart).bind fun p => (p.1.2 demoQ).bind fun e => e.data.map fun r => peek p.1.1 r [[0], [1]]) =
    some (([[0], [1]] : List (List Nat)).map (plain demoOp (fullAlg demoEnv) demoQ).at_) := by decide +kernel
example : ∃ mc' r, evaluate (batchedEnv demoEnv) demoR.rounds true demoR demoStart = some (mc', r) ∧
    mc'.1.get r = plain demoOp (fullAlg demoEnv) demoR := by
  obtain ⟨mc', r, h1, -, h2, -⟩ := evaluate_batched_partial demo_ok demoR (by simp [demoS]) true demoStart demo_start _ (le_refl _)
  exact ⟨mc', r, h1, h2⟩

/-! ### A dummy name that is used again below -/

/-- `(A_iK (D_K D_K)) D_K`, where the sum in the scalar `D_K D_K` is over an index that also is called `K`. -/
def nestedTree : ETree Nat := .node 10 (.node 9 (.leaf 0) (.node 8 (.leaf 3) (.leaf 3))) (.leaf 3)

/-- All leaves that carry `K` are sliced, also those of the inner sum: the result is wrong. -/
theorem nested_dummy_violated : ∃ mc' r, batched demoEnv nestedTree demoStart = some (mc', some r) ∧
    mc'.1.get r ≠ plain demoOp (fullAlg demoEnv) nestedTree := by
  have h1 : ((batched demoEnv nestedTree demoStart).bind fun p => p.2.map fun r => (p.1.1.get r).at_ [1]) = some 19715 := by decide +kernel
  have h2 : (plain demoOp (fullAlg demoEnv) nestedTree).at_ [1] = 22825 := by decide +kernel
  cases hb : batched demoEnv nestedTree demoStart with
  | none => simp [hb] at h1
  | some p =>
    obtain ⟨mc', r⟩ := p
    cases r with
    | none => simp [hb] at h1
    | some r =>
      refine ⟨mc', r, rfl, ?_⟩
      intro h
      simp only [hb, Option.bind_some, Option.map_some, Option.some.injEq] at h1
      rw [h, h2] at h1
      exact absurd h1 (by decide)

end SeQuant.Batch
