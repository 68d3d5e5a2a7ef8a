import Verif.Batch.Model

/-!
# The index over which batches are formed (C80)
-/

namespace SeQuant.Batch

open SeQuant.Eval

variable {L I K F : Type} [DecidableEq I] (B : BatchEnv L I K F)

/-- Contracted by a product: an index of both factors that the product does not have. -/
def Contracts (t : ETree L) (i : I) : Prop :=
  ∃ a l r, t = .node a l r ∧ B.op a = .prod ∧ i ∈ B.ix l.label ∧ i ∈ B.ix r.label ∧ i ∉ B.ix a

theorem mem_contractedIndices (t : ETree L) (i : I) : i ∈ contractedIndices B t ↔ Contracts B t i := by
  cases t with
  | leaf a => simp [contractedIndices, Contracts]
  | node a l r =>
    simp only [contractedIndices, Contracts]
    split <;> rename_i h
    · simp [h]
    · simp only [List.not_mem_nil, false_iff]
      rintro ⟨a', l', r', he, h', -⟩
      simp only [ETree.node.injEq] at he
      exact h (he.1 ▸ h')

/-- The choice so far is the largest accepted index among those seen, the first one of that size. -/
def Best (l : List I) : Option I → Prop
  | none => ∀ i ∈ l, B.accept i = false
  | some x => ∃ pre post, l = pre ++ x :: post ∧ B.accept x = true ∧ (∀ i ∈ pre, B.accept i = true → B.size i < B.size x) ∧
      ∀ i ∈ post, B.accept i = true → B.size i ≤ B.size x

omit [DecidableEq I] in
theorem best_foldl (l : List I) : ∀ (seen : List I) (b : Option I), Best B seen b → Best B (seen ++ l) (l.foldl (fun best i =>
    if !B.accept i then best
    else match best with
      | none => some i
      | some b => if B.size b < B.size i then some i else best) b) := by
  induction l with
  | nil => intro seen b h; simpa using h
  | cons i l ih =>
    intro seen b h
    rw [List.foldl_cons, show seen ++ i :: l = (seen ++ [i]) ++ l by simp]
    apply ih
    cases ha : B.accept i with
    | false =>
      simp only [Bool.not_false, if_true]
      cases b with
      | none => intro j hj; rcases List.mem_append.1 hj with hj | hj; exact h j hj; simp at hj; exact hj ▸ ha
      | some x =>
        obtain ⟨pre, post, e, h1, h2, h3⟩ := h
        refine ⟨pre, post ++ [i], by simp [e], h1, h2, fun j hj hj' => ?_⟩
        rcases List.mem_append.1 hj with hj | hj
        · exact h3 j hj hj'
        · simp at hj; subst hj; simp [ha] at hj'
    | true =>
      simp only [Bool.not_true, Bool.false_eq_true, if_false]
      cases b with
      | none => exact ⟨seen, [], rfl, ha, fun j hj hj' => by simp [h j hj] at hj', by simp⟩
      | some x =>
        obtain ⟨pre, post, e, h1, h2, h3⟩ := h
        simp only
        split <;> rename_i hlt
        · refine ⟨seen, [], rfl, ha, fun j hj hj' => ?_, by simp⟩
          rw [e] at hj
          rcases List.mem_append.1 hj with hj | hj
          · exact lt_trans (h2 j hj hj') hlt
          · rcases List.mem_cons.1 hj with rfl | hj
            · exact hlt
            · exact lt_of_le_of_lt (h3 j hj hj') hlt
        · refine ⟨pre, post ++ [i], by simp [e], h1, h2, fun j hj hj' => ?_⟩
          rcases List.mem_append.1 hj with hj | hj
          · exact h3 j hj hj'
          · simp at hj; subst hj; omega

/-- **C80** The batch axis is an accepted contracted index of the largest extent; there is none only if no contracted index is accepted. -/
theorem batchAxis_best (t : ETree L) : Best B (contractedIndices B t) (batchAxis B t) := by
  have := best_foldl B (contractedIndices B t) [] none (by simp [Best])
  rw [List.nil_append] at this
  exact this

theorem batchAxis_largest (t : ETree L) (x : I) (h : batchAxis B t = some x) :
    Contracts B t x ∧ B.accept x = true ∧ ∀ i, Contracts B t i → B.accept i = true → B.size i ≤ B.size x := by
  have hb := batchAxis_best B t
  rw [h] at hb
  obtain ⟨pre, post, e, h1, h2, h3⟩ := hb
  refine ⟨(mem_contractedIndices B t x).1 (by simp [e]), h1, fun i hi ha => ?_⟩
  have := (mem_contractedIndices B t i).2 hi
  rw [e] at this
  rcases List.mem_append.1 this with hj | hj
  · exact le_of_lt (h2 i hj ha)
  · rcases List.mem_cons.1 hj with rfl | hj
    · exact le_refl _
    · exact h3 i hj ha

theorem batchAxis_none (t : ETree L) : batchAxis B t = none ↔ ∀ i, Contracts B t i → B.accept i = false := by
  have hb := batchAxis_best B t
  constructor
  · intro h i hi
    rw [h] at hb
    exact hb i ((mem_contractedIndices B t i).2 hi)
  · intro h
    cases hx : batchAxis B t with
    | none => rfl
    | some x =>
      rw [hx] at hb
      obtain ⟨pre, post, e, h1, -⟩ := hb
      have := h x ((mem_contractedIndices B t x).1 (by simp [e]))
      simp [this] at h1

/-- Three contracted indices; the largest is not accepted, of the two others of equal extent the first is taken. -/
def axisEnv : BatchEnv Nat Char Nat Int where
  key _ := 0
  op _ := .prod
  phase _ := 1
  ix a := if a = 0 then ['a'] else if a = 1 then ['x', 'a', 'K', 'L', 'V'] else ['K', 'V', 'L', 'x']
  conj := id
  elem _ _ := 0
  ext _ := (0, 0)
  tbl _ := none
  tiles _ _ := []
  accept i := i != 'V'
  size i := if i = 'V' then 9 else if i = 'x' then 2 else 5
  target _ := 1
  isVolatile _ := false
  persistentOnly := false
  keys := []

example : contractedIndices axisEnv (.node 0 (.leaf 1) (.leaf 2)) = ['x', 'K', 'L', 'V'] := by decide
example : batchAxis axisEnv (.node 0 (.leaf 1) (.leaf 2)) = some 'K' := by decide
example : batchAxis axisEnv (.node 0 (.leaf 0) (.leaf 1)) = none := by decide

end SeQuant.Batch
