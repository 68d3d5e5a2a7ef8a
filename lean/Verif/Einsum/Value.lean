import Verif.Einsum.Letters
import Mathlib.Algebra.BigOperators.Group.List.Basic
import Mathlib.Data.List.Induction

/-!
# What the calls of `einsum` compute (C99)
-/

namespace SeQuant.Einsum

variable {K : Type} [Field K]

/-! ### Lists under a function that is injective where it is used -/

theorem dedup_map {φ : Label → Nat} {ls : List Label} (h : ∀ a ∈ ls, ∀ b ∈ ls, φ a = φ b → a = b) : (ls.map φ).dedup = ls.dedup.map φ := by
  induction ls with
  | nil => rfl
  | cons a ls ih =>
    have ih := ih fun x hx y hy => h x (List.mem_cons_of_mem _ hx) y (List.mem_cons_of_mem _ hy)
    have hiff : φ a ∈ ls.map φ ↔ a ∈ ls := by
      constructor
      · intro hm
        obtain ⟨b, hb, he⟩ := List.mem_map.1 hm
        rw [← h b (List.mem_cons_of_mem _ hb) a List.mem_cons_self he]; exact hb
      · exact List.mem_map_of_mem
    rw [List.map_cons]
    by_cases ha : a ∈ ls
    · rw [List.dedup_cons_of_mem ha, List.dedup_cons_of_mem (hiff.2 ha), ih]
    · rw [List.dedup_cons_of_notMem ha, List.dedup_cons_of_notMem (fun x => ha (hiff.1 x)), ih, List.map_cons]

theorem filter_map {φ : Label → Nat} {ls out : List Label} (h : ∀ a ∈ ls, ∀ b ∈ out, φ a = φ b → a = b) :
    (ls.map φ).filter (fun x => decide (x ∉ out.map φ)) = (ls.filter fun l => decide (l ∉ out)).map φ := by
  induction ls with
  | nil => rfl
  | cons a ls ih =>
    have ih := ih fun x hx y hy => h x (List.mem_cons_of_mem _ hx) y hy
    have hiff : φ a ∈ out.map φ ↔ a ∈ out := by
      constructor
      · intro hm
        obtain ⟨b, hb, he⟩ := List.mem_map.1 hm
        rw [h a List.mem_cons_self b hb he.symm]; exact hb
      · exact List.mem_map_of_mem
    rw [List.map_cons, List.filter_cons, List.filter_cons, ih]
    by_cases ha : a ∈ out
    · have h2 := hiff.2 ha
      simp only [h2, ha, not_true, decide_false, if_false, Bool.false_eq_true]
    · have h2 : φ a ∉ out.map φ := fun x => ha (hiff.1 x)
      simp only [h2, ha, not_false_iff, decide_true, if_true, List.map_cons]

theorem idxOf_map {φ : Label → Nat} {out : List Label} {l : Label} (h : ∀ b ∈ out, φ l = φ b → l = b) : (out.map φ).idxOf (φ l) = out.idxOf l := by
  induction out with
  | nil => rfl
  | cons a out ih =>
    rw [List.map_cons, List.idxOf_cons, List.idxOf_cons, ih fun b hb => h b (List.mem_cons_of_mem _ hb)]
    by_cases ha : a = l
    · subst ha; rw [beq_self_eq_true, beq_self_eq_true]
    · have : φ a ≠ φ l := fun e => ha (h a List.mem_cons_self e.symm).symm
      rw [beq_false_of_ne ha, beq_false_of_ne this]

theorem sumAll_map {φ : Label → Nat} (S : Label → Prop) (hφ : ∀ a b, S a → S b → φ a = φ b → a = b) {dimC : Nat → Nat} {dimL : Label → Nat}
    (hd : ∀ a, S a → dimC (φ a) = dimL a) {f : (Nat → Nat) → K} {g : (Label → Nat) → K}
    (hfg : ∀ σC σL, (∀ a, S a → σC (φ a) = σL a) → f σC = g σL) :
    ∀ (ls : List Label) (_ : ∀ l ∈ ls, S l) (σC : Nat → Nat) (σL : Label → Nat) (_ : ∀ a, S a → σC (φ a) = σL a),
      sumAll dimC (ls.map φ) σC f = sumAll dimL ls σL g
  | [], _, σC, σL, h => hfg σC σL h
  | l :: ls, hS, σC, σL, h => by
    have hl := hS l List.mem_cons_self
    simp only [List.map_cons, sumAll]
    rw [hd l hl]
    congr 1
    apply List.map_congr_left
    intro v _
    refine sumAll_map S hφ hd hfg ls (fun x hx => hS x (List.mem_cons_of_mem _ hx)) _ _ fun a ha => ?_
    by_cases hal : a = l
    · subst hal; simp
    · have : φ a ≠ φ l := fun e => hal (hφ a l ha hl e)
      simp [Function.update_of_ne hal, Function.update_of_ne this, h a ha]

/-! ### Subscripts -/

/-- python_einsum.hpp:523-525, for all tensors. -/
def joinSpec (subs : List (List Nat)) : List (Option Nat) :=
  subs.foldl (fun spec cs => (if spec.isEmpty then [] else spec ++ [none]) ++ cs.map some) []

theorem joinSpec_append (subs : List (List Nat)) (cs : List Nat) :
    joinSpec (subs ++ [cs]) = (if (joinSpec subs).isEmpty then [] else joinSpec subs ++ [none]) ++ cs.map some := by
  simp [joinSpec, List.foldl_append]

theorem splitSpec_map (cs : List Nat) : splitSpec (cs.map some) = [cs] := by
  induction cs with
  | nil => rfl
  | cons c cs ih => simp [splitSpec, ih]

theorem splitSpec_ne (l : List (Option Nat)) : splitSpec l ≠ [] := by
  cases l with
  | nil => simp [splitSpec]
  | cons x l =>
    cases x with
    | none => simp [splitSpec]
    | some c =>
      simp only [splitSpec]
      split <;> simp

theorem splitSpec_append (l : List (Option Nat)) (cs : List Nat) : splitSpec (l ++ none :: cs.map some) = splitSpec l ++ [cs] := by
  induction l with
  | nil => simp [splitSpec, splitSpec_map]
  | cons x l ih =>
    cases x with
    | none => simp [splitSpec, ih]
    | some c =>
      simp only [List.cons_append, splitSpec, ih]
      cases h : splitSpec l with
      | nil => exact absurd h (splitSpec_ne l)
      | cons s ss => simp

theorem joinSpec_ne {s : List Nat} (hs : s ≠ []) (subs : List (List Nat)) : joinSpec (s :: subs) ≠ [] := by
  induction subs using List.reverseRecOn with
  | nil => simp [joinSpec, hs]
  | append_singleton subs cs ih =>
    rw [← List.cons_append, joinSpec_append]
    simp [ih]

/-- **The subscripts can be read from the text**, if the first tensor has indices or is the only one. -/
theorem splitSpec_joinSpec {subs : List (List Nat)} (h : subs.length = 1 ∨ subs.head? ≠ some [] ∧ subs ≠ []) : splitSpec (joinSpec subs) = subs := by
  cases subs with
  | nil => simp at h
  | cons s subs =>
    by_cases hs : s = []
    · have : subs = [] := by simpa [hs] using h
      subst this hs
      rfl
    · clear h
      induction subs using List.reverseRecOn with
      | nil => simp [joinSpec, splitSpec_map]
      | append_singleton subs cs ih =>
        rw [← List.cons_append, joinSpec_append]
        have hne : (joinSpec (s :: subs)).isEmpty = false := by simpa using joinSpec_ne hs subs
        rw [hne]
        simp only [Bool.false_eq_true, if_false, List.append_assoc, List.singleton_append]
        rw [splitSpec_append, ih]

theorem splitSpec_length_le (subs : List (List Nat)) : (splitSpec (joinSpec subs)).length ≤ max 1 subs.length := by
  induction subs using List.reverseRecOn with
  | nil => simp [joinSpec, splitSpec]
  | append_singleton subs cs ih =>
    rw [joinSpec_append]
    by_cases h : (joinSpec subs).isEmpty
    · simp [h, splitSpec_map]
    · simp only [Bool.not_eq_true] at h
      rw [h]
      simp only [Bool.false_eq_true, if_false, List.append_assoc, List.singleton_append]
      rw [splitSpec_append]
      have : subs ≠ [] := fun e => by rw [e] at h; simp [joinSpec] at h
      have := List.length_pos_iff.2 this
      simp only [List.length_append, List.length_cons, List.length_nil]
      omega

/-- **Otherwise a comma is missing.** -/
theorem splitSpec_joinSpec_fails (s : List Nat) (subs : List (List Nat)) :
    (splitSpec (joinSpec ([] :: s :: subs))).length < ([] :: s :: subs : List (List Nat)).length := by
  have h : joinSpec ([] :: s :: subs) = joinSpec (s :: subs) := by simp [joinSpec]
  rw [h]
  have := splitSpec_length_le (s :: subs)
  simp only [List.length_cons] at this ⊢
  omega

/-! ### The value of a call -/

/-- The contraction of some tensors: labels that the result does not have are summed. -/
def contract (arr : Nat → List Nat → K) (dim : Label → Nat) (result : List Label) (y : List Nat) (T : List (Nat × List Label)) : K :=
  sumAll dim ((T.flatMap (·.2)).filter fun l => decide (l ∉ result)).dedup (fun l => y.getD (result.idxOf l) 0)
    fun σ => (T.map fun t => arr t.1 (t.2.map σ)).prod

theorem extents_eq {shape : Nat → List Nat} {φ : Label → Nat} {dim : Label → Nat} : ∀ {T : List (Nat × List Label)},
    (∀ t ∈ T, shape t.1 = t.2.map dim) → extents shape (T.map (·.1)) (T.map fun t => t.2.map φ) = (T.flatMap (·.2)).map fun l => (φ l, dim l)
  | [], _ => rfl
  | t :: T, h => by
    have ih := extents_eq (φ := φ) (T := T) fun t ht => h t (List.mem_cons_of_mem _ ht)
    simp only [extents] at ih
    simp only [extents, List.map_cons, List.zip_cons_cons, List.flatMap_cons, List.map_append]
    rw [ih, h t List.mem_cons_self, List.zip_map']

theorem lookup_ext {φ dim : Label → Nat} {ls : List Label} (h : ∀ a ∈ ls, ∀ b ∈ ls, φ a = φ b → a = b) {a : Label} (ha : a ∈ ls) :
    (ls.map fun l => (φ l, dim l)).lookup (φ a) = some (dim a) := by
  induction ls with
  | nil => simp at ha
  | cons b ls ih =>
    rw [List.map_cons, List.lookup_cons]
    by_cases hab : a = b
    · subst hab; simp
    · have hne : φ a ≠ φ b := fun e => hab (h a ha b List.mem_cons_self e)
      rw [beq_false_of_ne hne]
      exact ih (fun x hx y hy => h x (List.mem_cons_of_mem _ hx) y (List.mem_cons_of_mem _ hy)) ((List.mem_cons.1 ha).resolve_left hab)

/-- **A call computes the contraction**, if the letters of different labels are different. -/
theorem einsumAt_value (arr : Nat → List Nat → K) {φ : Label → Nat} {T : List (Nat × List Label)} {result : List Label}
    (hφ : ∀ a ∈ T.flatMap (·.2) ++ result, ∀ b ∈ T.flatMap (·.2) ++ result, φ a = φ b → a = b) {shape : Nat → List Nat} {dim : Label → Nat}
    (hd : ∀ t ∈ T, shape t.1 = t.2.map dim) (hT : T.length = 1 ∨ T.head?.map (·.2) ≠ some [] ∧ T ≠ [])
    (hr : result.Nodup) (hin : ∀ l ∈ result, l ∈ T.flatMap (·.2)) (y : List Nat) :
    einsumAt arr shape y ⟨joinSpec (T.map fun t => t.2.map φ), result.map φ, T.map (·.1)⟩ = some (contract arr dim result y T) := by
  have hs : splitSpec (joinSpec (T.map fun t => t.2.map φ)) = T.map fun t => t.2.map φ := by
    apply splitSpec_joinSpec
    rcases hT with h | ⟨h, h'⟩
    · left; simpa using h
    · right
      refine ⟨?_, by simpa using h'⟩
      cases T with
      | nil => simp at h'
      | cons t T =>
        simp only [List.head?_cons, Option.map_some, ne_eq, Option.some.injEq, List.map_cons, List.map_eq_nil_iff] at h ⊢
        exact h
  have hfl : (T.map fun t => t.2.map φ).flatten = (T.flatMap (·.2)).map φ := by
    rw [List.map_flatMap, List.flatMap_def]
  have hφT : ∀ a ∈ T.flatMap (·.2), ∀ b ∈ T.flatMap (·.2), φ a = φ b → a = b :=
    fun a ha b hb => hφ a (List.mem_append_left _ ha) b (List.mem_append_left _ hb)
  unfold einsumAt
  simp only [hs, hfl, extents_eq hd]
  rw [if_pos]
  · congr 1
    rw [filter_map (fun a ha b hb => hφ a (List.mem_append_left _ ha) b (List.mem_append_right _ hb)), dedup_map]
    · unfold contract
      refine sumAll_map (fun a => a ∈ T.flatMap (·.2)) (fun a b ha hb => hφT a ha b hb) ?_ ?_ _ ?_ _ _ ?_
      · intro a ha
        rw [lookup_ext hφT ha]; rfl
      · intro σC σL hσ
        rw [List.zip_map', List.map_map]
        congr 1
        apply List.map_congr_left
        intro t ht
        simp only [Function.comp, List.map_map]
        congr 1
        apply List.map_congr_left
        intro l hl
        exact hσ l (List.mem_flatMap.2 ⟨t, ht, hl⟩)
      · intro l hl
        exact (List.mem_filter.1 (List.mem_dedup.1 hl)).1
      · intro a ha
        rw [idxOf_map fun b hb => hφ a (List.mem_append_left _ ha) b (List.mem_append_right _ hb)]
    · intro a ha b hb
      exact hφT a (List.mem_filter.1 ha).1 b (List.mem_filter.1 hb).1
  · refine ⟨by simp, ?_, ?_, ?_, ?_⟩
    · intro p hp
      rw [List.zip_map'] at hp
      obtain ⟨t, ht, rfl⟩ := List.mem_map.1 hp
      simp [hd t ht]
    · intro p hp
      obtain ⟨l, hl, rfl⟩ := List.mem_map.1 hp
      exact lookup_ext hφT hl
    · exact List.Nodup.map_on (fun a ha b hb => hφ a (List.mem_append_right _ ha) b (List.mem_append_right _ hb)) hr
    · intro x hx
      obtain ⟨l, hl, rfl⟩ := List.mem_map.1 hx
      exact List.mem_map_of_mem (hin l hl)

/-- **A call whose first operand has no indices and is not alone raises an exception.** -/
theorem einsumAt_fails (arr : Nat → List Nat → K) (shape : Nat → List Nat) (y : List Nat) (s : List Nat) (subs : List (List Nat)) (out names : List Nat)
    (hn : names.length = subs.length + 2) : einsumAt arr shape y ⟨joinSpec ([] :: s :: subs), out, names⟩ = none := by
  have h := splitSpec_joinSpec_fails s subs
  simp only [List.length_cons] at h
  unfold einsumAt
  simp only
  rw [if_neg]
  intro h'
  omega

end SeQuant.Einsum
