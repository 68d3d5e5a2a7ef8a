import Verif.Biorth.Transform
import Verif.Biorth.Project
import Mathlib.Data.List.FinRange
import Mathlib.Data.List.Perm.Subperm

/-!
# Biorthogonal transformation of expressions
-/

namespace SeQuant.Biorth

open Equiv (Perm)
open Matrix

variable {n : Nat}

/-! ### Replacing indices in expressions -/

section values

variable {F : Type} [Field F]

mutual

/-- The value of an expression before summation over repeated indices: `T` gives the elements of the tensors, `V` the values of the variables, and
`x` the values of the indices. -/
def Ex.val (T : Nat → List Nat → F) (V : Nat → F) (x : Idx → Nat) : Ex → F
  | .const q => (q : F)
  | .var v => V v
  | .tensor l is => T l (is.map x)
  | .product c fs => (c : F) * Ex.prodVal T V x fs
  | .sum ts => Ex.sumVal T V x ts
  | .other => 0

def Ex.prodVal (T : Nat → List Nat → F) (V : Nat → F) (x : Idx → Nat) : List Ex → F
  | [] => 1
  | f :: fs => Ex.val T V x f * Ex.prodVal T V x fs

def Ex.sumVal (T : Nat → List Nat → F) (V : Nat → F) (x : Idx → Nat) : List Ex → F
  | [] => 0
  | t :: ts => Ex.val T V x t + Ex.sumVal T V x ts

end

/-- Numbers, variables and tensors. -/
def Ex.Atom : Ex → Prop
  | .const _ => True
  | .var _ => True
  | .tensor _ _ => True
  | _ => False

mutual

/-- What `transform_expr` can handle: the factors of products are numbers, variables and tensors. -/
def Ex.Flat : Ex → Prop
  | .product _ fs => ∀ f ∈ fs, f.Atom
  | .sum ts => Ex.FlatAll ts
  | .other => False
  | .const _ => True
  | .var _ => True
  | .tensor _ _ => True

def Ex.FlatAll : List Ex → Prop
  | [] => True
  | t :: ts => t.Flat ∧ Ex.FlatAll ts

end

theorem transformFactors_ok (r : Repl) : ∀ fs : List Ex, (∀ f ∈ fs, f.Atom) → ∃ fs', transformFactors r fs = .ok fs' ∧
    ∀ (T : Nat → List Nat → F) (V : Nat → F) (x : Idx → Nat), Ex.prodVal T V x fs' = Ex.prodVal T V (x ∘ r.apply) fs
  | [], _ => ⟨[], rfl, fun _ _ _ => rfl⟩
  | f :: fs, h => by
      obtain ⟨fs', h1, h2⟩ := transformFactors_ok r fs fun g hg => h g (by simp [hg])
      have hf := h f (by simp)
      cases f with
      | const q => exact ⟨.const q :: fs', by rw [transformFactors, h1]; rfl, fun T V x => by rw [Ex.prodVal, Ex.prodVal, h2, Ex.val, Ex.val]⟩
      | var v => exact ⟨.var v :: fs', by rw [transformFactors, h1]; rfl, fun T V x => by rw [Ex.prodVal, Ex.prodVal, h2, Ex.val, Ex.val]⟩
      | tensor l is =>
        exact ⟨transformTensor r l is :: fs', by rw [transformFactors, h1]; rfl, fun T V x => by
          rw [Ex.prodVal, Ex.prodVal, h2, transformTensor, Ex.val, Ex.val, List.map_map]⟩
      | product c gs => exact hf.elim
      | sum ts => exact hf.elim
      | other => exact hf.elim

theorem transformFactors_error (r : Repl) : ∀ fs : List Ex, (¬ ∀ f ∈ fs, f.Atom) → transformFactors r fs = .error .type
  | [], h => absurd (fun f hf => absurd hf (by simp)) h
  | f :: fs, h => by
      cases f with
      | const q | var v | tensor l is =>
        have := transformFactors_error r fs fun hall => h fun g hg => by
          rcases List.mem_cons.1 hg with rfl | hg
          · trivial
          · exact hall g hg
        rw [transformFactors, this]; rfl
      | product c gs | sum ts | other => rfl

mutual

/-- Replacing indices evaluates the expression at other values of the indices, times the factor. -/
theorem transformExpr_spec [CharZero F] (r : Repl) (s : ℚ) : ∀ e : Ex,
    (e.Flat → ∃ e', transformExpr r s e = .ok e' ∧
      ∀ (T : Nat → List Nat → F) (V : Nat → F) (x : Idx → Nat), e'.val T V x = (s : F) * e.val T V (x ∘ r.apply)) ∧
    (¬ e.Flat → transformExpr r s e = .error .type)
  | .const q => by
      refine ⟨fun _ => ⟨_, rfl, fun T V x => ?_⟩, fun h => absurd trivial h⟩
      by_cases hs : s = 1
      · simp [hs, Ex.val]
      · simp [hs, Ex.val, Ex.prodVal]
  | .var v => by
      refine ⟨fun _ => ⟨_, rfl, fun T V x => ?_⟩, fun h => absurd trivial h⟩
      by_cases hs : s = 1
      · simp [hs, Ex.val]
      · simp [hs, Ex.val, Ex.prodVal]
  | .tensor l is => by
      refine ⟨fun _ => ⟨_, rfl, fun T V x => ?_⟩, fun h => absurd trivial h⟩
      by_cases hs : s = 1
      · simp [hs, Ex.val, transformTensor]
      · simp [hs, Ex.val, Ex.prodVal, transformTensor]
  | .product c fs => by
      refine ⟨fun h => ?_, fun h => ?_⟩
      · obtain ⟨fs', h1, h2⟩ := transformFactors_ok (F := F) r fs h
        refine ⟨.product (c * s) fs', by rw [transformExpr, h1]; rfl, fun T V x => ?_⟩
        rw [Ex.val, Ex.val, h2, Rat.cast_mul, mul_comm (c : F), mul_assoc]
      · rw [transformExpr, transformFactors_error r fs h]; rfl
  | .sum ts => by
      obtain ⟨h1, h2⟩ := transformTerms_spec r s ts
      refine ⟨fun h => ?_, fun h => ?_⟩
      · obtain ⟨ts', e, hv⟩ := h1 h
        exact ⟨.sum ts', by rw [transformExpr, e]; rfl, fun T V x => by rw [Ex.val, Ex.val, hv]⟩
      · rw [transformExpr, h2 h]; rfl
  | .other => ⟨fun h => h.elim, fun _ => rfl⟩

theorem transformTerms_spec [CharZero F] (r : Repl) (s : ℚ) : ∀ ts : List Ex,
    (Ex.FlatAll ts → ∃ ts', transformTerms r s ts = .ok ts' ∧
      ∀ (T : Nat → List Nat → F) (V : Nat → F) (x : Idx → Nat), Ex.sumVal T V x ts' = (s : F) * Ex.sumVal T V (x ∘ r.apply) ts) ∧
    (¬ Ex.FlatAll ts → transformTerms r s ts = .error .type)
  | [] => ⟨fun _ => ⟨[], rfl, fun _ _ _ => by rw [Ex.sumVal, Ex.sumVal, mul_zero]⟩, fun h => absurd trivial h⟩
  | t :: ts => by
      obtain ⟨a1, a2⟩ := transformExpr_spec r s t
      obtain ⟨b1, b2⟩ := transformTerms_spec r s ts
      refine ⟨fun h => ?_, fun h => ?_⟩
      · obtain ⟨t', e1, v1⟩ := a1 h.1
        obtain ⟨ts', e2, v2⟩ := b1 h.2
        refine ⟨t' :: ts', by rw [transformTerms, e1]; simp only [e2]; rfl, fun T V x => ?_⟩
        rw [Ex.sumVal, Ex.sumVal, v1, v2, mul_add]
      · rw [transformTerms]
        by_cases ht : t.Flat
        · obtain ⟨t', e1, -⟩ := a1 ht
          rw [e1]
          simp only
          rw [b2 fun hts => h ⟨ht, hts⟩]; rfl
        · rw [a2 ht]

end

end values

/-! ### The replacements for a permutation -/

/-- The external indices are different from each other. -/
structure Pairing.Wf (ref : Pairing n) : Prop where
  first : Function.Injective fun i => (ref i).1
  second : Function.Injective fun i => (ref i).2
  apart : ∀ i j, (ref i).1 ≠ (ref j).2

/-- The pair of external indices of particle `i` in the expression that the formula asks for. -/
def required (ref : Pairing n) (p : Perm (Fin n)) (i : Fin n) : Idx × Idx := ((ref i).1, (ref (p i)).2)

/-- The pair that particle `i` of the expression has after the replacements. -/
def Repl.pair (r : Repl) (x : Idx × Idx) : Idx × Idx := (r.apply x.1, r.apply x.2)

/-- The replacement that particle `i` contributes. -/
def entry (ref : Pairing n) (p : Perm (Fin n)) (base : Pairing n) (i : Fin n) : Option (Idx × Idx) :=
  if (base i).2 = (ref (p i)).2 then none
  else if (base i).2.space = (ref (p i)).2.space then some ((base i).2, (ref (p i)).2)
  else some ((base i).1, (ref (p i)).1)

theorem lookup_none {l : Repl} {a : Idx} (h : ∀ x ∈ l, x.1 ≠ a) : l.lookup a = none := by
  rw [List.lookup_eq_none_iff]
  intro x hx
  simpa using (h x hx).symm

theorem lookup_some : ∀ {l : Repl} {a b : Idx}, (∀ x ∈ l, x.1 = a → x.2 = b) → (a, b) ∈ l → l.lookup a = some b
  | [], _, _, _, h => absurd h (by simp)
  | (c, d) :: l, a, b, hu, h => by
      rw [List.lookup_cons]
      by_cases e : a = c
      · subst e
        have := hu (a, d) (by simp) rfl
        simp at this
        simp [this]
      · have hm : (a, b) ∈ l := by
          rcases List.mem_cons.1 h with h | h
          · exact absurd (Prod.mk.inj h).1 e
          · exact h
        simp only [beq_eq_false_iff_ne.2 e]
        exact lookup_some (fun x hx => hu x (by simp [hx])) hm

theorem entry_key {ref : Pairing n} {p : Perm (Fin n)} {base : Pairing n} {i : Fin n} {x : Idx × Idx} (h : entry ref p base i = some x) :
    x.1 = (base i).1 ∨ x.1 = (base i).2 := by
  unfold entry at h
  split at h
  · simp at h
  · split at h
    · simp only [Option.some_inj] at h; subst h; exact .inr rfl
    · simp only [Option.some_inj] at h; subst h; exact .inl rfl

theorem entry_inj {ref : Pairing n} {p : Perm (Fin n)} {base : Pairing n} (hb : base.Wf) {i j : Fin n} {x y : Idx × Idx}
    (hx : entry ref p base i = some x) (hy : entry ref p base j = some y) (e : x.1 = y.1) : i = j := by
  rcases entry_key hx with h1 | h1 <;> rcases entry_key hy with h2 | h2 <;> rw [h1, h2] at e
  · exact hb.first e
  · exact absurd e (hb.apart i j)
  · exact absurd e.symm (hb.apart j i)
  · exact hb.second e

theorem replacements_eq {ref : Pairing n} {p : Perm (Fin n)} {base : Pairing n} (hb : base.Wf) : ∀ (is : List (Fin n)) (r : Repl), is.Nodup →
    (∀ i ∈ is, ∀ x, entry ref p base i = some x → ∀ y ∈ r, y.1 ≠ x.1) →
    replacements ref p base is r = (if ∀ i ∈ is, (base i).1 = (ref i).1 ∧
      ((base i).2.space ≠ (ref (p i)).2.space → (base i).1.space = (ref (p i)).1.space) then .ok (r ++ is.filterMap (entry ref p base)) else .error .assertion)
  | [], r, _, _ => by simp [replacements]
  | i :: is, r, hn, hr => by
      have hn' := (List.nodup_cons.1 hn).2
      have hi := (List.nodup_cons.1 hn).1
      have hr' : ∀ j ∈ is, ∀ x, entry ref p base j = some x → ∀ y ∈ r, y.1 ≠ x.1 := fun j hj => hr j (by simp [hj])
      have hem : ∀ a b, entry ref p base i = some (a, b) → Repl.emplace r a b = r ++ [(a, b)] := by
        intro a b hab
        unfold Repl.emplace
        rw [lookup_none fun x hx => hr i (by simp) _ hab x hx]
      have hr2 : ∀ a b, entry ref p base i = some (a, b) → ∀ j ∈ is, ∀ x, entry ref p base j = some x → ∀ y ∈ r ++ [(a, b)], y.1 ≠ x.1 := by
        intro a b hab j hj x hx y hy
        rcases List.mem_append.1 hy with hy | hy
        · exact hr' j hj x hx y hy
        · rw [List.mem_singleton] at hy
          subst hy
          intro e
          exact hi (entry_inj hb hab hx e ▸ hj)
      rw [replacements]
      by_cases h1 : (base i).1 = (ref i).1
      · rw [if_neg (by simpa using h1)]
        by_cases h2 : (base i).2 = (ref (p i)).2
        · rw [if_pos h2, replacements_eq hb is r hn' hr']
          have he : entry ref p base i = none := by unfold entry; rw [if_pos h2]
          rw [List.filterMap_cons_none he]
          congr 1
          simp [h1, h2]
        · rw [if_neg h2]
          by_cases h3 : (base i).2.space = (ref (p i)).2.space
          · have he : entry ref p base i = some ((base i).2, (ref (p i)).2) := by unfold entry; rw [if_neg h2, if_pos h3]
            rw [if_pos h3, hem _ _ he, replacements_eq hb is _ hn' (hr2 _ _ he), List.filterMap_cons_some he, List.append_assoc]
            congr 1
            simp [h1, h3]
          · have he : entry ref p base i = some ((base i).1, (ref (p i)).1) := by unfold entry; rw [if_neg h2, if_neg h3]
            rw [if_neg h3]
            by_cases h4 : (base i).1.space = (ref (p i)).1.space
            · rw [if_neg (by simpa using h4), hem _ _ he, replacements_eq hb is _ hn' (hr2 _ _ he), List.filterMap_cons_some he, List.append_assoc]
              congr 1
              rw [h1] at h4
              simp [h1, h4]
            · rw [if_pos h4, if_neg]
              intro h
              exact h4 ((h i (by simp)).2 h3)
      · rw [if_pos h1, if_neg]
        intro h
        exact h1 (h i (by simp)).1

/-- When the assertions hold and what the replacements do: a particle gets the required pair if its second index has the same space as the
required one; otherwise its first index is replaced.  Other indices stay. -/
theorem replacements_spec {ref : Pairing n} {p : Perm (Fin n)} {base : Pairing n} (hb : base.Wf) :
    (((∀ i, (base i).1 = (ref i).1 ∧ ((base i).2.space ≠ (ref (p i)).2.space → (base i).1.space = (ref (p i)).1.space)) →
      ∃ r, replacements ref p base (List.finRange n) [] = .ok r ∧
        (∀ i, r.pair (base i) = if (base i).2.space = (ref (p i)).2.space then required ref p i else ((ref (p i)).1, (base i).2)) ∧
        ∀ k, (∀ i, k ≠ (base i).1 ∧ k ≠ (base i).2) → r.apply k = k)) ∧
    ((¬ ∀ i, (base i).1 = (ref i).1 ∧ ((base i).2.space ≠ (ref (p i)).2.space → (base i).1.space = (ref (p i)).1.space)) →
      replacements ref p base (List.finRange n) [] = .error .assertion) := by
  have heq := replacements_eq (ref := ref) (p := p) hb (List.finRange n) [] (List.nodup_finRange n) (fun i _ x _ y hy => absurd hy (by simp))
  have hall : (∀ i ∈ List.finRange n, (base i).1 = (ref i).1 ∧ ((base i).2.space ≠ (ref (p i)).2.space → (base i).1.space = (ref (p i)).1.space)) ↔
      ∀ i, (base i).1 = (ref i).1 ∧ ((base i).2.space ≠ (ref (p i)).2.space → (base i).1.space = (ref (p i)).1.space) :=
    ⟨fun h i => h i (List.mem_finRange i), fun h i _ => h i⟩
  constructor
  · intro h
    rw [if_pos (hall.2 h), List.nil_append] at heq
    refine ⟨_, heq, fun i => ?_, fun k hk => ?_⟩
    · have hmem : ∀ x, x ∈ (List.finRange n).filterMap (entry ref p base) ↔ ∃ j, entry ref p base j = some x := by
        intro x; simp [List.mem_filterMap]
      have none1 : ∀ a, (∀ j x, entry ref p base j = some x → x.1 ≠ a) →
          ((List.finRange n).filterMap (entry ref p base)).lookup a = none := by
        intro a ha
        refine lookup_none fun x hx => ?_
        obtain ⟨j, hj⟩ := (hmem x).1 hx
        exact ha j x hj
      have some1 : ∀ a b, entry ref p base i = some (a, b) → ((List.finRange n).filterMap (entry ref p base)).lookup a = some b := by
        intro a b hab
        refine lookup_some (fun x hx e => ?_) ((hmem _).2 ⟨i, hab⟩)
        obtain ⟨j, hj⟩ := (hmem x).1 hx
        have := entry_inj hb hj hab e
        subst this
        rw [hab, Option.some_inj] at hj
        rw [← hj]
      unfold Repl.pair Repl.apply required
      by_cases h2 : (base i).2 = (ref (p i)).2
      · have he : entry ref p base i = none := by unfold entry; rw [if_pos h2]
        have key : ∀ j x, entry ref p base j = some x → x.1 ≠ (base i).1 ∧ x.1 ≠ (base i).2 := by
          intro j x hj
          have hne : j ≠ i := fun e => by rw [e, he] at hj; exact absurd hj (by simp)
          rcases entry_key hj with e | e <;> rw [e]
          · exact ⟨fun e' => hne (hb.first e'), hb.apart j i⟩
          · exact ⟨fun e' => hb.apart i j e'.symm, fun e' => hne (hb.second e')⟩
        rw [none1 _ fun j x hj => (key j x hj).1, none1 _ fun j x hj => (key j x hj).2, if_pos (by rw [h2])]
        simp only [Option.getD_none]
        rw [(h i).1, h2]
      · by_cases h3 : (base i).2.space = (ref (p i)).2.space
        · have he : entry ref p base i = some ((base i).2, (ref (p i)).2) := by unfold entry; rw [if_neg h2, if_pos h3]
          have key : ∀ j x, entry ref p base j = some x → x.1 ≠ (base i).1 := by
            intro j x hj
            by_cases hne : j = i
            · subst hne
              rw [he, Option.some_inj] at hj
              rw [← hj]
              exact fun e' => hb.apart j j e'.symm
            · rcases entry_key hj with e | e <;> rw [e]
              · exact fun e' => hne (hb.first e')
              · exact fun e' => hb.apart i j e'.symm
          rw [none1 _ key, some1 _ _ he, if_pos h3]
          simp only [Option.getD_none, Option.getD_some]
          rw [(h i).1]
        · have he : entry ref p base i = some ((base i).1, (ref (p i)).1) := by unfold entry; rw [if_neg h2, if_neg h3]
          have key : ∀ j x, entry ref p base j = some x → x.1 ≠ (base i).2 := by
            intro j x hj
            by_cases hne : j = i
            · subst hne
              rw [he, Option.some_inj] at hj
              rw [← hj]
              exact hb.apart j j
            · rcases entry_key hj with e | e <;> rw [e]
              · exact hb.apart j i
              · exact fun e' => hne (hb.second e')
          rw [some1 _ _ he, none1 _ key, if_neg h3]
          rfl
    · unfold Repl.apply
      rw [lookup_none]
      · rfl
      · intro x hx
        obtain ⟨j, -, hj⟩ := List.mem_filterMap.1 hx
        rcases entry_key hj with e | e <;> rw [e]
        · exact (hk j).1.symm
        · exact (hk j).2.symm
  · intro h
    rw [if_neg fun h' => h (hall.1 h')] at heq
    exact heq

/-- **C84** With one expression whose external indices have the pairs `ref`: the replacements that `create_expr_for` makes for the permutation `p`
lead to the required pairs exactly if `p` exchanges the particles of any two second indices from different spaces. -/
theorem replacements_correct_iff {ref : Pairing n} {p : Perm (Fin n)} (hw : ref.Wf) {r : Repl}
    (h : replacements ref p ref (List.finRange n) [] = .ok r) :
    ((List.finRange n).map fun i => r.pair (ref i)).Perm ((List.finRange n).map (required ref p)) ↔
      ∀ i, (ref i).2.space ≠ (ref (p i)).2.space → p (p i) = i := by
  have hok : ∀ i, (ref i).1 = (ref i).1 ∧ ((ref i).2.space ≠ (ref (p i)).2.space → (ref i).1.space = (ref (p i)).1.space) := by
    by_contra hc
    rw [(replacements_spec hw).2 hc] at h
    exact absurd h (by simp)
  obtain ⟨r', h1, h2, -⟩ := (replacements_spec hw).1 hok
  rw [h, Except.ok.injEq] at h1
  subst h1
  constructor
  · intro hp i hi
    have hm : r.pair (ref i) ∈ (List.finRange n).map (required ref p) := hp.subset (List.mem_map.2 ⟨i, List.mem_finRange i, rfl⟩)
    rw [h2, if_neg hi] at hm
    obtain ⟨j, -, hj⟩ := List.mem_map.1 hm
    unfold required at hj
    have e1 := hw.first (Prod.mk.inj hj).1
    have e2 := hw.second (Prod.mk.inj hj).2
    rw [← e1]; exact e2
  · intro hp
    have himg : ∀ i, r.pair (ref i) = required ref p (if (ref i).2.space = (ref (p i)).2.space then i else p i) := by
      intro i
      rw [h2]
      by_cases hs : (ref i).2.space = (ref (p i)).2.space
      · rw [if_pos hs, if_pos hs]
      · rw [if_neg hs, if_neg hs, required, hp i hs]
    have hinj : Function.Injective fun i => if (ref i).2.space = (ref (p i)).2.space then i else p i := by
      intro i k e
      simp only at e
      by_cases hi : (ref i).2.space = (ref (p i)).2.space <;> by_cases hk : (ref k).2.space = (ref (p k)).2.space
      · rwa [if_pos hi, if_pos hk] at e
      · rw [if_pos hi, if_neg hk] at e
        rw [e, hp k hk] at hi
        exact absurd hi.symm hk
      · rw [if_neg hi, if_pos hk] at e
        rw [← e, hp i hi] at hk
        exact absurd hk.symm hi
      · rw [if_neg hi, if_neg hk] at e
        exact p.injective e
    have hreq : Function.Injective (required ref p) := fun i j e => hw.first (Prod.mk.inj e).1
    have hnd : ((List.finRange n).map fun i => r.pair (ref i)).Nodup := by
      refine (List.nodup_finRange n).map ?_
      intro i j e
      simp only at e
      rw [himg, himg] at e
      exact hinj (hreq e)
    refine (List.subperm_of_subset hnd ?_).perm_of_length_le (by simp)
    intro x hx
    obtain ⟨i, -, rfl⟩ := List.mem_map.1 hx
    rw [himg]
    exact List.mem_map.2 ⟨_, List.mem_finRange _, rfl⟩

/-- The replacements can be wrong: three particles whose first indices have one space, two of whose second indices have another and one a third,
and a cyclic permutation: two of the particles get the same second index. -/
theorem replacements_wrong : ∃ (ref : Pairing 3) (p : Perm (Fin 3)) (r : Repl), ref.Wf ∧ createFor ref p [ref] = .ok (0, r) ∧
    (∃ i j, i ≠ j ∧ (r.pair (ref i)).2 = (r.pair (ref j)).2) ∧
    ¬ ((List.finRange 3).map fun i => r.pair (ref i)).Perm ((List.finRange 3).map (required ref p)) := by
  let ref : Pairing 3 := fun i => (⟨0, i⟩, ⟨if i = 2 then 2 else 1, i⟩)
  let p : Perm (Fin 3) := Equiv.swap 0 1 * Equiv.swap 1 2
  have hw : ref.Wf := ⟨by decide, by decide, by decide⟩
  have hr : replacements ref p ref (List.finRange 3) [] = .ok [(⟨1, 0⟩, ⟨1, 1⟩), (⟨0, 1⟩, ⟨0, 2⟩), (⟨0, 2⟩, ⟨0, 0⟩)] := by decide
  refine ⟨ref, p, [(⟨1, 0⟩, ⟨1, 1⟩), (⟨0, 1⟩, ⟨0, 2⟩), (⟨0, 2⟩, ⟨0, 0⟩)], hw, ?_, ⟨0, 1, by decide, by decide⟩, ?_⟩
  · have ha : [ref].findIdx? (accepts ref p) = some 0 := by decide
    unfold createFor
    rw [ha]
    simp only [List.getElem?_cons_zero]
    rw [hr]; rfl
  · rw [replacements_correct_iff hw hr]
    decide

/-! ### The sum over permutations -/

section sums

variable {F : Type} [Field F]

/-- The value of the result: `E` gives the values of the expressions at the values of the indices. -/
def termsVal (E : Nat → (Idx → Nat) → F) (ts : List Term) (x : Idx → Nat) : F :=
  (ts.map fun t => (t.1 : F) * E t.2.1 (x ∘ t.2.2.apply)).sum

/-- The values `x` of the indices with those of the second external indices set to `k`. -/
def put (ext : Pairing n) (x : Idx → Nat) (k : Fin n → Nat) (i : Idx) : Nat :=
  match (List.finRange n).find? fun j => (ext j).2 = i with
  | some j => k j
  | none => x i

theorem put_second {ext : Pairing n} (hw : ext.Wf) (x : Idx → Nat) (k : Fin n → Nat) (j : Fin n) : put ext x k (ext j).2 = k j := by
  unfold put
  cases h : (List.finRange n).find? fun i => (ext i).2 = (ext j).2 with
  | none =>
    rw [List.find?_eq_none] at h
    exact absurd (by simp) (h j (List.mem_finRange j))
  | some i =>
    have := List.find?_some h
    rw [decide_eq_true_eq] at this
    have e : i = j := hw.second this
    rw [e]

theorem put_other {ext : Pairing n} (x : Idx → Nat) (k : Fin n → Nat) {i : Idx} (h : ∀ j, i ≠ (ext j).2) : put ext x k i = x i := by
  unfold put
  rw [List.find?_eq_none.2]
  intro j _
  simpa using (h j).symm

theorem put_apply {ext : Pairing n} (hw : ext.Wf) {p : Perm (Fin n)} {r : Repl} (hr : ∀ i, r.pair (ext i) = required ext p i)
    (ho : ∀ k, (∀ i, k ≠ (ext i).1 ∧ k ≠ (ext i).2) → r.apply k = k) (x : Idx → Nat) (k : Fin n → Nat) :
    put ext x k ∘ r.apply = put ext x (k ∘ p) := by
  funext i
  rw [Function.comp_apply]
  by_cases h2 : ∃ j, i = (ext j).2
  · obtain ⟨j, rfl⟩ := h2
    have : r.apply (ext j).2 = (ext (p j)).2 := congrArg Prod.snd (hr j)
    rw [this, put_second hw, put_second hw]; rfl
  · push Not at h2
    have : r.apply i = i := by
      by_cases h1 : ∃ j, i = (ext j).1
      · obtain ⟨j, rfl⟩ := h1
        exact congrArg Prod.fst (hr j)
      · push Not at h1
        exact ho i fun j => ⟨h1 j, h2 j⟩
    rw [this, put_other _ _ h2, put_other _ _ h2]

/-- What distinguishes the coefficients `b`: up to the factor `k` they invert the overlap where that is possible. -/
structure Biorthogonalizer (b : Perm (Fin n) → ℚ) (k : ℚ) : Prop where
  cls : Class b
  even : Even b
  inverts : conv ov (conv b ov) = fun p => k * ov p
  inverted : conv b (conv ov b) = fun p => k * b p

theorem coefficients_form (L : Lib) (m : Nat) (B : Matrix (Fin m.factorial) (Fin m.factorial) ℚ) (hB : Coefficients (overlap L m) B) :
    ∃ b, B = (cay b).submatrix (L.equiv m) (L.equiv m) ∧ Biorthogonalizer b (normalization L m) := by
  obtain ⟨X, hX, rfl⟩ := hB
  rw [overlap_eq] at hX
  replace hX := hX.reindex (L.equiv m).symm
  rw [Matrix.submatrix_submatrix, Equiv.self_comp_symm, Matrix.submatrix_id_id] at hX
  obtain ⟨x, hx, hc, he⟩ := pinv_form hX
  have hXe : X = (cay x).submatrix (L.equiv m) (L.equiv m) := by
    rw [← hx, Matrix.submatrix_submatrix, Equiv.symm_comp_self, Matrix.submatrix_id_id]
  have hcard : (Fintype.card (Fin m.factorial) : ℚ) / ((overlap L m).rank : ℚ) = normalization L m := by rw [Fintype.card_fin]; rfl
  rw [hx] at hX
  have hl := hX.left
  rw [cay_mul, cay_mul] at hl
  have hl' := cay_injective hl
  have hr := hX.right
  rw [cay_mul, cay_mul] at hr
  have hr' := cay_injective hr
  refine ⟨fun p => normalization L m * x p, ?_, ?_, ?_, ?_, ?_⟩
  · rw [hcard, hXe, cay_smul, Matrix.submatrix_smul]; rfl
  · intro p q
    show _ * _ = _ * _
    rw [hc]
  · intro p
    show _ * _ = _ * _
    rw [he]
  · rw [conv_smul_left, conv_smul_right, ← conv_assoc, hl']
  · rw [conv_smul_right, conv_smul_left, conv_smul_right, ← conv_assoc, hr']

theorem transformOne_spec (L : Lib) (c : Nat → Nat → ℚ) (externals : List (Pairing n)) (ref : Pairing n) (rk : Nat) (g : Nat → Nat × Repl) :
    ∀ rs : List Nat, (∀ r ∈ rs, createFor ref (L.mul (L.unrank r n) (L.unrank rk n)⁻¹) externals = .ok (g r)) →
      transformOne L c externals ref rk rs = .ok (rs.map fun r => (c rk r, (g r).1, (g r).2))
  | [], _ => rfl
  | r :: rs, h => by
      rw [transformOne, h r (by simp)]
      simp only
      rw [transformOne_spec L c externals ref rk g rs fun s hs => h s (by simp [hs])]
      rfl

theorem createFor_same {ext : Pairing n} (hw : ext.Wf) (hs : ∀ i j, (ext i).2.space = (ext j).2.space)
    (p : Perm (Fin n)) : ∃ r, createFor ext p [ext] = .ok (0, r) ∧ (∀ i, r.pair (ext i) = required ext p i) ∧
      ∀ k, (∀ i, k ≠ (ext i).1 ∧ k ≠ (ext i).2) → r.apply k = k := by
  obtain ⟨r, h1, h2, h3⟩ := (replacements_spec (p := p) hw).1 fun i => ⟨rfl, fun h => absurd (hs _ _) h⟩
  refine ⟨r, ?_, fun i => ?_, h3⟩
  · have ha : accepts ext p ext = true := by
      unfold accepts
      rw [List.all_eq_true]
      intro i _
      rw [decide_eq_true_eq, List.mem_map]
      exact ⟨i, List.mem_finRange i, by rw [hs (p i) i]⟩
    have hf : [ext].findIdx? (accepts ext p) = some 0 := by simp [List.findIdx?_cons, ha]
    unfold createFor
    rw [hf]
    simp only [List.getElem?_cons_zero]
    rw [h1]; rfl
  · rw [h2, if_pos (hs _ _)]

theorem coefficient_last (L : Lib) (hn : 1 ≤ n) (pinv B : Matrix (Fin n.factorial) (Fin n.factorial) ℚ) (hB : Coefficients (overlap L n) B)
    (hp : 5 < n → pinv = B) : ∃ c, coefficient L n pinv = .ok c ∧ ∀ r : Fin n.factorial, c (n.factorial - 1) r = B (lastRank n) r := by
  have hl : n.factorial - 1 < n.factorial := Nat.sub_lt n.factorial_pos Nat.one_pos
  unfold coefficient
  by_cases h5 : n ≤ 5
  · obtain ⟨M, hM, -, h⟩ := hardMatrix_partial L n ⟨hn, h5⟩ B hB
    rw [if_pos h5, hM]
    exact ⟨_, rfl, fun r => (dif_pos ⟨hl, r.isLt⟩).trans (congrFun h r)⟩
  · rw [if_neg h5]
    refine ⟨_, rfl, fun r => (dif_pos ⟨hl, r.isLt⟩).trans ?_⟩
    rw [hp (by omega)]; rfl

/-- **C84** The transformation of one expression, the second external indices of which have the same space: the result is the sum over the
permutations of these indices with coefficients that invert the overlap up to a factor.  For more than five particles the pseudoinverse is that of the
overlap. -/
theorem transformSingle_value [CharZero F] (L : Lib) (pinv : Matrix (Fin n.factorial) (Fin n.factorial) ℚ) (ext : Pairing n) (hn : 1 ≤ n) (hw : ext.Wf)
    (hs : ∀ i j, (ext i).2.space = (ext j).2.space) (hp : 5 < n → Coefficients (overlap L n) pinv) :
    ∃ ts b, transformSingle L pinv ext = .ok [ts] ∧ Biorthogonalizer b (normalization L n) ∧
      ∀ (E : Nat → (Idx → Nat) → F) (x : Idx → Nat) (k : Fin n → Nat), termsVal E ts (put ext x k) = act b (fun k => E 0 (put ext x k)) k := by
  have hB : ∃ B, Coefficients (overlap L n) B ∧ (5 < n → pinv = B) := by
    by_cases h5 : n ≤ 5
    · obtain ⟨B, hB, -⟩ := coefficients_exist L n ⟨hn, h5⟩
      exact ⟨B, hB, fun h => absurd h (by omega)⟩
    · exact ⟨pinv, hp (by omega), fun _ => rfl⟩
  obtain ⟨B, hB, hpB⟩ := hB
  obtain ⟨b, hb, hbi⟩ := coefficients_form L n B hB
  obtain ⟨c, hc, hc'⟩ := coefficient_last L hn pinv B hB hpB
  choose g hg1 hg2 hg3 using createFor_same hw hs
  have hrk : L.rank (1 : Perm (Fin n)) = n.factorial - 1 := by
    have h1 := L.rank_unrank (n := n) (n.factorial - 1) (Nat.sub_lt n.factorial_pos Nat.one_pos)
    rwa [L.unrank_last] at h1
  have hmul : ∀ q : Perm (Fin n), L.mul q (L.unrank (n.factorial - 1) n)⁻¹ = q := by
    intro q
    rw [L.unrank_last, inv_one]
    unfold Lib.mul
    split <;> simp
  have hone := transformOne_spec L c [ext] ext (n.factorial - 1) (fun r => (0, g (L.unrank r n))) (List.range n.factorial) fun r _ => by
    rw [hmul]; exact hg1 _
  refine ⟨(List.range n.factorial).map fun r => (c (n.factorial - 1) r, 0, g (L.unrank r n)), b, ?_, hbi, fun E x k => ?_⟩
  · unfold transformSingle transform
    rw [if_neg (by simp), hc]
    simp only [List.zip_cons_cons, List.zip_nil_right, transformAll, hrk]
    rw [hone]; rfl
  · unfold termsVal act
    rw [List.map_map, sum_range_fin]
    refine Fintype.sum_equiv (L.equiv n) _ _ fun r => ?_
    simp only [Function.comp_def]
    have h1 : (L.equiv n) (lastRank n) = 1 := L.unrank_last n
    have e1 : c (n.factorial - 1) r = b (L.equiv n r) := by
      rw [hc', hb, Matrix.submatrix_apply, h1]
      unfold cay
      rw [inv_one, mul_one]
    rw [e1]
    congr 2
    exact put_apply hw (hg2 _) (hg3 _) x k

/-- The result is biorthogonal: if the expression consists of overlaps with some amplitudes, then the overlaps of the result are the expression up to
the factor, and the result does not change any more when projected. -/
theorem Biorthogonalizer.spec [CharZero F] {b : Perm (Fin n) → ℚ} {κ : ℚ} (hb : Biorthogonalizer b κ) (T X : (Fin n → Nat) → F)
    (hT : T = act ov X) : act ov (act b T) = (fun k => (κ : F) * T k) ∧ act b (act ov (act b T)) = fun k => (κ : F) * act b T k := by
  constructor
  · subst hT
    funext k
    rw [act_act ov_class, act_act (conv_class hb.cls ov_class), hb.inverts, act_smul]
  · funext k
    rw [act_act hb.cls, act_act (conv_class ov_class hb.cls), hb.inverted, act_smul]

/-- Without external indices the transformation throws. -/
theorem transformSingle_empty (L : Lib) (pinv : Matrix (Fin (Nat.factorial 0)) (Fin (Nat.factorial 0)) ℚ) (ext : Pairing 0) :
    transformSingle L pinv ext = .error .coefficients := by
  have h : hardMatrix L 0 = none := by
    unfold hardMatrix
    rw [(biorthRow_correct L 0).2 (by omega)]
    rfl
  unfold transformSingle transform coefficient
  rw [if_neg (by simp), if_pos (by omega), h]

end sums

/-- **The first replacement of an index stays, others are not touched.** -/
theorem Repl.emplace_find (r : Repl) (i j k : Idx) :
    (r.emplace i j).find k = if k = i then some ((r.find i).getD j) else r.find k := by
  unfold Repl.emplace Repl.find
  cases h : r.lookup i with
  | some x =>
    by_cases hk : k = i
    · rw [if_pos hk, hk, h]; rfl
    · rw [if_neg hk]
  | none =>
    by_cases hk : k = i
    · rw [if_pos hk, hk, List.lookup_append, h]
      simp
    · rw [if_neg hk, List.lookup_append]
      have : (k == i) = false := beq_false_of_ne hk
      simp [List.lookup_cons, this]

end SeQuant.Biorth
