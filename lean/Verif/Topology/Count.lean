import Verif.Topology.Model
import Verif.Wick.Contractions
import Mathlib.Algebra.BigOperators.Group.Finset.Basic
import Mathlib.Algebra.BigOperators.Field
import Mathlib.Algebra.Order.Field.Rat
import Mathlib.Data.Multiset.Count
import Mathlib.Tactic.FieldSimp
import Mathlib.Tactic.Ring

/-!
# How many complete sets of contractions make a given number of contractions between each two partitions
-/

namespace SeQuant.Topology

open SeQuant.Wick

variable {S : Statistics}

/-- For every contraction the partitions of its two operators: the content of `op_partition_cdeg_matrix`. -/
def keyOf (part : Nat → Nat) (cs : List (Nat × Nat)) : Multiset (Nat × Nat) :=
  ↑(cs.map fun p => (part p.1, part p.2))

/-- Number of operators of the list in partition `p`. -/
def free (part : Nat → Nat) (l : List Nat) (p : Nat) : Nat := (l.map part).count p

/-- Number of operators of partition `p` used by contractions of the given kinds. -/
def inc (B : Multiset (Nat × Nat)) (p : Nat) : Nat := (B.map Prod.fst).count p + (B.map Prod.snd).count p

/-- What the counting needs to know about a sequence of normal operators. -/
structure Ctx (part : Nat → Nat) (m : Nat) (cc adm : Nat → Nat → Bool) (nops : List (List Nat)) : Prop where
  nodup : nops.flatten.Nodup
  lt : ∀ x ∈ nops.flatten, part x < m
  adm : ∀ x ∈ nops.flatten, ∀ y ∈ nops.flatten, adm (part x) (part y) = true ↔ Later nops x y ∧ cc x y = true

/-- The kinds `B` use up the operators and are all admissible. -/
def Fits (part : Nat → Nat) (adm : Nat → Nat → Bool) (l : List Nat) (B : Multiset (Nat × Nat)) : Prop :=
  (∀ p, inc B p = free part l p) ∧ ∀ q ∈ B, adm q.1 q.2 = true

/-- Number of complete sets of contractions with the kinds `B`. -/
def number (part : Nat → Nat) (m : Nat) (l : List Nat) (B : Multiset (Nat × Nat)) : Rat :=
  (∏ p ∈ Finset.range m, (Nat.factorial (free part l p) : Rat)) /
    ∏ q ∈ Finset.range m ×ˢ Finset.range m, (Nat.factorial (B.count q) : Rat)

theorem keyOf_nil (part : Nat → Nat) : keyOf part [] = 0 := rfl

theorem keyOf_cons (part : Nat → Nat) (p : Nat × Nat) (cs : List (Nat × Nat)) :
    keyOf part (p :: cs) = (part p.1, part p.2) ::ₘ keyOf part cs := by simp [keyOf]

theorem cons_eq_iff (q : Nat × Nat) (K B : Multiset (Nat × Nat)) : q ::ₘ K = B ↔ q ∈ B ∧ K = B.erase q := by
  constructor
  · rintro rfl; simp
  · rintro ⟨h, rfl⟩; exact Multiset.cons_erase h

theorem inc_cons (q : Nat × Nat) (B : Multiset (Nat × Nat)) (p : Nat) :
    inc (q ::ₘ B) p = inc B p + (if p = q.1 then 1 else 0) + (if p = q.2 then 1 else 0) := by
  unfold inc
  simp only [Multiset.map_cons, Multiset.count_cons]
  omega

theorem inc_erase (q : Nat × Nat) (B : Multiset (Nat × Nat)) (h : q ∈ B) (p : Nat) :
    inc B p = inc (B.erase q) p + (if p = q.1 then 1 else 0) + (if p = q.2 then 1 else 0) := by
  rw [← inc_cons, Multiset.cons_erase h]

theorem inc_pos_iff (B : Multiset (Nat × Nat)) (p : Nat) : 0 < inc B p ↔ ∃ q ∈ B, q.1 = p ∨ q.2 = p := by
  unfold inc
  rw [Nat.add_pos_iff_pos_or_pos, Multiset.count_pos, Multiset.count_pos]
  simp only [Multiset.mem_map]
  constructor
  · rintro (⟨q, h1, h2⟩ | ⟨q, h1, h2⟩)
    · exact ⟨q, h1, Or.inl h2⟩
    · exact ⟨q, h1, Or.inr h2⟩
  · rintro ⟨q, h1, h2 | h2⟩
    · exact Or.inl ⟨q, h1, h2⟩
    · exact Or.inr ⟨q, h1, h2⟩

theorem free_pos_iff (part : Nat → Nat) (l : List Nat) (p : Nat) : 0 < free part l p ↔ ∃ x ∈ l, part x = p := by
  simp [free, List.count_pos_iff]

theorem free_cons (part : Nat → Nat) (x : Nat) (l : List Nat) (p : Nat) :
    free part (x :: l) p = free part l p + if p = part x then 1 else 0 := by
  simp only [free, List.map_cons, List.count_cons]
  congr 1
  by_cases h : part x = p
  · simp [h]
  · simp [h, Ne.symm h]

theorem free_perm (part : Nat → Nat) {l l' : List Nat} (h : l.Perm l') (p : Nat) : free part l p = free part l' p :=
  (h.map part).count_eq p

/-- Removing the two operators of a contraction. -/
theorem free_pick (part : Nat → Nat) (o : Nat) (rest : List Nat) (others : List (List Nat)) (p : Nat × Nat × List (List Nat))
    (hp : p ∈ picks others) (k : Nat) :
    free part ((o :: rest) :: others).flatten k =
      free part (rest :: p.2.2).flatten k + (if k = part o then 1 else 0) + (if k = part p.2.1 then 1 else 0) := by
  obtain ⟨pre, post, h1, h2, _⟩ := picks_split others p hp
  have : ((o :: rest) :: others).flatten.Perm (o :: p.2.1 :: (rest :: p.2.2).flatten) := by
    rw [List.flatten_cons, List.flatten_cons, h1, h2, List.cons_append]
    refine List.Perm.cons _ ?_
    rw [← List.append_assoc, ← List.append_assoc]
    exact List.perm_middle
  rw [free_perm part this, free_cons, free_cons]
  omega

theorem pick_mem {others : List (List Nat)} {p : Nat × Nat × List (List Nat)} (hp : p ∈ picks others) :
    p.2.1 ∈ others.flatten := by
  rw [← picks_ops]
  exact List.mem_map.mpr ⟨p, hp, rfl⟩

variable {part : Nat → Nat} {m : Nat} {cc adm : Nat → Nat → Bool}

/-- The normal operators after a contraction are the old ones without its two operators. -/
theorem pick_nops {o : Nat} {rest : List Nat} {others : List (List Nat)} (hnd : ((o :: rest) :: others).flatten.Nodup)
    {p : Nat × Nat × List (List Nat)} (hp : p ∈ picks others) :
    rest :: p.2.2 = ((o :: rest) :: others).map (List.filter fun x => decide (x ≠ o ∧ x ≠ p.2.1)) := by
  simp only [List.flatten_cons, List.cons_append, List.nodup_cons, List.mem_append, not_or] at hnd
  obtain ⟨⟨ho1, ho2⟩, hnd⟩ := hnd
  have hy := pick_mem hp
  have hr : p.2.1 ∉ rest := fun h => (List.nodup_append.mp hnd).2.2 _ h _ hy rfl
  rw [List.map_cons, picks_filter others (List.nodup_append.mp hnd).2.1 p hp]
  congr 1
  · rw [List.filter_cons]
    simp only [ne_eq, not_true_eq_false, false_and, decide_false, Bool.false_eq_true, if_false]
    symm
    rw [List.filter_eq_self]
    intro a ha
    simp only [decide_eq_true_eq]
    exact ⟨fun h => ho1 (h ▸ ha), fun h => hr (h ▸ ha)⟩
  · apply List.map_congr_left
    intro l hl
    apply List.filter_congr
    intro a ha
    have : a ≠ o := fun h => ho2 (List.mem_flatten.mpr ⟨l, hl, h ▸ ha⟩)
    simp [this]

theorem pick_mem_iff {o : Nat} {rest : List Nat} {others : List (List Nat)} (hnd : ((o :: rest) :: others).flatten.Nodup)
    {p : Nat × Nat × List (List Nat)} (hp : p ∈ picks others) (x : Nat) :
    x ∈ (rest :: p.2.2).flatten ↔ x ∈ ((o :: rest) :: others).flatten ∧ x ≠ o ∧ x ≠ p.2.1 := by
  rw [pick_nops hnd hp, flatten_map_filter, List.mem_filter]
  simp

theorem Ctx.pick {o : Nat} {rest : List Nat} {others : List (List Nat)} (h : Ctx part m cc adm ((o :: rest) :: others))
    {p : Nat × Nat × List (List Nat)} (hp : p ∈ picks others) : Ctx part m cc adm (rest :: p.2.2) := by
  have hm := pick_mem_iff h.nodup hp
  refine ⟨?_, fun x hx => h.lt x ((hm x).1 hx).1, fun x hx y hy => ?_⟩
  · rw [pick_nops h.nodup hp, flatten_map_filter]
    exact h.nodup.sublist List.filter_sublist
  · rw [h.adm x ((hm x).1 hx).1 y ((hm y).1 hy).1, pick_nops h.nodup hp, later_filter]
    have hx' := ((hm x).1 hx).2
    have hy' := ((hm y).1 hy).2
    simp [hx', hy']

theorem Ctx.tail {nops : List (List Nat)} (h : Ctx part m cc adm ([] :: nops)) : Ctx part m cc adm nops :=
  ⟨by simpa using h.nodup, by simpa using h.lt, fun x hx y hy => by
    have := h.adm x (by simpa using hx) y (by simpa using hy)
    simpa [Later] using this⟩

/-- Nothing contracts from the left with the first operator. -/
theorem Ctx.first_not {o : Nat} {rest : List Nat} {others : List (List Nat)} (h : Ctx part m cc adm ((o :: rest) :: others))
    {y : Nat} (hy : y ∈ ((o :: rest) :: others).flatten) : adm (part y) (part o) = false := by
  have hnd := h.nodup
  simp only [List.flatten_cons, List.cons_append, List.nodup_cons, List.mem_append, not_or] at hnd
  by_contra hc
  have := ((h.adm y hy o (by simp)).1 (by simpa using hc)).1
  simp only [Later] at this
  rcases this with h | h
  · exact hnd.1.2 h.2
  · exact hnd.1.2 (later_mem _ _ _ h).2

/-- Only operators of later normal operators are partners of the first operator. -/
theorem Ctx.partner {o : Nat} {rest : List Nat} {others : List (List Nat)} (h : Ctx part m cc adm ((o :: rest) :: others))
    {y : Nat} (hy : y ∈ ((o :: rest) :: others).flatten) : adm (part o) (part y) = true ↔ y ∈ others.flatten ∧ cc o y = true := by
  have hnd := h.nodup
  simp only [List.flatten_cons, List.cons_append, List.nodup_cons, List.mem_append, not_or] at hnd
  rw [h.adm o (by simp) y hy]
  constructor
  · rintro ⟨hl, hc⟩
    refine ⟨?_, hc⟩
    simp only [Later] at hl
    rcases hl with hl | hl
    · exact hl.2
    · exact (later_mem _ _ _ hl).2
  · rintro ⟨h1, hc⟩
    exact ⟨Or.inl ⟨by simp, h1⟩, hc⟩

theorem Ctx.partner_ne {o : Nat} {rest : List Nat} {others : List (List Nat)} (h : Ctx part m cc adm ((o :: rest) :: others))
    {y : Nat} (hy : y ∈ others.flatten) (hc : cc o y = true) : part o ≠ part y := by
  intro he
  have hy' : y ∈ ((o :: rest) :: others).flatten := by simp [hy]
  have h1 := (h.partner hy').2 ⟨hy, hc⟩
  have h2 := h.first_not (y := o) (by simp)
  rw [← he, h2] at h1
  cases h1

/-- Fitting kinds after a contraction. -/
theorem fits_pick {o : Nat} {rest : List Nat} {others : List (List Nat)} (h : Ctx part m cc adm ((o :: rest) :: others))
    {p : Nat × Nat × List (List Nat)} (hp : p ∈ picks others) (B : Multiset (Nat × Nat)) (hB : (part o, part p.2.1) ∈ B)
    (hc : cc o p.2.1 = true) :
    Fits part adm (rest :: p.2.2).flatten (B.erase (part o, part p.2.1)) ↔ Fits part adm ((o :: rest) :: others).flatten B := by
  unfold Fits
  have hadm : adm (part o) (part p.2.1) = true := (h.partner (by simp [pick_mem hp])).2 ⟨pick_mem hp, hc⟩
  refine and_congr ⟨fun H k => ?_, fun H k => ?_⟩ ⟨fun H q hq => ?_, fun H q hq => H q (Multiset.mem_of_mem_erase hq)⟩
  · rw [inc_erase _ _ hB, free_pick part o rest others p hp, H k]
  · have := H k
    rw [inc_erase _ _ hB, free_pick part o rest others p hp] at this
    simp only at this
    omega
  · by_cases hqe : q = (part o, part p.2.1)
    · subst hqe; exact hadm
    · exact H q ((Multiset.mem_erase_of_ne hqe).2 hq)

theorem Fits.canc {o : Nat} {rest : List Nat} {others : List (List Nat)} (h : Ctx part m cc adm ((o :: rest) :: others))
    {B : Multiset (Nat × Nat)} (hf : Fits part adm ((o :: rest) :: others).flatten B)
    {y : Nat} (hy : y ∈ ((o :: rest) :: others).flatten) (hB : (part o, part y) ∈ B) : y ∈ others.flatten ∧ cc o y = true :=
  (h.partner hy).1 (hf.2 _ hB)

theorem Fits.exists {l : List Nat} {B : Multiset (Nat × Nat)} (hf : Fits part adm l B) {q : Nat × Nat} (hq : q ∈ B) :
    (∃ x ∈ l, part x = q.1) ∧ ∃ y ∈ l, part y = q.2 := by
  constructor
  · rw [← free_pos_iff, ← hf.1, inc_pos_iff]; exact ⟨q, hq, Or.inl rfl⟩
  · rw [← free_pos_iff, ← hf.1, inc_pos_iff]; exact ⟨q, hq, Or.inr rfl⟩

/-- The contractions of the partition of the first operator all have it on the left. -/
theorem Fits.row {o : Nat} {rest : List Nat} {others : List (List Nat)} (h : Ctx part m cc adm ((o :: rest) :: others))
    {B : Multiset (Nat × Nat)} (hf : Fits part adm ((o :: rest) :: others).flatten B) :
    (B.map Prod.fst).count (part o) = free part ((o :: rest) :: others).flatten (part o) := by
  have h1 := hf.1 (part o)
  have h2 : (B.map Prod.snd).count (part o) = 0 := by
    rw [Multiset.count_eq_zero, Multiset.mem_map]
    rintro ⟨q, hq, he⟩
    obtain ⟨⟨x, hx, hxe⟩, _⟩ := hf.exists hq
    have := hf.2 q hq
    rw [← hxe, he, h.first_not hx] at this
    cases this
  unfold inc at h1
  omega

/-! ### The number of all complete sets -/

theorem number_pick {o : Nat} {rest : List Nat} {others : List (List Nat)} (h : Ctx part m cc adm ((o :: rest) :: others))
    {p : Nat × Nat × List (List Nat)} (hp : p ∈ picks others) (B : Multiset (Nat × Nat)) (hB : (part o, part p.2.1) ∈ B)
    (hc : cc o p.2.1 = true) :
    number part m (rest :: p.2.2).flatten (B.erase (part o, part p.2.1)) =
      number part m ((o :: rest) :: others).flatten B * (B.count (part o, part p.2.1)) /
        (free part ((o :: rest) :: others).flatten (part o) * free part ((o :: rest) :: others).flatten (part p.2.1)) := by
  set L := part o with hL
  set R := part p.2.1 with hR
  set fl := ((o :: rest) :: others).flatten with hfl
  have hne : L ≠ R := h.partner_ne (pick_mem hp) hc
  have hLm : L < m := h.lt o (by simp)
  have hRm : R < m := h.lt p.2.1 (by simp [pick_mem hp])
  have hf : ∀ k, free part fl k = free part (rest :: p.2.2).flatten k + (if k = L then 1 else 0) + (if k = R then 1 else 0) :=
    free_pick part o rest others p hp
  -- numerator
  have e1 : (∏ k ∈ Finset.range m, (Nat.factorial (free part fl k) : Rat)) =
      (∏ k ∈ Finset.range m, (Nat.factorial (free part (rest :: p.2.2).flatten k) : Rat)) * (free part fl L * free part fl R) := by
    have : ∀ k ∈ Finset.range m, (Nat.factorial (free part fl k) : Rat) =
        (Nat.factorial (free part (rest :: p.2.2).flatten k) : Rat) *
          ((if k = L then (free part fl L : Rat) else 1) * (if k = R then (free part fl R : Rat) else 1)) := by
      intro k _
      rw [hf k]
      by_cases h1 : k = L
      · rw [h1, if_pos rfl, if_neg hne, if_pos rfl, if_neg hne, hf L, if_pos rfl, if_neg hne]
        simp only [Nat.add_zero, Nat.factorial_succ]
        push_cast; ring
      · by_cases h2 : k = R
        · rw [h2, if_neg (Ne.symm hne), if_pos rfl, if_neg (Ne.symm hne), if_pos rfl, hf R, if_pos rfl, if_neg (Ne.symm hne)]
          simp only [Nat.add_zero, Nat.factorial_succ]
          push_cast; ring
        · simp [h1, h2]
    rw [Finset.prod_congr rfl this, Finset.prod_mul_distrib, Finset.prod_mul_distrib, Finset.prod_ite_eq',
      Finset.prod_ite_eq', if_pos (Finset.mem_range.2 hLm), if_pos (Finset.mem_range.2 hRm)]
  have e2 : (∏ q ∈ Finset.range m ×ˢ Finset.range m, (Nat.factorial (B.count q) : Rat)) =
      (∏ q ∈ Finset.range m ×ˢ Finset.range m, (Nat.factorial ((B.erase (L, R)).count q) : Rat)) * B.count (L, R) := by
    have : ∀ q ∈ Finset.range m ×ˢ Finset.range m, (Nat.factorial (B.count q) : Rat) =
        (Nat.factorial ((B.erase (L, R)).count q) : Rat) * (if q = (L, R) then (B.count (L, R) : Rat) else 1) := by
      intro q _
      by_cases h1 : q = (L, R)
      · subst h1
        have hp := Multiset.count_pos.2 hB
        rw [if_pos rfl, Multiset.count_erase_self]
        obtain ⟨c, hc⟩ : ∃ c, B.count (L, R) = c + 1 := ⟨B.count (L, R) - 1, by omega⟩
        rw [hc, Nat.factorial_succ]
        push_cast; ring
      · rw [if_neg h1, Multiset.count_erase_of_ne h1, mul_one]
    rw [Finset.prod_congr rfl this, Finset.prod_mul_distrib, Finset.prod_ite_eq',
      if_pos (Finset.mem_product.2 ⟨Finset.mem_range.2 hLm, Finset.mem_range.2 hRm⟩)]
  have n1 : (free part fl L : Rat) ≠ 0 := by
    have := hf L; simp at this; exact_mod_cast (by omega : free part fl L ≠ 0)
  have n2 : (free part fl R : Rat) ≠ 0 := by
    have := hf R; simp at this; exact_mod_cast (by omega : free part fl R ≠ 0)
  have n3 : (B.count (L, R) : Rat) ≠ 0 := by
    have := Multiset.count_pos.2 hB; exact_mod_cast (by omega : B.count (L, R) ≠ 0)
  have n4 : (∏ q ∈ Finset.range m ×ˢ Finset.range m, (Nat.factorial ((B.erase (L, R)).count q) : Rat)) ≠ 0 :=
    Finset.prod_ne_zero_iff.2 fun q _ => by exact_mod_cast Nat.factorial_ne_zero _
  unfold number
  rw [e1, e2]
  field_simp

/-- Summing over the members of partitions. -/
theorem sum_over_free (part : Nat → Nat) (l : List Nat) (g : Nat → Rat) :
    (l.map fun r => g (part r) / free part l (part r)).sum = ∑ k ∈ (l.map part).toFinset, g k := by
  have : (l.map fun r => g (part r) / free part l (part r)) = (l.map part).map fun k => g k / ((l.map part).count k : Rat) := by
    rw [List.map_map]; rfl
  rw [this, Finset.sum_list_map_count]
  apply Finset.sum_congr rfl
  intro k hk
  have h0 : ((l.map part).count k : Rat) ≠ 0 := by
    have := List.count_pos_iff.2 (List.mem_toFinset.1 hk)
    exact_mod_cast (by omega : (l.map part).count k ≠ 0)
  rw [nsmul_eq_mul]
  field_simp

theorem sum_row (B : Multiset (Nat × Nat)) (L : Nat) (T : Finset Nat) (h : ∀ q ∈ B, q.1 = L → q.2 ∈ T) :
    ∑ k ∈ T, B.count (L, k) = (B.map Prod.fst).count L := by
  rw [Multiset.count_map, ← Multiset.sum_count_eq_card (s := T.image fun k => (L, k))]
  · rw [Finset.sum_image (by intro a _ b _ hab; simpa using hab)]
    apply Finset.sum_congr rfl
    intro k _
    rw [Multiset.count_filter, if_pos rfl]
  · intro q hq
    obtain ⟨h1, h2⟩ := Multiset.mem_filter.1 hq
    exact Finset.mem_image.2 ⟨q.2, h q h1 h2.symm, by rw [h2]⟩

/-- The summands below a call, with the one empty set of contractions when nothing is left. -/
def contFull (S : Statistics) (isQpAnn : Nat → Bool) (cc : Nat → Nat → Bool) (fuel : Nat) (nops : List (List Nat)) :
    List (Term Nat) :=
  if opsize nops = 0 then [(1, [])] else wickFull S isQpAnn cc fuel nops

theorem wickFull_step (isQpAnn : Nat → Bool) (cc : Nat → Nat → Bool) (fuel o : Nat) (rest : List Nat) (others : List (List Nat)) :
    wickFull S isQpAnn cc (fuel + 1) ((o :: rest) :: others) =
      if !isQpAnn o then [] else (picks others).flatMap fun p =>
        if cc o p.2.1 then (contFull S isQpAnn cc fuel (rest :: p.2.2)).map fun t =>
          (phase S (rest.length + p.1) * t.1, (o, p.2.1) :: t.2) else [] := by
  simp only [wickFull]
  split
  · rfl
  · congr 1
    funext p
    split
    · unfold contFull
      split <;> simp
    · rfl

/-- Number of summands with the kinds `B`. -/
def cnt (part : Nat → Nat) (l : List (Term Nat)) (B : Multiset (Nat × Nat)) : Nat :=
  l.countP fun t => decide (keyOf part t.2 = B)

theorem cnt_map (part : Nat → Nat) (l : List (Term Nat)) (ph : Int) (o r : Nat) (B : Multiset (Nat × Nat)) :
    cnt part (l.map fun t => (ph * t.1, (o, r) :: t.2)) B =
      if (part o, part r) ∈ B then cnt part l (B.erase (part o, part r)) else 0 := by
  unfold cnt
  rw [List.countP_map]
  split
  · rename_i h
    apply List.countP_congr
    intro t _
    simp [keyOf_cons, cons_eq_iff, h]
  · rename_i h
    rw [List.countP_eq_zero]
    intro t _
    simp [keyOf_cons, cons_eq_iff, h]

theorem cnt_flatMap {ι : Type} (part : Nat → Nat) (l : List ι) (f : ι → List (Term Nat)) (B : Multiset (Nat × Nat)) :
    (cnt part (l.flatMap f) B : Rat) = (l.map fun i => (cnt part (f i) B : Rat)).sum := by
  induction l with
  | nil => simp [cnt]
  | cons a l ih =>
    rw [List.flatMap_cons, List.map_cons, List.sum_cons, ← ih]
    simp [cnt]

theorem fits_nil (part : Nat → Nat) (adm : Nat → Nat → Bool) (B : Multiset (Nat × Nat)) : Fits part adm [] B ↔ B = 0 := by
  constructor
  · intro h
    by_contra hc
    obtain ⟨q, hq⟩ := Multiset.exists_mem_of_ne_zero hc
    have := (inc_pos_iff B q.1).2 ⟨q, hq, Or.inl rfl⟩
    rw [h.1] at this
    simp [free] at this
  · rintro rfl
    exact ⟨fun p => by simp [inc, free], by simp⟩

theorem flatten_of_opsize {nops : List (List Nat)} (h : opsize nops = 0) : nops.flatten = [] := by
  rw [opsize_flatten] at h
  exact List.length_eq_zero_iff.1 h

open Classical in
/-- **The number of complete sets of contractions with given kinds** is `∏ size! / ∏ n_ij!`. -/
theorem cnt_full (isQpAnn : Nat → Bool) (hq : ∀ x y, cc x y = true → isQpAnn x = true) (fuel : Nat) (nops : List (List Nat))
    (hfuel : wickFuel nops ≤ fuel) (h : Ctx part m cc adm nops) (B : Multiset (Nat × Nat)) :
    (cnt part (contFull S isQpAnn cc fuel nops) B : Rat) =
      if Fits part adm nops.flatten B then number part m nops.flatten B else 0 := by
  induction fuel generalizing nops B with
  | zero => simp [wickFuel] at hfuel
  | succ fuel ih =>
    by_cases h0 : opsize nops = 0
    · rw [flatten_of_opsize h0]
      by_cases hB : B = 0
      · subst hB
        rw [if_pos ((fits_nil _ _ _).2 rfl)]
        simp [contFull, h0, cnt, keyOf_nil, number, free]
      · rw [if_neg (mt (fits_nil _ _ _).1 hB)]
        simp [contFull, h0, cnt, keyOf_nil, Ne.symm hB]
    · match nops with
      | [] => simp [opsize] at h0
      | [] :: nops =>
        have e1 : contFull S isQpAnn cc (fuel + 1) ([] :: nops) = contFull S isQpAnn cc fuel nops := by
          have : opsize ([] :: nops) = opsize nops := by simp [opsize]
          simp only [contFull, this, wickFull]
        rw [e1, ih nops (by simp [wickFuel, opsize] at hfuel ⊢; omega) h.tail]
        simp
      | (o :: rest) :: others =>
        have hfl : ∀ p ∈ picks others, wickFuel (rest :: p.2.2) ≤ fuel := by
          intro p hp
          have hsz := picks_opsize others p hp
          have hlen : p.2.2.length = others.length := by
            rw [picks_filter others (by
              have := h.nodup
              simp only [List.flatten_cons] at this
              exact (List.nodup_append.mp this).2.1) p hp, List.length_map]
          simp [wickFuel, opsize] at hfuel hsz ⊢; omega
        set fl := ((o :: rest) :: others).flatten with hfld
        have hLpos : 0 < free part fl (part o) := (free_pos_iff _ _ _).2 ⟨o, by simp [hfld], rfl⟩
        rw [contFull, if_neg h0, wickFull_step]
        by_cases hqa : isQpAnn o = true
        · simp only [hqa, Bool.not_true, Bool.false_eq_true, if_false]
          rw [cnt_flatMap]
          have hterm : ∀ p ∈ picks others, (cnt part (if cc o p.2.1 = true then
                (contFull S isQpAnn cc fuel (rest :: p.2.2)).map fun t =>
                  (phase S (rest.length + p.1) * t.1, (o, p.2.1) :: t.2) else []) B : Rat) =
              if Fits part adm fl B then number part m fl B * (B.count (part o, part p.2.1)) /
                (free part fl (part o) * free part fl (part p.2.1)) else 0 := by
            intro p hp
            have hmem : p.2.1 ∈ fl := by simp [hfld, pick_mem hp]
            by_cases hB : (part o, part p.2.1) ∈ B
            · by_cases hc : cc o p.2.1 = true
              · rw [if_pos hc, cnt_map, if_pos hB, ih _ (hfl p hp) (h.pick hp)]
                by_cases hF : Fits part adm fl B
                · rw [if_pos hF, if_pos ((fits_pick h hp B hB hc).2 hF), number_pick h hp B hB hc]
                · rw [if_neg hF, if_neg (mt (fits_pick h hp B hB hc).1 hF)]
              · rw [if_neg hc, if_neg (fun hF => hc (Fits.canc h hF hmem hB).2)]
                simp [cnt]
            · have hc0 : B.count (part o, part p.2.1) = 0 := Multiset.count_eq_zero.2 hB
              have : cnt part (if cc o p.2.1 = true then (contFull S isQpAnn cc fuel (rest :: p.2.2)).map fun t =>
                  (phase S (rest.length + p.1) * t.1, (o, p.2.1) :: t.2) else []) B = 0 := by
                split
                · rw [cnt_map, if_neg hB]
                · simp [cnt]
              rw [this, hc0]
              simp
          rw [List.map_congr_left hterm]
          by_cases hF : Fits part adm fl B
          · simp only [if_pos hF]
            have e1 : (picks others).map (fun p => number part m fl B * (B.count (part o, part p.2.1) : Rat) /
                (free part fl (part o) * free part fl (part p.2.1))) =
              others.flatten.map (fun r => number part m fl B * (B.count (part o, part r) : Rat) /
                (free part fl (part o) * free part fl (part r))) := by
              rw [← picks_ops others, List.map_map]; rfl
            have e2 : ((o :: rest).map (fun r => number part m fl B * (B.count (part o, part r) : Rat) /
                (free part fl (part o) * free part fl (part r)))).sum = 0 := by
              apply List.sum_eq_zero
              intro z hz
              obtain ⟨r, hr, rfl⟩ := List.mem_map.1 hz
              have hr' : r ∈ fl := by rw [hfld, List.flatten_cons]; exact List.mem_append_left _ hr
              have : B.count (part o, part r) = 0 := by
                rw [Multiset.count_eq_zero]
                intro hm
                have h1 := (Fits.canc h hF hr' hm).1
                have h2 := h.nodup
                rw [List.flatten_cons] at h2
                exact (List.nodup_append.1 h2).2.2 _ hr _ h1 rfl
              rw [this]; simp
            have e3 : (others.flatten.map (fun r => number part m fl B * (B.count (part o, part r) : Rat) /
                (free part fl (part o) * free part fl (part r)))).sum =
              (fl.map (fun r => (number part m fl B / free part fl (part o)) *
                ((fun k => (B.count (part o, k) : Rat)) (part r) / free part fl (part r)))).sum := by
              have : fl.map (fun r => (number part m fl B / free part fl (part o)) *
                ((fun k => (B.count (part o, k) : Rat)) (part r) / free part fl (part r))) =
                fl.map (fun r => number part m fl B * (B.count (part o, part r) : Rat) /
                (free part fl (part o) * free part fl (part r))) := by
                apply List.map_congr_left
                intro r _
                ring
              have hsplit : ∀ f : Nat → Rat, (fl.map f).sum = ((o :: rest).map f).sum + (others.flatten.map f).sum := by
                intro f; rw [hfld, List.flatten_cons, List.map_append, List.sum_append]
              rw [this, hsplit, e2, zero_add]
            rw [e1, e3, sum_map_mul_left, sum_over_free part fl fun k => (B.count (part o, k) : Rat), ← Nat.cast_sum, sum_row, Fits.row h hF, ← hfld]
            · have : (free part fl (part o) : Rat) ≠ 0 := by exact_mod_cast (by omega)
              field_simp
            · intro q hq _
              obtain ⟨_, y, hy, hye⟩ := hF.exists hq
              rw [List.mem_toFinset, List.mem_map]
              exact ⟨y, hy, hye⟩
          · simp only [if_neg hF]
            simp
        · simp only [hqa, Bool.not_false, if_true]
          rw [if_neg]
          · simp [cnt]
          · intro hF
            have := Fits.row h hF
            rw [← hfld] at this
            have hp : 0 < (B.map Prod.fst).count (part o) := by omega
            rw [Multiset.count_pos, Multiset.mem_map] at hp
            obtain ⟨q, hq1, hq2⟩ := hp
            obtain ⟨_, y, hy, hye⟩ := hF.exists hq1
            have hmem : (part o, part y) ∈ B := by rw [hye, ← hq2]; exact hq1
            exact hqa (hq o y (Fits.canc h hF hy hmem).2)

end SeQuant.Topology
