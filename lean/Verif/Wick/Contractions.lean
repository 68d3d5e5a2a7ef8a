import Verif.Wick.Props
import Verif.Perm.NextLemmas

/-!
# Combinatorial description of the summands of the Wick engine (second half of C02, and C01)

`IsContractionSet` is an independent description of an admissible set of contractions.
-/

namespace SeQuant.Wick

open SeQuant.Sort SeQuant.Perm

variable {Op : Type} {S : Statistics}

/-- `x` belongs to some normal operator and `y` to a later one. -/
def Later : List (List Op) → Op → Op → Prop
  | [], _, _ => False
  | l :: ls, x, y => (x ∈ l ∧ y ∈ ls.flatten) ∨ Later ls x y

/-- The operators of a list of pairs. -/
def pairOps (cs : List (Op × Op)) : List Op := cs.flatMap fun p => [p.1, p.2]

/-- An admissible set of contractions, listed by the position of the left operators: no operator is used twice, and every pair
consists of contractible operators from two different normal operators, the left one first. -/
structure IsContractionSet (canContract : Op → Op → Bool) (nops : List (List Op)) (cs : List (Op × Op)) : Prop where
  ordered : (cs.map Prod.fst).Sublist nops.flatten
  disjoint : (pairOps cs).Nodup
  pairs : ∀ p ∈ cs, canContract p.1 p.2 = true ∧ Later nops p.1 p.2

theorem picksIn_ops (l : List Op) : (picksIn l).map (fun p => p.2.1) = l := by
  induction l with
  | nil => rfl
  | cons o l ih => simp [picksIn, Function.comp_def, ih]

theorem picks_ops (ls : List (List Op)) : (picks ls).map (fun p => p.2.1) = ls.flatten := by
  induction ls with
  | nil => rfl
  | cons l ls ih => simp [picks, Function.comp_def, ih, picksIn_ops]

theorem picksIn_split (l : List Op) (p : Nat × Op × List Op) (h : p ∈ picksIn l) :
    ∃ pre post, l = pre ++ p.2.1 :: post ∧ p.2.2 = pre ++ post ∧ p.1 = pre.length := by
  induction l generalizing p with
  | nil => simp [picksIn] at h
  | cons o l ih =>
    simp only [picksIn, List.mem_cons, List.mem_map] at h
    rcases h with rfl | ⟨q, hq, rfl⟩
    · exact ⟨[], l, rfl, rfl, rfl⟩
    · obtain ⟨pre, post, h1, h2, h3⟩ := ih q hq
      exact ⟨o :: pre, post, by simp [← h1], by simp [h2], by simp [h3]⟩

theorem picks_split (ls : List (List Op)) (p : Nat × Op × List (List Op)) (h : p ∈ picks ls) :
    ∃ pre post, ls.flatten = pre ++ p.2.1 :: post ∧ p.2.2.flatten = pre ++ post ∧ p.1 = pre.length := by
  induction ls generalizing p with
  | nil => simp [picks] at h
  | cons l ls ih =>
    simp only [picks, List.mem_append, List.mem_map] at h
    rcases h with ⟨q, hq, rfl⟩ | ⟨q, hq, rfl⟩
    · obtain ⟨pre, post, h1, h2, h3⟩ := picksIn_split l q hq
      exact ⟨pre, post ++ ls.flatten, by simp [h1], by simp [h2], h3⟩
    · obtain ⟨pre, post, h1, h2, h3⟩ := ih q hq
      exact ⟨l ++ pre, post, by simp [h1], by simp [h2], by simp [h3]⟩

variable [DecidableEq Op]

theorem filter_ne_eq {l : List Op} {y : Op} (h : y ∉ l) : l.filter (fun x => decide (x ≠ y)) = l := by
  rw [List.filter_eq_self]
  intro a ha
  simp only [decide_eq_true_eq]
  rintro rfl
  exact h ha

theorem map_filter_ne_eq {ls : List (List Op)} {y : Op} (h : y ∉ ls.flatten) :
    ls.map (List.filter (fun x => decide (x ≠ y))) = ls := by
  induction ls with
  | nil => rfl
  | cons l ls ih =>
    simp only [List.flatten_cons, List.mem_append, not_or] at h
    rw [List.map_cons, filter_ne_eq h.1, ih h.2]

theorem picksIn_filter (l : List Op) (hnd : l.Nodup) (p : Nat × Op × List Op) (h : p ∈ picksIn l) :
    p.2.2 = l.filter (fun x => decide (x ≠ p.2.1)) := by
  obtain ⟨pre, post, h1, h2, _⟩ := picksIn_split l p h
  rw [h1] at hnd
  have hn := List.nodup_append.mp hnd
  have h3 : p.2.1 ∉ pre := fun hx => hn.2.2 _ hx _ (by simp) rfl
  have h4 : p.2.1 ∉ post := (List.nodup_cons.mp hn.2.1).1
  rw [h1, List.filter_append, List.filter_cons_of_neg (by simp), filter_ne_eq h3, filter_ne_eq h4, h2]

theorem picks_filter (ls : List (List Op)) (hnd : ls.flatten.Nodup) (p : Nat × Op × List (List Op)) (h : p ∈ picks ls) :
    p.2.2 = ls.map (List.filter (fun x => decide (x ≠ p.2.1))) := by
  induction ls generalizing p with
  | nil => simp [picks] at h
  | cons l ls ih =>
    have hmem : p.2.1 ∈ (l :: ls).flatten := by
      rw [← picks_ops]; exact List.mem_map.mpr ⟨p, h, rfl⟩
    rw [List.flatten_cons] at hnd
    have hn := List.nodup_append.mp hnd
    simp only [picks, List.mem_append, List.mem_map] at h
    rcases h with ⟨q, hq, rfl⟩ | ⟨q, hq, rfl⟩
    · have hqm : q.2.1 ∈ l := by
        rw [← picksIn_ops l]; exact List.mem_map.mpr ⟨q, hq, rfl⟩
      have : q.2.1 ∉ ls.flatten := fun hx => hn.2.2 _ hqm _ hx rfl
      simp only [List.map_cons]
      rw [map_filter_ne_eq this, ← picksIn_filter l hn.1 q hq]
    · have hqm : q.2.1 ∈ ls.flatten := by
        rw [← picks_ops ls]; exact List.mem_map.mpr ⟨q, hq, rfl⟩
      have : q.2.1 ∉ l := fun hx => hn.2.2 _ hx _ hqm rfl
      simp only [List.map_cons]
      rw [filter_ne_eq this, ← ih hn.2.1 q hq]

omit [DecidableEq Op] in
theorem flatten_map_filter (ls : List (List Op)) (f : Op → Bool) :
    (ls.map (List.filter f)).flatten = ls.flatten.filter f := by
  induction ls with
  | nil => rfl
  | cons l ls ih => rw [List.map_cons, List.flatten_cons, List.flatten_cons, List.filter_append, ih]

omit [DecidableEq Op] in
theorem later_filter (ls : List (List Op)) (f : Op → Bool) (x y : Op) :
    Later (ls.map (List.filter f)) x y ↔ Later ls x y ∧ f x = true ∧ f y = true := by
  induction ls with
  | nil => simp [Later]
  | cons l ls ih =>
    simp only [List.map_cons, Later, ih, flatten_map_filter, List.mem_filter]
    tauto

omit [DecidableEq Op] in
theorem later_mem (ls : List (List Op)) (x y : Op) (h : Later ls x y) : x ∈ ls.flatten ∧ y ∈ ls.flatten := by
  induction ls with
  | nil => simp [Later] at h
  | cons l ls ih =>
    simp only [Later, List.flatten_cons, List.mem_append] at *
    tauto

omit [DecidableEq Op] in
theorem isContractionSet_filter (cc : Op → Op → Bool) (ls : List (List Op)) (f : Op → Bool) (cs : List (Op × Op)) :
    IsContractionSet cc (ls.map (List.filter f)) cs ↔
      IsContractionSet cc ls cs ∧ ∀ p ∈ cs, f p.1 = true ∧ f p.2 = true := by
  constructor
  · rintro ⟨h1, h2, h3⟩
    rw [flatten_map_filter] at h1
    refine ⟨⟨h1.trans List.filter_sublist, h2, fun p hp => ⟨(h3 p hp).1, ((later_filter ..).mp (h3 p hp).2).1⟩⟩,
      fun p hp => ((later_filter ..).mp (h3 p hp).2).2⟩
  · rintro ⟨⟨h1, h2, h3⟩, h4⟩
    refine ⟨?_, h2, fun p hp => ⟨(h3 p hp).1, (later_filter ..).mpr ⟨(h3 p hp).2, h4 p hp⟩⟩⟩
    rw [flatten_map_filter]
    have := h1.filter f
    rwa [List.filter_eq_self.mpr] at this
    intro a ha
    obtain ⟨p, hp, rfl⟩ := List.mem_map.mp ha
    exact (h4 p hp).1

omit [DecidableEq Op] in
theorem mem_pairOps {cs : List (Op × Op)} {x : Op} : x ∈ pairOps cs ↔ ∃ p ∈ cs, x = p.1 ∨ x = p.2 := by
  simp [pairOps]

omit [DecidableEq Op] in
theorem isContractionSet_mem {cc : Op → Op → Bool} {nops : List (List Op)} {cs : List (Op × Op)}
    (h : IsContractionSet cc nops cs) {x : Op} (hx : x ∈ pairOps cs) : x ∈ nops.flatten := by
  obtain ⟨p, hp, rfl | rfl⟩ := mem_pairOps.mp hx
  · exact (later_mem _ _ _ (h.pairs p hp).2).1
  · exact (later_mem _ _ _ (h.pairs p hp).2).2

/-- Case distinction: the first operator is contracted or not. -/
theorem isContractionSet_cons (cc : Op → Op → Bool) (o : Op) (rest : List Op) (others : List (List Op))
    (hnd : ((o :: rest) :: others).flatten.Nodup) (cs : List (Op × Op)) :
    IsContractionSet cc ((o :: rest) :: others) cs ↔
      (∃ y cs', cs = (o, y) :: cs' ∧ y ∈ others.flatten ∧ cc o y = true ∧
        IsContractionSet cc (rest :: others.map (List.filter fun x => decide (x ≠ y))) cs') ∨
      IsContractionSet cc (rest :: others) cs := by
  simp only [List.flatten_cons, List.cons_append, List.nodup_cons, List.mem_append, not_or] at hnd
  obtain ⟨⟨ho1, ho2⟩, hnd⟩ := hnd
  have hrest : ∀ y ∈ others.flatten, y ∉ rest := fun y hy hy' => (List.nodup_append.mp hnd).2.2 _ hy' _ hy rfl
  have hmap : ∀ y ∈ others.flatten, rest :: others.map (List.filter fun x => decide (x ≠ y)) =
      (rest :: others).map (List.filter fun x => decide (x ≠ y)) := by
    intro y hy
    rw [List.map_cons, filter_ne_eq (hrest y hy)]
  have hlater : ∀ x y, x ≠ o → Later ((o :: rest) :: others) x y → Later (rest :: others) x y := by
    intro x y hx h
    simp only [Later, List.mem_cons] at h ⊢
    tauto
  have hlater' : ∀ x y, Later (rest :: others) x y → Later ((o :: rest) :: others) x y := by
    intro x y h
    simp only [Later, List.mem_cons] at h ⊢
    tauto
  constructor
  · rintro ⟨h1, h2, h3⟩
    cases cs with
    | nil => right; exact ⟨by simp, by simp [pairOps], by simp⟩
    | cons p cs =>
      obtain ⟨x, y⟩ := p
      simp only [List.map_cons, List.flatten_cons, List.cons_append] at h1
      by_cases hx : x = o
      · subst hx
        left
        have hy : y ∈ others.flatten := by
          have := (h3 (x, y) (by simp)).2
          simp only [Later] at this
          rcases this with h | h
          · exact h.2
          · exact (later_mem _ _ _ h).2
        refine ⟨y, cs, rfl, hy, (h3 (x, y) (by simp)).1, ?_⟩
        rw [hmap y hy, isContractionSet_filter]
        have hd : x ∉ pairOps cs ∧ y ∉ pairOps cs ∧ (pairOps cs).Nodup := by
          simp only [pairOps, List.flatMap_cons, List.cons_append, List.nil_append, List.nodup_cons,
            List.mem_cons, not_or] at h2
          exact ⟨h2.1.2, h2.2⟩
        refine ⟨⟨by simpa using h1, hd.2.2, fun q hq => ⟨(h3 q (by simp [hq])).1, hlater _ _ ?_ (h3 q (by simp [hq])).2⟩⟩,
          fun q hq => ?_⟩
        · rintro rfl; exact hd.1 (mem_pairOps.mpr ⟨q, hq, Or.inl rfl⟩)
        · simp only [decide_eq_true_eq]
          constructor
          · rintro rfl; exact hd.2.1 (mem_pairOps.mpr ⟨q, hq, Or.inl rfl⟩)
          · rintro rfl; exact hd.2.1 (mem_pairOps.mpr ⟨q, hq, Or.inr rfl⟩)
      · right
        have hs : (x :: cs.map Prod.fst).Sublist (rest ++ others.flatten) := by
          cases h1 with
          | cons _ h => exact h
          | cons_cons _ h => exact absurd rfl hx
        refine ⟨by simpa using hs, h2, fun q hq => ⟨(h3 q hq).1, hlater _ _ ?_ (h3 q hq).2⟩⟩
        rintro rfl
        have : q.1 ∈ rest ++ others.flatten := hs.subset (by
          rw [List.mem_cons] at hq
          rcases hq with rfl | hq
          · simp
          · exact List.mem_cons_of_mem _ (List.mem_map.mpr ⟨q, hq, rfl⟩))
        simp only [List.mem_append] at this
        tauto
  · rintro (⟨y, cs', rfl, hy, hcc, h⟩ | h)
    · rw [hmap y hy, isContractionSet_filter] at h
      obtain ⟨h, hne⟩ := h
      refine ⟨?_, ?_, ?_⟩
      · have := h.ordered
        simpa using this.cons_cons o
      · have h1 : o ∉ pairOps cs' := fun hx => by
          have := isContractionSet_mem h hx
          simp only [List.flatten_cons, List.mem_append] at this
          tauto
        have h2 : y ∉ pairOps cs' := fun hx => by
          obtain ⟨p, hp, hyp⟩ := mem_pairOps.mp hx
          have := hne p hp
          simp only [decide_eq_true_eq] at this
          tauto
        have h3 : o ≠ y := by rintro rfl; exact ho2 hy
        simp only [pairOps, List.flatMap_cons, List.cons_append, List.nil_append, List.nodup_cons,
            List.mem_cons, not_or]
        exact ⟨⟨h3, h1⟩, h2, h.disjoint⟩
      · intro p hp
        rw [List.mem_cons] at hp
        rcases hp with rfl | hp
        · exact ⟨hcc, Or.inl ⟨by simp, hy⟩⟩
        · exact ⟨(h.pairs p hp).1, hlater' _ _ (h.pairs p hp).2⟩
    · exact ⟨by have := h.ordered; simpa using this.cons o, h.disjoint,
        fun p hp => ⟨(h.pairs p hp).1, hlater' _ _ (h.pairs p hp).2⟩⟩

omit [DecidableEq Op] in
theorem isContractionSet_emptyCons (cc : Op → Op → Bool) (nops : List (List Op)) (cs : List (Op × Op)) :
    IsContractionSet cc ([] :: nops) cs ↔ IsContractionSet cc nops cs := by
  constructor
  · rintro ⟨h1, h2, h3⟩
    exact ⟨by simpa using h1, h2, fun p hp => ⟨(h3 p hp).1, by simpa [Later] using (h3 p hp).2⟩⟩
  · rintro ⟨h1, h2, h3⟩
    exact ⟨by simpa using h1, h2, fun p hp => ⟨(h3 p hp).1, by simpa [Later] using (h3 p hp).2⟩⟩

/-- What is claimed of one summand: the contractions are admissible and not empty, what remains is the input without the contracted
operators, and the phase is `ζ^n` when `n` exchanges of neighbours bring the contracted pairs to the front. -/
structure GoodTerm (S : Statistics) (cc : Op → Op → Bool) (nops : List (List Op)) (t : PartialTerm Op) : Prop where
  admissible : IsContractionSet cc nops t.2.1
  nonempty : t.2.1 ≠ []
  remaining : t.2.2 = nops.map (List.filter fun x => decide (x ∉ pairOps t.2.1))
  sign : ∃ n, Adj n nops.flatten (pairOps t.2.1 ++ t.2.2.flatten) ∧ t.1 = S.zeta ^ n

omit [DecidableEq Op] in
theorem pick_adj (o : Op) (rest : List Op) (others : List (List Op)) (p : Nat × Op × List (List Op))
    (hp : p ∈ picks others) :
    Adj (rest.length + p.1) ((o :: rest) :: others).flatten (o :: p.2.1 :: (rest :: p.2.2).flatten) := by
  obtain ⟨pre, post, h1, h2, h3⟩ := picks_split others p hp
  have := (adj_move' p.2.1 (rest ++ pre) post).cons o
  simp only [List.length_append] at this
  simpa [h1, h2, h3] using this

theorem map_filter_nil (ls : List (List Op)) :
    ls.map (List.filter fun x => decide (x ∉ pairOps ([] : List (Op × Op)))) = ls := by
  induction ls with
  | nil => rfl
  | cons l ls ih => rw [List.map_cons, ih]; simp [pairOps]

theorem goodTerm_pick (cc : Op → Op → Bool) (o : Op) (rest : List Op) (others : List (List Op))
    (hnd : ((o :: rest) :: others).flatten.Nodup) (p : Nat × Op × List (List Op))
    (hp : p ∈ picks others) (hcc : cc o p.2.1 = true) (s : Int) (cs : List (Op × Op)) (rem : List (List Op))
    (hcs : IsContractionSet cc (rest :: p.2.2) cs)
    (hrem : rem = (rest :: p.2.2).map (List.filter fun x => decide (x ∉ pairOps cs)))
    (hsign : ∃ n, Adj n (rest :: p.2.2).flatten (pairOps cs ++ rem.flatten) ∧ s = S.zeta ^ n) :
    GoodTerm S cc ((o :: rest) :: others) (phase S (rest.length + p.1) * s, (o, p.2.1) :: cs, rem) := by
  have hnd' := hnd
  simp only [List.flatten_cons, List.cons_append, List.nodup_cons, List.mem_append, not_or] at hnd'
  obtain ⟨⟨ho1, ho2⟩, hnd'⟩ := hnd'
  have hpm : p.2.1 ∈ others.flatten := by
    rw [← picks_ops others]; exact List.mem_map.mpr ⟨p, hp, rfl⟩
  have hpr : p.2.1 ∉ rest := fun hy' => (List.nodup_append.mp hnd').2.2 _ hy' _ hpm rfl
  have hf := picks_filter others (List.nodup_append.mp hnd').2.1 p hp
  have hpo : p.2.1 ≠ o := by intro h; rw [h] at hpm; exact ho2 hpm
  refine ⟨?_, by simp, ?_, ?_⟩
  · rw [isContractionSet_cons cc o rest others hnd]
    exact Or.inl ⟨p.2.1, cs, rfl, hpm, hcc, by rw [← hf]; exact hcs⟩
  · simp only
    have key : ∀ l : List Op, o ∉ l → l.filter (fun x => decide (x ∉ pairOps ((o, p.2.1) :: cs))) =
        (l.filter fun x => decide (x ≠ p.2.1)).filter fun x => decide (x ∉ pairOps cs) := by
      intro l hl
      rw [List.filter_filter]
      apply List.filter_congr
      intro x hx
      have hxo : x ≠ o := by rintro rfl; exact hl hx
      have hiff : x ∉ pairOps ((o, p.2.1) :: cs) ↔ x ≠ p.2.1 ∧ x ∉ pairOps cs := by
        simp only [pairOps, List.flatMap_cons, List.cons_append, List.nil_append, List.mem_cons, not_or, hxo,
          not_false_eq_true, true_and, ne_eq]
      rw [Bool.eq_iff_iff, Bool.and_eq_true, decide_eq_true_eq, decide_eq_true_eq, decide_eq_true_eq, hiff]
      tauto
    rw [hrem, List.map_cons, List.map_cons]
    congr 1
    · rw [List.filter_cons_of_neg (by simp [pairOps]), key rest ho1, filter_ne_eq hpr]
    · rw [hf, List.map_map]
      apply List.map_congr_left
      intro l hl
      rw [key l fun h => ho2 (List.mem_flatten.mpr ⟨l, hl, h⟩)]
      rfl
  · obtain ⟨n, hn, rfl⟩ := hsign
    refine ⟨rest.length + p.1 + n, ?_, ?_⟩
    · have := (pick_adj o rest others p hp).trans ((hn.cons p.2.1).cons o)
      simpa [pairOps] using this
    · rw [phase_eq, pow_add _ (rest.length + p.1)]

omit [DecidableEq Op] in
theorem pairOps_length (cs : List (Op × Op)) : (pairOps cs).length = 2 * cs.length := by
  induction cs with
  | nil => rfl
  | cons p cs ih => simp [pairOps] at ih ⊢; omega

theorem zetaInt_even (S : Statistics) (k : Nat) : S.zeta ^ (2 * k) = 1 := by
  rw [pow_mul, pow_two, show S.zeta * S.zeta = 1 by cases S <;> rfl, one_pow]

theorem goodTerm_restore (cc : Op → Op → Bool) (o : Op) (rest : List Op) (others : List (List Op))
    (hnd : ((o :: rest) :: others).flatten.Nodup) (t : PartialTerm Op)
    (h : GoodTerm S cc (rest :: others) t) :
    GoodTerm S cc ((o :: rest) :: others) (t.1, t.2.1, restore o t.2.2) := by
  have hnd' := hnd
  simp only [List.flatten_cons, List.cons_append, List.nodup_cons] at hnd'
  have hno : o ∉ pairOps t.2.1 := fun hx => hnd'.1 (by simpa using isContractionSet_mem h.admissible hx)
  refine ⟨?_, h.nonempty, ?_, ?_⟩
  · rw [isContractionSet_cons cc o rest others hnd]; exact Or.inr h.admissible
  · simp only
    rw [h.remaining]
    simp [restore, hno]
  · obtain ⟨n, hn, hs⟩ := h.sign
    refine ⟨n + 2 * t.2.1.length, ?_, ?_⟩
    · have h1 := hn.cons o
      have h2 := adj_move o (pairOps t.2.1) t.2.2.flatten
      rw [pairOps_length] at h2
      simp only [flatten_restore]
      simpa using h1.trans h2
    · simp only [pow_add, zetaInt_even, mul_one, hs]

theorem wickPartial_good (cc : Op → Op → Bool) (fuel : Nat) (nops : List (List Op)) (hnd : nops.flatten.Nodup)
    (t : PartialTerm Op) (h : t ∈ wickPartial S cc fuel nops) : GoodTerm S cc nops t := by
  induction fuel generalizing nops t with
  | zero => simp [wickPartial] at h
  | succ fuel ih =>
    match nops with
    | [] => simp [wickPartial] at h
    | [] :: nops =>
      simp only [wickPartial, List.mem_map] at h
      obtain ⟨t', ht', rfl⟩ := h
      have g := ih nops (by simpa using hnd) t' ht'
      refine ⟨(isContractionSet_emptyCons ..).mpr g.admissible, g.nonempty, ?_, ?_⟩
      · simp only [List.map_cons, List.filter_nil]
        rw [← g.remaining]
      · simpa using g.sign
    | (o :: rest) :: others =>
      have hnd' := hnd
      simp only [List.flatten_cons, List.cons_append, List.nodup_cons, List.mem_append, not_or] at hnd'
      simp only [wickPartial, List.mem_append, List.mem_flatMap, List.mem_map] at h
      rcases h with ⟨p, hp, h⟩ | ⟨t', ht', rfl⟩
      · have hsub : (rest :: p.2.2).flatten.Nodup := by
          have hf := picks_filter others (List.nodup_append.mp hnd'.2).2.1 p hp
          have hs : (rest :: p.2.2).flatten.Sublist (rest ++ others.flatten) := by
            rw [List.flatten_cons, hf, flatten_map_filter]
            exact List.Sublist.append (List.Sublist.refl _) List.filter_sublist
          exact hnd'.2.sublist hs
        split at h
        · rename_i hcc
          simp only [List.mem_cons] at h
          rcases h with rfl | h
          · have := goodTerm_pick (S := S) cc o rest others hnd p hp hcc 1 [] (rest :: p.2.2)
              ⟨by simp, by simp [pairOps], by simp⟩ (map_filter_nil _).symm
              ⟨0, by simpa [pairOps] using Swaps.refl _, by simp⟩
            simpa using this
          · split at h
            · simp at h
            · simp only [List.mem_map] at h
              obtain ⟨t', ht', rfl⟩ := h
              have g := ih _ hsub t' ht'
              exact goodTerm_pick cc o rest others hnd p hp hcc t'.1 t'.2.1 t'.2.2 g.admissible g.remaining g.sign
        · simp at h
      · exact goodTerm_restore cc o rest others hnd t' (ih _ (by simpa using hnd'.2) t' ht')

theorem wickPartial_complete (cc : Op → Op → Bool) (fuel : Nat) (nops : List (List Op)) (hnd : nops.flatten.Nodup)
    (hfuel : wickFuel nops ≤ fuel) (cs : List (Op × Op)) (hcs : IsContractionSet cc nops cs) (hne : cs ≠ []) :
    cs ∈ (wickPartial S cc fuel nops).map fun t => t.2.1 := by
  induction fuel generalizing nops cs with
  | zero => simp [wickFuel] at hfuel
  | succ fuel ih =>
    match nops with
    | [] =>
      cases cs with
      | nil => exact absurd rfl hne
      | cons p cs => have := (hcs.pairs p (by simp)).2; simp [Later] at this
    | [] :: nops =>
      simp only [wickPartial, List.map_map, Function.comp_def]
      exact ih nops (by simpa using hnd) (by simp [wickFuel, opsize] at hfuel ⊢; omega) cs
        ((isContractionSet_emptyCons ..).mp hcs) hne
    | (o :: rest) :: others =>
      have hnd' := hnd
      simp only [List.flatten_cons, List.cons_append, List.nodup_cons, List.mem_append, not_or] at hnd'
      rw [isContractionSet_cons cc o rest others hnd] at hcs
      simp only [wickPartial, List.map_append, List.map_map, Function.comp_def, List.mem_append]
      rcases hcs with ⟨y, cs', rfl, hy, hcc, hcs'⟩ | hcs
      · left
        rw [← picks_ops others] at hy
        obtain ⟨p, hp, rfl⟩ := List.mem_map.mp hy
        rw [← picks_filter others (List.nodup_append.mp hnd'.2).2.1 p hp] at hcs'
        simp only [List.mem_map, List.mem_flatMap]
        by_cases hnil : cs' = []
        · subst hnil
          exact ⟨_, ⟨p, hp, by rw [if_pos hcc]; exact List.mem_cons_self ..⟩, rfl⟩
        · have hsub : (rest :: p.2.2).flatten.Nodup := by
            have hf := picks_filter others (List.nodup_append.mp hnd'.2).2.1 p hp
            have hs : (rest :: p.2.2).flatten.Sublist (rest ++ others.flatten) := by
              rw [List.flatten_cons, hf, flatten_map_filter]
              exact List.Sublist.append (List.Sublist.refl _) List.filter_sublist
            exact hnd'.2.sublist hs
          have hsz := picks_opsize others p hp
          have := ih (rest :: p.2.2) hsub (by simp [wickFuel, opsize] at hfuel hsz ⊢; omega) cs' hcs' hnil
          obtain ⟨t, ht, rfl⟩ := List.mem_map.mp this
          have h0 : opsize (rest :: p.2.2) ≠ 0 := fun h0 => by
            rw [wickPartial_nil cc fuel _ h0] at ht; simp at ht
          refine ⟨(phase S (rest.length + p.1) * t.1, (o, p.2.1) :: t.2.1, t.2.2), ⟨p, hp, ?_⟩, rfl⟩
          rw [if_pos hcc, if_neg h0]
          exact List.mem_cons_of_mem _ (List.mem_map.mpr ⟨t, ht, rfl⟩)
      · right
        exact ih (rest :: others) (by simpa using hnd'.2)
          (by simp [wickFuel, opsize] at hfuel ⊢; omega) cs hcs hne

theorem wickPartial_nodup (cc : Op → Op → Bool) (fuel : Nat) (nops : List (List Op)) (hnd : nops.flatten.Nodup) :
    ((wickPartial S cc fuel nops).map fun t => t.2.1).Nodup := by
  induction fuel generalizing nops with
  | zero => simp [wickPartial]
  | succ fuel ih =>
    match nops with
    | [] => simp [wickPartial]
    | [] :: nops =>
      simp only [wickPartial, List.map_map, Function.comp_def]
      exact ih nops (by simpa using hnd)
    | (o :: rest) :: others =>
      have hnd' := hnd
      simp only [List.flatten_cons, List.cons_append, List.nodup_cons, List.mem_append, not_or] at hnd'
      have hsub : ∀ p ∈ picks others, (rest :: p.2.2).flatten.Nodup := fun p hp => by
        have hf := picks_filter others (List.nodup_append.mp hnd'.2).2.1 p hp
        have hs : (rest :: p.2.2).flatten.Sublist (rest ++ others.flatten) := by
          rw [List.flatten_cons, hf, flatten_map_filter]
          exact List.Sublist.append (List.Sublist.refl _) List.filter_sublist
        exact hnd'.2.sublist hs
      simp only [wickPartial, List.map_append, List.map_map, Function.comp_def, List.map_flatMap]
      rw [List.nodup_append]
      refine ⟨?_, ih (rest :: others) (by simpa using hnd'.2), ?_⟩
      · rw [List.nodup_flatMap]
        constructor
        · intro p hp
          split
          · simp only [List.map_cons]
            split
            · simp
            · simp only [List.map_map, Function.comp_def, List.nodup_cons]
              constructor
              · intro hx
                obtain ⟨t, ht, heq⟩ := List.mem_map.mp hx
                exact (wickPartial_good cc fuel _ (hsub p hp) t ht).nonempty (by simpa using heq)
              · have := (ih (rest :: p.2.2) (hsub p hp)).map (f := fun l => (o, p.2.1) :: l)
                  (fun a b h => by simpa using h)
                simpa [List.map_map, Function.comp_def] using this
          · simp
        · have hfst : ∀ (p : Nat × Op × List (List Op)) (x : List (Op × Op)),
              x ∈ List.map (fun t : PartialTerm Op => t.2.1)
                (if cc o p.2.1 = true then (phase S (rest.length + p.1), [(o, p.2.1)], rest :: p.2.2) ::
                (if opsize (rest :: p.2.2) = 0 then []
                 else (wickPartial S cc fuel (rest :: p.2.2)).map fun t =>
                  (phase S (rest.length + p.1) * t.1, (o, p.2.1) :: t.2.1, t.2.2)) else []) →
              x.head? = some (o, p.2.1) := by
            intro p x hx
            split at hx
            · simp only [List.map_cons, List.mem_cons] at hx
              rcases hx with rfl | hx
              · rfl
              · split at hx
                · simp at hx
                · simp only [List.map_map, List.mem_map, Function.comp_def] at hx
                  obtain ⟨t, _, rfl⟩ := hx
                  rfl
            · simp at hx
          have hpn : (picks others).Pairwise (fun p q => p.2.1 ≠ q.2.1) := by
            have := (List.nodup_append.mp hnd'.2).2.1
            rw [← picks_ops others] at this
            exact List.pairwise_map.mp this
          refine hpn.imp ?_
          intro p q hpq x hx hx'
          have h1 := hfst p x hx
          have h2 := hfst q x hx'
          rw [h1] at h2
          simp at h2
          exact hpq h2
      · intro x hx y hy hxy
        subst hxy
        obtain ⟨p, hp, hx⟩ := List.mem_flatMap.mp hx
        have hh : x.head? = some (o, p.2.1) := by
          split at hx
          · simp only [List.map_cons, List.mem_cons] at hx
            rcases hx with rfl | hx
            · rfl
            · split at hx
              · simp at hx
              · simp only [List.map_map, List.mem_map, Function.comp_def] at hx
                obtain ⟨t, _, rfl⟩ := hx
                rfl
          · simp at hx
        obtain ⟨t, ht, rfl⟩ := List.mem_map.mp hy
        have g := wickPartial_good cc fuel _ (by simpa using hnd'.2) t ht
        have : o ∈ pairOps t.2.1 :=
          mem_pairOps.mpr ⟨(o, p.2.1), List.mem_of_mem_head? (by rw [hh]; rfl), Or.inl rfl⟩
        have := isContractionSet_mem g.admissible this
        simp only [List.flatten_cons, List.mem_append] at this
        tauto

end SeQuant.Wick
