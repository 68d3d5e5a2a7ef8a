import Verif.Spin.ClosedProps
import Batteries.Data.Nat.Lemmas

/-!
# The spin cases of `spintrace` are the spin assignments
-/

namespace SeQuant.Spins

open SeQuant.Expression SeQuant.Perm SeQuant.Sort
open SeQuant.Tensors (Sym)

section
variable {ι : Type} [SpinIx ι]

theorem lookup_mem_iff (m : List (ι × ι)) (hn : (m.map (·.1)).Nodup) (i v : ι) : m.lookup i = some v ↔ (i, v) ∈ m := by
  induction m with
  | nil => simp
  | cons q m ih =>
    simp only [List.map_cons, List.nodup_cons] at hn
    rw [List.lookup_cons]
    by_cases e : i = q.1
    · subst e
      simp only [beq_self_eq_true, Option.some.injEq, List.mem_cons]
      constructor
      · intro e; left; rw [← e]
      · rintro (e | e)
        · rw [← e]
        · exact absurd (List.mem_map_of_mem (f := (·.1)) e) hn.1
    · have hb : (i == q.1) = false := by simpa using e
      rw [hb]
      simp only [List.mem_cons]
      rw [ih hn.2]
      constructor
      · exact Or.inr
      · rintro (e' | e')
        · exact absurd (by rw [← e']) e
        · exact e'

theorem lookup_none (m : List (ι × ι)) (i : ι) (h : i ∉ m.map (·.1)) : m.lookup i = none := by
  induction m with
  | nil => rfl
  | cons q m ih =>
    simp only [List.map_cons, List.mem_cons, not_or] at h
    have hb : (i == q.1) = false := by simpa using h.1
    rw [List.lookup_cons, hb]
    exact ih h.2

omit [SpinIx ι] in
theorem zipIdx_fst (f : ι → Nat → ι) (gs : List (List ι)) (n : Nat) :
    ((gs.zipIdx n).flatMap fun p => p.1.map fun i => (i, f i p.2)).map (·.1) = gs.flatten := by
  induction gs generalizing n with
  | nil => rfl
  | cons g gs ih =>
    simp only [List.zipIdx_cons, List.flatMap_cons, List.map_append, List.map_map, List.flatten_cons, ih]
    congr 1
    exact List.map_id g

/-- The spin of the bits. -/
def bitSpin (b : Bool) : Spin := if b then .beta else .alpha

/-- The replacements of one case: each index gets the spin of its group. -/
theorem get_replacements (gs : List (List ι)) (hn : gs.flatten.Nodup) (k : Nat) :
    (∀ j (hj : j < gs.length), ∀ i ∈ gs[j], get (replacements gs k) i = SpinIx.setSpin i (bitSpin (k.testBit j))) ∧
    (∀ i, i ∉ gs.flatten → get (replacements gs k) i = i) := by
  set ps := gs.zipIdx.flatMap fun p => p.1.map fun i => (i, SpinIx.setSpin i (if k.testBit p.2 then .beta else .alpha)) with hps
  have hk : ps.map (·.1) = gs.flatten :=
    zipIdx_fst (fun i j => SpinIx.setSpin i (if k.testBit j then .beta else .alpha)) gs 0
  have hg : ∀ i, get (replacements gs k) i = (ps.lookup i).getD i := by
    intro i
    simp only [get, replacements, ← hps, (build_spec ps).2.1 i]
  constructor
  · intro j hj i hi
    have hm : (i, SpinIx.setSpin i (bitSpin (k.testBit j))) ∈ ps := by
      rw [hps, List.mem_flatMap]
      exact ⟨(gs[j], j), List.mem_zipIdx_iff_getElem?.mpr (by simp [hj]), List.mem_map.mpr ⟨i, hi, rfl⟩⟩
    rw [hg, (lookup_mem_iff ps (by rw [hk]; exact hn) i _).mpr hm]
    rfl
  · intro i hi
    rw [hg, lookup_none ps i (by rw [hk]; exact hi)]
    rfl

/-- The group of an index. -/
def groupOf (gs : List (List ι)) (i : ι) : Nat := gs.findIdx fun g => decide (i ∈ g)

theorem groupOf_spec (gs : List (List ι)) (i : ι) (h : i ∈ gs.flatten) :
    ∃ hj : groupOf gs i < gs.length, i ∈ gs[groupOf gs i] := by
  obtain ⟨g, hg, hi⟩ := List.mem_flatten.mp h
  have hj : groupOf gs i < gs.length := List.findIdx_lt_length.mpr ⟨g, hg, by simpa using hi⟩
  refine ⟨hj, ?_⟩
  have := List.findIdx_getElem (w := hj)
  simp only [decide_eq_true_eq] at this
  exact this

omit [SpinIx ι] in
theorem group_unique (gs : List (List ι)) (hn : gs.flatten.Nodup) (i : ι) (j j' : Nat) (hj : j < gs.length) (hj' : j' < gs.length)
    (h : i ∈ gs[j]) (h' : i ∈ gs[j']) : j = j' := by
  have hd := (List.nodup_flatten.mp hn).2
  rw [List.pairwise_iff_getElem] at hd
  by_contra hne
  rcases lt_or_gt_of_ne hne with hlt | hlt
  · exact hd j j' hj hj' hlt h h'
  · exact hd j' j hj' hj hlt h' h

/-- The assignment of a case. -/
def caseAssign (gs : List (List ι)) (hn : gs.flatten.Nodup) (k : Nat) : Assign gs.flatten.toFinset gs :=
  ⟨fun i => k.testBit (groupOf gs i.1), by
    intro g hg x hx y hy hxU hyU
    obtain ⟨j, hj, rfl⟩ := List.getElem_of_mem hg
    obtain ⟨h1, h2⟩ := groupOf_spec gs x (List.mem_toFinset.mp hxU)
    obtain ⟨h3, h4⟩ := groupOf_spec gs y (List.mem_toFinset.mp hyU)
    have e1 := group_unique gs hn x _ _ h1 hj h2 hx
    have e2 := group_unique gs hn y _ _ h3 hj h4 hy
    show k.testBit (groupOf gs x) = k.testBit (groupOf gs y)
    rw [e1, e2]⟩

theorem caseAssign_label (gs : List (List ι)) (hn : gs.flatten.Nodup) (k : Nat) :
    (caseAssign gs hn k).label = get (replacements gs k) := by
  obtain ⟨h1, h2⟩ := get_replacements gs hn k
  funext i
  by_cases h : i ∈ gs.flatten.toFinset
  · obtain ⟨h3, h4⟩ := groupOf_spec gs i (List.mem_toFinset.mp h)
    rw [h1 _ h3 i h4]
    simp only [Assign.label, h, dite_true, caseAssign, bitSpin]
    rfl
  · rw [h2 i (fun h' => h (List.mem_toFinset.mpr h'))]
    simp only [Assign.label, h, dite_false]

/-- The cases are the assignments. -/
theorem caseAssign_bij (gs : List (List ι)) (hn : gs.flatten.Nodup) (hne : ∀ g ∈ gs, g ≠ []) :
    Function.Bijective fun k : Fin (2 ^ gs.length) => caseAssign gs hn k.1 := by
  have pick : ∀ j (hj : j < gs.length), ∃ x, x ∈ gs[j] := fun j hj => List.exists_mem_of_ne_nil _ (hne _ (List.getElem_mem hj))
  have hfl : ∀ j (hj : j < gs.length) x, x ∈ gs[j] → x ∈ gs.flatten := fun j hj x hx => List.mem_flatten.mpr ⟨_, List.getElem_mem hj, hx⟩
  have hgo : ∀ j (hj : j < gs.length) x, x ∈ gs[j] → groupOf gs x = j := by
    intro j hj x hx
    obtain ⟨h1, h2⟩ := groupOf_spec gs x (hfl j hj x hx)
    exact group_unique gs hn x _ _ h1 hj h2 hx
  constructor
  · intro k k' h
    apply Fin.ext
    apply Nat.eq_of_testBit_eq
    intro j
    by_cases hj : j < gs.length
    · obtain ⟨x, hx⟩ := pick j hj
      have := congrFun (congrArg Subtype.val h) ⟨x, List.mem_toFinset.mpr (hfl j hj x hx)⟩
      simp only [caseAssign, hgo j hj x hx] at this
      exact this
    · have hp : ∀ m : Fin (2 ^ gs.length), m.1.testBit j = false := fun m =>
        Nat.testBit_lt_two_pow (lt_of_lt_of_le m.2 (Nat.pow_le_pow_right (by norm_num) (by omega)))
      rw [hp, hp]
  · intro s
    have hch : ∀ j : Fin gs.length, ∃ b, ∀ x (hx : x ∈ gs[j.1]), s.1 ⟨x, List.mem_toFinset.mpr (hfl j.1 j.2 x hx)⟩ = b := by
      intro j
      obtain ⟨x, hx⟩ := pick j.1 j.2
      refine ⟨s.1 ⟨x, List.mem_toFinset.mpr (hfl j.1 j.2 x hx)⟩, fun y hy => ?_⟩
      exact s.2 _ (List.getElem_mem j.2) y hy x hx _ _
    choose f hf using hch
    refine ⟨⟨Nat.ofBits f, Nat.ofBits_lt_two_pow f⟩, ?_⟩
    apply Subtype.ext
    funext i
    obtain ⟨h1, h2⟩ := groupOf_spec gs i.1 (List.mem_toFinset.mp i.2)
    simp only [caseAssign]
    rw [Nat.testBit_ofBits_lt f _ h1]
    exact (hf ⟨_, h1⟩ i.1 h2).symm

/-- A sum over the cases is a sum over the assignments. -/
theorem sum_cases {R : Type} [AddCommMonoid R] (gs : List (List ι)) (hn : gs.flatten.Nodup) (hne : ∀ g ∈ gs, g ≠ []) (F : (ι → ι) → R) :
    ((List.range (2 ^ gs.length)).map fun k => F (get (replacements gs k))).sum = ∑ s : Assign gs.flatten.toFinset gs, F s.label := by
  have h1 := Fintype.sum_bijective _ (caseAssign_bij gs hn hne) (fun k => F (get (replacements gs k.1))) (fun s => F s.label)
    (fun k => by rw [← caseAssign_label gs hn k.1])
  have h2 : ∀ (n : Nat) (f : Nat → R), ((List.range n).map f).sum = ∑ k : Fin n, f k := by
    intro n f
    rw [← Finset.sum_range]
    rfl
  rw [← h1, h2]

end

section
variable {K ι : Type} [SpinIx ι]

/-- The groups of external indices of a product: nonempty, disjoint, of indices that occur. -/
structure ExtOk (ext : List (List ι)) (l : List (Expr K (Atm ι))) : Prop where
  nonempty : ∀ g ∈ ext, g ≠ []
  nodup : ext.flatten.Nodup
  used : ∀ x ∈ ext.flatten, x ∈ usedL l

theorem mem_setOf (l : List ι) (i : ι) : i ∈ setOf l ↔ i ∈ l := by
  have := (build_spec (l.map fun i => (i, i))).2.2.1 i
  rw [List.map_map] at this
  have e : l.map ((fun x : ι × ι => x.1) ∘ fun i => (i, i)) = l := List.map_id l
  rw [e] at this
  exact this

theorem spinGroups_spec (ext : List (List ι)) (l : List (Expr K (Atm ι))) (he : ExtOk ext l) :
    (spinGroups ext l).flatten.Nodup ∧ (∀ g ∈ spinGroups ext l, g ≠ []) ∧ (spinGroups ext l).flatten.toFinset = (usedL l).toFinset ∧
    (∀ g, g ∈ spinGroups ext l ↔ g ∈ ext ∨ ∃ i ∈ usedL l, i ∉ ext.flatten ∧ g = [i]) := by
  have hfl : ∀ m : List ι, (m.map fun i => [i]).flatten = m := by
    intro m; induction m with
    | nil => rfl
    | cons a m ih => simp [ih]
  have hsn : (setOf (usedL l)).Nodup := (setOf_spec (usedL l)).1.imp ne_of_lt
  refine ⟨?_, ?_, ?_, ?_⟩
  · simp only [spinGroups, List.flatten_append, hfl]
    rw [List.nodup_append]
    refine ⟨hsn.filter _, he.nodup, ?_⟩
    rintro a ha b hb rfl
    simp only [List.mem_filter, decide_eq_true_eq] at ha
    exact ha.2 hb
  · intro g hg
    simp only [spinGroups, List.mem_append, List.mem_map] at hg
    rcases hg with ⟨i, -, rfl⟩ | hg
    · simp
    · exact he.nonempty g hg
  · ext i
    simp only [spinGroups, List.flatten_append, hfl, List.toFinset_append, Finset.mem_union, List.mem_toFinset, List.mem_filter,
      decide_eq_true_eq, mem_setOf]
    constructor
    · rintro (h | h)
      · exact h.1
      · exact he.used i h
    · intro h
      by_cases h' : i ∈ ext.flatten
      · exact Or.inr h'
      · exact Or.inl ⟨h, h'⟩
  · intro g
    simp only [spinGroups, List.mem_append, List.mem_map, List.mem_filter, decide_eq_true_eq, mem_setOf]
    constructor
    · rintro (⟨i, ⟨h1, h2⟩, rfl⟩ | h)
      · exact Or.inr ⟨i, h1, h2, rfl⟩
      · exact Or.inl h
    · rintro (h | ⟨i, h1, h2, rfl⟩)
      · exact Or.inr h
      · exact Or.inl ⟨i, ⟨h1, h2⟩, rfl⟩

/-- Groups of one index are no restriction. -/
def assignEquiv (ext : List (List ι)) (l : List (Expr K (Atm ι))) (he : ExtOk ext l) :
    Assign (spinGroups ext l).flatten.toFinset (spinGroups ext l) ≃ Assign (usedL l).toFinset ext where
  toFun s := ⟨fun i => s.1 ⟨i.1, by rw [(spinGroups_spec ext l he).2.2.1]; exact i.2⟩, fun g hg x hx y hy _ _ =>
    s.2 g (((spinGroups_spec ext l he).2.2.2 g).mpr (Or.inl hg)) x hx y hy _ _⟩
  invFun s := ⟨fun i => s.1 ⟨i.1, by rw [← (spinGroups_spec ext l he).2.2.1]; exact i.2⟩, by
    intro g hg x hx y hy hxU hyU
    rcases ((spinGroups_spec ext l he).2.2.2 g).mp hg with hg | ⟨i, -, -, rfl⟩
    · exact s.2 g hg x hx y hy _ _
    · simp only [List.mem_singleton] at hx hy
      subst hx; subst hy; rfl⟩
  left_inv s := rfl
  right_inv s := rfl

theorem assignEquiv_label (ext : List (List ι)) (l : List (Expr K (Atm ι))) (he : ExtOk ext l)
    (s : Assign (spinGroups ext l).flatten.toFinset (spinGroups ext l)) : (assignEquiv ext l he s).label = s.label := by
  funext i
  have hU := (spinGroups_spec ext l he).2.2.1
  by_cases h : i ∈ (usedL l).toFinset
  · have h' : i ∈ (spinGroups ext l).flatten.toFinset := by rw [hU]; exact h
    simp only [Assign.label, h, h', dite_true]
    rfl
  · have h' : i ∉ (spinGroups ext l).flatten.toFinset := by rw [hU]; exact h
    simp only [Assign.label, h, h', dite_false]

/-- **C55**: the cases of `spintrace` are the assignments of spin to the indices. -/
theorem sum_spinGroups {R : Type} [AddCommMonoid R] (ext : List (List ι)) (l : List (Expr K (Atm ι))) (he : ExtOk ext l) (F : (ι → ι) → R) :
    ((List.range (2 ^ (spinGroups ext l).length)).map fun k => F (get (replacements (spinGroups ext l) k))).sum =
      ∑ s : Assign (usedL l).toFinset ext, F s.label := by
  obtain ⟨h1, h2, -, -⟩ := spinGroups_spec ext l he
  rw [sum_cases _ h1 h2]
  exact Fintype.sum_equiv (assignEquiv ext l he) _ _ (fun s => by rw [assignEquiv_label])

end

end SeQuant.Spins
