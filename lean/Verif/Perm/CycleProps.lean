import Verif.Perm.CycleLemmas
import Mathlib.Data.Fintype.EquivFin
import Mathlib.SetTheory.Cardinal.Finite

/-!
# C09: `count_cycles`

Specification: the slots `0 .. n0 + n1 - 1` carry the values `v0 ++ v1`; two slots are joined if they are the two rows
of one column or if they carry the same value.  The components are the classes of `Quot (Edge v0 v1)`.
-/

namespace SeQuant.Perm

variable {α : Type}

/-- Two slots that must carry the same spin. -/
def Edge (v0 v1 : List α) (s t : Fin (v0 ++ v1).length) : Prop :=
  (s.val < v0.length ∧ t.val = v0.length + s.val) ∨ (t.val < v0.length ∧ s.val = v0.length + t.val) ∨
    (v0 ++ v1).get s = (v0 ++ v1).get t

theorem count_filter_fin (n : Nat) (p : Nat → Prop) [DecidablePred p] :
    (List.range n).countP (fun i => decide (p i)) = Nat.card {i : Fin n // p i} := by
  rw [Nat.card_eq_fintype_card, Fintype.card_subtype]
  have e : (Finset.univ.filter fun i : Fin n => p i) =
      ((List.finRange n).filter fun i : Fin n => decide (p i)).toFinset := by
    ext i; simp
  rw [e, List.toFinset_card_of_nodup ((List.nodup_finRange n).filter _),
    ← List.countP_eq_length_filter, ← List.map_coe_finRange_eq_range, List.countP_map]
  rfl

/-- For all ranges (also of different length, with arbitrary repetitions), `count_cycles` terminates and returns the number of
connected components of the graph of column and contraction edges. -/
theorem countCycles_components [DecidableEq α] (v0 v1 : List α) :
    ∃ N, ∀ fuel, N ≤ fuel → countCycles fuel v0 v1 = some (Nat.card (Quot (Edge v0 v1))) := by
  let n := (v0 ++ v1).length
  let cols := (List.range (min v0.length v1.length)).map fun i => (i, v0.length + i)
  let es := cols ++ contractionEdges [] 0 (v0 ++ v1)
  obtain ⟨D, rep, depth, hb, hrun, hrel⟩ := uniteAll_spec es id (fun _ => 0) 0 (by simp) (by simp)
  obtain ⟨c1, _, c3⟩ := contractionEdges_rel (v0 ++ v1) [] 0
  have hF0 : Forest id id (fun _ => 0) := ⟨by simp, by simp, by simp⟩
  -- relation on numbers versus relation on slots
  have hto : ∀ x y, Relation.EqvGen (fun a b => id a = id b ∨ (a, b) ∈ es) x y →
      x = y ∨ ∃ (hx : x < n) (hy : y < n), Relation.EqvGen (Edge v0 v1) ⟨x, hx⟩ ⟨y, hy⟩ := by
    intro x y h
    induction h with
    | rel a b h =>
      rcases h with h | h
      · exact Or.inl h
      · right
        rcases List.mem_append.mp h with h | h
        · simp only [cols, List.mem_map, List.mem_range, Prod.mk.injEq] at h
          obtain ⟨i, hi, rfl, rfl⟩ := h
          refine ⟨by simp [n]; omega, by simp [n]; omega, Relation.EqvGen.rel _ _ (Or.inl ⟨?_, rfl⟩)⟩
          simp; omega
        · obtain ⟨j, hj, rfl, hc⟩ := c1 a b h
          rcases hc with hc | ⟨i, hi, rfl, hv⟩
          · simp at hc
          · refine ⟨by simp only [n]; omega, by simp only [n]; omega,
              Relation.EqvGen.rel _ _ (Or.inr (Or.inr ?_))⟩
            simpa using hv
    | refl => exact Or.inl rfl
    | symm _ _ _ ih =>
      rcases ih with rfl | ⟨hx, hy, h⟩
      · exact Or.inl rfl
      · exact Or.inr ⟨hy, hx, Relation.EqvGen.symm _ _ h⟩
    | trans _ _ _ _ _ ih1 ih2 =>
      rcases ih1 with rfl | ⟨hx, hy, h⟩
      · exact ih2
      · rcases ih2 with rfl | ⟨hx', hy', h'⟩
        · exact Or.inr ⟨hx, hy, h⟩
        · exact Or.inr ⟨hx, hy', Relation.EqvGen.trans _ _ _ h h'⟩
  have hfrom : ∀ s t : Fin n, Edge v0 v1 s t → rep s.val = rep t.val := by
    have hcol : ∀ s t : Fin n, s.val < v0.length → t.val = v0.length + s.val → rep s.val = rep t.val := by
      intro s t h1 h2
      rw [hrel]
      refine Relation.EqvGen.rel _ _ (Or.inr (List.mem_append_left _ ?_))
      simp only [cols, List.mem_map, List.mem_range, Prod.mk.injEq]
      refine ⟨s.val, ?_, rfl, h2.symm⟩
      have := t.isLt
      simp only [n, List.length_append] at this
      omega
    have hval : ∀ s t : Fin n, s.val < t.val → (v0 ++ v1).get s = (v0 ++ v1).get t →
        rep s.val = rep t.val := by
      intro s t h1 h2
      rw [hrel]
      have := c3 s.val t.val h1 t.isLt (by simpa using h2)
      simp only [Nat.zero_add] at this
      exact Relation.EqvGen.mono (fun _ _ h => Or.inr (List.mem_append_right _ h)) _ _ this
    rintro s t (⟨h1, h2⟩ | ⟨h1, h2⟩ | h)
    · exact hcol s t h1 h2
    · exact (hcol t s h1 h2).symm
    · rcases Nat.lt_trichotomy s.val t.val with hlt | heq | hgt
      · exact hval s t hlt h
      · rw [heq]
      · exact (hval t s hgt h.symm).symm
  refine ⟨D + 1, fun fuel hf => ?_⟩
  obtain ⟨parent, e, hF⟩ := hrun id hF0 fuel (by omega)
  have hidem : ∀ x, rep (rep x) = rep x := fun x => hF.root _ (hF.root_rep x)
  have hlt : ∀ x, x < n → rep x < n := by
    intro x hx
    rcases hto _ _ ((hrel (rep x) x).mp (hidem x)) with h | ⟨h, _, _⟩
    · rw [h]; exact hx
    · exact h
  have hcard : Nat.card (Quot (Edge v0 v1)) = Nat.card {i : Fin n // rep i = i} := by
    apply Nat.card_congr
    refine
      { toFun := Quot.lift (fun s => (⟨⟨rep s.val, hlt _ s.isLt⟩, hidem _⟩ : {i : Fin n // rep i = i})) ?_
        invFun := fun i => Quot.mk _ i.val
        left_inv := ?_
        right_inv := ?_ }
    · intro s t h
      have := hfrom s t h
      simp [this]
    · intro q
      induction q using Quot.ind with
      | _ s =>
        rcases hto _ _ ((hrel (rep s.val) s.val).mp (hidem s.val)) with h | ⟨_, _, h⟩
        · simp [h]
        · exact Quot.eqvGen_sound h
    · rintro ⟨i, hi⟩
      apply Subtype.ext
      apply Fin.ext
      exact hi
  rw [countCycles]
  have e' : uniteAll fuel id
      ((List.range (min v0.length v1.length)).map (fun i => (i, v0.length + i)) ++
        contractionEdges [] 0 (v0 ++ v1)) = some parent := e
  simp only [e']
  rw [countRoots_spec fuel _ parent rep depth hF (fun x => by have := hb x; omega), hcard,
    ← count_filter_fin n (fun i => rep i = i)]
  simp [n]

/-- The prefactor of a closed-shell trace: `2 ^ count_cycles` is the number of ways to assign one of two spins to every slot such
that column partners and occurrences of the same index agree. -/
theorem countCycles_spin [DecidableEq α] (v0 v1 : List α) :
    ∃ N, ∀ fuel, N ≤ fuel → ∃ c, countCycles fuel v0 v1 = some c ∧
      2 ^ c = Nat.card {g : Fin (v0 ++ v1).length → Bool // ∀ s t, Edge v0 v1 s t → g s = g t} := by
  obtain ⟨N, hN⟩ := countCycles_components v0 v1
  refine ⟨N, fun fuel hf => ⟨_, hN fuel hf, ?_⟩⟩
  have e : {g : Fin (v0 ++ v1).length → Bool // ∀ s t, Edge v0 v1 s t → g s = g t} ≃
      (Quot (Edge v0 v1) → Bool) :=
    { toFun := fun g => Quot.lift g.1 g.2
      invFun := fun g => ⟨fun s => g (Quot.mk _ s), fun s t h => congrArg g (Quot.sound h)⟩
      left_inv := fun g => rfl
      right_inv := fun g => by
        funext q
        induction q using Quot.ind with
        | _ s => rfl }
  rw [Nat.card_congr e, Nat.card_fun]
  simp

/-- For a permutation: with pairwise different values `f 0, f 1, ...` in the first row and `f (π 0), f (π 1), ...` in the second
row, the result is the number of cycles of `π` (fixed points included). -/
theorem countCycles_permutation [DecidableEq α] (n : Nat) (f : Fin n → α) (hf : Function.Injective f)
    (π : Equiv.Perm (Fin n)) :
    ∃ N, ∀ fuel, N ≤ fuel → countCycles fuel (List.ofFn f) (List.ofFn (f ∘ π)) =
      some (Nat.card (Quotient (Equiv.Perm.SameCycle.setoid π))) := by
  obtain ⟨N, hN⟩ := countCycles_components (List.ofFn f) (List.ofFn (f ∘ π))
  refine ⟨N, fun fuel hfuel => ?_⟩
  rw [hN fuel hfuel, Option.some.injEq]
  have hlen : (List.ofFn f ++ List.ofFn (f ∘ π)).length = n + n := by simp
  have hlo : ∀ (i : Nat) (hi : i < n) (h : i < (List.ofFn f ++ List.ofFn (f ∘ π)).length),
      (List.ofFn f ++ List.ofFn (f ∘ π)).get ⟨i, h⟩ = f ⟨i, hi⟩ := by
    intro i hi h
    simp [List.getElem_append_left, hi]
  have hhi : ∀ (i : Nat) (hi : i < n) (h : n + i < (List.ofFn f ++ List.ofFn (f ∘ π)).length),
      (List.ofFn f ++ List.ofFn (f ∘ π)).get ⟨n + i, h⟩ = f (π ⟨i, hi⟩) := by
    intro i hi h
    simp [List.getElem_append_right]
  let col : Fin (List.ofFn f ++ List.ofFn (f ∘ π)).length → Fin n := fun s =>
    if h : s.val < n then ⟨s.val, h⟩ else ⟨s.val - n, by have := s.isLt; omega⟩
  have hget : ∀ s, ∃ k : Fin n, (List.ofFn f ++ List.ofFn (f ∘ π)).get s = f k ∧
      (k = col s ∨ k = π (col s)) := by
    intro s
    by_cases h : s.val < n
    · exact ⟨⟨s.val, h⟩, hlo s.val h s.isLt, Or.inl (by simp [col, h])⟩
    · have h2 : s.val - n < n := by have := s.isLt; omega
      obtain ⟨sv, hs⟩ := s
      obtain ⟨j, rfl⟩ : ∃ j, sv = n + j := ⟨sv - n, by simp at h; omega⟩
      have hj : j < n := by simpa using h2
      refine ⟨π ⟨j, hj⟩, hhi j hj hs, Or.inr ?_⟩
      simp [col]
  apply Nat.card_congr
  refine
    { toFun := Quot.lift (fun s => Quotient.mk (Equiv.Perm.SameCycle.setoid π) (col s)) ?_
      invFun := Quotient.lift (fun i => Quot.mk _ (⟨i.val, by omega⟩ : Fin _)) ?_
      left_inv := ?_
      right_inv := ?_ }
  · rintro s t (⟨h1, h2⟩ | ⟨h1, h2⟩ | h)
    · have : col s = col t := by simp only [List.length_ofFn] at h1 h2; simp [col, h1, h2]
      rw [this]
    · have : col s = col t := by simp only [List.length_ofFn] at h1 h2; simp [col, h1, h2]
      rw [this]
    · obtain ⟨k, hk, hk'⟩ := hget s
      obtain ⟨m, hm, hm'⟩ := hget t
      have : k = m := hf (by rw [← hk, ← hm, h])
      subst this
      apply Quotient.sound
      have a1 : Equiv.Perm.SameCycle π (col s) k := by
        rcases hk' with h | h
        · rw [h]
        · rw [h]; simp [Equiv.Perm.sameCycle_apply_right, Equiv.Perm.SameCycle.refl]
      have a2 : Equiv.Perm.SameCycle π (col t) k := by
        rcases hm' with h | h
        · rw [h]
        · rw [h]; simp [Equiv.Perm.sameCycle_apply_right, Equiv.Perm.SameCycle.refl]
      exact a1.trans a2.symm
  · -- slots i and π i are connected
    have hstep : ∀ i : Fin n, Quot.mk (Edge (List.ofFn f) (List.ofFn (f ∘ π))) ⟨i.val, by omega⟩ =
        Quot.mk _ ⟨(π i).val, by omega⟩ := by
      intro i
      have q1 : Quot.mk (Edge (List.ofFn f) (List.ofFn (f ∘ π))) ⟨i.val, by omega⟩ =
          Quot.mk _ ⟨n + i.val, by omega⟩ := Quot.sound (Or.inl (by simp))
      rw [q1]
      apply Quot.sound
      right; right
      rw [hhi i.val i.isLt, hlo (π i).val (π i).isLt]
    have hpow : ∀ (k : Nat) (i : Fin n), Quot.mk (Edge (List.ofFn f) (List.ofFn (f ∘ π))) ⟨i.val, by omega⟩ =
        Quot.mk _ ⟨((π ^ k) i).val, by omega⟩ := by
      intro k
      induction k with
      | zero => intro i; rfl
      | succ k ih =>
        intro i
        rw [hstep i, ih (π i)]
        congr 2
    intro i j h
    have h' : Equiv.Perm.SameCycle π i j := h
    obtain ⟨k, hk⟩ := h'.exists_nat_pow_eq
    subst hk
    exact hpow k i
  · intro q
    induction q using Quot.ind with
    | _ s =>
      simp only [Quotient.lift_mk]
      by_cases h : s.val < n
      · simp [col, h]
      · apply Quot.sound
        left
        have := s.isLt
        simp only [col, h, dif_neg, not_false_eq_true, List.length_ofFn]
        omega
  · intro q
    induction q using Quotient.ind with
    | _ i => simp [col]

/-- Exchanging the two rows of one column does not change the result. -/
theorem countCycles_flip [DecidableEq α] (p0 q0 p1 q1 : List α) (a b : α) (hp : p0.length = p1.length) :
    ∃ N, ∀ fuel, N ≤ fuel →
      countCycles fuel (p0 ++ a :: q0) (p1 ++ b :: q1) = countCycles fuel (p0 ++ b :: q0) (p1 ++ a :: q1) := by
  obtain ⟨N, hN⟩ := countCycles_components (p0 ++ a :: q0) (p1 ++ b :: q1)
  obtain ⟨M, hM⟩ := countCycles_components (p0 ++ b :: q0) (p1 ++ a :: q1)
  refine ⟨max N M, fun fuel hf => ?_⟩
  rw [hN fuel (le_trans (le_max_left _ _) hf), hM fuel (le_trans (le_max_right _ _) hf), Option.some.injEq]
  have hlen : ((p0 ++ a :: q0) ++ (p1 ++ b :: q1)).length = ((p0 ++ b :: q0) ++ (p1 ++ a :: q1)).length := by
    simp
  let k : Fin ((p0 ++ b :: q0) ++ (p1 ++ a :: q1)).length := ⟨p0.length, by simp⟩
  let k' : Fin ((p0 ++ b :: q0) ++ (p1 ++ a :: q1)).length :=
    ⟨(p0 ++ b :: q0).length + p1.length, by simp; omega⟩
  let e : Fin ((p0 ++ a :: q0) ++ (p1 ++ b :: q1)).length ≃ Fin ((p0 ++ b :: q0) ++ (p1 ++ a :: q1)).length :=
    (finCongr hlen).trans (Equiv.swap k k')
  have hval : ∀ s, ((p0 ++ a :: q0) ++ (p1 ++ b :: q1)).get s = ((p0 ++ b :: q0) ++ (p1 ++ a :: q1)).get (e s) := by
    intro s
    have hl : p0.length + q0.length + 1 = (p0 ++ a :: q0).length := by simp; omega
    by_cases h1 : s.val = p0.length
    · have : finCongr hlen s = k := Fin.ext h1
      simp only [e, Equiv.trans_apply, this, Equiv.swap_apply_left]
      obtain ⟨s, hs⟩ := s
      simp only at h1; subst h1
      simp only [k', List.get_eq_getElem]
      have g1 : ((p0 ++ b :: q0) ++ (p1 ++ a :: q1))[(p0 ++ b :: q0).length + p1.length]'(by simp; omega) = a := by
        rw [List.getElem_append_right (by omega)]
        simp
      rw [g1]
      simp
    · by_cases h2 : s.val = (p0 ++ a :: q0).length + p1.length
      · have : finCongr hlen s = k' := Fin.ext (by simp [k']; simp at h2; omega)
        simp only [e, Equiv.trans_apply, this, Equiv.swap_apply_right]
        obtain ⟨s, hs⟩ := s
        simp only at h2; subst h2
        simp only [k, List.get_eq_getElem]
        rw [List.getElem_append_right (by omega)]
        simp
      · have hne1 : finCongr hlen s ≠ k := fun h => h1 (by have := congrArg Fin.val h; simpa [k] using this)
        have hne2 : finCongr hlen s ≠ k' := fun h => h2 (by
          have := congrArg Fin.val h; simp [k'] at this; simp; omega)
        simp only [e, Equiv.trans_apply, Equiv.swap_apply_of_ne_of_ne hne1 hne2]
        obtain ⟨s, hs⟩ := s
        simp only [List.get_eq_getElem, finCongr_apply, Fin.val_cast] at *
        simp only [List.length_append, List.length_cons] at h2 hs
        grind
  apply Nat.card_congr
  refine Quot.congr e ?_
  intro s t
  have hev : ∀ s, (s.val = p0.length ∧ (e s).val = (p0 ++ a :: q0).length + p1.length) ∨
      (s.val = (p0 ++ a :: q0).length + p1.length ∧ (e s).val = p0.length) ∨
      (s.val ≠ p0.length ∧ s.val ≠ (p0 ++ a :: q0).length + p1.length ∧ (e s).val = s.val) := by
    intro s
    simp only [e, Equiv.trans_apply, Equiv.swap_apply_def]
    have q1 : (finCongr hlen s = k) ↔ s.val = p0.length := by
      rw [Fin.ext_iff]; simp [k]
    have q2 : (finCongr hlen s = k') ↔ s.val = (p0 ++ a :: q0).length + p1.length := by
      rw [Fin.ext_iff]; simp [k']
    by_cases h1 : finCongr hlen s = k
    · left
      rw [if_pos h1]
      exact ⟨q1.mp h1, by simp [k']⟩
    · rw [if_neg h1]
      by_cases h2 : finCongr hlen s = k'
      · right; left
        rw [if_pos h2]
        exact ⟨q2.mp h2, rfl⟩
      · right; right
        rw [if_neg h2]
        exact ⟨fun h => h1 (q1.mpr h), fun h => h2 (q2.mpr h), rfl⟩
  unfold Edge
  rw [hval s, hval t]
  have hs := hev s
  have ht := hev t
  simp only [List.length_append, List.length_cons] at hs ht ⊢
  generalize (e s).val = es at *
  generalize (e t).val = et at *
  constructor
  · rintro (h | h | h)
    · rcases hs with hs | hs | hs <;> rcases ht with ht | ht | ht <;>
        first | (left; omega) | (right; left; omega)
    · rcases hs with hs | hs | hs <;> rcases ht with ht | ht | ht <;>
        first | (left; omega) | (right; left; omega)
    · exact Or.inr (Or.inr h)
  · rintro (h | h | h)
    · rcases hs with hs | hs | hs <;> rcases ht with ht | ht | ht <;>
        first | (left; omega) | (right; left; omega)
    · rcases hs with hs | hs | hs <;> rcases ht with ht | ht | ht <;>
        first | (left; omega) | (right; left; omega)
    · exact Or.inr (Or.inr h)

example : countCycles 10 [1, 2, 3, 4] [2, 1, 3, 4] = some 3 := by decide
example : countCycles 10 [1, 2, 3] [2, 3, 1] = some 1 := by decide
/-- both occurrences of index 1 in the first row -/
example : countCycles 10 [1, 1] [2, 2] = some 1 := by decide
example : Function.Injective (fun i : Fin 3 => i.val) := Fin.val_injective

end SeQuant.Perm
