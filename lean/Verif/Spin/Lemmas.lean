import Verif.Spin.Model
import Verif.Sort.Props
import Verif.Perm.NextProps
import Verif.Expression.Lemmas
import Mathlib.Data.Fintype.Perm
import Mathlib.Data.Fintype.BigOperators
import Mathlib.Algebra.BigOperators.Group.Finset.Basic
import Mathlib.Tactic.Ring
import Mathlib.Tactic.LinearCombination

/-!
# Auxiliary facts for spin tracing: phases, arrangements, maps
-/

namespace SeQuant.Spins

open SeQuant.Expression SeQuant.Perm SeQuant.Sort

section perm
variable {α : Type}

theorem swaps_adj {comp : α → α → Bool} {n : Nat} {a b : List α} (h : Swaps comp n a b) : Adj n a b := by
  induction h with
  | refl => exact Swaps.refl _
  | step p q x y _ _ ih => exact Swaps.step p q x y ih rfl

theorem perm_adj {a b : List α} (h : a.Perm b) : ∃ n, Adj n a b := by
  induction h with
  | nil => exact ⟨0, Swaps.refl _⟩
  | cons x _ ih => obtain ⟨n, hn⟩ := ih; exact ⟨n, hn.cons x⟩
  | swap x y l => exact ⟨_, Swaps.step [] l y x (Swaps.refl _) rfl⟩
  | trans _ _ ih1 ih2 =>
    obtain ⟨n, hn⟩ := ih1
    obtain ⟨m, hm⟩ := ih2
    exact ⟨_, hn.trans hm⟩

/-- The list rearranged by `σ`. -/
def rearr (l : List α) (σ : Equiv.Perm (Fin l.length)) : List α := List.ofFn fun i => l.get (σ i)

theorem rearr_injective {l : List α} (h : l.Nodup) : Function.Injective (rearr l) := by
  intro σ τ e
  have := List.ofFn_injective e
  ext i
  exact congrArg Fin.val (List.nodup_iff_injective_get.mp h (congrFun this i))

theorem adj_rearr {n : Nat} {l l' : List α} (h : Adj n l l') :
    ∃ σ : Equiv.Perm (Fin l.length), l' = rearr l σ ∧ Equiv.Perm.sign σ = (-1) ^ n := Swaps.sign h

theorem adj_parity {n m : Nat} {l l' : List α} (hl : l.Nodup) (h : Adj n l l') (h' : Adj m l l') :
    ((-1) ^ n : ℤˣ) = (-1) ^ m := by
  obtain ⟨σ, e, hs⟩ := adj_rearr h
  obtain ⟨τ, e', hs'⟩ := adj_rearr h'
  have : σ = τ := rearr_injective hl (e.symm.trans e')
  rw [← hs, ← hs', this]

theorem rearr_perm (l : List α) (σ : Equiv.Perm (Fin l.length)) : (rearr l σ).Perm l := by
  have h : (List.ofFn l.get) = l := List.ofFn_get l
  have := Equiv.Perm.ofFn_comp_perm σ l.get
  rw [h] at this
  exact this

theorem perm_rearr {l l' : List α} (h : l'.Perm l) : ∃ σ, l' = rearr l σ := by
  obtain ⟨n, hn⟩ := perm_adj h.symm
  obtain ⟨σ, e, _⟩ := adj_rearr hn
  exact ⟨σ, e⟩

theorem rearr_adj {l : List α} (hl : l.Nodup) (σ : Equiv.Perm (Fin l.length)) :
    ∃ n, Adj n l (rearr l σ) ∧ Equiv.Perm.sign σ = (-1) ^ n := by
  obtain ⟨n, hn⟩ := perm_adj (rearr_perm l σ).symm
  obtain ⟨τ, e, hs⟩ := adj_rearr hn
  have : σ = τ := rearr_injective hl e
  exact ⟨n, hn, this ▸ hs⟩

end perm

section order
variable {ι : Type} [LinearOrder ι]

theorem lt_asymm' (a b : ι) (h : lt a b = true) : lt b a = false := by
  simp only [lt, decide_eq_true_eq, decide_eq_false_iff_not] at *
  exact not_lt.mpr h.le

omit [LinearOrder ι] in
theorem inv_le (comp : ι → ι → Bool) (l : List ι) : inv comp l ≤ l.length * l.length := by
  induction l with
  | nil => simp [inv]
  | cons x l ih =>
    simp only [inv, List.length_cons]
    have := List.countP_le_length (p := fun y => comp y x) (l := l)
    nlinarith

/-- `bubble_sort` finishes within the rounds allowed by the model, sorts, and `swaps` is the number of exchanges. -/
theorem phase_spec (l : List ι) : ∃ l', bubbleSort lt (l.length * l.length + 1) l = some (l', swaps l) ∧
    Adj (swaps l) l l' ∧ l'.Pairwise (· ≤ ·) ∧ l'.Perm l := by
  obtain ⟨r, hr⟩ := bubbleSort_terminates_aux lt lt_asymm' (l.length * l.length + 1) l (by have := inv_le lt l; omega)
  have hs : swaps l = r.2 := by simp [swaps, hr]
  refine ⟨r.1, by rw [hr, hs], ?_, ?_, ?_⟩
  · rw [hs]; exact swaps_adj (bubbleSort_swaps lt _ l r.1 r.2 hr)
  · have := bubbleSort_sorted lt (fun a b c h1 h2 => by
      simp only [lt, decide_eq_false_iff_not, not_lt] at *; exact h1.trans h2) _ l r.1 r.2 hr
    exact this.imp fun h => by simpa [lt] using h
  · exact (bubbleSort_swaps lt _ l r.1 r.2 hr).perm

theorem sign_even (n : Nat) : (if counterIsEven n then 1 else -1 : Int) = (-1) ^ n := by
  induction n with
  | zero => rfl
  | succ n ih =>
    rw [pow_succ, ← ih]
    by_cases h : counterIsEven n = true <;> simp [counterIsEven, h]

theorem phase_eq (l : List ι) : phase l = (-1) ^ swaps l := sign_even _

theorem phase2_eq (b k : List ι) : phase2 b k = phase b * phase k := by
  rw [phase_eq, phase_eq, ← pow_add]; exact sign_even _

theorem pow_units {n m : Nat} (h : ((-1) ^ n : ℤˣ) = (-1) ^ m) : ((-1) ^ n : ℤ) = (-1) ^ m := by
  have := congrArg (Units.val) h
  simpa using this

/-- Exchanging neighbours changes the phase. -/
theorem phase_adj {n : Nat} {l l' : List ι} (hl : l.Nodup) (h : Adj n l l') : phase l' = (-1) ^ n * phase l := by
  obtain ⟨s, _, ha, hs, hp⟩ := phase_spec l
  obtain ⟨s', _, ha', hs', hp'⟩ := phase_spec l'
  have e : s' = s := by
    refine List.Perm.eq_of_pairwise (le := (· ≤ ·)) (fun a b _ _ h1 h2 => le_antisymm h1 h2) hs' hs ?_
    exact hp'.trans ((Swaps.perm h).trans hp.symm)
  subst e
  have := pow_units (adj_parity hl ha (h.trans ha'))
  rw [phase_eq, phase_eq, this, pow_add, ← mul_assoc, ← pow_add, ← two_mul, pow_mul]
  simp

theorem phase_sorted {l : List ι} (h : l.Pairwise (· < ·)) : phase l = 1 := by
  obtain ⟨s, _, ha, hs, hp⟩ := phase_spec l
  have e : s = l := List.Perm.eq_of_pairwise (le := (· ≤ ·)) (fun a b _ _ h1 h2 => le_antisymm h1 h2) hs (h.imp le_of_lt) hp
  subst e
  have hn : s.Nodup := h.imp ne_of_lt
  have := pow_units (adj_parity hn ha (Swaps.refl _))
  rw [phase_eq, this, pow_zero]

theorem phase_sq (l : List ι) : phase l * phase l = 1 := by
  rw [phase_eq, ← pow_add, ← two_mul, pow_mul]; simp

theorem phase_rearr {l : List ι} (hl : l.Nodup) (σ : Equiv.Perm (Fin l.length)) :
    phase (rearr l σ) = (Equiv.Perm.sign σ : Int) * phase l := by
  obtain ⟨n, hn, hs⟩ := rearr_adj hl σ
  rw [phase_adj hl hn, hs]; simp

/-- The relative phase of a list and its image under a map does not depend on the order of the list. -/
theorem phase_map {l l' : List ι} (hl : l.Nodup) (h : l'.Perm l) (f : ι → ι) (hf : (l.map f).Nodup) :
    phase (l'.map f) * phase l' = phase (l.map f) * phase l := by
  obtain ⟨n, hn⟩ := perm_adj h.symm
  have hm : Adj n (l.map f) (l'.map f) := by
    clear h hl hf
    induction hn with
    | refl => exact Swaps.refl _
    | step p q x y _ _ ih =>
      have := Swaps.step (comp := fun _ _ => true) (p.map f) (q.map f) (f x) (f y) (by simpa using ih) rfl
      simpa using this
  rw [phase_adj hl hn, phase_adj hf hm]
  have : ((-1) ^ n * (-1) ^ n : Int) = 1 := by rw [← pow_add, ← two_mul, pow_mul]; simp
  linear_combination (phase (l.map f) * phase l) * this

/-! ## Arrangements -/

/-- The loop visits every arrangement of a sorted list once, within the rounds allowed by the model. -/
theorem arrangements_spec {l : List ι} (hs : l.Pairwise (· ≤ ·)) :
    (arrangements l).Pairwise (· < ·) ∧ ∀ m, m ∈ arrangements l ↔ m.Perm l := by
  have hc : (l.permutations.toFinset.filter (l < ·)).card ≤ l.length.factorial := by
    refine (Finset.card_filter_le _ _).trans ((List.toFinset_card_le _).trans ?_)
    rw [List.length_permutations]
  obtain ⟨vs, e, hpw, hmem, _⟩ := enumerate_from l _ 0 l (List.Perm.refl l) hc (l.length.factorial + 1) (by omega)
  have e' : enumerate lt (l.length.factorial + 1) 0 l = some vs := e
  have : arrangements l = vs.map Prod.fst := by unfold arrangements; rw [e']; rfl
  rw [this]
  refine ⟨hpw, fun m => ?_⟩
  rw [hmem]
  exact ⟨fun h => h.1, fun h => ⟨h, asc_min l m hs h⟩⟩

/-- A sum over the arrangements is a sum over the permutations. -/
theorem sum_arrangements {M : Type} [AddCommMonoid M] {l : List ι} (hs : l.Pairwise (· < ·)) (f : List ι → M) :
    ((arrangements l).map f).sum = ∑ σ : Equiv.Perm (Fin l.length), f (rearr l σ) := by
  obtain ⟨h1, h2⟩ := arrangements_spec (hs.imp le_of_lt)
  have hn : (arrangements l).Nodup := h1.imp ne_of_lt
  have hl : l.Nodup := hs.imp ne_of_lt
  rw [← List.sum_toFinset f hn]
  symm
  refine Finset.sum_bij (fun σ _ => rearr l σ) ?_ ?_ ?_ ?_
  · intro σ _; rw [List.mem_toFinset, h2]; exact rearr_perm l σ
  · intro σ _ τ _ e; exact rearr_injective hl e
  · intro m hm
    rw [List.mem_toFinset, h2] at hm
    obtain ⟨σ, e⟩ := perm_rearr hm
    exact ⟨σ, Finset.mem_univ _, e.symm⟩
  · intro σ _; rfl

/-! ## Functions instead of lists -/

theorem rearr_ofFn' {α : Type} {n : Nat} (b : Fin n → α) (σ : Equiv.Perm (Fin n)) :
    rearr (List.ofFn b) ((finCongr (List.length_ofFn (f := b)).symm).permCongr σ) = List.ofFn (b ∘ σ) := by
  unfold rearr
  apply List.ext_getElem
  · simp
  · intro i h1 h2
    simp [Equiv.permCongr_apply]

theorem rearr_ofFn {α : Type} {n : Nat} (b : Fin n → α) (σ : Equiv.Perm (Fin n)) :
    ∃ σ' : Equiv.Perm (Fin (List.ofFn b).length), rearr (List.ofFn b) σ' = List.ofFn (b ∘ σ) ∧
      Equiv.Perm.sign σ' = Equiv.Perm.sign σ :=
  ⟨_, rearr_ofFn' b σ, Equiv.Perm.sign_permCongr _ _⟩

theorem nodup_ofFn {α : Type} {n : Nat} {b : Fin n → α} (hb : Function.Injective b) : (List.ofFn b).Nodup :=
  List.nodup_ofFn.mpr hb

theorem phase_ofFn {n : Nat} {b : Fin n → ι} (hb : Function.Injective b) (σ : Equiv.Perm (Fin n)) :
    phase (List.ofFn (b ∘ σ)) = (Equiv.Perm.sign σ : Int) * phase (List.ofFn b) := by
  obtain ⟨σ', e, hs⟩ := rearr_ofFn b σ
  rw [← e, phase_rearr (nodup_ofFn hb), hs]

theorem sum_ofFn {M : Type} [AddCommMonoid M] {n : Nat} {b : Fin n → ι} (hb : Function.Injective b) (F : List ι → M) :
    ∑ σ : Equiv.Perm (Fin n), F (List.ofFn (b ∘ σ)) = ∑ m ∈ (List.ofFn b).permutations.toFinset, F m := by
  refine Finset.sum_bij (fun σ _ => List.ofFn (b ∘ σ)) ?_ ?_ ?_ ?_
  · intro σ _
    rw [List.mem_toFinset, List.mem_permutations]
    exact Equiv.Perm.ofFn_comp_perm σ b
  · intro σ _ τ _ e
    have := List.ofFn_injective e
    ext i
    exact congrArg Fin.val (hb (congrFun this i))
  · intro m hm
    rw [List.mem_toFinset, List.mem_permutations] at hm
    obtain ⟨σ, rfl⟩ := perm_rearr hm
    refine ⟨(finCongr List.length_ofFn).permCongr σ, Finset.mem_univ _, ?_⟩
    unfold rearr
    apply List.ext_getElem
    · simp
    · intro i h1 h2
      simp [Equiv.permCongr_apply]
      rfl
  · intro σ _; rfl

theorem sum_arrangements' {M : Type} [AddCommMonoid M] {l : List ι} (hs : l.Pairwise (· ≤ ·)) (f : List ι → M) :
    ((arrangements l).map f).sum = ∑ m ∈ l.permutations.toFinset, f m := by
  obtain ⟨h1, h2⟩ := arrangements_spec hs
  rw [← List.sum_toFinset f (h1.imp ne_of_lt)]
  congr 1
  ext m
  rw [List.mem_toFinset, List.mem_toFinset, List.mem_permutations, h2]

theorem permutations_congr {l l' : List ι} (h : l.Perm l') : l.permutations.toFinset = l'.permutations.toFinset := by
  ext m
  rw [List.mem_toFinset, List.mem_toFinset, List.mem_permutations, List.mem_permutations]
  exact ⟨fun k => k.trans h, fun k => k.trans h.symm⟩

/-- A sum over the arrangements of `0, 1, ..., n-1`. -/
theorem sum_range {M : Type} [AddCommMonoid M] (n : Nat) (f : List Nat → M) :
    ((arrangements (List.range n)).map f).sum = ∑ σ : Equiv.Perm (Fin n), f (List.ofFn fun i => (σ i : Nat)) := by
  have h : List.range n = List.ofFn (fun i : Fin n => (i : Nat)) := by
    apply List.ext_getElem
    · simp
    · intro i h1 h2; simp
  have hb : Function.Injective (fun i : Fin n => (i : Nat)) := Fin.val_injective
  rw [sum_arrangements' (List.pairwise_le_range (n := n)), h, ← sum_ofFn hb f]
  rfl

omit [LinearOrder ι] in
theorem pick_ofFn (l : List ι) (σ : Equiv.Perm (Fin l.length)) :
    pick l (List.ofFn fun i => (σ i : Nat)) = rearr l σ := by
  unfold pick rearr
  rw [List.ofFn_eq_map, List.ofFn_eq_map, List.filterMap_map]
  refine List.filterMap_eq_map_iff_forall_eq_some.mpr fun i _ => ?_
  simp

/-! ## Maps -/

theorem lookup_emplace (m : List (ι × ι)) (k v i : ι) (hs : (m.map (·.1)).Pairwise (· < ·)) :
    (emplace m k v).lookup i = (m.lookup i).or (if i = k then some v else none) := by
  induction m with
  | nil =>
    simp only [emplace, List.lookup_cons, List.lookup_nil, Option.none_or]
    by_cases h : i = k
    · simp [h]
    · have : (i == k) = false := by simpa using h
      simp [h, this]
  | cons p m ih =>
    obtain ⟨k', v'⟩ := p
    simp only [List.map_cons, List.pairwise_cons] at hs
    have hnot : ∀ j, j < k' ∨ j = k' → (m.lookup j) = none := by
      intro j hj
      rw [List.lookup_eq_none_iff]
      intro q hq
      have := hs.1 q.1 (List.mem_map_of_mem hq)
      rcases hj with hj | hj
      · simpa using (hj.trans this).ne
      · subst hj; simpa using this.ne
    simp only [emplace]
    split
    · rename_i h
      simp only [List.lookup_cons]
      by_cases hi : i = k
      · subst hi
        have h1 : (i == k') = false := by simpa using h.ne
        simp [h1, hnot i (Or.inl h)]
      · have h1 : (i == k) = false := by simpa using hi
        simp [h1, hi]
    · split
      · rename_i h1 h2
        subst h2
        simp only [List.lookup_cons]
        by_cases hi : i = k
        · subst hi; simp
        · simp [hi]
      · simp only [List.lookup_cons, ih hs.2]
        cases (i == k') <;> rfl

theorem keys_emplace (m : List (ι × ι)) (k v : ι) (hs : (m.map (·.1)).Pairwise (· < ·)) :
    ((emplace m k v).map (·.1)).Pairwise (· < ·) ∧ (∀ j, j ∈ (emplace m k v).map (·.1) ↔ j = k ∨ j ∈ m.map (·.1)) ∧
      (k ∉ m.map (·.1) → (emplace m k v).Perm ((k, v) :: m)) := by
  induction m with
  | nil => simp [emplace]
  | cons p m ih =>
    obtain ⟨k', v'⟩ := p
    simp only [List.map_cons, List.pairwise_cons] at hs
    obtain ⟨i1, i2, i3⟩ := ih hs.2
    simp only [emplace]
    split
    · rename_i h
      refine ⟨?_, ?_, fun _ => List.Perm.refl _⟩
      · simp only [List.map_cons, List.pairwise_cons, List.mem_cons, forall_eq_or_imp]
        exact ⟨⟨h, fun a ha => h.trans (hs.1 a ha)⟩, hs⟩
      · intro j; simp
    · split
      · rename_i h1 h2
        subst h2
        refine ⟨by simpa using hs, fun j => by simp, fun h => absurd (by simp) h⟩
      · rename_i h1 h2
        have hk : k' < k := lt_of_le_of_ne (not_lt.mp h1) (Ne.symm h2)
        refine ⟨?_, ?_, ?_⟩
        · simp only [List.map_cons, List.pairwise_cons]
          refine ⟨fun a ha => ?_, i1⟩
          rcases (i2 a).mp ha with rfl | ha
          · exact hk
          · exact hs.1 a ha
        · intro j
          simp only [List.map_cons, List.mem_cons, i2]
          tauto
        · intro h
          simp only [List.map_cons, List.mem_cons, not_or] at h
          exact ((i3 h.2).cons _).trans (List.Perm.swap _ _ _)

theorem build_spec (ps : List (ι × ι)) :
    ((build ps).map (·.1)).Pairwise (· < ·) ∧ (∀ i, (build ps).lookup i = ps.lookup i) ∧
      (∀ j, j ∈ (build ps).map (·.1) ↔ j ∈ ps.map (·.1)) ∧ ((ps.map (·.1)).Nodup → (build ps).Perm ps) := by
  have gen : ∀ (ps m : List (ι × ι)), (m.map (·.1)).Pairwise (· < ·) →
      ((ps.foldl (fun m p => emplace m p.1 p.2) m).map (·.1)).Pairwise (· < ·) ∧
      (∀ i, (ps.foldl (fun m p => emplace m p.1 p.2) m).lookup i = (m.lookup i).or (ps.lookup i)) ∧
      (∀ j, j ∈ (ps.foldl (fun m p => emplace m p.1 p.2) m).map (·.1) ↔ j ∈ m.map (·.1) ∨ j ∈ ps.map (·.1)) ∧
      ((m.map (·.1) ++ ps.map (·.1)).Nodup → (ps.foldl (fun m p => emplace m p.1 p.2) m).Perm (m ++ ps)) := by
    intro ps
    induction ps with
    | nil => intro m hm; simp [hm]
    | cons p ps ih =>
      intro m hm
      obtain ⟨k, v⟩ := p
      obtain ⟨e1, e2, e3⟩ := keys_emplace m k v hm
      obtain ⟨i1, i2, i3, i4⟩ := ih (emplace m k v) e1
      refine ⟨i1, fun i => ?_, fun j => ?_, fun hn => ?_⟩
      · simp only [List.foldl_cons, i2, lookup_emplace m k v i hm, List.lookup_cons]
        cases m.lookup i with
        | some x => rfl
        | none =>
          by_cases h : i = k
          · subst h; simp
          · have : (i == k) = false := by simpa using h
            simp [h, this]
      · simp only [List.foldl_cons, i3, e2, List.map_cons, List.mem_cons]
        tauto
      · simp only [List.map_cons] at hn
        have hk : k ∉ m.map (·.1) := by
          intro h
          exact (List.nodup_append.mp hn).2.2 k h k (by simp) rfl
        have hp := e3 hk
        have : ((emplace m k v).map (·.1) ++ ps.map (·.1)).Nodup := by
          refine ((hp.map (·.1)).append_right _).nodup_iff.mpr ?_
          refine List.Perm.nodup_iff ?_ |>.mpr hn
          simpa using (List.perm_middle (l₁ := m.map (·.1)) (l₂ := ps.map (·.1)) (a := k)).symm
        refine (i4 this).trans ((hp.append_right ps).trans ?_)
        exact List.perm_middle.symm
  have := gen ps [] (by simp)
  simpa [build] using this

theorem setOf_spec (l : List ι) : (setOf l).Pairwise (· < ·) ∧ (l.Nodup → (setOf l).Perm l) := by
  obtain ⟨h1, _, _, h4⟩ := build_spec (l.map fun i => (i, i))
  have e : (l.map fun i => (i, i)).map (·.1) = l := by
    rw [List.map_map]; exact List.map_id l
  refine ⟨h1, fun hn => ?_⟩
  rw [e] at h4
  have := (h4 hn).map (·.1)
  rw [e] at this
  exact this

end order

end SeQuant.Spins
