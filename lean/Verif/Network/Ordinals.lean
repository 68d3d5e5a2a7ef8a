import Verif.Network.Model
import Verif.Sort.Props

/-!
# Sorting via ordinals
-/

namespace SeQuant.Network

open SeQuant.Sort SeQuant.Tensors

variable {α : Type}

/-- The elements at the given positions. -/
def pick (seq : List α) (ords : List Nat) : List α := ords.filterMap (fun p => seq[p]?)

theorem mapM_pick (seq : List α) (ords : List Nat) (r : List α) (h : ords.mapM (fun p => seq[p]?) = some r) :
    r = pick seq ords ∧ ∀ p ∈ ords, p < seq.length := by
  induction ords generalizing r with
  | nil => simp at h; subst h; simp [pick]
  | cons p l ih =>
    rw [List.mapM_cons] at h
    simp only [Option.bind_eq_bind, Option.bind_eq_some_iff, Option.pure_def, Option.some.injEq] at h
    obtain ⟨x, hx, y, hy, rfl⟩ := h
    obtain ⟨h1, h2⟩ := ih y hy
    refine ⟨?_, ?_⟩
    · rw [pick, List.filterMap_cons, hx, h1]; rfl
    · intro q hq
      rcases List.mem_cons.1 hq with rfl | hq
      · exact (List.getElem?_eq_some_iff.1 hx).1
      · exact h2 q hq

theorem pick_range (seq : List α) : pick seq (List.range seq.length) = seq := by
  have key : ∀ (l pre : List α), (List.range' pre.length l.length).filterMap (fun p => (pre ++ l)[p]?) = l := by
    intro l
    induction l with
    | nil => intro pre; rfl
    | cons a l ih =>
      intro pre
      rw [List.length_cons, List.range'_succ, List.filterMap_cons]
      have h1 : (pre ++ a :: l)[pre.length]? = some a := by simp
      rw [h1]
      have := ih (pre ++ [a])
      simp only [List.length_append, List.length_cons, List.length_nil, Nat.zero_add, List.append_assoc, List.cons_append, List.nil_append] at this
      simp only [this]
  have := key seq []
  simpa [pick, List.range_eq_range'] using this

theorem pick_perm (seq : List α) {ords : List Nat} (h : ords.Perm (List.range seq.length)) : (pick seq ords).Perm seq := by
  have := h.filterMap (fun p => seq[p]?)
  have h2 := pick_range seq
  rw [pick] at h2
  rw [h2] at this
  exact this

theorem pick_getElem? (seq : List α) (ords : List Nat) (h : ∀ p ∈ ords, p < seq.length) (j : Nat) :
    (pick seq ords)[j]? = ords[j]?.bind (fun p => seq[p]?) := by
  induction ords generalizing j with
  | nil => simp [pick]
  | cons p l ih =>
    have hp := h p (by simp)
    have e : seq[p]? = some seq[p] := by simp [hp]
    rw [pick, List.filterMap_cons, e]
    cases j with
    | zero => simp [e]
    | succ j => simpa [pick] using ih (fun q hq => h q (List.mem_cons_of_mem _ hq)) j

theorem pick_length (seq : List α) (ords : List Nat) (h : ∀ p ∈ ords, p < seq.length) : (pick seq ords).length = ords.length := by
  induction ords with
  | nil => rfl
  | cons p l ih =>
    have hp := h p (by simp)
    have e : seq[p]? = some seq[p] := by simp [hp]
    rw [pick, List.filterMap_cons, e, List.length_cons, List.length_cons]
    exact congrArg (· + 1) (ih fun q hq => h q (List.mem_cons_of_mem _ hq))

theorem pick_map {β : Type} (f : α → β) (seq : List α) (ords : List Nat) : (pick seq ords).map f = pick (seq.map f) ords := by
  rw [pick, pick, List.map_filterMap]
  refine List.filterMap_congr fun p _ => ?_
  simp

theorem swapAt_some {l : List α} {i j : Nat} (hi : i < l.length) (hj : j < l.length) : swapAt l i j = some ((l.set i l[j]).set j l[i]) := by
  rw [swapAt]
  simp [hi, hj]

theorem swapAt_getElem? {l : List α} {i j : Nat} (hi : i < l.length) (hj : j < l.length) (k : Nat) :
    ((l.set i l[j]).set j l[i])[k]? = if k = i then l[j]? else if k = j then l[i]? else l[k]? := by
  simp only [List.getElem?_set, List.length_set]
  by_cases h1 : k = i
  · subst h1
    by_cases h2 : j = k
    · subst h2; simp [hi]
    · simp [hi, h2, hj]
  · by_cases h2 : k = j
    · subst h2; simp [hi, hj, h1]
    · have e1 : j ≠ k := fun h => h2 h.symm
      have e2 : i ≠ k := fun h => h1 h.symm
      simp [h1, h2, e1, e2]

/-- What holds after the first `i` rounds. -/
structure CycleInv (t : List α) (i : Nat) (st : List α × List Nat) : Prop where
  len1 : st.1.length = t.length
  perm : st.2.Perm (List.range t.length)
  get : ∀ j < t.length, st.2[j]?.bind (fun p => st.1[p]?) = t[j]?
  done : ∀ j < i, st.2[j]? = some j

theorem CycleInv.step {t : List α} {i : Nat} {st : List α × List Nat} (h : CycleInv t i st) (hi : i < t.length) :
    ∃ st', cycleStep st i = some st' ∧ CycleInv t (i + 1) st' := by
  obtain ⟨seq, ord⟩ := st
  obtain ⟨h1, h2, h3, h4⟩ := h
  simp only at h1 h2 h3 h4
  have len2 : ord.length = t.length := by simpa using h2.length_eq
  have hio : i < ord.length := by omega
  have nd : ord.Nodup := h2.symm.nodup List.nodup_range
  have inj : ∀ a b x : Nat, ord[a]? = some x → ord[b]? = some x → a = b := by
    intro a b x ha hb
    obtain ⟨ha1, ha2⟩ := List.getElem?_eq_some_iff.1 ha
    obtain ⟨hb1, hb2⟩ := List.getElem?_eq_some_iff.1 hb
    exact (List.Nodup.getElem_inj_iff nd).1 (ha2.trans hb2.symm)
  rw [cycleStep]
  simp only
  have e : ord[i]? = some ord[i] := by simp [hio]
  rw [e, Option.bind_eq_bind, Option.bind_some]
  by_cases hp : ord[i] = i
  · rw [if_pos hp]
    refine ⟨_, rfl, ⟨h1, h2, h3, ?_⟩⟩
    intro j hj
    by_cases hji : j = i
    · subst hji; simp only; rw [e, hp]
    · exact h4 j (by omega)
  · rw [if_neg hp]
    set p := ord[i] with hpdef
    have hpl : p < t.length := by
      have : p ∈ ord := List.getElem_mem hio
      exact List.mem_range.1 (h2.mem_iff.1 this)
    -- the position of `i`
    obtain ⟨k, hk, hke⟩ := List.getElem_of_mem (h2.mem_iff.2 (List.mem_range.2 hi))
    have hke' : ord[k]? = some i := by simp [hk, hke]
    have hki : i < k := by
      rcases lt_trichotomy k i with h5 | h5 | h5
      · have := h4 k h5
        rw [hke'] at this
        simp at this
        omega
      · subst h5
        exact absurd hke hp
      · exact h5
    have hfind : (List.range seq.length).find? (fun k => decide (i < k) && decide (ord[k]? = some i)) = some k := by
      cases hf : (List.range seq.length).find? (fun k => decide (i < k) && decide (ord[k]? = some i)) with
      | none =>
        exfalso
        rw [List.find?_eq_none] at hf
        have := hf k (List.mem_range.2 (by omega))
        simp [hki, hke'] at this
      | some k' =>
        have h6 := List.find?_some hf
        simp only [Bool.and_eq_true, decide_eq_true_eq] at h6
        rw [inj k' k i h6.2 hke']
    have hil : i < seq.length := by omega
    have hps : p < seq.length := by omega
    rw [hfind, Option.bind_some, swapAt_some hil hps, swapAt_some hio hk]
    refine ⟨_, rfl, ⟨by simpa using h1, ?_, ?_, ?_⟩⟩
    · exact (List.set_set_perm hio hk).trans h2
    · intro j hj
      simp only
      rw [swapAt_getElem? hio hk]
      have gi := h3 i hi
      rw [e, Option.bind_some] at gi
      have gk := h3 k (by omega)
      rw [hke', Option.bind_some] at gk
      by_cases hji : j = i
      · subst hji
        rw [if_pos rfl, hke', Option.bind_some, swapAt_getElem? hil hps, if_pos rfl, gi]
      · rw [if_neg hji]
        by_cases hjk : j = k
        · subst hjk
          rw [if_pos rfl, e, Option.bind_some, swapAt_getElem? hil hps, if_neg hp, if_pos rfl, gk]
        · rw [if_neg hjk]
          have hjo : j < ord.length := by omega
          have ej : ord[j]? = some ord[j] := by simp [hjo]
          have g := h3 j hj
          rw [ej, Option.bind_some] at g ⊢
          rw [swapAt_getElem? hil hps, if_neg, if_neg, g]
          · intro hh
            rw [hh] at ej
            exact hji (inj j i p ej e)
          · intro hh
            rw [hh] at ej
            exact hjk (inj j k i ej hke')
    · intro j hj
      simp only
      rw [swapAt_getElem? hio hk]
      by_cases hji : j = i
      · subst hji; rw [if_pos rfl, hke']
      · rw [if_neg hji, if_neg (by omega), h4 j (by omega)]

theorem CycleInv.loop {t : List α} (n i : Nat) (hn : i + n ≤ t.length) (st : List α × List Nat) (h : CycleInv t i st) :
    ∃ st', (List.range' i n).foldlM cycleStep st = some st' ∧ CycleInv t (i + n) st' := by
  induction n generalizing i st with
  | zero => exact ⟨st, rfl, h⟩
  | succ n ih =>
    obtain ⟨st1, e1, h1⟩ := h.step (by omega)
    obtain ⟨st2, e2, h2⟩ := ih (i + 1) (by omega) st1 h1
    refine ⟨st2, ?_, by rw [show i + (n + 1) = i + 1 + n by omega]; exact h2⟩
    rw [List.range'_succ, List.foldlM_cons, e1]
    exact e2

/-- The loop brings the element at position `ords[j]` to position `j`, and leaves the ordinals sorted. -/
theorem applyOrdinals_eq (seq : List α) (ords : List Nat) (h : ords.Perm (List.range seq.length)) :
    applyOrdinals seq ords = some (pick seq ords, List.range seq.length) := by
  have hlt : ∀ p ∈ ords, p < seq.length := fun p hp => List.mem_range.1 (h.mem_iff.1 hp)
  have hlen : (pick seq ords).length = seq.length := by rw [pick_length _ _ hlt]; simpa using h.length_eq
  have h0 : CycleInv (pick seq ords) 0 (seq, ords) :=
    ⟨hlen.symm, by rw [hlen]; exact h, fun j _ => (pick_getElem? seq ords hlt j).symm, fun j hj => by omega⟩
  obtain ⟨st, e, hst⟩ := h0.loop seq.length 0 (by omega)
  rw [Nat.zero_add] at hst
  rw [applyOrdinals, List.range_eq_range', e]
  have hord : st.2 = List.range' 0 seq.length := by
    refine List.ext_getElem? fun j => ?_
    by_cases hj : j < seq.length
    · rw [hst.done j hj]; simp [hj]
    · have : st.2.length = seq.length := by simpa [hlen] using hst.perm.length_eq
      rw [List.getElem?_eq_none (by omega), List.getElem?_eq_none (by simp; omega)]
  have hseq : st.1 = pick seq ords := by
    refine List.ext_getElem? fun j => ?_
    by_cases hj : j < seq.length
    · have := hst.get j (by omega)
      rwa [hst.done j hj, Option.bind_some] at this
    · have := hst.len1
      rw [List.getElem?_eq_none (by omega), List.getElem?_eq_none (by omega)]
  rw [← hord, ← hseq]

theorem insertS_perm {α : Type} (lt : α → α → Bool) (a : α) (l : List α) : (insertS lt a l).Perm (a :: l) := by
  induction l with
  | nil => exact List.Perm.refl _
  | cons b l ih =>
    rw [insertS]
    split
    · exact (ih.cons b).trans (List.Perm.swap a b l)
    · exact List.Perm.refl _

theorem stableSortS_perm {α : Type} (lt : α → α → Bool) (l : List α) : (stableSortS lt l).Perm l := by
  induction l with
  | nil => exact List.Perm.refl _
  | cons a l ih => exact (insertS_perm lt a _).trans (ih.cons a)

theorem sortStrict_eq (seq : List α) (lt : Nat → Nat → Bool) :
    ∃ t, sortStrict seq lt = some (t, List.range seq.length) ∧ t.Perm seq := by
  have h : (stableSortS lt (List.range seq.length)).Perm (List.range seq.length) := stableSortS_perm _ _
  exact ⟨_, applyOrdinals_eq seq _ h, pick_perm seq h⟩

theorem sortWeak_eq (fuel : Nat) (seq : List α) (lt : Nat → Nat → Bool) (r : List α × List Nat) (h : sortWeak fuel seq lt = some r) :
    ∃ o n, bubbleSort lt fuel (List.range seq.length) = some (o, n) ∧ r = (pick seq o, List.range seq.length) ∧ o.Perm (List.range seq.length) := by
  rw [sortWeak] at h
  simp only [Option.bind_eq_bind, Option.bind_eq_some_iff] at h
  obtain ⟨⟨o, n⟩, hb, h⟩ := h
  have hp := (bubbleSort_swaps lt fuel _ _ _ hb).perm
  rw [applyOrdinals_eq seq o hp] at h
  exact ⟨o, n, hb, by simpa using h.symm, hp⟩

end SeQuant.Network
