import Verif.Network.Ordinals
import Verif.Network.Value

/-!
# Permutation of slots
-/

namespace SeQuant.Network

open SeQuant.Sort SeQuant.Tensors

variable {L C S V A ι : Type}

/-! ## Elements of a tensor as functions of its slots -/

theorem cols_map {κ : Type} (f : ι → κ) (b k : List (Option ι)) :
    cols (b.map (Option.map f)) (k.map (Option.map f)) = (cols b k).map (Prod.map (Option.map f) (Option.map f)) := by
  induction b generalizing k with
  | nil => simp [cols, Function.comp_def]
  | cons x b ih =>
    cases k with
    | nil =>
      have := ih []
      simp only [List.map_nil] at this
      simp [cols, this]
    | cons y k => simp [cols, ih k]

theorem respects_comp {κ M : Type} [AddCommGroup M] {s : Sym} {bk cl : Bool} {F : List (Option κ) → List (Option κ) → M}
    (h : Respects (⟨s, bk, cl, [], []⟩ : Tens κ) F) (f : ι → κ) (t : Tens ι) (hs : t.sym = s) (hb : t.braket = bk) (hc : t.col = cl) :
    Respects t (fun b k => F (b.map (Option.map f)) (k.map (Option.map f))) := by
  subst hs hb hc
  refine ⟨fun hh => ?_, fun hh => ?_, fun h1 h2 b k b' k' hp => ?_, fun hh b k => h.braket hh _ _⟩
  · obtain ⟨h1, h2⟩ := h.antisymm hh
    exact ⟨fun p q x y k => by simp only [List.map_append, List.map_cons]; exact h1 _ _ _ _ _,
      fun p q x y b => by simp only [List.map_append, List.map_cons]; exact h2 _ _ _ _ _⟩
  · obtain ⟨h1, h2⟩ := h.symm hh
    exact ⟨fun p q x y k => by simp only [List.map_append, List.map_cons]; exact h1 _ _ _ _ _,
      fun p q x y b => by simp only [List.map_append, List.map_cons]; exact h2 _ _ _ _ _⟩
  · refine h.columns h1 h2 _ _ _ _ ?_
    rw [cols_map, cols_map]
    exact hp.map _

/-- The elements of a tensor have its symmetries. -/
theorem sound_respects [Ring A] {I : Interp L S V A} {hs : List (Head L C)} (h : Sound I hs) {n : NT L C S} (hn : n.head ∈ hs) (σ : Ix S → V)
    (t : Tens (Ix S)) (h1 : t.sym = n.t.sym) (h2 : t.braket = n.t.braket) (h3 : t.col = n.t.col) :
    Respects t (fun b k => I.val n.label (resL σ b) (resL σ k) (resL σ n.aux)) :=
  respects_comp (h.sym _ hn (resL σ n.aux)) (res σ) t h1 h2 h3

/-! ## Sorting of slots -/

theorem pick_eq_map {α : Type} (d : α) (seq : List α) (o : List Nat) (h : ∀ p ∈ o, p < seq.length) : pick seq o = o.map (fun p => seq.getD p d) := by
  induction o with
  | nil => rfl
  | cons p o ih =>
    have hp := h p (by simp)
    have e : seq[p]? = some seq[p] := by simp [hp]
    rw [pick, List.filterMap_cons, e, List.map_cons]
    have := ih fun q hq => h q (List.mem_cons_of_mem _ hq)
    rw [pick] at this
    simp only [this]
    simp [hp]

theorem sortOrdinals_eq {fuel : Nat} {iseq : List Nat} {o : List Nat × Bool} (h : sortOrdinals fuel iseq = some o) :
    ∃ cmp n, bubbleSort cmp fuel (List.range iseq.length) = some (o.1, n) ∧ o.2 = counterIsEven n := by
  rw [sortOrdinals, Option.map_eq_some_iff] at h
  obtain ⟨⟨a, n⟩, hr, rfl⟩ := h
  exact ⟨_, n, hr, rfl⟩

theorem permuteImpl_eq {α : Type} {l r : List α} {o : List Nat} (h : permuteImpl l o = some r) :
    l.length = o.length ∧ r = pick l o ∧ ∀ p ∈ o, p < l.length := by
  rw [permuteImpl] at h
  split at h
  · rename_i hl
    obtain ⟨h1, h2⟩ := mapM_pick _ _ _ h
    exact ⟨hl, h1, h2⟩
  · cases h

/-- Sorting the slots of a bundle: what a function that is symmetric or antisymmetric in them does. -/
theorem permuteImpl_value {α M : Type} [AddCommGroup M] (d : α) {fuel : Nat} {iseq : List Nat} {o : List Nat × Bool} {l r : List α}
    (h : sortOrdinals fuel iseq = some o) (hr : permuteImpl l o.1 = some r) (F : List α → M) :
    ((∀ p q x y, F (p ++ y :: x :: q) = F (p ++ x :: y :: q)) → F l = F r) ∧
    ((∀ p q x y, F (p ++ y :: x :: q) = - F (p ++ x :: y :: q)) → F l = (if o.2 then (1 : ℤ) else -1) • F r) ∧ r.Perm l := by
  obtain ⟨cmp, n, hb, he⟩ := sortOrdinals_eq h
  obtain ⟨hl, rfl, hlt⟩ := permuteImpl_eq hr
  have hs := bubbleSort_swaps cmp fuel _ _ _ hb
  have hp := hs.perm
  have hlen : iseq.length = l.length := by
    have := hp.length_eq
    simp at this
    omega
  rw [hlen] at hb hs hp
  have e1 : F l = F ((List.range l.length).map (fun p => l.getD p d)) := by
    rw [← pick_eq_map d l _ (fun p hp => List.mem_range.1 hp), pick_range]
  have e2 : F (pick l o.1) = F (o.1.map (fun p => l.getD p d)) := by rw [pick_eq_map d l _ hlt]
  refine ⟨fun hF => ?_, fun hF => ?_, pick_perm l hp⟩
  · rw [e1, e2]
    exact (swaps_symmetric (fun o => F (o.map (fun p => l.getD p d)))
      (fun p q x y => by simp only [List.map_append, List.map_cons]; exact hF _ _ _ _) hs).symm
  · rw [e1, e2, he]
    have := bubbleSort_alternating (fun o => F (o.map (fun p => l.getD p d)))
      (fun p q x y => by simp only [List.map_append, List.map_cons]; exact hF _ _ _ _) cmp fuel _ _ n hb
    rw [this]
    split <;> simp

/-! ## Columns -/

theorem cols_eq_range (b k : List (Option ι)) : cols b k = (List.range (max b.length k.length)).map (fun p => (b.getD p none, k.getD p none)) := by
  induction b generalizing k with
  | nil =>
    rw [cols_nil_left]
    refine List.ext_getElem? fun j => ?_
    by_cases hj : j < k.length
    · simp [hj]
    · rw [List.getElem?_eq_none (by simp; omega), List.getElem?_eq_none (by simp; omega)]
  | cons x b ih =>
    cases k with
    | nil =>
      have := ih []
      simp only [List.length_nil, Nat.max_zero] at this
      rw [cols, this]
      simp only [List.length_cons, List.length_nil, Nat.max_zero]
      rw [List.range_succ_eq_map]
      simp [Function.comp_def]
    | cons y k =>
      rw [cols, ih k]
      simp only [List.length_cons]
      rw [show max (b.length + 1) (k.length + 1) = max b.length k.length + 1 by omega, List.range_succ_eq_map]
      simp [Function.comp_def]

theorem take_range {q : List Nat} {n k : Nat} (h : q.Perm (List.range n)) (hk : k ≤ n) (hlt : ∀ x ∈ q.take k, x < k) : ∀ x ∈ q.drop k, k ≤ x := by
  intro x hx
  by_contra hlt'
  have nd : q.Nodup := h.symm.nodup List.nodup_range
  have ql : q.length = n := by simpa using h.length_eq
  have h1 : (q.take k).Subperm (List.range k) := (nd.sublist (List.take_sublist k q)).subperm fun y hy => List.mem_range.2 (hlt y hy)
  have h2 : (q.take k).Perm (List.range k) := h1.perm_of_length_le (by simp; omega)
  have h3 : x ∈ q.take k := h2.mem_iff.2 (List.mem_range.2 (by omega))
  rw [← List.take_append_drop k q] at nd
  exact (List.disjoint_of_nodup_append nd) h3 hx

/-- Columns picked with `q`: a missing slot stays missing. -/
theorem cols_pick {b k b' k' : List (Option ι)} {q : List Nat} (hq : q.Perm (List.range (max b.length k.length)))
    (hb : (q.take b.length).mapM (fun p => b[p]?) = some b') (hk : (q.take k.length).mapM (fun p => k[p]?) = some k') :
    (cols b' k').Perm (cols b k) := by
  obtain ⟨rfl, hb2⟩ := mapM_pick _ _ _ hb
  obtain ⟨rfl, hk2⟩ := mapM_pick _ _ _ hk
  have ql : q.length = max b.length k.length := by simpa using hq.length_eq
  have hbd := take_range hq (by omega) hb2
  have hkd := take_range hq (by omega) hk2
  have key : ∀ (l : List (Option ι)), (∀ x ∈ q.take l.length, x < l.length) → (∀ x ∈ q.drop l.length, l.length ≤ x) →
      l.length ≤ q.length → ∀ j (hj : j < q.length), (pick l (q.take l.length)).getD j none = l.getD q[j] none := by
    intro l h1 h2 h3 j hj
    rw [List.getD_eq_getElem?_getD, List.getD_eq_getElem?_getD, pick_getElem? _ _ h1]
    by_cases hjl : j < l.length
    · have : (q.take l.length)[j]? = some q[j] := by
        rw [List.getElem?_take, if_pos hjl]; simp [hj]
      rw [this]; rfl
    · have h4 : (q.take l.length)[j]? = none := by
        rw [List.getElem?_take, if_neg hjl]
      have h5 : l.length ≤ q[j] := by
        refine h2 _ ?_
        rw [List.mem_drop_iff_getElem]
        exact ⟨j - l.length, by omega, by congr 1; omega⟩
      rw [h4, List.getElem?_eq_none h5]; rfl
  have hl1 : (pick b (q.take b.length)).length = b.length := by rw [pick_length _ _ hb2, List.length_take]; omega
  have hl2 : (pick k (q.take k.length)).length = k.length := by rw [pick_length _ _ hk2, List.length_take]; omega
  have e : cols (pick b (q.take b.length)) (pick k (q.take k.length)) = q.map (fun p => (b.getD p none, k.getD p none)) := by
    rw [cols_eq_range, hl1, hl2, ← ql]
    refine List.ext_getElem (by simp) fun j h1 h2 => ?_
    have hj : j < q.length := by simpa using h1
    simp only [List.getElem_map, List.getElem_range]
    rw [key b hb2 hbd (by omega) j hj, key k hk2 hkd (by omega) j hj]
  rw [e, cols_eq_range b k]
  exact hq.map _

theorem split_perm (l : List Nat) (a b : Nat) :
    (l.filter (· < a) ++ l.filter (fun i => decide (a ≤ i) && decide (i < a + b)) ++ l.filter (a + b ≤ ·)).Perm l := by
  induction l with
  | nil => exact List.Perm.refl _
  | cons x l ih =>
    simp only [List.filter_cons]
    by_cases h1 : x < a
    · have h2 : ¬ (a ≤ x) := by omega
      have h3 : ¬ (a + b ≤ x) := by omega
      simp only [h1, h2, h3, decide_true, decide_false, if_true, Bool.false_and, Bool.false_eq_true, if_false]
      exact ih.cons x
    · by_cases h2 : x < a + b
      · have h3 : a ≤ x := by omega
        have h4 : ¬ (a + b ≤ x) := by omega
        simp only [h1, h2, h3, h4, decide_true, decide_false, if_true, Bool.and_self, Bool.false_eq_true, if_false]
        rw [List.append_assoc, List.cons_append]
        refine List.perm_middle.trans ?_
        rw [← List.append_assoc]
        exact ih.cons x
      · have h3 : a + b ≤ x := by omega
        simp only [h1, h2, h3, decide_true, decide_false, if_true, Bool.and_false, Bool.false_eq_true, if_false]
        refine List.perm_middle.trans ?_
        exact ih.cons x

theorem permuteColumns_perm {b k : List (Option ι)} {o : List Nat} {r : List (Option ι) × List (Option ι)}
    (ho : o.Perm (List.range o.length)) (h : permuteColumns b k o = some r) : (cols r.1 r.2).Perm (cols b k) := by
  rw [permuteColumns] at h
  split at h
  · rename_i hl
    simp only at h
    split at h
    · cases h
    · simp only [Option.bind_eq_bind, Option.bind_eq_some_iff, Option.pure_def, Option.some.injEq] at h
      obtain ⟨x, hx, y, hy, rfl⟩ := h
      refine cols_pick ?_ hx hy
      rw [hl]
      exact (split_perm o _ _).trans ho
  · cases h

/-! ## The slots of one tensor -/

/-- The indices in the slots. -/
def idxs (t : Tens ι) : List ι := (t.bra ++ t.ket).filterMap id

/-- The indices in the slots are those in the columns. -/
theorem idxs_cols (b k : List (Option ι)) : ((b ++ k).filterMap id).Perm ((cols b k).flatMap fun c => c.1.toList ++ c.2.toList) := by
  have nilr : ∀ l : List (Option ι), l.filterMap id = l.flatMap fun x => x.toList := by
    intro l
    induction l with
    | nil => rfl
    | cons x l ih => cases x <;> simp <;> exact ih
  induction b generalizing k with
  | nil =>
    rw [cols_nil_left, List.nil_append, nilr, List.flatMap_map]
    exact List.Perm.of_eq (by simp)
  | cons x b ih =>
    cases k with
    | nil =>
      rw [cols_nil_right, List.append_nil, nilr, List.flatMap_map]
      exact List.Perm.of_eq (by simp)
    | cons y k =>
      rw [cols, List.flatMap_cons, List.cons_append]
      have h1 : ((x :: (b ++ y :: k)).filterMap id).Perm ((x :: y :: (b ++ k)).filterMap id) :=
        (List.perm_middle.cons x).filterMap _
      refine h1.trans ?_
      have h2 : (x :: y :: (b ++ k)).filterMap id = (x.toList ++ y.toList) ++ (b ++ k).filterMap id := by
        cases x <;> cases y <;> simp
      rw [h2]
      exact (ih k).append_left _

theorem idxs_perm_cols {b k b' k' : List (Option ι)} (h : (cols b' k').Perm (cols b k)) :
    ((b' ++ k').filterMap id).Perm ((b ++ k).filterMap id) :=
  (idxs_cols b' k').trans ((h.flatMap_right _).trans (idxs_cols b k).symm)

/-- Tensors of the same kind with the same indices, one `s` times the other for all elements with the symmetries declared. -/
structure SameUpTo (s : ℤ) (t t' : Tens ι) : Prop where
  sym : t'.sym = t.sym
  braket : t'.braket = t.braket
  col : t'.col = t.col
  idx : (idxs t').Perm (idxs t)
  valid : (t.sym = .nonsymm → Valid t) → (t'.sym = .nonsymm → Valid t')
  value : ∀ {M : Type} [AddCommGroup M] (V : List (Option ι) → List (Option ι) → M), Respects t V → V t.bra t.ket = s • V t'.bra t'.ket

theorem SameUpTo.refl (t : Tens ι) : SameUpTo 1 t t := ⟨rfl, rfl, rfl, List.Perm.refl _, id, fun V _ => by simp⟩

theorem SameUpTo.respects {s : ℤ} {t t' : Tens ι} (h : SameUpTo s t t') {M : Type} [AddCommGroup M] {V : List (Option ι) → List (Option ι) → M}
    (hV : Respects t V) : Respects t' V :=
  ⟨by rw [h.sym]; exact hV.antisymm, by rw [h.sym]; exact hV.symm, by rw [h.sym, h.col]; exact hV.columns, by rw [h.braket]; exact hV.braket⟩

theorem SameUpTo.trans {s s' : ℤ} {t t' t'' : Tens ι} (h : SameUpTo s t t') (h' : SameUpTo s' t' t'') : SameUpTo (s * s') t t'' :=
  ⟨h'.sym.trans h.sym, h'.braket.trans h.braket, h'.col.trans h.col, h'.idx.trans h.idx, fun hv => h'.valid (h.valid hv),
    fun V hV => by rw [h.value V hV, h'.value V (h.respects hV), mul_smul]⟩

theorem sameUpTo_cols {t : Tens ι} {b k : List (Option ι)} (hs : t.sym = .nonsymm) (hc : t.col = true) (h : (cols b k).Perm (cols t.bra t.ket)) :
    SameUpTo 1 t { t with bra := b, ket := k } := by
  refine ⟨rfl, rfl, rfl, idxs_perm_cols h, fun hv _ => ?_, fun V hV => ?_⟩
  · intro c hcc
    exact hv hs c (h.mem_iff.1 hcc)
  · simp only [one_smul]
    exact hV.columns hs hc _ _ _ _ h.symm

/-- `_swap_bra_ket` of a tensor with bra-ket symmetry. -/
theorem sameUpTo_swap {t : Tens ι} (hb : t.braket = true) (hv : t.sym = .nonsymm → Valid t) : SameUpTo 1 t (swapBraKet t) := by
  have h1 : SameUpTo 1 t { t with bra := t.ket, ket := t.bra } :=
    ⟨rfl, rfl, rfl, List.perm_append_comm.filterMap _, fun h hs => valid_swap t (h hs), fun V hV => by simp only [one_smul]; exact hV.braket hb _ _⟩
  have h2 : SameUpTo 1 ({ t with bra := t.ket, ket := t.bra } : Tens ι) (swapBraKet t) := by
    by_cases hc : t.sym = .nonsymm ∧ t.col = true
    · have hval := valid_swap t (hv hc.1)
      have h3 := canonicalizeSlots_columns _ hval
      have h4 := canonicalizeSlots_fields ({ t with bra := t.ket, ket := t.bra } : Tens ι)
      have h5 := sameUpTo_cols (t := ({ t with bra := t.ket, ket := t.bra } : Tens ι)) hc.1 hc.2 h3
      rw [swapBraKet]
      generalize hcs : canonicalizeSlots ({ t with bra := t.ket, ket := t.bra } : Tens ι) = u at h4 h5 ⊢
      have h6 : u = { ({ t with bra := t.ket, ket := t.bra } : Tens ι) with bra := u.bra, ket := u.ket } := by
        cases u
        simp only at h4
        obtain ⟨rfl, rfl, rfl⟩ := h4
        rfl
      rw [h6]; exact h5
    · rw [swapBraKet, canonicalizeSlots, if_neg hc]
      exact SameUpTo.refl _
  have := h1.trans h2
  rwa [one_mul] at this

theorem permuteSlots_same {fuel : Nat} {π : Nat → Nat} {v : Nat} {n : NT L C S} {r : Tens (Ix S) × ℤ} (hcol : n.t.col = true)
    (h : permuteSlots fuel π v n = some (some r)) : SameUpTo r.2 n.t r.1 := by
  rw [permuteSlots] at h
  simp only at h
  split at h
  · rename_i hs
    split at h
    · simp at h
    · simp only [Option.bind_eq_bind, Option.bind_eq_some_iff, Option.pure_def, Option.some.injEq] at h
      obtain ⟨o, ho, bk, hbk, rfl⟩ := h
      obtain ⟨cmp, k, hb, _⟩ := sortOrdinals_eq ho
      have hp := (bubbleSort_swaps cmp fuel _ _ _ hb).perm
      generalize (List.drop 1 (ordsOf π v VT.braket (tensorVTs n))).length = w at hp
      have hl : o.1.length = w := by simpa using hp.length_eq
      rw [← hl] at hp
      exact sameUpTo_cols hs hcol (permuteColumns_perm hp hbk)
  · rename_i hs
    split at h
    · simp at h
    · simp only [Option.bind_eq_bind, Option.bind_eq_some_iff, Option.pure_def, Option.some.injEq] at h
      obtain ⟨ob, hob, ok, hok, b, hb, k, hk, rfl⟩ := h
      refine ⟨rfl, rfl, rfl, ?_, fun _ hh => absurd hh hs, fun {M} _ V hV => ?_⟩
      · have h1 := (permuteImpl_value none hob hb (fun _ => (0 : ℤ))).2.2
        have h2 := (permuteImpl_value none hok hk (fun _ => (0 : ℤ))).2.2
        exact (h1.append h2).filterMap _
      · simp only
        obtain ⟨b1, b2, _⟩ := permuteImpl_value none hob hb (fun l => V l n.t.ket)
        obtain ⟨k1, k2, _⟩ := permuteImpl_value none hok hk (fun l => V b l)
        cases hsym : n.t.sym with
        | nonsymm => exact absurd hsym hs
        | symm =>
          obtain ⟨r1, r2⟩ := hV.symm hsym
          rw [if_neg (by simp), one_smul]
          exact (b1 fun p q x y => r1 p q x y _).trans (k1 fun p q x y => r2 p q x y _)
        | antisymm =>
          obtain ⟨r1, r2⟩ := hV.antisymm hsym
          rw [if_pos rfl, mul_smul]
          have e1 := b2 fun p q x y => r1 p q x y _
          have e2 := k2 fun p q x y => r2 p q x y _
          rw [← e2]; exact e1

/-- The slots of one tensor. -/
theorem permuteTensor_same {fuel : Nat} {π : Nat → Nat} {v : Nat} {n : NT L C S} {r : NT L C S × ℤ} (hv : n.t.sym = .nonsymm → Valid n.t)
    (h : permuteTensor fuel π v n = some r) :
    SameUpTo r.2 n.t r.1.t ∧ r.1.label = n.label ∧ r.1.color = n.color ∧ r.1.cnum = n.cnum ∧ r.1.aux = n.aux := by
  rw [permuteTensor] at h
  split at h
  · simp only [Option.some.injEq] at h
    subst h
    exact ⟨SameUpTo.refl _, rfl, rfl, rfl, rfl⟩
  · rename_i hcol
    simp only [Option.bind_eq_bind, Option.bind_eq_some_iff] at h
    obtain ⟨o, ho, h⟩ := h
    cases o with
    | none =>
      simp only [Option.pure_def, Option.some.injEq] at h
      subst h
      exact ⟨SameUpTo.refl _, rfl, rfl, rfl, rfl⟩
    | some q =>
      have h1 := permuteSlots_same (by simpa using hcol) ho
      simp only [Option.pure_def] at h
      split at h
      · rename_i hb
        simp only [Option.some.injEq] at h
        subst h
        have h2 := h1.trans (sameUpTo_swap (by rw [h1.braket]; exact hb.1) (h1.valid hv))
        rw [mul_one] at h2
        exact ⟨h2, rfl, rfl, rfl, rfl⟩
      · simp only [Option.some.injEq] at h
        subst h
        exact ⟨h1, rfl, rfl, rfl, rfl⟩

/-! ## All tensors -/

/-- Networks whose tensors correspond one to one, with the same products up to the sign `s`. -/
structure NetSame (s : ℤ) (ts ts' : List (NT L C S)) : Prop where
  heads : ts'.map NT.head = ts.map NT.head
  idx : (slotIdx ts').Perm (slotIdx ts)
  valid : (∀ n ∈ ts, n.t.sym = .nonsymm → Valid n.t) → (∀ n ∈ ts', n.t.sym = .nonsymm → Valid n.t)
  value : ∀ {V A : Type} [Ring A] (I : Interp L S V A), Sound I (ts.map NT.head) → ∀ σ, pval I σ ts = s • pval I σ ts'

theorem slotIdx_cons (n : NT L C S) (ts : List (NT L C S)) : slotIdx (n :: ts) = idxs n.t ++ n.aux.filterMap id ++ slotIdx ts := by
  simp [slotIdx, NT.slots, idxs]

theorem NetSame.nil : NetSame 1 ([] : List (NT L C S)) [] := ⟨rfl, List.Perm.refl _, fun h => h, fun I _ σ => by simp⟩

theorem Sound.mono [Ring A] {I : Interp L S V A} {hs hs' : List (Head L C)} (h : Sound I hs) (hsub : ∀ x ∈ hs', x ∈ hs) : Sound I hs' :=
  ⟨fun x hx => h.sym x (hsub x hx), fun x hx y hy => h.comm x (hsub x hx) y (hsub y hy)⟩

theorem NetSame.cons {s s' : ℤ} {n n' : NT L C S} {ts ts' : List (NT L C S)} (h : NetSame s ts ts') (h1 : SameUpTo s' n.t n'.t)
    (h2 : n'.label = n.label) (h3 : n'.color = n.color) (h4 : n'.cnum = n.cnum) (h5 : n'.aux = n.aux) :
    NetSame (s' * s) (n :: ts) (n' :: ts') := by
  refine ⟨?_, ?_, fun hv m hm => ?_, fun {V A} _ I hI σ => ?_⟩
  · simp only [List.map_cons, h.heads, NT.head, h2, h3, h4, h1.sym, h1.braket, h1.col]
  · rw [slotIdx_cons, slotIdx_cons, h5]
    exact (h1.idx.append_right _).append h.idx
  · rcases List.mem_cons.1 hm with rfl | hm
    · exact h1.valid (hv n (by simp))
    · exact h.valid (fun x hx => hv x (List.mem_cons_of_mem _ hx)) m hm
  · have e1 := h.value I (hI.mono fun x hx => by simp only [List.map_cons]; exact List.mem_cons_of_mem _ hx) σ
    have e2 := h1.value _ (sound_respects hI (n := n) (by simp) σ n.t rfl rfl rfl)
    have e3 : tval I σ n' = I.val n.label (resL σ n'.t.bra) (resL σ n'.t.ket) (resL σ n.aux) := by rw [tval, h2, h5]
    have e4 : tval I σ n = s' • tval I σ n' := by rw [e3]; exact e2
    have e5 : pval I σ (n :: ts) = tval I σ n * pval I σ ts := by simp [pval]
    have e6 : pval I σ (n' :: ts') = tval I σ n' * pval I σ ts' := by simp [pval]
    rw [e5, e6, e1, e4, smul_mul_smul_comm]

theorem permuteAll_same {fuel : Nat} {π : Nat → Nat} {v : Nat} {ts : List (NT L C S)} {r : List (NT L C S) × ℤ}
    (hv : ∀ n ∈ ts, n.t.sym = .nonsymm → Valid n.t) (h : permuteAll fuel π v ts = some r) : NetSame r.2 ts r.1 := by
  induction ts generalizing v r with
  | nil =>
    simp only [permuteAll, Option.some.injEq] at h
    subst h
    exact NetSame.nil
  | cons n ts ih =>
    rw [permuteAll] at h
    simp only [Option.bind_eq_bind, Option.bind_eq_some_iff, Option.pure_def, Option.some.injEq] at h
    obtain ⟨x, hx, y, hy, rfl⟩ := h
    obtain ⟨h1, h2, h3, h4, h5⟩ := permuteTensor_same (hv n (by simp)) hx
    exact (ih (fun m hm => hv m (List.mem_cons_of_mem _ hm)) hy).cons h1 h2 h3 h4 h5

end SeQuant.Network
