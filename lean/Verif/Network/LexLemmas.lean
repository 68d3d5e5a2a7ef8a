import Verif.Network.Graph

/-!
# The lexicographic stage keeps the value
-/

namespace SeQuant.Network

open SeQuant.Sort SeQuant.Tensors

variable {L C S V A ι : Type}

/-! ## Canonicalization of single tensors -/

theorem cols_take_drop (b k : List (Option ι)) : cols b k =
    (b.take (min b.length k.length)).zip (k.take (min b.length k.length)) ++ cols (b.drop (min b.length k.length)) (k.drop (min b.length k.length)) := by
  have := cols_append (b.take (min b.length k.length)) (b.drop (min b.length k.length)) (k.take (min b.length k.length)) (k.drop (min b.length k.length))
    (by simp)
  simpa using this

theorem canonCore_same {fuel : Nat} {idx : Option ι → Option ι → Bool} {pair : Option ι × Option ι → Option ι × Option ι → Bool} {t t' : Tens ι}
    {p : Option Int} (h : canonCore fuel idx pair t = some (p, t')) : SameUpTo (phase p) t t' := by
  have hval := fun {M : Type} [AddCommGroup M] (V : List (Option ι) → List (Option ι) → M) (hV : Respects t V) => canonCore_value fuel idx pair t t' p h V hV
  suffices hh : (t'.sym = t.sym ∧ t'.braket = t.braket ∧ t'.col = t.col) ∧
      (idxs t').Perm (idxs t) ∧
      (t.sym = .nonsymm → (cols t'.bra t'.ket).Perm (cols t.bra t.ket)) by
    obtain ⟨⟨h1, h2, h3⟩, h4, h5⟩ := hh
    refine ⟨h1, h2, h3, h4, fun hv hs c hc => ?_, hval⟩
    rw [h1] at hs
    exact hv hs c ((h5 hs).mem_iff.1 hc)
  clear hval
  unfold canonCore at h
  split at h
  · simp only [Option.some.injEq, Prod.mk.injEq] at h
    obtain ⟨_, rfl⟩ := h
    exact ⟨⟨rfl, rfl, rfl⟩, List.Perm.refl _, fun _ => List.Perm.refl _⟩
  split at h
  · simp only [Option.some.injEq, Prod.mk.injEq] at h
    obtain ⟨_, rfl⟩ := h
    exact ⟨⟨rfl, rfl, rfl⟩, List.Perm.refl _, fun _ => List.Perm.refl _⟩
  split at h
  · -- columns
    rename_i hs
    simp only at h
    split at h
    · cases h
    rename_i z nz hz
    have hzp := (bubbleSort_swaps _ _ _ _ _ hz).perm
    set r := min t.bra.length t.ket.length with hr
    have key : ∀ b2 k2, (cols b2 k2).Perm (cols (t.bra.drop r) (t.ket.drop r)) →
        (cols (z.map (·.1) ++ b2) (z.map (·.2) ++ k2)).Perm (cols t.bra t.ket) := by
      intro b2 k2 h2
      rw [cols_append _ _ _ _ (by simp), zip_of_map, cols_take_drop t.bra t.ket]
      exact hzp.append h2
    split at h
    · rename_i hlt
      split at h
      · cases h
      · rename_i q nq hq
        have hqp := (bubbleSort_swaps _ _ _ _ _ hq).perm
        simp only [Option.some.injEq, Prod.mk.injEq] at h
        obtain ⟨_, rfl⟩ := h
        have hk0 : t.ket.drop r = [] := by rw [List.drop_eq_nil_iff]; omega
        have hp := key q (t.ket.drop r) (by rw [hk0, cols_nil_right, cols_nil_right]; exact hqp.map _)
        exact ⟨⟨rfl, rfl, rfl⟩, idxs_perm_cols hp, fun _ => hp⟩
    · split at h
      · rename_i hlt
        split at h
        · cases h
        · rename_i q nq hq
          have hqp := (bubbleSort_swaps _ _ _ _ _ hq).perm
          simp only [Option.some.injEq, Prod.mk.injEq] at h
          obtain ⟨_, rfl⟩ := h
          have hb0 : t.bra.drop r = [] := by rw [List.drop_eq_nil_iff]; omega
          have hp := key (t.bra.drop r) q (by rw [hb0, cols_nil_left, cols_nil_left]; exact hqp.map _)
          exact ⟨⟨rfl, rfl, rfl⟩, idxs_perm_cols hp, fun _ => hp⟩
      · simp only [Option.some.injEq, Prod.mk.injEq] at h
        obtain ⟨_, rfl⟩ := h
        have hp := key (t.bra.drop r) (t.ket.drop r) (List.Perm.refl _)
        exact ⟨⟨rfl, rfl, rfl⟩, idxs_perm_cols hp, fun _ => hp⟩
  · rename_i s hs
    split at h
    · rename_i b n k m hb hk
      simp only [Option.some.injEq, Prod.mk.injEq] at h
      obtain ⟨_, rfl⟩ := h
      have hbp := (bubbleSort_swaps _ _ _ _ _ hb).perm
      have hkp := (bubbleSort_swaps _ _ _ _ _ hk).perm
      exact ⟨⟨rfl, rfl, rfl⟩, (hbp.append hkp).filterMap _, fun hh => absurd hh hs⟩
    · cases h

theorem canonBlock_same {fuel : Nat} {sl idx : Option ι → Option ι → Bool} {pair : Option ι × Option ι → Option ι × Option ι → Bool} {t t' : Tens ι}
    {p : Option Int} (hv : t.sym = .nonsymm → Valid t) (h : canonBlock fuel sl idx pair t = some (p, t')) : SameUpTo (phase p) t t' := by
  have h1 : SameUpTo 1 t (orient sl t) := by
    unfold orient
    split
    · rename_i hb
      split
      · exact sameUpTo_swap hb hv
      · exact SameUpTo.refl _
    · exact SameUpTo.refl _
  have := h1.trans (canonCore_same h)
  rwa [one_mul] at this

theorem canonEach_same {f : Tens (Ix S) → Option (Option Int × Tens (Ix S))} {ts : List (NT L C S)} {r : List (NT L C S) × ℤ}
    (hf : ∀ n ∈ ts, ∀ p t', f n.t = some (p, t') → SameUpTo (phase p) n.t t') (h : canonEach f ts = some r) : NetSame r.2 ts r.1 := by
  induction ts generalizing r with
  | nil =>
    simp only [canonEach, Option.some.injEq] at h
    subst h
    exact NetSame.nil
  | cons n ts ih =>
    rw [canonEach] at h
    simp only [Option.bind_eq_bind, Option.bind_eq_some_iff, Option.pure_def, Option.some.injEq] at h
    obtain ⟨x, hx, y, hy, rfl⟩ := h
    exact (ih (fun m hm => hf m (List.mem_cons_of_mem _ hm)) hy).cons (hf n (by simp) x.1 x.2 hx) rfl rfl rfl rfl

/-! ## Order of the tensors -/

/-- Exchanges of tensors that commute. -/
inductive Exch [DecidableEq C] : List (NT L C S) → List (NT L C S) → Prop
  | refl (l) : Exch l l
  | step {l} (p q x y) : Exch l (p ++ x :: y :: q) → commute x y = true → Exch l (p ++ y :: x :: q)

theorem Exch.trans [DecidableEq C] {a b c : List (NT L C S)} (h : Exch a b) (h' : Exch b c) : Exch a c := by
  induction h' with
  | refl => exact h
  | step p q x y _ hc ih => exact .step p q x y ih hc

theorem Exch.cons [DecidableEq C] (n : NT L C S) {a b : List (NT L C S)} (h : Exch a b) : Exch (n :: a) (n :: b) := by
  induction h with
  | refl => exact .refl _
  | step p q x y _ hc ih => exact .step (n :: p) q x y ih hc

theorem Exch.perm [DecidableEq C] {a b : List (NT L C S)} (h : Exch a b) : b.Perm a := by
  induction h with
  | refl => exact List.Perm.refl _
  | step p q x y _ _ ih => exact ((List.Perm.swap x y q).append_left p).trans ih

theorem commute_comm [DecidableEq C] {x y : NT L C S} (h : commute x y = true) [Ring A] {I : Interp L S V A} {hs : List (Head L C)} (hI : Sound I hs)
    (hx : x.head ∈ hs) (hy : y.head ∈ hs) (σ : Ix S → V) : tval I σ x * tval I σ y = tval I σ y * tval I σ x := by
  have hd : x.head.color ≠ y.head.color ∨ x.head.cnum = true ∨ y.head.cnum = true := by
    simp only [commute, Bool.not_eq_true', Bool.and_eq_false_iff, decide_eq_false_iff_not, Bool.not_eq_false'] at h
    rcases h with (h1 | h1) | h1
    · exact .inl h1
    · exact .inr (.inl h1)
    · exact .inr (.inr h1)
  exact hI.comm x.head hx y.head hy hd _ _ _ _ _ _

theorem Exch.keeps [DecidableEq C] [DecidableEq S] {named : List (Ix S)} {ts ts' : List (NT L C S)} (h : Exch ts ts') : Keeps named 1 ts ts' := by
  have hi := slotIdx_perm h.perm
  refine ⟨h.perm.map _, closed_congr fun _ => hi.mem_iff, ⟨_, Renames.id named ts, by simpa using hi⟩, fun hv n hn => hv n (h.perm.mem_iff.1 hn), ?_⟩
  intro V A _ _ I hI e
  rw [dummies_congr fun _ => hi.mem_iff]
  refine (value_congr I e (dummies named ts) 1 fun σ => ?_).symm
  rw [one_smul]
  clear hi
  induction h with
  | refl => rfl
  | step p q x y h hc ih =>
    rw [← ih]
    have hx : x.head ∈ ts.map NT.head := (h.perm.map NT.head).mem_iff.1 (by simp)
    have hy : y.head ∈ ts.map NT.head := (h.perm.map NT.head).mem_iff.1 (by simp)
    have := commute_comm hc hI hx hy σ
    simp only [pval, List.map_append, List.map_cons, List.prod_append, List.prod_cons]
    rw [← mul_assoc (tval I σ y), ← this, mul_assoc]

/-- Any rearrangement of tensors that all commute. -/
theorem exch_of_perm [DecidableEq C] {ts ts' : List (NT L C S)} (h : ts.Perm ts') (hc : ∀ x ∈ ts, ∀ y ∈ ts, commute x y = true) : Exch ts ts' := by
  induction h with
  | nil => exact .refl _
  | cons n h ih => exact (ih fun x hx y hy => hc x (List.mem_cons_of_mem _ hx) y (List.mem_cons_of_mem _ hy)).cons n
  | swap a b l => exact .step [] l b a (.refl _) (hc b (by simp) a (by simp))
  | trans h1 h2 ih1 ih2 =>
    exact (ih1 hc).trans (ih2 fun x hx y hy => hc x (h1.mem_iff.2 hx) y (h1.mem_iff.2 hy))

section
variable [DecidableEq C]

theorem commute_symm {x y : NT L C S} (h : commute x y = true) : commute y x = true := by
  simp only [commute, Bool.not_eq_true', Bool.and_eq_false_iff, decide_eq_false_iff_not, Bool.not_eq_false'] at h ⊢
  rcases h with (h1 | h1) | h1
  · exact .inl (.inl fun hh => h1 hh.symm)
  · exact .inr h1
  · exact .inl (.inr h1)

theorem tcmp_commute {X : Lex L C S} {b : Bool} {x y : NT L C S} (h : tcmp X b x y = true) : commute x y = true := by
  rw [tcmp] at h
  split at h
  · assumption
  · cases h

theorem exch_swaps {β : Type} {X : Lex L C S} {b : Bool} {n : Nat} {l l' : List (NT L C S × β)}
    (h : Swaps (fun x y => tcmp X b x.1 y.1) n l l') : Exch (l.map Prod.fst) (l'.map Prod.fst) := by
  induction h with
  | refl => exact .refl _
  | step p q x y _ hc ih =>
    simp only [List.map_append, List.map_cons] at ih ⊢
    exact .step _ _ _ _ ih (commute_symm (tcmp_commute hc))

theorem exch_insertS {X : Lex L C S} {b : Bool} (a : NT L C S) (l : List (NT L C S)) : Exch (a :: l) (insertS (tcmp X b) a l) := by
  induction l with
  | nil => exact .refl _
  | cons c l ih =>
    rw [insertS]
    split
    · rename_i h
      exact (Exch.step [] l a c (.refl _) (commute_symm (tcmp_commute h))).trans (ih.cons c)
    · exact .refl _

theorem exch_lexSort {X : Lex L C S} (l : List (NT L C S)) : Exch l (lexSort X l) := by
  induction l with
  | nil => exact .refl _
  | cons a l ih => exact (ih.cons a).trans (exch_insertS a _)

end

/-! ## The fresh indices -/

variable [DecidableEq S]

theorem relabelLex_spec (named : List (Ix S)) (c : S → Nat) (l : List (Ix S)) (m : List (Ix S × Ix S)) (hl : l.Nodup)
    (h : relabelLex named c l = some m) : Relabels named c l m ∧ ∀ i ∈ l, i ∉ named := by
  induction l generalizing c m with
  | nil =>
    simp only [relabelLex, Option.some.injEq] at h
    subst h
    exact ⟨⟨by simp [look], by simp, by simp⟩, by simp⟩
  | cons i l ih =>
    rw [List.nodup_cons] at hl
    rw [relabelLex] at h
    split at h
    · cases h
    · rename_i hi
      simp only [Option.bind_eq_bind, Option.bind_eq_some_iff, Option.pure_def, Option.some.injEq] at h
      obtain ⟨r, hr, m', hm', rfl⟩ := h
      obtain ⟨h1, h2⟩ := ih _ _ hl.2 hm'
      refine ⟨h1.cons hi hl.1 hr, ?_⟩
      intro j hj
      rcases List.mem_cons.1 hj with rfl | hj
      · exact hi
      · exact h2 j hj

/-- If every named index is in a slot, the edges that are skipped are the named ones. -/
theorem lexEdges_drop {X : Lex L C S} {O : Ords S} (hO : O.Total) {named : List (Ix S)} {ts : List (NT L C S)} (hnd : named.Nodup)
    (hn : ∀ i ∈ named, i ∈ slotIdx ts) :
    ((((lexEdges X named (initEdges O ts)).drop named.length).map Edge.idx).Nodup) ∧
    (∀ i, i ∈ ((lexEdges X named (initEdges O ts)).drop named.length).map Edge.idx ↔ i ∈ slotIdx ts ∧ i ∉ named) := by
  set es := initEdges O ts with hes
  have hnodup := initEdges_nodup hO ts
  rw [← hes] at hnodup
  have hlen : (stableSortS X.edge (es.filter (fun e => e.idx ∈ named))).length = named.length := by
    rw [(stableSortS_perm _ _).length_eq]
    have hp : ((es.filter (fun e => e.idx ∈ named)).map Edge.idx).Perm named := by
      refine (List.perm_ext_iff_of_nodup (hnodup.sublist (List.filter_sublist.map _)) hnd).2 fun i => ?_
      simp only [List.mem_map, List.mem_filter, decide_eq_true_eq]
      constructor
      · rintro ⟨e, ⟨_, h1⟩, rfl⟩; exact h1
      · intro hi
        have := (initEdges_mem O ts i).2 (hn i hi)
        obtain ⟨e, he, rfl⟩ := List.mem_map.1 this
        exact ⟨e, ⟨he, hi⟩, rfl⟩
    have := hp.length_eq
    simpa using this
  have hdrop : (lexEdges X named es).drop named.length = stableSortS X.edge (es.filter (fun e => e.idx ∉ named)) := by
    rw [lexEdges, ← hlen, List.drop_left]
  rw [hdrop]
  have hperm := stableSortS_perm X.edge (es.filter (fun e => e.idx ∉ named))
  refine ⟨(hperm.map _).symm.nodup (hnodup.sublist (List.filter_sublist.map _)), fun i => ?_⟩
  rw [(hperm.map Edge.idx).mem_iff, ← initEdges_mem O ts i]
  simp only [List.mem_map, List.mem_filter, decide_eq_true_eq]
  constructor
  · rintro ⟨e, ⟨he, h1⟩, rfl⟩; exact ⟨⟨e, he, rfl⟩, h1⟩
  · rintro ⟨⟨e, he, rfl⟩, h1⟩; exact ⟨e, ⟨he, h1⟩, rfl⟩

variable [DecidableEq C]

/-- The result of the lexicographic stage up to the final sort. -/
theorem canonLex_keeps {O : Ords S} (hO : O.Total) {X : Lex L C S} {fuel : Nat} {N : List (NT L C S) → List (Ix S)} {named : List (Ix S)}
    {ts : List (NT L C S)} {ords : List Nat} {r : List (NT L C S) × List Nat × ℤ} (hN : ∀ ts1, (slotIdx ts1).Perm (slotIdx ts) → N ts1 = named) (hlen : ords.length = ts.length) (hc : Closed named ts) (hd : Distinct named ts)
    (hnd : named.Nodup) (hn : ∀ i ∈ named, i ∈ slotIdx ts) (hv : ∀ n ∈ ts, n.t.sym = .nonsymm → Valid n.t)
    (h : canonLex O X fuel N ts ords = some r) : Keeps named r.2.2 ts r.1 ∧ Distinct named r.1 := by
  rw [canonLex] at h
  simp only [Option.bind_eq_bind, Option.bind_eq_some_iff, Option.pure_def, Option.some.injEq] at h
  obtain ⟨b, hb, z, hz, m, hm, ts2, hts2, d, hdd, rfl⟩ := h
  have n1 := canonEach_same (fun n hn p t' ht => canonBlock_same (hv n hn) ht) hb
  have k1 := n1.keeps (named := named)
  have hbl : b.1.length = ts.length := by simpa using congrArg List.length n1.heads
  have e1 := exch_swaps (bubbleSort_swaps _ _ _ _ z.2 hz)
  have hfst : (b.1.zip ords).map Prod.fst = b.1 := List.map_fst_zip (by omega)
  rw [hfst] at e1
  have k2 := e1.keeps (named := named)
  have k12 := k1.trans k2
  set ts1 := z.1.map Prod.fst with hts1
  rw [hN ts1 ((slotIdx_perm e1.perm).trans n1.idx)] at hm
  have hidx : ∀ i, i ∈ slotIdx ts1 ↔ i ∈ slotIdx ts := fun i => ((slotIdx_perm e1.perm).trans n1.idx).mem_iff
  have hc1 := k12.closed hc
  have hd1 : Distinct named ts1 := distinct_congr hidx hd
  obtain ⟨ld1, ld2⟩ := lexEdges_drop (X := X) hO hnd (fun i hi => (hidx i).2 (hn i hi))
  obtain ⟨hrel, _⟩ := relabelLex_spec named _ _ m ld1 hm
  have hna : ∀ i ∈ slotIdx ts1, NotAgain O m i := fun i hi => notAgain hrel hc1 hd1 (fun j hj => ((ld2 j).1 hj).1) hi
  have hl : ∀ i ∈ slotIdx ts1, i ∉ named → i ∈ ((lexEdges X named (initEdges O ts1)).drop named.length).map Edge.idx :=
    fun i hi hin => (ld2 i).2 ⟨hi, hin⟩
  have hr := renames (O := O) hrel hc1 hl
  have e2 := (replAll_eq hrel.plain ts1 hna fuel).1 ts2 hts2
  subst e2
  have k3 := keeps_renames hc1 hr
  have n4 := canonEach_same (fun n _ p t' ht => canonCore_same ht) hdd
  have k4 := n4.keeps (named := named)
  refine ⟨?_, distinct_congr (fun _ => n4.idx.mem_iff) (distinct_mapIx hrel hc1 hl)⟩
  have := (k12.trans k3).trans k4
  simpa using this

end SeQuant.Network
