import Verif.Network.Graph

/-!
# The topological stage always gives a result
-/

namespace SeQuant.Network

open SeQuant.Sort SeQuant.Tensors

variable {L C S ι : Type}

theorem inv_le {α : Type} (comp : α → α → Bool) (l : List α) : inv comp l ≤ l.length * l.length := by
  induction l with
  | nil => simp [inv]
  | cons a l ih =>
    rw [inv, List.length_cons]
    have := List.countP_le_length (p := fun b => comp b a) (l := l)
    have e : (l.length + 1) * (l.length + 1) = l.length * l.length + 2 * l.length + 1 := by ring
    omega

theorem bubbleSort_range {comp : Nat → Nat → Bool} (h : ∀ a b, comp a b = true → comp b a = false) {fuel n : Nat} (hf : n * n < fuel) :
    ∃ r, bubbleSort comp fuel (List.range n) = some r := by
  refine bubbleSort_terminates_aux comp h fuel _ (lt_of_le_of_lt (inv_le comp _) ?_)
  simpa using hf

theorem sortOrdinals_total {fuel : Nat} {iseq : List Nat} (hf : iseq.length * iseq.length < fuel) :
    ∃ o, sortOrdinals fuel iseq = some o ∧ o.1.Perm (List.range iseq.length) := by
  obtain ⟨r, hr⟩ := bubbleSort_range (comp := fun a b => decide (iseq.getD a 0 < iseq.getD b 0))
    (fun a b hab => by simp only [decide_eq_true_eq, decide_eq_false_iff_not] at hab ⊢; omega) hf
  refine ⟨_, by rw [sortOrdinals, hr]; rfl, ?_⟩
  exact (bubbleSort_swaps _ _ _ _ r.2 hr).perm

theorem mapM_total {α : Type} (l : List α) (o : List Nat) (h : ∀ p ∈ o, p < l.length) : ∃ r, o.mapM (fun p => l[p]?) = some r := by
  induction o with
  | nil => exact ⟨[], rfl⟩
  | cons p o ih =>
    obtain ⟨r, hr⟩ := ih fun q hq => h q (List.mem_cons_of_mem _ hq)
    have hp := h p (by simp)
    exact ⟨l[p] :: r, by rw [List.mapM_cons, hr]; simp [hp]⟩

theorem permuteImpl_total {α : Type} {l : List α} {o : List Nat} (h : o.Perm (List.range l.length)) : ∃ r, permuteImpl l o = some r := by
  have hl : o.length = l.length := by simpa using h.length_eq
  obtain ⟨r, hr⟩ := mapM_total l o fun p hp => List.mem_range.1 (h.mem_iff.1 hp)
  exact ⟨r, by rw [permuteImpl, if_pos hl.symm]; exact hr⟩

/-! ## Columns -/

def numPaired (b k : List (Option ι)) : Nat := ((b.zip k).filter (fun x => x.1.isSome && x.2.isSome)).length
def numBra (b k : List (Option ι)) : Nat := ((b.zip k).filter (fun x => x.1.isSome && !x.2.isSome)).length + (b.length - k.length)

/-- Slots as `canonicalize_slots` leaves them: pairs, then bra slots without ket, then ket slots without bra. -/
structure Laid (b k : List (Option ι)) : Prop where
  bra : k.length < b.length → k.length = numPaired b k
  ket : b.length < k.length → b.length = numPaired b k + numBra b k

theorem filter_lt_length {o : List Nat} {n a : Nat} (h : o.Perm (List.range n)) (ha : a ≤ n) : (o.filter (· < a)).length = a := by
  have h1 := (h.filter (fun x => decide (x < a))).length_eq
  rw [h1]
  have : ∀ n, a ≤ n → ((List.range n).filter (fun x => decide (x < a))).length = a := by
    intro n hn
    obtain ⟨d, rfl⟩ := Nat.exists_eq_add_of_le hn
    clear h h1 ha hn
    induction d with
    | zero =>
      rw [Nat.add_zero, List.filter_eq_self.2, List.length_range]
      intro x hx
      simpa using hx
    | succ d ih =>
      rw [← Nat.add_assoc, List.range_succ, List.filter_append, List.length_append, ih]
      simp
  exact this n ha

theorem permuteColumns_total {b k : List (Option ι)} {o : List Nat} (hl : Laid b k) (ho : o.Perm (List.range (max b.length k.length))) :
    ∃ r, permuteColumns b k o = some r := by
  have hlen : o.length = max b.length k.length := by simpa using ho.length_eq
  rw [permuteColumns, if_pos hlen.symm]
  simp only
  have e1 : ((b.zip k).filter (fun x => x.1.isSome && x.2.isSome)).length = numPaired b k := rfl
  have e2 : ((b.zip k).filter (fun x => x.1.isSome && !x.2.isSome)).length + (b.length - k.length) = numBra b k := rfl
  rw [e1, e2]
  have hzip : (b.zip k).length = min b.length k.length := by simp
  have hnp : numPaired b k ≤ min b.length k.length := by
    rw [← hzip]; exact List.length_filter_le _ _
  rw [if_neg (fun hh => hh.2 (hl.bra hh.1))]
  set q := o.filter (· < numPaired b k) ++ o.filter (fun i => decide (numPaired b k ≤ i) && decide (i < numPaired b k + numBra b k))
    ++ o.filter (numPaired b k + numBra b k ≤ ·) with hq
  have hqp : q.Perm (List.range (max b.length k.length)) := (split_perm o _ _).trans ho
  have hqlt : ∀ x ∈ q, x < max b.length k.length := fun x hx => List.mem_range.1 (hqp.mem_iff.1 hx)
  have hb : ∀ x ∈ q.take b.length, x < b.length := by
    intro x hx
    by_cases hbk : k.length ≤ b.length
    · have := hqlt x (List.mem_of_mem_take hx); omega
    · have h1 := hl.ket (by omega)
      have h2 : (o.filter (· < numPaired b k) ++ o.filter (fun i => decide (numPaired b k ≤ i) && decide (i < numPaired b k + numBra b k))).length = b.length := by
        have h3 := filter_lt_length (a := numPaired b k + numBra b k) ho (by omega)
        refine Eq.trans ?_ (h3.trans h1.symm)
        refine List.Perm.length_eq ?_
        have h4 := split_perm (o.filter (· < numPaired b k + numBra b k)) (numPaired b k) (numBra b k)
        have h5 : (o.filter (· < numPaired b k + numBra b k)).filter (numPaired b k + numBra b k ≤ ·) = [] := by
          rw [List.filter_eq_nil_iff]
          intro y hy
          have := (List.mem_filter.1 hy).2
          simp only [decide_eq_true_eq] at this ⊢
          omega
        rw [h5, List.append_nil, List.filter_filter, List.filter_filter] at h4
        refine (List.Perm.of_eq ?_).trans h4
        congr 1
        · refine List.filter_congr fun y _ => ?_
          by_cases hy : y < numPaired b k
          · simp [hy]; omega
          · simp [hy]
        · refine List.filter_congr fun y _ => ?_
          by_cases hy : y < numPaired b k + numBra b k <;> simp [hy]
      rw [hq, List.take_left' h2, List.mem_append] at hx
      rcases hx with hx | hx
      · have := (List.mem_filter.1 hx).2
        simp only [decide_eq_true_eq] at this
        omega
      · have := (List.mem_filter.1 hx).2
        simp only [Bool.and_eq_true, decide_eq_true_eq] at this
        omega
  have hk : ∀ x ∈ q.take k.length, x < k.length := by
    intro x hx
    by_cases hbk : b.length ≤ k.length
    · have := hqlt x (List.mem_of_mem_take hx); omega
    · have h1 := hl.bra (by omega)
      have h2 : (o.filter (· < numPaired b k)).length = k.length := by rw [filter_lt_length ho (by omega)]; exact h1.symm
      rw [hq, List.append_assoc, List.take_left' h2] at hx
      have := (List.mem_filter.1 hx).2
      simp only [decide_eq_true_eq] at this
      omega
  obtain ⟨r1, h1⟩ := mapM_total b _ hb
  obtain ⟨r2, h2⟩ := mapM_total k _ hk
  exact ⟨(r1, r2), by rw [h1, h2]; rfl⟩

/-- The constructors of tensors leave the slots so. -/
theorem laid_canonical (t : Tens ι) (hs : t.sym = .nonsymm) (hc : t.col = true) : Laid (canonicalizeSlots t).bra (canonicalizeSlots t).ket := by
  by_cases he : (t.bra.any Option.isNone || t.ket.any Option.isNone) = true
  · obtain ⟨ps, bo, ko, h1, h2⟩ := canonicalizeSlots_layout t hs hc he
    rw [h1, h2]
    have z : (ps.map (fun p => some p.1) ++ bo.map some).zip (ps.map (fun p => some p.2) ++ bo.map (fun _ => (none : Option ι)) ++ ko.map some)
        = ps.map (fun p => (some p.1, some p.2)) ++ bo.map (fun x => (some x, none)) := by
      rw [List.append_assoc, List.zip_append (by simp)]
      congr 1
      · rw [List.zip_map']
      · rw [← List.append_nil (bo.map some), List.zip_append (by simp), List.zip_map']
        simp
    refine ⟨fun h => ?_, fun _ => ?_⟩
    · simp at h
    · rw [numPaired, numBra, z]
      simp [List.filter_append, List.filter_map, Function.comp_def]
  · have hcs : canonicalizeSlots t = t := by unfold canonicalizeSlots; rw [if_pos ⟨hs, hc⟩, if_neg he]
    rw [hcs]
    have hb : ∀ x ∈ t.bra, x.isSome = true := by
      intro x hx
      simp only [Bool.or_eq_true, not_or, List.any_eq_true, not_exists, not_and] at he
      have := he.1 x hx
      cases x <;> simp_all
    have hk : ∀ x ∈ t.ket, x.isSome = true := by
      intro x hx
      simp only [Bool.or_eq_true, not_or, List.any_eq_true, not_exists, not_and] at he
      have := he.2 x hx
      cases x <;> simp_all
    have hp : numPaired t.bra t.ket = min t.bra.length t.ket.length := by
      rw [numPaired, List.filter_eq_self.2, List.length_zip]
      rintro ⟨x, y⟩ hxy
      have := List.of_mem_zip hxy
      simp [hb x this.1, hk y this.2]
    refine ⟨fun h => ?_, fun h => ?_⟩
    · rw [hp]; omega
    · have : numBra t.bra t.ket = 0 := by
        rw [numBra, List.filter_eq_nil_iff.2]
        · simp; omega
        · rintro ⟨x, y⟩ hxy
          have := List.of_mem_zip hxy
          simp [hk y this.2]
      rw [hp, this]; omega

/-! ## All tensors -/

/-- Tensors with column symmetry but no symmetry have their slots arranged. -/
def LaidT (n : NT L C S) : Prop := n.t.sym = .nonsymm → n.t.col = true → Laid n.t.bra n.t.ket

theorem ordsOf_length (π : Nat → Nat) (v : Nat) (ty : VT) (vts : List VT) : (ordsOf π v ty vts).length = vts.count ty := by
  rw [ordsOf, List.length_map]
  induction vts generalizing v with
  | nil => rfl
  | cons x vts ih =>
    rw [List.zipIdx_cons, List.filter_cons, List.count_cons]
    by_cases h : x = ty
    · simp [h, ih (v + 1)]
    · simp [h, ih (v + 1)]

theorem count_bra (n : NT L C S) : (tensorVTs n).count .bra = n.t.bra.length := by
  simp only [tensorVTs, List.count_append, List.count_replicate]
  simp

theorem count_ket (n : NT L C S) : (tensorVTs n).count .ket = n.t.ket.length := by
  simp only [tensorVTs, List.count_append, List.count_replicate]
  simp

theorem count_braket (n : NT L C S) (h : n.t.sym = .nonsymm) : (tensorVTs n).count .braket = max n.t.bra.length n.t.ket.length + 1 := by
  simp only [tensorVTs, List.count_append, List.count_replicate, h]
  simp

theorem permuteTensor_total {fuel : Nat} {π : Nat → Nat} {v : Nat} {n : NT L C S} (hl : LaidT n)
    (hf : max n.t.bra.length n.t.ket.length * max n.t.bra.length n.t.ket.length < fuel) : ∃ r, permuteTensor fuel π v n = some r := by
  rw [permuteTensor]
  split
  · exact ⟨_, rfl⟩
  · rename_i hcol
    have hs : ∃ o, permuteSlots fuel π v n = some o := by
      rw [permuteSlots]
      simp only
      split
      · rename_i hsym
        split
        · exact ⟨_, rfl⟩
        · have hlen : ((ordsOf π v .braket (tensorVTs n)).drop 1).length = max n.t.bra.length n.t.ket.length := by
            rw [List.length_drop, ordsOf_length, count_braket n hsym]; rfl
          obtain ⟨o, ho, hop⟩ := sortOrdinals_total (fuel := fuel) (iseq := (ordsOf π v .braket (tensorVTs n)).drop 1) (by rw [hlen]; exact hf)
          rw [hlen] at hop
          obtain ⟨r, hr⟩ := permuteColumns_total (hl hsym (by simpa using hcol)) hop
          exact ⟨_, by rw [ho, Option.bind_eq_bind, Option.bind_some, hr]; rfl⟩
      · split
        · exact ⟨_, rfl⟩
        · have hb : (ordsOf π v .bra (tensorVTs n)).length = n.t.bra.length := by rw [ordsOf_length, count_bra]
          have hk : (ordsOf π v .ket (tensorVTs n)).length = n.t.ket.length := by rw [ordsOf_length, count_ket]
          obtain ⟨ob, hob, hobp⟩ := sortOrdinals_total (fuel := fuel) (iseq := ordsOf π v .bra (tensorVTs n))
            (by rw [hb]; exact lt_of_le_of_lt (Nat.mul_le_mul (le_max_left _ _) (le_max_left _ _)) hf)
          obtain ⟨ok, hok, hokp⟩ := sortOrdinals_total (fuel := fuel) (iseq := ordsOf π v .ket (tensorVTs n))
            (by rw [hk]; exact lt_of_le_of_lt (Nat.mul_le_mul (le_max_right _ _) (le_max_right _ _)) hf)
          rw [hb] at hobp
          rw [hk] at hokp
          obtain ⟨b, hbb⟩ := permuteImpl_total hobp
          obtain ⟨k, hkk⟩ := permuteImpl_total hokp
          exact ⟨_, by rw [hob, hok, Option.bind_eq_bind, Option.bind_some, Option.bind_eq_bind, Option.bind_some, hbb, hkk]; rfl⟩
    obtain ⟨o, ho⟩ := hs
    rw [ho, Option.bind_eq_bind, Option.bind_some]
    cases o with
    | none => exact ⟨_, rfl⟩
    | some r =>
      simp only
      split <;> exact ⟨_, rfl⟩

theorem permuteAll_total {fuel : Nat} {π : Nat → Nat} {v : Nat} {ts : List (NT L C S)} (hl : ∀ n ∈ ts, LaidT n)
    (hf : ∀ n ∈ ts, max n.t.bra.length n.t.ket.length * max n.t.bra.length n.t.ket.length < fuel) :
    ∃ r, permuteAll fuel π v ts = some r ∧ r.1.length = ts.length := by
  induction ts generalizing v with
  | nil => exact ⟨_, rfl, rfl⟩
  | cons n ts ih =>
    obtain ⟨x, hx⟩ := permuteTensor_total (π := π) (v := v) (hl n (by simp)) (hf n (by simp))
    obtain ⟨y, hy, hyl⟩ := ih (v := v + (tensorVTs n).length) (fun m hm => hl m (List.mem_cons_of_mem _ hm)) (fun m hm => hf m (List.mem_cons_of_mem _ hm))
    exact ⟨_, by rw [permuteAll, hx, Option.bind_eq_bind, Option.bind_some, hy]; rfl, by simp [hyl]⟩

theorem laid_mapIx (ρ : Ix S → Ix S) (n : NT L C S) (h : LaidT n) : LaidT (n.mapIx ρ) := by
  intro hs hc
  obtain ⟨h1, h2⟩ := h hs hc
  have z : (n.t.bra.map (Option.map ρ)).zip (n.t.ket.map (Option.map ρ)) = (n.t.bra.zip n.t.ket).map (Prod.map (Option.map ρ) (Option.map ρ)) := by
    rw [List.zip_map]
  have e1 : numPaired (n.t.bra.map (Option.map ρ)) (n.t.ket.map (Option.map ρ)) = numPaired n.t.bra n.t.ket := by
    rw [numPaired, z, List.filter_map, List.length_map, numPaired]
    simp [Function.comp_def]
  have e2 : numBra (n.t.bra.map (Option.map ρ)) (n.t.ket.map (Option.map ρ)) = numBra n.t.bra n.t.ket := by
    rw [numBra, z, List.filter_map, List.length_map, numBra]
    simp [Function.comp_def]
  exact ⟨by simpa [NT.mapIx, e1] using h1, by simpa [NT.mapIx, e1, e2] using h2⟩

theorem exists_bind {α β : Type} {o : Option α} {f : α → Option β} (h : ∃ r, o = some r) (hf : ∀ r, ∃ q, f r = some q) : ∃ q, (o >>= f) = some q := by
  obtain ⟨r, rfl⟩ := h
  exact hf r

variable [DecidableEq S] [DecidableEq C]

theorem sortWeak_total {α : Type} {fuel : Nat} {seq : List α} {lt : Nat → Nat → Bool} (h : ∀ a b, lt a b = true → lt b a = false)
    (hf : seq.length * seq.length < fuel) : ∃ r, sortWeak fuel seq lt = some r := by
  obtain ⟨r, hr⟩ := bubbleSort_range h hf
  have hp := (bubbleSort_swaps lt fuel _ _ r.2 hr).perm
  exact ⟨_, by rw [sortWeak, hr, Option.bind_eq_bind, Option.bind_some, applyOrdinals_eq seq r.1 hp]⟩

theorem canonGraph_some {O : Ords S} (hO : O.Total) {fuel : Nat} {π : Nat → Nat} {named : List (Ix S)} {ts : List (NT L C S)} (hc : Closed named ts)
    (hd : Distinct named ts) (hl : ∀ n ∈ ts, LaidT n) (h3 : 3 ≤ fuel) (hf : ts.length * ts.length < fuel)
    (hf' : ∀ n ∈ ts, max n.t.bra.length n.t.ket.length * max n.t.bra.length n.t.ket.length < fuel) :
    ∃ r, canonGraph O fuel π named ts = some r := by
  rw [canonGraph]
  obtain ⟨t, ht, htp⟩ := sortStrict_eq (initEdges O ts)
    (fun a b => decide ((ordsOf π 0 VT.index (graphVTs ts (initEdges O ts))).getD a 0 < (ordsOf π 0 VT.index (graphVTs ts (initEdges O ts))).getD b 0))
  rw [ht, Option.bind_eq_bind, Option.bind_some]
  simp only
  obtain ⟨m, hm⟩ := relabel_total named (fun _ => 0) (t.map Edge.idx)
  rw [hm, Option.bind_eq_bind, Option.bind_some]
  have hperm : (t.map Edge.idx).Perm ((initEdges O ts).map Edge.idx) := htp.map _
  have hmem : ∀ i, i ∈ t.map Edge.idx ↔ i ∈ slotIdx ts := fun i => hperm.mem_iff.trans (initEdges_mem O ts i)
  have hrel := relabel_spec named _ _ m (hperm.symm.nodup (initEdges_nodup hO ts)) hm
  have hna : ∀ i ∈ slotIdx ts, NotAgain O m i := fun i hi => notAgain hrel hc hd (fun j hj => (hmem j).1 hj) hi
  rw [(replAll_eq hrel.plain ts hna fuel).2 h3, Option.bind_eq_bind, Option.bind_some]
  obtain ⟨p, hp, hpl⟩ := permuteAll_total (fuel := fuel) (π := π) (v := 0) (ts := ts.map (NT.mapIx (replIx O m)))
    (fun n' hn' => by
      obtain ⟨n, hn, rfl⟩ := List.mem_map.1 hn'
      exact laid_mapIx _ n (hl n hn))
    (fun n' hn' => by
      obtain ⟨n, hn, rfl⟩ := List.mem_map.1 hn'
      simpa [NT.mapIx] using hf' n hn)
  rw [hp, Option.bind_eq_bind, Option.bind_some]
  rw [List.length_map] at hpl
  refine exists_bind (sortWeak_total ?_ (by rw [hpl]; exact hf)) fun r => ⟨_, rfl⟩
  intro a b hab
  split at hab
  · rename_i x y hx hy
    rw [hx, hy]
    simp only
    split at hab
    · simp only [decide_eq_true_eq] at hab
      split
      · simp only [decide_eq_false_iff_not]; omega
      · rfl
    · cases hab
  · cases hab

end SeQuant.Network
