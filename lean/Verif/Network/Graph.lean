import Verif.Network.Rename
import Verif.Network.Permute

/-!
# The topological stage keeps the value
-/

namespace SeQuant.Network

open SeQuant.Sort SeQuant.Tensors

variable {L C S V A : Type} [DecidableEq S]

omit [DecidableEq S] in
theorem valid_mapIx (ρ : Ix S → Ix S) (n : NT L C S) (h : n.t.sym = .nonsymm → Valid n.t) : (n.mapIx ρ).t.sym = .nonsymm → Valid (n.mapIx ρ).t := by
  intro hs c hc
  have h1 := h hs
  simp only [NT.mapIx] at hc
  rw [cols_map] at hc
  obtain ⟨d, hd, rfl⟩ := List.mem_map.1 hc
  have := h1 d hd
  simpa [full] using this

/-- What is kept by a stage. -/
structure Keeps (named : List (Ix S)) (s : ℤ) (ts ts' : List (NT L C S)) : Prop where
  heads : (ts'.map NT.head).Perm (ts.map NT.head)
  closed : Closed named ts → Closed named ts'
  idx : ∃ ρ, Renames named ts ρ ∧ (slotIdx ts').Perm ((slotIdx ts).map ρ)
  valid : (∀ n ∈ ts, n.t.sym = .nonsymm → Valid n.t) → (∀ n ∈ ts', n.t.sym = .nonsymm → Valid n.t)
  value : ∀ {V A : Type} [Fintype V] [Ring A] (I : Interp L S V A), Sound I (ts.map NT.head) → ∀ e : Ix S → V,
    value I (dummies named ts) e ts = s • value I (dummies named ts') e ts'

omit [DecidableEq S] in
theorem Renames.id (named : List (Ix S)) (ts : List (NT L C S)) : Renames named ts (fun i => i) :=
  ⟨fun _ _ => rfl, fun _ _ => List.Perm.refl _, fun _ _ _ _ => rfl, fun _ _ => rfl, fun _ _ h => h, fun _ _ _ _ _ _ h => h⟩

omit [DecidableEq S] in
theorem Renames.comp {named : List (Ix S)} {a b : List (NT L C S)} {ρ ρ' : Ix S → Ix S} (h : Renames named a ρ) (h' : Renames named b ρ')
    (hp : (slotIdx b).Perm ((slotIdx a).map ρ)) : Renames named a (fun i => ρ' (ρ i)) := by
  have hm : ∀ i ∈ slotIdx a, ρ i ∈ slotIdx b := fun i hi => hp.mem_iff.2 (List.mem_map.2 ⟨i, hi, rfl⟩)
  refine ⟨fun i hi => (h'.space _ (hm i hi)).trans (h.space i hi), fun i hi => ?_, fun i hi p hpp => ?_, fun i hi => ?_, fun i hi hin => ?_,
    fun i hi j hj hin hjn he => ?_⟩
  · refine (h'.protos _ (hm i hi)).trans ?_
    have h1 := (h.protos i hi).map ρ'
    rw [List.map_map, List.map_map] at h1
    exact h1
  · obtain ⟨q, hq, hqe⟩ := List.mem_map.1 ((h.protos i hi).mem_iff.2 (List.mem_map.2 ⟨p, hpp, rfl⟩))
    show (ρ' (ρ p.toIx)).space = p.space
    rw [← hqe, h'.pspace _ (hm i hi) q hq, ← h.pspace i hi p hpp, ← hqe]
    rfl
  · show ρ' (ρ i) = i
    rw [h.fixed i hi, h'.fixed i hi]
  · exact h'.fresh _ (hm i hi) (h.fresh i hi hin)
  · exact h.inj i hi j hj hin hjn (h'.inj _ (hm i hi) _ (hm j hj) (h.fresh i hi hin) (h.fresh j hj hjn) he)

theorem Keeps.trans {named : List (Ix S)} {s s' : ℤ} {a b c : List (NT L C S)} (h : Keeps named s a b) (h' : Keeps named s' b c) :
    Keeps named (s * s') a c := by
  refine ⟨h'.heads.trans h.heads, fun hc => h'.closed (h.closed hc), ?_, fun hv => h'.valid (h.valid hv), ?_⟩
  · obtain ⟨ρ, h1, h2⟩ := h.idx
    obtain ⟨ρ', h3, h4⟩ := h'.idx
    refine ⟨fun i => ρ' (ρ i), h1.comp h3 h2, h4.trans ?_⟩
    have := h2.map ρ'
    rw [List.map_map] at this
    exact this
  · intro V A _ _ I hI e
    rw [h.value I hI e, h'.value I (hI.mono fun x hx => h.heads.mem_iff.1 hx) e, mul_smul]

omit [DecidableEq S] in
theorem closed_congr {named : List (Ix S)} {ts ts' : List (NT L C S)} (h : ∀ i, i ∈ slotIdx ts' ↔ i ∈ slotIdx ts) (hc : Closed named ts) :
    Closed named ts' :=
  ⟨fun i hi p hp => by rw [h]; exact hc.slot i ((h i).1 hi) p hp, hc.named⟩

omit [DecidableEq S] in
theorem distinct_congr {named : List (Ix S)} {ts ts' : List (NT L C S)} (h : ∀ i, i ∈ slotIdx ts' ↔ i ∈ slotIdx ts) (hd : Distinct named ts) :
    Distinct named ts' :=
  fun i hi j hj => hd i ((h i).1 hi) j ((h j).1 hj)

theorem dummies_congr {named : List (Ix S)} {ts ts' : List (NT L C S)} (h : ∀ i, i ∈ slotIdx ts' ↔ i ∈ slotIdx ts) : dummies named ts' = dummies named ts := by
  ext i
  rw [mem_dummies, mem_dummies, h]

theorem NetSame.keeps {named : List (Ix S)} {s : ℤ} {ts ts' : List (NT L C S)} (h : NetSame s ts ts') : Keeps named s ts ts' := by
  refine ⟨List.Perm.of_eq h.heads, closed_congr fun _ => h.idx.mem_iff, ⟨_, Renames.id named ts, by simpa using h.idx⟩, h.valid, ?_⟩
  intro V A _ _ I hI e
  rw [dummies_congr fun _ => h.idx.mem_iff]
  exact (value_congr I e (dummies named ts) s fun σ => (h.value I hI σ).symm).symm

theorem keeps_renames {named : List (Ix S)} {ts : List (NT L C S)} {ρ : Ix S → Ix S} (hc : Closed named ts) (hr : Renames named ts ρ) :
    Keeps named 1 ts (ts.map (NT.mapIx ρ)) := by
  refine ⟨?_, fun _ => closed_mapIx hr hc, ⟨ρ, hr, by rw [slotIdx_mapIx]⟩, fun hv n' hn' => ?_, ?_⟩
  · rw [List.map_map]; exact List.Perm.refl _
  · obtain ⟨n, hn, rfl⟩ := List.mem_map.1 hn'
    exact valid_mapIx ρ n (hv n hn)
  · intro V A _ _ I _ e
    rw [one_smul, value_renames I e hc hr]

omit [DecidableEq S] in
theorem slotIdx_perm {ts ts' : List (NT L C S)} (h : ts'.Perm ts) : (slotIdx ts').Perm (slotIdx ts) := (h.flatMap_right _).filterMap _

variable [DecidableEq C]

/-- Sorting that exchanges only tensors that commute. -/
theorem keeps_sortWeak {named : List (Ix S)} {fuel : Nat} {ts : List (NT L C S)} {lt : Nat → Nat → Bool} {r : List (NT L C S) × List Nat}
    (hlt : ∀ a b x y, lt a b = true → ts[a]? = some x → ts[b]? = some y → commute x y = true)
    (hlt' : ∀ a b, lt a b = true → a < ts.length ∧ b < ts.length)
    (h : sortWeak fuel ts lt = some r) : Keeps named 1 ts r.1 ∧ r.2 = List.range ts.length ∧ (slotIdx r.1).Perm (slotIdx ts) := by
  obtain ⟨o, n, hb, rfl, hp⟩ := sortWeak_eq fuel ts lt r h
  have hi := slotIdx_perm (pick_perm ts hp)
  refine ⟨⟨(pick_perm ts hp).map _, closed_congr fun _ => hi.mem_iff, ⟨_, Renames.id named ts, by simpa using hi⟩, fun hv n hn => hv n ((pick_perm ts hp).mem_iff.1 hn), ?_⟩, rfl, hi⟩
  intro V A _ _ I hI e
  simp only
  rw [dummies_congr fun _ => hi.mem_iff]
  refine (value_congr I e (dummies named ts) 1 fun σ => ?_).symm
  rw [one_smul, pval, pval, pick_map]
  have hlt1 : ∀ p ∈ o, p < (ts.map (tval I σ)).length := fun p hpp => by simpa using hp.mem_iff.1 hpp
  have h1 := bubbleSort_prod (fun p => (ts.map (tval I σ)).getD p 0) lt ?_ fuel _ _ n hb
  · rw [pick_eq_map 0 _ o hlt1, h1, ← pick_eq_map 0 _ (List.range ts.length) (fun p hpp => by simpa using hpp)]
    have : List.range ts.length = List.range (ts.map (tval I σ)).length := by simp
    rw [this, pick_range]
  · intro x y hyx
    obtain ⟨hy, hx⟩ := hlt' y x hyx
    have hc := hlt y x ts[y] ts[x] hyx (by simp [hy]) (by simp [hx])
    have hd : ts[x].head.color ≠ ts[y].head.color ∨ ts[x].head.cnum = true ∨ ts[y].head.cnum = true := by
      simp only [commute, Bool.not_eq_true', Bool.and_eq_false_iff, decide_eq_false_iff_not, Bool.not_eq_false'] at hc
      rcases hc with (h1 | h1) | h1
      · exact .inl fun hh => h1 hh.symm
      · exact .inr (.inr h1)
      · exact .inr (.inl h1)
    have := hI.comm ts[x].head (List.mem_map.2 ⟨_, List.getElem_mem hx, rfl⟩) ts[y].head (List.mem_map.2 ⟨_, List.getElem_mem hy, rfl⟩) hd
    simp only [List.getD_eq_getElem?_getD, List.getElem?_map]
    rw [show ts[x]? = some ts[x] by simp [hx], show ts[y]? = some ts[y] by simp [hy]]
    exact this _ _ _ _ _ _

/-- The result of the topological stage. -/
theorem canonGraph_keeps {O : Ords S} (hO : O.Total) {fuel : Nat} {π : Nat → Nat} {named : List (Ix S)} {ts : List (NT L C S)}
    {r : List (NT L C S) × List Nat × ℤ} (hc : Closed named ts) (hd : Distinct named ts) (hv : ∀ n ∈ ts, n.t.sym = .nonsymm → Valid n.t)
    (h : canonGraph O fuel π named ts = some r) :
    Keeps named r.2.2 ts r.1 ∧ Distinct named r.1 ∧ r.2.1 = List.range ts.length := by
  rw [canonGraph] at h
  simp only [Option.bind_eq_bind, Option.bind_eq_some_iff, Option.pure_def, Option.some.injEq] at h
  obtain ⟨es', hes, m, hm, ts1, hts1, p, hp, q, hq, rfl⟩ := h
  obtain ⟨t, ht, htp⟩ := sortStrict_eq (initEdges O ts)
    (fun a b => decide ((ordsOf π 0 VT.index (graphVTs ts (initEdges O ts))).getD a 0 < (ordsOf π 0 VT.index (graphVTs ts (initEdges O ts))).getD b 0))
  rw [ht] at hes
  simp only [Option.some.injEq] at hes
  subst hes
  have hperm : (t.map Edge.idx).Perm ((initEdges O ts).map Edge.idx) := htp.map _
  have hmem : ∀ i, i ∈ t.map Edge.idx ↔ i ∈ slotIdx ts := fun i => hperm.mem_iff.trans (initEdges_mem O ts i)
  have hrel := relabel_spec named _ _ m (hperm.symm.nodup (initEdges_nodup hO ts)) hm
  have hna : ∀ i ∈ slotIdx ts, NotAgain O m i := fun i hi => notAgain hrel hc hd (fun j hj => (hmem j).1 hj) hi
  have hl : ∀ i ∈ slotIdx ts, i ∉ named → i ∈ t.map Edge.idx := fun i hi _ => (hmem i).2 hi
  have hr := renames (O := O) hrel hc hl
  have e1 := (replAll_eq hrel.plain ts hna fuel).1 ts1 hts1
  subst e1
  have k1 := keeps_renames hc hr
  have ns := permuteAll_same (k1.valid hv) hp
  have k2 := ns.keeps (named := named)
  obtain ⟨k3, h4, h5⟩ := keeps_sortWeak (named := named) (ts := p.1) (fuel := fuel) (r := q) (fun a b x y hab hx hy => by
    rw [hx, hy] at hab
    simp only at hab
    split at hab
    · rename_i hcm; exact hcm
    · cases hab) (fun a b hab => by
    split at hab
    · rename_i hx hy
      exact ⟨(List.getElem?_eq_some_iff.1 hx).1, (List.getElem?_eq_some_iff.1 hy).1⟩
    · cases hab) hq
  refine ⟨?_, ?_, ?_⟩
  · have := (k1.trans k2).trans k3
    simpa using this
  · exact distinct_congr (fun i => (h5.trans ns.idx).mem_iff) (distinct_mapIx hrel hc hl)
  · rw [h4]
    have := congrArg List.length ns.heads
    simp only [List.length_map] at this
    rw [this]

end SeQuant.Network
