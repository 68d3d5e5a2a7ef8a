import Verif.Network.LexLemmas

/-!
# Edges and external indices
-/

namespace SeQuant.Network

open SeQuant.Sort SeQuant.Tensors

variable {L C S V A : Type} [DecidableEq S]

/-! ## Edges -/

/-- Number of vertices of the edges of `j`. -/
def edgeCount (es : List (Edge S)) (j : Ix S) : Nat := ((es.filter (fun e => e.idx = j)).map Edge.count).sum

theorem edgeCount_cons (e : Edge S) (es : List (Edge S)) (j : Ix S) : edgeCount (e :: es) j = (if e.idx = j then e.count else 0) + edgeCount es j := by
  rw [edgeCount, List.filter_cons]
  by_cases h : e.idx = j
  · simp [h, edgeCount]
  · simp [h, edgeCount]

theorem edgeCount_insert (O : Ords S) (i j : Ix S) (es : List (Edge S)) :
    edgeCount (insertEdge O i es) j = edgeCount es j + if i = j then 1 else 0 := by
  induction es with
  | nil => rw [insertEdge, edgeCount_cons]; simp [edgeCount]
  | cons e es ih =>
    rw [insertEdge]
    split
    · rw [edgeCount_cons, edgeCount_cons, ih]; omega
    · split
      · rename_i he
        rw [edgeCount_cons, edgeCount_cons, he]
        by_cases h : i = j
        · simp [h]; omega
        · simp [h]
      · rw [edgeCount_cons, edgeCount_cons]
        simp only
        omega

theorem edgeCount_init (O : Ords S) (ts : List (NT L C S)) (j : Ix S) : edgeCount (initEdges O ts) j = (slotIdx ts).count j := by
  have key : ∀ (l : List (Ix S)) (es : List (Edge S)), edgeCount (l.foldl (fun es i => insertEdge O i es) es) j = edgeCount es j + l.count j := by
    intro l
    induction l with
    | nil => intro es; rfl
    | cons a l ih =>
      intro es
      rw [List.foldl_cons, ih, edgeCount_insert, List.count_cons]
      by_cases h : a = j
      · simp [h]; omega
      · simp [h]
  rw [initEdges, key]
  simp [edgeCount]

theorem edgeCount_mem {es : List (Edge S)} (h : (es.map Edge.idx).Nodup) {e : Edge S} (he : e ∈ es) : edgeCount es e.idx = e.count := by
  induction es with
  | nil => simp at he
  | cons f es ih =>
    rw [List.map_cons, List.nodup_cons] at h
    rw [edgeCount_cons]
    rcases List.mem_cons.1 he with rfl | he
    · have : edgeCount es e.idx = 0 := by
        have : es.filter (fun g => g.idx = e.idx) = [] := by
          rw [List.filter_eq_nil_iff]
          intro g hg hge
          exact h.1 (List.mem_map.2 ⟨g, hg, by simpa using hge⟩)
        rw [edgeCount, this]; rfl
      rw [this]; simp
    · rw [ih h.2 he]
      have : f.idx ≠ e.idx := fun hh => h.1 (hh ▸ List.mem_map.2 ⟨e, he, rfl⟩)
      simp [this]

/-- The edges: one for every index in a slot, with the number of slots it is in. -/
theorem mem_initEdges {O : Ords S} (hO : O.Total) (ts : List (NT L C S)) (e : Edge S) :
    e ∈ initEdges O ts ↔ e.idx ∈ slotIdx ts ∧ e.count = (slotIdx ts).count e.idx := by
  have hnd := initEdges_nodup hO ts
  constructor
  · intro he
    refine ⟨(initEdges_mem O ts _).1 (List.mem_map.2 ⟨e, he, rfl⟩), ?_⟩
    rw [← edgeCount_init O, edgeCount_mem hnd he]
  · rintro ⟨h1, h2⟩
    obtain ⟨f, hf, hfe⟩ := List.mem_map.1 ((initEdges_mem O ts _).2 h1)
    have h3 := edgeCount_mem hnd hf
    rw [edgeCount_init, hfe, ← h2] at h3
    have : e = f := by
      cases e; cases f
      simp only at hfe h3
      rw [hfe, h3]
    rw [this]; exact hf

/-- The edges depend on the indices in the slots only, not on their order. -/
theorem initEdges_perm {L' C' : Type} {O : Ords S} (hO : O.Total) {ts : List (NT L C S)} {ts' : List (NT L' C' S)} (h : (slotIdx ts').Perm (slotIdx ts)) :
    initEdges O ts' = initEdges O ts := by
  have s1 := List.pairwise_map.1 (initEdges_sorted hO ts')
  have s2 := List.pairwise_map.1 (initEdges_sorted hO ts)
  have n1 : (initEdges O ts').Nodup := (initEdges_nodup hO ts').of_map
  have n2 : (initEdges O ts).Nodup := (initEdges_nodup hO ts).of_map
  have hp : (initEdges O ts').Perm (initEdges O ts) := by
    refine (List.perm_ext_iff_of_nodup n1 n2).2 fun e => ?_
    rw [mem_initEdges hO, mem_initEdges hO, h.mem_iff, h.count_eq]
  refine hp.eq_of_pairwise ?_ s1 s2
  intro a b _ _ hab hba
  have := hO.trans _ _ _ hab hba
  rw [hO.irrefl] at this
  cases this

/-! ## External indices -/

/-- The external indices: those in one slot only, their proto-indices, and proto-indices that are in no slot. -/
theorem mem_extIndices {O : Ords S} (hO : O.Total) (ts : List (NT L C S)) (i : Ix S) :
    i ∈ extIndices (initEdges O ts) ↔ (slotIdx ts).count i = 1 ∨ (∃ j, (slotIdx ts).count j = 1 ∧ ∃ p ∈ j.protos, p.toIx = i) ∨
      (i ∉ slotIdx ts ∧ ∃ j ∈ slotIdx ts, ∃ p ∈ j.protos, p.toIx = i) := by
  have h0 : ∀ i, i ∈ ext0 (initEdges O ts) ↔ (slotIdx ts).count i = 1 := by
    intro i
    simp only [ext0, List.mem_map, List.mem_filter, decide_eq_true_eq, mem_initEdges hO]
    constructor
    · rintro ⟨e, ⟨⟨_, h1⟩, h2⟩, rfl⟩; omega
    · intro h
      have hm : i ∈ slotIdx ts := List.count_pos_iff.1 (by omega)
      exact ⟨⟨i, 1⟩, ⟨⟨hm, h.symm⟩, rfl⟩, rfl⟩
  have hpure : ∀ i, i ∈ pureProtos (initEdges O ts) ↔ i ∉ slotIdx ts ∧ ∃ j ∈ slotIdx ts, ∃ p ∈ j.protos, p.toIx = i := by
    intro i
    simp only [pureProtos, List.mem_filter, List.mem_dedup, List.mem_map, List.mem_flatMap, Bool.not_eq_true', List.contains_eq_mem,
      decide_eq_false_iff_not]
    constructor
    · rintro ⟨⟨p, ⟨e, he, hp⟩, rfl⟩, hn⟩
      refine ⟨fun hh => hn ?_, e.idx, ((mem_initEdges hO ts e).1 he).1, p, hp, rfl⟩
      have := (initEdges_mem O ts _).2 hh
      rwa [List.mem_map] at this
    · rintro ⟨hn, j, hj, p, hp, rfl⟩
      obtain ⟨e, he, rfl⟩ := List.mem_map.1 ((initEdges_mem O ts j).2 hj)
      refine ⟨⟨p, ⟨e, he, hp⟩, rfl⟩, fun hh => hn ?_⟩
      rw [← initEdges_mem O ts, List.mem_map]
      exact hh
  rw [extIndices]
  simp only [List.mem_dedup, List.mem_append, List.mem_filter, List.mem_map, List.mem_flatMap, Bool.not_eq_true', List.contains_eq_mem,
    decide_eq_false_iff_not, h0, hpure]
  constructor
  · rintro ((h | ⟨⟨p, ⟨j, hj, hp⟩, rfl⟩, _⟩) | h)
    · exact .inl h
    · exact .inr (.inl ⟨j, hj, p, hp, rfl⟩)
    · exact .inr (.inr h)
  · rintro (h | ⟨j, hj, p, hp, rfl⟩ | h)
    · exact .inl (.inl h)
    · by_cases hs : p.toIx ∈ slotIdx ts
      · exact .inl (.inr ⟨⟨p, ⟨j, hj, hp⟩, rfl⟩, fun hh => hh.1 hs⟩)
      · exact .inr ⟨hs, j, List.count_pos_iff.1 (by omega), p, hp, rfl⟩
    · exact .inr h

theorem extIndices_nodup (es : List (Edge S)) : (extIndices es).Nodup := List.nodup_dedup _

/-- The external indices are closed: `Closed` holds by default. -/
theorem closed_ext {O : Ords S} (hO : O.Total) (ts : List (NT L C S)) : Closed (extIndices (initEdges O ts)) ts := by
  constructor
  · intro i hi p hp
    by_cases hs : p.toIx ∈ slotIdx ts
    · exact .inr hs
    · exact .inl ((mem_extIndices hO ts _).2 (.inr (.inr ⟨hs, i, hi, p, hp, rfl⟩)))
  · intro i hi p hp
    rw [mem_extIndices hO] at hi ⊢
    rcases hi with h | ⟨j, hj, q, hq, rfl⟩ | ⟨_, j, hj, q, hq, rfl⟩
    · exact .inr (.inl ⟨i, h, p, hp, rfl⟩)
    · simp [PIx.toIx] at hp
    · simp [PIx.toIx] at hp

/-- Renaming of anonymous indices keeps the external indices. -/
theorem ext_renames {L' C' : Type} {O : Ords S} (hO : O.Total) {ts : List (NT L C S)} {ts' : List (NT L' C' S)} {ρ : Ix S → Ix S}
    (hr : Renames (extIndices (initEdges O ts)) ts ρ) (hp : (slotIdx ts').Perm ((slotIdx ts).map ρ)) (i : Ix S) :
    i ∈ extIndices (initEdges O ts') ↔ i ∈ extIndices (initEdges O ts) := by
  set E := extIndices (initEdges O ts) with hE
  have inj : ∀ a ∈ slotIdx ts, ∀ b ∈ slotIdx ts, ρ a = ρ b → a = b := by
    intro a ha b hb hab
    by_cases h1 : a ∈ E <;> by_cases h2 : b ∈ E
    · rw [hr.fixed a h1, hr.fixed b h2] at hab; exact hab
    · exact absurd (by rw [← hab, hr.fixed a h1]; exact h1) (hr.fresh b hb h2)
    · exact absurd (by rw [hab, hr.fixed b h2]; exact h2) (hr.fresh a ha h1)
    · exact hr.inj a ha b hb h1 h2 hab
  have cnt : ∀ a ∈ slotIdx ts, (slotIdx ts').count (ρ a) = (slotIdx ts).count a := by
    intro a ha
    rw [hp.count_eq, List.count_eq_countP, List.countP_map, List.count_eq_countP]
    refine List.countP_congr fun b hb => ?_
    simp only [Function.comp, beq_iff_eq]
    exact ⟨fun h => inj _ hb _ ha h, fun h => by rw [h]⟩
  have one : ∀ a, (slotIdx ts').count a = 1 ↔ (slotIdx ts).count a = 1 := by
    intro a
    constructor
    · intro h
      have hm : a ∈ slotIdx ts' := List.count_pos_iff.1 (by omega)
      obtain ⟨b, hb, rfl⟩ := List.mem_map.1 (hp.mem_iff.1 hm)
      rw [cnt b hb] at h
      have hbE : b ∈ E := (mem_extIndices hO ts b).2 (.inl h)
      rw [hr.fixed b hbE]; exact h
    · intro h
      have hm : a ∈ slotIdx ts := List.count_pos_iff.1 (by omega)
      have haE : a ∈ E := (mem_extIndices hO ts a).2 (.inl h)
      rw [← hr.fixed a haE, cnt a hm]; exact h
  rw [mem_extIndices hO, hE, mem_extIndices hO]
  simp only [one]
  refine or_congr Iff.rfl (or_congr Iff.rfl ?_)
  constructor
  · rintro ⟨hn, j', hj', q, hq, rfl⟩
    obtain ⟨j, hj, rfl⟩ := List.mem_map.1 (hp.mem_iff.1 hj')
    obtain ⟨p, hpp, he⟩ := List.mem_map.1 ((hr.protos j hj).mem_iff.1 (List.mem_map.2 ⟨q, hq, rfl⟩))
    have hps : p.toIx ∉ slotIdx ts := fun hh => hn (by rw [← he]; exact hp.mem_iff.2 (List.mem_map.2 ⟨_, hh, rfl⟩))
    have hpE : p.toIx ∈ E := (mem_extIndices hO ts _).2 (.inr (.inr ⟨hps, j, hj, p, hpp, rfl⟩))
    rw [← he, hr.fixed _ hpE]
    exact ⟨hps, j, hj, p, hpp, rfl⟩
  · rintro ⟨hn, j, hj, p, hpp, rfl⟩
    have hpE : p.toIx ∈ E := (mem_extIndices hO ts _).2 (.inr (.inr ⟨hn, j, hj, p, hpp, rfl⟩))
    obtain ⟨q, hq, he⟩ := List.mem_map.1 ((hr.protos j hj).mem_iff.2 (List.mem_map.2 ⟨p, hpp, rfl⟩))
    rw [hr.fixed _ hpE] at he
    refine ⟨fun hh => ?_, ρ j, hp.mem_iff.2 (List.mem_map.2 ⟨j, hj, rfl⟩), q, hq, he⟩
    obtain ⟨a, ha, hae⟩ := List.mem_map.1 (hp.mem_iff.1 hh)
    by_cases haE : a ∈ E
    · rw [hr.fixed a haE] at hae; exact hn (by rw [← hae]; exact ha)
    · exact hr.fresh a ha haE (by rw [hae]; exact hpE)

/-! ## Change of the set of named indices -/

omit [DecidableEq S] in
theorem Closed.congr {N N' : List (Ix S)} (h : ∀ i, i ∈ N ↔ i ∈ N') {ts : List (NT L C S)} (hc : Closed N ts) : Closed N' ts :=
  ⟨fun i hi p hp => by rw [← h]; exact hc.slot i hi p hp, fun i hi p hp => by rw [← h]; exact hc.named i ((h i).2 hi) p hp⟩

omit [DecidableEq S] in
theorem Renames.congr {N N' : List (Ix S)} (h : ∀ i, i ∈ N ↔ i ∈ N') {ts : List (NT L C S)} {ρ : Ix S → Ix S} (hr : Renames N ts ρ) : Renames N' ts ρ :=
  ⟨hr.space, hr.protos, hr.pspace, fun i hi => hr.fixed i ((h i).2 hi), fun i hi hn => by rw [← h]; exact hr.fresh i hi (by rw [h]; exact hn),
    fun i hi j hj h1 h2 => hr.inj i hi j hj (by rw [h]; exact h1) (by rw [h]; exact h2)⟩

omit [DecidableEq S] in
theorem Distinct.congr {N N' : List (Ix S)} (h : ∀ i, i ∈ N ↔ i ∈ N') {ts : List (NT L C S)} (hd : Distinct N ts) : Distinct N' ts :=
  fun i hi j hj h1 h2 => hd i hi j hj (by rw [h]; exact h1) (by rw [h]; exact h2)

theorem dummies_named {N N' : List (Ix S)} (h : ∀ i, i ∈ N ↔ i ∈ N') (ts : List (NT L C S)) : dummies N ts = dummies N' ts := by
  ext i
  rw [mem_dummies, mem_dummies, h]

theorem Keeps.congr {N N' : List (Ix S)} (h : ∀ i, i ∈ N ↔ i ∈ N') {s : ℤ} {ts ts' : List (NT L C S)} (hk : Keeps N s ts ts') : Keeps N' s ts ts' := by
  obtain ⟨ρ, h1, h2⟩ := hk.idx
  refine ⟨hk.heads, fun hc => (hk.closed (hc.congr fun i => (h i).symm)).congr h, ⟨ρ, h1.congr h, h2⟩, hk.valid, ?_⟩
  intro V A _ _ I hI e
  rw [← dummies_named h, ← dummies_named h]
  exact hk.value I hI e

end SeQuant.Network
