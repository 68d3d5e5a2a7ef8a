import Verif.Batch.Props

/-!
# C80: which entries of the cache batched evaluation changes
-/

set_option linter.unusedSectionVars false

namespace SeQuant.Batch

open SeQuant.Eval

variable {L I K F : Type} [DecidableEq I] [DecidableEq K] [CommRing F]
variable {B : BatchEnv L I K F} {S : ETree L → Prop} {batches : List (Nat × Nat)} {layer : List (Member L I)}

/-! ### Entries of the cache -/

theorem plant_real : ∀ (ss : List (ETree L)) (real scratch real' scratch' : Cache K Nat), (∀ s ∈ ss, isPersistent real (B.key s) = true) →
    plantSeeds B ss real scratch = some (real', scratch') → real' = real
  | [], real, scratch, real', scratch', _, h => by simp [plantSeeds] at h; exact h.1.symm
  | s :: ss, real, scratch, real', scratch', hs, h => by
    have p1 := hs s (by simp)
    unfold isPersistent at p1
    cases hc : real (B.key s) with
    | none => simp [hc] at p1
    | some e =>
      simp only [hc] at p1
      have hacc : (real.access (B.key s)).1 = real := by
        unfold Cache.access
        simp only [hc]
        funext k
        unfold Cache.set
        by_cases hk : k = B.key s
        · simp only [hk, hc, if_true, Option.some.injEq]
          exact (access_fields e).2.2.2.2 p1
        · simp [hk]
      rw [plantSeeds] at h
      cases ha : (real.access (B.key s)).2 with
      | none => simp [ha] at h
      | some r =>
        simp only [ha, hacc] at h
        exact plant_real ss _ _ _ _ (fun s' h' => hs s' (by simp [h'])) h

theorem makeScratch_persistent (members : List (Member L I)) (real : Cache K Nat) :
    ∀ s ∈ (makeScratch B members real).2, isPersistent real (B.key s) = true := by
  intro s hs
  unfold makeScratch at hs
  obtain ⟨e, he, rfl⟩ := List.mem_map.1 hs
  obtain ⟨-, q2⟩ := List.mem_filter.1 he
  simp only [seedable, Bool.and_eq_true] at q2
  exact q2.1.2

/-- An entry after something was stored, if it is persistent. -/
def Filled (e e' : Entry Nat) : Prop := e'.persistent = e.persistent ∧ e'.maxLife = e.maxLife ∧ e'.life = e.life ∧ e'.data.isSome = true

theorem store_entry (c : Cache K Nat) (k : K) (d : Nat) (hp : isPersistent c k = true) :
    (∀ k', k' ≠ k → (c.store k d).1 k' = c k') ∧ ∃ e e', c k = some e ∧ (c.store k d).1 k = some e' ∧ Filled e e' := by
  unfold isPersistent at hp
  unfold Cache.store
  cases hc : c k with
  | none => simp [hc] at hp
  | some e =>
    simp only [hc] at hp ⊢
    refine ⟨fun k' hk => by simp [Cache.set, hk], e, _, rfl, by simp [Cache.set]; rfl, ?_⟩
    have : (e.store d).access.1 = e.store d := (access_fields (e.store d)).2.2.2.2 hp
    rw [this]
    exact ⟨rfl, rfl, rfl, rfl⟩

theorem persistent_filled {c c' : Cache K Nat} (h : ∀ k, c' k = c k ∨ ∃ e e', c k = some e ∧ c' k = some e' ∧ Filled e e') (k : K) :
    isPersistent c' k = isPersistent c k := by
  unfold isPersistent
  rcases h k with h | ⟨e, e', h1, h2, h3⟩
  · rw [h]
  · rw [h1, h2]; exact h3.1

variable (B) in
/-- `c'` is `c` with the entries of the members other than the trigger filled. -/
structure Step (ms : List (Member L I)) (c c' : Cache K Nat) : Prop where
  same : ∀ k, (∀ m ∈ ms, m.id ≠ 0 → B.key m.root ≠ k) → c' k = c k
  filled : ∀ m ∈ ms, m.id ≠ 0 → ∃ e e', c (B.key m.root) = some e ∧ c' (B.key m.root) = some e' ∧ Filled e e'

theorem Step.all {ms : List (Member L I)} {c c' : Cache K Nat} (h : Step B ms c c') (k : K) :
    c' k = c k ∨ ∃ e e', c k = some e ∧ c' k = some e' ∧ Filled e e' := by
  by_cases hk : ∀ m ∈ ms, m.id ≠ 0 → B.key m.root ≠ k
  · exact .inl (h.same k hk)
  · push Not at hk
    obtain ⟨m, h1, h2, rfl⟩ := hk
    exact .inr (h.filled m h1 h2)

theorem Filled.trans {a b c : Entry Nat} (h : Filled a b) (h' : Filled b c) : Filled a c :=
  ⟨h'.1.trans h.1, h'.2.1.trans h.2.1, h'.2.2.1.trans h.2.2.1, h'.2.2.2⟩

theorem Step.append {ms ms' : List (Member L I)} {c c' c'' : Cache K Nat} (h : Step B ms c c') (h' : Step B ms' c' c'') : Step B (ms ++ ms') c c'' := by
  refine ⟨?_, ?_⟩
  · intro k hk
    rw [h'.same k fun m hm => hk m (by simp [hm]), h.same k fun m hm => hk m (by simp [hm])]
  · intro m hm hid
    rcases List.mem_append.1 hm with hm | hm
    · obtain ⟨e, e', h1, h2, h3⟩ := h.filled m hm hid
      rcases h'.all (B.key m.root) with g | ⟨f, f', g1, g2, g3⟩
      · exact ⟨e, e', h1, by rw [g]; exact h2, h3⟩
      · rw [h2] at g1
        cases g1
        exact ⟨e, f', h1, g2, h3.trans g3⟩
    · obtain ⟨e, e', h1, h2, h3⟩ := h'.filled m hm hid
      rcases h.all (B.key m.root) with g | ⟨f, f', g1, g2, g3⟩
      · exact ⟨e, e', by rw [← g]; exact h1, h2, h3⟩
      · rw [h1] at g2
        cases g2
        exact ⟨f, e', g1, h2, g3.trans h3⟩

theorem storeResults_entries : ∀ (ks : List (Member L I)) (as : List (Option Nat)) (mc mc' : Mem (Arr F) × Cache K Nat) (tr tr' : Option Nat),
    (∀ k ∈ ks, k.id ≠ 0 → isPersistent mc.2 (B.key k.root) = true) → storeResults B ks as mc tr = some (mc', tr') → Step B ks mc.2 mc'.2
  | [], as, mc, mc', tr, tr', _, h => by
    simp only [storeResults, Option.some.injEq, Prod.mk.injEq] at h
    obtain ⟨rfl, -⟩ := h
    exact ⟨fun _ _ => rfl, by simp⟩
  | k :: ks, [], mc, mc', tr, tr', _, h => by simp [storeResults] at h
  | k :: ks, none :: as, mc, mc', tr, tr', _, h => by simp [storeResults] at h
  | k :: ks, some v :: as, mc, mc', tr, tr', hp, h => by
    rw [storeResults] at h
    by_cases hid : k.id = 0
    · simp only [hid, if_true] at h
      obtain ⟨h1, h2⟩ := storeResults_entries ks as mc mc' _ tr' (fun k' h' => hp k' (by simp [h'])) h
      refine ⟨fun x hx => h1 x fun m hm => hx m (by simp [hm]), ?_⟩
      intro m hm hm0
      rcases List.mem_cons.1 hm with rfl | hm
      · exact absurd hid hm0
      · exact h2 m hm hm0
    · simp only [hid, if_false] at h
      generalize (if B.phase k.root.label ≠ 1 then mc.1.alloc ((fullAlg B).scale (B.phase k.root.label) (mc.1.get v)) else (mc.1, v)) = s at h
      obtain ⟨s1, s2⟩ := store_entry mc.2 (B.key k.root) s.2 (hp k (by simp) hid)
      have hstep : Step B [k] mc.2 (mc.2.store (B.key k.root) s.2).1 := by
        refine ⟨fun x hx => s1 x fun h' => hx k (by simp) hid h'.symm, ?_⟩
        intro m hm _
        rw [List.mem_singleton.1 hm]; exact s2
      have hrest := storeResults_entries ks as (s.1, (mc.2.store (B.key k.root) s.2).1) mc' tr tr' (fun k' h' h0 => by
        rw [persistent_filled hstep.all]; exact hp k' (by simp [h']) h0) h
      exact hstep.append hrest

theorem layerPass_entries (mc mc' : Mem (Arr F) × Cache K Nat) (tr tr' : Option Nat)
    (hp : ∀ k ∈ layer, k.id ≠ 0 → isPersistent mc.2 (B.key k.root) = true) (h : layerPass B layer batches mc tr = some (mc', tr')) :
    Step B layer mc.2 mc'.2 := by
  unfold layerPass at h
  simp only at h
  cases h1 : plantSeeds B (makeScratch B layer mc.2).2 mc.2 (makeScratch B layer mc.2).1 with
  | none => simp [h1] at h
  | some p =>
    obtain ⟨real, scratch⟩ := p
    have := plant_real _ _ _ _ _ (makeScratch_persistent layer mc.2) h1
    subst this
    simp only [h1] at h
    cases h2 : batchPass B layer batches (layer.map fun _ => none) (mc.1, scratch) with
    | none => rw [h2] at h; simp at h
    | some q =>
      obtain ⟨⟨m, c⟩, accs⟩ := q
      simp only [h2] at h
      exact storeResults_entries layer accs (m, mc.2) mc' tr tr' hp h

theorem layersPass_entries : ∀ (layers : List (List (Member L I))) (mc mc' : Mem (Arr F) × Cache K Nat) (tr tr' : Option Nat),
    (∀ l ∈ layers, ∀ k ∈ l, k.id ≠ 0 → isPersistent mc.2 (B.key k.root) = true) → layersPass B batches layers mc tr = some (mc', tr') →
    Step B layers.flatten mc.2 mc'.2
  | [], mc, mc', tr, tr', _, h => by
    simp only [layersPass, Option.some.injEq, Prod.mk.injEq] at h
    obtain ⟨rfl, -⟩ := h
    exact ⟨fun _ _ => rfl, by simp⟩
  | l :: ls, mc, mc', tr, tr', hp, h => by
    rw [layersPass] at h
    cases h1 : layerPass B l batches mc tr with
    | none => simp [h1] at h
    | some p =>
      obtain ⟨mc1, tr1⟩ := p
      simp only [h1] at h
      have s1 := layerPass_entries mc mc1 tr tr1 (hp l (by simp)) h1
      have s2 := layersPass_entries ls mc1 mc' tr1 tr' (fun l' h' k hk h0 => by
        rw [persistent_filled s1.all]; exact hp l' (by simp [h']) k hk h0) h
      rw [List.flatten_cons]
      exact s1.append s2

/-- A node of the cache that streams along with the trigger: persistent, without data, not the trigger, without volatile parts, with the same
batches. -/
structure Joins (B : BatchEnv L I K F) (real : Cache K Nat) (t : ETree L) (bs : List (Nat × Nat)) (k : ETree L) : Prop where
  key : k ∈ B.keys
  persistent : isPersistent real (B.key k) = true
  dead : real.alive (B.key k) = false
  other : B.key k ≠ B.key t
  steady : subtreeAny B.isVolatile k = false
  axis : ∃ i, batchAxis B k = some i ∧ batchesOf B k i = some bs

theorem joining_complete (real : Cache K Nat) (t : ETree L) (bs : List (Nat × Nat)) : ∀ (ks : List (ETree L)) (n : Nat) (k : ETree L) (i : I),
    k ∈ ks → joins B real t bs k = some i → ∃ m ∈ joining B real t bs n ks, m.root = k
  | k' :: ks, n, k, i, hk, hj => by
    rw [joining]
    rcases List.mem_cons.1 hk with rfl | hk
    · simp only [hj]; exact ⟨_, List.mem_cons_self, rfl⟩
    · cases joins B real t bs k' with
      | none => exact joining_complete real t bs ks (n + 1) k i hk hj
      | some j =>
        obtain ⟨m, h1, h2⟩ := joining_complete real t bs ks (n + 1) k i hk hj
        exact ⟨m, List.mem_cons_of_mem _ h1, h2⟩

/-- **C80** Which entries of the cache a batched evaluation changes: exactly those of the nodes that stream along, which get data; everything
else stays as it was, in particular the entry of the trigger and all life counts. -/
theorem batched_entries_partial (H : BatchOK B S) (t : ETree L) (ht : S t) (mc mc' : Mem (Arr F) × Cache K Nat) (r : Nat)
    (h : batched B t mc = some (mc', some r)) : ∃ x bs, batchAxis B t = some x ∧ batchesOf B t x = some bs ∧ 2 ≤ bs.length ∧
      (B.persistentOnly = true → subtreeAny B.isVolatile t = false) ∧
      (∀ k, (∀ n, Joins B mc.2 t bs n → B.key n ≠ k) → mc'.2 k = mc.2 k) ∧
      ∀ n, Joins B mc.2 t bs n → ∃ e e', mc.2 (B.key n) = some e ∧ mc'.2 (B.key n) = some e' ∧ Filled e e' := by
  unfold batched at h
  cases hx : batchAxis B t with
  | none => simp [hx] at h
  | some x =>
    simp only [hx] at h
    by_cases hv : (B.persistentOnly && subtreeAny B.isVolatile t) = true
    · simp [hv] at h
    · simp only [hv, Bool.false_eq_true, if_false] at h
      cases hbs : batchesOf B t x with
      | none => simp [hbs] at h
      | some bs =>
        simp only [hbs] at h
        by_cases hlen : bs.length ≤ 1
        · simp [hlen] at h
        · simp only [hlen, if_false] at h
          cases hl : layersOf B (groupOf B mc.2 t x bs).length (groupOf B mc.2 t x bs) with
          | none => simp [hl] at h
          | some layers =>
            simp only [hl] at h
            cases hp : layersPass B bs layers mc none with
            | none => simp [hp] at h
            | some q =>
              obtain ⟨mc1, tr⟩ := q
              simp only [hp] at h
              cases tr with
              | none => simp at h
              | some r' =>
                simp only [Option.some.injEq, Prod.mk.injEq] at h
                obtain ⟨rfl, -⟩ := h
                have hS : ∀ m ∈ groupOf B mc.2 t x bs, S m.root := by
                  intro m hm
                  rcases List.mem_cons.1 hm with rfl | hm
                  · exact ht
                  · exact H.keys _ ((joining_spec mc.2 t bs B.keys 1).1 m hm).2.1
                obtain ⟨layers', l1, l2, l3⟩ := layersOf_spec H.toKeyOK _ (groupOf B mc.2 t x bs) (le_refl _) hS
                rw [hl] at l1
                cases l1
                have hjoin : ∀ m ∈ layers.flatten, m.id ≠ 0 → Joins B mc.2 t bs m.root := by
                  intro m hm h0
                  obtain ⟨l, g1, g2⟩ := List.mem_flatten.1 hm
                  rcases List.mem_cons.1 ((l3 l g1).1 m g2) with rfl | hm
                  · simp at h0
                  · obtain ⟨-, j2, j3⟩ := (joining_spec mc.2 t bs B.keys 1).1 m hm
                    obtain ⟨a1, a2, a3, a4, a5, a6⟩ := joins_spec j3
                    exact ⟨j2, a1, a2, a3, a5, _, a4, a6⟩
                have hst := layersPass_entries layers mc mc1 none (some r') (fun l h1 k h2 h0 =>
                  (hjoin k (List.mem_flatten.2 ⟨l, h1, h2⟩) h0).persistent) hp
                refine ⟨x, bs, rfl, hbs, by omega, ?_, ?_, ?_⟩
                · intro hpo; simpa [hpo] using hv
                · intro k hk
                  exact hst.same k fun m hm h0 => hk m.root (hjoin m hm h0)
                · intro n hn
                  obtain ⟨i, hi, hib⟩ := hn.axis
                  have hj : joins B mc.2 t bs n = some i := by
                    simp [joins, hn.persistent, hn.dead, hn.other, hi, hn.steady, hib]
                  obtain ⟨m, hm, rfl⟩ := joining_complete mc.2 t bs B.keys 1 n i hn.key hj
                  obtain ⟨l, g1, g2⟩ := l2 m (List.mem_cons_of_mem _ hm)
                  have h0 : m.id ≠ 0 := by have := ((joining_spec mc.2 t bs B.keys 1).1 m hm).1; omega
                  exact hst.filled m (List.mem_flatten.2 ⟨l, g1, g2⟩) h0

/-! ### Nodes of a tree -/

/-- `s` is a node of the tree. -/
inductive Within (s : ETree L) : ETree L → Prop
  | root : Within s s
  | left {a : L} {l r : ETree L} : Within s l → Within s (.node a l r)
  | right {a : L} {l r : ETree L} : Within s r → Within s (.node a l r)

/-- `subtree_any` asks all nodes, thus also those between root and leaves. -/
theorem subtreeAny_iff (pred : ETree L → Bool) (t : ETree L) : subtreeAny pred t = true ↔ ∃ s, Within s t ∧ pred s = true := by
  induction t with
  | leaf a =>
    rw [subtreeAny]
    refine ⟨fun h => ⟨_, .root, h⟩, ?_⟩
    rintro ⟨s, hs, hp⟩
    cases hs
    exact hp
  | node a l r ihl ihr =>
    rw [subtreeAny, Bool.or_eq_true, Bool.or_eq_true, ihl, ihr]
    constructor
    · rintro ((h | ⟨s, hs, hp⟩) | ⟨s, hs, hp⟩)
      · exact ⟨_, .root, h⟩
      · exact ⟨s, hs.left, hp⟩
      · exact ⟨s, hs.right, hp⟩
    · rintro ⟨s, hs, hp⟩
      cases hs with
      | root => exact .inl (.inl hp)
      | left h => exact .inl (.inr ⟨s, h, hp⟩)
      | right h => exact .inr ⟨s, h, hp⟩

/-- Every seed has an entry in the scratch cache that does not decay. -/
theorem makeScratch_seeds (members : List (Member L I)) (real : Cache K Nat) :
    ∀ s ∈ (makeScratch B members real).2, isPersistent (makeScratch B members real).1 (B.key s) = true := by
  intro s hs
  unfold makeScratch at hs ⊢
  simp only at hs ⊢
  obtain ⟨e, he, rfl⟩ := List.mem_map.1 hs
  obtain ⟨q1, q2⟩ := List.mem_filter.1 he
  have hc : e.consistent = true := by
    simp only [seedable, Bool.and_eq_true] at q2
    exact q2.1.1.1
  unfold isPersistent
  rw [make_entry]
  cases hf : ((walk B members []).filter (fun e => e.consistent && (seedable B real e || decide (e.count ≥ 2)))).map (fun e => (B.key e.node, e.count)) |>.find?
      (fun x => decide (x.1 = B.key e.node)) with
  | none =>
    rw [List.find?_eq_none] at hf
    exact absurd (by simp) (hf (B.key e.node, e.count) (List.mem_map.2 ⟨e, List.mem_filter.2 ⟨q1, by simp [hc, q2]⟩, rfl⟩))
  | some x =>
    simp only [Option.map_some, Entry.new, decide_eq_true_eq]
    exact List.mem_map.2 ⟨_, hs, rfl⟩

end SeQuant.Batch
