import Verif.Batch.Batches

/-!
# C80: evaluation in batches equals plain evaluation
-/

set_option linter.unusedSectionVars false

namespace SeQuant.Batch

open SeQuant.Eval

variable {L I K F : Type} [DecidableEq I] [DecidableEq K] [CommRing F]
variable {B : BatchEnv L I K F} {S : ETree L → Prop} {batches : List (Nat × Nat)} {layer : List (Member L I)}

/-! ### Layers -/

theorem layer_result (H : BatchOK B S) {m : Member L I} (hm : MemberOK B S batches m) (hne : batches ≠ []) (hlt : (B.ext m.axis).1 < (B.ext m.axis).2) :
    addAll ((batches.filter fun b => !decide (b.1 = b.2)).map (part B m)) = some (plain B.op (fullAlg B) m.root) := by
  obtain ⟨a, l, r, h0, -⟩ := mem_contracted B hm.axis
  have h1 := hm.root
  have h2 := hm.axis
  unfold part AM
  rw [h0] at h1 h2 ⊢
  obtain ⟨d1, d2⟩ := H.dummies a l r m.axis h1 h2
  apply parts_add_up B a l r m.axis (H.shaped _ h1) h2 d1 d2 _ (follow_filter hm.follow)
  intro h
  have := follow_filter hm.follow
  rw [h] at this
  simp only [Follow] at this
  omega

theorem ext_of_keep {m m' : Mem (Arr F)} (h : Keep m.next m m') : Ext (heapView (fullAlg B) B.tbl) m m' := by
  refine ⟨?_, ?_⟩
  · intro hi a r hr
    obtain ⟨h1, h2⟩ := hi a r hr
    exact ⟨lt_of_lt_of_le h1 h.1, by rw [h.2 r h1]; exact h2⟩
  · rintro r v ⟨h1, h2⟩
    exact ⟨lt_of_lt_of_le h1 h.1, by rw [h.2 r h1]; exact h2⟩

/-- Storing the results of a layer. -/
theorem storeResults_spec (H : BatchOK B S) (t : ETree L) : ∀ (ks : List (Member L I)) (gs : List (Ghost F)) (mc : Mem (Arr F) × Cache K Nat)
    (tr : Option Nat), (∀ k ∈ ks, S k.root ∧ (k.id = 0 → k.root = t)) → RealOK B S mc → (∀ o v, some (o, v) ∈ gs → Holds mc.1 o v) →
    gs.map (Option.map Prod.snd) = ks.map (fun k => some (plain B.op (fullAlg B) k.root)) →
    (∀ r, tr = some r → Holds mc.1 r (plain B.op (fullAlg B) t)) →
    ∃ mc' tr', storeResults B ks (gs.map (Option.map Prod.fst)) mc tr = some (mc', tr') ∧ Grow mc.1 mc'.1 ∧ RealOK B S mc' ∧
      (∀ r, tr' = some r → Holds mc'.1 r (plain B.op (fullAlg B) t)) ∧ ((tr.isSome = true ∨ ∃ k ∈ ks, k.id = 0) → tr'.isSome = true)
  | [], gs, mc, tr, _, hr, _, hg, ht => by
    have : gs = [] := by simpa using hg
    subst this
    exact ⟨mc, tr, rfl, Grow.refl _, hr, ht, by simp⟩
  | k :: ks, [], mc, tr, _, _, _, hg, _ => by simp at hg
  | k :: ks, none :: gs, mc, tr, _, _, _, hg, _ => by simp at hg
  | k :: ks, some (o, v) :: gs, mc, tr, hk, hr, hv, hg, ht => by
    simp only [List.map_cons, Option.map_some, List.cons.injEq, Option.some.injEq] at hg
    obtain ⟨rfl, hg2⟩ := hg
    have ho := hv o _ (by simp : some (o, plain B.op (fullAlg B) k.root) ∈ _)
    obtain ⟨hk1, hk2⟩ := hk k (by simp)
    simp only [List.map_cons, Option.map_some]
    rw [storeResults]
    by_cases hid : k.id = 0
    · simp only [hid, if_true]
      obtain ⟨mc', tr', f1, f2, f3, f4, f5⟩ := storeResults_spec H t ks gs mc (some o) (fun k' h' => hk k' (by simp [h'])) hr
        (fun o' v' h' => hv o' v' (by simp [h'])) hg2 (by rintro r ⟨⟩; rw [← hk2 hid]; exact ho)
      exact ⟨mc', tr', f1, f2, f3, f4, fun _ => f5 (.inl rfl)⟩
    · simp only [hid, if_false]
      have go : ∀ (m : Mem (Arr F)) (d : Nat), Grow mc.1 m → Holds m d (canon B.op B.phase (fullAlg B) k.root) →
          ∃ mc' tr', storeResults B ks (gs.map (Option.map Prod.fst)) (m, (mc.2.store (B.key k.root) d).1) tr = some (mc', tr') ∧ Grow mc.1 mc'.1 ∧
            RealOK B S mc' ∧ (∀ r, tr' = some r → Holds mc'.1 r (plain B.op (fullAlg B) t)) ∧
            ((tr.isSome = true ∨ ∃ k' ∈ k :: ks, k'.id = 0) → tr'.isSome = true) := by
        intro m d hgrow hd
        have hr' : RealOK B S (m, mc.2) := CacheOK.ext hr ⟨fun hi a r h => (show Holds mc.1 r _ from hi a r h).grow hgrow, fun r v h => Holds.grow h hgrow⟩
        obtain ⟨mc', tr', f1, f2, f3, f4, f5⟩ := storeResults_spec H t ks gs (m, (mc.2.store (B.key k.root) d).1) tr (fun k' h' => hk k' (by simp [h']))
          (store_ok hr' _ _ fun t' h1 h2 => by
            have : canonical (batchedEnv B) (fullAlg B) t' = canon B.op B.phase (fullAlg B) k.root := H.coherent t' k.root h1 hk1 h2
            rw [this]; exact hd)
          (fun o' v' h' => (hv o' v' (by simp [h'])).grow hgrow) hg2 (fun r h => (ht r h).grow hgrow)
        refine ⟨mc', tr', f1, hgrow.trans f2, f3, f4, ?_⟩
        rintro (h | ⟨k', h', h''⟩)
        · exact f5 (.inl h)
        · rcases List.mem_cons.1 h' with rfl | h'
          · exact absurd h'' hid
          · exact f5 (.inr ⟨k', h', h''⟩)
      by_cases hp : B.phase k.root.label = 1
      · simp only [hp, ne_eq, not_true, if_false]
        exact go mc.1 o (Grow.refl _) (by unfold canon; simp only [hp, if_true]; exact ho)
      · simp only [ne_eq, hp, not_false_eq_true, if_true]
        refine go _ _ (grow_alloc _ _) ?_
        unfold canon
        simp only [hp, if_false]
        rw [ho.2]
        exact alloc_get _ _

/-- One layer. -/
theorem layerPass_spec (H : BatchOK B S) (hl : LayerOK B S batches layer) (hne : batches ≠ [])
    (hlt : ∀ m ∈ layer, (B.ext m.axis).1 < (B.ext m.axis).2) (t : ETree L) (ht0 : ∀ k ∈ layer, k.id = 0 → k.root = t)
    (mc : Mem (Arr F) × Cache K Nat) (tr : Option Nat) (hr : RealOK B S mc) (ht : ∀ r, tr = some r → Holds mc.1 r (plain B.op (fullAlg B) t)) :
    ∃ mc' tr', layerPass B layer batches mc tr = some (mc', tr') ∧ Grow mc.1 mc'.1 ∧ RealOK B S mc' ∧
      (∀ r, tr' = some r → Holds mc'.1 r (plain B.op (fullAlg B) t)) ∧ ((tr.isSome = true ∨ ∃ k ∈ layer, k.id = 0) → tr'.isSome = true) := by
  obtain ⟨s1, s2, s3⟩ := make_scratch H hl mc.1 mc.2 hr
  obtain ⟨scratch, p1, p2, p3⟩ := plant H hl mc.1 mc.2 hr (makeScratch B layer mc.2).2 (makeScratch B layer mc.2).1 s3 s1
    (fun k e r h1 h2 => by rw [s2 k e h1] at h2; simp at h2)
  obtain ⟨mc1, gs, b1, b2, b3, b4⟩ := batchPass_spec H hl mc.1 scratch p2 p3 (fun a r h => (hr.1 a r h).1) batches fun _ h => h
  unfold layerPass
  simp only [p1, b1]
  have hg : gs.map (Option.map Prod.snd) = layer.map fun k => some (plain B.op (fullAlg B) k.root) := by
    rw [b4]
    exact List.map_congr_left fun k hk => layer_result H (hl.member k hk) hne (hlt k hk)
  have hext := ext_of_keep (B := B) b2
  obtain ⟨mc', tr', f1, f2, f3, f4, f5⟩ := storeResults_spec H t layer gs (mc1.1, mc.2) tr
    (fun k hk => ⟨(hl.member k hk).root, ht0 k hk⟩) (CacheOK.ext hr hext) b3 hg (fun r h => hext.2 r _ (ht r h))
  have hg2 : Grow mc.1 mc1.1 := b2
  exact ⟨mc', tr', f1, hg2.trans f2, f3, f4, f5⟩

/-- All layers. -/
theorem layersPass_spec (H : BatchOK B S) (hne : batches ≠ []) (t : ETree L) : ∀ (layers : List (List (Member L I)))
    (_ : ∀ layer ∈ layers, LayerOK B S batches layer ∧ ∀ m ∈ layer, (B.ext m.axis).1 < (B.ext m.axis).2 ∧ (m.id = 0 → m.root = t))
    (mc : Mem (Arr F) × Cache K Nat) (tr : Option Nat) (_ : RealOK B S mc) (_ : ∀ r, tr = some r → Holds mc.1 r (plain B.op (fullAlg B) t)),
    ∃ mc' tr', layersPass B batches layers mc tr = some (mc', tr') ∧ Grow mc.1 mc'.1 ∧ RealOK B S mc' ∧
      (∀ r, tr' = some r → Holds mc'.1 r (plain B.op (fullAlg B) t)) ∧
      ((tr.isSome = true ∨ ∃ layer ∈ layers, ∃ k ∈ layer, k.id = 0) → tr'.isSome = true)
  | [], _, mc, tr, hr, ht => ⟨mc, tr, rfl, Grow.refl _, hr, ht, by simp⟩
  | layer :: rest, hl, mc, tr, hr, ht => by
    obtain ⟨l1, l2⟩ := hl layer (by simp)
    obtain ⟨mc1, tr1, a1, a2, a3, a4, a5⟩ := layerPass_spec H l1 hne (fun m hm => (l2 m hm).1) t (fun m hm => (l2 m hm).2) mc tr hr ht
    obtain ⟨mc2, tr2, b1, b2, b3, b4, b5⟩ := layersPass_spec H hne t rest (fun l h => hl l (by simp [h])) mc1 tr1 a3 a4
    refine ⟨mc2, tr2, by rw [layersPass, a1]; exact b1, a2.trans b2, b3, b4, ?_⟩
    rintro (h | ⟨l, h1, k, h2, h3⟩)
    · exact b5 (.inl (a5 (.inl h)))
    · rcases List.mem_cons.1 h1 with rfl | h1
      · exact b5 (.inl (a5 (.inr ⟨k, h2, h3⟩)))
      · exact b5 (.inr ⟨l, h1, k, h2, h3⟩)

/-- Sorting members into layers never gets stuck: no member of a layer contains another one, every member is in a layer. -/
theorem layersOf_spec (H : KeyOK B S) : ∀ (n : Nat) (ms : List (Member L I)), ms.length ≤ n → (∀ m ∈ ms, S m.root) →
    ∃ layers, layersOf B n ms = some layers ∧ (∀ m ∈ ms, ∃ layer ∈ layers, m ∈ layer) ∧
      ∀ layer ∈ layers, (∀ m ∈ layer, m ∈ ms) ∧ ∀ m ∈ layer, ∀ o ∈ layer, m.id ≠ o.id → contains B m.root o.root = false
  | n, [], _, _ => ⟨[], by cases n <;> rfl, by simp, by simp⟩
  | 0, _ :: _, h, _ => by simp at h
  | n + 1, m :: ms, hn, hS => by
    rw [layersOf]
    -- a smallest member is in the layer
    have hex : ∃ x ∈ m :: ms, isOuter B (m :: ms) x = false := by
      have hmin : ∀ (k : Nat) (x : Member L I), x ∈ m :: ms → treeSize x.root ≤ k → ∃ y ∈ m :: ms, isOuter B (m :: ms) y = false := by
        intro k
        induction k with
        | zero => intro x _ hx; cases hroot : x.root <;> simp [hroot, treeSize] at hx
        | succ k ih =>
          intro x hx hsz
          cases ho : isOuter B (m :: ms) x with
          | false => exact ⟨x, hx, ho⟩
          | true =>
            unfold isOuter at ho
            obtain ⟨o, h1, h2⟩ := List.any_eq_true.1 ho
            simp only [Bool.and_eq_true, decide_eq_true_eq] at h2
            have := contains_size H (hS x hx) (hS o h1) h2.2
            exact ih o h1 (by omega)
      exact hmin _ m (by simp) (le_refl _)
    obtain ⟨x, hx, hxo⟩ := hex
    have hlayer : ((m :: ms).filter fun x => !isOuter B (m :: ms) x) ≠ [] := by
      intro h
      have : x ∈ ((m :: ms).filter fun x => !isOuter B (m :: ms) x) := List.mem_filter.2 ⟨hx, by simp [hxo]⟩
      rw [h] at this; simp at this
    have hrest : ((m :: ms).filter (isOuter B (m :: ms))).length < (m :: ms).length := by
      rcases Nat.lt_or_ge ((m :: ms).filter (isOuter B (m :: ms))).length (m :: ms).length with h | h
      · exact h
      · have he : (m :: ms).filter (isOuter B (m :: ms)) = m :: ms := List.Sublist.eq_of_length_le List.filter_sublist h
        have := (List.filter_eq_self.1 he) x hx
        rw [hxo] at this; simp at this
    simp only [hlayer, if_false]
    obtain ⟨layers, h1, h2, h3⟩ := layersOf_spec H n ((m :: ms).filter (isOuter B (m :: ms))) (by simp only [List.length_cons] at hn hrest ⊢; omega)
      (fun m' h' => hS m' (List.mem_filter.1 h').1)
    rw [h1]
    refine ⟨_, rfl, ?_, ?_⟩
    · intro y hy
      cases ho : isOuter B (m :: ms) y with
      | false => exact ⟨_, List.mem_cons_self, List.mem_filter.2 ⟨hy, by simp [ho]⟩⟩
      | true =>
        obtain ⟨l, g1, g2⟩ := h2 y (List.mem_filter.2 ⟨hy, ho⟩)
        exact ⟨l, List.mem_cons_of_mem _ g1, g2⟩
    · intro l hl
      rcases List.mem_cons.1 hl with rfl | hl
      · refine ⟨fun y hy => (List.mem_filter.1 hy).1, ?_⟩
        intro y hy o ho hid
        have h5 := (List.mem_filter.1 hy).2
        simp only [Bool.not_eq_true'] at h5
        unfold isOuter at h5
        have := List.any_eq_false.1 h5 o (List.mem_filter.1 ho).1
        simpa [hid] using this
      · obtain ⟨g1, g2⟩ := h3 l hl
        exact ⟨fun y hy => (List.mem_filter.1 (g1 y hy)).1, g2⟩

/-! ### The group -/

theorem batchesOf_follow (H : BatchOK B S) {t : ETree L} (ht : S t) {x : I} {bs : List (Nat × Nat)} (h : batchesOf B t x = some bs) (hne : bs ≠ []) :
    Follow (B.ext x).1 (B.ext x).2 bs ∧ (B.ext x).1 < (B.ext x).2 := by
  unfold batchesOf at h
  obtain ⟨⟨a, p⟩, h1, h2⟩ := Option.map_eq_some_iff.1 h
  obtain ⟨g1, g2, rfl⟩ := findLeaf_spec B x t a p h1
  obtain ⟨t1, t2⟩ := H.tiles a x (s_sub H.children g1 ht) g2
  obtain ⟨-, m2, m3⟩ := modeBatches_spec (B.tiles a ((B.ix a).idxOf x)) (B.target x) t1
  simp only at h2
  rw [h2] at m2 m3
  rw [t2] at m2 m3
  rcases Nat.lt_or_ge (B.ext x).1 (B.ext x).2 with h | h
  · exact ⟨(m2 h).1, h⟩
  · exact absurd (m3 h) hne

theorem joining_spec (real : Cache K Nat) (t : ETree L) (bs : List (Nat × Nat)) : ∀ (ks : List (ETree L)) (n : Nat),
    (∀ m ∈ joining B real t bs n ks, n ≤ m.id ∧ m.root ∈ ks ∧ joins B real t bs m.root = some m.axis) ∧
    ∀ m ∈ joining B real t bs n ks, ∀ o ∈ joining B real t bs n ks, m.id = o.id → m = o
  | [], n => by simp [joining]
  | k :: ks, n => by
    obtain ⟨ih1, ih2⟩ := joining_spec real t bs ks (n + 1)
    rw [joining]
    cases hj : joins B real t bs k with
    | none =>
      simp only
      refine ⟨fun m hm => ?_, ih2⟩
      obtain ⟨h1, h2, h3⟩ := ih1 m hm
      exact ⟨by omega, by simp [h2], h3⟩
    | some i =>
      simp only
      refine ⟨?_, ?_⟩
      · intro m hm
        rcases List.mem_cons.1 hm with rfl | hm
        · exact ⟨le_refl _, by simp, hj⟩
        · obtain ⟨h1, h2, h3⟩ := ih1 m hm
          exact ⟨by omega, by simp [h2], h3⟩
      · intro m hm o ho hid
        rcases List.mem_cons.1 hm with rfl | hm
        · rcases List.mem_cons.1 ho with rfl | ho
          · rfl
          · have := (ih1 o ho).1; simp only at hid; omega
        · rcases List.mem_cons.1 ho with rfl | ho
          · have := (ih1 m hm).1; simp only at hid; omega
          · exact ih2 m hm o ho hid

theorem joins_spec {real : Cache K Nat} {t : ETree L} {bs : List (Nat × Nat)} {k : ETree L} {i : I} (h : joins B real t bs k = some i) :
    isPersistent real (B.key k) = true ∧ real.alive (B.key k) = false ∧ B.key k ≠ B.key t ∧ batchAxis B k = some i ∧
    subtreeAny B.isVolatile k = false ∧ batchesOf B k i = some bs := by
  unfold joins at h
  split at h
  · simp at h
  · rename_i h1
    split at h
    · simp at h
    · rename_i h2
      cases ha : batchAxis B k with
      | none => simp [ha] at h
      | some j =>
        simp only [ha] at h
        split at h
        · simp at h
        · rename_i h3
          split at h
          · simp at h
          · rename_i h4
            simp only [Option.some.injEq] at h
            subst h
            simp only [Bool.or_eq_true, Bool.not_eq_true', not_or, Bool.not_eq_false, Bool.not_eq_true] at h1
            exact ⟨h1.1, h1.2, h2, rfl, by simpa using h3, by simpa using h4⟩

/-- **C80** The batched evaluator: no assertion fails and no null pointer is used; existing objects keep their values; the cache stays right;
a result that is returned is the full value of the node. -/
theorem batched_correct_partial (H : BatchOK B S) (t : ETree L) (ht : S t) (mc : Mem (Arr F) × Cache K Nat) (hr : RealOK B S mc) :
    ∃ mc' r, batched B t mc = some (mc', r) ∧ Grow mc.1 mc'.1 ∧ RealOK B S mc' ∧ ∀ o, r = some o → Holds mc'.1 o (plain B.op (fullAlg B) t) := by
  have decline : ∃ mc' r, some (mc, (none : Option Nat)) = some (mc', r) ∧ Grow mc.1 mc'.1 ∧ RealOK B S mc' ∧
      ∀ o, r = some o → Holds mc'.1 o (plain B.op (fullAlg B) t) := ⟨mc, none, rfl, Grow.refl _, hr, by simp⟩
  unfold batched
  cases hx : batchAxis B t with
  | none => exact decline
  | some x =>
    simp only
    by_cases hv : (B.persistentOnly && subtreeAny B.isVolatile t) = true
    · simp only [hv, if_true]; exact decline
    · simp only [hv, Bool.false_eq_true, if_false]
      cases hbs : batchesOf B t x with
      | none => exact decline
      | some bs =>
        simp only
        by_cases hlen : bs.length ≤ 1
        · simp only [hlen, if_true]; exact decline
        · simp only [hlen, if_false]
          have hne : bs ≠ [] := by rintro rfl; simp at hlen
          have hgroup : ∀ m ∈ groupOf B mc.2 t x bs, (MemberOK B S bs m ∧ (B.ext m.axis).1 < (B.ext m.axis).2) ∧ (m.id = 0 → m.root = t) := by
            intro m hm
            rcases List.mem_cons.1 hm with rfl | hm
            · obtain ⟨f1, f2⟩ := batchesOf_follow H ht hbs hne
              exact ⟨⟨⟨ht, (batchAxis_mem B t x hx).1, f1⟩, f2⟩, fun _ => rfl⟩
            · obtain ⟨j1, j2, j3⟩ := (joining_spec mc.2 t bs B.keys 1).1 m hm
              obtain ⟨-, -, -, k1, -, k2⟩ := joins_spec j3
              have hS := H.keys m.root j2
              obtain ⟨f1, f2⟩ := batchesOf_follow H hS k2 hne
              exact ⟨⟨⟨hS, (batchAxis_mem B _ _ k1).1, f1⟩, f2⟩, fun h0 => by omega⟩
          have hids : ∀ m ∈ groupOf B mc.2 t x bs, ∀ o ∈ groupOf B mc.2 t x bs, m.id = o.id → m = o := by
            obtain ⟨j1, j2⟩ := joining_spec (B := B) mc.2 t bs B.keys 1
            intro m hm o ho hid
            rcases List.mem_cons.1 hm with rfl | hm
            · rcases List.mem_cons.1 ho with rfl | ho
              · rfl
              · have := (j1 o ho).1; simp only at hid; omega
            · rcases List.mem_cons.1 ho with rfl | ho
              · have := (j1 m hm).1; simp only at hid; omega
              · exact j2 m hm o ho hid
          obtain ⟨layers, l1, l2, l3⟩ := layersOf_spec H.toKeyOK _ (groupOf B mc.2 t x bs) (le_refl _) fun m hm => (hgroup m hm).1.1.root
          rw [l1]
          simp only
          obtain ⟨mc', tr', p1, p2, p3, p4, p5⟩ := layersPass_spec H hne t layers (fun layer hl => by
            obtain ⟨g1, g2⟩ := l3 layer hl
            exact ⟨⟨fun m hm => (hgroup m (g1 m hm)).1.1, fun m hm o ho => hids m (g1 m hm) o (g1 o ho), g2⟩,
              fun m hm => ⟨(hgroup m (g1 m hm)).1.2, (hgroup m (g1 m hm)).2⟩⟩) mc none hr (by simp)
          rw [p1]
          obtain ⟨lay, q1, q2⟩ := l2 ⟨0, t, x⟩ (by simp [groupOf])
          have hsome := p5 (.inr ⟨lay, q1, _, q2, rfl⟩)
          cases tr' with
          | none => simp at hsome
          | some r => exact ⟨mc', some r, rfl, p2, p3, fun o ho => p4 o ho⟩

/-- **C80** A cache manager with the batched evaluator is sound. -/
theorem batched_sound_partial (H : BatchOK B S) : Sound (batchedEnv B) (fullAlg B) (heapView (fullAlg B) B.tbl) S := by
  have h0 : Sound (heapEnv B.key B.op B.phase (fullAlg B) B.tbl) (fullAlg B) (heapView (fullAlg B) B.tbl) S :=
    heap_sound B.tbl ⟨H.children, fun t ht v => scale_twice _ (H.sign t ht) v, H.coherent⟩
  refine ⟨h0.children, h0.leaf, h0.sum, h0.prod, h0.adj, h0.scale, h0.phase, h0.coherent, ?_, h0.hook⟩
  intro f hf t mc ht hc
  simp only [batchedEnv, Option.some.injEq] at hf
  subst hf
  obtain ⟨mc', r, h1, h2, h3, h4⟩ := batched_correct_partial H t ht mc hc
  simp only [h1, Option.getD_some]
  exact ⟨⟨fun hi a r h => (show Holds mc.1 r _ from hi a r h).grow h2, fun r v h => Holds.grow h h2⟩, h3, h4⟩

/-- **C80** Evaluation with the batched evaluator stops, fails no assertion, returns an object with the plain value of the tree, changes no
existing object, and leaves a cache with right values. -/
theorem evaluate_batched_partial (H : BatchOK B S) (t : ETree L) (ht : S t) (checked : Bool) (mc : Mem (Arr F) × Cache K Nat) (hr : RealOK B S mc)
    (fuel : Nat) (hf : t.rounds ≤ fuel) :
    ∃ mc' r, evaluate (batchedEnv B) fuel checked t mc = some (mc', r) ∧ r < mc'.1.next ∧ mc'.1.get r = plain B.op (fullAlg B) t ∧
      (∀ o < mc.1.next, o < mc'.1.next ∧ mc'.1.get o = mc.1.get o) ∧ RealOK B S mc' := by
  obtain ⟨mc', r, h1, h2, h3, h4⟩ := evaluate_correct (batched_sound_partial H) t ht checked mc hr fuel hf
  exact ⟨mc', r, h1, h2.1, h2.2, fun o ho => h3.2 o _ ⟨ho, rfl⟩, h4⟩

end SeQuant.Batch
