import Verif.Batch.Slices

/-!
# One layer of members: the scratch cache, the batches, the accumulators
-/

set_option linter.unusedSectionVars false

namespace SeQuant.Batch

open SeQuant.Eval

variable {L I K F : Type} [DecidableEq I] [DecidableEq K] [CommRing F]

/-- What batched evaluation relies on, for a set of trees closed under subtrees: the comparator (`KeyOK`); phases are signs; nodes with the same
key have the same value up to phases; labels fit together (`Shaped`); an index that a product sums over is not summed over below it (`dummies`);
the tiles of leaves fit the ranges of their indices. -/
structure BatchOK (B : BatchEnv L I K F) (S : ETree L → Prop) : Prop extends KeyOK B S where
  sign : ∀ t, S t → B.phase t.label = 1 ∨ B.phase t.label = -1
  coherent : ∀ t t', S t → S t' → B.key t = B.key t' → canon B.op B.phase (fullAlg B) t = canon B.op B.phase (fullAlg B) t'
  shaped : ∀ t, S t → Shaped B.op B.ix t
  dummies : ∀ a l r x, S (.node a l r) → x ∈ contractedIndices B (.node a l r) → Stays B.ix x l ∧ Stays B.ix x r
  tiles : ∀ a i, S (.leaf a) → i ∈ B.ix a → Tiled (B.tiles a ((B.ix a).idxOf i)) ∧ elementsRange (B.tiles a ((B.ix a).idxOf i)) = B.ext i
  keys : ∀ k ∈ B.keys, S k

/-- A member that can be evaluated batch by batch. -/
structure MemberOK (B : BatchEnv L I K F) (S : ETree L → Prop) (batches : List (Nat × Nat)) (m : Member L I) : Prop where
  root : S m.root
  axis : m.axis ∈ contractedIndices B m.root
  follow : Follow (B.ext m.axis).1 (B.ext m.axis).2 batches

/-- The members of a layer: none contains another one, up to the comparator. -/
structure LayerOK (B : BatchEnv L I K F) (S : ETree L → Prop) (batches : List (Nat × Nat)) (layer : List (Member L I)) : Prop where
  member : ∀ m ∈ layer, MemberOK B S batches m
  ids : ∀ m ∈ layer, ∀ o ∈ layer, m.id = o.id → m = o
  apart : ∀ m ∈ layer, ∀ o ∈ layer, m.id ≠ o.id → contains B m.root o.root = false

variable {B : BatchEnv L I K F} {S : ETree L → Prop} {batches : List (Nat × Nat)} {layer : List (Member L I)}

theorem scale_twice (p : Int) (hp : p = 1 ∨ p = -1) (y : Arr F) : (fullAlg B).scale p ((fullAlg B).scale p y) = y := by
  simp only [fullAlg, arrAlg]
  refine Arr.ext_in (y := y) rfl ?_
  intro v hv
  have hv' : inBox y.rng v = true := hv
  have e : (tab y.rng fun v => (p : F) * y.at_ v).rng = y.rng := rfl
  rw [e, tab_at hv', tab_at hv']
  rcases hp with rfl | rfl <;> simp

theorem nodeIn_iff (inner : ETree L) : ∀ t : ETree L, nodeIn B inner t = true ↔ ∃ u, Sub u t ∧ B.key u = B.key inner
  | .leaf a => by simp [nodeIn, Sub]
  | .node a l r => by
    simp only [nodeIn, Bool.or_eq_true, decide_eq_true_eq, nodeIn_iff inner l, nodeIn_iff inner r, Sub]
    constructor
    · rintro ((h | ⟨u, h, h'⟩) | ⟨u, h, h'⟩)
      · exact ⟨_, .inl rfl, h⟩
      · exact ⟨u, .inr (.inl h), h'⟩
      · exact ⟨u, .inr (.inr h), h'⟩
    · rintro ⟨u, rfl | h | h, h'⟩
      · exact .inl (.inl h')
      · exact .inl (.inr ⟨u, h, h'⟩)
      · exact .inr ⟨u, h, h'⟩

theorem contains_iff (outer inner : ETree L) : contains B outer inner = true ↔ ∃ u, Below u outer ∧ B.key u = B.key inner := by
  cases outer with
  | leaf a => simp [contains, Below]
  | node a l r =>
    simp only [contains, Bool.or_eq_true, nodeIn_iff, Below]
    constructor
    · rintro (⟨u, h, h'⟩ | ⟨u, h, h'⟩)
      · exact ⟨u, .inl h, h'⟩
      · exact ⟨u, .inr h, h'⟩
    · rintro ⟨u, h | h, h'⟩
      · exact .inl ⟨u, h, h'⟩
      · exact .inr ⟨u, h, h'⟩

theorem contains_size (H : KeyOK B S) {outer inner : ETree L} (ho : S outer) (hi : S inner) (h : contains B outer inner = true) :
    treeSize inner < treeSize outer := by
  obtain ⟨u, h1, h2⟩ := (contains_iff outer inner).1 h
  rw [← H.sameSize u inner (s_sub H.children ((sub_iff _ _).2 (.inr h1)) ho) hi h2]
  exact below_size h1

theorem member_below (H : BatchOK B S) {m : Member L I} (hm : MemberOK B S batches m) (u : ETree L) (hu : Below u m.root) :
    S u ∧ Stays B.ix m.axis u := by
  obtain ⟨a, l, r, h0, -⟩ := mem_contracted B hm.axis
  have h1 := hm.root
  have h2 := hm.axis
  rw [h0] at h1 h2 hu
  obtain ⟨d1, d2⟩ := H.dummies a l r m.axis h1 h2
  rcases hu with hu | hu
  · exact ⟨s_sub H.children hu (H.children a l r h1).1, stays_sub hu d1⟩
  · exact ⟨s_sub H.children hu (H.children a l r h1).2, stays_sub hu d2⟩

/-! ### The family of the members -/

variable (B layer) in
/-- Keys with an unmarked record. -/
def Reg (k : K) : Prop := ∃ e ∈ walk B layer [], B.key e.node = k ∧ e.consistent = true

variable (B layer) in
/-- Keys with an unmarked record without axis. -/
def Pers (k : K) : Prop := ∃ e ∈ walk B layer [], B.key e.node = k ∧ e.consistent = true ∧ e.sig = none

variable (layer) in
def SM (m : Member L I) (t : ETree L) : Prop := m ∈ layer ∧ Sub t m.root

theorem root_not_reg (H : BatchOK B S) (hl : LayerOK B S batches layer) {m : Member L I} (hm : m ∈ layer) : ¬ Reg B layer (B.key m.root) := by
  rintro ⟨e, he, hk, -⟩
  obtain ⟨⟨m', hm', hb⟩, -⟩ := walk_sig H.toKeyOK layer (fun m hm => member_below H (hl.member m hm)) e he
  have hc : contains B m'.root m.root = true := (contains_iff _ _).2 ⟨e.node, hb, hk⟩
  by_cases hid : m'.id = m.id
  · have := hl.ids m' hm' m hm hid
    subst this
    exact lt_irrefl _ (contains_size H.toKeyOK (hl.member m' hm').root (hl.member m' hm').root hc)
  · rw [hl.apart m' hm' m hm hid] at hc; simp at hc

theorem sig_of_reg (H : BatchOK B S) (hl : LayerOK B S batches layer) {e : Meta L} (he : e ∈ walk B layer []) (hc : e.consistent = true)
    {m : Member L I} {t : ETree L} (ht : SM layer m t) (hk : B.key t = B.key e.node) :
    S t ∧ Stays B.ix m.axis t ∧ indexPosition B t m.axis = e.sig := by
  rcases (sub_iff _ _).1 ht.2 with rfl | hb
  · exact absurd ⟨e, he, hk.symm, hc⟩ (root_not_reg H hl ht.1)
  · obtain ⟨-, -, h⟩ := walk_sig H.toKeyOK layer (fun m hm => member_below H (hl.member m hm)) e he
    obtain ⟨h1, h2⟩ := member_below H (hl.member m ht.1) t hb
    exact ⟨h1, h2, h hc m ht.1 t hb hk⟩

variable (B) in
/-- The values of a member for a batch. -/
def AM (b : Nat × Nat) (m : Member L I) : Alg L (Arr F) := slicedAlg B m.axis b

variable (B) in
def TM (m : Member L I) (a : L) : Option Nat := slicedTbl B m.axis a

theorem sm_s (H : BatchOK B S) (hl : LayerOK B S batches layer) {m : Member L I} {t : ETree L} (ht : SM layer m t) : S t :=
  s_sub H.children ht.2 (hl.member m ht.1).root

theorem family (H : BatchOK B S) (hl : LayerOK B S batches layer) {b : Nat × Nat} (hb : b ∈ batches) :
    Fam B.key B.op B.phase (AM B b) (SM layer) (Reg B layer) where
  children := by
    intro m a l r ⟨h1, h2⟩
    exact ⟨⟨h1, Sub.trans (show Sub l (.node a l r) from Or.inr (Or.inl (Sub.refl l))) h2⟩, ⟨h1, Sub.trans (show Sub r (.node a l r) from Or.inr (Or.inr (Sub.refl r))) h2⟩⟩
  involution := by
    intro m t ht v
    exact scale_twice (B := B) _ (H.sign t (sm_s H hl ht)) v
  coherent := by
    rintro m m' t t' ht ht' hk ⟨e, he, hke, hc⟩
    obtain ⟨s1, s2, s3⟩ := sig_of_reg H hl he hc ht hke.symm
    obtain ⟨g1, g2, g3⟩ := sig_of_reg H hl he hc ht' (hk.symm.trans hke.symm)
    unfold AM
    rw [sliced_canon B m.axis b (follow_bounds (hl.member m ht.1).follow b hb) t (H.shaped t s1) s2,
      sliced_canon B m'.axis b (follow_bounds (hl.member m' ht'.1).follow b hb) t' (H.shaped t' g1) g2, s3, g3, H.coherent t t' s1 g1 hk]

theorem pers_full (H : BatchOK B S) (hl : LayerOK B S batches layer) {b : Nat × Nat} (hb : b ∈ batches) (m : Member L I) (t : ETree L)
    (ht : SM layer m t) (hp : Pers B layer (B.key t)) : canon B.op B.phase (AM B b m) t = canon B.op B.phase (fullAlg B) t := by
  obtain ⟨e, he, hke, hc, hs⟩ := hp
  obtain ⟨s1, s2, s3⟩ := sig_of_reg H hl he hc ht hke.symm
  unfold AM
  rw [sliced_canon B m.axis b (follow_bounds (hl.member m ht.1).follow b hb) t (H.shaped t s1) s2, s3, hs]
  rfl

theorem tm_leaf (b : Nat × Nat) (m : Member L I) (a : L) (r : Nat) (h : TM B m a = some r) : (AM B b m).leaf a = leafArr B a ∧ B.tbl a = some r := by
  unfold TM slicedTbl at h
  by_cases hx : m.axis ∈ B.ix a
  · simp [hx] at h
  · simp only [hx, if_false] at h
    refine ⟨?_, h⟩
    simp only [AM, slicedAlg, arrAlg, slicedLeaf, indexPosition, ETree.label, hx, if_false]

variable (B layer) in
/-- The scratch cache is right for a batch. -/
abbrev ScratchOK (b : Nat × Nat) (mc : Mem (Arr F) × Cache K Nat) : Prop :=
  FamOK B.key B.op B.phase (AM B b) (TM B) (SM layer) (Reg B layer) (Pers B layer) mc

variable (B layer) in
/-- The scratch cache is right for the full values: so before the first batch. -/
abbrev SeedOK (mc : Mem (Arr F) × Cache K Nat) : Prop :=
  FamOK B.key B.op B.phase (fun _ => fullAlg B) (TM B) (SM layer) (Reg B layer) (Pers B layer) mc

theorem reset_first (H : BatchOK B S) (hl : LayerOK B S batches layer) {b : Nat × Nat} (hb : b ∈ batches) {m : Mem (Arr F)} {c : Cache K Nat}
    (h : SeedOK B layer (m, c)) : ScratchOK B layer b (m, c.reset) :=
  FamOK.reset h (fun m a r hr => (tm_leaf b m a r hr).1) (fun m t ht hp => pers_full H hl hb m t ht hp)

theorem reset_next (H : BatchOK B S) (hl : LayerOK B S batches layer) {b b' : Nat × Nat} (hb : b ∈ batches) (hb' : b' ∈ batches) {m : Mem (Arr F)}
    {c : Cache K Nat} (h : ScratchOK B layer b (m, c)) : ScratchOK B layer b' (m, c.reset) :=
  FamOK.reset h (fun m a r hr => (tm_leaf b' m a r hr).1.trans (tm_leaf b m a r hr).1.symm)
    (fun m t ht hp => (pers_full H hl hb' m t ht hp).trans (pers_full H hl hb m t ht hp).symm)

/-! ### Seeds -/

/-- What the real cache has to satisfy. -/
abbrev RealOK (B : BatchEnv L I K F) (S : ETree L → Prop) (mc : Mem (Arr F) × Cache K Nat) : Prop :=
  CacheOK (batchedEnv B) (fullAlg B) (heapView (fullAlg B) B.tbl) S mc

theorem make_scratch (H : BatchOK B S) (hl : LayerOK B S batches layer) (m : Mem (Arr F)) (real : Cache K Nat) (hr : RealOK B S (m, real)) :
    SeedOK B layer (m, (makeScratch B layer real).1) ∧ (∀ k e, (makeScratch B layer real).1 k = some e → e.data = none) ∧
    ∀ s ∈ (makeScratch B layer real).2, isPersistent real (B.key s) = true ∧ real.alive (B.key s) = true ∧ S s := by
  have hent : ∀ k e, (makeScratch B layer real).1 k = some e → Reg B layer k ∧ e.data = none ∧ (e.persistent = true → Pers B layer k) := by
    intro k e he
    unfold makeScratch at he
    simp only [make_entry, Option.map_eq_some_iff] at he
    obtain ⟨p, h1, rfl⟩ := he
    have h2 := List.mem_of_find?_eq_some h1
    have h3 : p.1 = k := by simpa using List.find?_some h1
    obtain ⟨e, he, rfl⟩ := List.mem_map.1 h2
    obtain ⟨g1, g2⟩ := List.mem_filter.1 he
    simp only [Bool.and_eq_true] at g2
    refine ⟨⟨e, g1, h3, g2.1⟩, rfl, ?_⟩
    intro hp
    simp only [Entry.new, decide_eq_true_eq, List.map_map, List.mem_map, Function.comp] at hp
    obtain ⟨e', he', hk⟩ := hp
    obtain ⟨q1, q2⟩ := List.mem_filter.1 he'
    simp only [seedable, Bool.and_eq_true, Option.isNone_iff_eq_none] at q2
    exact ⟨e', q1, hk, q2.1.1.1, q2.1.1.2⟩
  refine ⟨⟨?_, fun k e he => (hent k e he).1, fun k e he hp => (hent k e he).2.2 hp, ?_⟩, fun k e he => (hent k e he).2.1, ?_⟩
  · intro mm a r hr'
    exact hr.1 a r (tm_leaf (0, 0) mm a r hr').2
  · intro k e r he hd
    rw [(hent k e he).2.1] at hd; simp at hd
  · intro s hs
    unfold makeScratch at hs
    obtain ⟨e, he, rfl⟩ := List.mem_map.1 hs
    obtain ⟨q1, q2⟩ := List.mem_filter.1 he
    simp only [seedable, Bool.and_eq_true] at q2
    exact ⟨q2.1.2, q2.2, (walk_sig H.toKeyOK layer (fun m hm => member_below H (hl.member m hm)) e q1).2.1⟩

/-- Objects in a cache are allocated. -/
def Bnd (m : Mem (Arr F)) (c : Cache K Nat) : Prop := ∀ k e r, c k = some e → e.data = some r → r < m.next

theorem bnd_store {m : Mem (Arr F)} {c : Cache K Nat} (h : Bnd m c) (k : K) (d : Nat) (hd : d < m.next) : Bnd m (c.store k d).1 := by
  intro k' e' r h1 h2
  rcases (store_owned (L := Unit) (fun _ => none) c k d).1 r (.inl ⟨k', e', h1, h2⟩) with (⟨k2, e2, h3, h4⟩ | ⟨a, h3⟩) | rfl
  · exact h k2 e2 r h3 h4
  · simp at h3
  · exact hd

theorem bnd_reset {m : Mem (Arr F)} {c : Cache K Nat} (h : Bnd m c) : Bnd m c.reset := by
  intro k e r he hr
  simp only [Cache.reset, Option.map_eq_some_iff] at he
  obtain ⟨e', h1, rfl⟩ := he
  unfold Entry.reset at hr
  by_cases hq : e'.persistent
  · exact h k e' r h1 (by simpa [hq] using hr)
  · simp [hq] at hr

/-- Seeds are there and are copied; the real cache does not change. -/
theorem plant (H : BatchOK B S) (hl : LayerOK B S batches layer) (m : Mem (Arr F)) (real : Cache K Nat) (hr : RealOK B S (m, real)) :
    ∀ (ss : List (ETree L)) (scratch : Cache K Nat), (∀ s ∈ ss, isPersistent real (B.key s) = true ∧ real.alive (B.key s) = true ∧ S s) →
    SeedOK B layer (m, scratch) → Bnd m scratch →
    ∃ scratch', plantSeeds B ss real scratch = some (real, scratch') ∧ SeedOK B layer (m, scratch') ∧ Bnd m scratch'
  | [], scratch, _, h, hb => ⟨scratch, rfl, h, hb⟩
  | s :: ss, scratch, hs, h, hb => by
    obtain ⟨p1, p2, p3⟩ := hs s (by simp)
    unfold isPersistent at p1
    unfold Cache.alive at p2
    cases hc : real (B.key s) with
    | none => simp [hc] at p1
    | some e =>
      simp only [hc] at p1 p2
      obtain ⟨d, hd⟩ := Option.isSome_iff_exists.1 p2
      have ha : e.access = (e, some d) := by unfold Entry.access; simp [hd, p1]
      have hacc : real.access (B.key s) = (real, some d) := by
        unfold Cache.access
        simp only [hc, ha, Prod.mk.injEq, and_true]
        funext k
        unfold Cache.set
        by_cases hk : k = B.key s
        · simp [hk, hc]
        · simp [hk]
      have hval : ∀ t, S t → B.key t = B.key s → Holds m d (canon B.op B.phase (fullAlg B) t) := fun t h1 h2 => hr.2 (B.key s) e d hc hd t h1 h2
      rw [plantSeeds]
      simp only [hacc]
      exact plant H hl m real hr ss _ (fun s' h' => hs s' (by simp [h']))
        (h.store _ _ fun _ mm t ht hk => hval t (sm_s H hl ht) hk) (bnd_store hb _ _ (hval s p3 rfl).1)

end SeQuant.Batch
