import Verif.Batch.Scratch

/-!
# What evaluation with sliced leaves computes
-/

namespace SeQuant.Batch

open SeQuant.Eval

variable {L I K F : Type} [DecidableEq I] [DecidableEq K] [CommRing F]

theorem plain_leaves (op : L → EOp) (ix : L → List I) (conj : F → F) (f g : L → Arr F) : ∀ t : ETree L, (∀ a, Sub (.leaf a) t → f a = g a) →
    plain op (arrAlg ix conj f) t = plain op (arrAlg ix conj g) t
  | .leaf a, h => h a rfl
  | .node a l r, h => by
    have hl := plain_leaves op ix conj f g l fun a ha => h a (.inr (.inl ha))
    have hr := plain_leaves op ix conj f g r fun a ha => h a (.inr (.inr ha))
    rw [plain, plain, hl, hr]
    rfl

theorem shaped_sub {op : L → EOp} {ix : L → List I} {u : ETree L} : ∀ {t : ETree L}, Sub u t → Shaped op ix t → Shaped op ix u
  | .leaf a, h, h' => by rw [show u = .leaf a from h]; exact h'
  | .node a l r, h, h' => by
    rcases h with rfl | h | h
    · exact h'
    · exact shaped_sub h h'.2.1
    · exact shaped_sub h h'.2.2.1

theorem shaped_nodup {op : L → EOp} {ix : L → List I} : ∀ {t : ETree L}, Shaped op ix t → (ix t.label).Nodup
  | .leaf _, h => h
  | .node _ _ _, h => h.1

variable (B : BatchEnv L I K F)

/-- With the leaves of a batch one evaluates on a restricted range of the axis. -/
theorem sliced_eq (x : I) (b : Nat × Nat) (hb : (B.ext x).1 ≤ b.1 ∧ b.2 ≤ (B.ext x).2) (t : ETree L) (hs : Shaped B.op B.ix t) :
    plain B.op (slicedAlg B x b) t =
      tab ((B.ix t.label).map (restrict B.ext x b)) fun v => den B.op B.ix B.conj B.elem (restrict B.ext x b) t (coords (B.ix t.label) v) := by
  rw [← plain_den B.op B.ix B.conj B.elem (restrict B.ext x b) t hs]
  apply plain_leaves
  intro a ha
  have hn : (B.ix a).Nodup := shaped_sub ha hs
  unfold slicedLeaf indexPosition leafArr
  by_cases h : x ∈ B.ix a
  · simp only [ETree.label, h, if_true]
    exact slice_tab B.ext x b.1 b.2 (B.ix a) hn h hb (B.elem a)
  · simp only [ETree.label, h, if_false]
    rw [map_restrict B.ext x b _ h]

theorem full_eq (t : ETree L) (hs : Shaped B.op B.ix t) :
    plain B.op (fullAlg B) t = tab ((B.ix t.label).map B.ext) fun v => den B.op B.ix B.conj B.elem B.ext t (coords (B.ix t.label) v) :=
  plain_den B.op B.ix B.conj B.elem B.ext t hs

/-- The slice of an array, if it carries the axis. -/
def sliceOpt (p : Option Nat) (b : Nat × Nat) (x : Arr F) : Arr F := match p with
  | none => x
  | some p => sliceMode x p b.1 b.2

/-- Below the sum over the axis: the value for the batch is the slice of the full value. -/
theorem sliced_plain (x : I) (b : Nat × Nat) (hb : (B.ext x).1 ≤ b.1 ∧ b.2 ≤ (B.ext x).2) (t : ETree L) (hs : Shaped B.op B.ix t)
    (hx : Stays B.ix x t) : plain B.op (slicedAlg B x b) t = sliceOpt (indexPosition B t x) b (plain B.op (fullAlg B) t) := by
  rw [sliced_eq B x b hb t hs, full_eq B t hs, den_restrict B.op B.ix B.conj B.elem B.ext x b t hx]
  unfold indexPosition sliceOpt
  by_cases h : x ∈ B.ix t.label
  · simp only [h, if_true]
    exact (slice_tab B.ext x b.1 b.2 _ (shaped_nodup hs) h hb _).symm
  · simp only [h, if_false]
    rw [map_restrict B.ext x b _ h]

/-- Scaling and slicing commute. -/
theorem scale_slice (p : Int) (x : I) (b : Nat × Nat) (hb : (B.ext x).1 ≤ b.1 ∧ b.2 ≤ (B.ext x).2) (t : ETree L) (hs : Shaped B.op B.ix t) :
    (fullAlg B).scale p (sliceOpt (indexPosition B t x) b (plain B.op (fullAlg B) t)) =
      sliceOpt (indexPosition B t x) b ((fullAlg B).scale p (plain B.op (fullAlg B) t)) := by
  unfold indexPosition sliceOpt
  by_cases h : x ∈ B.ix t.label
  · simp only [h, if_true]
    simp only [full_eq B t hs]
    rw [slice_tab B.ext x b.1 b.2 _ (shaped_nodup hs) h hb]
    simp only [fullAlg, arrAlg]
    have e1 : ∀ f : List Nat → F, (tab ((B.ix t.label).map (restrict B.ext x (b.1, b.2))) f).rng = (B.ix t.label).map (restrict B.ext x (b.1, b.2)) := fun _ => rfl
    have e2 : ∀ f : List Nat → F, (tab ((B.ix t.label).map B.ext) f).rng = (B.ix t.label).map B.ext := fun _ => rfl
    rw [e1, e2, slice_tab B.ext x b.1 b.2 _ (shaped_nodup hs) h hb]
    apply tab_congr
    intro v hv
    rw [tab_at hv, tab_at (inBox_restrict hb _ _ hv)]
  · simp only [h, if_false]

/-- What the scratch cache keeps for a node is the slice of what the real cache keeps. -/
theorem sliced_canon (x : I) (b : Nat × Nat) (hb : (B.ext x).1 ≤ b.1 ∧ b.2 ≤ (B.ext x).2) (t : ETree L) (hs : Shaped B.op B.ix t)
    (hx : Stays B.ix x t) : canon B.op B.phase (slicedAlg B x b) t = sliceOpt (indexPosition B t x) b (canon B.op B.phase (fullAlg B) t) := by
  unfold canon
  rw [sliced_plain B x b hb t hs hx]
  by_cases hp : B.phase t.label = 1
  · simp only [hp, if_true]
  · simp only [hp, if_false]
    exact scale_slice B _ x b hb t hs

/-! ### The axis -/

theorem batchAxis_mem (t : ETree L) (x : I) (h : batchAxis B t = some x) : x ∈ contractedIndices B t ∧ B.accept x = true := by
  unfold batchAxis at h
  have key : ∀ (is : List I) (best : Option I),
      is.foldl (fun best i => if !B.accept i then best else match best with
        | none => some i
        | some b => if B.size b < B.size i then some i else best) best = some x → (x ∈ is ∧ B.accept x = true) ∨ best = some x := by
    intro is
    induction is with
    | nil => intro best h; exact .inr h
    | cons i is ih =>
      intro best h
      rw [List.foldl_cons] at h
      rcases ih _ h with h | h
      · exact .inl ⟨by simp [h.1], h.2⟩
      · cases ha : B.accept i with
        | false => simp only [ha, Bool.not_false, if_true] at h; exact .inr h
        | true =>
          simp only [ha, Bool.not_true, Bool.false_eq_true, if_false] at h
          cases best with
          | none =>
            simp only [Option.some.injEq] at h
            subst h; exact .inl ⟨by simp, ha⟩
          | some b =>
            simp only at h
            by_cases hlt : B.size b < B.size i
            · simp only [hlt, if_true, Option.some.injEq] at h
              subst h; exact .inl ⟨by simp, ha⟩
            · simp only [hlt, if_false] at h; exact .inr h
  rcases key _ none h with h | h
  · exact h
  · simp at h

theorem mem_contracted {t : ETree L} {x : I} (h : x ∈ contractedIndices B t) :
    ∃ a l r, t = .node a l r ∧ B.op a = .prod ∧ x ∈ B.ix l.label ∧ x ∈ B.ix r.label ∧ x ∉ B.ix a := by
  cases t with
  | leaf a => simp [contractedIndices] at h
  | node a l r =>
    unfold contractedIndices at h
    by_cases ho : B.op a = .prod
    · simp only [ho, if_true, List.mem_filter, Bool.and_eq_true, List.contains_iff_mem, Bool.not_eq_true'] at h
      obtain ⟨h1, h2, h3⟩ := h
      refine ⟨a, l, r, rfl, ho, h1, h2, ?_⟩
      intro hm
      rw [List.contains_iff_mem.2 hm] at h3; simp at h3
    · simp [ho] at h

theorem findLeaf_spec (x : I) : ∀ (t : ETree L) (a : L) (p : Nat), findLeafCarrying B t x = some (a, p) →
    Sub (.leaf a) t ∧ x ∈ B.ix a ∧ p = (B.ix a).idxOf x
  | .leaf c, a, p, h => by
    unfold findLeafCarrying indexPosition at h
    by_cases hx : x ∈ B.ix c
    · simp only [ETree.label, hx, if_true, Option.map_some, Option.some.injEq, Prod.mk.injEq] at h
      obtain ⟨rfl, rfl⟩ := h
      exact ⟨rfl, hx, rfl⟩
    · simp [ETree.label, hx] at h
  | .node c l r, a, p, h => by
    unfold findLeafCarrying at h
    cases hl : findLeafCarrying B l x with
    | some y =>
      rw [hl] at h
      simp only [Option.some.injEq] at h
      subst h
      obtain ⟨h1, h2⟩ := findLeaf_spec x l a p hl
      exact ⟨.inr (.inl h1), h2⟩
    | none =>
      rw [hl] at h
      obtain ⟨h1, h2⟩ := findLeaf_spec x r a p h
      exact ⟨.inr (.inr h1), h2⟩

/-! ### The root: parts add up -/

theorem follow_filter : ∀ {lo hi : Nat} {bs : List (Nat × Nat)}, Follow lo hi bs → Follow lo hi (bs.filter fun b => !decide (b.1 = b.2))
  | _, _, [], h => h
  | lo, hi, b :: bs, ⟨h1, h2, h3⟩ => by
    have ih := follow_filter h3
    by_cases hb : b.1 = b.2
    · rw [List.filter_cons_of_neg (by simp [hb]), ← h1, hb]; exact ih
    · rw [List.filter_cons_of_pos (by simp [hb])]; exact ⟨h1, h2, ih⟩

/-- The parts of a product over the batches of a contracted index add up to the full value. -/
theorem parts_add_up (a : L) (l r : ETree L) (x : I) (hs : Shaped B.op B.ix (.node a l r)) (hx : x ∈ contractedIndices B (.node a l r))
    (hl : Stays B.ix x l) (hr : Stays B.ix x r) (bs : List (Nat × Nat)) (hbs : Follow (B.ext x).1 (B.ext x).2 bs) (hne : bs ≠ []) :
    addAll (bs.map fun b => plain B.op (slicedAlg B x b) (.node a l r)) = some (plain B.op (fullAlg B) (.node a l r)) := by
  obtain ⟨a', l', r', h0, hop, hxl, hxr, hxa⟩ := mem_contracted B hx
  cases h0
  have part : ∀ b ∈ bs, plain B.op (slicedAlg B x b) (.node a l r) = tab ((B.ix a).map B.ext) fun v =>
      sumOver (restrict B.ext x b) (contr (B.ix l.label) (B.ix r.label) (B.ix a))
        (fun σ => den B.op B.ix B.conj B.elem B.ext l σ * den B.op B.ix B.conj B.elem B.ext r σ) (coords (B.ix a) v) := by
    intro b hb
    rw [sliced_eq B x b (follow_bounds hbs b hb) _ hs]
    simp only [label_node]
    rw [map_restrict B.ext x b _ hxa]
    congr 1
    funext v
    simp only [den, hop]
    rw [den_restrict B.op B.ix B.conj B.elem B.ext x b l hl, den_restrict B.op B.ix B.conj B.elem B.ext x b r hr]
  rw [List.map_congr_left part, full_eq B _ hs]
  simp only [label_node, den, hop]
  cases bs with
  | nil => exact absurd rfl hne
  | cons b bs =>
    simp only [List.map_cons, addAll, Option.some.injEq]
    have := foldl_addArr ((B.ix a).map B.ext) (bs.map fun b v => sumOver (restrict B.ext x b) (contr (B.ix l.label) (B.ix r.label) (B.ix a))
        (fun σ => den B.op B.ix B.conj B.elem B.ext l σ * den B.op B.ix B.conj B.elem B.ext r σ) (coords (B.ix a) v))
      (fun v => sumOver (restrict B.ext x b) (contr (B.ix l.label) (B.ix r.label) (B.ix a))
        (fun σ => den B.op B.ix B.conj B.elem B.ext l σ * den B.op B.ix B.conj B.elem B.ext r σ) (coords (B.ix a) v))
    rw [List.map_map] at this
    refine this.trans ?_
    apply tab_congr
    intro v _
    rw [← sumOver_batches B.ext x (b :: bs) hbs _ (contr_nodup _ _ _) (mem_contr.2 ⟨.inl hxl, hxa⟩)]
    simp [Function.comp_def]

theorem addAll_snoc (xs : List (Arr F)) (y : Arr F) : addAll (xs ++ [y]) = some (match addAll xs with
    | none => y
    | some v => addArr v y) := by
  cases xs with
  | nil => rfl
  | cons x xs => simp [addAll, List.foldl_append]

end SeQuant.Batch
