import Verif.Batch.Model

/-!
# What the scratch cache registers

`visit` records, for every node below the members, where the batch axis is; nodes found with the axis at different places are marked.  Although
`visit` does not descend everywhere, an unmarked record is right for all nodes with its key.
-/

namespace SeQuant.Batch

open SeQuant.Eval

variable {L I K F : Type} [DecidableEq I] [DecidableEq K] [CommRing F]

/-- `u` is a subtree of the tree, or the tree. -/
def Sub (u : ETree L) : ETree L → Prop
  | .leaf a => u = .leaf a
  | .node a l r => u = .node a l r ∨ Sub u l ∨ Sub u r

/-- `u` is a proper subtree of the tree. -/
def Below (u : ETree L) : ETree L → Prop
  | .leaf _ => False
  | .node _ l r => Sub u l ∨ Sub u r

theorem Sub.refl : ∀ t : ETree L, Sub t t
  | .leaf _ => rfl
  | .node _ _ _ => .inl rfl

theorem sub_iff (u t : ETree L) : Sub u t ↔ u = t ∨ Below u t := by
  cases t <;> simp [Sub, Below]

def treeSize : ETree L → Nat
  | .leaf _ => 1
  | .node _ l r => treeSize l + treeSize r + 1

theorem sub_size {u : ETree L} : ∀ {t : ETree L}, Sub u t → treeSize u ≤ treeSize t
  | .leaf a, h => by rw [show u = .leaf a from h]
  | .node a l r, h => by
    rcases h with rfl | h | h
    · exact le_refl _
    · have := sub_size h; simp only [treeSize]; omega
    · have := sub_size h; simp only [treeSize]; omega

theorem below_size {u : ETree L} : ∀ {t : ETree L}, Below u t → treeSize u < treeSize t
  | .node a l r, h => by
    rcases h with h | h <;> (have := sub_size h; simp only [treeSize]; omega)

theorem Sub.trans {u v : ETree L} : ∀ {t : ETree L}, Sub u v → Sub v t → Sub u t
  | .leaf a, h, h' => by rw [show v = .leaf a from h'] at h; exact h
  | .node a l r, h, h' => by
    rcases h' with rfl | h' | h'
    · exact h
    · exact .inr (.inl (h.trans h'))
    · exact .inr (.inr (h.trans h'))

theorem stays_sub {ix : L → List I} {x : I} {u : ETree L} : ∀ {t : ETree L}, Sub u t → Stays ix x t → Stays ix x u
  | .leaf a, h, h' => by rw [show u = .leaf a from h]; exact h'
  | .node a l r, h, h' => by
    rcases h with rfl | h | h
    · exact h'
    · exact stays_sub h h'.2.1
    · exact stays_sub h h'.2.2

/-- What the comparator of the cache guarantees about nodes with the same key: both are leaves or neither, they have the same number of nodes,
and if the axes of two members are at the same place in them, then below every subtree of one there is a counterpart in the other with the axis
at the same place (the reasoning in the comment at eval.hpp:1181-1191). -/
structure KeyOK (B : BatchEnv L I K F) (S : ETree L → Prop) : Prop where
  children : ∀ a l r, S (.node a l r) → S l ∧ S r
  sameLeaf : ∀ t t', S t → S t' → B.key t = B.key t' → t.isLeaf = t'.isLeaf
  sameSize : ∀ t t', S t → S t' → B.key t = B.key t' → treeSize t = treeSize t'
  aligned : ∀ t t' x x', S t → S t' → B.key t = B.key t' → Stays B.ix x t → Stays B.ix x' t' →
    indexPosition B t x = indexPosition B t' x' → ∀ u, Below u t → ∃ u', Below u' t' ∧ B.key u = B.key u' ∧ indexPosition B u x = indexPosition B u' x'

variable {B : BatchEnv L I K F} {S : ETree L → Prop}

theorem s_sub (H : ∀ a l r, S (.node a l r) → S l ∧ S r) {u : ETree L} : ∀ {t : ETree L}, Sub u t → S t → S u
  | .leaf a, h, h' => by rw [show u = .leaf a from h]; exact h'
  | .node a l r, h, h' => by
    rcases h with rfl | h | h
    · exact h'
    · exact s_sub H h (H a l r h').1
    · exact s_sub H h (H a l r h').2

variable (B) in
def Covered (ms : List (Meta L)) (x : I) (u : ETree L) : Prop :=
  ∃ e ∈ ms, B.key e.node = B.key u ∧ (e.consistent = true → e.sig = indexPosition B u x)

variable (B) in
/-- All nodes below are covered. -/
def Cov (ms : List (Meta L)) (x : I) (t : ETree L) : Prop := ∀ u, Below u t → u.isLeaf = false → Covered B ms x u

/-- Records stay, and stay marked. -/
def Mono (ms ms' : List (Meta L)) : Prop :=
  ∀ e ∈ ms, ∃ e' ∈ ms', e'.node = e.node ∧ e'.sig = e.sig ∧ (e'.consistent = true → e.consistent = true)

theorem Mono.refl (ms : List (Meta L)) : Mono ms ms := fun e he => ⟨e, he, rfl, rfl, id⟩
theorem Mono.trans {a b c : List (Meta L)} (h : Mono a b) (h' : Mono b c) : Mono a c := by
  intro e he
  obtain ⟨e1, h1, h2, h3, h4⟩ := h e he
  obtain ⟨e2, g1, g2, g3, g4⟩ := h' e1 h1
  exact ⟨e2, g1, g2.trans h2, g3.trans h3, fun x => h4 (g4 x)⟩

theorem Covered.mono {ms ms' : List (Meta L)} (h : Mono ms ms') {x : I} {u : ETree L} (hc : Covered B ms x u) : Covered B ms' x u := by
  obtain ⟨e, h1, h2, h3⟩ := hc
  obtain ⟨e', g1, g2, g3, g4⟩ := h e h1
  exact ⟨e', g1, by rw [g2]; exact h2, fun c => by rw [g3]; exact h3 (g4 c)⟩

theorem Cov.mono {ms ms' : List (Meta L)} (h : Mono ms ms') {x : I} {t : ETree L} (hc : Cov B ms x t) : Cov B ms' x t :=
  fun u hu hl => (hc u hu hl).mono h

variable (B S) in
/-- What holds while walking; `P` tells the keys of the nodes that are being visited. -/
structure Inv (P : K → Prop) (ms : List (Meta L)) : Prop where
  nodup : (ms.map fun e => B.key e.node).Nodup
  rec_ : ∀ e ∈ ms, S e.node ∧ e.node.isLeaf = false ∧
    ∃ x, Stays B.ix x e.node ∧ e.sig = indexPosition B e.node x ∧ (P (B.key e.node) ∨ Cov B ms x e.node)

theorem inv_unique {P : K → Prop} {ms : List (Meta L)} (h : Inv B S P ms) {e e' : Meta L} (he : e ∈ ms) (he' : e' ∈ ms)
    (hk : B.key e.node = B.key e'.node) : e = e' := List.inj_on_of_nodup_map h.nodup he he' hk

theorem bump_fields (k : K) (sig : Option Nat) (e : Meta L) : (bump B k sig e).node = e.node ∧ (bump B k sig e).sig = e.sig ∧
    ((bump B k sig e).consistent = true → e.consistent = true ∧ (B.key e.node = k → e.sig = sig)) := by
  unfold bump
  by_cases h : B.key e.node = k
  · simp [h]
  · simp [h]

theorem mono_bump (k : K) (sig : Option Nat) (ms : List (Meta L)) : Mono ms (ms.map (bump B k sig)) := by
  intro e he
  obtain ⟨h1, h2, h3⟩ := bump_fields (B := B) k sig e
  exact ⟨_, List.mem_map_of_mem he, h1, h2, fun c => (h3 c).1⟩

theorem cov_transfer (H : KeyOK B S) {ms : List (Meta L)} {t t' : ETree L} {x x' : I} (ht : S t) (ht' : S t') (hk : B.key t = B.key t')
    (hx : Stays B.ix x t) (hx' : Stays B.ix x' t') (hp : indexPosition B t x = indexPosition B t' x') (hc : Cov B ms x' t') : Cov B ms x t := by
  intro u hu hl
  obtain ⟨u', h1, h2, h3⟩ := H.aligned t t' x x' ht ht' hk hx hx' hp u hu
  have su := s_sub H.children ((sub_iff u t).2 (.inr hu)) ht
  have su' := s_sub H.children ((sub_iff u' t').2 (.inr h1)) ht'
  obtain ⟨e, g1, g2, g3⟩ := hc u' h1 (by rw [← H.sameLeaf u u' su su' h2]; exact hl)
  exact ⟨e, g1, g2.trans h2.symm, fun c => (g3 c).trans h3.symm⟩

theorem visit_spec (H : KeyOK B S) (x : I) (t : ETree L) : ∀ (P : K → Prop) (ms : List (Meta L)), S t → Stays B.ix x t → Inv B S P ms →
    (∀ k, P k → ∀ u, S u → B.key u = k → treeSize t < treeSize u) →
    Inv B S P (visit B x t ms) ∧ Mono ms (visit B x t ms) ∧ (t.isLeaf = false → Covered B (visit B x t ms) x t) ∧ Cov B (visit B x t ms) x t ∧
    ∀ e ∈ visit B x t ms, (∃ e0 ∈ ms, e0.node = e.node) ∨ Sub e.node t := by
  induction t with
  | leaf a =>
    intro P ms _ _ hi _
    exact ⟨hi, Mono.refl _, by simp [ETree.isLeaf], fun u hu => by simp [Below] at hu, fun e he => .inl ⟨e, he, rfl⟩⟩
  | node a l r ihl ihr =>
    intro P ms ht hx hi hP
    obtain ⟨hl, hr⟩ := H.children a l r ht
    obtain ⟨hx0, hxl, hxr⟩ := hx
    have hx : Stays B.ix x (.node a l r) := ⟨hx0, hxl, hxr⟩
    have zl : treeSize l < treeSize (.node a l r) := by simp only [treeSize]; omega
    have zr : treeSize r < treeSize (.node a l r) := by simp only [treeSize]; omega
    -- descending into both children
    have both : ∀ (P : K → Prop) (ms : List (Meta L)), Inv B S P ms → (∀ k, P k → ∀ u, S u → B.key u = k → treeSize (.node a l r) ≤ treeSize u) →
        Inv B S P (visit B x r (visit B x l ms)) ∧ Mono ms (visit B x r (visit B x l ms)) ∧ Cov B (visit B x r (visit B x l ms)) x (.node a l r) ∧
        ∀ e ∈ visit B x r (visit B x l ms), (∃ e0 ∈ ms, e0.node = e.node) ∨ Below e.node (.node a l r) := by
      intro P ms hi hP
      obtain ⟨a1, a2, a3, a4, a5⟩ := ihl P ms hl hxl hi fun k hk u hu hku => lt_of_lt_of_le zl (hP k hk u hu hku)
      obtain ⟨b1, b2, b3, b4, b5⟩ := ihr P _ hr hxr a1 fun k hk u hu hku => lt_of_lt_of_le zr (hP k hk u hu hku)
      refine ⟨b1, a2.trans b2, ?_, ?_⟩
      · intro u hu hleaf
        rcases hu with hu | hu
        · rcases (sub_iff u l).1 hu with rfl | hu
          · exact (a3 hleaf).mono b2
          · exact (a4 u hu hleaf).mono b2
        · rcases (sub_iff u r).1 hu with rfl | hu
          · exact b3 hleaf
          · exact b4 u hu hleaf
      · intro e he
        rcases b5 e he with ⟨e1, h1, h2⟩ | h
        · rcases a5 e1 h1 with ⟨e0, h3, h4⟩ | h
          · exact .inl ⟨e0, h3, h4.trans h2⟩
          · rw [h2] at h; exact .inr (.inl h)
        · exact .inr (.inr h)
    rw [visit]
    simp only
    cases hf : ms.find? fun e => decide (B.key e.node = B.key (.node a l r)) with
    | none =>
      simp only
      have hnew : ∀ e ∈ ms, B.key e.node ≠ B.key (.node a l r) := by
        intro e he hk
        have := List.find?_eq_none.1 hf e he
        simp [hk] at this
      have mono0 : Mono ms (ms ++ [⟨.node a l r, 1, indexPosition B (.node a l r) x, true⟩]) := fun e he => ⟨e, by simp [he], rfl, rfl, id⟩
      have hi' : Inv B S (fun k => P k ∨ k = B.key (.node a l r)) (ms ++ [⟨.node a l r, 1, indexPosition B (.node a l r) x, true⟩]) := by
        refine ⟨?_, ?_⟩
        · rw [List.map_append, List.map_singleton, List.nodup_append]
          refine ⟨hi.nodup, by simp, ?_⟩
          intro k hk k' hk'
          obtain ⟨e, he, rfl⟩ := List.mem_map.1 hk
          rw [List.mem_singleton.1 hk']
          exact hnew e he
        · intro e he
          rcases List.mem_append.1 he with he | he
          · obtain ⟨h1, h2, y, h3, h4, h5⟩ := hi.rec_ e he
            exact ⟨h1, h2, y, h3, h4, h5.elim (fun h => .inl (.inl h)) (fun h => .inr (h.mono mono0))⟩
          · rw [List.mem_singleton.1 he]
            exact ⟨ht, rfl, x, hx, rfl, .inl (.inr rfl)⟩
      obtain ⟨c1, c2, c3, c4⟩ := both _ _ hi' (by
        rintro k (hk | rfl) u hu hku
        · exact le_of_lt (hP k hk u hu hku)
        · rw [H.sameSize u _ hu ht hku])
      generalize visit B x r (visit B x l (ms ++ [⟨.node a l r, 1, indexPosition B (.node a l r) x, true⟩])) = ms' at c1 c2 c3 c4 ⊢
      obtain ⟨e1, g1, g2, g3, g4⟩ := c2 ⟨.node a l r, 1, indexPosition B (.node a l r) x, true⟩ (by simp)
      simp only at g2 g3 g4
      refine ⟨⟨c1.nodup, ?_⟩, mono0.trans c2, fun _ => ⟨e1, g1, by rw [g2], fun _ => g3⟩, c3, ?_⟩
      · intro e he
        by_cases hk : B.key e.node = B.key (.node a l r)
        · have : e = e1 := inv_unique c1 he g1 (by rw [hk, g2])
          subst this
          rw [g2]
          exact ⟨ht, rfl, x, hx, g3, .inr c3⟩
        · obtain ⟨h1, h2, y, h3, h4, h5⟩ := c1.rec_ e he
          refine ⟨h1, h2, y, h3, h4, ?_⟩
          rcases h5 with (h5 | h5) | h5
          · exact .inl h5
          · exact absurd h5 hk
          · exact .inr h5
      · intro e he
        rcases c4 e he with ⟨e0, h1, h2⟩ | h
        · rcases List.mem_append.1 h1 with h1 | h1
          · exact .inl ⟨e0, h1, h2⟩
          · rw [List.mem_singleton.1 h1] at h2
            exact .inr (.inl h2.symm)
        · exact .inr ((sub_iff _ _).2 (.inr h))
    | some e =>
      simp only
      have he : e ∈ ms := List.mem_of_find?_eq_some hf
      have hek : B.key e.node = B.key (.node a l r) := by simpa using List.find?_some hf
      have hi' : Inv B S P (ms.map (bump B (B.key (.node a l r)) (indexPosition B (.node a l r) x))) := by
        refine ⟨?_, ?_⟩
        · rw [List.map_map]
          have : ((fun e => B.key e.node) ∘ bump B (B.key (.node a l r)) (indexPosition B (.node a l r) x)) = fun e : Meta L => B.key e.node := by
            funext e; simp [(bump_fields (B := B) (B.key (.node a l r)) (indexPosition B (.node a l r) x) e).1]
          rw [this]; exact hi.nodup
        · intro e' he'
          obtain ⟨e0, h0, rfl⟩ := List.mem_map.1 he'
          obtain ⟨f1, f2, -⟩ := bump_fields (B := B) (B.key (.node a l r)) (indexPosition B (.node a l r) x) e0
          rw [f1, f2]
          obtain ⟨h1, h2, y, h3, h4, h5⟩ := hi.rec_ e0 h0
          exact ⟨h1, h2, y, h3, h4, h5.imp id fun h => h.mono (mono_bump _ _ _)⟩
      have m0 := mono_bump (B := B) (B.key (.node a l r)) (indexPosition B (.node a l r) x) ms
      have hcov : Covered B (ms.map (bump B (B.key (.node a l r)) (indexPosition B (.node a l r) x))) x (.node a l r) := by
        obtain ⟨f1, f2, f3⟩ := bump_fields (B := B) (B.key (.node a l r)) (indexPosition B (.node a l r) x) e
        exact ⟨_, List.mem_map_of_mem he, by rw [f1, hek], fun c => by rw [f2]; exact (f3 c).2 hek⟩
      have old : ∀ e' ∈ ms.map (bump B (B.key (.node a l r)) (indexPosition B (.node a l r) x)), ∃ e0 ∈ ms, e0.node = e'.node := by
        intro e' he'
        obtain ⟨e0, h0, rfl⟩ := List.mem_map.1 he'
        exact ⟨e0, h0, (bump_fields (B := B) _ _ e0).1.symm⟩
      by_cases hs : e.sig = indexPosition B (.node a l r) x
      · simp only [hs, if_true]
        refine ⟨hi', m0, fun _ => hcov, ?_, fun e' he' => .inl (old e' he')⟩
        obtain ⟨h1, h2, y, h3, h4, h5⟩ := hi.rec_ e he
        have h6 : Cov B ms y e.node := by
          rcases h5 with h5 | h5
          · exact absurd (hP _ h5 _ ht hek.symm) (lt_irrefl _)
          · exact h5
        exact (cov_transfer H ht h1 hek.symm hx h3 (hs.symm.trans h4) h6).mono m0
      · simp only [hs, if_false]
        obtain ⟨c1, c2, c3, c4⟩ := both P _ hi' fun k hk u hu hku => le_of_lt (hP k hk u hu hku)
        refine ⟨c1, m0.trans c2, fun _ => hcov.mono c2, c3, ?_⟩
        intro e' he'
        rcases c4 e' he' with ⟨e1, h1, h2⟩ | h
        · obtain ⟨e0, h3, h4⟩ := old e1 h1
          exact .inl ⟨e0, h3, h4.trans h2⟩
        · exact .inr ((sub_iff _ _).2 (.inr h))

/-- After the walk all nodes below all members are covered. -/
theorem walk_spec (H : KeyOK B S) : ∀ (members : List (Member L I)) (ms : List (Meta L)), Inv B S (fun _ => False) ms →
    (∀ m ∈ members, ∀ u, Below u m.root → S u ∧ Stays B.ix m.axis u) →
    Inv B S (fun _ => False) (walk B members ms) ∧ Mono ms (walk B members ms) ∧ (∀ m ∈ members, Cov B (walk B members ms) m.axis m.root) ∧
    ∀ e ∈ walk B members ms, (∃ e0 ∈ ms, e0.node = e.node) ∨ ∃ m ∈ members, Below e.node m.root
  | [], ms, hi, _ => ⟨hi, Mono.refl _, by simp, fun e he => .inl ⟨e, he, rfl⟩⟩
  | m :: rest, ms, hi, hm => by
    rw [walk]
    cases hroot : m.root with
    | leaf a =>
      simp only
      obtain ⟨h1, h2, h3, h4⟩ := walk_spec H rest ms hi fun m' h' => hm m' (by simp [h'])
      refine ⟨h1, h2, ?_, ?_⟩
      · intro m' h'
        rcases List.mem_cons.1 h' with rfl | h'
        · intro u hu; rw [hroot] at hu; simp [Below] at hu
        · exact h3 m' h'
      · intro e he
        exact (h4 e he).imp id fun ⟨m', x, y⟩ => ⟨m', by simp [x], y⟩
    | node a l r =>
      simp only
      have hl := hm m (by simp) l (by rw [hroot]; exact .inl (Sub.refl l))
      have hr := hm m (by simp) r (by rw [hroot]; exact .inr (Sub.refl r))
      obtain ⟨a1, a2, a3, a4, a5⟩ := visit_spec H m.axis l (fun _ => False) ms hl.1 hl.2 hi (by simp)
      obtain ⟨b1, b2, b3, b4, b5⟩ := visit_spec H m.axis r (fun _ => False) _ hr.1 hr.2 a1 (by simp)
      obtain ⟨h1, h2, h3, h4⟩ := walk_spec H rest _ b1 fun m' h' => hm m' (by simp [h'])
      refine ⟨h1, (a2.trans b2).trans h2, ?_, ?_⟩
      · intro m' h'
        rcases List.mem_cons.1 h' with rfl | h'
        · intro u hu hleaf
          rw [hroot] at hu
          rcases hu with hu | hu
          · rcases (sub_iff u l).1 hu with rfl | hu
            · exact ((a3 hleaf).mono b2).mono h2
            · exact ((a4 u hu hleaf).mono b2).mono h2
          · rcases (sub_iff u r).1 hu with rfl | hu
            · exact (b3 hleaf).mono h2
            · exact (b4 u hu hleaf).mono h2
        · exact h3 m' h'
      · intro e he
        rcases h4 e he with ⟨e0, g1, g2⟩ | ⟨m', g1, g2⟩
        · rcases b5 e0 g1 with ⟨e1, k1, k2⟩ | k
          · rcases a5 e1 k1 with ⟨e2, k3, k4⟩ | k
            · exact .inl ⟨e2, k3, k4.trans (k2.trans g2)⟩
            · refine .inr ⟨m, by simp, ?_⟩
              rw [hroot, ← g2, ← k2]; exact .inl k
          · refine .inr ⟨m, by simp, ?_⟩
            rw [hroot, ← g2]; exact .inr k
        · exact .inr ⟨m', by simp [g1], g2⟩

/-- An unmarked record is right for all nodes with its key. -/
theorem walk_sig (H : KeyOK B S) (members : List (Member L I)) (hm : ∀ m ∈ members, ∀ u, Below u m.root → S u ∧ Stays B.ix m.axis u)
    (e : Meta L) (he : e ∈ walk B members []) :
    (∃ m ∈ members, Below e.node m.root) ∧ S e.node ∧ (e.consistent = true → ∀ m ∈ members, ∀ u, Below u m.root → B.key u = B.key e.node →
      indexPosition B u m.axis = e.sig) := by
  obtain ⟨h1, -, h3, h4⟩ := walk_spec H members [] ⟨by simp, by simp⟩ hm
  obtain ⟨s1, s2, -⟩ := h1.rec_ e he
  refine ⟨by simpa using h4 e he, s1, ?_⟩
  intro hc m hmm u hu hk
  obtain ⟨e', g1, g2, g3⟩ := h3 m hmm u hu (by rw [H.sameLeaf u e.node (hm m hmm u hu).1 s1 hk]; exact s2)
  have : e' = e := inv_unique h1 g1 he (g2.trans hk)
  subst this
  exact (g3 hc).symm

end SeQuant.Batch
