import Verif.Batch.Passes

/-!
# The loop over the batches and the results of a layer
-/

set_option linter.unusedSectionVars false

namespace SeQuant.Batch

open SeQuant.Eval

variable {L I K F : Type} [DecidableEq I] [DecidableEq K] [CommRing F]

/-- An accumulator: object and value, if there is one. -/
abbrev Ghost (F : Type) [Zero F] := Option (Nat × Arr F)

/-- Accumulators are objects of their own, with known values. -/
structure AccOK (base : Nat) (m : Mem (Arr F)) (c : Cache K Nat) (gs : List (Ghost F)) : Prop where
  each : ∀ o v, some (o, v) ∈ gs → base ≤ o ∧ Holds m o v ∧ ∀ k e, c k = some e → e.data ≠ some o
  nodup : (gs.filterMap fun g => g.map Prod.fst).Nodup

/-- Old objects are unchanged. -/
def Keep (base : Nat) (m m' : Mem (Arr F)) : Prop := m.next ≤ m'.next ∧ ∀ r < base, m'.get r = m.get r

theorem Keep.trans {base : Nat} {a b c : Mem (Arr F)} (h : Keep base a b) (h' : Keep base b c) : Keep base a c :=
  ⟨h.1.trans h'.1, fun r hr => (h'.2 r hr).trans (h.2 r hr)⟩

variable {B : BatchEnv L I K F} {S : ETree L → Prop} {batches : List (Nat × Nat)} {layer : List (Member L I)}

variable (B) in
/-- The contribution of a batch to a member. -/
def part (m : Member L I) (b : Nat × Nat) : Arr F := plain B.op (AM B b m) m.root

variable (B layer) in
/-- The state during the loops. -/
structure LoopOK (base : Nat) (b : Nat × Nat) (mc : Mem (Arr F) × Cache K Nat) (gs : List (Ghost F)) : Prop where
  scratch : ScratchOK B layer b mc
  bnd : Bnd mc.1 mc.2
  acc : AccOK base mc.1 mc.2 gs
  low : base ≤ mc.1.next
  tbl : ∀ a r, B.tbl a = some r → r < base
  roots : ∀ m ∈ layer, mc.2 (B.key m.root) = none

/-- Evaluating a member yields its contribution in an object of its own. -/
theorem eval_part (H : BatchOK B S) (hl : LayerOK B S batches layer) {base : Nat} {b : Nat × Nat} (hb : b ∈ batches)
    {mc : Mem (Arr F) × Cache K Nat} {gs : List (Ghost F)} (h : LoopOK B layer base b mc gs) (m : Member L I) (hm : m ∈ layer) :
    ∃ mc' r, evaluate (scratchEnv B m.axis b) m.root.rounds true m.root mc = some (mc', r) ∧ LoopOK B layer base b mc' gs ∧
      Keep base mc.1 mc'.1 ∧ mc.1.next ≤ r ∧ Holds mc'.1 r (part B m b) ∧ ∀ k e, mc'.2 k = some e → e.data ≠ some r := by
  rw [evaluate_eq _ _ _ _ _ (le_refl _)]
  have hS : SM layer m m.root := ⟨hm, Sub.refl _⟩
  obtain ⟨mc', r, e1, e2, e3, e4⟩ := evalRec_family (family H hl hb) m m.root hS true mc h.scratch
  have htb : ∀ a r, TM B m a = some r → r < mc.1.next := fun a r hr => lt_of_lt_of_le (h.tbl a r (tm_leaf b m a r hr).2) h.low
  obtain ⟨t1, t2⟩ := evalRec_traced m.root true mc mc' r e1 htb
  have hown : ∀ x, Owned (TM B m) mc.2 x → x < mc.1.next := by
    rintro x (⟨k, e, h1, h2⟩ | ⟨a, h1⟩)
    · exact h.bnd k e x h1 h2
    · exact htb a x h1
  have hpriv : Private B.key B.phase (TM B m) mc.2 m.root := by
    unfold Private
    rw [h.roots m hm]
    obtain ⟨a, l, r, h0, -⟩ := mem_contracted B (hl.member m hm).axis
    rw [h0]; simp
  obtain ⟨t3, t4⟩ := t2 rfl hpriv hown
  refine ⟨mc', r, e1, ⟨e3, ?_, ⟨?_, h.acc.nodup⟩, h.low.trans e2.1, h.tbl, ?_⟩, ⟨e2.1, fun x hx => e2.2 x (lt_of_lt_of_le hx h.low)⟩, t4, e4, ?_⟩
  · intro k e x h1 h2
    exact (t1.bound hown).1 x (.inl ⟨k, e, h1, h2⟩)
  · intro o v ho
    obtain ⟨a1, a2, a3⟩ := h.acc.each o v ho
    refine ⟨a1, a2.grow e2, ?_⟩
    intro k e h1 h2
    rcases t1.own o (.inl ⟨k, e, h1, h2⟩) with (⟨k', e', h3, h4⟩ | ⟨a, h3⟩) | h3
    · exact a3 k' e' h3 h4
    · have := h.tbl a o (tm_leaf b m a o h3).2; omega
    · have := a2.1; omega
  · intro m' hm'
    have := t1.reg (B.key m'.root)
    rw [h.roots m' hm'] at this
    simpa using this
  · intro k e h1 h2
    exact t3 (.inl ⟨k, e, h1, h2⟩)

theorem set_next (m : Mem (Arr F)) (o : Nat) (v : Arr F) : (m.set o v).next = m.next := rfl

theorem holds_set {m : Mem (Arr F)} {o r : Nat} {v w : Arr F} (h : Holds m r w) (hne : r ≠ o) : Holds (m.set o v) r w :=
  ⟨h.1, by simp [Mem.set, hne, h.2]⟩

/-- The members of a layer, one batch. -/
theorem memberPass_spec (H : BatchOK B S) (hl : LayerOK B S batches layer) {base : Nat} {b : Nat × Nat} (hb : b ∈ batches) (done : List (Nat × Nat)) :
    ∀ (ks : List (Member L I)) (others gs : List (Ghost F)) (mc : Mem (Arr F) × Cache K Nat), (∀ k ∈ ks, k ∈ layer) →
    LoopOK B layer base b mc (others ++ gs) → gs.map (Option.map Prod.snd) = ks.map (fun k => addAll (done.map (part B k))) →
    ∃ mc' gs', memberPass B b ks (gs.map (Option.map Prod.fst)) mc = some (mc', gs'.map (Option.map Prod.fst)) ∧
      LoopOK B layer base b mc' (others ++ gs') ∧ Keep base mc.1 mc'.1 ∧
      gs'.map (Option.map Prod.snd) = ks.map fun k => addAll ((done ++ [b]).map (part B k))
  | [], others, gs, mc, _, h, hg => by
    have : gs = [] := by simpa using hg
    subst this
    exact ⟨mc, [], rfl, h, ⟨le_refl _, fun _ _ => rfl⟩, rfl⟩
  | k :: ks, others, [], mc, _, h, hg => by simp at hg
  | k :: ks, others, g :: gs, mc, hk, h, hg => by
    simp only [List.map_cons, List.cons.injEq] at hg
    obtain ⟨hg1, hg2⟩ := hg
    obtain ⟨mc1, r, e1, e2, e3, e4, e5, e6⟩ := eval_part H hl hb h k (hk k (by simp))
    simp only [List.map_cons]
    rw [memberPass]
    simp only [e1]
    have hsnoc : addAll ((done ++ [b]).map (part B k)) = some (match addAll (done.map (part B k)) with
        | none => part B k b
        | some v => addArr v (part B k b)) := by
      rw [List.map_append, List.map_singleton, addAll_snoc]; cases addAll (done.map (part B k)) <;> rfl
    -- the rest, given the new accumulator
    have go : ∀ (m : Mem (Arr F)) (o : Nat) (v : Arr F), LoopOK B layer base b (m, mc1.2) (others ++ some (o, v) :: gs) → Keep base mc1.1 m →
        addAll ((done ++ [b]).map (part B k)) = some v →
        ∃ mc' gs', (match memberPass B b ks (gs.map (Option.map Prod.fst)) (m, mc1.2) with
            | none => none
            | some (mc', as') => some (mc', some o :: as')) = some (mc', gs'.map (Option.map Prod.fst)) ∧
          LoopOK B layer base b mc' (others ++ gs') ∧ Keep base mc.1 mc'.1 ∧
          gs'.map (Option.map Prod.snd) = (k :: ks).map fun k => addAll ((done ++ [b]).map (part B k)) := by
      intro m o v hloop hkeep hv
      obtain ⟨mc', gs', f1, f2, f3, f4⟩ := memberPass_spec H hl hb done ks (others ++ [some (o, v)]) gs (m, mc1.2) (fun k' h' => hk k' (by simp [h']))
        (by simpa using hloop) hg2
      refine ⟨mc', some (o, v) :: gs', ?_, by simpa using f2, (e3.trans hkeep).trans f3, ?_⟩
      · rw [f1]; rfl
      · simp only [List.map_cons, Option.map_some, hv]
        rw [f4]
    cases g with
    | none =>
      simp only [Option.map_none]
      have hd : addAll (done.map (part B k)) = none := by simpa using hg1.symm
      rw [hd] at hsnoc
      refine go mc1.1 r (part B k b) ⟨e2.scratch, e2.bnd, ⟨?_, ?_⟩, e2.low, e2.tbl, e2.roots⟩ ⟨le_refl _, fun _ _ => rfl⟩ hsnoc
      · intro o v ho
        simp only [List.mem_append, List.mem_cons, Option.some.injEq, Prod.mk.injEq] at ho
        rcases ho with ho | ⟨rfl, rfl⟩ | ho
        · exact e2.acc.each o v (by simp [ho])
        · exact ⟨h.low.trans e4, e5, e6⟩
        · exact e2.acc.each o v (by simp [ho])
      · have hn := h.acc.nodup
        rw [List.filterMap_append, List.filterMap_cons] at hn ⊢
        simp only [Option.map_none] at hn
        simp only [Option.map_some]
        rw [List.nodup_append] at hn ⊢
        have hlt : ∀ o, o ∈ (others ++ none :: gs).filterMap (fun g : Ghost F => g.map Prod.fst) → o < r := by
          intro o ho
          obtain ⟨g, hg, hg'⟩ := List.mem_filterMap.1 ho
          cases g with
          | none => simp at hg'
          | some p =>
            obtain ⟨o', v⟩ := p
            simp only [Option.map_some, Option.some.injEq] at hg'
            subst hg'
            have := (h.acc.each o' v hg).2.1.1
            omega
        refine ⟨hn.1, List.nodup_cons.2 ⟨?_, hn.2.1⟩, ?_⟩
        · intro hr
          exact absurd (hlt r (by rw [List.filterMap_append, List.filterMap_cons]; simp only [Option.map_none]; exact List.mem_append_right _ hr)) (lt_irrefl _)
        · intro x hx y hy
          rcases List.mem_cons.1 hy with rfl | hy
          · have := hlt x (by rw [List.filterMap_append]; exact List.mem_append_left _ hx)
            omega
          · exact hn.2.2 x hx y hy
    | some p =>
      obtain ⟨o, v⟩ := p
      simp only [Option.map_some] at hg1 ⊢
      rw [← hg1] at hsnoc
      simp only at hsnoc
      obtain ⟨a1, a2, a3⟩ := e2.acc.each o v (by simp)
      have hor : o ≠ r := by
        have := (h.acc.each o v (by simp)).2.1.1
        omega
      have hval : addArr (mc1.1.get o) (mc1.1.get r) = addArr v (part B k b) := by rw [a2.2, e5.2]
      rw [hval]
      refine go _ o (addArr v (part B k b)) ⟨?_, e2.bnd, ⟨?_, ?_⟩, e2.low, e2.tbl, e2.roots⟩ ⟨le_refl _, ?_⟩ hsnoc
      · refine ⟨?_, e2.scratch.reg, e2.scratch.pers, ?_⟩
        · intro i a x hx
          refine holds_set (e2.scratch.leaves i a x hx) ?_
          have := e2.tbl a x (tm_leaf b i a x hx).2
          omega
        · intro k' e' x h1 h2 i t h3 h4
          refine holds_set (e2.scratch.entries k' e' x h1 h2 i t h3 h4) ?_
          rintro rfl
          exact a3 k' e' h1 h2
      · have hnd := e2.acc.nodup
        rw [List.filterMap_append, List.filterMap_cons] at hnd
        simp only [Option.map_some] at hnd
        rw [List.nodup_append] at hnd
        obtain ⟨n1, n2, n3⟩ := hnd
        have inF : ∀ {gs : List (Ghost F)} {o : Nat} {v : Arr F}, some (o, v) ∈ gs → o ∈ gs.filterMap fun g => g.map Prod.fst :=
          fun h => List.mem_filterMap.2 ⟨_, h, rfl⟩
        intro o' v' ho'
        simp only [List.mem_append, List.mem_cons, Option.some.injEq, Prod.mk.injEq] at ho'
        rcases ho' with ho' | ⟨rfl, rfl⟩ | ho'
        · obtain ⟨b1, b2, b3⟩ := e2.acc.each o' v' (by simp [ho'])
          exact ⟨b1, holds_set b2 (n3 o' (inF ho') o (by simp)), b3⟩
        · exact ⟨a1, ⟨a2.1, by simp [Mem.set]⟩, a3⟩
        · obtain ⟨b1, b2, b3⟩ := e2.acc.each o' v' (by simp [ho'])
          refine ⟨b1, holds_set b2 ?_, b3⟩
          rintro rfl
          exact (List.nodup_cons.1 n2).1 (inF ho')
      · have := e2.acc.nodup
        rw [List.filterMap_append, List.filterMap_cons] at this ⊢
        exact this
      · intro x hx
        have : x ≠ o := by omega
        simp [Mem.set, this]

theorem acc_reset {base : Nat} {m : Mem (Arr F)} {c : Cache K Nat} {gs : List (Ghost F)} (h : AccOK base m c gs) : AccOK base m c.reset gs := by
  refine ⟨?_, h.nodup⟩
  intro o v ho
  obtain ⟨h1, h2, h3⟩ := h.each o v ho
  refine ⟨h1, h2, ?_⟩
  intro k e he hr
  simp only [Cache.reset, Option.map_eq_some_iff] at he
  obtain ⟨e', g1, rfl⟩ := he
  unfold Entry.reset at hr
  by_cases hq : e'.persistent
  · exact h3 k e' g1 (by simpa [hq] using hr)
  · simp [hq] at hr

/-- The loop over the batches, once one batch is done. -/
theorem batchPass_rest (H : BatchOK B S) (hl : LayerOK B S batches layer) {base : Nat} : ∀ (bs done : List (Nat × Nat)) (b0 : Nat × Nat)
    (mc : Mem (Arr F) × Cache K Nat) (gs : List (Ghost F)), (∀ b ∈ bs, b ∈ batches) → b0 ∈ batches → LoopOK B layer base b0 mc gs →
    gs.map (Option.map Prod.snd) = layer.map (fun k => addAll (done.map (part B k))) →
    ∃ mc', ∃ gs' : List (Ghost F), batchPass B layer bs (gs.map (Option.map Prod.fst)) mc = some (mc', gs'.map (Option.map Prod.fst)) ∧ Keep base mc.1 mc'.1 ∧
      (∀ o v, some (o, v) ∈ gs' → Holds mc'.1 o v) ∧ base ≤ mc'.1.next ∧
      gs'.map (Option.map Prod.snd) = layer.map fun k => addAll ((done ++ bs.filter fun b => !decide (b.1 = b.2)).map (part B k))
  | [], done, b0, mc, gs, _, _, h, hg => ⟨mc, gs, rfl, ⟨le_refl _, fun _ _ => rfl⟩, fun o v ho => (h.acc.each o v ho).2.1, h.low, by simpa using hg⟩
  | b :: bs, done, b0, mc, gs, hbs, hb0, h, hg => by
    rw [batchPass]
    by_cases hb : b.1 = b.2
    · simp only [hb, if_true]
      rw [List.filter_cons_of_neg (by simp [hb])]
      exact batchPass_rest H hl bs done b0 mc gs (fun b' h' => hbs b' (by simp [h'])) hb0 h hg
    · simp only [hb, if_false]
      rw [List.filter_cons_of_pos (by simp [hb])]
      have hbb := hbs b (by simp)
      have h' : LoopOK B layer base b (mc.1, mc.2.reset) ([] ++ gs) :=
        ⟨reset_next H hl hb0 hbb h.scratch, bnd_reset h.bnd, acc_reset h.acc, h.low, h.tbl, fun m hm => by simp [Cache.reset, h.roots m hm]⟩
      obtain ⟨mc1, gs1, f1, f2, f3, f4⟩ := memberPass_spec H hl hbb done layer [] gs (mc.1, mc.2.reset) (fun _ h => h) h' hg
      rw [f1]
      obtain ⟨mc2, gs2, g1, g2, g3, g5, g4⟩ := batchPass_rest H hl bs (done ++ [b]) b mc1 gs1 (fun b' h' => hbs b' (by simp [h'])) hbb f2 f4
      exact ⟨mc2, gs2, g1, f3.trans g2, g3, g5, by rw [g4]; simp⟩

/-- The loop over the batches, from the beginning. -/
theorem batchPass_spec (H : BatchOK B S) (hl : LayerOK B S batches layer) (m : Mem (Arr F)) (c : Cache K Nat)
    (h : SeedOK B layer (m, c)) (hbnd : Bnd m c) (htbl : ∀ a r, B.tbl a = some r → r < m.next) :
    ∀ (bs : List (Nat × Nat)), (∀ b ∈ bs, b ∈ batches) →
    ∃ mc', ∃ gs' : List (Ghost F), batchPass B layer bs (layer.map fun _ => none) (m, c) = some (mc', gs'.map (Option.map Prod.fst)) ∧ Keep m.next m mc'.1 ∧
      (∀ o v, some (o, v) ∈ gs' → Holds mc'.1 o v) ∧
      gs'.map (Option.map Prod.snd) = layer.map fun k => addAll ((bs.filter fun b => !decide (b.1 = b.2)).map (part B k))
  | [], _ => ⟨(m, c), layer.map fun _ => none, by simp [batchPass], ⟨le_refl _, fun _ _ => rfl⟩, by simp, by simp [addAll]⟩
  | b :: bs, hbs => by
    rw [batchPass]
    by_cases hb : b.1 = b.2
    · simp only [hb, if_true]
      rw [List.filter_cons_of_neg (by simp [hb])]
      exact batchPass_spec H hl m c h hbnd htbl bs fun b' h' => hbs b' (by simp [h'])
    · simp only [hb, if_false]
      rw [List.filter_cons_of_pos (by simp [hb])]
      have hbb := hbs b (by simp)
      have hroots : ∀ mm ∈ layer, c (B.key mm.root) = none := by
        intro mm hmm
        cases hc : c (B.key mm.root) with
        | none => rfl
        | some e => exact absurd (h.reg _ e hc) (root_not_reg H hl hmm)
      have h' : LoopOK B layer m.next b (m, c.reset) ([] ++ layer.map fun _ => none) := by
        refine ⟨reset_first H hl hbb h, bnd_reset hbnd, ⟨by simp, ?_⟩, le_refl _, htbl, fun mm hm => by simp [Cache.reset, hroots mm hm]⟩
        have : ([] ++ layer.map fun _ => (none : Ghost F)).filterMap (fun g : Ghost F => g.map Prod.fst) = [] := by
          rw [List.filterMap_eq_nil_iff]
          intro g hg
          simp only [List.nil_append, List.mem_map] at hg
          obtain ⟨_, _, rfl⟩ := hg
          rfl
        rw [this]; exact List.nodup_nil
      obtain ⟨mc1, gs1, f1, f2, f3, f4⟩ := memberPass_spec H hl hbb [] layer [] (layer.map fun _ => none) (m, c.reset) (fun _ h => h) h' (by simp [addAll])
      have e0 : (layer.map fun _ => (none : Ghost F)).map (Option.map Prod.fst) = layer.map fun _ => none := by simp
      rw [e0] at f1
      rw [f1]
      obtain ⟨mc2, gs2, g1, g2, g3, -, g4⟩ := batchPass_rest H hl bs [b] b mc1 gs1 (fun b' h' => hbs b' (by simp [h'])) hbb f2 f4
      exact ⟨mc2, gs2, g1, f3.trans g2, g3, by rw [g4]; simp⟩

end SeQuant.Batch
