import Verif.Network.Value
import Mathlib.Data.List.Nodup

/-!
# Edges, fresh indices, replacement of indices
-/

namespace SeQuant.Network

open SeQuant.Sort SeQuant.Tensors

variable {L C S : Type} [DecidableEq S]

/-! ## Edges -/

theorem insertEdge_mem (O : Ords S) (i j : Ix S) (es : List (Edge S)) :
    j ∈ (insertEdge O i es).map Edge.idx ↔ j = i ∨ j ∈ es.map Edge.idx := by
  induction es with
  | nil => simp [insertEdge]
  | cons e es ih =>
    rw [insertEdge]
    split
    · simp only [List.map_cons, List.mem_cons, ih]; tauto
    · split
      · rename_i he
        simp only [List.map_cons, List.mem_cons, he]; tauto
      · simp

theorem insertEdge_sorted {O : Ords S} (hO : O.Total) (i : Ix S) (es : List (Edge S))
    (h : (es.map Edge.idx).Pairwise (fun a b => O.ilt a b = true)) :
    ((insertEdge O i es).map Edge.idx).Pairwise (fun a b => O.ilt a b = true) := by
  induction es with
  | nil => simp [insertEdge]
  | cons e es ih =>
    rw [List.map_cons, List.pairwise_cons] at h
    rw [insertEdge]
    split
    · rename_i hlt
      rw [List.map_cons, List.pairwise_cons]
      refine ⟨fun b hb => ?_, ih h.2⟩
      rcases (insertEdge_mem O i b es).1 hb with rfl | hb
      · exact hlt
      · exact h.1 b hb
    · rename_i hlt
      split
      · rename_i he
        rw [List.map_cons, List.pairwise_cons]
        exact ⟨by rw [← he]; exact h.1, h.2⟩
      · rename_i he
        have hie : O.ilt i e.idx = true := by
          rcases hO.total i e.idx (fun hh => he hh.symm) with h1 | h1
          · exact h1
          · exact absurd h1 hlt
        rw [List.map_cons, List.map_cons, List.pairwise_cons]
        refine ⟨fun b hb => ?_, List.pairwise_cons.2 h⟩
        rcases List.mem_cons.1 hb with rfl | hb
        · exact hie
        · exact hO.trans _ _ _ hie (h.1 b hb)

theorem foldl_insertEdge_mem (O : Ords S) (l : List (Ix S)) (es : List (Edge S)) (j : Ix S) :
    j ∈ (l.foldl (fun es i => insertEdge O i es) es).map Edge.idx ↔ j ∈ l ∨ j ∈ es.map Edge.idx := by
  induction l generalizing es with
  | nil => simp
  | cons a l ih =>
    rw [List.foldl_cons, ih, insertEdge_mem, List.mem_cons]; tauto

/-- The edges are the indices in the slots. -/
theorem initEdges_mem (O : Ords S) (ts : List (NT L C S)) (j : Ix S) : j ∈ (initEdges O ts).map Edge.idx ↔ j ∈ slotIdx ts := by
  rw [initEdges, foldl_insertEdge_mem]; simp

theorem initEdges_sorted {O : Ords S} (hO : O.Total) (ts : List (NT L C S)) :
    ((initEdges O ts).map Edge.idx).Pairwise (fun a b => O.ilt a b = true) := by
  have key : ∀ (l : List (Ix S)) (es : List (Edge S)), (es.map Edge.idx).Pairwise (fun a b => O.ilt a b = true) →
      ((l.foldl (fun es i => insertEdge O i es) es).map Edge.idx).Pairwise (fun a b => O.ilt a b = true) := by
    intro l
    induction l with
    | nil => exact fun es h => h
    | cons a l ih => exact fun es h => ih _ (insertEdge_sorted hO a es h)
  exact key _ [] (by simp)

theorem initEdges_nodup {O : Ords S} (hO : O.Total) (ts : List (NT L C S)) : ((initEdges O ts).map Edge.idx).Nodup := by
  refine (initEdges_sorted hO ts).imp ?_
  intro a b hab he
  rw [he, hO.irrefl] at hab
  cases hab

/-! ## Fresh indices -/

theorem freshOrd_spec (named : List (Ix S)) (i : Ix S) (fuel n k : Nat) (h : freshOrd named i fuel n = some k) :
    n < k ∧ (⟨i.space, k, i.protos⟩ : Ix S) ∉ named := by
  induction fuel generalizing n with
  | zero => simp [freshOrd] at h
  | succ fuel ih =>
    rw [freshOrd] at h
    split at h
    · have := ih _ h; exact ⟨by omega, this.2⟩
    · rename_i hn
      simp only [Option.some.injEq] at h
      subst h
      exact ⟨by omega, hn⟩

theorem freshOrd_none (named : List (Ix S)) (i : Ix S) (fuel n : Nat) (h : freshOrd named i fuel n = none) :
    ∀ t < fuel, (⟨i.space, n + 1 + t, i.protos⟩ : Ix S) ∈ named := by
  induction fuel generalizing n with
  | zero => intro t ht; omega
  | succ fuel ih =>
    rw [freshOrd] at h
    split at h
    · rename_i hn
      intro t ht
      cases t with
      | zero => exact hn
      | succ t =>
        have := ih _ h t (by omega)
        rw [show n + 1 + (t + 1) = n + 1 + 1 + t by omega]
        exact this
    · cases h

/-- The loop of `IndexFactory::make` ends: at most as many ordinals are taken as there are named indices. -/
theorem make_total (named : List (Ix S)) (c : S → Nat) (i : Ix S) : ∃ r, make named c i = some r := by
  cases h : freshOrd named i (named.length + 1) (c i.space) with
  | some k => exact ⟨_, by rw [make, h]; rfl⟩
  | none =>
    exfalso
    have h1 := freshOrd_none named i _ _ h
    let l := (List.range (named.length + 1)).map (fun t => (⟨i.space, c i.space + 1 + t, i.protos⟩ : Ix S))
    have hnd : l.Nodup := by
      refine List.Nodup.map ?_ List.nodup_range
      intro a b hab
      simp only [Ix.mk.injEq] at hab
      omega
    have hsub : l ⊆ named := by
      intro x hx
      obtain ⟨t, ht, rfl⟩ := List.mem_map.1 hx
      exact h1 t (List.mem_range.1 ht)
    have := (hnd.subperm hsub).length_le
    simp [l] at this

theorem make_spec (named : List (Ix S)) (c : S → Nat) (i : Ix S) (r : Ix S × (S → Nat)) (h : make named c i = some r) :
    r.1.space = i.space ∧ r.1.protos = i.protos ∧ c i.space < r.1.ord ∧ r.1 ∉ named ∧ r.2 = fun s => if s = i.space then r.1.ord else c s := by
  rw [make, Option.map_eq_some_iff] at h
  obtain ⟨n, hn, rfl⟩ := h
  have := freshOrd_spec _ _ _ _ _ hn
  exact ⟨rfl, rfl, this.1, this.2, rfl⟩

theorem look_cons (a : Ix S × Ix S) (m : List (Ix S × Ix S)) (i : Ix S) : look (a :: m) i = if a.1 = i then some a.2 else look m i := by
  rw [look, List.find?_cons]
  by_cases h : a.1 = i
  · simp [h]
  · simp [h, look]

/-- The new name of an index. -/
def newName (m : List (Ix S × Ix S)) (i : Ix S) : Ix S := (look m i).getD i

/-- What `relabel` gives. -/
structure Relabels (named : List (Ix S)) (c : S → Nat) (l : List (Ix S)) (m : List (Ix S × Ix S)) : Prop where
  keys : ∀ i v, look m i = some v → i ∈ l ∧ i ∉ named
  new : ∀ i ∈ l, i ∉ named → (newName m i).space = i.space ∧ (newName m i).protos = i.protos ∧ c i.space < (newName m i).ord ∧ newName m i ∉ named
  inj : ∀ i ∈ l, ∀ j ∈ l, i ∉ named → j ∉ named → i.space = j.space → (newName m i).ord = (newName m j).ord → i = j

theorem Relabels.cons {named : List (Ix S)} {c : S → Nat} {i : Ix S} {l : List (Ix S)} {m : List (Ix S × Ix S)} {r : Ix S × (S → Nat)}
    (hi : i ∉ named) (hil : i ∉ l) (hr : make named c i = some r) (h : Relabels named r.2 l m) :
    Relabels named c (i :: l) (if i = r.1 then m else (i, r.1) :: m) := by
  obtain ⟨r1, r2, r3, r4, r5⟩ := make_spec _ _ _ _ hr
  have hmi : look m i = none := by
    cases hh : look m i with
    | none => rfl
    | some v => exact absurd (h.keys i v hh).1 hil
  have hc : ∀ s, c s ≤ r.2 s := by
    intro s
    rw [r5]
    by_cases hs : s = i.space
    · rw [hs]; simp; omega
    · simp [hs]
  set m' := (if i = r.1 then m else (i, r.1) :: m) with hm'
  have nn_i : newName m' i = r.1 := by
    rw [hm', newName]
    split
    · rename_i he; rw [hmi]; exact he
    · rw [look_cons, if_pos rfl]; rfl
  have look_j : ∀ j, j ≠ i → look m' j = look m j := by
    intro j hj
    rw [hm']
    split
    · rfl
    · rw [look_cons, if_neg (fun hh => hj hh.symm)]
  have nn_j : ∀ j, j ≠ i → newName m' j = newName m j := by
    intro j hj
    rw [newName, newName, look_j j hj]
  refine ⟨?_, ?_, ?_⟩
  · intro j v hj
    by_cases hji : j = i
    · subst hji; exact ⟨by simp, hi⟩
    · rw [look_j j hji] at hj
      have := h.keys j v hj
      exact ⟨List.mem_cons_of_mem _ this.1, this.2⟩
  · intro j hj hjn
    by_cases hji : j = i
    · subst hji
      rw [nn_i]
      exact ⟨r1, r2, r3, r4⟩
    · rw [nn_j j hji]
      have := h.new j ((List.mem_cons.1 hj).resolve_left hji) hjn
      exact ⟨this.1, this.2.1, lt_of_le_of_lt (hc _) this.2.2.1, this.2.2.2⟩
  · have key : ∀ j ∈ l, j ∉ named → j ≠ i → i.space = j.space → (newName m' i).ord ≠ (newName m' j).ord := by
      intro j hj hjn hji hs he
      rw [nn_i, nn_j j hji] at he
      have h1 := (h.new j hj hjn).2.2.1
      rw [r5] at h1
      simp only [hs, if_true] at h1
      omega
    intro a ha b hb han hbn hs he
    rcases List.mem_cons.1 ha with rfl | ha' <;> rcases List.mem_cons.1 hb with rfl | hb'
    · rfl
    · by_cases hba : b = a
      · exact hba.symm
      · exact absurd he (key b hb' hbn hba hs)
    · by_cases hba : a = b
      · exact hba
      · exact absurd he.symm (key a ha' han hba hs.symm)
    · have hai : a ≠ i := fun hh => hil (hh ▸ ha')
      have hbi : b ≠ i := fun hh => hil (hh ▸ hb')
      rw [nn_j a hai, nn_j b hbi] at he
      exact h.inj a ha' b hb' han hbn hs he

theorem relabel_spec (named : List (Ix S)) (c : S → Nat) (l : List (Ix S)) (m : List (Ix S × Ix S)) (hl : l.Nodup)
    (h : relabel named c l = some m) : Relabels named c l m := by
  induction l generalizing c m with
  | nil =>
    simp only [relabel, Option.some.injEq] at h
    subst h
    exact ⟨by simp [look], by simp, by simp⟩
  | cons i l ih =>
    rw [List.nodup_cons] at hl
    rw [relabel] at h
    split at h
    · rename_i hi
      have := ih _ _ hl.2 h
      refine ⟨fun j v hj => ?_, fun j hj hjn => ?_, fun a ha b hb han hbn => ?_⟩
      · exact ⟨List.mem_cons_of_mem _ (this.keys j v hj).1, (this.keys j v hj).2⟩
      · refine this.new j ((List.mem_cons.1 hj).resolve_left fun hh => hjn (hh ▸ hi)) hjn
      · exact this.inj a ((List.mem_cons.1 ha).resolve_left fun hh => han (hh ▸ hi)) b
          ((List.mem_cons.1 hb).resolve_left fun hh => hbn (hh ▸ hi)) han hbn
    · rename_i hi
      simp only [Option.bind_eq_bind, Option.bind_eq_some_iff, Option.pure_def, Option.some.injEq] at h
      obtain ⟨r, hr, m', hm', rfl⟩ := h
      exact (ih _ _ hl.2 hm').cons hi hl.1 hr

theorem relabel_total (named : List (Ix S)) (c : S → Nat) (l : List (Ix S)) : ∃ m, relabel named c l = some m := by
  induction l generalizing c with
  | nil => exact ⟨_, rfl⟩
  | cons i l ih =>
    rw [relabel]
    split
    · exact ih c
    · obtain ⟨r, hr⟩ := make_total named c i
      obtain ⟨m, hm⟩ := ih r.2
      exact ⟨_, by rw [hr, Option.bind_eq_bind, Option.bind_some, hm]; rfl⟩

/-! ## Replacement -/

omit [DecidableEq S] in
theorem bind_pair {α β : Type} {o : Option α} {a : α} (h : o = some a) (f : α → Option β) : (o >>= f) = f a := by rw [h]; rfl

omit [DecidableEq S] in
theorem insertP_perm (O : Ords S) (a : TP S) (l : List (TP S)) : (insertP O a l).Perm (a :: l) := by
  induction l with
  | nil => exact List.Perm.refl _
  | cons b l ih =>
    rw [insertP]
    split
    · exact (ih.cons b).trans (List.Perm.swap a b l)
    · exact List.Perm.refl _

omit [DecidableEq S] in
theorem sortP_perm (O : Ords S) (l : List (TP S)) : (sortP O l).Perm l := by
  induction l with
  | nil => exact List.Perm.refl _
  | cons a l ih => exact (insertP_perm O a _).trans (ih.cons a)

/-- Proto-indices are replaced by indices without proto-indices. -/
def PlainImages (m : List (Ix S × Ix S)) : Prop := ∀ p : PIx S, ∀ v, look m p.toIx = some v → v.protos = []

/-- The proto-index that replaces `p`, tagged if it was replaced. -/
def tpOf (m : List (Ix S × Ix S)) (p : PIx S) : TP S :=
  match look m p.toIx with
  | some v => ⟨⟨v.space, v.ord⟩, true⟩
  | none => ⟨p, false⟩

def changes (m : List (Ix S × Ix S)) (ps : List (PIx S)) : Bool := ps.any fun p => (look m p.toIx).isSome

theorem transPs_new {m : List (Ix S × Ix S)} (hm : PlainImages m) (ps : List (PIx S)) :
    transPs m (ps.map fun p => ⟨p, false⟩) = some (ps.map (tpOf m), changes m ps) := by
  induction ps with
  | nil => rfl
  | cons p ps ih =>
    rw [List.map_cons, transPs, ih]
    simp only [transP, tpOf, changes, List.any_cons, List.map_cons, Bool.false_eq_true, if_false]
    cases h : look m p.toIx with
    | none => simp
    | some v => simp [hm p v h]

/-- Proto-indices that a further pass leaves alone. -/
def Settled (m : List (Ix S × Ix S)) (q : TP S) : Prop := q.tag = true ∨ look m q.p.toIx = none

theorem settled_tpOf (m : List (Ix S × Ix S)) (p : PIx S) : Settled m (tpOf m p) := by
  unfold tpOf
  split
  · exact .inl rfl
  · rename_i h; exact .inr h

theorem transPs_settled {m : List (Ix S × Ix S)} (l : List (TP S)) (h : ∀ q ∈ l, Settled m q) : transPs m l = some (l, false) := by
  induction l with
  | nil => rfl
  | cons q l ih =>
    rw [transPs, ih fun x hx => h x (List.mem_cons_of_mem _ hx)]
    have hq : transP m q = some (q, false) := by
      rw [transP]
      rcases h q (by simp) with h1 | h1
      · simp [h1]
      · rw [h1]; simp
    rw [hq]; rfl

/-- The replaced proto-indices, sorted if any was replaced. -/
def newProtos (O : Ords S) (m : List (Ix S × Ix S)) (ps : List (PIx S)) : List (TP S) :=
  if changes m ps then sortP O (ps.map (tpOf m)) else ps.map (tpOf m)

theorem newProtos_perm (O : Ords S) (m : List (Ix S × Ix S)) (ps : List (PIx S)) : (newProtos O m ps).Perm (ps.map (tpOf m)) := by
  unfold newProtos
  split
  · exact sortP_perm O _
  · exact List.Perm.refl _

theorem newProtos_settled (O : Ords S) (m : List (Ix S × Ix S)) (ps : List (PIx S)) : ∀ q ∈ newProtos O m ps, Settled m q := by
  intro q hq
  have := (newProtos_perm O m ps).mem_iff.1 hq
  obtain ⟨p, _, rfl⟩ := List.mem_map.1 this
  exact settled_tpOf m p

theorem tpOf_unchanged {m : List (Ix S × Ix S)} {ps : List (PIx S)} (h : changes m ps = false) :
    ps.map (tpOf m) = ps.map fun p => ⟨p, false⟩ := by
  refine List.map_congr_left fun p hp => ?_
  have : look m p.toIx = none := by
    rw [changes, List.any_eq_false] at h
    simpa using h p hp
  rw [tpOf, this]

/-- The index after all passes. -/
def settledIx (O : Ords S) (m : List (Ix S × Ix S)) (i : Ix S) : TI S :=
  ⟨(newName m i).space, (newName m i).ord, newProtos O m (newName m i).protos, (look m i).isSome⟩

/-- The replacement of an index. -/
def replIx (O : Ords S) (m : List (Ix S × Ix S)) (i : Ix S) : Ix S := (settledIx O m i).reset

/-- An index that is not replaced is not found either after its proto-indices have been replaced. -/
def NotAgain (O : Ords S) (m : List (Ix S × Ix S)) (i : Ix S) : Prop := look m i = none → look m (replIx O m i) = none

/-- The index after the first pass. -/
def firstIx (O : Ords S) (m : List (Ix S × Ix S)) (i : Ix S) : TI S :=
  if (look m i).isSome then TI.of (newName m i) true else settledIx O m i

omit [DecidableEq S] in
theorem reset_of (i : Ix S) (b : Bool) : (TI.of i b).reset = i := by
  cases i
  simp [TI.of, TI.reset, Function.comp_def]

theorem transI_first {O : Ords S} {m : List (Ix S × Ix S)} (hm : PlainImages m) {i : Ix S} (hi : NotAgain O m i) :
    transI O m (TI.of i false) = some (firstIx O m i, (look m i).isSome || changes m i.protos) := by
  rw [transI]
  simp only [TI.of, Bool.false_eq_true, if_false]
  have hreset : (TI.reset (⟨i.space, i.ord, i.protos.map (fun p => ⟨p, false⟩), false⟩ : TI S)) = i := reset_of i false
  rw [hreset]
  cases h : look m i with
  | some v => simp [firstIx, h, newName, TI.of]
  | none =>
    have hn : newName m i = i := by rw [newName, h]; rfl
    simp only [transPs_new hm, Option.bind_eq_bind, Option.bind_some, Option.isSome_none, Bool.false_or]
    have hset : settledIx O m i = ⟨i.space, i.ord, newProtos O m i.protos, false⟩ := by
      rw [settledIx, hn, h]; rfl
    have hag := hi h
    rw [replIx, hset] at hag
    have hf : firstIx O m i = ⟨i.space, i.ord, newProtos O m i.protos, false⟩ := by
      rw [firstIx, h, hset]; rfl
    cases hc : changes m i.protos with
    | false =>
      rw [hf]
      simp [newProtos, hc]
    | true =>
      rw [newProtos, hc, if_pos rfl] at hag
      rw [if_pos rfl, hag, hf, newProtos, hc]
      simp

theorem transI_third {O : Ords S} {m : List (Ix S × Ix S)} {i : Ix S} (hi : NotAgain O m i) :
    transI O m (settledIx O m i) = some (settledIx O m i, false) := by
  rw [transI]
  have hr : (if (settledIx O m i).tag = true then none else look m (settledIx O m i).reset) = none := by
    cases h : look m i with
    | some v => simp [settledIx, h]
    | none =>
      have := hi h
      rw [replIx] at this
      rw [this]; simp
  rw [hr]
  have hp : transPs m (settledIx O m i).protos = some ((settledIx O m i).protos, false) :=
    transPs_settled _ (newProtos_settled O m _)
  show (transPs m (settledIx O m i).protos >>= _) = _
  rw [bind_pair hp]
  rfl

theorem transI_second {O : Ords S} {m : List (Ix S × Ix S)} (hm : PlainImages m) {i : Ix S} (hi : NotAgain O m i) :
    ∃ b, transI O m (firstIx O m i) = some (settledIx O m i, b) ∧ (b = true → (look m i).isSome = true) := by
  by_cases h : (look m i).isSome = true
  · rw [firstIx, if_pos h]
    refine ⟨changes m (newName m i).protos, ?_, fun _ => h⟩
    rw [transI]
    simp only [TI.of, if_true, transPs_new hm, Option.bind_eq_bind, Option.bind_some]
    cases hc : changes m (newName m i).protos with
    | false => simp [settledIx, newProtos, hc, h]
    | true => simp [settledIx, newProtos, hc, h]
  · have hn : look m i = none := by simpa using h
    rw [firstIx, if_neg h]
    exact ⟨false, transI_third hi, by simp⟩

theorem transL_map {O : Ords S} {m : List (Ix S × Ix S)} (f g : Ix S → TI S) (b : Ix S → Bool) (l : List (Option (Ix S)))
    (h : ∀ i, some i ∈ l → transI O m (f i) = some (g i, b i)) :
    transL O m (l.map (Option.map f)) = some (l.map (Option.map g), l.any fun x => x.any b) := by
  induction l with
  | nil => rfl
  | cons a l ih =>
    have ih' := ih fun i hi => h i (List.mem_cons_of_mem _ hi)
    cases a with
    | none =>
      simp only [List.map_cons, Option.map_none, transL, ih', Option.bind_eq_bind, Option.bind_some, List.any_cons, Option.any_none, Bool.false_or]
      rfl
    | some i =>
      simp only [List.map_cons, Option.map_some, transL, ih', h i (by simp), Option.bind_eq_bind, Option.bind_some, List.any_cons, Option.any_some]
      rfl

theorem replLoop_eq {O : Ords S} {m : List (Ix S × Ix S)} (hm : PlainImages m) (l : List (Option (Ix S)))
    (hl : ∀ i, some i ∈ l → NotAgain O m i) (fuel : Nat) :
    (∀ r, replLoop O m fuel (l.map (Option.map fun i => TI.of i false)) = some r → r = l.map (Option.map (settledIx O m))) ∧
    (3 ≤ fuel → replLoop O m fuel (l.map (Option.map fun i => TI.of i false)) = some (l.map (Option.map (settledIx O m)))) := by
  have h1 := transL_map (O := O) (m := m) (fun i => TI.of i false) (firstIx O m) _ l fun i hi => transI_first hm (hl i hi)
  have h3 := transL_map (O := O) (m := m) (settledIx O m) (settledIx O m) (fun _ => false) l fun i hi => transI_third (hl i hi)
  have hfalse : (l.any fun x => x.any fun _ : Ix S => false) = false := by
    rw [List.any_eq_false]
    intro x _
    cases x <;> simp
  rw [hfalse] at h3
  -- the second pass
  have h2 : ∃ b, transL O m (l.map (Option.map (firstIx O m))) = some (l.map (Option.map (settledIx O m)), b) := by
    classical
    let bb : Ix S → Bool := fun i => if h : some i ∈ l then (transI_second hm (hl i h)).choose else false
    exact ⟨_, transL_map (O := O) (m := m) (firstIx O m) (settledIx O m) bb l fun i hi => by
      simp only [bb, dif_pos hi]
      exact (transI_second hm (hl i hi)).choose_spec.1⟩
  obtain ⟨b2, h2⟩ := h2
  generalize hb1 : (l.any fun x => x.any fun i => (look m i).isSome || changes m i.protos) = b1 at h1
  -- without changes in the first pass nothing happens in the second either
  have hno : b1 = false → l.map (Option.map (firstIx O m)) = l.map (Option.map (settledIx O m)) := by
    intro hb
    rw [hb] at hb1
    refine List.map_congr_left fun x hx => ?_
    cases x with
    | none => rfl
    | some i =>
      rw [List.any_eq_false] at hb1
      have := hb1 _ hx
      simp only [Option.any_some, Bool.or_eq_true, not_or] at this
      simp only [Option.map_some]
      rw [firstIx, if_neg this.1]
  have third : ∀ k, replLoop O m (k + 1) (l.map (Option.map (settledIx O m))) = some (l.map (Option.map (settledIx O m))) := by
    intro k
    rw [replLoop, bind_pair h3]
    rfl
  have second : ∀ k, (∀ r, replLoop O m k (l.map (Option.map (firstIx O m))) = some r → r = l.map (Option.map (settledIx O m))) ∧
      (2 ≤ k → replLoop O m k (l.map (Option.map (firstIx O m))) = some (l.map (Option.map (settledIx O m)))) := by
    intro k
    cases k with
    | zero => exact ⟨fun r h => by simp [replLoop] at h, fun h => by omega⟩
    | succ k =>
      rw [replLoop, bind_pair h2]
      cases b2 with
      | false => exact ⟨fun r h => by simpa using h.symm, fun _ => by simp⟩
      | true =>
        simp only [if_true]
        cases k with
        | zero => exact ⟨fun r h => by simp [replLoop] at h, fun h => by omega⟩
        | succ k => exact ⟨fun r h => by rw [third] at h; simpa using h.symm, fun _ => third k⟩
  cases fuel with
  | zero => exact ⟨fun r h => by simp [replLoop] at h, fun h => by omega⟩
  | succ k =>
    rw [replLoop, bind_pair h1]
    cases b1 with
    | false =>
      rw [← hno rfl]
      exact ⟨fun r h => by simpa using h.symm, fun _ => by simp⟩
    | true =>
      simp only [if_true]
      exact ⟨(second k).1, fun h => (second k).2 (by omega)⟩

theorem replSlots_eq {O : Ords S} {m : List (Ix S × Ix S)} (hm : PlainImages m) (l : List (Option (Ix S)))
    (hl : ∀ i, some i ∈ l → NotAgain O m i) (fuel : Nat) :
    (∀ r, replSlots O fuel m l = some r → r = l.map (Option.map (replIx O m))) ∧
    (3 ≤ fuel → replSlots O fuel m l = some (l.map (Option.map (replIx O m)))) := by
  obtain ⟨h1, h2⟩ := replLoop_eq hm l hl fuel
  have e : (l.map (Option.map (settledIx O m))).map (Option.map TI.reset) = l.map (Option.map (replIx O m)) := by
    rw [List.map_map]
    refine List.map_congr_left fun x _ => ?_
    cases x <;> rfl
  constructor
  · intro r h
    rw [replSlots, Option.map_eq_some_iff] at h
    obtain ⟨q, hq, rfl⟩ := h
    rw [h1 q hq, e]
  · intro h
    rw [replSlots, h2 h, Option.map_some, e]

theorem replTensor_eq {O : Ords S} {m : List (Ix S × Ix S)} (hm : PlainImages m) (n : NT L C S)
    (hl : ∀ i, some i ∈ n.slots → NotAgain O m i) (fuel : Nat) :
    (∀ r, replTensor O fuel m n = some r → r = n.mapIx (replIx O m)) ∧ (3 ≤ fuel → replTensor O fuel m n = some (n.mapIx (replIx O m))) := by
  obtain ⟨h1, h2⟩ := replSlots_eq hm n.slots hl fuel
  have e : ∀ r, r = n.slots.map (Option.map (replIx O m)) →
      ({ n with t := { n.t with bra := r.take n.t.bra.length, ket := (r.drop n.t.bra.length).take n.t.ket.length },
                aux := r.drop (n.t.bra.length + n.t.ket.length) } : NT L C S) = n.mapIx (replIx O m) := by
    rintro r rfl
    simp only [NT.slots, List.map_append, NT.mapIx]
    congr 2
    · rw [List.append_assoc, List.take_left']; simp
    · rw [List.append_assoc, List.drop_left' (by simp), List.take_left' (by simp)]
    · rw [List.drop_left' (by simp)]
  constructor
  · intro r h
    rw [replTensor] at h
    simp only [Option.bind_eq_bind, Option.bind_eq_some_iff, Option.pure_def, Option.some.injEq] at h
    obtain ⟨q, hq, rfl⟩ := h
    exact e q (h1 q hq)
  · intro h
    rw [replTensor, bind_pair (h2 h)]
    exact congrArg some (e _ rfl)

/-- The result of the replacement in all tensors. -/
theorem replAll_eq {O : Ords S} {m : List (Ix S × Ix S)} (hm : PlainImages m) (ts : List (NT L C S))
    (hl : ∀ i ∈ slotIdx ts, NotAgain O m i) (fuel : Nat) :
    (∀ r, ts.mapM (replTensor O fuel m) = some r → r = ts.map (NT.mapIx (replIx O m))) ∧
    (3 ≤ fuel → ts.mapM (replTensor O fuel m) = some (ts.map (NT.mapIx (replIx O m)))) := by
  have hn : ∀ n ∈ ts, ∀ i, some i ∈ n.slots → NotAgain O m i := fun n hn i hi => hl i (mem_slotIdx.2 ⟨n, hn, hi⟩)
  clear hl
  induction ts with
  | nil => simp
  | cons n ts ih =>
    obtain ⟨a1, a2⟩ := replTensor_eq hm n (hn n (by simp)) fuel
    obtain ⟨b1, b2⟩ := ih fun x hx => hn x (List.mem_cons_of_mem _ hx)
    constructor
    · intro r h
      rw [List.mapM_cons] at h
      simp only [Option.bind_eq_bind, Option.bind_eq_some_iff, Option.pure_def, Option.some.injEq] at h
      obtain ⟨x, hx, y, hy, rfl⟩ := h
      rw [a1 x hx, b1 y hy]; rfl
    · intro h
      rw [List.mapM_cons, bind_pair (a2 h), bind_pair (b2 h)]
      rfl

end SeQuant.Network
