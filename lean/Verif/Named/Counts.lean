import Mathlib.Data.List.Nodup
import Mathlib.Data.List.Count
import Mathlib.Data.List.Flatten
import Verif.Named.Model
import Verif.Optimize.UniqueProps

/-!
# Counts of indices (C110)
-/

namespace SeQuant.Named

open SeQuant.Optimize

variable {ι : Type} [DecidableEq ι]

/-! ### What is counted -/

/-- The tensors and normal operators of an expression. -/
def tensorsOf (e : NExpr ι) : List (Groups ι) := (atoms e).flatMap fun
  | .tensor t => [⟨t.bra, t.ket, t.aux⟩]
  | .ops l => l
  | _ => []

variable (nonnull : ι → Bool) (proto : ι → List ι)

/-- The nonempty bra slots, ket slots and auxiliary slots. -/
def bras (e : NExpr ι) : List ι := ((tensorsOf e).flatMap Groups.bra).filter nonnull
def kets (e : NExpr ι) : List ι := ((tensorsOf e).flatMap Groups.ket).filter nonnull
def auxs (e : NExpr ι) : List ι := ((tensorsOf e).flatMap Groups.aux).filter nonnull

/-- All nonempty slots. -/
def slots (e : NExpr ι) : List ι := bras nonnull e ++ (kets nonnull e ++ auxs nonnull e)

/-- The protoindices of the indices in all slots. -/
def protos (e : NExpr ι) : List ι := (slots nonnull e).flatMap proto

/-! ### The map -/

def get (m : List (ι × Counters)) (i : ι) : Counters := ((m.find? fun p => decide (p.1 = i)).map Prod.snd).getD {}

theorem get_addCount (m : List (ι × Counters)) (i j : ι) (s : CSlot) :
    get (addCount m i s) j = if i = j then (get m j).increment s else get m j := by
  induction m with
  | nil => by_cases h : i = j <;> simp [addCount, get, h]
  | cons p m ih =>
    obtain ⟨k, c⟩ := p
    simp only [addCount]
    by_cases hk : k = i
    · subst hk
      by_cases h : k = j <;> simp [get, h]
    · rw [if_neg hk]
      by_cases h : k = j
      · subst h
        rw [if_neg (fun hh => hk hh.symm)]
        simp [get]
      · simp only [get, List.find?_cons, h, decide_false] at ih ⊢
        exact ih

theorem mem_keys_addCount (m : List (ι × Counters)) (i : ι) (s : CSlot) (j : ι) :
    j ∈ (addCount m i s).map Prod.fst ↔ j ∈ m.map Prod.fst ∨ j = i := by
  induction m with
  | nil => simp [addCount]
  | cons p m ih =>
    obtain ⟨k, c⟩ := p
    simp only [addCount]
    by_cases hk : k = i
    · subst hk
      simp only [if_true, List.map_cons, List.mem_cons]
      tauto
    · rw [if_neg hk, List.map_cons, List.mem_cons, ih, List.map_cons, List.mem_cons, or_assoc]

theorem nodup_addCount (m : List (ι × Counters)) (i : ι) (s : CSlot) (h : (m.map Prod.fst).Nodup) : ((addCount m i s).map Prod.fst).Nodup := by
  induction m with
  | nil => simp [addCount]
  | cons p m ih =>
    obtain ⟨k, c⟩ := p
    rw [List.map_cons, List.nodup_cons] at h
    simp only [addCount]
    by_cases hk : k = i
    · rw [if_pos hk, List.map_cons, List.nodup_cons]
      exact h
    · rw [if_neg hk, List.map_cons, List.nodup_cons]
      refine ⟨fun hm => ?_, ih h.2⟩
      rcases (mem_keys_addCount m i s k).mp hm with hm | hm
      exacts [h.1 hm, hk hm]

theorem mem_iff_get (m : List (ι × Counters)) (h : (m.map Prod.fst).Nodup) (i : ι) (c : Counters) :
    (i, c) ∈ m ↔ i ∈ m.map Prod.fst ∧ c = get m i := by
  induction m with
  | nil => simp
  | cons p m ih =>
    obtain ⟨k, d⟩ := p
    rw [List.map_cons, List.nodup_cons] at h
    by_cases hk : k = i
    · subst hk
      have hn : (k, c) ∉ m := fun hm => h.1 (List.mem_map.mpr ⟨_, hm, rfl⟩)
      simp [get, hn]
    · have : get ((k, d) :: m) i = get m i := by simp [get, hk]
      rw [this, List.mem_cons, List.map_cons, List.mem_cons, ih h.2]
      have h1 : ¬ (i, c) = (k, d) := fun hh => hk (congrArg Prod.fst hh).symm
      have h2 : ¬ i = k := fun hh => hk hh.symm
      simp [h1, h2]

/-- The calls of `add` in order. -/
def evs (s : CSlot) (l : List ι) : List (ι × CSlot) := (l.filter nonnull).flatMap fun i => (i, s) :: (proto i).map (·, .proto)

def addAll (m : List (ι × Counters)) (l : List (ι × CSlot)) : List (ι × Counters) := l.foldl (fun m p => addCount m p.1 p.2) m

theorem foldl_emplace (s : CSlot) (l : List ι) (m : List (ι × Counters)) :
    l.foldl (emplace nonnull proto s) m = addAll m (evs nonnull proto s l) := by
  induction l generalizing m with
  | nil => rfl
  | cons i l ih =>
    rw [List.foldl_cons, ih]
    by_cases h : nonnull i
    · simp only [emplace, h, if_true, evs, List.filter_cons, List.flatMap_cons, addAll, List.foldl_append, List.cons_append, List.foldl_cons,
        List.foldl_map]
    · simp [emplace, h, evs]

def evsG (g : Groups ι) : List (ι × CSlot) := evs nonnull proto .bra g.bra ++ evs nonnull proto .ket g.ket ++ evs nonnull proto .aux g.aux

theorem countTensor_eq (m : List (ι × Counters)) (g : Groups ι) : countTensor nonnull proto m g = addAll m (evsG nonnull proto g) := by
  rw [countTensor, foldl_emplace, foldl_emplace, foldl_emplace]
  simp only [addAll, evsG, List.foldl_append]

theorem foldl_countTensor (l : List (Groups ι)) (m : List (ι × Counters)) :
    l.foldl (countTensor nonnull proto) m = addAll m (l.flatMap (evsG nonnull proto)) := by
  induction l generalizing m with
  | nil => rfl
  | cons g l ih =>
    rw [List.foldl_cons, ih, countTensor_eq]
    simp only [addAll, List.flatMap_cons, List.foldl_append]

theorem usedCounts_eq (e : NExpr ι) : usedCounts nonnull proto e = addAll [] ((tensorsOf e).flatMap (evsG nonnull proto)) := by
  rw [usedCounts, tensorsOf]
  have : ∀ (l : List (NExpr ι)) (m : List (ι × Counters)), l.foldl (collect nonnull proto) m =
      (l.flatMap fun | .tensor t => [⟨t.bra, t.ket, t.aux⟩] | .ops l => l | _ => []).foldl (countTensor nonnull proto) m := by
    intro l
    induction l with
    | nil => intro m; rfl
    | cons a l ih =>
      intro m
      rw [List.foldl_cons, ih, List.flatMap_cons, List.foldl_append]
      cases a <;> rfl
  rw [this, foldl_countTensor]

/-! ### Counting the calls -/

theorem addAll_get (l : List (ι × CSlot)) (m : List (ι × Counters)) (i : ι) :
    (get (addAll m l) i).bra = (get m i).bra + l.count (i, .bra) ∧ (get (addAll m l) i).ket = (get m i).ket + l.count (i, .ket) ∧
    (get (addAll m l) i).aux = (get m i).aux + l.count (i, .aux) ∧ (get (addAll m l) i).proto = (get m i).proto + l.count (i, .proto) := by
  induction l generalizing m with
  | nil => simp [addAll]
  | cons p l ih =>
    obtain ⟨j, s⟩ := p
    obtain ⟨h1, h2, h3, h4⟩ := ih (addCount m j s)
    rw [show addAll m ((j, s) :: l) = addAll (addCount m j s) l from rfl, h1, h2, h3, h4, get_addCount]
    by_cases h : j = i
    · subst h
      cases s <;> simp [Counters.increment] <;> omega
    · simp [h]

theorem addAll_keys (l : List (ι × CSlot)) (m : List (ι × Counters)) (i : ι) :
    i ∈ (addAll m l).map Prod.fst ↔ i ∈ m.map Prod.fst ∨ i ∈ l.map Prod.fst := by
  induction l generalizing m with
  | nil => simp [addAll]
  | cons p l ih =>
    rw [show addAll m (p :: l) = addAll (addCount m p.1 p.2) l from rfl, ih, mem_keys_addCount, List.map_cons, List.mem_cons, or_assoc]

theorem addAll_nodup (l : List (ι × CSlot)) (m : List (ι × Counters)) (h : (m.map Prod.fst).Nodup) : ((addAll m l).map Prod.fst).Nodup := by
  induction l generalizing m with
  | nil => exact h
  | cons p l ih => exact ih _ (nodup_addCount m p.1 p.2 h)

theorem evs_count (s t : CSlot) (ht : t ≠ .proto) (l : List ι) (i : ι) :
    (evs nonnull proto s l).count (i, t) = if s = t then (l.filter nonnull).count i else 0 := by
  have hp : ∀ l' : List ι, (l'.map (·, CSlot.proto)).count (i, t) = 0 := by
    intro l'
    rw [List.count_eq_zero]
    intro hm
    obtain ⟨_, _, h⟩ := List.mem_map.mp hm
    exact ht (congrArg Prod.snd h).symm
  unfold evs
  generalize l.filter nonnull = l
  induction l with
  | nil => simp
  | cons j l ih =>
    rw [List.flatMap_cons, List.count_append, ih, List.count_cons, hp, List.count_cons]
    by_cases hs : s = t
    · subst hs
      simp only [if_true]
      by_cases hj : j = i
      · subst hj; simp; omega
      · have : ((j, s) == (i, s)) = false := beq_false_of_ne fun hh => hj (congrArg Prod.fst hh)
        simp [hj, this]
    · have : ((j, s) == (i, t)) = false := beq_false_of_ne fun hh => hs (congrArg Prod.snd hh)
      simp [hs, this]

theorem evs_count_proto (s : CSlot) (hs : s ≠ .proto) (l : List ι) (i : ι) :
    (evs nonnull proto s l).count (i, .proto) = ((l.filter nonnull).flatMap proto).count i := by
  have hp : ∀ l' : List ι, (l'.map (·, CSlot.proto)).count (i, CSlot.proto) = l'.count i := by
    intro l'
    induction l' with
    | nil => rfl
    | cons j l' ih => simp [List.count_cons, ih]
  unfold evs
  generalize l.filter nonnull = l
  induction l with
  | nil => simp
  | cons j l ih =>
    have : ((j, s) == (i, CSlot.proto)) = false := beq_false_of_ne fun hh => hs (congrArg Prod.snd hh)
    rw [List.flatMap_cons, List.count_append, ih, List.count_cons, hp, this, List.flatMap_cons, List.count_append]
    simp

theorem evs_keys (s : CSlot) (l : List ι) (i : ι) :
    i ∈ (evs nonnull proto s l).map Prod.fst ↔ i ∈ l.filter nonnull ∨ i ∈ (l.filter nonnull).flatMap proto := by
  unfold evs
  generalize l.filter nonnull = l
  induction l with
  | nil => simp
  | cons j l ih =>
    rw [List.flatMap_cons, List.map_append, List.mem_append, ih]
    simp only [List.map_cons, List.map_map, List.mem_cons, List.flatMap_cons, List.mem_append, Function.comp_def, List.map_id']
    tauto

/-- **C110**: the map has one entry for each index that occurs in a slot or as a protoindex of an index in a slot, and the entry counts the
occurrences in bras, kets and auxiliary slots and as protoindex; empty slots are ignored. -/
theorem usedCounts_exact (e : NExpr ι) : (usedIndices nonnull proto e).Nodup ∧ ∀ i c, (i, c) ∈ usedCounts nonnull proto e ↔
    (i ∈ slots nonnull e ∨ i ∈ protos nonnull proto e) ∧ c = ⟨(bras nonnull e).count i, (kets nonnull e).count i, (auxs nonnull e).count i,
      (protos nonnull proto e).count i⟩ := by
  have hn : ((usedCounts nonnull proto e).map Prod.fst).Nodup := by rw [usedCounts_eq]; exact addAll_nodup _ _ (by simp)
  refine ⟨hn, fun i c => ?_⟩
  rw [mem_iff_get _ hn, usedCounts_eq, addAll_keys]
  obtain ⟨h1, h2, h3, h4⟩ := addAll_get ((tensorsOf e).flatMap (evsG nonnull proto)) [] i
  have hcnt : ∀ l : List (Groups ι),
      (l.flatMap (evsG nonnull proto)).count (i, .bra) = ((l.flatMap Groups.bra).filter nonnull).count i ∧
      (l.flatMap (evsG nonnull proto)).count (i, .ket) = ((l.flatMap Groups.ket).filter nonnull).count i ∧
      (l.flatMap (evsG nonnull proto)).count (i, .aux) = ((l.flatMap Groups.aux).filter nonnull).count i ∧
      (l.flatMap (evsG nonnull proto)).count (i, .proto) = (((l.flatMap Groups.bra).filter nonnull).flatMap proto).count i +
        ((((l.flatMap Groups.ket).filter nonnull).flatMap proto).count i + (((l.flatMap Groups.aux).filter nonnull).flatMap proto).count i) := by
    intro l
    induction l with
    | nil => simp
    | cons g l ih =>
      obtain ⟨i1, i2, i3, i4⟩ := ih
      simp only [List.flatMap_cons, List.count_append, List.filter_append, List.flatMap_append, i1, i2, i3, i4, evsG,
        evs_count nonnull proto _ .bra (by decide), evs_count nonnull proto _ .ket (by decide), evs_count nonnull proto _ .aux (by decide),
        evs_count_proto nonnull proto .bra (by decide), evs_count_proto nonnull proto .ket (by decide), evs_count_proto nonnull proto .aux (by decide),
        reduceCtorEq, if_false, if_true]
      refine ⟨by omega, by omega, by omega, by omega⟩
  have hkey : ∀ l : List (Groups ι), i ∈ (l.flatMap (evsG nonnull proto)).map Prod.fst ↔
      (i ∈ (l.flatMap Groups.bra).filter nonnull ∨ i ∈ (l.flatMap Groups.ket).filter nonnull ∨ i ∈ (l.flatMap Groups.aux).filter nonnull) ∨
      (i ∈ ((l.flatMap Groups.bra).filter nonnull).flatMap proto ∨ i ∈ ((l.flatMap Groups.ket).filter nonnull).flatMap proto ∨
        i ∈ ((l.flatMap Groups.aux).filter nonnull).flatMap proto) := by
    intro l
    induction l with
    | nil => simp
    | cons g l ih =>
      rw [List.flatMap_cons, List.map_append, List.mem_append, ih]
      simp only [evsG, List.map_append, List.mem_append, evs_keys, List.flatMap_cons, List.filter_append, List.flatMap_append]
      constructor
      · rintro ((((h | h) | (h | h)) | (h | h)) | ((h | h | h) | (h | h | h))) <;> simp [h]
      · rintro (((h | h) | (h | h) | (h | h)) | ((h | h) | (h | h) | (h | h))) <;> simp [h]
  rw [hkey]
  obtain ⟨c1, c2, c3, c4⟩ := hcnt (tensorsOf e)
  rw [c1] at h1
  rw [c2] at h2
  rw [c3] at h3
  rw [c4] at h4
  have hget : get (addAll [] ((tensorsOf e).flatMap (evsG nonnull proto))) i = ⟨(bras nonnull e).count i, (kets nonnull e).count i,
      (auxs nonnull e).count i, (protos nonnull proto e).count i⟩ := by
    generalize get (addAll [] ((tensorsOf e).flatMap (evsG nonnull proto))) i = c at h1 h2 h3 h4
    obtain ⟨cb, ck, ca, cp⟩ := c
    simp only [get, List.find?_nil, Option.map_none, Option.getD_none, Nat.zero_add] at h1 h2 h3 h4
    simp only [h1, h2, h3, h4, bras, kets, auxs, protos, slots, List.flatMap_append, List.count_append]
  rw [hget]
  simp only [slots, bras, kets, auxs, protos, List.mem_append, List.flatMap_append, List.map_nil, List.not_mem_nil, false_or]

/-- **C110** (`get_used_indices`). -/
theorem usedIndices_exact (e : NExpr ι) (i : ι) : i ∈ usedIndices nonnull proto e ↔ i ∈ slots nonnull e ∨ i ∈ protos nonnull proto e := by
  rw [usedIndices, List.mem_map]
  constructor
  · rintro ⟨⟨j, c⟩, h, rfl⟩
    exact (((usedCounts_exact nonnull proto e).2 j c).mp h).1
  · intro h
    exact ⟨(i, _), ((usedCounts_exact nonnull proto e).2 i _).mpr ⟨h, rfl⟩, rfl⟩

theorem slots_count (e : NExpr ι) (i : ι) :
    (slots nonnull e).count i = (bras nonnull e).count i + (kets nonnull e).count i + (auxs nonnull e).count i := by
  simp only [slots, List.count_append]; omega

/-- Membership in a filtered list of entries. -/
theorem mem_filtered (e : NExpr ι) (p : ι × Counters → Bool) (i : ι) : i ∈ ((usedCounts nonnull proto e).filter p).map Prod.fst ↔
    (i ∈ slots nonnull e ∨ i ∈ protos nonnull proto e) ∧ p (i, ⟨(bras nonnull e).count i, (kets nonnull e).count i, (auxs nonnull e).count i,
      (protos nonnull proto e).count i⟩) = true := by
  rw [List.mem_map]
  constructor
  · rintro ⟨⟨j, c⟩, h, rfl⟩
    rw [List.mem_filter] at h
    obtain ⟨h1, h2⟩ := ((usedCounts_exact nonnull proto e).2 j c).mp h.1
    exact ⟨h1, h2 ▸ h.2⟩
  · rintro ⟨h1, h2⟩
    exact ⟨(i, _), List.mem_filter.mpr ⟨((usedCounts_exact nonnull proto e).2 i _).mpr ⟨h1, rfl⟩, h2⟩, rfl⟩

/-! ### `extract_indices` -/

/-- **C110** (`extract_indices` without external indices defined by the user): external are the indices that occur at most once in a slot (in
particular pure protoindices), or all if forced; noncovariant are the others except those that occur twice in slots, have no protoindices and are
not protoindices.  So every index is external, noncovariant or such a dummy, and only one of these. -/
theorem extract_exact (force : Bool) (e : NExpr ι) (i : ι) :
    let x := extractIndices nonnull proto none force e
    let used := i ∈ slots nonnull e ∨ i ∈ protos nonnull proto e
    (i ∈ x.all ↔ used) ∧
    (i ∈ x.external ↔ used ∧ ((slots nonnull e).count i ≤ 1 ∨ force = true)) ∧
    (i ∈ x.noncovariant ↔ used ∧ i ∉ x.external ∧
      ¬ ((slots nonnull e).count i = 2 ∧ proto i = [] ∧ i ∉ protos nonnull proto e)) := by
  intro x used
  have hext : i ∈ x.external ↔ used ∧ ((slots nonnull e).count i ≤ 1 ∨ force = true) := by
    show i ∈ ((usedCounts nonnull proto e).filter fun v => decide (v.2.nonproto ≤ 1) || force).map Prod.fst ↔ _
    rw [mem_filtered]
    simp only [Bool.or_eq_true, decide_eq_true_eq, Counters.nonproto, ← slots_count]
    rfl
  refine ⟨usedIndices_exact nonnull proto e i, hext, ?_⟩
  show i ∈ ((usedCounts nonnull proto e).filter fun v => (decide (proto v.1 ≠ []) || decide (v.2.proto ≠ 0) || decide (v.2.nonproto ≠ 2)) &&
    decide (v.1 ∉ x.external)).map Prod.fst ↔ _
  rw [mem_filtered]
  simp only [Bool.or_eq_true, Bool.and_eq_true, decide_eq_true_eq, Counters.nonproto, ← slots_count, ne_eq]
  rw [show (protos nonnull proto e).count i = 0 ↔ i ∉ protos nonnull proto e from List.count_eq_zero]
  change used ∧ _ ↔ _
  tauto

/-! ### `tot_indices` -/

theorem mem_foldl_pushNew (l acc : List ι) (i : ι) : i ∈ l.foldl pushNew acc ↔ i ∈ acc ∨ i ∈ l := by
  induction l generalizing acc with
  | nil => simp
  | cons j l ih =>
    rw [List.foldl_cons, ih, pushNew]
    by_cases h : j ∈ acc
    · rw [if_pos h, List.mem_cons]
      constructor
      · rintro (h' | h'); exacts [Or.inl h', Or.inr (Or.inr h')]
      · rintro (h' | rfl | h'); exacts [Or.inl h', Or.inl h, Or.inr h']
    · rw [if_neg h, List.mem_append, List.mem_singleton, List.mem_cons, or_assoc]

theorem nodup_foldl_pushNew (l acc : List ι) (h : acc.Nodup) : (l.foldl pushNew acc).Nodup := by
  induction l generalizing acc with
  | nil => exact h
  | cons j l ih =>
    rw [List.foldl_cons]
    apply ih
    rw [pushNew]
    by_cases hj : j ∈ acc
    · rwa [if_pos hj]
    · rw [if_neg hj]
      exact List.nodup_append.mpr ⟨h, by simp, fun x hx y hy => by rw [List.mem_singleton.mp hy]; rintro rfl; exact hj hx⟩

/-- **C110** (`tot_indices`): the outer indices are the protoindices and the indices without protoindices, each once; the inner ones are the indices
with protoindices, in order. -/
theorem tot_exact (idxs : List ι) : (totIndices proto idxs).1.Nodup ∧
    (∀ i, i ∈ (totIndices proto idxs).1 ↔ (∃ j ∈ idxs, i ∈ proto j) ∨ (i ∈ idxs ∧ proto i = [])) ∧
    (totIndices proto idxs).2 = idxs.filter fun i => decide (proto i ≠ []) := by
  refine ⟨nodup_foldl_pushNew _ _ (nodup_foldl_pushNew _ _ List.nodup_nil), fun i => ?_, rfl⟩
  show i ∈ (idxs.filter fun i => decide (proto i = [])).foldl pushNew ((idxs.flatMap proto).foldl pushNew []) ↔ _
  rw [mem_foldl_pushNew, mem_foldl_pushNew]
  simp [List.mem_flatMap, List.mem_filter]

/-- **C110** (`tot_indices`): if protoindices have no protoindices themselves, no index is both outer and inner, and every index and protoindex is
one of them. -/
theorem tot_split (idxs : List ι) (h : ∀ j ∈ idxs, ∀ i ∈ proto j, proto i = []) :
    (∀ i ∈ (totIndices proto idxs).1, i ∉ (totIndices proto idxs).2) ∧ (∀ i ∈ idxs, i ∈ (totIndices proto idxs).1 ∨ i ∈ (totIndices proto idxs).2) ∧
    ∀ j ∈ idxs, ∀ i ∈ proto j, i ∈ (totIndices proto idxs).1 := by
  obtain ⟨_, h2, h3⟩ := tot_exact proto idxs
  refine ⟨fun i hi hi' => ?_, fun i hi => ?_, fun j hj i hi => (h2 i).mpr (Or.inl ⟨j, hj, hi⟩)⟩
  · rw [h3, List.mem_filter, decide_eq_true_eq] at hi'
    rcases (h2 i).mp hi with ⟨j, hj, hij⟩ | hi
    exacts [hi'.2 (h j hj i hij), hi'.2 hi.2]
  · rw [h2, h3, List.mem_filter, decide_eq_true_eq]
    by_cases hp : proto i = []
    exacts [Or.inl (Or.inr ⟨hi, hp⟩), Or.inr ⟨hi, hp⟩]

/-! ### `target_indices` -/

theorem foldl_targetStep (unc : List ι) (l : List (ι × Counters)) (g : Groups ι) (X : Slot) (i : ι) :
    i ∈ (l.foldl (targetStep unc) g).get X ↔ i ∈ g.get X ∨ ∃ c, (i, c) ∈ l ∧ c.nonproto ≠ 0 ∧
      ((1 < c.total ∧ i ∈ unc ∧ X = .aux) ∨ (¬ 1 < c.total ∧ X = if c.bra ≠ 0 then .bra else if c.ket ≠ 0 then .ket else .aux)) := by
  induction l generalizing g with
  | nil => simp
  | cons v l ih =>
    obtain ⟨j, c⟩ := v
    rw [List.foldl_cons, ih]
    have hstep : i ∈ (targetStep unc g (j, c)).get X ↔ i ∈ g.get X ∨ (i = j ∧ c.nonproto ≠ 0 ∧
        ((1 < c.total ∧ i ∈ unc ∧ X = .aux) ∨ (¬ 1 < c.total ∧ X = if c.bra ≠ 0 then .bra else if c.ket ≠ 0 then .ket else .aux))) := by
      have hpush : ∀ Y, i ∈ (g.push Y j).get X ↔ i ∈ g.get X ∨ (i = j ∧ X = Y) := by
        intro Y
        cases X <;> cases Y <;> simp [Groups.push, Groups.get]
      simp only [targetStep]
      by_cases h0 : c.nonproto = 0
      · simp [h0]
      · rw [if_neg h0]
        by_cases h1 : 1 < c.total
        · rw [if_pos h1]
          by_cases hu : j ∈ unc
          · rw [if_pos hu, hpush]
            constructor
            · rintro (h | ⟨rfl, h⟩); exacts [Or.inl h, Or.inr ⟨rfl, h0, Or.inl ⟨h1, hu, h⟩⟩]
            · rintro (h | ⟨rfl, _, h | h⟩); exacts [Or.inl h, Or.inr ⟨rfl, h.2.2⟩, absurd h1 h.1]
          · rw [if_neg hu]
            constructor
            · exact Or.inl
            · rintro (h | ⟨rfl, _, h | h⟩); exacts [h, absurd h.2.1 hu, absurd h1 h.1]
        · rw [if_neg h1]
          have : ∀ Y, (if c.bra ≠ 0 then Slot.bra else if c.ket ≠ 0 then Slot.ket else Slot.aux) = Y →
              (i ∈ (g.push Y j).get X ↔ i ∈ g.get X ∨ (i = j ∧ c.nonproto ≠ 0 ∧ ((1 < c.total ∧ i ∈ unc ∧ X = .aux) ∨ (¬ 1 < c.total ∧ X = Y)))) := by
            intro Y _
            rw [hpush]
            constructor
            · rintro (h | ⟨rfl, h⟩); exacts [Or.inl h, Or.inr ⟨rfl, h0, Or.inr ⟨h1, h⟩⟩]
            · rintro (h | ⟨rfl, _, h | h⟩); exacts [Or.inl h, absurd h.1 h1, Or.inr ⟨rfl, h.2⟩]
          by_cases hb : c.bra ≠ 0
          · rw [if_pos hb, if_pos hb]; exact this .bra (if_pos hb)
          · rw [if_neg hb, if_neg hb]
            by_cases hk : c.ket ≠ 0
            · rw [if_pos hk, if_pos hk]; exact this .ket (by rw [if_neg hb, if_pos hk])
            · rw [if_neg hk, if_neg hk]; exact this .aux (by rw [if_neg hb, if_neg hk])
    rw [hstep]
    constructor
    · rintro ((h | ⟨rfl, h⟩) | ⟨d, hd, h⟩)
      · exact Or.inl h
      · exact Or.inr ⟨c, List.mem_cons_self .., h⟩
      · exact Or.inr ⟨d, List.mem_cons_of_mem _ hd, h⟩
    · rintro (h | ⟨d, hd, h⟩)
      · exact Or.inl (Or.inl h)
      · rcases List.mem_cons.mp hd with hd | hd
        · cases hd; exact Or.inl (Or.inr ⟨rfl, h⟩)
        · exact Or.inr ⟨d, hd, h⟩

/-- **C110** (`target_indices` of an intermediate): an index that occurs once in all and not as a protoindex is in the slot it came from; an index
that occurs in a slot and elsewhere is an auxiliary index if it is needed later; there are no others. -/
theorem target_exact (unc : List ι) (e : NExpr ι) (i : ι) :
    let g := targetIndices nonnull proto unc e
    let once := (slots nonnull e).count i = 1 ∧ i ∉ protos nonnull proto e
    (i ∈ g.bra ↔ once ∧ i ∈ bras nonnull e) ∧ (i ∈ g.ket ↔ once ∧ i ∈ kets nonnull e) ∧
    (i ∈ g.aux ↔ (once ∧ i ∈ auxs nonnull e) ∨
      (i ∈ slots nonnull e ∧ i ∈ unc ∧ 1 < (slots nonnull e).count i + (protos nonnull proto e).count i)) := by
  intro g once
  have key : ∀ X, i ∈ g.get X ↔ i ∈ slots nonnull e ∧
      ((1 < (slots nonnull e).count i + (protos nonnull proto e).count i ∧ i ∈ unc ∧ X = .aux) ∨
      (¬ 1 < (slots nonnull e).count i + (protos nonnull proto e).count i ∧
        X = if (bras nonnull e).count i ≠ 0 then .bra else if (kets nonnull e).count i ≠ 0 then .ket else .aux)) := by
    intro X
    show i ∈ (targetIndices nonnull proto unc e).get X ↔ _
    rw [targetIndices, foldl_targetStep]
    have h0 : ¬ i ∈ (⟨[], [], []⟩ : Groups ι).get X := by cases X <;> simp [Groups.get]
    simp only [h0, false_or, (usedCounts_exact nonnull proto e).2]
    have hs : ∀ n, (slots nonnull e).count i = n → (n ≠ 0 ↔ i ∈ slots nonnull e) := by
      rintro n rfl
      rw [← List.count_pos_iff]; omega
    constructor
    · rintro ⟨c, ⟨_, rfl⟩, hc, h⟩
      simp only [Counters.nonproto, Counters.total, ← slots_count] at hc h
      exact ⟨(hs _ rfl).mp hc, h⟩
    · rintro ⟨hi, h⟩
      refine ⟨_, ⟨Or.inl hi, rfl⟩, ?_⟩
      simp only [Counters.nonproto, Counters.total, ← slots_count]
      exact ⟨(hs _ rfl).mpr hi, h⟩
  have mb := List.count_pos_iff (a := i) (l := bras nonnull e)
  have mk := List.count_pos_iff (a := i) (l := kets nonnull e)
  have ma := List.count_pos_iff (a := i) (l := auxs nonnull e)
  have ms := List.count_pos_iff (a := i) (l := slots nonnull e)
  have mp := List.count_pos_iff (a := i) (l := protos nonnull proto e)
  have hsum := slots_count nonnull e i
  have hb := key .bra
  have hk := key .ket
  have ha := key .aux
  refine ⟨hb.trans ?_, hk.trans ?_, ha.trans ?_⟩
  all_goals
    show _ ↔ _
    simp only [once, ← mb, ← mk, ← ma, ← ms, ← mp]
    generalize (slots nonnull e).count i = ns at *
    generalize (bras nonnull e).count i = nb at *
    generalize (kets nonnull e).count i = nk at *
    generalize (auxs nonnull e).count i = na at *
    generalize (protos nonnull proto e).count i = np at *
    by_cases hu : i ∈ unc <;> by_cases h1 : nb = 0 <;> by_cases h2 : nk = 0 <;> simp [h1, h2, hu] <;> (try constructor) <;> (try intro h) <;> (try omega)

/-- **C110, partial** (`target_indices`): if no index is a protoindex, the indices of the intermediate are those that occur once and those that occur
more often and are needed later.  Missing: protoindices (`target_drops_external`). -/
theorem target_partial (unc : List ι) (e : NExpr ι) (hp : protos nonnull proto e = []) (i : ι) :
    let g := targetIndices nonnull proto unc e
    (i ∈ g.bra ∨ i ∈ g.ket ∨ i ∈ g.aux) ↔ (slots nonnull e).count i = 1 ∨ (i ∈ slots nonnull e ∧ i ∈ unc) := by
  intro g
  obtain ⟨h1, h2, h3⟩ := target_exact nonnull proto unc e i
  have hg : g = targetIndices nonnull proto unc e := rfl
  rw [hg, h1, h2, h3, hp]
  have ms := List.count_pos_iff (a := i) (l := slots nonnull e)
  have hm : i ∈ slots nonnull e ↔ i ∈ bras nonnull e ∨ i ∈ kets nonnull e ∨ i ∈ auxs nonnull e := by simp [slots]
  simp only [List.not_mem_nil, not_false_eq_true, and_true, List.count_nil, Nat.add_zero]
  constructor
  · rintro (h | h | h | h)
    exacts [Or.inl h.1, Or.inl h.1, Or.inl h.1, Or.inr ⟨h.1, h.2.1⟩]
  · rintro (h | ⟨h, hu⟩)
    · rcases hm.mp (ms.mp (by omega)) with h' | h' | h'
      exacts [Or.inl ⟨h, h'⟩, Or.inr (Or.inl ⟨h, h'⟩), Or.inr (Or.inr (Or.inl ⟨h, h'⟩))]
    · by_cases hc : (slots nonnull e).count i = 1
      · rcases hm.mp h with h' | h' | h'
        exacts [Or.inl ⟨hc, h'⟩, Or.inr (Or.inl ⟨hc, h'⟩), Or.inr (Or.inr (Or.inl ⟨hc, h'⟩))]
      · exact Or.inr (Or.inr (Or.inr ⟨h, hu, by have := ms.mpr h; omega⟩))

/-! ### Where the code deviates, and examples -/

/-- Indices of the examples: `a` depends on `i`; the empty string stands for an empty slot. -/
def exNonnull (s : String) : Bool := !(s == "")
def exProto (s : String) : List String := if s = "a" then ["i"] else if s = "b" then ["i", "j"] else []

/-- **C110 fails** for protoindices: `A{i;} B{a<i>;}` has the external index `i`, which occurs in one slot, but the tensor of the product does not
have it. -/
theorem target_drops_external :
    let e : NExpr String := .prod [.tensor ⟨.other, ["i"], [], []⟩, .tensor ⟨.other, ["a"], [], []⟩]
    (slots exNonnull e).count "i" = 1 ∧ "i" ∈ (extractIndices exNonnull exProto none false e).external ∧
    targetIndices exNonnull exProto [] e = ⟨["a"], [], []⟩ := by decide +kernel

example : usedCounts exNonnull exProto (.prod [.tensor ⟨.other, ["a", ""], ["j", "k"], ["K"]⟩, .scalar, .ops [⟨["k"], ["b"], []⟩, ⟨["i"], [], []⟩]]) =
    [("a", ⟨1, 0, 0, 0⟩), ("i", ⟨1, 0, 0, 2⟩), ("j", ⟨0, 1, 0, 1⟩), ("k", ⟨1, 1, 0, 0⟩), ("K", ⟨0, 0, 1, 0⟩), ("b", ⟨0, 1, 0, 0⟩)] := by
  decide +kernel

example : (extractIndices exNonnull exProto none false
    (.prod [.tensor ⟨.other, ["a", "k"], ["j", "l"], []⟩, .tensor ⟨.other, ["l"], ["a"], []⟩])).external = ["i", "k", "j"] ∧
    (extractIndices exNonnull exProto none false
    (.prod [.tensor ⟨.other, ["a", "k"], ["j", "l"], []⟩, .tensor ⟨.other, ["l"], ["a"], []⟩])).noncovariant = ["a"] := by decide +kernel

example : totIndices exProto ["b", "k", "i", "a"] = (["i", "j", "k"], ["b", "a"]) := by decide +kernel

example : targetIndices exNonnull exProto ["K"] (.prod [.tensor ⟨.other, ["k", "l"], ["m"], ["K"]⟩, .tensor ⟨.other, ["m"], ["n"], ["K", "L"]⟩]) =
    ⟨["k", "l"], ["n"], ["K", "L"]⟩ := by decide +kernel

end SeQuant.Named
