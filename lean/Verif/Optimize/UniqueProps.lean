import Verif.Optimize.UniqueModel
import Mathlib.Data.List.Nodup
import Mathlib.Data.List.Count
import Mathlib.Data.List.Perm.Basic

/-!
# C33: the non-repeated indices are those that occur once, per slot type and in order
-/

namespace SeQuant.Optimize

variable {ι : Type} [DecidableEq ι]

/-- The indices in slots of type `X` of a list of slots that occur once in the whole list. -/
def onceIn (X : Slot) (s : List (Slot × ι)) : List ι :=
  (s.filter fun p => decide (p.1 = X) && decide ((s.map Prod.snd).count p.2 = 1)).map Prod.snd

/-- A group by its slot type. -/
def Groups.get (g : Groups ι) : Slot → List ι
  | .bra => g.bra
  | .ket => g.ket
  | .aux => g.aux

def onceAll (s : List (Slot × ι)) : Groups ι := ⟨onceIn .bra s, onceIn .ket s, onceIn .aux s⟩

/-- All slots of a tensor or group, in order. -/
def slotList (g : Groups ι) : List (Slot × ι) := g.bra.map (Slot.bra, ·) ++ g.ket.map (Slot.ket, ·) ++ g.aux.map (Slot.aux, ·)

theorem mem_onceIn (X : Slot) (s : List (Slot × ι)) (i : ι) : i ∈ onceIn X s ↔ (X, i) ∈ s ∧ (s.map Prod.snd).count i = 1 := by
  simp only [onceIn, List.mem_map, List.mem_filter, Bool.and_eq_true, decide_eq_true_iff]
  constructor
  · rintro ⟨⟨Y, j⟩, ⟨h1, h2, h3⟩, rfl⟩
    simp only at h2 h3
    subst h2
    exact ⟨h1, h3⟩
  · rintro ⟨h1, h2⟩
    exact ⟨(X, i), ⟨h1, rfl, h2⟩, rfl⟩

theorem onceIn_nodup (X : Slot) (s : List (Slot × ι)) : (onceIn X s).Nodup := by
  rw [List.nodup_iff_count_le_one]
  intro i
  by_cases h : i ∈ onceIn X s
  · have h1 := ((mem_onceIn X s i).mp h).2
    rw [← h1]
    exact ((List.filter_sublist (l := s)).map Prod.snd).count_le i
  · rw [List.count_eq_zero_of_not_mem h]; omega

theorem onceIn_append (X Y : Slot) (s : List (Slot × ι)) (i : ι) : onceIn X (s ++ [(Y, i)]) =
    if i ∈ s.map Prod.snd then (onceIn X s).erase i else if X = Y then onceIn X s ++ [i] else onceIn X s := by
  have hcount : ∀ j, ((s ++ [(Y, i)]).map Prod.snd).count j = (s.map Prod.snd).count j + if i = j then 1 else 0 := by
    intro j
    rw [List.map_append, List.count_append]
    simp only [List.map_cons, List.map_nil, List.count_singleton]
    congr 1
    by_cases h : i = j <;> simp [h]
  by_cases hi : i ∈ s.map Prod.snd
  · rw [if_pos hi]
    have hpos := List.count_pos_iff.mpr hi
    rw [(onceIn_nodup X s).erase_eq_filter]
    unfold onceIn
    rw [List.filter_append, List.filter_map, List.filter_filter]
    have hlast : List.filter (fun p => decide (p.1 = X) && decide (List.count p.2 (List.map Prod.snd (s ++ [(Y, i)])) = 1)) [(Y, i)] = [] := by
      rw [List.filter_eq_nil_iff]
      intro p hp
      rw [List.mem_singleton] at hp
      subst hp
      simp only [hcount, Bool.and_eq_true, decide_eq_true_iff, if_true]
      omega
    rw [hlast, List.append_nil]
    congr 1
    apply List.filter_congr
    rintro ⟨Z, j⟩ hp
    simp only [hcount, Function.comp]
    by_cases hj : i = j
    · subst hj
      have : ¬ (List.count i (List.map Prod.snd s) + 1 = 1) := by omega
      simp only [this, decide_true, decide_false, Bool.and_false, if_true]
      simp
    · simp [hj, Ne.symm hj]
  · rw [if_neg hi]
    have h0 := List.count_eq_zero_of_not_mem hi
    unfold onceIn
    rw [List.filter_append, List.map_append]
    have hfront : List.filter (fun p => decide (p.1 = X) && decide (List.count p.2 (List.map Prod.snd (s ++ [(Y, i)])) = 1)) s =
        List.filter (fun p => decide (p.1 = X) && decide (List.count p.2 (List.map Prod.snd s) = 1)) s := by
      apply List.filter_congr
      rintro ⟨Z, j⟩ hp
      have hj : i ≠ j := by
        rintro rfl
        exact hi (List.mem_map.mpr ⟨_, hp, rfl⟩)
      simp [hcount, hj]
    rw [hfront]
    by_cases hXY : X = Y
    · subst hXY
      rw [if_pos rfl, List.filter_cons_of_pos (by simp only [hcount, h0, if_true]; simp)]
      rfl
    · rw [if_neg hXY, List.filter_cons_of_neg (by simp [Ne.symm hXY])]
      simp

/-- The state after a list of slots. -/
structure State (st : List ι × Groups ι) (s : List (Slot × ι)) : Prop where
  seen : ∀ i, i ∈ st.1 ↔ i ∈ s.map Prod.snd
  groups : st.2 = onceAll s

theorem State.step {st : List ι × Groups ι} {s : List (Slot × ι)} (h : State st s) (X : Slot) (from_ : List Slot) (i : ι)
    (hf : from_.foldl (fun g s => g.removeOne s i) st.2 = ⟨st.2.bra.erase i, st.2.ket.erase i, st.2.aux.erase i⟩) :
    State (uniqStep X from_ st i) (s ++ [(X, i)]) := by
  unfold uniqStep
  by_cases hi : i ∈ st.1
  · rw [if_pos hi]
    have hi' := (h.seen i).mp hi
    refine ⟨?_, ?_⟩
    · intro j
      rw [h.seen, List.map_append, List.mem_append]
      constructor
      · exact .inl
      · rintro (hj | hj)
        · exact hj
        · simp at hj; rw [hj]; exact hi'
    · simp only
      rw [hf, h.groups]
      simp only [onceAll, onceIn_append, if_pos hi']
  · rw [if_neg hi]
    have hi' : i ∉ s.map Prod.snd := fun hc => hi ((h.seen i).mpr hc)
    refine ⟨?_, ?_⟩
    · intro j
      rw [List.map_append, List.mem_append, List.mem_cons, h.seen]
      simp [or_comm]
    · simp only
      rw [h.groups]
      simp only [onceAll, onceIn_append, if_neg hi']
      cases X <;> simp [Groups.push]

theorem State.loop {st : List ι × Groups ι} {s : List (Slot × ι)} (h : State st s) (X : Slot) (l : List ι) :
    State (l.foldl (uniqStep X [.bra, .ket, .aux]) st) (s ++ l.map (X, ·)) := by
  induction l generalizing st s with
  | nil => simpa using h
  | cons i l ih =>
    have := ih (h.step X [.bra, .ket, .aux] i rfl)
    simpa using this

theorem State.init : State (([], ⟨[], [], []⟩) : List ι × Groups ι) [] := ⟨by simp, rfl⟩

theorem onceIn_nil (X : Slot) (s : List (Slot × ι)) (h : ∀ p ∈ s, p.1 ≠ X) : onceIn X s = [] := by
  unfold onceIn
  rw [List.filter_eq_nil_iff.mpr]
  · rfl
  · intro p hp; simp [h p hp]

/-- **C33** (tensors): every group consists of the indices of its slots that occur once in the whole tensor, in order. -/
theorem uniqTensor_exact (bra ket aux : List ι) : uniqTensor bra ket aux = onceAll (slotList ⟨bra, ket, aux⟩) := by
  -- the loops that remove from fewer groups do so while the others are empty
  have braLoop : ∀ (l : List ι) (st : List ι × Groups ι) (s : List (Slot × ι)), State st s → (∀ p ∈ s, p.1 = .bra) →
      State (l.foldl (uniqStep .bra [.bra]) st) (s ++ l.map (Slot.bra, ·)) := by
    intro l
    induction l with
    | nil => intro st s h _; simpa using h
    | cons i l ih =>
      intro st s h hs
      have hk : st.2.ket = [] := by rw [h.groups]; exact onceIn_nil _ _ fun p hp => by rw [hs p hp]; simp
      have ha : st.2.aux = [] := by rw [h.groups]; exact onceIn_nil _ _ fun p hp => by rw [hs p hp]; simp
      have := ih _ _ (h.step .bra [.bra] i (by simp [Groups.removeOne, hk, ha])) (by
        intro p hp
        rcases List.mem_append.mp hp with hp | hp
        · exact hs p hp
        · rw [List.mem_singleton] at hp; rw [hp])
      simpa using this
  have ketLoop : ∀ (l : List ι) (st : List ι × Groups ι) (s : List (Slot × ι)), State st s → (∀ p ∈ s, p.1 ≠ .aux) →
      State (l.foldl (uniqStep .ket [.bra, .ket]) st) (s ++ l.map (Slot.ket, ·)) := by
    intro l
    induction l with
    | nil => intro st s h _; simpa using h
    | cons i l ih =>
      intro st s h hs
      have ha : st.2.aux = [] := by rw [h.groups]; exact onceIn_nil _ _ hs
      have := ih _ _ (h.step .ket [.bra, .ket] i (by simp [Groups.removeOne, ha])) (by
        intro p hp
        rcases List.mem_append.mp hp with hp | hp
        · exact hs p hp
        · rw [List.mem_singleton] at hp; rw [hp]; simp)
      simpa using this
  have h1 := braLoop bra _ [] State.init (by simp)
  have h2 := ketLoop ket _ _ h1 (by
    intro p hp
    simp only [List.nil_append, List.mem_map] at hp
    obtain ⟨i, -, rfl⟩ := hp
    simp)
  have h3 := h2.loop .aux aux
  unfold uniqTensor
  simp only
  rw [h3.groups]
  simp [slotList]

/-- **C33** (products): every group consists of the indices that are non-repeated in their factor and in no other factor. -/
theorem uniqProduct_exact (gs : List (Groups ι)) : uniqProduct gs = onceAll (gs.flatMap slotList) := by
  have key : ∀ (gs : List (Groups ι)) (st : List ι × Groups ι) (s : List (Slot × ι)), State st s →
      State (gs.foldl uniqFactor st) (s ++ gs.flatMap slotList) := by
    intro gs
    induction gs with
    | nil => intro st s h; simpa using h
    | cons g gs ih =>
      intro st s h
      rw [List.foldl_cons]
      have := ih (uniqFactor st g) (s ++ slotList g) (by
        unfold uniqFactor
        simp only
        have h1 := ((h.loop .bra g.bra).loop .ket g.ket).loop .aux g.aux
        simpa [slotList] using h1)
      simpa using this
  unfold uniqProduct
  rw [(key gs _ [] State.init).groups]
  simp

/-! ### Products of tensors -/

theorem slotList_onceAll_count (s : List (Slot × ι)) (i : ι) :
    ((slotList (onceAll s)).map Prod.snd).count i = if (s.map Prod.snd).count i = 1 then 1 else 0 := by
  have hmap : (slotList (onceAll s)).map Prod.snd = onceIn .bra s ++ onceIn .ket s ++ onceIn .aux s := by
    simp [slotList, onceAll, Function.comp_def]
  rw [hmap]
  by_cases h : (s.map Prod.snd).count i = 1
  · rw [if_pos h]
    -- exactly one slot carries the index
    have hfilter : (s.filter fun p => decide (p.2 = i)).length = 1 := by
      rw [← List.countP_eq_length_filter, ← h, List.count, List.countP_map]
      apply List.countP_congr
      intro p _
      simp [Function.comp]
    obtain ⟨p, hp⟩ := List.length_eq_one_iff.mp hfilter
    have hmem : ∀ X, (X, i) ∈ s ↔ X = p.1 := by
      intro X
      have : (X, i) ∈ s ↔ (X, i) ∈ s.filter fun p => decide (p.2 = i) := by simp
      rw [this, hp, List.mem_singleton]
      have hpi : p.2 = i := by
        have : p ∈ s.filter fun p => decide (p.2 = i) := by rw [hp]; simp
        simpa using (List.mem_filter.mp this).2
      constructor
      · intro h; rw [← h]
      · intro h; rw [h, ← hpi]
    have hc : ∀ X, (onceIn X s).count i = if X = p.1 then 1 else 0 := by
      intro X
      by_cases hX : X = p.1
      · rw [if_pos hX]
        exact List.count_eq_one_of_mem (onceIn_nodup X s) ((mem_onceIn X s i).mpr ⟨(hmem X).mpr hX, h⟩)
      · rw [if_neg hX, List.count_eq_zero_of_not_mem]
        intro hm
        exact hX ((hmem X).mp ((mem_onceIn X s i).mp hm).1)
    rw [List.count_append, List.count_append, hc, hc, hc]
    cases p.1 <;> simp
  · rw [if_neg h, List.count_eq_zero_of_not_mem]
    intro hm
    simp only [List.mem_append] at hm
    rcases hm with (hm | hm) | hm <;> exact h ((mem_onceIn _ s i).mp hm).2

/-- **C33, partial** (products of tensors): if no index occurs more than twice, the groups of a product consist of exactly the indices that occur
once in the whole product.  Missing: indices that occur more than twice (`uniqProduct_triple`). -/
theorem uniqProduct_tensors_partial (ts : List (Groups ι)) (X : Slot) (i : ι) (h2 : ((ts.flatMap slotList).map Prod.snd).count i ≤ 2) :
    let g := uniqProduct (ts.map fun t => uniqTensor t.bra t.ket t.aux)
    i ∈ g.get X ↔ ((X, i) ∈ ts.flatMap slotList ∧ ((ts.flatMap slotList).map Prod.snd).count i = 1) := by
  intro g
  have hg : g.get X = onceIn X ((ts.map fun t => uniqTensor t.bra t.ket t.aux).flatMap slotList) := by
    show (uniqProduct (ts.map fun t => uniqTensor t.bra t.ket t.aux)).get X = _
    rw [uniqProduct_exact]
    cases X <;> rfl
  rw [hg, mem_onceIn]
  have hts : (ts.map fun t => uniqTensor t.bra t.ket t.aux).flatMap slotList = ts.flatMap fun t => slotList (onceAll (slotList t)) := by
    rw [List.flatMap_map]
    congr 1
    funext t
    rw [uniqTensor_exact]
  rw [hts]
  -- counts
  have hcount : ∀ ts : List (Groups ι), ((ts.flatMap slotList).map Prod.snd).count i ≤ 2 →
      (((ts.flatMap fun t => slotList (onceAll (slotList t))).map Prod.snd).count i ≤ ((ts.flatMap slotList).map Prod.snd).count i ∧
      (((ts.flatMap slotList).map Prod.snd).count i - ((ts.flatMap fun t => slotList (onceAll (slotList t))).map Prod.snd).count i = 0 ∨
        ((ts.flatMap slotList).map Prod.snd).count i - ((ts.flatMap fun t => slotList (onceAll (slotList t))).map Prod.snd).count i = 2)) := by
    intro ts
    induction ts with
    | nil => intro _; simp
    | cons t ts ih =>
      intro h
      simp only [List.flatMap_cons, List.map_append, List.count_append] at h ⊢
      obtain ⟨i1, i2⟩ := ih (by omega)
      rw [slotList_onceAll_count]
      split <;> omega
  obtain ⟨c1, c2⟩ := hcount ts h2
  have memSlot : ∀ (t : Groups ι), (X, i) ∈ slotList (onceAll (slotList t)) ↔ (X, i) ∈ slotList t ∧ ((slotList t).map Prod.snd).count i = 1 := by
    intro t
    rw [← mem_onceIn]
    cases X <;> simp [slotList, onceAll]
  constructor
  · rintro ⟨h1, h3⟩
    rw [List.mem_flatMap] at h1
    obtain ⟨t, ht, hm⟩ := h1
    refine ⟨List.mem_flatMap.mpr ⟨t, ht, ((memSlot t).mp hm).1⟩, ?_⟩
    omega
  · rintro ⟨h1, h3⟩
    rw [List.mem_flatMap] at h1
    obtain ⟨t, ht, hm⟩ := h1
    refine ⟨List.mem_flatMap.mpr ⟨t, ht, (memSlot t).mpr ⟨hm, ?_⟩⟩, by omega⟩
    have hle : ((slotList t).map Prod.snd).count i ≤ ((ts.flatMap slotList).map Prod.snd).count i := by
      apply List.Sublist.count_le
      apply List.Sublist.map
      exact List.sublist_flatten_of_mem (List.mem_map.mpr ⟨t, ht, rfl⟩)
    have hpos : 0 < ((slotList t).map Prod.snd).count i := List.count_pos_iff.mpr (List.mem_map.mpr ⟨_, hm, rfl⟩)
    omega

/-- **C33 fails** for an index that is repeated in one factor and occurs in another one as well: the product reports it as non-repeated although it
occurs three times. -/
theorem uniqProduct_triple : uniqExpr (.prod [.tensor ["i"] ["i"] [], .tensor ["i"] ["j"] []]) = some ⟨["i"], ["j"], []⟩ := by decide +kernel

/-- **C33 fails** for sums whose first summand has none of the indices (such as a zero constant). -/
theorem uniqSum_first : uniqExpr (.sum [.scalar, .tensor ["i"] ["j"] []]) = some ⟨[], [], []⟩ ∧
    uniqExpr (.sum [.tensor ["i"] ["j"] [], .scalar]) = some ⟨["i"], ["j"], []⟩ := by decide +kernel

example : uniqExpr (.prod [.tensor ["i", "a"] ["j", "b"] ["K"], .scalar, .tensor ["b"] ["a"] ["K"], .tensor ["k"] ["l"] []]) = some ⟨["i", "k"], ["j", "l"], []⟩ := by
  decide +kernel

end SeQuant.Optimize
