import Verif.Network.Relabel

/-!
# The replacement of anonymous indices by fresh ones is a renaming
-/

namespace SeQuant.Network

open SeQuant.Sort SeQuant.Tensors

variable {L C S : Type} [DecidableEq S]

section
variable {O : Ords S} {named l : List (Ix S)} {c : S → Nat} {m : List (Ix S × Ix S)} {ts : List (NT L C S)}

theorem Relabels.not_named (h : Relabels named c l m) {i : Ix S} (hi : i ∈ named) : look m i = none := by
  cases hh : look m i with
  | none => rfl
  | some v => exact absurd hi (h.keys i v hh).2

theorem Relabels.plain (h : Relabels named c l m) : PlainImages m := by
  intro p v hv
  obtain ⟨h1, h2⟩ := h.keys _ _ hv
  have := (h.new _ h1 h2).2.1
  rw [newName, hv] at this
  exact this

theorem replIx_named (h : Relabels named c l m) (hc : Closed named ts) {i : Ix S} (hi : i ∈ named) : replIx O m i = i := by
  have h1 : newName m i = i := by rw [newName, h.not_named hi]; rfl
  have h2 : changes m i.protos = false := by
    rw [changes, List.any_eq_false]
    intro p hp
    simp [h.not_named (hc.named i hi p hp)]
  rw [replIx, settledIx, TI.reset, h1]
  simp only [newProtos, h2, Bool.false_eq_true, if_false, tpOf_unchanged h2, List.map_map]
  cases i
  simp [Function.comp_def]

theorem newName_space (h : Relabels named c l m) (hl : ∀ i ∈ slotIdx ts, i ∉ named → i ∈ l) {i : Ix S} (hi : i ∈ slotIdx ts) :
    (newName m i).space = i.space ∧ (newName m i).protos = i.protos := by
  by_cases hn : i ∈ named
  · rw [newName, h.not_named hn]; exact ⟨rfl, rfl⟩
  · have := h.new i (hl i hi hn) hn
    exact ⟨this.1, this.2.1⟩

theorem toIx_tpOf (hm : PlainImages m) (p : PIx S) : (tpOf m p).p.toIx = replIx O m p.toIx := by
  rw [replIx, settledIx, newName, TI.reset, tpOf]
  cases h : look m p.toIx with
  | none => simp [PIx.toIx, newProtos, changes]
  | some v => simp [hm p v h, PIx.toIx, newProtos, changes]

theorem replIx_protos (h : Relabels named c l m) (hl : ∀ i ∈ slotIdx ts, i ∉ named → i ∈ l) {i : Ix S} (hi : i ∈ slotIdx ts) :
    ((replIx O m i).protos.map PIx.toIx).Perm (i.protos.map fun p => replIx O m p.toIx) := by
  have h1 := (newName_space h hl hi).2
  have h2 : (replIx O m i).protos = (newProtos O m i.protos).map TP.p := by
    rw [replIx, settledIx, TI.reset, h1]
  rw [h2, List.map_map]
  refine ((newProtos_perm O m i.protos).map _).trans (List.Perm.of_eq ?_)
  rw [List.map_map]
  exact List.map_congr_left fun p _ => toIx_tpOf h.plain p

theorem replIx_of_named_protos (h : Relabels named c l m) {i : Ix S} (hp : ∀ p ∈ (newName m i).protos, p.toIx ∈ named) : replIx O m i = newName m i := by
  have h2 : changes m (newName m i).protos = false := by
    rw [changes, List.any_eq_false]
    intro p hpp
    simp [h.not_named (hp p hpp)]
  rw [replIx, settledIx, TI.reset]
  simp only [newProtos, h2, Bool.false_eq_true, if_false, tpOf_unchanged h2, List.map_map]
  generalize newName m i = j
  cases j
  simp [Function.comp_def]

/-- An index that is not replaced is not found after its proto-indices have been replaced. -/
theorem notAgain (h : Relabels named c l m) (hc : Closed named ts) (hd : Distinct named ts) (hl : ∀ i ∈ l, i ∈ slotIdx ts)
    {i : Ix S} (hi : i ∈ slotIdx ts) : NotAgain O m i := by
  intro hn
  by_cases hin : i ∈ named
  · rw [replIx_named (O := O) h hc hin]; exact hn
  · cases hh : look m (replIx O m i) with
    | none => rfl
    | some v =>
      exfalso
      obtain ⟨h1, h2⟩ := h.keys _ _ hh
      have e1 : (replIx O m i).space = i.space := by rw [replIx, settledIx, TI.reset, newName, hn]; rfl
      have e2 : (replIx O m i).ord = i.ord := by rw [replIx, settledIx, TI.reset, newName, hn]; rfl
      have := hd _ (hl _ h1) i hi h2 hin e1 e2
      rw [this, hn] at hh
      cases hh

theorem renames (h : Relabels named c l m) (hc : Closed named ts) (hl : ∀ i ∈ slotIdx ts, i ∉ named → i ∈ l) :
    Renames named ts (replIx O m) := by
  have hsp : ∀ i ∈ slotIdx ts, (replIx O m i).space = i.space := fun i hi => (newName_space h hl hi).1
  have hfix : ∀ i ∈ named, replIx O m i = i := fun i hi => replIx_named h hc hi
  refine ⟨hsp, fun i hi => replIx_protos h hl hi, ?_, hfix, ?_, ?_⟩
  · intro i hi p hp
    rcases hc.slot i hi p hp with h1 | h1
    · rw [hfix _ h1]; rfl
    · rw [hsp _ h1]; rfl
  · intro i hi hin hk
    have hpn : ∀ p ∈ i.protos, p.toIx ∈ named := by
      intro p hp
      have h1 : replIx O m p.toIx ∈ (replIx O m i).protos.map PIx.toIx :=
        (replIx_protos (O := O) h hl hi).mem_iff.2 (List.mem_map.2 ⟨p, hp, rfl⟩)
      obtain ⟨q, hq, hqe⟩ := List.mem_map.1 h1
      have h2 := hc.named _ hk q hq
      by_cases hpn : p.toIx ∈ named
      · exact hpn
      · exfalso
        have h3 := (hc.slot i hi p hp).resolve_left hpn
        have h4 := h.new _ (hl _ h3 hpn) hpn
        have h5 : replIx O m p.toIx = newName m p.toIx :=
          replIx_of_named_protos h (by rw [h4.2.1]; simp [PIx.toIx])
        rw [hqe, h5] at h2
        exact h4.2.2.2 h2
    have h6 := h.new i (hl i hi hin) hin
    rw [replIx_of_named_protos (O := O) h (by rw [h6.2.1]; exact hpn)] at hk
    exact h6.2.2.2 hk
  · intro i hi j hj hin hjn he
    have e1 := hsp i hi
    have e2 := hsp j hj
    rw [he, e2] at e1
    refine h.inj i (hl i hi hin) j (hl j hj hjn) hin hjn e1.symm ?_
    have := congrArg Ix.ord he
    exact this

/-- After the replacement different anonymous indices differ in space or ordinal. -/
theorem distinct_mapIx (h : Relabels named c l m) (hc : Closed named ts) (hl : ∀ i ∈ slotIdx ts, i ∉ named → i ∈ l) :
    Distinct named (ts.map (NT.mapIx (replIx O m))) := by
  have hr := renames (O := O) h hc hl
  intro i' hi' j' hj' hin' hjn' hs ho
  rw [slotIdx_mapIx, List.mem_map] at hi' hj'
  obtain ⟨i, hi, rfl⟩ := hi'
  obtain ⟨j, hj, rfl⟩ := hj'
  have hin : i ∉ named := fun hh => hin' (by rw [hr.fixed i hh]; exact hh)
  have hjn : j ∉ named := fun hh => hjn' (by rw [hr.fixed j hh]; exact hh)
  rw [hr.space i hi, hr.space j hj] at hs
  rw [h.inj i (hl i hi hin) j (hl j hj hjn) hin hjn hs ho]

omit [DecidableEq S] in
theorem closed_mapIx {ρ : Ix S → Ix S} (hr : Renames named ts ρ) (hc : Closed named ts) : Closed named (ts.map (NT.mapIx ρ)) := by
  refine ⟨?_, hc.named⟩
  intro i' hi' q hq
  rw [slotIdx_mapIx, List.mem_map] at hi'
  obtain ⟨i, hi, rfl⟩ := hi'
  have := (hr.protos i hi).mem_iff.1 (List.mem_map.2 ⟨q, hq, rfl⟩)
  obtain ⟨p, hp, he⟩ := List.mem_map.1 this
  rw [← he]
  rcases hc.slot i hi p hp with h1 | h1
  · exact .inl (by rw [hr.fixed _ h1]; exact h1)
  · exact .inr (by rw [slotIdx_mapIx]; exact List.mem_map.2 ⟨_, h1, rfl⟩)

end

end SeQuant.Network
