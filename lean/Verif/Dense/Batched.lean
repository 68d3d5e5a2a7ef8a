import Verif.Dense.Props

/-!
# Contractions with batch axes (C87)
-/

namespace SeQuant.Dense

variable {K : Type} {dim : Label → Nat}

theorem mem_batch {la ra ca : List Label} {l : Label} : l ∈ batchIndices la ra ca ↔ l ∈ ca ∧ l ∈ la ∧ l ∈ ra := by
  simp [batchIndices]

theorem mem_rest {batch v : List Label} {l : Label} : l ∈ restOf batch v ↔ l ∈ v ∧ l ∉ batch := by
  simp [restOf]

theorem front_perm {batch v : List Label} (hb : batch.Nodup) (hv : v.Nodup) (h : ∀ l ∈ batch, l ∈ v) : v.Perm (batch ++ restOf batch v) := by
  rw [List.perm_ext_iff_of_nodup hv]
  · intro l
    simp only [List.mem_append, mem_rest]
    constructor
    · intro hl; by_cases hh : l ∈ batch
      · exact .inl hh
      · exact .inr ⟨hl, hh⟩
    · rintro (hl | hl)
      · exact h l hl
      · exact hl.1
  · rw [List.nodup_append]
    refine ⟨hb, hv.filter _, ?_⟩
    intro x hx y hy hxy
    subst hxy
    exact (mem_rest.1 hy).2 hx

theorem batchCount_spec {l r : Arr K} {batch rl rr : List Label} (hl : l.ext = (batch ++ rl).map dim) (hr : r.ext = (batch ++ rr).map dim) :
    batchCount l r batch.length = .ok (batch.map dim).prod := by
  unfold batchCount
  have key : ∀ n ≤ batch.length, (List.range n).foldlM (fun p i =>
      if l.ext.getD i 0 = r.ext.getD i 0 then .ok (p * l.ext.getD i 0) else .error Err.assertion) 1
      = (.ok ((batch.map dim).take n).prod : Except Err Nat) := by
    intro n hn
    induction n with
    | zero => rfl
    | succ n ih =>
      rw [List.range_succ, List.foldlM_append, ih (by omega)]
      have h1 : l.ext.getD n 0 = dim (batch[n]'(by omega)) := by
        rw [hl, List.getD_eq_getElem?_getD, List.getElem?_map, List.getElem?_append_left (by omega), List.getElem?_eq_getElem (by omega)]; rfl
      have h2 : r.ext.getD n 0 = dim (batch[n]'(by omega)) := by
        rw [hr, List.getD_eq_getElem?_getD, List.getElem?_map, List.getElem?_append_left (by omega), List.getElem?_eq_getElem (by omega)]; rfl
      simp only [List.foldlM_cons, List.foldlM_nil, bind, Except.bind]
      rw [ h1, h2, if_pos rfl, List.take_add_one, List.prod_append,
        List.getElem?_eq_getElem (by simp; omega)]
      simp
      rfl
  rw [key _ le_rfl, List.take_of_length_le (by simp)]

theorem tailExtents_spec {t : Arr K} {batch r : List Label} (h : t.ext = (batch ++ r).map dim) :
    tailExtents t batch.length = (r.map dim, (r.map dim).prod) := by
  unfold tailExtents
  rw [h, List.map_append, List.drop_left' (by simp), foldl_mul, one_mul]

theorem resultExtents_spec {rl rr : List Label} : ∀ {rc : List Label}, (∀ l ∈ rc, l ∈ rl ∨ l ∈ rr) →
    resultExtents rl rr (rl.map dim) (rr.map dim) rc = .ok (rc.map dim)
  | [], _ => rfl
  | x :: rc, h => by
    have ih := resultExtents_spec (rc := rc) fun l hl => h l (by simp [hl])
    unfold resultExtents
    split
    · rename_i hx
      rw [ih, extentOf_map dim hx]; rfl
    · rename_i hx
      have hx := (h x (by simp)).resolve_left hx
      rw [if_pos hx, ih, extentOf_map dim hx]; rfl

section
variable [Zero K]

/-- a slice has the elements at the value of the batch. -/
theorem slice_spec {t : Arr K} {batch r : List Label} (ht : t.Labelled dim (batch ++ r)) {b : Nat} (hb : b < (batch.map dim).prod) :
    (slice t (b * (r.map dim).prod) (r.map dim) (r.map dim).prod).Labelled dim r ∧
    ∀ ρ, batch.map ρ = unravel (batch.map dim) b → Below dim r ρ →
      (slice t (b * (r.map dim).prod) (r.map dim) (r.map dim).prod).at_ (r.map ρ) = t.at_ ((batch ++ r).map ρ) := by
  have hlen : t.data.length = (batch.map dim).prod * (r.map dim).prod := by
    have := ht.1
    rw [Arr.WF, ht.2, List.map_append, List.prod_append] at this
    exact this
  have hle : b * (r.map dim).prod + (r.map dim).prod ≤ t.data.length := by
    rw [hlen, ← Nat.succ_mul]; exact Nat.mul_le_mul_right _ hb
  refine ⟨⟨?_, rfl⟩, fun ρ h1 h2 => ?_⟩
  · simp only [Arr.WF, slice, List.length_take, List.length_drop]; omega
  · have hr := inRange_map h2
    have ho := offset_lt hr
    simp only [Arr.at_, slice]
    rw [ht.2, List.map_append, List.map_append, h1, offset_append (unravel_inRange _ hb), offset_unravel _ hb]
    rw [List.getD_eq_getElem?_getD, List.getD_eq_getElem?_getD, List.getElem?_take, if_pos ho, List.getElem?_drop]

theorem scalar_read {t : Arr K} {batch : List Label} (ht : t.Labelled dim batch) {b : Nat} (hb : b < (batch.map dim).prod) {ρ : Label → Nat}
    (h : batch.map ρ = unravel (batch.map dim) b) : t.data.getD b 0 = t.at_ (batch.map ρ) := by
  rw [h, data_at (by rw [ht.2]; exact hb), ht.2]

end

theorem scal_spec [CommSemiring K] {t : Arr K} {ann : List Label} (ht : t.Labelled dim ann) (s : K) :
    (scal s t).Labelled dim ann ∧ ∀ x, (scal s t).at_ x = t.at_ x * s := by
  refine ⟨⟨?_, ht.2⟩, fun x => ?_⟩
  · simpa [Arr.WF, scal] using ht.1
  · simp only [Arr.at_, scal, List.getD_eq_getElem?_getD, List.getElem?_map]
    cases t.data[offset (strides t.ext) x]? <;> simp

theorem yields_data [CommSemiring K] {t : Arr K} {ann : List Label} (ht : t.Labelled dim ann) :
    t.data.take (ann.map dim).prod = t.data := by
  apply List.take_of_length_le
  rw [ht.1, ht.2]

section
variable [CommSemiring K] {l r lp rp : Arr K} {la ra ca : List Label}

/-- what one value of the batch contributes. -/
theorem batchBlock_spec (hw : ProductAnnot la ra ca)
    (hl : lp.Labelled dim (batchIndices la ra ca ++ restOf (batchIndices la ra ca) la))
    (hle : ∀ σ, Below dim la σ → lp.at_ ((batchIndices la ra ca ++ restOf (batchIndices la ra ca) la).map σ) = l.at_ (la.map σ))
    (hr : rp.Labelled dim (batchIndices la ra ca ++ restOf (batchIndices la ra ca) ra))
    (hre : ∀ σ, Below dim ra σ → rp.at_ ((batchIndices la ra ca ++ restOf (batchIndices la ra ca) ra).map σ) = r.at_ (ra.map σ))
    (α : K) {b : Nat} (hb : b < ((batchIndices la ra ca).map dim).prod) :
    ∃ blk, batchBlock α lp rp (restOf (batchIndices la ra ca) la) (restOf (batchIndices la ra ca) ra) (restOf (batchIndices la ra ca) ca)
        ((restOf (batchIndices la ra ca) la).map dim) ((restOf (batchIndices la ra ca) la).map dim).prod
        ((restOf (batchIndices la ra ca) ra).map dim) ((restOf (batchIndices la ra ca) ra).map dim).prod
        ((restOf (batchIndices la ra ca) ca).map dim).prod b = .ok blk ∧
      blk.length = ((restOf (batchIndices la ra ca) ca).map dim).prod ∧
      ∀ σ, (batchIndices la ra ca).map σ = unravel ((batchIndices la ra ca).map dim) b → Below dim ca σ →
        blk.getD (offset (strides ((restOf (batchIndices la ra ca) ca).map dim)) ((restOf (batchIndices la ra ca) ca).map σ)) 0 = α * prodAt dim l la r ra ca σ := by
  obtain ⟨h1, h2, h3, h4, h5, h6⟩ := hw
  have mB : ∀ x, x ∈ batchIndices la ra ca ↔ x ∈ ca ∧ x ∈ la ∧ x ∈ ra := fun x => mem_batch
  have mL : ∀ x, x ∈ restOf (batchIndices la ra ca) la ↔ x ∈ la ∧ ¬ (x ∈ ca ∧ x ∈ ra) := fun x => by
    rw [mem_rest, mB]; constructor
    · rintro ⟨a, b⟩; exact ⟨a, fun c => b ⟨c.1, a, c.2⟩⟩
    · rintro ⟨a, b⟩; exact ⟨a, fun c => b ⟨c.1, c.2.2⟩⟩
  have mR : ∀ x, x ∈ restOf (batchIndices la ra ca) ra ↔ x ∈ ra ∧ ¬ (x ∈ ca ∧ x ∈ la) := fun x => by
    rw [mem_rest, mB]; constructor
    · rintro ⟨a, b⟩; exact ⟨a, fun c => b ⟨c.1, c.2, a⟩⟩
    · rintro ⟨a, b⟩; exact ⟨a, fun c => b ⟨c.1, c.2.1⟩⟩
  have mC : ∀ x, x ∈ restOf (batchIndices la ra ca) ca ↔ x ∈ ca ∧ ¬ (x ∈ la ∧ x ∈ ra) := fun x => by
    rw [mem_rest, mB]; constructor
    · rintro ⟨a, b⟩; exact ⟨a, fun c => b ⟨a, c.1, c.2⟩⟩
    · rintro ⟨a, b⟩; exact ⟨a, fun c => b ⟨c.2.1, c.2.2⟩⟩
  have mD : ∀ x, x ∈ dummies la ra ca ↔ x ∈ la ∧ x ∈ ra ∧ x ∉ ca := fun x => by
    simp only [dummies, Finset.mem_sdiff, Finset.mem_union, List.mem_toFinset]
    constructor
    · rintro ⟨a | a, b⟩
      · exact ⟨a, h5 x a b, b⟩
      · exact ⟨h6 x a b, a, b⟩
    · rintro ⟨a, b, c⟩; exact ⟨.inl a, c⟩
  have nL : (restOf (batchIndices la ra ca) la).Nodup := h1.filter _
  have nR : (restOf (batchIndices la ra ca) ra).Nodup := h2.filter _
  have nC : (restOf (batchIndices la ra ca) ca).Nodup := h3.filter _
  -- elements of the slices
  have bB : ∀ ρ : Label → Nat, (batchIndices la ra ca).map ρ = unravel ((batchIndices la ra ca).map dim) b → Below dim (batchIndices la ra ca) ρ := by
    intro ρ hρ x hx
    have hin := unravel_inRange _ hb
    rw [← hρ] at hin
    have := inRange_env hin hx
    rwa [env_map ρ hx] at this
  generalize hB : batchIndices la ra ca = B at *
  generalize hRL : restOf B la = rl at *
  generalize hRR : restOf B ra = rr at *
  generalize hRC : restOf B ca = rc at *
  obtain ⟨sl, sle⟩ := slice_spec hl hb
  obtain ⟨sr, sre⟩ := slice_spec hr hb
  have eL : ∀ ρ, B.map ρ = unravel (B.map dim) b → Below dim rl ρ →
      (slice lp (b * (rl.map dim).prod) (rl.map dim) (rl.map dim).prod).at_ (rl.map ρ) = l.at_ (la.map ρ) := by
    intro ρ hρ hb'
    rw [sle ρ hρ hb']
    apply hle
    intro x hx
    by_cases hx' : x ∈ B
    · exact bB ρ hρ x hx'
    · exact hb' x ((mL x).2 ⟨hx, fun h => hx' ((mB x).2 ⟨h.1, hx, h.2⟩)⟩)
  have eR : ∀ ρ, B.map ρ = unravel (B.map dim) b → Below dim rr ρ →
      (slice rp (b * (rr.map dim).prod) (rr.map dim) (rr.map dim).prod).at_ (rr.map ρ) = r.at_ (ra.map ρ) := by
    intro ρ hρ hb'
    rw [sre ρ hρ hb']
    apply hre
    intro x hx
    by_cases hx' : x ∈ B
    · exact bB ρ hρ x hx'
    · exact hb' x ((mR x).2 ⟨hx, fun h => hx' ((mB x).2 ⟨h.1, h.2, hx⟩)⟩)
  -- the batch keeps its values while the others are summed
  have keep : ∀ {S : Finset Label} {σ ρ : Label → Nat}, (∀ x ∈ S, x ∉ B) → (∀ x ∉ S, ρ x = σ x) →
      B.map σ = unravel (B.map dim) b → B.map ρ = unravel (B.map dim) b := by
    intro S σ ρ hS hρ hσ
    rw [← hσ]
    exact List.map_congr_left fun x hx => hρ x fun hxs => hS x hxs hx
  have readL : rl = [] → ∀ σ, B.map σ = unravel (B.map dim) b → lp.data.getD (b * (rl.map dim).prod) 0 = l.at_ (la.map σ) := by
    intro h0 σ hσ
    subst h0
    have hl' : lp.Labelled dim B := by simpa using hl
    have := scalar_read hl' hb hσ
    simp only [List.map_nil, List.prod_nil, mul_one]
    rw [this, ← hle σ]
    · simp
    · intro x hx
      apply bB σ hσ x
      by_contra hx'
      have := (mL x).2 ⟨hx, fun h => hx' ((mB x).2 ⟨h.1, hx, h.2⟩)⟩
      cases this
  have readR : rr = [] → ∀ σ, B.map σ = unravel (B.map dim) b → rp.data.getD (b * (rr.map dim).prod) 0 = r.at_ (ra.map σ) := by
    intro h0 σ hσ
    subst h0
    have hr' : rp.Labelled dim B := by simpa using hr
    have := scalar_read hr' hb hσ
    simp only [List.map_nil, List.prod_nil, mul_one]
    rw [this, ← hre σ]
    · simp
    · intro x hx
      apply bB σ hσ x
      by_contra hx'
      have := (mR x).2 ⟨hx, fun h => hx' ((mB x).2 ⟨h.1, h.2, hx⟩)⟩
      cases this
  have noD : (rl = [] ∨ rr = []) → dummies la ra ca = ∅ := by
    rintro h0
    apply Finset.eq_empty_of_forall_notMem
    intro x hx
    obtain ⟨a, c, d⟩ := (mD x).1 hx
    rcases h0 with h0 | h0
    · have := (mL x).2 ⟨a, fun h => d h.1⟩
      rw [h0] at this; cases this
    · have := (mR x).2 ⟨c, fun h => d h.1⟩
      rw [h0] at this; cases this
  unfold batchBlock
  split
  · -- nothing but the batch is left in the result
    rename_i hrc
    split
    · rename_i hrl
      have hrr : rr = [] := by
        apply List.eq_nil_iff_forall_not_mem.2
        intro x hx
        obtain ⟨a, c⟩ := (mR x).1 hx
        by_cases hc : x ∈ ca
        · have := (mC x).2 ⟨hc, fun h => c ⟨hc, h.1⟩⟩
          rw [hrc] at this; cases this
        · have := (mL x).2 ⟨h6 x a hc, fun h => hc h.1⟩
          rw [hrl] at this; cases this
      refine ⟨_, rfl, by simp [hrc], fun σ hσ hσb => ?_⟩
      rw [readL hrl σ hσ, readR hrr σ hσ, hrc]
      simp [offset_nil, prodAt, noD (.inl hrl), netSum_empty]
    · rename_i hrl
      have hp : rr.Perm rl := by
        rw [List.perm_ext_iff_of_nodup nR nL]
        intro x
        rw [mR, mL]
        constructor
        · rintro ⟨a, c⟩
          by_cases hc : x ∈ ca
          · have := (mC x).2 ⟨hc, fun h => c ⟨hc, h.1⟩⟩
            rw [hrc] at this; cases this
          · exact ⟨h6 x a hc, fun h => hc h.1⟩
        · rintro ⟨a, c⟩
          by_cases hc : x ∈ ca
          · have := (mC x).2 ⟨hc, fun h => c ⟨hc, h.2⟩⟩
            rw [hrc] at this; cases this
          · exact ⟨h5 x a hc, fun h => hc h.1⟩
      obtain ⟨t, ht, htl, hte⟩ := permuteBtas_spec sr nR hp
      beta_reduce at hte
      rw [ht]
      have hd := fun σ => dot_spec sl htl nL σ
      refine ⟨[α * netSum dim rl.toFinset (fun x => env B (unravel (B.map dim) b) x) fun ρ =>
        (slice lp (b * (rl.map dim).prod) (rl.map dim) (rl.map dim).prod).at_ (rl.map ρ) * t.at_ (rl.map ρ)], ?_, by simp [hrc], fun σ hσ hσb => ?_⟩
      · change (dot _ t >>= fun d => Except.ok [α * d]) = _
        rw [hd]; rfl
      · rw [hrc]
        simp only [List.map_nil, offset_nil]
        change α * _ = _
        congr 1
        unfold prodAt
        have hS : dummies la ra ca = rl.toFinset := by
          ext x
          rw [mD, List.mem_toFinset, mL]
          constructor
          · rintro ⟨a, c, d⟩; exact ⟨a, fun h => d h.1⟩
          · rintro ⟨a, c⟩
            by_cases hc : x ∈ ca
            · have := (mC x).2 ⟨hc, fun h => c ⟨hc, h.2⟩⟩
              rw [hrc] at this; cases this
            · exact ⟨a, h5 x a hc, hc⟩
        have h0 := hd σ
        rw [hd (fun x => env B (unravel (B.map dim) b) x)] at h0
        rw [Except.ok.inj h0, hS]
        apply netSum_congr
        intro ρ ρ' e1 e2
        have hin : Below dim rl ρ := fun x hx => (e2 x (by simpa using hx)).1
        have hk : B.map ρ = unravel (B.map dim) b := keep (S := rl.toFinset) (fun x hx hxB => by
          have a := (mL x).1 (by simpa using hx)
          have c := (mB x).1 hxB
          exact a.2 ⟨c.1, c.2.2⟩) (fun x hx => (e1 x hx).1) hσ
        have heq : ρ = ρ' := by
          funext x
          by_cases hx : x ∈ rl.toFinset
          · exact (e2 x hx).2.symm
          · rw [(e1 x hx).1, (e1 x hx).2]
        rw [eL ρ hk hin, hte ρ hin, eR ρ hk fun x hx => hin x (hp.mem_iff.1 hx), heq]
  · rename_i hrc
    split
    · -- one slice is a number
      rename_i hor
      have hd := noD hor
      by_cases hrl : rl = []
      · have hp : rr.Perm rc := by
          rw [List.perm_ext_iff_of_nodup nR nC]
          intro x
          rw [mR, mC]
          constructor
          · rintro ⟨a, c⟩
            by_cases hc : x ∈ ca
            · exact ⟨hc, fun h => c ⟨hc, h.1⟩⟩
            · have := (mL x).2 ⟨h6 x a hc, fun h => hc h.1⟩
              rw [hrl] at this; cases this
          · rintro ⟨a, c⟩
            rcases h4 x a with h | h
            · have := (mL x).2 ⟨h, fun h' => c ⟨h, h'.2⟩⟩
              rw [hrl] at this; cases this
            · exact ⟨h, fun h' => c ⟨h'.2, h⟩⟩
        obtain ⟨t, ht, htl, hte⟩ := permuteBtas_spec sr nR hp
        beta_reduce at hte
        simp only [if_pos hrl, ht]
        obtain ⟨sl', sle'⟩ := scal_spec htl (α * lp.data.getD (b * (rl.map dim).prod) 0)
        refine ⟨_, rfl, ?_, fun σ hσ hσb => ?_⟩
        · rw [yields_data sl', sl'.1, sl'.2]
        · have hbc : Below dim rc σ := fun x hx => hσb x ((mC x).1 hx).1
          rw [yields_data sl']
          have e := sle' (rc.map σ)
          rw [Arr.at_, sl'.2] at e
          rw [e, hte σ hbc, eR σ hσ fun x hx => hbc x (hp.mem_iff.1 hx), readL hrl σ hσ]
          rw [prodAt, hd, netSum_empty]
          ring
      · have hrr := hor.resolve_left hrl
        have hp : rl.Perm rc := by
          rw [List.perm_ext_iff_of_nodup nL nC]
          intro x
          rw [mL, mC]
          constructor
          · rintro ⟨a, c⟩
            by_cases hc : x ∈ ca
            · exact ⟨hc, fun h => c ⟨hc, h.2⟩⟩
            · have := (mR x).2 ⟨h5 x a hc, fun h => hc h.1⟩
              rw [hrr] at this; cases this
          · rintro ⟨a, c⟩
            rcases h4 x a with h | h
            · exact ⟨h, fun h' => c ⟨h, h'.2⟩⟩
            · have := (mR x).2 ⟨h, fun h' => c ⟨h'.2, h⟩⟩
              rw [hrr] at this; cases this
        obtain ⟨t, ht, htl, hte⟩ := permuteBtas_spec sl nL hp
        beta_reduce at hte
        simp only [if_neg hrl, ht]
        obtain ⟨sl', sle'⟩ := scal_spec htl (α * rp.data.getD (b * (rr.map dim).prod) 0)
        refine ⟨_, rfl, ?_, fun σ hσ hσb => ?_⟩
        · rw [yields_data sl', sl'.1, sl'.2]
        · have hbc : Below dim rc σ := fun x hx => hσb x ((mC x).1 hx).1
          rw [yields_data sl']
          have e := sle' (rc.map σ)
          rw [Arr.at_, sl'.2] at e
          rw [e, hte σ hbc, eL σ hσ fun x hx => hbc x (hp.mem_iff.1 hx), readR hrr σ hσ]
          rw [prodAt, hd, netSum_empty]
          ring
    · -- a contraction
      have hpa : ProductAnnot rl rr rc := by
        refine ⟨nL, nR, nC, fun x hx => ?_, fun x hx hc => ?_, fun x hx hc => ?_⟩
        · obtain ⟨a, c⟩ := (mC x).1 hx
          rcases h4 x a with h | h
          · exact .inl ((mL x).2 ⟨h, fun h' => c ⟨h, h'.2⟩⟩)
          · exact .inr ((mR x).2 ⟨h, fun h' => c ⟨h'.2, h⟩⟩)
        · obtain ⟨a, c⟩ := (mL x).1 hx
          have : x ∉ ca := fun h => hc ((mC x).2 ⟨h, fun h' => c ⟨h, h'.2⟩⟩)
          exact (mR x).2 ⟨h5 x a this, fun h => this h.1⟩
        · obtain ⟨a, c⟩ := (mR x).1 hx
          have : x ∉ ca := fun h => hc ((mC x).2 ⟨h, fun h' => c ⟨h, h'.1⟩⟩)
          exact (mL x).2 ⟨h6 x a this, fun h => this h.1⟩
      have hex : ∀ x ∈ rc, x ∈ rl → x ∉ rr := fun x hx hx' hx'' => ((mC x).1 hx).2 ⟨((mL x).1 hx').1, ((mR x).1 hx'').1⟩
      obtain ⟨t, ht, htl, hte⟩ := contractBtas_spec sl sr hpa hex α
      beta_reduce at hte
      rw [ht]
      refine ⟨_, rfl, ?_, fun σ hσ hσb => ?_⟩
      · rw [yields_data htl, htl.1, htl.2]
      · have hbc : Below dim rc σ := fun x hx => hσb x ((mC x).1 hx).1
        rw [yields_data htl]
        have e := hte σ hbc
        rw [Arr.at_, htl.2] at e
        rw [e]
        congr 1
        have hS : dummies rl rr rc = dummies la ra ca := by
          ext x
          rw [mD]
          simp only [dummies, Finset.mem_sdiff, Finset.mem_union, List.mem_toFinset, mL, mR, mC]
          constructor
          · rintro ⟨a | a, c⟩
            · have : x ∉ ca := fun h => c ⟨h, fun h' => a.2 ⟨h, h'.2⟩⟩
              exact ⟨a.1, h5 x a.1 this, this⟩
            · have : x ∉ ca := fun h => c ⟨h, fun h' => a.2 ⟨h, h'.1⟩⟩
              exact ⟨h6 x a.1 this, a.1, this⟩
          · rintro ⟨a, c, d⟩
            exact ⟨.inl ⟨a, fun h => d h.1⟩, fun h => d h.1⟩
        unfold prodAt
        rw [hS]
        apply netSum_congr
        intro ρ ρ' e1 e2
        have heq : ρ = ρ' := by
          funext x
          by_cases hx : x ∈ dummies la ra ca
          · exact (e2 x hx).2.symm
          · rw [(e1 x hx).1, (e1 x hx).2]
        have hk : B.map ρ = unravel (B.map dim) b := keep (S := dummies la ra ca) (fun x hx hxB => ((mD x).1 hx).2.2 ((mB x).1 hxB).1) (fun x hx => (e1 x hx).1) hσ
        have hin : ∀ x, x ∈ la ∨ x ∈ ra → ρ x < dim x := by
          intro x hx
          by_cases hxd : x ∈ dummies la ra ca
          · exact (e2 x hxd).1
          · rw [(e1 x hxd).1]
            apply hσb
            by_contra hc
            rcases hx with hx | hx
            · exact hxd ((mD x).2 ⟨hx, h5 x hx hc, hc⟩)
            · exact hxd ((mD x).2 ⟨h6 x hx hc, hx, hc⟩)
        rw [eL ρ hk fun x hx => hin x (.inl ((mL x).1 hx).1), eR ρ hk fun x hx => hin x (.inr ((mR x).1 hx).1), heq]

theorem flatten_getD {blocks : List (List K)} {n : Nat} (h : ∀ x ∈ blocks, x.length = n) {b k : Nat} (hb : b < blocks.length) (hk : k < n) :
    blocks.flatten.getD (b * n + k) 0 = (blocks[b]).getD k 0 := by
  induction blocks generalizing b with
  | nil => cases hb
  | cons x blocks ih =>
    have hx := h x (by simp)
    cases b with
    | zero => simp [List.getD_eq_getElem?_getD, List.getElem?_append_left (show k < x.length by omega)]
    | succ b =>
      have := ih (fun y hy => h y (by simp [hy])) (b := b) (by simpa using hb)
      rw [List.flatten_cons, List.getElem_cons_succ, ← this, List.getD_eq_getElem?_getD, List.getD_eq_getElem?_getD,
        List.getElem?_append_right (by rw [hx, Nat.succ_mul]; omega), hx]
      congr 2
      rw [Nat.succ_mul]; omega

theorem mapM_ok {A B E : Type} {f : A → Except E B} {g : A → B} : ∀ {xs : List A}, (∀ x ∈ xs, f x = .ok (g x)) → xs.mapM f = .ok (xs.map g)
  | [], _ => rfl
  | x :: xs, h => by
    rw [List.mapM_cons, h x (by simp), mapM_ok (g := g) fun y hy => h y (by simp [hy])]; rfl

/-- **Contraction with batch axes is the sum over the labels that are not in the result.** -/
theorem batchedContract_spec (ha : l.Labelled dim la) (hb : r.Labelled dim ra) (hw : ProductAnnot la ra ca) (α : K) :
    Yields dim ca (batchedContract α l la r ra ca (batchIndices la ra ca)) fun σ => α * prodAt dim l la r ra ca σ := by
  have hw' := hw
  obtain ⟨h1, h2, h3, h4, h5, h6⟩ := hw
  have nB : (batchIndices la ra ca).Nodup := h3.filter _
  have pl := front_perm nB h1 fun x hx => (mem_batch.1 hx).2.1
  have pr := front_perm nB h2 fun x hx => (mem_batch.1 hx).2.2
  have pc := front_perm nB h3 fun x hx => (mem_batch.1 hx).1
  obtain ⟨lp, hlp, hll, hle⟩ := permuteBtas_spec ha h1 pl
  obtain ⟨rp, hrp, hrl, hre⟩ := permuteBtas_spec hb h2 pr
  beta_reduce at hle hre
  have hblk := fun b (hb : b < ((batchIndices la ra ca).map dim).prod) => batchBlock_spec (l := l) (r := r) hw' hll (fun σ hσ => hle σ fun x hx => hσ x (pl.mem_iff.2 hx)) hrl
    (fun σ hσ => hre σ fun x hx => hσ x (pr.mem_iff.2 hx)) α hb
  choose! g hg using hblk
  have hm : (List.range ((batchIndices la ra ca).map dim).prod).mapM (batchBlock α lp rp (restOf (batchIndices la ra ca) la) (restOf (batchIndices la ra ca) ra) (restOf (batchIndices la ra ca) ca)
        ((restOf (batchIndices la ra ca) la).map dim) ((restOf (batchIndices la ra ca) la).map dim).prod
        ((restOf (batchIndices la ra ca) ra).map dim) ((restOf (batchIndices la ra ca) ra).map dim).prod
        ((restOf (batchIndices la ra ca) ca).map dim).prod) = .ok ((List.range ((batchIndices la ra ca).map dim).prod).map g) :=
    mapM_ok fun b hb => (hg b (List.mem_range.1 hb)).1
  have hrc : ∀ x ∈ restOf (batchIndices la ra ca) ca, x ∈ restOf (batchIndices la ra ca) la ∨ x ∈ restOf (batchIndices la ra ca) ra := by
    intro x hx
    rw [mem_rest] at hx
    rw [mem_rest, mem_rest]
    exact (h4 x hx.1).imp (⟨·, hx.2⟩) (⟨·, hx.2⟩)
  have hbc : batchedContract α l la r ra ca (batchIndices la ra ca)
      = permuteBtas ⟨(batchIndices la ra ca ++ restOf (batchIndices la ra ca) ca).map dim, ((List.range ((batchIndices la ra ca).map dim).prod).map g).flatten⟩
        (batchIndices la ra ca ++ restOf (batchIndices la ra ca) ca) ca := by
    unfold batchedContract
    simp only [hlp, hrp, bind, Except.bind]
    rw [batchCount_spec hll.2 hrl.2]
    simp only [tailExtents_spec hll.2, tailExtents_spec hrl.2]
    rw [resultExtents_spec hrc]
    simp only [foldl_mul, one_mul]
    rw [hm]
    simp only [List.map_append, hll.2]
    rw [List.take_left' (by simp)]
  rw [hbc]
  have hlen : ∀ x ∈ (List.range ((batchIndices la ra ca).map dim).prod).map g, x.length = ((restOf (batchIndices la ra ca) ca).map dim).prod := by
    intro x hx
    obtain ⟨b, hb, rfl⟩ := List.mem_map.1 hx
    exact (hg b (List.mem_range.1 hb)).2.1
  have hlab : (⟨(batchIndices la ra ca ++ restOf (batchIndices la ra ca) ca).map dim, ((List.range ((batchIndices la ra ca).map dim).prod).map g).flatten⟩ : Arr K).Labelled dim
      (batchIndices la ra ca ++ restOf (batchIndices la ra ca) ca) := by
    refine ⟨?_, rfl⟩
    simp only [Arr.WF, List.length_flatten, List.map_append, List.prod_append]
    rw [List.map_congr_left (g := fun _ => ((restOf (batchIndices la ra ca) ca).map dim).prod) hlen]
    simp [Function.comp_def, List.sum_replicate]
  obtain ⟨t, ht, htl, hte⟩ := permuteBtas_spec hlab (pc.nodup_iff.1 h3) pc.symm
  beta_reduce at hte
  refine ⟨t, ht, htl, fun σ hσ => ?_⟩
  rw [hte σ hσ]
  have hbB : InRange ((batchIndices la ra ca).map σ) ((batchIndices la ra ca).map dim) := inRange_map fun x hx => hσ x (mem_batch.1 hx).1
  have hbC : InRange ((restOf (batchIndices la ra ca) ca).map σ) ((restOf (batchIndices la ra ca) ca).map dim) := inRange_map fun x hx => hσ x (mem_rest.1 hx).1
  have ho := offset_lt hbB
  simp only [Arr.at_]
  rw [List.map_append, List.map_append, offset_append hbB]
  rw [flatten_getD hlen (by simpa using ho) (offset_lt hbC)]
  simp only [List.getElem_map, List.getElem_range]
  exact (hg _ ho).2.2 σ (unravel_offset hbB).symm hσ

end

end SeQuant.Dense
