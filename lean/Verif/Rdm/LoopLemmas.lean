import Verif.Rdm.Loops

/-!
# Lemmas about `num_closed_loops`
-/

namespace SeQuant.Rdm

variable {α : Type} [DecidableEq α]

theorem whereLoop_notin (x : α) : ∀ (l : List α) (i h : Nat) (o : Option Nat), x ∉ l → whereLoop x l i h o = (h, o)
  | [], _, _, _, _ => rfl
  | a :: l, i, h, o, hx => by
    rw [List.mem_cons, not_or] at hx
    rw [whereLoop, if_neg hx.1, whereLoop_notin x l _ _ _ hx.2]

theorem whereLoop_nodup (x : α) : ∀ (l : List α) (k i h : Nat) (o : Option Nat), l.Nodup → l[k]? = some x →
    whereLoop x l i h o = (h + 1, some (i + k))
  | [], k, _, _, _, _, hk => by simp at hk
  | a :: l, 0, i, h, o, hn, hk => by
    simp only [List.getElem?_cons_zero, Option.some.injEq] at hk
    subst hk
    rw [whereLoop, if_pos rfl, whereLoop_notin _ _ _ _ _ (List.nodup_cons.1 hn).1]
    rfl
  | a :: l, k + 1, i, h, o, hn, hk => by
    rw [List.getElem?_cons_succ] at hk
    have hne : x ≠ a := fun he => (List.nodup_cons.1 hn).1 (he ▸ List.mem_of_getElem? hk)
    rw [whereLoop, if_neg hne, whereLoop_nodup x l k _ _ _ (List.nodup_cons.1 hn).2 hk, Nat.add_right_comm, Nat.add_assoc]

theorem whereSame_none (c : Bool) (x : α) (l : List α) (h : x ∉ l) : whereSame c x l = .ok none := by
  simp [whereSame, whereLoop_notin x l 0 0 none h]

theorem whereSame_some (c : Bool) (x : α) (l : List α) (k : Nat) (hn : l.Nodup) (h : l[k]? = some x) : whereSame c x l = .ok (some k) := by
  simp [whereSame, whereLoop_nodup x l k 0 0 none hn h]

theorem getElem?_ofFn' {n : Nat} {β : Type} (F : Fin n → β) (i : Fin n) : (List.ofFn F)[i.1]? = some (F i) := by
  rw [List.getElem?_ofFn, dif_pos i.2]

theorem whereSame_ofFn (c : Bool) {n : Nat} (F : Fin n → α) (hF : Function.Injective F) (i : Fin n) :
    whereSame c (F i) (List.ofFn F) = .ok (some i.1) :=
  whereSame_some c _ _ _ (List.nodup_ofFn.2 hF) (getElem?_ofFn' F i)

theorem at'_ofFn {n : Nat} {β : Type} (F : Fin n → β) (i : Fin n) : at' (List.ofFn F) i.1 = .ok (F i) := by
  rw [at', getElem?_ofFn']

variable {n : Nat} (U L : Fin n → α) (σ p : Equiv.Perm (Fin n))

/-- The chain that starts below `k` and ends at `e`. -/
theorem follow_closed (c : Bool) (hU : Function.Injective U) (hL : Function.Injective L) (e : Fin n) :
    ∀ (m : Nat) (k : Fin n) (fuel : Nat) (il : List α), (σ ^ m) k = e → (∀ m' < m, (σ ^ m') k ≠ e) → m < fuel →
      follow c (List.ofFn U) (List.ofFn L) (List.ofFn fun j => U (p j)) (List.ofFn fun j => L (σ (p j))) (L e) fuel (L k) il =
        .ok (true, il ++ (List.range m).map fun t => L ((σ ^ (t + 1)) k)) := by
  intro m
  induction m with
  | zero =>
    intro k fuel il he _ hf
    obtain ⟨f, rfl⟩ : ∃ f, fuel = f + 1 := ⟨fuel - 1, by omega⟩
    have : k = e := by simpa using he
    simp [follow, this]
  | succ m ih =>
    intro k fuel il he hm hf
    obtain ⟨f, rfl⟩ : ∃ f, fuel = f + 1 := ⟨fuel - 1, by omega⟩
    have hne : L e ≠ L k := fun h => hm 0 (Nat.succ_pos m) (by simpa using (hL h).symm)
    have h1 : whereSame c (U k) (List.ofFn fun j => U (p j)) = .ok (some (p.symm k).1) := by
      have := whereSame_ofFn c (fun j => U (p j)) (hU.comp p.injective) (p.symm k)
      simpa using this
    have h2 : at' (List.ofFn fun j => L (σ (p j))) (p.symm k).1 = .ok (L (σ k)) := by
      have := at'_ofFn (fun j => L (σ (p j))) (p.symm k)
      simpa using this
    rw [follow, if_neg hne]
    simp only [whereSame_ofFn c L hL k, at'_ofFn U k, h1, h2, bind, Except.bind]
    rw [ih (σ k) f (il ++ [L (σ k)]) (by rw [← he, pow_succ, Equiv.Perm.mul_apply]) (fun m' hm' => by
      have := hm (m' + 1) (by omega)
      rwa [pow_succ, Equiv.Perm.mul_apply] at this) (by omega)]
    rw [List.range_succ_eq_map, List.map_cons, List.map_map, List.append_assoc]
    simp only [zero_add, pow_one, List.singleton_append, Except.ok.injEq, Prod.mk.injEq, true_and, List.append_cancel_left_eq,
      List.cons.injEq]
    refine List.map_congr_left fun t _ => ?_
    simp only [Function.comp_apply, Nat.succ_eq_add_one]
    rw [pow_succ σ (t + 1), Equiv.Perm.mul_apply]

/-- What the loop adds to `in_loop` is the cycle of `i`, each element once. -/
theorem orbit_list (i : Fin n) : ∃ m, (σ ^ (m + 1)) i = i ∧ (∀ m' < m, (σ ^ (m' + 1)) i ≠ i) ∧ m < n ∧
    ((List.range m).map (fun t => (σ ^ (t + 2)) i) ++ [σ i]).Nodup ∧
    ∀ x, x ∈ (List.range m).map (fun t => (σ ^ (t + 2)) i) ++ [σ i] ↔ σ.SameCycle i x := by
  have hex : ∃ m, (σ ^ (m + 1)) i = i := by
    refine ⟨orderOf σ - 1, ?_⟩
    rw [Nat.sub_add_cancel (orderOf_pos σ), pow_orderOf_eq_one]
    rfl
  classical
  have hm := Nat.find_spec hex
  have hmin : ∀ m' < Nat.find hex, (σ ^ (m' + 1)) i ≠ i := fun m' h => Nat.find_min hex h
  generalize Nat.find hex = m at hm hmin
  have hinj : ∀ t t', t < t' → t' ≤ m → (σ ^ (t + 1)) i ≠ (σ ^ (t' + 1)) i := by
    intro t t' htt ht' he
    obtain ⟨d, rfl⟩ : ∃ d, t' = t + (d + 1) := ⟨t' - t - 1, by omega⟩
    rw [show t + (d + 1) + 1 = (t + 1) + (d + 1) by omega, pow_add σ (t + 1), Equiv.Perm.mul_apply] at he
    exact hmin d (by omega) ((σ ^ (t + 1)).injective he).symm
  have hlist : ((List.range m).map (fun t => (σ ^ (t + 2)) i) ++ [σ i]).Perm ((List.range (m + 1)).map fun t => (σ ^ (t + 1)) i) := by
    rw [List.range_succ_eq_map, List.map_cons, List.map_map]
    exact List.perm_append_singleton _ _
  have hnd : ((List.range (m + 1)).map fun t => (σ ^ (t + 1)) i).Nodup := by
    rw [List.nodup_iff_injective_getElem]
    intro a b hab
    have ha := a.2
    have hb := b.2
    simp only [List.length_map, List.length_range] at ha hb
    simp only [List.getElem_map, List.getElem_range] at hab
    rcases Nat.lt_trichotomy a.1 b.1 with h | h | h
    · exact absurd hab (hinj _ _ h (by omega))
    · exact Fin.ext h
    · exact absurd hab.symm (hinj _ _ h (by omega))
  refine ⟨m, hm, hmin, ?_, hlist.nodup_iff.2 hnd, fun x => ?_⟩
  · have := hnd.length_le_card
    simp only [List.length_map, List.length_range, Fintype.card_fin] at this
    omega
  · rw [hlist.mem_iff, List.mem_map]
    constructor
    · rintro ⟨t, _, rfl⟩
      exact ⟨((t + 1 : Nat) : Int), by rw [zpow_natCast]⟩
    · intro h
      obtain ⟨k, -, hk⟩ := h.exists_pow_eq'
      have hmod : (σ ^ (k % (m + 1))) i = x := by
        rw [← hk]
        conv_rhs => rw [← Nat.mod_add_div k (m + 1), pow_add, Equiv.Perm.mul_apply, pow_mul]
        congr 1
        induction k / (m + 1) with
        | zero => simp
        | succ q ih => rw [pow_succ, Equiv.Perm.mul_apply, hm, ← ih]
      have hlt : k % (m + 1) < m + 1 := Nat.mod_lt k (Nat.succ_pos m)
      by_cases h0 : k % (m + 1) = 0
      · rw [h0] at hmod
        exact ⟨m, by simp, by rw [hm]; simpa using hmod⟩
      · refine ⟨k % (m + 1) - 1, List.mem_range.2 (by omega), ?_⟩
        rw [Nat.sub_add_cancel (by omega), hmod]

/-- What holds when the first `i` pairs are done. -/
structure Done (i : Nat) (st : List α × Nat) : Prop where
  nodup : st.1.Nodup
  mem : ∀ a, a ∈ st.1 ↔ ∃ j : Fin n, j.1 < i ∧ ∃ x, σ.SameCycle (p j) x ∧ a = L x
  count : st.2 = Nat.card {q : Quotient (Equiv.Perm.SameCycle.setoid σ) // ∃ j : Fin n, j.1 < i ∧ q = Quotient.mk _ (p j)}

theorem done_step (c : Bool) (fuel : Nat) (hU : Function.Injective U) (hL : Function.Injective L) (hf : n < fuel) (st : List α × Nat)
    (i : Fin n) (h : Done L σ p i.1 st) :
    ∃ st', loopBody c fuel (List.ofFn U) (List.ofFn L) (List.ofFn fun j => U (p j)) (List.ofFn fun j => L (σ (p j))) st i.1 = .ok st' ∧
      Done L σ p (i.1 + 1) st' := by
  have hlt : ∀ j : Fin n, j.1 < i.1 + 1 ↔ j.1 < i.1 ∨ j = i := fun j => by
    rw [Fin.ext_iff]
    omega
  have hlen : ¬ (c && !decide ((List.ofFn fun j => U (p j)).length = (List.ofFn fun j => L (σ (p j))).length)) = true := by simp
  rw [loopBody, if_neg hlen, at'_ofFn]
  simp only [bind, Except.bind]
  by_cases hin : L (σ (p i)) ∈ st.1
  · obtain ⟨k, hk⟩ := List.getElem?_of_mem hin
    rw [whereSame_some c _ _ k h.nodup hk]
    obtain ⟨j, hj, x, hjx, hx⟩ := (h.mem _).1 hin
    have hx' : σ (p i) = x := hL hx
    have hsame : σ.SameCycle (p j) (p i) := by
      rw [← hx'] at hjx
      exact Equiv.Perm.sameCycle_apply_right.1 hjx
    refine ⟨st, rfl, h.nodup, fun a => (h.mem a).trans ⟨?_, ?_⟩, ?_⟩
    · rintro ⟨j, hj, r⟩
      exact ⟨j, by omega, r⟩
    · rintro ⟨j', hj', y, hy, rfl⟩
      rcases (hlt j').1 hj' with h' | rfl
      · exact ⟨j', h', y, hy, rfl⟩
      · exact ⟨j, hj, y, hsame.trans hy, rfl⟩
    · rw [h.count]
      refine congrArg Nat.card (congrArg Subtype (funext fun q => propext ⟨?_, ?_⟩))
      · rintro ⟨j, hj, r⟩
        exact ⟨j, by omega, r⟩
      · rintro ⟨j', hj', rfl⟩
        rcases (hlt j').1 hj' with h' | rfl
        · exact ⟨j', h', rfl⟩
        · exact ⟨j, hj, Quotient.sound hsame.symm⟩
  · rw [whereSame_none c _ _ hin]
    obtain ⟨m, hm, hmin, hmn, hnd, hmem⟩ := orbit_list σ (p i)
    have h2 := follow_closed U L σ p c hU hL (p i) m (σ (p i)) fuel st.1
      (by rw [← Equiv.Perm.mul_apply, ← pow_succ]; exact hm)
      (fun m' h' => by rw [← Equiv.Perm.mul_apply, ← pow_succ]; exact hmin m' h') (by omega)
    simp only [at'_ofFn, whereSame_ofFn c U hU, h2, if_true]
    have hadd : (List.range m).map (fun t => L ((σ ^ (t + 1)) (σ (p i)))) ++ [L (σ (p i))] =
        ((List.range m).map (fun t => (σ ^ (t + 2)) (p i)) ++ [σ (p i)]).map L := by
      rw [List.map_append, List.map_map]
      rfl
    have hnew : ∀ j : Fin n, j.1 < i.1 → ¬ σ.SameCycle (p j) (p i) := fun j hj hs =>
      hin ((h.mem _).2 ⟨j, hj, _, Equiv.Perm.sameCycle_apply_right.2 hs, rfl⟩)
    refine ⟨_, rfl, ?_, ?_, ?_⟩
    · simp only [List.append_assoc, hadd]
      refine List.nodup_append.2 ⟨h.nodup, hnd.map hL, ?_⟩
      rintro a ha b hb rfl
      obtain ⟨x, hx, rfl⟩ := List.mem_map.1 hb
      obtain ⟨j, hj, y, hy, hxy⟩ := (h.mem _).1 ha
      rw [hL hxy] at hx
      exact hnew j hj (hy.trans ((hmem y).1 hx).symm)
    · intro a
      simp only [List.append_assoc, hadd, List.mem_append (s := st.1), List.mem_map, h.mem, hmem]
      constructor
      · rintro (⟨j, hj, r⟩ | ⟨x, hx, rfl⟩)
        · exact ⟨j, by omega, r⟩
        · exact ⟨i, by omega, x, hx, rfl⟩
      · rintro ⟨j, hj, x, hx, rfl⟩
        rcases (hlt j).1 hj with h' | rfl
        · exact .inl ⟨j, h', x, hx, rfl⟩
        · exact .inr ⟨x, hx, rfl⟩
    · simp only [h.count]
      classical
      have hset : {q : Quotient (Equiv.Perm.SameCycle.setoid σ) | ∃ j : Fin n, j.1 < i.1 + 1 ∧ q = Quotient.mk _ (p j)} =
          insert (Quotient.mk _ (p i)) {q | ∃ j : Fin n, j.1 < i.1 ∧ q = Quotient.mk _ (p j)} := by
        ext q
        simp only [Set.mem_ofPred_eq, Set.mem_insert_iff, hlt]
        constructor
        · rintro ⟨j, h' | rfl, rfl⟩
          · exact .inr ⟨j, h', rfl⟩
          · exact .inl rfl
        · rintro (rfl | ⟨j, h', rfl⟩)
          · exact ⟨i, .inr rfl, rfl⟩
          · exact ⟨j, .inl h', rfl⟩
      have hni : Quotient.mk (Equiv.Perm.SameCycle.setoid σ) (p i) ∉
          {q : Quotient (Equiv.Perm.SameCycle.setoid σ) | ∃ j : Fin n, j.1 < i.1 ∧ q = Quotient.mk _ (p j)} := by
        rintro ⟨j, hj, hq⟩
        exact hnew j hj (Quotient.exact hq).symm
      have := Set.ncard_insert_of_notMem hni (Set.toFinite _)
      rw [← hset] at this
      exact this.symm

theorem done_foldl (c : Bool) (fuel : Nat) (hU : Function.Injective U) (hL : Function.Injective L) (hf : n < fuel) :
    ∀ i, i ≤ n → ∃ st, (List.range i).foldlM (loopBody c fuel (List.ofFn U) (List.ofFn L) (List.ofFn fun j => U (p j))
      (List.ofFn fun j => L (σ (p j)))) ([], 0) = .ok st ∧ Done L σ p i st
  | 0, _ => ⟨([], 0), rfl, List.nodup_nil, fun a => by simp, by simp⟩
  | i + 1, hi => by
    obtain ⟨st, hst, hd⟩ := done_foldl c fuel hU hL hf i (by omega)
    obtain ⟨st', hst', hd'⟩ := done_step U L σ p c fuel hU hL hf st ⟨i, by omega⟩ hd
    refine ⟨st', ?_, hd'⟩
    rw [List.range_succ, List.foldlM_append, hst]
    simp only [bind, Except.bind, List.foldlM_cons, List.foldlM_nil, hst', pure, Except.pure]

/-- The result is the number of cycles. -/
theorem numClosedLoops_ofFn (c : Bool) (fuel : Nat) (hU : Function.Injective U) (hL : Function.Injective L) (hf : n < fuel) :
    numClosedLoops c fuel (List.ofFn U) (List.ofFn L) (List.ofFn fun j => U (p j)) (List.ofFn fun j => L (σ (p j))) =
      .ok (Nat.card (Quotient (Equiv.Perm.SameCycle.setoid σ))) := by
  obtain ⟨st, hst, hd⟩ := done_foldl U L σ p c fuel hU hL hf n le_rfl
  have hcount : st.2 = Nat.card (Quotient (Equiv.Perm.SameCycle.setoid σ)) := by
    rw [hd.count]
    refine Nat.card_congr ⟨fun q => q.1, fun q => ⟨q, ?_⟩, fun _ => rfl, fun _ => rfl⟩
    refine Quotient.inductionOn q fun x => ⟨p.symm x, (p.symm x).2, by simp⟩
  have hlen : st.1.length ≤ (List.ofFn L).length := by
    refine (List.Nodup.subperm hd.nodup fun a ha => ?_).length_le
    obtain ⟨_, _, x, _, rfl⟩ := (hd.mem a).1 ha
    exact List.mem_ofFn.2 ⟨x, rfl⟩
  have hres : st.2 ≤ (List.ofFn L).length := by
    rw [hcount, List.length_ofFn]
    have := Nat.card_le_card_of_surjective (Quotient.mk (Equiv.Perm.SameCycle.setoid σ)) Quotient.mk_surjective
    simpa using this
  rw [numClosedLoops, List.length_ofFn, hst]
  obtain ⟨a, b⟩ := st
  simp only [bind, Except.bind]
  simp only at hlen hres hcount
  rw [if_neg (by simpa using fun _ => by simpa using hlen), if_neg (by simpa using fun _ => by simpa using hres), hcount]

end SeQuant.Rdm
