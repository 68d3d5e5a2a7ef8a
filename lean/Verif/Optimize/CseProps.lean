import Verif.Optimize.DpOptimal

/-!
# C31: with sharing of common sub-networks the sequence is that of a contraction tree as well
-/

namespace SeQuant.Optimize

open SeQuant.Bits

variable {w : Nat}

/-- What reconstruction needs of an entry. -/
def Linked (conn : BitVec w → Bool) (s : AState w) (n : BitVec w) : Prop :=
  (∃ v, s.ops = some v) ∧ (popcount n.toNat = 1 ∨ (Split n s.lp s.rp ∧ conn s.lp = true ∧ conn s.rp = true))

theorem addMax_fold (f : Nat → ℚ) (l : List Nat) (c : ℚ) : ∃ v, l.foldl (fun c id => addMax c (some (f id))) (some c) = some v := by
  induction l generalizing c with
  | nil => exact ⟨c, rfl⟩
  | cons x l ih => exact ih (c + f x)

/-- After all bipartitions the accumulator holds an accepted one, if there is any. -/
theorem relax_links (cost : BitVec w → BitVec w → BitVec w → ℚ) (cse : Bool) (ctx : AContext w) (conn : BitVec w → Bool) (st : BitVec w → AState w)
    (n : BitVec w) (L : List (BitVec w × BitVec w))
    (hv : ∀ p ∈ L, p.1 ≠ 0 ∧ p.2 ≠ 0 ∧ conn p.1 = true ∧ conn p.2 = true → (∃ v, (st p.1).ops = some v) ∧ ∃ v, (st p.2).ops = some v) (acc : AState w) :
    let res := L.foldl (fun acc p => if p.1 ≠ 0 ∧ p.2 ≠ 0 ∧ conn p.1 ∧ conn p.2 then
      (additive cost cse).relax ctx n p.1 p.2 (st p.1) (st p.2) acc else acc) acc
    ((∃ v, acc.ops = some v) → ∃ v, res.ops = some v) ∧
    ((∃ p ∈ L, p.1 ≠ 0 ∧ p.2 ≠ 0 ∧ conn p.1 = true ∧ conn p.2 = true) → ∃ v, res.ops = some v) ∧
    (res = acc ∨ ∃ p ∈ L, (p.1 ≠ 0 ∧ p.2 ≠ 0 ∧ conn p.1 = true ∧ conn p.2 = true) ∧ res.lp = p.1 ∧ res.rp = p.2) := by
  induction L generalizing acc with
  | nil => exact ⟨id, by simp, .inl rfl⟩
  | cons p L ih =>
    simp only [List.foldl_cons]
    by_cases hok : p.1 ≠ 0 ∧ p.2 ≠ 0 ∧ conn p.1 = true ∧ conn p.2 = true
    · rw [if_pos hok]
      obtain ⟨⟨v1, e1⟩, v2, e2⟩ := hv p (by simp) hok
      have hrelax : ∃ v sub, (additive cost cse).relax ctx n p.1 p.2 (st p.1) (st p.2) acc = (if leMax (some v) acc.ops then ⟨some v, p.1, p.2, sub⟩ else acc) := by
        cases cse with
        | false => exact ⟨cost n p.1 p.2 + v1 + v2, acc.subnets, by simp [additive, e1, e2, addMax]⟩
        | true =>
          obtain ⟨v, hv⟩ := addMax_fold ctx.metaCosts (setUnion (st p.1).subnets (st p.2).subnets) (cost n p.1 p.2)
          exact ⟨v, setUnion (st p.1).subnets (st p.2).subnets, by simp only [additive, if_true, hv]⟩
      obtain ⟨v, sub, hr⟩ := hrelax
      rw [hr]
      have hsome : ∃ u, (if leMax (some v) acc.ops then (⟨some v, p.1, p.2, sub⟩ : AState w) else acc).ops = some u := by
        cases h : acc.ops with
        | none => exact ⟨v, by simp [leMax]⟩
        | some u =>
          by_cases hle : leMax (some v) (some u) = true
          · exact ⟨v, by rw [if_pos hle]⟩
          · exact ⟨u, by rw [if_neg hle, h]⟩
      obtain ⟨i1, i2, i3⟩ := ih (fun q hq => hv q (by simp [hq])) (if leMax (some v) acc.ops then ⟨some v, p.1, p.2, sub⟩ else acc)
      refine ⟨fun _ => i1 hsome, fun _ => i1 hsome, ?_⟩
      rcases i3 with h | ⟨q, hq, h⟩
      · by_cases hle : leMax (some v) acc.ops = true
        · right
          refine ⟨p, by simp, hok, ?_⟩
          rw [h, if_pos hle]
          exact ⟨rfl, rfl⟩
        · left
          rw [h, if_neg hle]
      · exact .inr ⟨q, by simp [hq], h⟩
    · rw [if_neg hok]
      obtain ⟨i1, i2, i3⟩ := ih (fun q hq => hv q (by simp [hq])) acc
      refine ⟨i1, ?_, ?_⟩
      · rintro ⟨q, hq, h⟩
        rcases List.mem_cons.mp hq with rfl | hq
        · exact absurd h hok
        · exact i2 ⟨q, hq, h⟩
      · rcases i3 with h | ⟨q, hq, h⟩
        · exact .inl h
        · exact .inr ⟨q, by simp [hq], h⟩

theorem finalize_same (cost : BitVec w → BitVec w → BitVec w → ℚ) (cse : Bool) (ctx : AContext w) (n : BitVec w) (st : BitVec w → AState w) (k : BitVec w) :
    (((additive cost cse).finalize ctx n st).2 k).ops = (st k).ops ∧ (((additive cost cse).finalize ctx n st).2 k).lp = (st k).lp ∧
      (((additive cost cse).finalize ctx n st).2 k).rp = (st k).rp := by
  cases cse with
  | false => simp [additive]
  | true =>
    simp only [additive]
    by_cases h : k = n
    · subst h; simp
    · simp [h]

/-- The table, for additive models with or without sharing. -/
theorem solve_linked (cost : BitVec w → BitVec w → BitVec w → ℚ) (cse : Bool) (conn : BitVec w → Bool) (nt : Nat) (hnt : nt ≤ w) (hs : Splittable conn nt)
    (ctx : AContext w) : ∀ n : BitVec w, n ≠ 0 → n.toNat < 2 ^ nt →
      (conn n = true → Linked conn ((solve (additive cost cse) conn nt ctx AState.dflt).2 n) n) ∧
      (conn n = false → popcount n.toNat ≠ 1 ∧ ((solve (additive cost cse) conn nt ctx AState.dflt).2 n).lp = 0 ∧
        ((solve (additive cost cse) conn nt ctx AState.dflt).2 n).rp = 0) := by
  have hw : 2 ^ nt ≤ 2 ^ w := Nat.pow_le_pow_right (by omega) hnt
  have hpos : 0 < 2 ^ nt := Nat.pow_pos (by omega)
  have key : ∀ k, k + 1 ≤ 2 ^ nt → ∀ n : BitVec w, n ≠ 0 →
      let st := ((List.range k).foldl (fun cs i => solveStep (additive cost cse) conn cs (i + 1)) (ctx, fun _ => AState.dflt)).2
      (n.toNat ≤ k → conn n = true → Linked conn (st n) n) ∧
      (n.toNat ≤ k → conn n = false → popcount n.toNat ≠ 1 ∧ (st n).lp = 0 ∧ (st n).rp = 0) ∧
      (k < n.toNat → st n = AState.dflt) := by
    intro k
    induction k with
    | zero =>
      intro _ n h0
      have : n.toNat ≠ 0 := fun h => h0 (BitVec.eq_of_toNat_eq (by simpa using h))
      exact ⟨fun h => by omega, fun h => by omega, fun _ => rfl⟩
    | succ k ih =>
      intro hk n h0
      have ih := ih (by omega)
      simp only [List.range_succ, List.foldl_append, List.foldl_cons, List.foldl_nil]
      generalize (List.range k).foldl (fun cs i => solveStep (additive cost cse) conn cs (i + 1)) (ctx, fun _ => AState.dflt) = cs at ih
      simp only at ih
      have hto : (BitVec.ofNat w (k + 1)).toNat = k + 1 := by rw [BitVec.toNat_ofNat, Nat.mod_eq_of_lt (by omega)]
      have hne : BitVec.ofNat w (k + 1) ≠ 0 := by
        intro h
        have := congrArg BitVec.toNat h
        rw [hto] at this
        simp at this
      -- other entries keep what reconstruction needs
      have reduce : ∀ st' : BitVec w → AState w, (∀ m, m ≠ BitVec.ofNat w (k + 1) → st' m = cs.2 m) →
          (conn (BitVec.ofNat w (k + 1)) = true → Linked conn (st' (BitVec.ofNat w (k + 1))) (BitVec.ofNat w (k + 1))) →
          (conn (BitVec.ofNat w (k + 1)) = false → popcount (BitVec.ofNat w (k + 1)).toNat ≠ 1 ∧ (st' (BitVec.ofNat w (k + 1))).lp = 0 ∧ (st' (BitVec.ofNat w (k + 1))).rp = 0) →
          (n.toNat ≤ k + 1 → conn n = true → Linked conn (st' n) n) ∧
          (n.toNat ≤ k + 1 → conn n = false → popcount n.toNat ≠ 1 ∧ (st' n).lp = 0 ∧ (st' n).rp = 0) ∧
          (k + 1 < n.toNat → st' n = AState.dflt) := by
        intro st' h1 h2 h3
        by_cases hn : n = BitVec.ofNat w (k + 1)
        · subst hn
          exact ⟨fun _ => h2, fun _ => h3, fun h => by rw [hto] at h; omega⟩
        · have hnk : n.toNat ≠ k + 1 := by intro h; apply hn; apply BitVec.eq_of_toNat_eq; rw [hto, h]
          rw [h1 n hn]
          obtain ⟨a, b, c⟩ := ih n h0
          exact ⟨fun h => a (by omega), fun h => b (by omega), fun h => c (by omega)⟩
      unfold solveStep
      simp only
      by_cases hp : popcount (BitVec.ofNat w (k + 1)).toNat = 1
      · rw [if_pos hp]
        refine reduce _ (fun m hm => by simp [Function.update_of_ne hm]) (fun _ => ?_) (fun hc => ?_)
        · simp only [Function.update_self]
          exact ⟨⟨0, rfl⟩, .inl hp⟩
        · exfalso
          obtain ⟨i, hi, hb⟩ := (popcount_eq_one_iff _).mp hp
          have : i < nt := by
            have h := hto
            rw [hb, bit, BitVec.toNat_twoPow, Nat.mod_eq_of_lt (Nat.pow_lt_pow_right (by omega) hi)] at h
            exact (Nat.pow_lt_pow_iff_right (a := 2) (by omega)).mp (by omega)
          rw [hb, hs.single i this] at hc
          simp at hc
      · rw [if_neg hp]
        cases hc : conn (BitVec.ofNat w (k + 1)) with
        | false =>
          simp only [Bool.not_false, if_true]
          refine reduce _ (fun _ _ => rfl) (fun h => by rw [hc] at h; simp at h) (fun _ => ⟨hp, ?_⟩)
          rw [(ih _ hne).2.2 (by omega)]
          exact ⟨rfl, rfl⟩
        | true =>
          simp only [Bool.not_true, Bool.false_eq_true, if_false]
          have hp2 : 2 ≤ popcount (BitVec.ofNat w (k + 1)).toNat := by
            have : popcount (BitVec.ofNat w (k + 1)).toNat ≠ 0 := by rw [Ne, popcount_eq_zero]; exact hne
            omega
          obtain ⟨r1, r2, r3⟩ := relax_links cost cse cs.1 conn cs.2 (BitVec.ofNat w (k + 1)) (bipartitions (BitVec.ofNat w (k + 1))) (by
            intro p hp hok
            have hab := split_of_mem hp hok.1 hok.2.1
            have hl := hab.left_lt
            have hr := hab.right_lt
            exact ⟨((ih p.1 hok.1).1 (by omega) hok.2.2.1).1, ((ih p.2 hok.2.1).1 (by omega) hok.2.2.2).1⟩) ((additive cost cse).init cs.1 (BitVec.ofNat w (k + 1)))
          have hsome := r2 (by
            obtain ⟨a, b, hab, ca, cb⟩ := hs.split _ (by omega) hc hp2
            rcases hab.mem_or with h | h
            · exact ⟨(a, b), h, hab.left, hab.right, ca, cb⟩
            · exact ⟨(b, a), h, hab.right, hab.left, cb, ca⟩)
          have hlink : Linked conn (relaxAll (additive cost cse) conn cs.1 cs.2 (BitVec.ofNat w (k + 1))) (BitVec.ofNat w (k + 1)) := by
            refine ⟨hsome, .inr ?_⟩
            rcases r3 with h | ⟨p, hp, hok, h1, h2⟩
            · rw [h] at hsome
              simp [additive] at hsome
            · unfold relaxAll
              rw [h1, h2]
              exact ⟨split_of_mem hp hok.1 hok.2.1, hok.2.2.1, hok.2.2.2⟩
          have fin := finalize_same cost cse cs.1 (BitVec.ofNat w (k + 1))
            (Function.update cs.2 (BitVec.ofNat w (k + 1)) (relaxAll (additive cost cse) conn cs.1 cs.2 (BitVec.ofNat w (k + 1))))
          refine reduce _ ?_ (fun _ => ?_) (fun h => by rw [hc] at h; simp at h)
          · intro m hm
            cases cse <;> simp [additive, Function.update_of_ne hm]
          · obtain ⟨f1, f2, f3⟩ := fin (BitVec.ofNat w (k + 1))
            rw [Function.update_self] at f1 f2 f3
            unfold Linked
            rw [f1, f2, f3]
            exact hlink
  intro n h0 hn
  obtain ⟨a, b, -⟩ := key (2 ^ nt - 1) (by omega) n h0
  exact ⟨a (by omega), b (by omega)⟩

/-- Reconstruction looks only at the recorded parts. -/
theorem reconstruct_congr (st st' : BitVec w → AState w) (h : ∀ n, (st n).lp = (st' n).lp ∧ (st n).rp = (st' n).rp) (nt : Nat) :
    reconstruct st nt = reconstruct st' nt := by
  have : (fun seq i => reconstructStep st seq i) = fun seq i => reconstructStep st' seq i := by
    funext seq i
    unfold reconstructStep
    simp only [(h (BitVec.ofNat w i)).1, (h (BitVec.ofNat w i)).2]
  have this : ∀ seq i, reconstructStep st seq i = reconstructStep st' seq i := fun seq i => congrFun (congrFun this seq) i
  unfold reconstruct
  simp only [this]

/-- **C31**: for every number of tensors, cost, canonical classes of sub-networks and table of allowed intermediates, with or without sharing, the sequence is
that of a contraction tree over all tensors, each once, with allowed intermediates only. -/
theorem runAdditive_wellformed (cost : BitVec w → BitVec w → BitVec w → ℚ) (cse : Bool) (conn : BitVec w → Bool) (nt : Nat) (hpos : 0 < nt) (hnt : nt ≤ w)
    (hs : Splittable conn nt) (hfull : conn (fullMask w nt) = true) (ctx : AContext w) :
    ∃ t : CTree, runAdditive cost cse ctx conn nt = some t.rpn ∧ t.leaves.Perm (List.range nt) ∧ t.AllConn conn ∧ t.Ordered := by
  by_cases h12 : nt = 1 ∨ nt = 2
  · obtain ⟨t, a, b, c, d, -⟩ := runAdditive_optimal (fun _ _ _ => 0) (fun _ _ _ => rfl) conn nt hpos hnt hs hfull ctx
    refine ⟨t, ?_, b, c, d⟩
    rw [← a]
    unfold runAdditive
    rcases h12 with rfl | rfl <;> rfl
  · have h1 : nt ≠ 1 := fun h => h12 (.inl h)
    have h2 : nt ≠ 2 := fun h => h12 (.inr h)
    unfold runAdditive
    rw [if_neg h1, if_neg h2]
    have lk := solve_linked cost cse conn nt hnt hs ctx
    generalize (solve (additive cost cse) conn nt ctx AState.dflt).2 = st at lk
    rw [reconstruct_congr st (fun n => { st n with ops := some 0 }) (fun _ => ⟨rfl, rfl⟩)]
    have zero : ∀ t : CTree, t.cost (w := w) (fun _ _ _ => 0) = 0 := by
      intro t
      induction t with
      | leaf _ => rfl
      | node l r il ir => simp [CTree.cost, il, ir]
    obtain ⟨seq, e, hseq⟩ := reconstruct_good (fun _ _ _ => 0) (fun _ _ _ => rfl) conn nt hnt (fun n => { st n with ops := some 0 }) (by
      intro n h0 hn hc
      refine ⟨0, rfl, fun t _ _ _ => (zero t).ge, ?_⟩
      rcases ((lk n h0 hn).1 hc).2 with h | h
      · exact .inl ⟨h, rfl⟩
      · exact .inr ⟨h.1, h.2.1, h.2.2, 0, 0, rfl, rfl, by simp⟩) (fun n h0 hn hc => (lk n h0 hn).2 hc)
    obtain ⟨t, a1, a2, a3, a4, a5, -⟩ := hseq (fullMask w nt) (fullMask_ne hnt hpos) (fullMask_lt hnt) hfull
    refine ⟨t, ?_, (t.full_iff hnt).mp ⟨a1, a4⟩, a2, a3⟩
    rw [e, ← a5]
    rfl

/-- Four tensors whose pairs are all alike: with sharing two pairs cost as much as one. -/
example : runAdditive (w := 8) (fun n _ _ => if popcount n.toNat = 2 then 100 else 1) true ⟨fun n => popcount n.toNat, fun _ => 0⟩ (fun _ => true) 4 =
    some [0, 3, -1, 1, 2, -1, -1] ∧
    runAdditive (w := 8) (fun n _ _ => if popcount n.toNat = 2 then 100 else 1) false ⟨fun n => popcount n.toNat, fun _ => 0⟩ (fun _ => true) 4 =
    some [0, 1, -1, 2, -1, 3, -1] := by decide +kernel

end SeQuant.Optimize
