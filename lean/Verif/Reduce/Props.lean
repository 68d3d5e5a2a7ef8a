import Verif.Reduce.Loop
import Verif.Space.SetProps

/-!
# C70, C71: elimination of Kronecker deltas and overlaps
-/

namespace SeQuant.Reduce

variable {T S V A : Type} [DecidableEq S]

section value

variable [DecidableEq V] [Fintype V] [Ring A]

/-- **C70**: if the reduction returns a product, the value of the original is the value of the result times the sizes of the spaces of some indices, at
most as many as deltas were removed; if it reports zero, the value is zero. -/
theorem reduce_value (I : Interp T S V A) (E : Env S) (ext : List (Idx S)) (e : Idx S → V) (nc : List (Fac T S) → List (Idx S)) (fuel : Nat)
    (fs : List (Fac T S)) (hE : Exact I E) (htmp : ∀ i ∈ ext, i.ord < E.minTmp) (hext : ∀ i ∈ ext, I.dom i.space (e i) = true) :
    (∀ r, reduce E ext nc fuel fs = .ok r → ∃ L : List (Idx S), L.length + deltas r ≤ deltas fs ∧
      value I (inner ext fs) e fs = ((L.map fun i => dim I i.space).prod) • value I (inner ext r) e r) ∧
    (reduce E ext nc fuel fs = .error .zero → value I (inner ext fs) e fs = 0) := by
  have h := reduce_loop (T := T) hE htmp hext nc fuel fs
  constructor
  · intro r hr
    rw [hr] at h
    obtain ⟨L, h1, h2, _⟩ := h
    exact ⟨L, h1, h2⟩
  · intro hr
    rw [hr] at h; exact h

/-- **C70, partial**: the reduction keeps the value if every summed index occurs in a factor other than a delta, and keeps that property.  Missing: other
products (`reduce_loop_refuted`); spaces with overlapping but different quantum numbers (`reduce_spin_refuted`); external indices named like temporary ones
(`reduce_external_refuted`). -/
theorem reduce_value_partial (I : Interp T S V A) (E : Env S) (ext : List (Idx S)) (e : Idx S → V) (nc : List (Fac T S) → List (Idx S)) (fuel : Nat)
    (fs r : List (Fac T S)) (hE : Exact I E) (htmp : ∀ i ∈ ext, i.ord < E.minTmp) (hext : ∀ i ∈ ext, I.dom i.space (e i) = true)
    (hc : Covered ext fs) (hr : reduce E ext nc fuel fs = .ok r) :
    value I (inner ext r) e r = value I (inner ext fs) e fs ∧ Covered ext r := by
  have h := reduce_loop (T := T) hE htmp hext nc fuel fs
  rw [hr] at h
  obtain ⟨L, _, h2, h3⟩ := h
  obtain ⟨rfl, hcr⟩ := h3 hc
  refine ⟨?_, hcr⟩
  rw [h2]; simp

end value

/-! ## Termination and completeness -/

/-- An interpretation without orbitals in any space, for statements that do not depend on values. -/
private def noI : Interp T S Unit Unit := ⟨fun _ _ => false, fun _ _ => ()⟩

omit [DecidableEq S] in
private theorem noI_exact (E : Env S) : Exact (noI (T := T)) E := ⟨by simp [noI], by simp [noI], by simp [noI]⟩

/-- **C71** (termination): more rounds than deltas suffice; the only exceptions come from intersections that are not registered. -/
theorem reduce_total (E : Env S) (ext : List (Idx S)) (nc : List (Fac T S) → List (Idx S)) (htmp : ∀ i ∈ ext, i.ord < E.minTmp)
    (hreg : ∀ s t, E.inter s t ≠ .error .throw) : ∀ (fuel : Nat) (fs : List (Fac T S)), deltas fs < fuel → reduce E ext nc fuel fs ≠ .error .throw
  | 0, fs, h => by omega
  | fuel + 1, fs, h => by
    unfold reduce
    have hP := mkPass_wf (e := fun _ => ()) (fs := fs) (noI_exact E) htmp
    have hr := rules_spec hP (nc fs) (fun i hi => hi)
    change Post (∃ s t, E.inter s t = .error .throw) _ _ (rules E ext (nc fs) (used fs) fs) at hr
    cases hst : rules E ext (nc fs) (used fs) fs with
    | error z =>
      rw [hst] at hr
      cases z with
      | zero => intro hh; cases hh
      | throw => obtain ⟨s, t, hh⟩ := hr; exact absurd hh (hreg s t)
    | ok st =>
      show (if (applyRules st.rho fs).2 = true then reduce E ext nc fuel (applyRules st.rho fs).1 else pure (applyRules st.rho fs).1) ≠ _
      by_cases hm : (applyRules st.rho fs).2 = true
      · rw [if_pos hm]
        exact reduce_total E ext nc htmp hreg fuel _ (by have := deltas_lt hm; omega)
      · rw [if_neg hm]; intro hh; cases hh

/-- More rounds change nothing. -/
theorem reduce_fuel (E : Env S) (ext : List (Idx S)) (nc : List (Fac T S) → List (Idx S)) : ∀ (n m : Nat) (fs : List (Fac T S)), deltas fs < n → deltas fs < m →
    reduce E ext nc n fs = reduce E ext nc m fs
  | 0, _, _, h, _ => by omega
  | _ + 1, 0, _, _, h => by omega
  | n + 1, m + 1, fs, hn, hm => by
    unfold reduce
    cases rules E ext (nc fs) (used fs) fs with
    | error z => rfl
    | ok st =>
      show (if (applyRules st.rho fs).2 = true then reduce E ext nc n (applyRules st.rho fs).1 else pure (applyRules st.rho fs).1) =
        (if (applyRules st.rho fs).2 = true then reduce E ext nc m (applyRules st.rho fs).1 else pure (applyRules st.rho fs).1)
      by_cases hmu : (applyRules st.rho fs).2 = true
      · rw [if_pos hmu, if_pos hmu]
        have := deltas_lt hmu
        exact reduce_fuel E ext nc n m _ (by omega) (by omega)
      · rw [if_neg hmu, if_neg hmu]

/-- **C71** (completeness for summed indices): no Kronecker delta between two summed indices is left, no overlap either if there are no noncovariant
indices, and no delta with equal indices.  Missing: deltas between a summed and an external index (`reduce_incomplete`). -/
theorem reduce_complete_partial (E : Env S) (ext : List (Idx S)) (nc : List (Fac T S) → List (Idx S)) (htmp : ∀ i ∈ ext, i.ord < E.minTmp) :
    ∀ (fuel : Nat) (fs r : List (Fac T S)), reduce E ext nc fuel fs = .ok r → ∀ o b k, Fac.delta o b k ∈ r →
      b ≠ k ∧ ((o = true → ∀ gs, nc gs = []) → b ∈ ext ∨ k ∈ ext)
  | 0, _, _, h => by simp [reduce] at h
  | fuel + 1, fs, r, h => by
    unfold reduce at h
    have hP := mkPass_wf (e := fun _ => ()) (fs := fs) (noI_exact E) htmp
    have hr := rules_spec hP (nc fs) (fun i hi => hi)
    change Post (∃ s t, E.inter s t = .error .throw) _ _ (rules E ext (nc fs) (used fs) fs) at hr
    cases hst : rules E ext (nc fs) (used fs) fs with
    | error z => rw [hst] at h; cases h
    | ok st =>
      rw [hst] at h hr
      change (if (applyRules st.rho fs).2 = true then reduce E ext nc fuel (applyRules st.rho fs).1 else pure (applyRules st.rho fs).1) = .ok r at h
      by_cases hm : (applyRules st.rho fs).2 = true
      · rw [if_pos hm] at h
        exact reduce_complete_partial E ext nc htmp fuel _ r h
      · rw [if_neg hm] at h
        have hrr : (applyRules st.rho fs).1 = r := by cases h; rfl
        have hno : ∀ g ∈ fs.map (Fac.map st.rho), g.trivial = false := by
          intro g hg
          cases ht : g.trivial
          · rfl
          · exact absurd (List.any_eq_true.2 ⟨g, hg, ht⟩) hm
        intro o b k hmem
        rw [← hrr] at hmem
        obtain ⟨g, hg, hgd⟩ := List.mem_map.1 hmem
        rw [hno g hg] at hgd
        simp only [Bool.false_eq_true, if_false] at hgd
        subst hgd
        have ht := hno _ hg
        refine ⟨by simpa [Fac.trivial] using ht, ?_⟩
        intro hnc
        by_contra hx
        simp only [not_or] at hx
        obtain ⟨g0, hg0, hgm⟩ := List.mem_map.1 hg
        cases g0 with
        | tens t l => simp [Fac.map] at hgm
        | one => simp [Fac.map] at hgm
        | delta o0 b0 k0 =>
          simp only [Fac.map, Fac.delta.injEq] at hgm
          obtain ⟨rfl, rfl, rfl⟩ := hgm
          have hout : ∀ i, i ∈ ext → st.rho i = i := fun i hi => rho_out hr.1 fun hD => (Finset.mem_filter.1 hD).2 hi
          have hb0 : b0 ∉ ext := fun hb => hx.1 (by rw [hout b0 hb]; exact hb)
          have hk0 : k0 ∉ ext := fun hk => hx.2 (by rw [hout k0 hk]; exact hk)
          have hne : b0 ≠ k0 := fun hh => by simp [Fac.trivial, hh] at ht
          obtain ⟨c, hc, h1, h2⟩ := hr.2 o0 b0 k0 hg0 hne hb0 hk0 (by intro ho hb; rw [hnc ho] at hb; simp at hb)
          rw [rho_of_mem hr.1 hc h1, rho_of_mem hr.1 hc h2] at ht
          simp [Fac.trivial] at ht

/-! ## Registries -/

/-- Spaces with the same quantum numbers `q`. -/
abbrev QSpace (Key : Type) (q : Spaces.Mask) : Type := { s : Spaces.Space Key // s.Valid ∧ s.attr.qns = q }

variable {Key : Type} [LinearOrder Key]

theorem regInter_stays {nk : Key} {l : List (Spaces.Space Key)} {q : Spaces.Mask} (a b : QSpace Key q) {r : Spaces.Space Key}
    (h : Spaces.regInter nk l a.1 b.1 = some (some r)) (hr : r ≠ Spaces.Space.null nk) : r.Valid ∧ r.attr.qns = q := by
  by_cases hab : a.1 = b.1
  · rw [Spaces.regInter, if_pos hab] at h
    simp only [Option.some.injEq] at h
    rw [← h]; exact a.2
  · rw [Spaces.regInter_eq nk l a.1 b.1 hab a.2.1] at h
    have hq : ¬ (a.1.attr.qns &&& b.1.attr.qns = 0#32 ∧ a.1.attr.qns ≠ b.1.attr.qns) := fun hh => hh.2 (a.2.2.trans b.2.2.symm)
    rw [if_neg hq] at h
    by_cases h1 : (Spaces.findAttr l ⟨a.1.attr.type &&& b.1.attr.type, a.1.attr.qns⟩).getD (Spaces.Space.null nk) = Spaces.Space.null nk ∧
        a.1.attr.type &&& b.1.attr.type ≠ 0#32
    · rw [if_pos h1] at h; simp at h
    rw [if_neg h1] at h
    simp only [Option.some.injEq] at h
    cases hf : Spaces.findAttr l ⟨a.1.attr.type &&& b.1.attr.type, a.1.attr.qns⟩ with
    | none => rw [hf] at h; exact absurd h.symm hr
    | some s =>
      rw [hf] at h
      simp only [Option.getD_some] at h
      subst h
      have hs := Spaces.findAttr_some hf
      have hv : a.1.attr.Valid := a.2.1
      refine ⟨?_, by rw [hs]; exact a.2.2⟩
      show s.attr.Valid
      rw [hs]
      exact ⟨Spaces.valid_and_left hv.1, hv.2⟩

/-- The intersection of the registry (`regInter`) and `includes` (space.hpp:349-352). -/
def regEnv (nk : Key) (l : List (Spaces.Space Key)) (q : Spaces.Mask) (lt : Idx (QSpace Key q) → Idx (QSpace Key q) → Bool) (m : Nat) :
    Env (QSpace Key q) where
  inter a b := match h : Spaces.regInter nk l a.1 b.1 with
    | some (some r) => if hr : r = Spaces.Space.null nk then .error .zero else .ok ⟨r, regInter_stays a b h hr⟩
    | _ => .error .throw
  incl a b := decide (a.1.attr.includes b.1.attr = some true)
  lt := lt
  minTmp := m

/-- Registries whose spaces have the same quantum numbers meet the hypothesis of C70, whatever orbitals (`ty`: the base type of each) they have. -/
theorem registry_exact (nk : Key) (l : List (Spaces.Space Key)) (q : Spaces.Mask) (lt : Idx (QSpace Key q) → Idx (QSpace Key q) → Bool) (m : Nat)
    (ty : V → Nat) (elem : T → List V → A) :
    Exact (⟨fun s v => s.1.attr.type.getLsbD (ty v), elem⟩ : Interp T (QSpace Key q) V A) (regEnv nk l q lt m) := by
  have qn : ∃ x, Spaces.qnLabels q x := by
    by_cases hq : q = 0#32
    · exact ⟨none, hq⟩
    · by_contra hx
      simp only [not_exists] at hx
      refine hq (BitVec.eq_of_getLsbD_eq ?_)
      intro i _
      have := hx (some i)
      simp only [Spaces.qnLabels, Spaces.bits] at this
      simpa using this
  obtain ⟨x, hx⟩ := qn
  have key : ∀ (s : QSpace Key q) i, Spaces.states s.1 i x ↔ s.1.attr.type.getLsbD i = true := by
    intro s i
    simp only [Spaces.states, Spaces.bits, s.2.2, hx, and_true]
  refine ⟨?_, ?_, ?_⟩
  · intro s t u h v
    simp only [regEnv] at h
    split at h
    · rename_i r hr
      split_ifs at h with hn
      cases h
      have := Spaces.regInter_partial nk l s.1 t.1 r s.2.1 (Or.inl (s.2.2.trans t.2.2.symm)) hr (ty v) x
      rw [key s, key t, key ⟨r, regInter_stays s t hr hn⟩] at this
      exact this
    · cases h
  · intro s t h v hv
    simp only [regEnv] at h
    split at h
    · rename_i r hr
      split_ifs at h with hn
      subst hn
      have := Spaces.regInter_partial nk l s.1 t.1 _ s.2.1 (Or.inl (s.2.2.trans t.2.2.symm)) hr (ty v) x
      exact Spaces.states_null nk _ _ (this.2 ⟨(key s _).2 hv.1, (key t _).2 hv.2⟩)
    · cases h
  · intro s t h v hv
    simp only [regEnv, decide_eq_true_eq] at h
    obtain ⟨_, _, _, _, _, _, _, _, r, hr, h2⟩ := Spaces.attr_ops s.1.attr t.1.attr s.2.1 t.2.1
    rw [h] at hr
    simp only [Option.some.injEq] at hr
    exact ((h2.1 hr.symm) (ty v)).1 hv

/-! ## Examples -/

/-- Spaces as bit masks of orbitals. -/
def maskEnv : Env Nat where
  inter a b := if a = b then .ok a else if a &&& b = 0 then .error .zero else .ok (a &&& b)
  incl a b := decide (a &&& b = b)
  lt i j := decide (i.space < j.space ∨ (i.space = j.space ∧ i.ord < j.ord))
  minTmp := 100

theorem maskEnv_exact (n : Nat) (elem : T → List (Fin n) → A) : Exact (⟨fun s v => s.testBit v.1, elem⟩ : Interp T Nat (Fin n) A) maskEnv := by
  refine ⟨?_, ?_, ?_⟩
  · intro s t u h v
    simp only [maskEnv] at h
    split_ifs at h with h1 h2
    · cases h; subst h1; simp
    · cases h; simp [Nat.testBit_and]
  · intro s t h v hv
    simp only [maskEnv] at h
    split_ifs at h with h1 h2
    have := congrArg (fun x => x.testBit v.1) h2
    simp only [Nat.testBit_and, Nat.zero_testBit, Bool.and_eq_false_iff] at this
    simp only at hv
    rcases this with h3 | h3
    · rw [h3] at hv; exact absurd hv.1 (by simp)
    · rw [h3] at hv; exact absurd hv.2 (by simp)
  · intro s t h v hv
    simp only [maskEnv, decide_eq_true_eq] at h
    simp only at hv ⊢
    rw [← h, Nat.testBit_and, Bool.and_eq_true] at hv
    exact hv.1

/-- Occupied `{0, 1}`, virtual `{2}`, active `{1, 2}`, all orbitals. -/
abbrev oo (n : Nat) : Idx Nat := ⟨3, n⟩
abbrev vv (n : Nat) : Idx Nat := ⟨4, n⟩
abbrev xx (n : Nat) : Idx Nat := ⟨6, n⟩
abbrev pp (n : Nat) : Idx Nat := ⟨7, n⟩

abbrev kr (b k : Idx Nat) : Fac Bool Nat := .delta false b k
abbrev ov (b k : Idx Nat) : Fac Bool Nat := .delta true b k
abbrev tt (l : List (Idx Nat)) : Fac Bool Nat := .tens true l
abbrev uu (l : List (Idx Nat)) : Fac Bool Nat := .tens false l

def exI : Interp Bool Nat (Fin 3) Int :=
  ⟨fun s v => s.testBit v.1, fun t l => if t then (l.map fun v => (v.1 + 2 : Int)).sum else (l.map fun v => (3 * v.1 + 1 : Int)).prod⟩

abbrev nc0 : List (Fac Bool Nat) → List (Idx Nat) := fun _ => []

/-- `t^{p1} δ(p1, i1) u(i1)`: one new occupied index. -/
def ex1 : List (Fac Bool Nat) := [tt [pp 1], kr (pp 1) (oo 1), uu [oo 1]]

/-- Two classes merged by the last delta; the new index lies in the intersection of the four spaces. -/
def ex2 : List (Fac Bool Nat) := [tt [pp 1, pp 2], kr (pp 1) (oo 1), ov (xx 1) (pp 2), kr (oo 1) (pp 2), uu [oo 1, xx 1]]

example : reduce maskEnv [] nc0 2 ex1 = .ok [tt [oo 100], .one, uu [oo 100]] := by decide +kernel
example : reduce maskEnv [] nc0 5 ex2 = .ok [tt [⟨2, 100⟩, ⟨2, 100⟩], .one, .one, .one, uu [⟨2, 100⟩, ⟨2, 100⟩]] := by decide +kernel
example : value exI (inner [] ex1) (fun _ => 0) ex1 = 14 := by decide +kernel
example : value exI (inner [oo 1] ex1) (fun _ => 1) ex1 = 12 := by decide +kernel

/-- The theorem applied to the two products. -/
example : value exI (inner [] ex2) (fun _ => 0) ex2 =
    value exI (inner [] [tt [⟨2, 100⟩, ⟨2, 100⟩], .one, .one, .one, uu [⟨2, 100⟩, ⟨2, 100⟩]]) (fun _ => 0) [tt [⟨2, 100⟩, ⟨2, 100⟩], .one, .one, .one, uu [⟨2, 100⟩, ⟨2, 100⟩]] :=
  ((reduce_value_partial exI maskEnv [] (fun _ => 0) nc0 5 ex2 _ (maskEnv_exact 3 _) (by simp) (by simp) (by decide +kernel) (by decide +kernel)).1).symm

/-- Occupied and virtual indices have nothing in common. -/
example : reduce maskEnv [] nc0 3 [tt [oo 1, vv 1], kr (vv 1) (oo 1)] = .error .zero := by decide +kernel

example : value exI (inner [] [tt [oo 1, vv 1], kr (vv 1) (oo 1)]) (fun _ => 0) [tt [oo 1, vv 1], kr (vv 1) (oo 1)] = 0 :=
  (reduce_value exI maskEnv [] (fun _ => 0) nc0 3 _ (maskEnv_exact 3 _) (by simp) (by simp)).2 (by decide +kernel)

/-- External indices are not replaced; a summed index of a space that includes that of the external one is replaced by it. -/
example : reduce maskEnv [oo 7] nc0 2 [tt [pp 1, pp 1], kr (oo 7) (pp 1)] = .ok [tt [oo 7, oo 7], .one] := by decide +kernel
example : reduce maskEnv [oo 7] nc0 2 [tt [pp 1, pp 1], kr (pp 1) (oo 7)] = .ok [tt [oo 7, oo 7], .one] := by decide +kernel
example : reduce maskEnv [oo 7] nc0 2 [tt [xx 1], kr (oo 7) (xx 1)] = .ok [tt [⟨2, 100⟩], kr (oo 7) ⟨2, 100⟩] := by decide +kernel
example : reduce maskEnv [oo 7, oo 8] nc0 3 [tt [pp 1], kr (oo 7) (pp 1), kr (oo 8) (pp 1)] = .ok [tt [oo 7], .one, kr (oo 8) (oo 7)] := by decide +kernel
example : reduce maskEnv [oo 7, oo 8] nc0 3 [kr (oo 7) (oo 8)] = .ok [kr (oo 7) (oo 8)] := by decide +kernel

/-- A chain that needs a second pass, with names that avoid those in use. -/
example : reduce maskEnv [oo 7] nc0 3 [tt [oo 1, oo 100], kr (oo 1) (oo 2), kr (oo 2) (oo 7), uu [oo 2]] = .ok [tt [oo 7, oo 100], .one, .one, uu [oo 7]] := by
  decide +kernel

/-- Overlaps of noncovariant indices are kept. -/
example : reduce maskEnv [] (fun _ => [oo 1, oo 2, oo 100]) 3 [tt [oo 1, oo 2, oo 3], ov (oo 1) (oo 2), ov (oo 3) (oo 2)] =
    .ok [tt [oo 1, oo 100, oo 100], ov (oo 1) (oo 100), .one] := by decide +kernel

/-- A class whose destination has to change space. -/
example : reduce maskEnv [] nc0 3 [tt [pp 1, oo 1, xx 1], kr (oo 1) (pp 1), kr (pp 1) (xx 1)] =
    .ok [tt [⟨2, 100⟩, ⟨2, 100⟩, ⟨2, 100⟩], .one, .one] := by decide +kernel

/-- **C70 is false** for products with closed loops of deltas: a sum over deltas alone is the number of orbitals, the code returns 1. -/
theorem reduce_loop_refuted :
    reduce maskEnv [] nc0 2 [kr (oo 1) (oo 2)] = .ok [.one] ∧
    value exI (inner [] [kr (oo 1) (oo 2)]) (fun _ => 0) [kr (oo 1) (oo 2)] = 2 ∧
    value exI (inner [] [(.one : Fac Bool Nat)]) (fun _ => 0) [.one] = 1 := by
  refine ⟨by decide +kernel, by decide +kernel, by decide +kernel⟩

/-- **C70 is false** if an external index that does not occur in the product is named like a temporary one: it is captured. -/
theorem reduce_external_refuted :
    reduce maskEnv [oo 100] nc0 2 [tt [oo 1], kr (oo 1) (oo 2), uu [oo 2]] = .ok [tt [oo 100], .one, uu [oo 100]] ∧
    value exI (inner [oo 100] [tt [oo 1], kr (oo 1) (oo 2), uu [oo 2]]) (fun _ => 0) [tt [oo 1], kr (oo 1) (oo 2), uu [oo 2]] = 14 ∧
    value exI (inner [oo 100] [tt [oo 100], .one, uu [oo 100]]) (fun _ => 0) [tt [oo 100], .one, uu [oo 100]] = 2 := by
  refine ⟨by decide +kernel, by decide +kernel, by decide +kernel⟩

/-- **C71 is false** for deltas with external indices: the second delta joins a summed to an external index of the same space and stays. -/
theorem reduce_incomplete :
    reduce maskEnv [oo 1, ⟨2, 1⟩] nc0 9 [kr (oo 1) (xx 1), kr ⟨2, 1⟩ (xx 1), tt [xx 1]] = .ok [kr (oo 1) ⟨2, 100⟩, kr ⟨2, 1⟩ ⟨2, 100⟩, tt [⟨2, 100⟩]] ∧
    maskEnv.incl 2 2 = true := by
  refine ⟨by decide +kernel, by decide +kernel⟩

/-- The intersection of a registry, with any quantum numbers. -/
def regEnvAll (l : List (Spaces.Space Nat)) : Env (Spaces.Space Nat) where
  inter a b := match Spaces.regInter 0 l a b with
    | some (some r) => if r = Spaces.Space.null 0 then .error .zero else .ok r
    | _ => .error .throw
  incl a b := decide (a.attr.includes b.attr = some true)
  lt _ _ := false
  minTmp := 100

/-- One orbital of either spin: "any spin" and "spin up". -/
abbrev anySpin : Spaces.Space Nat := ⟨⟨1#32, 3#32⟩, 1⟩
abbrev upSpin : Spaces.Space Nat := ⟨⟨1#32, 1#32⟩, 2⟩

def spinI : Interp Bool (Spaces.Space Nat) (Fin 2) Int := ⟨fun s v => s.attr.qns.getLsbD v.1, fun t l => if t then 1 else (l.map fun v => (v.1 + 2 : Int)).sum⟩

/-- **C70 is false** with overlapping quantum numbers: `t^{p} δ(p, i↑) u(i↑)` becomes a sum over both spins. -/
theorem reduce_spin_refuted :
    reduce (regEnvAll [Spaces.Space.null 0, anySpin, upSpin]) [] (fun _ => []) 2
      [.tens true [⟨anySpin, 1⟩], .delta false ⟨anySpin, 1⟩ ⟨upSpin, 1⟩, .tens false [⟨upSpin, 1⟩]] =
      .ok [.tens true [⟨anySpin, 100⟩], .one, .tens false [⟨anySpin, 100⟩]] ∧
    value spinI (inner [] [.tens true [⟨anySpin, 1⟩], .delta false ⟨anySpin, 1⟩ ⟨upSpin, 1⟩, .tens false [⟨upSpin, 1⟩]]) (fun _ => 0)
      [.tens true [⟨anySpin, 1⟩], .delta false ⟨anySpin, 1⟩ ⟨upSpin, 1⟩, .tens false [⟨upSpin, 1⟩]] = 2 ∧
    value spinI (inner [] [.tens true [⟨anySpin, 100⟩], .one, .tens false [⟨anySpin, 100⟩]]) (fun _ => 0)
      [.tens true [⟨anySpin, 100⟩], .one, .tens false [⟨anySpin, 100⟩]] = 5 := by
  refine ⟨by decide +kernel, by decide +kernel, by decide +kernel⟩

/-- An intersection that is not registered: an exception, also for a product whose value is defined. -/
example : reduce (regEnvAll [Spaces.Space.null 0, ⟨⟨3#32, 1#32⟩, 1⟩, ⟨⟨6#32, 1#32⟩, 2⟩]) [] (fun _ => []) 2
    [(.tens true [⟨⟨⟨3#32, 1#32⟩, 1⟩, 1⟩] : Fac Bool (Spaces.Space Nat)), .delta false ⟨⟨⟨3#32, 1#32⟩, 1⟩, 1⟩ ⟨⟨⟨6#32, 1#32⟩, 2⟩, 1⟩] = .error .throw := by
  decide +kernel

/-- A registry that meets the hypotheses. -/
example : ∃ r, (regEnv 0 [Spaces.Space.null 0, ⟨⟨3#32, 1#32⟩, 1⟩, ⟨⟨6#32, 1#32⟩, 2⟩, ⟨⟨2#32, 1#32⟩, 3⟩] 1#32 (fun _ _ => false) 100).inter
    ⟨⟨⟨3#32, 1#32⟩, 1⟩, (by decide : Spaces.Attr.Valid _), rfl⟩ ⟨⟨⟨6#32, 1#32⟩, 2⟩, (by decide : Spaces.Attr.Valid _), rfl⟩ = .ok r ∧ r.1.attr.type = 2#32 := ⟨⟨⟨⟨2#32, 1#32⟩, 3⟩, (by decide : Spaces.Attr.Valid _), rfl⟩, by decide +kernel, rfl⟩

example : reduce maskEnv [oo 1] nc0 4 ex2 ≠ .error .throw :=
  reduce_total maskEnv [oo 1] nc0 (by simp [maskEnv]) (by intro s t; simp only [maskEnv]; split_ifs <;> simp) 4 ex2 (by decide)

end SeQuant.Reduce
