import Verif.Index.GenModel
import Verif.Index.OrderProps

/-!
# C22: temporary indices are unique
-/

set_option linter.unusedSectionVars false

namespace SeQuant.Indices

open SeQuant.Spaces

variable {Key : Type} [LinearOrder Key]

theorem space_cmp_eq_iff (a b : Space Key) : a.cmp b = .eq ↔ a.attr = b.attr ∧ (a.attr = Attr.reserved → a.key = b.key) := by
  unfold Space.cmp
  split
  · rename_i h; constructor
    · split <;> simp
    · intro h'; exact absurd h'.1 h
  · rename_i h
    simp only [ne_eq, not_not] at h
    split
    · rename_i h2
      constructor
      · split <;> simp
      · intro h3; exact absurd (h3.2 h2.1) h2.2
    · rename_i h2
      simp only [true_iff]
      refine ⟨h, fun h3 => ?_⟩
      by_contra h4
      exact h2 ⟨h3, h4⟩

theorem space_cmp_refl (a : Space Key) : a.cmp a = .eq := (space_cmp_eq_iff a a).2 ⟨rfl, fun _ => rfl⟩

theorem space_cmp_symm {a b : Space Key} (h : a.cmp b = .eq) : b.cmp a = .eq := by
  rw [space_cmp_eq_iff] at *
  exact ⟨h.1.symm, fun hr => (h.2 (h.1 ▸ hr)).symm⟩

theorem space_cmp_trans {a b c : Space Key} (h : a.cmp b = .eq) (h' : b.cmp c = .eq) : a.cmp c = .eq := by
  rw [space_cmp_eq_iff] at *
  exact ⟨h.1.trans h'.1, fun hr => (h.2 hr).trans (h'.2 (h.1 ▸ hr))⟩

/-! ### The specification -/

/-- Two results of the generator are told apart by the ordinal or by the order of their spaces. -/
def Apart (a b : Space Key × BitVec 64) : Prop := ¬ (a.1.cmp b.1 = .eq ∧ a.2 = b.2)

/-- How often a schedule increments a counter of the factory. -/
def incrs (l : List (Nat × Act Key)) : Nat := (l.filter fun e => match e.2 with | .incr => true | _ => false).length

/-- How many temporary indices a schedule makes. -/
def tmps (l : List (Nat × Act Key)) : Nat := (l.filter fun e => match e.2 with | .tmp _ => true | _ => false).length

def noReset (l : List (Nat × Act Key)) : Prop := ∀ e ∈ l, match e.2 with | .reset _ => False | _ => True

theorem genRun_cons (min : BitVec 64) (st : GenSt Key) (e : Nat × Act Key) (l : List (Nat × Act Key)) :
    genRun min st (e :: l) = genRun min (genStep min st e.1 e.2) l := rfl

/-! ### Temporary indices -/

theorem add_ofNat_inj {b : BitVec 64} {i j : Nat} (hi : i < 2 ^ 64) (hj : j < 2 ^ 64) (h : b + BitVec.ofNat 64 i = b + BitVec.ofNat 64 j) :
    i = j := by
  have h' := congrArg BitVec.toNat h
  have hb := b.isLt
  simp only [BitVec.toNat_add, BitVec.toNat_ofNat] at h'
  omega

theorem add_one_ofNat (b : BitVec 64) (n : Nat) : b + BitVec.ofNat 64 n + 1 = b + BitVec.ofNat 64 (n + 1) := by
  apply BitVec.eq_of_toNat_eq
  simp only [BitVec.toNat_add, BitVec.toNat_ofNat]
  have : (1 : BitVec 64).toNat = 1 := rfl
  omega

structure TmpInv (c : BitVec 64) (n : Nat) (st : GenSt Key) : Prop where
  tmp : st.tmp = c + BitVec.ofNat 64 n
  out : ∀ x ∈ st.tmpOut, ∃ k, 1 ≤ k ∧ k ≤ n ∧ x.2 = c + BitVec.ofNat 64 k
  nodup : st.tmpOut.Pairwise fun x y => x.2 ≠ y.2

theorem genStep_tmp (min : BitVec 64) (st : GenSt Key) (t : Nat) (a : Act Key) (h : match a with | .reset _ | .tmp _ => False | _ => True) :
    (genStep min st t a).tmp = st.tmp ∧ (genStep min st t a).tmpOut = st.tmpOut := by
  cases a with
  | tmp s => exact h.elim
  | reset m => exact h.elim
  | call s => unfold genStep; simp only; split <;> exact ⟨rfl, rfl⟩
  | begin_ => unfold genStep; simp only; split <;> exact ⟨rfl, rfl⟩
  | find => unfold genStep; simp only; split <;> [split; skip] <;> exact ⟨rfl, rfl⟩
  | incr => unfold genStep; simp only; split <;> [split; skip] <;> exact ⟨rfl, rfl⟩
  | accept => unfold genStep; simp only; split <;> exact ⟨rfl, rfl⟩
  | reject => unfold genStep; simp only; split <;> exact ⟨rfl, rfl⟩

theorem tmpInv_run (min c : BitVec 64) (l : List (Nat × Act Key)) : ∀ (n : Nat) (st : GenSt Key), TmpInv c n st → noReset l →
    n + tmps l < 2 ^ 64 → TmpInv c (n + tmps l) (genRun min st l) := by
  induction l with
  | nil => intro n st h _ _; simpa [tmps, genRun] using h
  | cons e l ih =>
    intro n st h hr hn
    have hr' : noReset l := fun x hx => hr x (by simp [hx])
    rw [genRun_cons]
    have he := hr e (by simp)
    obtain ⟨t, a⟩ := e
    by_cases ha : ∃ s, a = .tmp s
    · obtain ⟨s, rfl⟩ := ha
      have e1 : tmps ((t, Act.tmp s) :: l) = tmps l + 1 := by simp [tmps]
      rw [e1] at hn ⊢
      rw [show n + (tmps l + 1) = (n + 1) + tmps l by omega]
      refine ih (n + 1) _ ?_ hr' (by omega)
      refine ⟨?_, ?_, ?_⟩
      · simp only [genStep, h.tmp]; exact add_one_ofNat c n
      · intro x hx
        simp only [genStep, List.mem_cons] at hx
        rcases hx with rfl | hx
        · exact ⟨n + 1, by omega, by omega, by simp only [h.tmp]; exact add_one_ofNat c n⟩
        · obtain ⟨k, h1, h2, h3⟩ := h.out x hx
          exact ⟨k, h1, by omega, h3⟩
      · simp only [genStep, List.pairwise_cons]
        refine ⟨?_, h.nodup⟩
        intro x hx
        obtain ⟨k, h1, h2, h3⟩ := h.out x hx
        simp only [h.tmp, h3, add_one_ofNat]
        intro hc
        have := add_ofNat_inj (by omega) (by omega) hc
        omega
    · have e1 : tmps ((t, a) :: l) = tmps l := by
        cases a with
        | tmp s => exact absurd ⟨s, rfl⟩ ha
        | _ => simp [tmps]
      rw [e1] at hn ⊢
      have h2 := genStep_tmp min st t a (by
        cases a with
        | tmp s => exact ha ⟨s, rfl⟩
        | reset m => exact he
        | _ => trivial)
      exact ih n _ ⟨h2.1 ▸ h.tmp, h2.2 ▸ h.out, h2.2 ▸ h.nodup⟩ hr' hn

/-- **C22** (temporary indices): for every number of threads and every schedule of fewer than 2^64 calls without a reset, no two calls
return the same ordinal. -/
theorem tmp_unique_partial (min tmp0 : BitVec 64) (l : List (Nat × Act Key)) (hr : noReset l) (hn : tmps l < 2 ^ 64) :
    (genRun min (genInit tmp0) l).tmpOut.length = tmps l ∧
    (genRun min (genInit tmp0) l).tmpOut.Pairwise fun x y => x.2 ≠ y.2 := by
  refine ⟨?_, ?_⟩
  · have : ∀ (l : List (Nat × Act Key)) (st : GenSt Key), (genRun min st l).tmpOut.length = st.tmpOut.length + tmps l := by
      intro l
      induction l with
      | nil => intro st; simp [genRun, tmps]
      | cons e l ih =>
        intro st
        rw [genRun_cons, ih]
        obtain ⟨t, a⟩ := e
        cases a with
        | tmp s => simp [genStep, tmps]; omega
        | reset m => simp [genStep, tmps]
        | call s => rw [(genStep_tmp min st t _ trivial).2]; simp [tmps]
        | begin_ => rw [(genStep_tmp min st t _ trivial).2]; simp [tmps]
        | find => rw [(genStep_tmp min st t _ trivial).2]; simp [tmps]
        | incr => rw [(genStep_tmp min st t _ trivial).2]; simp [tmps]
        | accept => rw [(genStep_tmp min st t _ trivial).2]; simp [tmps]
        | reject => rw [(genStep_tmp min st t _ trivial).2]; simp [tmps]
    simpa [genInit] using this l (genInit tmp0)
  · have h0 : TmpInv (Key := Key) (tmp0 - 1) 0 (genInit tmp0) :=
      ⟨by simp [genInit], by simp [genInit], by simp [genInit]⟩
    exact (tmpInv_run min (tmp0 - 1) l 0 _ h0 hr (by omega)).nodup

/-- **C22**: temporary indices never have an ordinal below the first one, which separates them from the indices a user can make
(index.hpp:953-957). -/
theorem tmp_fresh_partial (min tmp0 : BitVec 64) (h1 : 1 ≤ tmp0.toNat) (l : List (Nat × Act Key)) (hr : noReset l)
    (hn : tmp0.toNat + tmps l ≤ 2 ^ 64) : ∀ x ∈ (genRun min (genInit tmp0) l).tmpOut, tmp0.toNat ≤ x.2.toNat := by
  have h0 : TmpInv (Key := Key) (tmp0 - 1) 0 (genInit tmp0) :=
    ⟨by simp [genInit], by simp [genInit], by simp [genInit]⟩
  have h := tmpInv_run min (tmp0 - 1) l 0 _ h0 hr (by have := tmp0.isLt; omega)
  intro x hx
  obtain ⟨k, a, b, c⟩ := h.out x hx
  rw [c]
  have hlt := tmp0.isLt
  simp only [BitVec.toNat_add, BitVec.toNat_sub, BitVec.toNat_ofNat]
  have : (1 : BitVec 64).toNat = 1 := rfl
  omega

/-- **C22 is false** across a reset: two calls return the same index. -/
theorem tmp_reset_repeats (min m : BitVec 64) (s : Space Key) :
    (genRun min (genInit m) [(0, .tmp s), (0, .reset m), (1, .tmp s)]).tmpOut = [(s, m - 1 + 1), (s, m - 1 + 1)] := rfl

theorem tmp_replicate (min : BitVec 64) (s : Space Key) (n : Nat) : ∀ (st : GenSt Key),
    (genRun min st (List.replicate n (0, .tmp s))).tmp = st.tmp + BitVec.ofNat 64 n := by
  induction n with
  | zero => intro st; simp [genRun]
  | succ n ih =>
    intro st
    rw [List.replicate_succ, genRun_cons, ih]
    simp only [genStep]
    apply BitVec.eq_of_toNat_eq
    simp only [BitVec.toNat_add, BitVec.toNat_ofNat]
    have : (1 : BitVec 64).toNat = 1 := rfl
    omega

/-- The counter wraps around: the call after 2^64 further calls returns the first index again. -/
theorem tmp_wraps (min : BitVec 64) (s : Space Key) (st : GenSt Key) :
    (genStep min (genRun min (genStep min st 0 (.tmp s)) (List.replicate (2 ^ 64 - 1) (0, .tmp s))) 0 (.tmp s)).tmpOut.head? =
      (genStep min st 0 (.tmp s)).tmpOut.head? := by
  obtain ⟨M, hM⟩ : ∃ M, M = 2 ^ 64 - 1 := ⟨_, rfl⟩
  rw [← hM]
  have h := tmp_replicate min s M (genStep min st 0 (.tmp s))
  simp only [genStep, List.head?_cons] at h ⊢
  rw [h]
  congr 2
  apply BitVec.eq_of_toNat_eq
  simp only [BitVec.toNat_add, BitVec.toNat_ofNat]
  have : (1 : BitVec 64).toNat = 1 := rfl
  omega

/-! ### The factory -/

/-- `n` was handed out by the counter of `s`, which stands at `v`. -/
def Issued (b : BitVec 64) (st : GenSt Key) (s : Space Key) (n : BitVec 64) (N : Nat) : Prop :=
  ∃ v k c, st.counters s = some v ∧ v = b + BitVec.ofNat 64 c ∧ 1 ≤ k ∧ k ≤ c ∧ c ≤ N ∧ n = b + BitVec.ofNat 64 k

structure FacInv (b : BitVec 64) (N : Nat) (st : GenSt Key) : Prop where
  congr : ∀ s s', s.cmp s' = .eq → st.counters s = st.counters s'
  cnt : ∀ s v, st.counters s = some v → ∃ c, c ≤ N ∧ v = b + BitVec.ofNat 64 c
  out : ∀ x ∈ st.facOut, Issued b st x.1 x.2 N
  held : ∀ t s n, st.pc t = .built s n → Issued b st s n N
  nodup : st.facOut.Pairwise Apart
  apart : ∀ t s n, st.pc t = .built s n → ∀ x ∈ st.facOut, Apart (s, n) x
  apart' : ∀ t t', t ≠ t' → ∀ s n s' n', st.pc t = .built s n → st.pc t' = .built s' n' → Apart (s, n) (s', n')
  found : ∀ t s, st.pc t = .found s → (st.counters s).isSome

theorem Apart.symm {a b : Space Key × BitVec 64} (h : Apart a b) : Apart b a := fun h' => h ⟨space_cmp_symm h'.1, h'.2.symm⟩

theorem FacInv.mono {b : BitVec 64} {N M : Nat} {st : GenSt Key} (h : FacInv b N st) (hNM : N ≤ M) : FacInv b M st := by
  have hi : ∀ s n, Issued b st s n N → Issued b st s n M := by
    rintro s n ⟨v, k, c, h1, h2, h3, h4, h5, h6⟩
    exact ⟨v, k, c, h1, h2, h3, h4, by omega, h6⟩
  exact { h with
    cnt := fun s v hv => (h.cnt s v hv).imp fun c hc => ⟨by omega, hc.2⟩
    out := fun x hx => hi _ _ (h.out x hx)
    held := fun t s n ht => hi _ _ (h.held t s n ht) }

/-- A thread moves to a place where it holds no index. -/
theorem FacInv.setPc {b : BitVec 64} {N : Nat} {st : GenSt Key} (h : FacInv b N st) (t : Nat) (p : PC Key)
    (hp : ∀ s n, p ≠ .built s n) (hf : ∀ s, p = .found s → (st.counters s).isSome) : FacInv b N (st.setPc t p) := by
  have key : ∀ u s n, (st.setPc t p).pc u = .built s n → st.pc u = .built s n := by
    intro u s n hu
    simp only [GenSt.setPc] at hu
    split at hu
    · exact absurd hu (hp s n)
    · exact hu
  refine ⟨h.congr, h.cnt, h.out, fun u s n hu => h.held u s n (key u s n hu), h.nodup, fun u s n hu => h.apart u s n (key u s n hu),
    fun u u' hne s n s' n' hu hu' => h.apart' u u' hne s n s' n' (key u s n hu) (key u' s' n' hu'), ?_⟩
  intro u s hu
  simp only [GenSt.setPc] at hu
  split at hu
  · exact hf s hu
  · exact h.found u s hu

/-- Inserting a counter that was missing. -/
theorem FacInv.insert {b : BitVec 64} {N : Nat} {st : GenSt Key} (h : FacInv b N st) (s0 : Space Key) (hs : st.counters s0 = none) :
    FacInv b N { st with counters := setCounter st.counters s0 b } := by
  have keep : ∀ s v, st.counters s = some v → setCounter st.counters s0 b s = some v := by
    intro s v hv
    unfold setCounter
    split
    · rename_i hc
      rw [h.congr s s0 hc, hs] at hv
      simp at hv
    · exact hv
  have hi : ∀ s n, Issued b st s n N → Issued b { st with counters := setCounter st.counters s0 b } s n N := by
    rintro s n ⟨v, k, c, h1, h2⟩
    exact ⟨v, k, c, keep s v h1, h2⟩
  refine ⟨?_, ?_, fun x hx => hi _ _ (h.out x hx), fun t s n ht => hi _ _ (h.held t s n ht), h.nodup, h.apart, h.apart', ?_⟩
  · intro s s' hss
    simp only [setCounter]
    by_cases hc : s.cmp s0 = .eq
    · rw [if_pos hc, if_pos (space_cmp_trans (space_cmp_symm hss) hc)]
    · rw [if_neg hc, if_neg fun hc' => hc (space_cmp_trans hss hc')]
      exact h.congr s s' hss
  · intro s v hv
    simp only [setCounter] at hv
    split at hv
    · exact ⟨0, by omega, by simpa using hv.symm⟩
    · exact h.cnt s v hv
  · intro t s ht
    have := h.found t s ht
    rw [Option.isSome_iff_exists] at this ⊢
    obtain ⟨v, hv⟩ := this
    exact ⟨v, keep s v hv⟩

/-- One increment. -/
theorem FacInv.incr {b : BitVec 64} {N : Nat} {st : GenSt Key} (h : FacInv b N st) (hN : N + 1 < 2 ^ 64) (t : Nat) (s0 : Space Key)
    (v0 : BitVec 64) (hs : st.counters s0 = some v0) :
    FacInv b (N + 1) { st.setPc t (.built s0 (v0 + 1)) with counters := setCounter st.counters s0 (v0 + 1) } := by
  obtain ⟨c0, hc0, hv0⟩ := h.cnt s0 v0 hs
  have hv1 : v0 + 1 = b + BitVec.ofNat 64 (c0 + 1) := by rw [hv0, add_one_ofNat]
  have hi : ∀ s n, Issued b st s n N →
      Issued b { st.setPc t (.built s0 (v0 + 1)) with counters := setCounter st.counters s0 (v0 + 1) } s n (N + 1) := by
    rintro s n ⟨v, k, c, h1, h2, h3, h4, h5, h6⟩
    by_cases hc : s.cmp s0 = .eq
    · refine ⟨v0 + 1, k, c0 + 1, by simp [setCounter, hc], hv1, h3, ?_, by omega, h6⟩
      rw [h.congr s s0 hc, hs] at h1
      simp only [Option.some.injEq] at h1
      have : c0 = c := add_ofNat_inj (b := b) (by omega) (by omega) (by rw [← hv0, ← h2, h1])
      omega
    · exact ⟨v, k, c, by simp [setCounter, hc, h1], h2, h3, h4, by omega, h6⟩
  -- the new ordinal differs from all those issued for the same space
  have fresh : ∀ s n, Issued b st s n N → Apart (s0, v0 + 1) (s, n) := by
    rintro s n ⟨v, k, c, h1, h2, h3, h4, h5, h6⟩ ⟨e1, e2⟩
    simp only at e1 e2
    rw [h.congr s s0 (space_cmp_symm e1), hs] at h1
    simp only [Option.some.injEq] at h1
    have hcc : c0 = c := add_ofNat_inj (b := b) (by omega) (by omega) (by rw [← hv0, ← h2, h1])
    have := add_ofNat_inj (b := b) (i := c0 + 1) (j := k) (by omega) (by omega) (by rw [← hv1, ← h6, e2])
    omega
  have key : ∀ u s n, (st.setPc t (.built s0 (v0 + 1))).pc u = .built s n →
      (u = t ∧ s = s0 ∧ n = v0 + 1) ∨ (u ≠ t ∧ st.pc u = .built s n) := by
    intro u s n hu
    simp only [GenSt.setPc] at hu
    split at hu
    · rename_i hut
      simp only [PC.built.injEq] at hu
      exact Or.inl ⟨hut, hu.1.symm, hu.2.symm⟩
    · rename_i hut
      exact Or.inr ⟨hut, hu⟩
  refine ⟨?_, ?_, fun x hx => hi _ _ (h.out x hx), ?_, h.nodup, ?_, ?_, ?_⟩
  · intro s s' hss
    simp only [setCounter]
    by_cases hc : s.cmp s0 = .eq
    · rw [if_pos hc, if_pos (space_cmp_trans (space_cmp_symm hss) hc)]
    · rw [if_neg hc, if_neg fun hc' => hc (space_cmp_trans hss hc')]
      exact h.congr s s' hss
  · intro s v hv
    simp only [setCounter] at hv
    split at hv
    · simp only [Option.some.injEq] at hv
      exact ⟨c0 + 1, by omega, by rw [← hv, hv1]⟩
    · obtain ⟨c, h1, h2⟩ := h.cnt s v hv
      exact ⟨c, by omega, h2⟩
  · intro u s n hu
    rcases key u s n hu with ⟨-, rfl, rfl⟩ | ⟨-, hu⟩
    · exact ⟨v0 + 1, c0 + 1, c0 + 1, by simp [setCounter, space_cmp_refl], hv1, by omega, by omega, by omega, hv1⟩
    · exact hi _ _ (h.held u s n hu)
  · intro u s n hu x hx
    rcases key u s n hu with ⟨-, rfl, rfl⟩ | ⟨-, hu⟩
    · exact fresh x.1 x.2 (h.out x hx)
    · exact h.apart u s n hu x hx
  · intro u u' hne s n s' n' hu hu'
    rcases key u s n hu with ⟨k1, k2, k3⟩ | ⟨-, k1⟩
    · rcases key u' s' n' hu' with ⟨l1, -, -⟩ | ⟨-, l1⟩
      · exact absurd (k1.trans l1.symm) hne
      · rw [k2, k3]; exact fresh s' n' (h.held u' s' n' l1)
    · rcases key u' s' n' hu' with ⟨-, l2, l3⟩ | ⟨-, l1⟩
      · rw [l2, l3]; exact (fresh s n (h.held u s n k1)).symm
      · exact h.apart' u u' hne s n s' n' k1 l1
  · intro u s hu
    simp only [GenSt.setPc] at hu
    split at hu
    · simp at hu
    · have := h.found u s hu
      simp only [setCounter]
      split
      · rfl
      · exact this

theorem FacInv.accept {b : BitVec 64} {N : Nat} {st : GenSt Key} (h : FacInv b N st) (t : Nat) (s0 : Space Key) (n0 : BitVec 64)
    (ht : st.pc t = .built s0 n0) : FacInv b N { st.setPc t .idle with facOut := (s0, n0) :: st.facOut } := by
  have key : ∀ u s n, (st.setPc t .idle).pc u = .built s n → u ≠ t ∧ st.pc u = .built s n := by
    intro u s n hu
    simp only [GenSt.setPc] at hu
    split at hu
    · simp at hu
    · rename_i hut; exact ⟨hut, hu⟩
  refine ⟨h.congr, h.cnt, ?_, fun u s n hu => h.held u s n (key u s n hu).2, ?_, ?_, ?_, ?_⟩
  · intro x hx
    simp only [List.mem_cons] at hx
    rcases hx with rfl | hx
    · exact h.held t s0 n0 ht
    · exact h.out x hx
  · rw [List.pairwise_cons]
    exact ⟨fun x hx => h.apart t s0 n0 ht x hx, h.nodup⟩
  · intro u s n hu x hx
    obtain ⟨h1, h2⟩ := key u s n hu
    simp only [List.mem_cons] at hx
    rcases hx with rfl | hx
    · exact h.apart' u t h1 s n s0 n0 h2 ht
    · exact h.apart u s n h2 x hx
  · intro u u' hne s n s' n' hu hu'
    exact h.apart' u u' hne s n s' n' (key u s n hu).2 (key u' s' n' hu').2
  · intro u s hu
    simp only [GenSt.setPc] at hu
    split at hu
    · simp at hu
    · exact h.found u s hu

theorem facInv_step (min : BitVec 64) (N : Nat) (st : GenSt Key) (h : FacInv (min - 1) N st) (t : Nat) (a : Act Key)
    (hN : N + incrs [(t, a)] < 2 ^ 64) : FacInv (min - 1) (N + incrs [(t, a)]) (genStep min st t a) := by
  cases a with
  | tmp s => exact ⟨h.congr, h.cnt, h.out, h.held, h.nodup, h.apart, h.apart', h.found⟩
  | reset m => exact ⟨h.congr, h.cnt, h.out, h.held, h.nodup, h.apart, h.apart', h.found⟩
  | call s =>
    have e : incrs [(t, (Act.call s : Act Key))] = 0 := rfl
    rw [e]; unfold genStep; simp only
    split
    · exact h.setPc t _ (by simp) (by simp)
    · exact h
  | begin_ =>
    have e : incrs [(t, (Act.begin_ : Act Key))] = 0 := rfl
    rw [e]; unfold genStep; simp only
    split
    · exact h.setPc t _ (by simp) (by simp)
    · exact h
  | find =>
    have e : incrs [(t, (Act.find : Act Key))] = 0 := rfl
    rw [e]; unfold genStep; simp only
    split
    · rename_i s hpc
      split
      · rename_i v hv
        exact h.setPc t _ (by simp) (by intro s' hs'; simp only [PC.found.injEq] at hs'; subst hs'; simp [hv])
      · rename_i hv
        have h1 := h.insert s hv
        exact h1.setPc t (.found s) (by simp) (by
          intro s' hs'; simp only [PC.found.injEq] at hs'; subst hs'; simp [setCounter, space_cmp_refl])
    · exact h
  | incr =>
    have e : incrs [(t, (Act.incr : Act Key))] = 1 := rfl
    rw [e] at hN ⊢; unfold genStep; simp only
    split
    · split
      · rename_i v hv
        exact h.incr hN t _ v hv
      · exact h.mono (by omega)
    · exact h.mono (by omega)
  | accept =>
    have e : incrs [(t, (Act.accept : Act Key))] = 0 := rfl
    rw [e]; unfold genStep; simp only
    split
    · rename_i s n hpc
      exact h.accept t s n hpc
    · exact h
  | reject =>
    have e : incrs [(t, (Act.reject : Act Key))] = 0 := rfl
    rw [e]; unfold genStep; simp only
    split
    · exact h.setPc t _ (by simp) (by simp)
    · exact h

theorem incrs_cons (e : Nat × Act Key) (l : List (Nat × Act Key)) : incrs (e :: l) = incrs [e] + incrs l := by
  simp only [incrs, List.filter_cons, List.filter_nil]
  split
  · simp; omega
  · simp

theorem facInv_run (min : BitVec 64) (l : List (Nat × Act Key)) : ∀ (N : Nat) (st : GenSt Key), FacInv (min - 1) N st →
    N + incrs l < 2 ^ 64 → FacInv (min - 1) (N + incrs l) (genRun min st l) := by
  induction l with
  | nil => intro N st h _; simpa [incrs, genRun] using h
  | cons e l ih =>
    intro N st h hN
    rw [incrs_cons] at hN ⊢
    rw [genRun_cons, ← Nat.add_assoc]
    exact ih _ _ (facInv_step min N st h e.1 e.2 (by have : incrs [(e.1, e.2)] = incrs [e] := rfl; omega)) (by omega)

theorem facInv_init (min tmp0 : BitVec 64) : FacInv (Key := Key) (min - 1) 0 (genInit tmp0) :=
  ⟨fun _ _ _ => rfl, by simp [genInit], by simp [genInit], by simp [genInit], by simp [genInit], by simp [genInit], by simp [genInit],
    by simp [genInit]⟩

/-- **C22** (factory): for every number of threads and every schedule with fewer than 2^64 increments, with indices accepted or rejected
by the validator in any way, no two calls of `make` return indices that are equal or equivalent, whatever their proto-indices. -/
theorem factory_unique_partial (min tmp0 : BitVec 64) (l : List (Nat × Act Key)) (hn : incrs l < 2 ^ 64) :
    (genRun min (genInit tmp0) l).facOut.Pairwise Apart := by
  have := facInv_run min l 0 (genInit tmp0) (facInv_init min tmp0) (by omega)
  exact this.nodup

/-- Results that are apart are different indices. -/
theorem apart_beq (a b : Space Key × BitVec 64) (h : Apart a b) (p q : List (Idx Key)) (y z : Bool) (t u : Option Int) :
    Idx.beq (.mk a.1 (some a.2.toNat) p y t) (.mk b.1 (some b.2.toNat) q z u) = false := by
  rw [← Bool.not_eq_true, Idx.beq_mk]
  intro hc
  apply h
  obtain ⟨h1, h2, -⟩ := hc
  refine ⟨h1 ▸ space_cmp_refl _, ?_⟩
  exact BitVec.eq_of_toNat_eq (by simpa using h2)

/-- The ordinals of the factory are never below `min_index_`. -/
theorem factory_fresh_partial (min tmp0 : BitVec 64) (h1 : 1 ≤ min.toNat) (l : List (Nat × Act Key)) (hn : min.toNat + incrs l ≤ 2 ^ 64) :
    ∀ x ∈ (genRun min (genInit tmp0) l).facOut, min.toNat ≤ x.2.toNat := by
  have h := facInv_run min l 0 (genInit tmp0) (facInv_init min tmp0) (by have := min.isLt; omega)
  intro x hx
  obtain ⟨v, k, c, -, -, h3, h4, h5, h6⟩ := h.out x hx
  rw [h6]
  have hlt := min.isLt
  simp only [BitVec.toNat_add, BitVec.toNat_sub, BitVec.toNat_ofNat]
  have : (1 : BitVec 64).toNat = 1 := rfl
  omega

/-! ### Refutations -/

/-- Two threads are about to access the same memory, one of them writing, and the lock does not order them: one evaluates
`counters_.begin()` without the lock (1131, 1161) while the other is about to insert into the map. -/
def DataRace (st : GenSt Key) : Prop :=
  ∃ t t' s s', t ≠ t' ∧ st.pc t = .enter s ∧ st.pc t' = .wait s' ∧ st.counters s' = none

/-- **C22**, undefined behaviour: the very first two concurrent calls race. -/
theorem factory_data_race (min tmp0 : BitVec 64) (s : Space Key) :
    DataRace (genRun min (genInit tmp0) [(0, .call s), (1, .call s), (1, .begin_)]) :=
  ⟨0, 1, s, s, by decide, rfl, rfl, rfl⟩

/-- A temporary index and an index of a factory may be the same: both start at the same ordinal. -/
theorem tmp_factory_collide (m : BitVec 64) (s : Space Key) :
    let st := genRun m (genInit m) [(0, .tmp s), (0, .call s), (0, .begin_), (0, .find), (0, .incr), (0, .accept)]
    st.tmpOut = st.facOut ∧ st.tmpOut ≠ [] := by
  refine ⟨?_, ?_⟩ <;> simp [genRun, genStep, genInit, GenSt.setPc, setCounter, space_cmp_refl]

/-! ### Example -/

example : let s : Space Nat := ⟨⟨1#32, 0#32⟩, 0⟩
    (genRun 100#64 (genInit 100#64) [(0, .call s), (1, .call s), (0, .begin_), (1, .begin_), (1, .find), (0, .find), (0, .incr), (1, .incr),
      (1, .reject), (0, .accept), (1, .begin_), (1, .find), (1, .incr), (1, .accept), (2, .tmp s), (0, .tmp s)]).facOut =
      [(s, 102#64), (s, 100#64)] := by decide

end SeQuant.Indices
