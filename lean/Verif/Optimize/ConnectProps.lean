import Verif.Optimize.DpProps
import Mathlib.Logic.Relation
import Mathlib.Data.Finset.Card
import Mathlib.Data.Finset.Filter
import Mathlib.Data.Finset.Range

/-!
# Connected subsets (single_term_detail.hpp:408-491)
-/

namespace SeQuant.Optimize

open SeQuant.Bits

section graph

variable {w : Nat} (adj : Nat → BitVec w)

/-- A step within the subset `n`. -/
def Step (n : BitVec w) (i j : Nat) : Prop := (adj i).getLsbD j = true ∧ n.getLsbD j = true

/-- Reachable within the subset `n`. -/
def Reach (n : BitVec w) : Nat → Nat → Prop := Relation.ReflTransGen (Step adj n)

/-- Any two tensors of the subset are connected by a chain of contractions inside the subset. -/
def Connected (n : BitVec w) : Prop := ∀ i j, n.getLsbD i = true → n.getLsbD j = true → Reach adj n i j

theorem neighbours_bit (f : BitVec w) (j : Nat) : (neighbours adj f).getLsbD j = true ↔ ∃ i, f.getLsbD i = true ∧ (adj i).getLsbD j = true := by
  unfold neighbours
  have gen : ∀ (L : List Nat) (a : BitVec w), (L.foldl (fun next b => next ||| adj b) a).getLsbD j = true ↔
      a.getLsbD j = true ∨ ∃ i ∈ L, (adj i).getLsbD j = true := by
    intro L
    induction L with
    | nil => simp
    | cons b L ih =>
      intro a
      rw [List.foldl_cons, ih]
      simp only [BitVec.getLsbD_or, Bool.or_eq_true, List.mem_cons, exists_eq_or_imp]
      tauto
  rw [gen]
  have h := (onBitsIndex_complete f).1
  simp only [h]
  simp

/-- How many tensors of `n` are missing from `r`. -/
def missing (n r : BitVec w) : Nat := ((Finset.range w).filter fun i => n.getLsbD i = true ∧ r.getLsbD i = false).card

theorem bfs_spec (n : BitVec w) (s : Nat) : ∀ (fuel : Nat) (r f : BitVec w),
    missing n r + 2 ≤ fuel →
    r.getLsbD s = true → (∀ i, f.getLsbD i = true → r.getLsbD i = true) →
    (∀ i, r.getLsbD i = true → n.getLsbD i = true ∧ Reach adj n s i) →
    (∀ i j, r.getLsbD i = true → f.getLsbD i = false → Step adj n i j → r.getLsbD j = true) →
    ∃ r', bfs adj n fuel r f = some r' ∧ ∀ i, r'.getLsbD i = true ↔ n.getLsbD i = true ∧ Reach adj n s i := by
  intro fuel
  induction fuel with
  | zero => intro r f h; omega
  | succ fuel ih =>
    intro r f hm hr hf hreach hclosed
    unfold bfs
    by_cases h0 : f = 0
    · rw [if_pos h0]
      refine ⟨r, rfl, fun i => ⟨hreach i, ?_⟩⟩
      rintro ⟨hi, hri⟩
      clear hi
      induction hri with
      | refl => exact hr
      | tail _ hst ih => exact hclosed _ _ ih (by rw [h0]; simp) hst
    · rw [if_neg h0]
      simp only
      generalize hnext : neighbours adj f &&& (n &&& ~~~ r) = next
      have bnext : ∀ j, next.getLsbD j = true ↔ (∃ i, f.getLsbD i = true ∧ (adj i).getLsbD j = true) ∧ n.getLsbD j = true ∧ r.getLsbD j = false := by
        intro j
        rw [← hnext, BitVec.getLsbD_and, BitVec.getLsbD_and, Bool.and_eq_true, Bool.and_eq_true, neighbours_bit, BitVec.getLsbD_not]
        constructor
        · rintro ⟨a, b, c⟩
          refine ⟨a, b, ?_⟩
          simp at c; exact c.2
        · rintro ⟨a, b, c⟩
          have hj : j < w := by
            by_contra hge
            rw [BitVec.getLsbD_of_ge n j (by omega)] at b
            simp at b
          exact ⟨a, b, by simp only [hj, c]; decide⟩
      have hr' : ∀ i, (r ||| next).getLsbD i = true ↔ r.getLsbD i = true ∨ next.getLsbD i = true := by
        intro i; rw [BitVec.getLsbD_or, Bool.or_eq_true]
      have hreach' : ∀ i, (r ||| next).getLsbD i = true → n.getLsbD i = true ∧ Reach adj n s i := by
        intro i hi
        rw [hr'] at hi
        rcases hi with hi | hi
        · exact hreach i hi
        · obtain ⟨⟨k, hk, hki⟩, hni, -⟩ := (bnext i).mp hi
          exact ⟨hni, (hreach k (hf k hk)).2.tail ⟨hki, hni⟩⟩
      have hclosed' : ∀ i j, (r ||| next).getLsbD i = true → next.getLsbD i = false → Step adj n i j → (r ||| next).getLsbD j = true := by
        intro i j hi hni hst
        rw [hr'] at hi ⊢
        rcases hi with hi | hi
        · cases hfi : f.getLsbD i with
          | false => exact .inl (hclosed i j hi hfi hst)
          | true =>
            cases hrj : r.getLsbD j with
            | true => exact .inl rfl
            | false => exact .inr ((bnext j).mpr ⟨⟨i, hfi, hst.1⟩, hst.2, hrj⟩)
        · rw [hni] at hi; simp at hi
      by_cases hn0 : next = 0
      · -- last round
        have hz : ∀ i, next.getLsbD i = false := by intro i; rw [hn0]; simp
        cases fuel with
        | zero => omega
        | succ fuel =>
          unfold bfs
          rw [if_pos hn0]
          refine ⟨_, rfl, fun i => ⟨hreach' i, ?_⟩⟩
          rintro ⟨hi, hri⟩
          clear hi
          induction hri with
          | refl => rw [hr']; exact .inl hr
          | tail _ hst ih => exact hclosed' _ _ ih (hz _) hst
      · obtain ⟨k, hkw, hk⟩ := exists_bit hn0
        have hless : missing n (r ||| next) < missing n r := by
          apply Finset.card_lt_card
          rw [Finset.ssubset_iff_of_subset]
          · refine ⟨k, ?_, ?_⟩
            · simp only [Finset.mem_filter, Finset.mem_range]
              exact ⟨hkw, ((bnext k).mp hk).2⟩
            · simp only [Finset.mem_filter, Finset.mem_range, not_and]
              intro _ _ h
              rw [BitVec.getLsbD_or, hk] at h
              simp at h
          · intro i hi
            simp only [Finset.mem_filter, Finset.mem_range] at hi ⊢
            refine ⟨hi.1, hi.2.1, ?_⟩
            have := hi.2.2
            rw [BitVec.getLsbD_or] at this
            simp at this; exact this.1
        exact ih (r ||| next) next (by omega) ((hr' s).mpr (.inl hr)) (fun i hi => (hr' i).mpr (.inr hi)) hreach' hclosed'

theorem lowest_bit (n : BitVec w) (h : n ≠ 0) : n &&& (~~~ n + 1) = bit (ctz n.toNat) ∧ n.getLsbD (ctz n.toNat) = true ∧ ctz n.toNat < w := by
  have h0 : n.toNat ≠ 0 := by intro h0; apply h; apply BitVec.eq_of_toNat_eq; simpa using h0
  have t := fun i => testBit_clear n.toNat i h0
  have hc : n.getLsbD (ctz n.toNat) = true := (t 0).2.1
  have hw : ctz n.toNat < w := by
    by_contra hn
    rw [BitVec.getLsbD_of_ge n _ (by omega)] at hc
    simp at hc
  refine ⟨?_, hc, hw⟩
  have h1w : 1 < 2 ^ w := by have := n.isLt; omega
  have e : ~~~ n + 1 = ~~~ (n - 1) := by
    have hle : (1 : BitVec w) ≤ n := by
      rw [BitVec.le_def]
      show (BitVec.ofNat w 1).toNat ≤ _
      rw [BitVec.toNat_ofNat, Nat.mod_eq_of_lt h1w]; omega
    have h1 : (1 : BitVec w).toNat = 1 := by
      show (BitVec.ofNat w 1).toNat = 1
      rw [BitVec.toNat_ofNat, Nat.mod_eq_of_lt h1w]
    apply BitVec.eq_of_toNat_eq
    rw [BitVec.toNat_add, BitVec.toNat_not, BitVec.toNat_not, BitVec.toNat_sub_of_le hle, h1]
    have := n.isLt
    rw [Nat.mod_eq_of_lt (by omega)]
    omega
  have hp1 : (n - 1).toNat = n.toNat - 1 := by
    have hle : (1 : BitVec w) ≤ n := by
      rw [BitVec.le_def]
      show (BitVec.ofNat w 1).toNat ≤ _
      rw [BitVec.toNat_ofNat, Nat.mod_eq_of_lt h1w]; omega
    rw [BitVec.toNat_sub_of_le hle]
    show _ - (BitVec.ofNat w 1).toNat = _
    rw [BitVec.toNat_ofNat, Nat.mod_eq_of_lt h1w]
  rw [e]
  apply BitVec.eq_of_getLsbD_eq
  intro i hi
  rw [getLsbD_bit hw, BitVec.getLsbD_and, BitVec.getLsbD_not]
  have hpi : (n - 1).getLsbD i = (n.toNat - 1).testBit i := by rw [BitVec.getLsbD, hp1]
  have hni : n.getLsbD i = n.toNat.testBit i := rfl
  have ti := (t i).1
  rw [Nat.testBit_and] at ti
  rw [hpi, hni]
  simp only [hi, decide_true, Bool.true_and]
  rcases Nat.lt_trichotomy i (ctz n.toNat) with hlt | heq | hgt
  · rw [(t 0).2.2 i hlt]
    simp [Nat.ne_of_gt hlt]
  · rw [heq] at ti ⊢
    rw [(t 0).2.1] at ti ⊢
    simp at ti ⊢
    exact ti
  · have : ¬ ctz n.toNat = i := by omega
    cases hb : n.toNat.testBit i with
    | false => simp [this]
    | true =>
      rw [hb] at ti
      simp [hgt] at ti
      simp [this, ti]

/-- **C30** (connectivity): the table tells exactly the subsets that are connected in the graph of contractions. -/
theorem connectedSubset_iff (hsym : ∀ i j, (adj i).getLsbD j = (adj j).getLsbD i) (n : BitVec w) :
    connectedSubset adj n = true ↔ Connected adj n := by
  unfold connectedSubset
  by_cases hp : popcount n.toNat ≤ 1
  · rw [if_pos hp]
    simp only [true_iff]
    intro i j hi hj
    have : i = j := by
      rcases Nat.lt_or_ge (popcount n.toNat) 1 with h | h
      · have : n = 0 := (popcount_eq_zero n).mp (by omega)
        rw [this] at hi; simp at hi
      · obtain ⟨k, hk, rfl⟩ := (popcount_eq_one_iff n).mp (by omega)
        rw [getLsbD_bit hk] at hi hj
        exact (of_decide_eq_true hi).symm.trans (of_decide_eq_true hj)
    rw [this]; exact Relation.ReflTransGen.refl
  · rw [if_neg hp]
    have h0 : n ≠ 0 := by rintro rfl; simp [popcount] at hp
    obtain ⟨l1, l2, l3⟩ := lowest_bit n h0
    simp only
    rw [l1]
    generalize hs : ctz n.toNat = s at l2 l3
    have hbit : ∀ i, (bit s : BitVec w).getLsbD i = true ↔ s = i := by
      intro i; rw [getLsbD_bit l3]; exact decide_eq_true_iff
    have hmiss : missing n (bit s : BitVec w) ≤ w := by
      unfold missing
      exact le_trans (Finset.card_filter_le _ _) (by simp)
    obtain ⟨r, e, hr⟩ := bfs_spec adj n s (w + 2) (bit s) (bit s) (by omega) ((hbit s).mpr rfl) (fun i h => h)
      (by intro i hi; rw [hbit] at hi; subst hi; exact ⟨l2, Relation.ReflTransGen.refl⟩)
      (by intro i j h1 h2; rw [h1] at h2; simp at h2)
    rw [e]
    simp only [decide_eq_true_eq]
    -- reachability is symmetric
    have hrev : ∀ i j, n.getLsbD i = true → Reach adj n i j → Reach adj n j i := by
      intro i j hi hij
      induction hij with
      | refl => exact Relation.ReflTransGen.refl
      | @tail b c hb hst ih =>
        have hnb : n.getLsbD b = true := by
          cases hb with
          | refl => exact hi
          | tail _ h => exact h.2
        exact Relation.ReflTransGen.head ⟨by rw [hsym]; exact hst.1, hnb⟩ ih
    constructor
    · intro h i j hi hj
      have ri := ((hr i).mp (by rw [h]; exact hi)).2
      have rj := ((hr j).mp (by rw [h]; exact hj)).2
      exact (hrev s i l2 ri).trans rj
    · intro hc
      apply BitVec.eq_of_getLsbD_eq
      intro i _
      rw [Bool.eq_iff_iff, hr]
      exact ⟨fun h => h.1, fun h => ⟨h, hc s i l2 h⟩⟩

/-- Adding a tensor that is contracted with a connected subset gives a connected subset. -/
theorem Connected.insert (hsym : ∀ i j, (adj i).getLsbD j = (adj j).getLsbD i) (c : BitVec w) (hc : Connected adj c) (u v : Nat) (hv : v < w)
    (hu : c.getLsbD u = true) (huv : (adj u).getLsbD v = true) : Connected adj (c ||| bit v) := by
  have hb : ∀ i, (c ||| bit v).getLsbD i = true ↔ c.getLsbD i = true ∨ v = i := by
    intro i; rw [BitVec.getLsbD_or, getLsbD_bit hv, Bool.or_eq_true, decide_eq_true_iff]
  have mono : ∀ i j, Reach adj c i j → Reach adj (c ||| bit v) i j := by
    intro i j h
    induction h with
    | refl => exact Relation.ReflTransGen.refl
    | tail _ hst ih => exact ih.tail ⟨hst.1, (hb _).mpr (.inl hst.2)⟩
  have step1 : Step adj (c ||| bit v) u v := ⟨huv, (hb v).mpr (.inr rfl)⟩
  have step2 : Step adj (c ||| bit v) v u := ⟨by rw [hsym]; exact huv, (hb u).mpr (.inl hu)⟩
  intro i j hi hj
  rw [hb] at hi hj
  rcases hi with hi | rfl <;> rcases hj with hj | rfl
  · exact mono _ _ (hc i j hi hj)
  · exact (mono _ _ (hc i u hi hu)).tail step1
  · exact Relation.ReflTransGen.head step2 (mono _ _ (hc u j hu hj))
  · exact Relation.ReflTransGen.refl

/-- A connected subset of at least two tensors is a connected subset plus one tensor. -/
theorem Connected.peel (hsym : ∀ i j, (adj i).getLsbD j = (adj j).getLsbD i) (n : BitVec w) (hn : Connected adj n) (s : Nat)
    (hs : n.getLsbD s = true) : ∀ (d : Nat) (c : BitVec w), missing n c = d → c ≠ n → (∀ i, c.getLsbD i = true → n.getLsbD i = true) →
    c.getLsbD s = true → Connected adj c →
    ∃ (c' : BitVec w) (v : Nat), v < w ∧ c'.getLsbD v = false ∧ c' ||| bit v = n ∧ c' ≠ 0 ∧ Connected adj c' := by
  intro d
  induction d using Nat.strongRecOn with
  | _ d ih =>
    intro c hd hne hsub hcs hc
    -- a tensor outside `c`
    have : ∃ t, n.getLsbD t = true ∧ c.getLsbD t = false := by
      by_contra hno
      apply hne
      apply BitVec.eq_of_getLsbD_eq
      intro i _
      cases hi : n.getLsbD i with
      | false =>
        cases hci : c.getLsbD i with
        | false => rfl
        | true => rw [hsub i hci] at hi; simp at hi
      | true =>
        cases hci : c.getLsbD i with
        | true => rfl
        | false => exact absurd ⟨i, hi, hci⟩ hno
    obtain ⟨t, ht, hct⟩ := this
    -- the first step that leaves `c`
    have hcross : ∃ u v, c.getLsbD u = true ∧ c.getLsbD v = false ∧ Step adj n u v := by
      have hreach := hn s t hs ht
      by_contra hno
      have : ∀ x, Reach adj n s x → c.getLsbD x = true := by
        intro x hx
        induction hx with
        | refl => exact hcs
        | @tail b x _ hst ihx =>
          cases hcx : c.getLsbD x with
          | true => rfl
          | false => exact absurd ⟨b, x, ihx, hcx, hst⟩ hno
      rw [this t hreach] at hct; simp at hct
    obtain ⟨u, v, hu, hv, hst⟩ := hcross
    have hvw : v < w := by
      by_contra hge
      have := hst.2
      rw [BitVec.getLsbD_of_ge n v (by omega)] at this
      simp at this
    have hc' := Connected.insert adj hsym c hc u v hvw hu hst.1
    have hb : ∀ i, (c ||| bit v).getLsbD i = true ↔ c.getLsbD i = true ∨ v = i := by
      intro i; rw [BitVec.getLsbD_or, getLsbD_bit hvw, Bool.or_eq_true, decide_eq_true_iff]
    by_cases he : c ||| bit v = n
    · refine ⟨c, v, hvw, hv, he, ?_, hc⟩
      rintro rfl; simp at hcs
    · have hless : missing n (c ||| bit v) < missing n c := by
        apply Finset.card_lt_card
        rw [Finset.ssubset_iff_of_subset]
        · refine ⟨v, ?_, ?_⟩
          · simp only [Finset.mem_filter, Finset.mem_range]; exact ⟨hvw, hst.2, hv⟩
          · simp only [Finset.mem_filter, Finset.mem_range, not_and]
            intro _ _ h
            rw [(hb v).mpr (.inr rfl)] at h; simp at h
        · intro i hi
          simp only [Finset.mem_filter, Finset.mem_range] at hi ⊢
          refine ⟨hi.1, hi.2.1, ?_⟩
          have := hi.2.2
          rw [BitVec.getLsbD_or] at this
          simp at this; exact this.1
      refine ih (missing n (c ||| bit v)) (by omega) (c ||| bit v) rfl he ?_ ((hb s).mpr (.inl hcs)) hc'
      intro i hi
      rcases (hb i).mp hi with h | rfl
      · exact hsub i h
      · exact hst.2

/-- **C30**: pruning outer products never blocks the optimizer. -/
theorem connectedSubset_splittable (hsym : ∀ i j, (adj i).getLsbD j = (adj j).getLsbD i) (nt : Nat) (hnt : nt ≤ w) :
    Splittable (connectedSubset adj) nt := by
  refine ⟨?_, ?_⟩
  · intro i hi
    unfold connectedSubset
    rw [if_pos]
    rw [(popcount_eq_one_iff _).mpr ⟨i, by omega, rfl⟩]
  · intro n _ hc hp
    rw [connectedSubset_iff adj hsym] at hc
    have h0 : n ≠ 0 := by rintro rfl; simp [popcount] at hp
    obtain ⟨s, hsw, hs⟩ := exists_bit h0
    have hbs : ∀ i, (bit s : BitVec w).getLsbD i = true ↔ s = i := by
      intro i; rw [getLsbD_bit hsw]; exact decide_eq_true_iff
    obtain ⟨c, v, hv, hcv, hun, hc0, hcc⟩ := Connected.peel adj hsym n hc s hs _ (bit s) rfl
      (by
        intro h
        have := (popcount_eq_one_iff n).mpr ⟨s, hsw, h.symm⟩
        omega)
      (by intro i hi; rw [hbs] at hi; rw [← hi]; exact hs)
      ((hbs s).mpr rfl)
      (by
        intro i j hi hj
        rw [hbs] at hi hj
        rw [← hi, ← hj]; exact Relation.ReflTransGen.refl)
    refine ⟨c, bit v, ⟨hc0, bit_ne_zero hv, ?_, hun⟩, (connectedSubset_iff adj hsym c).mpr hcc, ?_⟩
    · apply BitVec.eq_of_getLsbD_eq
      intro i _
      rw [BitVec.getLsbD_and, getLsbD_bit hv]
      by_cases h : v = i
      · subst h; simp [hcv]
      · simp [h]
    · unfold connectedSubset
      rw [if_pos]
      rw [(popcount_eq_one_iff _).mpr ⟨v, hv, rfl⟩]

end graph

theorem all_splittable {w : Nat} (nt : Nat) : Splittable (fun _ : BitVec w => true) nt := by
  refine ⟨fun _ _ => rfl, ?_⟩
  intro n _ _ hp
  have h0 : n ≠ 0 := by rintro rfl; simp [popcount] at hp
  obtain ⟨s, hsw, hs⟩ := exists_bit h0
  refine ⟨bit s, n &&& ~~~ bit s, ⟨bit_ne_zero hsw, ?_, ?_, ?_⟩, rfl, rfl⟩
  · intro h
    have : n = bit s := by
      apply BitVec.eq_of_getLsbD_eq
      intro i hi
      have hz : (n &&& ~~~ bit s).getLsbD i = false := by rw [h]; simp
      rw [BitVec.getLsbD_and, BitVec.getLsbD_not, getLsbD_bit hsw] at hz
      rw [getLsbD_bit hsw]
      by_cases hsi : s = i
      · subst hsi; simp [hs]
      · simp [hi, hsi] at hz ⊢; exact hz
    have := (popcount_eq_one_iff n).mpr ⟨s, hsw, this⟩
    omega
  · apply BitVec.eq_of_getLsbD_eq
    intro i hi
    rw [BitVec.getLsbD_and, BitVec.getLsbD_and, BitVec.getLsbD_not]
    cases (bit s : BitVec w).getLsbD i <;> simp
  · apply BitVec.eq_of_getLsbD_eq
    intro i hi
    rw [BitVec.getLsbD_or, BitVec.getLsbD_and, BitVec.getLsbD_not, getLsbD_bit hsw]
    by_cases hsi : s = i
    · subst hsi; simp [hs]
    · simp [hsi, hi]

/-- **C30** (connectivity): whatever the option and the network, the table used by the optimizer can be worked through. -/
theorem connectivity_splittable {w : Nat} (adj : Nat → BitVec w) (hsym : ∀ i j, (adj i).getLsbD j = (adj j).getLsbD i) (prune : Bool)
    (full : BitVec w) (nt : Nat) (hnt : nt ≤ w) :
    Splittable (outerProductConnectivity adj prune full) nt ∧ outerProductConnectivity adj prune full full = true := by
  unfold outerProductConnectivity
  cases prune with
  | false => simp; exact all_splittable nt
  | true =>
    cases h : connectedSubset adj full with
    | false => simp [h]; exact all_splittable nt
    | true => simp only [Bool.not_true, Bool.false_eq_true, if_false]; exact ⟨connectedSubset_splittable adj hsym nt hnt, h⟩

/-! ### The graph of a network -/

section network

variable {w : Nat} {ι : Type} [DecidableEq ι] (net : List (List ι)) (targets : List ι)

theorem carriers_bit (hw : net.length ≤ w) (ix : ι) (i : Nat) : (carriers net targets ix : BitVec w).getLsbD i = true ↔
    i < net.length ∧ ix ∈ net.getD i [] ∧ ix ∉ targets := by
  unfold carriers
  have gen : ∀ (L : List Nat) (a : BitVec w), (∀ k ∈ L, k < w) →
      ((L.foldl (fun m i => if ix ∈ net.getD i [] ∧ ix ∉ targets then m ||| bit i else m) a).getLsbD i = true ↔
      a.getLsbD i = true ∨ (i ∈ L ∧ ix ∈ net.getD i [] ∧ ix ∉ targets)) := by
    intro L
    induction L with
    | nil => simp
    | cons k L ih =>
      intro a hL
      rw [List.foldl_cons, ih _ fun k hk => hL k (by simp [hk])]
      by_cases hk : ix ∈ net.getD k [] ∧ ix ∉ targets
      · rw [if_pos hk, BitVec.getLsbD_or, getLsbD_bit (hL k (by simp)), Bool.or_eq_true, decide_eq_true_iff]
        constructor
        · rintro ((h | rfl) | h)
          · exact .inl h
          · exact .inr ⟨by simp, hk⟩
          · exact .inr ⟨by simp [h.1], h.2⟩
        · rintro (h | ⟨h, h'⟩)
          · exact .inl (.inl h)
          · simp only [List.mem_cons] at h
            rcases h with rfl | h
            · exact .inl (.inr rfl)
            · exact .inr ⟨h, h'⟩
      · rw [if_neg hk]
        constructor
        · rintro (h | h)
          · exact .inl h
          · exact .inr ⟨by simp [h.1], h.2⟩
        · rintro (h | ⟨h, h'⟩)
          · exact .inl h
          · simp only [List.mem_cons] at h
            rcases h with rfl | h
            · exact absurd h' hk
            · exact .inr ⟨h, h'⟩
  rw [gen _ _ (by intro k hk; rw [List.mem_range] at hk; omega)]
  simp only [List.mem_range]
  simp

/-- **C30** (adjacency): two different tensors are adjacent if and only if they share an index that is not a target. -/
theorem adjacency_iff (hw : net.length ≤ w) (b c : Nat) : (adjacency net targets b : BitVec w).getLsbD c = true ↔
    b ≠ c ∧ b < net.length ∧ c < net.length ∧ ∃ ix, ix ∈ net.getD b [] ∧ ix ∈ net.getD c [] ∧ ix ∉ targets := by
  unfold adjacency
  have gen : ∀ (L : List ι) (a : BitVec w), (L.foldl (fun a ix =>
      let cm : BitVec w := carriers net targets ix
      if popcount cm.toNat < 2 then a else if cm.getLsbD b then a ||| (cm &&& ~~~ bit b) else a) a).getLsbD c = true ↔
      a.getLsbD c = true ∨ ∃ ix ∈ L, b ≠ c ∧ (carriers net targets ix : BitVec w).getLsbD b = true ∧ (carriers net targets ix : BitVec w).getLsbD c = true := by
    intro L
    induction L with
    | nil => simp
    | cons ix L ih =>
      intro a
      rw [List.foldl_cons, ih]
      simp only [List.mem_cons, exists_eq_or_imp]
      generalize (carriers net targets ix : BitVec w) = cm
      have bitb : cm.getLsbD b = true → b < w := by
        intro h
        by_contra hge
        rw [BitVec.getLsbD_of_ge cm b (by omega)] at h
        simp at h
      have bitc : cm.getLsbD c = true → c < w := by
        intro h
        by_contra hge
        rw [BitVec.getLsbD_of_ge cm c (by omega)] at h
        simp at h
      by_cases hp : popcount cm.toNat < 2
      · rw [if_pos hp]
        have : ¬ (b ≠ c ∧ cm.getLsbD b = true ∧ cm.getLsbD c = true) := by
          rintro ⟨hne, h1, h2⟩
          rcases Nat.lt_or_ge (popcount cm.toNat) 1 with h | h
          · have : cm = 0 := (popcount_eq_zero cm).mp (by omega)
            rw [this] at h1; simp at h1
          · obtain ⟨k, hk, rfl⟩ := (popcount_eq_one_iff cm).mp (by omega)
            rw [getLsbD_bit hk] at h1 h2
            exact hne ((of_decide_eq_true h1).symm.trans (of_decide_eq_true h2))
        tauto
      · rw [if_neg hp]
        cases hb : cm.getLsbD b with
        | false => simp
        | true =>
          simp only [if_true]
          rw [BitVec.getLsbD_or, BitVec.getLsbD_and, BitVec.getLsbD_not, getLsbD_bit (bitb hb)]
          cases hc : cm.getLsbD c with
          | false => simp
          | true =>
            have := bitc hc
            simp only [this, decide_true, Bool.true_and, Bool.or_eq_true, Bool.not_eq_true', decide_eq_false_iff_not, and_true, ne_eq]
            tauto
  rw [gen]
  simp only [carriers_bit net targets hw, List.mem_dedup, List.mem_flatten]
  constructor
  · rintro (h | ⟨ix, -, h1, h2, h3⟩)
    · simp at h
    · exact ⟨h1, h2.1, h3.1, ix, h2.2.1, h3.2.1, h2.2.2⟩
  · rintro ⟨h1, h2, h3, ix, h4, h5, h6⟩
    refine .inr ⟨ix, ⟨net.getD b [], ?_, h4⟩, h1, ⟨h2, h4, h6⟩, ⟨h3, h5, h6⟩⟩
    have e : net.getD b [] = net[b] := by simp [List.getD, h2]
    rw [e]
    exact List.getElem_mem h2

theorem adjacency_symm (hw : net.length ≤ w) (b c : Nat) : (adjacency net targets b : BitVec w).getLsbD c = (adjacency net targets c : BitVec w).getLsbD b := by
  rw [Bool.eq_iff_iff, adjacency_iff net targets hw, adjacency_iff net targets hw]
  constructor
  · rintro ⟨h1, h2, h3, ix, h4, h5, h6⟩; exact ⟨h1.symm, h3, h2, ix, h5, h4, h6⟩
  · rintro ⟨h1, h2, h3, ix, h4, h5, h6⟩; exact ⟨h1.symm, h3, h2, ix, h5, h4, h6⟩

end network

example : connectedSubset (adjacency [["i", "a"], ["a", "k"], ["b", "c"]] []) (0b011#8) = true ∧
    connectedSubset (adjacency [["i", "a"], ["a", "k"], ["b", "c"]] []) (0b111#8) = false := by decide +kernel

end SeQuant.Optimize
