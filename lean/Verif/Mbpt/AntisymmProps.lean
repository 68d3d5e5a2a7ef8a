import Verif.Mbpt.AntisymmModel
import Verif.Perm.NextProps
import Mathlib.Data.List.Sort
import Mathlib.GroupTheory.Perm.Sign
import Mathlib.Algebra.Module.Basic
import Mathlib.Tactic.Abel

/-! # C42: every coset once, with its sign -/

namespace SeQuant.Mbpt

open SeQuant.Perm SeQuant.Sort

/-! ## The successor function is that of C07 -/

/-- The lambda and `next_permutation_parity` give the same permutation; the number of swaps has the reported parity. -/
theorem swapNext_eq (l : List Nat) (p : Nat) :
    nextPermutationParity (fun a b => decide (a < b)) p l
      = (swapNext l).map (fun r => (r.1, r.2.1, if l.length ≤ 1 then p else (p + r.2.2) % 2)) := by
  unfold nextPermutationParity swapNext
  by_cases h : l.length ≤ 1
  · simp [h]
  · simp only [if_neg h]
    cases findPivot (fun a b => decide (a < b)) l (l.length - 1) with
    | none => rfl
    | some o =>
      cases o with
      | none => rfl
      | some i =>
        simp only
        cases findSwap (fun a b => decide (a < b)) l i l.length with
        | none => rfl
        | some j =>
          simp only
          cases iterSwap l i j with
          | none => rfl
          | some l' => simp [Nat.add_assoc]

theorem enumerate_head {fuel p : Nat} {l : List Nat} {vs : List (List Nat × Nat)}
    (h : enumerate (fun a b => decide (a < b)) fuel p l = some vs) : vs = (l, p) :: vs.tail := by
  cases fuel with
  | zero => simp [enumerate] at h
  | succ f =>
    unfold enumerate at h
    split at h
    · simp at h
    · simp only [Option.some.injEq] at h
      rw [← h]; rfl
    · rw [Option.map_eq_some_iff] at h
      obtain ⟨a, _, rfl⟩ := h
      rfl

/-- What is made of a visited permutation. -/
def entry {T : Type} (xs : List T) (v : List Nat × Nat) : Int × List (Option T) :=
  (if v.2 % 2 = 0 then 1 else -1, v.1.map (fun i => xs[i]?))

theorem uniqueLoop_eq {T : Type} (groups : List (Nat × Nat)) (xs : List T) (fuel : Nat) :
    ∀ (numbers : List Nat) (total p : Nat), p % 2 = total % 2 →
    uniqueLoop groups xs fuel numbers total
      = (enumerate (fun a b => decide (a < b)) fuel p numbers).map
          (fun vs => (vs.tail.filter (fun v => groups.all (groupSorted v.1))).map (entry xs)) := by
  induction fuel with
  | zero => intro numbers total p _; rfl
  | succ f ih =>
    intro numbers total p hp
    unfold uniqueLoop enumerate
    rw [swapNext_eq]
    cases hs : swapNext numbers with
    | none => simp
    | some r =>
      obtain ⟨b, l', k⟩ := r
      cases b with
      | false => simp
      | true =>
        have hlen : ¬ numbers.length ≤ 1 := by
          intro hl
          unfold swapNext at hs
          rw [if_pos hl] at hs
          simp at hs
        simp only [Option.map_some, if_neg hlen]
        rw [ih l' (total + k) ((p + k) % 2) (by omega)]
        cases he : enumerate (fun a b => decide (a < b)) f ((p + k) % 2) l' with
        | none => simp
        | some vs =>
          have hh := enumerate_head he
          simp only [Option.map_some, List.tail_cons]
          rw [hh]
          simp only [List.tail_cons]
          by_cases hc : groups.all (groupSorted l') = true
          · rw [List.filter_cons_of_pos (by simpa using hc)]
            simp only [hc, if_true, List.map_cons, Option.some.injEq, List.cons.injEq, and_true]
            unfold entry
            have : (total + k) % 2 = (p + k) % 2 % 2 := by omega
            rw [this]
          · rw [List.filter_cons_of_neg (by simpa using hc)]
            simp [hc]

/-! ## Groups as slices -/

/-- Cut a list into consecutive pieces of given lengths. -/
def slices {α : Type} : List Nat → List α → List (List α)
  | [], _ => []
  | k :: ks, l => l.take k :: slices ks (l.drop k)

theorem isSorted_iff (l : List Nat) : isSorted l = true ↔ l.Pairwise (· ≤ ·) := by
  rw [← List.isChain_iff_pairwise]
  fun_induction isSorted l with
  | case1 a b l ih =>
    rw [Bool.and_eq_true, ih, List.isChain_cons_cons]
    simp
  | case2 l h =>
    cases l with
    | nil => simp
    | cons a l =>
      cases l with
      | nil => simp
      | cons b l => exact absurd rfl (h a b l)

theorem groups_slices (sizes : List Nat) (start : Nat) (m : List Nat) :
    (groupsFrom start sizes).all (groupSorted m) = true
      ↔ ∀ s ∈ slices sizes (m.drop start), s.Pairwise (· ≤ ·) := by
  induction sizes generalizing start with
  | nil => simp [groupsFrom, slices]
  | cons k ks ih =>
    simp only [groupsFrom, slices, List.all_cons, Bool.and_eq_true, ih, List.mem_cons, forall_eq_or_imp]
    have h1 : groupSorted m (start, start + k) = true ↔ (List.take k (List.drop start m)).Pairwise (· ≤ ·) := by
      unfold groupSorted
      rw [isSorted_iff]
      simp
    rw [h1, List.drop_drop]

theorem slices_flatten {α : Type} (sizes : List Nat) (l : List α) (h : l.length = sizes.sum) :
    (slices sizes l).flatten = l := by
  induction sizes generalizing l with
  | nil =>
    simp only [List.sum_nil, List.length_eq_zero_iff] at h
    simp [slices, h]
  | cons k ks ih =>
    simp only [List.sum_cons] at h
    simp only [slices, List.flatten_cons]
    rw [ih (l.drop k) (by simp; omega)]
    simp

theorem slices_lengths {α : Type} (sizes : List Nat) (l : List α) (h : l.length = sizes.sum) :
    (slices sizes l).map List.length = sizes := by
  induction sizes generalizing l with
  | nil => rfl
  | cons k ks ih =>
    simp only [List.sum_cons] at h
    simp only [slices, List.map_cons, List.length_take]
    rw [ih (l.drop k) (by simp; omega), Nat.min_eq_left (by omega)]

theorem slices_of_flatten {α : Type} (gs : List (List α)) : slices (gs.map List.length) gs.flatten = gs := by
  induction gs with
  | nil => rfl
  | cons g gs ih =>
    simp only [List.map_cons, List.flatten_cons, slices, List.take_left', List.drop_left']
    rw [ih]

/-! ## The theorem -/

/-- **C42.**  For every list of group sizes and all indices, the generated list has one entry for every permutation whose groups are
ascending, and no other; each entry carries the sign of its permutation. -/
theorem genUnique_complete {T : Type} (sizes : List Nat) (xs : List T) (hx : xs.length = sizes.sum) :
    ∃ N, ∀ fuel, N ≤ fuel → ∃ res : List (Int × List Nat),
      genUnique (groupsFrom 0 sizes) fuel xs = some (res.map (fun e => (e.1, e.2.map (fun i => xs[i]?)))) ∧
      (res.map (·.2)).Nodup ∧
      (∀ p, p ∈ res.map (·.2) ↔ p.Perm (List.range xs.length) ∧ ∀ s ∈ slices sizes p, s.Pairwise (· ≤ ·)) ∧
      (∀ e ∈ res, ∃ σ : Equiv.Perm (Fin xs.length), e.2 = List.ofFn (fun i => (σ i : Nat)) ∧
        e.1 = (Equiv.Perm.sign σ : Int)) := by
  have hrange : (List.range xs.length).Pairwise (· ≤ ·) := List.pairwise_le_range
  obtain ⟨N, hN⟩ := enumerate_complete (List.range xs.length) hrange
  refine ⟨N, fun fuel hf => ?_⟩
  obtain ⟨vs, he, hpw, hmem, hsign⟩ := hN fuel hf
  have hh := enumerate_head he
  have hcanon : (groupsFrom 0 sizes).all (groupSorted (List.range xs.length)) = true := by
    rw [groups_slices]
    intro s hs
    refine List.Pairwise.sublist ?_ hrange
    have h0 := List.sublist_flatten_of_mem hs
    rw [List.drop_zero, slices_flatten sizes _ (by simp [hx])] at h0
    exact h0
  refine ⟨(vs.filter (fun v => (groupsFrom 0 sizes).all (groupSorted v.1))).map
    (fun v => (if v.2 % 2 = 0 then 1 else -1, v.1)), ?_, ?_, ?_, ?_⟩
  · unfold genUnique
    rw [uniqueLoop_eq (groupsFrom 0 sizes) xs fuel _ 0 0 rfl, he]
    simp only [Option.map_some]
    conv_rhs => rw [hh]
    rw [List.filter_cons_of_pos (by simpa using hcanon)]
    simp only [List.map_cons, List.map_map]
    congr 2
    simp only [if_true, Prod.mk.injEq, true_and]
    apply List.ext_getElem
    · simp
    · intro i h1 h2
      simp only [List.length_map] at h1
      simp [h1]
  · have : (vs.map Prod.fst).Nodup := hpw.imp (fun h => ne_of_lt h)
    have h2 := (List.Sublist.map Prod.fst (List.filter_sublist (l := vs)
      (p := fun v => (groupsFrom 0 sizes).all (groupSorted v.1)))).nodup this
    simpa [List.map_map, Function.comp_def] using h2
  · intro p
    rw [← hmem p]
    simp only [List.map_map, List.mem_map, Function.comp_apply, List.mem_filter]
    constructor
    · rintro ⟨v, ⟨hv, hg⟩, rfl⟩
      rw [groups_slices, List.drop_zero] at hg
      exact ⟨⟨v, hv, rfl⟩, hg⟩
    · rintro ⟨⟨v, hv, rfl⟩, hg⟩
      refine ⟨v, ⟨hv, ?_⟩, rfl⟩
      rw [groups_slices, List.drop_zero]
      exact hg
  · intro e hmem'
    simp only [List.mem_map, List.mem_filter] at hmem'
    obtain ⟨v, ⟨hv, _⟩, rfl⟩ := hmem'
    obtain ⟨σ, hσ, hs⟩ := hsign v hv
    have hlen : (List.range xs.length).length = xs.length := List.length_range
    refine ⟨(finCongr hlen).permCongr σ, ?_, ?_⟩
    · simp only
      rw [hσ]
      apply List.ext_getElem
      · simp
      · intro i h1 h2
        simp
    · simp only [Equiv.Perm.sign_permCongr]
      by_cases h0 : v.2 % 2 = 0
      · rw [if_pos h0, hs.2 h0]; rfl
      · rw [if_neg h0]
        rcases Int.units_eq_one_or (Equiv.Perm.sign σ) with h1 | h1
        · exact absurd (hs.1 h1) h0
        · rw [h1]; rfl

/-- **C42: one representative of every class.**  Every permutation agrees with exactly one of the generated ones up to reordering
within the groups. -/
theorem coset_representative (sizes : List Nat) (m : List Nat) (n : Nat) (hn : n = sizes.sum) (hm : m.Perm (List.range n)) :
    ∃ p, (p.Perm (List.range n) ∧ (∀ s ∈ slices sizes p, s.Pairwise (· ≤ ·)) ∧
        List.Forall₂ List.Perm (slices sizes p) (slices sizes m)) ∧
      ∀ q, q.Perm (List.range n) → (∀ s ∈ slices sizes q, s.Pairwise (· ≤ ·)) →
        List.Forall₂ List.Perm (slices sizes q) (slices sizes m) → q = p := by
  have hlen : m.length = sizes.sum := by rw [hm.length_eq, List.length_range, hn]
  have hf := slices_flatten sizes m hlen
  have hl := slices_lengths sizes m hlen
  have hF : ∀ gs : List (List Nat), List.Forall₂ List.Perm (gs.map (fun g => g.mergeSort (fun a b => decide (a ≤ b)))) gs := by
    intro gs
    induction gs with
    | nil => exact List.Forall₂.nil
    | cons g gs ih => exact List.Forall₂.cons (List.mergeSort_perm g _) ih
  have hperm : ∀ {gs hs : List (List Nat)}, List.Forall₂ List.Perm gs hs → gs.flatten.Perm hs.flatten := by
    intro gs hs h
    induction h with
    | nil => exact List.Perm.refl _
    | cons h1 _ ih => simpa using h1.append ih
  have hlens : ((slices sizes m).map (fun g => g.mergeSort (fun a b => decide (a ≤ b)))).map List.length = sizes := by
    rw [List.map_map]
    conv_rhs => rw [← hl]
    apply List.map_congr_left
    intro g _
    simp
  have hsl : slices sizes ((slices sizes m).map (fun g => g.mergeSort (fun a b => decide (a ≤ b)))).flatten
      = (slices sizes m).map (fun g => g.mergeSort (fun a b => decide (a ≤ b))) := by
    have := slices_of_flatten ((slices sizes m).map (fun g => g.mergeSort (fun a b => decide (a ≤ b))))
    rw [hlens] at this
    exact this
  have hsorted : ∀ g : List Nat, (g.mergeSort (fun a b => decide (a ≤ b))).Pairwise (· ≤ ·) := by
    intro g
    have := List.pairwise_mergeSort (le := fun a b : Nat => decide (a ≤ b))
      (by intro a b c; simp; omega) (by intro a b; simp; omega) g
    exact this.imp (by intro a b h; simpa using h)
  refine ⟨((slices sizes m).map (fun g => g.mergeSort (fun a b => decide (a ≤ b)))).flatten, ⟨?_, ?_, ?_⟩, ?_⟩
  · refine (hperm (hF _)).trans ?_
    rw [hf]
    exact hm
  · rw [hsl]
    intro s hs
    obtain ⟨g, _, rfl⟩ := List.mem_map.1 hs
    exact hsorted g
  · rw [hsl]
    exact hF _
  · intro q hq hqs hqF
    have hqlen : q.length = sizes.sum := by rw [hq.length_eq, List.length_range, hn]
    rw [← slices_flatten sizes q hqlen]
    congr 1
    have aux : ∀ {gs hs : List (List Nat)}, List.Forall₂ List.Perm gs hs → (∀ s ∈ gs, s.Pairwise (· ≤ ·)) →
        gs = hs.map (fun g => g.mergeSort (fun a b => decide (a ≤ b))) := by
      intro gs hs h
      induction h with
      | nil => intro _; rfl
      | cons h1 _ ih =>
        intro hall
        rw [List.map_cons, ← ih (fun s hs => hall s (by simp [hs]))]
        congr 1
        refine List.Perm.eq_of_pairwise (le := (· ≤ ·)) ?_ (hall _ (by simp)) (hsorted _) (h1.trans (List.mergeSort_perm _ _).symm)
        intro a b _ _ h1 h2
        exact Nat.le_antisymm h1 h2
    exact aux hqF hqs

/-! ## Leaving out the other members of a class loses nothing -/

/-- The value of an arrangement changes sign when two neighbours in one group are exchanged. -/
def Alternating {M : Type} [AddCommGroup M] (sizes : List Nat) (f : List Nat → M) : Prop :=
  ∀ (L : List (List Nat)) (u : List Nat) (a b : Nat) (v : List Nat) (R : List (List Nat)),
    (L ++ (u ++ a :: b :: v) :: R).map List.length = sizes →
    f (L ++ (u ++ b :: a :: v) :: R).flatten = - f (L ++ (u ++ a :: b :: v) :: R).flatten

theorem alternating_group {M : Type} [AddCommGroup M] {sizes : List Nat} {f : List Nat → M} (hf : Alternating sizes f)
    {s t : List Nat} (h : s.Perm t) : ∀ (L : List (List Nat)) (u : List Nat) (R : List (List Nat)),
    (L ++ (u ++ s) :: R).map List.length = sizes →
    ∃ k, Adj k (L ++ (u ++ s) :: R).flatten (L ++ (u ++ t) :: R).flatten ∧
      f (L ++ (u ++ t) :: R).flatten = ((-1 : Int) ^ k) • f (L ++ (u ++ s) :: R).flatten := by
  induction h with
  | nil => intro L u R _; exact ⟨0, Swaps.refl _, by simp⟩
  | cons x _ ih =>
    intro L u R hl
    have := ih L (u ++ [x]) R (by simpa using hl)
    simpa using this
  | swap x y l =>
    intro L u R hl
    refine ⟨1, ?_, ?_⟩
    · have h1 := Swaps.step (comp := fun _ _ => true) (n := 0) (l := L.flatten ++ u ++ y :: x :: (l ++ R.flatten))
        (L.flatten ++ u) (l ++ R.flatten) y x (Swaps.refl _) rfl
      simpa using h1
    · rw [hf L u y x l R hl]
      simp
  | trans h1 _ ih1 ih2 =>
    intro L u R hl
    obtain ⟨k1, a1, e1⟩ := ih1 L u R hl
    obtain ⟨k2, a2, e2⟩ := ih2 L u R (by
      rw [← hl]
      simp [h1.length_eq])
    refine ⟨k1 + k2, Swaps.trans a1 a2, ?_⟩
    rw [e2, e1, smul_smul, pow_add, mul_comm]

theorem alternating_groups {M : Type} [AddCommGroup M] {sizes : List Nat} {f : List Nat → M} (hf : Alternating sizes f)
    {gs hs : List (List Nat)} (h : List.Forall₂ List.Perm gs hs) : ∀ (L : List (List Nat)),
    (L ++ gs).map List.length = sizes →
    ∃ k, Adj k (L ++ gs).flatten (L ++ hs).flatten ∧ f (L ++ hs).flatten = ((-1 : Int) ^ k) • f (L ++ gs).flatten := by
  induction h with
  | nil => intro L _; exact ⟨0, Swaps.refl _, by simp⟩
  | @cons g h' gs hs h1 _ ih =>
    intro L hl
    obtain ⟨k1, a1, e1⟩ := alternating_group hf h1 L [] gs (by simpa using hl)
    simp only [List.nil_append] at a1 e1
    obtain ⟨k2, a2, e2⟩ := ih (L ++ [h']) (by
      rw [← hl]
      simp [h1.length_eq])
    simp only [List.append_assoc, List.singleton_append] at a2 e2
    refine ⟨k1 + k2, Swaps.trans a1 a2, ?_⟩
    rw [e2, e1, smul_smul, pow_add, mul_comm]

/-- `e` is the sign of the permutation `p` of `0, ..., n-1`. -/
def IsSign (n : Nat) (p : List Nat) (e : Int) : Prop :=
  ∃ σ : Equiv.Perm (Fin n), p = List.ofFn (fun i => (σ i : Nat)) ∧ e = (Equiv.Perm.sign σ : Int)

theorem isSign_adj {n k : Nat} {p q : List Nat} {e : Int} (h : IsSign n p e) (ha : Adj k p q) : IsSign n q ((-1) ^ k * e) := by
  obtain ⟨σ, rfl, rfl⟩ := h
  obtain ⟨τ, hq, hs⟩ := Swaps.sign ha
  have hlen : (List.ofFn (fun i => (σ i : Nat))).length = n := List.length_ofFn
  refine ⟨((finCongr hlen).permCongr τ).trans σ, ?_, ?_⟩
  · rw [hq]
    apply List.ext_getElem
    · simp
    · intro i h1 h2
      simp
      rfl
  · rw [Equiv.Perm.sign_trans, Equiv.Perm.sign_permCongr, hs]
    simp [mul_comm]

theorem isSign_unique {n : Nat} {p : List Nat} {e e' : Int} (h : IsSign n p e) (h' : IsSign n p e') : e = e' := by
  obtain ⟨σ, rfl, rfl⟩ := h
  obtain ⟨τ, ht, rfl⟩ := h'
  have : σ = τ := by
    ext i
    have := List.ofFn_injective ht
    exact congrFun this i
  rw [this]

/-- **C42: the other members of a class have the same term.**  If the value of a product alternates within each factor, the signed term of a
permutation equals that of the representative of its class. -/
theorem coset_term {M : Type} [AddCommGroup M] (sizes : List Nat) (f : List Nat → M) (hf : Alternating sizes f)
    (n : Nat) (hn : n = sizes.sum) (m p : List Nat) (em ep : Int) (hm : IsSign n m em) (hp : IsSign n p ep)
    (hc : List.Forall₂ List.Perm (slices sizes p) (slices sizes m)) : em • f m = ep • f p := by
  have hml : m.length = sizes.sum := by obtain ⟨σ, rfl, _⟩ := hm; simp [hn]
  have hpl : p.length = sizes.sum := by obtain ⟨σ, rfl, _⟩ := hp; simp [hn]
  obtain ⟨k, ha, he⟩ := alternating_groups hf hc [] (by simpa using slices_lengths sizes p hpl)
  simp only [List.nil_append, slices_flatten sizes p hpl, slices_flatten sizes m hml] at ha he
  have h1 := isSign_unique hm (isSign_adj hp ha)
  rw [he, h1, smul_smul]
  congr 1
  have : ((-1 : Int) ^ k) * (-1) ^ k = 1 := by rw [← mul_pow]; simp
  rw [mul_right_comm, this, one_mul]

/-! ## The summands -/

theorem genUnique_signs {T U : Type} (sizes : List Nat) (fuel : Nat) (xs : List T) (ys : List U)
    (hxy : xs.length = ys.length) :
    (genUnique (groupsFrom 0 sizes) fuel xs).map (List.map (·.1))
      = (genUnique (groupsFrom 0 sizes) fuel ys).map (List.map (·.1)) := by
  unfold genUnique
  rw [uniqueLoop_eq (groupsFrom 0 sizes) xs fuel _ 0 0 rfl, uniqueLoop_eq (groupsFrom 0 sizes) ys fuel _ 0 0 rfl, hxy]
  cases enumerate (fun a b => decide (a < b)) fuel 0 (List.range ys.length) with
  | none => rfl
  | some vs => simp [entry, Function.comp_def]

/-- The value of a constant factor. -/
def Factor.const? {K T : Type} : Factor K T → Option K
  | .const c => some c
  | .tensor _ _ => none

theorem startConst_eq {K T : Type} [CommRing K] (l : List (Factor K T)) : startConst l = (l.filterMap Factor.const?).prod := by
  induction l with
  | nil => simp [startConst]
  | cons f l ih => cases f <;> simp [startConst, Factor.const?, ih, List.filterMap_cons]

/-- The coefficient of a summand is the product of the signs of its two arrangements and of the constants, although the code exchanges
the two positions: both lists have the same signs.  The scalar of the product does not occur in it. -/
theorem elementTerms_coeff {K T : Type} [CommRing K] (fuel : Nat) (scalar : K) (factors : List (Factor K T))
    (hbk : ∀ f ∈ factors, f.bras.length = f.kets.length) (bs ks : List (Int × List (Option T)))
    (hb : genUnique (groupsFrom 0 (factors.filterMap Factor.rank)) fuel (factors.flatMap Factor.bras) = some bs)
    (hk : genUnique (groupsFrom 0 (factors.filterMap Factor.rank)) fuel (factors.flatMap Factor.kets) = some ks) :
    elementTerms fuel scalar factors = some (bs.flatMap fun b => ks.map fun k =>
      (((b.1 * k.1 : Int) : K) * (factors.filterMap Factor.const?).prod, b.2, k.2)) := by
  rw [← startConst_eq]
  have hlen : (factors.flatMap Factor.bras).length = (factors.flatMap Factor.kets).length := by
    induction factors with
    | nil => rfl
    | cons f l ih =>
      simp only [List.flatMap_cons, List.length_append]
      rw [hbk f (by simp)]
      congr 1
      clear hb hk
      have hbk' : ∀ f ∈ l, f.bras.length = f.kets.length := fun f hf => hbk f (by simp [hf])
      clear ih hbk
      induction l with
      | nil => rfl
      | cons g l ih =>
        simp only [List.flatMap_cons, List.length_append]
        rw [hbk' g (by simp), ih (fun f hf => hbk' f (by simp [hf]))]
  have hs := genUnique_signs (factors.filterMap Factor.rank) fuel _ _ hlen
  rw [hb, hk] at hs
  simp only [Option.map_some, Option.some.injEq] at hs
  have hl : bs.length = ks.length := by
    have := congrArg List.length hs
    simpa using this
  have hget : ∀ i : Nat, bs[i]?.map (·.1) = ks[i]?.map (·.1) := by
    intro i
    have := congrArg (fun l => l[i]?) hs
    simpa using this
  have e1 : elementTerms fuel scalar factors = some ((List.range bs.length).flatMap fun i => (List.range ks.length).map fun j =>
      ((((ks[i]?.map (·.1)).getD 0 * (bs[j]?.map (·.1)).getD 0 : Int) : K) * startConst factors,
        (bs[i]?.map (·.2)).getD [], (ks[j]?.map (·.2)).getD [])) := by
    unfold elementTerms
    simp only [hb, hk]
  rw [e1]
  congr 1
  have hr : ∀ {α β : Type} (l : List α) (g : α → β) (d : Nat → β), (∀ i (h : i < l.length), d i = g l[i]) →
      (List.range l.length).map d = l.map g := by
    intro α β l g d h
    apply List.ext_getElem
    · simp
    · intro i h1 h2
      simp only [List.length_map, List.length_range] at h1
      simp [h i h1]
  rw [List.flatMap_def, List.flatMap_def]
  congr 1
  apply hr
  intro i hi
  apply hr
  intro j hj
  simp only [← hget i, hget j]
  simp [hi, hj]

/-- **The scalar of the product is lost**: twice the product gives the same summands as the product. -/
theorem elementTerms_drops_scalar {K T : Type} [CommRing K] (fuel : Nat) (c d : K) (factors : List (Factor K T)) :
    elementTerms fuel c factors = elementTerms fuel d factors := rfl

/-- Two matrices in one product: four summands with coefficients 1, -1, -1, 1, for `2 * A * B` too. -/
example : elementTerms 3 (2 : Int) [.tensor ['p'] ['q'], .tensor ['r'] ['s']]
    = some [(1, [some 'p', some 'r'], [some 'q', some 's']), (-1, [some 'p', some 'r'], [some 's', some 'q']),
        (-1, [some 'r', some 'p'], [some 'q', some 's']), (1, [some 'r', some 'p'], [some 's', some 'q'])] := by decide

example : genUnique (groupsFrom 0 [1, 2]) 7 ['a', 'b', 'c']
    = some [(1, [some 'a', some 'b', some 'c']), (-1, [some 'b', some 'a', some 'c']), (1, [some 'c', some 'a', some 'b'])] := by decide

example : genUnique (groupsFrom 0 [2, 0, 2]) 25 [0, 1, 2, 3]
    = some [(1, [some 0, some 1, some 2, some 3]), (-1, [some 0, some 2, some 1, some 3]), (1, [some 0, some 3, some 1, some 2]),
        (1, [some 1, some 2, some 0, some 3]), (-1, [some 1, some 3, some 0, some 2]), (1, [some 2, some 3, some 0, some 1])] := by
  decide +kernel

end SeQuant.Mbpt
