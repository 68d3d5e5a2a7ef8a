import Verif.OpenShell.Cosets
import Mathlib.GroupTheory.Perm.ViaEmbedding
import Mathlib.Algebra.BigOperators.Group.Finset.Basic
import Mathlib.Algebra.BigOperators.GroupWithZero.Action
import Mathlib.Algebra.Module.Rat
import Mathlib.Tactic.FieldSimp
import Mathlib.Tactic.IntervalCases

/-!
# C118: permutation operators of the spin cases of an open-shell residual
-/

namespace SeQuant.OpenShell

open SeQuant.Expression SeQuant.Spins
open SeQuant.Tensors (Sym)

/-! ## Sums over permutations -/

theorem sum_list_swap {α β M : Type} [Fintype α] [AddCommMonoid M] (l : List β) (f : β → α → M) :
    (l.map fun b => ∑ a, f b a).sum = ∑ a, (l.map fun b => f b a).sum := by
  induction l with
  | nil => simp
  | cons b l ih => simp only [List.map_cons, List.sum_cons, ih, Finset.sum_add_distrib]

theorem sum_if_count {β M : Type} [AddCommMonoid M] (l : List β) (c : β → Bool) (v : M) :
    (l.map fun b => if c b then v else 0).sum = l.countP c • v := by
  induction l with
  | nil => simp
  | cons b l ih =>
    rw [List.map_cons, List.sum_cons, ih, List.countP_cons, add_nsmul, add_comm]
    congr 1
    cases c b <;> simp

/-- The permutations that keep the spins. -/
def keepers (n i : Nat) : Finset (Equiv.Perm (Fin n)) := Finset.univ.filter (Keeps n i)

/-- **C118.** The permutation operators followed by the signed permutations that keep the spins are exactly the signed permutations which
exchange at most two α positions with β positions, each once. -/
theorem expand_exact {M : Type} [AddCommGroup M] (n i : Nat) (F : Equiv.Perm (Fin n) → M) :
    ((permutations n i).map fun p => ∑ h ∈ keepers n i, (p.1 * (Equiv.Perm.sign h : Int)) • F (h * swapProd p.2)).sum =
      ∑ σ ∈ Finset.univ.filter (fun σ => crossers n i σ ≤ 2), (Equiv.Perm.sign σ : Int) • F σ := by
  have h1 : ∀ p ∈ permutations n i, (∑ h ∈ keepers n i, (p.1 * (Equiv.Perm.sign h : Int)) • F (h * swapProd p.2)) =
      ∑ σ, if Keeps n i (σ * (swapProd p.2)⁻¹) then (Equiv.Perm.sign σ : Int) • F σ else 0 := by
    intro p hp
    rw [keepers, Finset.sum_filter]
    refine Fintype.sum_equiv (Equiv.mulRight (swapProd p.2)) _ _ fun h => ?_
    rw [Equiv.coe_mulRight, mul_inv_cancel_right, map_mul, Units.val_mul, (permutations_alt hp).2.1, mul_comm]
  rw [List.map_congr_left h1, sum_list_swap, Finset.sum_filter]
  refine Finset.sum_congr rfl fun σ _ => ?_
  have h2 := sum_if_count (permutations n i) (fun p => decide (Keeps n i (σ * (swapProd p.2)⁻¹))) ((Equiv.Perm.sign σ : Int) • F σ)
  simp only [decide_eq_true_eq] at h2
  rw [h2, count_reps]
  split <;> simp

theorem crossers_le (n i : Nat) (σ : Equiv.Perm (Fin n)) : crossers n i σ ≤ n - i ∧ crossers n i σ ≤ i := by
  constructor
  · rw [← moved_up]
    calc ((moved n i σ).filter (Up n i ·)).card ≤ (alphaSpin n i).toFinset.card := by
          apply Finset.card_le_card
          intro x hx
          rw [List.mem_toFinset, mem_alpha]
          exact (Finset.mem_filter.1 hx).2
      _ ≤ (alphaSpin n i).length := List.toFinset_card_le _
      _ ≤ n - i := by simp [alphaSpin]
  · rw [← moved_down]
    calc ((moved n i σ).filter (¬ Up n i ·)).card ≤ (betaSpin n i).toFinset.card := by
          apply Finset.card_le_card
          intro x hx
          rw [List.mem_toFinset, mem_beta]
          exact (Finset.mem_filter.1 hx).2
      _ ≤ (betaSpin n i).length := List.toFinset_card_le _
      _ ≤ i := by simp [betaSpin]; omega

/-- **C118 (partial).** With at most two positions of one spin all permutations are obtained, each once.  Missing: three or more of both
spins, where it is false (`expand_incomplete`). -/
theorem expand_full_partial {M : Type} [AddCommGroup M] (n i : Nat) (hi : i ≤ 2 ∨ n ≤ i + 2) (F : Equiv.Perm (Fin n) → M) :
    ((permutations n i).map fun p => ∑ h ∈ keepers n i, (p.1 * (Equiv.Perm.sign h : Int)) • F (h * swapProd p.2)).sum =
      ∑ σ, (Equiv.Perm.sign σ : Int) • F σ := by
  rw [expand_exact, Finset.filter_true_of_mem]
  intro σ _
  have := crossers_le n i σ
  omega

/-- Rank 2, one β: the identity minus the exchange. -/
example : permutations 2 1 = [(1, []), (-1, [0, 1])] := by decide

/-- Rank 4, two β: four exchanges and one double exchange. -/
example : permutations 4 2 = [(1, []), (-1, [0, 2]), (-1, [0, 3]), (-1, [1, 2]), (-1, [1, 3]), (1, [0, 2, 1, 3])] := by decide

/-- **C118.** The sum has as many terms as there are cosets. -/
theorem size_cosets (n i : Nat) (hi : i ≤ 2 ∨ n ≤ i + 2) : (permutations n i).length * (keepers n i).card = Nat.factorial n := by
  have h := expand_full_partial n i hi (fun σ => (Equiv.Perm.sign σ : Int))
  have sq : ∀ σ : Equiv.Perm (Fin n), (Equiv.Perm.sign σ : Int) * (Equiv.Perm.sign σ : Int) = 1 := fun σ => by
    rw [← Units.val_mul, Int.units_mul_self]; rfl
  simp only [smul_eq_mul] at h
  have e2 : ∑ σ : Equiv.Perm (Fin n), (Equiv.Perm.sign σ : Int) * (Equiv.Perm.sign σ : Int) = Nat.factorial n := by
    rw [Finset.sum_congr rfl fun σ _ => sq σ, Finset.sum_const, Finset.card_univ, Fintype.card_perm, Fintype.card_fin]
    simp
  have e1 : ((permutations n i).map fun p => ∑ h ∈ keepers n i, p.1 * (Equiv.Perm.sign h : Int) * (Equiv.Perm.sign (h * swapProd p.2) : Int)).sum =
      ((permutations n i).map fun _ => ((keepers n i).card : Int)).sum := by
    congr 1
    refine List.map_congr_left fun p hp => ?_
    have : ∀ h ∈ keepers n i, p.1 * (Equiv.Perm.sign h : Int) * (Equiv.Perm.sign (h * swapProd p.2) : Int) = 1 := by
      intro h _
      rw [(permutations_alt hp).2.1, map_mul, Units.val_mul,
        show ∀ a b : Int, a * b * (b * a) = (a * a) * (b * b) from fun a b => by ring, sq, sq, one_mul]
    rw [Finset.sum_congr rfl this]
    simp
  rw [e1, e2, List.map_const', List.sum_replicate, nsmul_eq_mul] at h
  exact_mod_cast h

example : (permutations 5 2).length = 10 := by decide

/-- **C118 (refuted).** With three or more positions of both spins permutations are missing. -/
theorem expand_incomplete (n i : Nat) (h1 : 3 ≤ i) (h2 : i + 3 ≤ n) : ∃ F : Equiv.Perm (Fin n) → Int,
    ((permutations n i).map fun p => ∑ h ∈ keepers n i, (p.1 * (Equiv.Perm.sign h : Int)) • F (h * swapProd p.2)).sum ≠
      ∑ σ, (Equiv.Perm.sign σ : Int) • F σ := by
  let l : List (Fin n) := [⟨0, by omega⟩, ⟨n - i, by omega⟩, ⟨1, by omega⟩, ⟨n - i + 1, by omega⟩, ⟨2, by omega⟩, ⟨n - i + 2, by omega⟩]
  have hl : Alt i l := by
    simp only [l, Alt, Up, List.mem_cons, Fin.mk.injEq, List.not_mem_nil, or_false, not_or, not_false_eq_true, and_true]
    omega
  have hc : crossers n i (swapProd l) = 3 := by rw [alt_crossers hl]; simp [l]
  refine ⟨fun σ => if σ = swapProd l then 1 else 0, ?_⟩
  have e0 := expand_exact n i (fun σ => if σ = swapProd l then (1 : Int) else 0)
  rw [e0]
  have e1 : ∑ σ ∈ Finset.univ.filter (fun σ => crossers n i σ ≤ 2), (Equiv.Perm.sign σ : Int) • (if σ = swapProd l then (1 : Int) else 0) = 0 := by
    refine Finset.sum_eq_zero fun σ hσ => ?_
    rw [if_neg, smul_zero]
    rintro rfl
    rw [Finset.mem_filter, hc] at hσ
    omega
  rw [e1]
  simp only [smul_eq_mul, mul_ite, mul_one, mul_zero, Finset.sum_ite_eq', Finset.mem_univ, if_true]
  exact fun h => Units.ne_zero (Equiv.Perm.sign (swapProd l)) h.symm

/-- The smallest rank concerned is 6. -/
example : (permutations 6 3).length = 19 ∧ Nat.choose 6 3 = 20 := by decide

/-! ## Effect on expressions -/

section value
variable {ι R : Type} [LinearOrder ι] [Ring R] [Algebra ℚ R]

/-- A summand of the operator times a product. -/
def applied (t : PTerm ι) (c : ℚ) (l : List (Expr ℚ (Atm ι))) : Expr ℚ (Atm ι) :=
  match t.tensor with
  | none => .prod (t.coef * c) l
  | some P => .prod (t.coef * c) (.atom (.tens P) :: l)

/-- The permutation of the indices by a summand. -/
def tperm (t : PTerm ι) : Equiv.Perm ι :=
  match t.tensor with
  | none => 1
  | some P => swapProd (P.bra ++ P.ket)

/-- The exchange of indices: the one at position `j` becomes the one at position `σ j`. -/
noncomputable def subst {n : Nat} (bra ket : Fin n ↪ ι) (σ τ : Equiv.Perm (Fin n)) : Equiv.Perm ι :=
  σ.viaEmbedding bra * τ.viaEmbedding ket

omit [LinearOrder ι] in
theorem via_comm {n : Nat} (bra ket : Fin n ↪ ι) (hd : ∀ j k, bra j ≠ ket k) (σ τ : Equiv.Perm (Fin n)) :
    τ.viaEmbedding ket * σ.viaEmbedding bra = σ.viaEmbedding bra * τ.viaEmbedding ket := by
  ext x
  rw [Equiv.Perm.mul_apply, Equiv.Perm.mul_apply]
  have hb : ∀ j, bra j ∉ Set.range ket := by rintro j ⟨k, hk⟩; exact hd j k hk.symm
  have hk : ∀ j, ket j ∉ Set.range bra := by rintro j ⟨k, hk⟩; exact hd k j hk
  by_cases h1 : x ∈ Set.range bra
  · obtain ⟨j, rfl⟩ := h1
    rw [Equiv.Perm.viaEmbedding_apply, Equiv.Perm.viaEmbedding_apply_of_notMem _ _ _ (hb _),
      Equiv.Perm.viaEmbedding_apply_of_notMem _ _ _ (hb _), Equiv.Perm.viaEmbedding_apply]
  · rw [Equiv.Perm.viaEmbedding_apply_of_notMem σ _ _ h1]
    by_cases h2 : x ∈ Set.range ket
    · obtain ⟨j, rfl⟩ := h2
      rw [Equiv.Perm.viaEmbedding_apply, Equiv.Perm.viaEmbedding_apply_of_notMem _ _ _ (hk _)]
    · rw [Equiv.Perm.viaEmbedding_apply_of_notMem _ _ _ h2, Equiv.Perm.viaEmbedding_apply_of_notMem _ _ _ h1]

omit [LinearOrder ι] in
theorem subst_mul {n : Nat} (bra ket : Fin n ↪ ι) (hd : ∀ j k, bra j ≠ ket k) (σ τ σ' τ' : Equiv.Perm (Fin n)) :
    subst bra ket σ τ * subst bra ket σ' τ' = subst bra ket (σ * σ') (τ * τ') := by
  have hm : ∀ (f : Fin n ↪ ι) (a b : Equiv.Perm (Fin n)), (a * b).viaEmbedding f = a.viaEmbedding f * b.viaEmbedding f := fun f a b =>
    map_mul (Equiv.Perm.viaEmbeddingHom f) a b
  rw [subst, subst, subst, hm, hm, mul_assoc, ← mul_assoc (τ.viaEmbedding ket), via_comm bra ket hd]
  simp only [mul_assoc]

theorem via_swap {n : Nat} (f : Fin n ↪ ι) (a b : Fin n) : (Equiv.swap a b).viaEmbedding f = Equiv.swap (f a) (f b) := by
  ext x
  by_cases h : x ∈ Set.range f
  · obtain ⟨j, rfl⟩ := h
    rw [Equiv.Perm.viaEmbedding_apply, f.injective.map_swap]
  · rw [Equiv.Perm.viaEmbedding_apply_of_notMem _ _ _ h, Equiv.swap_apply_of_ne_of_ne]
    · rintro rfl; exact h ⟨a, rfl⟩
    · rintro rfl; exact h ⟨b, rfl⟩

omit [LinearOrder ι] in
theorem via_one {n : Nat} (f : Fin n ↪ ι) : (1 : Equiv.Perm (Fin n)).viaEmbedding f = 1 := map_one (Equiv.Perm.viaEmbeddingHom f)

theorem via_swapProd {n : Nat} (f : Fin n ↪ ι) : ∀ l : List (Fin n), (swapProd l).viaEmbedding f = swapProd (l.map f)
  | [] => by simpa [swapProd] using via_one f
  | [_] => by simpa [swapProd] using via_one f
  | a :: b :: l => by
    rw [swapProd, List.map_cons, List.map_cons, swapProd, ← via_swapProd f l, ← via_swap]
    exact map_mul (Equiv.Perm.viaEmbeddingHom f) _ _

theorem swapProd_append : ∀ (l m : List ι), l.length % 2 = 0 → swapProd (l ++ m) = swapProd l * swapProd m
  | [], m, _ => by simp [swapProd]
  | [_], m, h => by simp at h
  | a :: b :: l, m, h => by
    rw [List.cons_append, List.cons_append, swapProd, swapProd, swapProd_append l m (by simp only [List.length_cons] at h; omega), mul_assoc]

theorem alt_even {n i : Nat} : ∀ {l : List (Fin n)}, Alt i l → l.length % 2 = 0 ∧ l.Nodup
  | [], _ => by simp
  | [_], h => h.elim
  | a :: c :: l, ⟨ha, hc, hal, hcl, hl⟩ => by
    obtain ⟨h1, h2⟩ := alt_even hl
    refine ⟨by simp only [List.length_cons]; omega, ?_⟩
    rw [List.nodup_cons, List.nodup_cons, List.mem_cons, not_or]
    exact ⟨⟨fun e => hc (e ▸ ha), hal⟩, hcl, h2⟩

omit [LinearOrder ι] in
/-- A merged tensor. -/
theorem merge_eq (b k : List ι) : mergeTensors (pTensor b []) (pTensor [] k) = pTensor b k := by
  cases b <;> cases k <;> simp [pTensor, mergeTensors]

/-- The value of one summand applied to a product. -/
theorem applied_value {n i : Nat} (bra ket : Fin n ↪ ι) (hd : ∀ j k, bra j ≠ ket k) {b k : Int × List (Fin n)}
    (hb : b ∈ permutations n i) (hk : k ∈ permutations n i) (co c : ℚ) (l : List (Expr ℚ (Atm ι)))
    (hp : ∀ f ∈ l, hasLab .P f = false) (hl : ∀ f ∈ l, leafy f = true) (I : Atm ι → R) :
    ∃ r, expandP (applied ⟨co, mergeTensors (pTensor (b.2.map bra) []) (pTensor [] (k.2.map ket))⟩ c l) = .ok r ∧
      eval I r = (co * c) • evalProd (I ∘ Atm.map (subst bra ket (swapProd b.2) (swapProd k.2))) l := by
  obtain ⟨ab, -, -⟩ := permutations_alt hb
  obtain ⟨ak, -, -⟩ := permutations_alt hk
  obtain ⟨eb, nb⟩ := alt_even ab
  obtain ⟨ek, nk⟩ := alt_even ak
  have hperm : subst bra ket (swapProd b.2) (swapProd k.2) = swapProd (b.2.map bra ++ k.2.map ket) := by
    rw [subst, via_swapProd, via_swapProd, swapProd_append _ _ (by simpa using eb)]
  rw [merge_eq, hperm]
  by_cases h0 : (b.2.map bra).isEmpty && (k.2.map ket).isEmpty
  · have h0' := h0
    simp only [Bool.and_eq_true, List.isEmpty_iff] at h0'
    refine ⟨.prod (co * c) l, ?_, ?_⟩
    · simp only [applied, pTensor, h0, if_true, expandP, expandPProd, pScan_none l hp, bind, Except.bind, pure, Except.pure]
    · rw [h0'.1, h0'.2]
      have : (I ∘ Atm.map (swapProd ([] ++ [] : List ι))) = I := by
        funext a
        show I (Atm.map (fun i => i) a) = I a
        rw [map_id_atm]
      rw [this]
      rfl
  · have e : applied ⟨co, pTensor (b.2.map bra) (k.2.map ket)⟩ c l =
        .prod (co * c) ([] ++ .atom (.tens ⟨.P, b.2.map bra, k.2.map ket, [], .symm⟩) :: l) := by
      simp only [applied, pTensor, h0, List.nil_append]
      simp
    rw [e]
    have hne : 1 ≤ (b.2.map bra).length + (k.2.map ket).length := by
      simp only [Bool.and_eq_true, List.isEmpty_iff, not_and] at h0
      by_contra hlt
      have h1 : (b.2.map bra).length = 0 := by omega
      have h2 : (k.2.map ket).length = 0 := by omega
      exact h0 (List.length_eq_zero_iff.1 h1) (List.length_eq_zero_iff.1 h2)
    have hnd : (b.2.map bra ++ k.2.map ket).Nodup := by
      rw [List.nodup_append']
      refine ⟨nb.map bra.injective, nk.map ket.injective, ?_⟩
      intro x h1 h2
      rw [List.mem_map] at h1 h2
      obtain ⟨j, -, rfl⟩ := h1
      obtain ⟨k', -, e⟩ := h2
      exact hd j k' e.symm
    exact expandP_value_partial I (co * c) [] l ⟨.P, b.2.map bra, k.2.map ket, [], .symm⟩ rfl (by simpa using hp) (by simpa using hl) hnd
      (by simpa using eb) (by simpa using ek) hne

theorem forall₂_sum {α β M : Type} [AddCommMonoid M] (Rel : α → β → Prop) (f : α → M) (g : β → M) : ∀ {l : List α} {m : List β},
    List.Forall₂ Rel l m → (∀ a ∈ l, ∀ b, Rel a b → g b = f a) → (m.map g).sum = (l.map f).sum
  | _, _, .nil, _ => rfl
  | _, _, .cons h t, hf => by
    rw [List.map_cons, List.map_cons, List.sum_cons, List.sum_cons, hf _ (by simp) _ h,
      forall₂_sum Rel f g t (fun a ha b hb => hf a (List.mem_cons_of_mem _ ha) b hb)]

theorem sum_flatMap_map {α β M : Type} [AddCommMonoid M] (l : List α) (m : List β) (f : α → β → M) :
    ((l.flatMap fun a => m.map fun b => f a b).sum) = (l.map fun a => (m.map fun b => f a b).sum).sum := by
  induction l with
  | nil => rfl
  | cons a l ih => rw [List.flatMap_cons, List.sum_append, List.map_cons, List.sum_cons, ih]

theorem all_same (n i : Nat) (h : i = 0 ∨ i = n) : permutations n i = [(1, [])] := by
  have : alphaSpin n i = [] ∨ betaSpin n i = [] := by
    rcases h with rfl | rfl
    · right; rw [betaSpin, Nat.sub_zero, List.drop_eq_nil_iff]; simp
    · left; rw [alphaSpin, Nat.sub_self, List.take_zero]
  rw [permutations]
  rcases this with h | h <;> simp [pList, h]

omit [LinearOrder ι] in
/-- The special case of equal spins is the general one. -/
theorem openP_eq {n : Nat} (bra ket : Fin n ↪ ι) (i : Nat) : openP n bra ket i = mixedCase n bra ket i := by
  rw [openP]
  split
  · rename_i h
    rw [mixedCase, all_same n i h]
    simp [mergeTensors, pTensor]
  · rfl

/-- **C118.** Each summand of the operator can be applied to a product of tensors and variables. -/
theorem openP_applicable {n : Nat} (bra ket : Fin n ↪ ι) (hd : ∀ j k, bra j ≠ ket k) (i : Nat) (c : ℚ) (l : List (Expr ℚ (Atm ι)))
    (hp : ∀ f ∈ l, hasLab .P f = false) (hl : ∀ f ∈ l, leafy f = true) :
    ∃ rs, List.Forall₂ (fun t r => expandP (applied t c l) = .ok r) (openP n bra ket i) rs := by
  have key : ∀ t ∈ openP n bra ket i, ∃ r, expandP (applied t c l) = .ok r := by
    intro t ht
    rw [openP_eq, mixedCase, List.mem_flatMap] at ht
    obtain ⟨b, hb, ht⟩ := ht
    rw [List.mem_map] at ht
    obtain ⟨k, hk, rfl⟩ := ht
    obtain ⟨r, hr, -⟩ := applied_value bra ket hd hb hk _ c l hp hl (fun _ => (0 : ℚ))
    exact ⟨r, hr⟩
  generalize openP n bra ket i = L at key
  induction L with
  | nil => exact ⟨[], .nil⟩
  | cons t L ih =>
    obtain ⟨r, hr⟩ := key t (by simp)
    obtain ⟨rs, hrs⟩ := ih (fun t' ht' => key t' (List.mem_cons_of_mem _ ht'))
    exact ⟨r :: rs, .cons hr hrs⟩

/-- The signed average over pairs of permutations in a set. -/
noncomputable def average {n : Nat} (H : Finset (Equiv.Perm (Fin n))) (G : Equiv.Perm (Fin n) → Equiv.Perm (Fin n) → R) : R :=
  ((H.card : ℚ) * H.card)⁻¹ • ∑ σ ∈ H, ∑ τ ∈ H, (((Equiv.Perm.sign σ : Int) * (Equiv.Perm.sign τ : Int) : Int) : ℚ) • G σ τ

theorem expand_rat (n i : Nat) (hi : i ≤ 2 ∨ n ≤ i + 2) (F : Equiv.Perm (Fin n) → R) :
    ((permutations n i).map fun p => ∑ h ∈ keepers n i, ((p.1 * (Equiv.Perm.sign h : Int) : Int) : ℚ) • F (h * swapProd p.2)).sum =
      ∑ σ, ((Equiv.Perm.sign σ : Int) : ℚ) • F σ := by
  have := expand_full_partial n i hi F
  simp only [← Int.cast_smul_eq_zsmul ℚ] at this
  exact this

theorem smul_list_sum {β : Type} (l : List β) (f : β → R) (q : ℚ) : q • (l.map f).sum = (l.map fun b => q • f b).sum := by
  induction l with
  | nil => simp
  | cons b l ih => simp only [List.map_cons, List.sum_cons, smul_add, ih]

omit [Algebra ℚ R] in
theorem sum_list_fin {α β : Type} (s : Finset α) (l : List β) (f : β → α → R) :
    ∑ a ∈ s, (l.map fun b => f b a).sum = (l.map fun b => ∑ a ∈ s, f b a).sum := by
  induction l with
  | nil => simp
  | cons b l ih => simp only [List.map_cons, List.sum_cons, ← ih, Finset.sum_add_distrib]

omit [LinearOrder ι] in
theorem evalProd_atoms {R' : Type} [Ring R'] [Algebra ℚ R'] (I J : Atm ι → R') (h : I = J) (l : List (Expr ℚ (Atm ι))) : evalProd I l = evalProd J l := by rw [h]

omit [LinearOrder ι] in
theorem atm_map_comp (g : Equiv.Perm ι) (f : Equiv.Perm ι) (a : Atm ι) : Atm.map g (Atm.map f a) = Atm.map (g * f : Equiv.Perm ι) a := by
  cases a <;> simp [Atm.map]

theorem averaged_pairs (n i : Nat) (hi : i ≤ 2 ∨ n ≤ i + 2) (G : Equiv.Perm (Fin n) → Equiv.Perm (Fin n) → R) :
    ((permutations n i).map fun b => ((permutations n i).map fun k =>
      ∑ h ∈ keepers n i, ∑ h' ∈ keepers n i, (((b.1 * (Equiv.Perm.sign h : Int)) * (k.1 * (Equiv.Perm.sign h' : Int)) : Int) : ℚ) •
        G (h * swapProd b.2) (h' * swapProd k.2)).sum).sum =
    ∑ σ, ∑ τ, (((Equiv.Perm.sign σ : Int) * (Equiv.Perm.sign τ : Int) : Int) : ℚ) • G σ τ := by
  have h1 := expand_rat n i hi (fun σ => ∑ τ, ((Equiv.Perm.sign τ : Int) : ℚ) • G σ τ)
  have h2 : ∀ σ, ∑ τ, (((Equiv.Perm.sign σ : Int) * (Equiv.Perm.sign τ : Int) : Int) : ℚ) • G σ τ =
      ((Equiv.Perm.sign σ : Int) : ℚ) • ∑ τ, ((Equiv.Perm.sign τ : Int) : ℚ) • G σ τ := by
    intro σ
    rw [Finset.smul_sum]
    refine Finset.sum_congr rfl fun τ _ => ?_
    rw [Int.cast_mul, mul_smul]
  rw [Finset.sum_congr rfl fun σ _ => h2 σ, ← h1]
  congr 1
  refine List.map_congr_left fun b _ => ?_
  rw [← sum_list_fin]
  refine Finset.sum_congr rfl fun h _ => ?_
  rw [← expand_rat n i hi (fun τ => G (h * swapProd b.2) τ), smul_list_sum]
  congr 1
  refine List.map_congr_left fun k _ => ?_
  rw [Finset.smul_sum]
  refine Finset.sum_congr rfl fun h' _ => ?_
  rw [Int.cast_mul, mul_smul]

/-- **C118 (partial).** Applying the permutation operators of a spin case to a product and antisymmetrizing the result within each spin gives the
product antisymmetrized in all its external indices, both normalized.  Missing: three or more indices of both spins, where it is false. -/
theorem openP_antisymmetrizes_partial {n : Nat} (bra ket : Fin n ↪ ι) (hd : ∀ j k, bra j ≠ ket k) (i : Nat) (hi : i ≤ 2 ∨ n ≤ i + 2) (c : ℚ)
    (l : List (Expr ℚ (Atm ι))) (hp : ∀ f ∈ l, hasLab .P f = false) (hl : ∀ f ∈ l, leafy f = true) (I : Atm ι → R)
    (rs : List (Expr ℚ (Atm ι))) (hrs : List.Forall₂ (fun t r => expandP (applied t c l) = .ok r) (openP n bra ket i) rs) :
    average (keepers n i) (fun h h' => (rs.map fun r => eval (I ∘ Atm.map (subst bra ket h h')) r).sum) =
      c • average Finset.univ (fun σ τ => evalProd (I ∘ Atm.map (subst bra ket σ τ)) l) := by
  set N := (permutations n i).length with hN
  have hval : ∀ h h' : Equiv.Perm (Fin n), (rs.map fun r => eval (I ∘ Atm.map (subst bra ket h h')) r).sum =
      ((permutations n i).map fun b => ((permutations n i).map fun k =>
        (((b.1 : ℚ) * k.1 / (N * N)) * c) • evalProd (I ∘ Atm.map (subst bra ket (h * swapProd b.2) (h' * swapProd k.2))) l).sum).sum := by
    intro h h'
    rw [← sum_flatMap_map]
    have hmc : ((permutations n i).flatMap fun b => (permutations n i).map fun k =>
        (((b.1 : ℚ) * k.1 / (N * N)) * c) • evalProd (I ∘ Atm.map (subst bra ket (h * swapProd b.2) (h' * swapProd k.2))) l) =
        ((permutations n i).flatMap fun b => (permutations n i).map fun k => (b, k)).map (fun p =>
        (((p.1.1 : ℚ) * p.2.1 / (N * N)) * c) • evalProd (I ∘ Atm.map (subst bra ket (h * swapProd p.1.2) (h' * swapProd p.2.2))) l) := by
      rw [List.map_flatMap]
      simp only [List.map_map]
      rfl
    have hop : openP n bra ket i = ((permutations n i).flatMap fun b => (permutations n i).map fun k => (b, k)).map fun p =>
        ⟨(p.1.1 : ℚ) * p.2.1 / (N * N), mergeTensors (pTensor (p.1.2.map bra) []) (pTensor [] (p.2.2.map ket))⟩ := by
      rw [openP_eq, mixedCase, List.map_flatMap]
      simp only [List.map_map]
      rfl
    rw [hop, List.forall₂_map_left_iff] at hrs
    rw [hmc]
    refine forall₂_sum _ _ _ hrs ?_
    intro p hpm r hr
    rw [List.mem_flatMap] at hpm
    obtain ⟨b, hb, hpm⟩ := hpm
    rw [List.mem_map] at hpm
    obtain ⟨k, hk, rfl⟩ := hpm
    obtain ⟨r', hr', he⟩ := applied_value bra ket hd hb hk ((b.1 : ℚ) * k.1 / (N * N)) c l hp hl (I ∘ Atm.map (subst bra ket h h'))
    rw [hr'] at hr
    cases hr
    rw [he]
    congr 1
    apply evalProd_atoms
    funext a
    show I (Atm.map _ (Atm.map _ a)) = I (Atm.map _ a)
    rw [atm_map_comp, subst_mul bra ket hd]
  have hfac := size_cosets n i hi
  have hfacQ : (N : ℚ) * ((keepers n i).card : ℚ) = (Nat.factorial n : ℚ) := by exact_mod_cast hfac
  have hf0 : (Nat.factorial n : ℚ) ≠ 0 := by exact_mod_cast Nat.factorial_ne_zero n
  have hN0 : (N : ℚ) ≠ 0 := fun h => hf0 (by rw [← hfacQ, h, zero_mul])
  have hk0 : ((keepers n i).card : ℚ) ≠ 0 := fun h => hf0 (by rw [← hfacQ, h, mul_zero])
  have hcard : ((Finset.univ : Finset (Equiv.Perm (Fin n))).card : ℚ) = Nat.factorial n := by
    rw [Finset.card_univ, Fintype.card_perm, Fintype.card_fin]
  rw [average, average, hcard, ← averaged_pairs n i hi]
  have hsum : ∑ h ∈ keepers n i, ∑ h' ∈ keepers n i, (((Equiv.Perm.sign h : Int) * (Equiv.Perm.sign h' : Int) : Int) : ℚ) •
      (rs.map fun r => eval (I ∘ Atm.map (subst bra ket h h')) r).sum =
      (c / (N * N)) • ((permutations n i).map fun b => ((permutations n i).map fun k =>
      ∑ h ∈ keepers n i, ∑ h' ∈ keepers n i, (((b.1 * (Equiv.Perm.sign h : Int)) * (k.1 * (Equiv.Perm.sign h' : Int)) : Int) : ℚ) •
        evalProd (I ∘ Atm.map (subst bra ket (h * swapProd b.2) (h' * swapProd k.2))) l).sum).sum := by
    rw [smul_list_sum]
    have : ∀ b : Int × List (Fin n), (c / (N * N)) • (((permutations n i).map fun k =>
      ∑ h ∈ keepers n i, ∑ h' ∈ keepers n i, (((b.1 * (Equiv.Perm.sign h : Int)) * (k.1 * (Equiv.Perm.sign h' : Int)) : Int) : ℚ) •
        evalProd (I ∘ Atm.map (subst bra ket (h * swapProd b.2) (h' * swapProd k.2))) l).sum) =
        ∑ h ∈ keepers n i, ∑ h' ∈ keepers n i, ((permutations n i).map fun k => (((Equiv.Perm.sign h : Int) * (Equiv.Perm.sign h' : Int) : Int) : ℚ) •
          ((((b.1 : ℚ) * k.1 / (N * N)) * c) • evalProd (I ∘ Atm.map (subst bra ket (h * swapProd b.2) (h' * swapProd k.2))) l)).sum := by
      intro b
      simp only [sum_list_fin]
      rw [smul_list_sum]
      congr 1
      refine List.map_congr_left fun k _ => ?_
      rw [Finset.smul_sum]
      refine Finset.sum_congr rfl fun h _ => ?_
      rw [Finset.smul_sum]
      refine Finset.sum_congr rfl fun h' _ => ?_
      rw [smul_smul, smul_smul]
      congr 1
      push_cast
      ring
    rw [List.map_congr_left fun b _ => this b]
    simp only [hval, smul_list_sum, sum_list_fin]
  rw [hsum, smul_smul, smul_smul]
  congr 1
  rw [← hfacQ]
  field_simp

end value

/-! ## A concrete case -/

/-- Rank 2, one α and one β: four summands with the factor 1/4. -/
example : openP 2 (fun j : Fin 2 => j.val) (fun j : Fin 2 => j.val + 10) 1 =
    [⟨1/4, none⟩, ⟨-1/4, some ⟨.P, [], [10, 11], [], .symm⟩⟩, ⟨-1/4, some ⟨.P, [0, 1], [], [], .symm⟩⟩,
      ⟨1/4, some ⟨.P, [0, 1], [10, 11], [], .symm⟩⟩] := by decide +kernel

/-- Equal spins. -/
example : openP 3 (fun j : Fin 3 => j.val) (fun j : Fin 3 => j.val + 10) 3 = [⟨1, none⟩] := by decide +kernel

end SeQuant.OpenShell
