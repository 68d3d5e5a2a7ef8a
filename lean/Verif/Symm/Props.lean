import Verif.Symm.Lemmas
import Mathlib.Algebra.BigOperators.Ring.Finset
import Mathlib.Algebra.CharZero.Defs
import Mathlib.Algebra.BigOperators.GroupWithZero.Action
import Mathlib.Tactic.Ring
import Mathlib.Data.Fintype.Perm

/-!
# Symmetrization and antisymmetrization of arrays (C81)
-/

namespace SeQuant.Symm

open SeQuant.Perm SeQuant.Sort SeQuant.Spins

variable {F : Type} {n m : Nat}

/-! ### What is expected -/

/-- The element with the indices `b` of the bra and `k` of the ket. -/
def el (a : Ten F) (b : Fin n → Nat) (k : Fin m → Nat) : F := a.at_ (List.ofFn b ++ List.ofFn k)

/-- The mean over all simultaneous permutations of bra and ket. -/
def SymOf [Field F] (a r : Ten F) (n : Nat) : Prop :=
  r.shape = a.shape ∧ ∀ b k : Fin n → Nat, el r b k = (n.factorial : F)⁻¹ * ∑ σ : Equiv.Perm (Fin n), el a (b ∘ σ) (k ∘ σ)

/-- The mean with signs over all permutations of the bra and all permutations of the ket. -/
def AntiOf [Field F] (a r : Ten F) (n m : Nat) : Prop :=
  r.shape = a.shape ∧ ∀ (b : Fin n → Nat) (k : Fin m → Nat), el r b k = ((n.factorial * m.factorial : Nat) : F)⁻¹ *
    ∑ σ : Equiv.Perm (Fin n), ∑ τ : Equiv.Perm (Fin m), (Equiv.Perm.sign σ : Int) • (Equiv.Perm.sign τ : Int) • el a (b ∘ σ) (k ∘ τ)

/-- All extents of the bra are equal, and so are all of the ket. -/
def Uniform (a : Ten F) (n m : Nat) : Prop := ∃ p q : Nat, a.shape = List.replicate n p ++ List.replicate m q

theorem hasShape_exists {a : Ten F} (h : a.shape.length = n + m) : ∃ (sb : Fin n → Nat) (sk : Fin m → Nat), HasShape a sb sk := by
  refine ⟨fun i => a.shape[(i : Nat)], fun i => a.shape[n + (i : Nat)], ?_⟩
  unfold HasShape
  apply List.ext_getElem
  · simp [h]
  · intro i h1 h2
    simp only [List.getElem_append, List.length_ofFn, List.getElem_ofFn]
    split
    · rfl
    · congr 1; omega

theorem uniform_iff {a : Ten F} {sb : Fin n → Nat} {sk : Fin m → Nat} (h : HasShape a sb sk) :
    Uniform a n m ↔ (∀ i j, sb i = sb j) ∧ ∀ i j, sk i = sk j := by
  unfold HasShape at h
  constructor
  · rintro ⟨p, q, e⟩
    rw [h, ← List.ofFn_const, ← List.ofFn_const] at e
    obtain ⟨e1, e2⟩ := List.append_inj e (by simp)
    have e1 := List.ofFn_injective e1
    have e2 := List.ofFn_injective e2
    subst e1 e2
    exact ⟨fun _ _ => rfl, fun _ _ => rfl⟩
  · rintro ⟨h1, h2⟩
    have c : ∀ {k : Nat} (s : Fin k → Nat), (∀ i j, s i = s j) → ∃ p, s = fun _ => p := by
      intro k s hs
      cases k with
      | zero => exact ⟨0, funext fun i => i.elim0⟩
      | succ k => exact ⟨s 0, funext fun i => hs i 0⟩
    obtain ⟨p, rfl⟩ := c sb h1
    obtain ⟨q, rfl⟩ := c sk h2
    exact ⟨p, q, by rw [h, List.ofFn_const, List.ofFn_const]⟩

theorem uniform_hasShape {a : Ten F} (h : Uniform a n m) : ∃ p q, HasShape a (fun _ : Fin n => p) (fun _ : Fin m => q) := by
  obtain ⟨p, q, e⟩ := h
  exact ⟨p, q, by rw [HasShape, e, List.ofFn_const, List.ofFn_const]⟩

theorem uniform_length {a : Ten F} (h : Uniform a n m) : a.shape.length = n + m := by
  obtain ⟨p, q, e⟩ := h
  simp [e]

/-- If the extents are not all equal, then some permutation changes the shape. -/
theorem exists_swap {k : Nat} (s : Fin k → Nat) (h : ¬ ∀ i j, s i = s j) : ∃ σ : Equiv.Perm (Fin k), s ∘ σ ≠ s := by
  by_contra hall
  refine h fun i j => ?_
  by_contra hne
  refine hall ⟨Equiv.swap i j, fun he => hne ?_⟩
  have := congrFun he j
  simpa using this

/-! ### Symmetrization -/

theorem symmetric_ne (n : Nat) : symmetricPermutation n ≠ [] := by
  have := (mem_symmetric n _).2 ⟨1, rfl⟩
  intro h; rw [h] at this; simp at this

section field
variable [Field F]

theorem symmetrizeLoopTA_ok (a : Ten F) (h : Uniform a n n) : ∃ r, symmetrizeLoopTA n a = .ok r ∧ SymOf a r n := by
  obtain ⟨p, q, hs⟩ := uniform_hasShape h
  obtain ⟨r, h1, h2, h3⟩ := collect_ok ((symmetricPermutation n).map fun p => relabel (List.range (2 * n)) p a) a.shape
    (by simpa using symmetric_ne n) (by
      intro t ht
      obtain ⟨p, hp, rfl⟩ := List.mem_map.1 ht
      obtain ⟨σ, rfl⟩ := (mem_symmetric n p).1 hp
      rw [two_mul]
      exact (relabel_ta a hs σ σ).1.trans hs.symm)
  refine ⟨scale ((n.factorial : F)⁻¹) r, by rw [symmetrizeLoopTA, h1]; rfl, h2, fun b k => ?_⟩
  unfold el scale
  simp only
  rw [h3, List.map_map]
  simp only [Function.comp_def]
  rw [sum_symmetric n fun p => (relabel (List.range (2 * n)) p a).at_ (List.ofFn b ++ List.ofFn k)]
  congr 1
  refine Finset.sum_congr rfl fun σ _ => ?_
  rw [two_mul]
  exact (relabel_ta a hs σ σ).2 b k

theorem symmetrizeLoopTA_error (a : Ten F) (hl : a.shape.length = n + n) (h : ¬ Uniform a n n) : symmetrizeLoopTA n a = .error .shapes := by
  obtain ⟨sb, sk, hs⟩ := hasShape_exists hl
  have : collect ((symmetricPermutation n).map fun p => relabel (List.range (2 * n)) p a) = .error .shapes := by
    apply collect_error
    have hσ : ∃ σ : Equiv.Perm (Fin n), sb ∘ σ.symm ≠ sb ∨ sk ∘ σ.symm ≠ sk := by
      rw [uniform_iff hs, not_and_or] at h
      rcases h with h | h
      · obtain ⟨σ, e⟩ := exists_swap sb h; exact ⟨σ.symm, .inl (by simpa using e)⟩
      · obtain ⟨σ, e⟩ := exists_swap sk h; exact ⟨σ.symm, .inr (by simpa using e)⟩
    obtain ⟨σ, hσ⟩ := hσ
    refine ⟨_, List.mem_map.2 ⟨two σ σ, (mem_symmetric n _).2 ⟨σ, rfl⟩, rfl⟩, _, List.mem_map.2 ⟨two 1 1, (mem_symmetric n _).2 ⟨1, rfl⟩, rfl⟩, ?_⟩
    rw [two_mul]
    have e1 := (relabel_ta a hs σ σ).1
    have e2 := (relabel_ta a hs 1 1).1
    unfold HasShape at e1 e2
    rw [e1, e2]
    intro e
    obtain ⟨e1, e2⟩ := List.append_inj e (by simp)
    rcases hσ with hσ | hσ
    · exact hσ (List.ofFn_injective e1)
    · exact hσ (List.ofFn_injective e2)
  rw [symmetrizeLoopTA, this]; rfl

/-- **C81** Symmetrization with TiledArray: arrays of odd rank are refused, and so are those in which the modes to exchange have different
extents; otherwise the result is the mean over the permutations of the particles. -/
theorem columnSymmetrizeTA_spec (a : Ten F) :
    (a.shape.length % 2 = 1 → columnSymmetrizeTA a = .error .odd) ∧
    ∀ n, a.shape.length = n + n → (¬ Uniform a n n → columnSymmetrizeTA a = .error .shapes) ∧
      (Uniform a n n → ∃ r, columnSymmetrizeTA a = .ok r ∧ SymOf a r n) := by
  unfold columnSymmetrizeTA
  refine ⟨fun h => by simp [h], fun n hn => ?_⟩
  have h1 : ¬ a.shape.length % 2 ≠ 0 := by omega
  have h2 : a.shape.length / 2 = n := by omega
  rw [if_neg h1, h2]
  exact ⟨symmetrizeLoopTA_error a hn, symmetrizeLoopTA_ok a⟩

/-- **C81** Symmetrization of arrays of arrays. -/
theorem columnSymmetrizeToT_spec (a : Ten F) (outer inner : Nat) (hr : a.shape.length = outer + inner) :
    (inner = 0 → columnSymmetrizeToT inner a = .ok a) ∧
    (inner ≠ 0 → outer ≠ inner → columnSymmetrizeToT inner a = .error .ranks) ∧
    (inner ≠ 0 → outer = inner → (¬ Uniform a outer outer → columnSymmetrizeToT inner a = .error .shapes) ∧
      (Uniform a outer outer → ∃ r, columnSymmetrizeToT inner a = .ok r ∧ SymOf a r outer)) := by
  unfold columnSymmetrizeToT
  have h1 : a.shape.length - inner = outer := by omega
  refine ⟨fun h => by simp [h], fun h h' => by rw [if_neg h, h1, if_pos h'], fun h h' => ?_⟩
  rw [if_neg h, h1, if_neg (by simpa using h')]
  exact ⟨symmetrizeLoopTA_error a (by omega), symmetrizeLoopTA_ok a⟩

/-- **C81** Symmetrization with BTAS and TAPP. -/
theorem columnSymmetrizeBtas_spec (a : Ten F) :
    (a.shape.length % 2 = 1 → columnSymmetrizeBtas a = .error .odd) ∧
    ∀ n, a.shape.length = n + n → (¬ Uniform a n n → columnSymmetrizeBtas a = .error .shapes) ∧
      (Uniform a n n → ∃ r, columnSymmetrizeBtas a = .ok r ∧ SymOf a r n) := by
  unfold columnSymmetrizeBtas
  refine ⟨fun h => by simp [h], fun n hn => ?_⟩
  have h1 : ¬ a.shape.length % 2 ≠ 0 := by omega
  have h2 : a.shape.length / 2 = n := by omega
  simp only [if_neg h1, h2]
  constructor
  · intro h
    obtain ⟨sb, sk, hs⟩ := hasShape_exists hn
    have : addAll (zeroTen a.shape) ((symmetricPermutation n).map fun p => relabel p (List.range a.shape.length) a) = .error .shapes := by
      apply addAll_error
      have hσ : ∃ σ : Equiv.Perm (Fin n), sb ∘ σ ≠ sb ∨ sk ∘ σ ≠ sk := by
        rw [uniform_iff hs, not_and_or] at h
        rcases h with h | h
        · obtain ⟨σ, e⟩ := exists_swap sb h; exact ⟨σ, .inl e⟩
        · obtain ⟨σ, e⟩ := exists_swap sk h; exact ⟨σ, .inr e⟩
      obtain ⟨σ, hσ⟩ := hσ
      refine ⟨_, List.mem_map.2 ⟨two σ σ, (mem_symmetric n _).2 ⟨σ, rfl⟩, rfl⟩, ?_⟩
      rw [hn, (relabel_btas a hs σ σ).1]
      show _ ≠ a.shape
      rw [hs]
      intro e
      obtain ⟨e1, e2⟩ := List.append_inj e (by simp)
      rcases hσ with hσ | hσ
      · exact hσ (List.ofFn_injective e1)
      · exact hσ (List.ofFn_injective e2)
    rw [this]; rfl
  · intro h
    obtain ⟨p, q, hs⟩ := uniform_hasShape h
    obtain ⟨r, h1, h2, h3⟩ := addAll_ok ((symmetricPermutation n).map fun p => relabel p (List.range a.shape.length) a) (zeroTen a.shape) (by
        intro t ht
        obtain ⟨p, hp, rfl⟩ := List.mem_map.1 ht
        obtain ⟨σ, rfl⟩ := (mem_symmetric n p).1 hp
        rw [hn]
        exact (relabel_btas a hs σ σ).1.trans hs.symm)
    refine ⟨scale ((n.factorial : F)⁻¹) r, by rw [h1]; rfl, h2, fun b k => ?_⟩
    unfold el scale
    simp only
    rw [h3, List.map_map]
    simp only [Function.comp_def]
    rw [sum_symmetric n fun p => (relabel p (List.range a.shape.length) a).at_ (List.ofFn b ++ List.ofFn k)]
    simp only [zeroTen, zero_add]
    congr 1
    refine Fintype.sum_equiv (Equiv.inv _) _ _ fun σ => ?_
    rw [hn]
    exact (relabel_btas a hs σ σ).2 b k

/-! ### Antisymmetrization -/

theorem sum_sign (s n : Nat) (f : List Nat → F) :
    ((antisymmetricPermutation (List.range' s n)).map fun v => signOf v.2 * f v.1).sum =
      ∑ σ : Equiv.Perm (Fin n), (Equiv.Perm.sign σ : Int) • f (List.ofFn fun i => s + (σ i : Nat)) := by
  rw [← sum_antisymmetric]
  congr 1
  apply List.map_congr_left
  intro v _
  unfold signOf
  split <;> simp

theorem anti_ne (s n : Nat) : antisymmetricPermutation (List.range' s n) ≠ [] := by
  obtain ⟨p, hp⟩ := (mem_antisymmetric s n _).2 ⟨1, rfl⟩
  intro h; rw [h] at hp; simp at hp

theorem one_perm (s n : Nat) : (List.range' s n) = List.ofFn fun i : Fin n => s + ((1 : Equiv.Perm (Fin n)) i : Nat) := range'_eq s n

theorem sign_le_one {k : Nat} (h : k ≤ 1) (f : Equiv.Perm (Fin k) → F) : ∑ σ : Equiv.Perm (Fin k), (Equiv.Perm.sign σ : Int) • f σ = f 1 := by
  have hsub : Subsingleton (Fin k) := ⟨fun i j => Fin.ext (by omega)⟩
  have : ∀ σ : Equiv.Perm (Fin k), σ = 1 := fun σ => Equiv.ext fun i => Subsingleton.elim _ _
  rw [Fintype.sum_eq_single 1 (fun σ h => absurd (this σ) h)]
  simp

/-- The two ways of putting permuted and fixed labels together. -/
theorem labels_bra (n m : Nat) (σ : Equiv.Perm (Fin n)) : (List.ofFn fun i => 0 + (σ i : Nat)) ++ List.range' n m = two σ (1 : Equiv.Perm (Fin m)) := by
  rw [range'_eq]; simp [two]

theorem labels_ket (n m : Nat) (τ : Equiv.Perm (Fin m)) : List.range n ++ (List.ofFn fun i => n + (τ i : Nat)) = two (1 : Equiv.Perm (Fin n)) τ := by
  rw [List.range_eq_range', range'_eq]; simp [two]

/-- A step: permutations of one of the two groups of labels. -/
structure Step (a r : Ten F) (n m : Nat) (isBra : Bool) : Prop where
  shape : r.shape = a.shape
  bra : isBra = true → ∀ (b : Fin n → Nat) (k : Fin m → Nat), el r b k = ∑ σ : Equiv.Perm (Fin n), (Equiv.Perm.sign σ : Int) • el a (b ∘ σ) k
  ket : isBra = false → ∀ (b : Fin n → Nat) (k : Fin m → Nat), el r b k = ∑ τ : Equiv.Perm (Fin m), (Equiv.Perm.sign τ : Int) • el a b (k ∘ τ)

theorem processTA_ok (a : Ten F) (h : Uniform a n m) :
    (∃ r, processTA (n + m) (List.range n) (List.range' n m) true a = .ok r ∧ Step a r n m true) ∧
    ∃ r, processTA (n + m) (List.range' n m) (List.range n) false a = .ok r ∧ Step a r n m false := by
  obtain ⟨p, q, hs⟩ := uniform_hasShape h
  constructor
  · unfold processTA
    by_cases hn : n ≤ 1
    · rw [if_pos (by simpa using hn)]
      exact ⟨a, rfl, rfl, fun _ b k => (sign_le_one hn fun σ => el a (b ∘ σ) k).symm, by simp⟩
    · rw [if_neg (by simpa using hn), List.range_eq_range' (n := n)]
      obtain ⟨r, h1, h2, h3⟩ := collect_ok ((antisymmetricPermutation (List.range' 0 n)).map fun v =>
        scale (signOf v.2) (relabel (List.range (n + m)) (if true = true then v.1 ++ List.range' n m else List.range' n m ++ v.1) a)) a.shape
        (by simpa using anti_ne 0 n) (by
          intro t ht
          obtain ⟨⟨l, p⟩, hp, rfl⟩ := List.mem_map.1 ht
          obtain ⟨σ, rfl⟩ := (mem_antisymmetric 0 n l).1 ⟨p, hp⟩
          simp only [if_true, labels_bra, scale]
          exact (relabel_ta a hs σ 1).1.trans hs.symm)
      refine ⟨r, h1, h2, fun _ b k => ?_, by simp⟩
      unfold el
      rw [h3, List.map_map]
      simp only [Function.comp_def, if_true, scale]
      rw [sum_sign 0 n fun l => (relabel (List.range (n + m)) (l ++ List.range' n m) a).at_ (List.ofFn b ++ List.ofFn k)]
      refine Finset.sum_congr rfl fun σ _ => ?_
      rw [labels_bra, (relabel_ta a hs σ 1).2]
      rfl
  · unfold processTA
    by_cases hn : m ≤ 1
    · rw [if_pos (by simpa using hn)]
      exact ⟨a, rfl, rfl, by simp, fun _ b k => (sign_le_one hn fun τ => el a b (k ∘ τ)).symm⟩
    · rw [if_neg (by simpa using hn)]
      obtain ⟨r, h1, h2, h3⟩ := collect_ok ((antisymmetricPermutation (List.range' n m)).map fun v =>
        scale (signOf v.2) (relabel (List.range (n + m)) (if false = true then v.1 ++ List.range n else List.range n ++ v.1) a)) a.shape
        (by simpa using anti_ne n m) (by
          intro t ht
          obtain ⟨⟨l, p⟩, hp, rfl⟩ := List.mem_map.1 ht
          obtain ⟨τ, rfl⟩ := (mem_antisymmetric n m l).1 ⟨p, hp⟩
          simp only [Bool.false_eq_true, if_false, labels_ket, scale]
          exact (relabel_ta a hs 1 τ).1.trans hs.symm)
      refine ⟨r, h1, h2, by simp, fun _ b k => ?_⟩
      unfold el
      rw [h3, List.map_map]
      simp only [Function.comp_def, Bool.false_eq_true, if_false, scale]
      rw [sum_sign n m fun l => (relabel (List.range (n + m)) (List.range n ++ l) a).at_ (List.ofFn b ++ List.ofFn k)]
      refine Finset.sum_congr rfl fun τ _ => ?_
      rw [labels_ket, (relabel_ta a hs 1 τ).2]
      rfl

theorem processBtas_ok (fresh : List Nat → List Nat → F) (h0 : ∀ s x, fresh s x = 0) (a : Ten F) (h : Uniform a n m) :
    (∃ r, processBtas fresh (n + m) (List.range n) (List.range' n m) true a = .ok r ∧ Step a r n m true) ∧
    ∃ r, processBtas fresh (n + m) (List.range' n m) (List.range n) false a = .ok r ∧ Step a r n m false := by
  obtain ⟨p, q, hs⟩ := uniform_hasShape h
  constructor
  · unfold processBtas
    by_cases hn : n ≤ 1
    · rw [if_pos (by simpa using hn)]
      exact ⟨a, rfl, rfl, fun _ b k => (sign_le_one hn fun σ => el a (b ∘ σ) k).symm, by simp⟩
    · rw [if_neg (by simpa using hn), List.range_eq_range' (n := n)]
      obtain ⟨r, h1, h2, h3⟩ := addAll_ok ((antisymmetricPermutation (List.range' 0 n)).map fun v =>
        scale (signOf v.2) (relabel (if true = true then v.1 ++ List.range' n m else List.range' n m ++ v.1) (List.range (n + m)) a))
        ⟨a.shape, fresh a.shape⟩ (by
          intro t ht
          obtain ⟨⟨l, p⟩, hp, rfl⟩ := List.mem_map.1 ht
          obtain ⟨σ, rfl⟩ := (mem_antisymmetric 0 n l).1 ⟨p, hp⟩
          simp only [if_true, labels_bra, scale]
          exact (relabel_btas a hs σ 1).1.trans hs.symm)
      refine ⟨r, h1, h2, fun _ b k => ?_, by simp⟩
      unfold el
      rw [h3, List.map_map]
      simp only [Function.comp_def, if_true, scale, h0, zero_add]
      rw [sum_sign 0 n fun l => (relabel (l ++ List.range' n m) (List.range (n + m)) a).at_ (List.ofFn b ++ List.ofFn k)]
      refine Fintype.sum_equiv (Equiv.inv _) _ _ fun σ => ?_
      rw [labels_bra, (relabel_btas a hs σ 1).2]
      simp only [Equiv.inv_apply, Equiv.Perm.sign_inv]
      rfl
  · unfold processBtas
    by_cases hn : m ≤ 1
    · rw [if_pos (by simpa using hn)]
      exact ⟨a, rfl, rfl, by simp, fun _ b k => (sign_le_one hn fun τ => el a b (k ∘ τ)).symm⟩
    · rw [if_neg (by simpa using hn)]
      obtain ⟨r, h1, h2, h3⟩ := addAll_ok ((antisymmetricPermutation (List.range' n m)).map fun v =>
        scale (signOf v.2) (relabel (if false = true then v.1 ++ List.range n else List.range n ++ v.1) (List.range (n + m)) a))
        ⟨a.shape, fresh a.shape⟩ (by
          intro t ht
          obtain ⟨⟨l, p⟩, hp, rfl⟩ := List.mem_map.1 ht
          obtain ⟨τ, rfl⟩ := (mem_antisymmetric n m l).1 ⟨p, hp⟩
          simp only [Bool.false_eq_true, if_false, labels_ket, scale]
          exact (relabel_btas a hs 1 τ).1.trans hs.symm)
      refine ⟨r, h1, h2, by simp, fun _ b k => ?_⟩
      unfold el
      rw [h3, List.map_map]
      simp only [Function.comp_def, Bool.false_eq_true, if_false, scale, h0, zero_add]
      rw [sum_sign n m fun l => (relabel (List.range n ++ l) (List.range (n + m)) a).at_ (List.ofFn b ++ List.ofFn k)]
      refine Fintype.sum_equiv (Equiv.inv _) _ _ fun τ => ?_
      rw [labels_ket, (relabel_btas a hs 1 τ).2]
      simp only [Equiv.inv_apply, Equiv.Perm.sign_inv]
      rfl

theorem steps {a s r : Ten F} (h1 : Step a s n m true) (h2 : Step s r n m false) : AntiOf a (scale (((n.factorial * m.factorial : Nat) : F)⁻¹) r) n m := by
  refine ⟨h2.shape.trans h1.shape, fun b k => ?_⟩
  show _ * el r b k = _
  congr 1
  rw [h2.ket rfl, Finset.sum_comm]
  refine Finset.sum_congr rfl fun τ _ => ?_
  rw [h1.bra rfl, Finset.smul_sum]
  exact Finset.sum_congr rfl fun σ _ => smul_comm _ _ _

/-- **C81** Antisymmetrization with TiledArray. -/
theorem antisymmetrizeTA_spec (a : Ten F) :
    (∀ n, a.shape.length < n → antisymmetrizeTA a n = .error .assertion) ∧
    ∀ n m, Uniform a n m → ∃ r, antisymmetrizeTA a n = .ok r ∧ AntiOf a r n m := by
  unfold antisymmetrizeTA
  refine ⟨fun n h => by simp only; rw [if_pos (by omega)], fun n m h => ?_⟩
  have hl := uniform_length h
  have hm : a.shape.length - n = m := by omega
  simp only [hm]
  rw [if_neg (by omega)]
  by_cases h1 : n ≤ 1 ∧ m ≤ 1
  · rw [if_pos h1]
    refine ⟨a, rfl, rfl, fun b k => ?_⟩
    have f1 : n.factorial = 1 := Nat.factorial_eq_one.2 h1.1
    have f2 : m.factorial = 1 := Nat.factorial_eq_one.2 h1.2
    rw [f1, f2]
    simp only [← Finset.smul_sum, sign_le_one h1.2, sign_le_one h1.1]
    simp [el]
  · rw [if_neg h1, hl]
    obtain ⟨s, e1, s1⟩ := (processTA_ok a h).1
    have h' : Uniform s n m := by obtain ⟨p, q, e⟩ := h; exact ⟨p, q, s1.shape.trans e⟩
    obtain ⟨r, e2, s2⟩ := (processTA_ok s h').2
    rw [e1]
    simp only
    rw [e2]
    exact ⟨_, rfl, steps s1 s2⟩

/-- **C81** Antisymmetrization with BTAS, if newly constructed arrays hold zeros (otherwise see `antisymmetrizeBtas_fresh`). -/
theorem antisymmetrizeBtas_partial (fresh : List Nat → List Nat → F) (h0 : ∀ s x, fresh s x = 0) (a : Ten F) :
    (∀ n, a.shape.length < n → antisymmetrizeBtas fresh a n = .error .assertion) ∧
    ∀ n m, Uniform a n m → ∃ r, antisymmetrizeBtas fresh a n = .ok r ∧ AntiOf a r n m := by
  unfold antisymmetrizeBtas
  refine ⟨fun n h => by simp only; rw [if_pos (by omega)], fun n m h => ?_⟩
  have hl := uniform_length h
  have hm : a.shape.length - n = m := by omega
  simp only [hm]
  rw [if_neg (by omega), hl]
  obtain ⟨s, e1, s1⟩ := (processBtas_ok fresh h0 a h).1
  have h' : Uniform s n m := by obtain ⟨p, q, e⟩ := h; exact ⟨p, q, s1.shape.trans e⟩
  obtain ⟨r, e2, s2⟩ := (processBtas_ok fresh h0 s h').2
  rw [e1]
  simp only
  rw [e2]
  exact ⟨_, rfl, steps s1 s2⟩

/-- **C81** Antisymmetrization with TAPP. -/
theorem antisymmetrizeTapp_spec (a : Ten F) :
    (∀ n, a.shape.length < n → antisymmetrizeTapp a n = .error .assertion) ∧
    ∀ n m, Uniform a n m → ∃ r, antisymmetrizeTapp a n = .ok r ∧ AntiOf a r n m := antisymmetrizeBtas_partial _ (fun _ _ => rfl) a

/-! ### Consequences -/

/-- **C81** The symmetrized array does not change when particles are exchanged. -/
theorem SymOf.symmetric {a r : Ten F} (h : SymOf a r n) (π : Equiv.Perm (Fin n)) (b k : Fin n → Nat) : el r (b ∘ π) (k ∘ π) = el r b k := by
  rw [h.2, h.2]
  congr 1
  exact Fintype.sum_equiv (Equiv.mulLeft π) _ _ fun σ => rfl

theorem AntiOf.antisymmetric {a r : Ten F} (h : AntiOf a r n m) (π : Equiv.Perm (Fin n)) (ρ : Equiv.Perm (Fin m)) (b : Fin n → Nat) (k : Fin m → Nat) :
    el r (b ∘ π) (k ∘ ρ) = (Equiv.Perm.sign π : Int) • (Equiv.Perm.sign ρ : Int) • el r b k := by
  have s2 : ∀ {j : Nat} (π σ : Equiv.Perm (Fin j)), (Equiv.Perm.sign σ : Int) = Equiv.Perm.sign π * Equiv.Perm.sign (π * σ) := by
    intro j π σ
    rw [Equiv.Perm.sign_mul, Units.val_mul, ← mul_assoc, ← Units.val_mul, Int.units_mul_self]
    simp
  rw [h.2, h.2, ← mul_smul_comm, ← mul_smul_comm]
  congr 1
  simp only [Finset.smul_sum]
  refine Fintype.sum_equiv (Equiv.mulLeft π) _ _ fun σ => ?_
  refine Fintype.sum_equiv (Equiv.mulLeft ρ) _ _ fun τ => ?_
  simp only [Equiv.coe_mulLeft]
  rw [s2 π σ, s2 ρ τ]
  simp only [mul_smul]
  rw [smul_comm (Equiv.Perm.sign (π * σ) : Int) (Equiv.Perm.sign ρ : Int)]
  rfl

variable [CharZero F]

/-- **C81** A symmetric array is its own symmetrized array; hence symmetrization twice is symmetrization once. -/
theorem SymOf.fixed {a r : Ten F} (h : SymOf a r n) (hs : ∀ (π : Equiv.Perm (Fin n)) (b k : Fin n → Nat), el a (b ∘ π) (k ∘ π) = el a b k)
    (b k : Fin n → Nat) : el r b k = el a b k := by
  rw [h.2]
  simp only [hs, Finset.sum_const, Finset.card_univ, Fintype.card_perm, Fintype.card_fin, nsmul_eq_mul]
  rw [← mul_assoc, inv_mul_cancel₀ (Nat.cast_ne_zero.2 n.factorial_ne_zero), one_mul]

theorem SymOf.twice {a r s : Ten F} (h : SymOf a r n) (h' : SymOf r s n) (b k : Fin n → Nat) : el s b k = el r b k := h'.fixed h.symmetric b k

theorem AntiOf.fixed {a r : Ten F} (h : AntiOf a r n m) (hs : ∀ (π : Equiv.Perm (Fin n)) (ρ : Equiv.Perm (Fin m)) (b : Fin n → Nat) (k : Fin m → Nat),
    el a (b ∘ π) (k ∘ ρ) = (Equiv.Perm.sign π : Int) • (Equiv.Perm.sign ρ : Int) • el a b k) (b : Fin n → Nat) (k : Fin m → Nat) :
    el r b k = el a b k := by
  have sq : ∀ {j : Nat} (σ : Equiv.Perm (Fin j)), (Equiv.Perm.sign σ : Int) * Equiv.Perm.sign σ = 1 := by
    intro j σ; rw [← Units.val_mul, Int.units_mul_self]; rfl
  rw [h.2]
  have : ∀ (σ : Equiv.Perm (Fin n)) (τ : Equiv.Perm (Fin m)),
      (Equiv.Perm.sign σ : Int) • (Equiv.Perm.sign τ : Int) • el a (b ∘ σ) (k ∘ τ) = el a b k := by
    intro σ τ
    rw [hs, smul_smul, smul_smul, smul_smul]
    rw [show (Equiv.Perm.sign σ : Int) * (Equiv.Perm.sign τ : Int) * (Equiv.Perm.sign σ : Int) * (Equiv.Perm.sign τ : Int) =
      ((Equiv.Perm.sign σ : Int) * Equiv.Perm.sign σ) * ((Equiv.Perm.sign τ : Int) * Equiv.Perm.sign τ) by ring, sq, sq]
    simp
  simp only [this, Finset.sum_const, Finset.card_univ, Fintype.card_perm, Fintype.card_fin, nsmul_eq_mul]
  rw [← mul_assoc (n.factorial : F), ← Nat.cast_mul, ← mul_assoc,
    inv_mul_cancel₀ (Nat.cast_ne_zero.2 (Nat.mul_ne_zero n.factorial_ne_zero m.factorial_ne_zero)), one_mul]

theorem AntiOf.twice {a r s : Ten F} (h : AntiOf a r n m) (h' : AntiOf r s n m) (b : Fin n → Nat) (k : Fin m → Nat) : el s b k = el r b k :=
  h'.fixed h.antisymmetric b k

end field

end SeQuant.Symm
