import Verif.Bits.Lemmas

/-!
# C10: subset and bipartition enumeration is complete and free of duplicates

The specification uses only the bitwise operations themselves: `s &&& mask = s` says that `s` is a subset
of `mask`, `a &&& b = 0` that two masks are disjoint and `a ||| b = mask` that together they cover `mask`.
-/

namespace SeQuant.Bits

/-- `bits::subsets_descending(mask)` lists exactly the submasks of `mask`, in strictly descending order
(in particular each one once). -/
theorem subsetsDescending_complete {w : Nat} (mask : BitVec w) :
    (∀ s, s ∈ subsetsDescending mask ↔ s &&& mask = s) ∧
      (subsetsDescending mask).Pairwise (· > ·) := by
  have e : subsetsDescending mask = run mask (2 ^ popcount mask.toNat) mask := by
    simp [subsetsDescending, bipartitionsOrdered, Function.comp_def]
  rw [e]
  exact ⟨fun s => mem_run mask s, pairwise_run mask⟩

/-- `bits::subsets(mask)` lists exactly the submasks of `mask`, in strictly ascending order. -/
theorem subsetsAscending_complete {w : Nat} (mask : BitVec w) :
    (∀ s, s ∈ subsetsAscending mask ↔ s &&& mask = s) ∧
      (subsetsAscending mask).Pairwise (· < ·) := by
  have e : subsetsAscending mask = (run mask (2 ^ popcount mask.toNat) mask).reverse := by
    rw [← map_xor_run]
    simp [subsetsAscending, bipartitionsOrdered, Function.comp_def]
  rw [e]
  refine ⟨fun s => by rw [List.mem_reverse]; exact mem_run mask s, ?_⟩
  rw [List.pairwise_reverse]
  exact pairwise_run mask

/-- Every pair produced by `bits::bipartitions` splits `mask` into two disjoint parts. -/
theorem bipartitions_sound {w : Nat} (mask a b : BitVec w) (h : (a, b) ∈ bipartitions mask) :
    a &&& b = 0 ∧ a ||| b = mask := by
  have h' : (a, b) ∈ bipartitionsOrdered mask := List.mem_of_mem_take h
  simp only [bipartitionsOrdered, List.mem_map] at h'
  obtain ⟨p, hp, e⟩ := h'
  simp only [Prod.mk.injEq] at e
  obtain ⟨rfl, rfl⟩ := e
  rw [mem_run] at hp
  have hb : ∀ i (hi : i < w), (p[i] && mask[i]) = p[i] := by
    intro i hi
    rw [← BitVec.getElem_and, hp]
  constructor
  · apply BitVec.eq_of_getElem_eq
    intro i hi
    have := hb i hi
    revert this
    simp
    cases p[i] <;> cases mask[i] <;> simp
  · apply BitVec.eq_of_getElem_eq
    intro i hi
    have := hb i hi
    revert this
    simp
    cases p[i] <;> cases mask[i] <;> simp

/-- For a nonempty mask, `bits::bipartitions` produces each unordered split exactly once: of the two ordered
versions of a split precisely one occurs, and no pair is repeated. -/
theorem bipartitions_exactly_once {w : Nat} (mask : BitVec w) (h0 : mask ≠ 0) :
    (bipartitions mask).Nodup ∧
      ∀ a b : BitVec w, a &&& b = 0 → a ||| b = mask →
        ((a, b) ∈ bipartitions mask ↔ (b, a) ∉ bipartitions mask) := by
  have hr := map_xor_run mask
  have hl := length_run mask (2 ^ popcount mask.toNat) mask
  have hm := mem_run mask
  have hpw := pairwise_run mask
  have hpos : 0 < popcount mask.toNat := popcount_pos _ (by
    intro h; apply h0; apply BitVec.eq_of_toNat_eq; simpa using h)
  obtain ⟨k, hk⟩ : ∃ k, popcount mask.toNat = k + 1 := ⟨popcount mask.toNat - 1, by omega⟩
  simp only [bipartitions, bipartitionsOrdered]
  rw [List.length_map, hl]
  generalize hL : run mask (2 ^ popcount mask.toNat) mask = L at *
  have hlen : L.length = 2 * 2 ^ k := by rw [hl, hk, Nat.pow_succ, Nat.mul_comm]
  have hhalf : 2 ^ popcount mask.toNat / 2 = 2 ^ k := by rw [← hl, hlen]; omega
  rw [hhalf, ← List.map_take]
  have hnd : L.Nodup := hpw.imp fun h e => by
    subst e; simp only [gt_iff_lt, BitVec.lt_def] at h; omega
  constructor
  · rw [List.nodup_iff_pairwise_ne, List.pairwise_map]
    have : (L.take (2 ^ k)).Nodup := hnd.sublist (List.take_sublist _ _)
    exact this.imp fun hne e => hne (by simp at e; exact e)
  · intro a b hab hor
    have hb : b ∈ L := (hm b).2 (by
      rw [← hor]
      apply BitVec.eq_of_getElem_eq
      intro i hi
      simp
      intro h; exact Or.inr h)
    have hax : b ^^^ mask = a := by
      apply BitVec.eq_of_getElem_eq
      intro i hi
      have h1 : (a &&& b)[i] = false := by rw [hab]; simp
      rw [← hor]
      simp at h1 ⊢
      revert h1
      cases a[i] <;> cases b[i] <;> simp
    have hbx : a ^^^ mask = b := by
      rw [← hax, BitVec.xor_assoc, BitVec.xor_self, BitVec.xor_zero]
    have mem_iff : ∀ x y : BitVec w, x ^^^ mask = y →
        ((y, x) ∈ (L.take (2 ^ k)).map (fun p => (p ^^^ mask, p)) ↔ x ∈ L.take (2 ^ k)) := by
      intro x y hxy
      rw [List.mem_map]
      constructor
      · rintro ⟨p, hp, e⟩
        simp only [Prod.mk.injEq] at e
        rw [← e.2]; exact hp
      · intro hx; exact ⟨x, hx, by simp [hxy]⟩
    rw [mem_iff b a hax, mem_iff a b hbx]
    -- position arithmetic: complementing reflects the position
    obtain ⟨i, hi, hbi⟩ := List.mem_iff_getElem.1 hb
    have hrev : (L.map (· ^^^ mask))[i]'(by simpa using hi) = L.reverse[i]'(by simpa using hi) := by
      simp only [hr]
    rw [List.getElem_map, List.getElem_reverse, hbi, hax] at hrev
    have take_iff : ∀ j (hj : j < L.length), L[j] ∈ L.take (2 ^ k) ↔ j < 2 ^ k := by
      intro j hj
      rw [List.mem_take_iff_getElem]
      constructor
      · rintro ⟨j', hj', e⟩
        have := (List.getElem_inj hnd).1 e
        omega
      · intro hlt; exact ⟨j, by omega, rfl⟩
    have t1 := take_iff i hi
    have t2 := take_iff (L.length - 1 - i) (by omega)
    rw [hbi] at t1
    rw [← hrev] at t2
    rw [t1, t2]
    omega

/-- `bits::on_bits_index(mask)` lists exactly the positions of the set bits in ascending order. -/
theorem onBitsIndex_complete {w : Nat} (mask : BitVec w) :
    (∀ i, i ∈ onBitsIndex mask ↔ mask.getLsbD i = true) ∧ (onBitsIndex mask).Pairwise (· < ·) := by
  obtain ⟨h1, h2⟩ := onBitsRun_spec (popcount mask.toNat) mask rfl
  refine ⟨fun i => ?_, h1⟩
  rw [onBitsIndex, h2]
  simp [BitVec.getLsbD]

-- Concrete non-trivial cases.
example : bipartitions 0b1101#8 =
    [(0b0000#8, 0b1101#8), (0b0001#8, 0b1100#8), (0b0100#8, 0b1001#8), (0b0101#8, 0b1000#8)] := by decide +kernel
example : (0b1101#8) ≠ 0 ∧ (0b0101#8 &&& 0b1000#8 = 0) ∧ (0b0101#8 ||| 0b1000#8 = 0b1101#8) := by decide
example : onBitsIndex 0b1101#8 = [0, 2, 3] := by decide +kernel

end SeQuant.Bits
