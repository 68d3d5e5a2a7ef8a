import Verif.Binarize.ValueProps
import Verif.Tensor.CanonProps
import Verif.Sort.Props

/-!
# The block canonicalizer in binarization

What `ValueProps` assumes of the canonicalization of leaves holds for `TensorBlockCanonicalizer` (`Tensors.canonBlock`).
-/

namespace SeQuant.Binarize

open SeQuant.Eval SeQuant.Tensors SeQuant.Optimize

variable {L ι K H G S : Type}

/-- `TensorBlockCanonicalizer{}.apply` with enough fuel for its sorts. -/
def blockCn (fuel : Nat) (spaceLess idxcmp : Option ι → Option ι → Bool) (paircmp : Option ι × Option ι → Option ι × Option ι → Bool)
    (t : Tens ι) : Option Int × Tens ι := (canonBlock fuel spaceLess idxcmp paircmp t).getD (none, t)

/-- The indices of bra and ket. -/
def slotIdx (t : Tens ι) : List ι := t.bra.filterMap id ++ t.ket.filterMap id

theorem swapBraKet_idx (t : Tens ι) : (slotIdx (swapBraKet t)).Perm (slotIdx t) := by
  unfold slotIdx swapBraKet canonicalizeSlots
  split
  · split
    · exact ((filterMap_arrange_fst _ _).append (filterMap_arrange_snd _ _)).trans List.perm_append_comm
    · exact List.perm_append_comm
  · exact List.perm_append_comm

theorem zip_fst {α β : Type} (a : List α) (b : List β) (h : a.length = b.length) : (a.zip b).map (·.1) = a := by
  rw [← List.unzip_fst, List.unzip_zip h]

theorem zip_snd {α β : Type} (a : List α) (b : List β) (h : a.length = b.length) : (a.zip b).map (·.2) = b := by
  rw [← List.unzip_snd, List.unzip_zip h]

theorem canonCore_perm (fuel : Nat) (idxcmp : Option ι → Option ι → Bool) (paircmp : Option ι × Option ι → Option ι × Option ι → Bool)
    (t t' : Tens ι) (p : Option Int) (h : canonCore fuel idxcmp paircmp t = some (p, t')) :
    t'.bra.Perm t.bra ∧ t'.ket.Perm t.ket ∧ (p = none ∨ p = some (-1)) := by
  unfold canonCore at h
  split at h
  · simp only [Option.some.injEq, Prod.mk.injEq] at h
    obtain ⟨rfl, rfl⟩ := h
    exact ⟨.refl _, .refl _, Or.inl rfl⟩
  split at h
  · simp only [Option.some.injEq, Prod.mk.injEq] at h
    obtain ⟨rfl, rfl⟩ := h
    exact ⟨.refl _, .refl _, Or.inl rfl⟩
  split at h
  · simp only at h
    split at h
    · exact absurd h (by simp)
    · rename_i z n hz
      have hp := (Sort.bubbleSort_sound paircmp fuel _ _ _ hz).1
      have hlen : (t.bra.take (min t.bra.length t.ket.length)).length = (t.ket.take (min t.bra.length t.ket.length)).length := by
        simp only [List.length_take]; omega
      have hb : (z.map (·.1)).Perm (t.bra.take (min t.bra.length t.ket.length)) := by
        have := hp.map (·.1)
        rwa [zip_fst _ _ hlen] at this
      have hk : (z.map (·.2)).Perm (t.ket.take (min t.bra.length t.ket.length)) := by
        have := hp.map (·.2)
        rwa [zip_snd _ _ hlen] at this
      have hb' := hb.append_right (t.bra.drop (min t.bra.length t.ket.length))
      have hk' := hk.append_right (t.ket.drop (min t.bra.length t.ket.length))
      rw [List.take_append_drop] at hb' hk'
      split at h
      · split at h
        · exact absurd h (by simp)
        · rename_i r m hr
          have hr' := (Sort.bubbleSort_sound idxcmp fuel _ _ _ hr).1
          simp only [Option.some.injEq, Prod.mk.injEq] at h
          obtain ⟨rfl, rfl⟩ := h
          exact ⟨(List.Perm.append_left _ hr').trans hb', hk', Or.inl rfl⟩
      · split at h
        · split at h
          · exact absurd h (by simp)
          · rename_i r m hr
            have hr' := (Sort.bubbleSort_sound idxcmp fuel _ _ _ hr).1
            simp only [Option.some.injEq, Prod.mk.injEq] at h
            obtain ⟨rfl, rfl⟩ := h
            exact ⟨hb', (List.Perm.append_left _ hr').trans hk', Or.inl rfl⟩
        · simp only [Option.some.injEq, Prod.mk.injEq] at h
          obtain ⟨rfl, rfl⟩ := h
          exact ⟨hb', hk', Or.inl rfl⟩
  · split at h
    · rename_i b n k m hb hk
      simp only [Option.some.injEq, Prod.mk.injEq] at h
      obtain ⟨rfl, rfl⟩ := h
      refine ⟨(Sort.bubbleSort_sound idxcmp fuel _ _ _ hb).1, (Sort.bubbleSort_sound idxcmp fuel _ _ _ hk).1, ?_⟩
      split
      · split
        · exact Or.inr rfl
        · exact Or.inl rfl
      · exact Or.inl rfl
    · exact absurd h (by simp)

theorem canonBlock_idx (fuel : Nat) (spaceLess idxcmp : Option ι → Option ι → Bool)
    (paircmp : Option ι × Option ι → Option ι × Option ι → Bool) (t : Tens ι) :
    (slotIdx (blockCn fuel spaceLess idxcmp paircmp t).2).Perm (slotIdx t) := by
  unfold blockCn
  cases h : canonBlock fuel spaceLess idxcmp paircmp t with
  | none => exact .refl _
  | some r =>
    obtain ⟨h1, h2, _⟩ := canonCore_perm fuel idxcmp paircmp _ _ _ h
    refine List.Perm.trans ((h1.filterMap id).append (h2.filterMap id)) ?_
    unfold orient
    split
    · split
      · exact swapBraKet_idx t
      · exact .refl _
    · exact .refl _

/-- The block canonicalizer permutes the indices of a tensor. -/
theorem canonTen_idx (cfg : Cfg L ι K H G) (fuel : Nat) (spaceLess idxcmp : Option ι → Option ι → Bool)
    (paircmp : Option ι × Option ι → Option ι × Option ι → Bool) (hcn : cfg.cn = blockCn fuel spaceLess idxcmp paircmp) (t : Ten L ι) :
    (canonTen cfg t).idx.Perm t.idx := by
  have := canonBlock_idx fuel spaceLess idxcmp paircmp t.s
  unfold canonTen Ten.idx
  rw [hcn]
  exact this.append_right _

variable [CommRing K] [Star K]

/-- The array for a tensor, as a function of its bra and ket slots. -/
def onSlots (D : Store L ι S K) (t : Ten L ι) (ρ : ι → Nat) (b k : List (Option ι)) : K :=
  D.arr t.label (b.length + k.length + t.aux.length) ((b.filterMap id ++ k.filterMap id ++ t.aux).map D.sp)
    ((b.filterMap id ++ k.filterMap id ++ t.aux).map ρ)

/-- If the array has the symmetries declared for the tensor then the canonical tensor has the same elements up to the phase. -/
theorem dataSymm_of_respects (D : Store L ι S K) (cfg : Cfg L ι K H G) (fuel : Nat) (spaceLess idxcmp : Option ι → Option ι → Bool)
    (paircmp : Option ι × Option ι → Option ι × Option ι → Bool) (hcn : cfg.cn = blockCn fuel spaceLess idxcmp paircmp) (t : Ten L ι)
    (ha : t.adj = false) (hv : Valid t.s) (hV : ∀ ρ, Respects t.s (onSlots D t ρ)) : DataSymm D cfg t := by
  intro ρ
  cases h : canonBlock fuel spaceLess idxcmp paircmp t.s with
  | none =>
    have e : cfg.cn t.s = (none, t.s) := by rw [hcn, blockCn, h]; rfl
    have e1 : leafPhase cfg t = 1 := by rw [leafPhase, e]; rfl
    have e2 : canonTen cfg t = t := by rw [canonTen, e]
    rw [e1, e2, Int.cast_one, one_mul]
  | some r =>
    obtain ⟨p, t'⟩ := r
    have e : cfg.cn t.s = (p, t') := by rw [hcn, blockCn, h]; rfl
    have hval := canonBlock_value fuel spaceLess idxcmp paircmp t.s t' p hv h (onSlots D t ρ) (hV ρ)
    have hp := (canonCore_perm fuel idxcmp paircmp _ _ _ h).2.2
    have e1 : leafPhase cfg t = phase p := by
      rw [leafPhase, e]
      rcases hp with rfl | rfl <;> rfl
    have e2 : D.ten (canonTen cfg t) ρ = onSlots D t ρ t'.bra t'.ket := by
      have : canonTen cfg t = { t with s := t' } := by rw [canonTen, e]
      rw [this]
      simp only [Store.ten, ha, Bool.false_eq_true, if_false]
      rfl
    have e3 : D.ten t ρ = onSlots D t ρ t.s.bra t.s.ket := by
      simp only [Store.ten, ha, Bool.false_eq_true, if_false]
      rfl
    rw [e1, e2, e3, hval, zsmul_eq_mul]

end SeQuant.Binarize
