import Verif.Dense.Model
import Mathlib.Algebra.BigOperators.Intervals
import Mathlib.Algebra.BigOperators.Ring.Finset
import Mathlib.Data.Finset.Pi
import Mathlib.Tactic.Ring

/-!
# Lemmas on row-major arrays and sums over labels
-/

namespace SeQuant.Dense

variable {K : Type}

/-- the multi-index is within the extents. -/
def InRange (x ext : List Nat) : Prop := List.Forall₂ (· < ·) x ext

/-- the array has as many elements as its extents say. -/
def Arr.WF (a : Arr K) : Prop := a.data.length = a.ext.prod

theorem foldl_mul (l : List Nat) : ∀ c, l.foldl (· * ·) c = c * l.prod := by
  induction l with
  | nil => simp
  | cons a l ih => intro c; simp [ih, mul_assoc]

theorem volume_eq (ext : List Nat) : volume ext = ext.prod := by
  unfold volume; split
  · simp_all
  · simp [foldl_mul]

theorem strides_cons (e : Nat) : ∀ es, strides (e :: es) = es.prod :: strides es
  | [] => by simp [strides]
  | f :: fs => by
    rw [strides, strides_cons f fs]
    simp [Nat.mul_comm]

theorem foldl_add_mul (l : List (Nat × Nat)) : ∀ c, l.foldl (fun o p => o + p.1 * p.2) c = c + l.foldl (fun o p => o + p.1 * p.2) 0 := by
  induction l with
  | nil => simp
  | cons a l ih => intro c; simp only [List.foldl_cons]; rw [ih, ih (0 + _)]; omega

theorem offset_cons (x e : Nat) (xs es : List Nat) :
    offset (strides (e :: es)) (x :: xs) = x * es.prod + offset (strides es) xs := by
  rw [strides_cons]; unfold offset
  simp only [List.zip_cons_cons, List.foldl_cons]
  rw [foldl_add_mul]; omega

theorem offset_nil (st : List Nat) : offset st [] = 0 := by simp [offset]

/-- **Positions are within the data.** -/
theorem offset_lt {x ext : List Nat} (h : InRange x ext) : offset (strides ext) x < ext.prod := by
  induction h with
  | nil => simp [offset_nil]
  | @cons x e xs es h _ ih =>
    rw [offset_cons]
    calc x * es.prod + offset (strides es) xs < x * es.prod + es.prod := by omega
      _ = (x + 1) * es.prod := by ring
      _ ≤ e * es.prod := Nat.mul_le_mul_right _ h
      _ = _ := by simp

theorem unravel_offset {x ext : List Nat} (h : InRange x ext) : unravel ext (offset (strides ext) x) = x := by
  induction h with
  | nil => rfl
  | @cons x e xs es h hs ih =>
    have hl := offset_lt hs
    rw [offset_cons, unravel, volume_eq]
    rw [Nat.add_comm, Nat.add_mul_div_right _ _ (by omega), Nat.div_eq_of_lt hl, Nat.add_mul_mod_self_right, Nat.mod_eq_of_lt hl, ih]
    simp

theorem unravel_inRange : ∀ (ext : List Nat) {k : Nat}, k < ext.prod → InRange (unravel ext k) ext
  | [], _, _ => .nil
  | e :: es, k, h => by
    have h : k < e * es.prod := by simpa using h
    have hp : 0 < es.prod := by
      rcases Nat.eq_zero_or_pos es.prod with h0 | h0
      · simp [h0] at h
      · exact h0
    rw [unravel, volume_eq]
    exact .cons ((Nat.div_lt_iff_lt_mul hp).2 h) (unravel_inRange es (Nat.mod_lt _ hp))

theorem offset_unravel : ∀ (ext : List Nat) {k : Nat}, k < ext.prod → offset (strides ext) (unravel ext k) = k
  | [], k, h => by
    have : k = 0 := by simpa using h
    simp [unravel, offset_nil, this]
  | e :: es, k, h => by
    have h : k < e * es.prod := by simpa using h
    have hp : 0 < es.prod := by
      rcases Nat.eq_zero_or_pos es.prod with h0 | h0
      · simp [h0] at h
      · exact h0
    rw [unravel, volume_eq, offset_cons, offset_unravel es (Nat.mod_lt _ hp)]
    exact Nat.div_add_mod' k es.prod

theorem InRange.append {x y e f : List Nat} (h : InRange x e) (h' : InRange y f) : InRange (x ++ y) (e ++ f) := by
  induction h with
  | nil => exact h'
  | cons h _ ih => exact .cons h ih

theorem offset_append {x e : List Nat} (h : InRange x e) (y f : List Nat) :
    offset (strides (e ++ f)) (x ++ y) = offset (strides e) x * f.prod + offset (strides f) y := by
  induction h with
  | nil => simp [offset_nil]
  | cons h _ ih =>
    rw [List.cons_append, List.cons_append, offset_cons, ih, offset_cons, List.prod_append]; ring

theorem gen_WF (ext : List Nat) (f : List Nat → K) : (gen ext f).WF := by
  simp [Arr.WF, gen, volume_eq]

theorem gen_ext (ext : List Nat) (f : List Nat → K) : (gen ext f).ext = ext := rfl

theorem gen_at [Zero K] {ext x : List Nat} (h : InRange x ext) (f : List Nat → K) : (gen ext f).at_ x = f x := by
  have hl := offset_lt h
  unfold Arr.at_ gen
  simp only
  rw [List.getD_eq_getElem?_getD, List.getElem?_map, List.getElem?_range (by rw [volume_eq]; exact hl)]
  simp [unravel_offset h]

/-- an array is determined by its elements. -/
theorem Arr.ext_at [Zero K] {a b : Arr K} (ha : a.WF) (hb : b.WF) (he : a.ext = b.ext) (h : ∀ x, InRange x a.ext → a.at_ x = b.at_ x) : a = b := by
  obtain ⟨e, da⟩ := a
  obtain ⟨e', db⟩ := b
  simp only at he; subst he
  simp only [Arr.WF] at ha hb
  congr 1
  apply List.ext_getElem (by omega)
  intro k h1 h2
  have hk : k < e.prod := by omega
  have := h _ (unravel_inRange e hk)
  unfold Arr.at_ at this
  simp only at this
  rw [offset_unravel e hk] at this
  rw [List.getD_eq_getElem?_getD, List.getD_eq_getElem?_getD, List.getElem?_eq_getElem h1, List.getElem?_eq_getElem h2] at this
  exact this

theorem inRange_map {ann : List Label} {σ dim : Label → Nat} (h : ∀ l ∈ ann, σ l < dim l) : InRange (ann.map σ) (ann.map dim) := by
  induction ann with
  | nil => exact .nil
  | cons a ann ih => exact .cons (h a (by simp)) (ih fun l hl => h l (by simp [hl]))

theorem env_map {ann : List Label} {l : Label} (σ : Label → Nat) (h : l ∈ ann) : env ann (ann.map σ) l = σ l := by
  have hi : ann.idxOf l < ann.length := List.idxOf_lt_length_iff.2 h
  simp [env, List.getD_eq_getElem?_getD, List.getElem?_eq_getElem hi]

theorem extentOf_map {ann : List Label} {l : Label} (dim : Label → Nat) (h : l ∈ ann) : extentOf ann (ann.map dim) l = dim l := env_map dim h

/-- multi-indices come from values of the labels. -/
theorem map_env {ann : List Label} (hn : ann.Nodup) {x : List Nat} (h : x.length = ann.length) : ann.map (env ann x) = x := by
  apply List.ext_getElem (by simp [h])
  intro i h1 h2
  have hi : i < ann.length := by simpa using h1
  simp [env, hn.idxOf_getElem, List.getElem?_eq_getElem h2]

theorem InRange.length {x e : List Nat} (h : InRange x e) : x.length = e.length := List.Forall₂.length_eq h

theorem inRange_env {ann : List Label} {dim : Label → Nat} {x : List Nat} (h : InRange x (ann.map dim)) {l : Label} (hl : l ∈ ann) :
    env ann x l < dim l := by
  have hi : ann.idxOf l < ann.length := List.idxOf_lt_length_iff.2 hl
  have hlen : x.length = ann.length := by simpa using h.length
  have := (List.forall₂_iff_get.1 h).2 (ann.idxOf l) (by omega) (by simpa using hi)
  simpa [env, List.getD_eq_getElem?_getD, List.getElem?_eq_getElem (show ann.idxOf l < x.length by omega)] using this

/-! ### Sums -/

section
variable [AddCommMonoid K]

/-- the sum over all values of the labels in a finite set, the others being fixed. -/
noncomputable def netSum (dim : Label → Nat) (S : Finset Label) (σ : Label → Nat) (f : (Label → Nat) → K) : K :=
  ∑ τ ∈ S.pi fun l => Finset.range (dim l), f fun l => if h : l ∈ S then τ l h else σ l

theorem netSum_empty (dim : Label → Nat) (σ : Label → Nat) (f : (Label → Nat) → K) : netSum dim ∅ σ f = f σ := by
  simp [netSum, one_nsmul]

theorem netSum_insert {dim : Label → Nat} {S : Finset Label} {l : Label} (hl : l ∉ S) (σ : Label → Nat) (f : (Label → Nat) → K) :
    netSum dim (insert l S) σ f = ∑ v ∈ Finset.range (dim l), netSum dim S (Function.update σ l v) f := by
  unfold netSum
  rw [Finset.pi_insert hl, Finset.sum_biUnion]
  · apply Finset.sum_congr rfl
    intro v _
    rw [Finset.sum_image]
    · apply Finset.sum_congr rfl
      intro τ _
      congr 1
      funext k
      by_cases hk : k = l
      · subst hk
        simp [Finset.Pi.cons_same, hl]
      · by_cases hs : k ∈ S
        · rw [dif_pos (by simp [hs]), dif_pos hs, Finset.Pi.cons_ne (Ne.symm hk)]
        · simp [hs, hk, Function.update]
    · intro a _ b _ hab
      exact Finset.Pi.cons_injective hl hab
  · intro a _ b _ hab
    simp only [Function.onFun]
    rw [Finset.disjoint_left]
    intro x hx hx'
    simp only [Finset.mem_image] at hx hx'
    obtain ⟨y, _, rfl⟩ := hx
    obtain ⟨z, _, hz⟩ := hx'
    have := congrFun (congrFun hz l) (Finset.mem_insert_self l S)
    rw [Finset.Pi.cons_same, Finset.Pi.cons_same] at this
    exact hab this.symm

theorem list_range_sum (n : Nat) (f : Nat → K) : ((List.range n).map f).sum = ∑ k ∈ Finset.range n, f k := by
  induction n with
  | zero => simp
  | succ n ih => rw [List.range_succ, Finset.sum_range_succ]; simp [ih]

theorem sumOver_eq {dim : Label → Nat} : ∀ {ls : List Label}, ls.Nodup → ∀ (σ : Label → Nat) (f : (Label → Nat) → K),
    sumOver dim ls σ f = netSum dim ls.toFinset σ f
  | [], _, σ, f => by simp [sumOver, netSum_empty]
  | l :: ls, hn, σ, f => by
    rw [List.nodup_cons] at hn
    rw [List.toFinset_cons, netSum_insert (by simpa using hn.1), sumOver, list_range_sum]
    exact Finset.sum_congr rfl fun v _ => sumOver_eq hn.2 _ _

theorem netSum_congr {dim : Label → Nat} {S : Finset Label} {σ σ' : Label → Nat} {f g : (Label → Nat) → K}
    (h : ∀ ρ ρ', (∀ l ∉ S, ρ l = σ l ∧ ρ' l = σ' l) → (∀ l ∈ S, ρ l < dim l ∧ ρ' l = ρ l) → f ρ = g ρ') :
    netSum dim S σ f = netSum dim S σ' g := by
  unfold netSum
  apply Finset.sum_congr rfl
  intro τ hτ
  rw [Finset.mem_pi] at hτ
  apply h
  · intro l hl; simp [hl]
  · intro l hl
    have := hτ l hl
    simp only [Finset.mem_range] at this
    simp [hl, this]

theorem sum_range_mul (m n : Nat) (f : Nat → K) : ∑ k ∈ Finset.range (m * n), f k = ∑ i ∈ Finset.range m, ∑ j ∈ Finset.range n, f (i * n + j) := by
  induction m with
  | zero => simp
  | succ m ih => rw [Nat.succ_mul, Finset.sum_range_add, ih, Finset.sum_range_succ]

/-- the sum over positions of the data is the sum over the labels. -/
theorem sum_positions {dim : Label → Nat} : ∀ {ann : List Label}, ann.Nodup → ∀ (σ : Label → Nat) (g : List Nat → K),
    ∑ k ∈ Finset.range (ann.map dim).prod, g (unravel (ann.map dim) k) = netSum dim ann.toFinset σ fun ρ => g (ann.map ρ)
  | [], _, σ, g => by simp [netSum_empty, unravel, one_nsmul]
  | a :: ann, hn, σ, g => by
    rw [List.nodup_cons] at hn
    rw [List.toFinset_cons, netSum_insert (by simpa using hn.1), List.map_cons, List.prod_cons, sum_range_mul]
    apply Finset.sum_congr rfl
    intro v _
    have h1 := sum_positions (dim := dim) hn.2 (Function.update σ a v) fun x => g (v :: x)
    rw [show (∑ j ∈ Finset.range (ann.map dim).prod, g (unravel (dim a :: ann.map dim) (v * (ann.map dim).prod + j)))
      = ∑ j ∈ Finset.range (ann.map dim).prod, g (v :: unravel (ann.map dim) j) from ?_]
    · rw [h1]
      apply netSum_congr
      intro ρ ρ' h2 h3
      have ha : ρ' a = v := by
        have := (h2 a (by simpa using hn.1)).2
        simpa using this
      rw [List.map_cons, ha]
      congr 2
      apply List.map_congr_left
      intro l hl
      exact (h3 l (by simpa using hl)).2.symm
    · apply Finset.sum_congr rfl
      intro j hj
      rw [Finset.mem_range] at hj
      rw [unravel, volume_eq, Nat.add_comm, Nat.add_mul_div_right _ _ (by omega), Nat.div_eq_of_lt hj, Nat.add_mul_mod_self_right, Nat.mod_eq_of_lt hj]
      simp

end

end SeQuant.Dense
