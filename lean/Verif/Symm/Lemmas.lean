import Verif.Symm.Model
import Verif.Spin.Lemmas

/-!
# Enumerations of permutations as sums over the symmetric group; relabelled arrays
-/

namespace SeQuant.Symm

open SeQuant.Perm SeQuant.Sort SeQuant.Spins

variable {F ι : Type} {n m : Nat}

/-! ### Enumerating a mapped range -/

section map
variable {α β : Type} {c : β → β → Bool} {d : α → α → Bool} {h : α → β} (hc : ∀ a b, c (h a) (h b) = d a b)
include hc

theorem cmpAt_map (l : List α) (i j : Nat) : cmpAt c (l.map h) i j = cmpAt d l i j := by
  unfold cmpAt
  rw [List.getElem?_map, List.getElem?_map]
  cases l[i]? <;> cases l[j]? <;> simp [hc]

theorem findPivot_map (l : List α) : ∀ i, findPivot c (l.map h) i = findPivot d l i
  | 0 => rfl
  | i + 1 => by rw [findPivot, findPivot, cmpAt_map hc, findPivot_map l i]

theorem findSwap_map (l : List α) (i : Nat) : ∀ j, findSwap c (l.map h) i j = findSwap d l i j
  | 0 => rfl
  | j + 1 => by rw [findSwap, findSwap, cmpAt_map hc, findSwap_map l i j]

omit hc in
theorem iterSwap_map (l : List α) (i j : Nat) : iterSwap (l.map h) i j = (iterSwap l i j).map (List.map h) := by
  unfold iterSwap
  rw [List.getElem?_map, List.getElem?_map]
  cases l[i]? <;> cases l[j]? <;> simp [List.map_set]

theorem next_map (p : Nat) (l : List α) :
    nextPermutationParity c p (l.map h) = (nextPermutationParity d p l).map fun r => (r.1, r.2.1.map h, r.2.2) := by
  unfold nextPermutationParity
  rw [List.length_map, findPivot_map hc]
  split
  · rfl
  · cases findPivot d l (l.length - 1) with
    | none => rfl
    | some o =>
      cases o with
      | none => simp [reverseFrom]
      | some i =>
        simp only [findSwap_map hc]
        cases findSwap d l i l.length with
        | none => rfl
        | some j =>
          simp only [iterSwap_map]
          cases iterSwap l i j with
          | none => rfl
          | some l' => simp [reverseFrom]

theorem enumerate_map : ∀ (fuel p : Nat) (l : List α),
    enumerate c fuel p (l.map h) = (enumerate d fuel p l).map (List.map fun v => (v.1.map h, v.2))
  | 0, _, _ => rfl
  | fuel + 1, p, l => by
    rw [enumerate, enumerate, next_map hc]
    cases nextPermutationParity d p l with
    | none => rfl
    | some r =>
      obtain ⟨b, l', p'⟩ := r
      cases b with
      | false => rfl
      | true =>
        simp only [Option.map_some, enumerate_map fuel p' l']
        cases enumerate d fuel p' l' <;> rfl

end map

/-! ### The two enumerations -/

/-- Labels `σ` of the bra and `n + τ` of the ket. -/
def two {n m : Nat} (σ : Equiv.Perm (Fin n)) (τ : Equiv.Perm (Fin m)) : List Nat :=
  (List.ofFn fun i => (σ i : Nat)) ++ List.ofFn fun i => n + (τ i : Nat)

theorem perm_ofFn {b : Fin n → ι} {l : List ι} : l.Perm (List.ofFn b) ↔ ∃ σ : Equiv.Perm (Fin n), l = List.ofFn (b ∘ σ) := by
  constructor
  · intro hm
    obtain ⟨σ, rfl⟩ := perm_rearr hm
    refine ⟨(finCongr List.length_ofFn).permCongr σ, ?_⟩
    unfold rearr
    apply List.ext_getElem
    · simp
    · intro i h1 h2
      simp [Equiv.permCongr_apply]
      rfl
  · rintro ⟨σ, rfl⟩
    exact Equiv.Perm.ofFn_comp_perm σ b

theorem range'_eq (s n : Nat) : List.range' s n = List.ofFn fun i : Fin n => s + (i : Nat) := by
  apply List.ext_getElem
  · simp
  · intro i h1 h2; simp

theorem mem_arrangements (s n : Nat) (l : List Nat) :
    l ∈ arrangements (List.range' s n) ↔ ∃ σ : Equiv.Perm (Fin n), l = List.ofFn fun i => s + (σ i : Nat) := by
  have hlt : (List.range' s n).Pairwise (· < ·) := List.pairwise_lt_range'
  rw [(arrangements_spec (hlt.imp le_of_lt)).2, range'_eq, perm_ofFn]
  rfl

theorem symmetricPermutation_eq (n : Nat) : symmetricPermutation n = (arrangements (List.range n)).map fun l => l ++ l.map (n + ·) := by
  have h := enumerate_map (c := fun a b : Nat × Nat => decide (a.1 < b.1)) (d := fun a b => decide (a < b)) (h := fun i => (i, n + i))
    (fun _ _ => rfl) (n.factorial + 1) 0 (List.range n)
  unfold symmetricPermutation arrangements
  rw [h, List.length_range]
  show _ = List.map _ (List.map _ ((enumerate (fun a b => decide (a < b)) (n.factorial + 1) 0 (List.range n)).getD []))
  cases enumerate (fun a b => decide (a < b)) (n.factorial + 1) 0 (List.range n) with
  | none => rfl
  | some vs =>
    simp only [Option.map_some, Option.getD_some, List.map_map]
    apply List.map_congr_left
    intro v _
    simp [Function.comp_def]

theorem mem_symmetric (n : Nat) (p : List Nat) : p ∈ symmetricPermutation n ↔ ∃ σ : Equiv.Perm (Fin n), p = two σ σ := by
  rw [symmetricPermutation_eq, List.mem_map, List.range_eq_range']
  constructor
  · rintro ⟨l, hl, rfl⟩
    obtain ⟨σ, rfl⟩ := (mem_arrangements 0 n l).1 hl
    exact ⟨σ, by simp [two, Function.comp_def, List.map_ofFn]⟩
  · rintro ⟨σ, rfl⟩
    exact ⟨_, (mem_arrangements 0 n _).2 ⟨σ, rfl⟩, by simp [two, Function.comp_def, List.map_ofFn]⟩

theorem sum_symmetric {M : Type} [AddCommMonoid M] (n : Nat) (f : List Nat → M) :
    ((symmetricPermutation n).map f).sum = ∑ σ : Equiv.Perm (Fin n), f (two σ σ) := by
  rw [symmetricPermutation_eq, List.map_map, sum_range]
  refine Finset.sum_congr rfl fun σ _ => ?_
  simp [two, Function.comp_def, List.map_ofFn]

theorem next_parity_lt {α : Type} (c : α → α → Bool) (p : Nat) (l l' : List α) (p' : Nat) (r : Bool) (hp : p < 2)
    (h : nextPermutationParity c p l = some (r, l', p')) : p' < 2 := by
  unfold nextPermutationParity at h
  split at h
  · simp only [Option.some.injEq, Prod.mk.injEq] at h; omega
  · split at h
    · simp at h
    · split at h
      · simp at h
      · split at h
        · simp at h
        · simp only [Option.some.injEq, Prod.mk.injEq] at h; omega
    · simp only [Option.some.injEq, Prod.mk.injEq] at h; omega

theorem enumerate_parity_lt {α : Type} (c : α → α → Bool) : ∀ (fuel p : Nat) (l : List α) (vs : List (List α × Nat)), p < 2 →
    enumerate c fuel p l = some vs → ∀ v ∈ vs, v.2 < 2
  | 0, _, _, _, _, h => by simp [enumerate] at h
  | fuel + 1, p, l, vs, hp, h => by
    rw [enumerate] at h
    split at h
    · simp at h
    · simp only [Option.some.injEq] at h; subst h; simpa using hp
    · rename_i l' p' hn
      cases he : enumerate c fuel p' l' with
      | none => simp [he] at h
      | some ws =>
        simp only [he, Option.map_some, Option.some.injEq] at h
        subst h
        intro v hv
        rcases List.mem_cons.1 hv with rfl | hv
        · exact hp
        · exact enumerate_parity_lt c fuel p' l' ws (next_parity_lt c p l l' p' true hp hn) he v hv

theorem antisymmetric_spec (s n : Nat) : (antisymmetricPermutation (List.range' s n)).map Prod.fst = arrangements (List.range' s n) ∧
    ∀ v ∈ antisymmetricPermutation (List.range' s n), (v.2 = 0 ∧ phase v.1 = 1) ∨ (v.2 = 1 ∧ phase v.1 = -1) := by
  have hlt : (List.range' s n).Pairwise (· < ·) := List.pairwise_lt_range'
  have hc : ((List.range' s n).permutations.toFinset.filter (List.range' s n < ·)).card ≤ (List.range' s n).length.factorial := by
    refine (Finset.card_filter_le _ _).trans ((List.toFinset_card_le _).trans ?_)
    rw [List.length_permutations]
  obtain ⟨vs, e, hpw, hmem, hpar⟩ := enumerate_from (List.range' s n) _ 0 (List.range' s n) (List.Perm.refl _) hc
    ((List.range' s n).length.factorial + 1) (by omega)
  have e' : enumerate Spins.lt ((List.range' s n).length.factorial + 1) 0 (List.range' s n) = some vs := e
  have hphase : ∀ v ∈ vs, (v.2 = 0 ∧ phase v.1 = 1) ∨ (v.2 = 1 ∧ phase v.1 = -1) := by
    intro v hv
    obtain ⟨k, hk, hp⟩ := hpar v hv
    have h2 := enumerate_parity_lt _ _ 0 _ vs (by omega) e v hv
    rw [phase_adj (hlt.imp ne_of_lt) hk, phase_sorted hlt, mul_one]
    rcases Nat.even_or_odd k with he | ho
    · have := Nat.even_iff.mp he
      exact .inl ⟨by omega, he.neg_one_pow⟩
    · have := Nat.odd_iff.mp ho
      exact .inr ⟨by omega, ho.neg_one_pow⟩
  refine ⟨?_, ?_⟩
  · unfold antisymmetricPermutation arrangements
    split
    · rename_i h1
      have : n = 0 ∨ n = 1 := by simp at h1; omega
      rcases this with rfl | rfl
      · rfl
      · simp [List.range', enumerate, nextPermutationParity]
    · rw [e, e']
  · unfold antisymmetricPermutation
    split
    · simp [phase_sorted hlt]
    · rw [e]; exact hphase

theorem mem_antisymmetric (s n : Nat) (l : List Nat) :
    (∃ p, (l, p) ∈ antisymmetricPermutation (List.range' s n)) ↔ ∃ σ : Equiv.Perm (Fin n), l = List.ofFn fun i => s + (σ i : Nat) := by
  rw [← mem_arrangements, ← (antisymmetric_spec s n).1]
  simp

/-- The enumeration with parities is the sum over the symmetric group with signs. -/
theorem sum_antisymmetric {M : Type} [AddCommGroup M] (s n : Nat) (f : List Nat → M) :
    ((antisymmetricPermutation (List.range' s n)).map fun v => if v.2 = 0 then f v.1 else - f v.1).sum =
      ∑ σ : Equiv.Perm (Fin n), (Equiv.Perm.sign σ : Int) • f (List.ofFn fun i => s + (σ i : Nat)) := by
  have hb : Function.Injective (fun i : Fin n => s + (i : Nat)) := fun i j h => Fin.ext (by simpa using h)
  have hlt : (List.range' s n).Pairwise (· < ·) := List.pairwise_lt_range'
  obtain ⟨h2, h3⟩ := antisymmetric_spec s n
  generalize antisymmetricPermutation (List.range' s n) = vs at h2 h3 ⊢
  have h4 : (vs.map fun v => if v.2 = 0 then f v.1 else - f v.1) = (vs.map Prod.fst).map fun l => (phase l) • f l := by
    rw [List.map_map]
    apply List.map_congr_left
    intro v hv
    rcases h3 v hv with ⟨a, b⟩ | ⟨a, b⟩ <;> simp [a, b]
  rw [h4, h2, sum_arrangements' (hlt.imp le_of_lt), range'_eq, ← sum_ofFn hb]
  refine Finset.sum_congr rfl fun σ _ => ?_
  rw [phase_ofFn hb, ← range'_eq, phase_sorted hlt, mul_one]
  rfl

/-! ### Relabelling -/

theorem getD_left {α : Type} (b : Fin n → α) (k : List α) (z : α) (i : Fin n) : (List.ofFn b ++ k).getD i z = b i := by
  simp [List.getD_eq_getElem?_getD, List.getElem?_append, i.2]

theorem getD_right {α : Type} (b : Fin n → α) (k : Fin m → α) (z : α) (i : Fin m) : (List.ofFn b ++ List.ofFn k).getD (n + i) z = k i := by
  simp [List.getD_eq_getElem?_getD, i.2]

theorem range_two : List.range (n + m) = (List.ofFn fun i : Fin n => (i : Nat)) ++ List.ofFn fun i : Fin m => n + (i : Nat) := by
  apply List.ext_getElem
  · simp
  · intro i h1 h2
    simp only [List.getElem_range, List.getElem_append, List.length_ofFn, List.getElem_ofFn]
    split <;> omega

theorem idxOf_range {i N : Nat} (h : i < N) : (List.range N).idxOf i = i := by
  have h1 := List.Nodup.idxOf_getElem (List.nodup_range (n := N)) i (by simpa using h)
  rwa [List.getElem_range] at h1

theorem two_nodup (σ : Equiv.Perm (Fin n)) (τ : Equiv.Perm (Fin m)) : (two σ τ).Nodup := by
  unfold two
  rw [List.nodup_append]
  refine ⟨List.nodup_ofFn.2 fun i j h => σ.injective (Fin.ext h), List.nodup_ofFn.2 fun i j h => τ.injective (Fin.ext (by simpa using h)), ?_⟩
  intro a ha b hb
  simp only [List.mem_ofFn] at ha hb
  obtain ⟨i, rfl⟩ := ha
  obtain ⟨j, rfl⟩ := hb
  have := (σ i).2
  omega

theorem two_idxOf_left (σ : Equiv.Perm (Fin n)) (τ : Equiv.Perm (Fin m)) (i : Fin n) : (two σ τ).idxOf (i : Nat) = σ.symm i := by
  have hl : ((σ.symm i : Fin n) : Nat) < (two σ τ).length := by simp [two]; omega
  have h := List.Nodup.idxOf_getElem (two_nodup σ τ) _ hl
  have e : (two σ τ)[((σ.symm i : Fin n) : Nat)] = (i : Nat) := by
    simp [two]
  rwa [e] at h

theorem two_idxOf_right (σ : Equiv.Perm (Fin n)) (τ : Equiv.Perm (Fin m)) (i : Fin m) : (two σ τ).idxOf (n + (i : Nat)) = n + τ.symm i := by
  have hl : n + ((τ.symm i : Fin m) : Nat) < (two σ τ).length := by simp [two]
  have h := List.Nodup.idxOf_getElem (two_nodup σ τ) _ hl
  have e : (two σ τ)[n + ((τ.symm i : Fin m) : Nat)] = n + (i : Nat) := by
    simp [two]
  rwa [e] at h

theorem map_two {α : Type} (σ : Equiv.Perm (Fin n)) (τ : Equiv.Perm (Fin m)) (b : Fin n → α) (k : Fin m → α) (z : α) :
    ((two σ τ).map fun i => (List.ofFn b ++ List.ofFn k).getD ((List.range (n + m)).idxOf i) z) = List.ofFn (b ∘ σ) ++ List.ofFn (k ∘ τ) := by
  unfold two
  rw [List.map_append, List.map_ofFn, List.map_ofFn]
  congr 2
  · funext i
    have := (σ i).2
    simp only [Function.comp, idxOf_range (show (σ i : Nat) < n + m by omega), getD_left]
  · funext i
    have := (τ i).2
    simp only [Function.comp, idxOf_range (show n + (τ i : Nat) < n + m by omega), getD_right]

theorem map_range_two {α : Type} (σ : Equiv.Perm (Fin n)) (τ : Equiv.Perm (Fin m)) (b : Fin n → α) (k : Fin m → α) (z : α) :
    ((List.range (n + m)).map fun i => (List.ofFn b ++ List.ofFn k).getD ((two σ τ).idxOf i) z) =
      List.ofFn (b ∘ σ.symm) ++ List.ofFn (k ∘ τ.symm) := by
  rw [range_two, List.map_append, List.map_ofFn, List.map_ofFn]
  congr 2
  · funext i; simp only [Function.comp, two_idxOf_left, getD_left]
  · funext i; simp only [Function.comp, two_idxOf_right, getD_right]

/-- An array of the shape `sb`, `sk`. -/
def HasShape (a : Ten F) (sb : Fin n → Nat) (sk : Fin m → Nat) : Prop := a.shape = List.ofFn sb ++ List.ofFn sk

theorem relabel_ta (a : Ten F) {sb : Fin n → Nat} {sk : Fin m → Nat} (h : HasShape a sb sk) (σ : Equiv.Perm (Fin n)) (τ : Equiv.Perm (Fin m)) :
    HasShape (relabel (List.range (n + m)) (two σ τ) a) (sb ∘ σ.symm) (sk ∘ τ.symm) ∧
      ∀ b k, (relabel (List.range (n + m)) (two σ τ) a).at_ (List.ofFn b ++ List.ofFn k) = a.at_ (List.ofFn (b ∘ σ) ++ List.ofFn (k ∘ τ)) := by
  constructor
  · unfold HasShape relabel
    simp only
    rw [h, map_range_two]
  · intro b k
    unfold relabel
    simp only
    rw [map_two]

theorem relabel_btas (a : Ten F) {sb : Fin n → Nat} {sk : Fin m → Nat} (h : HasShape a sb sk) (σ : Equiv.Perm (Fin n)) (τ : Equiv.Perm (Fin m)) :
    HasShape (relabel (two σ τ) (List.range (n + m)) a) (sb ∘ σ) (sk ∘ τ) ∧
      ∀ b k, (relabel (two σ τ) (List.range (n + m)) a).at_ (List.ofFn b ++ List.ofFn k) =
        a.at_ (List.ofFn (b ∘ σ.symm) ++ List.ofFn (k ∘ τ.symm)) := by
  constructor
  · unfold HasShape relabel
    simp only
    rw [h, map_two]
  · intro b k
    unfold relabel
    simp only
    rw [map_range_two]

/-! ### Sums -/

theorem addAll_ok [AddCommMonoid F] : ∀ (ts : List (Ten F)) (s : Ten F), (∀ t ∈ ts, t.shape = s.shape) →
    ∃ r, addAll s ts = .ok r ∧ r.shape = s.shape ∧ ∀ x, r.at_ x = s.at_ x + (ts.map fun t => t.at_ x).sum
  | [], s, _ => ⟨s, rfl, rfl, by simp⟩
  | t :: ts, s, h => by
    obtain ⟨r, h1, h2, h3⟩ := addAll_ok ts ⟨s.shape, fun x => s.at_ x + t.at_ x⟩ (fun u hu => h u (by simp [hu]))
    refine ⟨r, ?_, h2, fun x => ?_⟩
    · rw [addAll, addTo, if_pos (h t (by simp)).symm]; exact h1
    · rw [h3, List.map_cons, List.sum_cons, add_assoc]

theorem addAll_error [Add F] : ∀ (ts : List (Ten F)) (s : Ten F), (∃ t ∈ ts, t.shape ≠ s.shape) → addAll s ts = .error .shapes
  | [], s, h => by simp at h
  | t :: ts, s, h => by
    rw [addAll, addTo]
    by_cases he : s.shape = t.shape
    · rw [if_pos he]
      refine addAll_error ts ⟨s.shape, fun x => s.at_ x + t.at_ x⟩ ?_
      obtain ⟨u, hu, hne⟩ := h
      rcases List.mem_cons.1 hu with rfl | hu
      · exact absurd he.symm hne
      · exact ⟨u, hu, hne⟩
    · rw [if_neg he]

theorem collect_ok [AddCommMonoid F] (ts : List (Ten F)) (sh : List Nat) (hne : ts ≠ []) (h : ∀ t ∈ ts, t.shape = sh) :
    ∃ r, collect ts = .ok r ∧ r.shape = sh ∧ ∀ x, r.at_ x = (ts.map fun t => t.at_ x).sum := by
  cases ts with
  | nil => exact absurd rfl hne
  | cons t ts =>
    have ht := h t (by simp)
    obtain ⟨r, h1, h2, h3⟩ := addAll_ok ts t (fun u hu => by rw [h u (by simp [hu]), ht])
    exact ⟨r, h1, h2.trans ht, fun x => by rw [h3]; simp⟩

theorem collect_error [Add F] (ts : List (Ten F)) (h : ∃ t ∈ ts, ∃ u ∈ ts, t.shape ≠ u.shape) : collect ts = .error .shapes := by
  cases ts with
  | nil => simp at h
  | cons s ts =>
    refine addAll_error ts s ?_
    obtain ⟨t, ht, u, hu, hne⟩ := h
    by_contra hall
    have hall' : ∀ t ∈ ts, t.shape = s.shape := fun t ht => by
      by_contra hne
      exact hall ⟨t, ht, hne⟩
    have hs : ∀ t ∈ s :: ts, t.shape = s.shape := fun t ht => by
      rcases List.mem_cons.1 ht with rfl | ht
      · rfl
      · exact hall' t ht
    exact hne ((hs t ht).trans (hs u hu).symm)

end SeQuant.Symm
