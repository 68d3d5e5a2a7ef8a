import Verif.Spin.Lemmas
import Verif.Spin.Spec
import Verif.Spin.AntisymmProps

/-!
# Auxiliary facts for the expansion of `A`, `S` and `P`
-/

namespace SeQuant.Spins

open SeQuant.Expression SeQuant.Perm SeQuant.Sort
open SeQuant.Tensors (Sym)

section maps
variable {ι : Type} [LinearOrder ι]

theorem lookup_zip_rearr {l : List ι} (σ : Equiv.Perm (Fin l.length)) (i : ι) :
    (l.zip (rearr l σ)).lookup i = if i ∈ l then some (relabel l σ i) else none := by
  have gen : ∀ (l : List ι) (f : Fin l.length → ι), (l.zip (List.ofFn f)).lookup i =
      if h : i ∈ l then some (f ⟨l.idxOf i, List.idxOf_lt_length_iff.mpr h⟩) else none := by
    intro l
    induction l with
    | nil => intro f; simp
    | cons x l ih =>
      intro f
      rw [List.ofFn_succ, List.zip_cons_cons, List.lookup_cons, ih]
      by_cases h : i = x
      · subst h; simp
      · have hb : (i == x) = false := by simpa using h
        have hx : (x == i) = false := by simpa using fun e : x = i => h e.symm
        rw [hb]
        by_cases hm : i ∈ l
        · simp only [hm, dite_true, List.mem_cons, or_true]
          congr 2
          apply Fin.ext
          simp [List.idxOf_cons, hx]
        · simp [hm, h]
  unfold rearr
  rw [gen]
  by_cases h : i ∈ l
  · simp [h, relabel]
  · simp [h]

/-- The map made from the bra and the ket is the composition of two relabelings. -/
theorem get_build2 {b k : List ι} (hn : (b ++ k).Nodup) (π : Equiv.Perm (Fin b.length)) (ρ : Equiv.Perm (Fin k.length)) (i : ι) :
    get (build (b.zip (rearr b π) ++ k.zip (rearr k ρ))) i = relabel b π (relabel k ρ i) := by
  unfold get
  rw [(build_spec _).2.1, List.lookup_append, lookup_zip_rearr, lookup_zip_rearr]
  have hd := (List.nodup_append.mp hn).2.2
  by_cases hb : i ∈ b
  · have hk : i ∉ k := fun h => hd i hb i h rfl
    simp [hb, relabel, hk]
  · by_cases hk : i ∈ k
    · have hm : relabel k ρ i ∈ k := by simp only [relabel, hk, dite_true]; exact List.get_mem _ _
      have hm' : relabel k ρ i ∉ b := fun h => hd _ h _ hm rfl
      simp only [hb, hk, if_false, if_true, Option.none_or, Option.getD_some]
      conv_rhs => rw [relabel]
      simp [hm']
    · have h1 : relabel k ρ i = i := by simp [relabel, hk]
      rw [h1]
      simp [hb, hk, relabel]

theorem get_build1 {l : List ι} (π : Equiv.Perm (Fin l.length)) (i : ι) :
    get (build (l.zip (rearr l π))) i = relabel l π i := by
  unfold get
  rw [(build_spec _).2.1, lookup_zip_rearr]
  by_cases h : i ∈ l <;> simp [h, relabel]

theorem lookup_of_sorted (m : List (ι × ι)) (hm : (m.map (·.1)).Nodup) : m.map (·.2) = (m.map (·.1)).map (get m) := by
  rw [List.map_map]
  refine List.map_congr_left fun p hp => ?_
  simp only [Function.comp, get]
  have : m.lookup p.1 = some p.2 := by
    induction m with
    | nil => simp at hp
    | cons q m ih =>
      simp only [List.map_cons, List.nodup_cons] at hm
      rw [List.lookup_cons]
      rcases List.mem_cons.mp hp with rfl | hp
      · simp
      · have hne : p.1 ≠ q.1 := fun e => hm.1 (e ▸ List.mem_map_of_mem hp)
        have hb : (p.1 == q.1) = false := by simpa using hne
        rw [hb]; exact ih hm.2 hp
  rw [this]; rfl

theorem map_relabel {l : List ι} (hl : l.Nodup) (π : Equiv.Perm (Fin l.length)) : l.map (relabel l π) = rearr l π := by
  unfold rearr
  apply List.ext_getElem
  · simp
  · intro i h1 h2
    have hi : i < l.length := by simpa using h1
    simp only [List.getElem_map, relabel, List.getElem_mem, dite_true, List.getElem_ofFn]
    simp [List.Nodup.idxOf_getElem hl]

theorem relabel_notin {l : List ι} (π : Equiv.Perm (Fin l.length)) {i : ι} (h : i ∉ l) : relabel l π i = i := by simp [relabel, h]

theorem relabel_mem {l : List ι} (π : Equiv.Perm (Fin l.length)) {i : ι} (h : i ∈ l) : relabel l π i ∈ l := by
  simp only [relabel, h, dite_true]; exact List.get_mem _ _

theorem relabel_mul {l : List ι} (hl : l.Nodup) (π ρ : Equiv.Perm (Fin l.length)) (i : ι) :
    relabel l (π * ρ) i = relabel l π (relabel l ρ i) := by
  by_cases h : i ∈ l
  · have h2 := relabel_mem ρ h
    have e : relabel l ρ i = l.get (ρ ⟨l.idxOf i, List.idxOf_lt_length_iff.mpr h⟩) := by simp [relabel, h]
    conv_rhs => rw [relabel, dif_pos h2]
    simp only [relabel, h, dite_true, Equiv.Perm.mul_apply]
    congr 2
    apply Fin.ext
    simp [List.Nodup.idxOf_getElem hl]
  · rw [relabel_notin _ h, relabel_notin _ h, relabel_notin _ h]

/-- The phase of the values of a map, listed in the order of the keys, is the sign of the permutation. -/
theorem phase_values {l : List ι} (hl : l.Nodup) (ps : List (ι × ι)) (hk : (ps.map (·.1)).Perm l) (hv : (l.map (get (build ps))).Nodup) :
    phase ((build ps).map (·.2)) = phase (l.map (get (build ps))) * phase l := by
  obtain ⟨h1, _, _, h4⟩ := build_spec ps
  have hp : ((build ps).map (·.1)).Perm l := ((h4 (hk.nodup_iff.mpr hl)).map _).trans hk
  rw [lookup_of_sorted _ (h1.imp ne_of_lt), ← phase_map hl hp _ hv, phase_sorted h1, mul_one]

theorem phase_build1 {l : List ι} (hl : l.Nodup) (π : Equiv.Perm (Fin l.length)) :
    phase ((build (l.zip (rearr l π))).map (·.2)) = (Equiv.Perm.sign π : Int) := by
  have hlen : (rearr l π).length = l.length := by simp [rearr]
  have hmap : l.map (get (build (l.zip (rearr l π)))) = rearr l π := by
    rw [show get (build (l.zip (rearr l π))) = relabel l π from funext (get_build1 π), map_relabel hl]
  rw [phase_values hl _ (by rw [List.map_fst_zip (by omega)])
    (by rw [hmap]; exact (rearr_perm l π).nodup_iff.mpr hl), hmap, phase_rearr hl, mul_assoc, phase_sq, mul_one]

theorem phase_append {b k b' k' : List ι} (hn : (b ++ k).Nodup) (hb : b'.Perm b) (hk : k'.Perm k) :
    phase (b' ++ k') * phase (b ++ k) = (phase b' * phase b) * (phase k' * phase k) := by
  obtain ⟨n, h1⟩ := perm_adj hb.symm
  obtain ⟨m, h2⟩ := perm_adj hk.symm
  have hbn := (List.nodup_append.mp hn).1
  have hkn := (List.nodup_append.mp hn).2.1
  have e1 : Adj n (b ++ k) (b' ++ k) := by
    clear * - h1
    induction h1 with
    | refl => exact Swaps.refl _
    | step p q x y _ _ ih => simpa using Swaps.step p (q ++ k) x y (by simpa using ih) rfl
  have e2 : Adj m (b' ++ k) (b' ++ k') := by
    clear * - h2
    induction h2 with
    | refl => exact Swaps.refl _
    | step p q x y _ _ ih =>
      have := Swaps.step (comp := fun _ _ => true) (b' ++ p) q x y (by simpa using ih) rfl
      simpa using this
  have hn' : (b' ++ k).Nodup := (hb.append_right k).nodup_iff.mpr hn
  rw [phase_adj hn' e2, phase_adj hn e1, phase_adj hbn h1, phase_adj hkn h2]
  have s1 := phase_sq (b ++ k)
  have s2 := phase_sq b
  have s3 := phase_sq k
  linear_combination ((-1) ^ m * (-1) ^ n) * s1 - ((-1) ^ m * (-1) ^ n * (phase k * phase k)) * s2 - ((-1) ^ m * (-1) ^ n) * s3

theorem phase_build2 {b k : List ι} (hn : (b ++ k).Nodup) (π : Equiv.Perm (Fin b.length)) (ρ : Equiv.Perm (Fin k.length)) :
    phase ((build (b.zip (rearr b π) ++ k.zip (rearr k ρ))).map (·.2)) = (Equiv.Perm.sign π : Int) * (Equiv.Perm.sign ρ : Int) := by
  have hbn := (List.nodup_append.mp hn).1
  have hkn := (List.nodup_append.mp hn).2.1
  have hd := (List.nodup_append.mp hn).2.2
  have l1 : (rearr b π).length = b.length := by simp [rearr]
  have l2 : (rearr k ρ).length = k.length := by simp [rearr]
  have hmap : (b ++ k).map (get (build (b.zip (rearr b π) ++ k.zip (rearr k ρ)))) = rearr b π ++ rearr k ρ := by
    rw [show get (build (b.zip (rearr b π) ++ k.zip (rearr k ρ))) = fun i => relabel b π (relabel k ρ i) from funext (get_build2 hn π ρ),
      List.map_append, ← map_relabel hbn, ← map_relabel hkn]
    congr 1
    · refine List.map_congr_left fun i hi => ?_
      rw [relabel_notin ρ (fun h => hd i hi i h rfl)]
    · refine List.map_congr_left fun i hi => ?_
      exact relabel_notin π (fun h => hd _ h _ (relabel_mem ρ hi) rfl)
  rw [phase_values hn _ (by rw [List.map_append, List.map_fst_zip (by omega), List.map_fst_zip (by omega)])
    (by rw [hmap]; exact ((rearr_perm b π).append (rearr_perm k ρ)).nodup_iff.mpr hn), hmap,
    phase_append hn (rearr_perm b π) (rearr_perm k ρ), phase_rearr hbn, phase_rearr hkn]
  have s2 := phase_sq b
  have s3 := phase_sq k
  linear_combination ((Equiv.Perm.sign π : Int) * (Equiv.Perm.sign ρ : Int) * (phase k * phase k)) * s2 +
    ((Equiv.Perm.sign π : Int) * (Equiv.Perm.sign ρ : Int)) * s3

end maps

end SeQuant.Spins
