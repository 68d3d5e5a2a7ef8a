import Verif.Uncontr.Model
import Verif.Topology.Weight

/-!
# How many sets of contractions, complete or not, make a given number of contractions between each two partitions
-/

namespace SeQuant.Topology

open SeQuant.Wick

variable {S : Statistics}

/-- The kinds `B` use no more operators than there are and are all admissible. -/
def FitsP (part : Nat → Nat) (adm : Nat → Nat → Bool) (l : List Nat) (B : Multiset (Nat × Nat)) : Prop :=
  (∀ p, inc B p ≤ free part l p) ∧ ∀ q ∈ B, adm q.1 q.2 = true

/-- Number of sets of contractions with the kinds `B`. -/
def numberP (part : Nat → Nat) (m : Nat) (l : List Nat) (B : Multiset (Nat × Nat)) : Rat :=
  number part m l B / ∏ p ∈ Finset.range m, (Nat.factorial (free part l p - inc B p) : Rat)

section
variable {part : Nat → Nat} {m : Nat} {cc adm : Nat → Nat → Bool}

theorem skip_flatten (o : Nat) (rest : List Nat) (others : List (List Nat)) :
    ((o :: rest) :: others).flatten = o :: (rest :: others).flatten := by simp

theorem Ctx.skip {o : Nat} {rest : List Nat} {others : List (List Nat)} (h : Ctx part m cc adm ((o :: rest) :: others)) :
    Ctx part m cc adm (rest :: others) := by
  have hnd := h.nodup
  rw [skip_flatten, List.nodup_cons] at hnd
  refine ⟨hnd.2, fun x hx => h.lt x (by rw [skip_flatten]; exact List.mem_cons_of_mem _ hx), fun x hx y hy => ?_⟩
  rw [h.adm x (by rw [skip_flatten]; exact List.mem_cons_of_mem _ hx) y (by rw [skip_flatten]; exact List.mem_cons_of_mem _ hy)]
  have hxo : x ≠ o := fun e => hnd.1 (e ▸ hx)
  simp [Later, hxo]

theorem FitsP.exists {l : List Nat} {B : Multiset (Nat × Nat)} (hf : FitsP part adm l B) {q : Nat × Nat} (hq : q ∈ B) :
    (∃ x ∈ l, part x = q.1) ∧ ∃ y ∈ l, part y = q.2 := by
  constructor
  · rw [← free_pos_iff]
    exact Nat.lt_of_lt_of_le ((inc_pos_iff B q.1).2 ⟨q, hq, Or.inl rfl⟩) (hf.1 _)
  · rw [← free_pos_iff]
    exact Nat.lt_of_lt_of_le ((inc_pos_iff B q.2).2 ⟨q, hq, Or.inr rfl⟩) (hf.1 _)

theorem FitsP.canc {o : Nat} {rest : List Nat} {others : List (List Nat)} (h : Ctx part m cc adm ((o :: rest) :: others))
    {B : Multiset (Nat × Nat)} (hf : FitsP part adm ((o :: rest) :: others).flatten B)
    {y : Nat} (hy : y ∈ ((o :: rest) :: others).flatten) (hB : (part o, part y) ∈ B) : y ∈ others.flatten ∧ cc o y = true :=
  (h.partner hy).1 (hf.2 _ hB)

theorem FitsP.row {o : Nat} {rest : List Nat} {others : List (List Nat)} (h : Ctx part m cc adm ((o :: rest) :: others))
    {B : Multiset (Nat × Nat)} (hf : FitsP part adm ((o :: rest) :: others).flatten B) :
    (B.map Prod.fst).count (part o) = inc B (part o) := by
  have h2 : (B.map Prod.snd).count (part o) = 0 := by
    rw [Multiset.count_eq_zero, Multiset.mem_map]
    rintro ⟨q, hq, he⟩
    obtain ⟨⟨x, hx, hxe⟩, _⟩ := hf.exists hq
    have := hf.2 q hq
    rw [← hxe, he, h.first_not hx] at this
    cases this
  unfold inc
  omega

theorem fitsP_pick {o : Nat} {rest : List Nat} {others : List (List Nat)} (h : Ctx part m cc adm ((o :: rest) :: others))
    {p : Nat × Nat × List (List Nat)} (hp : p ∈ picks others) (B : Multiset (Nat × Nat)) (hB : (part o, part p.2.1) ∈ B)
    (hc : cc o p.2.1 = true) :
    FitsP part adm (rest :: p.2.2).flatten (B.erase (part o, part p.2.1)) ↔ FitsP part adm ((o :: rest) :: others).flatten B := by
  unfold FitsP
  have hadm : adm (part o) (part p.2.1) = true := (h.partner (by simp [pick_mem hp])).2 ⟨pick_mem hp, hc⟩
  refine and_congr ⟨fun H k => ?_, fun H k => ?_⟩ ⟨fun H q hq => ?_, fun H q hq => H q (Multiset.mem_of_mem_erase hq)⟩
  · have := H k
    rw [inc_erase _ _ hB, free_pick part o rest others p hp]
    simp only
    omega
  · have := H k
    rw [inc_erase _ _ hB, free_pick part o rest others p hp] at this
    simp only at this
    omega
  · by_cases hqe : q = (part o, part p.2.1)
    · subst hqe; exact hadm
    · exact H q ((Multiset.mem_erase_of_ne hqe).2 hq)

theorem fitsP_nil (part : Nat → Nat) (adm : Nat → Nat → Bool) (B : Multiset (Nat × Nat)) : FitsP part adm [] B ↔ B = 0 := by
  constructor
  · intro h
    by_contra hc
    obtain ⟨q, hq⟩ := Multiset.exists_mem_of_ne_zero hc
    have h1 := (inc_pos_iff B q.1).2 ⟨q, hq, Or.inl rfl⟩
    have h2 := h.1 q.1
    simp [free] at h2
    omega
  · rintro rfl
    exact ⟨fun p => by simp [inc], by simp⟩

theorem fitsP_skip {o : Nat} {l : List Nat} {B : Multiset (Nat × Nat)} :
    FitsP part adm l B ↔ FitsP part adm (o :: l) B ∧ inc B (part o) < free part (o :: l) (part o) := by
  constructor
  · intro h
    refine ⟨⟨fun p => ?_, h.2⟩, ?_⟩
    · rw [free_cons]; exact Nat.le_trans (h.1 p) (Nat.le_add_right _ _)
    · rw [free_cons, if_pos rfl]; have := h.1 (part o); omega
  · rintro ⟨h1, h2⟩
    refine ⟨fun p => ?_, h1.2⟩
    have := h1.1 p
    rw [free_cons] at this h2
    by_cases hp : p = part o
    · subst hp; rw [if_pos rfl] at h2; omega
    · rw [if_neg hp] at this; omega

theorem numberP_pick {o : Nat} {rest : List Nat} {others : List (List Nat)} (h : Ctx part m cc adm ((o :: rest) :: others))
    {p : Nat × Nat × List (List Nat)} (hp : p ∈ picks others) (B : Multiset (Nat × Nat)) (hB : (part o, part p.2.1) ∈ B)
    (hc : cc o p.2.1 = true) :
    numberP part m (rest :: p.2.2).flatten (B.erase (part o, part p.2.1)) =
      numberP part m ((o :: rest) :: others).flatten B * (B.count (part o, part p.2.1)) /
        (free part ((o :: rest) :: others).flatten (part o) * free part ((o :: rest) :: others).flatten (part p.2.1)) := by
  have e : (∏ k ∈ Finset.range m, (Nat.factorial (free part (rest :: p.2.2).flatten k -
      inc (B.erase (part o, part p.2.1)) k) : Rat)) =
      ∏ k ∈ Finset.range m, (Nat.factorial (free part ((o :: rest) :: others).flatten k - inc B k) : Rat) := by
    apply Finset.prod_congr rfl
    intro k _
    have h1 := inc_erase _ _ hB k
    have h2 := free_pick part o rest others p hp k
    simp only at h1
    congr 2
    omega
  unfold numberP
  rw [e, number_pick h hp B hB hc]
  ring

theorem numberP_skip {o : Nat} {l : List Nat} {B : Multiset (Nat × Nat)} (ho : part o < m)
    (hlt : inc B (part o) < free part (o :: l) (part o)) :
    numberP part m l B =
      numberP part m (o :: l) B * ((free part (o :: l) (part o) : Rat) - inc B (part o)) / free part (o :: l) (part o) := by
  set F := free part (o :: l) (part o) with hF
  have hFl : F = free part l (part o) + 1 := by rw [hF, free_cons, if_pos rfl]
  have e1 : (∏ k ∈ Finset.range m, (Nat.factorial (free part (o :: l) k) : Rat)) =
      (∏ k ∈ Finset.range m, (Nat.factorial (free part l k) : Rat)) * F := by
    have : ∀ k ∈ Finset.range m, (Nat.factorial (free part (o :: l) k) : Rat) =
        (Nat.factorial (free part l k) : Rat) * (if k = part o then (F : Rat) else 1) := by
      intro k _
      by_cases hk : k = part o
      · rw [hk, if_pos rfl, ← hF, hFl, Nat.factorial_succ]; push_cast; ring
      · rw [if_neg hk, free_cons, if_neg hk]; simp
    rw [Finset.prod_congr rfl this, Finset.prod_mul_distrib, Finset.prod_ite_eq', if_pos (Finset.mem_range.2 ho)]
  have e2 : (∏ k ∈ Finset.range m, (Nat.factorial (free part (o :: l) k - inc B k) : Rat)) =
      (∏ k ∈ Finset.range m, (Nat.factorial (free part l k - inc B k) : Rat)) * ((F : Rat) - inc B (part o)) := by
    have : ∀ k ∈ Finset.range m, (Nat.factorial (free part (o :: l) k - inc B k) : Rat) =
        (Nat.factorial (free part l k - inc B k) : Rat) * (if k = part o then ((F : Rat) - inc B (part o)) else 1) := by
      intro k _
      by_cases hk : k = part o
      · rw [hk, if_pos rfl, ← hF]
        have h1 : F - inc B (part o) = (free part l (part o) - inc B (part o)) + 1 := by omega
        have h2 : ((F : Rat) - inc B (part o)) = ((free part l (part o) - inc B (part o) : Nat) : Rat) + 1 := by
          rw [Nat.cast_sub (by omega), hFl]; push_cast; ring
        rw [h2, h1, Nat.factorial_succ]; push_cast; ring
      · rw [if_neg hk, free_cons, if_neg hk]; simp
    rw [Finset.prod_congr rfl this, Finset.prod_mul_distrib, Finset.prod_ite_eq', if_pos (Finset.mem_range.2 ho)]
  have n1 : (F : Rat) ≠ 0 := by exact_mod_cast (by omega : F ≠ 0)
  have n2 : (F : Rat) - inc B (part o) ≠ 0 := by
    rw [sub_ne_zero]; exact_mod_cast (by omega : F ≠ inc B (part o))
  have n3 : (∏ k ∈ Finset.range m, (Nat.factorial (free part l k - inc B k) : Rat)) ≠ 0 :=
    Finset.prod_ne_zero_iff.2 fun q _ => by exact_mod_cast Nat.factorial_ne_zero _
  have n4 : (∏ q ∈ Finset.range m ×ˢ Finset.range m, (Nat.factorial (B.count q) : Rat)) ≠ 0 :=
    Finset.prod_ne_zero_iff.2 fun q _ => by exact_mod_cast Nat.factorial_ne_zero _
  unfold numberP number
  rw [e1, e2]
  field_simp

/-- Phase and contractions of the summands below a call, with the empty set of contractions. -/
def contP (S : Statistics) (cc : Nat → Nat → Bool) (fuel : Nat) (nops : List (List Nat)) : List (Term Nat) :=
  (1, []) :: (wickPartial S cc fuel nops).map fun t => (t.1, t.2.1)

theorem wickPartial_none (cc : Nat → Nat → Bool) (fuel : Nat) (nops : List (List Nat)) (h : opsize nops = 0) :
    wickPartial S cc fuel nops = [] := by
  induction fuel generalizing nops with
  | zero => rfl
  | succ fuel ih =>
    match nops with
    | [] => rfl
    | [] :: nops => simp only [wickPartial]; rw [ih nops (by simpa [opsize] using h)]; rfl
    | (o :: rest) :: others => simp [opsize] at h

theorem contP_step (cc : Nat → Nat → Bool) (fuel o : Nat) (rest : List Nat) (others : List (List Nat)) :
    (contP S cc (fuel + 1) ((o :: rest) :: others)).Perm
      (((picks others).flatMap fun p =>
        if cc o p.2.1 then (contP S cc fuel (rest :: p.2.2)).map fun t =>
          (phase S (rest.length + p.1) * t.1, (o, p.2.1) :: t.2) else []) ++ contP S cc fuel (rest :: others)) := by
  have e : (wickPartial S cc (fuel + 1) ((o :: rest) :: others)).map (fun t => (t.1, t.2.1)) =
      ((picks others).flatMap fun p =>
        if cc o p.2.1 then (contP S cc fuel (rest :: p.2.2)).map fun t =>
          (phase S (rest.length + p.1) * t.1, (o, p.2.1) :: t.2) else []) ++
        (wickPartial S cc fuel (rest :: others)).map fun t => (t.1, t.2.1) := by
    simp only [wickPartial, List.map_append, List.map_flatMap, List.map_map]
    congr 1
    congr 1
    funext p
    split
    · unfold contP
      split
      · rename_i h0
        rw [wickPartial_none _ _ _ h0]
        simp
      · simp [Function.comp_def]
    · rfl
  unfold contP at e ⊢
  rw [e]
  exact List.perm_middle.symm

theorem cnt_append (part : Nat → Nat) (l l' : List (Term Nat)) (B : Multiset (Nat × Nat)) :
    cnt part (l ++ l') B = cnt part l B + cnt part l' B := by simp [cnt]

theorem cnt_perm (part : Nat → Nat) {l l' : List (Term Nat)} (h : l.Perm l') (B : Multiset (Nat × Nat)) :
    cnt part l B = cnt part l' B := h.countP_eq _

open Classical in
/-- **The number of sets of contractions with given kinds** is `∏ size! / (∏ n_ij! ∏ (size - contracted)!)`. -/
theorem cnt_partial (fuel : Nat) (nops : List (List Nat)) (hfuel : wickFuel nops ≤ fuel) (h : Ctx part m cc adm nops)
    (B : Multiset (Nat × Nat)) :
    (cnt part (contP S cc fuel nops) B : Rat) =
      if FitsP part adm nops.flatten B then numberP part m nops.flatten B else 0 := by
  induction fuel generalizing nops B with
  | zero => simp [wickFuel] at hfuel
  | succ fuel ih =>
    match nops with
    | [] =>
      by_cases hB : B = 0
      · subst hB
        rw [List.flatten_nil, if_pos ((fitsP_nil _ _ _).2 rfl)]
        simp [contP, wickPartial, cnt, keyOf_nil, numberP, number, free]
      · rw [List.flatten_nil, if_neg (mt (fitsP_nil _ _ _).1 hB)]
        simp [contP, wickPartial, cnt, keyOf_nil, Ne.symm hB]
    | [] :: nops =>
      have e1 : contP S cc (fuel + 1) ([] :: nops) = contP S cc fuel nops := by
        simp [contP, wickPartial, Function.comp_def]
      rw [e1, ih nops (by simp [wickFuel, opsize] at hfuel ⊢; omega) h.tail]
      simp
    | (o :: rest) :: others =>
      have hfl : ∀ p ∈ picks others, wickFuel (rest :: p.2.2) ≤ fuel := by
        intro p hp
        have hsz := picks_opsize others p hp
        have hlen : p.2.2.length = others.length := by
          rw [picks_filter others (by
            have := h.nodup
            simp only [List.flatten_cons] at this
            exact (List.nodup_append.mp this).2.1) p hp, List.length_map]
        simp [wickFuel, opsize] at hfuel hsz ⊢; omega
      have hskip := ih (rest :: others) (by simp [wickFuel, opsize] at hfuel ⊢; omega) h.skip B
      have hom : part o < m := h.lt o (by simp)
      rw [cnt_perm part (contP_step cc fuel o rest others), cnt_append, Nat.cast_add, hskip, cnt_flatMap]
      clear hskip
      set fl := ((o :: rest) :: others).flatten with hfld
      have hflc : fl = o :: (rest :: others).flatten := skip_flatten o rest others
      have hLpos : 0 < free part fl (part o) := (free_pos_iff _ _ _).2 ⟨o, by simp [hfld], rfl⟩
      have hterm : ∀ p ∈ picks others, (cnt part (if cc o p.2.1 = true then
            (contP S cc fuel (rest :: p.2.2)).map fun t =>
              (phase S (rest.length + p.1) * t.1, (o, p.2.1) :: t.2) else []) B : Rat) =
          if FitsP part adm fl B then numberP part m fl B * (B.count (part o, part p.2.1)) /
            (free part fl (part o) * free part fl (part p.2.1)) else 0 := by
        intro p hp
        have hmem : p.2.1 ∈ fl := by simp [hfld, pick_mem hp]
        by_cases hB : (part o, part p.2.1) ∈ B
        · by_cases hc : cc o p.2.1 = true
          · rw [if_pos hc, cnt_map, if_pos hB, ih _ (hfl p hp) (h.pick hp)]
            by_cases hF : FitsP part adm fl B
            · rw [if_pos hF, if_pos ((fitsP_pick h hp B hB hc).2 hF), numberP_pick h hp B hB hc]
            · rw [if_neg hF, if_neg (mt (fitsP_pick h hp B hB hc).1 hF)]
          · rw [if_neg hc, if_neg (fun hF => hc (FitsP.canc h hF hmem hB).2)]
            simp [cnt]
        · have hc0 : B.count (part o, part p.2.1) = 0 := Multiset.count_eq_zero.2 hB
          have : cnt part (if cc o p.2.1 = true then (contP S cc fuel (rest :: p.2.2)).map fun t =>
              (phase S (rest.length + p.1) * t.1, (o, p.2.1) :: t.2) else []) B = 0 := by
            split
            · rw [cnt_map, if_neg hB]
            · simp [cnt]
          rw [this, hc0]
          simp
      rw [List.map_congr_left hterm]
      by_cases hF : FitsP part adm fl B
      · simp only [if_pos hF]
        have e0 : (if FitsP part adm (rest :: others).flatten B then numberP part m (rest :: others).flatten B else 0) =
            numberP part m fl B * ((free part fl (part o) : Rat) - inc B (part o)) / free part fl (part o) := by
          by_cases hlt : inc B (part o) < free part fl (part o)
          · rw [if_pos ((fitsP_skip (o := o)).2 ⟨by rwa [← hflc], by rwa [← hflc]⟩),
              numberP_skip hom (by rwa [← hflc]), ← hflc]
          · have heq : inc B (part o) = free part fl (part o) := by have := hF.1 (part o); omega
            rw [if_neg (fun hh => hlt (by rw [hflc]; exact ((fitsP_skip (o := o)).1 hh).2)), heq]
            simp
        rw [e0]
        have e1 : (picks others).map (fun p => numberP part m fl B * (B.count (part o, part p.2.1) : Rat) /
            (free part fl (part o) * free part fl (part p.2.1))) =
          others.flatten.map (fun r => numberP part m fl B * (B.count (part o, part r) : Rat) /
            (free part fl (part o) * free part fl (part r))) := by
          rw [← picks_ops others, List.map_map]; rfl
        have e2 : ((o :: rest).map (fun r => numberP part m fl B * (B.count (part o, part r) : Rat) /
            (free part fl (part o) * free part fl (part r)))).sum = 0 := by
          apply List.sum_eq_zero
          intro z hz
          obtain ⟨r, hr, rfl⟩ := List.mem_map.1 hz
          have hr' : r ∈ fl := by rw [hfld, List.flatten_cons]; exact List.mem_append_left _ hr
          have : B.count (part o, part r) = 0 := by
            rw [Multiset.count_eq_zero]
            intro hm
            have h1 := (FitsP.canc h hF hr' hm).1
            have h2 := h.nodup
            rw [List.flatten_cons] at h2
            exact (List.nodup_append.1 h2).2.2 _ hr _ h1 rfl
          rw [this]; simp
        have e3 : (others.flatten.map (fun r => numberP part m fl B * (B.count (part o, part r) : Rat) /
            (free part fl (part o) * free part fl (part r)))).sum =
          (fl.map (fun r => (numberP part m fl B / free part fl (part o)) *
            ((fun k => (B.count (part o, k) : Rat)) (part r) / free part fl (part r)))).sum := by
          have : fl.map (fun r => (numberP part m fl B / free part fl (part o)) *
            ((fun k => (B.count (part o, k) : Rat)) (part r) / free part fl (part r))) =
            fl.map (fun r => numberP part m fl B * (B.count (part o, part r) : Rat) /
            (free part fl (part o) * free part fl (part r))) := by
            apply List.map_congr_left
            intro r _
            ring
          have hsplit : ∀ f : Nat → Rat, (fl.map f).sum = ((o :: rest).map f).sum + (others.flatten.map f).sum := by
            intro f; rw [hfld, List.flatten_cons, List.map_append, List.sum_append]
          rw [this, hsplit, e2, zero_add]
        rw [e1, e3, sum_map_mul_left, sum_over_free part fl fun k => (B.count (part o, k) : Rat), ← Nat.cast_sum, sum_row,
          FitsP.row h hF]
        · have : (free part fl (part o) : Rat) ≠ 0 := by exact_mod_cast (by omega)
          field_simp
          ring
        · intro q hq _
          obtain ⟨_, y, hy, hye⟩ := hF.exists hq
          rw [List.mem_toFinset, List.mem_map]
          exact ⟨y, hy, hye⟩
      · simp only [if_neg hF]
        rw [if_neg (fun hh => hF (by rw [hflc]; exact ((fitsP_skip (o := o)).1 hh).1))]
        simp

end

end SeQuant.Topology
