import Verif.Spin.TraceSpec
import Verif.Spin.OpProps
import Verif.Perm.CycleProps

/-!
# C52: the prefactors of closed-shell spin tracing
-/

namespace SeQuant.Spins

open SeQuant.Expression SeQuant.Perm SeQuant.Sort
open SeQuant.Tensors (Sym)

section
variable {K ι R : Type} [SpinIx ι] [Field K] [DecidableEq K] [Ring R] [Algebra K R]

/-- All replacements of external indices, one after the other. -/
def substFn : List (List ι) → ι → ι
  | [x, y] :: gs, i => substFn gs (if i = x then y else i)
  | _, i => i

theorem substExt_spec (gs : List (List ι)) (h : ∀ g ∈ gs, g.length = 2) (st : List ι × List ι) :
    substExt gs st = .ok (st.1.map (substFn gs), st.2.map (substFn gs)) := by
  induction gs generalizing st with
  | nil => simp [substExt, substFn]
  | cons g gs ih =>
    have hg := h g (by simp)
    match g with
    | [x, y] =>
      simp only [substExt, ih (fun g hg => h g (by simp [hg])), List.map_map]
      rfl
    | [] => simp at hg
    | [_] => simp at hg
    | _ :: _ :: _ :: _ => simp at hg

theorem substFn_notin (gs : List (List ι)) (i : ι) (h : i ∉ gs.flatten) : substFn gs i = i := by
  induction gs with
  | nil => rfl
  | cons g gs ih =>
    simp only [List.flatten_cons, List.mem_append, not_or] at h
    match g with
    | [x, y] =>
      have hx : i ≠ x := fun e => h.1 (by simp [e])
      simp only [substFn, hx, if_false, ih h.2]
    | [] => rfl
    | [_] => rfl
    | _ :: _ :: _ :: _ => rfl

theorem substFn_pair (gs : List (List ι)) (h2 : ∀ g ∈ gs, g.length = 2) (hn : gs.flatten.Nodup) (x y : ι) (h : [x, y] ∈ gs) :
    substFn gs x = substFn gs y := by
  induction gs with
  | nil => simp at h
  | cons g gs ih =>
    have hg := h2 g (by simp)
    rw [List.flatten_cons, List.nodup_append] at hn
    match g with
    | [a, b] =>
      simp only [substFn]
      rcases List.mem_cons.mp h with e | e
      · cases e
        simp only [if_true]
        have : y ≠ x := fun e => by have := hn.1; simp [e] at this
        simp [this]
      · have hx : x ∈ gs.flatten := List.mem_flatten.mpr ⟨_, e, by simp⟩
        have hy : y ∈ gs.flatten := List.mem_flatten.mpr ⟨_, e, by simp⟩
        have e1 : x ≠ a := fun e => hn.2.2 a (by simp) x hx e.symm
        have e2 : y ≠ a := fun e => hn.2.2 a (by simp) y hy e.symm
        simp only [e1, e2, if_false]
        exact ih (fun g hg => h2 g (by simp [hg])) hn.2.1 e
    | [] => simp at hg
    | [_] => simp at hg
    | _ :: _ :: _ :: _ => simp at hg

/-- An assignment that is constant on the groups does not see the replacements, and they stay inside a set that contains the groups. -/
theorem substFn_const (gs : List (List ι)) (U : Finset ι) (hU : ∀ g ∈ gs, ∀ x ∈ g, x ∈ U) (i : ι) (hi : i ∈ U) :
    substFn gs i ∈ U ∧ ∀ s : ι → Bool, (∀ g ∈ gs, ∀ x ∈ g, ∀ y ∈ g, s x = s y) → s (substFn gs i) = s i := by
  induction gs generalizing i with
  | nil => exact ⟨hi, fun _ _ => rfl⟩
  | cons g gs ih =>
    match g with
    | [a, b] =>
      simp only [substFn]
      have ih' := ih (fun g hg => hU g (by simp [hg]))
      by_cases e : i = a
      · subst e
        simp only [if_true]
        obtain ⟨h1, h2⟩ := ih' b (hU [i, b] (by simp) b (by simp))
        refine ⟨h1, fun s hs => ?_⟩
        rw [h2 s (fun g hg => hs g (by simp [hg]))]
        exact hs [i, b] (by simp) b (by simp) i (by simp)
      · simp only [e, if_false]
        obtain ⟨h1, h2⟩ := ih' i hi
        exact ⟨h1, fun s hs => h2 s (fun g hg => hs g (by simp [hg]))⟩
    | [] => exact ⟨hi, fun _ _ => rfl⟩
    | [_] => exact ⟨hi, fun _ _ => rfl⟩
    | _ :: _ :: _ :: _ => exact ⟨hi, fun _ _ => rfl⟩

theorem substFn_second (gs : List (List ι)) (h2 : ∀ g ∈ gs, g.length = 2) (hn : gs.flatten.Nodup) (x y : ι) (h : [x, y] ∈ gs) :
    substFn gs y = y := by
  induction gs with
  | nil => simp at h
  | cons g gs ih =>
    have hg := h2 g (by simp)
    rw [List.flatten_cons, List.nodup_append] at hn
    match g with
    | [a, b] =>
      simp only [substFn]
      rcases List.mem_cons.mp h with e | e
      · cases e
        have hne : y ≠ x := fun e => by have := hn.1; simp [e] at this
        simp only [hne, if_false]
        exact substFn_notin gs y (fun hm => hn.2.2 y (by simp) y hm rfl)
      · have hy : y ∈ gs.flatten := List.mem_flatten.mpr ⟨_, e, by simp⟩
        have e2 : y ≠ a := fun e => hn.2.2 a (by simp) y hy e.symm
        simp only [e2, if_false]
        exact ih (fun g hg => h2 g (by simp [hg])) hn.2.1 e
    | [] => simp at hg
    | [_] => simp at hg
    | _ :: _ :: _ :: _ => simp at hg

omit [SpinIx ι] in
/-- In a disjoint list of pairs a pair is determined by its second element. -/
theorem pair_unique (gs : List (List ι)) (hn : gs.flatten.Nodup) (x y x' : ι) (h : [x, y] ∈ gs) (h' : [x', y] ∈ gs) : x = x' := by
  induction gs with
  | nil => simp at h
  | cons g gs ih =>
    rw [List.flatten_cons, List.nodup_append] at hn
    rcases List.mem_cons.mp h with e | e <;> rcases List.mem_cons.mp h' with e' | e'
    · rw [← e] at e'; simp at e'; exact e'.symm
    · exact absurd rfl (hn.2.2 y (by rw [← e]; simp) y (List.mem_flatten.mpr ⟨_, e', by simp⟩))
    · exact absurd rfl (hn.2.2 y (by rw [← e']; simp) y (List.mem_flatten.mpr ⟨_, e, by simp⟩))
    · exact ih hn.2.1 e e'

/-- After the replacement every index occurs twice. -/
theorem count_subst (gs : List (List ι)) (h2 : ∀ g ∈ gs, g.length = 2) (hn : gs.flatten.Nodup) (L : List ι)
    (hin : ∀ i ∈ L, i ∉ gs.flatten → L.count i = 2) (hex : ∀ i ∈ gs.flatten, L.count i = 1) (i : ι) (hi : i ∈ L) :
    (L.map (substFn gs)).count (substFn gs i) = 2 := by
  have key : ∀ j, (j ∉ gs.flatten ∧ substFn gs j = j) ∨ ∃ x y, [x, y] ∈ gs ∧ (j = x ∨ j = y) ∧ substFn gs j = y := by
    intro j
    by_cases hj : j ∈ gs.flatten
    · right
      obtain ⟨g, hg, hjg⟩ := List.mem_flatten.mp hj
      have hl := h2 g hg
      match g, hl with
      | [x, y], _ =>
        refine ⟨x, y, hg, by simpa using hjg, ?_⟩
        have e2 := substFn_second gs h2 hn x y hg
        simp only [List.mem_cons, List.not_mem_nil, or_false] at hjg
        rcases hjg with rfl | rfl
        · rw [substFn_pair gs h2 hn _ _ hg, e2]
        · exact e2
    · exact Or.inl ⟨hj, substFn_notin gs j hj⟩
  rw [List.count, List.countP_map]
  rcases key i with ⟨h, e⟩ | ⟨x, y, hxy, -, e⟩
  · rw [e, ← hin i hi h, List.count]
    refine List.countP_congr fun j _ => ?_
    simp only [Function.comp, beq_iff_eq]
    rcases key j with ⟨-, e'⟩ | ⟨x, y, hxy, hj, e'⟩
    · rw [e']
    · have hy : y ∈ gs.flatten := List.mem_flatten.mpr ⟨_, hxy, by simp⟩
      have hx : x ∈ gs.flatten := List.mem_flatten.mpr ⟨_, hxy, by simp⟩
      rw [e']
      refine ⟨fun h' => absurd (h' ▸ hy) h, fun h' => ?_⟩
      rcases hj with e1 | e1
      · exact absurd (by rw [← h', e1]; exact hx) h
      · exact absurd (by rw [← h', e1]; exact hy) h
  · have hne : x ≠ y := by
      rintro rfl
      have := (List.nodup_flatten.mp hn).1 _ hxy
      simp at this
    have hc : ∀ L : List ι, L.countP ((fun z => z == y) ∘ substFn gs) = L.count x + L.count y := by
      intro L
      induction L with
      | nil => simp
      | cons j L ih =>
        rw [List.countP_cons, List.count_cons, List.count_cons, ih]
        have : ((fun z => z == y) ∘ substFn gs) j = (j == x || j == y) := by
          rw [Bool.eq_iff_iff]
          simp only [Function.comp, beq_iff_eq, Bool.or_eq_true]
          rcases key j with ⟨hj, e'⟩ | ⟨x', y', hxy', hj, e'⟩
          · rw [e']
            refine ⟨Or.inr, ?_⟩
            rintro (h | h)
            · exact absurd (List.mem_flatten.mpr ⟨_, hxy, by simp [h]⟩) hj
            · exact h
          · rw [e']
            constructor
            · rintro rfl
              rw [pair_unique gs hn x y' x' hxy hxy']
              exact hj
            · rintro (h | h)
              · rw [← e', h, substFn_pair gs h2 hn x y hxy, substFn_second gs h2 hn x y hxy]
              · rw [← e', h, substFn_second gs h2 hn x y hxy]
        rw [this]
        by_cases h1 : j = x
        · subst h1; simp [hne]; omega
        · by_cases h2 : j = y
          · subst h2; simp [Ne.symm hne]; omega
          · simp [h1, h2]
    rw [e, hc, hex x (List.mem_flatten.mpr ⟨_, hxy, by simp⟩), hex y (List.mem_flatten.mpr ⟨_, hxy, by simp⟩)]

/-- The number of cycles after the replacement of the external indices gives the number of spin assignments that are compatible with the
columns. -/
theorem cycles_assign (gs : List (List ι)) (h2 : ∀ g ∈ gs, g.length = 2) (hn : gs.flatten.Nodup) (kets bras : List ι)
    (hl : kets.length = bras.length) (hU : ∀ g ∈ gs, ∀ x ∈ g, x ∈ (kets ++ bras).toFinset) :
    ∃ N, ∀ fuel, N ≤ fuel → ∃ c, countCycles fuel (kets.map (substFn gs)) (bras.map (substFn gs)) = some c ∧
      2 ^ c = Nat.card {s : Assign (kets ++ bras).toFinset gs // ∀ p ∈ bras.zip kets, ∀ (h1 : p.1 ∈ (kets ++ bras).toFinset)
        (h2 : p.2 ∈ (kets ++ bras).toFinset), s.1 ⟨p.1, h1⟩ = s.1 ⟨p.2, h2⟩} ∧ c ≤ kets.length := by
  obtain ⟨N, hN⟩ := countCycles_spin (kets.map (substFn gs)) (bras.map (substFn gs))
  refine ⟨N, fun fuel hf => ?_⟩
  obtain ⟨c, h1, h3⟩ := hN fuel hf
  suffices hs : 2 ^ c = Nat.card {s : Assign (kets ++ bras).toFinset gs // ∀ p ∈ bras.zip kets, ∀ (h1 : p.1 ∈ (kets ++ bras).toFinset)
        (h2 : p.2 ∈ (kets ++ bras).toFinset), s.1 ⟨p.1, h1⟩ = s.1 ⟨p.2, h2⟩} by
    refine ⟨c, h1, hs, ?_⟩
    have hle : 2 ^ c ≤ 2 ^ kets.length := by
      rw [hs]
      have : Nat.card (Fin kets.length → Bool) = 2 ^ kets.length := by simp
      rw [← this]
      refine Nat.card_le_card_of_injective (fun s j => s.1.1 ⟨kets[j], by simp⟩) ?_
      intro s s' h
      apply Subtype.ext
      apply Subtype.ext
      funext i
      have hk : ∀ j (hj : j < kets.length), s.1.1 ⟨kets[j], by simp⟩ = s'.1.1 ⟨kets[j], by simp⟩ := fun j hj => congrFun h ⟨j, hj⟩
      have hi : i.1 ∈ kets ++ bras := List.mem_toFinset.mp i.2
      rcases List.mem_append.mp hi with m | m
      · obtain ⟨j, hj, e⟩ := List.getElem_of_mem m
        have ei : i = ⟨kets[j], by simp⟩ := Subtype.ext e.symm
        rw [ei, hk j hj]
      · obtain ⟨j, hj, e⟩ := List.getElem_of_mem m
        have hj' : j < kets.length := by omega
        have hz : j < (bras.zip kets).length := by simp; omega
        have mz := List.getElem_mem hz
        rw [List.getElem_zip] at mz
        have ei : i = ⟨bras[j], by simp⟩ := Subtype.ext e.symm
        rw [ei, s.2 _ mz (by simp) (by simp), s'.2 _ mz (by simp) (by simp)]
        exact hk j hj'
    exact (Nat.pow_le_pow_iff_right (by norm_num)).mp hle
  refine h3.trans (Nat.card_congr ?_)
  set U := (kets ++ bras).toFinset with hUdef
  have hlen : (kets.map (substFn gs) ++ bras.map (substFn gs)).length = (kets ++ bras).length := by simp
  have hget : ∀ p : Fin (kets.map (substFn gs) ++ bras.map (substFn gs)).length,
      (kets.map (substFn gs) ++ bras.map (substFn gs)).get p = substFn gs ((kets ++ bras).get (Fin.cast hlen p)) := by
    intro p
    simp only [List.get_eq_getElem, ← List.map_append, List.getElem_map, Fin.val_cast]
  have hmem : ∀ q : Fin (kets ++ bras).length, (kets ++ bras).get q ∈ U := fun q => List.mem_toFinset.mpr (List.get_mem _ _)
  have hpos : ∀ i, i ∈ U → (kets ++ bras).idxOf i < (kets ++ bras).length := fun i hi =>
    List.idxOf_lt_length_iff.mpr (List.mem_toFinset.mp hi)
  let pos : {i // i ∈ U} → Fin (kets.map (substFn gs) ++ bras.map (substFn gs)).length := fun i =>
    Fin.cast hlen.symm ⟨(kets ++ bras).idxOf i.1, hpos i.1 i.2⟩
  have hval : ∀ i, (kets ++ bras).get (Fin.cast hlen (pos i)) = i.1 := by
    intro i
    simp only [pos, List.get_eq_getElem, Fin.cast_cast]
    exact List.getElem_idxOf (hpos i.1 i.2)
  refine
    { toFun := fun g => ⟨⟨fun i => g.1 (pos i), ?_⟩, ?_⟩
      invFun := fun s => ⟨fun p => s.1.1 ⟨(kets ++ bras).get (Fin.cast hlen p), hmem _⟩, ?_⟩
      left_inv := ?_
      right_inv := ?_ }
  · -- constant on the groups
    intro gr hgr x hx y hy hxU hyU
    apply g.2
    refine Or.inr (Or.inr ?_)
    rw [hget, hget, hval, hval]
    have hlen2 := h2 gr hgr
    match gr, hlen2 with
    | [a, b], _ =>
      have := substFn_pair gs h2 hn a b hgr
      simp only [List.mem_cons, List.not_mem_nil, or_false] at hx hy
      rcases hx with rfl | rfl <;> rcases hy with rfl | rfl <;> simp [this]
  · -- columns
    rintro ⟨b, k⟩ hp hb hk
    obtain ⟨j, hj, e⟩ := List.getElem_of_mem hp
    have hj1 : j < bras.length := by simp at hj; omega
    have hj2 : j < kets.length := by simp at hj; omega
    rw [List.getElem_zip] at e
    have eb : bras[j] = b := congrArg Prod.fst e
    have ek : kets[j] = k := congrArg Prod.snd e
    have hp1 : kets.length + j < (kets.map (substFn gs) ++ bras.map (substFn gs)).length := by simp; omega
    have hp2 : j < (kets.map (substFn gs) ++ bras.map (substFn gs)).length := by simp; omega
    have q1 : g.1 (pos ⟨b, hb⟩) = g.1 ⟨kets.length + j, hp1⟩ := by
      apply g.2
      refine Or.inr (Or.inr ?_)
      rw [hget, hget, hval]
      simp [eb]
    have q2 : g.1 (pos ⟨k, hk⟩) = g.1 ⟨j, hp2⟩ := by
      apply g.2
      refine Or.inr (Or.inr ?_)
      rw [hget, hget, hval]
      simp [ek, List.getElem_append_left hj2]
    have q3 : g.1 ⟨j, hp2⟩ = g.1 ⟨kets.length + j, hp1⟩ := by
      apply g.2
      left
      simp [hj2]
    show g.1 (pos ⟨b, hb⟩) = g.1 (pos ⟨k, hk⟩)
    rw [q1, q2, q3]
  · -- edges
    intro p q hpq
    have hext : ∀ gr ∈ gs, ∀ x ∈ gr, ∀ y ∈ gr,
        (fun i => if h : i ∈ U then s.1.1 ⟨i, h⟩ else false) x = (fun i => if h : i ∈ U then s.1.1 ⟨i, h⟩ else false) y := by
      intro gr hgr x hx y hy
      simp only [hU gr hgr x hx, hU gr hgr y hy, dite_true]
      exact s.1.2 gr hgr x hx y hy _ _
    have hcol : ∀ (p q : Fin (kets.map (substFn gs) ++ bras.map (substFn gs)).length), p.val < (kets.map (substFn gs)).length →
        q.val = (kets.map (substFn gs)).length + p.val →
        s.1.1 ⟨(kets ++ bras).get (Fin.cast hlen p), hmem _⟩ = s.1.1 ⟨(kets ++ bras).get (Fin.cast hlen q), hmem _⟩ := by
      intro p q h1 h2
      have h1' : p.val < kets.length := by simpa using h1
      have h2' : q.val = kets.length + p.val := by simpa using h2
      have hb : p.val < bras.length := by omega
      have := s.2 (bras[p.val], kets[p.val]) (by
        have hz : p.val < (bras.zip kets).length := by simp; omega
        have := List.getElem_mem hz
        rwa [List.getElem_zip] at this)
      have e1 : (kets ++ bras).get (Fin.cast hlen p) = kets[p.val] := by
        simp [List.getElem_append_left h1']
      have e2 : (kets ++ bras).get (Fin.cast hlen q) = bras[p.val] := by
        simp [h2']
      have m1 : kets[p.val] ∈ U := by rw [← e1]; exact hmem _
      have m2 : bras[p.val] ∈ U := by rw [← e2]; exact hmem _
      have t := this m2 m1
      simp only [e1, e2]
      exact t.symm
    rcases hpq with ⟨h1, h2⟩ | ⟨h1, h2⟩ | h
    · exact hcol p q h1 h2
    · exact (hcol q p h1 h2).symm
    · rw [hget, hget] at h
      have e1 := (substFn_const gs U hU _ (hmem (Fin.cast hlen p))).2 _ hext
      have e2 := (substFn_const gs U hU _ (hmem (Fin.cast hlen q))).2 _ hext
      rw [h, e2] at e1
      simp only [hmem, dite_true] at e1
      exact e1.symm
  · intro g
    apply Subtype.ext
    funext p
    apply g.2
    refine Or.inr (Or.inr ?_)
    rw [hget, hget, hval]
  · intro s
    apply Subtype.ext
    apply Subtype.ext
    funext i
    show s.1.1 ⟨(kets ++ bras).get (Fin.cast hlen (pos i)), _⟩ = s.1.1 i
    exact congrArg s.1.1 (Subtype.ext (hval i))

/-- What the closed-shell trace expects of the tensors: not the antisymmetrizer, nonsymmetric, with complete columns, without auxiliary
indices, without spin labels; the columns of a symmetrizer are groups of external indices. -/
structure Traceable (ext : List (List ι)) (t : Tn ι) : Prop where
  noA : t.lab ≠ .A
  sym : t.sym = .nonsymm
  square : t.bra.length = t.ket.length
  aux : t.aux = []
  free : ∀ i ∈ t.bra ++ t.ket, SpinIx.spin i = .any
  colsS : t.lab = .S → ∀ p ∈ t.bra.zip t.ket, ∃ g ∈ ext, p.1 ∈ g ∧ p.2 ∈ g

/-- The spin trace of a product: the sum over all assignments of spins to its indices. -/
noncomputable def trace (I : Atm ι → R) (ext : List (List ι)) (c : K) (l : List (Expr K (Atm ι))) : R :=
  ∑ s : Assign (usedL l).toFinset ext, c • evalProd (I ∘ Atm.map s.label) l

/-- The columns of all tensors other than symmetrizers conserve spin. -/
def Compat {U : Finset ι} {ext : List (List ι)} (s : Assign U ext) (ps : List (ι × ι)) : Prop :=
  ∀ p ∈ ps, ∀ (h1 : p.1 ∈ U) (h2 : p.2 ∈ U), s.1 ⟨p.1, h1⟩ = s.1 ⟨p.2, h2⟩

theorem spin_label {U : Finset ι} {ext : List (List ι)} (s : Assign U ext) (i j : ι) (hi : i ∈ U) (hj : j ∈ U) :
    SpinIx.spin (s.label i) = SpinIx.spin (s.label j) ↔ s.1 ⟨i, hi⟩ = s.1 ⟨j, hj⟩ := by
  simp only [Assign.label, hi, hj, dite_true, SpinIx.spin_set]
  cases s.1 ⟨i, hi⟩ <;> cases s.1 ⟨j, hj⟩ <;> simp

theorem free_label {U : Finset ι} {ext : List (List ι)} (s : Assign U ext) (i : ι) (h : SpinIx.spin i = .any) :
    SpinIx.setSpin (s.label i) .any = i := by
  have hs := SpinIx.set_spin i
  rw [h] at hs
  unfold Assign.label
  split
  · rw [SpinIx.set_set, hs]
  · exact hs

theorem block_label (I0 : Atm ι → R) {U : Finset ι} {ext : List (List ι)} (s : Assign U ext) (t : Tn ι) (ht : Traceable ext t)
    (hU : ∀ i ∈ t.bra ++ t.ket, i ∈ U) :
    (Compat s (t.bra.zip t.ket) → (block I0 ∘ Atm.map s.label) (.tens t) = I0 (.tens t)) ∧
    (¬ Compat s (t.bra.zip t.ket) → (block I0 ∘ Atm.map s.label) (.tens t) = 0) := by
  have hb : (t.bra.map s.label).map (SpinIx.setSpin · .any) = t.bra := by
    rw [List.map_map]
    conv_rhs => rw [← List.map_id t.bra]
    exact List.map_congr_left fun i hi => free_label s i (ht.free i (by simp [hi]))
  have hk : (t.ket.map s.label).map (SpinIx.setSpin · .any) = t.ket := by
    rw [List.map_map]
    conv_rhs => rw [← List.map_id t.ket]
    exact List.map_congr_left fun i hi => free_label s i (ht.free i (by simp [hi]))
  have he : (∀ p ∈ (t.bra.map s.label).zip (t.ket.map s.label), SpinIx.spin p.1 = SpinIx.spin p.2) ↔ Compat s (t.bra.zip t.ket) := by
    rw [List.zip_map, List.forall_mem_map]
    constructor
    · intro H p hp h1 h2
      exact (spin_label s _ _ h1 h2).mp (H p hp)
    · intro H p hp
      have m1 := hU p.1 (List.mem_append_left _ (List.of_mem_zip hp).1)
      have m2 := hU p.2 (List.mem_append_right _ (List.of_mem_zip hp).2)
      exact (spin_label s _ _ m1 m2).mpr (H p hp m1 m2)
  classical
  have e : (block I0 ∘ Atm.map s.label) (.tens t) = if Compat s (t.bra.zip t.ket) then I0 (.tens t) else 0 := by
    simp only [Function.comp, Atm.map, block, ht.sym, block0, hb, hk, ht.aux, List.map_nil]
    by_cases h : Compat s (t.bra.zip t.ket)
    · rw [if_pos h, if_pos (he.mpr h)]
      congr 2
      rw [← ht.sym, ← ht.aux]
    · rw [if_neg h, if_neg (fun H => h (he.mp H))]
  constructor
  · intro h; rw [e, if_pos h]
  · intro h; rw [e, if_neg h]

/-- The factors other than symmetrizers. -/
def withoutS (l : List (Expr K (Atm ι))) : List (Expr K (Atm ι)) := l.filter fun f => !hasLab .S f

omit [SpinIx ι] [Field K] [DecidableEq K] in
theorem withoutS_cons_S (t : Tn ι) (l : List (Expr K (Atm ι))) (h : t.lab = .S) : withoutS (.atom (.tens t) :: l) = withoutS l := by
  unfold withoutS; rw [List.filter_cons_of_neg]; simp [hasLab, h]
omit [SpinIx ι] [Field K] [DecidableEq K] in
theorem withoutS_cons (t : Tn ι) (l : List (Expr K (Atm ι))) (h : t.lab ≠ .S) :
    withoutS (.atom (.tens t) :: l) = .atom (.tens t) :: withoutS l := by
  unfold withoutS; rw [List.filter_cons_of_pos]; simp [hasLab, h]
omit [SpinIx ι] [Field K] [DecidableEq K] in
theorem withoutS_var (n : String) (l : List (Expr K (Atm ι))) :
    withoutS (.atom (.var n) :: l) = .atom (.var n) :: withoutS l := by
  unfold withoutS; rw [List.filter_cons_of_pos]; simp [hasLab]

omit [SpinIx ι] [Field K] [DecidableEq K] in
theorem collects_eq (collect : Bool) (l : List (Expr K (Atm ι))) (hl : ∀ f ∈ l, leafy f = true)
    (hA : ∀ t, Expr.atom (.tens t) ∈ l → t.lab ≠ .A) :
    braIndices collect (withoutS l) = braIndices true (withoutS l) ∧
    ketIndices collect (withoutS l) = ketIndices true (withoutS l) := by
  induction l with
  | nil => simp [withoutS, braIndices, ketIndices]
  | cons f l ih =>
    obtain ⟨i1, i2⟩ := ih (fun g hg => hl g (by simp [hg])) (fun t ht => hA t (by simp [ht]))
    have hf := hl f (by simp)
    match f with
    | .atom (.tens t) =>
      have ht := hA t (by simp)
      by_cases h : t.lab = .S
      · rw [withoutS_cons_S t l h]; exact ⟨i1, i2⟩
      · rw [withoutS_cons t l h]; simp [i1, i2, braIndices, ketIndices, collects, ht, h]
    | .atom (.var n) => rw [withoutS_var]; exact ⟨i1, i2⟩
    | .atom (.oper n) => simp [leafy] at hf
    | .const c => simp [leafy] at hf
    | .prod c l => simp [leafy] at hf
    | .sum c l => simp [leafy] at hf

omit [Field K] [DecidableEq K] in
theorem indices_spec (l : List (Expr K (Atm ι))) (hl : ∀ f ∈ l, leafy f = true) (ext : List (List ι))
    (ht : ∀ t, Expr.atom (.tens t) ∈ l → Traceable ext t) :
    (braIndices true (withoutS l)).length = (ketIndices true (withoutS l)).length ∧
    (∀ i, i ∈ ketIndices true (withoutS l) ++ braIndices true (withoutS l) ↔
      ∃ t, Expr.atom (.tens t) ∈ l ∧ t.lab ≠ .S ∧ i ∈ t.bra ++ t.ket) ∧
    (∀ i, i ∈ usedL l ↔ ∃ t, Expr.atom (.tens t) ∈ l ∧ i ∈ t.bra ++ t.ket) := by
  induction l with
  | nil => simp [withoutS, braIndices, ketIndices, usedL]
  | cons f l ih =>
    obtain ⟨i1, i2, i3⟩ := ih (fun g hg => hl g (by simp [hg])) (fun t h => ht t (by simp [h]))
    have hf := hl f (by simp)
    match f with
    | .atom (.tens t) =>
      have h' := ht t (by simp)
      refine ⟨?_, ?_, ?_⟩
      · by_cases h : t.lab = .S
        · rw [withoutS_cons_S t l h]; exact i1
        · rw [withoutS_cons t l h]; simp [braIndices, ketIndices, collects, i1, h'.square]
      · intro i
        have i2 := i2 i
        by_cases h : t.lab = .S
        · rw [withoutS_cons_S t l h, i2]
          constructor
          · rintro ⟨u, h1, h2⟩; exact ⟨u, by simp [h1], h2⟩
          · rintro ⟨u, h1, h2, h3⟩
            rcases List.mem_cons.mp h1 with e | e
            · cases e; exact absurd h h2
            · exact ⟨u, e, h2, h3⟩
        · simp only [withoutS_cons t l h, if_true, braIndices, ketIndices, collects, Bool.true_or]
          have : i ∈ t.ket ++ ketIndices true (withoutS l) ++ (t.bra ++ braIndices true (withoutS l)) ↔
              i ∈ t.bra ++ t.ket ∨ i ∈ ketIndices true (withoutS l) ++ braIndices true (withoutS l) := by
            simp only [List.mem_append]; tauto
          rw [this, i2]
          constructor
          · rintro (h1 | ⟨u, h1, h2⟩)
            · exact ⟨t, by simp, h, h1⟩
            · exact ⟨u, by simp [h1], h2⟩
          · rintro ⟨u, h1, h2, h3⟩
            rcases List.mem_cons.mp h1 with e | e
            · cases e; exact Or.inl h3
            · exact Or.inr ⟨u, e, h2, h3⟩
      · intro i
        simp only [usedL, h'.aux, List.append_nil, List.mem_append, i3] at i3 ⊢
        constructor
        · rintro (h1 | ⟨u, h1, h2⟩)
          · exact ⟨t, by simp, h1⟩
          · exact ⟨u, by simp [h1], h2⟩
        · rintro ⟨u, h1, h3⟩
          rcases List.mem_cons.mp h1 with e | e
          · cases e; exact Or.inl h3
          · exact Or.inr ⟨u, e, h3⟩
    | .atom (.var n) =>
      rw [withoutS_var]
      exact ⟨i1, by simpa [braIndices, ketIndices] using i2, by simpa [usedL] using i3⟩
    | .atom (.oper n) => simp [leafy] at hf
    | .const c => simp [leafy] at hf
    | .prod c l => simp [leafy] at hf
    | .sum c l => simp [leafy] at hf

omit [DecidableEq K] in
/-- The value of a product with spin labels. -/
theorem evalProd_label (I0 : Atm ι → R) {U : Finset ι} {ext : List (List ι)} (s : Assign U ext) (l : List (Expr K (Atm ι)))
    (hl : ∀ f ∈ l, leafy f = true) (ht : ∀ t, Expr.atom (.tens t) ∈ l → Traceable ext t)
    (hU : ∀ t, Expr.atom (.tens t) ∈ l → ∀ i ∈ t.bra ++ t.ket, i ∈ U) :
    let ps := (braIndices true (withoutS l)).zip (ketIndices true (withoutS l))
    (Compat s ps → evalProd (block I0 ∘ Atm.map s.label) l = evalProd I0 l) ∧
    (¬ Compat s ps → evalProd (block I0 ∘ Atm.map s.label) l = 0) := by
  induction l with
  | nil => simp [withoutS, braIndices, ketIndices, Compat, evalProd]
  | cons f l ih =>
    obtain ⟨i1, i2⟩ := ih (fun g hg => hl g (by simp [hg])) (fun t h => ht t (by simp [h])) (fun t h => hU t (by simp [h]))
    have hf := hl f (by simp)
    match f with
    | .atom (.tens t) =>
      have h' := ht t (by simp)
      obtain ⟨b1, b2⟩ := block_label I0 s t h' (hU t (by simp))
      simp only [evalProd, eval]
      by_cases h : t.lab = .S
      · have hc : Compat s (t.bra.zip t.ket) := by
          intro p hp h1 h2
          obtain ⟨g, hg, m1, m2⟩ := h'.colsS h p hp
          exact s.2 g hg _ m1 _ m2 h1 h2
        simp only [withoutS_cons_S t l h, b1 hc]
        exact ⟨fun H => by rw [i1 H], fun H => by rw [i2 H, mul_zero]⟩
      · simp only [withoutS_cons t l h, if_true, braIndices, ketIndices, collects, Bool.true_or]
        rw [List.zip_append h'.square]
        have hap : ∀ ps, Compat s (t.bra.zip t.ket ++ ps) ↔ Compat s (t.bra.zip t.ket) ∧ Compat s ps := by
          intro ps
          simp only [Compat, List.mem_append]
          constructor
          · intro H; exact ⟨fun p hp => H p (Or.inl hp), fun p hp => H p (Or.inr hp)⟩
          · rintro ⟨H1, H2⟩ p (hp | hp)
            · exact H1 p hp
            · exact H2 p hp
        rw [hap]
        constructor
        · rintro ⟨H1, H2⟩; rw [b1 H1, i1 H2]
        · intro H
          by_cases hc : Compat s (t.bra.zip t.ket)
          · rw [i2 (fun h2 => H ⟨hc, h2⟩), mul_zero]
          · rw [b2 hc, zero_mul]
    | .atom (.var n) =>
      simp only [evalProd, eval, withoutS_var, braIndices, ketIndices]
      have e : (block I0 ∘ Atm.map s.label) (.var n) = I0 (.var n) := rfl
      rw [e]
      exact ⟨fun H => by rw [i1 H], fun H => by rw [i2 H, mul_zero]⟩
    | .atom (.oper n) => simp [leafy] at hf
    | .const c => simp [leafy] at hf
    | .prod c l => simp [leafy] at hf
    | .sum c l => simp [leafy] at hf

/-- The groups of external indices: disjoint pairs of indices of tensors that are not symmetrizers. -/
structure ExtPairs (ext : List (List ι)) (l : List (Expr K (Atm ι))) : Prop where
  two : ∀ g ∈ ext, g.length = 2
  nodup : ext.flatten.Nodup
  used : ∀ g ∈ ext, ∀ x ∈ g, ∃ t, Expr.atom (.tens t) ∈ l ∧ t.lab ≠ .S ∧ x ∈ t.bra ++ t.ket

omit [SpinIx ι] [Field K] [DecidableEq K] in
theorem used_perm (l : List (Expr K (Atm ι))) (hl : ∀ f ∈ l, leafy f = true) (ht : ∀ t, Expr.atom (.tens t) ∈ l → t.aux = []) :
    (usedL (withoutS l)).Perm (ketIndices true (withoutS l) ++ braIndices true (withoutS l)) := by
  induction l with
  | nil => simp [withoutS, usedL, ketIndices, braIndices]
  | cons f l ih =>
    have ih := ih (fun g hg => hl g (by simp [hg])) (fun t h => ht t (by simp [h]))
    have hf := hl f (by simp)
    match f with
    | .atom (.tens t) =>
      by_cases h : t.lab = .S
      · rw [withoutS_cons_S t l h]; exact ih
      · simp only [withoutS_cons t l h, usedL, ht t (by simp), ketIndices, braIndices, collects, Bool.true_or, if_true, List.append_nil]
        refine (ih.append_left _).trans ?_
        rw [List.append_assoc, List.append_assoc]
        refine List.perm_append_comm.trans ?_
        rw [List.append_assoc, List.append_assoc]
        refine List.Perm.append_left _ (List.Perm.append_left _ ?_)
        exact List.perm_append_comm
    | .atom (.var n) => rw [withoutS_var]; exact ih
    | .atom (.oper n) => simp [leafy] at hf
    | .const c => simp [leafy] at hf
    | .prod c l => simp [leafy] at hf
    | .sum c l => simp [leafy] at hf

/-- What the assertions ask for: symmetrizers aside, internal indices occur twice and external ones once, and there are fewer than 64
columns. -/
structure Linked (ext : List (List ι)) (l : List (Expr K (Atm ι))) : Prop where
  internal : ∀ i ∈ usedL (withoutS l), i ∉ ext.flatten → (usedL (withoutS l)).count i = 2
  external : ∀ i ∈ ext.flatten, (usedL (withoutS l)).count i = 1
  small : (usedL (withoutS l)).length < 128

omit [DecidableEq K] in
/-- **C52 (partial), products.**  `trace_product` multiplies the product by the number of spin assignments for which it does not vanish: the
result is the sum over all assignments of spin to the indices.  Without assertions there always is a result, with assertions if the indices
are linked up (`Linked`). -/
theorem closedProduct_value_partial (I0 : Atm ι → R) (checks : Bool) (ext : List (List ι)) (c : K) (l : List (Expr K (Atm ι)))
    (hl : ∀ f ∈ l, leafy f = true) (ht : ∀ t, Expr.atom (.tens t) ∈ l → Traceable ext t) (he : ExtPairs ext l) :
    ∃ N, ∀ fuel, N ≤ fuel →
      (∀ r, closedProduct checks fuel ext c l = .ok r → eval I0 r = trace (block I0) ext c l) ∧
      (checks = false ∨ Linked ext l → ∃ r, closedProduct checks fuel ext c l = .ok r) := by
  obtain ⟨s1, s2, s3⟩ := indices_spec l hl ext ht
  obtain ⟨q1, q2⟩ := collects_eq ext.isEmpty l hl (fun t h => (ht t h).noA)
  set bras := braIndices true (withoutS l) with hbras
  set kets := ketIndices true (withoutS l) with hkets
  have hUU : (usedL l).toFinset = (kets ++ bras).toFinset := by
    ext i
    rw [List.mem_toFinset, List.mem_toFinset, s2, s3]
    constructor
    · rintro ⟨t, h1, h2⟩
      by_cases h : t.lab = .S
      · have hT := ht t h1
        obtain ⟨j, hj, ej⟩ := List.getElem_of_mem h2
        have : ∃ g ∈ ext, i ∈ g := by
          rcases List.mem_append.mp h2 with hb | hk
          · obtain ⟨j, hj, ej⟩ := List.getElem_of_mem hb
            have hz : j < (t.bra.zip t.ket).length := by simp [hT.square.symm, hj]
            obtain ⟨g, hg, m1, -⟩ := hT.colsS h _ (List.getElem_mem hz)
            rw [List.getElem_zip] at m1
            exact ⟨g, hg, ej ▸ m1⟩
          · obtain ⟨j, hj, ej⟩ := List.getElem_of_mem hk
            have hz : j < (t.bra.zip t.ket).length := by simp [hT.square, hj]
            obtain ⟨g, hg, -, m1⟩ := hT.colsS h _ (List.getElem_mem hz)
            rw [List.getElem_zip] at m1
            exact ⟨g, hg, ej ▸ m1⟩
        obtain ⟨g, hg, hi⟩ := this
        exact he.used g hg i hi
      · exact ⟨t, h1, h, h2⟩
    · rintro ⟨t, h1, -, h2⟩; exact ⟨t, h1, h2⟩
  have hextU : ∀ g ∈ ext, ∀ x ∈ g, x ∈ (kets ++ bras).toFinset := fun g hg x hx =>
    List.mem_toFinset.mpr ((s2 x).mpr (he.used g hg x hx))
  obtain ⟨N, hN⟩ := cycles_assign ext he.two he.nodup kets bras s1.symm hextU
  refine ⟨N, fun fuel hf => ?_⟩
  obtain ⟨n, hn, hcard, hnle⟩ := hN fuel hf
  have hrun : closedProduct checks fuel ext c l =
      if checks && !cyclesPre (kets.map (substFn ext)) (bras.map (substFn ext)) then .error .assertion
      else if checks && decide (64 ≤ n) then .error .assertion else .ok (.prod (c * ((2 ^ n : Nat) : K)) l) := by
    unfold closedProduct
    have ew : (l.filter fun f => !hasLab .S f) = withoutS l := rfl
    simp only [ew, q1, q2, substExt_spec ext he.two]
    simp only [bind, Except.bind, hn, ofOption, pure, Except.pure]
  constructor
  · intro r hr
    rw [hrun] at hr
    split at hr
    · exact absurd hr (by simp)
    split at hr
    · exact absurd hr (by simp)
    cases hr
    unfold trace
    rw [hUU]
    classical
    have hsum : ∀ s : Assign (kets ++ bras).toFinset ext, c • evalProd (block I0 ∘ Atm.map s.label) l =
        if Compat s (bras.zip kets) then c • evalProd I0 l else 0 := by
      intro s
      obtain ⟨v1, v2⟩ := evalProd_label I0 s l hl ht (fun t h i hi => by
        rw [← hUU]; exact List.mem_toFinset.mpr ((s3 i).mpr ⟨t, h, hi⟩))
      by_cases h : Compat s (bras.zip kets)
      · rw [if_pos h, v1 h]
      · rw [if_neg h, v2 h, smul_zero]
    rw [Finset.sum_congr rfl (fun s _ => hsum s), ← Finset.sum_filter, Finset.sum_const]
    have : (Finset.univ.filter fun s : Assign (kets ++ bras).toFinset ext => Compat s (bras.zip kets)).card = 2 ^ n := by
      rw [hcard, Nat.card_eq_fintype_card, Fintype.card_subtype]
      exact congrArg Finset.card (by ext s; simp [Compat])
    rw [this, eval, ← Nat.cast_smul_eq_nsmul K, smul_smul, mul_comm]
  · rintro (h | h)
    · rw [hrun, h]
      exact ⟨_, rfl⟩
    · have hp : (usedL (withoutS l)).Perm (kets ++ bras) := used_perm l hl (fun t h => (ht t h).aux)
      have hlen := hp.length_eq
      rw [List.length_append, s1] at hlen
      have hsm := h.small
      have hn64 : ¬ 64 ≤ n := by omega
      have hpre : cyclesPre (kets.map (substFn ext)) (bras.map (substFn ext)) = true := by
        simp only [cyclesPre, Bool.and_eq_true, decide_eq_true_eq, List.length_map, s1, true_and, List.all_eq_true, ← List.map_append]
        intro z hz
        obtain ⟨i, hi, rfl⟩ := List.mem_map.mp hz
        refine count_subst ext he.two he.nodup _ ?_ ?_ i hi
        · intro i hi hie
          rw [← hp.count_eq]
          exact h.internal i (hp.mem_iff.mpr hi) hie
        · intro i hi
          rw [← hp.count_eq]
          exact h.external i hi
      rw [hrun, hpre]
      simp [hn64]

/-! ## Sums -/

/-- The summands of an expression. -/
def summands : Expr K (Atm ι) → List (Expr K (Atm ι))
  | .sum _ l => l
  | e => [e]

/-- The spin trace of a term. -/
noncomputable def traceTerm (I : Atm ι → R) (ext : List (List ι)) : Expr K (Atm ι) → R
  | .prod c l => trace I ext c l
  | .atom (.tens t) => trace I ext (1 : K) [.atom (.tens t)]
  | e => eval I e

/-- The terms that can be traced. -/
def TermOk (P : List (Expr K (Atm ι)) → Prop) : Expr K (Atm ι) → Prop
  | .prod _ l => (∀ f ∈ l, leafy f = true) ∧ P l
  | .atom (.tens t) => P [.atom (.tens t)]
  | .atom (.var _) => True
  | .const _ => True
  | _ => False

/-- The hypotheses of `closedProduct_value_partial`. -/
def ClosedOk (checks : Bool) (ext : List (List ι)) (l : List (Expr K (Atm ι))) : Prop :=
  (∀ t, Expr.atom (.tens t) ∈ l → Traceable ext t) ∧ ExtPairs ext l ∧ (checks = false ∨ Linked ext l)

omit [DecidableEq K] in
theorem closedSummands_value (I0 : Atm ι → R) (checks : Bool) (ext : List (List ι)) (es : List (Expr K (Atm ι)))
    (h : ∀ e ∈ es, TermOk (ClosedOk checks ext) e) :
    ∃ N, ∀ fuel, N ≤ fuel → ∃ rs, closedSummands checks fuel ext es = .ok rs ∧
      (rs.map (eval I0)).sum = (es.map (traceTerm (block I0) ext)).sum := by
  induction es with
  | nil => exact ⟨0, fun fuel _ => ⟨[], rfl, rfl⟩⟩
  | cons e es ih =>
    obtain ⟨N, hN⟩ := ih (fun f hf => h f (by simp [hf]))
    have he := h e (by simp)
    match e with
    | .prod c l =>
      obtain ⟨N', hN'⟩ := closedProduct_value_partial I0 checks ext c l he.1 he.2.1 he.2.2.1
      refine ⟨max N N', fun fuel hf => ?_⟩
      obtain ⟨rs, h1, h2⟩ := hN fuel (by omega)
      obtain ⟨v, w⟩ := hN' fuel (by omega)
      obtain ⟨r, hr⟩ := w he.2.2.2
      refine ⟨r :: rs, by simp only [closedSummands, hr, h1, bind, Except.bind, pure, Except.pure], ?_⟩
      simp only [List.map_cons, List.sum_cons, h2, v r hr, traceTerm]
    | .atom (.tens t) =>
      obtain ⟨N', hN'⟩ := closedProduct_value_partial I0 checks ext 1 [.atom (.tens t)] (by simp [leafy]) he.1 he.2.1
      refine ⟨max N N', fun fuel hf => ?_⟩
      obtain ⟨rs, h1, h2⟩ := hN fuel (by omega)
      obtain ⟨v, w⟩ := hN' fuel (by omega)
      obtain ⟨r, hr⟩ := w he.2.2
      refine ⟨r :: rs, by simp only [closedSummands, hr, h1, bind, Except.bind, pure, Except.pure], ?_⟩
      simp only [List.map_cons, List.sum_cons, h2, v r hr, traceTerm]
    | .atom (.var n) =>
      refine ⟨N, fun fuel hf => ?_⟩
      obtain ⟨rs, h1, h2⟩ := hN fuel hf
      refine ⟨.atom (.var n) :: rs, by simp only [closedSummands, h1, bind, Except.bind, pure, Except.pure], ?_⟩
      simp only [List.map_cons, List.sum_cons, h2, traceTerm, eval, block]
    | .const c =>
      refine ⟨N, fun fuel hf => ?_⟩
      obtain ⟨rs, h1, h2⟩ := hN fuel hf
      refine ⟨.const c :: rs, by simp only [closedSummands, h1, bind, Except.bind, pure, Except.pure], ?_⟩
      simp only [List.map_cons, List.sum_cons, h2, traceTerm, eval]
    | .atom (.oper n) => exact absurd he (by simp [TermOk])
    | .sum ci l => exact absurd he (by simp [TermOk])

/-- **C52 (partial).**  `closed_shell_spintrace` returns the spin trace: the sum over the terms of the sum over all assignments of spin to
the indices of the term. -/
theorem closedShell_value_partial (I0 : Atm ι → R) (checks : Bool) (ext : List (List ι)) (e : Expr K (Atm ι))
    (h : ∀ f ∈ summands e, TermOk (ClosedOk checks ext) f) :
    ∃ N, ∀ fuel, N ≤ fuel → ∃ r, closedShell checks fuel ext e = .ok r ∧
      eval I0 r = ((summands e).map (traceTerm (block I0) ext)).sum := by
  match e with
  | .prod c l =>
    have he := h _ (List.mem_singleton.mpr rfl)
    obtain ⟨N', hN'⟩ := closedProduct_value_partial I0 checks ext c l he.1 he.2.1 he.2.2.1
    refine ⟨N', fun fuel hf => ?_⟩
    obtain ⟨v, w⟩ := hN' fuel (by omega)
    obtain ⟨r, hr⟩ := w he.2.2.2
    exact ⟨r, hr, by simp [summands, traceTerm, v r hr]⟩
  | .atom (.tens t) =>
    have he := h _ (List.mem_singleton.mpr rfl)
    obtain ⟨N', hN'⟩ := closedProduct_value_partial I0 checks ext 1 [.atom (.tens t)] (by simp [leafy]) he.1 he.2.1
    refine ⟨N', fun fuel hf => ?_⟩
    obtain ⟨v, w⟩ := hN' fuel (by omega)
    obtain ⟨r, hr⟩ := w he.2.2
    exact ⟨r, hr, by simp [summands, traceTerm, v r hr]⟩
  | .atom (.var n) => exact ⟨0, fun _ _ => ⟨_, rfl, by simp [summands, traceTerm, eval, block]⟩⟩
  | .const c => exact ⟨0, fun _ _ => ⟨_, rfl, by simp [summands, traceTerm, eval]⟩⟩
  | .atom (.oper n) => exact absurd (h _ (List.mem_singleton.mpr rfl)) (by simp [TermOk])
  | .sum ci l =>
    obtain ⟨N, hN⟩ := closedSummands_value I0 checks ext l h
    refine ⟨N, fun fuel hf => ?_⟩
    obtain ⟨rs, h1, h2⟩ := hN fuel hf
    refine ⟨mkSum rs, by simp only [closedShell, h1, bind, Except.bind, pure, Except.pure], ?_⟩
    rw [mkSum_val (interp I0), evalSum_eq]
    exact h2

end

/-! ## Examples -/

/-- Coulomb and exchange: four and two assignments. -/
example : (closedProduct (K := Rat) true 20 [] 3 [.atom (.tens (⟨.other "g", [0, 3], [0, 3], [], .nonsymm⟩ : Tn Ix))]).map
      (eval (only ⟨.other "g", [0, 3], [0, 3], [], .nonsymm⟩)) = .ok 12 := by decide +kernel
example : (closedProduct (K := Rat) true 20 [] 3 [.atom (.tens (⟨.other "g", [0, 3], [3, 0], [], .nonsymm⟩ : Tn Ix))]).map
      (eval (only ⟨.other "g", [0, 3], [3, 0], [], .nonsymm⟩)) = .ok 6 := by decide +kernel

def sS : Tn Ix := ⟨.S, [0, 3], [6, 9], [], .nonsymm⟩
def sG : Tn Ix := ⟨.other "g", [6, 12], [0, 15], [], .nonsymm⟩
def sT : Tn Ix := ⟨.other "t", [9, 15], [3, 12], [], .nonsymm⟩

theorem sample_ok : TermOk (ClosedOk true [[0, 6], [3, 9]]) (.prod (1 / 2 : Rat) [.atom (.tens sS), .atom (.tens sG), .atom (.tens sT)]) := by
  refine ⟨by decide, ?_, ⟨by decide, by decide, ?_⟩, Or.inr ⟨by decide, by decide, by decide⟩⟩
  · intro t ht
    simp only [List.mem_cons, Expr.atom.injEq, Atm.tens.injEq, List.not_mem_nil, or_false] at ht
    rcases ht with rfl | rfl | rfl
    · exact ⟨by decide, rfl, rfl, rfl, by decide, fun _ => by decide⟩
    · exact ⟨by decide, rfl, rfl, rfl, by decide, fun h => absurd h (by decide)⟩
    · exact ⟨by decide, rfl, rfl, rfl, by decide, fun h => absurd h (by decide)⟩
  · intro g hg x hx
    simp only [List.mem_cons, List.not_mem_nil, or_false] at hg
    rcases hg with rfl | rfl
    · exact ⟨sG, by simp, by decide, by revert x; decide⟩
    · exact ⟨sT, by simp, by decide, by revert x; decide⟩

/-- Two external pairs and a ring: 2³ of the 2⁴ assignments that are constant on the pairs. -/
example (I0 : Atm Ix → Rat) : ∃ N, ∀ fuel, N ≤ fuel → ∃ r,
    closedShell true fuel [[0, 6], [3, 9]] (.sum none [.prod (1 / 2 : Rat) [.atom (.tens sS), .atom (.tens sG), .atom (.tens sT)], .const 5]) = .ok r ∧
      eval I0 r = trace (K := Rat) (block I0) [[0, 6], [3, 9]] (1 / 2) [.atom (.tens sS), .atom (.tens sG), .atom (.tens sT)] + 5 := by
  obtain ⟨N, hN⟩ := closedShell_value_partial (K := Rat) I0 true [[0, 6], [3, 9]]
    (.sum none [.prod (1 / 2 : Rat) [.atom (.tens sS), .atom (.tens sG), .atom (.tens sT)], .const 5])
    (by
      intro f hf
      simp only [summands, List.mem_cons, List.not_mem_nil, or_false] at hf
      rcases hf with rfl | rfl
      · exact sample_ok
      · trivial)
  refine ⟨N, fun fuel hf => ?_⟩
  obtain ⟨r, h1, h2⟩ := hN fuel hf
  refine ⟨r, h1, h2.trans ?_⟩
  simp [summands, traceTerm, eval]

example : (closedProduct (K := Rat) true 40 [[0, 6], [3, 9]] (1 / 2) [.atom (.tens sS), .atom (.tens sG), .atom (.tens sT)]).map
      (eval (fun _ => (1 : Rat))) = .ok 4 := by decide +kernel

end SeQuant.Spins
