import Verif.Named.Lemmas

/-!
# External indices (C109)
-/

namespace SeQuant.Named

open SeQuant.Optimize

variable {ι : Type} [DecidableEq ι]

/-! ### Tensors -/

omit [DecidableEq ι] in
/-- **C109** (tensors): column `i` of bra and ket is group `i`; the auxiliary indices follow one by one. -/
theorem external_tensor (t : Ten ι) (h : t.kind = .other) : ∃ g, externalTensor t = .ok g ∧
    g.length = max t.bra.length t.ket.length + t.aux.length ∧
    (∀ i, i < max t.bra.length t.ket.length → g[i]? = some ((t.bra[i]?).toList.map (·, .bra) ++ (t.ket[i]?).toList.map (·, .ket))) ∧
    ∀ i, g[max t.bra.length t.ket.length + i]? = (t.aux[i]?).map fun x => [(x, .aux)] := by
  refine ⟨columns t.bra t.ket t.aux, by simp [externalTensor, h], by simp [columns_eq], fun i hi => ?_, fun i => ?_⟩
  · rw [columns_eq, List.getElem?_append_left (by simpa using hi), List.getElem?_map, List.getElem?_range hi]
    rfl
  · rw [columns_eq, List.getElem?_append_right (by simp only [List.length_map, List.length_range]; omega)]
    simp

omit [DecidableEq ι] in
/-- **C109** (antisymmetrizers): the external indices are those of the tensor with bra and ket exchanged, whether or not every index has a partner. -/
theorem external_antisymmetrizer (t : Ten ι) (h : t.kind = .antisymm) :
    externalTensor t = externalTensor ⟨.other, t.ket, t.bra, t.aux⟩ := by
  have hm : ((columns t.bra t.ket t.aux).take (max t.bra.length t.ket.length)).mapM (conjGroup false) =
      .ok ((List.range (max t.bra.length t.ket.length)).map (colAt t.ket t.bra)) := by
    rw [columns_take, List.mapM_map]
    exact mapM_ok _ _ _ fun i hi => conj_col false t.bra t.ket i (List.mem_range.mp hi) (Or.inl rfl)
  show (if t.kind = .other then _ else _) = _
  rw [if_neg (by simp [h])]
  have hd : decide (t.kind = .symm) = false := by simp [h]
  simp only [hd]
  rw [hm, columns_drop]
  simp only [externalTensor, if_true]
  rw [columns_eq, Nat.max_comm]
  rfl

omit [DecidableEq ι] in
/-- **C109** (column symmetrizers): likewise if every index has a partner; otherwise there is an exception. -/
theorem external_symmetrizer (t : Ten ι) (h : t.kind = .symm) : externalTensor t =
    if t.bra.length = t.ket.length then externalTensor ⟨.other, t.ket, t.bra, t.aux⟩ else .error .thrown := by
  show (if t.kind = .other then _ else _) = _
  rw [if_neg (by simp [h])]
  have hd : decide (t.kind = .symm) = true := by simp [h]
  simp only [hd]
  split
  · rename_i hl
    have hm : ((columns t.bra t.ket t.aux).take (max t.bra.length t.ket.length)).mapM (conjGroup true) =
        .ok ((List.range (max t.bra.length t.ket.length)).map (colAt t.ket t.bra)) := by
      rw [columns_take, List.mapM_map]
      exact mapM_ok _ _ _ fun i hi => conj_col true t.bra t.ket i (List.mem_range.mp hi) (Or.inr (by have := List.mem_range.mp hi; omega))
    rw [hm, columns_drop]
    simp only [externalTensor, if_true]
    rw [columns_eq, Nat.max_comm]
    rfl
  · rename_i hl
    have hm : ((columns t.bra t.ket t.aux).take (max t.bra.length t.ket.length)).mapM (conjGroup true) = .error .thrown := by
      rw [columns_take, List.mapM_map]
      refine mapM_error _ _ _ (fun i hi => ?_) ⟨min t.bra.length t.ket.length, List.mem_range.mpr (by omega), ?_⟩
      · by_cases hb : i < t.bra.length ∧ i < t.ket.length
        · exact Or.inr ⟨_, conj_col true t.bra t.ket i (List.mem_range.mp hi) (Or.inr hb)⟩
        · exact Or.inl (conj_col_unpaired t.bra t.ket i hb)
      · exact conj_col_unpaired t.bra t.ket _ (by omega)
    rw [hm]
    rfl

/-! ### Sums and products -/

/-- An expression that is a sum or a product. -/
def Compound : NExpr ι → Prop
  | .prod _ => True
  | .sum _ => True
  | _ => False

omit [DecidableEq ι] in
theorem externalIndices_compound [DecidableEq ι] (checks : Bool) (e : NExpr ι) (h : Compound e) : externalIndices checks e = externalExpr checks e := by
  cases e <;> first | rfl | exact absurd h (by simp [Compound])

/-- **C109** (symmetrized expressions): if all symmetrizers of a sum or product, at any depth, are the same, then its external indices are those of
the symmetrizer, whatever else there is and in whatever order. -/
theorem external_symmetrized (checks : Bool) (e : NExpr ι) (he : Compound e) (S : Ten ι) (hS : S.kind ≠ .other) (hm : .tensor S ∈ atoms e)
    (hu : ∀ t, .tensor t ∈ atoms e → t.kind ≠ .other → t = S) : externalIndices checks e = externalTensor S := by
  rw [externalIndices_compound checks e he, externalExpr, findSymm, foldSymm_some checks S hS _ none (Or.inl rfl) hu (Or.inr hm)]
  rfl

/-- **C109** (different symmetrizers): the assertion fails. -/
theorem external_two_symmetrizers (e : NExpr ι) (he : Compound e) (S T : Ten ι) (hS : S.kind ≠ .other) (hT : T.kind ≠ .other) (hne : S ≠ T)
    (hSm : .tensor S ∈ atoms e) (hTm : .tensor T ∈ atoms e) : externalIndices true e = .error .assertion := by
  rw [externalIndices_compound true e he, externalExpr, findSymm, foldSymm_two' S T hS hT hne _ hSm hTm]
  rfl

/-- A factor that is a scalar or a tensor. -/
def Flat : NExpr ι → Prop
  | .scalar => True
  | .tensor _ => True
  | _ => False

/-- The tensor of a factor; a scalar has no indices. -/
def groupsOf : NExpr ι → Groups ι
  | .tensor t => ⟨t.bra, t.ket, t.aux⟩
  | _ => ⟨[], [], []⟩

/-- All occurrences of indices in slots of the factors. -/
def occ : List (NExpr ι) → List (Slotted ι)
  | [] => []
  | .tensor t :: l => t.bra.map (·, .bra) ++ t.ket.map (·, .ket) ++ t.aux.map (·, .aux) ++ occ l
  | _ :: l => occ l

omit [DecidableEq ι] in
theorem occ_slotList (l : List (NExpr ι)) : occ l = ((l.map groupsOf).flatMap slotList).map fun p => (p.2, p.1) := by
  induction l with
  | nil => rfl
  | cons e l ih =>
    cases e <;> simp [occ, groupsOf, slotList, ih, Function.comp_def]

theorem uniq_flat (l : List (NExpr ι)) (h : ∀ e ∈ l, Flat e) :
    uniqExprs (toUL l) = some ((l.map groupsOf).map fun t => uniqTensor t.bra t.ket t.aux) := by
  induction l with
  | nil => rfl
  | cons e l ih =>
    have ih := ih fun e he => h e (by simp [he])
    cases e with
    | scalar => simp only [toUL, toU, uniqExprs, uniqExpr, ih]; rfl
    | tensor t => simp only [toUL, toU, uniqExprs, uniqExpr, ih]; rfl
    | ops m => exact (h (.ops m) (by simp)).elim
    | prod m => exact (h (.prod m) (by simp)).elim
    | sum m => exact (h (.sum m) (by simp)).elim

omit [DecidableEq ι] in
theorem atomsL_flat (l : List (NExpr ι)) (h : ∀ e ∈ l, Flat e) : atomsL l = l := by
  induction l with
  | nil => rfl
  | cons e l ih =>
    rw [atomsL, ih fun e he => h e (by simp [he])]
    cases e with
    | scalar => rfl
    | tensor t => rfl
    | ops m => rfl
    | prod m => exact (h (.prod m) (by simp)).elim
    | sum m => exact (h (.sum m) (by simp)).elim

/-- **C109** (products without symmetrizer): if no index occurs more than twice, exactly the indices that occur once are external, each in its slot
and each in one group; the groups pair the bra with the ket indices in order.  Missing: indices that occur more than twice (C33). -/
theorem external_product_partial (checks : Bool) (l : List (NExpr ι)) (hf : ∀ e ∈ l, Flat e) (hs : ∀ t, .tensor t ∈ l → t.kind = .other)
    (h2 : ∀ i, ((occ l).map Prod.fst).count i ≤ 2) : ∃ b k a, externalIndices checks (.prod l) = .ok (columns b k a) ∧
      (columns b k a).flatten.Nodup ∧
      ∀ i X, (i, X) ∈ (columns b k a).flatten ↔ (i, X) ∈ occ l ∧ ((occ l).map Prod.fst).count i = 1 := by
  have hocc : (occ l).map Prod.fst = ((l.map groupsOf).flatMap slotList).map Prod.snd := by rw [occ_slotList, List.map_map]; rfl
  have hmemocc : ∀ i X, (i, X) ∈ occ l ↔ (X, i) ∈ (l.map groupsOf).flatMap slotList := by
    intro i X
    rw [occ_slotList, List.mem_map]
    constructor
    · rintro ⟨p, hp, h⟩; cases h; exact hp
    · intro h; exact ⟨(X, i), h, rfl⟩
  have hg : ∀ X i, i ∈ (uniqProduct ((l.map groupsOf).map fun t => uniqTensor t.bra t.ket t.aux)).get X ↔
      (i, X) ∈ occ l ∧ ((occ l).map Prod.fst).count i = 1 := by
    intro X i
    have := uniqProduct_tensors_partial (l.map groupsOf) X i (by rw [← hocc]; exact h2 i)
    rw [hocc, hmemocc]
    exact this
  have hex : uniqProduct ((l.map groupsOf).map fun t => uniqTensor t.bra t.ket t.aux) =
      onceAll (((l.map groupsOf).map fun t => uniqTensor t.bra t.ket t.aux).flatMap slotList) := uniqProduct_exact _
  generalize hG : uniqProduct ((l.map groupsOf).map fun t => uniqTensor t.bra t.ket t.aux) = G at hg hex
  refine ⟨G.bra, G.ket, G.aux, ?_, ?_, ?_⟩
  · rw [externalIndices_compound checks _ (by simp [Compound]), externalExpr, findSymm]
    have : atoms (.prod l) = l := by rw [atoms, atomsL_flat l hf]
    rw [this, foldSymm_none checks l none hs]
    show (match uniqExpr (.prod (toUL l)) with | some g => _ | none => _) = _
    rw [uniqExpr, uniq_flat l hf, Option.map_some, hG]
  · rw [(columns_flatten _ _ _).nodup_iff]
    have hn : ∀ X, (G.get X).Nodup := by
      intro X
      rw [hex]
      cases X <;> exact onceIn_nodup _ _
    have nd : ∀ (X : Slot) (l' : List ι), l'.Nodup → (l'.map (·, X)).Nodup := fun X l' h => h.map fun _ _ hh => congrArg Prod.fst hh
    refine List.nodup_append.mpr ⟨nd _ _ (hn .bra), List.nodup_append.mpr ⟨nd _ _ (hn .ket), nd _ _ (hn .aux), ?_⟩, ?_⟩
    · intro x hx y hy
      obtain ⟨_, _, rfl⟩ := List.mem_map.mp hx
      obtain ⟨_, _, rfl⟩ := List.mem_map.mp hy
      simp
    · intro x hx y hy
      obtain ⟨_, _, rfl⟩ := List.mem_map.mp hx
      rcases List.mem_append.mp hy with hy | hy <;> obtain ⟨_, _, rfl⟩ := List.mem_map.mp hy <;> simp
  · intro i X
    rw [(columns_flatten _ _ _).mem_iff, ← hg X i]
    simp only [List.mem_append, List.mem_map, Prod.mk.injEq]
    cases X <;> simp [Groups.get]

/-- The indices in one kind of slot. -/
def inSlot (X : Slot) (g : List (Slotted ι)) : List ι := (g.filter fun x => decide (x.2 = X)).map Prod.fst

omit [DecidableEq ι] in
theorem inSlot_columns [DecidableEq ι] (b k a : List ι) : (inSlot .bra (columns b k a).flatten).Perm b ∧ (inSlot .ket (columns b k a).flatten).Perm k ∧
    (inSlot .aux (columns b k a).flatten).Perm a := by
  have h := columns_flatten b k a
  refine ⟨?_, ?_, ?_⟩
  all_goals
    refine ((h.filter _).map _).trans ?_
    simp [List.filter_append, List.filter_map, Function.comp_def]

/-- **C109** (a symmetrizer in front): if the bra of the symmetrizer has the external ket indices of the rest, its ket the external bra indices and
its aux the auxiliary ones, then the product with the symmetrizer has the same external indices in the same slots as the rest. -/
theorem external_symmetrizer_in_front (checks : Bool) (S : Ten ι) (hS : S.kind ≠ .other) (hp : S.bra.length = S.ket.length) (l : List (NExpr ι))
    (hs : ∀ t, .tensor t ∈ atomsL l → t.kind = .other) (g : List (List (Slotted ι))) (hg : externalIndices checks (.prod l) = .ok g)
    (hb : S.bra.Perm (inSlot .ket g.flatten)) (hk : S.ket.Perm (inSlot .bra g.flatten)) (ha : S.aux.Perm (inSlot .aux g.flatten)) :
    ∃ g', externalIndices checks (.prod (.tensor S :: l)) = .ok g' ∧ g'.flatten.Perm g.flatten := by
  have hg2 : ∃ b k a, g = columns b k a := by
    rw [externalIndices_compound checks _ (by simp [Compound]), externalExpr, findSymm] at hg
    rw [show atoms (.prod l) = atomsL l by rw [atoms], foldSymm_none checks _ none hs] at hg
    change (match uniqExpr (toU (.prod l)) with | some g => _ | none => _) = _ at hg
    cases hu : uniqExpr (toU (.prod l)) with
    | none => rw [hu] at hg; cases hg
    | some G => rw [hu] at hg; cases hg; exact ⟨_, _, _, rfl⟩
  obtain ⟨b, k, a, rfl⟩ := hg2
  obtain ⟨i1, i2, i3⟩ := inSlot_columns b k a
  refine ⟨columns S.ket S.bra S.aux, ?_, ?_⟩
  · rw [external_symmetrized checks (.prod (.tensor S :: l)) (by simp [Compound]) S hS (by simp [atoms, atomsL])]
    · cases hk' : S.kind with
      | other => exact absurd hk' hS
      | symm => rw [external_symmetrizer S hk', if_pos hp]; simp [externalTensor]
      | antisymm => rw [external_antisymmetrizer S hk']; simp [externalTensor]
    · intro t ht hne
      simp only [atoms, atomsL, List.singleton_append, List.mem_cons, NExpr.tensor.injEq] at ht
      rcases ht with ht | ht
      · exact ht
      · exact absurd (hs t ht) hne
  · refine (columns_flatten _ _ _).trans (List.Perm.trans ?_ (columns_flatten _ _ _).symm)
    exact ((hk.trans i1).map _).append (((hb.trans i2).map _).append ((ha.trans i3).map _))

/-! ### Groups -/

omit [DecidableEq ι] in
/-- **C109** (`get_bra_idx`, `get_ket_idx`, `as_index_group_view`): the bra and ket index of column `i` are found, an assertion fails exactly if
there is none, and the groups come in canonical order. -/
theorem group_access (b k a : List ι) (i : Nat) (hi : i < max b.length k.length) (g : List (Slotted ι)) (hg : (columns b k a)[i]? = some g) :
    getBra g = b[i]? ∧ getKet g = k[i]? ∧ groupView g = g.map Prod.fst := by
  rw [columns_eq, List.getElem?_append_left (by simpa using hi), List.getElem?_map, List.getElem?_range hi] at hg
  cases hg
  cases hb : b[i]? <;> cases hk : k[i]? <;> simp [colAt, hb, hk, getBra, getKet, groupView, slotRank]

omit [DecidableEq ι] in
/-- **C109** (`as_index_group_view`): any group is given bra indices first, then ket indices, then auxiliary ones, and each as often as it occurs. -/
theorem group_view (g : List (Slotted ι)) : ∃ g' : List (Slotted ι), groupView g = g'.map Prod.fst ∧ g'.Perm g ∧
    g'.Pairwise fun x y => (y.2 = .bra → x.2 = .bra) ∧ (x.2 = .aux → y.2 = .aux) := by
  refine ⟨g.insertionSort fun x y => slotRank x.2 ≤ slotRank y.2, rfl, List.perm_insertionSort _ _, ?_⟩
  have hp := List.pairwise_insertionSort (fun x y : Slotted ι => slotRank x.2 ≤ slotRank y.2) g
  refine hp.imp ?_
  rintro ⟨_, x⟩ ⟨_, y⟩ h
  cases x <;> cases y <;> simp_all [slotRank]

example : groupView [("x", Slot.aux), ("i", Slot.ket), ("a", Slot.bra)] = ["a", "i", "x"] := by decide +kernel

/-! ### Where the code deviates -/

/-- **C109 fails** for a single tensor with a repeated index: its trace has no external index, and as a product it has none, but as a tensor it is
said to have two. -/
theorem external_trace :
    externalIndices true (.tensor ⟨.other, ["i"], ["i"], []⟩) = .ok [[("i", .bra), ("i", .ket)]] ∧
    externalIndices true (.prod [.tensor ⟨.other, ["i"], ["i"], []⟩]) = .ok [] := by decide +kernel

/-- **C109 fails** for two empty slots (here `""`): they count as a repeated index, and a single one as an external one. -/
theorem external_empty_slots :
    externalIndices true (.prod [.tensor ⟨.other, ["i", ""], ["j", ""], []⟩]) = .ok [[("i", .bra), ("j", .ket)]] ∧
    externalIndices true (.prod [.tensor ⟨.other, ["i", "k"], ["j", ""], []⟩]) =
      .ok [[("i", .bra), ("j", .ket)], [("k", .bra), ("", .ket)]] := by decide +kernel

/-- Without assertions the last of two symmetrizers decides, so the order of the summands matters. -/
theorem external_last_symmetrizer :
    let A : NExpr String := .prod [.tensor ⟨.antisymm, ["i"], ["a"], []⟩, .tensor ⟨.other, ["a"], ["i"], []⟩]
    let B : NExpr String := .prod [.tensor ⟨.antisymm, ["j"], ["b"], []⟩, .tensor ⟨.other, ["b"], ["j"], []⟩]
    externalIndices false (.sum [A, B]) = .ok [[("b", .bra), ("j", .ket)]] ∧ externalIndices false (.sum [B, A]) = .ok [[("a", .bra), ("i", .ket)]] ∧
    externalIndices true (.sum [A, B]) = .error .assertion := by decide +kernel

/-! ### Examples -/

/-- A doubles residual with symmetrizer. -/
example : externalIndices true (.prod [.tensor ⟨.symm, ["i1", "i2"], ["a1", "a2"], []⟩, .scalar, .tensor ⟨.other, ["a1", "a2"], ["a3", "a4"], []⟩,
    .tensor ⟨.other, ["a3", "a4"], ["i1", "i2"], []⟩]) =
    .ok [[("a1", .bra), ("i1", .ket)], [("a2", .bra), ("i2", .ket)]] := by decide +kernel

/-- An antisymmetrizer that removes a particle; a column symmetrizer of this shape throws. -/
example : externalIndices true (.tensor ⟨.antisymm, ["i1", "i2"], ["a1"], []⟩) = .ok [[("a1", .bra), ("i1", .ket)], [("i2", .ket)]] ∧
    externalIndices true (.tensor ⟨.symm, ["i1", "i2"], ["a1"], []⟩) = .error .thrown := by decide +kernel

/-- The hypotheses of `external_symmetrizer_in_front` for `Ŝ g t`. -/
example : ∃ g', externalIndices true (.prod [.tensor ⟨.symm, ["i2", "i1"], ["a2", "a1"], []⟩, .tensor ⟨.other, ["a1", "a2"], ["a3", "a4"], []⟩,
    .tensor ⟨.other, ["a3", "a4"], ["i1", "i2"], []⟩]) = .ok g' ∧
    g'.flatten.Perm [("a1", .bra), ("i1", .ket), ("a2", .bra), ("i2", .ket)] :=
  external_symmetrizer_in_front true ⟨.symm, ["i2", "i1"], ["a2", "a1"], []⟩ (by decide) rfl
    [.tensor ⟨.other, ["a1", "a2"], ["a3", "a4"], []⟩, .tensor ⟨.other, ["a3", "a4"], ["i1", "i2"], []⟩]
    (by simp [atomsL, atoms]) [[("a1", .bra), ("i1", .ket)], [("a2", .bra), ("i2", .ket)]] (by decide +kernel) (by decide +kernel)
    (by decide +kernel) (by decide +kernel)

example : getBra [("a1", Slot.bra), ("i1", Slot.ket)] = some "a1" ∧ getKet [("i2", Slot.ket)] = some "i2" ∧ getBra [("i2", Slot.ket)] = none := by
  decide +kernel

end SeQuant.Named
