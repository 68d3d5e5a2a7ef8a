import Verif.Dense.Batched

/-!
# Operations on results (C87)
-/

namespace SeQuant.Dense

variable {K : Type} {dim : Label → Nat}

/-- the outcome is an array result with the right extents and elements. -/
def YieldsRes [Zero K] (dim : Label → Nat) (ann : List Label) (r : Except Err (Res K)) (f : (Label → Nat) → K) : Prop :=
  ∃ t, r = .ok (.tensor t) ∧ t.Labelled dim ann ∧ ∀ σ, Below dim ann σ → t.at_ (ann.map σ) = f σ

theorem Yields.res [Zero K] {ann : List Label} {r : Except Err (Arr K)} {f : (Label → Nat) → K} (h : Yields dim ann r f) :
    YieldsRes dim ann (r.map .tensor) f := by
  obtain ⟨t, rfl, h1, h2⟩ := h
  exact ⟨t, rfl, h1, h2⟩

theorem YieldsRes.unique [Zero K] {ann : List Label} (hn : ann.Nodup) {r r' : Except Err (Res K)} {f : (Label → Nat) → K}
    (h : YieldsRes dim ann r f) (h' : YieldsRes dim ann r' f) : r = r' := by
  obtain ⟨t, rfl, h1, h2⟩ := h
  obtain ⟨t', rfl, h1', h2'⟩ := h'
  have := Yields.unique hn (r := .ok t) (r' := .ok t') ⟨t, rfl, h1, h2⟩ ⟨t', rfl, h1', h2'⟩
  rw [Except.ok.inj this]

section
variable [CommSemiring K] {a b : Arr K} {la ra ca : List Label}

/-- **Product of arrays with BTAS.** -/
theorem prodBtas_tensor (ha : a.Labelled dim la) (hb : b.Labelled dim ra) (hw : ProductAnnot la ra ca) (hne : ca ≠ []) :
    YieldsRes dim ca (prodBtas (.tensor a) (.tensor b) la ra ca) (prodAt dim a la b ra ca) := by
  unfold prodBtas
  simp only [if_neg hne]
  split
  · have := (batchedContract_spec ha hb hw 1).res
    simpa only [one_mul] using this
  · rename_i h
    have hx : ∀ l ∈ ca, l ∈ la → l ∉ ra := by
      intro l h1 h2 h3
      have : l ∈ batchIndices la ra ca := mem_batch.2 ⟨h1, h2, h3⟩
      simp only [ne_eq, not_not] at h
      rw [h] at this; cases this
    have := (contractBtas_spec ha hb hw hx 1).res
    simpa only [one_mul] using this

theorem perm_of_full (hw : ProductAnnot la ra []) : ra.Perm la := by
  obtain ⟨h1, h2, -, -, h5, h6⟩ := hw
  rw [List.perm_ext_iff_of_nodup h2 h1]
  exact fun l => ⟨fun h => h6 l h (by simp), fun h => h5 l h (by simp)⟩

theorem dot_full (ha : a.Labelled dim la) {r : Arr K} (hr : r.Labelled dim la) (he : ∀ σ, Below dim la σ → r.at_ (la.map σ) = b.at_ (ra.map σ))
    (hw : ProductAnnot la ra []) (σ : Label → Nat) : dot a r = .ok (prodAt dim a la b ra [] σ) := by
  rw [dot_spec ha hr hw.1 σ]
  congr 1
  have hS : dummies la ra [] = la.toFinset := by
    ext x
    simp only [dummies, List.toFinset_nil, Finset.sdiff_empty, Finset.mem_union, List.mem_toFinset, (perm_of_full hw).mem_iff, or_self]
  unfold prodAt
  rw [hS]
  apply netSum_congr
  intro ρ ρ' h1 h2
  have heq : ρ = ρ' := by
    funext x
    by_cases hx : x ∈ la.toFinset
    · exact (h2 x hx).2.symm
    · rw [(h1 x hx).1, (h1 x hx).2]
  rw [he ρ fun l hl => (h2 l (by simpa using hl)).1, heq]

/-- **Full contraction with BTAS.** -/
theorem prodBtas_full (ha : a.Labelled dim la) (hb : b.Labelled dim ra) (hw : ProductAnnot la ra []) (σ : Label → Nat) :
    prodBtas (.tensor a) (.tensor b) la ra [] = .ok (.scalar (prodAt dim a la b ra [] σ)) := by
  obtain ⟨r, hr, hrl, hre⟩ := permuteBtas_spec hb hw.2.1 (perm_of_full hw)
  simp only [prodBtas, if_true, hr, bind, Except.bind]
  rw [dot_full ha hrl hre hw σ]; rfl

/-- **Product of arrays with TAPP.** -/
theorem prodTapp_tensor [DecidableEq K] (ha : a.Labelled dim la) (hb : b.Labelled dim ra) (h3 : ca.Nodup) (h4 : ∀ l ∈ ca, l ∈ la ∨ l ∈ ra) (hne : ca ≠ []) :
    YieldsRes dim ca (prodTapp (.tensor a) (.tensor b) la ra ca) (prodAt dim a la b ra ca) := by
  unfold prodTapp
  simp only [if_neg hne]
  have := (contractTapp_spec ha hb h3 h4 1).res
  simpa only [one_mul] using this

/-- **Full contraction with TAPP.** -/
theorem prodTapp_full [DecidableEq K] (ha : a.Labelled dim la) (hb : b.Labelled dim ra) (hw : ProductAnnot la ra []) (σ : Label → Nat) :
    prodTapp (.tensor a) (.tensor b) la ra [] = .ok (.scalar (prodAt dim a la b ra [] σ)) := by
  obtain ⟨r, hr, hrl, hre⟩ := permuteTapp_spec hb hw.2.1 (perm_of_full hw)
  simp only [prodTapp, if_true, hr, bind, Except.bind]
  rw [dot_full ha hrl hre hw σ]; rfl

/-- **Both backends give the same products.** -/
theorem prod_agree [DecidableEq K] (ha : a.Labelled dim la) (hb : b.Labelled dim ra) (hw : ProductAnnot la ra ca) :
    prodBtas (.tensor a) (.tensor b) la ra ca = prodTapp (.tensor a) (.tensor b) la ra ca := by
  by_cases hne : ca = []
  · subst hne
    rw [prodBtas_full ha hb hw fun _ => 0, prodTapp_full ha hb hw fun _ => 0]
  · exact (prodBtas_tensor ha hb hw hne).unique hw.2.2.1 (prodTapp_tensor ha hb hw.2.2.1 hw.2.2.2.1 hne)

/-- **The product does not depend on the order of the operands.** -/
theorem prodBtas_comm (ha : a.Labelled dim la) (hb : b.Labelled dim ra) (hw : ProductAnnot la ra ca) :
    prodBtas (.tensor a) (.tensor b) la ra ca = prodBtas (.tensor b) (.tensor a) ra la ca := by
  have hw' : ProductAnnot ra la ca := ⟨hw.2.1, hw.1, hw.2.2.1, fun l hl => (hw.2.2.2.1 l hl).symm, hw.2.2.2.2.2, hw.2.2.2.2.1⟩
  have he : prodAt dim a la b ra ca = prodAt dim b ra a la ca := by
    funext σ
    unfold prodAt
    rw [show dummies la ra ca = dummies ra la ca by unfold dummies; rw [Finset.union_comm]]
    simp only [mul_comm]
  by_cases hne : ca = []
  · subst hne
    rw [prodBtas_full ha hb hw fun _ => 0, prodBtas_full hb ha hw' fun _ => 0, he]
  · exact (prodBtas_tensor ha hb hw hne).unique hw.2.2.1 (he ▸ prodBtas_tensor hb ha hw' hne)

theorem scal_yields {p : Except Err (Arr K)} {f : (Label → Nat) → K} (h : Yields dim ca p f) (v : K) :
    YieldsRes dim ca (p.map fun t => .tensor (scal v t)) fun σ => v * f σ := by
  obtain ⟨t, rfl, h1, h2⟩ := h
  obtain ⟨h3, h4⟩ := scal_spec h1 v
  exact ⟨_, rfl, h3, fun σ hσ => by rw [h4, h2 σ hσ, mul_comm]⟩

/-- **Products with numbers**, on either side. -/
theorem prodBtas_number (ha : a.Labelled dim la) (hn : la.Nodup) (hp : la.Perm ca) (v : K) (ra : List Label) :
    YieldsRes dim ca (prodBtas (.tensor a) (.scalar v) la ra ca) (fun σ => v * a.at_ (la.map σ)) ∧
    YieldsRes dim ca (prodBtas (.scalar v) (.tensor a) ra la ca) (fun σ => v * a.at_ (la.map σ)) :=
  ⟨scal_yields (permuteBtas_spec ha hn hp) v, scal_yields (permuteBtas_spec ha hn hp) v⟩

theorem prodTapp_number [DecidableEq K] (ha : a.Labelled dim la) (hn : la.Nodup) (hp : la.Perm ca) (v : K) (ra : List Label) :
    YieldsRes dim ca (prodTapp (.tensor a) (.scalar v) la ra ca) (fun σ => v * a.at_ (la.map σ)) ∧
    YieldsRes dim ca (prodTapp (.scalar v) (.tensor a) ra la ca) (fun σ => v * a.at_ (la.map σ)) :=
  ⟨scal_yields (permuteTapp_spec ha hn hp) v, scal_yields (permuteTapp_spec ha hn hp) v⟩

theorem prod_numbers [DecidableEq K] (u v : K) : prodBtas (.scalar u) (.scalar v) la ra ca = .ok (.scalar (u * v)) ∧
    prodTapp (.scalar u) (.scalar v) la ra ca = .ok (.scalar (u * v)) := ⟨rfl, rfl⟩

theorem addArr_spec {t s : Arr K} {ann : List Label} (ht : t.Labelled dim ann) (hs : s.Labelled dim ann) :
    Yields dim ann (addArr t s) fun σ => t.at_ (ann.map σ) + s.at_ (ann.map σ) := by
  have h1 : t.data.length = (ann.map dim).prod := ht.2 ▸ ht.1
  have h2 : s.data.length = (ann.map dim).prod := hs.2 ▸ hs.1
  refine ⟨⟨t.ext, List.zipWith (· + ·) t.data s.data⟩, ?_, ⟨?_, ht.2⟩, fun σ hσ => ?_⟩
  · unfold addArr; rw [if_pos (ht.2.trans hs.2.symm)]
  · simp [Arr.WF, h1, h2, ht.2]
  · have ho := offset_lt (inRange_map hσ)
    simp only [Arr.at_, ht.2, hs.2, List.getD_eq_getElem?_getD, List.getElem?_zipWith,
      List.getElem?_eq_getElem (show _ < t.data.length by rw [h1]; exact ho), List.getElem?_eq_getElem (show _ < s.data.length by rw [h2]; exact ho)]
    rfl

/-- a permutation of arrays that does what it should. -/
def Permutes (permute : Arr K → List Label → List Label → Except Err (Arr K)) : Prop :=
  ∀ (dim : Label → Nat) (a : Arr K) (si di : List Label), a.Labelled dim si → si.Nodup → si.Perm di → Yields dim di (permute a si di) fun σ => a.at_ (si.map σ)

theorem permutes_btas : Permutes (permuteBtas (K := K)) := fun _ _ _ _ => permuteBtas_spec

theorem permutes_tapp [DecidableEq K] : Permutes (permuteTapp (K := K)) := fun _ _ _ _ => permuteTapp_spec

variable {permute : Arr K → List Label → List Label → Except Err (Arr K)}

/-- **Sums of arrays.** -/
theorem sumWith_spec (hpm : Permutes permute) (ha : a.Labelled dim la) (hb : b.Labelled dim ra) (hl : la.Nodup) (hr : ra.Nodup) (hlc : la.Perm ca) (hrc : ra.Perm ca) :
    YieldsRes dim ca (sumWith permute (.tensor a) (.tensor b) la ra ca) fun σ => a.at_ (la.map σ) + b.at_ (ra.map σ) := by
  obtain ⟨t, ht, h1, h2⟩ := hpm dim a la ca ha hl hlc
  obtain ⟨s, hs, h3, h4⟩ := hpm dim b ra ca hb hr hrc
  have h5 := (addArr_spec h1 h3).res
  simp only [sumWith, ht, hs, bind, Except.bind]
  obtain ⟨u, h6, h7, h8⟩ := h5
  beta_reduce at h2 h4 h8
  exact ⟨u, h6, h7, fun σ hσ => by rw [h8 σ hσ, h2 σ hσ, h4 σ hσ]⟩

/-- sums of a number and an array are refused. -/
theorem sumWith_mixed (v : K) : sumWith permute (.scalar v) (.tensor a) la ra ca = .error .invalidOperand ∧
    sumWith permute (.tensor a) (.scalar v) la ra ca = .error .assertion := ⟨rfl, rfl⟩

/-- **Permutations of arrays.** -/
theorem permuteWith_spec (hpm : Permutes permute) (ha : a.Labelled dim la) (hl : la.Nodup) (hp : la.Perm ca) :
    YieldsRes dim ca (permuteWith permute (.tensor a) la ca) fun σ => a.at_ (la.map σ) := (hpm dim a la ca ha hl hp).res

/-- **Adjoints of arrays.** -/
theorem adjointWith_spec (hpm : Permutes permute) (conj : K → K) (h0 : conj 0 = 0) (ha : a.Labelled dim la) (hl : la.Nodup) (hp : la.Perm ca) :
    YieldsRes dim ca (adjointWith permute conj (.tensor a) la ca) fun σ => conj (a.at_ (la.map σ)) := by
  obtain ⟨t, ht, h1, h2⟩ := hpm dim a la ca ha hl hp
  simp only [adjointWith, ht]
  beta_reduce at h2
  refine ⟨_, rfl, ⟨by simpa [Arr.WF] using h1.1, h1.2⟩, fun σ hσ => ?_⟩
  beta_reduce
  rw [← h2 σ hσ]
  simp only [Arr.at_, List.getD_eq_getElem?_getD, List.getElem?_map]
  cases t.data[offset (strides t.ext) (ca.map σ)]? <;> simp [h0]

/-- **The adjoint of the adjoint is the array.** -/
theorem adjointWith_twice (hpm : Permutes permute) (conj : K → K) (h0 : conj 0 = 0) (hi : ∀ x, conj (conj x) = x) (ha : a.Labelled dim la)
    (hl : la.Nodup) (hp : la.Perm ca) :
    (adjointWith permute conj (.tensor a) la ca).bind (fun r => adjointWith permute conj r ca la) = .ok (.tensor a) := by
  obtain ⟨t, ht, h1, h2⟩ := adjointWith_spec hpm conj h0 ha hl hp
  rw [ht]
  have h3 := adjointWith_spec hpm conj h0 h1 (hp.nodup_iff.1 hl) hp.symm
  refine YieldsRes.unique hl (f := fun σ => a.at_ (la.map σ)) ?_ ⟨a, rfl, ha, fun _ _ => rfl⟩
  obtain ⟨s, hs, h4, h5⟩ := h3
  beta_reduce at h2 h5
  exact ⟨s, hs, h4, fun σ hσ => by rw [h5 σ hσ, h2 σ fun l hl => hσ l (hp.mem_iff.2 hl), hi]⟩

/-- **Phases.** -/
theorem multByPhase_spec (ha : a.Labelled dim la) (p : K) : ∃ t, multByPhase p (.tensor a) = .tensor t ∧ t.Labelled dim la ∧ ∀ x, t.at_ x = a.at_ x * p :=
  ⟨_, rfl, scal_spec ha p⟩

/-- Numbers are multiplied as well. -/
theorem multByPhase_scalar (v p : K) : multByPhase p (.scalar v) = .scalar (v * p) := rfl

/-- **Adding in place.** -/
theorem addInplace_spec (ha : a.Labelled dim la) (hb : b.Labelled dim la) :
    YieldsRes dim la (addInplace (.tensor a) (.tensor b)) fun σ => a.at_ (la.map σ) + b.at_ (la.map σ) := (addArr_spec ha hb).res

/-- arrays of different extents are not added. -/
theorem addInplace_refuses (h : a.ext ≠ b.ext) : addInplace (.tensor a) (.tensor b) = .error .assertion := by
  simp only [addInplace, addArr, if_neg h]; rfl

/-- with TAPP a number times an array cannot drop labels: traces are refused. -/
theorem prodTapp_trace [DecidableEq K] (h : ca.length ≠ a.ext.length) (v : K) : prodTapp (.tensor a) (.scalar v) la ra ca = .error .assertion := by
  simp only [prodTapp, permuteTapp]
  rw [if_neg (fun hh => h hh.2)]; rfl

end

/-- **Sizes.** The size that the BTAS backend reports is right only if an array object is as large as a
number, or the array is empty. -/
theorem sizeBtas_right_iff (sizeofArr sizeofNum : Nat) {a : Arr K} (ha : a.WF) :
    sizeBtas sizeofArr a = a.data.length * sizeofNum ↔ a.data = [] ∨ sizeofArr = sizeofNum := by
  unfold sizeBtas
  rw [volume_eq, ← ha]
  rcases a.data with _ | ⟨x, l⟩
  · simp
  · simp

/-- **A label that only one operand has must be in the result.** Otherwise BTAS takes the first element
where TAPP sums. -/
theorem lonely_label : ∃ (a b : Arr Int) (la ra ca : List Label) (dim : Label → Nat), a.Labelled dim la ∧ b.Labelled dim ra ∧
    la.Nodup ∧ ra.Nodup ∧ ca.Nodup ∧ (∀ l ∈ ca, l ∈ la ∨ l ∈ ra) ∧ ca ≠ [] ∧
    (∃ t s, prodBtas (.tensor a) (.tensor b) la ra ca = .ok (.tensor t) ∧ prodTapp (.tensor a) (.tensor b) la ra ca = .ok (.tensor s) ∧ t ≠ s) := by
  refine ⟨⟨[2], [1, 2]⟩, ⟨[2, 2], [3, 4, 5, 6]⟩, [1], [1, 2], [1], fun _ => 2, ⟨rfl, rfl⟩, ⟨rfl, rfl⟩, by decide, by decide, by decide, by decide, by decide,
    ⟨[2], [3, 10]⟩, ⟨[2], [7, 22]⟩, by decide +kernel, by decide +kernel, by decide⟩

/-! ### Examples -/

/-- extents of the labels of the examples. -/
def exDim : Label → Nat := fun l => if l = 7 then 2 else if l = 1 then 3 else if l = 2 then 2 else 1

def exA : Arr Int := ⟨[3, 2, 2], [1, 2, 3, 4, 5, 6, 7, 8, 9, 10, 11, 12]⟩
def exB : Arr Int := ⟨[2, 2], [1, -1, 2, 3]⟩

-- `a(1,7,2) b(2,7) → c(7,1)`: label 7 is a batch axis, label 2 is summed
example : ProductAnnot [1, 7, 2] [2, 7] [7, 1] ∧ batchIndices [1, 7, 2] [2, 7] [7, 1] = [7] := by decide
example : exA.Labelled exDim [1, 7, 2] ∧ exB.Labelled exDim [2, 7] := ⟨⟨rfl, rfl⟩, ⟨rfl, rfl⟩⟩
example : prodBtas (.tensor exA) (.tensor exB) [1, 7, 2] [2, 7] [7, 1] = .ok (.tensor ⟨[2, 3], [5, 17, 29, 9, 17, 25]⟩) := by decide +kernel
example : prodTapp (.tensor exA) (.tensor exB) [1, 7, 2] [2, 7] [7, 1] = .ok (.tensor ⟨[2, 3], [5, 17, 29, 9, 17, 25]⟩) := by decide +kernel
-- a plain contraction over both labels of `b`, and a full one
example : prodBtas (.tensor exA) (.tensor exB) [1, 7, 2] [2, 7] [1] = .ok (.tensor ⟨[3], [14, 34, 54]⟩) := by decide +kernel
example : prodBtas (.tensor exB) (.tensor exB) [2, 7] [7, 2] [] = .ok (.scalar 6) := by decide +kernel
-- the sum permutes both operands
example : sumWith permuteBtas (.tensor exB) (.tensor exB) [2, 7] [7, 2] [2, 7] = .ok (.tensor ⟨[2, 2], [2, 1, 1, 6]⟩) := by decide +kernel
example : strides [3, 2, 2] = [4, 2, 1] ∧ offset (strides [3, 2, 2]) [2, 0, 1] = 9 ∧ unravel [3, 2, 2] 9 = [2, 0, 1] := by decide

end SeQuant.Dense
