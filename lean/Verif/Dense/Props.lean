import Verif.Dense.Lemmas

/-!
# Results of the BTAS and TAPP backends (C87)

Arrays are described by an assignment `dim` of extents to labels. The product of two arrays is, element by
element, the sum over all values of the labels that are not in the result.
-/

namespace SeQuant.Dense

variable {K : Type}

/-- the array has the extents of its labels. -/
def Arr.Labelled (dim : Label → Nat) (ann : List Label) (a : Arr K) : Prop := a.WF ∧ a.ext = ann.map dim

/-- annotations of a product: no label twice in an array, each label of the result in an operand, each label
that is not in the result in both operands. -/
def ProductAnnot (la ra ca : List Label) : Prop :=
  la.Nodup ∧ ra.Nodup ∧ ca.Nodup ∧ (∀ l ∈ ca, l ∈ la ∨ l ∈ ra) ∧ (∀ l ∈ la, l ∉ ca → l ∈ ra) ∧ ∀ l ∈ ra, l ∉ ca → l ∈ la

instance (la ra ca : List Label) : Decidable (ProductAnnot la ra ca) := by unfold ProductAnnot; infer_instance

/-- values of labels within the extents. -/
def Below (dim : Label → Nat) (ann : List Label) (σ : Label → Nat) : Prop := ∀ l ∈ ann, σ l < dim l

/-- the labels that are summed. -/
def dummies (la ra ca : List Label) : Finset Label := (la.toFinset ∪ ra.toFinset) \ ca.toFinset

/-- the element of the product for given values of the labels of the result. -/
noncomputable def prodAt [CommSemiring K] (dim : Label → Nat) (a : Arr K) (la : List Label) (b : Arr K) (ra : List Label)
    (ca : List Label) (σ : Label → Nat) : K :=
  netSum dim (dummies la ra ca) σ fun ρ => a.at_ (la.map ρ) * b.at_ (ra.map ρ)

variable {dim : Label → Nat}

theorem netSum_dim [AddCommMonoid K] {dim' : Label → Nat} {S : Finset Label} (h : ∀ l ∈ S, dim l = dim' l) (σ : Label → Nat) (f : (Label → Nat) → K) :
    netSum dim S σ f = netSum dim' S σ f := by
  unfold netSum
  have : (S.pi fun l => Finset.range (dim l)) = S.pi fun l => Finset.range (dim' l) := by
    ext τ
    simp only [Finset.mem_pi, Finset.mem_range]
    exact ⟨fun hh l hl => h l hl ▸ hh l hl, fun hh l hl => (h l hl).symm ▸ hh l hl⟩
  rw [this]

theorem dimOf_eq {la ra : List Label} {l : Label} (h : l ∈ la ∨ l ∈ ra) : dimOf la (la.map dim) ra (ra.map dim) l = dim l := by
  unfold dimOf
  split
  · rename_i h; exact extentOf_map dim h
  · rename_i h'; exact extentOf_map dim (h.resolve_left h')

theorem mem_summed {la ra ca : List Label} : (summed la ra ca).toFinset = dummies la ra ca := by
  ext l; simp [summed, dummies, or_and_right]

theorem summed_nodup (la ra ca : List Label) : (summed la ra ca).Nodup := List.nodup_dedup _

/-- values of the labels of the result decide the element. -/
theorem prodAt_congr [CommSemiring K] {a b : Arr K} {la ra ca : List Label} {σ σ' : Label → Nat} (h : ∀ l ∈ ca, σ l = σ' l) :
    prodAt dim a la b ra ca σ = prodAt dim a la b ra ca σ' := by
  unfold prodAt
  apply netSum_congr
  intro ρ ρ' h1 h2
  have : ∀ l, l ∈ la ∨ l ∈ ra → ρ l = ρ' l := by
    intro l hl
    by_cases hc : l ∈ dummies la ra ca
    · exact (h2 l hc).2.symm
    · rw [(h1 l hc).1, (h1 l hc).2]
      apply h
      by_contra h3
      exact hc (by simp [dummies, hl, h3])
  rw [List.map_congr_left (g := ρ') fun l hl => this l (.inl hl), List.map_congr_left (l := ra) (g := ρ') fun l hl => this l (.inr hl)]

theorem product_eq [CommSemiring K] {a b : Arr K} {la ra ca : List Label} (ha : a.Labelled dim la) (hb : b.Labelled dim ra)
    (σ : Label → Nat) :
    sumOver (dimOf la a.ext ra b.ext) (summed la ra ca) (env ca (ca.map σ)) (fun ρ => a.at_ (la.map ρ) * b.at_ (ra.map ρ)) = prodAt dim a la b ra ca σ := by
  rw [sumOver_eq (summed_nodup _ _ _), mem_summed, ha.2, hb.2, netSum_dim (dim' := dim)]
  · exact prodAt_congr fun l hl => env_map σ hl
  · intro l hl
    apply dimOf_eq
    simp only [dummies, Finset.mem_sdiff, Finset.mem_union, List.mem_toFinset] at hl
    exact hl.1

theorem fits_left {la ra : List Label} : fits (dimOf la (la.map dim) ra (ra.map dim)) la (la.map dim) = true := by
  simp only [fits, decide_eq_true_eq]
  exact List.map_congr_left fun l hl => (dimOf_eq (.inl hl)).symm

theorem fits_right {la ra : List Label} : fits (dimOf la (la.map dim) ra (ra.map dim)) ra (ra.map dim) = true := by
  simp only [fits, decide_eq_true_eq]
  exact List.map_congr_left fun l hl => (dimOf_eq (.inr hl)).symm

theorem fits_result {la ra ca : List Label} (hc : ∀ l ∈ ca, l ∈ la ∨ l ∈ ra) : fits (dimOf la (la.map dim) ra (ra.map dim)) ca (ca.map dim) = true := by
  simp only [fits, decide_eq_true_eq]
  exact List.map_congr_left fun l hl => (dimOf_eq (hc l hl)).symm

/-- the outcome is an array with the right extents and elements. -/
def Yields [Zero K] (dim : Label → Nat) (ann : List Label) (r : Except Err (Arr K)) (f : (Label → Nat) → K) : Prop :=
  ∃ t, r = .ok t ∧ t.Labelled dim ann ∧ ∀ σ, Below dim ann σ → t.at_ (ann.map σ) = f σ

/-- what an outcome yields determines it. -/
theorem Yields.unique [Zero K] {ann : List Label} (hn : ann.Nodup) {r r' : Except Err (Arr K)} {f : (Label → Nat) → K}
    (h : Yields dim ann r f) (h' : Yields dim ann r' f) : r = r' := by
  obtain ⟨t, rfl, ht, hf⟩ := h
  obtain ⟨t', rfl, ht', hf'⟩ := h'
  congr 1
  refine Arr.ext_at ht.1 ht'.1 (ht.2.trans ht'.2.symm) fun x hx => ?_
  rw [ht.2] at hx
  have hl : x.length = ann.length := by simpa using hx.length
  have hb : Below dim ann (env ann x) := fun l hl => inRange_env hx hl
  have h1 := hf _ hb
  have h2 := hf' _ hb
  rw [map_env hn hl] at h1 h2
  rw [h1, h2]

theorem contractBtas_spec [CommSemiring K] {a b : Arr K} {la ra ca : List Label} (ha : a.Labelled dim la) (hb : b.Labelled dim ra)
    (hw : ProductAnnot la ra ca) (hx : ∀ l ∈ ca, l ∈ la → l ∉ ra) (α : K) :
    Yields dim ca (contractBtas α a la b ra ca) fun σ => α * prodAt dim a la b ra ca σ := by
  obtain ⟨h1, h2, h3, h4, h5, h6⟩ := hw
  have hg : contractBtas α a la b ra ca = .ok (gen (ca.map (dimOf la a.ext ra b.ext)) fun y =>
      α * sumOver (dimOf la a.ext ra b.ext) (summed la ra ca) (env ca y) (fun σ => a.at_ (la.map σ) * b.at_ (ra.map σ))) := by
    unfold contractBtas
    rw [if_pos]
    simp only [ha.2, hb.2, fits_left, fits_right, h1, h2, h3, decide_true, Bool.and_true, Bool.true_and, Bool.and_eq_true, List.all_eq_true, Bool.or_eq_true, List.contains_iff_mem]
    refine ⟨⟨fun l hl => ?_, fun l hl => ?_⟩, h4⟩
    · by_cases hc : l ∈ ca
      · simp [hc, hx l hc hl]
      · simp [hc, h5 l hl hc]
    · by_cases hc : l ∈ ca
      · have : l ∉ la := fun hl' => hx l hc hl' hl
        simp [hc, this]
      · simp [hc, h6 l hl hc]
  have he : ca.map (dimOf la a.ext ra b.ext) = ca.map dim := by
    rw [ha.2, hb.2]; exact List.map_congr_left fun l hl => dimOf_eq (h4 l hl)
  refine ⟨_, hg, ⟨gen_WF _ _, he⟩, fun σ hσ => ?_⟩
  rw [gen_at, product_eq ha hb]
  rw [he]; exact inRange_map hσ

theorem product_spec [CommSemiring K] [DecidableEq K] {a b c : Arr K} {la ra ca : List Label} (ha : a.Labelled dim la) (hb : b.Labelled dim ra)
    (hc : c.ext = ca.map dim) (h3 : ca.Nodup) (h4 : ∀ l ∈ ca, l ∈ la ∨ l ∈ ra) (α β : K) :
    Yields dim ca (product α a la b ra β c ca) fun σ => α * prodAt dim a la b ra ca σ + β * c.at_ (ca.map σ) := by
  have hg : product α a la b ra β c ca = .ok (gen c.ext fun y =>
      α * sumOver (dimOf la a.ext ra b.ext) (summed la ra ca) (env ca y) (fun σ => a.at_ (la.map σ) * b.at_ (ra.map σ))
        + if β ≠ 0 then β * c.at_ y else 0) := by
    unfold product
    rw [if_pos]
    simp only [ha.2, hb.2, hc, fits_left, fits_right, fits_result h4, h3, decide_true, Bool.and_true, Bool.true_and, List.all_eq_true, Bool.or_eq_true, List.contains_iff_mem]
    exact h4
  refine ⟨_, hg, ⟨gen_WF _ _, hc⟩, fun σ hσ => ?_⟩
  rw [gen_at, product_eq ha hb]
  · congr 1
    by_cases hβ : β = 0 <;> simp [hβ]
  · rw [hc]; exact inRange_map hσ

theorem findExtent_map {ann : List Label} {l : Label} (h : l ∈ ann) : findExtent ann (ann.map dim) l = some (dim l) := by
  unfold findExtent
  induction ann with
  | nil => cases h
  | cons a ann ih =>
    simp only [List.map_cons, List.zip_cons_cons, List.find?_cons]
    by_cases hl : a = l
    · simp [hl]
    · have : (a == l) = false := by simpa using hl
      simp only [this]
      exact ih (by simpa [Ne.symm hl] using h)

theorem findExtent_none {ann : List Label} {ext : List Nat} {l : Label} (h : l ∉ ann) : findExtent ann ext l = none := by
  unfold findExtent
  rw [Option.map_eq_none_iff, List.find?_eq_none]
  intro p hp hpl
  have := (List.of_mem_zip hp).1
  simp only [beq_iff_eq] at hpl
  exact h (hpl ▸ this)

theorem computeResultExtents_spec {a b : Arr K} {la ra : List Label} (ha : a.ext = la.map dim) (hb : b.ext = ra.map dim) :
    ∀ {ca : List Label}, (∀ l ∈ ca, l ∈ la ∨ l ∈ ra) → computeResultExtents a la b ra ca = .ok (ca.map dim)
  | [], _ => rfl
  | l :: ca, h => by
    have : (findExtent la a.ext l).or (findExtent ra b.ext l) = some (dim l) := by
      by_cases hl : l ∈ la
      · rw [ha, findExtent_map hl]; rfl
      · rw [findExtent_none hl, hb, findExtent_map ((h l (by simp)).resolve_left hl)]; rfl
    unfold computeResultExtents
    rw [this]
    simp only
    rw [computeResultExtents_spec ha hb fun k hk => h k (by simp [hk])]; rfl

theorem contractTapp_spec [CommSemiring K] [DecidableEq K] {a b : Arr K} {la ra ca : List Label} (ha : a.Labelled dim la) (hb : b.Labelled dim ra)
    (h3 : ca.Nodup) (h4 : ∀ l ∈ ca, l ∈ la ∨ l ∈ ra) (α : K) :
    Yields dim ca (contractTapp α a la b ra 0 emptyArr ca) fun σ => α * prodAt dim a la b ra ca σ := by
  have : contractTapp α a la b ra 0 emptyArr ca = product α a la b ra 0 ⟨ca.map dim, List.replicate (volume (ca.map dim)) 0⟩ ca := by
    unfold contractTapp
    rw [if_pos (by simp [emptyArr]), computeResultExtents_spec ha.2 hb.2 h4]; rfl
  rw [this]
  obtain ⟨t, h, h', hf⟩ := product_spec (c := ⟨ca.map dim, List.replicate (volume (ca.map dim)) (0 : K)⟩) ha hb rfl h3 h4 α 0
  exact ⟨t, h, h', fun σ hσ => by rw [hf σ hσ]; simp⟩

/-- accumulation into an array that is there already. -/
theorem contractTapp_accumulate [CommSemiring K] [DecidableEq K] {a b c : Arr K} {la ra ca : List Label} (ha : a.Labelled dim la) (hb : b.Labelled dim ra)
    (hc : c.Labelled dim ca) (hne : c.data ≠ []) (h3 : ca.Nodup) (h4 : ∀ l ∈ ca, l ∈ la ∨ l ∈ ra) (α β : K) :
    Yields dim ca (contractTapp α a la b ra β c ca) fun σ => α * prodAt dim a la b ra ca σ + β * c.at_ (ca.map σ) := by
  have : contractTapp α a la b ra β c ca = product α a la b ra β c ca := by
    unfold contractTapp
    rw [if_neg (by simpa using hne)]
  rw [this]
  exact product_spec ha hb hc.2 h3 h4 α β

theorem permuteBtas_spec [Zero K] {a : Arr K} {si di : List Label} (ha : a.Labelled dim si) (hn : si.Nodup) (hp : si.Perm di) :
    Yields dim di (permuteBtas a si di) fun σ => a.at_ (si.map σ) := by
  have he : di.map (extentOf si a.ext) = di.map dim := by
    rw [ha.2]; exact List.map_congr_left fun l hl => extentOf_map dim (hp.mem_iff.2 hl)
  have hg : permuteBtas a si di = .ok (gen (di.map (extentOf si a.ext)) fun y => a.at_ (si.map (env di y))) := by
    unfold permuteBtas
    rw [if_pos ⟨by rw [ha.2]; simp, hn, hp⟩]
  refine ⟨_, hg, ⟨gen_WF _ _, he⟩, fun σ hσ => ?_⟩
  rw [gen_at]
  · rw [List.map_congr_left fun l hl => env_map σ (hp.mem_iff.1 hl)]
  · rw [he]; exact inRange_map hσ

theorem scalarArr_at [CommSemiring K] : (⟨[], [1]⟩ : Arr K).at_ [] = 1 := rfl

theorem permuteTapp_spec [CommSemiring K] [DecidableEq K] {a : Arr K} {si di : List Label} (ha : a.Labelled dim si) (hn : si.Nodup) (hp : si.Perm di) :
    Yields dim di (permuteTapp a si di) fun σ => a.at_ (si.map σ) := by
  have hl : si.length = a.ext.length := by rw [ha.2]; simp
  have he : (di.map fun l => (findExtent si a.ext l).getD 0) = di.map dim := by
    rw [ha.2]
    exact List.map_congr_left fun l hl => by rw [findExtent_map (hp.mem_iff.2 hl)]; rfl
  have : permuteTapp a si di = product 1 a si ⟨[], [1]⟩ [] 0 ⟨di.map dim, List.replicate (volume (di.map dim)) 0⟩ di := by
    unfold permuteTapp
    rw [if_pos ⟨hl, hp.length_eq ▸ hl⟩]
    simp only [he]
  rw [this]
  obtain ⟨t, h, h', hf⟩ := product_spec (c := ⟨di.map dim, List.replicate (volume (di.map dim)) (0 : K)⟩) (b := ⟨[], [1]⟩) (ra := []) ha ⟨rfl, rfl⟩ rfl
    (hp.nodup_iff.1 hn) (fun l hl => .inl (hp.mem_iff.2 hl)) 1 0
  refine ⟨t, h, h', fun σ hσ => ?_⟩
  rw [hf σ hσ]
  have hd : dummies si [] di = ∅ := by
    ext l
    simp [dummies]
    exact fun hh => hp.mem_iff.1 hh
  simp [prodAt, hd, netSum_empty, scalarArr_at]

theorem foldl_add_eq [AddCommMonoid K] (l : List K) : ∀ c : K, l.foldl (· + ·) c = c + l.sum := by
  induction l with
  | nil => simp
  | cons a l ih => intro c; simp [ih, add_assoc]

theorem data_at [Zero K] {a : Arr K} {k : Nat} (hk : k < a.ext.prod) : a.data.getD k 0 = a.at_ (unravel a.ext k) := by
  rw [Arr.at_, offset_unravel _ hk]

theorem dot_spec [CommSemiring K] {a b : Arr K} {ann : List Label} (ha : a.Labelled dim ann) (hb : b.Labelled dim ann) (hn : ann.Nodup) (σ : Label → Nat) :
    dot a b = .ok (netSum dim ann.toFinset σ fun ρ => a.at_ (ann.map ρ) * b.at_ (ann.map ρ)) := by
  unfold dot
  rw [if_pos (ha.2.trans hb.2.symm)]
  congr 1
  rw [foldl_add_eq, zero_add, ← sum_positions hn σ fun x => a.at_ x * b.at_ x]
  have hla : a.data.length = (ann.map dim).prod := ha.2 ▸ ha.1
  have hlb : b.data.length = (ann.map dim).prod := hb.2 ▸ hb.1
  have : List.zipWith (· * ·) a.data b.data = (List.range (ann.map dim).prod).map fun k => a.data.getD k 0 * b.data.getD k 0 := by
    apply List.ext_getElem
    · simp [hla, hlb]
    · intro i h1 h2
      have hi : i < (ann.map dim).prod := by simpa using h2
      simp [List.getElem?_eq_getElem (show i < a.data.length by omega), List.getElem?_eq_getElem (show i < b.data.length by omega)]
  rw [this, list_range_sum]
  apply Finset.sum_congr rfl
  intro k hk
  rw [Finset.mem_range] at hk
  rw [data_at (by rw [ha.2]; exact hk), data_at (by rw [hb.2]; exact hk), ha.2, hb.2]

end SeQuant.Dense
