import Verif.Itf.Model
import Verif.Layout.Props

/-!
# Rewriting two-electron integrals for ITF (C96)
-/

namespace SeQuant.Itf

open SeQuant.Layout

/-- The symmetries of integrals over real orbitals: bra and ket of one particle may be exchanged, and the particles. -/
structure Eightfold {K : Type} (g : Idx → Idx → Idx → Idx → K) : Prop where
  /-- first particle -/
  first : ∀ a b c d, g a b c d = g c b a d
  /-- second particle -/
  second : ∀ a b c d, g a b c d = g a d c b
  /-- particles -/
  particles : ∀ a b c d, g a b c d = g b a d c

/-- The arrays of ITF: `K` has the order of the integrals (1 2|1 2), `J` the order (1 1|2 2). -/
def arrayOf {K : Type} (g : Idx → Idx → Idx → Idx → K) : Label → Idx → Idx → Idx → Idx → K
  | .J, p, q, r, s => g p r q s
  | .K, p, q, r, s => g p q r s

/-- The integral in terms of the indices of the particles. -/
def ofParticles {K : Type} (g : Idx → Idx → Idx → Idx → K) (p : Places) : K := g p.p11 p.p21 p.p12 p.p22

theorem arrayOf_ofPlaces {K : Type} (g : Idx → Idx → Idx → Idx → K) (l : Label) (p : Places) :
    arrayOf g l (ofPlaces l p).b0 (ofPlaces l p).b1 (ofPlaces l p).k0 (ofPlaces l p).k1 = ofParticles g p := by
  cases l <;> rfl

theorem polish_val {K : Type} {g : Idx → Idx → Idx → Idx → K} (hg : Eightfold g) (lt : Idx → Idx → Bool) (p : Places) :
    ofParticles g (polish lt p) = ofParticles g p := by
  have h1 : ∀ p : Places, ofParticles g (if p.p11.space = p.p12.space ∧ lt p.p12 p.p11 then ⟨p.p12, p.p11, p.p21, p.p22⟩ else p) = ofParticles g p := by
    intro p; split
    · exact hg.first _ _ _ _
    · rfl
  have h2 : ∀ p : Places, ofParticles g (if p.p21.space = p.p22.space ∧ lt p.p22 p.p21 then ⟨p.p11, p.p12, p.p22, p.p21⟩ else p) = ofParticles g p := by
    intro p; split
    · exact hg.second _ _ _ _
    · rfl
  have h3 : ∀ p : Places, ofParticles g (if p.p11.space = p.p21.space ∧ p.p12.space = p.p22.space then
      if lt p.p21 p.p11 ∨ (p.p11 = p.p21 ∧ lt p.p22 p.p12) then ⟨p.p21, p.p22, p.p11, p.p12⟩ else p else p) = ofParticles g p := by
    intro p; split
    · split
      · exact hg.particles _ _ _ _
      · rfl
    · rfl
  unfold polish
  simp only
  rw [h3, h2, h1]

theorem labelled_val {K : Type} (g : Idx → Idx → Idx → Idx → K) (size : Nat → Nat) (layout : MemLayout) (t : Four) :
    ofParticles g (toPlaces (labelled size layout t)) = g t.b0 t.b1 t.k0 t.k1 := by
  unfold labelled; split <;> rfl

theorem orderParticles_val {K : Type} {g : Idx → Idx → Idx → Idx → K} (hg : Eightfold g) (size : Nat → Nat) (layout : MemLayout) (t : Four) :
    g (orderParticles size layout t).b0 (orderParticles size layout t).b1 (orderParticles size layout t).k0 (orderParticles size layout t).k1 =
      g t.b0 t.b1 t.k0 t.k1 := by
  unfold orderParticles
  simp only
  split <;> split
  · simp only; rw [hg.second, hg.first]
  · simp only; rw [hg.first]
  · simp only; rw [hg.second]
  · rfl

theorem orderCols_val {K : Type} {g : Idx → Idx → Idx → Idx → K} (hg : Eightfold g) (size : Nat → Nat) (layout : MemLayout) (t : Four) :
    g (orderCols size layout t).b0 (orderCols size layout t).b1 (orderCols size layout t).k0 (orderCols size layout t).k1 = g t.b0 t.b1 t.k0 t.k1 := by
  unfold orderCols
  split
  · exact (hg.particles _ _ _ _)
  · rfl

/-- **The rewritten integral has the value of the integral**, if the integrals have their eight-fold symmetry. -/
theorem integral_value {K : Type} {g : Idx → Idx → Idx → Idx → K} (hg : Eightfold g) (lt : Idx → Idx → Bool) (size : Nat → Nat) (layout : MemLayout)
    (t : Four) :
    arrayOf g (integral lt size layout t).1 (integral lt size layout t).2.b0 (integral lt size layout t).2.b1 (integral lt size layout t).2.k0
      (integral lt size layout t).2.k1 = g t.b0 t.b1 t.k0 t.k1 := by
  unfold integral
  simp only
  rw [arrayOf_ofPlaces, polish_val hg, labelled_val, orderCols_val hg, orderParticles_val hg]

/-- Sizes: 10 occupied orbitals (space 0) and 30 virtual ones (space 1). -/
def exSize : Nat → Nat := fun s => if s = 0 then 10 else 30
/-- The order of indices by space and number. -/
def exLt (i j : Idx) : Bool := decide (i.space < j.space) || (decide (i.space = j.space) && decide (i.num < j.num))

/-- `g^{ia}_{jb}` becomes `J` of two virtual and two occupied indices, `g^{ab}_{ij}` becomes `K`. -/
example : integral exLt exSize .columnMajor ⟨⟨0, 1⟩, ⟨1, 1⟩, ⟨0, 2⟩, ⟨1, 2⟩⟩ = (.J, ⟨⟨1, 1⟩, ⟨1, 2⟩, ⟨0, 1⟩, ⟨0, 2⟩⟩) := by decide
example : integral exLt exSize .columnMajor ⟨⟨1, 2⟩, ⟨1, 1⟩, ⟨0, 2⟩, ⟨0, 1⟩⟩ = (.K, ⟨⟨1, 1⟩, ⟨1, 2⟩, ⟨0, 1⟩, ⟨0, 2⟩⟩) := by decide
/-- An integral with three virtual indices becomes `J`. -/
example : integral exLt exSize .columnMajor ⟨⟨0, 1⟩, ⟨1, 3⟩, ⟨1, 2⟩, ⟨1, 1⟩⟩ = (.J, ⟨⟨1, 1⟩, ⟨1, 3⟩, ⟨1, 2⟩, ⟨0, 1⟩⟩) := by decide
/-- There are integrals with the symmetry that are not constant. -/
example : ∃ g : Idx → Idx → Idx → Idx → Nat, Eightfold g ∧ g ⟨0, 1⟩ ⟨0, 1⟩ ⟨0, 2⟩ ⟨0, 2⟩ ≠ g ⟨0, 1⟩ ⟨0, 2⟩ ⟨0, 1⟩ ⟨0, 2⟩ := by
  refine ⟨fun a b c d => a.num * c.num + b.num * d.num, ⟨?_, ?_, ?_⟩, by decide⟩ <;> intros <;>
    simp only [Nat.mul_comm, Nat.add_comm]

/-- **The flags of the tensor are not consulted**: an array with column and bra-ket symmetry, but without symmetry for each particle
alone, does not keep its values, whatever arrays stand for `J` and `K`. -/
theorem integral_other_symmetry_fails :
    ∃ g : Idx → Idx → Idx → Idx → Int,
      (∀ a b c d, g a b c d = g b a d c) ∧ (∀ a b c d, g a b c d = g c d a b) ∧
      (∀ a b c d, g a b c d = -g b a c d) ∧
      ∃ t t' : Four, integral exLt exSize .columnMajor t = integral exLt exSize .columnMajor t' ∧ g t.b0 t.b1 t.k0 t.k1 ≠ g t'.b0 t'.b1 t'.k0 t'.k1 := by
  refine ⟨fun a b c d => ((a.num : Int) - b.num) * (c.num - d.num), fun a b c d => ?_, fun a b c d => ?_, fun a b c d => ?_,
    ⟨⟨0, 1⟩, ⟨0, 2⟩, ⟨0, 3⟩, ⟨0, 4⟩⟩, ⟨⟨0, 3⟩, ⟨0, 2⟩, ⟨0, 1⟩, ⟨0, 4⟩⟩, by decide, by decide⟩
  · simp only; rw [← Int.neg_sub (b.num : Int), ← Int.neg_sub (d.num : Int), Int.neg_mul_neg]
  · exact Int.mul_comm _ _
  · simp only; rw [← Int.neg_mul, Int.neg_sub]

/-! ### The flags that are kept fit the new arrays -/

/-- The array of a label as a function of bra, ket and auxiliary indices; elements with other ranks have value `z`. -/
def asTens {K : Type} (z : K) (f : Idx → Idx → Idx → Idx → K) : List Idx → List Idx → List Idx → K
  | [a, b], [c, d], [] => f a b c d
  | _, _, _ => z

theorem perm_pair {α : Type} {a b : α} {l : List α} (h : l.Perm [a, b]) : l = [a, b] ∨ l = [b, a] := by
  have hl := h.length_eq
  match l, hl with
  | [x, y], _ =>
    have hx : x ∈ [a, b] := h.mem_iff.1 (by simp)
    rcases List.mem_cons.1 hx with rfl | hx
    · left
      have h2 := (List.perm_cons x).1 h
      rw [List.perm_singleton] at h2
      rw [h2]
    · right
      have hx : x = b := by simpa using hx
      subst hx
      have h2 := (List.perm_cons x).1 (h.trans (List.Perm.swap x a []))
      rw [List.perm_singleton] at h2
      rw [h2]
  | [], hl => simp at hl
  | [_], hl => simp at hl
  | _ :: _ :: _ :: _, hl => simp at hl

theorem asTens_other {K : Type} {z : K} {f : Idx → Idx → Idx → Idx → K} {b k a : List Idx} (h : ¬(b.length = 2 ∧ k.length = 2 ∧ a = [])) :
    asTens z f b k a = z := by
  match b, k, a with
  | [_, _], [_, _], [] => exact absurd ⟨rfl, rfl, rfl⟩ h
  | [], _, _ => rfl
  | [_], _, _ => rfl
  | _ :: _ :: _ :: _, _, _ => rfl
  | [_, _], [], _ => rfl
  | [_, _], [_], _ => rfl
  | [_, _], _ :: _ :: _ :: _, _ => rfl
  | [_, _], [_, _], _ :: _ => rfl

/-- The symmetries of `J` and `K` that follow from those of the integrals. -/
theorem arrayOf_symm {K : Type} {g : Idx → Idx → Idx → Idx → K} (hg : Eightfold g) (l : Label) :
    (∀ a b c d, arrayOf g l a b c d = arrayOf g l b a d c) ∧ (∀ a b c d, arrayOf g l a b c d = arrayOf g l c d a b) ∧
      ((∀ a b c d, g a b c d = g b a c d) → (∀ a b c d, arrayOf g l a b c d = arrayOf g l b a c d) ∧
        ∀ a b c d, arrayOf g l a b c d = arrayOf g l a b d c) := by
  cases l
  · refine ⟨fun a b c d => ?_, fun a b c d => hg.particles _ _ _ _, fun _ => ⟨fun a b c d => hg.first _ _ _ _, fun a b c d => hg.second _ _ _ _⟩⟩
    simp only [arrayOf]; rw [hg.first, hg.second]
  · refine ⟨fun a b c d => hg.particles _ _ _ _, fun a b c d => ?_, fun hs => ⟨hs, fun a b c d => ?_⟩⟩
    · simp only [arrayOf]; rw [hg.first, hg.second]
    · simp only [arrayOf]; rw [hs, hg.particles]

/-- The arrays have the symmetries that the tensors `J` and `K` take over from the integral. -/
theorem symmetric_arrayOf {K : Type} {g : Idx → Idx → Idx → Idx → K} (hg : Eightfold g) (z : K) (l : Label) (sy : Symmetry) (bk : BraKet) (col : Bool)
    (hs : sy = .symm → ∀ a b c d, g a b c d = g b a c d) : Symmetric (asTens z (arrayOf g l)) sy bk col := by
  obtain ⟨h1, h2, h3⟩ := arrayOf_symm hg l
  constructor
  · intro e b b' k k' a hb hk
    obtain ⟨h4, h5⟩ := h3 (hs e)
    by_cases hc : b.length = 2 ∧ k.length = 2 ∧ a = []
    · obtain ⟨hb2, hk2, rfl⟩ := hc
      match b, k, hb2, hk2 with
      | [p, q], [r, s], _, _ =>
        rcases perm_pair hb with rfl | rfl <;> rcases perm_pair hk with rfl | rfl
        · rfl
        · exact h5 _ _ _ _
        · exact h4 _ _ _ _
        · exact (h4 _ _ _ _).trans (h5 _ _ _ _)
    · rw [asTens_other hc, asTens_other (by rw [hb.length_eq, hk.length_eq]; exact hc)]
  · intro _ w w' a hw
    by_cases hc : w.length = 2 ∧ a = []
    · obtain ⟨hw2, rfl⟩ := hc
      match w, hw2 with
      | [p, q], _ =>
        rcases perm_pair hw with rfl | rfl
        · rfl
        · exact h1 _ _ _ _
    · have hc' : ¬(w'.length = 2 ∧ a = []) := by rw [hw.length_eq]; exact hc
      rw [asTens_other (by simpa using hc'), asTens_other (by simpa using hc)]
  · intro _ b k a
    by_cases hc : b.length = 2 ∧ k.length = 2 ∧ a = []
    · obtain ⟨hb2, hk2, rfl⟩ := hc
      match b, k, hb2, hk2 with
      | [p, q], [r, s], _, _ => exact h2 _ _ _ _
    · rw [asTens_other hc, asTens_other (by tauto)]

/-- **Integrals are exported as arrays `J` and `K`**: there are two arrays such that the exported tensor, of either label and with its indices
in the order for the memory layout, has the value of the integral. -/
theorem rewrite_integrals {K : Type} [Inhabited K] {S : Sorters} (hS : S.Good) (lt : Idx → Idx → Bool) (size : Nat → Nat) (layout : MemLayout) (enabled : Bool)
    (sy : Symmetry) (bk : BraKet) (col : Bool) {g : Idx → Idx → Idx → Idx → K} (hg : Eightfold g)
    (hs : sy = .symm → ∀ a b c d, g a b c d = g b a c d) :
    ∃ W : Label → List Idx → K, ∀ b0 b1 k0 k1 : Idx, ∃ l,
      (rewrite S lt size layout enabled .integrals ⟨[b0, b1], [k0, k1], [], sy, bk, col⟩).1 = .made l ∧
      W l (rewrite S lt size layout enabled .integrals ⟨[b0, b1], [k0, k1], [], sy, bk, col⟩).2.1.indices = g b0 b1 k0 k1 := by
  have h := fun l => rewrite_array_partial (K := K) hS size layout enabled ⟨sy, bk, col, 2, 2, []⟩ (fun _ => rfl)
    (symmetric_arrayOf hg default l sy bk col hs)
  choose W hW using h
  refine ⟨W, fun b0 b1 k0 k1 => ⟨(integral lt size layout ⟨b0, b1, k0, k1⟩).1, rfl, ?_⟩⟩
  have := hW (integral lt size layout ⟨b0, b1, k0, k1⟩).1 ⟨[(integral lt size layout ⟨b0, b1, k0, k1⟩).2.b0, (integral lt size layout ⟨b0, b1, k0, k1⟩).2.b1],
    [(integral lt size layout ⟨b0, b1, k0, k1⟩).2.k0, (integral lt size layout ⟨b0, b1, k0, k1⟩).2.k1], [], sy, bk, col⟩
    ⟨rfl, rfl, rfl, rfl, rfl, rfl, by simp⟩
  refine this.trans ?_
  exact integral_value hg lt size layout ⟨b0, b1, k0, k1⟩

/-- Other tensors are only reordered. -/
theorem rewrite_others (S : Sorters) (lt : Idx → Idx → Bool) (size : Nat → Nat) (layout : MemLayout) (enabled : Bool) (n : Name) (t : Tens)
    (h : n ≠ .integrals ∨ t.bra.length ≠ 2 ∨ t.ket.length ≠ 2 ∨ t.aux ≠ []) :
    rewrite S lt size layout enabled n t = (n, rewritten S size layout enabled t, (Layout.rewrite S size layout enabled t).isSome) := by
  obtain ⟨b, k, a, sy, bk, col⟩ := t
  unfold rewrite
  split
  · rename_i h1 h2 h3
    simp only at h1 h2 h3
    subst h1 h2 h3
    simp at h
  · rfl

/-- Integrals are rewritten even when rewriting is switched off; only the order for the layout is then not made. -/
theorem rewrite_disabled (S : Sorters) (lt : Idx → Idx → Bool) (size : Nat → Nat) (layout : MemLayout) (b0 b1 k0 k1 : Idx) (sy : Symmetry) (bk : BraKet) (col : Bool) :
    ∃ l t, rewrite S lt size layout false .integrals ⟨[b0, b1], [k0, k1], [], sy, bk, col⟩ = (.made l, t, true) ∧ t.bra.length = 2 ∧ t.ket.length = 2 ∧ t.symm = sy :=
  ⟨_, _, rfl, rfl, rfl, rfl⟩

/-! ### One representation for all equivalent integrals -/

/-- The order of indices is a strict total order. -/
structure StrictTotal (lt : Idx → Idx → Bool) : Prop where
  irrefl : ∀ a, lt a a = false
  asymm : ∀ a b, lt a b = true → lt b a = false
  total : ∀ a b, a ≠ b → lt a b = true ∨ lt b a = true

/-- Different spaces among these indices have different sizes. -/
def SizesDiffer (size : Nat → Nat) (l : List Idx) : Prop := ∀ i ∈ l, ∀ j ∈ l, size i.space = size j.space → i.space = j.space

/-- itf.cpp:126-128 for one particle. -/
def pre (size : Nat → Nat) (layout : MemLayout) (p : Idx × Idx) : Idx × Idx := if nsw size layout p.1 p.2 then (p.2, p.1) else p
/-- itf.cpp:178-183 for one particle. -/
def polishPair (lt : Idx → Idx → Bool) (p : Idx × Idx) : Idx × Idx := if p.1.space = p.2.space ∧ lt p.2 p.1 then (p.2, p.1) else p
/-- Two particles. -/
def four (p q : Idx × Idx) : Four := ⟨p.1, q.1, p.2, q.2⟩
/-- Two particles. -/
def places (p q : Idx × Idx) : Places := ⟨p.1, p.2, q.1, q.2⟩

theorem orderParticles_four (size : Nat → Nat) (layout : MemLayout) (p q : Idx × Idx) :
    orderParticles size layout (four p q) = four (pre size layout p) (pre size layout q) := by
  unfold orderParticles pre four
  simp only
  split <;> split <;> simp_all

theorem orderCols_four (size : Nat → Nat) (layout : MemLayout) (p q : Idx × Idx) :
    orderCols size layout (four p q) = if swapCols size layout (four p q) then four q p else four p q := rfl

/-- The label. -/
def lab (size : Nat → Nat) (layout : MemLayout) (p q : Idx × Idx) : Label :=
  if isExceptionalJ size layout (four p q) || nsw size layout q.1 p.2 then .J else .K

theorem labelled_fst (size : Nat → Nat) (layout : MemLayout) (p q : Idx × Idx) : (labelled size layout (four p q)).1 = lab size layout p q := by
  unfold labelled lab four; split <;> rfl

theorem toPlaces_labelled (size : Nat → Nat) (layout : MemLayout) (p q : Idx × Idx) : toPlaces (labelled size layout (four p q)) = places p q := by
  unfold labelled; split <;> rfl

/-- itf.cpp:184-189 -/
def lexSwap (lt : Idx → Idx → Bool) (p q : Idx × Idx) : Bool :=
  decide (p.1.space = q.1.space ∧ p.2.space = q.2.space ∧ (lt q.1 p.1 = true ∨ (p.1 = q.1 ∧ lt q.2 p.2 = true)))

theorem polish_places (lt : Idx → Idx → Bool) (p q : Idx × Idx) :
    polish lt (places p q) = if lexSwap lt (polishPair lt p) (polishPair lt q) then places (polishPair lt q) (polishPair lt p)
      else places (polishPair lt p) (polishPair lt q) := by
  have h1 : ∀ p q : Idx × Idx, (if (places p q).p11.space = (places p q).p12.space ∧ lt (places p q).p12 (places p q).p11 then
      (⟨(places p q).p12, (places p q).p11, (places p q).p21, (places p q).p22⟩ : Places) else places p q) = places (polishPair lt p) q := by
    intro p q; unfold polishPair places; simp only; split <;> rfl
  have h2 : ∀ p q : Idx × Idx, (if (places p q).p21.space = (places p q).p22.space ∧ lt (places p q).p22 (places p q).p21 then
      (⟨(places p q).p11, (places p q).p12, (places p q).p22, (places p q).p21⟩ : Places) else places p q) = places p (polishPair lt q) := by
    intro p q; unfold polishPair places; simp only; split <;> rfl
  unfold polish
  simp only
  rw [h1, h2]
  generalize polishPair lt p = p'
  generalize polishPair lt q = q'
  unfold lexSwap places
  simp only [decide_eq_true_eq]
  split_ifs with c1 c2 c3 c3 c3
  · rfl
  · exact absurd ⟨c1.1, c1.2, c2⟩ c3
  · exact absurd c3.2.2 c2
  · rfl
  · exact absurd ⟨c3.1, c3.2.1⟩ c1
  · rfl

theorem integral_four (lt : Idx → Idx → Bool) (size : Nat → Nat) (layout : MemLayout) (p q : Idx × Idx) :
    integral lt size layout (four p q) =
      let p := pre size layout p
      let q := pre size layout q
      let (a, b) := if swapCols size layout (four p q) then (q, p) else (p, q)
      (lab size layout a b, ofPlaces (lab size layout a b) (polish lt (places a b))) := by
  unfold integral
  simp only [orderParticles_four, orderCols_four]
  split <;> simp only [labelled_fst, toPlaces_labelled]

/-- Two pairs have the same spaces. -/
def SameSpaces (p p' : Idx × Idx) : Prop := p.1.space = p'.1.space ∧ p.2.space = p'.2.space

theorem polishPair_spaces (lt : Idx → Idx → Bool) (p : Idx × Idx) : SameSpaces (polishPair lt p) p := by
  unfold polishPair SameSpaces; split
  · rename_i h; exact ⟨h.1.symm, h.1⟩
  · exact ⟨rfl, rfl⟩

theorem swapCols_congr (size : Nat → Nat) (layout : MemLayout) {p p' q q' : Idx × Idx} (hp : SameSpaces p p') (hq : SameSpaces q q') :
    swapCols size layout (four p q) = swapCols size layout (four p' q') := by
  unfold swapCols four nsw; simp only [hp.1, hp.2, hq.1, hq.2]

theorem lab_congr (size : Nat → Nat) (layout : MemLayout) {p p' q q' : Idx × Idx} (hp : SameSpaces p p') (hq : SameSpaces q q') :
    lab size layout p q = lab size layout p' q' := by
  unfold lab isExceptionalJ isOrdered four nsw; simp only [hp.1, hp.2, hq.1, hq.2]

/-- The indices of one particle in their final order. -/
def sortPair (lt : Idx → Idx → Bool) (size : Nat → Nat) (layout : MemLayout) (p : Idx × Idx) : Idx × Idx := polishPair lt (pre size layout p)

/-- Whether the second particle comes first. -/
def pairsSwap (lt : Idx → Idx → Bool) (size : Nat → Nat) (layout : MemLayout) (p q : Idx × Idx) : Bool :=
  swapCols size layout (four p q) || lexSwap lt p q

/-- The result in terms of the sorted pairs. -/
def result (lt : Idx → Idx → Bool) (size : Nat → Nat) (layout : MemLayout) (p q : Idx × Idx) : Label × Four :=
  let a := if pairsSwap lt size layout p q then q else p
  let b := if pairsSwap lt size layout p q then p else q
  (lab size layout a b, ofPlaces (lab size layout a b) (places a b))

theorem lexSwap_spaces {lt : Idx → Idx → Bool} {p q : Idx × Idx} (h : lexSwap lt p q = true) : SameSpaces p q := by
  simp only [lexSwap, decide_eq_true_eq] at h; exact ⟨h.1, h.2.1⟩

theorem swapCols_false {size : Nat → Nat} {layout : MemLayout} {p q : Idx × Idx} (h : SameSpaces p q) : swapCols size layout (four p q) = false := by
  simp [swapCols, four, h.1, h.2]

theorem integral_result (lt : Idx → Idx → Bool) (size : Nat → Nat) (layout : MemLayout) (p q : Idx × Idx)
    (hlex : ∀ p q, swapCols size layout (four p q) = true → lexSwap lt q p = false) :
    integral lt size layout (four p q) = result lt size layout (sortPair lt size layout p) (sortPair lt size layout q) := by
  rw [integral_four]
  simp only [polish_places]
  generalize hp : pre size layout p = p1
  generalize hq : pre size layout q = q1
  have e1 : sortPair lt size layout p = polishPair lt p1 := by rw [← hp]; rfl
  have e2 : sortPair lt size layout q = polishPair lt q1 := by rw [← hq]; rfl
  rw [e1, e2]
  have s1 := polishPair_spaces lt p1
  have s2 := polishPair_spaces lt q1
  unfold result pairsSwap
  rw [swapCols_congr size layout s1 s2]
  by_cases hc : swapCols size layout (four p1 q1) = true
  · simp only [hc, Bool.true_or, if_true]
    have : lexSwap lt (polishPair lt q1) (polishPair lt p1) = false := hlex _ _ (by rw [swapCols_congr size layout s1 s2]; exact hc)
    rw [this, lab_congr size layout s2 s1]
    simp
  · simp only [hc, Bool.false_or]
    by_cases hl : lexSwap lt (polishPair lt p1) (polishPair lt q1) = true
    · have hs := lexSwap_spaces hl
      simp only [hl, if_true, Bool.false_eq_true, if_false]
      have e : lab size layout p1 q1 = lab size layout (polishPair lt q1) (polishPair lt p1) :=
        lab_congr size layout ⟨s1.1.symm.trans hs.1, s1.2.symm.trans hs.2⟩ ⟨s2.1.symm.trans hs.1.symm, s2.2.symm.trans hs.2.symm⟩
      rw [e]
    · have hl' : lexSwap lt (polishPair lt p1) (polishPair lt q1) = false := by simpa using hl
      simp only [hl', Bool.false_eq_true, if_false]
      rw [lab_congr size layout s1 s2]

theorem nsw_eq (size : Nat → Nat) (layout : MemLayout) {i j : Idx} (hs : i.space ≠ j.space) (hne : size i.space ≠ size j.space) :
    nsw size layout i j = !lessSize layout (size i.space) (size j.space) := by
  have : nsw size layout i j = (decide (some i.space ≠ some j.space) && !(lessSize layout (size i.space) (size j.space) || decide (size i.space = size j.space))) := rfl
  rw [this]; simp [hs, hne]

theorem nsw_cases {size : Nat → Nat} {layout : MemLayout} (hl : layout ≠ .unspecified) {i j : Idx} (h : size i.space = size j.space → i.space = j.space) :
    (i.space = j.space ∧ nsw size layout i j = false ∧ nsw size layout j i = false) ∨
    (i.space ≠ j.space ∧ nsw size layout i j = true ∧ nsw size layout j i = false) ∨ (i.space ≠ j.space ∧ nsw size layout i j = false ∧ nsw size layout j i = true) := by
  by_cases hs : i.space = j.space
  · left; simp [nsw, needsSwap, hs]
  · right
    have hne : size i.space ≠ size j.space := fun e => hs (h e)
    rw [nsw_eq size layout hs hne, nsw_eq size layout (Ne.symm hs) (Ne.symm hne)]
    cases layout with
    | unspecified => exact absurd rfl hl
    | rowMajor => rcases Nat.lt_or_gt_of_ne hne with h1 | h1 <;> simp [lessSize, hs] <;> omega
    | columnMajor => rcases Nat.lt_or_gt_of_ne hne with h1 | h1 <;> simp [lessSize, hs] <;> omega

theorem sortPair_swap {lt : Idx → Idx → Bool} (hlt : StrictTotal lt) {size : Nat → Nat} {layout : MemLayout} (hl : layout ≠ .unspecified) (p : Idx × Idx)
    (h : size p.1.space = size p.2.space → p.1.space = p.2.space) : sortPair lt size layout (p.2, p.1) = sortPair lt size layout p := by
  obtain ⟨a, b⟩ := p
  unfold sortPair pre polishPair
  rcases nsw_cases hl h with ⟨hs, h1, h2⟩ | ⟨hs, h1, h2⟩ | ⟨hs, h1, h2⟩
  · simp only at hs h1 h2
    simp only [h1, h2, hs, Bool.false_eq_true, if_false, true_and]
    by_cases hab : a = b
    · subst hab; rfl
    · rcases hlt.total a b hab with h3 | h3
      · simp [h3, hlt.asymm _ _ h3]
      · simp [h3, hlt.asymm _ _ h3]
  · simp only at hs h1 h2
    simp [h1, h2, Ne.symm hs]
  · simp only at hs h1 h2
    simp [h1, h2, hs]

theorem lexSwap_false {lt : Idx → Idx → Bool} {size : Nat → Nat} {layout : MemLayout} (p q : Idx × Idx) (h : swapCols size layout (four p q) = true) :
    lexSwap lt q p = false := by
  by_contra hc
  have hs := lexSwap_spaces (by simpa using hc : lexSwap lt q p = true)
  rw [swapCols_false ⟨hs.1.symm, hs.2.symm⟩] at h
  simp at h

theorem result_swap {lt : Idx → Idx → Bool} (hlt : StrictTotal lt) {size : Nat → Nat} {layout : MemLayout} (hl : layout ≠ .unspecified) (p q : Idx × Idx)
    (h1 : size p.1.space = size q.1.space → p.1.space = q.1.space) (h2 : size p.2.space = size q.2.space → p.2.space = q.2.space) :
    result lt size layout q p = result lt size layout p q := by
  by_cases hpq : p = q
  · subst hpq; rfl
  have key : pairsSwap lt size layout q p = !pairsSwap lt size layout p q := by
    unfold pairsSwap
    rcases nsw_cases (i := p.1) (j := q.1) hl h1 with ⟨s1, a1, a2⟩ | ⟨s1, a1, a2⟩ | ⟨s1, a1, a2⟩
    · rcases nsw_cases (i := p.2) (j := q.2) hl h2 with ⟨s2, b1, b2⟩ | ⟨s2, b1, b2⟩ | ⟨s2, b1, b2⟩
      · rw [swapCols_false ⟨s1, s2⟩, swapCols_false ⟨s1.symm, s2.symm⟩]
        simp only [Bool.false_or, lexSwap, s1, s2, true_and]
        by_cases e1 : p.1 = q.1
        · have e2 : p.2 ≠ q.2 := fun e2 => hpq (Prod.ext e1 e2)
          rcases hlt.total _ _ e2 with h3 | h3 <;> simp [e1, hlt.irrefl, h3, hlt.asymm _ _ h3]
        · rcases hlt.total _ _ e1 with h3 | h3 <;> simp [e1, Ne.symm e1, h3, hlt.asymm _ _ h3]
      · simp [swapCols, lexSwap, four, s1, s2, Ne.symm s2, b1, b2]
      · simp [swapCols, lexSwap, four, s1, s2, Ne.symm s2, b1, b2]
    · simp [swapCols, lexSwap, four, s1, Ne.symm s1, a1, a2]
    · simp [swapCols, lexSwap, four, s1, Ne.symm s1, a1, a2]
  unfold result
  rw [key]
  cases pairsSwap lt size layout p q <;> rfl

theorem sortPair_mem (lt : Idx → Idx → Bool) (size : Nat → Nat) (layout : MemLayout) (p : Idx × Idx) :
    sortPair lt size layout p = p ∨ sortPair lt size layout p = (p.2, p.1) := by
  unfold sortPair pre polishPair
  split <;> split <;> simp

/-- **All equivalent integrals are exported the same way**, if the order of indices is total, the layout is row or column major, and
different spaces have different sizes. -/
theorem integral_canonical {lt : Idx → Idx → Bool} (hlt : StrictTotal lt) {size : Nat → Nat} {layout : MemLayout} (hl : layout ≠ .unspecified)
    (b0 b1 k0 k1 : Idx) (hsz : SizesDiffer size [b0, b1, k0, k1]) :
    integral lt size layout ⟨k0, b1, b0, k1⟩ = integral lt size layout ⟨b0, b1, k0, k1⟩ ∧
    integral lt size layout ⟨b0, k1, k0, b1⟩ = integral lt size layout ⟨b0, b1, k0, k1⟩ ∧
    integral lt size layout ⟨b1, b0, k1, k0⟩ = integral lt size layout ⟨b0, b1, k0, k1⟩ := by
  have H : ∀ p q, integral lt size layout (four p q) = result lt size layout (sortPair lt size layout p) (sortPair lt size layout q) :=
    fun p q => integral_result lt size layout p q fun p q => lexSwap_false p q
  have A : integral lt size layout ⟨b0, b1, k0, k1⟩ = _ := H (b0, k0) (b1, k1)
  have B : integral lt size layout ⟨k0, b1, b0, k1⟩ = _ := H (k0, b0) (b1, k1)
  have C : integral lt size layout ⟨b0, k1, k0, b1⟩ = _ := H (b0, k0) (k1, b1)
  have D : integral lt size layout ⟨b1, b0, k1, k0⟩ = _ := H (b1, k1) (b0, k0)
  rw [A, B, C, D, sortPair_swap hlt hl (b0, k0) (hsz _ (by simp) _ (by simp)), sortPair_swap hlt hl (b1, k1) (hsz _ (by simp) _ (by simp))]
  refine ⟨rfl, rfl, ?_⟩
  apply result_swap hlt hl
  · rcases sortPair_mem lt size layout (b0, k0) with h | h <;> rcases sortPair_mem lt size layout (b1, k1) with h' | h' <;> rw [h, h'] <;>
      exact hsz _ (by simp) _ (by simp)
  · rcases sortPair_mem lt size layout (b0, k0) with h | h <;> rcases sortPair_mem lt size layout (b1, k1) with h' | h' <;> rw [h, h'] <;>
      exact hsz _ (by simp) _ (by simp)

/-- The order of the examples is total, and the sizes differ. -/
example : StrictTotal exLt ∧ SizesDiffer exSize [⟨0, 1⟩, ⟨1, 3⟩, ⟨1, 2⟩, ⟨1, 1⟩] := by
  refine ⟨⟨fun a => by simp [exLt], fun a b h => ?_, fun a b h => ?_⟩, by unfold SizesDiffer; decide⟩
  · simp only [exLt, Bool.or_eq_true, Bool.and_eq_true, decide_eq_true_eq] at h
    simp only [exLt, Bool.or_eq_false_iff, Bool.and_eq_false_iff, decide_eq_false_iff_not]
    omega
  · obtain ⟨a1, a2⟩ := a
    obtain ⟨b1, b2⟩ := b
    simp only [exLt, Bool.or_eq_true, Bool.and_eq_true, decide_eq_true_eq]
    simp only [ne_eq, Idx.mk.injEq] at h
    omega

/-- **Spaces of equal size** (for example of electrons with spin up and down) give equivalent integrals different names. -/
theorem integral_equal_sizes_fails :
    ∃ b0 b1 k0 k1 : Idx, (integral exLt (fun _ => 10) .columnMajor ⟨b0, b1, k0, k1⟩).1 = .J ∧
      (integral exLt (fun _ => 10) .columnMajor ⟨b0, k1, k0, b1⟩).1 = .K :=
  ⟨⟨0, 1⟩, ⟨0, 2⟩, ⟨0, 3⟩, ⟨1, 1⟩, by decide⟩

/-- **Without a layout** the integrals `(ia|ia)` have several names too. -/
theorem integral_unspecified_fails :
    ∃ b0 b1 k0 k1 : Idx, integral exLt exSize .unspecified ⟨b0, b1, k0, k1⟩ ≠ integral exLt exSize .unspecified ⟨k0, b1, b0, k1⟩ :=
  ⟨⟨0, 1⟩, ⟨1, 1⟩, ⟨1, 2⟩, ⟨0, 2⟩, by decide⟩

/-- **The label.** An integral in the order of the layout becomes `J` exactly if the second bra space has to come after the first ket space, or
if three indices, both bras and the first ket, have one space and the second ket has another one that comes after it. -/
theorem labelled_J_iff (size : Nat → Nat) (layout : MemLayout) (t : Four) :
    (labelled size layout t).1 = .J ↔
      nsw size layout t.b1 t.k0 = true ∨
      (t.b0.space = t.b1.space ∧ t.k0.space = t.b0.space ∧ t.k1.space ≠ t.k0.space ∧ isOrdered size layout t.k0 t.k1 = true) := by
  unfold labelled isExceptionalJ
  split
  · rename_i h
    simp only [Bool.or_eq_true, Bool.and_eq_true, decide_eq_true_eq] at h
    refine iff_of_true rfl ?_
    rcases h with ⟨⟨⟨h1, h2⟩, h3⟩, h4⟩ | h
    · exact Or.inr ⟨h1, h4, Ne.symm h2, h3⟩
    · exact Or.inl h
  · rename_i h
    simp only [Bool.or_eq_true, Bool.and_eq_true, decide_eq_true_eq] at h
    refine iff_of_false (by simp) ?_
    rintro (h' | ⟨h1, h2, h3, h4⟩)
    · exact h (Or.inr h')
    · exact h (Or.inl ⟨⟨⟨h1, Ne.symm h3⟩, h4⟩, h2⟩)

/-- `(v v|v o)` is a `J`, `(v o|v p)` with three spaces is a `K`. -/
example : (labelled (fun s => 10 - s) .columnMajor ⟨⟨0, 1⟩, ⟨0, 2⟩, ⟨0, 3⟩, ⟨1, 1⟩⟩).1 = .J ∧
    (labelled (fun s => 10 - s) .columnMajor ⟨⟨0, 1⟩, ⟨0, 2⟩, ⟨1, 3⟩, ⟨2, 1⟩⟩).1 = .K := by decide

end SeQuant.Itf
