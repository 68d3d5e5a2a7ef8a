import Verif.Cc.Model
import Verif.Mbpt.QnsProps

/-! # The screened amplitude equations are those of the complete Hamiltonian (C114) -/

namespace SeQuant.Cc

open SeQuant.Mbpt Finset

/-! ### The loop -/

section Loop

variable {α β : Type}

/-- What the loop over the ranks returns if term `t` is kept for rank `p` exactly if `q p t`. -/
def expected (q : Nat → α → Bool) (av : Nat → List α → β) (pmin : Nat) (h : List α) : Nat → List (Nat × β)
  | 0 => []
  | n + 1 => (pmin + n, av (pmin + n) (h.filter (q (pmin + n)))) :: expected q av pmin h n

theorem screen_eq {le eq : α → Option Bool} {r q : α → Bool} (h : List α) (hl : ∀ t ∈ h, le t = some (r t)) (ht : ∀ t ∈ h, eq t = some (q t))
    (hq : ∀ t ∈ h, q t = true → r t = true) : screen le eq h = some (h.filter r, h.filter q) := by
  induction h with
  | nil => rfl
  | cons t ts ih =>
    have ih' := ih (fun x hx => hl x (by simp [hx])) (fun x hx => ht x (by simp [hx])) (fun x hx => hq x (by simp [hx]))
    rw [screen, hl t (by simp), ht t (by simp), ih']
    have hqt := hq t (by simp)
    cases hr : r t <;> cases hqq : q t
    · simp [hr, hqq]
    · rw [hr] at hqt; exact absurd (hqt hqq) (by simp)
    · simp [hr, hqq]
    · simp [hr, hqq]

open Classical in
theorem ranks_screened {le eq : Nat → α → Option Bool} {r q : Nat → α → Bool} (av : Nat → List α → β) (pmin : Nat) (h0 : List α)
    (hl : ∀ p, ∀ t ∈ h0, le p t = some (r p t)) (ht : ∀ p, ∀ t ∈ h0, eq p t = some (q p t))
    (hq : ∀ p p', p ≤ p' → ∀ t ∈ h0, q p t = true → r p' t = true) (n : Nat) (h : List α) (hsub : ∀ t ∈ h, t ∈ h0)
    (hf : ∀ p < pmin + n, h.filter (q p) = h0.filter (q p)) :
    ranks true le eq av pmin n h =
      if ∀ p, pmin ≤ p → p < pmin + n → ∃ t ∈ h0, q p t = true then .done (expected q av pmin h0 n) else .null := by
  induction n generalizing h with
  | zero =>
    rw [if_pos (fun p h1 h2 => absurd h2 (by omega))]
    rfl
  | succ n ih =>
    have hs : screen (le (pmin + n)) (eq (pmin + n)) h = some (h.filter (r (pmin + n)), h.filter (q (pmin + n))) :=
      screen_eq h (fun t m => hl _ t (hsub t m)) (fun t m => ht _ t (hsub t m)) (fun t m => hq _ _ (Nat.le_refl _) t (hsub t m))
    have hfn := hf (pmin + n) (by omega)
    simp only [ranks, if_true]
    rw [hs]
    simp only
    rw [hfn]
    by_cases he : h0.filter (q (pmin + n)) = []
    · rw [he, if_pos (show ([] : List α).isEmpty = true from rfl), if_neg]
      intro hall
      obtain ⟨t, m, hqt⟩ := hall (pmin + n) (by omega) (by omega)
      have : t ∈ h0.filter (q (pmin + n)) := List.mem_filter.2 ⟨m, hqt⟩
      rw [he] at this
      exact absurd this (by simp)
    · rw [if_neg (by simpa [List.isEmpty_iff] using he)]
      rw [ih (h.filter (r (pmin + n))) (fun t m => hsub t (List.mem_filter.1 m).1)]
      · have hex : ∃ t ∈ h0, q (pmin + n) t = true := by
          obtain ⟨t, m⟩ := List.exists_mem_of_ne_nil _ he
          exact ⟨t, List.mem_filter.1 m⟩
        by_cases hall : ∀ p, pmin ≤ p → p < pmin + n → ∃ t ∈ h0, q p t = true
        · rw [if_pos hall, if_pos]
          · rfl
          · intro p h1 h2
            by_cases hp : p < pmin + n
            · exact hall p h1 hp
            · rw [show p = pmin + n by omega]; exact hex
        · rw [if_neg hall, if_neg (fun hc => hall fun p h1 h2 => hc p h1 (by omega))]
          rfl
      · intro p hp
        rw [List.filter_filter, ← hf p (by omega)]
        apply List.filter_congr
        intro t m
        have := hq p (pmin + n) (by omega) t (hsub t m)
        cases hqp : q p t
        · simp
        · simp [this hqp]

theorem ranks_unscreened (le eq : Nat → α → Option Bool) (av : Nat → List α → β) (pmin : Nat) (n : Nat) (h : List α) :
    ranks false le eq av pmin n h = .done (expected (fun _ _ => true) av pmin h n) := by
  induction n with
  | zero => rfl
  | succ n ih =>
    have : ranks false le eq av pmin (n + 1) h = (ranks false le eq av pmin n h).push (pmin + n, av (pmin + n) h) := rfl
    rw [this, ih]
    show Outcome.done ((pmin + n, av (pmin + n) h) :: expected (fun _ _ => true) av pmin h n) = _
    simp [expected]

theorem expected_sum {M : Type} [AddMonoid M] (q : Nat → α → Bool) (v : Nat → α → M) (pmin : Nat) (h : List α)
    (hz : ∀ p, ∀ t ∈ h, q p t = false → v p t = 0) (n : Nat) :
    expected q (fun p ts => (ts.map (v p)).sum) pmin h n = expected (fun _ _ => true) (fun p ts => (ts.map (v p)).sum) pmin h n := by
  induction n with
  | zero => rfl
  | succ n ih =>
    simp only [expected, ih, List.cons.injEq, Prod.mk.injEq, true_and, and_true]
    have : ∀ l : List α, (∀ t ∈ l, q (pmin + n) t = false → v (pmin + n) t = 0) →
        ((l.filter (q (pmin + n))).map (v (pmin + n))).sum = (l.map (v (pmin + n))).sum := by
      intro l
      induction l with
      | nil => intro _; rfl
      | cons t ts ihl =>
        intro hl
        have i := ihl (fun x hx => hl x (by simp [hx]))
        cases hq : q (pmin + n) t
        · rw [List.filter_cons_of_neg (by simp [hq]), i, List.map_cons, List.sum_cons, hl t (by simp) hq, zero_add]
        · rw [List.filter_cons_of_pos hq, List.map_cons, List.sum_cons, List.map_cons, List.sum_cons, i]
    rw [this h (hz _)]
    simp

end Loop

/-! ### The bounds grow with the rank -/

/-- One interval within another. -/
def Ival.Within (a b : Ival) : Prop := b.lo ≤ a.lo ∧ a.hi ≤ b.hi

def WithinSpace (a b : SpaceQ) : Prop := Ival.Within a.1 b.1 ∧ Ival.Within a.2 b.2

theorem overlap_mono {t t' a : Ival} (ht : t.lo ≤ t.hi) (h : Ival.Within t t') (ha : a.lo ≤ a.hi) (ho : t.overlap a = true) :
    t'.overlap a = true := by
  obtain ⟨x, h1, h2⟩ := (overlap_iff ht ha).1 ho
  exact overlap_of_mem ⟨le_trans h.1 h1.1, le_trans h1.2 h.2⟩ h2

theorem overlap_mono' {t a a' : Ival} (ht : t.lo ≤ t.hi) (h : Ival.Within a a') (ha : a.lo ≤ a.hi) (ho : t.overlap a = true) :
    t.overlap a' = true := by
  obtain ⟨x, h1, h2⟩ := (overlap_iff ht ha).1 ho
  exact overlap_of_mem h1 ⟨le_trans h.1 h2.1, le_trans h2.2 h.2⟩

/-- Pairwise. -/
inductive WithinQ : Qns → Qns → Prop where
  | nil : WithinQ [] []
  | cons {a b : SpaceQ} {as bs : Qns} : WithinSpace a b → WithinQ as bs → WithinQ (a :: as) (b :: bs)

theorem overlaps_mono_target {a t t' : Qns} (ha : ∀ p ∈ a, ValidSpace p) (ht : ∀ p ∈ t, ValidSpace p) (h : WithinQ t t')
    (ho : overlaps a t = true) : overlaps a t' = true := by
  induction h generalizing a with
  | nil => cases a <;> rfl
  | @cons x y xs ys h1 h2 ih =>
    cases a with
    | nil => rfl
    | cons p as =>
      simp only [overlaps, Bool.and_eq_true] at ho ⊢
      have vp := ha p (by simp)
      have vx := ht x (by simp)
      exact ⟨⟨overlap_mono vx.1.2 h1.1 vp.1.2 ho.1.1, overlap_mono vx.2.2 h1.2 vp.2.2 ho.1.2⟩,
        ih (fun q hq => ha q (by simp [hq])) (fun q hq => ht q (by simp [hq])) ho.2⟩

theorem overlaps_mono_left {a a' t : Qns} (ha : ∀ p ∈ a, ValidSpace p) (ht : ∀ p ∈ t, ValidSpace p) (h : WithinQ a a')
    (ho : overlaps a t = true) : overlaps a' t = true := by
  induction h generalizing t with
  | nil => rfl
  | @cons x y xs ys h1 h2 ih =>
    cases t with
    | nil => rfl
    | cons p ts =>
      simp only [overlaps, Bool.and_eq_true] at ho ⊢
      have vp := ht p (by simp)
      have vx := ha x (by simp)
      exact ⟨⟨overlap_mono' vp.1.2 h1.1 vx.1.2 ho.1.1, overlap_mono' vp.2.2 h1.2 vx.2.2 ho.1.2⟩,
        ih (fun q hq => ha q (by simp [hq])) (fun q hq => ht q (by simp [hq])) ho.2⟩

theorem combineSpace_mono (occ : Bool) (a b b' r r' : SpaceQ) (ha : ValidSpace a) (hb : ValidSpace b) (hb' : ValidSpace b') (h : WithinSpace b b')
    (hr : combineSpace occ a b = some r) (hr' : combineSpace occ a b' = some r') : WithinSpace r r' := by
  rw [combineSpace_some occ a b ha hb] at hr
  rw [combineSpace_some occ a b' ha hb'] at hr'
  cases hr
  cases hr'
  obtain ⟨⟨h1, h2⟩, h3, h4⟩ := h
  cases occ <;> (simp only [WithinSpace, Ival.Within, if_true, if_false, Bool.false_eq_true]; omega)

theorem combine_mono (occs : List Bool) (a b b' : Qns) (ha : ValidQ occs a) (hb : ValidQ occs b) (hb' : ValidQ occs b') (h : WithinQ b b') :
    ∃ r r', combine occs a b = some r ∧ combine occs a b' = some r' ∧ ValidQ occs r ∧ WithinQ r r' := by
  induction h generalizing occs a with
  | nil =>
    obtain ⟨r, h1, h2, -⟩ := combine_spec occs a [] ha hb
    refine ⟨r, r, h1, h1, h2, ?_⟩
    have : r = [] := List.length_eq_zero_iff.1 (by rw [h2.1, ← hb.1]; rfl)
    rw [this]
    exact .nil
  | @cons x y xs ys h1 h2 ih =>
    cases occs with
    | nil => exact absurd hb.1 (by simp)
    | cons o os =>
      cases a with
      | nil => exact absurd ha.1 (by simp)
      | cons p as =>
        have va : ValidQ os as := ⟨by simpa using ha.1, fun q hq => ha.2 q (by simp [hq])⟩
        have vb : ValidQ os xs := ⟨by simpa using hb.1, fun q hq => hb.2 q (by simp [hq])⟩
        have vb' : ValidQ os ys := ⟨by simpa using hb'.1, fun q hq => hb'.2 q (by simp [hq])⟩
        obtain ⟨r, r', e1, e2, vr, w⟩ := ih os as va vb vb'
        have vp := ha.2 p (by simp)
        have vx := hb.2 x (by simp)
        have vy := hb'.2 y (by simp)
        have c1 := combineSpace_some o p x vp vx
        have c2 := combineSpace_some o p y vp vy
        refine ⟨_ :: r, _ :: r', by simp only [combine]; rw [c1, e1], by simp only [combine]; rw [c2, e2], ⟨by simp [vr.1], ?_⟩,
          .cons (combineSpace_mono o p x y _ _ vp vx vy h1 c1 c2) w⟩
        intro q hq
        rcases List.mem_cons.1 hq with rfl | hq
        · exact combineSpace_valid o p x _ vp vx c1
        · exact vr.2 q hq

theorem rankIval_within (b inc : Bool) {k k' : Nat} (h : k ≤ k') : Ival.Within (rankIval b inc k) (rankIval false inc k') := by
  cases b <;> cases inc <;> simp [rankIval, Ival.Within] <;> omega

theorem excitation_within (a b : Bool) {k k' : Nat} (h : k ≤ k') (sp : List BaseSpace) :
    WithinQ (excitationType a b k sp) (intervalExcitationType k' sp) := by
  unfold excitationType genericExcitation intervalExcitationType
  induction sp with
  | nil => exact .nil
  | cons s ss ih =>
    refine .cons ?_ ih
    show WithinSpace (if s.sqn then _ else _) (if s.sqn then _ else _)
    split
    · exact ⟨rankIval_within _ _ h, rankIval_within _ _ h⟩
    · simp [WithinSpace, Ival.Within]

theorem intervalExcitation_valid (k : Nat) (sp : List BaseSpace) (occs : List Bool) (h : sp.length = occs.length) :
    ValidQ occs (intervalExcitationType k sp) := by
  have := (genericExcitation_valid false false k k sp occs h).1
  exact this

/-! ### The predicates -/

/-- There are as many base spaces as the vacuum tells about. -/
def Frame.WF (f : Frame) : Prop := f.sp.length = f.occs.length

variable {f : Frame} (hf : f.WF)

theorem canChange_total (occs : List Bool) (acts : List Qns) (target source : Qns) (hv : ∀ q ∈ acts, ValidQ occs q) (hs : ValidQ occs source) :
    canChange occs acts target source = some ((canChange occs acts target source).getD false) := by
  obtain ⟨q, h1, h2, -⟩ := applyToVac_sound occs acts hv
  obtain ⟨r, r1, -, -⟩ := combine_spec occs q source h2 hs
  unfold canChange
  rw [h1]
  simp only
  rw [r1]
  rfl

include hf in
/-- **C114**: a term that reaches rank `k` is not lost at any higher rank. -/
theorem raises_mono (acts : List Qns) (hv : ∀ q ∈ acts, ValidQ f.occs q) {k k' : Nat} (hk : k ≤ k') (h : raisesTo f k acts = some true) :
    raisesUpTo f k' acts = some true := by
  unfold raisesTo at h
  unfold raisesUpTo
  obtain ⟨q, h1, h2, -⟩ := applyToVac_sound f.occs acts hv
  obtain ⟨r, r1, r2, -⟩ := combine_spec f.occs q _ h2 (qzero_valid f.occs)
  unfold canChange at h ⊢
  rw [h1] at h ⊢
  simp only at h ⊢
  rw [r1] at h ⊢
  simp only [Option.some.injEq] at h ⊢
  exact overlaps_mono_target r2.2 (genericExcitation_valid _ _ _ _ f.sp f.occs hf).1.2 (excitation_within _ _ hk f.sp) h

include hf in
/-- **C114**: a term that lowers rank `k` to the vacuum is not lost at any higher rank. -/
theorem lowers_mono (acts : List Qns) (hv : ∀ q ∈ acts, ValidQ f.occs q) {k k' : Nat} (hk : k ≤ k') (h : lowersTo f k acts = some true) :
    lowersUpTo f k' acts = some true := by
  unfold lowersTo at h
  unfold lowersUpTo
  obtain ⟨q, h1, h2, -⟩ := applyToVac_sound f.occs acts hv
  obtain ⟨r, r', e1, e2, vr, w⟩ := combine_mono f.occs q _ _ h2 (genericExcitation_valid f.apsBase f.ahsBase k k f.sp f.occs hf).1
    (intervalExcitation_valid k' f.sp f.occs hf) (excitation_within f.apsBase f.ahsBase hk f.sp)
  unfold canChange at h ⊢
  rw [h1] at h ⊢
  simp only at h ⊢
  rw [e2]
  rw [show excitationType f.apsBase f.ahsBase k f.sp = genericExcitation f.apsBase f.ahsBase k k f.sp from rfl, e1] at h
  simp only [Option.some.injEq] at h ⊢
  exact overlaps_mono_left vr.2 (qzero_valid f.occs).2 w h

variable {α β : Type}

include hf in
/-- **C114**: with screening, the amplitude equation of rank `p` is the average of exactly the terms *of the complete Hamiltonian* that reach rank
`p`, in their order - although the terms are thrown away rank by rank; if there are none for one of the ranks a null pointer is used. -/
theorem t_exact (acts : α → List Qns) (av : Nat → List α → β) (N : Nat) (pmax : Option Nat) (pmin : Nat) (hbar : List α)
    (hv : ∀ t ∈ hbar, ∀ q ∈ acts t, ValidQ f.occs q) (hp : pmin ≤ pmax.getD N) :
    ((∀ p, pmin ≤ p → p ≤ pmax.getD N → ∃ t ∈ hbar, raisesTo f p (acts t) = some true) →
      ccT true f acts av N pmax pmin hbar = .done (expected (fun p t => (raisesTo f p (acts t)).getD false) av pmin hbar (pmax.getD N + 1 - pmin))) ∧
    (¬ (∀ p, pmin ≤ p → p ≤ pmax.getD N → ∃ t ∈ hbar, raisesTo f p (acts t) = some true) →
      ccT true f acts av N pmax pmin hbar = .null) := by
  have htot : ∀ p, ∀ t ∈ hbar, raisesTo f p (acts t) = some ((raisesTo f p (acts t)).getD false) :=
    fun p t ht => canChange_total _ _ _ _ (hv t ht) (qzero_valid _)
  have htot' : ∀ p, ∀ t ∈ hbar, raisesUpTo f p (acts t) = some ((raisesUpTo f p (acts t)).getD false) :=
    fun p t ht => canChange_total _ _ _ _ (hv t ht) (qzero_valid _)
  rw [show ccT true f acts av N pmax pmin hbar = if pmin ≤ pmax.getD N then ranks true (fun p t => raisesUpTo f p (acts t))
    (fun p t => raisesTo f p (acts t)) av pmin (pmax.getD N + 1 - pmin) hbar else .failed from rfl, if_pos hp, ranks_screened (r := fun p t => (raisesUpTo f p (acts t)).getD false) (q := fun p t => (raisesTo f p (acts t)).getD false)
    av pmin hbar htot' htot ?_ _ hbar (fun _ h => h) (fun _ _ => rfl)]
  · have : (∀ p, pmin ≤ p → p < pmin + (pmax.getD N + 1 - pmin) → ∃ t ∈ hbar, (raisesTo f p (acts t)).getD false = true) ↔
        (∀ p, pmin ≤ p → p ≤ pmax.getD N → ∃ t ∈ hbar, raisesTo f p (acts t) = some true) := by
      constructor
      · intro h p h1 h2
        obtain ⟨t, m, e⟩ := h p h1 (by omega)
        exact ⟨t, m, by rw [htot p t m, e]⟩
      · intro h p h1 h2
        obtain ⟨t, m, e⟩ := h p h1 (by omega)
        exact ⟨t, m, by rw [e]; rfl⟩
    exact ⟨fun h => if_pos (this.2 h), fun h => if_neg (fun hc => h (this.1 hc))⟩
  · intro p p' hpp t m h
    have := raises_mono hf (acts t) (hv t m) hpp (by rw [htot p t m, h])
    rw [this]
    rfl

include hf in
/-- **C114**: the same for the Λ equations. -/
theorem lambda_exact (acts : α → List Qns) (av : Nat → List α → β) (N : Nat) (lhbar : List α)
    (hv : ∀ t ∈ lhbar, ∀ q ∈ acts t, ValidQ f.occs q) :
    ((∀ p, 1 ≤ p → p ≤ N → ∃ t ∈ lhbar, lowersTo f p (acts t) = some true) →
      ccL true f acts av N lhbar = .done (expected (fun p t => (lowersTo f p (acts t)).getD false) av 1 lhbar N)) ∧
    (¬ (∀ p, 1 ≤ p → p ≤ N → ∃ t ∈ lhbar, lowersTo f p (acts t) = some true) →
      ccL true f acts av N lhbar = .null) := by
  have vex := fun p => (genericExcitation_valid f.apsBase f.ahsBase p p f.sp f.occs hf).1
  have htot : ∀ p, ∀ t ∈ lhbar, lowersTo f p (acts t) = some ((lowersTo f p (acts t)).getD false) :=
    fun p t ht => canChange_total _ _ _ _ (hv t ht) (vex p)
  have htot' : ∀ p, ∀ t ∈ lhbar, lowersUpTo f p (acts t) = some ((lowersUpTo f p (acts t)).getD false) :=
    fun p t ht => canChange_total _ _ _ _ (hv t ht) (intervalExcitation_valid p f.sp f.occs hf)
  rw [ccL, ranks_screened (r := fun p t => (lowersUpTo f p (acts t)).getD false) (q := fun p t => (lowersTo f p (acts t)).getD false)
    av 1 lhbar htot' htot ?_ _ lhbar (fun _ h => h) (fun _ _ => rfl)]
  · have : (∀ p, 1 ≤ p → p < 1 + N → ∃ t ∈ lhbar, (lowersTo f p (acts t)).getD false = true) ↔
        (∀ p, 1 ≤ p → p ≤ N → ∃ t ∈ lhbar, lowersTo f p (acts t) = some true) := by
      constructor
      · intro h p h1 h2
        obtain ⟨t, m, e⟩ := h p h1 (by omega)
        exact ⟨t, m, by rw [htot p t m, e]⟩
      · intro h p h1 h2
        obtain ⟨t, m, e⟩ := h p h1 (by omega)
        exact ⟨t, m, by rw [e]; rfl⟩
    exact ⟨fun h => if_pos (this.2 h), fun h => if_neg (fun hc => h (this.1 hc))⟩
  · intro p p' hpp t m h
    have := lowers_mono hf (acts t) (hv t m) hpp (by rw [htot p t m, h])
    rw [this]
    rfl

/-! ### No term that contributes is thrown away -/

/-- A product of operators with these quantum numbers has a complete contraction: numbers of creators and annihilators within the bounds and, in
each base space, contractions of earlier with later operators that use them all. -/
def Complete (occs : List Bool) (acts : List Qns) : Prop :=
  ∃ (c d : Nat → Nat → Nat) (K : Nat → Nat → Nat → Nat),
    (∀ (i : Nat) (q : Qns) (s : Nat) (p : SpaceQ), acts[i]? = some q → q[s]? = some p → InSpace p (c s i) (d s i)) ∧
    (∀ s (h : s < occs.length), SchemeOf occs[s] acts.length (c s) (d s) (K s)) ∧
    ∀ s < occs.length, (∑ i ∈ range acts.length, c s i) = total acts.length (K s) ∧ (∑ i ∈ range acts.length, d s i) = total acts.length (K s)

/-- Contractions sorted by the earlier operator. -/
theorem total_eq (n : Nat) (K : Nat → Nat → Nat) : total n K = ∑ i ∈ range n, ∑ j ∈ range n, if i < j then K i j else 0 := by
  unfold total
  rw [Finset.sum_comm]
  apply Finset.sum_congr rfl
  intro j hj
  have hj' := Finset.mem_range.1 hj
  rw [← Finset.sum_filter]
  apply Finset.sum_congr
  · ext i
    simp only [Finset.mem_range, Finset.mem_filter]
    omega
  · intros; rfl

theorem Scheme_total_le {n : Nat} {x y : Nat → Nat} {K : Nat → Nat → Nat} (h : Scheme n x y K) : total n K ≤ ∑ i ∈ range n, x i := by
  rw [total_eq]
  exact Finset.sum_le_sum fun i hi => h.right i (Finset.mem_range.1 hi)

include hf in
/-- **C114**: a term whose product with the projector `P(k)` on its left has a complete contraction passes the test for rank `k`. -/
theorem projected_kept (acts : List Qns) (hv : ∀ q ∈ acts, ValidQ f.occs q) (k : Nat)
    (h : Complete f.occs (deexcitationType f.apsBase f.ahsBase k f.sp :: acts)) : raisesTo f k acts = some true := by
  obtain ⟨c, d, K, hin, hsch, hfull⟩ := h
  have key : ∀ s (h : s < f.occs.length), SchemeOf f.occs[s] acts.length (fun i => c s (i + 1)) (fun i => d s (i + 1)) (fun i j => K s (i + 1) (j + 1)) ∧
      (∑ i ∈ range acts.length, c s (i + 1)) = total acts.length (fun i j => K s (i + 1) (j + 1)) + d s 0 ∧
      (∑ i ∈ range acts.length, d s (i + 1)) = total acts.length (fun i j => K s (i + 1) (j + 1)) + c s 0 := by
    intro s hs
    have h1 := hsch s hs
    have h2 := hfull s hs
    rw [List.length_cons, Finset.sum_range_succ', Finset.sum_range_succ', total_succ] at h2
    rw [List.length_cons] at h1
    unfold SchemeOf at h1 ⊢
    split at h1
    · rename_i ho
      rw [if_pos ho]
      have h3 := h1.first
      have h4 := Scheme_total_le h1.tail
      exact ⟨h1.tail, by omega, by omega⟩
    · rename_i ho
      rw [if_neg ho]
      have h3 := h1.first
      have h4 := Scheme_total_le h1.tail
      exact ⟨h1.tail, by omega, by omega⟩
  have hz : ∀ (s : Nat) (p : SpaceQ), (qzero f.occs.length)[s]? = some p → p = (⟨0, 0⟩, ⟨0, 0⟩) := by
    intro s p hp
    exact List.eq_of_mem_replicate (List.mem_of_getElem? hp)
  refine canChange_sound f.occs acts _ _ hv (qzero_valid _) (fun s i => c s (i + 1)) (fun s i => d s (i + 1)) (fun s i j => K s (i + 1) (j + 1))
    (fun _ => 0) (fun _ => 0) (fun _ => 0) ?_ ?_ (fun s h => (key s h).1) ?_ ?_
  · intro i q s p h1 h2
    exact hin (i + 1) q s p (by simpa using h1) h2
  · intro s p hp
    rw [hz s p hp]
    simp [InSpace, Ival.Mem]
  · intro s h
    obtain ⟨-, h1, h2⟩ := key s h
    simp only [h1, h2, Contractible]
    refine ⟨le_refl _, ?_⟩
    split <;> (push_cast; constructor <;> simp only [add_sub_cancel_left]; omega)
  · intro s p hp
    have hlt : s < (excitationType f.apsBase f.ahsBase k f.sp).length := (List.getElem?_eq_some_iff.1 hp).1
    have hs : s < f.occs.length := by
      rw [← hf]
      simpa [excitationType, genericExcitation] using hlt
    obtain ⟨-, h1, h2⟩ := key s hs
    have h0 : (deexcitationType f.apsBase f.ahsBase k f.sp)[s]? = some (p.2, p.1) := by
      unfold deexcitationType
      rw [← adjoint_excitation, adjointQ, List.getElem?_map]
      rw [show (genericExcitation f.apsBase f.ahsBase k k f.sp)[s]? = some p from hp]
      rfl
    have h3 := hin 0 _ s _ rfl h0
    simp only [h1, h2]
    push_cast
    simp only [add_sub_cancel_left, add_zero, sub_zero]
    exact ⟨h3.2, h3.1⟩

theorem Scheme_init {n : Nat} {x y : Nat → Nat} {K : Nat → Nat → Nat} (h : Scheme (n + 1) x y K) :
    Scheme n x y K ∧ (∑ i ∈ range n, K i n) ≤ y n ∧ (∑ i ∈ range n, K i n) + total n K ≤ ∑ i ∈ range n, x i := by
  have hr : ∀ i < n, (∑ j ∈ range n, if i < j then K i j else 0) + K i n ≤ x i := by
    intro i hi
    have := h.right i (by omega)
    rw [Finset.sum_range_succ, if_pos hi] at this
    exact this
  refine ⟨⟨fun i hi => by have := hr i hi; omega, fun j hj => h.left j (by omega)⟩, h.left n (by omega), ?_⟩
  rw [total_eq, ← Finset.sum_add_distrib]
  apply Finset.sum_le_sum
  intro i hi
  have := hr i (Finset.mem_range.1 hi)
  omega

include hf in
/-- **C114**: a term whose product with `P(-k)` on its right has a complete contraction passes the test for rank `k`. -/
theorem lowered_kept (acts : List Qns) (hv : ∀ q ∈ acts, ValidQ f.occs q) (k : Nat)
    (h : Complete f.occs (acts ++ [excitationType f.apsBase f.ahsBase k f.sp])) : lowersTo f k acts = some true := by
  obtain ⟨c, d, K, hin, hsch, hfull⟩ := h
  rw [List.length_append, List.length_singleton] at hsch hfull
  have ht : ∀ s, total (acts.length + 1) (K s) = total acts.length (K s) + ∑ i ∈ range acts.length, K s i acts.length := by
    intro s
    unfold total
    rw [Finset.sum_range_succ]
  have hi : ∀ s (h : s < f.occs.length), SchemeOf f.occs[s] acts.length (c s) (d s) (K s) ∧
      (if f.occs[s] then (∑ i ∈ range acts.length, K s i acts.length) ≤ d s acts.length ∧
        (∑ i ∈ range acts.length, K s i acts.length) + total acts.length (K s) ≤ ∑ i ∈ range acts.length, c s i else
        (∑ i ∈ range acts.length, K s i acts.length) ≤ c s acts.length ∧
        (∑ i ∈ range acts.length, K s i acts.length) + total acts.length (K s) ≤ ∑ i ∈ range acts.length, d s i) := by
    intro s hs
    have h1 := hsch s hs
    unfold SchemeOf at h1 ⊢
    split at h1
    · rename_i ho
      rw [if_pos ho, if_pos ho]
      have := Scheme_init h1
      exact ⟨this.1, this.2⟩
    · rename_i ho
      rw [if_neg ho, if_neg ho]
      have := Scheme_init h1
      exact ⟨this.1, this.2⟩
  have vex := (genericExcitation_valid f.apsBase f.ahsBase k k f.sp f.occs hf).1
  refine canChange_sound f.occs acts _ _ hv vex c d K (fun s => (c s acts.length : Int)) (fun s => (d s acts.length : Int))
    (fun s => ((∑ i ∈ range acts.length, K s i acts.length : Nat) : Int)) ?_ ?_ (fun s h => (hi s h).1) ?_ ?_
  · intro i q s p h1 h2
    refine hin i q s p ?_ h2
    rw [List.getElem?_append_left (List.getElem?_eq_some_iff.1 h1).1]
    exact h1
  · intro s p hp
    exact hin acts.length _ s p (by simp) hp
  · intro s h
    obtain ⟨-, h1⟩ := hi s h
    refine ⟨Int.natCast_nonneg _, ?_⟩
    split at h1
    · rename_i ho
      rw [if_pos ho]
      constructor <;> omega
    · rename_i ho
      rw [if_neg ho]
      constructor <;> omega
  · intro s p hp
    have hp0 : p = (⟨0, 0⟩, ⟨0, 0⟩) := List.eq_of_mem_replicate (List.mem_of_getElem? hp)
    have hs : s < f.occs.length := by simpa [qzero] using (List.getElem?_eq_some_iff.1 hp).1
    have h1 := hfull s hs
    rw [Finset.sum_range_succ, Finset.sum_range_succ, ht s] at h1
    rw [hp0]
    refine ⟨⟨?_, ?_⟩, ?_, ?_⟩ <;> simp only <;> omega

variable {M : Type} [AddMonoid M]

include hf in
/-- **C114**: if only terms with a complete contraction with the projector contribute, and a sum is averaged term by term, then screening does not
change the amplitude equations. -/
theorem t_screening (acts : α → List Qns) (v : Nat → α → M) (N : Nat) (pmax : Option Nat) (pmin : Nat) (hbar : List α)
    (hv : ∀ t ∈ hbar, ∀ q ∈ acts t, ValidQ f.occs q) (hp : pmin ≤ pmax.getD N)
    (hc : ∀ p, ∀ t ∈ hbar, v p t ≠ 0 → Complete f.occs (deexcitationType f.apsBase f.ahsBase p f.sp :: acts t))
    (hr : ∀ p, pmin ≤ p → p ≤ pmax.getD N → ∃ t ∈ hbar, raisesTo f p (acts t) = some true) :
    ccT true f acts (fun p ts => (ts.map (v p)).sum) N pmax pmin hbar = ccT false f acts (fun p ts => (ts.map (v p)).sum) N pmax pmin hbar := by
  rw [(t_exact hf acts _ N pmax pmin hbar hv hp).1 hr,
    show ccT false f acts (fun p ts => (ts.map (v p)).sum) N pmax pmin hbar = if pmin ≤ pmax.getD N then
      ranks false (fun p t => raisesUpTo f p (acts t)) (fun p t => raisesTo f p (acts t)) (fun p ts => (ts.map (v p)).sum) pmin
        (pmax.getD N + 1 - pmin) hbar else .failed from rfl, if_pos hp, ranks_unscreened, expected_sum]
  intro p t m hq
  by_contra hne
  have := projected_kept hf (acts t) (hv t m) p (hc p t m hne)
  rw [this] at hq
  exact absurd hq (by simp)

include hf in
/-- **C114**: the same for the Λ equations. -/
theorem lambda_screening (acts : α → List Qns) (v : Nat → α → M) (N : Nat) (lhbar : List α)
    (hv : ∀ t ∈ lhbar, ∀ q ∈ acts t, ValidQ f.occs q)
    (hc : ∀ p, ∀ t ∈ lhbar, v p t ≠ 0 → Complete f.occs (acts t ++ [excitationType f.apsBase f.ahsBase p f.sp]))
    (hr : ∀ p, 1 ≤ p → p ≤ N → ∃ t ∈ lhbar, lowersTo f p (acts t) = some true) :
    ccL true f acts (fun p ts => (ts.map (v p)).sum) N lhbar = ccL false f acts (fun p ts => (ts.map (v p)).sum) N lhbar := by
  rw [(lambda_exact hf acts _ N lhbar hv).1 hr, ccL, ranks_unscreened, expected_sum]
  intro p t m hq
  by_contra hne
  have := lowered_kept hf (acts t) (hv t m) p (hc p t m hne)
  rw [this] at hq
  exact absurd hq (by simp)

/-! ### Examples -/

/-- Occupied and virtual orbitals. -/
def frame : Frame := ⟨oneOcc, ov, true, true⟩

example : frame.WF := rfl

/-- Terms: `F`, `V`, `F T1`, `F T2`, `V T1`, `V T2`, `V T1 T1`, `V T2 T2`. -/
def ccsd : List (List Qns) :=
  let F := generalType 2 1
  let V := generalType 2 2
  let T := fun k => excitationType true true k ov
  [[F], [V], [F, T 1], [F, T 2], [V, T 1], [V, T 2], [V, T 1, T 1], [V, T 2, T 2]]

example : ∀ t ∈ ccsd, ∀ q ∈ t, ValidQ frame.occs q := by
  intro t ht q hq
  simp only [ccsd, List.mem_cons, List.not_mem_nil, or_false] at ht
  rcases ht with rfl | rfl | rfl | rfl | rfl | rfl | rfl | rfl <;>
    (simp only [List.mem_cons, List.not_mem_nil, or_false] at hq
     refine ⟨?_, ?_⟩
     · rcases hq with rfl | rfl | rfl <;> rfl
     · intro p hp
       rcases hq with rfl | rfl | rfl <;>
         simp [generalType, excitationType, genericExcitation, ov, rankIval] at hp <;>
         (try rcases hp with rfl | rfl) <;> simp [ValidSpace, Ival.Valid])

/-- The terms that enter the equations of ranks 2, 1 and 0. -/
example : ccT true frame (fun t => t) (fun _ ts => ts.map fun t => ccsd.findIdx (· = t)) 2 none 0 ccsd =
    .done [(2, [1, 2, 3, 4, 5, 6, 7]), (1, [0, 1, 2, 3, 4, 5, 6]), (0, [0, 1, 2, 4, 5, 6])] := by decide +kernel

/-- **C114**, refuted: for a rank that no term reaches the screened equations use a null pointer; without screening the equation is an empty
average. -/
theorem t_null : ccT true frame (fun t => t) (fun _ ts => ts.length) 2 (some 9) 9 ccsd = .null ∧
    ccT false frame (fun t => t) (fun _ ts => ts.length) 2 (some 9) 9 ccsd = .done [(9, 8)] := by decide +kernel

/-- `P(2)` with `V T2 T2` has a complete contraction: every projector operator with one of the second `T2`, those of the first with `V`. -/
example : Complete frame.occs [deexcitationType true true 2 ov, generalType 2 2, excitationType true true 2 ov, excitationType true true 2 ov] := by
  refine ⟨fun s i => if s = 0 then (if i = 0 then 2 else if i = 1 then 2 else 0) else (if i < 2 then 0 else 2),
    fun s i => if s = 0 then (if i < 2 then 0 else 2) else (if i = 0 then 2 else if i = 1 then 2 else 0),
    fun s i j => if (i = 0 ∧ j = 3) ∨ (i = 1 ∧ j = 2) then 2 else 0, ?_, ?_, ?_⟩
  · intro i q s p h1 h2
    match i, s with
    | 0, 0 => cases h1; cases h2; exact ⟨⟨by decide, by decide⟩, by decide, by decide⟩
    | 0, 1 => cases h1; cases h2; exact ⟨⟨by decide, by decide⟩, by decide, by decide⟩
    | 1, 0 => cases h1; cases h2; exact ⟨⟨by decide, by decide⟩, by decide, by decide⟩
    | 1, 1 => cases h1; cases h2; exact ⟨⟨by decide, by decide⟩, by decide, by decide⟩
    | 2, 0 => cases h1; cases h2; exact ⟨⟨by decide, by decide⟩, by decide, by decide⟩
    | 2, 1 => cases h1; cases h2; exact ⟨⟨by decide, by decide⟩, by decide, by decide⟩
    | 3, 0 => cases h1; cases h2; exact ⟨⟨by decide, by decide⟩, by decide, by decide⟩
    | 3, 1 => cases h1; cases h2; exact ⟨⟨by decide, by decide⟩, by decide, by decide⟩
    | n + 4, _ => simp at h1
    | 0, s + 2 => cases h1; simp [deexcitationType, genericDeexcitation, ov] at h2
    | 1, s + 2 => cases h1; simp [generalType] at h2
    | 2, s + 2 => cases h1; simp [excitationType, genericExcitation, ov] at h2
    | 3, s + 2 => cases h1; simp [excitationType, genericExcitation, ov] at h2
  · intro s hs
    match s with
    | 0 => show Scheme _ _ _ _; constructor <;> decide
    | 1 => show Scheme _ _ _ _; constructor <;> decide
    | s + 2 => simp [frame, oneOcc] at hs
  · intro s hs
    match s with
    | 0 => decide
    | 1 => decide
    | s + 2 => simp [frame, oneOcc] at hs

end SeQuant.Cc
