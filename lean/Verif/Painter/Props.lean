import Verif.Painter.Model
import Mathlib.Data.Fintype.Pigeonhole
import Mathlib.Data.Fintype.Card
import Mathlib.Data.Nat.ModEq
import Mathlib.Data.List.Dedup
import Mathlib.Data.List.Range

/-!
# C105: colors of vertices
-/

namespace SeQuant.Painter

variable (c : Cfg)

/-! ### `may_have_same_color` is an equivalence -/

theorem mayHaveSame_refl (o : Obj) : mayHaveSame c o o = true := by
  cases o <;> simp [mayHaveSame]

theorem mayHaveSame_symm (o o' : Obj) : mayHaveSame c o o' = mayHaveSame c o' o := by
  cases o <;> cases o' <;> simp only [mayHaveSame] <;> (try (congr 1; exact propext eq_comm))
  rename_i i j
  simp only [ne_eq, eq_comm (a := c.named.idxOf i), eq_comm (a := c.idxColor i)]

theorem mayHaveSame_trans (o o' o'' : Obj) (h : mayHaveSame c o o' = true) (h' : mayHaveSame c o' o'' = true) :
    mayHaveSame c o o'' = true := by
  cases o <;> cases o' <;> simp only [mayHaveSame, Bool.false_eq_true] at h <;> cases o'' <;>
    simp only [mayHaveSame, Bool.false_eq_true] at h' ⊢
  all_goals first
    | (simp only [decide_eq_true_eq] at h h' ⊢; exact h.trans h')
    | skip
  cases hd : c.distinct
  · simp only [hd, Bool.false_and, Bool.false_eq_true, if_false, decide_eq_true_eq] at h h' ⊢
    exact h.trans h'
  · simp only [hd, Bool.true_and, decide_eq_true_eq, Bool.if_false_left, Bool.and_eq_true, Bool.not_eq_true', decide_eq_false_iff_not,
      not_not] at h h' ⊢
    exact ⟨h.1.trans h'.1, h.2.trans h'.2⟩

theorem mayHaveSame_congr (d : Obj) {o o' : Obj} (h : mayHaveSame c o o' = true) : mayHaveSame c d o = mayHaveSame c d o' := by
  rw [Bool.eq_iff_iff]
  exact ⟨fun k => mayHaveSame_trans c _ _ _ k h, fun k => mayHaveSame_trans c _ _ _ k (by rw [mayHaveSame_symm]; exact h)⟩

/-! ### The search -/

theorem startColor_lt (salt : Nat) (o : Obj) : startColor c salt o < colors := by
  have h : ∀ xs, toColor c salt xs < colors := fun xs => Nat.mod_lt _ (by decide)
  cases o <;> simp only [startColor] <;> (try split) <;> exact h _

/-- Starting at a color, `m` colors in a row belong to objects that may not have the color of `val`, the next one is `k`, and it belongs to an
object that may. -/
structure Leads (used : List (Nat × Obj)) (val : Obj) (start m k : Nat) : Prop where
  path : ∀ j < m, ∃ d, used.lookup ((start + j) % colors) = some d ∧ mayHaveSame c d val = false
  stop : k = (start + m) % colors
  owner : ∃ d, used.lookup k = some d ∧ mayHaveSame c d val = true

/-- What the loop finds. -/
theorem search_spec (used : List (Nat × Obj)) (val : Obj) (fuel start k : Nat) (hs : start < colors)
    (h : search c used val fuel start = some k) :
    ∃ m < fuel, (∀ j < m, ∃ d, used.lookup ((start + j) % colors) = some d ∧ mayHaveSame c d val = false) ∧
      k = (start + m) % colors ∧ (used.lookup k = none ∨ ∃ d, used.lookup k = some d ∧ mayHaveSame c d val = true) := by
  induction fuel generalizing start with
  | zero => simp [search] at h
  | succ fuel ih =>
    rw [search] at h
    cases hl : used.lookup start with
    | none =>
      rw [hl] at h
      simp only [Option.some.injEq] at h
      subst h
      exact ⟨0, by omega, by simp, by rw [Nat.add_zero, Nat.mod_eq_of_lt hs], Or.inl hl⟩
    | some d =>
      rw [hl] at h
      simp only at h
      split at h
      · rename_i hd
        simp only [Option.some.injEq] at h
        subst h
        exact ⟨0, by omega, by simp, by rw [Nat.add_zero, Nat.mod_eq_of_lt hs], Or.inr ⟨d, hl, hd⟩⟩
      · rename_i hd
        obtain ⟨m, hm, h1, h2, h3⟩ := ih _ (Nat.mod_lt _ (by decide)) h
        have hmod : ∀ j, ((start + 1) % colors + j) % colors = (start + (j + 1)) % colors := by
          intro j
          rw [Nat.mod_add_mod]
          congr 1
          omega
        refine ⟨m + 1, by omega, fun j hj => ?_, ?_, h3⟩
        · cases j with
          | zero => exact ⟨d, by rw [Nat.add_zero, Nat.mod_eq_of_lt hs]; exact hl, by simpa using hd⟩
          | succ j =>
            rw [← hmod]
            exact h1 j (by omega)
        · rw [h2, hmod]

theorem search_of_leads (used : List (Nat × Obj)) (val : Obj) (m k : Nat) (fuel : Nat) (hf : m < fuel) (start : Nat)
    (hs : start < colors) (h : Leads c used val start m k) : search c used val fuel start = some k := by
  induction m generalizing start fuel with
  | zero =>
    obtain ⟨f, rfl⟩ : ∃ f, fuel = f + 1 := ⟨fuel - 1, by omega⟩
    obtain ⟨d, hd, hc⟩ := h.owner
    have hk := h.stop
    rw [Nat.add_zero, Nat.mod_eq_of_lt hs] at hk
    subst hk
    rw [search, hd]
    simp [hc]
  | succ m ih =>
    obtain ⟨f, rfl⟩ : ∃ f, fuel = f + 1 := ⟨fuel - 1, by omega⟩
    obtain ⟨d, hd, hc⟩ := h.path 0 (by omega)
    rw [Nat.add_zero, Nat.mod_eq_of_lt hs] at hd
    rw [search, hd]
    simp only [hc, Bool.false_eq_true, if_false]
    refine ih f (by omega) _ (Nat.mod_lt _ (by decide)) ⟨fun j hj => ?_, ?_, h.owner⟩
    · obtain ⟨d', h1, h2⟩ := h.path (j + 1) (by omega)
      refine ⟨d', ?_, h2⟩
      rw [Nat.mod_add_mod, ← h1]
      congr 2
      omega
    · rw [h.stop, Nat.mod_add_mod]
      congr 1
      omega

/-- Entries are kept. -/
def Extends (used used' : List (Nat × Obj)) : Prop := ∀ k d, used.lookup k = some d → used'.lookup k = some d

theorem Leads.extend {used used' : List (Nat × Obj)} {val : Obj} {start m k : Nat} (h : Leads c used val start m k)
    (he : Extends used used') : Leads c used' val start m k := by
  refine ⟨fun j hj => ?_, h.stop, ?_⟩
  · obtain ⟨d, h1, h2⟩ := h.path j hj
    exact ⟨d, he _ _ h1, h2⟩
  · obtain ⟨d, h1, h2⟩ := h.owner
    exact ⟨d, he _ _ h1, h2⟩

theorem Leads.congr {used : List (Nat × Obj)} {val val' : Obj} {start m k : Nat} (h : Leads c used val start m k)
    (hv : mayHaveSame c val val' = true) : Leads c used val' start m k := by
  refine ⟨fun j hj => ?_, h.stop, ?_⟩
  · obtain ⟨d, h1, h2⟩ := h.path j hj
    exact ⟨d, h1, by rw [← mayHaveSame_congr c d hv]; exact h2⟩
  · obtain ⟨d, h1, h2⟩ := h.owner
    exact ⟨d, h1, by rw [← mayHaveSame_congr c d hv]; exact h2⟩

theorem ensureUnique_spec (p p' : State) (start k : Nat) (val : Obj) (hs : start < colors)
    (h : ensureUnique c p start val = some (k, p')) :
    Extends p.used p'.used ∧ p.used.length ≤ p'.used.length ∧ p'.salt = p.salt ∧
      ∃ m ≤ p'.used.length, Leads c p'.used val start m k := by
  unfold ensureUnique at h
  obtain ⟨k', hk, he⟩ := Option.map_eq_some_iff.1 h
  simp only [Prod.mk.injEq] at he
  obtain ⟨rfl, hp⟩ := he
  obtain ⟨m, hm, h1, h2, h3⟩ := search_spec c p.used val _ start k' hs hk
  rcases h3 with h3 | ⟨d, h3, h4⟩
  · rw [h3] at hp
    simp only [Option.isNone_none, if_true] at hp
    subst hp
    have hext : Extends p.used ((k', val) :: p.used) := by
      intro x d hx
      rw [List.lookup_cons]
      have hne : x ≠ k' := fun e => by rw [e, h3] at hx; cases hx
      rw [beq_false_of_ne hne]
      exact hx
    refine ⟨hext, by simp, rfl, m, by simp; omega, fun j hj => ?_, h2, val, by simp, mayHaveSame_refl c val⟩
    obtain ⟨d, e1, e2⟩ := h1 j hj
    exact ⟨d, hext _ _ e1, e2⟩
  · rw [h3] at hp
    simp only [Option.isNone_some, Bool.false_eq_true, if_false] at hp
    subst hp
    exact ⟨fun _ _ h => h, Nat.le_refl _, rfl, m, by omega, h1, h2, d, h3, h4⟩

/-! ### Sequences of requests -/

/-- Every object painted so far is still led to its color. -/
def Good (p : State) (out : List Painted) : Prop :=
  ∀ r ∈ out, ∃ m ≤ p.used.length, Leads c p.used r.obj (startColor c r.salt r.obj) m r.color

theorem act_spec (p p' : State) (a : Action) (o : Option Painted) (h : act c p a = some (o, p')) :
    Extends p.used p'.used ∧ p.used.length ≤ p'.used.length ∧ Good c p' o.toList := by
  cases a with
  | paint x =>
    simp only [act] at h
    obtain ⟨⟨k, q⟩, hr, he⟩ := Option.map_eq_some_iff.1 h
    simp only [Prod.mk.injEq] at he
    obtain ⟨rfl, rfl⟩ := he
    obtain ⟨h1, h2, _, h4⟩ := ensureUnique_spec c p q _ k x (startColor_lt c _ _) hr
    refine ⟨h1, h2, fun r hr' => ?_⟩
    simp only [Option.toList_some, List.mem_singleton] at hr'
    subst hr'
    exact h4
  | shade t =>
    simp only [act] at h
    obtain ⟨⟨k, q⟩, hr, he⟩ := Option.map_eq_some_iff.1 h
    simp only [Prod.mk.injEq] at he
    obtain ⟨rfl, rfl⟩ := he
    obtain ⟨h1, h2, _, h4⟩ := ensureUnique_spec c _ q _ k _ (startColor_lt c _ _) hr
    refine ⟨h1, h2, fun r hr' => ?_⟩
    simp only [Option.toList_some, List.mem_singleton] at hr'
    subst hr'
    exact h4
  | salt s =>
    simp only [act, Option.some.injEq, Prod.mk.injEq] at h
    obtain ⟨rfl, rfl⟩ := h
    exact ⟨fun _ _ h => h, Nat.le_refl _, by intro r hr; simp at hr⟩
  | reset =>
    simp only [act, Option.some.injEq, Prod.mk.injEq] at h
    obtain ⟨rfl, rfl⟩ := h
    exact ⟨fun _ _ h => h, Nat.le_refl _, by intro r hr; simp at hr⟩

theorem run_spec (as : List Action) (p p' : State) (out : List Painted) (h : run c p as = some (out, p')) :
    Extends p.used p'.used ∧ p.used.length ≤ p'.used.length ∧ Good c p' out := by
  induction as generalizing p out with
  | nil =>
    simp only [run, Option.some.injEq, Prod.mk.injEq] at h
    obtain ⟨rfl, rfl⟩ := h
    exact ⟨fun _ _ h => h, Nat.le_refl _, by intro r hr; simp at hr⟩
  | cons a as ih =>
    simp only [run] at h
    cases ha : act c p a with
    | none => rw [ha] at h; simp at h
    | some r =>
      obtain ⟨o, q⟩ := r
      rw [ha, Option.bind_some] at h
      obtain ⟨⟨out', q'⟩, hr, he⟩ := Option.map_eq_some_iff.1 h
      simp only [Prod.mk.injEq] at he
      obtain ⟨rfl, rfl⟩ := he
      obtain ⟨a1, a2, a3⟩ := act_spec c p q a o ha
      obtain ⟨b1, b2, b3⟩ := ih q out' hr
      refine ⟨fun k d hd => b1 k d (a1 k d hd), Nat.le_trans a2 b2, fun r hr' => ?_⟩
      rcases List.mem_append.1 hr' with hr' | hr'
      · obtain ⟨m, hm, hl⟩ := a3 r hr'
        exact ⟨m, Nat.le_trans hm b2, hl.extend c b1⟩
      · exact b3 r hr'

/-- **C105.** Two objects painted by one painter, in whatever order and with whatever shades, get the same color only if
`may_have_same_color` allows it: collisions of the hash are resolved. -/
theorem same_color_allowed (as : List Action) (out : List Painted) (p' : State) (h : run c State.new as = some (out, p'))
    (r r' : Painted) (hr : r ∈ out) (hr' : r' ∈ out) (hc : r.color = r'.color) : mayHaveSame c r.obj r'.obj = true := by
  obtain ⟨_, _, hg⟩ := run_spec c as _ _ _ h
  obtain ⟨_, _, h1⟩ := hg r hr
  obtain ⟨_, _, h2⟩ := hg r' hr'
  obtain ⟨d, d1, d2⟩ := h1.owner
  obtain ⟨d', e1, e2⟩ := h2.owner
  rw [hc, e1, Option.some.injEq] at d1
  subst d1
  exact mayHaveSame_trans c _ _ _ (by rw [mayHaveSame_symm]; exact d2) e2

/-- **C105.** Objects of one color are of one type: tensors, indices, bundles, bras, kets, auxiliary slots and columns never share colors. -/
theorem same_color_same_type (as : List Action) (out : List Painted) (p' : State) (h : run c State.new as = some (out, p'))
    (r r' : Painted) (hr : r ∈ out) (hr' : r' ∈ out) (hc : r.color = r'.color) :
    (∀ t, r.obj = .tensor t → ∃ t', r'.obj = .tensor t' ∧ t'.label = t.label) ∧
    (∀ i, r.obj = .index i → ∃ i', r'.obj = .index i' ∧ c.idxColor i' = c.idxColor i) ∧
    (∀ b, r.obj = .bundle b → ∃ b', r'.obj = .bundle b' ∧ c.bundleColor b' = c.bundleColor b) ∧
    (∀ i, r.obj = .bra i → r'.obj = .bra i) ∧ (∀ i, r.obj = .ket i → r'.obj = .ket i) ∧ (∀ i, r.obj = .aux i → r'.obj = .aux i) ∧
    ∀ i s y, r.obj = .column i s y → ∃ s' y', r'.obj = .column i s' y' := by
  have hs := same_color_allowed c as out p' h r r' hr hr' hc
  refine ⟨?_, ?_, ?_, ?_, ?_, ?_, ?_⟩
  all_goals
    intros
    rename_i he
    rw [he] at hs
    cases ho : r'.obj <;> rw [ho] at hs <;> simp_all [mayHaveSame]

/-- **C105.** With `distinct_named_indices` a named index shares its color with no other index. -/
theorem named_index_unique (hd : c.distinct = true) (as : List Action) (out : List Painted) (p' : State)
    (h : run c State.new as = some (out, p')) (r r' : Painted) (hr : r ∈ out) (hr' : r' ∈ out) (hc : r.color = r'.color) (i i' : Nat)
    (hi : r.obj = .index i) (hi' : r'.obj = .index i') (hn : i ∈ c.named) : i' = i := by
  have hs := same_color_allowed c as out p' h r r' hr hr' hc
  rw [hi, hi'] at hs
  simp only [mayHaveSame, hd, Bool.true_and, decide_eq_true_eq, Bool.if_false_left, Bool.and_eq_true, Bool.not_eq_true',
    decide_eq_false_iff_not, not_not] at hs
  exact ((List.idxOf_inj hn).1 hs.1).symm

/-- **C105.** Objects that may have the same color and hash alike under their shades get the same color, whatever was painted in between. -/
theorem same_start_same_color (as : List Action) (out : List Painted) (p' : State) (h : run c State.new as = some (out, p'))
    (r r' : Painted) (hr : r ∈ out) (hr' : r' ∈ out) (hm : mayHaveSame c r.obj r'.obj = true)
    (hs : startColor c r.salt r.obj = startColor c r'.salt r'.obj) : r.color = r'.color := by
  obtain ⟨_, _, hg⟩ := run_spec c as _ _ _ h
  obtain ⟨m, m1, h1⟩ := hg r hr
  obtain ⟨m', m2, h2⟩ := hg r' hr'
  have e1 := search_of_leads c p'.used r'.obj m r.color (p'.used.length + 1) (by omega) _ (startColor_lt c _ _)
    (by rw [← hs]; exact h1.congr c hm)
  have e2 := search_of_leads c p'.used r'.obj m' r'.color (p'.used.length + 1) (by omega) _ (startColor_lt c _ _) h2
  rw [e1, Option.some.injEq] at e2
  exact e2

/-- **C105.** The same object under the same shade always has the same color. -/
theorem repeated_object (as : List Action) (out : List Painted) (p' : State) (h : run c State.new as = some (out, p'))
    (r r' : Painted) (hr : r ∈ out) (hr' : r' ∈ out) (ho : r.obj = r'.obj) (hs : r.salt = r'.salt) : r.color = r'.color :=
  same_start_same_color c as out p' h r r' hr hr' (by rw [ho]; exact mayHaveSame_refl c _) (by rw [ho, hs])

/-- Tensors of one type: the same label, numbers of slots and symmetries, where bra and ket may be exchanged if the tensor is symmetric under
the exchange. -/
def SameType (t t' : Ten) : Prop :=
  t.label = t'.label ∧ t.aux = t'.aux ∧ t.symm = t'.symm ∧ t.columns = t'.columns ∧ t.braketSymm = t'.braketSymm ∧ t.braket = t'.braket ∧
    ((t.bra = t'.bra ∧ t.ket = t'.ket) ∨ (t.braketSymm = true ∧ t.bra = t'.ket ∧ t.ket = t'.bra))

/-- **C105.** Tensors of one type, painted under the same shade (the builders reset the shade after each tensor), get the same color and
shade their slots in the same way. -/
theorem same_type_same_color (as : List Action) (out : List Painted) (p' : State) (h : run c State.new as = some (out, p'))
    (r r' : Painted) (hr : r ∈ out) (hr' : r' ∈ out) (t t' : Ten) (ht : r.obj = .tensor t) (ht' : r'.obj = .tensor t')
    (hs : r.salt = r'.salt) (hty : SameType t t') : r.color = r'.color ∧ tensorHash c r.salt t = tensorHash c r'.salt t' := by
  have hh : tensorHash c r.salt t = tensorHash c r'.salt t' := by
    obtain ⟨h1, h2, h3, h4, h5, h6, h7⟩ := hty
    rw [hs]
    unfold tensorHash
    rcases h7 with ⟨h7, h8⟩ | ⟨h7, h8, h9⟩
    · rw [h1, h2, h3, h4, h5, h6, h7, h8]
    · rw [← h5, h7, h1, h2, h3, h4, h6, h8, h9]
      simp only [Bool.true_and, decide_eq_true_eq]
      rcases Nat.lt_trichotomy t'.bra t'.ket with hl | hl | hl
      · rw [if_pos hl, if_pos hl, if_neg (by omega), if_neg (by omega)]
      · rw [if_neg (by omega), if_neg (by omega), if_neg (by omega), if_neg (by omega), hl]
      · rw [if_neg (by omega), if_neg (by omega), if_pos hl, if_pos hl]
  refine ⟨same_start_same_color c as out p' h r r' hr hr' ?_ ?_, hh⟩
  · rw [ht, ht']
    simpa [mayHaveSame] using hty.1
  · rw [ht, ht']
    simp only [startColor]
    rw [hh, hs]

/-! ### The search ends -/

theorem search_isSome (used : List (Nat × Obj)) (val : Obj) (start : Nat) (hs : start < colors) (hu : used.length < colors) :
    (search c used val (used.length + 1) start).isSome := by
  -- otherwise `used.length + 1` colors in a row are in use
  have key : ∀ fuel start, start < colors → search c used val fuel start = none → ∀ j < fuel, (used.lookup ((start + j) % colors)).isSome := by
    intro fuel
    induction fuel with
    | zero => intro _ _ _ j hj; omega
    | succ fuel ih =>
      intro start hs h j hj
      rw [search] at h
      cases hl : used.lookup start with
      | none => rw [hl] at h; simp at h
      | some d =>
        rw [hl] at h
        simp only at h
        split at h
        · simp at h
        · cases j with
          | zero => rw [Nat.add_zero, Nat.mod_eq_of_lt hs, hl]; rfl
          | succ j =>
            have := ih _ (Nat.mod_lt _ (by decide)) h j (by omega)
            rw [Nat.mod_add_mod] at this
            rwa [show start + (j + 1) = start + 1 + j by omega]
  by_contra hc
  have hnone : search c used val (used.length + 1) start = none := by simpa using hc
  have hall := key _ start hs hnone
  have hkeys : ∀ k, (used.lookup k).isSome → k ∈ used.map Prod.fst := by
    intro k hk
    clear hall key hnone hc hu
    induction used with
    | nil => simp at hk
    | cons a l ih =>
      obtain ⟨x, d⟩ := a
      rw [List.lookup_cons] at hk
      by_cases hx : k = x
      · simp [hx]
      · rw [beq_false_of_ne hx] at hk
        rw [List.map_cons]
        exact List.mem_cons_of_mem _ (ih hk)
  have hnd : ((List.range (used.length + 1)).map fun j => (start + j) % colors).Nodup := by
    apply List.Nodup.map_on _ List.nodup_range
    intro a ha b hb hab
    rw [List.mem_range] at ha hb
    have h1 : (start + a) ≡ (start + b) [MOD colors] := hab
    have h2 : a ≡ b [MOD colors] := Nat.ModEq.add_left_cancel' start h1
    exact Nat.ModEq.eq_of_lt_of_lt h2 (by omega) (by omega)
  have hsub : ((List.range (used.length + 1)).map fun j => (start + j) % colors) ⊆ used.map Prod.fst := by
    intro k hk
    obtain ⟨j, hj, rfl⟩ := List.mem_map.1 hk
    exact hkeys _ (hall j (List.mem_range.1 hj))
  have := (List.subperm_of_subset hnd hsub).length_le
  simp at this
  omega

theorem act_isSome (p : State) (a : Action) (hu : p.used.length < colors) :
    ∃ o q, act c p a = some (o, q) ∧ q.used.length ≤ p.used.length + 1 := by
  have key : ∀ (p : State) start val, start < colors → p.used.length < colors →
      ∃ k q, ensureUnique c p start val = some (k, q) ∧ q.used.length ≤ p.used.length + 1 := by
    intro p start val hs hu
    obtain ⟨k, hk⟩ := Option.isSome_iff_exists.1 (search_isSome c p.used val start hs hu)
    refine ⟨k, _, by rw [ensureUnique, hk]; rfl, ?_⟩
    split <;> simp
  cases a with
  | paint x =>
    obtain ⟨k, q, h1, h2⟩ := key p _ x (startColor_lt c p.saltValue x) hu
    exact ⟨_, q, by rw [act, h1]; rfl, h2⟩
  | shade t =>
    obtain ⟨k, q, h1, h2⟩ := key { p with salt := some (tensorHash c p.saltValue t) } _ (.tensor t) (startColor_lt c p.saltValue (.tensor t)) hu
    exact ⟨_, q, by simp only [act]; rw [h1]; rfl, h2⟩
  | salt s => exact ⟨_, _, rfl, by simp⟩
  | reset => exact ⟨_, _, rfl, by simp⟩

/-- **C105.** The search for a free color ends as long as there are fewer than `2^32` requests. -/
theorem run_isSome (as : List Action) (p : State) (hu : p.used.length + as.length ≤ colors) : (run c p as).isSome := by
  induction as generalizing p with
  | nil => rfl
  | cons a as ih =>
    simp only [List.length_cons] at hu
    obtain ⟨o, q, h1, h2⟩ := act_isSome c p a (by omega)
    have := ih q (by omega)
    obtain ⟨r, hr⟩ := Option.isSome_iff_exists.1 this
    rw [run, h1, Option.bind_some, hr]
    rfl

/-! ### What is not resolved -/

theorem act_new (o : Obj) : act c State.new (.paint o) =
    some (some ⟨o, defaultSalt, startColor c defaultSalt o⟩, ⟨[(startColor c defaultSalt o, o)], none⟩) := by
  rfl

/-- **C105, not resolved.** Of tensors with one label only the label is compared: whatever the hash functions are, there are two tensors with
the same label and different numbers of slots that get the same color. -/
theorem ranks_share_color : ∃ t t' : Ten, t.label = t'.label ∧ t.ket = t'.ket ∧ t.bra ≠ t'.bra ∧
    ∃ k p', run c State.new [.shade t, .reset, .shade t', .reset] = some ([⟨.tensor t, defaultSalt, k⟩, ⟨.tensor t', defaultSalt, k⟩], p') := by
  let ten : Nat → Ten := fun b => ⟨0, b, 0, 0, 0, 0, false, 0⟩
  obtain ⟨x, y, hne, he⟩ := Fintype.exists_ne_map_eq_of_card_lt
    (fun b : Fin (colors + 1) => (⟨startColor c defaultSalt (.tensor (ten b)), startColor_lt c _ _⟩ : Fin colors)) (by simp)
  simp only [Fin.mk.injEq] at he
  refine ⟨ten x, ten y, rfl, rfl, fun e => hne (Fin.ext e), startColor c defaultSalt (.tensor (ten x)),
    ⟨[(startColor c defaultSalt (.tensor (ten x)), .tensor (ten x))], none⟩, ?_⟩
  simp only [run, act, State.new, State.saltValue, Option.getD_none, ensureUnique, search, List.lookup_nil,
    Option.map_some, Option.isNone_none, if_true, Option.bind_some]
  rw [← he]
  simp [mayHaveSame, ten]

/-- **C105, not resolved.** Without `distinct_named_indices` a named and an unnamed index of one space are meant to get different colors (the
named one is shifted), but a collision of the hash is not noticed. -/
theorem named_unnamed_share_color (hd : c.distinct = false) (i j : Nat) (hij : c.idxColor i = c.idxColor j)
    (hcol : startColor c defaultSalt (.index i) = startColor c defaultSalt (.index j)) :
    ∃ k p', run c State.new [.paint (.index i), .paint (.index j)] =
      some ([⟨.index i, defaultSalt, k⟩, ⟨.index j, defaultSalt, k⟩], p') := by
  refine ⟨startColor c defaultSalt (.index i), ⟨[(startColor c defaultSalt (.index i), .index i)], none⟩, ?_⟩
  rw [run, act_new, Option.bind_some]
  simp only [run, act, State.saltValue, Option.getD_none, ensureUnique]
  rw [← hcol]
  simp [search, mayHaveSame, hd, hij]

/-! ### Examples -/

/-- A configuration in which all hashes collide. -/
def exCfg : Cfg := ⟨[7], true, fun i => i / 10, fun b => b, fun x => x, fun _ _ => 2 ^ 32 - 2⟩

/-- Collisions are resolved with wrapping: index `3` and `5` (one space) share a color, the named index `7` of the same space, a bra and a ket
get others. -/
example : (run exCfg State.new [.paint (.index 3), .paint (.bra 0), .paint (.index 7), .paint (.index 5), .paint (.ket 0), .paint (.bra 0)]).map
    (fun r => r.1.map Painted.color) = some [2 ^ 32 - 2, 2 ^ 32 - 1, 0, 2 ^ 32 - 2, 1, 2 ^ 32 - 1] := by decide +kernel

end SeQuant.Painter
