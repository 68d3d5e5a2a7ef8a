import Verif.Conv.Values

/-!
# The predefined registries (C125)
-/

namespace SeQuant.Conv

open SeQuant.Spaces (Mask Attr)

/-- Every state of `a` is one of `b`. -/
def Sub (a b : Mask) : Prop := a &&& b = a

instance (a b : Mask) : Decidable (Sub a b) := by unfold Sub; infer_instance

/-- The quantum numbers of the physical spaces. -/
def qsOf (legacy : Bool) : List Mask := if legacy then [0#32] else [anySpin, alpha, beta]

/-- Number of states of a type (bits set). -/
def bitCount (t : Mask) : Nat := ((List.range 32).filter fun i => t.getLsbD i).length

/-- What is expected of the spaces for a single-product vacuum. -/
structure Sound (legacy : Bool) (r : Reg) : Prop where
  /-- keys and attributes identify spaces -/
  uniq : r.spaces.Pairwise fun s t => s.key ≠ t.key ∧ s.attr ≠ t.attr
  /-- all designations are made, for all quantum numbers -/
  made : ∀ w ∈ roles, (r.desig w).dflt ≠ 0#32
  found : ∀ w ∈ roles, ∀ q ∈ qsOf legacy, (getQn r w q).isOk = true
  /-- vacuum within reference within everything -/
  vacRef : Sub (r.desig .vac).dflt (r.desig .ref).dflt
  refAll : Sub (r.desig .ref).dflt (r.desig .complete).dflt
  /-- holes are made in the reference, particles outside of the vacuum -/
  holes : Sub (r.desig .hole).dflt (r.desig .ref).dflt
  particles : Sub (r.desig .particle).dflt (r.desig .complete).dflt
  particlesVac : (r.desig .particle).dflt &&& (r.desig .vac).dflt = 0#32
  /-- all spaces are within the complete one, which is made of registered base spaces -/
  within : ∀ s ∈ r.spaces, Sub s.attr.type (r.desig .complete).dflt
  based : ∀ i ∈ List.range 32, (r.desig .complete).dflt.getLsbD i = true → ∀ q ∈ qsOf legacy,
    ∃ s ∈ r.spaces, s.attr = ⟨1#32 <<< i, q⟩
  /-- sizes add up -/
  sizes : ∀ s ∈ r.spaces, s.key ≠ [] → s.size = 10 * bitCount s.attr.type
  /-- occupancy is decided correctly -/
  occ : ∀ s ∈ r.spaces, s.key ≠ [] → isPureOcc r s = .ok (decide (Sub s.attr.type (r.desig .vac).dflt))
  unocc : ∀ s ∈ r.spaces, s.key ≠ [] → isPureUnocc r s = .ok (decide (s.attr.type &&& (r.desig .vac).dflt = 0#32))
  mask : r.mask = spinAny legacy

/-- The same as a test. -/
def soundTest (legacy : Bool) (r : Reg) : Bool :=
  decide (r.spaces.Pairwise fun s t => s.key ≠ t.key ∧ s.attr ≠ t.attr) &&
  decide (∀ w ∈ roles, (r.desig w).dflt ≠ 0#32) &&
  (roles.all fun w => (qsOf legacy).all fun q => (getQn r w q).isOk) &&
  decide (Sub (r.desig .vac).dflt (r.desig .ref).dflt) &&
  decide (Sub (r.desig .ref).dflt (r.desig .complete).dflt) &&
  decide (Sub (r.desig .hole).dflt (r.desig .ref).dflt) &&
  decide (Sub (r.desig .particle).dflt (r.desig .complete).dflt) &&
  decide ((r.desig .particle).dflt &&& (r.desig .vac).dflt = 0#32) &&
  decide (∀ s ∈ r.spaces, Sub s.attr.type (r.desig .complete).dflt) &&
  ((List.range 32).all fun i => !(r.desig .complete).dflt.getLsbD i || (qsOf legacy).all fun q =>
    r.spaces.any fun s => decide (s.attr = ⟨1#32 <<< i, q⟩)) &&
  decide (∀ s ∈ r.spaces, s.key ≠ [] → s.size = 10 * bitCount s.attr.type) &&
  decide (∀ s ∈ r.spaces, s.key ≠ [] → isPureOcc r s = .ok (decide (Sub s.attr.type (r.desig .vac).dflt))) &&
  decide (∀ s ∈ r.spaces, s.key ≠ [] → isPureUnocc r s = .ok (decide (s.attr.type &&& (r.desig .vac).dflt = 0#32))) &&
  decide (r.mask = spinAny legacy)

theorem soundTest_iff (legacy : Bool) (r : Reg) (h : soundTest legacy r = true) : Sound legacy r := by
  simp only [soundTest, Bool.and_eq_true, decide_eq_true_eq, List.all_eq_true, List.any_eq_true, Bool.or_eq_true, Bool.not_eq_true'] at h
  obtain ⟨⟨⟨⟨⟨⟨⟨⟨⟨⟨⟨⟨⟨h1, h2⟩, h3⟩, h4⟩, h5⟩, h6⟩, h7⟩, h8⟩, h9⟩, h10⟩, h11⟩, h12⟩, h13⟩, h14⟩ := h
  exact ⟨h1, h2, h3, h4, h5, h6, h7, h8, h9, fun i hi hb q hq => by
    rcases h10 i hi with hc | hc
    · rw [hc] at hb; cases hb
    · exact hc q hq, h11, h12, h13, h14⟩

/-- **C125.** Every predefined registry can be built, for both conventions about spin, and is sound. -/
theorem predefined (c : Convention) (legacy : Bool) : ∃ r, make c legacy = .ok r ∧ Sound legacy r := by
  have h : soundTest legacy (known c legacy) = true := by
    cases c <;> cases legacy <;> decide +kernel
  exact ⟨_, make_eq c legacy, soundTest_iff legacy _ h⟩

example : ∃ r, make .f12 false = .ok r ∧ r.mask = anySpin :=
  let ⟨r, h, hs⟩ := predefined .f12 false
  ⟨r, h, hs.mask⟩

/-- **C125.** Except for the spaces of QCiFS, the space unoccupied in the vacuum exists and is the rest of the complete space. -/
theorem unoccupied (c : Convention) (hc : c ≠ .qcifs) (legacy : Bool) :
    ∃ r, make c legacy = .ok r ∧ ∀ q ∈ qsOf legacy, ∃ s ∈ r.spaces, vacUnocc r q = .ok s ∧ s.attr.qns = q ∧
      s.attr.type &&& (r.desig .vac).dflt = 0#32 ∧ s.attr.type ||| (r.desig .vac).dflt = (r.desig .complete).dflt := by
  have h : (fun r : Reg => (qsOf legacy).all fun q => (vacUnocc r q).all fun s => decide (s ∈ r.spaces ∧ s.attr.qns = q ∧
      s.attr.type &&& (r.desig .vac).dflt = 0#32 ∧ s.attr.type ||| (r.desig .vac).dflt = (r.desig .complete).dflt))
      (known c legacy) = true := by
    cases c <;> cases legacy <;> first | exact absurd rfl hc | decide +kernel
  refine ⟨_, make_eq c legacy, fun q hq => ?_⟩
  obtain ⟨s, h3, h4⟩ := (Out.all_iff _ _).1 (List.all_eq_true.1 h q hq)
  obtain ⟨h5, h6⟩ := of_decide_eq_true h4
  exact ⟨s, h5, h3, h6⟩

example : ∃ r, make .mr true = .ok r ∧ ∃ s ∈ r.spaces, vacUnocc r 0#32 = .ok s :=
  let ⟨r, h, hs⟩ := unoccupied .mr (by decide) true
  let ⟨s, h1, h2, _⟩ := hs 0#32 (by decide)
  ⟨r, h, s, h1, h2⟩

theorem retrieve_attr (l : List Sp) (a : Attr) (s : Sp) (h : retrieve l a = .ok s) : s ∈ l ∧ s.attr = a := by
  unfold retrieve at h
  rcases hx : findAttr l a with _ | t
  · rw [hx] at h; cases h
  · rw [hx] at h
    injection h with h
    subst h
    exact ⟨List.mem_of_find?_eq_some hx, by simpa using List.find?_some hx⟩

theorem getQn_default (r : Reg) (w : Role) (q : Mask) (hp : (r.desig w).perQn = []) (hd : (r.desig w).dflt ≠ 0#32) :
    getQn r w q = retrieve r.spaces ⟨(r.desig w).dflt, q⟩ := by
  simp [getQn, hp, getDefault, hd, Bind.bind, Out.bind]

/-- **C125.** With the spaces of QCiFS the space unoccupied in the vacuum is not registered: asking for it throws, for all quantum
numbers, and so does `contains_unoccupied`. -/
theorem unoccupied_qcifs (legacy : Bool) : ∃ r, make .qcifs legacy = .ok r ∧ ∀ q, vacUnocc r q = .throws := by
  have h : (fun r : Reg => (r.desig .complete) = ⟨127#32, []⟩ ∧ (r.desig .vac) = ⟨7#32, []⟩ ∧
      ∀ s ∈ r.spaces, s.attr.type ≠ 120#32) (known .qcifs legacy) := by
    cases legacy <;> decide +kernel
  have h1 := make_eq .qcifs legacy
  generalize known .qcifs legacy = r at h h1
  obtain ⟨hc, hv, hn⟩ := h
  refine ⟨r, h1, fun q => ?_⟩
  have hcg := getQn_default r .complete q (by rw [hc]) (by rw [hc]; decide)
  have hvg := getQn_default r .vac q (by rw [hv]) (by rw [hv]; decide)
  rw [hc] at hcg
  rw [hv] at hvg
  rw [vacUnocc, hcg, hvg]
  have hshape : ∀ a, (∃ s, retrieve r.spaces a = .ok s) ∨ retrieve r.spaces a = .throws := by
    intro a
    unfold retrieve
    rcases findAttr r.spaces a with _ | t
    · exact .inr rfl
    · exact .inl ⟨t, rfl⟩
  rcases hshape ⟨127#32, q⟩ with ⟨s, hs⟩ | hs
  · rcases hshape ⟨7#32, q⟩ with ⟨t, ht⟩ | ht
    · rw [hs, ht]
      have h5 : s.attr.type = 127#32 := by rw [(retrieve_attr _ _ _ hs).2]
      have h6 : t.attr.type = 7#32 := by rw [(retrieve_attr _ _ _ ht).2]
      have h7 : SeQuant.Spaces.unoccupiedType s.attr.type t.attr.type = some 120#32 := by rw [h5, h6]; decide
      show (match SeQuant.Spaces.unoccupiedType s.attr.type t.attr.type with
        | some t => retrieve r.spaces ⟨t, q⟩
        | none => .aborts) = Out.throws
      rw [h7]
      show retrieve r.spaces ⟨120#32, q⟩ = .throws
      rcases hshape ⟨120#32, q⟩ with ⟨u, hu⟩ | hu
      · have := retrieve_attr _ _ _ hu
        exact absurd (by rw [this.2]) (hn u this.1)
      · exact hu
    · rw [hs, ht]; rfl
  · rw [hs]; rfl

/-- **C125.** The pair of registries for fermions and bosons can be built; the bosonic one answers no question about occupancy: for all quantum
numbers the occupied space is reported as missing. -/
theorem bose_occupancy (legacy : Bool) : ∃ f b, fermiReg legacy = .ok f ∧ boseReg legacy = .ok b ∧ f.spaces = b.spaces ∧
    (∀ q ∈ qsOf legacy, ∀ w ∈ roles, (getQn f w q).isOk = true) ∧ (getQn b .particle anySpin).isOk = true ∧
    ∀ q, getQn b .vac q = .throws := by
  have h : ((fermiReg legacy).all fun f => (boseReg legacy).all fun b => decide (f.spaces = b.spaces) &&
      ((qsOf legacy).all fun q => roles.all fun w => (getQn f w q).isOk) && (getQn b .particle anySpin).isOk &&
      decide (b.desig .vac = {})) = true := by
    cases legacy <;> decide +kernel
  obtain ⟨f, h1, h2⟩ := (Out.all_iff _ _).1 h
  obtain ⟨b, h3, h4⟩ := (Out.all_iff _ _).1 h2
  simp only [Bool.and_eq_true, decide_eq_true_eq, List.all_eq_true] at h4
  obtain ⟨⟨⟨h5, h6⟩, h7⟩, h8⟩ := h4
  exact ⟨f, b, h1, h3, h5, h6, h7, fun q => by simp [getQn, h8, getDefault, Bind.bind, Out.bind]⟩

/-- **C125.** The spaces for density fitting, hypercontraction, batching and projected orbitals can be added to every predefined registry;
atomic orbitals need the spaces they are made from: `m` and `e` for a second basis, `α'` for an auxiliary basis. -/
theorem extras (c : Convention) (legacy vbs abs : Bool) :
    (make c legacy >>= addDf >>= addThc >>= addBatch >>= addPao).isOk = true ∧
    ((make c legacy >>= addAo vbs abs).isOk = true ↔
      (vbs = true → c = .sr ∨ c = .f12 ∨ c = .qcifs) ∧ (abs = true → c = .f12 ∨ c = .qcifs)) := by
  rw [make_eq]
  cases c <;> cases legacy <;> cases vbs <;> cases abs <;> decide +kernel

/-- The labels of the additional spaces. -/
def extraKeys : List Key := [['Κ'], ['L'], ['z'], ['μ', '\u0303'], ['μ']]

/-- **C125.** If all of them are added, their quantum numbers have nothing in common with each other or with those of spin; the projected orbitals
have the type of the particle space, the atomic orbitals that of the space `p`. -/
theorem extras_apart (c : Convention) (legacy : Bool) :
    ∃ r, (make c legacy >>= addDf >>= addThc >>= addBatch >>= addPao >>= addAo false false) = .ok r ∧
    (∀ k ∈ extraKeys, ∃ s ∈ r.spaces, s.key = k ∧ s.attr.qns ≠ 0#32) ∧
    (∀ s ∈ r.spaces, s.key ∈ extraKeys → ∀ t ∈ r.spaces, t ≠ s → s.attr.qns &&& t.attr.qns = 0#32) ∧
    (∃ s ∈ r.spaces, s.key = ['μ', '\u0303'] ∧ s.attr.type = (r.desig .particle).dflt) ∧
    ∃ s ∈ r.spaces, s.key = ['μ'] ∧ ∃ p ∈ r.spaces, p.key = ['p'] ∧ s.attr.type = p.attr.type := by
  have h : ((make c legacy >>= addDf >>= addThc >>= addBatch >>= addPao >>= addAo false false).all fun r =>
      (extraKeys.all fun k => r.spaces.any fun s => decide (s.key = k) && decide (s.attr.qns ≠ 0#32)) &&
      (r.spaces.all fun s => !decide (s.key ∈ extraKeys) || r.spaces.all fun t => decide (t = s) || decide (s.attr.qns &&& t.attr.qns = 0#32)) &&
      (r.spaces.any fun s => decide (s.key = ['μ', '\u0303']) && decide (s.attr.type = (r.desig .particle).dflt)) &&
      r.spaces.any fun s => decide (s.key = ['μ']) && r.spaces.any fun p => decide (p.key = ['p']) && decide (s.attr.type = p.attr.type)) = true := by
    rw [make_eq]
    cases c <;> cases legacy <;> decide +kernel
  obtain ⟨r, h1, h2⟩ := (Out.all_iff _ _).1 h
  simp only [Bool.and_eq_true, List.all_eq_true, List.any_eq_true, decide_eq_true_eq, Bool.or_eq_true, Bool.not_eq_true',
    decide_eq_false_iff_not] at h2
  obtain ⟨⟨⟨h3, h4⟩, h5⟩, h6⟩ := h2
  exact ⟨r, h1, h3, fun s hs hk t ht hts => (((h4 s hs).resolve_left fun hn => hn hk) t ht).resolve_left hts, h5, h6⟩

/-- Whether the vacuum consists of the space with the lowest bit. -/
def lowest (c : Convention) : Bool := decide (c = .minimal) || decide (c = .minimalMr)

/-- **C125.** Questions about the occupancy of a space for density fitting: with the minimal conventions it counts as occupied, because its type is
that of the occupied orbitals, otherwise `is_pure_occupied` throws; `is_pure_unoccupied` throws if spin is used and denies otherwise. -/
theorem extras_occupancy (c : Convention) (legacy : Bool) : ∃ r, (make c legacy >>= addDf) = .ok r ∧ ∃ s ∈ r.spaces, s.key = ['Κ'] ∧
    isPureOcc r s = (if lowest c then .ok true else .throws) ∧ isPureUnocc r s = (if legacy then .ok false else .throws) := by
  have h : ((make c legacy >>= addDf).all fun r => r.spaces.any fun s => decide (s.key = ['Κ']) &&
      decide (isPureOcc r s = (if lowest c then .ok true else .throws)) && decide (isPureUnocc r s = (if legacy then .ok false else .throws))) = true := by
    rw [make_eq]
    cases c <;> cases legacy <;> decide +kernel
  obtain ⟨r, h1, h2⟩ := (Out.all_iff _ _).1 h
  obtain ⟨s, h3, h4⟩ := List.any_eq_true.1 h2
  simp only [Bool.and_eq_true, decide_eq_true_eq] at h4
  exact ⟨r, h1, s, h3, h4.1.1, h4.1.2, h4.2⟩

/-- **C125.** Spin spaces must be added first: after density fitting they are refused in every predefined registry without spin. -/
theorem spin_after_df (c : Convention) : ∀ r, (make c true >>= addDf >>= addFermiSpin) ≠ .ok r := by
  intro r h
  have hno : (make c true >>= addDf >>= addFermiSpin).isOk = false := by
    rw [make_eq]
    cases c <;> decide +kernel
  rw [h] at hno
  cases hno

end SeQuant.Conv
