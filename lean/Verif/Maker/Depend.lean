import Verif.Maker.Quantum

/-!
# Which indices of the operators depend on which, and their prefactors (C111)
-/

namespace SeQuant.Maker

open SeQuant.Registry (OpClass)

/-- With cluster-specific virtuals each particle index belongs to all hole indices of the operator; nothing else depends on anything. -/
def Clustered (csv : Bool) (t : Term Sel) : Prop :=
  ∀ i ∈ t.bra ++ t.ket, i.proto =
    if csv = true ∧ i.space = .particle then ((t.bra ++ t.ket).filter fun j => decide (j.space = .hole)).map Idx.name else []

theorem space_of_replicate {l : List (Idx Sel)} {k : Nat} {s : Sel} (h : l.map Idx.space = List.replicate k s) : ∀ i ∈ l, i.space = s := by
  intro i hi
  have : i.space ∈ l.map Idx.space := List.mem_map_of_mem hi
  rw [h] at this
  exact List.eq_of_mem_replicate this

theorem filter_spaces (p h : List (Idx Sel)) (hp : ∀ i ∈ p, i.space = .particle) (hh : ∀ i ∈ h, i.space = .hole) :
    p.filter (fun j => decide (j.space = .hole)) = [] ∧ h.filter (fun j => decide (j.space = .hole)) = h := by
  constructor
  · rw [List.filter_eq_nil_iff]
    intro i hi
    simp [hp i hi]
  · rw [List.filter_eq_self]
    intro i hi
    simp [hh i hi]

theorem clustered_ex (basis : Basis) (label : String) (p h : Nat) (symm : Option Sym) (dep : Dep) (norm : Norm) (n : Nat) (csv : Bool) (t : Term Sel)
    (hm : make basis label (List.replicate p .particle) (List.replicate h .hole) [] symm dep norm n = some t)
    (hd : dep = (if csv then .bra else .none) ∨ dep = (if csv then .ket else .none) ∧ p = 0) : Clustered csv t := by
  obtain ⟨-, -, h3, h4, -⟩ := make_indices _ _ _ _ _ _ _ _ _ _ hm
  obtain ⟨d1, d2⟩ := make_dependence _ _ _ _ _ _ _ _ _ _ hm
  have hb := space_of_replicate h3
  have hk := space_of_replicate h4
  obtain ⟨f1, f2⟩ := filter_spaces t.bra t.ket hb hk
  intro i hi
  rw [List.filter_append, f1, f2, List.nil_append]
  rcases List.mem_append.1 hi with hi | hi
  · rw [d1 i hi, hb i hi]
    rcases hd with rfl | ⟨rfl, rfl⟩
    · cases csv <;> simp
    · rw [List.replicate_zero, List.map_eq_nil_iff] at h3
      rw [h3] at hi
      exact absurd hi (by simp)
  · rw [d2 i hi, hk i hi]
    rcases hd with rfl | ⟨rfl, rfl⟩
    · cases csv <;> simp
    · rw [List.replicate_zero, List.map_eq_nil_iff] at h3
      cases csv <;> simp [h3]

theorem clustered_deex (basis : Basis) (label : String) (p h : Nat) (symm : Option Sym) (dep : Dep) (norm : Norm) (n : Nat) (csv : Bool) (t : Term Sel)
    (hm : make basis label (List.replicate h .hole) (List.replicate p .particle) [] symm dep norm n = some t)
    (hd : dep = if csv then .ket else .none) : Clustered csv t := by
  obtain ⟨-, -, h3, h4, -⟩ := make_indices _ _ _ _ _ _ _ _ _ _ hm
  obtain ⟨d1, d2⟩ := make_dependence _ _ _ _ _ _ _ _ _ _ hm
  have hb := space_of_replicate h3
  have hk := space_of_replicate h4
  obtain ⟨f1, f2⟩ := filter_spaces t.ket t.bra hk hb
  intro i hi
  rw [List.filter_append, f1, f2, List.append_nil]
  subst hd
  rcases List.mem_append.1 hi with hi | hi
  · rw [d1 i hi, hb i hi]
    cases csv <;> simp
  · rw [d2 i hi, hk i hi]
    cases csv <;> simp

theorem clustered_A (basis : Basis) (label : String) (np nh : Int) (c a : List Sel) (symm : Option Sym) (cl : OpClass) (norm : Norm) (n : Nat) (csv : Bool)
    (t : Term Sel) (hs : spacesA np nh = some (c, a))
    (hm : make basis label c a [] symm (defaultDep (if csv then some (if 0 < np ∨ 0 < nh then .bra else .ket) else none) csv cl) norm n = some t) :
    Clustered csv t := by
  have hz : ¬ (np = 0 ∧ nh = 0) := by
    intro h0
    rw [spacesA, if_pos h0] at hs
    cases hs
  have hsg : ¬ (np ≠ 0 ∧ nh ≠ 0 ∧ ¬((0 < np ∧ 0 < nh) ∨ (np < 0 ∧ nh < 0))) := by
    intro h0
    rw [spacesA, if_neg hz, if_pos h0] at hs
    cases hs
  rcases spacesA_eq np nh c a hs with ⟨h1, rfl, rfl⟩ | ⟨h1, rfl, rfl⟩
  · refine clustered_deex _ _ _ _ _ _ _ _ csv t hm ?_
    have : ¬ (0 < np ∨ 0 < nh) := by omega
    rw [if_neg this]
    cases csv <;> simp [defaultDep]
  · refine clustered_ex _ _ _ _ _ _ _ _ csv t hm (.inl ?_)
    have : 0 < np ∨ 0 < nh := by omega
    rw [if_pos this]
    cases csv <;> simp [defaultDep]

theorem clustered_S (basis : Basis) (label : String) (k : Int) (c a : List Sel) (symm : Option Sym) (cl : OpClass) (norm : Norm) (n : Nat) (csv : Bool)
    (t : Term Sel) (hs : spacesS k = some (c, a))
    (hm : make basis label c a [] symm (defaultDep (if csv then some (if 0 < k then .bra else .ket) else none) csv cl) norm n = some t) :
    Clustered csv t := by
  have hz : k ≠ 0 := by
    intro h0
    rw [spacesS, if_pos h0] at hs
    cases hs
  rcases spacesS_eq k c a hs with ⟨h1, rfl, rfl⟩ | ⟨h1, rfl, rfl⟩
  · refine clustered_deex _ _ _ _ _ _ _ _ csv t hm ?_
    rw [if_neg (show ¬ 0 < k by omega)]
    cases csv <;> simp [defaultDep]
  · refine clustered_ex _ _ _ _ _ _ _ _ csv t hm (.inl ?_)
    rw [if_pos (show 0 < k by omega)]
    cases csv <;> simp [defaultDep]

/-- The operators that excite or de-excite. -/
def Op.moves : Op → Bool
  | .gen _ _ => false
  | _ => true

/-- **C111** (cluster-specific virtuals): in the tensor form of every excitation, de-excitation and projector each particle index depends on all hole
indices and nothing else depends on anything; without cluster-specific virtuals nothing depends. -/
theorem csv_dependence (cls : String → OpClass) (hcls : RightClasses cls) (basis : Basis) (csv : Bool) (n : Nat) (o : Op) (ho : o.moves = true)
    (t : Term Sel) (h : o.tensor cls basis csv n = some t) : Clustered csv t := by
  obtain ⟨c1, c2, c3, c4⟩ := hcls
  unfold Op.tensor at h
  cases hs : o.spaces cls basis with
  | none => rw [hs] at h; exact absurd h (by simp)
  | some ca =>
    obtain ⟨c, a⟩ := ca
    rw [hs] at h
    have hcl : ∀ (k l : Nat) (cl : OpClass), classSpaces cl k l = some (c, a) →
        (cl = .ex → c = List.replicate k .particle ∧ a = List.replicate l .hole) ∧
        (cl = .deex → c = List.replicate k .hole ∧ a = List.replicate l .particle) := by
      intro k l cl hcl
      unfold classSpaces at hcl
      split at hcl
      · exact absurd hcl (by simp)
      · constructor
        · rintro rfl
          simp only [Option.some.injEq, Prod.mk.injEq] at hcl
          exact ⟨hcl.1.symm, hcl.2.symm⟩
        · rintro rfl
          simp only [Option.some.injEq, Prod.mk.injEq] at hcl
          exact ⟨hcl.1.symm, hcl.2.symm⟩
    cases o with
    | gen label k => exact absurd ho (by simp [Op.moves])
    | t k =>
      obtain ⟨rfl, rfl⟩ := (hcl k k _ hs).1 c1
      refine clustered_ex _ _ _ _ _ _ _ _ csv t h (.inl ?_)
      rw [c1]
      cases csv <;> rfl
    | lambda k =>
      obtain ⟨rfl, rfl⟩ := (hcl k k _ hs).2 c2
      refine clustered_deex _ _ _ _ _ _ _ _ csv t h ?_
      rw [c2]
      cases csv <;> rfl
    | r np nh norm =>
      obtain ⟨rfl, rfl⟩ := (hcl np nh _ hs).1 c3
      refine clustered_ex _ _ _ _ _ _ _ _ csv t h (.inl ?_)
      rw [c3]
      cases csv <;> rfl
    | l np nh norm =>
      obtain ⟨rfl, rfl⟩ := (hcl nh np _ hs).2 c4
      refine clustered_deex _ _ _ _ _ _ _ _ csv t h ?_
      rw [c4]
      cases csv <;> rfl
    | A np nh norm => exact clustered_A _ _ _ _ _ _ _ _ _ _ csv t hs h
    | S k norm => exact clustered_S _ _ _ _ _ _ _ _ _ csv t hs h
    | P np nh norm =>
      simp only at h
      unfold Op.spaces at hs
      simp only at hs
      split at h
      · rename_i hb
        rw [if_pos hb] at hs
        split at hs
        · exact clustered_S _ _ _ _ _ _ _ _ _ csv t hs h
        · exact absurd hs (by simp)
      · rename_i hb
        rw [if_neg hb] at hs
        exact clustered_A _ _ _ _ _ _ _ _ _ _ csv t hs h

/-- Two virtuals of a doubles amplitude depend on both occupied indices. -/
example : ((Op.t 2).tensor (fun s => if s = "t" then .ex else .gen) .spinor true 0).map (fun t => (t.bra.map Idx.proto, t.ket.map Idx.proto)) =
    some ([[(.hole, 1), (.hole, 2)], [(.hole, 1), (.hole, 2)]], [[], []]) := by decide +kernel

/-- The normalization of an operator if the caller asks for none: that of the amplitudes divides by the number of equivalent terms, the projectors
are not normalized. -/
def Op.wanted : Op → Norm
  | .gen _ _ => .default
  | .t _ => .default
  | .lambda _ => .default
  | .r _ _ norm => norm
  | .l _ _ norm => norm
  | .A _ _ norm => norm.getD .implicit
  | .S _ norm => norm.getD .implicit
  | .P _ _ norm => norm.getD .implicit

/-- The number of terms that are equal by symmetry. -/
def equivalent (basis : Basis) (nc na : Nat) : Nat :=
  match basis with
  | .spinor => nc.factorial * na.factorial
  | .spinfree => nc.factorial

/-- The prefactor for a normalization. -/
def prefactor (basis : Basis) (nc na : Nat) : Norm → Coef
  | .default => .num (1 / (equivalent basis nc na : ℚ))
  | .implicit => .one
  | .squareRoot => .sqrt (1 / (equivalent basis nc na : ℚ))

/-- **C111**: the prefactor of the tensor form of every operator; a general operator may not bear the label of a projector. -/
theorem tensor_coef (cls : String → OpClass) (basis : Basis) (csv : Bool) (n : Nat) (o : Op) (t : Term Sel) (h : o.tensor cls basis csv n = some t)
    (hl : ∀ label k, o = .gen label k → label ≠ "Â" ∧ label ≠ "Ŝ") :
    t.coef = prefactor basis t.bra.length t.ket.length o.wanted := by
  unfold Op.tensor at h
  cases hs : o.spaces cls basis with
  | none => rw [hs] at h; exact absurd h (by simp)
  | some ca =>
    obtain ⟨c, a⟩ := ca
    rw [hs] at h
    have key : ∀ label symm dep norm, make basis label c a [] symm dep norm n = some t → norm = o.wanted →
        t.coef = prefactor basis t.bra.length t.ket.length o.wanted := by
      intro label symm dep norm hm hn
      obtain ⟨-, -, h3, h4, -⟩ := make_indices _ _ _ _ _ _ _ _ _ _ hm
      have l1 : t.bra.length = c.length := by rw [← h3, List.length_map]
      have l2 : t.ket.length = a.length := by rw [← h4, List.length_map]
      have := (make_coef _ _ _ _ _ _ _ _ _ _ hm).1
      rw [← hn, l1, l2, this]
      cases basis <;> cases norm <;> rfl
    cases o with
    | gen label k =>
      obtain ⟨n1, n2⟩ := hl label k rfl
      exact key _ _ _ _ h (by simp [defaultNorm, Op.wanted, n1, n2])
    | P np nh norm =>
      simp only at h
      split at h <;> exact key _ _ _ _ h (by cases norm <;> simp [defaultNorm, Op.wanted])
    | t k => exact key _ _ _ _ h (by simp [defaultNorm, Op.wanted])
    | lambda k => exact key _ _ _ _ h (by simp [defaultNorm, Op.wanted])
    | r np nh norm => exact key _ _ _ _ h (by simp [defaultNorm, Op.wanted])
    | l np nh norm => exact key _ _ _ _ h (by simp [defaultNorm, Op.wanted])
    | A np nh norm => exact key _ _ _ _ h (by cases norm <;> simp [defaultNorm, Op.wanted])
    | S k norm => exact key _ _ _ _ h (by cases norm <;> simp [defaultNorm, Op.wanted])

example : ((Op.S 2 none).tensor (fun _ => .gen) .spinfree false 0).map (fun t => decide (t.coef = .one)) = some true ∧
    ((Op.S 2 (some .default)).tensor (fun _ => .gen) .spinfree false 0).map (fun t => decide (t.coef = .num (1 / 2))) = some true := by
  decide +kernel

end SeQuant.Maker
