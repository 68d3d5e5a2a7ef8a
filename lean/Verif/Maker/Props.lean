import Verif.Maker.Model
import Verif.Maker.Sums
import Verif.Mbpt.QnsProps
import Mathlib.GroupTheory.Perm.Sign

/-!
# What the construction of many-body operators guarantees (C111)
-/

namespace SeQuant.Maker

open SeQuant.Registry (OpClass)
open Finset

variable {σ : Type}

/-! ### Indices -/

theorem tmp_length (p : List (σ × Nat)) (ss : List σ) (n : Nat) : (tmpIndices p ss n).length = ss.length := by
  induction ss generalizing n with
  | nil => rfl
  | cons s ss ih => simp [tmpIndices, ih]

theorem tmp_space (p : List (σ × Nat)) (ss : List σ) (n : Nat) : (tmpIndices p ss n).map Idx.space = ss := by
  induction ss generalizing n with
  | nil => rfl
  | cons s ss ih => simp [tmpIndices, ih]

theorem tmp_ord (p : List (σ × Nat)) (ss : List σ) (n : Nat) : (tmpIndices p ss n).map Idx.ord = List.range' (n + 1) ss.length := by
  induction ss generalizing n with
  | nil => rfl
  | cons s ss ih => simp [tmpIndices, ih, List.range'_succ]

theorem tmp_proto (p : List (σ × Nat)) (ss : List σ) (n : Nat) (i : Idx σ) (h : i ∈ tmpIndices p ss n) : i.proto = p := by
  induction ss generalizing n with
  | nil => simp [tmpIndices] at h
  | cons s ss ih =>
    rcases List.mem_cons.1 h with rfl | h
    · rfl
    · exact ih _ h

/-- **C111**: an operator is refused exactly if the basis is spin-free and the numbers of creators and annihilators differ. -/
theorem make_refuses (basis : Basis) (label : String) (cre ann : List σ) (aux : List (Idx σ)) (symm : Option Sym) (dep : Dep) (norm : Norm) (n : Nat) :
    make basis label cre ann aux symm dep norm n = none ↔ basis = .spinfree ∧ cre.length ≠ ann.length := by
  unfold make buildInfo
  cases basis
  · simp
  · by_cases h : cre.length = ann.length <;> simp [h]

/-- **C111**: the indices of an operator have the spaces asked for, the tensor and the normal-ordered operator have the same ones, and their ordinals
are the next ones not yet used: no two are equal, and none equals that of an index made before. -/
theorem make_indices (basis : Basis) (label : String) (cre ann : List σ) (aux : List (Idx σ)) (symm : Option Sym) (dep : Dep) (norm : Norm) (n : Nat)
    (t : Term σ) (h : make basis label cre ann aux symm dep norm n = some t) :
    t.opCre = t.bra ∧ t.opAnn = t.ket ∧ t.bra.map Idx.space = cre ∧ t.ket.map Idx.space = ann ∧ t.aux = aux ∧
    (((t.bra ++ t.ket).map Idx.ord).Perm (List.range' (n + 1) (cre.length + ann.length))) ∧ t.counter = n + cre.length + ann.length := by
  unfold make buildInfo at h
  by_cases hb : basis ≠ .spinor ∧ cre.length ≠ ann.length
  · simp [hb] at h
  · rw [if_neg hb] at h
    cases dep with
    | bra =>
      simp only [Option.some.injEq] at h
      subst h
      refine ⟨rfl, rfl, tmp_space _ _ _, tmp_space _ _ _, rfl, ?_, rfl⟩
      simp only [List.map_append, tmp_ord]
      refine List.perm_append_comm.trans ?_
      rw [Nat.add_right_comm, Nat.add_comm cre.length, ← List.range'_append_1]
    | ket =>
      simp only [Option.some.injEq] at h
      subst h
      refine ⟨rfl, rfl, tmp_space _ _ _, tmp_space _ _ _, rfl, ?_, rfl⟩
      simp only [List.map_append, tmp_ord]
      rw [Nat.add_right_comm, List.range'_append_1]
    | none =>
      simp only [Option.some.injEq] at h
      subst h
      refine ⟨rfl, rfl, tmp_space _ _ _, tmp_space _ _ _, rfl, ?_, rfl⟩
      simp only [List.map_append, tmp_ord]
      rw [Nat.add_right_comm, List.range'_append_1]

/-- Two operators made one after the other share no index, and within one no index occurs twice. -/
theorem make_fresh (basis : Basis) (label label' : String) (cre ann cre' ann' : List σ) (aux aux' : List (Idx σ)) (symm symm' : Option Sym)
    (dep dep' : Dep) (norm norm' : Norm) (n : Nat) (t t' : Term σ) (h : make basis label cre ann aux symm dep norm n = some t)
    (h' : make basis label' cre' ann' aux' symm' dep' norm' t.counter = some t') :
    ((t.bra ++ t.ket ++ (t'.bra ++ t'.ket)).map Idx.ord).Nodup := by
  obtain ⟨-, -, -, -, -, p, c⟩ := make_indices _ _ _ _ _ _ _ _ _ _ h
  obtain ⟨-, -, -, -, -, p', -⟩ := make_indices _ _ _ _ _ _ _ _ _ _ h'
  rw [List.map_append]
  have := p.append p'
  rw [c, show n + cre.length + ann.length + 1 = n + 1 + (cre.length + ann.length) by omega, List.range'_append_1] at this
  exact this.nodup_iff.2 List.nodup_range'

/-- **C111**: which indices depend on which: none, or each creator on all annihilators, or each annihilator on all creators. -/
theorem make_dependence (basis : Basis) (label : String) (cre ann : List σ) (aux : List (Idx σ)) (symm : Option Sym) (dep : Dep) (norm : Norm) (n : Nat)
    (t : Term σ) (h : make basis label cre ann aux symm dep norm n = some t) :
    (∀ i ∈ t.bra, i.proto = if dep = .bra then t.ket.map Idx.name else []) ∧
    (∀ i ∈ t.ket, i.proto = if dep = .ket then t.bra.map Idx.name else []) := by
  unfold make buildInfo at h
  by_cases hb : basis ≠ .spinor ∧ cre.length ≠ ann.length
  · simp [hb] at h
  · rw [if_neg hb] at h
    cases dep <;> (simp only [Option.some.injEq] at h; subst h; exact ⟨fun i hi => by simpa using tmp_proto _ _ _ _ hi, fun i hi => by simpa using tmp_proto _ _ _ _ hi⟩)

/-- **C111**: prefactor and symmetry. -/
theorem make_coef (basis : Basis) (label : String) (cre ann : List σ) (aux : List (Idx σ)) (symm : Option Sym) (dep : Dep) (norm : Norm) (n : Nat)
    (t : Term σ) (h : make basis label cre ann aux symm dep norm n = some t) :
    let m : Nat := match basis with
      | .spinor => cre.length.factorial * ann.length.factorial
      | .spinfree => cre.length.factorial
    t.coef = (match norm with
      | .default => .num (1 / (m : ℚ))
      | .implicit => .one
      | .squareRoot => .sqrt (1 / (m : ℚ))) ∧
    t.symm = symm.getD (match basis with | .spinor => .antisymm | .spinfree => .nonsymm) ∧ t.label = label := by
  unfold make buildInfo at h
  by_cases hb : basis ≠ .spinor ∧ cre.length ≠ ann.length
  · simp [hb] at h
  · rw [if_neg hb] at h
    cases dep <;> (simp only [Option.some.injEq] at h; subst h; cases basis <;> cases norm <;> simp [normalize])

/-! ### Values -/

section Value

variable {γ : Type} [Fintype γ] [LinearOrder γ] {M : Type} [AddCommGroup M] [Module ℚ M] [DecidableEq σ]

/-- The sum over the values of some indices, each running over the states of its space. -/
def sumOver (ins : σ → γ → Bool) : List (Idx σ) → (Idx σ → γ) → ((Idx σ → γ) → M) → M
  | [], ρ, f => f ρ
  | i :: I, ρ, f => ∑ v ∈ univ.filter (fun v => ins i.space v = true), sumOver ins I (Function.update ρ i v) f

/-- The operator a term stands for: the sum over the values of its distinct indices, the tensor having elements `T` and the string of creators and
annihilators being the operator `A`.  (`ρ` gives values to indices that do not occur.) -/
def Term.value (ins : σ → γ → Bool) (T : List γ → List γ → ℚ) (A : List γ → List γ → M) (ρ : Idx σ → γ) (t : Term σ) : M :=
  sumOver ins (t.bra ++ t.ket).dedup ρ fun ρ => T (t.bra.map ρ) (t.ket.map ρ) • A (t.opCre.map ρ) (t.opAnn.map ρ)

/-- An environment after the indices have got their values. -/
def updL (ρ : Idx σ → γ) : List (Idx σ) → List γ → Idx σ → γ
  | i :: I, v :: vs => updL (Function.update ρ i v) I vs
  | _, _ => ρ

omit [Fintype γ] [LinearOrder γ] in
theorem updL_notMem (I : List (Idx σ)) (vs : List γ) (ρ : Idx σ → γ) (j : Idx σ) (h : j ∉ I) : updL ρ I vs j = ρ j := by
  induction I generalizing ρ vs with
  | nil => cases vs <;> rfl
  | cons i I ih =>
    cases vs with
    | nil => rfl
    | cons v vs =>
      simp only [List.mem_cons, not_or] at h
      rw [updL, ih _ _ h.2, Function.update_of_ne h.1]

omit [Fintype γ] [LinearOrder γ] in
theorem map_updL (I : List (Idx σ)) (vs : List γ) (ρ : Idx σ → γ) (hI : I.Nodup) (hl : vs.length = I.length) : I.map (updL ρ I vs) = vs := by
  induction I generalizing ρ vs with
  | nil => simpa [eq_comm] using hl
  | cons i I ih =>
    cases vs with
    | nil => simp at hl
    | cons v vs =>
      obtain ⟨h1, h2⟩ := List.nodup_cons.1 hI
      simp only [List.map_cons, updL]
      rw [ih _ _ h2 (by simpa using hl), updL_notMem _ _ _ _ h1, Function.update_self]

omit [LinearOrder γ] [Module ℚ M] in
theorem sumOver_eq (ins : σ → γ → Bool) (I : List (Idx σ)) (ρ : Idx σ → γ) (f : (Idx σ → γ) → M) :
    sumOver ins I ρ f = ∑ x : Fin I.length → γ, if ∀ j, ins (I.get j).space (x j) = true then f (updL ρ I (List.ofFn x)) else 0 := by
  induction I generalizing ρ with
  | nil =>
    rw [Fintype.sum_eq_single (fun j => j.elim0)]
    · simp [sumOver, updL]
    · intro x hx
      exact absurd (funext fun j => j.elim0) hx
  | cons i I ih =>
    show _ = ∑ x : Fin (I.length + 1) → γ, _
    rw [sumOver, ← Equiv.sum_comp (Fin.consEquiv fun _ : Fin (I.length + 1) => γ), Fintype.sum_prod_type, Finset.sum_filter]
    apply Finset.sum_congr rfl
    intro v _
    split
    · rename_i hv
      rw [ih]
      apply Finset.sum_congr rfl
      intro x _
      have e : (∀ j : Fin (I.length + 1), ins ((i :: I).get j).space ((Fin.consEquiv fun _ => γ) (v, x) j) = true) ↔ ∀ j, ins (I.get j).space (x j) = true := by
        rw [Fin.forall_fin_succ]
        simp [Fin.consEquiv, hv]
      have e' : updL ρ (i :: I) (List.ofFn ((Fin.consEquiv fun _ => γ) (v, x))) = updL (Function.update ρ i v) I (List.ofFn x) := by
        rw [List.ofFn_succ]
        simp [Fin.consEquiv, updL]
      exact (if_congr e (by rw [e']) rfl).symm
    · rename_i hv
      symm
      apply Finset.sum_eq_zero
      intro x _
      apply if_neg
      intro h
      exact hv (by simpa [Fin.consEquiv] using h 0)

omit [LinearOrder γ] [Module ℚ M] in
theorem sumOver_append (ins : σ → γ → Bool) (I J : List (Idx σ)) (ρ : Idx σ → γ) (f : (Idx σ → γ) → M) :
    sumOver ins (I ++ J) ρ f = sumOver ins I ρ fun ρ => sumOver ins J ρ f := by
  induction I generalizing ρ with
  | nil => rfl
  | cons i I ih =>
    show ∑ v ∈ _, sumOver ins (I ++ J) _ f = ∑ v ∈ _, sumOver ins I _ _
    exact Finset.sum_congr rfl fun v _ => ih _

omit [LinearOrder γ] in
/-- The value of a term is a sum over all values of the bra and of the ket. -/
theorem value_eq (ins : σ → γ → Bool) (T : List γ → List γ → ℚ) (A : List γ → List γ → M) (ρ : Idx σ → γ) (t : Term σ)
    (hc : t.opCre = t.bra) (ha : t.opAnn = t.ket) (hn : (t.bra ++ t.ket).Nodup) :
    t.value ins T A ρ = ∑ x : Fin t.bra.length → γ, ∑ y : Fin t.ket.length → γ,
      if (∀ j, ins (t.bra.get j).space (x j) = true) ∧ ∀ j, ins (t.ket.get j).space (y j) = true then
        T (List.ofFn x) (List.ofFn y) • A (List.ofFn x) (List.ofFn y) else 0 := by
  obtain ⟨h1, h2, h3⟩ := List.nodup_append.1 hn
  unfold Term.value
  rw [hn.dedup, sumOver_append, sumOver_eq]
  apply Finset.sum_congr rfl
  intro x _
  rw [sumOver_eq]
  split
  · rename_i hx
    apply Finset.sum_congr rfl
    intro y _
    have e1 : t.ket.map (updL (updL ρ t.bra (List.ofFn x)) t.ket (List.ofFn y)) = List.ofFn y := map_updL _ _ _ h2 (by simp)
    have e2 : t.bra.map (updL (updL ρ t.bra (List.ofFn x)) t.ket (List.ofFn y)) = List.ofFn x := by
      rw [List.map_congr_left (g := updL ρ t.bra (List.ofFn x))]
      · exact map_updL _ _ _ h1 (by simp)
      · intro i hi
        exact updL_notMem _ _ _ _ fun hk => h3 i hi i hk rfl
    by_cases hy : ∀ j, ins (t.ket.get j).space (y j) = true
    · rw [if_pos hy, if_pos ⟨hx, hy⟩, hc, ha, e1, e2]
    · rw [if_neg hy, if_neg fun h => hy h.2]
  · rename_i hx
    symm
    apply Finset.sum_eq_zero
    intro y _
    exact if_neg fun h => hx h.1

omit [LinearOrder γ] in
/-- The same for an operator whose creators, and whose annihilators, have the same space. -/
theorem value_const (basis : Basis) (label : String) (s s' : σ) (nc na : Nat) (aux : List (Idx σ)) (symm : Option Sym) (dep : Dep) (norm : Norm) (n : Nat)
    (t : Term σ) (h : make basis label (List.replicate nc s) (List.replicate na s') aux symm dep norm n = some t) (ins : σ → γ → Bool)
    (T : List γ → List γ → ℚ) (A : List γ → List γ → M) (ρ : Idx σ → γ) :
    t.value ins T A ρ = ∑ x : Fin nc → γ, ∑ y : Fin na → γ, if (∀ j, ins s (x j) = true) ∧ ∀ j, ins s' (y j) = true then
        T (List.ofFn x) (List.ofFn y) • A (List.ofFn x) (List.ofFn y) else 0 := by
  obtain ⟨h1, h2, h3, h4, -, hp, -⟩ := make_indices _ _ _ _ _ _ _ _ _ _ h
  have hn : (t.bra ++ t.ket).Nodup := List.Nodup.of_map _ (hp.nodup_iff.2 List.nodup_range')
  have l1 : t.bra.length = nc := by rw [← List.length_map Idx.space, h3, List.length_replicate]
  have l2 : t.ket.length = na := by rw [← List.length_map Idx.space, h4, List.length_replicate]
  have g1 : ∀ j : Fin t.bra.length, (t.bra.get j).space = s := by
    intro j
    have : (t.bra.get j).space ∈ t.bra.map Idx.space := List.mem_map_of_mem (List.get_mem _ _)
    rw [h3] at this
    exact List.eq_of_mem_replicate this
  have g2 : ∀ j : Fin t.ket.length, (t.ket.get j).space = s' := by
    intro j
    have : (t.ket.get j).space ∈ t.ket.map Idx.space := List.mem_map_of_mem (List.get_mem _ _)
    rw [h4] at this
    exact List.eq_of_mem_replicate this
  rw [value_eq ins T A ρ t h1 h2 hn]
  simp only [g1, g2]
  subst l1 l2
  rfl

/-- A function of two lists of given lengths changes its sign when one of them is permuted by an odd permutation. -/
def Antisymm {M : Type} [AddCommGroup M] (nc na : Nat) (A : List γ → List γ → M) : Prop :=
  (∀ (x : Fin nc → γ) (y : Fin na → γ) (g : Equiv.Perm (Fin nc)), A (List.ofFn (x ∘ g)) (List.ofFn y) = Equiv.Perm.sign g • A (List.ofFn x) (List.ofFn y)) ∧
  ∀ (x : Fin nc → γ) (y : Fin na → γ) (g : Equiv.Perm (Fin na)), A (List.ofFn x) (List.ofFn (y ∘ g)) = Equiv.Perm.sign g • A (List.ofFn x) (List.ofFn y)

omit [Fintype γ] [LinearOrder γ] in
theorem vanish {n : Nat} (F : (Fin n → γ) → ℚ) (h : ∀ x (g : Equiv.Perm (Fin n)), F (x ∘ g) = Equiv.Perm.sign g • F x) (x : Fin n → γ)
    (hx : ¬ Function.Injective x) : F x = 0 := by
  simp only [Function.Injective, not_forall] at hx
  obtain ⟨a, b, hab, hne⟩ := hx
  have := h x (Equiv.swap a b)
  rw [Equiv.Perm.sign_swap hne] at this
  have e : x ∘ Equiv.swap a b = x := by
    funext i
    simp only [Function.comp, Equiv.swap_apply_def]
    split
    · rename_i hi; rw [hi, hab]
    · split
      · rename_i hi; rw [hi, hab]
      · rfl
  rw [e] at this
  simp at this
  linarith

omit [Fintype γ] [LinearOrder γ] [Module ℚ M] in
theorem sign_smul_smul [Module ℚ M] (s : ℤˣ) (q : ℚ) (m : M) : (s • q) • (s • m) = q • m := by
  rcases Int.units_eq_one_or s with rfl | rfl
  · simp
  · simp

/-- **C111**: with the normalization by default an operator in a spinor basis is the sum over increasing tuples of creators and annihilators: every
distinct string of elementary operators is included exactly once. -/
theorem value_antisymm (label : String) (s s' : σ) (nc na : Nat) (aux : List (Idx σ)) (symm : Option Sym) (dep : Dep) (n : Nat) (t : Term σ)
    (h : make .spinor label (List.replicate nc s) (List.replicate na s') aux symm dep .default n = some t) (ins : σ → γ → Bool)
    (T : List γ → List γ → ℚ) (A : List γ → List γ → M) (ρ : Idx σ → γ) (hT : Antisymm nc na T) (hA : Antisymm nc na A) :
    ∃ q : ℚ, t.coef = .num q ∧ q • t.value ins T A ρ =
      ∑ x ∈ univ.filter (fun x : Fin nc → γ => StrictMono x ∧ ∀ j, ins s (x j) = true),
        ∑ y ∈ univ.filter (fun y : Fin na → γ => StrictMono y ∧ ∀ j, ins s' (y j) = true), T (List.ofFn x) (List.ofFn y) • A (List.ofFn x) (List.ofFn y) := by
  obtain ⟨hq, -, -⟩ := make_coef _ _ _ _ _ _ _ _ _ _ h
  refine ⟨_, hq, ?_⟩
  rw [value_const _ _ _ _ _ _ _ _ _ _ _ _ h]
  simp only [List.length_replicate]
  have inner : ∀ x : Fin nc → γ, (1 / ((na.factorial : Nat) : ℚ)) • ∑ y : Fin na → γ,
      (if (∀ j, ins s (x j) = true) ∧ ∀ j, ins s' (y j) = true then T (List.ofFn x) (List.ofFn y) • A (List.ofFn x) (List.ofFn y) else 0) =
      ∑ y ∈ univ.filter (fun y : Fin na → γ => StrictMono y),
        if (∀ j, ins s (x j) = true) ∧ ∀ j, ins s' (y j) = true then T (List.ofFn x) (List.ofFn y) • A (List.ofFn x) (List.ofFn y) else 0 := by
    intro x
    apply sum_injective
    · intro y g
      apply if_congr
      · apply and_congr_right
        intro _
        exact ⟨fun h j => by simpa using h (g⁻¹ j), fun h j => h (g j)⟩
      · rw [hT.2, hA.2, sign_smul_smul]
      · rfl
    · intro y hy
      rw [vanish (fun y => T (List.ofFn x) (List.ofFn y)) (fun y g => hT.2 x y g) y hy]
      simp
  have outer : (1 / ((nc.factorial : Nat) : ℚ)) • ∑ x : Fin nc → γ, (∑ y ∈ univ.filter (fun y : Fin na → γ => StrictMono y),
        if (∀ j, ins s (x j) = true) ∧ ∀ j, ins s' (y j) = true then T (List.ofFn x) (List.ofFn y) • A (List.ofFn x) (List.ofFn y) else 0) =
      ∑ x ∈ univ.filter (fun x : Fin nc → γ => StrictMono x), ∑ y ∈ univ.filter (fun y : Fin na → γ => StrictMono y),
        if (∀ j, ins s (x j) = true) ∧ ∀ j, ins s' (y j) = true then T (List.ofFn x) (List.ofFn y) • A (List.ofFn x) (List.ofFn y) else 0 := by
    apply sum_injective
    · intro x g
      apply Finset.sum_congr rfl
      intro y _
      apply if_congr
      · apply and_congr_left
        intro _
        exact ⟨fun h j => by simpa using h (g⁻¹ j), fun h j => h (g j)⟩
      · rw [hT.1, hA.1, sign_smul_smul]
      · rfl
    · intro x hx
      apply Finset.sum_eq_zero
      intro y _
      rw [vanish (fun x => T (List.ofFn x) (List.ofFn y)) (fun x g => hT.1 x y g) x hx]
      simp
  have e : (1 / ((nc.factorial * na.factorial : Nat) : ℚ)) = (1 / ((nc.factorial : Nat) : ℚ)) * (1 / ((na.factorial : Nat) : ℚ)) := by
    push_cast
    rw [one_div_mul_one_div]
  rw [e, mul_smul, Finset.smul_sum, Finset.sum_congr rfl fun x _ => inner x, outer]
  rw [← Finset.filter_filter, Finset.sum_filter (fun x : Fin nc → γ => ∀ j, ins s (x j) = true)]
  apply Finset.sum_congr rfl
  intro x _
  rw [← Finset.filter_filter]
  by_cases hx : ∀ j, ins s (x j) = true
  · rw [if_pos hx, Finset.sum_filter (fun y : Fin na → γ => ∀ j, ins s' (y j) = true)]
    exact Finset.sum_congr rfl fun y _ => if_congr (and_iff_right hx) rfl rfl
  · rw [if_neg hx]
    exact Finset.sum_eq_zero fun y _ => if_neg fun h => hx h.1

/-- A function of two lists of equal length does not change when both are permuted alike. -/
def PairSymm {M : Type} (n : Nat) (A : List γ → List γ → M) : Prop :=
  ∀ (x y : Fin n → γ) (g : Equiv.Perm (Fin n)), A (List.ofFn (x ∘ g)) (List.ofFn (y ∘ g)) = A (List.ofFn x) (List.ofFn y)

/-- **C111**: with the normalization by default an operator in a spin-free basis is the sum over ordered tuples of pairs of a creator and an
annihilator, where a tuple in which pairs are repeated is divided by the number of permutations that leave it unchanged. -/
theorem value_spinfree (label : String) (s s' : σ) (k : Nat) (aux : List (Idx σ)) (symm : Option Sym) (dep : Dep) (n : Nat) (t : Term σ)
    (h : make .spinfree label (List.replicate k s) (List.replicate k s') aux symm dep .default n = some t) (ins : σ → γ → Bool)
    (T : List γ → List γ → ℚ) (A : List γ → List γ → M) (ρ : Idx σ → γ) (hT : PairSymm k T) (hA : PairSymm k A) :
    ∃ q : ℚ, t.coef = .num q ∧ q • t.value ins T A ρ =
      ∑ z ∈ univ.filter (fun z : Fin k → γ ×ₗ γ => Monotone z), (1 / (stab z : ℚ)) •
        if ∀ j, ins s (ofLex (z j)).1 = true ∧ ins s' (ofLex (z j)).2 = true then
          T (List.ofFn fun j => (ofLex (z j)).1) (List.ofFn fun j => (ofLex (z j)).2) •
            A (List.ofFn fun j => (ofLex (z j)).1) (List.ofFn fun j => (ofLex (z j)).2) else 0 := by
  obtain ⟨hq, -, -⟩ := make_coef _ _ _ _ _ _ _ _ _ _ h
  refine ⟨_, hq, ?_⟩
  rw [value_const _ _ _ _ _ _ _ _ _ _ _ _ h]
  simp only [List.length_replicate]
  have hs := sum_symmetric (fun z : Fin k → γ ×ₗ γ => if ∀ j, ins s (ofLex (z j)).1 = true ∧ ins s' (ofLex (z j)).2 = true then
          T (List.ofFn fun j => (ofLex (z j)).1) (List.ofFn fun j => (ofLex (z j)).2) •
            A (List.ofFn fun j => (ofLex (z j)).1) (List.ofFn fun j => (ofLex (z j)).2) else 0) (by
    intro z g
    apply if_congr
    · exact ⟨fun h j => by simpa using h (g⁻¹ j), fun h j => h (g j)⟩
    · rw [← hT (fun j => (ofLex (z j)).1) (fun j => (ofLex (z j)).2) g, ← hA (fun j => (ofLex (z j)).1) (fun j => (ofLex (z j)).2) g]
      rfl
    · rfl)
  rw [← hs]
  congr 1
  rw [← Fintype.sum_prod_type', ← Equiv.sum_comp ((Equiv.arrowProdEquivProdArrow (Fin k) (fun _ => γ) (fun _ => γ)).symm.trans (Equiv.arrowCongr (Equiv.refl _) toLex))]
  apply Finset.sum_congr rfl
  intro p _
  apply if_congr
  · exact ⟨fun h j => ⟨h.1 j, h.2 j⟩, fun h => ⟨fun j => (h j).1, fun j => (h j).2⟩⟩
  · rfl
  · rfl

end Value

end SeQuant.Maker
