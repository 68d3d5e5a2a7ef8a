import Verif.VacAv.Model
import Mathlib.Data.List.Induction
import Mathlib.Algebra.Group.Defs
import Mathlib.Algebra.Group.Int.Defs
import Mathlib.Algebra.BigOperators.Group.List.Basic

/-!
# C107: connections asked for by labels
-/

namespace SeQuant.VacAv

/-! ### Normal operators of the lowered product -/

/-- Where the normal operators of the lowered product come from, in order: an operator becomes a tensor times a normal operator, products are
lowered factor by factor. -/
def nops : Expr → List (Option Label)
  | .op l => [some l]
  | .nop _ => [none]
  | .prod _ fs => nopsL fs
  | _ => []
where
  nopsL : List Expr → List (Option Label)
    | [] => []
    | f :: fs => nops f ++ nopsL fs

/-- No factor is a product. -/
def Flat (fs : List Expr) : Prop := ∀ f ∈ fs, ∀ z gs, f ≠ .prod z gs

theorem nopsL_append (a b : List Expr) : nops.nopsL (a ++ b) = nops.nopsL a ++ nops.nopsL b := by
  induction a with
  | nil => rfl
  | cons x a ih => simp [nops.nopsL, ih]

theorem lookup_addPos (l l' : Label) (p : Nat) (m : PosMap) :
    (addPos l p m).lookup l' = if l' = l then some ((m.lookup l).getD [] ++ [p]) else m.lookup l' := by
  induction m with
  | nil =>
    by_cases h : l' = l
    · subst h; simp [addPos]
    · simp [addPos, List.lookup_cons, h, beq_false_of_ne h]
  | cons a m ih =>
    obtain ⟨x, ps⟩ := a
    simp only [addPos]
    split
    · rename_i hx
      subst hx
      by_cases h : l' = x
      · subst h; simp
      · simp [List.lookup_cons, h, beq_false_of_ne h]
    · rename_i hx
      by_cases h : l' = x
      · subst h
        simp [hx]
      · simp only [List.lookup_cons, beq_false_of_ne h, beq_false_of_ne (Ne.symm hx)]
        exact ih

/-- After the loop the positions stored for a label are those of the normal operators coming from operators with that label. -/
theorem scan_spec (fs : List Expr) (hf : Flat fs) :
    (scan fs).pos = (nops.nopsL fs).length ∧
    (∀ l p, (p ∈ ((scan fs).map.lookup l).getD [] ↔ (nops.nopsL fs)[p]? = some (some l))) ∧
    ((scan fs).opsOnly = true ↔ ∀ f ∈ fs, ∃ l, f = .op l) := by
  induction fs using List.reverseRecOn with
  | nil => simp [scan, nops.nopsL]
  | append_singleton fs f ih =>
    obtain ⟨h1, h2, h3⟩ := ih fun g hg => hf g (List.mem_append_left _ hg)
    have hs : scan (fs ++ [f]) = scanStep (scan fs) f := by
      simp [scan, List.foldl_append]
    rw [hs, nopsL_append]
    cases f with
    | op l =>
      refine ⟨by simp [scanStep, nops.nopsL, nops, h1], fun l' p => ?_, ?_⟩
      · simp only [scanStep, lookup_addPos, nops.nopsL, nops, List.append_nil]
        by_cases hl : l' = l
        · subst hl
          simp only [if_true, Option.getD_some, List.mem_append, List.mem_singleton, h2]
          rcases Nat.lt_trichotomy p (nops.nopsL fs).length with hp | hp | hp
          · rw [List.getElem?_append_left hp]
            simp only [or_iff_left_iff_imp]
            omega
          · subst hp
            simp [h1]
          · rw [List.getElem?_append_right (by omega), List.getElem?_eq_none (by omega), List.getElem?_eq_none (by simp; omega)]
            simp
            omega
        · rw [if_neg hl, h2]
          rcases Nat.lt_trichotomy p (nops.nopsL fs).length with hp | hp | hp
          · rw [List.getElem?_append_left hp]
          · subst hp
            simp [Ne.symm hl]
          · rw [List.getElem?_append_right (by omega), List.getElem?_eq_none (by omega), List.getElem?_eq_none (by simp; omega)]
      · simp only [scanStep]
        rw [h3]
        constructor
        · intro h g hg
          rcases List.mem_append.1 hg with hg | hg
          · exact h g hg
          · exact ⟨l, by simpa using hg⟩
        · intro h g hg
          exact h g (List.mem_append_left _ hg)
    | nop id =>
      refine ⟨by simp [scanStep, nops.nopsL, nops, h1], fun l' p => ?_, ?_⟩
      · simp only [scanStep, nops.nopsL, nops, List.append_nil]
        rw [h2]
        rcases Nat.lt_trichotomy p (nops.nopsL fs).length with hp | hp | hp
        · rw [List.getElem?_append_left hp]
        · subst hp
          simp
        · rw [List.getElem?_append_right (by omega), List.getElem?_eq_none (by omega), List.getElem?_eq_none (by simp; omega)]
      · simp only [scanStep, Bool.false_eq_true, false_iff]
        intro h
        obtain ⟨l, hl⟩ := h (.nop id) (by simp)
        cases hl
    | prod z gs => exact absurd rfl (hf (.prod z gs) (by simp) z gs)
    | scalar z =>
      refine ⟨by simp [scanStep, nops.nopsL, nops, h1], fun l' p => by simp [scanStep, nops.nopsL, nops, h2], ?_⟩
      simp only [scanStep, Bool.false_eq_true, false_iff]
      intro h
      obtain ⟨l, hl⟩ := h (.scalar z) (by simp)
      cases hl
    | tensor z =>
      refine ⟨by simp [scanStep, nops.nopsL, nops, h1], fun l' p => by simp [scanStep, nops.nopsL, nops, h2], ?_⟩
      simp only [scanStep, Bool.false_eq_true, false_iff]
      intro h
      obtain ⟨l, hl⟩ := h (.tensor z) (by simp)
      cases hl
    | sum z =>
      refine ⟨by simp [scanStep, nops.nopsL, nops, h1], fun l' p => by simp [scanStep, nops.nopsL, nops, h2], ?_⟩
      simp only [scanStep, Bool.false_eq_true, false_iff]
      intro h
      obtain ⟨l, hl⟩ := h (.sum z) (by simp)
      cases hl

theorem mem_lowerPairs (m : PosMap) (pairs : List (Label × Label)) (i j : Nat) : (i, j) ∈ lowerPairs m pairs ↔
    i < j ∧ ∃ p ∈ pairs, i ∈ (m.lookup p.1).getD [] ∧ j ∈ (m.lookup p.2).getD [] := by
  unfold lowerPairs
  rw [List.mem_flatMap]
  constructor
  · rintro ⟨p, hp, h⟩
    cases h1 : m.lookup p.1 with
    | none => rw [h1] at h; simp at h
    | some is =>
      cases h2 : m.lookup p.2 with
      | none => rw [h1, h2] at h; simp at h
      | some js =>
        rw [h1, h2] at h
        simp only [List.mem_flatMap, List.mem_map, List.mem_filter, decide_eq_true_eq, Prod.mk.injEq] at h
        obtain ⟨a, ha, b, ⟨hb, hab⟩, rfl, rfl⟩ := h
        exact ⟨hab, p, hp, by rw [h1]; exact ha, by rw [h2]; exact hb⟩
  · rintro ⟨hij, p, hp, h1, h2⟩
    refine ⟨p, hp, ?_⟩
    cases e1 : m.lookup p.1 with
    | none => rw [e1] at h1; simp at h1
    | some is =>
      cases e2 : m.lookup p.2 with
      | none => rw [e2] at h2; simp at h2
      | some js =>
        rw [e1] at h1
        rw [e2] at h2
        simp only [List.mem_flatMap, List.mem_map, List.mem_filter, decide_eq_true_eq, Prod.mk.injEq]
        exact ⟨i, h1, j, ⟨h2, hij⟩, rfl, rfl⟩

/-- **C107.** Two normal operators of the lowered product are asked to be connected (or not to be) exactly if the first stands left of the
second and they come from operators whose labels form one of the pairs given, in this order. -/
theorem lowered_pairs (fs : List Expr) (hf : Flat fs) (pairs : List (Label × Label)) (i j : Nat) :
    (i, j) ∈ lowerPairs (scan fs).map pairs ↔
      i < j ∧ ∃ l l', (l, l') ∈ pairs ∧ (nops.nopsL fs)[i]? = some (some l) ∧ (nops.nopsL fs)[j]? = some (some l') := by
  obtain ⟨_, h2, _⟩ := scan_spec fs hf
  rw [mem_lowerPairs]
  constructor
  · rintro ⟨hij, p, hp, h3, h4⟩
    exact ⟨hij, p.1, p.2, hp, (h2 _ _).1 h3, (h2 _ _).1 h4⟩
  · rintro ⟨hij, l, l', hp, h3, h4⟩
    exact ⟨hij, (l, l'), hp, (h2 _ _).2 h3, (h2 _ _).2 h4⟩

/-- **C107.** Labels that occur in no operator of the product ask for nothing. -/
theorem absent_label (fs : List Expr) (hf : Flat fs) (pairs : List (Label × Label))
    (h : ∀ p ∈ pairs, some p.1 ∉ nops.nopsL fs ∨ some p.2 ∉ nops.nopsL fs) : lowerPairs (scan fs).map pairs = [] := by
  rw [List.eq_nil_iff_forall_not_mem]
  rintro ⟨i, j⟩ hij
  obtain ⟨_, l, l', hp, h1, h2⟩ := (lowered_pairs fs hf pairs i j).1 hij
  rcases h (l, l') hp with h | h
  · exact h (List.mem_of_getElem? h1)
  · exact h (List.mem_of_getElem? h2)

/-! ### Expectation values -/

variable {V : Type} [AddMonoid V]

/-- **C107.** A product is screened out only if all factors are operators, screening is asked for, and the quantum numbers cannot vanish;
otherwise it is evaluated with the connections between its normal operators. -/
theorem product_value (c : Cfg V) (connect avoid : List (Label × Label)) (screen : Bool) (z : Int) (fs : List Expr) (hf : Flat fs) :
    ((∀ f ∈ fs, ∃ l, f = .op l) ∧ screen = true ∧ c.canChange fs = false ∧ vacAvProduct c connect avoid screen z fs = 0) ∨
    (¬((∀ f ∈ fs, ∃ l, f = .op l) ∧ screen = true ∧ c.canChange fs = false) ∧ ∃ C A, vacAvProduct c connect avoid screen z fs = c.eval z fs C A ∧
      (∀ i j, (i, j) ∈ C ↔ i < j ∧ ∃ l l', (l, l') ∈ connect ∧ (nops.nopsL fs)[i]? = some (some l) ∧ (nops.nopsL fs)[j]? = some (some l')) ∧
      (∀ i j, (i, j) ∈ A ↔ i < j ∧ ∃ l l', (l, l') ∈ avoid ∧ (nops.nopsL fs)[i]? = some (some l) ∧ (nops.nopsL fs)[j]? = some (some l'))) := by
  obtain ⟨_, _, h3⟩ := scan_spec fs hf
  unfold vacAvProduct
  simp only
  split
  · rename_i h
    simp only [Bool.and_eq_true, Bool.not_eq_true'] at h
    exact Or.inl ⟨h3.1 h.1.1, h.1.2, h.2, rfl⟩
  · rename_i h
    right
    refine ⟨fun h' => h ?_, _, _, rfl, lowered_pairs fs hf connect, lowered_pairs fs hf avoid⟩
    simp [h3.2 h'.1, h'.2.1, h'.2.2]

theorem foldl_none (ofScalar : Int → V) (c : Cfg V) (connect avoid : List (Label × Label)) (screen : Bool) (fuel : Nat) (ts : List Expr) :
    ts.foldl (fun (acc : Option V) t => acc.bind fun a => (vacAv ofScalar c connect avoid screen fuel t).map fun v => a + v) none = none := by
  induction ts with
  | nil => rfl
  | cons t ts ih => simpa using ih

/-- **C107.** The expectation value of a sum is the sum of the expectation values of its terms, and is not computed if one of them is not. -/
theorem sum_value (ofScalar : Int → V) (c : Cfg V) (connect avoid : List (Label × Label)) (screen : Bool) (fuel : Nat) (ts : List Expr) :
    vacAv ofScalar c connect avoid screen (fuel + 1) (.sum ts) =
      (ts.mapM fun t => vacAv ofScalar c connect avoid screen fuel t).map List.sum := by
  have key : ∀ (ts : List Expr) (a : V),
      ts.foldl (fun (acc : Option V) t => acc.bind fun a => (vacAv ofScalar c connect avoid screen fuel t).map fun v => a + v) (some a) =
        (ts.mapM fun t => vacAv ofScalar c connect avoid screen fuel t).map fun l => a + l.sum := by
    intro ts
    induction ts with
    | nil => intro a; simp
    | cons t ts ih =>
      intro a
      rw [List.foldl_cons, Option.bind_some, List.mapM_cons]
      cases ht : vacAv ofScalar c connect avoid screen fuel t with
      | none => simp only [Option.map_none]; rw [foldl_none]; rfl
      | some v =>
        rw [Option.map_some, ih]
        cases ts.mapM fun t => vacAv ofScalar c connect avoid screen fuel t <;> simp [add_assoc]
  rw [vacAv, key]
  simp

/-- **C107.** A single normal-ordered operator has expectation value 0, a scalar itself; other atoms are rejected. -/
theorem atom_value (ofScalar : Int → V) (c : Cfg V) (connect avoid : List (Label × Label)) (screen : Bool) (fuel : Nat) :
    (∀ l, vacAv ofScalar c connect avoid screen (fuel + 1) (.op l) = some 0) ∧
    (∀ z, vacAv ofScalar c connect avoid screen (fuel + 1) (.scalar z) = some (ofScalar z)) ∧
    (∀ i, vacAv ofScalar c connect avoid screen (fuel + 1) (.tensor i) = none) ∧
    ∀ i, vacAv ofScalar c connect avoid screen (fuel + 1) (.nop i) = none :=
  ⟨fun _ => rfl, fun _ => rfl, fun _ => rfl, fun _ => rfl⟩

/-! ### Examples -/

/-- `h t f t`: `(h,t)`, `(f,t)` and `(t,f)` connect `h` with both `t`s, `f` with the second one, and the first `t` with `f`. -/
example : lowerPairs (scan [.op 0, .op 1, .op 2, .op 1]).map [(0, 1), (2, 1), (1, 2), (5, 1)] = [(0, 1), (0, 3), (2, 3), (1, 2)] := by decide

/-- With a normal operator and a tensor in between. -/
example : lowerPairs (scan [.nop 0, .op 0, .tensor 3, .nop 1, .op 1]).map [(0, 1)] = [(1, 3)] := by decide

/-- **C107, violated.** Factors that are products are not looked into: in `h (t) t` the last `t` is taken for the normal operator of the
nested one and is not connected. -/
theorem nested_product_wrong : lowerPairs (scan [.op 0, .prod 1 [.op 1], .op 1]).map [(0, 1)] = [(0, 1)] ∧
    nops (.prod 1 [.op 0, .prod 1 [.op 1], .op 1]) = [some 0, some 1, some 1] := by decide

end SeQuant.VacAv
