import Verif.Julia.Model
import Mathlib.Tactic.Ring
import Mathlib.Tactic.ByContra
import Mathlib.Data.List.Basic
import Mathlib.Algebra.Order.Ring.Int

/-!
# What the generated Julia code means (C127)
-/

namespace SeQuant.Julia

/-! ## Expressions -/

section
variable {K : Type} [CommRing K] [DecidableEq K] (at' : Nat → K) (vr : Nat → K) (cj : K → K)

mutual
/-- The value of an expression. -/
def value : Ex K → K
  | .const c => c
  | .atom i => at' i
  | .var v c => if c then cj (vr v) else vr v
  | .prod c l => c * values1 l
  | .sum l => values0 l

/-- The product of the values. -/
def values1 : List (Ex K) → K
  | [] => 1
  | x :: l => value x * values1 l

/-- The sum of the values. -/
def values0 : List (Ex K) → K
  | [] => 0
  | x :: l => value x + values0 l
end

/-- How Julia reads a flat expression: `s` is the sum of the finished terms, `p` the product so far, `need` whether an operand must follow; `none` is a
syntax error. -/
def read (s p : K) (need : Bool) : List (Tok K) → Option K
  | [] => if need then none else some (s + p)
  | .num c :: l => if need then read s (p * c) false l else none
  | .atom i :: l => if need then read s (p * at' i) false l else none
  | .var v :: l => if need then read s (p * vr v) false l else none
  | .times :: l => if need then none else read s p true l
  | .plus :: l => if need then none else read (s + p) 1 true l

/-- The value Julia gives to a list of symbols. -/
def julia (l : List (Tok K)) : Option K := read at' vr 0 1 true l

mutual
/-- No sums, no conjugated variables and no product without factors. -/
def Term : Ex K → Prop
  | .const _ => True
  | .atom _ => True
  | .var _ c => c = false
  | .prod _ l => l ≠ [] ∧ Terms l
  | .sum _ => False

def Terms : List (Ex K) → Prop
  | [] => True
  | x :: l => Term x ∧ Terms l
end

omit [CommRing K] [DecidableEq K] in
theorem ex_ind (P : Ex K → Prop) (hc : ∀ c, P (.const c)) (ha : ∀ i, P (.atom i)) (hv : ∀ v x, P (.var v x))
    (hp : ∀ c l, (∀ x ∈ l, P x) → P (.prod c l)) (hs : ∀ l, (∀ x ∈ l, P x) → P (.sum l)) (a : Ex K) : P a := by
  refine Ex.rec (motive_1 := P) (motive_2 := fun l => ∀ x ∈ l, P x) hc ha hv hp hs ?_ ?_ a
  · simp
  · intro x l h1 h2 y hy
    rcases List.mem_cons.1 hy with rfl | hy
    · exact h1
    · exact h2 y hy

theorem factors_read (l : List (Ex K)) (h : ∀ x ∈ l, Term x → ∀ (s p : K) (r : List (Tok K)),
      read at' vr s p true (toks x ++ r) = read at' vr s (p * value at' vr cj x) false r) (hl : l ≠ []) (ht : Terms l) (s p : K) (r : List (Tok K)) :
    read at' vr s p true (toksSep .times l ++ r) = read at' vr s (p * values1 at' vr cj l) false r := by
  induction l generalizing p with
  | nil => exact absurd rfl hl
  | cons x l ih =>
    simp only [Terms] at ht
    cases l with
    | nil =>
      simp only [toksSep]
      rw [h x List.mem_cons_self ht.1]
      simp [values1]
    | cons y l =>
      simp only [toksSep, List.append_assoc, List.cons_append]
      rw [h x List.mem_cons_self ht.1]
      simp only [read, Bool.false_eq_true, if_false]
      rw [ih (fun z hz => h z (List.mem_cons_of_mem _ hz)) (by simp) ht.2]
      congr 1
      simp only [values1]
      ring

theorem term_read (x : Ex K) (ht : Term x) (s p : K) (r : List (Tok K)) :
    read at' vr s p true (toks x ++ r) = read at' vr s (p * value at' vr cj x) false r := by
  revert s p r
  revert ht
  induction x using ex_ind with
  | hc c => intro _ s p r; simp [toks, read, value]
  | ha i => intro _ s p r; simp [toks, read, value]
  | hv v c => intro ht s p r; simp only [Term] at ht; simp [toks, read, value, ht]
  | hp c l ih =>
    intro ht s p r
    simp only [Term] at ht
    by_cases hc : c = 1
    · simp only [toks, hc, if_true, List.nil_append]
      rw [factors_read at' vr cj l ih ht.1 ht.2]
      simp [value]
    · simp only [toks, hc, if_false, List.cons_append, List.nil_append, read, if_true, Bool.false_eq_true]
      rw [factors_read at' vr cj l ih ht.1 ht.2]
      simp only [value]
      rw [mul_assoc]
  | hs l ih => intro ht; simp [Term] at ht

mutual
/-- Sums of sums and terms, none of them empty. -/
def Flat : Ex K → Prop
  | .sum l => l ≠ [] ∧ Flats l
  | x => Term x

def Flats : List (Ex K) → Prop
  | [] => True
  | x :: l => Flat x ∧ Flats l
end

theorem summands_read (l : List (Ex K)) (h : ∀ x ∈ l, Flat x → ∀ (s : K) (r : List (Tok K)),
      ∃ s' p', s' + p' = s + value at' vr cj x ∧ read at' vr s 1 true (toks x ++ r) = read at' vr s' p' false r) (hl : l ≠ []) (ht : Flats l) (s : K)
    (r : List (Tok K)) :
    ∃ s' p', s' + p' = s + values0 at' vr cj l ∧ read at' vr s 1 true (toksSep .plus l ++ r) = read at' vr s' p' false r := by
  induction l generalizing s with
  | nil => exact absurd rfl hl
  | cons x l ih =>
    simp only [Flats] at ht
    cases l with
    | nil =>
      obtain ⟨s', p', h1, h2⟩ := h x List.mem_cons_self ht.1 s r
      exact ⟨s', p', by simp [h1, values0], by simpa [toksSep] using h2⟩
    | cons y l =>
      obtain ⟨s1, p1, h1, h2⟩ := h x List.mem_cons_self ht.1 s (.plus :: (toksSep .plus (y :: l) ++ r))
      obtain ⟨s2, p2, h3, h4⟩ := ih (fun z hz => h z (List.mem_cons_of_mem _ hz)) (by simp) ht.2 (s1 + p1)
      refine ⟨s2, p2, ?_, ?_⟩
      · rw [h3, h1]
        simp only [values0]
        ring
      · simp only [toksSep, List.append_assoc, List.cons_append]
        rw [h2]
        simp only [read, Bool.false_eq_true, if_false]
        exact h4

theorem flat_read (x : Ex K) (ht : Flat x) (s : K) (r : List (Tok K)) :
    ∃ s' p', s' + p' = s + value at' vr cj x ∧ read at' vr s 1 true (toks x ++ r) = read at' vr s' p' false r := by
  revert s r
  revert ht
  induction x using ex_ind with
  | hs l ih =>
    intro ht s r
    simp only [Flat] at ht
    obtain ⟨s', p', h1, h2⟩ := summands_read at' vr cj l ih ht.1 ht.2 s r
    exact ⟨s', p', by simpa [value] using h1, by simpa [toks] using h2⟩
  | hc c => intro ht s r; exact ⟨s, _, by simp [value], term_read at' vr cj _ (by simp [Term]) s 1 r⟩
  | ha i => intro ht s r; exact ⟨s, _, by simp [value], term_read at' vr cj _ (by simp [Term]) s 1 r⟩
  | hv v c =>
    intro ht s r
    simp only [Flat] at ht
    exact ⟨s, _, by rw [one_mul], term_read at' vr cj _ ht s 1 r⟩
  | hp c l ih =>
    intro ht s r
    simp only [Flat] at ht
    exact ⟨s, _, by rw [one_mul], term_read at' vr cj _ ht s 1 r⟩

/-- **C127.** The generated code has the value of the expression if no sum is a factor, no variable is conjugated and no sum or product is empty.
Missing: `sum_factor`, `conj_lost`, `empty_product`. -/
theorem julia_value_partial (x : Ex K) (h : Flat x) : julia at' vr (toks x) = some (value at' vr cj x) := by
  obtain ⟨s, p, h1, h2⟩ := flat_read at' vr cj x h 0 []
  rw [julia, ← List.append_nil (toks x), h2, read]
  simp [h1]

/-- **C127.** Violated: a sum as a factor is not put in parentheses. -/
theorem sum_factor (a b c : Nat) : julia at' vr (toks (.prod 1 [.atom a, .sum [.atom b, .atom c]] : Ex K)) = some (at' a * at' b + at' c) ∧
    value at' vr cj (.prod 1 [.atom a, .sum [.atom b, .atom c]]) = at' a * (at' b + at' c) := by
  simp [julia, toks, toksSep, read, value, values1, values0]

/-- **C127.** Violated: conjugation of variables is lost. -/
theorem conj_lost (v : Nat) : julia at' vr (toks (.var v true : Ex K)) = some (vr v) ∧ value at' vr cj (.var v true) = cj (vr v) := by
  simp [julia, toks, read, value]

/-- **C127.** Violated: there is no code for products without factors, and a syntax error if they have a prefactor. -/
theorem empty_product (c : K) (hc : c ≠ 1) : toks (.prod 1 [] : Ex K) = [] ∧ toks (.prod c [] : Ex K) = [.num c, .times] ∧
    julia at' vr (toks (.prod c [] : Ex K)) = none := by
  simp [julia, toks, toksSep, read, hc]

end

example : julia (K := Int) (fun i => i + 2) (fun _ => 5) (toks (.sum [.prod 3 [.atom 0, .var 1 false], .const 4])) = some 34 := by
  rw [julia_value_partial (K := Int) _ _ id (.sum [.prod 3 [.atom 0, .var 1 false], .const 4]) (by simp [Flat, Flats, Term, Terms])]
  simp [value, values0, values1]

/-! ## Names of tensors -/

theorem split_unique (a b : Txt) (ha : '_' ∉ a) (hb : '_' ∉ b) (x y : Txt) (h : a ++ '_' :: x = b ++ '_' :: y) : a = b ∧ x = y := by
  induction a generalizing b with
  | nil => cases b with
    | nil => simpa using h
    | cons c b =>
      simp only [List.nil_append, List.cons_append, List.cons.injEq] at h
      exact absurd (by rw [← h.1]; exact List.mem_cons_self) hb
  | cons d a ih => cases b with
    | nil =>
      simp only [List.nil_append, List.cons_append, List.cons.injEq] at h
      exact absurd (by rw [h.1]; exact List.mem_cons_self) ha
    | cons c b =>
      simp only [List.cons_append, List.cons.injEq] at h
      obtain ⟨h1, h2⟩ := ih b (fun hc => ha (List.mem_cons_of_mem _ hc)) (fun hc => hb (List.mem_cons_of_mem _ hc)) h.2
      exact ⟨by rw [h.1, h1], h2⟩

/-- **C127.** Tensors with other labels or other spaces have other names, if labels have no underscore and all tags have the same positive length. -/
theorem name_inj_partial (n : Nat) (hn : n ≠ 0) (a b : Txt) (ha : '_' ∉ a) (hb : '_' ∉ b) (s t : List Txt) (hs : ∀ x ∈ s, x.length = n)
    (ht : ∀ x ∈ t, x.length = n) (h : tensorName a s = tensorName b t) : a = b ∧ s = t := by
  obtain ⟨h1, h2⟩ := split_unique a b ha hb _ _ h
  refine ⟨h1, ?_⟩
  clear h h1
  induction s generalizing t with
  | nil => cases t with
    | nil => rfl
    | cons y t =>
      have := congrArg List.length h2
      simp [ht y List.mem_cons_self] at this
      omega
  | cons x s ih => cases t with
    | nil =>
      have := congrArg List.length h2
      simp [hs x List.mem_cons_self] at this
      omega
    | cons y t =>
      simp only [List.flatten_cons] at h2
      obtain ⟨h3, h4⟩ := List.append_inj h2 (by rw [hs x List.mem_cons_self, ht y List.mem_cons_self])
      rw [h3, ih t (fun z hz => hs z (List.mem_cons_of_mem _ hz)) (fun z hz => ht z (List.mem_cons_of_mem _ hz)) h4]

/-- **C127.** Violated without these conditions: tags of different length, or an underscore in a label. -/
theorem name_clash : tensorName ['t'] [['o'], ['o', 'v']] = tensorName ['t'] [['o', 'o'], ['v']] ∧
    tensorName ['t', '_'] [['o']] = tensorName ['t'] [['_'], ['o']] := by decide

example : tensorName ['t'] [['o'], ['v']] ≠ tensorName ['t'] [['v'], ['o']] := fun h =>
  absurd (name_inj_partial 1 (by decide) _ _ (by decide) (by decide) _ _ (by decide) (by decide) h).2 (by decide)

/-! ## The text -/

/-- Calls that may discard text. -/
def Keeps : Op → Prop
  | .loadV _ true => False
  | .beginExport => False
  | _ => True

theorem step_keeps (g g' : Txt) (o : Op) (ho : Keeps o) (h : step g o = some g') : g <+: g' := by
  cases o with
  | createT t z =>
    cases z
    · rw [step, if_neg (by decide)] at h; cases h
    · simp only [step, if_true, Option.some.injEq] at h; subst h; exact List.prefix_append _ _
  | createV v z =>
    cases z
    · rw [step, if_neg (by decide)] at h; cases h
    · simp only [step, if_true, Option.some.injEq] at h; subst h; exact List.prefix_append _ _
  | loadV v z => cases z with
    | true => exact absurd ho (by simp [Keeps])
    | false =>
      simp only [step, Bool.false_eq_true, if_false, Option.some.injEq] at h
      subst h
      exact (List.prefix_append _ _).trans ((List.prefix_append _ _).trans (List.prefix_append _ _))
  | beginExport => exact absurd ho (by simp [Keeps])
  | beginExpr =>
    simp only [step, Option.some.injEq] at h
    subst h
    split
    · exact List.prefix_append _ _
    · exact List.prefix_refl _
  | _ =>
    simp only [step, Option.some.injEq] at h
    subst h
    first
      | exact List.prefix_append _ _
      | exact (List.prefix_append _ _).trans (List.prefix_append _ _)

/-- **C127.** All other calls keep what was generated before. -/
theorem run_keeps_partial (l : List Op) (hl : ∀ o ∈ l, Keeps o) (g g' : Txt) (h : run g l = some g') : g <+: g' := by
  induction l generalizing g with
  | nil => simp only [run, Option.some.injEq] at h; subst h; exact List.prefix_refl _
  | cons o l ih =>
    simp only [run, Option.bind_eq_some_iff] at h
    obtain ⟨g1, h1, h2⟩ := h
    exact (step_keeps g g1 o (hl o List.mem_cons_self) h1).trans (ih (fun o ho => hl o (List.mem_cons_of_mem _ ho)) g1 h2)

/-- **C127.** Violated: loading a variable that is to be set to zero discards everything generated before, and does not set the variable. -/
theorem load_zero_wipes (g v : Txt) : step g (.loadV v true) = some "0\n".toList := by
  simp [step, nl]

/-- **C127.** A call fails exactly if a tensor or variable is to be created without being initialized. -/
theorem run_fails (l : List Op) (g : Txt) : run g l = none ↔ ∃ o ∈ l, (∃ t, o = .createT t false) ∨ ∃ v, o = .createV v false := by
  induction l generalizing g with
  | nil => simp [run]
  | cons o l ih =>
    simp only [run, List.exists_mem_cons_iff]
    cases hs : step g o with
    | none =>
      simp only [Option.bind_none, true_iff]
      left
      cases o with
      | createT t z =>
        cases z
        · exact .inl ⟨t, rfl⟩
        · rw [step, if_pos rfl] at hs; cases hs
      | createV v z =>
        cases z
        · exact .inr ⟨v, rfl⟩
        · rw [step, if_pos rfl] at hs; cases hs
      | _ => rw [step] at hs; cases hs
    | some g1 =>
      simp only [Option.bind_some, ih g1]
      constructor
      · exact .inr
      · rintro (h | h)
        · rcases h with ⟨t, rfl⟩ | ⟨v, rfl⟩ <;> (rw [step, if_neg (by decide)] at hs; cases hs)
        · exact h

theorem last_nl (x y : Txt) (h : y.getLast? = some '\n') : (x ++ y).getLast? = some '\n' := by simp [List.getLast?_append, h]

/-- **C127.** What is generated consists of complete lines. -/
theorem run_lines (l : List Op) (g g' : Txt) (hg : g = [] ∨ g.getLast? = some '\n') (h : run g l = some g') : g' = [] ∨ g'.getLast? = some '\n' := by
  induction l generalizing g with
  | nil => simp only [run, Option.some.injEq] at h; subst h; exact hg
  | cons o l ih =>
    simp only [run, Option.bind_eq_some_iff] at h
    obtain ⟨g1, h1, h2⟩ := h
    refine ih g1 ?_ h2
    cases o with
    | createT t z =>
      cases z
      · rw [step, if_neg (by decide)] at h1; cases h1
      · simp only [step, if_true, Option.some.injEq] at h1; subst h1; exact .inr (last_nl _ _ (last_nl _ _ rfl))
    | createV v z =>
      cases z
      · rw [step, if_neg (by decide)] at h1; cases h1
      · simp only [step, if_true, Option.some.injEq] at h1; subst h1; exact .inr (last_nl _ _ (last_nl _ _ rfl))
    | loadV v z => simp only [step, Option.some.injEq] at h1; subst h1; exact .inr (last_nl _ _ rfl)
    | beginExport => simp only [step, Option.some.injEq] at h1; left; exact h1.symm
    | beginExpr =>
      simp only [step, Option.some.injEq] at h1
      subst h1
      split
      · exact .inr (last_nl _ _ rfl)
      · exact hg
    | _ =>
      simp only [step, Option.some.injEq] at h1
      subst h1
      first
        | exact .inr (last_nl _ _ rfl)
        | exact .inr (last_nl _ _ (last_nl _ _ rfl))

example : run [] [.createV ['x'] true, .compute ['x'] ['y'], .unloadV ['y'], .persistV ['x']] =
    some "x = 0.0\n@tensor x += y\ny = nothing\nreturn x\n".toList ∧
    run [] [.compute ['x'] ['y'], .loadV ['z'] true, .persistV ['x']] = some "0\nreturn x\n".toList := by
  decide

/-- A tensor with two indices. -/
def tov : Tn := ⟨['t'], [['o'], ['v']], [['n'], ['m']]⟩

example : run ['x', '\n'] [.beginExport, .createT tov true, .beginExpr, .loadT tov false, .loadT tov true, .beginExpr, .zeroT tov] =
    some ("t_ov = zeros(Float64, n, m)\n\nt_ov = deserialize(\"t_ov.jlbin\")\nt_ov = zeros(Float64, n, m)\n\nt_ov = zeros(Float64, n, m)\n".toList) ∧
    run [] [.beginExpr, .unloadT tov, .beginExpr, .beginExpr, .destroyT tov, .persistT tov, .comment ['c']] =
    some ("t_ov = nothing\n\nt_ov = nothing\nrm( \"t_ov.jlbin\")\nreturn t_ov\n# c\n".toList) ∧
    run [] [.zeroV ['x'], .loadV ['x'] false, .destroyV ['x']] =
    some ("x = 0.0\nx = deserialize(\"x.jlbin\")\nx = nothing\nrm(\"x.jlbin\")\n".toList) := by
  decide +kernel

end SeQuant.Julia
