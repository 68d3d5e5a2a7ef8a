import Verif.Expression.Shape
import Verif.Expression.Instances

set_option linter.unusedSectionVars false

/-! # C11: `expand` -/

namespace SeQuant.Expression

variable {K A R : Type} [CommRing K] [DecidableEq K] [Ring R] [Algebra K R] [Atoms K A] {I : A → R}

/-! ### Value -/

theorem splitSum_some {l p ss q : List (Expr K A)} (h : splitSum l = some (p, ss, q)) :
    ∃ ci, l = p ++ .sum ci ss :: q ∧ ∀ x ∈ p, x.isSum = false := by
  induction l generalizing p with
  | nil => simp [splitSum] at h
  | cons e l ih =>
    cases e with
    | sum ci s =>
      simp only [splitSum, Option.some.injEq, Prod.mk.injEq] at h
      obtain ⟨rfl, rfl, rfl⟩ := h
      exact ⟨ci, rfl, by simp⟩
    | const c =>
      simp only [splitSum, Option.map_eq_some_iff, Prod.exists, Prod.mk.injEq] at h
      obtain ⟨p', ss', q', h, rfl, rfl, rfl⟩ := h
      obtain ⟨ci, rfl, h2⟩ := ih h
      exact ⟨ci, rfl, by simpa [Expr.isSum] using h2⟩
    | atom c =>
      simp only [splitSum, Option.map_eq_some_iff, Prod.exists, Prod.mk.injEq] at h
      obtain ⟨p', ss', q', h, rfl, rfl, rfl⟩ := h
      obtain ⟨ci, rfl, h2⟩ := ih h
      exact ⟨ci, rfl, by simpa [Expr.isSum] using h2⟩
    | prod c d =>
      simp only [splitSum, Option.map_eq_some_iff, Prod.exists, Prod.mk.injEq] at h
      obtain ⟨p', ss', q', h, rfl, rfl, rfl⟩ := h
      obtain ⟨ci, rfl, h2⟩ := ih h
      exact ⟨ci, rfl, by simpa [Expr.isSum] using h2⟩

theorem splitSum_none {l : List (Expr K A)} (h : splitSum l = none) : ∀ x ∈ l, x.isSum = false := by
  induction l with
  | nil => simp
  | cons e l ih =>
    cases e <;> simp [splitSum] at h <;> simpa [Expr.isSum] using ih h

/-- The summands built by `expand_product`. -/
def expandTerms (c : K) (p ss q : List (Expr K A)) : List (Expr K A) :=
  ss.map fun s => mkProd .Recursively c (p.map clone ++ s :: q.map clone)

theorem expandProduct_some {c : K} {l : List (Expr K A)} {e : Expr K A} (h : expandProduct c l = some e) :
    ∃ p ci ss q, l = p ++ .sum ci ss :: q ∧ (∀ x ∈ p, x.isSum = false) ∧ e = .sum
      (sAppendAll clone (none, []) (expandTerms c p ss q)).1 (sAppendAll clone (none, []) (expandTerms c p ss q)).2 := by
  unfold expandProduct at h
  split at h
  · simp at h
  · rename_i p ss q hs
    obtain ⟨ci, hl, hp⟩ := splitSum_some hs
    refine ⟨p, ci, ss, q, hl, hp, ?_⟩
    simp only [Option.some.injEq] at h
    rw [← h, ← foldl_sAppend, expandTerms, List.foldl_map]

theorem expandProduct_none {c : K} {l : List (Expr K A)} (h : expandProduct c l = none) : ∀ x ∈ l, x.isSum = false := by
  unfold expandProduct at h
  split at h
  · exact splitSum_none ‹_›
  · simp at h

theorem expandProduct_val (hI : Interp K I) {c : K} {l : List (Expr K A)} {e : Expr K A} (h : expandProduct c l = some e) :
    eval I e = eval I (.prod c l) := by
  obtain ⟨p, ci, ss, q, rfl, _, rfl⟩ := expandProduct_some h
  have := (sAppendAll_val (I := I) (clone_val hI) hI (none, []) (idxOk_none _) (expandTerms c p ss q)).1
  simp only [sval] at this
  simp only [eval]
  rw [this]
  simp only [evalSum, zero_add]
  rw [evalProd_append, evalProd]
  simp only [eval]
  clear this h
  unfold expandTerms
  induction ss with
  | nil => simp [evalSum]
  | cons s ss ih =>
    rw [List.map_cons, evalSum, evalSum, ih, mkProd_val hI, evalProd_append, evalProd, evalProd_map_of _ (clone_val hI),
      evalProd_map_of _ (clone_val hI), ← smul_add, ← mul_add, ← add_mul]

/-- What `expand_sum` appends for one summand. -/
def conv : Expr K A → Expr K A
  | .prod c fs => (expandProduct c fs).getD (.prod c fs)
  | e => e

/-- Whether a summand makes `expand_sum` start a new result. -/
def changes : Expr K A → Bool
  | .prod c fs => (expandProduct c fs).isSome
  | .sum _ _ => true
  | _ => false

theorem expandSumLoop_some (done : List (Expr K A)) (st : SState K A) (l : List (Expr K A)) :
    expandSumLoop done (some st) l = some (sAppendAll clone st (l.map conv)) := by
  induction l generalizing done st with
  | nil => simp [expandSumLoop, sAppendAll]
  | cons e l ih =>
    cases e with
    | const c => simp only [expandSumLoop, Option.map_some, ih, List.map_cons, sAppendAll, conv]
    | atom c => simp only [expandSumLoop, Option.map_some, ih, List.map_cons, sAppendAll, conv]
    | sum ci ss => simp only [expandSumLoop, Option.getD_some, ih, List.map_cons, sAppendAll, conv]
    | prod c fs =>
      cases h : expandProduct c fs <;>
        simp only [expandSumLoop, h, Option.getD_some, Option.getD_none, Option.map_some, ih, List.map_cons, sAppendAll, conv]

theorem expandSumLoop_none (done l : List (Expr K A)) :
    expandSumLoop done none l =
      if l.any changes then some (sAppendAll clone (none, []) (done ++ l.map conv)) else none := by
  induction l generalizing done with
  | nil => simp [expandSumLoop]
  | cons e l ih =>
    have key : ∀ (a b : List (Expr K A)) (st : SState K A), sAppendAll clone st (a ++ b) = sAppendAll clone (sAppendAll clone st a) b := by
      intro a
      induction a with
      | nil => intro b st; rfl
      | cons x a iha => intro b st; simp only [List.cons_append, sAppendAll]; exact iha _ _
    cases e with
    | const c =>
      simp only [expandSumLoop, Option.map_none, ih, List.any_cons, changes, Bool.false_or, List.map_cons, conv,
        List.append_assoc, List.singleton_append]
    | atom c =>
      simp only [expandSumLoop, Option.map_none, ih, List.any_cons, changes, Bool.false_or, List.map_cons, conv,
        List.append_assoc, List.singleton_append]
    | sum ci ss =>
      simp only [expandSumLoop, Option.getD_none, foldl_sAppend, expandSumLoop_some, List.any_cons, changes, Bool.true_or,
        if_true, List.map_cons, conv, key, sAppendAll]
    | prod c fs =>
      cases h : expandProduct c fs with
      | none =>
        simp only [expandSumLoop, h, Option.map_none, ih, List.any_cons, changes, Option.isSome_none, Bool.false_or,
          List.map_cons, conv, Option.getD_none, List.append_assoc, List.singleton_append]
      | some e' =>
        simp only [expandSumLoop, h, Option.getD_none, foldl_sAppend, expandSumLoop_some, List.any_cons, changes,
          Option.isSome_some, Bool.true_or, if_true, List.map_cons, conv, Option.getD_some, key, sAppendAll]

theorem conv_val (hI : Interp K I) (e : Expr K A) : eval I (conv e) = eval I e := by
  cases e with
  | prod c fs =>
    simp only [conv]
    cases h : expandProduct c fs with
    | none => rfl
    | some e' => exact expandProduct_val hI h
  | _ => rfl

theorem expandSum_val (hI : Interp K I) (ci : Option Nat) (l : List (Expr K A)) :
    eval I (expandSum ci l).1 = eval I (.sum ci l) := by
  have key : ∀ st : SState K A, evalSum I st.2 = evalSum I l →
      eval I (match st.2 with
        | [] => ((.const 0, true) : Expr K A × Bool)
        | [e] => (e, true)
        | _ => (.sum st.1 st.2, (expandSumLoop [] none l).isSome)).1 = eval I (.sum ci l) := by
    intro st h
    simp only [eval]
    rw [← h]
    split
    · rename_i h0; rw [h0]; simp [eval, evalSum]
    · rename_i h0; rw [h0]; simp [evalSum]
    · rfl
  unfold expandSum
  apply key
  rw [expandSumLoop_none]
  split
  · have := (sAppendAll_val (I := I) (clone_val hI) hI (none, []) (idxOk_none _) (l.map conv)).1
    simp only [sval] at this
    simp only [Option.getD_some, List.nil_append]
    rw [this, evalSum_map_of _ (conv_val hI)]
    simp [evalSum]
  · rfl

theorem expandStep_val (hI : Interp K I) (e : Expr K A) : eval I (expandStep e).1 = eval I e := by
  cases e with
  | const c => rfl
  | atom c => rfl
  | prod c l =>
    simp only [expandStep]
    cases h : expandProduct c l with
    | none => rfl
    | some e' => exact expandProduct_val hI h
  | sum ci l => exact expandSum_val hI ci l

theorem loop_val {step : Expr K A → Expr K A × Bool} (h : ∀ e, eval I (step e).1 = eval I e) (n : Nat) (e r : Expr K A)
    (hr : loop step n e = some r) : eval I r = eval I e := by
  induction n generalizing e with
  | zero => simp [loop] at hr
  | succ n ih =>
    rw [loop] at hr
    split at hr
    · rw [ih _ hr, h]
    · simp only [Option.some.injEq] at hr; rw [← hr, h]

mutual
theorem visit_val {f : Expr K A → Option (Expr K A)} (h : ∀ e r, f e = some r → eval I r = eval I e) (e r : Expr K A)
    (hr : visit f e = some r) : eval I r = eval I e := by
  match e with
  | .const c => exact h _ _ hr
  | .atom c => exact h _ _ hr
  | .prod c l =>
    simp only [visit, Option.bind_eq_bind, Option.bind_eq_some_iff] at hr
    obtain ⟨l', hl, hr⟩ := hr
    rw [h _ _ hr]
    simp only [eval]
    rw [(visitL_val h l l' hl).1]
  | .sum c l =>
    simp only [visit, Option.bind_eq_bind, Option.bind_eq_some_iff] at hr
    obtain ⟨l', hl, hr⟩ := hr
    rw [h _ _ hr]
    simp only [eval]
    rw [(visitL_val h l l' hl).2]
theorem visitL_val {f : Expr K A → Option (Expr K A)} (h : ∀ e r, f e = some r → eval I r = eval I e) (l r : List (Expr K A))
    (hr : visitL f l = some r) : evalProd I r = evalProd I l ∧ evalSum I r = evalSum I l := by
  match l with
  | [] => simp only [visitL, Option.some.injEq] at hr; subst hr; exact ⟨rfl, rfl⟩
  | e :: l =>
    simp only [visitL, Option.bind_eq_bind, Option.bind_eq_some_iff] at hr
    obtain ⟨e', he, l', hl, hr⟩ := hr
    simp only [pure, Option.some.injEq] at hr
    subst hr
    have := visitL_val h l l' hl
    simp only [evalProd, evalSum, visit_val h e e' he, this.1, this.2, and_self]
end

/-- Whatever `expand` returns has the value of its argument. -/
theorem expand_val (hI : Interp K I) (n : Nat) (e r : Expr K A) (h : expand n e = some r) : eval I r = eval I e :=
  visit_val (fun e r => loop_val (expandStep_val hI) n e r) e r h

/-! ### Shape and termination -/

/-- Number of `Sum` factors. -/
def nsums (l : List (Expr K A)) : Nat := (l.filter Expr.isSum).length

/-- A summand whose expansion needs at most `k` further rounds. -/
def Summand (k : Nat) : Expr K A → Prop
  | .prod _ l => (∀ f ∈ l, f.Expanded) ∧ nsums l ≤ k
  | e => e.noSum

def Cls (k : Nat) : Expr K A → Prop
  | .sum _ l => ∀ s ∈ l, Summand k s ∨ s.Expanded
  | e => Summand k e

def Cls' (k : Nat) : Expr K A → Prop
  | .sum _ l => ∀ s ∈ l, Summand k s
  | e => Summand k e

theorem Cls'.cls {k : Nat} {e : Expr K A} (h : Cls' k e) : Cls k e := by
  cases e <;> first | exact h | exact fun s hs => Or.inl (h s hs)

theorem noSum_expanded {e : Expr K A} (h : e.noSum) : e.Expanded := by
  cases e <;> first | exact h | simp [Expr.noSum] at h

theorem expanded_noSum {e : Expr K A} (h : e.Expanded) (h' : e.isSum = false) : e.noSum := by
  cases e <;> first | exact h | simp [Expr.isSum] at h'

theorem nsums_zero {l : List (Expr K A)} (h : nsums l = 0) : ∀ x ∈ l, x.isSum = false := by
  intro x hx
  simp only [nsums, List.length_eq_zero_iff, List.filter_eq_nil_iff] at h
  simpa using h x hx

theorem nsums_of {l : List (Expr K A)} (h : ∀ x ∈ l, x.isSum = false) : nsums l = 0 := by
  simp only [nsums, List.length_eq_zero_iff, List.filter_eq_nil_iff]
  intro x hx; simp [h x hx]

theorem nsums_append (l m : List (Expr K A)) : nsums (l ++ m) = nsums l + nsums m := by simp [nsums]

theorem nsums_map (f : Expr K A → Expr K A) (h : ∀ e, (f e).isSum = e.isSum) (l : List (Expr K A)) :
    nsums (l.map f) = nsums l := by
  induction l with
  | nil => rfl
  | cons e l ih =>
    have a := nsums_append [f e] (l.map f)
    have b := nsums_append [e] l
    simp only [List.singleton_append] at a b
    rw [List.map_cons, a, b, ih]
    simp [nsums, List.filter_cons, h]
    split <;> rfl

theorem noSum_summand {e : Expr K A} (k : Nat) (h : e.noSum) : Summand k e := by
  cases e with
  | prod c l =>
    simp only [Expr.noSum, noSumL_iff] at h
    exact ⟨fun f hf => noSum_expanded (h f hf), by rw [nsums_of fun x hx => noSum_isSum (h x hx)]; omega⟩
  | _ => exact h

theorem summand_zero {e : Expr K A} (h : Summand 0 e) : e.noSum := by
  cases e with
  | prod c l =>
    simp only [Expr.noSum, noSumL_iff]
    exact fun x hx => expanded_noSum (h.1 x hx) (nsums_zero (by have := h.2; omega) x hx)
  | _ => exact h

theorem summand_isSum {k : Nat} {e : Expr K A} (h : Summand k e) : e.isSum = false := by
  cases e <;> simp_all [Summand, Expr.isSum, Expr.noSum]

theorem Summand.mono {k k' : Nat} (hk : k ≤ k') {e : Expr K A} (h : Summand k e) : Summand k' e := by
  cases e with
  | prod c l => exact ⟨h.1, le_trans h.2 hk⟩
  | _ => exact h

theorem clone_summand {k : Nat} {e : Expr K A} (h : Summand k e) : Summand k (clone e) := by
  cases e with
  | const c => exact h
  | atom a => exact h
  | sum ci l => exact absurd h (by simp [Summand, Expr.noSum])
  | prod c l =>
    obtain ⟨c', hc⟩ := cloneF_prod (depthL l) c l
    have : clone (.prod c l) = .prod c' (((l.map (cloneF (depthL l))).filter (fun e => !e.isConst)).map (cloneF (depthL l))) := hc
    rw [this]
    constructor
    · intro f hf
      simp only [List.mem_map, List.mem_filter] at hf
      obtain ⟨y, ⟨⟨x, hx, rfl⟩, _⟩, rfl⟩ := hf
      exact cloneF_Expanded _ _ (cloneF_Expanded _ _ (h.1 x hx))
    · rw [nsums_map _ (fun e => (cloneF_kind _ e).1)]
      refine le_trans ?_ h.2
      rw [← nsums_map (cloneF (depthL l)) (fun e => (cloneF_kind _ e).1) l]
      simp only [nsums]
      exact List.Sublist.length_le (List.Sublist.filter _ List.filter_sublist)

theorem flatFL_append (a b : List (Expr K A)) : flatFL (a ++ b) = flatFL a ++ flatFL b := by
  induction a with
  | nil => rfl
  | cons x a ih => simp [flatFL, ih]

theorem flatF_Expanded (e : Expr K A) (h : e.Expanded) :
    (∀ x ∈ flatF e, x.Expanded) ∧ nsums (flatF e) ≤ nsums [e] := by
  by_cases hs : e.isSum = true
  · cases e <;> simp [Expr.isSum] at hs
    simp [flatF]; exact h
  · have h1 := expanded_noSum h (eq_false_of_ne_true hs)
    have h2 := flatF_noSum e h1
    exact ⟨fun x hx => noSum_expanded (h2 x hx), by rw [nsums_of fun x hx => noSum_isSum (h2 x hx)]; omega⟩

theorem flatFL_Expanded (l : List (Expr K A)) (h : ∀ e ∈ l, e.Expanded) :
    (∀ x ∈ flatFL l, x.Expanded) ∧ nsums (flatFL l) ≤ nsums l := by
  induction l with
  | nil => simp [flatFL]
  | cons e l ih =>
    obtain ⟨h1, h2⟩ := flatF_Expanded e (h e (by simp))
    obtain ⟨h3, h4⟩ := ih (fun x hx => h x (by simp [hx]))
    refine ⟨?_, ?_⟩
    · intro x hx
      simp only [flatFL, List.mem_append] at hx
      rcases hx with hx | hx
      · exact h1 x hx
      · exact h3 x hx
    · rw [flatFL, nsums_append, show e :: l = [e] ++ l from rfl, nsums_append]; omega

/-- Each product built by one expansion step has one `Sum` factor less. -/
theorem expandTerm_summand {c : K} {p ss q : List (Expr K A)} {ci : Option Nat} {k : Nat}
    (h : ∀ f ∈ p ++ .sum ci ss :: q, f.Expanded) (hk : nsums (p ++ .sum ci ss :: q) ≤ k + 1) {t : Expr K A}
    (ht : t ∈ expandTerms c p ss q) : Summand k t := by
  simp only [expandTerms, List.mem_map] at ht
  obtain ⟨s, hs, rfl⟩ := ht
  have hsum : (Expr.sum ci ss : Expr K A).Expanded := h _ (by simp)
  have hs' : s.noSum := hsum s hs
  have hE : ∀ e ∈ p.map clone ++ s :: q.map clone, e.Expanded := by
    intro e he
    simp only [List.mem_append, List.mem_map, List.mem_cons] at he
    rcases he with ⟨x, hx, rfl⟩ | rfl | ⟨x, hx, rfl⟩
    · exact cloneF_Expanded _ _ (h x (by simp [hx]))
    · exact noSum_expanded hs'
    · exact cloneF_Expanded _ _ (h x (by simp [hx]))
  have hN : nsums (p.map clone ++ s :: q.map clone) ≤ k := by
    rw [show s :: q.map clone = [s] ++ q.map clone from rfl, nsums_append, nsums_append,
      nsums_map clone (fun e => (cloneF_kind _ e).1), nsums_map clone (fun e => (cloneF_kind _ e).1),
      nsums_of (l := [s]) (by simp [noSum_isSum hs'])]
    rw [show (Expr.sum ci ss :: q : List (Expr K A)) = [Expr.sum ci ss] ++ q from rfl, nsums_append, nsums_append] at hk
    have : nsums [(Expr.sum ci ss : Expr K A)] = 1 := rfl
    omega
  obtain ⟨h1, h2⟩ := flatFL_Expanded _ hE
  simp only [mkProd, Summand]
  rw [pAppendAll_rec]
  simp only [List.nil_append]
  constructor
  · intro f hf
    simp only [List.mem_map] at hf
    obtain ⟨x, hx, rfl⟩ := hf
    exact cloneF_Expanded _ _ (h1 x hx)
  · rw [nsums_map clone (fun e => (cloneF_kind _ e).1)]; omega

theorem sAppendAll_summand {k : Nat} (l : List (Expr K A)) (h : ∀ x ∈ flatSL l, Summand k x) :
    ∀ e ∈ (sAppendAll clone (none, []) l).2, Summand k e :=
  sAppendAll_all (P := Summand k) clone (by simp [Summand, Expr.noSum]) (none, []) l (by simp)
    (fun x hx _ => clone_summand (h x hx))

theorem flatSL_mem {l : List (Expr K A)} {x : Expr K A} : x ∈ flatSL l ↔ ∃ e ∈ l, x ∈ flatS e := by
  induction l with
  | nil => simp [flatSL]
  | cons e l ih => simp [flatSL, ih]

theorem expandProduct_cls {c : K} {l : List (Expr K A)} {k : Nat} (h : ∀ f ∈ l, f.Expanded) (hk : nsums l ≤ k) {e : Expr K A}
    (he : expandProduct c l = some e) : ∃ ci l', e = .sum ci l' ∧ ∀ s ∈ l', Summand (k - 1) s := by
  obtain ⟨p, ci, ss, q, rfl, _, rfl⟩ := expandProduct_some he
  refine ⟨_, _, rfl, sAppendAll_summand _ ?_⟩
  have hp : ∀ t ∈ expandTerms c p ss q, Summand (k - 1) t := fun t ht => expandTerm_summand (ci := ci) h (by omega) ht
  rw [flatSL_of_not_sum fun x hx => summand_isSum (hp x hx)]
  exact hp

/-- One round on a sum. -/
theorem expandSum_cls {l : List (Expr K A)} {k : Nat} (h : ∀ s ∈ l, Summand k s ∨ s.Expanded) :
    (l.any changes = false ∧ (∀ s ∈ l, s.noSum) ∧ expandSumLoop [] none l = none) ∨
      (∃ st, expandSumLoop [] none l = some st ∧ ∀ s ∈ st.2, Summand (k - 1) s) := by
  rw [expandSumLoop_none]
  by_cases hc : l.any changes = true
  · right
    rw [if_pos hc]
    refine ⟨_, rfl, sAppendAll_summand _ ?_⟩
    intro x hx
    rw [flatSL_mem] at hx
    simp only [List.nil_append, List.mem_map] at hx
    obtain ⟨_, ⟨s, hs, rfl⟩, hx⟩ := hx
    have hs' := h s hs
    cases s with
    | const c => simp only [conv, flatS, List.mem_singleton] at hx; subst hx; simp [Summand, Expr.noSum]
    | atom c => simp only [conv, flatS, List.mem_singleton] at hx; subst hx; simp [Summand, Expr.noSum]
    | sum ci' ss =>
      rcases hs' with hs' | hs'
      · simp [Summand, Expr.noSum] at hs'
      · simp only [conv, flatS] at hx
        rw [flatSL_of_not_sum fun x hx => noSum_isSum (hs' x hx)] at hx
        exact noSum_summand _ (hs' x hx)
    | prod c fs =>
      have hS : Summand k (.prod c fs) := by
        rcases hs' with hs' | hs'
        · exact hs'
        · exact noSum_summand _ hs'
      simp only [conv] at hx
      cases hp : expandProduct c fs with
      | none =>
        rw [hp] at hx
        simp only [Option.getD_none, flatS, List.mem_singleton] at hx
        subst hx
        exact ⟨hS.1, by rw [nsums_of (expandProduct_none hp)]; omega⟩
      | some e =>
        rw [hp] at hx
        obtain ⟨ci'', l', rfl, hl'⟩ := expandProduct_cls hS.1 hS.2 hp
        simp only [Option.getD_some, flatS] at hx
        rw [flatSL_of_not_sum fun x hx => summand_isSum (hl' x hx)] at hx
        exact hl' x hx
  · left
    rw [if_neg hc]
    refine ⟨eq_false_of_ne_true hc, ?_, rfl⟩
    intro s hs
    simp only [List.any_eq_true, not_exists, not_and] at hc
    have h1 := hc s hs
    have hs' := h s hs
    cases s with
    | const c => simp [Expr.noSum]
    | atom c => simp [Expr.noSum]
    | sum ci' ss => simp [changes] at h1
    | prod c fs =>
      simp only [changes, Bool.not_eq_true, Option.isSome_eq_false_iff, Option.isNone_iff_eq_none] at h1
      have hS : Summand k (.prod c fs) := by
        rcases hs' with hs' | hs'
        · exact hs'
        · exact noSum_summand _ hs'
      simp only [Expr.noSum, noSumL_iff]
      exact fun x hx => expanded_noSum (hS.1 x hx) (expandProduct_none h1 x hx)

/-- One round: either nothing is left to do, or the bound goes down. -/
theorem expandStep_cls {e : Expr K A} {k : Nat} (h : Cls k e) :
    ((expandStep e).2 = false ∧ (expandStep e).1.Expanded) ∨
      ((expandStep e).2 = true ∧ Cls' (k - 1) (expandStep e).1) := by
  cases e with
  | const c => left; exact ⟨rfl, h⟩
  | atom c => left; exact ⟨rfl, h⟩
  | prod c l =>
    simp only [expandStep]
    cases hp : expandProduct c l with
    | none =>
      left
      refine ⟨rfl, ?_⟩
      have h' : Summand k (.prod c l) := h
      simp only [Expr.Expanded, Expr.noSum, noSumL_iff]
      exact fun x hx => expanded_noSum (h'.1 x hx) (expandProduct_none hp x hx)
    | some e' =>
      right
      refine ⟨rfl, ?_⟩
      have h' : Summand k (.prod c l) := h
      obtain ⟨ci, l', rfl, hl'⟩ := expandProduct_cls h'.1 h'.2 hp
      exact hl'
  | sum ci l =>
    simp only [expandStep]
    have raise : ∀ (st : SState K A) (b : Bool), (∀ s ∈ st.2, Summand (k - 1) s) →
        (b = true ∨ (b = false ∧ ∀ s ∈ st.2, s.noSum)) →
        let r := (match st.2 with
        | [] => ((.const 0, true) : Expr K A × Bool)
        | [e] => (e, true)
        | _ => (.sum st.1 st.2, b))
        (r.2 = false ∧ r.1.Expanded) ∨ (r.2 = true ∧ Cls' (k - 1) r.1) := by
      intro st b hst hb
      split
      · right; exact ⟨rfl, by simp [Cls', Summand, Expr.noSum]⟩
      · rename_i x hx
        right
        refine ⟨rfl, ?_⟩
        have := hst x (by simp [hx])
        cases x with
        | sum _ _ => simp [Summand, Expr.noSum] at this
        | _ => exact this
      · rcases hb with rfl | ⟨rfl, hb⟩
        · right; exact ⟨rfl, hst⟩
        · left; exact ⟨rfl, hb⟩
    unfold expandSum
    rcases expandSum_cls h with ⟨_, hn, hl⟩ | ⟨st, hl, hst⟩
    · simp only [hl, Option.getD_none, Option.isSome_none]
      exact raise (ci, l) false (fun s hs => noSum_summand _ (hn s hs)) (Or.inr ⟨rfl, hn⟩)
    · simp only [hl, Option.getD_some, Option.isSome_some]
      exact raise st true hst (Or.inl rfl)

theorem expandStep_noSum {e : Expr K A} (h : e.noSum) : expandStep e = (e, false) := by
  cases e with
  | const c => rfl
  | atom c => rfl
  | sum ci l => simp [Expr.noSum] at h
  | prod c l =>
    simp only [Expr.noSum, noSumL_iff] at h
    simp only [expandStep]
    cases hp : expandProduct c l with
    | none => rfl
    | some e' =>
      obtain ⟨p, ci, ss, q, rfl, _, rfl⟩ := expandProduct_some hp
      have := h (.sum ci ss) (by simp)
      simp [Expr.noSum] at this

/-- With nothing left to expand, a round that changes the expression leaves a sum-free one. -/
theorem expandStep_cls0 {e : Expr K A} (h : Cls' 0 e) :
    ((expandStep e).2 = false ∧ (expandStep e).1.Expanded) ∨ ((expandStep e).2 = true ∧ (expandStep e).1.noSum) := by
  by_cases hs : e.isSum = true
  · obtain ⟨ci, l, rfl⟩ : ∃ ci l, e = .sum ci l := by cases e <;> simp [Expr.isSum] at hs ⊢
    have hn : ∀ s ∈ l, s.noSum := fun s hs => summand_zero (h s hs)
    have hch : l.any changes = false := by
      simp only [List.any_eq_false]
      intro s hs
      have h1 := hn s hs
      cases s with
      | const c => simp [changes]
      | atom c => simp [changes]
      | sum ci ss => simp [Expr.noSum] at h1
      | prod c fs =>
        have h2 := expandStep_noSum h1
        simp only [expandStep] at h2
        cases hp : expandProduct c fs with
        | none => simp [changes, hp]
        | some e' => rw [hp] at h2; simp at h2
    simp only [expandStep, expandSum]
    rw [expandSumLoop_none, hch]
    simp only [Bool.false_eq_true, if_false, Option.getD_none, Option.isSome_none]
    split
    · right; exact ⟨rfl, by simp [Expr.noSum]⟩
    · rename_i x
      right; exact ⟨rfl, hn x (by simp)⟩
    · left; exact ⟨rfl, hn⟩
  · have hn : e.noSum := by
      cases e with
      | sum _ _ => simp [Expr.isSum] at hs
      | _ => exact summand_zero h
    rw [expandStep_noSum hn]
    left; exact ⟨rfl, noSum_expanded hn⟩

theorem loop_noSum {e : Expr K A} (h : e.noSum) (n : Nat) : loop expandStep (n + 1) e = some e := by
  rw [loop, expandStep_noSum h]; simp

/-- `k + 3` rounds are enough. -/
theorem loop_cls {k : Nat} {e : Expr K A} (h : Cls k e) (n : Nat) (hn : k + 3 ≤ n) :
    ∃ r, loop expandStep n e = some r ∧ r.Expanded := by
  have base : ∀ (e : Expr K A), Cls' 0 e → ∀ n, 2 ≤ n → ∃ r, loop expandStep n e = some r ∧ r.Expanded := by
    intro e h n hn
    obtain ⟨n, rfl⟩ : ∃ m, n = m + 2 := ⟨n - 2, by omega⟩
    rw [loop]
    rcases expandStep_cls0 h with ⟨h1, h2⟩ | ⟨h1, h2⟩
    · exact ⟨_, by rw [h1]; simp, h2⟩
    · exact ⟨_, by rw [h1, if_pos rfl, loop_noSum h2], noSum_expanded h2⟩
  induction k generalizing e n with
  | zero =>
    obtain ⟨n, rfl⟩ : ∃ m, n = m + 1 := ⟨n - 1, by omega⟩
    rw [loop]
    rcases expandStep_cls h with ⟨h1, h2⟩ | ⟨h1, h2⟩
    · exact ⟨_, by rw [h1]; simp, h2⟩
    · rw [h1, if_pos rfl]
      exact base _ h2 n (by omega)
  | succ k ih =>
    obtain ⟨n, rfl⟩ : ∃ m, n = m + 1 := ⟨n - 1, by omega⟩
    rw [loop]
    rcases expandStep_cls h with ⟨h1, h2⟩ | ⟨h1, h2⟩
    · exact ⟨_, by rw [h1]; simp, h2⟩
    · rw [h1, if_pos rfl]
      exact ih (Cls'.cls h2) n (by omega)

mutual
/-- Number of rounds that surely suffices at every node. -/
def expandBound : Expr K A → Nat
  | .const _ => 3
  | .atom _ => 3
  | .prod _ l => max (l.length + 3) (expandBoundL l)
  | .sum _ l => max (l.length + 3) (expandBoundL l)
def expandBoundL : List (Expr K A) → Nat
  | [] => 3
  | e :: l => max (expandBound e) (expandBoundL l)
end

theorem nsums_le (l : List (Expr K A)) : nsums l ≤ l.length := List.length_filter_le _ _

theorem visitL_length {f : Expr K A → Option (Expr K A)} {l l' : List (Expr K A)} (h : visitL f l = some l') :
    l'.length = l.length := by
  induction l generalizing l' with
  | nil => simp only [visitL, Option.some.injEq] at h; subst h; rfl
  | cons e l ih =>
    simp only [visitL, Option.bind_eq_bind, Option.bind_eq_some_iff] at h
    obtain ⟨e', he, l'', hl, hr⟩ := h
    simp only [pure, Option.some.injEq] at hr
    subst hr
    simp [ih hl]

mutual
theorem expand_total (e : Expr K A) (n : Nat) (hn : expandBound e ≤ n) :
    ∃ r, visit (loop expandStep n) e = some r ∧ r.Expanded := by
  match e with
  | .const c =>
    simp only [expandBound] at hn
    exact loop_cls (k := 0) (e := .const c) (by simp [Cls, Summand, Expr.noSum]) n (by omega)
  | .atom c =>
    simp only [expandBound] at hn
    exact loop_cls (k := 0) (e := .atom c) (by simp [Cls, Summand, Expr.noSum]) n (by omega)
  | .prod c l =>
    simp only [expandBound] at hn
    obtain ⟨l', hl, hE⟩ := expandL_total l n (by omega)
    simp only [visit, hl, Option.bind_eq_bind, Option.bind_some]
    refine loop_cls (k := l.length) (e := .prod c l') ⟨hE, ?_⟩ n (by omega)
    rw [← visitL_length hl]; exact nsums_le l'
  | .sum ci l =>
    simp only [expandBound] at hn
    obtain ⟨l', hl, hE⟩ := expandL_total l n (by omega)
    simp only [visit, hl, Option.bind_eq_bind, Option.bind_some]
    exact loop_cls (k := l.length) (e := .sum ci l') (fun s hs => Or.inr (hE s hs)) n (by omega)
theorem expandL_total (l : List (Expr K A)) (n : Nat) (hn : expandBoundL l ≤ n) :
    ∃ r, visitL (loop expandStep n) l = some r ∧ ∀ x ∈ r, x.Expanded := by
  match l with
  | [] => exact ⟨[], rfl, by simp⟩
  | e :: l =>
    simp only [expandBoundL] at hn
    obtain ⟨e', he, hE⟩ := expand_total e n (by omega)
    obtain ⟨l', hl, hL⟩ := expandL_total l n (by omega)
    refine ⟨e' :: l', ?_, ?_⟩
    · simp [visitL, he, hl]
    · intro x hx
      simp only [List.mem_cons] at hx
      rcases hx with rfl | hx
      · exact hE
      · exact hL x hx
end

/-- **C11**: `expand` terminates on every expression; the result has the same value, no sum below a product and no sum below a
sum. -/
theorem expand_correct (hI : Interp K I) (e : Expr K A) :
    ∃ N r, (∀ n, N ≤ n → expand n e = some r) ∧ eval I r = eval I e ∧ r.Expanded := by
  obtain ⟨r, hr, hE⟩ := expand_total e (expandBound e) (le_refl _)
  refine ⟨expandBound e, r, ?_, expand_val hI _ e r hr, hE⟩
  intro n hn
  exact visit_mono (fun e r => loop_mono n hn e r) e r hr
where
  loop_mono {m : Nat} (n : Nat) (hn : m ≤ n) (e r : Expr K A) (h : loop expandStep m e = some r) : loop expandStep n e = some r := by
    induction m generalizing e n with
    | zero => simp [loop] at h
    | succ m ih =>
      obtain ⟨n, rfl⟩ : ∃ k, n = k + 1 := ⟨n - 1, by omega⟩
      rw [loop] at h ⊢
      split at h
      · rename_i hs; rw [if_pos hs]; exact ih n (by omega) _ h
      · rename_i hs; rw [if_neg hs]; exact h
  visit_mono {f g : Expr K A → Option (Expr K A)} (h : ∀ e r, f e = some r → g e = some r) (e r : Expr K A)
      (hr : visit f e = some r) : visit g e = some r := by
    match e with
    | .const c => exact h _ _ hr
    | .atom c => exact h _ _ hr
    | .prod c l =>
      simp only [visit, Option.bind_eq_bind, Option.bind_eq_some_iff] at hr ⊢
      obtain ⟨l', hl, hr⟩ := hr
      exact ⟨l', visitL_mono h l l' hl, h _ _ hr⟩
    | .sum c l =>
      simp only [visit, Option.bind_eq_bind, Option.bind_eq_some_iff] at hr ⊢
      obtain ⟨l', hl, hr⟩ := hr
      exact ⟨l', visitL_mono h l l' hl, h _ _ hr⟩
  visitL_mono {f g : Expr K A → Option (Expr K A)} (h : ∀ e r, f e = some r → g e = some r) (l r : List (Expr K A))
      (hr : visitL f l = some r) : visitL g l = some r := by
    match l with
    | [] => exact hr
    | e :: l =>
      simp only [visitL, Option.bind_eq_bind, Option.bind_eq_some_iff] at hr ⊢
      obtain ⟨e', he, l', hl, hr⟩ := hr
      exact ⟨e', visit_mono h e e' he, l', visitL_mono h l l' hl, hr⟩

/-- A nested product of sums is expanded into four terms; the two sums are not below the product any more. -/
example : expand 9 (.prod 2 [.sum none [Inst.X, .const 3], .prod 1 [.sum none [Inst.Y, Inst.X]]] : Inst.E) =
    some (.sum none [.prod 2 [Inst.X, Inst.Y], .prod 2 [Inst.X, Inst.X], .prod 6 [Inst.Y], .prod 6 [Inst.X]]) := by rfl

example : ∃ N r, (∀ n, N ≤ n → expand n (.prod 2 [.sum none [Inst.X, .const 3], .sum none [Inst.Y, Inst.X]] : Inst.E) = some r) ∧
    eval Inst.mat r = eval Inst.mat (.prod 2 [.sum none [Inst.X, .const 3], .sum none [Inst.Y, Inst.X]]) ∧ r.Expanded :=
  expand_correct Inst.mat_interp _

end SeQuant.Expression
