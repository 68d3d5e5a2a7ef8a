import Verif.Rdm.Model
import Verif.Rdm.LoopProps
import Verif.Expression.BuildProps
import Mathlib.Algebra.Algebra.Rat
import Mathlib.Tactic.Ring
import Mathlib.Tactic.NoncommRing

/-!
# What `max_similarity`, `spin_sum` and the conversion of cumulants guarantee (C94, C95)
-/

namespace SeQuant.Rdm

open SeQuant.Expression

variable {α : Type} [DecidableEq α] {R : Type} [Ring R] [Algebra ℚ R]

omit [DecidableEq α] in
/-- Atoms are never zero or powers, so every interpretation is compatible with them. -/
theorem interp (I : At α → R) : Interp ℚ I := by
  constructor
  · intro a h
    cases h
  · intro a c h
    cases h
  · intro a b h
    cases h

/-- Exchanging the two lower indices of a tensor or operator with two upper and two lower indices changes the sign. -/
def Antisymmetric (I : At α → R) : Prop :=
  ∀ (t : At α) (u0 u1 l0 l1 : α), t.upper = [u0, u1] → t.lower = [l0, l1] → I (t.withIndices [u0, u1] [l1, l0]) = - I t

omit [DecidableEq α] in
theorem rank_two {t : At α} (h : t.rank = .ok 2) : ∃ u0 u1 l0 l1, t.upper = [u0, u1] ∧ t.lower = [l0, l1] := by
  have aux : ∀ l : List α, l.length = 2 → ∃ a b, l = [a, b] := fun l hl => by
    match l, hl with
    | [a, b], _ => exact ⟨a, b, rfl⟩
  cases t with
  | tensor l bra ket =>
    rw [At.rank] at h
    split at h
    · cases h
    · rename_i hne
      have hb : bra.length = 2 := by simpa using h
      obtain ⟨a, b, rfl⟩ := aux bra hb
      obtain ⟨c, d, rfl⟩ := aux ket (by rw [← hb]; exact (not_not.1 hne).symm)
      exact ⟨c, d, a, b, rfl, rfl⟩
  | op cre ann =>
    rw [At.rank] at h
    split at h
    · cases h
    · rename_i hne
      have hb : cre.length = 2 := by simpa using h
      obtain ⟨a, b, rfl⟩ := aux cre hb
      obtain ⟨c, d, rfl⟩ := aux ann (by rw [← hb]; exact (not_not.1 hne).symm)
      exact ⟨a, b, c, d, rfl, rfl⟩

/-- What `similarAtom` can return. -/
theorem similarAtom_cases (checks : Bool) (m : List (α × α)) (t : At α) (e : Expr ℚ (At α)) (h : similarAtom checks m t = .ok e) :
    (e = .atom t ∧ (t.rank = .ok 2 → ∃ a b, countPairs checks m t.upper t.lower = .ok a ∧
        countPairs checks m t.upper (swap2 t.lower) = .ok b ∧ b ≤ a)) ∨
      (e = .prod (-1) [.atom (t.withIndices t.upper (swap2 t.lower))] ∧ t.rank = .ok 2 ∧
        ∃ a b, countPairs checks m t.upper t.lower = .ok a ∧ countPairs checks m t.upper (swap2 t.lower) = .ok b ∧ a < b) := by
  rw [similarAtom] at h
  cases hr : t.rank with
  | error x => rw [hr] at h; cases h
  | ok r =>
    rw [hr] at h
    simp only [bind, Except.bind] at h
    by_cases h2 : r = 2
    · rw [if_pos h2] at h
      cases ha : countPairs checks m t.upper t.lower with
      | error x => rw [ha] at h; cases h
      | ok a =>
        cases hb : countPairs checks m t.upper (swap2 t.lower) with
        | error x => rw [ha, hb] at h; cases h
        | ok b =>
          rw [ha, hb] at h
          simp only at h
          by_cases hab : a < b
          · rw [if_pos hab, Except.ok.injEq] at h
            refine .inr ⟨?_, by rw [h2], a, b, rfl, rfl, hab⟩
            rw [← h]
            simp [mulE, mkProd, pAppendAll, pAppend, clone, cloneF, Expr.depth, Expr.isProd]
          · rw [if_neg hab, Except.ok.injEq] at h
            exact .inl ⟨h.symm, fun _ => ⟨a, b, rfl, rfl, by omega⟩⟩
    · rw [if_neg h2, Except.ok.injEq] at h
      refine .inl ⟨h.symm, fun h' => ?_⟩
      rw [Except.ok.injEq] at h'
      exact absurd h' h2

theorem similarAtom_value (checks : Bool) (m : List (α × α)) (I : At α → R) (hI : Antisymmetric I) (t : At α) (e : Expr ℚ (At α))
    (h : similarAtom checks m t = .ok e) : eval I e = I t := by
  rcases similarAtom_cases checks m t e h with ⟨rfl, _⟩ | ⟨rfl, hr, _⟩
  · rfl
  · obtain ⟨u0, u1, l0, l1, hu, hl⟩ := rank_two hr
    rw [hu, hl]
    simp only [eval, evalProd, mul_one, swap2, hI t u0 u1 l0 l1 hu hl]
    simp

theorem similarFactors_value (checks : Bool) (m : List (α × α)) (I : At α → R) (hI : Antisymmetric I) :
    ∀ (l l' : List (Expr ℚ (At α))), similarFactors checks m l = .ok l' → evalProd I l' = evalProd I l
  | [], l', h => by
    rw [similarFactors, Except.ok.injEq] at h
    rw [← h]
  | .atom t :: l, l', h => by
    rw [similarFactors] at h
    cases h1 : similarAtom checks m t with
    | error x => rw [h1] at h; cases h
    | ok e =>
      cases h2 : similarFactors checks m l with
      | error x => rw [h1, h2] at h; cases h
      | ok l2 =>
        rw [h1, h2] at h
        simp only [bind, Except.bind, Except.ok.injEq] at h
        rw [← h, evalProd, evalProd, similarAtom_value checks m I hI t e h1, similarFactors_value checks m I hI l l2 h2, eval]
  | .const c :: l, l', h => by
    rw [similarFactors] at h
    · cases h2 : similarFactors checks m l with
      | error x => rw [h2] at h; cases h
      | ok l2 =>
        rw [h2] at h
        simp only [bind, Except.bind, Except.ok.injEq] at h
        rw [← h, evalProd, evalProd, similarFactors_value checks m I hI l l2 h2]
    · simp
  | .prod c x :: l, l', h => by
    rw [similarFactors] at h
    · cases h2 : similarFactors checks m l with
      | error x => rw [h2] at h; cases h
      | ok l2 =>
        rw [h2] at h
        simp only [bind, Except.bind, Except.ok.injEq] at h
        rw [← h, evalProd, evalProd, similarFactors_value checks m I hI l l2 h2]
    · simp
  | .sum c x :: l, l', h => by
    rw [similarFactors] at h
    · cases h2 : similarFactors checks m l with
      | error x => rw [h2] at h; cases h
      | ok l2 =>
        rw [h2] at h
        simp only [bind, Except.bind, Except.ok.injEq] at h
        rw [← h, evalProd, evalProd, similarFactors_value checks m I hI l l2 h2]
    · simp

theorem similarTerms_value (checks : Bool) (m : List (α × α)) (I : At α → R) (hI : Antisymmetric I) :
    ∀ (l l' : List (Expr ℚ (At α))), similarTerms checks m l = .ok l' → evalSum I l' = evalSum I l
  | [], l', h => by
    rw [similarTerms, Except.ok.injEq] at h
    rw [← h]
  | e :: l, l', h => by
    rw [similarTerms] at h
    match e with
    | .const c => cases h
    | .atom a => cases h
    | .sum a b => cases h
    | .prod c fs =>
      simp only [asProduct, bind, Except.bind] at h
      cases h1 : similarFactors checks m fs with
      | error x => rw [h1] at h; cases h
      | ok fs' =>
        cases h2 : similarTerms checks m l with
        | error x => rw [h1, h2] at h; cases h
        | ok l2 =>
          rw [h1, h2] at h
          simp only [Except.ok.injEq] at h
          rw [← h, evalSum, evalSum, similarTerms_value checks m I hI l l2 h2, eval, eval, similarFactors_value checks m I hI fs fs' h1]

/-- **C94.**  If the call returns, the expression has kept its value, for every interpretation in which exchanging two lower indices
changes the sign. -/
theorem maxSimilarity_value (checks : Bool) (simplify : Expr ℚ (At α) → Expr ℚ (At α)) (upper lower : List α) (I : At α → R)
    (hI : Antisymmetric I) (hs : ∀ e, eval I (simplify e) = eval I e) (e e' : Expr ℚ (At α))
    (h : maxSimilarity checks simplify upper lower e = .ok e') : eval I e' = eval I e := by
  match e with
  | .const c => cases h
  | .atom a => cases h
  | .prod a b => cases h
  | .sum ci l =>
    rw [maxSimilarity] at h
    cases hm : originalMap upper lower with
    | error x => rw [hm] at h; cases h
    | ok m =>
      cases h1 : similarTerms checks m l with
      | error x => rw [hm] at h; simp only [bind, Except.bind, h1] at h; cases h
      | ok l' =>
        rw [hm] at h
        simp only [bind, Except.bind, h1, Except.ok.injEq] at h
        rw [← h, hs, eval, eval, similarTerms_value checks m I hI l l' h1]

/-- The map of the initial pairs: what `lookup` finds. -/
theorem originalMap_eq : ∀ (upper lower : List α), upper.Nodup → upper.length ≤ lower.length →
    originalMap upper lower = .ok (upper.zip lower) := by
  intro upper lower hn hlen
  have key : ∀ k, k ≤ upper.length → (List.range k).foldlM (fun m i => do .ok (emplace m (← at' upper i) (← at' lower i)))
      ([] : List (α × α)) = Except.ok (ε := Err) ((upper.zip lower).take k) := by
    intro k
    induction k with
    | zero => intro _; rfl
    | succ k ih =>
      intro hk
      have h1 : at' upper k = .ok upper[k] := by rw [at', List.getElem?_eq_getElem (by omega)]
      have h2 : at' lower k = .ok (lower[k]'(by omega)) := by rw [at', List.getElem?_eq_getElem (by omega)]
      rw [List.range_succ, List.foldlM_append, ih (by omega)]
      simp only [bind, Except.bind, List.foldlM_cons, List.foldlM_nil, h1, h2, pure, Except.pure]
      have hlook : ((upper.zip lower).take k).lookup upper[k] = none := by
        rw [List.lookup_eq_none_iff]
        rintro ⟨a, b⟩ hp
        obtain ⟨i, hi, he⟩ := List.getElem_of_mem hp
        rw [List.length_take] at hi
        rw [List.getElem_take, List.getElem_zip, Prod.mk.injEq] at he
        simp only [← he.1, bne_iff_ne]
        intro hc
        have := (hn.getElem_inj_iff).1 hc
        omega
      rw [emplace, hlook]
      have hkz : k < (upper.zip lower).length := by
        rw [List.length_zip]
        omega
      rw [List.take_succ_eq_append_getElem hkz, List.getElem_zip]
  rw [originalMap, key upper.length le_rfl, List.take_of_length_le]
  rw [List.length_zip]
  omega

/-- How many of the pairs of a tensor or operator are initial pairs. -/
def kept (upper lower : List α) (t : At α) : Nat := ((t.upper.zip t.lower).filter fun p => decide (p ∈ upper.zip lower)).length

omit [DecidableEq α] in
theorem withIndices_upper (t : At α) (u l : List α) : (t.withIndices u l).upper = u ∧ (t.withIndices u l).lower = l := by
  cases t <;> exact ⟨rfl, rfl⟩

theorem isPair_eq (checks : Bool) (upper lower : List α) (hn : upper.Nodup) (u l : α) (b : Bool)
    (h : isPair checks (upper.zip lower) u l = .ok b) : b = decide ((u, l) ∈ upper.zip lower) := by
  rw [isPair] at h
  cases hl : (upper.zip lower).lookup u with
  | none =>
    rw [hl] at h
    cases checks <;> cases h
  | some l' =>
    rw [hl] at h
    simp only [Except.ok.injEq] at h
    rw [← h, decide_eq_decide]
    obtain ⟨p, q, hpq, hnot⟩ := List.lookup_eq_some_iff.1 hl
    have hmem : (u, l') ∈ upper.zip lower := by
      rw [hpq]
      simp
    constructor
    · rintro rfl
      exact hmem
    · intro hm
      obtain ⟨i, hi, hie⟩ := List.getElem_of_mem hmem
      obtain ⟨j, hj, hje⟩ := List.getElem_of_mem hm
      rw [List.getElem_zip, Prod.mk.injEq] at hie hje
      have hij := (hn.getElem_inj_iff).1 (hie.1.trans hje.1.symm)
      subst hij
      exact hie.2.symm.trans hje.2

theorem countPairs_eq (checks : Bool) (upper lower : List α) (hn : upper.Nodup) (u0 u1 l0 l1 : α) (k : Nat)
    (h : countPairs checks (upper.zip lower) [u0, u1] [l0, l1] = .ok k) :
    k = (([u0, u1].zip [l0, l1]).filter fun p => decide (p ∈ upper.zip lower)).length := by
  simp only [countPairs, at', List.getElem?_cons_zero, List.getElem?_cons_succ, bind, Except.bind] at h
  cases h0 : isPair checks (upper.zip lower) u0 l0 with
  | error x => rw [h0] at h; cases h
  | ok a =>
    cases h1 : isPair checks (upper.zip lower) u1 l1 with
    | error x => rw [h0, h1] at h; cases h
    | ok b =>
      rw [h0, h1] at h
      simp only [Except.ok.injEq] at h
      rw [← h, isPair_eq checks upper lower hn u0 l0 a h0, isPair_eq checks upper lower hn u1 l1 b h1]
      simp only [List.zip_cons_cons, List.zip_nil_left, List.filter_cons, List.filter_nil]
      cases decide ((u0, l0) ∈ upper.zip lower) <;> cases decide ((u1, l1) ∈ upper.zip lower) <;> rfl

/-- **C94.**  Of the two ways to pair the indices of a tensor or operator with two pairs the new factor has one that keeps the most
initial pairs; factors with another number of pairs are not changed. -/
theorem similarAtom_best (checks : Bool) (upper lower : List α) (hn : upper.Nodup) (t : At α) (e : Expr ℚ (At α))
    (h : similarAtom checks (upper.zip lower) t = .ok e) :
    ∃ t', (e = .atom t' ∧ t' = t ∨ e = .prod (-1) [.atom t'] ∧ t' = t.withIndices t.upper (swap2 t.lower)) ∧
      (t.rank = .ok 2 → kept upper lower (t'.withIndices t'.upper (swap2 t'.lower)) ≤ kept upper lower t') ∧ (t.rank ≠ .ok 2 → t' = t) := by
  rcases similarAtom_cases checks _ t e h with ⟨rfl, h2⟩ | ⟨rfl, hr, a, b, ha, hb, hab⟩
  · refine ⟨t, .inl ⟨rfl, rfl⟩, fun hr => ?_, fun _ => rfl⟩
    obtain ⟨a, b, ha, hb, hab⟩ := h2 hr
    obtain ⟨u0, u1, l0, l1, hu, hl⟩ := rank_two hr
    rw [hu, hl] at ha hb
    rw [kept, kept, (withIndices_upper t _ _).1, (withIndices_upper t _ _).2, hu, hl, swap2]
    rw [swap2] at hb
    rw [← countPairs_eq checks upper lower hn _ _ _ _ a ha, ← countPairs_eq checks upper lower hn _ _ _ _ b hb]
    exact hab
  · refine ⟨_, .inr ⟨rfl, rfl⟩, fun _ => ?_, fun hne => absurd hr hne⟩
    obtain ⟨u0, u1, l0, l1, hu, hl⟩ := rank_two hr
    rw [hu, hl] at ha hb
    simp only [kept, (withIndices_upper _ _ _).1, (withIndices_upper _ _ _).2, hu, hl, swap2]
    rw [swap2] at hb
    rw [← countPairs_eq checks upper lower hn _ _ _ _ a ha, ← countPairs_eq checks upper lower hn _ _ _ _ b hb]
    omega

/-- **C94.**  A summand that is no product, for example a density alone, makes the call fail. -/
theorem maxSimilarity_needs_products (checks : Bool) (simplify : Expr ℚ (At α) → Expr ℚ (At α)) (upper lower : List α) (hn : upper.Nodup)
    (hlen : upper.length ≤ lower.length) (ci : Option Nat) (t : At α) (l : List (Expr ℚ (At α))) :
    maxSimilarity checks simplify upper lower (.sum ci (.atom t :: l)) = .error .type := by
  rw [maxSimilarity, originalMap_eq upper lower hn hlen]
  rfl

/-! ### spin_sum -/

/-- The densities replaced by spin-free densities. -/
def spinFree (I : At α → R) : At α → R
  | .tensor l bra ket => if l = "γ" then I (.tensor "Γ" bra ket) else I (.tensor l bra ket)
  | .op cre ann => I (.op cre ann)

/-- Densities and operators. -/
def At.counted : At α → Bool
  | .tensor l _ _ => decide (l = "γ")
  | .op _ _ => true

omit [DecidableEq α] in
theorem spinFactors_atoms (I : At α → R) : ∀ ts : List (At α), (∀ t ∈ ts, t.upper.length = t.lower.length) →
    ∃ l', spinFactors (ts.map .atom) = .ok ((ts.filter At.counted).flatMap At.upper, (ts.filter At.counted).flatMap At.lower, l') ∧
      evalProd I l' = evalProd (spinFree I) (ts.map (.atom : At α → Expr ℚ (At α)))
  | [], _ => ⟨[], rfl, rfl⟩
  | t :: ts, h => by
    obtain ⟨l', h1, h2⟩ := spinFactors_atoms I ts fun x hx => h x (List.mem_cons_of_mem _ hx)
    have ht := h t List.mem_cons_self
    cases t with
    | tensor l bra ket =>
      simp only [At.upper, At.lower] at ht
      by_cases hl : l = "γ"
      · refine ⟨.atom (.tensor "Γ" bra ket) :: l', ?_, ?_⟩
        · rw [List.map_cons, spinFactors, spinFactor, if_pos hl, At.rank, if_neg (by simp [ht]), h1]
          simp [bind, Except.bind, At.counted, hl, At.upper, At.lower]
        · rw [List.map_cons, evalProd, evalProd, h2]
          simp [eval, spinFree, hl]
      · refine ⟨.atom (.tensor l bra ket) :: l', ?_, ?_⟩
        · rw [List.map_cons, spinFactors, spinFactor, if_neg hl, h1]
          simp [bind, Except.bind, At.counted, hl]
        · rw [List.map_cons, evalProd, evalProd, h2]
          simp [eval, spinFree, hl]
    | op cre ann =>
      simp only [At.upper, At.lower] at ht
      refine ⟨.atom (.op cre ann) :: l', ?_, ?_⟩
      · rw [List.map_cons, spinFactors, spinFactor, At.rank, if_neg (by simp [ht]), h1]
        rw [List.filter_cons_of_pos rfl]
        rfl
      · rw [List.map_cons, evalProd, evalProd, h2]
        simp [eval, spinFree]

/-- What `spin_sum` is used for: every summand is a product of tensors and operators, and the indices of its densities and operators are
those of the initial pairs. -/
def Balanced (upper lower : List α) (p : ℚ × List (At α)) : Prop :=
  (∀ t ∈ p.2, t.upper.length = t.lower.length) ∧ ((p.2.filter At.counted).flatMap At.upper).Perm upper ∧
    ((p.2.filter At.counted).flatMap At.lower).Perm lower

/-- The product with coefficient `p.1` and factors `p.2`. -/
def term (p : ℚ × List (At α)) : Expr ℚ (At α) := .prod p.1 (p.2.map .atom)

/-- The number of spins of the particles for which both indices of all pairs of the densities and operators have the same spin. -/
noncomputable def spins (upper lower : List α) (p : ℚ × List (At α)) : ℕ :=
  Nat.card {s : Fin upper.length → Bool //
    Suits upper lower ((p.2.filter At.counted).flatMap At.upper) ((p.2.filter At.counted).flatMap At.lower) s}

theorem spinTerms_value (checks : Bool) (fuel : Nat) (upper lower : List α) (hU : upper.Nodup) (hL : lower.Nodup)
    (hlen : upper.length = lower.length) (hf : upper.length < fuel) (I : At α → R) : ∀ (ps : List (ℚ × List (At α))) (ret : Expr ℚ (At α)),
      (∀ p ∈ ps, Balanced upper lower p) → ∃ e, spinTerms checks fuel upper lower ret (ps.map term) = .ok e ∧
        eval I e = (ps.map fun p => ((spins upper lower p : ℚ) / 8) • eval (spinFree I) (term p)).sum + eval I ret
  | [], ret, _ => ⟨ret, rfl, by simp⟩
  | p :: ps, ret, h => by
    obtain ⟨hlen', hu, hl⟩ := h p List.mem_cons_self
    obtain ⟨fs', h1, h2⟩ := spinFactors_atoms I p.2 hlen'
    obtain ⟨c, hc, hcard⟩ := numClosedLoops_spin checks fuel upper lower _ _ hU hL hlen hu hl hf
    have hpre : ∀ n : Nat, eval I (if n = 0 then (.const (1 / 8) : Expr ℚ (At α)) else mulE (.const (2 ^ n)) (.const (1 / 8))) =
        algebraMap ℚ R (2 ^ n / 8) := by
      intro n
      by_cases h0 : n = 0
      · rw [if_pos h0, h0, pow_zero]
        rfl
      · rw [if_neg h0, mulE_val (interp I)]
        simp only [eval]
        rw [← map_mul]
        congr 1
        ring
    obtain ⟨e, he, hv⟩ := spinTerms_value checks fuel upper lower hU hL hlen hf I ps
      (addE (mulE (.prod p.1 fs') (if c = 0 then (.const (1 / 8) : Expr ℚ (At α)) else mulE (.const (2 ^ c)) (.const (1 / 8)))) ret)
      fun q hq => h q (List.mem_cons_of_mem _ hq)
    refine ⟨e, ?_, ?_⟩
    · rw [List.map_cons, spinTerms]
      simp only [term, asProduct, bind, Except.bind, h1, hc]
      exact he
    · rw [hv, addE_val (interp I), mulE_val (interp I), hpre, List.map_cons, List.sum_cons]
      have hs : (spins upper lower p : ℚ) = 2 ^ c := by
        rw [spins, ← hcard]
        push_cast
        rfl
      rw [hs]
      simp only [term, eval, h2]
      rw [← Algebra.commutes, ← Algebra.smul_def]
      abel

/-- **C94.**  If all summands are products in which the densities and operators have the indices of the initial pairs, then the call
returns, and the result is the sum over the summands of their values with spin-free densities, each times the number of spins that suit
the pairs, over eight. -/
theorem spinSum_value (checks : Bool) (fuel : Nat) (simplify : Expr ℚ (At α) → Expr ℚ (At α)) (upper lower : List α) (hU : upper.Nodup)
    (hL : lower.Nodup) (hlen : upper.length = lower.length) (hf : upper.length < fuel) (I : At α → R) (e : Expr ℚ (At α)) (ci : Option Nat)
    (ps : List (ℚ × List (At α))) (hmax : maxSimilarity checks simplify upper lower e = .ok (.sum ci (ps.map term)))
    (hps : ∀ p ∈ ps, Balanced upper lower p) :
    ∃ e', spinSum checks fuel simplify upper lower e true = .ok e' ∧
      eval I e' = (ps.map fun p => ((spins upper lower p : ℚ) / 8) • eval (spinFree I) (term p)).sum := by
  obtain ⟨e', h1, h2⟩ := spinTerms_value checks fuel upper lower hU hL hlen hf I ps (.const 0) hps
  refine ⟨e', ?_, ?_⟩
  · rw [spinSum, if_pos rfl, hmax]
    exact h1
  · rw [h2]
    simp [eval]

/-- **C94.**  Other states than singlets are rejected. -/
theorem spinSum_singlet_only (checks : Bool) (fuel : Nat) (simplify : Expr ℚ (At α) → Expr ℚ (At α)) (upper lower : List α)
    (e : Expr ℚ (At α)) : spinSum checks fuel simplify upper lower e false = .error .thrown := rfl

/-! ### Cumulants -/

omit [DecidableEq α] in
theorem mulE_prod (x y : Expr ℚ (At α)) (h : x.isProd = true) : ∃ c l, mulE x y = .prod c l := by
  cases x with
  | const c => cases h
  | atom a => cases h
  | sum a b => cases h
  | prod c l =>
    obtain ⟨c', l', hc⟩ := clone_prod c l
    refine ⟨(pAppend clone .Recursively (c', l') y).1, (pAppend clone .Recursively (c', l') y).2, ?_⟩
    simp only [mulE, Expr.isProd, Bool.not_true, Bool.false_and, Bool.false_eq_true, if_false, if_true, hc]

omit [DecidableEq α] in
/-- **C95.**  `cumu3_to_density` fails for every argument: a cumulant of rank three becomes a product where a sum is expected, everything
else is rejected. -/
theorem cumu3ToDensity_fails (anti : Expr ℚ (At α) → Expr ℚ (At α)) (e : Expr ℚ (At α)) :
    (∀ e', cumu3ToDensity anti e ≠ .ok e') ∧
      ∀ bra ket, bra.length = 3 → ket.length = 3 → cumu3ToDensity anti (kappa bra ket) = .error .type := by
  have key : ∀ bra ket : List α, bra.length = 3 → ket.length = 3 → cumu3ToDensity anti (kappa bra ket) = .error .type := by
    intro bra ket hb hk
    match bra, ket, hb, hk with
    | [u0, u1, u2], [d0, d1, d2], _, _ =>
      obtain ⟨c, l, hcl⟩ := mulE_prod (mulE (gamma [u0, u1, u2] [d0, d1, d2]) (.const (-1)))
        (anti (addE (mulE (mulE (gamma [u0] [d0]) (gamma [u1] [d1])) (gamma [u2] [d2])) (mulE (gamma [u0] [d0]) (kappa [u1, u2] [d1, d2])))) rfl
      have : cumu3ToDensity anti (kappa [u0, u1, u2] [d0, d1, d2]) = (do
          convertSum 1 cumuToDensity (← convertSum 2 (cumu2ToDensity anti) (mulE (mulE (gamma [u0, u1, u2] [d0, d1, d2]) (.const (-1)))
            (anti (addE (mulE (mulE (gamma [u0] [d0]) (gamma [u1] [d1])) (gamma [u2] [d2]))
              (mulE (gamma [u0] [d0]) (kappa [u1, u2] [d1, d2]))))))) := rfl
      rw [this, hcl]
      rfl
  refine ⟨fun e' h => ?_, key⟩
  match e with
  | .const c => cases h
  | .prod c l => cases h
  | .sum c l => cases h
  | .atom (.op c a) => cases h
  | .atom (.tensor l bra ket) =>
    by_cases hr : bra.length = ket.length ∧ bra.length = 3 ∧ l = "κ"
    · obtain ⟨h1, h2, rfl⟩ := hr
      have := key bra ket h2 (h1 ▸ h2)
      rw [kappa] at this
      rw [this] at h
      cases h
    · have hc : ∃ x, cumulant 3 (.atom (.tensor l bra ket) : Expr ℚ (At α)) = .error x := by
        rw [cumulant, At.rank]
        by_cases h1 : bra.length = ket.length
        · rw [if_neg (by simp [h1])]
          simp only [bind, Except.bind]
          by_cases h2 : bra.length = 3
          · rw [if_neg (by simp [h2])]
            by_cases h3 : l = "κ"
            · exact absurd ⟨h1, h2, h3⟩ hr
            · exact ⟨_, if_pos h3⟩
          · exact ⟨_, if_pos h2⟩
        · rw [if_pos h1]
          exact ⟨_, rfl⟩
      obtain ⟨x, hx⟩ := hc
      rw [cumu3ToDensity, hx] at h
      cases h

omit [DecidableEq α] in
/-- **C95.**  A cumulant of rank one is the density. -/
theorem cumuToDensity_eq (u d : α) : cumuToDensity (kappa [u] [d]) = .ok (gamma [u] [d]) := rfl

/-- What antisymmetrization of a product of two factors with one pair each has to be: the lower indices as they are and, with the opposite
sign, exchanged. -/
def AntiTwo (anti : Expr ℚ (At α) → Expr ℚ (At α)) (I : At α → R) : Prop :=
  ∀ u0 u1 d0 d1 : α, eval I (anti (mulE (gamma [u0] [d0]) (gamma [u1] [d1]))) =
    I (.tensor "γ" [u0] [d0]) * I (.tensor "γ" [u1] [d1]) - I (.tensor "γ" [u0] [d1]) * I (.tensor "γ" [u1] [d0])

omit [DecidableEq α] in
/-- **C95.**  `cumu2_to_density` replaces the cumulant by what defines it: the density of rank two minus the antisymmetrized product of
densities of rank one. -/
theorem cumu2ToDensity_value_partial (anti : Expr ℚ (At α) → Expr ℚ (At α)) (I : At α → R) (hanti : AntiTwo anti I) (u0 u1 d0 d1 : α) :
    ∃ e, cumu2ToDensity anti (kappa [u0, u1] [d0, d1]) = .ok e ∧
      eval I e = I (.tensor "γ" [u0, u1] [d0, d1]) -
        (I (.tensor "γ" [u0] [d0]) * I (.tensor "γ" [u1] [d1]) - I (.tensor "γ" [u0] [d1]) * I (.tensor "γ" [u1] [d0])) := by
  refine ⟨_, rfl, ?_⟩
  rw [addE_val (interp I), mulE_val (interp I), hanti]
  simp only [gamma, eval, map_neg, map_one]
  noncomm_ring

omit [DecidableEq α] in
/-- **C95.**  `one_body_sub` subtracts the cumulant. -/
theorem oneBodySub_value (I : At α → R) (u d : α) :
    ∃ e, oneBodySub (.atom (.op [u] [d])) = .ok e ∧ eval I e = I (.op [u] [d]) - I (.tensor "κ" [d] [u]) := by
  refine ⟨_, rfl, ?_⟩
  rw [addE_val (interp I), mulE_val (interp I)]
  simp only [kappa, eval, map_neg, map_one]
  noncomm_ring

omit [DecidableEq α] in
/-- **C95.**  `two_body_decomp` subtracts what antisymmetrization makes of the sum of the three kinds of terms. -/
theorem twoBodyDecomp_value (anti : Expr ℚ (At α) → Expr ℚ (At α)) (I : At α → R) (u0 u1 d0 d1 : α) :
    ∃ e x, twoBodyDecomp anti (.atom (.op [u0, u1] [d0, d1])) = .ok e ∧ eval I e = I (.op [u0, u1] [d0, d1]) - eval I (anti x) ∧
      eval I x = I (.tensor "κ" [d0] [u0]) * I (.op [u1] [d1]) + I (.tensor "κ" [d0] [u0]) * I (.tensor "κ" [d1] [u1]) +
        I (.tensor "κ" [d0, d1] [u0, u1]) := by
  refine ⟨_, addE (addE (mulE (kappa [d0] [u0]) (.atom (.op [u1] [d1]))) (mulE (kappa [d0] [u0]) (kappa [d1] [u1])))
    (kappa [d0, d1] [u0, u1]), rfl, ?_, ?_⟩
  · rw [addE_val (interp I), mulE_val (interp I)]
    simp only [eval, map_neg, map_one]
    noncomm_ring
  · rw [addE_val (interp I), addE_val (interp I), mulE_val (interp I), mulE_val (interp I)]
    simp only [kappa, eval]

end SeQuant.Rdm
