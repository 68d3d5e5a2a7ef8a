import Verif.Rdm.Props

/-!
# Concrete instances of the theorems about densities and cumulants
-/

namespace SeQuant.Rdm.Inst

open SeQuant.Expression

/-- Indices are numbers; tensors and operators with two pairs are antisymmetric. -/
def J : At ℕ → ℚ
  | .tensor _ [b0, b1] [k0, k1] => ((b0 : ℚ) - b1) * (k0 + 2 * k1)
  | .tensor _ bra ket => bra.sum + 3 * ket.sum
  | .op [c0, c1] [a0, a1] => (c0 + 5 * c1) * ((a0 : ℚ) - a1)
  | .op cre ann => cre.sum - ann.sum

theorem J_antisymmetric : Antisymmetric J := by
  intro t u0 u1 l0 l1 hu hl
  cases t with
  | tensor l bra ket =>
    simp only [At.upper, At.lower] at hu hl
    subst hu hl
    simp only [At.withIndices, J]
    ring
  | op cre ann =>
    simp only [At.upper, At.lower] at hu hl
    subst hu hl
    simp only [At.withIndices, J]
    ring

/-- A density with crossed pairs. -/
def crossed : Expr ℚ (At ℕ) := .sum none [.prod 3 [.atom (.tensor "γ" [5, 4] [1, 2]), .atom (.op [3] [6])]]

/-- The same with the initial pairs. -/
def straight : Expr ℚ (At ℕ) := .sum none [.prod 3 [.prod (-1) [.atom (.tensor "γ" [4, 5] [1, 2])], .atom (.op [3] [6])]]

theorem crossed_similar : maxSimilarity true id [1, 2, 3] [4, 5, 6] crossed = .ok straight := by
  simp [maxSimilarity, crossed, straight, originalMap, List.range_succ_eq_map, emplace, at', similarTerms, asProduct, similarFactors,
    similarAtom, At.rank, countPairs, isPair, At.upper, At.lower, swap2, At.withIndices, bind, Except.bind, pure, Except.pure, List.lookup,
    mulE, mkProd, pAppendAll, pAppend, clone, cloneF, Expr.depth, Expr.isProd]

example : eval J straight = eval J crossed :=
  maxSimilarity_value true id [1, 2, 3] [4, 5, 6] J J_antisymmetric (fun _ => rfl) crossed straight crossed_similar

example : eval J crossed ≠ 0 := by
  norm_num [crossed, eval, evalSum, evalProd, J]

example : kept [1, 2, 3] [4, 5, 6] (.tensor "γ" [5, 4] [1, 2]) = 0 ∧ kept [1, 2, 3] [4, 5, 6] (.tensor "γ" [4, 5] [1, 2]) = 2 := by
  decide

example : maxSimilarity true id [1, 2, 3] [4, 5, 6] (.sum none [.atom (.tensor "γ" [4, 5, 6] [1, 2, 3])]) = .error .type :=
  maxSimilarity_needs_products true id _ _ (by decide) (by decide) none _ []

/-- Two summands, with three loops and with two. -/
def terms : List (ℚ × List (At ℕ)) :=
  [(1, [.tensor "γ" [4] [1], .tensor "γ" [5] [2], .op [3] [6]]), (-1, [.tensor "γ" [5] [1], .tensor "γ" [4] [2], .op [3] [6]])]

theorem terms_similar : maxSimilarity true id [1, 2, 3] [4, 5, 6] (.sum none (terms.map term)) = .ok (.sum none (terms.map term)) := by
  simp [maxSimilarity, terms, term, originalMap, List.range_succ_eq_map, emplace, at', similarTerms, asProduct, similarFactors,
    similarAtom, At.rank, bind, Except.bind, pure, Except.pure, List.lookup]

example : ∃ e', spinSum true 4 id [1, 2, 3] [4, 5, 6] (.sum none (terms.map term)) true = .ok e' ∧
    eval J e' = (terms.map fun p => ((spins [1, 2, 3] [4, 5, 6] p : ℚ) / 8) • eval (spinFree J) (term p)).sum :=
  spinSum_value true 4 id [1, 2, 3] [4, 5, 6] (by decide) (by decide) rfl (by decide) J _ none terms terms_similar (by
    intro p hp
    simp only [terms, List.mem_cons, List.not_mem_nil, or_false] at hp
    rcases hp with rfl | rfl
    · refine ⟨?_, by decide, by decide⟩
      decide
    · refine ⟨?_, by decide, by decide⟩
      decide)

example : numClosedLoops true 4 [1, 2, 3] [4, 5, 6] [1, 2, 3] [4, 5, 6] = .ok 3 ∧
    numClosedLoops true 4 [1, 2, 3] [4, 5, 6] [1, 2, 3] [5, 4, 6] = .ok 2 := by decide +kernel

/-- Antisymmetrization of products of two densities. -/
def anti : Expr ℚ (At ℕ) → Expr ℚ (At ℕ)
  | .prod c [.atom (.tensor l [u0] [d0]), .atom (.tensor l' [u1] [d1])] =>
    .sum none [.prod c [.atom (.tensor l [u0] [d0]), .atom (.tensor l' [u1] [d1])],
      .prod (-c) [.atom (.tensor l [u0] [d1]), .atom (.tensor l' [u1] [d0])]]
  | e => e

theorem anti_two (I : At ℕ → ℚ) : AntiTwo anti I := by
  intro u0 u1 d0 d1
  have h : mulE (gamma [u0] [d0]) (gamma [u1] [d1]) = .prod 1 [.atom (.tensor "γ" [u0] [d0]), .atom (.tensor "γ" [u1] [d1])] := by
    simp [gamma, mulE, mkProd, pAppendAll, pAppend, clone, cloneF, Expr.depth, Expr.isProd]
  rw [h]
  simp [anti, eval, evalSum, evalProd]
  ring

example : ∃ e, cumu2ToDensity anti (kappa [4, 5] [1, 2]) = .ok e ∧ eval J e = J (.tensor "γ" [4, 5] [1, 2]) -
    (J (.tensor "γ" [4] [1]) * J (.tensor "γ" [5] [2]) - J (.tensor "γ" [4] [2]) * J (.tensor "γ" [5] [1])) :=
  cumu2ToDensity_value_partial anti J (anti_two J) 4 5 1 2

example : cumu3ToDensity anti (kappa [4, 5, 6] [1, 2, 3]) = .error .type :=
  (cumu3ToDensity_fails anti (.const 0)).2 [4, 5, 6] [1, 2, 3] rfl rfl

end SeQuant.Rdm.Inst
