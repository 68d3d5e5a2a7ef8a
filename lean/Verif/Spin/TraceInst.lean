import Verif.Spin.TraceProps
import Verif.Spin.AntisymmInst

/-!
# C55: examples, and where `spintrace` is not the spin trace
-/

namespace SeQuant.Spins

open SeQuant.Expression SeQuant.Perm SeQuant.Sort
open SeQuant.Tensors (Sym)

/-- `1/4 g{i1,i2;a1,a2} t{a1,a2;i1,i2}`. -/
def uG : Tn Ix := ⟨.other "g", [0, 3], [6, 9], [], .antisymm⟩
def uT : Tn Ix := ⟨.other "t", [6, 9], [0, 3], [], .antisymm⟩

theorem uOk (spinfree : Bool) : TraceOk spinfree [] ([.atom (.tens uG), .atom (.tens uT)] : List (Expr Rat (Atm Ix))) := by
  refine ⟨?_, ⟨by simp, by simp, by simp⟩, by decide⟩
  intro t ht
  simp only [List.mem_cons, Expr.atom.injEq, Atm.tens.injEq, List.not_mem_nil, or_false] at ht
  rcases ht with rfl | rfl
  · exact ⟨rfl, by decide, rfl, by decide, Or.inr (Or.inl rfl)⟩
  · exact ⟨rfl, by decide, rfl, by decide, Or.inr (Or.inl rfl)⟩

/-- The energy of doubles amplitudes, with spin labels ... -/
example (f : Ix → Ix → Rat) : ∃ N, ∀ fuel, N ≤ fuel → ∃ r,
    spintrace fuel false [] (.prod (1 / 4 : Rat) [.atom (.tens uG), .atom (.tens uT)]) = .ok r ∧
      eval (slater f) r = trace (K := Rat) (slater f) [] (1 / 4) [.atom (.tens uG), .atom (.tens uT)] := by
  obtain ⟨N, hN⟩ := spintrace_value_partial (K := Rat) false (slater f) (slater_interp f) []
    (.prod (1 / 4 : Rat) [.atom (.tens uG), .atom (.tens uT)]) (by decide)
    (by simp [summands]) (fun g hg => by rw [List.mem_singleton.mp hg]; exact ⟨by decide, uOk false⟩)
  refine ⟨N, fun fuel hf => ?_⟩
  obtain ⟨r, h1, h2⟩ := hN fuel hf
  exact ⟨r, h1, by simpa [summands, traceTerm, target] using h2⟩

/-- ... and without. -/
example (I0 : Atm Ix → Rat) (hc : Cols I0) : ∃ N, ∀ fuel, N ≤ fuel → ∃ r,
    spintrace fuel true [] (.prod (1 / 4 : Rat) [.atom (.tens uG), .atom (.tens uT)]) = .ok r ∧
      eval I0 r = trace (K := Rat) (block I0) [] (1 / 4) [.atom (.tens uG), .atom (.tens uT)] := by
  obtain ⟨N, hN⟩ := spintrace_value_partial (K := Rat) true I0 hc []
    (.prod (1 / 4 : Rat) [.atom (.tens uG), .atom (.tens uT)]) (by decide)
    (by simp [summands]) (fun g hg => by rw [List.mem_singleton.mp hg]; exact ⟨by decide, uOk true⟩)
  refine ⟨N, fun fuel hf => ?_⟩
  obtain ⟨r, h1, h2⟩ := hN fuel hf
  exact ⟨r, h1, by simpa [summands, traceTerm, target] using h2⟩

/-- Spin-free values: products over the columns. -/
def cols (f : Ix → Ix → Rat) : Atm Ix → Rat
  | .tens t => ((t.bra.zip t.ket).map fun p => f p.1 p.2).prod
  | _ => 1

theorem cols_cols (f : Ix → Ix → Rat) : Cols (cols f) := fun _ _ _ _ _ _ _ _ h => (h.map _).prod_eq

example : (spintrace (K := Rat) 60 true [] (.prod (1 / 4 : Rat) [.atom (.tens uG), .atom (.tens uT)])).map
      (eval (cols fun i j => i.nat + 2 * j.nat + 1)) = .ok 35938 := by decide +kernel

/-- `A{i1,i2;a1,a2} g{a1,a2;i1,i2}` with external pairs. -/
def uA : Tn Ix := ⟨.A, [0, 3], [6, 9], [], .antisymm⟩

/-- The tensor of a product with a single factor. -/
def oneFactor : Expr Rat (Atm Ix) → Option (Tn Ix)
  | .prod _ [.atom (.tens t)] => some t
  | _ => none

theorem oneFactor_eq (f : Expr Rat (Atm Ix)) (t : Tn Ix) (h : oneFactor f = some t) : ∃ c, f = .prod c [.atom (.tens t)] := by
  unfold oneFactor at h
  split at h
  · cases h; exact ⟨_, rfl⟩
  · exact absurd h (by simp)

example (I0 : Atm Ix → Rat) (hc : Cols I0) : ∃ e' : Expr Rat (Atm Ix), expandA (.prod (1 / 4 : Rat) [.atom (.tens uA), .atom (.tens uT)]) = .ok e' ∧
    ∃ N, ∀ fuel, N ≤ fuel → ∃ r,
      spintrace fuel true [[0, 6], [3, 9]] (.prod (1 / 4 : Rat) [.atom (.tens uA), .atom (.tens uT)]) = .ok r ∧
        eval I0 r = ((summands e').map (traceTerm (block I0) [[0, 6], [3, 9]])).sum := by
  refine ⟨_, rfl, ?_⟩
  refine spintrace_A_partial (K := Rat) true I0 hc [[0, 6], [3, 9]] (.prod (1 / 4 : Rat) [.atom (.tens uA), .atom (.tens uT)]) _ (by decide) rfl
    ?_ ?_
  · exact fun h => absurd (congrArg List.length h) (by decide +kernel)
  · intro f hf
    have hm := List.mem_map_of_mem (f := oneFactor) hf
    have hL : (summands (expandAProd (1 / 4 : Rat) [.atom (.tens uA), .atom (.tens uT)])).map oneFactor =
        [some ⟨.other "t", [6, 9], [0, 3], [], .antisymm⟩, some ⟨.other "t", [6, 9], [3, 0], [], .antisymm⟩,
          some ⟨.other "t", [9, 6], [0, 3], [], .antisymm⟩, some ⟨.other "t", [9, 6], [3, 0], [], .antisymm⟩] := by decide +kernel
    rw [hL] at hm
    have key : ∀ b k : List Ix, (b = [6, 9] ∨ b = [9, 6]) → (k = [0, 3] ∨ k = [3, 0]) → oneFactor f = some ⟨.other "t", b, k, [], .antisymm⟩ →
        TermOk (TraceOk true [[0, 6], [3, 9]]) f := by
      intro b k hb hk h
      obtain ⟨c, rfl⟩ := oneFactor_eq f _ h
      refine ⟨by simp [leafy], ?_, ?_, ?_⟩
      · intro u hu
        simp only [List.mem_singleton, Expr.atom.injEq, Atm.tens.injEq] at hu
        subst hu
        rcases hb with rfl | rfl <;> rcases hk with rfl | rfl <;> exact ⟨rfl, by decide, rfl, by decide, Or.inr (Or.inl rfl)⟩
      · rcases hb with rfl | rfl <;> rcases hk with rfl | rfl <;> exact ⟨by decide, by decide, by simp only [usedL]; decide⟩
      · rcases hb with rfl | rfl <;> rcases hk with rfl | rfl <;> (simp only [usedL]; decide)
    simp only [List.mem_cons, List.not_mem_nil, or_false] at hm
    rcases hm with h | h | h | h <;> exact key _ _ (by simp) (by simp) h

/-- With `spinfree_index_spaces`, tensors that are not antisymmetric are only checked for the number of α in bra and ket, not column by
column: the exchange integral gets the factor 4 instead of 2. -/
theorem spintrace_nonsymm_violated :
    ∃ (t : Tn Ix) (I0 : Atm Ix → Rat) (r : Expr Rat (Atm Ix)), Cols I0 ∧ t.sym = .nonsymm ∧ (∀ i ∈ t.bra ++ t.ket, SpinIx.spin i = .any) ∧
      spintrace 40 true [] (.prod 1 [.atom (.tens t)]) = .ok r ∧ eval I0 r = 4 ∧ trace (block I0) [] (1 : Rat) [.atom (.tens t)] = 2 := by
  let t : Tn Ix := ⟨.other "g", [0, 3], [3, 0], [], .nonsymm⟩
  have hv : (spintrace (K := Rat) 40 true [] (.prod 1 [.atom (.tens t)])).map (eval (cols fun _ _ => 1)) = .ok 4 := by decide +kernel
  match hr : spintrace (K := Rat) 40 true [] (.prod 1 [.atom (.tens t)]) with
  | .error e => rw [hr] at hv; simp [Except.map] at hv
  | .ok r =>
    rw [hr] at hv
    simp only [Except.map, Except.ok.injEq] at hv
    refine ⟨t, cols fun _ _ => 1, r, cols_cols _, rfl, by decide, hr, hv, ?_⟩
    obtain ⟨N, hN⟩ := closedProduct_value_partial (K := Rat) (cols fun _ _ => 1) true [] 1 [.atom (.tens t)] (by decide)
      (fun u hu => by
        simp only [List.mem_singleton, Expr.atom.injEq, Atm.tens.injEq] at hu
        rw [hu]
        exact ⟨by decide, rfl, rfl, rfl, by decide, fun h => absurd h (by decide)⟩)
      ⟨by simp, by simp, by simp⟩
    obtain ⟨h, -⟩ := hN (N + 20) (by omega)
    have hcc : countCycles (N + 20) ([3, 0] : List Ix) [0, 3] = some 1 := rfl
    have hp : cyclesPre ([3, 0] : List Ix) [0, 3] = true := by decide
    have hrun : closedProduct true (N + 20) [] (1 : Rat) [.atom (.tens t)] = .ok (.prod (1 * ((2 ^ 1 : Nat) : Rat)) [.atom (.tens t)]) := by
      simp only [t, closedProduct, hasLab, List.filter, reduceCtorEq, decide_false, Bool.not_false, braIndices, ketIndices, collects,
        List.isEmpty, Bool.true_or, if_true, List.append_nil, substExt, bind, Except.bind, hp, ofOption]
      erw [hcc]
      simp [pure, Except.pure]
    rw [← h _ hrun]
    decide +kernel

/-- Auxiliary indices are given spins as well (the trace is multiplied by two for each), and the labels stay on them when those of the other
indices are removed: the trace of `L{i1;i1}[K]` should be twice this tensor. -/
theorem spintrace_aux_violated :
    ∃ r : Expr Rat (Atm Ix), spintrace 40 true [] (.prod 1 [.atom (.tens ⟨.other "L", [0], [0], [3], .nonsymm⟩)]) = .ok r ∧
      eval (fun _ => (1 : Rat)) r = 4 ∧ eval (only ⟨.other "L", [0], [0], [3], .nonsymm⟩) r = 0 := by
  have hv : (spintrace (K := Rat) 40 true [] (.prod 1 [.atom (.tens (⟨.other "L", [0], [0], [3], .nonsymm⟩ : Tn Ix))])).map
      (fun r => (eval (fun _ => (1 : Rat)) r, eval (only ⟨.other "L", [0], [0], [3], .nonsymm⟩) r)) = .ok (4, 0) := by decide +kernel
  match hr : spintrace (K := Rat) 40 true [] (.prod 1 [.atom (.tens (⟨.other "L", [0], [0], [3], .nonsymm⟩ : Tn Ix))]) with
  | .error e => rw [hr] at hv; simp [Except.map] at hv
  | .ok r =>
    rw [hr] at hv
    simp only [Except.map, Except.ok.injEq, Prod.mk.injEq] at hv
    exact ⟨r, rfl, hv.1, hv.2⟩

/-- The empty sum, which is zero, gives a null pointer. -/
theorem spintrace_empty_violated (fuel : Nat) (spinfree : Bool) (ext : List (List Ix)) :
    spintrace (K := Rat) fuel spinfree ext (.sum none []) = .error .null := by
  simp [spintrace, hasTensor, hasTensorL, spintraceTerms, bind, Except.bind]

/-- The assertion on line 1772 admits 64 groups, but the next line does not. -/
theorem traceProduct_64_violated (fuel : Nat) (spinfree : Bool) (ext : List (List Ix)) (c : Rat) (l : List (Expr Rat (Atm Ix)))
    (hl : ∀ f ∈ l, leafy f = true) (h : (spinGroups ext l).length = 64) : traceProduct fuel spinfree ext c l = .error .assertion := by
  simp only [traceProduct, clone_leafy c l hl, h, le_refl, if_true]

end SeQuant.Spins
