import Verif.Wick.ContractionProps

/-!
# C03: the phase returned by `normalize`
-/

namespace SeQuant.Wick

open SeQuant.Sort SeQuant.Perm

variable {Op K A : Type} [CommRing K] [Ring A] [Algebra K A] {S : Statistics}

/-- Exchanging the first two operators of a normal-ordered product. -/
theorem N_swap (W : Alg S Op K A) (x y : Op) (l : List Op) :
    W.N (x :: y :: l) = (S.zeta : K) • W.N (y :: x :: l) := by
  have hz := zeta_sq (K := K) S
  simp only [Alg.N, List.length_cons]
  have e1 : W.cr x * (W.cr y * W.N l) = (S.zeta : K) • (W.cr y * (W.cr x * W.N l)) := by
    rw [← mul_assoc, W.cr_cr, smul_mul_assoc, mul_assoc]
  have e2 : W.N l * W.an x * W.an y = (S.zeta : K) • (W.N l * W.an y * W.an x) := by
    rw [mul_assoc, W.an_an, mul_smul_comm, mul_assoc]
  generalize (S.zeta : K) = z at *
  simp only [mul_add, add_mul, smul_add, mul_smul_comm, smul_mul_assoc, smul_smul, e1, e2, mul_assoc]
  have h2 : z * (z ^ (l.length + 1) : K) = z ^ l.length := by rw [pow_succ, ← mul_assoc, mul_comm z, mul_assoc, hz, mul_one]
  have h3 : z * (z ^ (l.length + 1) * (z ^ l.length * z)) = z ^ (l.length + 1) * z ^ l.length := by
    calc z * (z ^ (l.length + 1) * (z ^ l.length * z)) = (z * z) * (z ^ (l.length + 1) * z ^ l.length) := by ring
      _ = _ := by rw [hz, one_mul]
  rw [h2, h3, pow_succ z, mul_comm z (z ^ l.length)]
  abel

theorem N_cons_congr (W : Alg S Op K A) (k : K) (a b : List Op) (hl : a.length = b.length) (h : W.N a = k • W.N b)
    (o : Op) : W.N (o :: a) = k • W.N (o :: b) := by
  simp only [Alg.N, h, hl, mul_smul_comm, smul_mul_assoc, smul_add]
  rw [smul_comm]

theorem N_swap_at (W : Alg S Op K A) (p q : List Op) (x y : Op) :
    W.N (p ++ x :: y :: q) = (S.zeta : K) • W.N (p ++ y :: x :: q) := by
  induction p with
  | nil => exact N_swap W x y q
  | cons o p ihp => exact N_cons_congr W _ _ _ (by simp) ihp o

/-- Reordering a normal-ordered product. -/
theorem N_adj (W : Alg S Op K A) {n : Nat} {l l' : List Op} (h : Adj n l l') :
    W.N l = ((S.zeta : K) ^ n) • W.N l' := by
  induction h with
  | refl => simp
  | step p q x y _ _ ih =>
    rw [ih, pow_succ, ← smul_smul]
    congr 1
    exact N_swap_at W p q x y

theorem collect_adj (isCre : Op → Bool) (tail l : List Op) (st : Int × List Op × List Op) :
    ∃ n, Adj n (st.2.1 ++ l ++ tail ++ st.2.2)
        ((collect S isCre tail.length l st).2.1 ++ tail ++ (collect S isCre tail.length l st).2.2) ∧
      (collect S isCre tail.length l st).1 = st.1 * S.zeta ^ n := by
  induction l generalizing st with
  | nil => exact ⟨0, by simpa [collect] using Swaps.refl _, by simp [collect]⟩
  | cons o l ih =>
    obtain ⟨ph, cre, grp⟩ := st
    simp only [collect]
    split
    · obtain ⟨n, h1, h2⟩ := ih (ph, cre ++ [o], grp)
      exact ⟨n, by simpa using h1, h2⟩
    · obtain ⟨n, h1, h2⟩ := ih (if S = .FermiDirac ∧ (l.length + tail.length + grp.length) % 2 = 1 then ph * -1 else ph,
        cre, grp ++ [o])
      refine ⟨(l.length + tail.length + grp.length) + n, ?_, ?_⟩
      · have hm := (adj_move o (l ++ tail ++ grp) []).prepend cre
        refine Swaps.trans (b := cre ++ l ++ tail ++ (grp ++ [o])) ?_ h1
        have : (l ++ tail ++ grp).length = l.length + tail.length + grp.length := by simp; omega
        rw [this] at hm
        simpa using hm
      · rw [h2, pow_add, ← mul_assoc, ← phase_eq S (l.length + tail.length + grp.length)]
        congr 1
        cases S
        · simp [phase]
        · simp only [phase, true_and, if_true]
          split <;> simp

theorem collectAll_adj (isCre : Op → Bool) (nops : List (List Op)) (ph : Int) (cre : List Op) :
    ∃ n, Adj n (cre ++ nops.flatten)
        ((collectAll S isCre nops (ph, cre)).2.1 ++ (collectAll S isCre nops (ph, cre)).2.2.reverse.flatten) ∧
      (collectAll S isCre nops (ph, cre)).1 = ph * S.zeta ^ n := by
  induction nops generalizing ph cre with
  | nil => exact ⟨0, by simpa [collectAll] using Swaps.refl _, by simp [collectAll]⟩
  | cons l ls ih =>
    obtain ⟨n, h1, h2⟩ := collect_adj (S := S) isCre ls.flatten l (ph, cre, [])
    rw [← opsize_flatten] at h1 h2
    obtain ⟨m, h3, h4⟩ := ih (collect S isCre (opsize ls) l (ph, cre, [])).1 (collect S isCre (opsize ls) l (ph, cre, [])).2.1
    refine ⟨n + m, ?_, ?_⟩
    · have := Swaps.trans h1 (h3.append (collect S isCre (opsize ls) l (ph, cre, [])).2.2)
      simpa [collectAll] using this
    · simp only [collectAll]
      rw [h4, h2, pow_add, mul_assoc]

theorem adj_reverse_congr {n : Nat} {a b : List Op} (h : Adj n a b) : Adj n a.reverse b.reverse := by
  induction h with
  | refl => exact Swaps.refl _
  | step p q x y _ hc ih =>
    have := Swaps.step (comp := fun _ _ => true) q.reverse p.reverse y x (by simpa using ih) rfl
    simpa using this

theorem adj_symm {n : Nat} {a b : List Op} (h : Adj n a b) : Adj n b a := by
  induction h with
  | refl => exact Swaps.refl _
  | step p q x y _ hc ih =>
    have h1 : Adj 1 (p ++ y :: x :: q) (p ++ x :: y :: q) := Swaps.step p q y x (Swaps.refl _) rfl
    have := h1.trans ih
    rwa [Nat.add_comm] at this

theorem swapAt_lt (l : List Op) (i j : Nat) (hij : i < j) (hj : j < l.length) :
    ∃ k, Adj (2 * k + 1) l (swapAt l i j) ∧ swapAt l j i = swapAt l i j := by
  have hi : i < l.length := by omega
  have e1 : l = l.take i ++ l[i] :: ((l.drop (i + 1)).take (j - i - 1) ++ l[j] :: l.drop (j + 1)) := by
    conv_lhs => rw [split_at l i hi]
    congr 2
    conv_lhs => rw [split_at (l.drop (i + 1)) (j - i - 1) (by simp; omega)]
    congr 2
    · simp; congr 1; omega
    · simp; congr 1; omega
  refine ⟨(j - i - 1), ?_, ?_⟩
  · have h := (adj_swap l[i] l[j] ((l.drop (i + 1)).take (j - i - 1)) (l.drop (j + 1))).prepend (l.take i)
    have hlen : ((l.drop (i + 1)).take (j - i - 1)).length = j - i - 1 := by simp; omega
    rw [hlen, ← e1] at h
    have e2 : swapAt l i j =
        l.take i ++ l[j] :: ((l.drop (i + 1)).take (j - i - 1) ++ l[i] :: l.drop (j + 1)) := by
      simp only [swapAt, List.getElem?_eq_getElem hi, List.getElem?_eq_getElem hj]
      generalize hx : l[i] = x at *
      generalize hy : l[j] = y at *
      conv_lhs => rw [e1]
      have ht : (l.take i).length = i := by simp; omega
      rw [List.set_append_right _ _ (by omega), ht, Nat.sub_self, List.set_cons_zero,
        List.set_append_right _ _ (by omega), ht]
      generalize (l.drop (i + 1)).take (j - i - 1) = mid at hlen ⊢
      have : j - i = (j - i - 1) + 1 := by omega
      rw [this, List.set_cons_succ, List.set_append_right _ _ (by omega), hlen, Nat.sub_self, List.set_cons_zero]
    rw [e2]; exact h
  · simp only [swapAt, List.getElem?_eq_getElem hi, List.getElem?_eq_getElem hj]
    rw [List.set_comm]
    omega

theorem swapAt_adj (l : List Op) (i j : Nat) (hij : i ≠ j) (hi : i < l.length) (hj : j < l.length) :
    ∃ k, Adj (2 * k + 1) l (swapAt l i j) := by
  rcases Nat.lt_or_gt_of_ne hij with h | h
  · obtain ⟨k, h1, _⟩ := swapAt_lt l i j h hj
    exact ⟨k, h1⟩
  · obtain ⟨k, h1, h2⟩ := swapAt_lt l j i h hi
    exact ⟨k, by rw [h2]; exact h1⟩

theorem zeta_odd (S : Statistics) (k : Nat) : S.zeta ^ (2 * k + 1) = S.zeta := by
  rw [pow_succ, zetaInt_even, one_mul]

theorem alignStep_adj (fixed : List Op) (pos : Op → List Op → Option Nat)
    (hpos : ∀ f l i, pos f l = some i → i < l.length) (extra p : Nat) (st : Int × List Op)
    (hp : p + extra < st.2.length) :
    ∃ n, Adj n st.2 (alignStep S fixed pos extra p st).2 ∧
      (alignStep S fixed pos extra p st).1 = st.1 * S.zeta ^ n := by
  unfold alignStep
  split
  · exact ⟨0, Swaps.refl _, by simp⟩
  · rename_i f _
    split
    · exact ⟨0, Swaps.refl _, by simp⟩
    · rename_i src hsrc
      split
      · rename_i hne
        obtain ⟨k, hk⟩ := swapAt_adj st.2 src (p + extra) (fun h => hne h.symm) (hpos _ _ _ hsrc) hp
        refine ⟨2 * k + 1, hk, ?_⟩
        rw [zeta_odd]
        cases S <;> simp [Statistics.zeta]
      · exact ⟨0, Swaps.refl _, by simp⟩

theorem alignLoop_adj (fixed : List Op) (pos : Op → List Op → Option Nat)
    (hpos : ∀ f l i, pos f l = some i → i < l.length) (extra p : Nat) (st : Int × List Op)
    (hp : p + extra ≤ st.2.length) :
    ∃ n, Adj n st.2 (alignLoop S fixed pos extra p st).2 ∧
      (alignLoop S fixed pos extra p st).1 = st.1 * S.zeta ^ n := by
  induction p generalizing st with
  | zero => exact ⟨0, Swaps.refl _, by simp [alignLoop]⟩
  | succ p ih =>
    obtain ⟨n, h1, h2⟩ := alignStep_adj (S := S) fixed pos hpos extra p st (by omega)
    obtain ⟨m, h3, h4⟩ := ih (alignStep S fixed pos extra p st) (by rw [h1.length]; omega)
    exact ⟨n + m, h1.trans h3, by rw [alignLoop, h4, h2, pow_add, mul_assoc]⟩

theorem findIndex_lt {Idx : Type} [DecidableEq Idx] (index : Op → Idx) (idx : Idx) (l : List Op) (i : Nat)
    (h : findIndex index idx l = some i) : i < l.length := by
  unfold findIndex at h
  exact (List.findIdx?_eq_some_iff_getElem.mp h).1

theorem reverse_flatten_map_reverse (g : List (List Op)) :
    (g.map List.reverse).flatten.reverse = g.reverse.flatten := by
  induction g with
  | nil => rfl
  | cons a g ih => simp [ih]

theorem normalize_adj {Idx : Type} [DecidableEq Idx] (isCre : Op → Bool) (index : Op → Idx)
    (partners : List (Idx × Idx)) (nops : List (List Op)) :
    ∃ n, Adj n nops.flatten (normalize S isCre index partners nops).2 ∧
      (normalize S isCre index partners nops).1 = S.zeta ^ n := by
  obtain ⟨n, h1, h2⟩ := collectAll_adj (S := S) isCre nops 1 []
  simp only [List.nil_append, one_mul, ← reverse_flatten_map_reverse] at h1 h2
  unfold normalize
  simp only
  generalize collectAll S isCre nops (1, []) = r at h1 h2 ⊢
  generalize (r.2.2.map List.reverse).flatten = anns at h1 ⊢
  split
  · exact ⟨n, h1, h2⟩
  · split
    · rename_i hrank
      obtain ⟨m, h3, h4⟩ := alignLoop_adj (S := S) r.2.1
        (fun (c : Op) (anns : List Op) =>
          (partners.find? fun q => decide (q.1 = index c)).bind fun q => findIndex index q.2 anns)
        (by
          intro f l i h
          obtain ⟨q, _, hq⟩ := Option.bind_eq_some_iff.mp h
          exact findIndex_lt index _ l i hq)
        (anns.length - min r.2.1.length anns.length) (min r.2.1.length anns.length) (r.1, anns) (by simp)
      exact ⟨n + m, h1.trans ((adj_reverse_congr h3).prepend r.2.1), by rw [h4, h2, pow_add]⟩
    · obtain ⟨m, h3, h4⟩ := alignLoop_adj (S := S) anns
        (fun (a : Op) (cres : List Op) =>
          (partners.find? fun q => decide (q.2 = index a)).bind fun q => findIndex index q.1 cres)
        (by
          intro f l i h
          obtain ⟨q, _, hq⟩ := Option.bind_eq_some_iff.mp h
          exact findIndex_lt index _ l i hq)
        (r.2.1.length - min r.2.1.length anns.length) (min r.2.1.length anns.length) (r.1, r.2.1) (by simp)
      exact ⟨n + m, h1.trans (h3.append anns.reverse), by rw [h4, h2, pow_add]⟩

/-- **C03.** Fusing a sequence of normal operators into one: the phase times the fused operator is the normal-ordered product of the
operators of the sequence. -/
theorem normalize_phase {Idx : Type} [DecidableEq Idx] (W : Alg S Op K A) (isCre : Op → Bool) (index : Op → Idx)
    (partners : List (Idx × Idx)) (nops : List (List Op)) :
    (((normalize S isCre index partners nops).1 : Int) : K) • W.N (normalize S isCre index partners nops).2 =
      W.N nops.flatten := by
  obtain ⟨n, h1, h2⟩ := normalize_adj (S := S) isCre index partners nops
  rw [N_adj W h1, h2]
  push_cast
  rfl

/-- **C03**, combinatorial form: the phase is the sign of a permutation that maps the operators of the sequence to those of the
result. -/
theorem normalize_sign {Idx : Type} [DecidableEq Idx] (isCre : Op → Bool) (index : Op → Idx)
    (partners : List (Idx × Idx)) (nops : List (List Op)) :
    ∃ σ : Equiv.Perm (Fin nops.flatten.length),
      (normalize S isCre index partners nops).2 = List.ofFn (fun i => nops.flatten.get (σ i)) ∧
      (normalize S isCre index partners nops).1 = S.sgn (Equiv.Perm.sign σ) := by
  obtain ⟨n, h1, h2⟩ := normalize_adj (S := S) isCre index partners nops
  obtain ⟨σ, h3, h4⟩ := adj_sgn S h1
  exact ⟨σ, h3, by rw [h2, h4]⟩

theorem collect_split (isCre : Op → Bool) (after : Nat) (l : List Op) (st : Int × List Op × List Op) :
    (collect S isCre after l st).2.1 = st.2.1 ++ l.filter isCre ∧
    (collect S isCre after l st).2.2 = st.2.2 ++ l.filter (fun o => !isCre o) := by
  induction l generalizing st with
  | nil => simp [collect]
  | cons o l ih =>
    obtain ⟨ph, cre, grp⟩ := st
    simp only [collect]
    split
    · rename_i h
      have := ih (ph, cre ++ [o], grp)
      simpa [List.filter_cons, h] using this
    · rename_i h
      have := ih (if S = .FermiDirac ∧ (l.length + after + grp.length) % 2 = 1 then ph * -1 else ph, cre, grp ++ [o])
      simpa [List.filter_cons, h] using this

theorem collectAll_split (isCre : Op → Bool) (nops : List (List Op)) (ph : Int) (cre : List Op) :
    (collectAll S isCre nops (ph, cre)).2.1 = cre ++ nops.flatten.filter isCre ∧
    (collectAll S isCre nops (ph, cre)).2.2 = nops.map (List.filter fun o => !isCre o) := by
  induction nops generalizing ph cre with
  | nil => simp [collectAll]
  | cons l ls ih =>
    have h1 := collect_split (S := S) isCre (opsize ls) l (ph, cre, [])
    have h2 := ih (collect S isCre (opsize ls) l (ph, cre, [])).1 (collect S isCre (opsize ls) l (ph, cre, [])).2.1
    simp only [collectAll, List.map_cons]
    rw [h2.1, h2.2, h1.1, h1.2]
    simp [List.append_assoc]

/-- Without target partners the creators keep their order and come first; the annihilators follow, those of the last normal operator first
and in their original order inside each normal operator. -/
theorem normalize_order {Idx : Type} [DecidableEq Idx] (isCre : Op → Bool) (index : Op → Idx) (nops : List (List Op)) :
    (normalize S isCre index [] nops).2 =
      nops.flatten.filter isCre ++ ((nops.map (List.filter fun o => !isCre o)).reverse).flatten := by
  obtain ⟨h1, h2⟩ := collectAll_split (S := S) isCre nops 1 []
  simp only [normalize, List.isEmpty_nil, if_true, reverse_flatten_map_reverse]
  rw [h1, h2]
  rfl

/-- For every list of partners the result is in normal form: all creators precede all annihilators. -/
theorem normalize_normal {Idx : Type} [DecidableEq Idx] (isCre : Op → Bool) (index : Op → Idx)
    (partners : List (Idx × Idx)) (nops : List (List Op)) :
    ∃ cres anns, (normalize S isCre index partners nops).2 = cres ++ anns ∧
      cres.Perm (nops.flatten.filter isCre) ∧ anns.Perm (nops.flatten.filter fun o => !isCre o) := by
  obtain ⟨h1, h2⟩ := collectAll_split (S := S) isCre nops 1 []
  have hann : ((collectAll S isCre nops (1, [])).2.2.map List.reverse).flatten.Perm
      (nops.flatten.filter fun o => !isCre o) := by
    rw [h2]
    refine List.Perm.trans (List.reverse_perm _).symm ?_
    rw [reverse_flatten_map_reverse]
    refine List.Perm.trans (List.Perm.flatten (List.reverse_perm _)) ?_
    rw [flatten_map_filter]
  simp only [List.nil_append] at h1
  unfold normalize
  simp only
  generalize collectAll S isCre nops (1, []) = r at *
  generalize (r.2.2.map List.reverse).flatten = anns at *
  split
  · exact ⟨_, _, rfl, by rw [h1], (List.reverse_perm _).trans hann⟩
  · split
    · obtain ⟨m, h3, h4⟩ := alignLoop_adj (S := S) r.2.1
        (fun (c : Op) (anns : List Op) =>
          (partners.find? fun q => decide (q.1 = index c)).bind fun q => findIndex index q.2 anns)
        (by
          intro f l i h
          obtain ⟨q, _, hq⟩ := Option.bind_eq_some_iff.mp h
          exact findIndex_lt index _ l i hq)
        (anns.length - min r.2.1.length anns.length) (min r.2.1.length anns.length) (r.1, anns) (by simp)
      exact ⟨_, _, rfl, by rw [h1], ((List.reverse_perm _).trans h3.perm).trans hann⟩
    · obtain ⟨m, h3, h4⟩ := alignLoop_adj (S := S) anns
        (fun (a : Op) (cres : List Op) =>
          (partners.find? fun q => decide (q.2 = index a)).bind fun q => findIndex index q.1 cres)
        (by
          intro f l i h
          obtain ⟨q, _, hq⟩ := Option.bind_eq_some_iff.mp h
          exact findIndex_lt index _ l i hq)
        (r.2.1.length - min r.2.1.length anns.length) (min r.2.1.length anns.length) (r.1, r.2.1) (by simp)
      exact ⟨_, _, rfl, h3.perm.trans (by rw [h1]), (List.reverse_perm _).trans hann⟩

/-- Check of the specification: the normal-ordered product of a list that is already in normal order (pure creators, then pure
annihilators) is the plain operator product. -/
theorem N_normal (W : Alg S Op K A) (cres anns : List Op) (hc : ∀ o ∈ cres, W.an o = 0) (ha : ∀ o ∈ anns, W.cr o = 0) :
    W.N (cres ++ anns) = (cres.map W.cr).prod * (anns.map W.an).prod := by
  induction cres with
  | nil =>
    simp only [List.nil_append, List.map_nil, List.prod_nil, one_mul]
    induction anns with
    | nil => rfl
    | cons o l ih =>
      have h1 : ∀ l : List Op, ((S.zeta : K) ^ l.length) • ((l.map W.an).prod * W.an o) = W.an o * (l.map W.an).prod := by
        intro l
        induction l with
        | nil => simp
        | cons p l ih =>
          simp only [List.map_cons, List.prod_cons, List.length_cons]
          rw [← mul_assoc (W.an o), W.an_an, smul_mul_assoc, mul_assoc (W.an p) (W.an o), ← ih, pow_succ', ← smul_smul,
            mul_smul_comm, mul_assoc]
      rw [Alg.N, ha o (by simp), zero_mul, zero_add, ih (fun o ho => ha o (by simp [ho])), h1]
      simp
  | cons o l ih =>
    rw [List.cons_append, Alg.N, hc o (by simp), mul_zero, smul_zero, add_zero, ih fun o ho => hc o (by simp [ho])]
    simp [mul_assoc]

/-! ### Concrete instances -/

open Inst

def f2Cre (x : F2) : Bool := decide (x = .c1 ∨ x = .c2)
def f2Index : F2 → Nat | .a1 => 1 | .c1 => 1 | .a2 => 2 | .c2 => 2

example : normalize .FermiDirac f2Cre f2Index [] [[.c1, .a1], [.c2, .a2]] = (1, [.c1, .c2, .a2, .a1]) := by decide +kernel
example : normalize .FermiDirac f2Cre f2Index [(1, 2), (2, 1)] [[.c1, .a1], [.c2, .a2]] =
    (-1, [.c1, .c2, .a1, .a2]) := by decide +kernel

example : fermi2.N [F2.c1, .a1, .c2, .a2] = -fermi2.N [.c1, .c2, .a1, .a2] := by
  have := normalize_phase fermi2 f2Cre f2Index [(1, 2), (2, 1)] [[.c1, .a1], [.c2, .a2]]
  rw [show normalize .FermiDirac f2Cre f2Index [(1, 2), (2, 1)] [[.c1, .a1], [.c2, .a2]] =
    (-1, [.c1, .c2, .a1, .a2]) by decide +kernel] at this
  simpa using this.symm

end SeQuant.Wick
