import Verif.Linked.Series

/-!
# C112, C113: the series terminates; partial contractions; examples
-/

namespace SeQuant.Linked

open SeQuant.Wick

variable {Op K A : Type} {S : Statistics} [DecidableEq Op] [CommRing K] [Ring A] [Algebra K A]

omit [CommRing K] [Ring A] [Algebra K A] in
theorem too_many (isQpAnn : Op → Bool) (cc : Op → Op → Bool) (pre : List (List Op)) (H : List Op) (Ts post : List (List Op))
    (hnd : (pre ++ H :: (Ts ++ post)).flatten.Nodup) (hlen : H.length < Ts.length) (t : Term Op) (fuel : Nat)
    (ht : t ∈ wickFull S isQpAnn cc fuel (pre ++ H :: (Ts ++ post))) :
    ¬ ∀ p ∈ linkPairs pre.length Ts.length, joins (pre ++ H :: (Ts ++ post)) t.2 p.1 p.2 = true := by
  intro hall
  have hperm := wickFull_perm S isQpAnn cc _ _ t ht
  have hin : ∀ x ∈ pairOps t.2, x ∈ (pre ++ H :: (Ts ++ post)).flatten := fun x hx => hperm.mem_iff.mp hx
  have h1 : ((List.range Ts.length).map fun i => pre.length + 1 + i).length ≤
      (partners (ordinal (pre ++ H :: (Ts ++ post))) pre.length t.2).length := by
    apply List.Subperm.length_le
    apply List.subperm_of_subset
    · rw [List.nodup_map_iff (fun i j h => by simpa using h)]
      exact List.nodup_range
    · intro j hj
      simp only [List.mem_map, List.mem_range] at hj
      obtain ⟨i, hi, rfl⟩ := hj
      apply mem_partners
      rw [joined_joins _ hnd _ hin]
      exact hall (pre.length, pre.length + 1 + i) (by simp only [linkPairs, List.mem_map, List.mem_range]; exact ⟨i, hi, rfl⟩)
  have h2 := partners_length (ordinal (pre ++ H :: (Ts ++ post))) pre.length t.2
  rw [hperm.countP_eq] at h2
  have h3 : (pre ++ H :: (Ts ++ post)).flatten.countP (fun x => decide (ordinal (pre ++ H :: (Ts ++ post)) x = pre.length)) =
      (pre ++ H :: (Ts ++ post)).flatten.countP (fun x => decide (x ∈ H)) := by
    apply List.countP_congr
    intro x hx
    rw [decide_eq_true_eq, decide_eq_true_eq, ordinal_iff _ hnd x hx, getD_mid]
  have h4 : (pre ++ H :: (Ts ++ post)).flatten.countP (fun x => decide (x ∈ H)) = H.length := by
    simp only [List.flatten_append, List.flatten_cons] at hnd ⊢
    rw [List.nodup_append, List.nodup_append] at hnd
    obtain ⟨_, ⟨_, _, d2⟩, d1⟩ := hnd
    rw [List.countP_append, List.countP_append]
    have e1 : pre.flatten.countP (fun x => decide (x ∈ H)) = 0 := by
      rw [List.countP_eq_zero]
      intro x hx h
      exact d1 x hx x (by simp only [List.mem_append]; exact Or.inl (by simpa using h)) rfl
    have e2 : H.countP (fun x => decide (x ∈ H)) = H.length := by
      rw [List.countP_eq_length]; intro x hx; simpa using hx
    have e3 : (Ts.flatten ++ post.flatten).countP (fun x => decide (x ∈ H)) = 0 := by
      rw [List.countP_eq_zero]
      intro x hx h
      exact d2 x (by simpa using h) x hx rfl
    omega
  rw [List.length_map, List.length_range] at h1
  omega

/-- **C113 (termination).** A nested commutator of `H` with more `T`s than `H` has elementary operators has no connected product, and its
matrix elements vanish: four nested commutators suffice for a two-body operator, `2r` for a string of rank `r`. -/
theorem linked_terminates (W : Alg S Op K A) (V : Vac W) (isQpAnn : Op → Bool) (canContract : Op → Op → Bool)
    (hann : ∀ o, isQpAnn o = false → W.an o = 0) (hc : ∀ x y, canContract x y = false → W.c x y = 0)
    (pre : List (List Op)) (H : List Op) (Ts post : List (List Op)) (hH : H ≠ []) (hne : ∀ T ∈ Ts, T ≠ [])
    (hcr : ∀ T ∈ Ts, ∀ t ∈ T, W.an t = 0) (heven : ∀ T ∈ Ts, (S.zeta : K) ^ T.length = 1)
    (hnd : (pre ++ H :: (Ts ++ post)).flatten.Nodup) (hlen : H.length < Ts.length) :
    wickFullConn S isQpAnn canContract (linkPairs pre.length Ts.length) [] (pre ++ H :: (Ts ++ post)) = some [] ∧
      V.vac (W.prod pre * nest (W.N H) (Ts.map W.N) * W.prod post) = 0 := by
  obtain ⟨terms, h1, h2⟩ := linked W V isQpAnn canContract hann hc pre H Ts post hH hne hcr heven hnd
  have hempty : terms = [] := by
    have hT : ∀ i < Ts.length, (pre ++ H :: (Ts ++ post)).getD (pre.length + 1 + i) [] = Ts.getD i [] := by
      intro i hi
      rw [getD_after]
      simp only [List.getD]
      rw [List.getElem?_append_left hi]
    have hmem : ∀ p ∈ linkPairs pre.length Ts.length, p.1 = pre.length ∧ ∃ i < Ts.length, p.2 = pre.length + 1 + i := by
      intro p hp
      simp only [linkPairs, List.mem_map, List.mem_range] at hp
      obtain ⟨i, hi, rfl⟩ := hp
      exact ⟨rfl, i, hi, rfl⟩
    rw [constrained_exact isQpAnn canContract (linkPairs pre.length Ts.length) [] _ hnd
      (by
        unfold linkPairs
        rw [List.nodup_map_iff (fun i j h => by simpa using h)]
        exact List.nodup_range)
      (by simp)
      (by
        intro p hp
        obtain ⟨e1, i, hi, e2⟩ := hmem p hp
        simp only [List.length_append, List.length_cons]
        omega)
      (by simp)
      (by
        intro p hp
        obtain ⟨e1, i, hi, e2⟩ := hmem p hp
        rw [e1, e2, getD_mid, hT i hi, List.getD_eq_getElem Ts [] hi]
        exact ⟨hH, hne _ (List.getElem_mem hi)⟩)] at h1
    rw [Option.some.injEq] at h1
    rw [← h1, List.filter_eq_nil_iff]
    intro t ht hok
    simp only [List.all_nil, Bool.and_true, List.all_eq_true] at hok
    exact too_many isQpAnn canContract pre H Ts post hnd hlen t _ ht hok
  rw [hempty] at h1 h2
  exact ⟨h1, by simpa using h2.symm⟩

/-! ### Partial contractions -/

omit [DecidableEq Op] in
/-- **C112 (partial contractions, avoided pairs).** No summand of the partial mode contains a contraction of an avoided pair. -/
theorem partial_avoids (cc : Op → Op → Bool) (g : Cfg Op) (nopOf : Op → Nat) (target avoided : Option (Nat → Nat → Bool))
    (fuel : Nat) (s : CState Op) (nops : List (Nop Op)) (hord : ∀ l ∈ nops, ∀ o ∈ l.2, nopOf o = l.1) (t : Term Op)
    (h : t ∈ wickConnPartial S cc g target avoided fuel s nops) : okA nopOf avoided t.2 = true := by
  induction fuel generalizing s nops t with
  | zero => simp [wickConnPartial] at h
  | succ fuel ih =>
    match nops with
    | [] => simp [wickConnPartial] at h
    | (k, []) :: nops =>
      simp only [wickConnPartial] at h
      exact ih s nops (fun l hl => hord l (by simp [hl])) t h
    | (k, o :: rest) :: others =>
      simp only [wickConnPartial, List.mem_append, List.mem_flatMap] at h
      rcases h with ⟨p, hp, h⟩ | h
      · obtain ⟨a, pre, post, b, h1, h2, h3⟩ := picksC_split others p hp
        have ho : nopOf o = k := hord (k, o :: rest) (by simp) o (by simp)
        have hop : nopOf p.op = p.ord := hord (p.ord, pre ++ p.op :: post) (by rw [h1]; simp) p.op (by simp)
        split at h
        · split at h
          · simp at h
          · rename_i s' hs'
            have hf : forbidden avoided k p.ord = false := by
              rw [Bool.eq_false_iff]
              intro hf
              rw [connect_forbidden _ _ _ _ _ _ _ _ _ _ hf] at hs'
              cases hs'
            have hcons : ∀ cs, okA nopOf avoided cs = true → okA nopOf avoided ((o, p.op) :: cs) = true := by
              intro cs hcs
              cases avoided with
              | none => rfl
              | some a =>
                have hf' : a k p.ord = true := by simpa [forbidden] using hf
                simp only [okA, List.all_cons, ho, hop, hf', Bool.true_and]
                exact hcs
            simp only [List.mem_cons] at h
            rcases h with rfl | h
            · exact hcons [] (by cases avoided <;> rfl)
            · split at h
              · simp at h
              · simp only [List.mem_map] at h
                obtain ⟨t', ht', rfl⟩ := h
                apply hcons
                refine ih s' ((k, rest) :: p.rest) ?_ t' ht'
                intro l hl x hx
                rw [h2] at hl
                simp only [List.mem_cons, List.mem_append] at hl
                rcases hl with rfl | hl | rfl | hl
                · exact hord (k, o :: rest) (by simp) x (by simp only at hx; simp [hx])
                · exact hord l (by rw [h1]; simp [hl]) x hx
                · refine hord (p.ord, pre ++ p.op :: post) (by rw [h1]; simp) x ?_
                  simp only [List.mem_append, List.mem_cons] at hx ⊢
                  tauto
                · exact hord l (by rw [h1]; simp [hl]) x hx
        · simp at h
      · refine ih s ((k, rest) :: others) ?_ t h
        intro l hl x hx
        simp only [List.mem_cons] at hl
        rcases hl with rfl | hl
        · exact hord (k, o :: rest) (by simp) x (by simp only at hx; simp [hx])
        · exact hord l (by simp [hl]) x hx

/-- Operators of the examples: annihilators `a n`, creators `c n`; `a m` and `c n` contract if they belong to the same mode. -/
inductive EOp
  | a (mode copy : Nat)
  | c (mode copy : Nat)
  deriving DecidableEq, Repr

/-- Contractible pairs of the examples. -/
def eContract : EOp → EOp → Bool
  | .a m _, .c n _ => m == n
  | _, _ => false

/-- Annihilators of the examples. -/
def eAnn : EOp → Bool
  | .a _ _ => true
  | _ => false

open EOp in
/-- **C112 (finding).** With partial contractions a required connection is not guaranteed: the summand without the required connection
(0,2) and the contraction-free summand are produced, too. -/
theorem partial_unconnected : (wickPartialConn .FermiDirac eContract [(0, 2)] [] [[a 1 0, a 2 0], [c 1 0], [c 2 0]]) =
    some [(-1, [(a 1 0, c 1 0)]), (-1, [(a 1 0, c 1 0), (a 2 0, c 2 0)]), (-1, [(a 2 0, c 2 0)]), (1, [])] := by
  decide +kernel

/-! ### Examples -/

open EOp

/-- Without constraints there are two full sets of contractions; none has both required connections; one avoids the first pair. -/
example : wickFullConn .FermiDirac eAnn eContract [] [] [[a 1 0, a 2 0], [a 1 1], [c 1 1], [c 1 0, c 2 0]] =
      some [(1, [(a 1 0, c 1 1), (a 2 0, c 2 0), (a 1 1, c 1 0)]), (-1, [(a 1 0, c 1 0), (a 2 0, c 2 0), (a 1 1, c 1 1)])] ∧
    (wickFullConn .FermiDirac eAnn eContract [(0, 2), (2, 3)] [] [[a 1 0, a 2 0], [a 1 1], [c 1 1], [c 1 0, c 2 0]]).map List.length = some 0 ∧
    wickFullConn .FermiDirac eAnn eContract [(3, 0)] [(2, 0)] [[a 1 0, a 2 0], [a 1 1], [c 1 1], [c 1 0, c 2 0]] =
      some [(-1, [(a 1 0, c 1 0), (a 2 0, c 2 0), (a 1 1, c 1 1)])] := by
  decide +kernel

/-- Of several sets some are connected. -/
example : (wickFullConn .FermiDirac eAnn eContract [] [] [[a 1 0], [a 1 1], [c 1 0], [c 1 1]]).map List.length = some 2 ∧
    (wickFullConn .FermiDirac eAnn eContract [(0, 2)] [] [[a 1 0], [a 1 1], [c 1 0], [c 1 1]]).map List.length = some 1 := by
  decide +kernel

/-- Exceptions. -/
example : wickFullConn .FermiDirac eAnn eContract [(0, 2)] [] [[a 1 0], [c 1 0]] = none ∧
    wickFullConn .FermiDirac eAnn eContract [(0, 1), (0, 1)] [] [[a 1 0], [c 1 0]] = none ∧
    wickFullConn .FermiDirac eAnn eContract [] [(5, 1)] [[a 1 0], [c 1 0]] = none := by
  decide +kernel

/-- Copies of the operators of an algebra. -/
def copies {S : Statistics} {Op K A : Type} [CommRing K] [Ring A] [Algebra K A] (W : Alg S Op K A) : Alg S (Op × Nat) K A where
  cr o := W.cr o.1
  an o := W.an o.1
  c x y := W.c x.1 y.1
  an_cr x y := W.an_cr x.1 y.1
  an_an x y := W.an_an x.1 y.1
  cr_cr x y := W.cr_cr x.1 y.1

/-- A vacuum of the copies. -/
def copiesVac {S : Statistics} {Op K A : Type} [CommRing K] [Ring A] [Algebra K A] {W : Alg S Op K A} (V : Vac W) : Vac (copies W) where
  vac := V.vac
  vac_one := V.vac_one
  vac_cr x a := V.vac_cr x.1 a
  vac_an a x := V.vac_an a x.1

open Inst in
/-- Two fermionic modes: `⟨a₁a₂ [c₁a₁, c₁c₂]⟩` from the connected products; the value is not zero. -/
example : ∃ terms, wickFullConn .FermiDirac (fun o : F2 × Nat => decide (o.1 = .a1 ∨ o.1 = .a2)) (fun x y => f2c x.1 y.1 != 0)
      (linkPairs 1 1) [] [[(.a1, 0), (.a2, 0)], [(.c1, 1), (.a1, 1)], [(.c1, 2), (.c2, 2)]] = some terms ∧ terms ≠ [] ∧
    (terms.map fun t => (t.1 : Int) * pairProd (copies fermi2).c t.2).sum =
      fermi2Vac.vac ((copies fermi2).prod [[(.a1, 0), (.a2, 0)]] *
        nest ((copies fermi2).N [(.c1, 1), (.a1, 1)]) [(copies fermi2).N [(.c1, 2), (.c2, 2)]] * (copies fermi2).prod []) := by
  obtain ⟨terms, h1, h2⟩ := linked (copies fermi2) (copiesVac fermi2Vac) (fun o : F2 × Nat => decide (o.1 = .a1 ∨ o.1 = .a2))
    (fun x y => f2c x.1 y.1 != 0)
    (by rintro ⟨o, n⟩ h; cases o <;> first | rfl | (simp at h))
    (by rintro ⟨x, n⟩ ⟨y, m⟩ h; cases x <;> cases y <;> first | rfl | (simp [f2c] at h))
    [[(.a1, 0), (.a2, 0)]] [(.c1, 1), (.a1, 1)] [[(.c1, 2), (.c2, 2)]] [] (by simp) (by simp)
    (by
      intro T hT t ht
      simp only [List.mem_singleton] at hT
      subst hT
      simp only [List.mem_cons, List.not_mem_nil, or_false] at ht
      rcases ht with rfl | rfl <;> rfl)
    (by
      intro T hT
      simp only [List.mem_singleton] at hT
      subst hT
      decide +kernel)
    (by decide +kernel)
  refine ⟨terms, h1, ?_, h2⟩
  rintro rfl
  have h3 := congrArg (Option.map List.length) h1
  exact absurd h3 (by decide +kernel)

end SeQuant.Linked
