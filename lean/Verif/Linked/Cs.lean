import Verif.Linked.Pf
import Mathlib.Algebra.BigOperators.Group.List.Basic

/-!
# Sums over full sets of contractions that connect given normal operators to one of them
-/

namespace SeQuant.Linked

open SeQuant.Wick

variable {Op K : Type} [CommRing K] [DecidableEq Op]

/-- One of the contractions joins `X` and `Y`. -/
def meets (X Y : List Op) (cs : List (Op × Op)) : Bool :=
  cs.any fun p => (decide (p.1 ∈ X) && decide (p.2 ∈ Y)) || (decide (p.1 ∈ Y) && decide (p.2 ∈ X))

/-- The contractions without those between `X` and `Y`. -/
def cut (c : Op → Op → K) (X Y : List Op) : Op → Op → K :=
  fun x y => if (x ∈ X ∧ y ∈ Y) ∨ (x ∈ Y ∧ y ∈ X) then 0 else c x y

/-- Inclusion and exclusion over the normal operators that are to be connected to `H`. -/
def cs (S : Statistics) (c : Op → Op → K) (H : List Op) : List (List Op) → List (List Op) → K
  | [], nops => pf S c nops
  | T :: Ts, nops => cs S c H Ts nops - cs S (cut c H T) H Ts nops

variable {S : Statistics} {c c' : Op → Op → K}

theorem cut_zero (H T : List Op) (x y : Op) (h : c x y = 0) : cut c H T x y = 0 := by
  unfold cut; split <;> simp [h]

omit [DecidableEq Op] in
theorem pairProd_cons (p : Op × Op) (l : List (Op × Op)) : pairProd c (p :: l) = c p.1 p.2 * pairProd c l := by
  simp [pairProd]

theorem meets_cons (X Y : List Op) (p : Op × Op) (l : List (Op × Op)) : meets X Y (p :: l) =
    (((decide (p.1 ∈ X) && decide (p.2 ∈ Y)) || (decide (p.1 ∈ Y) && decide (p.2 ∈ X))) || meets X Y l) := rfl

theorem pairProd_cut (H T : List Op) (l : List (Op × Op)) :
    pairProd (cut c H T) l = if meets H T l = true then 0 else pairProd c l := by
  induction l with
  | nil => simp [pairProd, meets]
  | cons p l ih =>
    rw [pairProd_cons, pairProd_cons, ih, meets_cons]
    unfold cut
    by_cases h1 : (p.1 ∈ H ∧ p.2 ∈ T) ∨ (p.1 ∈ T ∧ p.2 ∈ H)
    · rw [if_pos h1, zero_mul, if_pos]
      rw [Bool.or_eq_true]; left
      simpa using h1
    · rw [if_neg h1]
      have : ((decide (p.1 ∈ H) && decide (p.2 ∈ T)) || (decide (p.1 ∈ T) && decide (p.2 ∈ H))) = false := by
        rw [Bool.eq_false_iff]; intro h; exact h1 (by simpa using h)
      rw [this, Bool.false_or]
      by_cases hm : meets H T l = true
      · rw [if_pos hm, if_pos hm, mul_zero]
      · rw [if_neg hm, if_neg hm]

/-- Inclusion and exclusion, summand by summand. -/
theorem filter_cut (terms : List (Term Op)) (H T : List Op) (q : Term Op → Bool) :
    ((terms.filter fun t => meets H T t.2 && q t).map fun t => (t.1 : K) * pairProd c t.2).sum =
      ((terms.filter q).map fun t => (t.1 : K) * pairProd c t.2).sum -
      ((terms.filter q).map fun t => (t.1 : K) * pairProd (cut c H T) t.2).sum := by
  induction terms with
  | nil => simp
  | cons t l ih =>
    by_cases hq : q t = true
    · by_cases hm : meets H T t.2 = true
      · rw [List.filter_cons_of_pos (by simp [hm, hq]), List.filter_cons_of_pos hq]
        simp only [List.map_cons, List.sum_cons, ih, pairProd_cut, hm, if_true]
        ring
      · rw [List.filter_cons_of_neg (by simp [hm]), List.filter_cons_of_pos hq, ih]
        simp only [List.map_cons, List.sum_cons, pairProd_cut, hm]
        simp
    · rw [List.filter_cons_of_neg (by simp [hq]), List.filter_cons_of_neg hq, ih]

theorem filter_cs (isQpAnn : Op → Bool) (cc : Op → Op → Bool) (nops : List (List Op)) (hne : 0 < opsize nops)
    (H : List Op) (Ts : List (List Op)) (c : Op → Op → K) (hann : ∀ x y, isQpAnn x = false → c x y = 0)
    (hc : ∀ x y, cc x y = false → c x y = 0) :
    (((wickFull S isQpAnn cc (wickFuel nops) nops).filter fun t => Ts.all fun T => meets H T t.2).map
      fun t => (t.1 : K) * pairProd c t.2).sum = cs S c H Ts nops := by
  induction Ts generalizing c with
  | nil =>
    simp only [cs, List.all_nil, List.filter_true]
    exact wickFull_pf isQpAnn cc hann hc _ nops hne (Nat.le_refl _)
  | cons T Ts ih =>
    simp only [cs, List.all_cons]
    rw [filter_cut, ih c hann hc, ih (cut c H T) (fun x y h => cut_zero H T x y (hann x y h)) (fun x y h => cut_zero H T x y (hc x y h))]

theorem cut_congr (H T : List Op) (x y : Op) (h : c x y = c' x y) : cut c H T x y = cut c' H T x y := by
  unfold cut; rw [h]

theorem cs_congr (H : List Op) (Ts nops : List (List Op)) (h : ∀ x y, Later nops x y → c x y = c' x y) :
    cs S c H Ts nops = cs S c' H Ts nops := by
  induction Ts generalizing c c' with
  | nil => exact pf_congr nops h
  | cons T Ts ih =>
    simp only [cs]
    rw [ih h, ih (c := cut c H T) (c' := cut c' H T) (fun x y hl => cut_congr H T x y (h x y hl))]

theorem cs_move (H T : List Op) (Ts : List (List Op)) (hz : (S.zeta : K) ^ T.length = 1) (hT : ∀ t ∈ T, ∀ y, c t y = 0)
    (pre Ys post : List (List Op)) (hY : ∀ x ∈ Ys.flatten, ∀ t ∈ T, c x t = 0) :
    cs S c H Ts (pre ++ (Ys ++ T :: post)) = cs S c H Ts (pre ++ T :: (Ys ++ post)) := by
  induction Ts generalizing c with
  | nil => exact pf_move T hz hT pre Ys post hY
  | cons T' Ts ih =>
    simp only [cs]
    rw [ih hT hY, ih (c := cut c H T') (fun t ht y => cut_zero H T' t y (hT t ht y))
      (fun x hx t ht => cut_zero H T' x t (hY x hx t ht))]

omit [DecidableEq Op] in
theorem later_append (A B : List (List Op)) (x y : Op) (h : Later (A ++ B) x y) : x ∈ A.flatten ∨ y ∈ B.flatten := by
  induction A with
  | nil =>
    right
    rw [List.nil_append] at h
    induction B with
    | nil => exact h.elim
    | cons l B ih =>
      rcases h with ⟨_, h⟩ | h
      · simp only [List.flatten_cons, List.mem_append]; exact Or.inr h
      · simp only [List.flatten_cons, List.mem_append]; exact Or.inr (ih h)
  | cons l A ih =>
    rcases h with ⟨h, _⟩ | h
    · left; simp [h]
    · rcases ih h with h | h
      · left; simp only [List.flatten_cons, List.mem_append]; exact Or.inr h
      · exact Or.inr h

/-- The nested differences that inclusion and exclusion leads to. -/
def pfNest (S : Statistics) (c : Op → Op → K) (pre : List (List Op)) (H : List Op) (post : List (List Op)) :
    List (List Op) → List (List Op) → List (List Op) → K
  | L, R, [] => pf S c (pre ++ (L ++ H :: (R ++ post)))
  | L, R, T :: Ts => pfNest S c pre H post L (R ++ [T]) Ts - pfNest S c pre H post (T :: L) R Ts

/-- The connected sum is the nested difference. -/
theorem cs_nest (pre : List (List Op)) (H : List Op) (post : List (List Op)) (Ts L R : List (List Op))
    (hz : ∀ T ∈ L ++ R ++ Ts, (S.zeta : K) ^ T.length = 1) (hT : ∀ T ∈ L ++ R ++ Ts, ∀ t ∈ T, ∀ y, c t y = 0)
    (hnd : (pre ++ (L ++ H :: (R ++ (Ts ++ post)))).flatten.Nodup) :
    cs S c H Ts (pre ++ (L ++ H :: (R ++ (Ts ++ post)))) = pfNest S c pre H post L R Ts := by
  induction Ts generalizing L R with
  | nil => rfl
  | cons T Ts ih =>
    simp only [cs, pfNest]
    have hTm : T ∈ L ++ R ++ T :: Ts := by simp
    congr 1
    · have e : pre ++ (L ++ H :: (R ++ (T :: Ts ++ post))) = pre ++ (L ++ H :: ((R ++ [T]) ++ (Ts ++ post))) := by simp
      have hm : ∀ T', T' ∈ L ++ (R ++ [T]) ++ Ts → T' ∈ L ++ R ++ T :: Ts := by intro T'; simp
      rw [e]
      rw [e] at hnd
      exact ih L (R ++ [T]) (fun T' h => hz T' (hm T' h)) (fun T' h => hT T' (hm T' h)) hnd
    · have hm : ∀ T', T' ∈ T :: L ++ R ++ Ts → T' ∈ L ++ R ++ T :: Ts := by intro T'; simp; tauto
      have hperm : (pre ++ (L ++ H :: (R ++ (T :: Ts ++ post)))).flatten.Perm
          (pre ++ (T :: L ++ H :: (R ++ (Ts ++ post)))).flatten := by
        apply List.Perm.flatten
        apply List.Perm.append_left
        have : L ++ H :: (R ++ (T :: Ts ++ post)) = (L ++ H :: R) ++ T :: (Ts ++ post) := by simp
        rw [this]
        refine (List.perm_middle).trans ?_
        simp
      have hnd2 : (pre ++ (T :: L ++ H :: (R ++ (Ts ++ post)))).flatten.Nodup := hperm.nodup_iff.mp hnd
      have e : pre ++ (L ++ H :: (R ++ (T :: Ts ++ post))) = pre ++ ((L ++ H :: R) ++ T :: (Ts ++ post)) := by simp
      have hcutT : ∀ t ∈ T, ∀ y, cut c H T t y = 0 := fun t ht y => cut_zero H T t y (hT T hTm t ht y)
      rw [e, cs_move H T Ts (hz T hTm) hcutT pre (L ++ H :: R) (Ts ++ post) ?_]
      · have e2 : pre ++ T :: (L ++ H :: R ++ (Ts ++ post)) = pre ++ (T :: L ++ H :: (R ++ (Ts ++ post))) := by simp
        rw [e2, ← ih (T :: L) R (fun T' h => hz T' (hm T' h)) (fun T' h => hT T' (hm T' h)) hnd2]
        apply cs_congr
        intro x y hl
        unfold cut
        by_cases hc1 : (x ∈ H ∧ y ∈ T) ∨ (x ∈ T ∧ y ∈ H)
        · rw [if_pos hc1]
          rcases hc1 with ⟨hx, hy⟩ | ⟨hx, hy⟩
          · exfalso
            have e3 : pre ++ (T :: L ++ H :: (R ++ (Ts ++ post))) = (pre ++ [T]) ++ (L ++ H :: (R ++ (Ts ++ post))) := by simp
            rw [e3] at hl hnd2
            rw [List.flatten_append, List.nodup_append] at hnd2
            rcases later_append _ _ x y hl with h | h
            · exact hnd2.2.2 x h x (by simp [hx]) rfl
            · exact hnd2.2.2 y (by simp [hy]) y h rfl
          · exact (hT T hTm x hx y).symm
        · rw [if_neg hc1]
      · intro x hx t ht
        simp only [List.flatten_append, List.flatten_cons, List.mem_append, List.mem_flatten] at hx
        rcases hx with ⟨l, hl, hx⟩ | hx | ⟨l, hl, hx⟩
        · exact cut_zero H T x t (hT l (by simp [hl]) x hx t)
        · unfold cut; rw [if_pos (Or.inl ⟨hx, ht⟩)]
        · exact cut_zero H T x t (hT l (by simp [hl]) x hx t)

end SeQuant.Linked
