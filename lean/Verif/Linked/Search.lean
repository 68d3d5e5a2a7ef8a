import Verif.Linked.Model
import Verif.Wick.Contractions

/-!
# The constrained search of the Wick engine is a filter of the unconstrained one
-/

namespace SeQuant.Linked

open SeQuant.Wick

variable {Op : Type}

theorem picksC_split (ls : List (Nop Op)) (p : Pick Op) (h : p ∈ picksC ls) :
    ∃ a pre post b, ls = a ++ (p.ord, pre ++ p.op :: post) :: b ∧ p.rest = a ++ (p.ord, pre ++ post) :: b ∧
      p.others = (pre ++ post).length := by
  induction ls generalizing p with
  | nil => simp [picksC] at h
  | cons l ls ih =>
    simp only [picksC, List.mem_append, List.mem_map] at h
    rcases h with ⟨q, hq, rfl⟩ | ⟨q, hq, rfl⟩
    · obtain ⟨pre, post, h1, h2, h3⟩ := picksIn_split l.2 q hq
      refine ⟨[], pre, post, ls, ?_, ?_, ?_⟩
      · rw [← h1]; rfl
      · rw [← h2]; rfl
      · simp only [h1, List.length_append, List.length_cons]; omega
    · obtain ⟨a, pre, post, b, h1, h2, h3⟩ := ih q hq
      exact ⟨l :: a, pre, post, b, by simp [h1], by simp [h2], h3⟩

theorem picks_picksC (ls : List (Nop Op)) :
    picks (ls.map Prod.snd) = (picksC ls).map fun p => (p.skip, p.op, p.rest.map Prod.snd) := by
  induction ls with
  | nil => rfl
  | cons l ls ih => simp [picks, picksC, ih, Function.comp_def]

/-- Two normal operators are joined by one of the contractions. -/
def joined (nopOf : Op → Nat) (cs : List (Op × Op)) (i j : Nat) : Bool :=
  cs.any fun p => (decide (nopOf p.1 = i) && decide (nopOf p.2 = j)) || (decide (nopOf p.1 = j) && decide (nopOf p.2 = i))

/-- All required connections are there, either made before (`conn`) or by `cs`. -/
def okT (nnop : Nat) (nopOf : Op → Nat) (target : Option (Nat → Nat → Bool)) (conn : Nat → Nat → Bool) (cs : List (Op × Op)) : Bool :=
  match target with
  | none => true
  | some t => (List.range nnop).all fun i => (List.range nnop).all fun j => t i j || conn i j || joined nopOf cs i j

/-- No contraction between an avoided pair. -/
def okA (nopOf : Op → Nat) (avoided : Option (Nat → Nat → Bool)) (cs : List (Op × Op)) : Bool :=
  match avoided with
  | none => true
  | some a => cs.all fun p => a (nopOf p.1) (nopOf p.2)

theorem okT_iff {nnop : Nat} {nopOf : Op → Nat} {t : Nat → Nat → Bool} {conn : Nat → Nat → Bool} {cs : List (Op × Op)} :
    okT nnop nopOf (some t) conn cs = true ↔
      ∀ i < nnop, ∀ j < nnop, t i j = true ∨ conn i j = true ∨ joined nopOf cs i j = true := by
  simp only [okT, List.all_eq_true, List.mem_range, Bool.or_eq_true, or_assoc]

/-- The ordinals a normal operator is joined to. -/
def partners (nopOf : Op → Nat) (k : Nat) (cs : List (Op × Op)) : List Nat :=
  cs.flatMap fun p => if nopOf p.1 = k then [nopOf p.2] else if nopOf p.2 = k then [nopOf p.1] else []

theorem mem_partners {nopOf : Op → Nat} {k j : Nat} {cs : List (Op × Op)} (h : joined nopOf cs k j = true) :
    j ∈ partners nopOf k cs := by
  simp only [joined, List.any_eq_true, Bool.or_eq_true, Bool.and_eq_true, decide_eq_true_eq] at h
  obtain ⟨p, hp, h⟩ := h
  simp only [partners, List.mem_flatMap]
  refine ⟨p, hp, ?_⟩
  rcases h with ⟨h1, h2⟩ | ⟨h1, h2⟩
  · simp [h1, h2]
  · by_cases h3 : nopOf p.1 = k
    · rw [if_pos h3, h2]; simp [← h1, h3]
    · rw [if_neg h3, if_pos h2]; simp [h1]

theorem partners_length (nopOf : Op → Nat) (k : Nat) (cs : List (Op × Op)) :
    (partners nopOf k cs).length ≤ (pairOps cs).countP fun x => decide (nopOf x = k) := by
  induction cs with
  | nil => simp [partners]
  | cons p cs ih =>
    simp only [partners, pairOps, List.flatMap_cons, List.length_append, List.countP_append, List.countP_cons, List.countP_nil] at ih ⊢
    have : (if nopOf p.1 = k then [nopOf p.2] else if nopOf p.2 = k then [nopOf p.1] else []).length ≤
        0 + (if decide (nopOf p.2 = k) = true then 1 else 0) + (if decide (nopOf p.1 = k) = true then 1 else 0) := by
      by_cases h1 : nopOf p.1 = k
      · simp [h1]
      · by_cases h2 : nopOf p.2 = k <;> simp [h1, h2]
    omega

theorem needs_le {nnop : Nat} {nopOf : Op → Nat} {t conn : Nat → Nat → Bool} {cs : List (Op × Op)} (k : Nat) (hk : k < nnop)
    (h : okT nnop nopOf (some t) conn cs = true) :
    needs nnop conn t k ≤ (pairOps cs).countP fun x => decide (nopOf x = k) := by
  refine Nat.le_trans ?_ (partners_length nopOf k cs)
  unfold needs
  apply (List.subperm_of_subset ((List.nodup_range).filter _) ?_).length_le
  intro j hj
  simp only [List.mem_filter, List.mem_range, Bool.not_eq_true', Bool.or_eq_false_iff] at hj
  apply mem_partners
  rcases okT_iff.mp h k hk j hj.1 with h1 | h1 | h1
  · simp [hj.2.2] at h1
  · simp [hj.2.1] at h1
  · exact h1

theorem needs_zero {nnop : Nat} {t conn : Nat → Nat → Bool} {k : Nat} :
    needs nnop conn t k = 0 ↔ ∀ j < nnop, conn k j = true ∨ t k j = true := by
  unfold needs
  rw [List.length_eq_zero_iff, List.filter_eq_nil_iff]
  simp only [List.mem_range, Bool.not_eq_true', Bool.not_eq_false, Bool.or_eq_true]

theorem picks_perm (ls : List (List Op)) (p : Nat × Op × List (List Op)) (h : p ∈ picks ls) :
    (p.2.1 :: p.2.2.flatten).Perm ls.flatten := by
  obtain ⟨pre, post, h1, h2, _⟩ := picks_split ls p h
  rw [h1, h2]
  exact (List.perm_middle).symm

/-- Every operator is used exactly once. -/
theorem wickFull_perm (S : Statistics) (isQpAnn : Op → Bool) (cc : Op → Op → Bool) (fuel : Nat) (nops : List (List Op)) (t : Term Op)
    (h : t ∈ wickFull S isQpAnn cc fuel nops) : (pairOps t.2).Perm nops.flatten := by
  induction fuel generalizing nops t with
  | zero => simp [wickFull] at h
  | succ fuel ih =>
    match nops with
    | [] => simp [wickFull] at h
    | [] :: nops => simpa using ih nops t (by simpa [wickFull] using h)
    | (o :: rest) :: others =>
      simp only [wickFull] at h
      split at h
      · simp at h
      · simp only [List.mem_flatMap] at h
        obtain ⟨p, hp, h⟩ := h
        have hperm := picks_perm others p hp
        have key : ∀ ops : List Op, ops.Perm (rest :: p.2.2).flatten → (o :: p.2.1 :: ops).Perm ((o :: rest) :: others).flatten := by
          intro ops ho
          simp only [List.flatten_cons, List.cons_append] at ho ⊢
          refine List.Perm.cons o ?_
          refine (List.Perm.cons _ ho).trans ?_
          refine (List.perm_middle).symm.trans ?_
          exact List.Perm.append_left rest hperm
        split at h
        · split at h
          · rename_i h0
            simp only [List.mem_singleton] at h
            subst h
            apply key
            have : (rest :: p.2.2).flatten = [] := List.length_eq_zero_iff.mp (by rw [← opsize_flatten]; exact h0)
            rw [this]; exact List.Perm.refl _
          · simp only [List.mem_map] at h
            obtain ⟨t', ht', rfl⟩ := h
            exact key _ (ih _ t' ht')
        · simp at h

theorem connBits_apply (n1 n2 : Nat) (conn : Nat → Nat → Bool) (hs : ∀ i j, conn i j = conn j i) (i j : Nat) :
    connBits n1 n2 conn i j = (conn i j || (decide (n1 = i) && decide (n2 = j)) || (decide (n1 = j) && decide (n2 = i))) := by
  unfold connBits
  have h := hs n1 n2
  by_cases hc : conn n1 n2 = true
  · rw [hc, if_neg (by simp)]
    by_cases h1 : n1 = i ∧ n2 = j
    · rw [← h1.1, ← h1.2, hc]; rfl
    · by_cases h2 : n1 = j ∧ n2 = i
      · rw [← h2.1, ← h2.2, ← h, hc]; rfl
      · rw [not_and_or] at h1 h2
        rcases h1 with h1 | h1 <;> rcases h2 with h2 | h2 <;> simp [h1, h2]
  · rw [Bool.not_eq_true] at hc
    rw [hc, if_pos (by simp)]
    rw [upd2_apply, upd2_apply]
    by_cases h1 : n1 = i ∧ n2 = j
    · rw [h1.1, h1.2]; simp
    · by_cases h2 : n1 = j ∧ n2 = i
      · rw [h2.1, h2.2]; simp
      · have e1 : ¬ (i = n2 ∧ j = n1) := fun h => h2 ⟨h.2.symm, h.1.symm⟩
        have e2 : ¬ (i = n1 ∧ j = n2) := fun h => h1 ⟨h.1.symm, h.2.symm⟩
        rw [if_neg e1, if_neg e2]
        rw [not_and_or] at h1 h2
        rcases h1 with h1 | h1 <;> rcases h2 with h2 | h2 <;> simp [h1, h2]

theorem connBits_symm (n1 n2 : Nat) (conn : Nat → Nat → Bool) (hs : ∀ i j, conn i j = conn j i) (i j : Nat) :
    connBits n1 n2 conn i j = connBits n1 n2 conn j i := by
  rw [connBits_apply n1 n2 conn hs, connBits_apply n1 n2 conn hs, hs i j]
  cases conn j i <;> cases decide (n1 = i) <;> cases decide (n2 = j) <;> cases decide (n1 = j) <;> cases decide (n2 = i) <;> rfl

theorem okT_cons (nnop : Nat) (nopOf : Op → Nat) (t : Nat → Nat → Bool) (conn : Nat → Nat → Bool) (hs : ∀ i j, conn i j = conn j i)
    (o1 o2 : Op) (cs : List (Op × Op)) :
    okT nnop nopOf (some t) conn ((o1, o2) :: cs) = okT nnop nopOf (some t) (connBits (nopOf o1) (nopOf o2) conn) cs := by
  simp only [okT, joined, List.any_cons, connBits_apply _ _ conn hs]
  congr 1; funext i
  congr 1; funext j
  simp only [Bool.or_assoc]

end SeQuant.Linked
