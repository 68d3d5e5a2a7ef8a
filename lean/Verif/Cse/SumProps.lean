import Verif.Cse.ExprProps

/-!
# Appending to a sum adds (C75)
-/

namespace SeQuant.Cse
open SeQuant.Eval SeQuant.Binarize

variable {L ι K : Type}

/-- Adding a constant to a sum adds its value. -/
theorem addConst_total {V : Type} [AddCommMonoid V] [Add K] (ev : Ex L ι K → V) (h : ∀ c d, ev (.const (c + d)) = ev (.const c) + ev (.const d)) (c : K) :
    ∀ l, ((addConst c l).map ev).sum = (l.map ev).sum + ev (.const c)
  | [] => by simp [addConst]
  | e :: l => by
    have ih := addConst_total ev h c l
    cases e <;> simp only [addConst, List.map_cons, List.sum_cons, ih, h]
    all_goals simp only [add_assoc, add_comm, add_left_comm]

mutual
/-- Appending to a sum adds the value of what is appended, for every additive meaning `ev` in which zeros vanish. -/
theorem addTo_total {V : Type} [AddCommMonoid V] [Zero K] [Add K] [DecidableEq K] (ev : Ex L ι K → V)
    (h : ∀ c d, ev (.const (c + d)) = ev (.const c) + ev (.const d)) (h0 : ev (.const 0) = 0) (hp : ∀ m, ev (.prod 0 m) = 0)
    (hs : ∀ m, ev (.sum m) = (m.map ev).sum) (l : List (Ex L ι K)) : ∀ e, ((addTo l e).map ev).sum = (l.map ev).sum + ev e
  | .sum m => by rw [addTo, hs]; exact addAll_total ev h h0 hp hs l m
  | .const c => by
    rw [addTo]; split
    · rename_i hc; rw [hc, h0, add_zero]
    · exact addConst_total ev h c l
  | .prod c m => by
    rw [addTo]; split
    · rename_i hc; rw [hc, hp, add_zero]
    · simp
  | .var v => by simp [addTo]
  | .ten t => by simp [addTo]
theorem addAll_total {V : Type} [AddCommMonoid V] [Zero K] [Add K] [DecidableEq K] (ev : Ex L ι K → V)
    (h : ∀ c d, ev (.const (c + d)) = ev (.const c) + ev (.const d)) (h0 : ev (.const 0) = 0) (hp : ∀ m, ev (.prod 0 m) = 0)
    (hs : ∀ m, ev (.sum m) = (m.map ev).sum) (l : List (Ex L ι K)) : ∀ m, ((addAll l m).map ev).sum = (l.map ev).sum + (m.map ev).sum
  | [] => by simp [addAll]
  | e :: m => by
    rw [addAll, addAll_total ev h h0 hp hs _ m, addTo_total ev h h0 hp hs l e, List.map_cons, List.sum_cons, add_assoc]
end

example : addTo (addTo ([] : List (Ex Nat Nat Int)) (.const 2)) (.sum [.var 7, .const 3]) = [.const 5, .var 7] := by
  simp [addTo, addAll, addConst]

end SeQuant.Cse
