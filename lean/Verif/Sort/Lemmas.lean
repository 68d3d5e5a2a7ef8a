import Verif.Sort.Model
import Mathlib.GroupTheory.Perm.Sign
import Mathlib.Data.List.OfFn
import Mathlib.Data.List.Chain

/-!
# Auxiliary facts about `bubble_sort`
-/

namespace SeQuant.Sort

variable {α β : Type}

/-- `Swaps comp n l l'`: `l'` arises from `l` by `n` exchanges of adjacent elements, each of which the
comparator declared to be in the wrong order. -/
inductive Swaps (comp : α → α → Bool) : Nat → List α → List α → Prop
  | refl (l : List α) : Swaps comp 0 l l
  | step {n : Nat} {l : List α} (p q : List α) (x y : α) :
      Swaps comp n l (p ++ x :: y :: q) → comp y x = true →
        Swaps comp (n + 1) l (p ++ y :: x :: q)

theorem Swaps.trans {comp : α → α → Bool} {m n : Nat} {a b c : List α}
    (h₁ : Swaps comp m a b) (h₂ : Swaps comp n b c) : Swaps comp (m + n) a c := by
  induction h₂ with
  | refl => exact h₁
  | step p q x y _ hc ih => exact Swaps.step p q x y (ih h₁) hc

theorem Swaps.cons {comp : α → α → Bool} {n : Nat} {a b : List α} (x : α)
    (h : Swaps comp n a b) : Swaps comp n (x :: a) (x :: b) := by
  induction h with
  | refl => exact Swaps.refl _
  | step p q y z _ hc ih => exact Swaps.step (x :: p) q y z ih hc

theorem pass_swaps (comp : α → α → Bool) (l : List α) :
    Swaps comp (pass comp l).2 l (pass comp l).1 := by
  fun_induction pass comp l with
  | case1 => exact Swaps.refl _
  | case2 => exact Swaps.refl _
  | case3 x y rest hc r ih =>
    have h1 : Swaps comp 1 (x :: y :: rest) (y :: x :: rest) :=
      Swaps.step [] rest x y (Swaps.refl _) hc
    have := h1.trans (ih.cons y)
    simpa [Nat.add_comm] using this
  | case4 x y rest hc r ih => exact ih.cons x

theorem bubbleSort_swaps (comp : α → α → Bool) (fuel : Nat) (l l' : List α) (n : Nat)
    (h : bubbleSort comp fuel l = some (l', n)) : Swaps comp n l l' := by
  induction fuel generalizing l l' n with
  | zero => simp [bubbleSort] at h
  | succ fuel ih =>
    rw [bubbleSort] at h
    split at h
    · rename_i h0
      simp only [Option.some.injEq, Prod.mk.injEq] at h
      have := pass_swaps comp l
      rw [h0] at this
      rw [← h.1, ← h.2]; exact this
    · simp only [Option.map_eq_some_iff] at h
      obtain ⟨q, hq, e⟩ := h
      simp only [Prod.mk.injEq] at e
      have := (pass_swaps comp l).trans (ih _ q.1 q.2 hq)
      rw [← e.1, ← e.2]; exact this

theorem Swaps.perm {comp : α → α → Bool} {n : Nat} {a b : List α} (h : Swaps comp n a b) :
    b.Perm a := by
  induction h with
  | refl => exact List.Perm.refl _
  | step p q x y _ _ ih =>
    exact (List.Perm.append_left p (List.Perm.swap x y q)).trans ih

theorem Swaps.length {comp : α → α → Bool} {n : Nat} {a b : List α} (h : Swaps comp n a b) :
    b.length = a.length := h.perm.length_eq

/-- Number of pairs (earlier, later) in the wrong order. -/
def inv (comp : α → α → Bool) : List α → Nat
  | [] => 0
  | x :: l => (l.countP fun y => comp y x) + inv comp l

theorem inv_append (comp : α → α → Bool) (p q q' : List α)
    (hcount : ∀ f : α → Bool, q.countP f = q'.countP f) (k : Nat)
    (h : inv comp q = inv comp q' + k) : inv comp (p ++ q) = inv comp (p ++ q') + k := by
  induction p with
  | nil => simpa using h
  | cons a p ih =>
    simp only [List.cons_append, inv, List.countP_append, hcount, ih]
    omega

theorem Swaps.inv_eq {comp : α → α → Bool} (hasym : ∀ a b, comp a b = true → comp b a = false)
    {n : Nat} {a b : List α} (h : Swaps comp n a b) : inv comp b + n = inv comp a := by
  induction h with
  | refl => rfl
  | step p q x y _ hc ih =>
    have := inv_append comp p (x :: y :: q) (y :: x :: q)
      (fun f => by simp only [List.countP_cons]; omega) 1
      (by
        have := hasym y x hc
        simp only [inv, List.countP_cons, hc, this]
        simp
        omega)
    omega

theorem pass_zero (comp : α → α → Bool) (l : List α) (h : (pass comp l).2 = 0) :
    (pass comp l).1 = l ∧ l.IsChain (fun a b => comp b a = false) := by
  fun_induction pass comp l with
  | case1 => simp
  | case2 => simp
  | case3 x y rest hc r ih => simp at h
  | case4 x y rest hc r ih =>
    obtain ⟨h1, h2⟩ := ih h
    refine ⟨by rw [h1], ?_⟩
    rw [List.isChain_cons_cons]
    exact ⟨by simpa using hc, h2⟩

theorem bubbleSort_chain (comp : α → α → Bool) (fuel : Nat) (l l' : List α) (n : Nat)
    (h : bubbleSort comp fuel l = some (l', n)) : l'.IsChain (fun a b => comp b a = false) := by
  induction fuel generalizing l l' n with
  | zero => simp [bubbleSort] at h
  | succ fuel ih =>
    rw [bubbleSort] at h
    split at h
    · rename_i h0
      simp only [Option.some.injEq, Prod.mk.injEq] at h
      have := pass_zero comp l h0
      rw [← h.1, this.1]; exact this.2
    · simp only [Option.map_eq_some_iff] at h
      obtain ⟨q, hq, e⟩ := h
      simp only [Prod.mk.injEq] at e
      rw [← e.1]; exact ih _ _ _ hq

theorem bubbleSort_terminates_aux (comp : α → α → Bool)
    (hasym : ∀ a b, comp a b = true → comp b a = false) (fuel : Nat) (l : List α)
    (h : inv comp l < fuel) : ∃ r, bubbleSort comp fuel l = some r := by
  induction fuel generalizing l with
  | zero => omega
  | succ fuel ih =>
    rw [bubbleSort]
    split
    · exact ⟨_, rfl⟩
    · rename_i h0
      have := (pass_swaps comp l).inv_eq hasym
      have h0' : (pass comp l).2 ≠ 0 := h0
      obtain ⟨r, hr⟩ := ih (pass comp l).1 (by omega)
      simp only [hr]
      exact ⟨_, rfl⟩

/-- More fuel does not change a result. -/
theorem bubbleSort_mono (comp : α → α → Bool) (f g : Nat) (l : List α) (r : List α × Nat)
    (h : bubbleSort comp f l = some r) (hfg : f ≤ g) : bubbleSort comp g l = some r := by
  induction f generalizing g l r with
  | zero => simp [bubbleSort] at h
  | succ f ih =>
    obtain ⟨g, rfl⟩ : ∃ g', g = g' + 1 := ⟨g - 1, by omega⟩
    rw [bubbleSort] at h ⊢
    split at h
    · rename_i h0; rw [if_pos h0]; exact h
    · rename_i h0
      rw [if_neg h0]
      simp only [Option.map_eq_some_iff] at h ⊢
      obtain ⟨q, hq, e⟩ := h
      exact ⟨q, ih g _ q hq (by omega), e⟩

theorem Swaps.sign {comp : α → α → Bool} {n : Nat} {l l' : List α} (h : Swaps comp n l l') :
    ∃ σ : Equiv.Perm (Fin l.length),
      l' = List.ofFn (fun i => l.get (σ i)) ∧ Equiv.Perm.sign σ = (-1) ^ n := by
  induction h with
  | refl => exact ⟨1, by simp, by simp⟩
  | @step n l p q x y h hc ih =>
    obtain ⟨σ, e, hs⟩ := ih
    have hlen : l.length = p.length + (q.length + 2) := by
      have := h.length; simpa using this.symm
    let i : Fin l.length := ⟨p.length, by omega⟩
    let j : Fin l.length := ⟨p.length + 1, by omega⟩
    have hij : i ≠ j := by simp [i, j]
    refine ⟨σ * Equiv.swap i j, ?_, ?_⟩
    · have hget : ∀ k : Fin l.length, l.get (σ k) =
          (p ++ x :: y :: q)[k.val]'(by have := h.length; rw [this]; exact k.isLt) := by
        intro k
        have hk : k.val < (List.ofFn (fun i => l.get (σ i))).length := by
          rw [List.length_ofFn]; exact k.isLt
        have : (p ++ x :: y :: q)[k.val]'(by have := h.length; rw [this]; exact k.isLt) =
            (List.ofFn (fun i => l.get (σ i)))[k.val]'hk := by
          simp only [e]
        rw [this, List.getElem_ofFn]
      apply List.ext_getElem
      · simp; omega
      · intro k h1 h2
        rw [List.getElem_ofFn]
        rw [List.length_ofFn] at h2
        have : (p ++ y :: x :: q)[k] =
            l.get ((σ * Equiv.swap i j) ⟨k, h2⟩) := by
          rw [Equiv.Perm.mul_apply, hget]
          by_cases hki : k = p.length
          · subst hki
            rw [show (⟨p.length, h2⟩ : Fin l.length) = i from rfl, Equiv.swap_apply_left]
            simp [j]
          · by_cases hkj : k = p.length + 1
            · subst hkj
              rw [show (⟨p.length + 1, h2⟩ : Fin l.length) = j from rfl, Equiv.swap_apply_right]
              simp [i]
            · rw [Equiv.swap_apply_of_ne_of_ne (by simp [i]; omega) (by simp [j]; omega)]
              rcases Nat.lt_trichotomy k p.length with hlt | heq | hgt
              · simp [List.getElem_append_left, hlt]
              · exact absurd heq hki
              · obtain ⟨m, rfl⟩ : ∃ m, k = p.length + (m + 2) := ⟨k - p.length - 2, by omega⟩
                simp [List.getElem_append_right]
        exact this
    · rw [map_mul, hs, Equiv.Perm.sign_swap hij, pow_succ]

end SeQuant.Sort
