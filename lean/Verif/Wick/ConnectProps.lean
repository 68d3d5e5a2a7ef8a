import Verif.Wick.ConnectModel
import Mathlib.Tactic.Ring
import Mathlib.Tactic.Linarith
import Mathlib.Data.Nat.Choose.Basic

/-!
# C44, C45: packed indices; undoing a contraction
-/

namespace SeQuant.Wick

theorem tri_even (n : Nat) : n * (n - 1) % 2 = 0 := by
  rcases n with _ | n
  · rfl
  · simp only [Nat.add_sub_cancel]
    rcases Nat.even_or_odd n with ⟨k, rfl⟩ | ⟨k, rfl⟩
    · rw [show (k + k + 1) * (k + k) = 2 * ((k + k + 1) * k) by ring]; omega
    · rw [show (2 * k + 1 + 1) * (2 * k + 1) = 2 * ((k + 1) * (2 * k + 1)) by ring]; omega

/-- start of row `i` of the packed upper triangle -/
theorem rowStart_succ (i n : Nat) (h : i < n) :
    (i + 1) * (2 * n - (i + 1) - 1) / 2 = i * (2 * n - i - 1) / 2 + (n - 1 - i) := by
  obtain ⟨m, rfl⟩ : ∃ m, n = i + 1 + m := ⟨n - i - 1, by omega⟩
  have e1 : 2 * (i + 1 + m) - (i + 1) - 1 = i + 2 * m := by omega
  have e2 : 2 * (i + 1 + m) - i - 1 = i + 2 * m + 1 := by omega
  have e3 : i + 1 + m - 1 - i = m := by omega
  rw [e1, e2, e3]
  have : (i + 1) * (i + 2 * m) = i * (i + 2 * m + 1) + 2 * m := by ring
  rw [this]
  omega

theorem rowStart_mono (i j n : Nat) (hij : i ≤ j) (hj : j ≤ n) :
    i * (2 * n - i - 1) / 2 ≤ j * (2 * n - j - 1) / 2 := by
  induction j, hij using Nat.le_induction with
  | base => exact Nat.le_refl _
  | succ j hij ih =>
    have := rowStart_succ j n (by omega)
    have := ih (by omega)
    omega

theorem uptri_lt (i j n : Nat) (hij : i < j) (hj : j < n) :
    i * (2 * n - i - 1) / 2 ≤ uptriIdx i j n ∧ uptriIdx i j n < (i + 1) * (2 * n - (i + 1) - 1) / 2 := by
  have := rowStart_succ i n (by omega)
  unfold uptriIdx
  omega

/-- **C44.** Every packed index is within the array ... -/
theorem uptri_range (i j n : Nat) (hij : i < j) (hj : j < n) : uptriIdx i j n < ntri n := by
  have h1 := (uptri_lt i j n hij hj).2
  have h2 := rowStart_mono (i + 1) (n - 1) n (by omega) (by omega)
  have e : (n - 1) * (2 * n - (n - 1) - 1) = n * (n - 1) := by
    rw [show 2 * n - (n - 1) - 1 = n by omega, Nat.mul_comm]
  rw [e] at h2
  unfold ntri
  omega

/-- ... different pairs have different packed indices ... -/
theorem uptri_inj (i j i' j' n : Nat) (hij : i < j) (hj : j < n) (hij' : i' < j') (hj' : j' < n)
    (h : uptriIdx i j n = uptriIdx i' j' n) : i = i' ∧ j = j' := by
  have a := uptri_lt i j n hij hj
  have b := uptri_lt i' j' n hij' hj'
  have hi : i = i' := by
    rcases Nat.lt_trichotomy i i' with hlt | heq | hgt
    · have := rowStart_mono (i + 1) i' n (by omega) (by omega)
      omega
    · exact heq
    · have := rowStart_mono (i' + 1) i n (by omega) (by omega)
      omega
  subst hi
  refine ⟨rfl, ?_⟩
  unfold uptriIdx at h
  omega

/-- ... and every element of the array belongs to a pair. -/
theorem uptri_surj (n k : Nat) (hk : k < ntri n) : ∃ i j, i < j ∧ j < n ∧ uptriIdx i j n = k := by
  have key : ∀ m, m ≤ n - 1 → k < m * (2 * n - m - 1) / 2 → ∃ i j, i < j ∧ j < n ∧ uptriIdx i j n = k := by
    intro m
    induction m with
    | zero => intro _ h; simp at h
    | succ m ih =>
      intro hm h
      by_cases hlt : k < m * (2 * n - m - 1) / 2
      · exact ih (by omega) hlt
      · have := rowStart_succ m n (by omega)
        refine ⟨m, m + 1 + (k - m * (2 * n - m - 1) / 2), by omega, by omega, ?_⟩
        unfold uptriIdx
        omega
  apply key (n - 1) (Nat.le_refl _)
  unfold ntri at hk
  have hn : 0 < n := by
    rcases n with _ | n
    · simp at hk
    · omega
  rw [show 2 * n - (n - 1) - 1 = n by omega, Nat.mul_comm]
  exact hk

example : (List.range 4).map (fun j => uptriIdx 1 (j + 2) 6) = [5, 6, 7, 8] ∧ ntri 6 = 15 := by decide

/-- The number of packed elements is the number of pairs. -/
theorem ntri_choose (n : Nat) : ntri n = n.choose 2 := by
  rw [Nat.choose_two_right]; rfl

/-- The packed lower triangle is also a bijection. -/
theorem lowtri_range (i j n : Nat) (hij : j < i) (hi : i < n) : lowtriIdx i j < ntri n := by
  have key : ∀ m, i < m → lowtriIdx i j < ntri m := by
    intro m hm
    induction m, hm using Nat.le_induction with
    | base =>
      unfold lowtriIdx ntri
      have : (i + 1) * (i + 1 - 1) = i * (i - 1) + 2 * i := by
        rcases i with _ | i
        · rfl
        · simp only [Nat.add_sub_cancel]; ring
      show _ < (i + 1) * (i + 1 - 1) / 2
      rw [this]
      omega
    | succ m hm ih =>
      refine Nat.lt_of_lt_of_le ih ?_
      unfold ntri
      apply Nat.div_le_div_right
      apply Nat.mul_le_mul <;> omega
  exact key n hi

theorem lowtri_inj (i j i' j' : Nat) (hij : j < i) (hij' : j' < i') (h : lowtriIdx i j = lowtriIdx i' j') :
    i = i' ∧ j = j' := by
  have hmain : ∀ i i' j j', j < i → j' < i' → i < i' → lowtriIdx i j < lowtriIdx i' j' := by
    intro i i' j j' hj _ hii
    have h1 := lowtri_range i j i' hj hii
    unfold ntri at h1
    have : i' * (i' - 1) / 2 ≤ lowtriIdx i' j' := by unfold lowtriIdx; omega
    omega
  have hi : i = i' := by
    rcases Nat.lt_trichotomy i i' with hlt | heq | hgt
    · have := hmain i i' j j' hij hij' hlt; omega
    · exact heq
    · have := hmain i' i j' j hij' hij hgt; omega
  subst hi
  exact ⟨rfl, by unfold lowtriIdx at h; omega⟩

/-! ### C45 -/

theorem upd_upd {β : Type} (f : Nat → β) (i : Nat) (v w : β) : upd (upd f i v) i w = upd f i w := by
  funext k; simp only [upd]; split <;> rfl

theorem upd_same {β : Type} (f : Nat → β) (i : Nat) (v : β) (h : f i = v) : upd f i v = f := by
  funext k; simp only [upd]; split
  · rename_i h'; rw [h', h]
  · rfl

theorem upd_at {β : Type} (f : Nat → β) (i : Nat) (v : β) : upd f i v i = v := by simp [upd]

theorem upd_ne {β : Type} (f : Nat → β) (i k : Nat) (v : β) (h : k ≠ i) : upd f i v k = f k := by simp [upd, h]

theorem upd_comm {β : Type} (f : Nat → β) (i j : Nat) (v w : β) (h : i ≠ j) :
    upd (upd f i v) j w = upd (upd f j w) i v := by
  funext k; simp only [upd]
  split <;> split <;> first | rfl | omega

variable {Op : Type}

/-- Consistent bookkeeping: a pair of normal operators is marked as connected exactly if its adjacency counter is positive (only
maintained if there are constraints); a normal operator of a partition is in its set of free ones exactly if it has no
contraction. -/
structure Consistent (g : Cfg Op) (constrained : Bool) (s : CState Op) : Prop where
  conn : constrained = true → ∀ i j, i < j → j < g.nnop →
    s.nopConn i j = decide (0 < s.nopAdj (uptriIdx i j g.nnop)) ∧ s.nopConn j i = s.nopConn i j
  free : g.hasNopPartitions = true → ∀ k, 0 < g.nopPartition k →
    s.nopFree (g.nopPartition k - 1) k = decide (s.nopN k = 0)

/-- The initial state (wick.hpp:788-802, 923-954). -/
def initState (g : Cfg Op) : CState Op where
  contractions := []
  nopConn := fun _ _ => false
  nopAdj := fun _ => 0
  nopN := fun _ => 0
  nopFree := fun p k => decide (g.nopPartition k = p + 1)
  cdeg := fun _ => 0
  ncontr := fun _ => 0

theorem init_consistent (g : Cfg Op) (b : Bool) : Consistent g b (initState g) := by
  refine ⟨fun _ i j _ _ => by simp [initState], fun _ k hk => ?_⟩
  simp [initState]; omega

theorem upd2_at {β : Type} (f : Nat → Nat → β) (i j : Nat) (v : β) : upd2 f i j v i j = v := by simp [upd2, upd]

theorem upd2_ne {β : Type} (f : Nat → Nat → β) (i j a b : Nat) (v : β) (h : ¬ (a = i ∧ b = j)) :
    upd2 f i j v a b = f a b := by
  by_cases h1 : a = i
  · have h2 : b ≠ j := fun e => h ⟨h1, e⟩
    subst h1
    simp [upd2, upd, h2]
  · simp [upd2, upd, h1]

theorem upd2_apply {β : Type} (f : Nat → Nat → β) (i j a b : Nat) (v : β) :
    upd2 f i j v a b = if a = i ∧ b = j then v else f a b := by
  split
  · rename_i h; rw [h.1, h.2, upd2_at]
  · rename_i h; exact upd2_ne f i j a b v h

/-- The part of consistency that concerns normal operator `k`. -/
def FreeOk (g : Cfg Op) (s : CState Op) (k : Nat) : Prop :=
  g.hasNopPartitions = true → 0 < g.nopPartition k → s.nopFree (g.nopPartition k - 1) k = decide (s.nopN k = 0)

theorem connectNop_eq (g : Cfg Op) (k : Nat) (s : CState Op) : connectNop g k s =
    { s with
      nopN := upd s.nopN k (s.nopN k + 1)
      nopFree := if g.hasNopPartitions = true ∧ s.nopN k = 0 ∧ g.nopPartition k > 0 then
        upd2 s.nopFree (g.nopPartition k - 1) k false else s.nopFree } := by
  simp only [connectNop]; split <;> rfl

theorem disconnectNop_eq (g : Cfg Op) (k : Nat) (s : CState Op) : disconnectNop g k s =
    if s.nopN k = 0 ∨ ((g.hasNopPartitions = true ∧ s.nopN k = 1 ∧ g.nopPartition k > 0) ∧
      s.nopFree (g.nopPartition k - 1) k = true) then none
    else some { s with
      nopN := upd s.nopN k (s.nopN k - 1)
      nopFree := if g.hasNopPartitions = true ∧ s.nopN k = 1 ∧ g.nopPartition k > 0 then
        upd2 s.nopFree (g.nopPartition k - 1) k true else s.nopFree } := by
  simp only [disconnectNop, upd_at]
  by_cases h0 : s.nopN k = 0
  · simp [h0]
  · have e : (s.nopN k - 1 = 0) = (s.nopN k = 1) := by apply propext; omega
    simp only [h0, if_false, e, false_or]
    by_cases h1 : g.hasNopPartitions = true ∧ s.nopN k = 1 ∧ g.nopPartition k > 0
    · simp only [if_pos h1]
      by_cases h2 : s.nopFree (g.nopPartition k - 1) k = true
      · rw [if_pos h2, if_pos ⟨h1, h2⟩]
      · rw [if_neg h2, if_neg (fun h => h2 h.2)]
    · rw [if_neg h1, if_neg (fun h => h1 h.1), if_neg h1]

theorem disconnectNop_connectNop (g : Cfg Op) (k : Nat) (s : CState Op) (h : FreeOk g s k) :
    disconnectNop g k (connectNop g k s) = some s := by
  obtain ⟨c, nc, na, nn, nf, cd, nco⟩ := s
  unfold FreeOk at h
  rw [connectNop_eq, disconnectNop_eq]
  simp only [upd_at, upd_upd, Nat.add_sub_cancel]
  have e : (nn k + 1 = 1) = (nn k = 0) := by apply propext; omega
  simp only [e]
  by_cases h1 : g.hasNopPartitions = true ∧ nn k = 0 ∧ g.nopPartition k > 0
  · have h2 := h h1.1 h1.2.2
    simp only [h1.2.1, decide_true] at h2
    rw [if_neg (by
      rintro (h0 | h0)
      · omega
      · rw [if_pos h1, upd2_at] at h0; exact absurd h0.2 (by simp))]
    rw [if_pos h1, if_pos h1]
    congr 2
    · exact upd_same _ _ _ rfl
    · funext a b; simp only [upd2_apply]; split
      · rename_i e; rw [e.1, e.2, h2]
      · rfl
  · rw [if_neg (by
      rintro (h0 | h0)
      · omega
      · exact h1 h0.1)]
    rw [if_neg h1, if_neg h1, upd_same _ _ _ rfl]

theorem disconnectNop_connectNop_ne (g : Cfg Op) (k m : Nat) (hkm : k ≠ m) (s : CState Op) :
    disconnectNop g k (connectNop g m s) = (disconnectNop g k s).map (connectNop g m) := by
  obtain ⟨c, nc, na, nn, nf, cd, nco⟩ := s
  have hmk : m ≠ k := fun h => hkm h.symm
  have hf : ∀ i b (P : Prop) [Decidable P], (if P then upd2 nf i m b else nf) (g.nopPartition k - 1) k =
      nf (g.nopPartition k - 1) k := by
    intro i b P _; split
    · exact upd2_ne _ _ _ _ _ _ (by omega)
    · rfl
  rw [connectNop_eq, disconnectNop_eq, disconnectNop_eq]
  simp only [upd_ne _ _ _ _ hkm, hf]
  by_cases h0 : nn k = 0 ∨ ((g.hasNopPartitions = true ∧ nn k = 1 ∧ g.nopPartition k > 0) ∧
      nf (g.nopPartition k - 1) k = true)
  · rw [if_pos h0, if_pos h0]; rfl
  · rw [if_neg h0, if_neg h0]
    simp only [Option.map_some, connectNop_eq, upd_ne _ _ _ _ hmk]
    congr 2
    · exact (upd_comm _ _ _ _ _ hmk)
    · split <;> split <;> first
        | rfl
        | (funext a b
           simp only [upd2_apply]
           split <;> split <;> first | rfl | omega)

theorem disconnectNop_rest (g : Cfg Op) (k : Nat) (o1 o2 : Op) (s : CState Op) :
    disconnectNop g k (register o1 o2 (connectOp g o1 o2 s)) =
      (disconnectNop g k s).map fun s => register o1 o2 (connectOp g o1 o2 s) := by
  obtain ⟨c, nc, na, nn, nf, cd, nco⟩ := s
  rw [disconnectNop_eq, disconnectNop_eq]
  simp only [connectOp, register]
  by_cases hp : g.hasOpPartitions = true
  · simp only [hp, if_true]
    split <;> simp [Option.map]
  · rw [if_neg hp]
    simp only [if_neg hp]
    split <;> simp [Option.map]

theorem disconnectOp_connectOp (g : Cfg Op) (o1 o2 : Op) (h : g.opPartition o1 ≠ g.opPartition o2) (s : CState Op) :
    disconnectOp g o1 o2 (register o1 o2 (connectOp g o1 o2 s)) = some (register o1 o2 s) := by
  obtain ⟨c, nc, na, nn, nf, cd, nco⟩ := s
  have h' : g.opPartition o2 ≠ g.opPartition o1 := fun e => h e.symm
  simp only [connectOp, disconnectOp, register]
  by_cases hp : g.hasOpPartitions = true
  · simp only [hp, if_true, upd_at, Nat.add_sub_cancel, upd_upd, upd_ne _ _ _ _ h, upd_ne _ _ _ _ h']
    rw [if_neg (by omega), if_neg (by omega)]
    congr 2
    · exact upd_same _ _ _ rfl
    · funext a
      simp only [upd]
      split
      · rename_i e; rw [e]
      · split
        · rename_i e; rw [e]
        · rfl
  · simp [hp]

theorem unregister_register [DecidableEq Op] (o1 o2 : Op) (s : CState Op) (h : (o1, o2) ∉ s.contractions) :
    unregister o1 o2 (register o1 o2 s) = some s := by
  obtain ⟨c, nc, na, nn, nf, cd, nco⟩ := s
  simp only at h
  simp [unregister, register, List.erase_append_right _ h]

theorem connectNop_conn (g : Cfg Op) (k : Nat) (s : CState Op) :
    (connectNop g k s).nopConn = s.nopConn ∧ (connectNop g k s).nopAdj = s.nopAdj := by
  simp only [connectNop]; split <;> exact ⟨rfl, rfl⟩

theorem connectOp_conn (g : Cfg Op) (o1 o2 : Op) (s : CState Op) :
    (connectOp g o1 o2 s).nopConn = s.nopConn ∧ (connectOp g o1 o2 s).nopAdj = s.nopAdj ∧
    (connectOp g o1 o2 s).nopFree = s.nopFree ∧ (connectOp g o1 o2 s).nopN = s.nopN ∧
    (connectOp g o1 o2 s).contractions = s.contractions := by
  simp only [connectOp]; split <;> exact ⟨rfl, rfl, rfl, rfl, rfl⟩

/-- The metadata steps of `disconnect` undo those of `connect`. -/
theorem metadata_undo [DecidableEq Op] (g : Cfg Op) (n1 n2 : Nat) (hn : n1 ≠ n2) (o1 o2 : Op)
    (ho : g.opPartition o1 ≠ g.opPartition o2) (s : CState Op) (hc : (o1, o2) ∉ s.contractions)
    (h1 : FreeOk g s n1) (h2 : FreeOk g s n2) :
    (do
      let s ← disconnectNop g n1 (register o1 o2 (connectOp g o1 o2 (connectNop g n2 (connectNop g n1 s))))
      let s ← disconnectNop g n2 s
      let s ← disconnectOp g o1 o2 s
      unregister o1 o2 s) = some s := by
  rw [disconnectNop_rest, disconnectNop_connectNop_ne g n1 n2 hn, disconnectNop_connectNop g n1 s h1]
  simp only [Option.map_some, Option.bind_eq_bind, Option.bind_some]
  rw [disconnectNop_rest, disconnectNop_connectNop g n2 s h2]
  simp only [Option.map_some, Option.bind_some]
  rw [disconnectOp_connectOp g o1 o2 ho]
  simp only [Option.bind_some]
  exact unregister_register o1 o2 s hc

/-- The bits of `nop_connections` after connecting `n1` and `n2`. -/
def connBits (n1 n2 : Nat) (conn : Nat → Nat → Bool) : Nat → Nat → Bool :=
  if !conn n1 n2 then upd2 (upd2 conn n1 n2 true) n2 n1 true else conn

theorem connect_inv (g : Cfg Op) (target avoided : Option (Nat → Nat → Bool)) (n1 n2 r1 r2 : Nat) (o1 o2 : Op)
    (s s' : CState Op) (h : connect g target avoided n1 n2 r1 r2 o1 o2 s = some s') :
    (target = none ∧ s' = register o1 o2 (connectOp g o1 o2 (connectNop g n2 (connectNop g n1 s)))) ∨
    (target.isSome = true ∧ s' = register o1 o2 (connectOp g o1 o2 (connectNop g n2 (connectNop g n1
      { s with
        nopConn := connBits n1 n2 s.nopConn
        nopAdj := upd s.nopAdj (uptriIdx n1 n2 g.nnop) (s.nopAdj (uptriIdx n1 n2 g.nnop) + 1) })))) := by
  unfold connect at h
  extract_lets fb at h
  clear_value fb
  cases fb with
  | true => simp at h
  | false =>
    cases target with
    | none =>
      simp only [Bool.false_eq_true, if_false, Option.some.injEq] at h
      exact Or.inl ⟨rfl, h.symm⟩
    | some t =>
      right
      simp only [Bool.false_eq_true, if_false] at h
      change (if needs g.nnop (connBits n1 n2 s.nopConn) t n1 > r1 then none
        else if needs g.nnop (connBits n1 n2 s.nopConn) t n2 > r2 then none else
        some (register o1 o2 (connectOp g o1 o2 (connectNop g n2 (connectNop g n1
      { s with
        nopConn := connBits n1 n2 s.nopConn
        nopAdj := upd s.nopAdj (uptriIdx n1 n2 g.nnop) (s.nopAdj (uptriIdx n1 n2 g.nnop) + 1) }))))) = some s' at h
      by_cases h1 : needs g.nnop (connBits n1 n2 s.nopConn) t n1 > r1
      · rw [if_pos h1] at h; cases h
      · rw [if_neg h1] at h
        by_cases h2 : needs g.nnop (connBits n1 n2 s.nopConn) t n2 > r2
        · rw [if_pos h2] at h; cases h
        · rw [if_neg h2, Option.some.injEq] at h
          exact ⟨rfl, h.symm⟩

/-- The constrained part of `disconnect`. -/
def dropConn (g : Cfg Op) (n1 n2 : Nat) (s : CState Op) : Option (CState Op) :=
  if !s.nopConn n1 n2 then none
  else if s.nopAdj (uptriIdx n1 n2 g.nnop) = 0 then none
  else
    let s := { s with nopAdj := upd s.nopAdj (uptriIdx n1 n2 g.nnop) (s.nopAdj (uptriIdx n1 n2 g.nnop) - 1) }
    if s.nopAdj (uptriIdx n1 n2 g.nnop) = 0 then
      some { s with nopConn := upd2 (upd2 s.nopConn n1 n2 false) n2 n1 false }
    else some s

theorem dropConn_connBits (g : Cfg Op) (n1 n2 : Nat) (s : CState Op) (hn : n1 < n2)
    (hconn : s.nopConn n1 n2 = decide (0 < s.nopAdj (uptriIdx n1 n2 g.nnop))) (hsym : s.nopConn n2 n1 = s.nopConn n1 n2) :
    dropConn g n1 n2 { s with
        nopConn := connBits n1 n2 s.nopConn
        nopAdj := upd s.nopAdj (uptriIdx n1 n2 g.nnop) (s.nopAdj (uptriIdx n1 n2 g.nnop) + 1) } = some s := by
  have hc12 : connBits n1 n2 s.nopConn n1 n2 = true := by
    unfold connBits; split
    · rw [upd2_ne _ _ _ _ _ _ (by omega), upd2_at]
    · rename_i hx; simpa using hx
  unfold dropConn
  simp only [upd_at, Nat.add_sub_cancel, upd_upd, hc12, Bool.not_true, Bool.false_eq_true, if_false]
  rw [if_neg (by omega), upd_same _ _ _ rfl]
  by_cases h0 : s.nopAdj (uptriIdx n1 n2 g.nnop) = 0
  · rw [if_pos h0]
    have hf0 : s.nopConn n1 n2 = false := by rw [hconn, h0]; rfl
    have hf1 : s.nopConn n2 n1 = false := by rw [hsym, hf0]
    have : upd2 (upd2 (connBits n1 n2 s.nopConn) n1 n2 false) n2 n1 false = s.nopConn := by
      unfold connBits
      rw [hf0]
      simp only [Bool.not_false, if_true]
      funext a b
      simp only [upd2_apply]
      by_cases e1 : a = n2 ∧ b = n1
      · rw [if_pos e1, e1.1, e1.2, hf1]
      · rw [if_neg e1, if_neg e1]
        by_cases e2 : a = n1 ∧ b = n2
        · rw [if_pos e2, e2.1, e2.2, hf0]
        · rw [if_neg e2, if_neg e2]
    rw [this]
  · rw [if_neg h0]
    have hf0 : s.nopConn n1 n2 = true := by rw [hconn]; simp; omega
    have : connBits n1 n2 s.nopConn = s.nopConn := by unfold connBits; rw [hf0]; rfl
    rw [this]

/-- **C45.** Undoing an accepted contraction restores the bookkeeping exactly. -/
theorem disconnect_connect [DecidableEq Op] (g : Cfg Op) (target avoided : Option (Nat → Nat → Bool))
    (n1 n2 r1 r2 : Nat) (o1 o2 : Op) (s s' : CState Op) (hn : n1 < n2) (hn2 : n2 < g.nnop)
    (ho : g.opPartition o1 < g.opPartition o2) (hc : (o1, o2) ∉ s.contractions)
    (hs : Consistent g target.isSome s) (h : connect g target avoided n1 n2 r1 r2 o1 o2 s = some s') :
    disconnect g target n1 n2 o1 o2 s' = some s := by
  have hne : n1 ≠ n2 := by omega
  have hf : ∀ t : CState Op, t.nopFree = s.nopFree → t.nopN = s.nopN → ∀ k, FreeOk g t k := by
    intro t h1 h2 k hp hk
    simp only [h1, h2]
    exact hs.free hp k hk
  rcases connect_inv g target avoided n1 n2 r1 r2 o1 o2 s s' h with ⟨rfl, rfl⟩ | ⟨ht, rfl⟩
  · have := metadata_undo g n1 n2 hne o1 o2 (by omega) s hc (hf s rfl rfl n1) (hf s rfl rfl n2)
    simpa [disconnect, Option.bind_assoc] using this
  · obtain ⟨t, rfl⟩ := Option.isSome_iff_exists.mp ht
    obtain ⟨hconn, hsym⟩ := hs.conn rfl n1 n2 hn hn2
    have hu := metadata_undo g n1 n2 hne o1 o2 (by omega) { s with
        nopConn := connBits n1 n2 s.nopConn
        nopAdj := upd s.nopAdj (uptriIdx n1 n2 g.nnop) (s.nopAdj (uptriIdx n1 n2 g.nnop) + 1) } hc
      (hf _ rfl rfl n1) (hf _ rfl rfl n2)
    have hd : ∀ s0 : CState Op, disconnect g (some t) n1 n2 o1 o2 s0 =
        ((do
          let s ← disconnectNop g n1 s0
          let s ← disconnectNop g n2 s
          let s ← disconnectOp g o1 o2 s
          unregister o1 o2 s) >>= dropConn g n1 n2) := by
      intro s0
      simp only [disconnect, Option.bind_eq_bind, Option.bind_assoc]
      rfl
    rw [hd, hu]
    simp only [Option.bind_eq_bind, Option.bind_some]
    exact dropConn_connBits g n1 n2 s hn hconn hsym

/-- A rejected contraction leaves the bookkeeping unchanged. -/
theorem connect_rejected (g : Cfg Op) (n1 n2 : Nat) (s : CState Op) (hn : n1 < n2) (hn2 : n2 < g.nnop)
    (hs : Consistent g true s) : connectRejected n1 n2 s = s := by
  obtain ⟨hconn, hsym⟩ := hs.conn rfl n1 n2 hn hn2
  unfold connectRejected
  split
  · rename_i h
    have hf0 : s.nopConn n1 n2 = false := by simpa using h
    have hf1 : s.nopConn n2 n1 = false := by rw [hsym, hf0]
    have : upd2 (upd2 (upd2 (upd2 s.nopConn n1 n2 true) n2 n1 true) n1 n2 false) n2 n1 false = s.nopConn := by
      funext a b
      simp only [upd2_apply]
      by_cases e1 : a = n2 ∧ b = n1
      · rw [if_pos e1, e1.1, e1.2, hf1]
      · rw [if_neg e1, if_neg e1]
        by_cases e2 : a = n1 ∧ b = n2
        · rw [if_pos e2, e2.1, e2.2, hf0]
        · rw [if_neg e2, if_neg e2]
    simp only [this]
  · rfl

theorem connectNop_free (g : Cfg Op) (k : Nat) (s : CState Op) (h : ∀ k, FreeOk g s k) :
    ∀ m, FreeOk g (connectNop g k s) m := by
  intro m hp hm
  have h2 := h m hp hm
  obtain ⟨c, nc, na, nn, nf, cd, nco⟩ := s
  simp only at h2
  simp only [connectNop]
  by_cases h1 : g.hasNopPartitions = true ∧ nn k = 0 ∧ g.nopPartition k > 0
  · simp only [h1, true_and, if_true]
    by_cases hmk : m = k
    · subst hmk; simp [upd2_at, upd_at]
    · rw [upd2_ne _ _ _ _ _ _ (by omega), upd_ne _ _ _ _ hmk, h2]
  · simp only [if_neg h1]
    by_cases hmk : m = k
    · subst hmk
      rw [upd_at, h2]
      have : nn m ≠ 0 := fun h0 => h1 ⟨hp, h0, hm⟩
      simp [this]
    · rw [upd_ne _ _ _ _ hmk, h2]

/-- An accepted contraction keeps the bookkeeping consistent. -/
theorem connect_consistent (g : Cfg Op) (target avoided : Option (Nat → Nat → Bool))
    (n1 n2 r1 r2 : Nat) (o1 o2 : Op) (s s' : CState Op) (hn : n1 < n2) (hn2 : n2 < g.nnop)
    (hs : Consistent g target.isSome s) (h : connect g target avoided n1 n2 r1 r2 o1 o2 s = some s') :
    Consistent g target.isSome s' := by
  have hfree : ∀ t : CState Op, t.nopFree = s.nopFree → t.nopN = s.nopN → ∀ k,
      FreeOk g (register o1 o2 (connectOp g o1 o2 (connectNop g n2 (connectNop g n1 t)))) k := by
    intro t h1 h2 k
    have h3 : ∀ k, FreeOk g t k := by
      intro k hp hk
      simp only [h1, h2]; exact hs.free hp k hk
    have h4 := connectNop_free g n2 _ (connectNop_free g n1 t h3) k
    intro hp hk
    have h5 := connectOp_conn g o1 o2 (connectNop g n2 (connectNop g n1 t))
    simp only [register, h5.2.2.1, h5.2.2.2.1]
    exact h4 hp hk
  have hcn : ∀ t : CState Op,
      (register o1 o2 (connectOp g o1 o2 (connectNop g n2 (connectNop g n1 t)))).nopConn = t.nopConn ∧
      (register o1 o2 (connectOp g o1 o2 (connectNop g n2 (connectNop g n1 t)))).nopAdj = t.nopAdj := by
    intro t
    have h5 := connectOp_conn g o1 o2 (connectNop g n2 (connectNop g n1 t))
    simp only [register]
    rw [h5.1, h5.2.1, (connectNop_conn g n2 _).1, (connectNop_conn g n2 _).2, (connectNop_conn g n1 _).1,
      (connectNop_conn g n1 _).2]
    exact ⟨rfl, rfl⟩
  rcases connect_inv g target avoided n1 n2 r1 r2 o1 o2 s s' h with ⟨rfl, rfl⟩ | ⟨ht, rfl⟩
  · exact ⟨fun hb => by simp at hb, fun hp k hk => hfree s rfl rfl k hp hk⟩
  · rw [ht] at hs ⊢
    refine ⟨fun _ i j hij hj => ?_, fun hp k hk => hfree { s with
        nopConn := connBits n1 n2 s.nopConn
        nopAdj := upd s.nopAdj (uptriIdx n1 n2 g.nnop) (s.nopAdj (uptriIdx n1 n2 g.nnop) + 1) } rfl rfl k hp hk⟩
    obtain ⟨hconn, hsym⟩ := hs.conn rfl i j hij hj
    simp only [(hcn _).1, (hcn _).2]
    by_cases hsame : i = n1 ∧ j = n2
    · obtain ⟨rfl, rfl⟩ := hsame
      rw [upd_at]
      unfold connBits
      split
      · rw [upd2_ne _ _ _ _ _ _ (by omega), upd2_at, upd2_at]; simp
      · rename_i hx
        have : s.nopConn i j = true := by simpa using hx
        rw [hsym, this]; simp
    · have hidx : uptriIdx i j g.nnop ≠ uptriIdx n1 n2 g.nnop := fun e =>
        hsame (uptri_inj i j n1 n2 g.nnop hij hj hn hn2 e)
      rw [upd_ne _ _ _ _ hidx]
      unfold connBits
      split
      · rw [upd2_ne _ _ _ _ _ _ (by omega), upd2_ne _ _ _ _ _ _ (by omega), upd2_ne _ _ _ _ _ _ (by omega),
          upd2_ne _ _ _ _ _ _ (by omega)]
        exact ⟨hconn, hsym⟩
      · exact ⟨hconn, hsym⟩

/-- A search tree: nothing more to try, or try to contract (`n1`, `o1`) with (`n2`, `o2`), explore `inner` if accepted, undo, and go
on with `rest`. -/
inductive Search (Op : Type)
  | done : Search Op
  | attempt (n1 n2 r1 r2 : Nat) (o1 o2 : Op) (inner rest : Search Op) : Search Op

/-- Running a search as `recursive_nontensor_wick` does (wick.hpp:1478-1638); `none` = an assertion of the bookkeeping fails. -/
def Search.run [DecidableEq Op] (g : Cfg Op) (target avoided : Option (Nat → Nat → Bool)) :
    Search Op → CState Op → Option (CState Op)
  | .done, s => some s
  | .attempt n1 n2 r1 r2 o1 o2 inner rest, s =>
    match connect g target avoided n1 n2 r1 r2 o1 o2 s with
    | none => rest.run g target avoided (if target.isSome then connectRejected n1 n2 s else s)
    | some s' => do
      let s'' ← inner.run g target avoided s'
      let s ← disconnect g target n1 n2 o1 o2 s''
      rest.run g target avoided s

/-- The attempts respect the order of normal operators and operator partitions, and never contract a pair again while it is
contracted. -/
def Search.WF (g : Cfg Op) : Search Op → List (Op × Op) → Prop
  | .done, _ => True
  | .attempt n1 n2 _ _ o1 o2 inner rest, path =>
    n1 < n2 ∧ n2 < g.nnop ∧ g.opPartition o1 < g.opPartition o2 ∧ (o1, o2) ∉ path ∧
      inner.WF g (path ++ [(o1, o2)]) ∧ rest.WF g path

theorem connect_contractions (g : Cfg Op) (target avoided : Option (Nat → Nat → Bool))
    (n1 n2 r1 r2 : Nat) (o1 o2 : Op) (s s' : CState Op)
    (h : connect g target avoided n1 n2 r1 r2 o1 o2 s = some s') :
    s'.contractions = s.contractions ++ [(o1, o2)] := by
  have hk : ∀ k (s : CState Op), (connectNop g k s).contractions = s.contractions := by
    intro k s; simp only [connectNop]; split <;> rfl
  rcases connect_inv g target avoided n1 n2 r1 r2 o1 o2 s s' h with ⟨_, rfl⟩ | ⟨_, rfl⟩
  · simp only [register]
    rw [(connectOp_conn g o1 o2 _).2.2.2.2, hk, hk]
  · simp only [register]
    rw [(connectOp_conn g o1 o2 _).2.2.2.2, hk, hk]

/-- **C45**, for whole searches: no assertion of the bookkeeping fails and every search ends in the state it started from. -/
theorem search_restores [DecidableEq Op] (g : Cfg Op) (target avoided : Option (Nat → Nat → Bool)) (q : Search Op)
    (s : CState Op) (hs : Consistent g target.isSome s) (hq : q.WF g s.contractions) :
    q.run g target avoided s = some s := by
  induction q generalizing s with
  | done => rfl
  | attempt n1 n2 r1 r2 o1 o2 inner rest ih1 ih2 =>
    obtain ⟨h1, h2, h3, h4, h5, h6⟩ := hq
    simp only [Search.run]
    cases hcon : connect g target avoided n1 n2 r1 r2 o1 o2 s with
    | none =>
      simp only
      split
      · rename_i ht
        rw [ht] at hs
        rw [connect_rejected g n1 n2 s h1 h2 hs]
        exact ih2 s (by rw [ht]; exact hs) h6
      · exact ih2 s hs h6
    | some s' =>
      have hs' := connect_consistent g target avoided n1 n2 r1 r2 o1 o2 s s' h1 h2 hs hcon
      simp only
      rw [ih1 s' hs' (by rw [connect_contractions g target avoided n1 n2 r1 r2 o1 o2 s s' hcon]; exact h5)]
      simp only [Option.bind_eq_bind, Option.bind_some]
      rw [disconnect_connect g target avoided n1 n2 r1 r2 o1 o2 s s' h1 h2 h3 h4 hs hcon]
      simp only [Option.bind_some]
      exact ih2 s hs h6

/-- A concrete search over three normal operators with the required connection (0, 2): the second attempt is rejected. -/
def exCfg : Cfg Nat where
  nnop := 3
  nopPartition k := if k = 1 then 1 else 0
  hasNopPartitions := true
  hasOpPartitions := true
  npart := 6
  opPartition := id
def exTarget : Option (Nat → Nat → Bool) := some fun i j => !((i = 0 && j = 2) || (i = 2 && j = 0))
def exSearch : Search Nat :=
  .attempt 0 1 1 1 0 2 (.attempt 0 2 0 1 1 4 .done (.attempt 0 1 0 0 1 3 .done .done)) .done

example : exSearch.WF exCfg [] ∧ Consistent exCfg true (initState exCfg) :=
  ⟨by simp [exSearch, Search.WF, exCfg], init_consistent _ _⟩

example : (exSearch.run exCfg exTarget none (initState exCfg)).map (·.contractions) = some [] := by decide

example : (connect exCfg exTarget none 0 1 1 1 0 2 (initState exCfg)).isSome = true ∧
    (connect exCfg exTarget none 0 1 0 1 0 2 (initState exCfg)).isSome = false := by decide

end SeQuant.Wick
