import Verif.Eval.AliasProps
import Verif.Batch.Arrays

set_option linter.unusedSectionVars false

/-!
# Evaluations that share a cache although their leaves differ

The members of a batched evaluation use one scratch cache, each with leaves sliced in its own way.  What is cached is right for all of them if
registered nodes with the same key have the same value for all of them.
-/

namespace SeQuant.Batch

open SeQuant.Eval

variable {L K V ι : Type} [DecidableEq K]

/-- The value that the cache keeps for a node. -/
def canon (op : L → EOp) (phase : L → Int) (A : Alg L V) (t : ETree L) : V :=
  if phase t.label = 1 then plain op A t else A.scale (phase t.label) (plain op A t)

/-- Old objects are there, unchanged. -/
def Grow (m m' : Mem V) : Prop := m.next ≤ m'.next ∧ ∀ r < m.next, m'.get r = m.get r

theorem Grow.refl (m : Mem V) : Grow m m := ⟨le_refl _, fun _ _ => rfl⟩
theorem Grow.trans {a b c : Mem V} (h : Grow a b) (h' : Grow b c) : Grow a c :=
  ⟨h.1.trans h'.1, fun r hr => (h'.2 r (lt_of_lt_of_le hr h.1)).trans (h.2 r hr)⟩
theorem grow_alloc (m : Mem V) (v : V) : Grow m (m.alloc v).1 :=
  ⟨Nat.le_succ _, fun r hr => by simp [Mem.alloc, Nat.ne_of_lt hr]⟩
theorem alloc_get (m : Mem V) (v : V) : (m.alloc v).2 < (m.alloc v).1.next ∧ (m.alloc v).1.get (m.alloc v).2 = v := by
  simp [Mem.alloc]

def Holds (m : Mem V) (r : Nat) (v : V) : Prop := r < m.next ∧ m.get r = v

theorem Holds.grow {m m' : Mem V} {r : Nat} {v : V} (h : Holds m r v) (g : Grow m m') : Holds m' r v :=
  ⟨lt_of_lt_of_le h.1 g.1, (g.2 r h.1).trans h.2⟩

variable (key : ETree L → K) (op : L → EOp) (phase : L → Int) (A : ι → Alg L V) (tbl : ι → L → Option Nat) (S : ι → ETree L → Prop)
  (Reg Pers : K → Prop)

/-- The leaf evaluators' objects have the right values, only registered keys have entries, entries have the value that all members expect. -/
structure FamOK (mc : Mem V × Cache K Nat) : Prop where
  leaves : ∀ i a r, tbl i a = some r → Holds mc.1 r ((A i).leaf a)
  reg : ∀ k e, mc.2 k = some e → Reg k
  pers : ∀ k e, mc.2 k = some e → e.persistent = true → Pers k
  entries : ∀ k e r, mc.2 k = some e → e.data = some r → ∀ i t, S i t → key t = k → Holds mc.1 r (canon op phase (A i) t)

/-- What the members have to have in common. -/
structure Fam : Prop where
  children : ∀ i a l r, S i (.node a l r) → S i l ∧ S i r
  involution : ∀ i t, S i t → ∀ v, (A i).scale (phase t.label) ((A i).scale (phase t.label) v) = v
  coherent : ∀ i j t t', S i t → S j t' → key t = key t' → Reg (key t) → canon op phase (A i) t = canon op phase (A j) t'

variable {key op phase A tbl S Reg Pers}

theorem FamOK.grow {m m' : Mem V} {c : Cache K Nat} (h : FamOK key op phase A tbl S Reg Pers (m, c)) (g : Grow m m') :
    FamOK key op phase A tbl S Reg Pers (m', c) :=
  ⟨fun i a r hr => (h.leaves i a r hr).grow g, h.reg, h.pers, fun k e r h1 h2 i t h3 h4 => (h.entries k e r h1 h2 i t h3 h4).grow g⟩

theorem FamOK.access {m : Mem V} {c : Cache K Nat} (h : FamOK key op phase A tbl S Reg Pers (m, c)) (k : K) :
    FamOK key op phase A tbl S Reg Pers (m, (c.access k).1) ∧
    ∀ r, (c.access k).2 = some r → ∀ i t, S i t → key t = k → Holds m r (canon op phase (A i) t) := by
  unfold Cache.access
  cases hc : c k with
  | none => exact ⟨h, by simp⟩
  | some e =>
    obtain ⟨f1, f2, f3, f4, -⟩ := access_fields e
    refine ⟨⟨h.leaves, ?_, ?_, ?_⟩, ?_⟩
    · intro k' e' h1
      simp only [Cache.set] at h1
      by_cases hk : k' = k
      · rw [hk]; exact h.reg k e hc
      · simp only [hk, if_false] at h1; exact h.reg k' e' h1
    · intro k' e' h1 h2
      simp only [Cache.set] at h1
      by_cases hk : k' = k
      · simp only [hk, if_true, Option.some.injEq] at h1
        subst h1
        rw [hk]; exact h.pers k e hc (by simpa [f1, f2] using h2)
      · simp only [hk, if_false] at h1; exact h.pers k' e' h1 h2
    · intro k' e' r h1 h2 i t h3 h4
      simp only [Cache.set] at h1
      by_cases hk : k' = k
      · simp only [hk, if_true, Option.some.injEq] at h1
        subst h1
        rcases f3 with f3 | f3
        · rw [f3] at h2; exact h.entries k e r hc h2 i t h3 (h4.trans hk)
        · rw [f3] at h2; simp at h2
      · simp only [hk, if_false] at h1; exact h.entries k' e' r h1 h2 i t h3 h4
    · intro r hr i t h3 h4
      simp only [f4] at hr
      exact h.entries k e r hc hr i t h3 h4

theorem FamOK.store {m : Mem V} {c : Cache K Nat} (h : FamOK key op phase A tbl S Reg Pers (m, c)) (k : K) (d : Nat)
    (hd : Reg k → ∀ i t, S i t → key t = k → Holds m d (canon op phase (A i) t)) : FamOK key op phase A tbl S Reg Pers (m, (c.store k d).1) := by
  unfold Cache.store
  cases hc : c k with
  | none => exact h
  | some e =>
    obtain ⟨f1, f2, f3, -, -⟩ := access_fields (e.store d)
    refine ⟨h.leaves, ?_, ?_, ?_⟩
    · intro k' e' h1
      simp only [Cache.set] at h1
      by_cases hk : k' = k
      · rw [hk]; exact h.reg k e hc
      · simp only [hk, if_false] at h1; exact h.reg k' e' h1
    · intro k' e' h1 h2
      simp only [Cache.set] at h1
      by_cases hk : k' = k
      · simp only [hk, if_true, Option.some.injEq] at h1
        subst h1
        rw [hk]; exact h.pers k e hc (by rw [f1] at h2; simpa [Entry.store] using h2)
      · simp only [hk, if_false] at h1; exact h.pers k' e' h1 h2
    · intro k' e' r h1 h2 i t h3 h4
      simp only [Cache.set] at h1
      by_cases hk : k' = k
      · simp only [hk, if_true, Option.some.injEq] at h1
        subst h1
        rcases f3 with f3 | f3
        · rw [f3] at h2
          obtain rfl : d = r := by simpa [Entry.store] using h2
          exact hd (h.reg k e hc) i t h3 (h4.trans hk)
        · rw [f3] at h2; simp at h2
      · simp only [hk, if_false] at h1; exact h.entries k' e' r h1 h2 i t h3 h4

/-- After a reset only persistent entries have data: the cache is right for other leaves, if the value of persistent entries does not depend on
them. -/
theorem FamOK.reset {A' : ι → Alg L V} {m : Mem V} {c : Cache K Nat} (h : FamOK key op phase A tbl S Reg Pers (m, c))
    (hl : ∀ i a r, tbl i a = some r → (A' i).leaf a = (A i).leaf a)
    (hp : ∀ i t, S i t → Pers (key t) → canon op phase (A' i) t = canon op phase (A i) t) :
    FamOK key op phase A' tbl S Reg Pers (m, c.reset) := by
  refine ⟨fun i a r hr => by rw [hl i a r hr]; exact h.leaves i a r hr, ?_, ?_, ?_⟩
  · intro k e he
    simp only [Cache.reset, Option.map_eq_some_iff] at he
    obtain ⟨e', h1, -⟩ := he
    exact h.reg k e' h1
  · intro k e he h2
    simp only [Cache.reset, Option.map_eq_some_iff] at he
    obtain ⟨e', h1, rfl⟩ := he
    refine h.pers k e' h1 ?_
    unfold Entry.reset at h2
    by_cases hp : e'.persistent
    · exact hp
    · simp [hp] at h2
  · intro k e r he hr i t h3 h4
    simp only [Cache.reset, Option.map_eq_some_iff] at he
    obtain ⟨e', h1, rfl⟩ := he
    unfold Entry.reset at hr
    by_cases hq : e'.persistent
    · rw [hp i t h3 (by rw [h4]; exact h.pers k e' h1 hq)]
      exact h.entries k e' r h1 (by simpa [hq] using hr) i t h3 h4
    · simp [hq] at hr

theorem applyPhase_heap (i : ι) (t : ETree L) (r : Nat) (m : Mem V) (v : V) (h : Holds m r v) :
    Grow m (applyPhase (heapEnv key op phase (A i) (tbl i)) t r m).1 ∧
    Holds (applyPhase (heapEnv key op phase (A i) (tbl i)) t r m).1 (applyPhase (heapEnv key op phase (A i) (tbl i)) t r m).2
      (if phase t.label = 1 then v else (A i).scale (phase t.label) v) := by
  unfold applyPhase
  by_cases hp : phase t.label = 1
  · simp only [heapEnv, hp, if_true]; exact ⟨Grow.refl _, h⟩
  · simp only [heapEnv, hp, if_false]
    refine ⟨grow_alloc _ _, ?_⟩
    rw [← h.2]; exact alloc_get _ _

theorem canon_inv (H : Fam key op phase A S Reg) (i : ι) (t : ETree L) (ht : S i t) :
    (if phase t.label = 1 then canon op phase (A i) t else (A i).scale (phase t.label) (canon op phase (A i) t)) = plain op (A i) t := by
  unfold canon
  by_cases hp : phase t.label = 1
  · simp [hp]
  · simp only [hp, if_false]; exact H.involution i t ht _

theorem finish_family (H : Fam key op phase A S Reg) (i : ι) (t : ETree L) (ht : S i t) (sa : Bool) (r : Nat) (mc : Mem V × Cache K Nat)
    (hc : FamOK key op phase A tbl S Reg Pers mc) (hr : Holds mc.1 r (plain op (A i) t)) :
    ∃ mc' r', finish (heapEnv key op phase (A i) (tbl i)) t sa r mc = some (mc', r') ∧ Grow mc.1 mc'.1 ∧ FamOK key op phase A tbl S Reg Pers mc' ∧
      Holds mc'.1 r' (plain op (A i) t) := by
  unfold finish
  cases sa with
  | false => exact ⟨mc, r, rfl, Grow.refl _, hc, hr⟩
  | true =>
    simp only [Bool.not_true, Bool.false_eq_true, if_false, store_some]
    obtain ⟨e1, v1⟩ := applyPhase_heap (key := key) (tbl := tbl) i t r mc.1 _ hr
    obtain ⟨e2, v2⟩ := applyPhase_heap (key := key) (tbl := tbl) i t (applyPhase (heapEnv key op phase (A i) (tbl i)) t r mc.1).2 _ _ v1
    refine ⟨_, _, rfl, e1.trans e2, ?_, ?_⟩
    · refine FamOK.grow (FamOK.store (hc.grow e1) _ _ ?_) e2
      intro hreg j t' h3 h4
      have h4' : key t' = key t := h4
      rw [← H.coherent i j t t' ht h3 h4'.symm hreg]
      exact v1
    · have := canon_inv H i t ht
      unfold canon at this
      rw [← this]; exact v2

/-- Evaluating a member computes its value, and keeps the shared cache right for all members. -/
theorem evalRec_family (H : Fam key op phase A S Reg) (i : ι) (t : ETree L) : ∀ (_ : S i t) (checked : Bool) (mc : Mem V × Cache K Nat),
    FamOK key op phase A tbl S Reg Pers mc →
    ∃ mc' r, evalRec (heapEnv key op phase (A i) (tbl i)) checked t mc = some (mc', r) ∧ Grow mc.1 mc'.1 ∧ FamOK key op phase A tbl S Reg Pers mc' ∧
      Holds mc'.1 r (plain op (A i) t) := by
  have hcust : ∀ (t : ETree L) (mc : Mem V × Cache K Nat), tryCustom (heapEnv key op phase (A i) (tbl i)) t mc = (mc, none) := by
    intro t mc; unfold tryCustom; simp [heapEnv]
  have start : ∀ (t : ETree L) (_ : S i t) (checked : Bool) (mc : Mem V × Cache K Nat) (_ : FamOK key op phase A tbl S Reg Pers mc),
      let acc : Cache K Nat × Option Nat := if checked then mc.2.access (key t) else (mc.2, none)
      FamOK key op phase A tbl S Reg Pers (mc.1, acc.1) ∧ (∀ r, acc.2 = some r → Holds mc.1 r (canon op phase (A i) t)) := by
    intro t ht checked mc hc acc
    cases checked with
    | false => exact ⟨hc, by simp [acc]⟩
    | true => exact ⟨(hc.access _).1, fun r hr => (hc.access (key t)).2 r hr i t ht rfl⟩
  have hit : ∀ (t : ETree L) (_ : S i t) (m : Mem V) (c : Cache K Nat) (ptr : Nat), FamOK key op phase A tbl S Reg Pers (m, c) →
      Holds m ptr (canon op phase (A i) t) →
      ∃ mc' r, some (((applyPhase (heapEnv key op phase (A i) (tbl i)) t ptr m).1, c), (applyPhase (heapEnv key op phase (A i) (tbl i)) t ptr m).2) =
          some (mc', r) ∧ Grow m mc'.1 ∧ FamOK key op phase A tbl S Reg Pers mc' ∧ Holds mc'.1 r (plain op (A i) t) := by
    intro t ht m c ptr hc hv
    obtain ⟨e, v⟩ := applyPhase_heap (key := key) (tbl := tbl) i t ptr m _ hv
    rw [canon_inv H i t ht] at v
    exact ⟨_, _, rfl, e, hc.grow e, v⟩
  induction t with
  | leaf a =>
    intro ht checked mc hc
    obtain ⟨s1, s2⟩ := start (.leaf a) ht checked mc hc
    rw [evalRec]
    rw [show (heapEnv key op phase (A i) (tbl i)).key = key from rfl]
    generalize (if checked = true then mc.2.access (key (.leaf a)) else (mc.2, none)) = acc at s1 s2 ⊢
    simp only
    cases h : acc.2 with
    | some ptr => exact hit _ ht _ _ _ s1 (s2 _ h)
    | none =>
      simp only [hcust]
      have hleaf : Grow mc.1 ((heapEnv key op phase (A i) (tbl i)).leaf a mc.1).1 ∧
          Holds ((heapEnv key op phase (A i) (tbl i)).leaf a mc.1).1 ((heapEnv key op phase (A i) (tbl i)).leaf a mc.1).2 ((A i).leaf a) := by
        cases ht : tbl i a with
        | some r =>
          have : (heapEnv key op phase (A i) (tbl i)).leaf a mc.1 = (mc.1, r) := by simp [heapEnv, ht]
          rw [this]; exact ⟨Grow.refl _, s1.leaves i a r ht⟩
        | none =>
          have : (heapEnv key op phase (A i) (tbl i)).leaf a mc.1 = mc.1.alloc ((A i).leaf a) := by simp [heapEnv, ht]
          rw [this]; exact ⟨grow_alloc _ _, alloc_get _ _⟩
      obtain ⟨mc', r', f1, f2, f3, f4⟩ := finish_family H i (.leaf a) ht _ ((heapEnv key op phase (A i) (tbl i)).leaf a mc.1).2
        (((heapEnv key op phase (A i) (tbl i)).leaf a mc.1).1, acc.1) (FamOK.grow s1 hleaf.1) hleaf.2
      exact ⟨mc', r', f1, hleaf.1.trans f2, f3, f4⟩
  | node a l r ihl ihr =>
    intro ht checked mc hc
    obtain ⟨s1, s2⟩ := start (.node a l r) ht checked mc hc
    obtain ⟨htl, htr⟩ := H.children i a l r ht
    rw [evalRec]
    rw [show (heapEnv key op phase (A i) (tbl i)).key = key from rfl]
    generalize (if checked = true then mc.2.access (key (.node a l r)) else (mc.2, none)) = acc at s1 s2 ⊢
    simp only
    cases h : acc.2 with
    | some ptr => exact hit _ ht _ _ _ s1 (s2 _ h)
    | none =>
      simp only [hcust]
      obtain ⟨mc1, x, l1, l2, l3, l4⟩ := ihl htl true (mc.1, acc.1) s1
      rw [l1]
      simp only
      by_cases hadj : (heapEnv key op phase (A i) (tbl i)).op a = .adjoint
      · simp only [hadj, if_true]
        have hz : (heapEnv key op phase (A i) (tbl i)).adj (.node a l r) x mc1.1 = mc1.1.alloc ((A i).adj (.node a l r) (mc1.1.get x)) := rfl
        rw [hz]
        obtain ⟨mc', r', f1, f2, f3, f4⟩ := finish_family H i (.node a l r) ht (if checked = true then acc.1.exists_ (key (.node a l r)) else false)
          (mc1.1.alloc ((A i).adj (.node a l r) (mc1.1.get x))).2 ((mc1.1.alloc ((A i).adj (.node a l r) (mc1.1.get x))).1, mc1.2)
          (FamOK.grow l3 (grow_alloc _ _))
          (by
            have : plain op (A i) (.node a l r) = (A i).adj (.node a l r) (mc1.1.get x) := by
              have hadj' : op a = .adjoint := hadj
              rw [plain, hadj', l4.2]
            rw [this]; exact alloc_get _ _)
        exact ⟨mc', r', f1, (l2.trans (grow_alloc _ _)).trans f2, f3, f4⟩
      · simp only [hadj, if_false]
        obtain ⟨mc2, y, r1, r2, r3, r4⟩ := ihr htr true mc1 l3
        rw [r1]
        simp only
        have lx := l4.grow r2
        have hcomb : combine (heapEnv key op phase (A i) (tbl i)) (.node a l r) x y mc2.1 = mc2.1.alloc (plain op (A i) (.node a l r)) := by
          unfold combine
          rw [plain, ← lx.2, ← r4.2]
          cases ho : op a with
          | adjoint => exact absurd ho hadj
          | sum => simp only [heapEnv, ETree.label, ho, if_true]
          | prod => simp only [heapEnv, ETree.label, ho, reduceCtorEq, if_false]
        rw [hcomb]
        obtain ⟨mc', r', f1, f2, f3, f4⟩ := finish_family H i (.node a l r) ht (if checked = true then acc.1.exists_ (key (.node a l r)) else false)
          (mc2.1.alloc (plain op (A i) (.node a l r))).2 ((mc2.1.alloc (plain op (A i) (.node a l r))).1, mc2.2) (FamOK.grow r3 (grow_alloc _ _))
          (alloc_get _ _)
        exact ⟨mc', r', f1, ((l2.trans r2).trans (grow_alloc _ _)).trans f2, f3, f4⟩

end SeQuant.Batch
