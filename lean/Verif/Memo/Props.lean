import Verif.Memo.Model
import Mathlib.Data.List.Basic
import Mathlib.Data.List.Pairwise
import Mathlib.Data.List.Nodup
import Mathlib.Tactic.Push

/-!
# C86: memoization shared by threads
-/

set_option linter.unusedSectionVars false

namespace SeQuant.Memo

variable {K V : Type} [LinearOrder K] {S : Sys K V} {s : St K V}

/-! ### The sorted vector -/

def Sorted (items : List (K × Option V)) : Prop := (items.map Prod.fst).Pairwise (· < ·)

theorem insertIdx_lowerBound : ∀ (items : List (K × Option V)) (k : K) (x : K × Option V), items.insertIdx (lowerBound items k) x =
    (items.takeWhile fun e => decide (e.1 < k)) ++ x :: items.dropWhile fun e => decide (e.1 < k)
  | [], k, x => rfl
  | e :: items, k, x => by
      unfold lowerBound
      by_cases h : e.1 < k
      · simp only [List.takeWhile_cons, List.dropWhile_cons, h, decide_true, if_true, List.length_cons, List.insertIdx_succ_cons, List.cons_append]
        rw [← insertIdx_lowerBound items k x]; rfl
      · simp [List.takeWhile_cons, List.dropWhile_cons, h]

theorem mem_insert (items : List (K × Option V)) (k : K) (x y : K × Option V) : y ∈ items.insertIdx (lowerBound items k) x ↔ y = x ∨ y ∈ items := by
  rw [insertIdx_lowerBound]
  conv_rhs => rw [← List.takeWhile_append_dropWhile (p := fun e : K × Option V => decide (e.1 < k)) (l := items)]
  simp only [List.mem_append, List.mem_cons]
  tauto

theorem position_none {items : List (K × Option V)} {k : K} (hs : Sorted items) (h : position items k = none) : ∀ e ∈ items, e.1 ≠ k := by
  induction items with
  | nil => intro e he; simp at he
  | cons a items ih =>
    have hs' : Sorted items := (List.pairwise_cons.1 hs).2
    have ha : ∀ e ∈ items, a.1 < e.1 := fun e he => (List.pairwise_cons.1 hs).1 e.1 (List.mem_map.2 ⟨e, he, rfl⟩)
    intro e he
    by_cases hlt : a.1 < k
    · have hl : lowerBound (a :: items) k = lowerBound items k + 1 := by unfold lowerBound; simp [hlt]
      have : position items k = none := by
        unfold position at h ⊢
        rw [hl, List.getElem?_cons_succ] at h
        cases hc : items[lowerBound items k]? with
        | none => rfl
        | some e =>
          rw [hc] at h
          simp only at h ⊢
          split at h
          · simp at h
          · rename_i hne; rw [if_neg hne]
      rcases List.mem_cons.1 he with rfl | he
      · exact hlt.ne
      · exact ih hs' this e he
    · have hl : lowerBound (a :: items) k = 0 := by unfold lowerBound; simp [hlt]
      unfold position at h
      rw [hl] at h
      simp only [List.getElem?_cons_zero] at h
      have hne : a.1 ≠ k := by
        intro e
        rw [if_pos e] at h
        simp at h
      have hgt : k < a.1 := lt_of_le_of_ne (not_lt.1 hlt) hne.symm
      rcases List.mem_cons.1 he with rfl | he
      · exact hne
      · exact (hgt.trans (ha e he)).ne'

theorem position_some {items : List (K × Option V)} {k : K} {i : Nat} (h : position items k = some i) : ∃ o, items[i]? = some (k, o) := by
  unfold position at h
  cases hc : items[lowerBound items k]? with
  | none => rw [hc] at h; simp at h
  | some e =>
    rw [hc] at h
    simp only at h
    split at h
    · rename_i he
      rw [Option.some_inj] at h
      subst h
      exact ⟨e.2, by rw [hc, ← he]⟩
    · simp at h

theorem sorted_unique {items : List (K × Option V)} (hs : Sorted items) {k : K} {o o' : Option V} (h : (k, o) ∈ items) (h' : (k, o') ∈ items) : o = o' := by
  induction items with
  | nil => simp at h
  | cons a items ih =>
    have hs' : Sorted items := (List.pairwise_cons.1 hs).2
    have ha : ∀ e ∈ items, a.1 < e.1 := fun e he => (List.pairwise_cons.1 hs).1 e.1 (List.mem_map.2 ⟨e, he, rfl⟩)
    rcases List.mem_cons.1 h with rfl | h <;> rcases List.mem_cons.1 h' with h' | h'
    · exact (Prod.mk.inj h').2.symm
    · exact absurd (ha _ h') (lt_irrefl _)
    · rw [← h'] at ha; exact absurd (ha _ h) (lt_irrefl _)
    · exact ih hs' h h'

theorem sorted_insert {items : List (K × Option V)} (hs : Sorted items) {k : K} (hk : ∀ e ∈ items, e.1 ≠ k) (v : Option V) :
    Sorted (items.insertIdx (lowerBound items k) (k, v)) := by
  induction items with
  | nil => unfold Sorted lowerBound; simp
  | cons a items ih =>
    have hs' : Sorted items := (List.pairwise_cons.1 hs).2
    have ha : ∀ e ∈ items, a.1 < e.1 := fun e he => (List.pairwise_cons.1 hs).1 e.1 (List.mem_map.2 ⟨e, he, rfl⟩)
    by_cases hlt : a.1 < k
    · have hl : lowerBound (a :: items) k = lowerBound items k + 1 := by unfold lowerBound; simp [hlt]
      rw [hl, List.insertIdx_succ_cons]
      refine List.pairwise_cons.2 ⟨?_, ih hs' fun e he => hk e (by simp [he])⟩
      intro b hb
      obtain ⟨e, he, rfl⟩ := List.mem_map.1 hb
      rcases (mem_insert items k _ e).1 he with rfl | he
      · exact hlt
      · exact ha e he
    · have hl : lowerBound (a :: items) k = 0 := by unfold lowerBound; simp [hlt]
      rw [hl, List.insertIdx_zero]
      have hgt : k < a.1 := lt_of_le_of_ne (not_lt.1 hlt) (hk a (by simp)).symm
      refine List.pairwise_cons.2 ⟨?_, hs⟩
      intro b hb
      obtain ⟨e, he, rfl⟩ := List.mem_map.1 hb
      rcases List.mem_cons.1 he with rfl | he
      · exact hgt
      · exact hgt.trans (ha e he)

theorem keys_set {items : List (K × Option V)} {i : Nat} {k : K} {o o' : Option V} (h : items[i]? = some (k, o)) :
    (items.set i (k, o')).map Prod.fst = items.map Prod.fst := by
  rw [List.map_set]
  obtain ⟨hi, e⟩ := List.getElem?_eq_some_iff.1 h
  apply List.ext_getElem?
  intro j
  rw [List.getElem?_set]
  split
  · rename_i hj
    subst hj
    simp [hi, e]
  · rfl

theorem mem_set {items : List (K × Option V)} (hs : Sorted items) {i : Nat} {k : K} {o o' : Option V} (h : items[i]? = some (k, o)) (y : K × Option V) :
    y ∈ items.set i (k, o') ↔ y = (k, o') ∨ (y ∈ items ∧ y.1 ≠ k) := by
  obtain ⟨hi, e⟩ := List.getElem?_eq_some_iff.1 h
  have hmem : (k, o) ∈ items := e ▸ List.getElem_mem hi
  constructor
  · intro hy
    obtain ⟨j, hj, rfl⟩ := List.mem_iff_getElem.1 hy
    rw [List.getElem_set]
    by_cases hij : i = j
    · subst hij; rw [if_pos rfl]; exact .inl rfl
    · rw [if_neg hij]
      rw [List.length_set] at hj
      refine .inr ⟨List.getElem_mem hj, fun hk => hij ?_⟩
      have hp : (items.map Prod.fst).Nodup := hs.imp fun h => h.ne
      exact (List.Nodup.getElem_inj_iff hp (hi := by simpa using hi) (hj := by simpa using hj)).1 (by simp [e, hk])
  · rintro (rfl | ⟨hy, hne⟩)
    · exact List.mem_iff_getElem.2 ⟨i, by simpa using hi, by simp⟩
    · obtain ⟨j, hj, rfl⟩ := List.mem_iff_getElem.1 hy
      refine List.mem_iff_getElem.2 ⟨j, by simpa using hj, ?_⟩
      rw [List.getElem_set, if_neg]
      rintro rfl
      exact hne (by rw [e])

/-! ### The invariant -/

/-- The thread is the one that computes the value of its key. -/
def Owner : Pc V → Prop
  | .compute => True
  | .store _ => True
  | .thrown => True
  | _ => False

/-- The thread has a pointer. -/
def Points : Pc V → Ptr → Prop
  | .wait it _, p => it = p
  | .hold ref, p => ref = p
  | _, _ => False

structure Inv (S : Sys K V) (s : St K V) : Prop where
  sorted : Sorted s.items
  count : s.epoch = s.items.length
  filled : ∀ k v, (k, some v) ∈ s.items → S.fn k = some v ∧ s.runs k = 1
  empty : ∀ k, (k, none) ∈ s.items → ∃ t, S.key t = k ∧ Owner (s.pc t)
  absent : ∀ k, (∀ e ∈ s.items, e.1 ≠ k) → s.runs k = 0
  owner : ∀ t, Owner (s.pc t) → (S.key t, none) ∈ s.items
  unique : ∀ t u, Owner (s.pc t) → Owner (s.pc u) → S.key t = S.key u → t = u
  before : ∀ t, s.pc t = .compute → s.runs (S.key t) = 0
  result : ∀ t v, s.pc t = .store v → S.fn (S.key t) = some v ∧ s.runs (S.key t) = 1
  thrown : ∀ t, s.pc t = .thrown → S.fn (S.key t) = none ∧ s.runs (S.key t) = 1
  ptr : ∀ t it, Points (s.pc t) it → 1 ≤ it.epoch ∧ it.epoch ≤ s.epoch ∧ (it.epoch = s.epoch → ∃ o, s.deref it = some (S.key t, o))
  held : ∀ t ref, s.pc t = .hold ref → ref.epoch = s.epoch → ∃ v, s.deref ref = some (S.key t, some v)
  asleep : ∀ t it, s.pc t = .wait it true → it.epoch = s.epoch → s.deref it = some (S.key t, none)

theorem Inv.init : Inv S (St.init : St K V) where
  sorted := by simp [Sorted, St.init]
  count := rfl
  filled := by simp [St.init]
  empty := by simp [St.init]
  absent := fun _ _ => rfl
  owner := fun _ h => h.elim
  unique := fun _ _ h => h.elim
  before := fun _ h => by simp [St.init] at h
  result := fun _ _ h => by simp [St.init] at h
  thrown := fun _ h => by simp [St.init] at h
  ptr := fun _ _ h => h.elim
  held := fun _ _ h => by simp [St.init] at h
  asleep := fun _ _ h => by simp [St.init] at h

theorem setPc_same (f : Nat → Pc V) (t : Nat) (p : Pc V) : setPc f t p t = p := if_pos rfl

theorem setPc_other (f : Nat → Pc V) {t u : Nat} (p : Pc V) (h : u ≠ t) : setPc f t p u = f u := if_neg h

/-- A step that changes only where a thread is. -/
theorem Inv.move (h : Inv S s) (t : Nat) (p : Pc V) (h0 : ¬ Owner (s.pc t)) (h1 : ¬ Owner p)
    (h2 : ∀ it, Points p it → 1 ≤ it.epoch ∧ it.epoch ≤ s.epoch ∧ (it.epoch = s.epoch → ∃ o, s.deref it = some (S.key t, o)))
    (h3 : ∀ ref, p = .hold ref → ref.epoch = s.epoch → ∃ v, s.deref ref = some (S.key t, some v))
    (h4 : ∀ it, p = .wait it true → it.epoch = s.epoch → s.deref it = some (S.key t, none)) :
    Inv S { s with pc := setPc s.pc t p } := by
  have hne : ∀ u, Owner (setPc s.pc t p u) → u ≠ t ∧ Owner (s.pc u) := by
    intro u hu
    by_cases e : u = t
    · subst e; rw [setPc_same] at hu; exact absurd hu h1
    · rw [setPc_other _ _ e] at hu; exact ⟨e, hu⟩
  have hcase : ∀ u, setPc s.pc t p u = if u = t then p else s.pc u := fun u => rfl
  refine ⟨h.sorted, h.count, h.filled, ?_, h.absent, fun u hu => h.owner u (hne u hu).2, fun u w hu hw => h.unique u w (hne u hu).2 (hne w hw).2, ?_, ?_, ?_, ?_, ?_, ?_⟩
  · intro k hk
    obtain ⟨u, e, hu⟩ := h.empty k hk
    have : u ≠ t := fun e => h0 (e ▸ hu)
    exact ⟨u, e, by show Owner (setPc _ _ _ _); rwa [setPc_other _ _ this]⟩
  · intro u hu
    have := hne u (by show Owner (setPc _ _ _ _); change setPc _ _ _ _ = _ at hu; rw [hu]; trivial)
    exact h.before u (by change setPc _ _ _ _ = _ at hu; rwa [setPc_other _ _ this.1] at hu)
  · intro u v hu
    have := hne u (by show Owner (setPc _ _ _ _); change setPc _ _ _ _ = _ at hu; rw [hu]; trivial)
    exact h.result u v (by change setPc _ _ _ _ = _ at hu; rwa [setPc_other _ _ this.1] at hu)
  · intro u hu
    have := hne u (by show Owner (setPc _ _ _ _); change setPc _ _ _ _ = _ at hu; rw [hu]; trivial)
    exact h.thrown u (by change setPc _ _ _ _ = _ at hu; rwa [setPc_other _ _ this.1] at hu)
  · intro u it hu
    change Points (setPc _ _ _ _) _ at hu
    by_cases e : u = t
    · subst e; rw [setPc_same] at hu; exact h2 it hu
    · rw [setPc_other _ _ e] at hu; exact h.ptr u it hu
  · intro u ref hu
    change setPc _ _ _ _ = _ at hu
    by_cases e : u = t
    · subst e; rw [setPc_same] at hu; exact h3 ref hu
    · rw [setPc_other _ _ e] at hu; exact h.held u ref hu
  · intro u it hu
    change setPc _ _ _ _ = _ at hu
    by_cases e : u = t
    · subst e; rw [setPc_same] at hu; exact h4 it hu
    · rw [setPc_other _ _ e] at hu; exact h.asleep u it hu

/-- Looking through a pointer of the thread. -/
theorem Inv.look (h : Inv S s) (t : Nat) (it : Ptr) (h0 : ¬ Owner (s.pc t))
    (hp : 1 ≤ it.epoch ∧ it.epoch ≤ s.epoch ∧ (it.epoch = s.epoch → ∃ o, s.deref it = some (S.key t, o))) :
    Inv S { s with pc := setPc s.pc t (Memo.look s it) } := by
  unfold Memo.look
  cases hd : s.deref it with
  | none =>
    exact h.move t _ h0 (by simp [Owner]) (fun _ hh => hh.elim) (fun _ hh => by simp at hh) (fun _ hh => by simp at hh)
  | some e =>
    obtain ⟨k, o⟩ := e
    cases o with
    | none =>
      refine h.move t _ h0 (by simp [Owner]) (fun it' hh => ?_) (fun _ hh => by simp at hh) (fun it' hh he => ?_)
      · cases hh; exact hp
      · simp only [Pc.wait.injEq, and_true] at hh
        subst hh
        obtain ⟨o, ho⟩ := hp.2.2 he
        rw [hd] at ho ⊢
        simp only [Option.some_inj, Prod.mk.injEq] at ho
        rw [ho.1]
    | some v =>
      refine h.move t _ h0 (by simp [Owner]) (fun it' hh => ?_) (fun ref hh he => ?_) (fun _ hh => by simp at hh)
      · cases hh; exact hp
      · simp only [Pc.hold.injEq] at hh
        subst hh
        obtain ⟨o, ho⟩ := hp.2.2 he
        rw [hd] at ho ⊢
        simp only [Option.some_inj, Prod.mk.injEq] at ho
        exact ⟨v, by rw [ho.1]⟩

/-- The first call for a key. -/
theorem Inv.enter (h : Inv S s) (t : Nat) (h0 : s.pc t = .start) (hn : position s.items (S.key t) = none) :
    Inv S { s.insert S (S.key t) none with pc := setPc s.pc t .compute } := by
  have habs := position_none h.sorted hn
  have hi : (s.insert S (S.key t) none).items = s.items.insertIdx (lowerBound s.items (S.key t)) (S.key t, none) := by
    unfold St.insert; split <;> rfl
  have he : (s.insert S (S.key t) none).epoch = s.epoch + 1 := by unfold St.insert; split <;> rfl
  have hr : (s.insert S (S.key t) none).runs = s.runs := by unfold St.insert; split <;> rfl
  have hmem : ∀ y, y ∈ (s.insert S (S.key t) none).items ↔ y = (S.key t, none) ∨ y ∈ s.items := by
    intro y; rw [hi]; exact mem_insert _ _ _ _
  have hst : ∀ u it, Points (s.pc u) it → it.epoch ≠ s.epoch + 1 := by
    intro u it hu e
    have := (h.ptr u it hu).2.1
    omega
  have hlb : lowerBound s.items (S.key t) ≤ s.items.length := by
    unfold lowerBound
    exact (List.takeWhile_sublist _).length_le
  have pcs : ∀ u, u ≠ t → setPc s.pc t .compute u = s.pc u := fun u hu => setPc_other _ _ hu
  refine ⟨?_, ?_, ?_, ?_, ?_, ?_, ?_, ?_, ?_, ?_, ?_, ?_, ?_⟩
  · show Sorted (s.insert S (S.key t) none).items
    rw [hi]; exact sorted_insert h.sorted habs _
  · show (s.insert S (S.key t) none).epoch = (s.insert S (S.key t) none).items.length
    rw [hi, he, List.length_insertIdx_of_le_length hlb, h.count]
  · intro k v hk
    rcases (hmem _).1 hk with e | hk
    · simp at e
    · show _ ∧ (s.insert S (S.key t) none).runs k = 1
      rw [hr]; exact h.filled k v hk
  · intro k hk
    rcases (hmem _).1 hk with e | hk
    · exact ⟨t, (Prod.mk.inj e).1.symm, by show Owner (setPc _ _ _ _); rw [setPc_same]; trivial⟩
    · obtain ⟨u, e, hu⟩ := h.empty k hk
      have : u ≠ t := by rintro rfl; rw [h0] at hu; exact hu
      exact ⟨u, e, by show Owner (setPc _ _ _ _); rwa [pcs u this]⟩
  · intro k hk
    show (s.insert S (S.key t) none).runs k = 0
    rw [hr]
    exact h.absent k fun e he => hk e ((hmem e).2 (.inr he))
  · intro u hu
    change Owner (setPc _ _ _ _) at hu
    refine (hmem _).2 ?_
    by_cases e : u = t
    · subst e; exact .inl rfl
    · rw [pcs u e] at hu; exact .inr (h.owner u hu)
  · intro u w hu hw hk
    change Owner (setPc _ _ _ _) at hu hw
    by_cases e1 : u = t <;> by_cases e2 : w = t
    · rw [e1, e2]
    · rw [pcs w e2] at hw
      subst e1
      exact absurd hk.symm (habs _ (h.owner w hw))
    · rw [pcs u e1] at hu
      subst e2
      exact absurd hk (habs _ (h.owner u hu))
    · rw [pcs u e1] at hu; rw [pcs w e2] at hw
      exact h.unique u w hu hw hk
  · intro u hu
    change setPc _ _ _ _ = _ at hu
    show (s.insert S (S.key t) none).runs _ = 0
    rw [hr]
    by_cases e : u = t
    · subst e; exact h.absent _ habs
    · rw [pcs u e] at hu; exact h.before u hu
  · intro u v hu
    change setPc _ _ _ _ = _ at hu
    show _ ∧ (s.insert S (S.key t) none).runs _ = 1
    rw [hr]
    by_cases e : u = t
    · subst e; rw [setPc_same] at hu; simp at hu
    · rw [pcs u e] at hu; exact h.result u v hu
  · intro u hu
    change setPc _ _ _ _ = _ at hu
    show _ ∧ (s.insert S (S.key t) none).runs _ = 1
    rw [hr]
    by_cases e : u = t
    · subst e; rw [setPc_same] at hu; simp at hu
    · rw [pcs u e] at hu; exact h.thrown u hu
  · intro u it hu
    change Points (setPc _ _ _ _) _ at hu
    show _ ∧ _ ≤ (s.insert S (S.key t) none).epoch ∧ (_ = (s.insert S (S.key t) none).epoch → _)
    rw [he]
    by_cases e : u = t
    · subst e; rw [setPc_same] at hu; exact hu.elim
    · rw [pcs u e] at hu
      have := h.ptr u it hu
      exact ⟨this.1, by omega, fun e => absurd e (hst u it hu)⟩
  · intro u ref hu
    change setPc _ _ _ _ = _ at hu
    show _ = (s.insert S (S.key t) none).epoch → _
    rw [he]
    by_cases e : u = t
    · subst e; rw [setPc_same] at hu; simp at hu
    · rw [pcs u e] at hu
      exact fun e => absurd e (hst u ref (by rw [hu]; exact rfl))
  · intro u ref hu
    change setPc _ _ _ _ = _ at hu
    show _ = (s.insert S (S.key t) none).epoch → _
    rw [he]
    by_cases e : u = t
    · subst e; rw [setPc_same] at hu; simp at hu
    · rw [pcs u e] at hu
      exact fun e => absurd e (hst u ref (by rw [hu]; exact rfl))

/-- The call of `compute_fn`. -/
theorem Inv.computed (h : Inv S s) (t : Nat) (h0 : s.pc t = .compute) (p : Pc V)
    (hp : (∃ v, p = .store v ∧ S.fn (S.key t) = some v) ∨ (p = .thrown ∧ S.fn (S.key t) = none)) :
    Inv S { s with runs := fun k => if k = S.key t then s.runs k + 1 else s.runs k, pc := setPc s.pc t p } := by
  have hown : Owner p := by rcases hp with ⟨v, rfl, -⟩ | ⟨rfl, -⟩ <;> trivial
  have hpt : ∀ it, ¬ Points p it := by rcases hp with ⟨v, rfl, -⟩ | ⟨rfl, -⟩ <;> exact fun it h => h
  have h0o : Owner (s.pc t) := by rw [h0]; trivial
  have hmem := h.owner t h0o
  have hrun := h.before t h0
  have pcs : ∀ u, u ≠ t → setPc s.pc t p u = s.pc u := fun u hu => setPc_other _ _ hu
  have hown' : ∀ u, Owner (setPc s.pc t p u) ↔ Owner (s.pc u) := by
    intro u
    by_cases e : u = t
    · subst e; rw [setPc_same]; exact ⟨fun _ => h0o, fun _ => hown⟩
    · rw [pcs u e]
  have hother : ∀ u, u ≠ t → Owner (s.pc u) → S.key u ≠ S.key t := fun u hu ho e => hu (h.unique u t ho h0o e)
  refine ⟨h.sorted, h.count, ?_, ?_, ?_, fun u hu => h.owner u ((hown' u).1 hu), fun u w hu hw => h.unique u w ((hown' u).1 hu) ((hown' w).1 hw), ?_, ?_, ?_, ?_, ?_, ?_⟩
  · intro k v hk
    have : k ≠ S.key t := by
      rintro rfl
      exact absurd (sorted_unique h.sorted hk hmem) (by simp)
    show _ ∧ (if k = S.key t then _ else _) = 1
    rw [if_neg this]
    exact h.filled k v hk
  · intro k hk
    obtain ⟨u, e, hu⟩ := h.empty k hk
    exact ⟨u, e, (hown' u).2 hu⟩
  · intro k hk
    have : k ≠ S.key t := fun e => hk _ hmem e.symm
    show (if k = S.key t then _ else _) = 0
    rw [if_neg this]
    exact h.absent k hk
  · intro u hu
    change setPc _ _ _ _ = _ at hu
    by_cases e : u = t
    · subst e
      rw [setPc_same] at hu
      rcases hp with ⟨v, rfl, -⟩ | ⟨rfl, -⟩ <;> simp at hu
    · rw [pcs u e] at hu
      show (if S.key u = S.key t then _ else _) = 0
      rw [if_neg (hother u e (by rw [hu]; trivial))]
      exact h.before u hu
  · intro u v hu
    change setPc _ _ _ _ = _ at hu
    show _ ∧ (if S.key u = S.key t then _ else _) = 1
    by_cases e : u = t
    · subst e
      rw [setPc_same] at hu
      rw [if_pos rfl, hrun]
      rcases hp with ⟨v', rfl, hv⟩ | ⟨rfl, -⟩
      · simp only [Pc.store.injEq] at hu; subst hu; exact ⟨hv, rfl⟩
      · simp at hu
    · rw [pcs u e] at hu
      rw [if_neg (hother u e (by rw [hu]; trivial))]
      exact h.result u v hu
  · intro u hu
    change setPc _ _ _ _ = _ at hu
    show _ ∧ (if S.key u = S.key t then _ else _) = 1
    by_cases e : u = t
    · subst e
      rw [setPc_same] at hu
      rw [if_pos rfl, hrun]
      rcases hp with ⟨v', rfl, hv⟩ | ⟨rfl, hv⟩
      · simp at hu
      · exact ⟨hv, rfl⟩
    · rw [pcs u e] at hu
      rw [if_neg (hother u e (by rw [hu]; trivial))]
      exact h.thrown u hu
  · intro u it hu
    change Points (setPc _ _ _ _) _ at hu
    by_cases e : u = t
    · subst e; rw [setPc_same] at hu; exact absurd hu (hpt it)
    · rw [pcs u e] at hu; exact h.ptr u it hu
  · intro u ref hu
    change setPc _ _ _ _ = _ at hu
    by_cases e : u = t
    · subst e; rw [setPc_same] at hu; exact absurd (by rw [hu]; exact rfl) (hpt ref)
    · rw [pcs u e] at hu; exact h.held u ref hu
  · intro u ref hu
    change setPc _ _ _ _ = _ at hu
    by_cases e : u = t
    · subst e; rw [setPc_same] at hu; exact absurd (by rw [hu]; exact rfl) (hpt ref)
    · rw [pcs u e] at hu; exact h.asleep u ref hu

theorem owner_wake (p : Pc V) : Owner (wake p) ↔ Owner p := by cases p <;> rfl

theorem points_wake (p : Pc V) (it : Ptr) : Points (wake p) it ↔ Points p it := by cases p <;> rfl

theorem exists_position {items : List (K × Option V)} (hs : Sorted items) {e : K × Option V} (h : e ∈ items) : ∃ i, position items e.1 = some i := by
  cases hp : position items e.1 with
  | none => exact absurd rfl (position_none hs hp e h)
  | some i => exact ⟨i, rfl⟩

/-- Storing the result. -/
theorem Inv.keep (h : Inv S s) (t : Nat) (v : V) (h0 : s.pc t = .store v) :
    ∃ i, position (s.fill S (S.key t) v).items (S.key t) = some i ∧
      Inv S { s.fill S (S.key t) v with pc := setPc (fun u => wake (s.pc u)) t (.hold ((s.fill S (S.key t) v).ptr i)) } := by
  have h0o : Owner (s.pc t) := by rw [h0]; trivial
  have hmem := h.owner t h0o
  obtain ⟨hcalc, hrun⟩ := h.result t v h0
  obtain ⟨i, hi⟩ := exists_position h.sorted hmem
  obtain ⟨o, ho⟩ := position_some hi
  have hfill : s.fill S (S.key t) v = { s with items := s.items.set i (S.key t, some v) } := by unfold St.fill; rw [hi]
  have hkeys := keys_set (o' := some v) ho
  have hsorted : Sorted (s.items.set i (S.key t, some v)) := by unfold Sorted; rw [hkeys]; exact h.sorted
  have hms := mem_set (o' := some v) h.sorted ho
  have hin : (S.key t, some v) ∈ s.items.set i (S.key t, some v) := (hms _).2 (.inl rfl)
  obtain ⟨j, hj⟩ := exists_position hsorted hin
  obtain ⟨o2, ho2⟩ := position_some hj
  have hov : o2 = some v := sorted_unique hsorted (List.mem_of_getElem? ho2) hin
  rw [hfill]
  refine ⟨j, hj, ?_⟩
  have hother : ∀ u, u ≠ t → Owner (s.pc u) → S.key u ≠ S.key t := fun u hu ho e => hu (h.unique u t ho h0o e)
  obtain ⟨q, hqe, hqt, pcs⟩ : ∃ q : Nat → Pc V, setPc (fun u => wake (s.pc u)) t (.hold ⟨s.block, j, s.epoch⟩) = q ∧ q t = .hold ⟨s.block, j, s.epoch⟩ ∧
      ∀ u, u ≠ t → q u = wake (s.pc u) := ⟨_, rfl, setPc_same _ _ _, fun u hu => setPc_other _ _ hu⟩
  have hown : ∀ u, Owner (q u) → u ≠ t ∧ Owner (s.pc u) := by
    intro u hu
    by_cases e : u = t
    · subst e; rw [hqt] at hu; exact hu.elim
    · rw [pcs u e] at hu; exact ⟨e, (owner_wake _).1 hu⟩
  have hderef : ∀ p k o, s.deref p = some (k, o) → ({ s with items := s.items.set i (S.key t, some v) } : St K V).deref p = some (k, if k = S.key t then some v else o) := by
    intro p k o' hp
    unfold St.deref at hp ⊢
    simp only
    split at hp
    · rename_i hb
      rw [if_pos hb, List.getElem?_set]
      by_cases hip : i = p.pos
      · rw [if_pos hip]
        rw [← hip, ho] at hp
        obtain ⟨hl, -⟩ := List.getElem?_eq_some_iff.1 ho
        rw [if_pos (hip ▸ hl)]
        simp only [Option.some_inj, Prod.mk.injEq] at hp
        rw [← hp.1, if_pos rfl]
      · rw [if_neg hip, hp]
        have : k ≠ S.key t := by
          rintro rfl
          apply hip
          have hnd : (s.items.map Prod.fst).Nodup := h.sorted.imp fun h => h.ne
          obtain ⟨l1, e1⟩ := List.getElem?_eq_some_iff.1 ho
          obtain ⟨l2, e2⟩ := List.getElem?_eq_some_iff.1 hp
          exact (List.Nodup.getElem_inj_iff hnd (hi := by simpa using l1) (hj := by simpa using l2)).1 (by simp [e1, e2])
        rw [if_neg this]
    · simp at hp
  show Inv S ⟨s.items.set i (S.key t, some v), s.block, s.capacity, setPc (fun u => wake (s.pc u)) t (.hold ⟨s.block, j, s.epoch⟩), s.epoch, s.runs⟩
  rw [hqe]
  refine ⟨hsorted, ?_, ?_, ?_, ?_, ?_, ?_, ?_, ?_, ?_, ?_, ?_, ?_⟩
  · show s.epoch = (s.items.set i _).length
    rw [List.length_set]; exact h.count
  · intro k v' hk
    rcases (hms _).1 hk with e | ⟨hk, -⟩
    · simp only [Prod.mk.injEq, Option.some_inj] at e
      rw [e.1, e.2]; exact ⟨hcalc, hrun⟩
    · exact h.filled k v' hk
  · intro k hk
    rcases (hms _).1 hk with e | ⟨hk, hne⟩
    · simp at e
    · obtain ⟨u, e, hu⟩ := h.empty k hk
      have : u ≠ t := by rintro rfl; exact hne e.symm
      exact ⟨u, e, by show Owner (q u); rw [pcs u this]; exact (owner_wake _).2 hu⟩
  · intro k hk
    refine h.absent k fun e he hke => ?_
    have : k ∈ (s.items.set i (S.key t, some v)).map Prod.fst := by rw [hkeys]; exact List.mem_map.2 ⟨e, he, hke⟩
    obtain ⟨e', he', hk'⟩ := List.mem_map.1 this
    exact hk e' he' hk'
  · intro u hu
    obtain ⟨hne, hu⟩ := hown u hu
    exact (hms _).2 (.inr ⟨h.owner u hu, hother u hne hu⟩)
  · intro u w hu hw
    exact h.unique u w (hown u hu).2 (hown w hw).2
  · intro u hu
    change q u = _ at hu
    by_cases e : u = t
    · subst e; rw [hqt] at hu; simp at hu
    · rw [pcs u e] at hu
      refine h.before u ?_
      cases hc : s.pc u <;> rw [hc] at hu <;> simp [wake] at hu ⊢
  · intro u v' hu
    change q u = _ at hu
    by_cases e : u = t
    · subst e; rw [hqt] at hu; simp at hu
    · rw [pcs u e] at hu
      refine h.result u v' ?_
      cases hc : s.pc u <;> rw [hc] at hu <;> simp [wake] at hu ⊢
      exact hu
  · intro u hu
    change q u = _ at hu
    by_cases e : u = t
    · subst e; rw [hqt] at hu; simp at hu
    · rw [pcs u e] at hu
      refine h.thrown u ?_
      cases hc : s.pc u <;> rw [hc] at hu <;> simp [wake] at hu ⊢
  · intro u it hu
    change Points (q u) _ at hu
    by_cases e : u = t
    · subst e
      rw [hqt] at hu
      cases hu
      refine ⟨?_, Nat.le_refl _, fun _ => ⟨o2, ?_⟩⟩
      · show 1 ≤ s.epoch
        rw [h.count]
        exact List.length_pos_of_mem hmem
      · show (if s.block = s.block then (s.items.set i _)[j]? else none) = _
        rw [if_pos rfl]; exact ho2
    · rw [pcs u e, points_wake] at hu
      obtain ⟨q1, q2, q3⟩ := h.ptr u it hu
      exact ⟨q1, q2, fun he => (q3 he).elim fun o ho => ⟨_, hderef _ _ _ ho⟩⟩
  · intro u ref hu he
    change q u = _ at hu
    by_cases e : u = t
    · subst e
      rw [hqt] at hu
      cases hu
      refine ⟨v, ?_⟩
      show (if s.block = s.block then (s.items.set i _)[j]? else none) = _
      rw [if_pos rfl, ho2, hov]
    · rw [pcs u e] at hu
      have hc : s.pc u = .hold ref := by cases hc : s.pc u <;> rw [hc] at hu <;> simp [wake] at hu ⊢; exact hu
      obtain ⟨v', hv'⟩ := h.held u ref hc he
      have := hderef _ _ _ hv'
      by_cases hk : S.key u = S.key t
      · rw [if_pos hk] at this; exact ⟨_, this⟩
      · rw [if_neg hk] at this; exact ⟨_, this⟩
  · intro u it hu
    change q u = _ at hu
    by_cases e : u = t
    · subst e; rw [hqt] at hu; simp at hu
    · rw [pcs u e] at hu
      cases hc : s.pc u <;> rw [hc] at hu <;> simp [wake] at hu

theorem Inv.step (h : Inv S s) {t : Nat} {b : Bool} {s' : St K V} (hs : Memo.step S s t b = some s') : Inv S s' := by
  unfold Memo.step at hs
  cases hp : s.pc t with
  | start =>
    rw [hp] at hs
    simp only at hs
    cases hq : position s.items (S.key t) with
    | none =>
      rw [hq] at hs
      simp only [Option.some_inj] at hs
      subst hs
      exact h.enter t hp hq
    | some i =>
      rw [hq] at hs
      simp only [Option.some_inj] at hs
      subst hs
      obtain ⟨o, ho⟩ := position_some hq
      refine h.look t _ (by rw [hp]; exact fun h => h) ⟨?_, Nat.le_refl _, fun _ => ⟨o, ?_⟩⟩
      · show 1 ≤ s.epoch
        rw [h.count]
        exact List.length_pos_of_mem (List.mem_of_getElem? ho)
      · show (if s.block = s.block then s.items[i]? else none) = _
        rw [if_pos rfl]; exact ho
  | wait it asleep =>
    rw [hp] at hs
    have hptr := h.ptr t it (by rw [hp]; exact rfl)
    have hno : ¬ Owner (s.pc t) := by rw [hp]; exact fun h => h
    cases asleep with
    | true =>
      simp only at hs
      split at hs
      · simp only [Option.some_inj] at hs
        subst hs
        refine h.move t _ hno (by simp [Owner]) (fun it' hh => ?_) (fun _ hh => by simp at hh) (fun _ hh => by simp at hh)
        cases hh; exact hptr
      · simp at hs
    | false =>
      simp only [Option.some_inj] at hs
      subst hs
      exact h.look t it hno hptr
  | compute =>
    rw [hp] at hs
    simp only at hs
    cases hc : S.fn (S.key t) with
    | some v =>
      rw [hc] at hs
      simp only [Option.some_inj] at hs
      subst hs
      exact h.computed t hp _ (.inl ⟨v, rfl, hc⟩)
    | none =>
      rw [hc] at hs
      simp only [Option.some_inj] at hs
      subst hs
      exact h.computed t hp _ (.inr ⟨rfl, hc⟩)
  | store v =>
    rw [hp] at hs
    simp only [Option.some_inj] at hs
    obtain ⟨i, h1, h2⟩ := h.keep t v hp
    rw [h1] at hs
    subst hs
    exact h2
  | hold ref =>
    rw [hp] at hs
    simp only [Option.some_inj] at hs
    subst hs
    refine h.move t _ (by rw [hp]; exact fun h => h) ?_ ?_ ?_ ?_ <;> unfold use <;> split <;> simp [Owner, Points]
  | read v => rw [hp] at hs; simp at hs
  | thrown => rw [hp] at hs; simp at hs
  | ub => rw [hp] at hs; simp at hs

theorem Inv.run : ∀ (as : List (Nat × Bool)) {s s' : St K V}, Inv S s → Memo.run S as s = some s' → Inv S s'
  | [], s, s', h, hr => by simp only [Memo.run, Option.some_inj] at hr; exact hr ▸ h
  | (t, b) :: as, s, s', h, hr => by
      rw [Memo.run] at hr
      cases hs : Memo.step S s t b with
      | none => rw [hs] at hr; simp at hr
      | some s1 =>
        rw [hs] at hr
        exact Inv.run as (h.step hs) hr

theorem Reachable.inv (h : Reachable S s) : Inv S s := h.elim fun _ ha => Inv.init.run _ ha

/-! ### What holds in every execution -/

/-- **C86** For every key the value is computed at most once, and what the cache holds is the value of the key. -/
theorem memo_once (h : Reachable S s) : (∀ k, s.runs k ≤ 1) ∧ ∀ k v, (k, some v) ∈ s.items → S.fn k = some v := by
  have hi := h.inv
  refine ⟨fun k => ?_, fun k v hk => (hi.filled k v hk).1⟩
  by_cases hk : ∀ e ∈ s.items, e.1 ≠ k
  · rw [hi.absent k hk]; exact Nat.zero_le _
  · push Not at hk
    obtain ⟨⟨k', o⟩, he, rfl⟩ := hk
    cases o with
    | some v => rw [(hi.filled k' v he).2]
    | none =>
      obtain ⟨t, ht, ho⟩ := hi.empty k' he
      show s.runs k' ≤ 1
      cases hp : s.pc t with
      | compute => rw [← ht, hi.before t hp]; exact Nat.zero_le _
      | store v => rw [← ht, (hi.result t v hp).2]
      | thrown => rw [← ht, (hi.thrown t hp).2]
      | start | wait | hold | read | ub => rw [hp] at ho; exact ho.elim

/-- **C86** A thread that uses its reference before anything is inserted into the cache reads the value of its key. -/
theorem memo_fresh (h : Reachable S s) {t : Nat} {ref : Ptr} (hp : s.pc t = .hold ref) (he : ref.epoch = s.epoch) (b : Bool) :
    ∃ v s', S.fn (S.key t) = some v ∧ step S s t b = some s' ∧ s'.pc t = .read v := by
  have hi := h.inv
  obtain ⟨v, hv⟩ := hi.held t ref hp he
  have hmem : (S.key t, some v) ∈ s.items := by
    unfold St.deref at hv
    split at hv
    · exact List.mem_of_getElem? hv
    · simp at hv
  refine ⟨v, { s with pc := setPc s.pc t (use s ref) }, (hi.filled _ v hmem).1, by unfold step; rw [hp], ?_⟩
  show setPc _ _ _ _ = _
  rw [setPc_same]
  unfold use
  rw [hv]

/-! ### Executions in which nothing is inserted any more -/

/-- All keys are in the cache, no pointer is stale, and nothing wrong has happened. -/
structure Good (S : Sys K V) (s : St K V) : Prop where
  inv : Inv S s
  known : ∀ t, ∃ o, (S.key t, o) ∈ s.items
  fresh : ∀ t it, Points (s.pc t) it → it.epoch = s.epoch
  right : ∀ t, s.pc t ≠ .ub ∧ ∀ v, s.pc t = .read v → S.fn (S.key t) = some v

/-- A step that changes only where a thread is. -/
theorem Good.move (h : Good S s) (t : Nat) (p : Pc V) (h1 : Inv S { s with pc := setPc s.pc t p }) (h2 : ∀ it, Points p it → it.epoch = s.epoch)
    (h3 : p ≠ .ub ∧ ∀ v, p = .read v → S.fn (S.key t) = some v) : Good S { s with pc := setPc s.pc t p } := by
  refine ⟨h1, h.known, fun u it hu => ?_, fun u => ?_⟩
  · change Points (setPc _ _ _ _) _ at hu
    by_cases e : u = t
    · subst e; rw [setPc_same] at hu; exact h2 it hu
    · rw [setPc_other _ _ e] at hu; exact h.fresh u it hu
  · show setPc _ _ _ _ ≠ _ ∧ ∀ v, setPc _ _ _ _ = _ → _
    by_cases e : u = t
    · subst e; rw [setPc_same]; exact h3
    · rw [setPc_other _ _ e]; exact h.right u

theorem look_points {it p : Ptr} (h : Points (look s it) p) : p = it := by
  unfold look at h
  split at h
  · exact h.elim
  · exact h.symm
  · exact h.symm

theorem look_right {it : Ptr} {t : Nat} (h : ∃ o, s.deref it = some (S.key t, o)) :
    look s it ≠ .ub ∧ ∀ v, look s it = .read v → S.fn (S.key t) = some v := by
  obtain ⟨o, ho⟩ := h
  unfold look
  rw [ho]
  cases o <;> simp

theorem Good.step (h : Good S s) {t : Nat} {b : Bool} {s' : St K V} (hs : Memo.step S s t b = some s') : Good S s' := by
  have hi := h.inv.step hs
  unfold Memo.step at hs
  cases hp : s.pc t with
  | start =>
    rw [hp] at hs
    simp only at hs
    cases hq : position s.items (S.key t) with
    | none =>
      obtain ⟨o, ho⟩ := h.known t
      exact absurd rfl (position_none h.inv.sorted hq _ ho)
    | some i =>
      rw [hq] at hs
      simp only [Option.some_inj] at hs
      subst hs
      obtain ⟨o, ho⟩ := position_some hq
      refine h.move t _ hi (fun it hh => ?_) (look_right ⟨o, ?_⟩)
      · rw [look_points hh]; rfl
      · show (if s.block = s.block then s.items[i]? else none) = _
        rw [if_pos rfl]; exact ho
  | wait it asleep =>
    rw [hp] at hs
    have hf := h.fresh t it (by rw [hp]; exact rfl)
    cases asleep with
    | true =>
      simp only at hs
      split at hs
      · simp only [Option.some_inj] at hs
        subst hs
        refine h.move t _ hi (fun it' hh => ?_) (by simp)
        cases hh; exact hf
      · simp at hs
    | false =>
      simp only [Option.some_inj] at hs
      subst hs
      refine h.move t _ hi (fun it' hh => ?_) (look_right ((h.inv.ptr t it (by rw [hp]; exact rfl)).2.2 hf))
      rw [look_points hh]; exact hf
  | compute =>
    rw [hp] at hs
    simp only at hs
    have key : ∀ p, (∀ it, ¬ Points p it) → p ≠ .ub → (∀ v, p ≠ .read v) → ∀ r, Inv S { s with runs := r, pc := setPc s.pc t p } → Good S { s with runs := r, pc := setPc s.pc t p } := by
      intro p p1 p2 p3 r hi
      refine ⟨hi, h.known, fun u it hu => ?_, fun u => ?_⟩
      · change Points (setPc _ _ _ _) _ at hu
        by_cases e : u = t
        · subst e; rw [setPc_same] at hu; exact absurd hu (p1 it)
        · rw [setPc_other _ _ e] at hu; exact h.fresh u it hu
      · show setPc _ _ _ _ ≠ _ ∧ ∀ v, setPc _ _ _ _ = _ → _
        by_cases e : u = t
        · subst e; rw [setPc_same]; exact ⟨p2, fun v hv => absurd hv (p3 v)⟩
        · rw [setPc_other _ _ e]; exact h.right u
    cases hc : S.fn (S.key t) with
    | some v =>
      rw [hc] at hs
      simp only [Option.some_inj] at hs
      subst hs
      exact key (.store v) (fun _ h => h) (by simp) (by simp) _ hi
    | none =>
      rw [hc] at hs
      simp only [Option.some_inj] at hs
      subst hs
      exact key .thrown (fun _ h => h) (by simp) (by simp) _ hi
  | store v =>
    rw [hp] at hs
    simp only [Option.some_inj] at hs
    obtain ⟨i, h1, -⟩ := h.inv.keep t v hp
    rw [h1] at hs
    subst hs
    have hmem := h.inv.owner t (by rw [hp]; trivial)
    obtain ⟨j, hj⟩ := exists_position h.inv.sorted hmem
    obtain ⟨o, ho⟩ := position_some hj
    have hfill : s.fill S (S.key t) v = { s with items := s.items.set j (S.key t, some v) } := by unfold St.fill; rw [hj]
    rw [hfill] at hi ⊢
    obtain ⟨q, hqe, hqt, hqo⟩ : ∃ q : Nat → Pc V, setPc (fun u => wake (s.pc u)) t (.hold ⟨s.block, i, s.epoch⟩) = q ∧ q t = .hold ⟨s.block, i, s.epoch⟩ ∧
        ∀ u, u ≠ t → q u = wake (s.pc u) := ⟨_, rfl, setPc_same _ _ _, fun u hu => setPc_other _ _ hu⟩
    change Inv S ⟨s.items.set j (S.key t, some v), s.block, s.capacity, setPc (fun u => wake (s.pc u)) t (.hold ⟨s.block, i, s.epoch⟩), s.epoch, s.runs⟩ at hi
    show Good S ⟨s.items.set j (S.key t, some v), s.block, s.capacity, setPc (fun u => wake (s.pc u)) t (.hold ⟨s.block, i, s.epoch⟩), s.epoch, s.runs⟩
    rw [hqe] at hi ⊢
    refine ⟨hi, fun u => ?_, fun u it hu => ?_, fun u => ?_⟩
    · obtain ⟨o', ho'⟩ := h.known u
      have : S.key u ∈ (s.items.set j (S.key t, some v)).map Prod.fst := by
        rw [keys_set ho]; exact List.mem_map.2 ⟨_, ho', rfl⟩
      obtain ⟨e, he, hk⟩ := List.mem_map.1 this
      exact ⟨e.2, by rw [← hk]; exact he⟩
    · change Points (q u) _ at hu
      by_cases e : u = t
      · subst e; rw [hqt] at hu; cases hu; rfl
      · rw [hqo u e, points_wake] at hu; exact h.fresh u it hu
    · show q u ≠ _ ∧ ∀ v, q u = _ → _
      by_cases e : u = t
      · subst e; rw [hqt]; simp
      · rw [hqo u e]
        have := h.right u
        cases hc : s.pc u <;> rw [hc] at this <;> simp [wake] at this ⊢
        exact this
  | hold ref =>
    rw [hp] at hs
    simp only [Option.some_inj] at hs
    subst hs
    obtain ⟨v, hv⟩ := h.inv.held t ref hp (h.fresh t ref (by rw [hp]; exact rfl))
    have hmem : (S.key t, some v) ∈ s.items := by
      unfold St.deref at hv
      split at hv
      · exact List.mem_of_getElem? hv
      · simp at hv
    have hu : use s ref = .read v := by unfold use; rw [hv]
    rw [hu] at hi ⊢
    refine h.move t _ hi (fun it hh => hh.elim) ⟨by simp, fun v' hv' => ?_⟩
    simp only [Pc.read.injEq] at hv'
    subst hv'
    exact (h.inv.filled _ _ hmem).1
  | read v => rw [hp] at hs; simp at hs
  | thrown => rw [hp] at hs; simp at hs
  | ub => rw [hp] at hs; simp at hs

/-- **C86** If all keys are in the cache and no thread has a pointer yet, then nothing goes wrong afterwards. -/
theorem Good.run : ∀ (as : List (Nat × Bool)) {s s' : St K V}, Good S s → Memo.run S as s = some s' → Good S s'
  | [], s, s', h, hr => by simp only [Memo.run, Option.some_inj] at hr; exact hr ▸ h
  | (t, b) :: as, s, s', h, hr => by
      rw [Memo.run] at hr
      cases hs : Memo.step S s t b with
      | none => rw [hs] at hr; simp at hr
      | some s1 =>
        rw [hs] at hr
        exact Good.run as (h.step hs) hr

/-- With one key: at the beginning or good. -/
theorem single_good (hk : ∀ t u, S.key t = S.key u) (h : Reachable S s) : s = St.init ∨ Good S s := by
  obtain ⟨as, ha⟩ := h
  cases as with
  | nil => simp only [run, Option.some_inj] at ha; exact .inl ha.symm
  | cons a as =>
    obtain ⟨t, b⟩ := a
    rw [run] at ha
    cases hs : step S St.init t b with
    | none => rw [hs] at ha; simp at ha
    | some s1 =>
      rw [hs] at ha
      refine .inr (Good.run as ?_ ha)
      refine ⟨Inv.init.step hs, fun u => ⟨none, ?_⟩, ?_, ?_⟩
      all_goals
        have hp : position (St.init : St K V).items (S.key t) = none := rfl
        unfold step at hs
        simp only [St.init] at hs hp
        rw [hp] at hs
        simp only [Option.some_inj] at hs
        subst hs
      · show _ ∈ (St.insert S _ _ _).items
        unfold St.insert
        simp [lowerBound, hk u t]
      · intro u it hu
        simp only [setPc] at hu
        split at hu <;> exact hu.elim
      · intro u
        simp only [setPc]
        split <;> simp

/-- **C86** With one key all threads read the value, in every execution. -/
theorem single_correct (hk : ∀ t u, S.key t = S.key u) (h : Reachable S s) (t : Nat) :
    s.pc t ≠ .ub ∧ ∀ v, s.pc t = .read v → S.fn (S.key t) = some v := by
  rcases single_good hk h with rfl | h
  · simp [St.init]
  · exact h.right t

/-- **C86** No deadlock: if `compute_fn` throws no exception, then as long as some thread is not done some thread can go on without spurious wakeups. -/
theorem Good.progress (h : Good S s) (hf : ∀ k, S.fn k ≠ none) {t : Nat} (ht : ∀ v, s.pc t ≠ .read v) : ∃ u, (Memo.step S s u false).isSome = true := by
  cases hp : s.pc t with
  | start =>
    refine ⟨t, ?_⟩
    unfold Memo.step
    rw [hp]
    simp only
    split <;> rfl
  | wait it asleep =>
    cases asleep with
    | false => exact ⟨t, by unfold Memo.step; rw [hp]; rfl⟩
    | true =>
      have hd := h.inv.asleep t it hp (h.fresh t it (by rw [hp]; exact rfl))
      have hmem : (S.key t, none) ∈ s.items := by
        unfold St.deref at hd
        split at hd
        · exact List.mem_of_getElem? hd
        · simp at hd
      obtain ⟨u, hu, ho⟩ := h.inv.empty _ hmem
      refine ⟨u, ?_⟩
      unfold Memo.step
      cases hq : s.pc u with
      | compute =>
        simp only
        cases hc : S.fn (S.key u) with
        | none => exact absurd hc (hf _)
        | some v => rfl
      | store v => rfl
      | thrown => exact absurd (h.inv.thrown u hq).1 (hf _)
      | start | wait | hold | read | ub => rw [hq] at ho; exact ho.elim
  | compute =>
    refine ⟨t, ?_⟩
    unfold Memo.step
    rw [hp]
    simp only
    split <;> rfl
  | store v => exact ⟨t, by unfold Memo.step; rw [hp]; rfl⟩
  | hold ref => exact ⟨t, by unfold Memo.step; rw [hp]; rfl⟩
  | read v => exact absurd hp (ht v)
  | thrown => exact absurd (h.inv.thrown t hp).1 (hf _)
  | ub => exact absurd hp (h.right t).1

theorem single_progress (hk : ∀ t u, S.key t = S.key u) (h : Reachable S s) (hf : ∀ k, S.fn k ≠ none) {t : Nat} (ht : ∀ v, s.pc t ≠ .read v) :
    ∃ u, (step S s u false).isSome = true := by
  rcases single_good hk h with rfl | h
  · exact ⟨t, rfl⟩
  · exact h.progress hf ht

/-- **C86** After an exception no other thread ever gets a result for the key: it waits forever. -/
theorem Good.thrown (h : Good S s) {t u : Nat} (ht : s.pc t = .thrown) (hu : u ≠ t) (hk : S.key u = S.key t) :
    s.pc u = .start ∨ ∃ it b, s.pc u = .wait it b := by
  have hn := (h.inv.thrown t ht).1
  have hto : Owner (s.pc t) := by rw [ht]; trivial
  cases hp : s.pc u with
  | start => exact .inl rfl
  | wait it b => exact .inr ⟨it, b, rfl⟩
  | compute | store | thrown => exact absurd (h.inv.unique u t (by rw [hp]; trivial) hto hk) hu
  | hold ref =>
    obtain ⟨v, hv⟩ := h.inv.held u ref hp (h.fresh u ref (by rw [hp]; exact rfl))
    have hmem : (S.key u, some v) ∈ s.items := by
      unfold St.deref at hv
      split at hv
      · exact List.mem_of_getElem? hv
      · simp at hv
    rw [hk] at hmem
    exact absurd (h.inv.filled _ _ hmem).1 (by rw [hn]; simp)
  | read v =>
    have := (h.right u).2 v hp
    rw [hk, hn] at this
    simp at this
  | ub => exact absurd hp (h.right u).1

theorem step_thrown {t u : Nat} {b : Bool} {s' : St K V} (ht : s.pc t = .thrown) (hs : step S s u b = some s') : s'.pc t = .thrown := by
  by_cases e : t = u
  · subst e
    unfold step at hs
    rw [ht] at hs
    simp at hs
  · have hset : ∀ p, setPc s.pc u p t = .thrown := fun p => by rw [setPc_other _ _ e, ht]
    unfold step at hs
    split at hs
    · split at hs <;> · simp only [Option.some_inj] at hs; subst hs; exact hset _
    · split at hs
      · simp only [Option.some_inj] at hs; subst hs; exact hset _
      · simp at hs
    · simp only [Option.some_inj] at hs; subst hs; exact hset _
    · simp only at hs
      split at hs <;> · simp only [Option.some_inj] at hs; subst hs; exact hset _
    · simp only [Option.some_inj] at hs
      subst hs
      simp only [setPc]
      rw [if_neg e, ht]
      rfl
    · simp only [Option.some_inj] at hs; subst hs; exact hset _
    all_goals simp at hs

theorem run_thrown : ∀ (as : List (Nat × Bool)) {s s' : St K V} {t : Nat}, s.pc t = .thrown → run S as s = some s' → s'.pc t = .thrown
  | [], s, s', t, h, hr => by simp only [run, Option.some_inj] at hr; exact hr ▸ h
  | (u, b) :: as, s, s', t, h, hr => by
      rw [run] at hr
      cases hs : step S s u b with
      | none => rw [hs] at hr; simp at hr
      | some s1 =>
        rw [hs] at hr
        exact run_thrown as (step_thrown h hs) hr

theorem single_thrown (hk : ∀ t u, S.key t = S.key u) (h : Reachable S s) {t u : Nat} (ht : s.pc t = .thrown) (hu : u ≠ t) (as : List (Nat × Bool))
    {s' : St K V} (hr : run S as s = some s') : s'.pc u = .start ∨ ∃ it b, s'.pc u = .wait it b := by
  rcases single_good hk h with rfl | h
  · simp [St.init] at ht
  · exact (h.run as hr).thrown (run_thrown as ht hr) hu (hk _ _)

/-! ### What goes wrong -/

/-- Boost's vector grows by three fifths, at least by one. -/
def boostGrow (c : Nat) : Nat := max (c + 1) (c * 8 / 5)

/-- Ten times the key; the threads have the given keys. -/
def demo (ks : List Nat) : Sys Nat Nat := ⟨fun k => some (10 * k), boostGrow, fun t => ks.getD t 0⟩

/-- **C86** A reference to a value dangles after the value for another key was inserted: no threads run at the same time. -/
theorem stale_dangles : ∃ (S : Sys Nat Nat) (s : St Nat Nat), (∀ k, S.fn k ≠ none) ∧ Reachable S s ∧ s.pc 0 = .ub := by
  have h : ((run (demo [3, 4]) [(0, false), (0, false), (0, false), (1, false), (1, false), (1, false), (0, false)] .init).map fun s => s.pc 0) = some .ub := by
    decide +kernel
  obtain ⟨s, h1, h2⟩ := Option.map_eq_some_iff.1 h
  exact ⟨_, s, fun k => by simp [demo], ⟨_, h1⟩, h2⟩

/-- **C86** Or it refers to the value of another key, if the vector has room for the insertion. -/
theorem stale_wrong : ∃ (S : Sys Nat Nat) (s : St Nat Nat) (t v : Nat), Reachable S s ∧ s.pc t = .read v ∧ S.fn (S.key t) ≠ some v := by
  have h : ((run (demo [2, 3, 4, 5, 6, 2, 1]) ((List.range 5).flatMap (fun t => [(t, false), (t, false), (t, false)]) ++
      [(5, false), (6, false), (6, false), (6, false), (5, false)]) .init).map fun s => s.pc 5) = some (.read 10) := by
    decide +kernel
  obtain ⟨s, h1, h2⟩ := Option.map_eq_some_iff.1 h
  exact ⟨_, s, 5, 10, ⟨_, h1⟩, h2, by decide⟩

/-- **C86** A thread that waits for the value of a key while the value for another key is inserted returns a reference to the other value. -/
theorem wait_wrong : ∃ (S : Sys Nat Nat) (s : St Nat Nat) (t v : Nat), Reachable S s ∧ s.pc t = .read v ∧ S.fn (S.key t) ≠ some v := by
  have h : ((run (demo [3, 4, 5, 6, 2, 2, 1]) ((List.range 4).flatMap (fun t => [(t, false), (t, false), (t, false)]) ++
      [(4, false), (5, false), (6, false), (6, false), (6, false), (5, false), (5, false)]) .init).map fun s => s.pc 5) = some (.read 10) := by
    decide +kernel
  obtain ⟨s, h1, h2⟩ := Option.map_eq_some_iff.1 h
  exact ⟨_, s, 5, 10, ⟨_, h1⟩, h2, by decide⟩

/-- **C86** After an exception the next call with the key hangs: no step is possible any more, but the call has not returned. -/
theorem thrown_hangs : ∃ (S : Sys Nat Nat) (s : St Nat Nat), Reachable S s ∧ s.pc 0 = .thrown ∧ (∃ it, s.pc 1 = .wait it true) ∧
    step S s 0 false = none ∧ step S s 1 false = none := by
  let S : Sys Nat Nat := ⟨fun _ => none, boostGrow, fun _ => 0⟩
  have h : ((run S [(0, false), (0, false), (1, false)] .init).map fun s => (s.pc 0, s.pc 1)) = some (.thrown, .wait ⟨1, 0, 1⟩ true) := by
    decide +kernel
  obtain ⟨s, h1, h2⟩ := Option.map_eq_some_iff.1 h
  simp only [Prod.mk.injEq] at h2
  refine ⟨S, s, ⟨_, h1⟩, h2.1, ⟨_, h2.2⟩, ?_, ?_⟩
  · unfold step; rw [h2.1]
  · unfold step; rw [h2.2]; rfl

/-- Three threads with one key: one computes, the others wait and get its value; a spurious wakeup does no harm. -/
example : ((run (demo [3, 3, 3]) [(0, false), (1, false), (1, true), (0, false), (1, false), (0, false), (2, false), (1, false), (2, false), (1, false), (0, false)]
    .init).map fun s => ([s.pc 0, s.pc 1, s.pc 2], s.runs 3)) = some ([.read 30, .read 30, .read 30], 1) := by
  decide +kernel

end SeQuant.Memo
