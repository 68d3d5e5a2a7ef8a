import Verif.Cse.Spec
import Verif.Binarize.CompareProps

/-!
# Lemmas about sequences of trees
-/

namespace SeQuant.Cse

open SeQuant.Eval SeQuant.Binarize SeQuant.Optimize

variable {L ι K H G S : Type}

/-! ### Sorting indices by space -/

theorem zip_map_fst_snd {α β : Type} : ∀ l : List (α × β), (l.map Prod.fst).zip (l.map Prod.snd) = l
  | [] => rfl
  | p :: l => by simp [zip_map_fst_snd l]

theorem sort_zip (sp : ι → S) (le : S → S → Bool) {a b : List ι} (h : a.map sp = b.map sp) :
    (sortBy sp le a).zip (sortBy sp le b) = (a.zip b).insertionSort fun p q => le (sp p.1) (sp q.1) = true := by
  have hl : a.length = b.length := by simpa using congrArg List.length h
  have hp : ∀ p ∈ a.zip b, sp p.1 = sp p.2 := by
    intro p hp
    obtain ⟨i, hi, rfl⟩ := List.getElem_of_mem hp
    rw [List.length_zip] at hi
    have h1 : i < a.length := by omega
    have h2 : i < b.length := by omega
    have := List.getElem_of_eq h (i := i) (by simpa using h1)
    simpa [List.getElem_zip] using this
  have e1 : ((a.zip b).insertionSort fun p q => le (sp p.1) (sp q.1) = true).map Prod.fst = sortBy sp le a := by
    rw [List.map_insertionSort (r := fun (p q : ι × ι) => le (sp p.1) (sp q.1) = true) (s := fun x y => le (sp x) (sp y) = true) Prod.fst (a.zip b) (fun _ _ _ _ => Iff.rfl), List.map_fst_zip (by omega)]
    rfl
  have e2 : ((a.zip b).insertionSort fun p q => le (sp p.1) (sp q.1) = true).map Prod.snd = sortBy sp le b := by
    rw [List.map_insertionSort (r := fun (p q : ι × ι) => le (sp p.1) (sp q.1) = true) (s := fun x y => le (sp x) (sp y) = true) Prod.snd (a.zip b) (by intro x hx y hy; rw [hp x hx, hp y hy]), List.map_snd_zip (by omega)]
    rfl
  rw [← e1, ← e2, zip_map_fst_snd]

theorem sortBy_perm (sp : ι → S) (le : S → S → Bool) (a : List ι) : (sortBy sp le a).Perm a := List.perm_insertionSort _ _

theorem sort_map (sp : ι → S) (le : S → S → Bool) {a b : List ι} (h : a.map sp = b.map sp) :
    (sortBy sp le a).map sp = (sortBy sp le b).map sp := by
  have e : ∀ l : List ι, (sortBy sp le l).map sp = (l.map sp).insertionSort fun x y => le x y = true := by
    intro l
    exact List.map_insertionSort (r := fun x y => le (sp x) (sp y) = true) (s := fun x y => le x y = true) sp l (fun _ _ _ _ => Iff.rfl)
  rw [e, e, h]

/-- Positions in the sorted order, read in the order before. -/
theorem sort_asg [DecidableEq ι] (sp : ι → S) (le : S → S → Bool) {a b : List ι} (h : a.map sp = b.map sp) (ha : a.Nodup) (ρ : ι → Nat) :
    a.map (asg (sortBy sp le a) ((sortBy sp le b).map ρ)) = b.map ρ := by
  have hl : a.length = b.length := by simpa using congrArg List.length h
  refine List.ext_getElem (by simpa using hl) ?_
  intro i h1 h2
  simp only [List.length_map] at h1 h2
  simp only [List.getElem_map]
  have hm : (a[i], b[i]) ∈ a.zip b := List.mem_iff_getElem.2 ⟨i, by simp [h1, h2], by simp⟩
  have hm' : (a[i], b[i]) ∈ (sortBy sp le a).zip (sortBy sp le b) := by
    rw [sort_zip sp le h, List.mem_insertionSort]; exact hm
  obtain ⟨j, hj, e⟩ := List.getElem_of_mem hm'
  rw [List.length_zip] at hj
  have hja : j < (sortBy sp le a).length := by omega
  have hjb : j < (sortBy sp le b).length := by omega
  rw [List.getElem_zip, Prod.mk.injEq] at e
  have hn : (sortBy sp le a).Nodup := (sortBy_perm sp le a).nodup_iff.2 ha
  rw [asg, if_pos ((sortBy_perm sp le a).mem_iff.2 (List.getElem_mem h1)), ← e.1, hn.idxOf_getElem j hja]
  simp [List.getD, hjb, e.2]

/-! ### Stores -/

variable [DecidableEq ι]

theorem AgreeOn.mono {X Y : L → Prop} {D E : Store L ι S K} (h : AgreeOn X D E) (hy : ∀ l, Y l → X l) : AgreeOn Y D E :=
  ⟨h.sp, h.dims, fun l hl => h.arr l (hy l hl), fun l hl => h.var l (hy l hl)⟩

theorem AgreeOn.refl (X : L → Prop) (D : Store L ι S K) : AgreeOn X D D := ⟨rfl, rfl, fun _ _ => rfl, fun _ _ => rfl⟩

theorem AgreeOn.symm {X : L → Prop} {D E : Store L ι S K} (h : AgreeOn X D E) : AgreeOn X E D :=
  ⟨h.sp.symm, h.dims.symm, fun l hl => (h.arr l hl).symm, fun l hl => (h.var l hl).symm⟩

theorem AgreeOn.trans {X : L → Prop} {D E F : Store L ι S K} (h : AgreeOn X D E) (g : AgreeOn X E F) : AgreeOn X D F :=
  ⟨h.sp.trans g.sp, h.dims.trans g.dims, fun l hl => (h.arr l hl).trans (g.arr l hl), fun l hl => (h.var l hl).trans (g.var l hl)⟩

variable [CommRing K] [Star K]

/-- The value of a tree depends only on what it reads. -/
theorem nodeArr_congr {D E : Store L ι S K} : ∀ {n : Node L ι K H G}, AgreeOn (· ∈ reads n) D E → nodeArr D n = nodeArr E n := by
  intro n
  induction n with
  | leaf a =>
    intro h
    funext p
    cases he : a.expr with
    | const c => simp [nodeArr, plain, arrays, he]
    | var v => simp [nodeArr, plain, arrays, he, h.var v (by simp [reads, NX.label?, he])]
    | ten t => simp [nodeArr, plain, arrays, he, h.arr t.label (by simp [reads, NX.label?, he]), h.sp]
  | node a l r ihl ihr =>
    intro h
    have hl := ihl (h.mono fun x hx => by rw [reads]; exact List.mem_append_left _ hx)
    have hr := ihr (h.mono fun x hx => by rw [reads]; exact List.mem_append_right _ hx)
    funext p
    unfold nodeArr at hl hr ⊢
    cases ha : a.op with
    | sum => simp only [plain, ha, arrays] at hl hr ⊢; rw [hl, hr]
    | prod => simp only [plain, ha, arrays, h.dims] at hl hr ⊢; rw [hl, hr]
    | adjoint => simp only [plain, ha, arrays] at hl hr ⊢; rw [hl]

theorem nodeVal_congr {D E : Store L ι S K} {n : Node L ι K H G} (h : AgreeOn (· ∈ reads n) D E) : nodeVal D n = nodeVal E n := by
  funext ρ; rw [nodeVal, nodeVal, nodeArr_congr h]

variable [DecidableEq L] [DecidableEq S]

/-- An assignment changes nothing but the name. -/
theorem assign_agree (D : Store L ι S K) (n : Node L ι K H G) : AgreeOn (fun l => ∀ r, NX.label? n.label.expr = some r → l ≠ r) D (assign D n) := by
  unfold assign
  cases he : n.label.expr with
  | const c => exact AgreeOn.refl _ _
  | var v =>
    refine ⟨rfl, rfl, fun _ _ => rfl, fun l hl => ?_⟩
    have := hl v (by simp [NX.label?])
    simp [this]
  | ten t =>
    refine ⟨rfl, rfl, fun l hl => ?_, fun _ _ => rfl⟩
    have := hl t.label (by simp [NX.label?])
    funext k s p
    simp [this]

/-- The same assignment in stores that agree. -/
theorem assign_congr {X : L → Prop} {D E : Store L ι S K} (h : AgreeOn X D E) {m n : Node L ι K H G} (he : m.label.expr = n.label.expr)
    (hv : nodeVal D m = nodeVal E n) : AgreeOn X (assign D m) (assign E n) := by
  unfold assign
  rw [he]
  cases hx : n.label.expr with
  | const c => exact h
  | var v =>
    refine ⟨h.sp, h.dims, h.arr, fun l hl => ?_⟩
    simp only [hv, h.var l hl]
  | ten t =>
    refine ⟨h.sp, h.dims, fun l hl => ?_, h.var⟩
    simp only [hv, h.arr l hl, h.sp]

omit [DecidableEq ι] [CommRing K] [Star K] [DecidableEq L] [DecidableEq S] in
theorem inner_reads : ∀ {n x : Node L ι K H G}, x ∈ inner n → ∀ l ∈ reads x, l ∈ reads n := by
  intro n
  induction n with
  | leaf a => intro x hx; simp [inner] at hx
  | node a l r ihl ihr =>
    intro x hx z hz
    rw [inner, List.mem_cons, List.mem_append] at hx
    rcases hx with rfl | hx | hx
    · exact hz
    · rw [reads]; exact List.mem_append_left _ (ihl hx z hz)
    · rw [reads]; exact List.mem_append_right _ (ihr hx z hz)

end SeQuant.Cse
