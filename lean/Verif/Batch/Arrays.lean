import Verif.Eval.EvalProps
import Verif.Batch.Tiles
import Mathlib.Algebra.BigOperators.Group.Finset.Basic
import Mathlib.Algebra.BigOperators.Ring.Finset
import Mathlib.Algebra.BigOperators.Intervals
import Mathlib.Algebra.Ring.Defs
import Mathlib.Order.Interval.Finset.Nat

/-!
# Dense arrays and what the operations of a backend compute on them

What `sum`, `prod` (`TA::einsum`, `TA::dot`), `adjoint`, `mult_by_phase`, `slice_mode` and `add_inplace` mean
(`SeQuant/core/eval/backends/tiledarray/result.hpp:418-570`): modes are labelled by indices, `prod` sums over indices that the result lacks, a
slice keeps the numbering of elements (`preserve_lobound`).  Arrays of arrays are not modelled.
-/

namespace SeQuant.Batch

open SeQuant.Eval

def inBox : List (Nat × Nat) → List Nat → Bool
  | [], [] => true
  | b :: bs, v :: vs => decide (b.1 ≤ v ∧ v < b.2) && inBox bs vs
  | _, _ => false

/-- An array: the range of each mode, and the elements; 0 stands for what is outside. -/
structure Arr (F : Type) [Zero F] where
  rng : List (Nat × Nat)
  at_ : List Nat → F
  outside : ∀ v, inBox rng v = false → at_ v = 0

section
variable {F : Type} [Zero F]

theorem Arr.ext_in {x y : Arr F} (h : x.rng = y.rng) (h' : ∀ v, inBox x.rng v = true → x.at_ v = y.at_ v) : x = y := by
  obtain ⟨r, f, o⟩ := x
  obtain ⟨r', g, o'⟩ := y
  obtain rfl : r = r' := h
  have : f = g := by
    funext v
    cases hv : inBox r v with
    | true => exact h' v hv
    | false => rw [o v hv, o' v hv]
  subst this; rfl

def tab (rng : List (Nat × Nat)) (f : List Nat → F) : Arr F := ⟨rng, fun v => if inBox rng v then f v else 0, fun v hv => by simp [hv]⟩

theorem tab_at {r : List (Nat × Nat)} {f : List Nat → F} {v : List Nat} (h : inBox r v) : (tab r f).at_ v = f v := by simp [tab, h]

theorem tab_congr {r : List (Nat × Nat)} {f g : List Nat → F} (h : ∀ v, inBox r v → f v = g v) : tab r f = tab r g :=
  Arr.ext_in rfl fun v hv => by
    have hv' : inBox r v = true := hv
    rw [tab_at hv', tab_at hv', h v hv']

/-- `slice_mode` (435-455, 786-846): elements keep their numbers. -/
def sliceMode (x : Arr F) (p lo hi : Nat) : Arr F := tab (x.rng.set p (lo, hi)) x.at_
end

variable {L I F : Type} [DecidableEq I]

/-- The values of indices that a list of coordinates stands for. -/
def coords (ix : List I) (v : List Nat) : I → Nat := fun i => v.getD (ix.idxOf i) 0

/-- The range of index `i` in an array whose modes are labelled `ix`. -/
def rangeOf [Zero F] (ix : List I) (x : Arr F) (i : I) : Nat × Nat := x.rng.getD (ix.idxOf i) (0, 0)

section
variable [AddCommMonoid F]

/-- Sum over all values of some indices. -/
def sumOver (ext : I → Nat × Nat) : List I → ((I → Nat) → F) → (I → Nat) → F
  | [], f, σ => f σ
  | i :: is, f, σ => ∑ v ∈ Finset.Ico (ext i).1 (ext i).2, sumOver ext is f (Function.update σ i v)

/-- `add_inplace` (546-560). -/
def addArr (x y : Arr F) : Arr F := tab x.rng fun v => x.at_ v + y.at_ v
end

variable [CommRing F]

/-- Indices of the operands that the result lacks. -/
def contr (la lb c : List I) : List I := ((la ++ lb).filter fun i => !c.contains i).dedup

def ixOf (ix : L → List I) : ETree L → List I := fun t => ix t.label

/-- The operations on arrays, for nodes whose modes are labelled by `ix` (`canon_indices`). -/
def arrAlg (ix : L → List I) (conj : F → F) (leaf : L → Arr F) : Alg L (Arr F) where
  leaf := leaf
  sum t x y := match t with
    | .leaf _ => x
    | .node a l r => tab ((ix a).map (rangeOf (ix l.label) x)) fun v =>
        x.at_ ((ix l.label).map (coords (ix a) v)) + y.at_ ((ix r.label).map (coords (ix a) v))
  prod t x y := match t with
    | .leaf _ => x
    | .node a l r =>
      let ext := fun i => if i ∈ ix l.label then rangeOf (ix l.label) x i else rangeOf (ix r.label) y i
      tab ((ix a).map ext) fun v =>
        sumOver ext (contr (ix l.label) (ix r.label) (ix a)) (fun σ => x.at_ ((ix l.label).map σ) * y.at_ ((ix r.label).map σ)) (coords (ix a) v)
  adj t x := match t with
    | .leaf _ => x
    | .node a l _ => tab ((ix a).map (rangeOf (ix l.label) x)) fun v => conj (x.at_ ((ix l.label).map (coords (ix a) v)))
  scale p x := tab x.rng fun v => (p : F) * x.at_ v

/-! ### Values of trees as functions of the indices -/

/-- The labels fit together: no index twice, the operands of sums and adjoints have the indices of the result, the indices of a product occur
in an operand. -/
def Shaped (op : L → EOp) (ix : L → List I) : ETree L → Prop
  | .leaf a => (ix a).Nodup
  | .node a l r => (ix a).Nodup ∧ Shaped op ix l ∧ Shaped op ix r ∧
    match op a with
    | .sum => (∀ i, i ∈ ix l.label ↔ i ∈ ix a) ∧ ∀ i, i ∈ ix r.label ↔ i ∈ ix a
    | .prod => ∀ i ∈ ix a, i ∈ ix l.label ∨ i ∈ ix r.label
    | .adjoint => ∀ i, i ∈ ix l.label ↔ i ∈ ix a

/-- The value of a tree for given values of indices; the elements of leaves are given by `elem`, ranges of indices by `ext`. -/
def den (op : L → EOp) (ix : L → List I) (conj : F → F) (elem : L → List Nat → F) (ext : I → Nat × Nat) : ETree L → (I → Nat) → F
  | .leaf a, σ => elem a ((ix a).map σ)
  | .node a l r, σ =>
    match op a with
    | .sum => den op ix conj elem ext l σ + den op ix conj elem ext r σ
    | .prod => sumOver ext (contr (ix l.label) (ix r.label) (ix a)) (fun σ => den op ix conj elem ext l σ * den op ix conj elem ext r σ) σ
    | .adjoint => conj (den op ix conj elem ext l σ)

theorem mem_contr {la lb c : List I} {i : I} : i ∈ contr la lb c ↔ (i ∈ la ∨ i ∈ lb) ∧ i ∉ c := by
  simp [contr]; tauto

theorem contr_nodup (la lb c : List I) : (contr la lb c).Nodup := List.nodup_dedup _

section
variable {G : Type} [AddCommMonoid G]

theorem sumOver_congr {ext ext' : I → Nat × Nat} {is : List I} (h : ∀ i ∈ is, ext i = ext' i) {f g : (I → Nat) → G} :
    ∀ (σ τ : I → Nat) (T : I → Prop), (∀ i, T i → i ∉ is → σ i = τ i) →
    (∀ σ' τ' : I → Nat, (∀ i, T i → σ' i = τ' i) → (∀ i ∈ is, (ext i).1 ≤ σ' i ∧ σ' i < (ext i).2) → (∀ i, i ∉ is → σ' i = σ i) → f σ' = g τ') →
    sumOver ext is f σ = sumOver ext' is g τ := by
  induction is with
  | nil => intro σ τ T h1 h2; exact h2 σ τ (fun i hi => h1 i hi (by simp)) (by simp) (fun _ _ => rfl)
  | cons j js ih =>
    intro σ τ T h1 h2
    simp only [sumOver]
    rw [h j (by simp)]
    apply Finset.sum_congr rfl
    intro v hv
    apply ih (fun i hi => h i (by simp [hi])) _ _ T
    · intro i hi hij
      by_cases hj : i = j
      · subst hj; simp
      · simp [Function.update_of_ne hj, h1 i hi (by simp [hj, hij])]
    · intro σ' τ' h3 h4 h5
      apply h2 σ' τ' h3
      · intro i hi
        rcases List.mem_cons.1 hi with rfl | hi
        · by_cases hi' : i ∈ js
          · exact h4 i hi'
          · rw [h5 i hi']
            rw [h i (by simp)]
            simpa using hv
        · exact h4 i hi
      · intro i hi
        simp only [List.mem_cons, not_or] at hi
        rw [h5 i hi.2, Function.update_of_ne hi.1]

end

theorem den_congr (op : L → EOp) (ix : L → List I) (conj : F → F) (elem : L → List Nat → F) (ext : I → Nat × Nat) :
    ∀ (t : ETree L) (σ τ : I → Nat), Shaped op ix t → (∀ i ∈ ix t.label, σ i = τ i) →
    den op ix conj elem ext t σ = den op ix conj elem ext t τ
  | .leaf a, σ, τ, _, h => by
    simp only [den]; congr 1; exact List.map_congr_left h
  | .node a l r, σ, τ, hs, h => by
    obtain ⟨-, hl, hr, hop⟩ := hs
    simp only [den]
    cases ho : op a with
    | sum =>
      simp only [ho] at hop ⊢
      rw [den_congr op ix conj elem ext l σ τ hl fun i hi => h i ((hop.1 i).1 hi), den_congr op ix conj elem ext r σ τ hr fun i hi => h i ((hop.2 i).1 hi)]
    | adjoint =>
      simp only [ho] at hop ⊢
      rw [den_congr op ix conj elem ext l σ τ hl fun i hi => h i ((hop i).1 hi)]
    | prod =>
      simp only
      apply sumOver_congr (fun _ _ => rfl) σ τ (fun i => i ∈ ix l.label ∨ i ∈ ix r.label)
      · intro i hi hn
        apply h
        by_contra hc
        exact hn (mem_contr.2 ⟨hi, hc⟩)
      · intro σ' τ' h3 _ _
        rw [den_congr op ix conj elem ext l σ' τ' hl fun i hi => h3 i (.inl hi), den_congr op ix conj elem ext r σ' τ' hr fun i hi => h3 i (.inr hi)]

theorem inBox_map (ext : I → Nat × Nat) (ix : List I) (σ : I → Nat) :
    inBox (ix.map ext) (ix.map σ) = true ↔ ∀ i ∈ ix, (ext i).1 ≤ σ i ∧ σ i < (ext i).2 := by
  induction ix with
  | nil => simp [inBox]
  | cons j js ih => simp [inBox, ih]

theorem inBox_length : ∀ {r : List (Nat × Nat)} {v : List Nat}, inBox r v = true → r.length = v.length
  | [], [], _ => rfl
  | _ :: _, _ :: _, h => by
    simp only [inBox, Bool.and_eq_true] at h
    simp [inBox_length h.2]

theorem coords_map (ix : List I) (σ : I → Nat) (i : I) (h : i ∈ ix) : coords ix (ix.map σ) i = σ i := by
  unfold coords
  have hl := List.idxOf_lt_length_iff.2 h
  rw [List.getD_eq_getElem?_getD, List.getElem?_map, List.getElem?_eq_getElem hl]
  simp

theorem map_coords (ix : List I) (v : List Nat) (hn : ix.Nodup) (hl : ix.length = v.length) : ix.map (coords ix v) = v := by
  apply List.ext_getElem
  · simp [hl]
  · intro k h1 h2
    simp only [List.getElem_map, coords]
    have hk : k < ix.length := by simpa using h1
    rw [List.Nodup.idxOf_getElem hn k hk, List.getD_eq_getElem?_getD, List.getElem?_eq_getElem h2]
    rfl

theorem inBox_coords (ext : I → Nat × Nat) (ix : List I) (v : List Nat) (hn : ix.Nodup) (h : inBox (ix.map ext) v = true) :
    ∀ i ∈ ix, (ext i).1 ≤ coords ix v i ∧ coords ix v i < (ext i).2 := by
  have hl : ix.length = v.length := by simpa using inBox_length h
  rw [← inBox_map, map_coords ix v hn hl]; exact h

theorem rangeOf_tab (ext : I → Nat × Nat) (ix : List I) (f : List Nat → F) (i : I) (h : i ∈ ix) : rangeOf ix (tab (ix.map ext) f) i = ext i := by
  have hl := List.idxOf_lt_length_iff.2 h
  simp only [rangeOf, tab]
  rw [List.getD_eq_getElem?_getD, List.getElem?_map, List.getElem?_eq_getElem hl]
  simp

theorem label_node (a : L) (l r : ETree L) : (ETree.node a l r).label = a := rfl

/-- The array that evaluation of a tree yields, element by element. -/
theorem plain_den (op : L → EOp) (ix : L → List I) (conj : F → F) (elem : L → List Nat → F) (ext : I → Nat × Nat) :
    ∀ t : ETree L, Shaped op ix t →
    plain op (arrAlg ix conj fun a => tab ((ix a).map ext) (elem a)) t =
      tab ((ix t.label).map ext) fun v => den op ix conj elem ext t (coords (ix t.label) v)
  | .leaf a, hs => by
    simp only [plain, arrAlg, ETree.label]
    apply tab_congr
    intro v hv
    have hl : (ix a).length = v.length := by simpa using inBox_length hv
    rw [den, map_coords _ _ hs hl]
  | .node a l r, hs => by
    obtain ⟨hn, hl, hr, hop⟩ := hs
    have ihl := plain_den op ix conj elem ext l hl
    have ihr := plain_den op ix conj elem ext r hr
    have atL : ∀ (t : ETree L) (_ : Shaped op ix t) (σ : I → Nat), (∀ i ∈ ix t.label, (ext i).1 ≤ σ i ∧ σ i < (ext i).2) →
        (tab ((ix t.label).map ext) fun v => den op ix conj elem ext t (coords (ix t.label) v)).at_ ((ix t.label).map σ) = den op ix conj elem ext t σ := by
      intro t ht σ hσ
      rw [tab_at ((inBox_map ext _ σ).2 hσ)]
      exact den_congr op ix conj elem ext t _ _ ht fun i hi => coords_map _ σ i hi
    rw [plain]
    cases ho : op a with
    | sum =>
      simp only [ho] at hop
      simp only [ihl, ihr]
      simp only [arrAlg, label_node]
      have e1 : (ix a).map (rangeOf (ix l.label) (tab ((ix l.label).map ext) fun v => den op ix conj elem ext l (coords (ix l.label) v))) = (ix a).map ext :=
        List.map_congr_left fun i hi => rangeOf_tab ext _ _ i ((hop.1 i).2 hi)
      rw [e1]
      apply tab_congr
      intro v hv
      have hb := inBox_coords ext _ v hn hv
      rw [atL l hl _ fun i hi => hb i ((hop.1 i).1 hi), atL r hr _ fun i hi => hb i ((hop.2 i).1 hi)]
      simp only [den, ho]
    | adjoint =>
      simp only [ho] at hop
      simp only [ihl]
      simp only [arrAlg, label_node]
      have e1 : (ix a).map (rangeOf (ix l.label) (tab ((ix l.label).map ext) fun v => den op ix conj elem ext l (coords (ix l.label) v))) = (ix a).map ext :=
        List.map_congr_left fun i hi => rangeOf_tab ext _ _ i ((hop i).2 hi)
      rw [e1]
      apply tab_congr
      intro v hv
      have hb := inBox_coords ext _ v hn hv
      rw [atL l hl _ fun i hi => hb i ((hop i).1 hi)]
      simp only [den, ho]
    | prod =>
      simp only [ho] at hop
      simp only [ihl, ihr]
      simp only [arrAlg, label_node]
      have e0 : ∀ i, i ∈ ix l.label ∨ i ∈ ix r.label →
          (if i ∈ ix l.label then rangeOf (ix l.label) (tab ((ix l.label).map ext) fun v => den op ix conj elem ext l (coords (ix l.label) v)) i
            else rangeOf (ix r.label) (tab ((ix r.label).map ext) fun v => den op ix conj elem ext r (coords (ix r.label) v)) i) = ext i := by
        intro i hi
        by_cases h : i ∈ ix l.label
        · simp only [h, if_true]; exact rangeOf_tab ext _ _ i h
        · simp only [h, if_false]; exact rangeOf_tab ext _ _ i (hi.resolve_left h)
      rw [List.map_congr_left fun i hi => e0 i (hop i hi)]
      apply tab_congr
      intro v hv
      have hb := inBox_coords ext _ v hn hv
      simp only [den, ho]
      apply sumOver_congr (fun i hi => e0 i (mem_contr.1 hi).1) _ _ (fun _ => True) (fun _ _ _ => rfl)
      intro σ' τ' h3 h4 h5
      have h3' : σ' = τ' := funext fun i => h3 i trivial
      subst h3'
      have hin : ∀ i, i ∈ ix l.label ∨ i ∈ ix r.label → (ext i).1 ≤ σ' i ∧ σ' i < (ext i).2 := by
        intro i hi
        by_cases hc : i ∈ ix a
        · rw [h5 i (fun h => (mem_contr.1 h).2 hc)]; exact hb i hc
        · have := h4 i (mem_contr.2 ⟨hi, hc⟩)
          rwa [e0 i hi] at this
      rw [atL l hl σ' fun i hi => hin i (.inl hi), atL r hr σ' fun i hi => hin i (.inr hi)]

/-! ### Restricting an index -/

/-- The range of `K` restricted. -/
def restrict (ext : I → Nat × Nat) (K : I) (b : Nat × Nat) : I → Nat × Nat := Function.update ext K b

/-- Whatever carries `K` keeps it: no node of the tree sums over `K`. -/
def Stays (ix : L → List I) (K : I) : ETree L → Prop
  | .leaf _ => True
  | .node a l r => (K ∈ ix l.label ∨ K ∈ ix r.label → K ∈ ix a) ∧ Stays ix K l ∧ Stays ix K r

theorem den_restrict (op : L → EOp) (ix : L → List I) (conj : F → F) (elem : L → List Nat → F) (ext : I → Nat × Nat) (K : I) (b : Nat × Nat) :
    ∀ t : ETree L, Stays ix K t → den op ix conj elem (restrict ext K b) t = den op ix conj elem ext t
  | .leaf a, _ => by funext σ; rfl
  | .node a l r, ⟨h1, h2, h3⟩ => by
    funext σ
    have hl := den_restrict op ix conj elem ext K b l h2
    have hr := den_restrict op ix conj elem ext K b r h3
    simp only [den, hl, hr]
    cases op a with
    | sum => rfl
    | adjoint => rfl
    | prod =>
      simp only
      apply sumOver_congr _ σ σ (fun _ => True) (fun _ _ _ => rfl)
      · intro σ' τ' h _ _
        rw [funext fun i => h i trivial]
      · intro i hi
        obtain ⟨h4, h5⟩ := mem_contr.1 hi
        have : i ≠ K := by rintro rfl; exact h5 (h1 h4)
        simp [restrict, Function.update_of_ne this]

theorem map_restrict (ext : I → Nat × Nat) (K : I) (b : Nat × Nat) (ix : List I) (h : K ∉ ix) : ix.map (restrict ext K b) = ix.map ext :=
  List.map_congr_left fun i hi => by
    have : i ≠ K := by rintro rfl; exact h hi
    simp [restrict, Function.update_of_ne this]

theorem map_restrict_set (ext : I → Nat × Nat) (K : I) (b : Nat × Nat) (ix : List I) (hn : ix.Nodup) (h : K ∈ ix) :
    ix.map (restrict ext K b) = (ix.map ext).set (ix.idxOf K) b := by
  induction ix with
  | nil => simp at h
  | cons j js ih =>
    by_cases hj : j = K
    · subst hj
      have : j ∉ js := (List.nodup_cons.1 hn).1
      rw [List.map_cons, map_restrict ext j b js this]; simp [restrict]
    · have hk : K ∈ js := by
        rcases List.mem_cons.1 h with h | h
        · exact absurd h.symm hj
        · exact h
      rw [List.idxOf_cons_ne _ hj]
      simp only [List.map_cons, List.set_cons_succ]
      rw [ih (List.nodup_cons.1 hn).2 hk]
      simp [restrict, Function.update_of_ne hj]

/-- A box inside a box. -/
theorem inBox_restrict {ext : I → Nat × Nat} {K : I} {b : Nat × Nat} (hb : (ext K).1 ≤ b.1 ∧ b.2 ≤ (ext K).2) :
    ∀ (ix : List I) (v : List Nat), inBox (ix.map (restrict ext K b)) v = true → inBox (ix.map ext) v = true
  | [], [], _ => rfl
  | [], _ :: _, h => by simp [inBox] at h
  | _ :: _, [], h => by simp [inBox] at h
  | i :: is, v :: vs, h => by
    simp only [List.map_cons, inBox, Bool.and_eq_true, decide_eq_true_eq] at h ⊢
    refine ⟨?_, inBox_restrict hb is vs h.2⟩
    by_cases hi : i = K
    · subst hi; simp only [restrict, Function.update_self] at h; omega
    · simpa [restrict, Function.update_of_ne hi] using h.1

/-- Slicing an array in mode `K` is restricting `K`. -/
theorem slice_tab (ext : I → Nat × Nat) (K : I) (lo hi : Nat) (ix : List I) (hn : ix.Nodup) (h : K ∈ ix) (hb : (ext K).1 ≤ lo ∧ hi ≤ (ext K).2)
    (f : List Nat → F) : sliceMode (tab (ix.map ext) f) (ix.idxOf K) lo hi = tab (ix.map (restrict ext K (lo, hi))) f := by
  unfold sliceMode
  rw [show (tab (ix.map ext) f).rng = ix.map ext from rfl, ← map_restrict_set ext K (lo, hi) ix hn h]
  apply tab_congr
  intro v hv
  exact tab_at (inBox_restrict hb ix v hv)

/-! ### Batches -/

variable {G : Type} [AddCommMonoid G]

theorem sum_follow (f : Nat → G) : ∀ (bs : List (Nat × Nat)) (lo hi : Nat), Follow lo hi bs →
    (bs.map fun b => ∑ v ∈ Finset.Ico b.1 b.2, f v).sum = ∑ v ∈ Finset.Ico lo hi, f v
  | [], lo, hi, h => by simp only [Follow] at h; simp [h]
  | b :: bs, lo, hi, ⟨h1, h2, h3⟩ => by
    rw [List.map_cons, List.sum_cons, sum_follow f bs b.2 hi h3, ← h1]
    exact Finset.sum_Ico_consecutive f h2 (follow_le h3)

theorem list_sum_comm {α : Type} (bs : List α) (s : Finset Nat) (f : α → Nat → G) :
    (bs.map fun b => ∑ v ∈ s, f b v).sum = ∑ v ∈ s, (bs.map fun b => f b v).sum := by
  induction bs with
  | nil => simp
  | cons b bs ih => simp [ih, Finset.sum_add_distrib]

/-- `Σ_K = Σ_batches Σ_(K in the batch)`. -/
theorem sumOver_batches (ext : I → Nat × Nat) (K : I) (bs : List (Nat × Nat)) (hbs : Follow (ext K).1 (ext K).2 bs) :
    ∀ (is : List I) (_ : is.Nodup) (_ : K ∈ is) (f : (I → Nat) → G) (σ : I → Nat),
    (bs.map fun b => sumOver (restrict ext K b) is f σ).sum = sumOver ext is f σ
  | [], _, h, _, _ => absurd h (by simp)
  | i :: is, hn, h, f, σ => by
    simp only [sumOver]
    obtain ⟨hn1, hn2⟩ := List.nodup_cons.1 hn
    by_cases hi : i = K
    · subst hi
      simp only [restrict, Function.update_self]
      have : ∀ (b : Nat × Nat) (v : Nat), sumOver (Function.update ext i b) is f (Function.update σ i v) = sumOver ext is f (Function.update σ i v) := by
        intro b v
        apply sumOver_congr _ _ _ (fun _ => True) (fun _ _ _ => rfl)
        · intro σ' τ' h _ _; rw [funext fun i => h i trivial]
        · intro j hj
          have : j ≠ i := by rintro rfl; exact hn1 hj
          simp [Function.update_of_ne this]
      simp only [this]
      exact sum_follow (fun v => sumOver ext is f (Function.update σ i v)) bs _ _ hbs
    · have hk : K ∈ is := by
        rcases List.mem_cons.1 h with h | h
        · exact absurd h.symm hi
        · exact h
      simp only [restrict, Function.update_of_ne hi]
      rw [list_sum_comm]
      apply Finset.sum_congr rfl
      intro v _
      exact sumOver_batches ext K bs hbs is hn2 hk f _

/-- Partial results added up. -/
def addAll : List (Arr F) → Option (Arr F)
  | [] => none
  | x :: xs => some (xs.foldl addArr x)

theorem foldl_addArr (r : List (Nat × Nat)) : ∀ (fs : List (List Nat → F)) (g : List Nat → F),
    (fs.map fun f => tab r f).foldl addArr (tab r g) = tab r fun v => g v + (fs.map fun f => f v).sum
  | [], g => by simp
  | f :: fs, g => by
    rw [List.map_cons, List.foldl_cons]
    have : addArr (tab r g) (tab r f) = tab r fun v => g v + f v := by
      unfold addArr
      apply tab_congr
      intro v hv
      have hv' : inBox r v = true := hv
      rw [tab_at hv', tab_at hv']
    rw [this, foldl_addArr r fs]
    apply tab_congr
    intro v _
    simp [add_assoc]

end SeQuant.Batch
