import Verif.Cse.ExprModel
import Verif.Binarize.ValueProps

/-!
# The expression made from an evaluation tree has the value of the tree (C75)
-/

namespace SeQuant.Cse

open SeQuant.Eval SeQuant.Binarize SeQuant.Optimize

variable {L ι K H G S : Type} [DecidableEq ι] [CommRing K] [Star K] [DecidableEq K]

/-! ### Conditions -/

/-- An expression that keeps its value when it is multiplied by a constant. -/
def Scalable : Ex L ι K → Prop
  | .ten _ => True
  | .prod c _ => c = 1
  | _ => False

/-- Two operands of a product that keep their values. -/
def Factors : Ex L ι K → Ex L ι K → Prop
  | .const _, e => Scalable e
  | e, .const _ => Scalable e
  | _, _ => True

/-- A summand that is neither a constant nor zero. -/
def Summand : Ex L ι K → Prop
  | .const _ => False
  | .prod c _ => c ≠ 0
  | _ => True

/-- A tree whose constants multiply tensors, or products without a scalar, and whose summands are neither constants nor zeros. -/
def Clean : Node L ι K H G → Prop
  | .leaf _ => True
  | .node a l r =>
    match a.op with
    | .adjoint => True
    | .prod => Clean l ∧ Clean r ∧ ∀ x y, toExpr l = some x → toExpr r = some y → Factors x y
    | .sum => Clean l ∧ Clean r ∧ ∀ x y, toExpr l = some x → toExpr r = some y → Summand x ∧ Summand y

/-- A tree whose nodes have the right indices, if those in `V` are known outside: an index of a product stays if it occurs once or is known
outside, the summands of a sum have the same indices, an adjoint is the conjugate of its operand. -/
def Fits (D : Store L ι S K) (V : Finset ι) : Node L ι K H G → Prop
  | .leaf a =>
    match a.expr with
    | .ten t => t.adj = false ∧ t.idx.Nodup ∧ a.idx = t.idx
    | _ => a.idx = []
  | .node a l r =>
    match a.op with
    | .adjoint => ∃ t, a.expr = .ten t ∧ a.idx = t.idx ∧ t.idx.Nodup ∧ (∀ x ∈ l.label.idx, x ∈ a.idx) ∧ ∀ ρ, D.ten t ρ = star (nodeVal D l ρ)
    | .prod => ∀ x y, toExpr l = some x → toExpr r = some y →
        Fits D (allIdx x ∩ (V ∪ allIdx y)) l ∧ Fits D (allIdx y ∩ (V ∪ allIdx x)) r ∧ a.idx.Nodup ∧
          a.idx.toFinset = openOf V (slots (allIdx x ∩ (V ∪ allIdx y)) x ++ slots (allIdx y ∩ (V ∪ allIdx x)) y)
    | .sum => Fits D V l ∧ Fits D V r ∧ a.idx.Nodup ∧
        ∀ x y, toExpr l = some x → toExpr r = some y → a.idx.toFinset = openOf V (slots V x) ∧ a.idx.toFinset = openOf V (slots V y)

/-! ### Products -/

omit [Star K] in
theorem slotsProd_inter (A V P : Finset ι) : ∀ l : List (Ex L ι K), allIdxU l ⊆ A → slotsProd (A ∩ V) P l = slotsProd V P l := by
  intro l
  induction l generalizing P with
  | nil => intro _; rfl
  | cons e l ih =>
    intro h
    rw [allIdxU] at h
    have he : allIdx e ⊆ A := fun x hx => h (Finset.mem_union_left _ hx)
    have hl : allIdxU l ⊆ A := fun x hx => h (Finset.mem_union_right _ hx)
    have e1 : allIdx e ∩ (A ∩ V ∪ P ∪ allIdxU l) = allIdx e ∩ (V ∪ P ∪ allIdxU l) := by
      ext x
      simp only [Finset.mem_inter, Finset.mem_union]
      constructor
      · rintro ⟨h1, h2⟩; exact ⟨h1, by tauto⟩
      · rintro ⟨h1, h2⟩; exact ⟨h1, by have := he h1; tauto⟩
    rw [slotsProd, slotsProd, e1, ih _ hl]

theorem bodyProd_inter (D : Store L ι S K) (A V P : Finset ι) : ∀ l : List (Ex L ι K), allIdxU l ⊆ A →
    bodyProd D (A ∩ V) P l = bodyProd D V P l := by
  intro l
  induction l generalizing P with
  | nil => intro _; rw [bodyProd, bodyProd]
  | cons e l ih =>
    intro h
    rw [allIdxU] at h
    have he : allIdx e ⊆ A := fun x hx => h (Finset.mem_union_left _ hx)
    have hl : allIdxU l ⊆ A := fun x hx => h (Finset.mem_union_right _ hx)
    have e1 : allIdx e ∩ (A ∩ V ∪ P ∪ allIdxU l) = allIdx e ∩ (V ∪ P ∪ allIdxU l) := by
      ext x
      simp only [Finset.mem_inter, Finset.mem_union]
      constructor
      · rintro ⟨h1, h2⟩; exact ⟨h1, by tauto⟩
      · rintro ⟨h1, h2⟩; exact ⟨h1, by have := he h1; tauto⟩
    rw [bodyProd, bodyProd, e1, ih _ hl]

/-- No factor of a product is a constant. -/
def NoConst (l : List (Ex L ι K)) : Prop := ∀ e ∈ l, ∀ c, e ≠ .const c

omit [DecidableEq ι] [Star K] [DecidableEq K] in
theorem appendF_ne {p : K × List (Ex L ι K)} {e : Ex L ι K} (h : ∀ c, e ≠ .const c) : appendF p e = (p.1, p.2 ++ [e]) := by
  cases e <;> simp_all [appendF]

omit [DecidableEq ι] [Star K] [DecidableEq K] in
theorem foldl_appendF : ∀ (l : List (Ex L ι K)) (p : K × List (Ex L ι K)), NoConst l → l.foldl appendF p = (p.1, p.2 ++ l) := by
  intro l
  induction l with
  | nil => intro p _; simp
  | cons e l ih =>
    intro p h
    rw [List.foldl_cons, appendF_ne (h e (by simp)), ih _ fun x hx => h x (by simp [hx])]
    simp

omit [DecidableEq ι] [Star K] [DecidableEq K] in
theorem appendF_noConst {p : K × List (Ex L ι K)} (e : Ex L ι K) (h : NoConst p.2) : NoConst (appendF p e).2 := by
  cases e <;> simp only [appendF]
  · exact h
  all_goals
    intro x hx c
    rcases List.mem_append.1 hx with hx | hx
    · exact h x hx c
    · rw [List.mem_singleton.1 hx]; simp

omit [DecidableEq ι] [Star K] [DecidableEq K] in
theorem foldl_noConst : ∀ (l : List (Ex L ι K)) (p : K × List (Ex L ι K)), NoConst p.2 → NoConst (l.foldl appendF p).2 := by
  intro l
  induction l with
  | nil => intro p h; exact h
  | cons e l ih => intro p h; exact ih _ (appendF_noConst e h)

/-- Whether the factors of a product, if it is one, are no constants. -/
def Tidy : Ex L ι K → Prop
  | .prod _ l => NoConst l
  | .sum l => ∀ e ∈ l, Summand e ∧ ∀ m, e ≠ .sum m
  | _ => True

omit [DecidableEq ι] [Star K] [DecidableEq K] in
theorem finishProd_noConst {p : K × List (Ex L ι K)} (h : NoConst p.2) {e : Ex L ι K} (he : finishProd p = some e) : ∃ c l, e = .prod c l ∧ NoConst l := by
  unfold finishProd at he
  split at he
  · simp at he
  · rename_i t ht
    rw [Option.some.injEq] at he
    exact ⟨_, _, he.symm, by rw [← ht]; exact h⟩
  · rw [Option.some.injEq] at he
    exact ⟨_, _, he.symm, foldl_noConst _ _ (by intro x hx; simp at hx)⟩
  · rw [Option.some.injEq] at he
    exact ⟨_, _, he.symm, h⟩

omit [DecidableEq ι] [Star K] [DecidableEq K] in
theorem mkProd_noConst {x y e : Ex L ι K} (he : mkProd x y = some e) : ∃ c l, e = .prod c l ∧ NoConst l := by
  refine finishProd_noConst ?_ he
  exact appendF_noConst y (appendF_noConst x (by intro z hz; simp at hz))

/-! ### Sums -/

omit [DecidableEq ι] [Star K] in
theorem addTo_summand (l : List (Ex L ι K)) {e : Ex L ι K} (h : Summand e) (hs : ∀ m, e ≠ .sum m) : addTo l e = l ++ [e] := by
  cases e with
  | const c => exact h.elim
  | sum m => exact absurd rfl (hs m)
  | prod c m => rw [addTo, if_neg h]
  | var v => rw [addTo]
  | ten t => rw [addTo]

omit [DecidableEq ι] [Star K] in
theorem addAll_tidy : ∀ (m l : List (Ex L ι K)), (∀ e ∈ m, Summand e ∧ ∀ m, e ≠ .sum m) → addAll l m = l ++ m := by
  intro m
  induction m with
  | nil => intro l _; rw [addAll, List.append_nil]
  | cons e m ih =>
    intro l h
    rw [addAll, addTo_summand l (h e (by simp)).1 (h e (by simp)).2, ih _ fun x hx => h x (by simp [hx])]
    simp

/-- The summands of an expression. -/
def summands : Ex L ι K → List (Ex L ι K)
  | .sum l => l
  | e => [e]

omit [DecidableEq ι] [Star K] in
theorem addTo_tidy (l : List (Ex L ι K)) {e : Ex L ι K} (h : Summand e) (ht : Tidy e) : addTo l e = l ++ summands e := by
  by_cases hs : ∃ m, e = .sum m
  · obtain ⟨m, rfl⟩ := hs
    rw [addTo, summands, addAll_tidy m l ht]
  · have : summands e = [e] := by
      cases e <;> first | rfl | exact absurd ⟨_, rfl⟩ hs
    rw [this]
    exact addTo_summand l h fun m hm => hs ⟨m, hm⟩

omit [DecidableEq ι] [Star K] [DecidableEq K] in
theorem summands_tidy {e : Ex L ι K} (h : Summand e) (ht : Tidy e) : ∀ x ∈ summands e, Summand x ∧ ∀ m, x ≠ .sum m := by
  intro x hx
  cases e with
  | sum l => exact ht x hx
  | const c => exact h.elim
  | var v => simp only [summands, List.mem_singleton] at hx; subst hx; exact ⟨h, by simp⟩
  | ten t => simp only [summands, List.mem_singleton] at hx; subst hx; exact ⟨h, by simp⟩
  | prod c l => simp only [summands, List.mem_singleton] at hx; subst hx; exact ⟨h, by simp⟩

omit [DecidableEq ι] [Star K] in
/-- Expressions of clean trees. -/
theorem toExpr_tidy : ∀ {n : Node L ι K H G} {e : Ex L ι K}, Clean n → toExpr n = some e → Tidy e := by
  intro n
  induction n with
  | leaf a =>
    intro e _ h
    rw [toExpr, Option.some.injEq] at h
    subst h
    cases a.expr <;> trivial
  | node a l r ihl ihr =>
    intro e hc h
    unfold Clean at hc
    rw [toExpr] at h
    cases ha : a.op with
    | adjoint =>
      rw [ha] at h
      simp only [Option.some.injEq] at h
      subst h
      cases a.expr <;> trivial
    | prod =>
      rw [ha] at h
      simp only at h
      cases hx : toExpr l with
      | none => simp [hx] at h
      | some x =>
        cases hy : toExpr r with
        | none => simp [hx, hy] at h
        | some y =>
          simp only [hx, hy] at h
          obtain ⟨c, m, rfl, hm⟩ := mkProd_noConst h
          exact hm
    | sum =>
      rw [ha] at h hc
      simp only at h hc
      cases hx : toExpr l with
      | none => simp [hx] at h
      | some x =>
        cases hy : toExpr r with
        | none => simp [hx, hy] at h
        | some y =>
          simp only [hx, hy, Option.some.injEq] at h
          subst h
          obtain ⟨hs, ht⟩ := hc.2.2 x y hx hy
          have tx := ihl hc.1 hx
          have ty := ihr hc.2.1 hy
          rw [addTo_tidy _ hs tx, addTo_tidy _ ht ty]
          intro z hz
          rcases List.mem_append.1 hz with hz | hz
          · exact summands_tidy hs tx z (by simpa using hz)
          · exact summands_tidy ht ty z hz

/-! ### Values -/

variable (D : Store L ι S K)

/-- A node that computes the value of an expression. -/
structure Gives (V : Finset ι) (e : Ex L ι K) (n : Node L ι K H G) : Prop where
  nodup : n.label.idx.Nodup
  idx : n.label.idx.toFinset = openOf V (slots V e)
  dep : Optimize.DependsOn (body D V e) (· ∈ slots V e)
  val : nodeVal D n = value D V e

theorem prod_val {V P A : Finset ι} {Q q : List ι} (s : Step V P ∅ A Q q) {B b : (ι → Nat) → K} {a : EE L ι K H G}
    {m n : Node L ι K H G} (ha : a.op = .prod) (hi : a.idx.toFinset = openOf V (Q ++ q)) (dB : Optimize.DependsOn B (· ∈ Q))
    (db : Optimize.DependsOn b (· ∈ q)) (im : m.label.idx.toFinset = openOf (V ∪ A) Q) (jn : n.label.idx.toFinset = openOf (A ∩ (V ∪ P)) q)
    (vm : nodeVal D m = sumL D.dims (dummies (V ∪ A) Q).toList B) (vn : nodeVal D n = sumL D.dims (dummies (A ∩ (V ∪ P)) q).toList b) :
    nodeVal D (.node a m n) = sumL D.dims (dummies V (Q ++ q)).toList fun ρ => B ρ * b ρ := by
  have e1 := s.dummies_eq
  have e2 := fun x => s.dummy_left (x := x)
  have e3 := fun x => s.dummy_right (x := x)
  simp only [Finset.union_empty] at e1 e2 e3
  rw [nodeVal_prod D _ _ _ ha, hi, im, jn, vm, vn, ← sumL_perm D.dims e1, sumL_append]
  rw [sumL_mul_sumL D.dims _ _ B b (· ∈ Q) (· ∈ q) dB db]
  · intro x hx
    rw [Finset.mem_toList] at hx
    exact (e2 x hx).1
  · intro x hx
    rw [Finset.mem_toList] at hx
    exact (e3 x hx).1

omit [Star K] [CommRing K] [DecidableEq K] in
theorem step_two (V : Finset ι) (x y : Ex L ι K) :
    Step V (allIdx x) ∅ (allIdx y) (slots (allIdx x ∩ (V ∪ allIdx y)) x) (slots (allIdx y ∩ (V ∪ allIdx x)) y) := by
  refine ⟨fun z hz => slots_sub _ _ z hz, fun z hz => slots_sub _ _ z hz, fun z hz h => kept_slots _ x z hz ?_, fun z hz h => kept_slots _ y z hz ?_⟩
  · simp only [Finset.mem_inter, Finset.mem_union, Finset.notMem_empty, or_false] at h ⊢
    exact ⟨hz, h⟩
  · simp only [Finset.mem_inter, Finset.mem_union, Finset.notMem_empty, or_false] at h ⊢
    exact ⟨hz, h⟩

omit [Star K] [CommRing K] [DecidableEq K] in
theorem openOf_congr {W W' : Finset ι} {Q : List ι} (h : ∀ x ∈ Q, x ∈ W ↔ x ∈ W') : openOf W Q = openOf W' Q := by
  ext x
  rw [mem_openOf, mem_openOf]
  exact and_congr_right fun hx => by rw [h x hx]

omit [Star K] [CommRing K] [DecidableEq K] in
theorem dummies_congr {W W' : Finset ι} {Q : List ι} (h : ∀ x ∈ Q, x ∈ W ↔ x ∈ W') : dummies W Q = dummies W' Q := by
  rw [dummies, dummies, openOf_congr h]

/-- The product of two factors, neither of which is a constant or both of which may be. -/
theorem node_prod {V : Finset ι} {x y : Ex L ι K} {a : EE L ι K H G} {l r : Node L ι K H G} (ha : a.op = .prod)
    (hx : Gives D (allIdx x ∩ (V ∪ allIdx y)) x l) (hy : Gives D (allIdx y ∩ (V ∪ allIdx x)) y r)
    (hi : a.idx.toFinset = openOf V (slots (allIdx x ∩ (V ∪ allIdx y)) x ++ slots (allIdx y ∩ (V ∪ allIdx x)) y)) :
    nodeVal D (.node a l r) = sumL D.dims (dummies V (slots (allIdx x ∩ (V ∪ allIdx y)) x ++ slots (allIdx y ∩ (V ∪ allIdx x)) y)).toList
      fun ρ => body D (allIdx x ∩ (V ∪ allIdx y)) x ρ * body D (allIdx y ∩ (V ∪ allIdx x)) y ρ := by
  have hc : ∀ z ∈ slots (allIdx x ∩ (V ∪ allIdx y)) x, z ∈ allIdx x ∩ (V ∪ allIdx y) ↔ z ∈ V ∪ allIdx y := by
    intro z hz
    have := slots_sub _ _ z hz
    simp only [Finset.mem_inter]
    tauto
  refine prod_val D (step_two V x y) ha hi hx.dep hy.dep ?_ hy.idx ?_ hy.val
  · rw [hx.idx, openOf_congr hc]
  · rw [hx.val, value, dummies_congr hc]

theorem value_two (V : Finset ι) (c : K) (x y : Ex L ι K) :
    slots V (.prod c [x, y] : Ex L ι K) = slots (allIdx x ∩ (V ∪ allIdx y)) x ++ slots (allIdx y ∩ (V ∪ allIdx x)) y ∧
    body D V (.prod c [x, y] : Ex L ι K) = fun ρ => c * (body D (allIdx x ∩ (V ∪ allIdx y)) x ρ * body D (allIdx y ∩ (V ∪ allIdx x)) y ρ) := by
  constructor
  · simp only [slots, slotsProd, allIdxU, Finset.union_empty, Finset.empty_union, List.append_nil]
  · rw [body]
    funext ρ
    simp only [bodyProd, allIdxU, Finset.union_empty, Finset.empty_union, mul_one]

/-- A scalable expression times a constant. -/
def scaled (c : K) : Ex L ι K → Ex L ι K
  | .prod _ l => .prod c l
  | e => .prod c [e]

theorem scaled_value (V : Finset ι) (c : K) {x : Ex L ι K} (hx : Scalable x) : slots V (scaled c x) = slots (allIdx x ∩ V) x ∧
    body D V (scaled c x) = fun ρ => c * body D (allIdx x ∩ V) x ρ := by
  cases x with
  | const d => exact hx.elim
  | var v => exact hx.elim
  | sum l => exact hx.elim
  | ten t =>
    refine ⟨?_, ?_⟩
    · simp [scaled, slots, slotsProd]
    · funext ρ
      simp [scaled, body, bodyProd]
  | prod d l =>
    have hd : d = 1 := hx
    subst hd
    refine ⟨?_, ?_⟩
    · simp only [scaled, slots, allIdx]
      exact (slotsProd_inter (allIdxU l) V ∅ l (fun z hz => hz)).symm
    · funext ρ
      have := bodyProd_inter D (allIdxU l) V ∅ l (fun z hz => hz)
      simp only [scaled, body, allIdx, this, one_mul]

omit [DecidableEq ι] [Star K] [DecidableEq K] in
theorem mkProd_const_left (c : K) {x : Ex L ι K} (hx : Scalable x) (ht : Tidy x) : mkProd (.const c) x = some (scaled c x) := by
  cases x with
  | const d => exact hx.elim
  | var v => exact hx.elim
  | sum l => exact hx.elim
  | ten t => simp [mkProd, appendF, finishProd, scaled]
  | prod d l =>
    have hn : NoConst l := ht
    simp only [mkProd, appendF, finishProd, List.nil_append, one_mul, scaled, children]
    rw [foldl_appendF l _ hn]
    simp

omit [DecidableEq ι] [Star K] [DecidableEq K] in
theorem mkProd_const_right (c : K) {x : Ex L ι K} (hx : Scalable x) (ht : Tidy x) : mkProd x (.const c) = some (scaled c x) := by
  cases x with
  | const d => exact hx.elim
  | var v => exact hx.elim
  | sum l => exact hx.elim
  | ten t => simp [mkProd, appendF, finishProd, scaled]
  | prod d l =>
    have hn : NoConst l := ht
    simp only [mkProd, appendF, finishProd, List.nil_append, one_mul, scaled, children]
    rw [foldl_appendF l _ hn]
    simp

omit [DecidableEq ι] [Star K] [DecidableEq K] in
theorem mkProd_two {x y : Ex L ι K} (hx : ∀ c, x ≠ .const c) (hy : ∀ c, y ≠ .const c) : mkProd x y = some (.prod 1 [x, y]) := by
  unfold mkProd
  rw [appendF_ne hx, appendF_ne hy]
  simp [finishProd]

theorem scaled_gives {V : Finset ι} {c : K} {x : Ex L ι K} (hx : Scalable x) {n : Node L ι K H G} {m : Node L ι K H G}
    (hg : Gives D (allIdx x ∩ V) x m) (hn : n.label.idx.Nodup) (hi : n.label.idx.toFinset = openOf V (slots (allIdx x ∩ V) x))
    (hv : nodeVal D n = sumL D.dims (dummies V (slots (allIdx x ∩ V) x)).toList fun ρ => c * body D (allIdx x ∩ V) x ρ) :
    Gives D V (scaled c x) n := by
  obtain ⟨e1, e2⟩ := scaled_value D V c hx
  refine ⟨hn, by rw [e1, hi], ?_, by rw [hv, value, e1, e2]⟩
  rw [e1, e2]
  intro σ τ h
  show c * _ = c * _
  rw [hg.dep σ τ h]

/-! ### Sums -/

omit [Star K] [DecidableEq K] in
theorem slots_sum_nodup (V : Finset ι) : ∀ l : List (Ex L ι K), (slots V (.sum l : Ex L ι K)).Nodup := by
  intro l
  rw [slots]
  cases l with
  | nil => rw [slotsHead]; exact List.nodup_nil
  | cons e l => rw [slotsHead_cons]; exact openList_nodup _ _

omit [DecidableEq K] in
theorem bodySum_append (V : Finset ι) : ∀ l m : List (Ex L ι K), bodySum D V (l ++ m) = fun ρ => bodySum D V l ρ + bodySum D V m ρ := by
  intro l
  induction l with
  | nil => intro m; funext ρ; simp [bodySum]
  | cons e l ih =>
    intro m
    rw [List.cons_append, bodySum, ih, bodySum]
    funext ρ
    simp only [add_assoc]

omit [DecidableEq K] in
theorem value_sum (V : Finset ι) (l : List (Ex L ι K)) : value D V (.sum l) = bodySum D V l := by
  rw [value, dummies_nodup (slots_sum_nodup V l), Finset.toList_empty]
  simp only [sumL, body]

omit [DecidableEq K] in
theorem bodySum_summands (V : Finset ι) (e : Ex L ι K) : bodySum D V (summands e) = value D V e := by
  by_cases hs : ∃ m, e = .sum m
  · obtain ⟨m, rfl⟩ := hs
    rw [summands, value_sum]
  · have : summands e = [e] := by
      cases e <;> first | rfl | exact absurd ⟨_, rfl⟩ hs
    rw [this, bodySum, bodySum]
    funext ρ
    simp [value]

omit [Star K] [DecidableEq K] in
/-- The open indices of a sum are those of its first operand. -/
theorem open_sum (V : Finset ι) (e : Ex L ι K) (m : List (Ex L ι K)) (h : summands e ≠ []) :
    openOf V (slots V (.sum (summands e ++ m) : Ex L ι K)) = openOf V (slots V e) := by
  rw [openOf_nodup (slots_sum_nodup V _)]
  by_cases hs : ∃ l, e = .sum l
  · obtain ⟨l, rfl⟩ := hs
    rw [openOf_nodup (slots_sum_nodup V _)]
    cases l with
    | nil => exact absurd rfl h
    | cons x l => simp only [summands, List.cons_append, slots, slotsHead_cons]
  · have : summands e = [e] := by
      cases e <;> first | rfl | exact absurd ⟨_, rfl⟩ hs
    rw [this, List.cons_append, slots, slotsHead_cons, openList_toFinset]

omit [DecidableEq K] in
theorem value_depends {V : Finset ι} {e : Ex L ι K} (h : Optimize.DependsOn (body D V e) (· ∈ slots V e)) :
    Optimize.DependsOn (value D V e) (· ∈ openOf V (slots V e)) := by
  intro σ τ hst
  refine sumL_depends D.dims _ _ _ h σ τ fun z hz => hst z ?_
  by_contra hcon
  exact hz.2 (Finset.mem_toList.2 (Finset.mem_sdiff.2 ⟨List.mem_toFinset.2 hz.1, hcon⟩))

omit [DecidableEq ι] [Star K] in
theorem toExpr_summands : ∀ {n : Node L ι K H G} {e : Ex L ι K}, Clean n → toExpr n = some e → summands e ≠ [] := by
  intro n
  induction n with
  | leaf a =>
    intro e _ h
    rw [toExpr, Option.some.injEq] at h
    subst h
    cases a.expr <;> simp [ofNX, summands]
  | node a l r ihl ihr =>
    intro e hc h
    have ht := @toExpr_tidy L ι K H G _ _
    unfold Clean at hc
    rw [toExpr] at h
    cases ha : a.op with
    | adjoint =>
      rw [ha] at h
      simp only [Option.some.injEq] at h
      subst h
      cases a.expr <;> simp [ofNX, summands]
    | prod =>
      rw [ha] at h
      simp only at h
      cases hx : toExpr l with
      | none => simp [hx] at h
      | some x =>
        cases hy : toExpr r with
        | none => simp [hx, hy] at h
        | some y =>
          simp only [hx, hy] at h
          obtain ⟨c, m, rfl, hm⟩ := mkProd_noConst h
          simp [summands]
    | sum =>
      rw [ha] at h hc
      simp only at h hc
      cases hx : toExpr l with
      | none => simp [hx] at h
      | some x =>
        cases hy : toExpr r with
        | none => simp [hx, hy] at h
        | some y =>
          simp only [hx, hy, Option.some.injEq] at h
          subst h
          obtain ⟨hs, hs'⟩ := hc.2.2 x y hx hy
          rw [addTo_tidy _ hs (ht hc.1 hx), addTo_tidy _ hs' (ht hc.2.1 hy), summands]
          intro h0
          have := ihl hc.1 hx
          simp_all

/-! ### The theorem -/

theorem leaf_gives {V : Finset ι} {a : EE L ι K H G} (h : Fits D V (.leaf a : Node L ι K H G)) : Gives D V (ofNX a.expr) (.leaf a) := by
  unfold Fits at h
  cases he : a.expr with
  | const c =>
    simp only [he] at h
    refine ⟨by simp [ETree.label, h], by simp [ETree.label, h, ofNX, slots, openOf], ?_, ?_⟩
    · intro σ τ _; simp [ofNX, body]
    · funext ρ; simp [nodeVal, nodeArr, plain, arrays, he, ofNX, value, slots, dummies, openOf, sumL, body]
  | var v =>
    simp only [he] at h
    refine ⟨by simp [ETree.label, h], by simp [ETree.label, h, ofNX, slots, openOf], ?_, ?_⟩
    · intro σ τ _; simp [ofNX, body]
    · funext ρ; simp [nodeVal, nodeArr, plain, arrays, he, ofNX, value, slots, dummies, openOf, sumL, body]
  | ten t =>
    simp only [he] at h
    obtain ⟨h1, h2, h3⟩ := h
    refine ⟨by rw [ETree.label, h3]; exact h2, by rw [ETree.label, h3]; simp only [ofNX, slots]; rw [openOf_nodup h2], ?_, ?_⟩
    · simp only [ofNX, slots, body]
      exact ten_depends t
    · funext ρ
      simp only [value, ofNX, slots, dummies_nodup h2, Finset.toList_empty, sumL, body]
      simp only [nodeVal, nodeArr, plain, arrays, he, ETree.label, h3, pad_map, Store.ten, h1]
      simp

/-- Every node of a tree that fits computes the value of its expression. -/
theorem toExpr_gives : ∀ {n : Node L ι K H G} {V : Finset ι} {e : Ex L ι K}, Fits D V n → Clean n → toExpr n = some e → Gives D V e n := by
  intro n
  induction n with
  | leaf a =>
    intro V e hf _ h
    rw [toExpr, Option.some.injEq] at h
    subst h
    exact leaf_gives D hf
  | node a l r ihl ihr =>
    intro V e hf hc h
    have hcl := hc
    unfold Fits at hf
    unfold Clean at hc
    rw [toExpr] at h
    cases ha : a.op with
    | adjoint =>
      rw [ha] at h
      simp only [Option.some.injEq] at h
      subst h
      simp only [ha] at hf
      obtain ⟨t, h1, h2, h3, h4, h5⟩ := hf
      rw [h1, ofNX]
      refine ⟨by rw [ETree.label, h2]; exact h3, by rw [ETree.label, h2, slots, openOf_nodup h3], ?_, ?_⟩
      · simp only [slots, body]; exact ten_depends t
      · rw [nodeVal_adj D _ _ _ ha h4]
        funext ρ
        simp only [value, slots, dummies_nodup h3, Finset.toList_empty, sumL, body]
        exact (h5 ρ).symm
    | prod =>
      rw [ha] at h
      simp only [ha] at hf hc
      simp only at h
      cases hx : toExpr l with
      | none => simp [hx] at h
      | some x =>
        cases hy : toExpr r with
        | none => simp [hx, hy] at h
        | some y =>
          simp only [hx, hy] at h
          obtain ⟨f1, f2, f3, f4⟩ := hf x y hx hy
          have gx := ihl f1 hc.1 hx
          have gy := ihr f2 hc.2.1 hy
          have tx := toExpr_tidy hc.1 hx
          have ty := toExpr_tidy hc.2.1 hy
          have hF := hc.2.2 x y hx hy
          have hv := node_prod D ha gx gy f4
          by_cases cx : ∃ c, x = .const c
          · obtain ⟨c, rfl⟩ := cx
            have hs : Scalable y := by cases y <;> first | exact hF | exact hF.elim
            rw [mkProd_const_left c hs ty, Option.some.injEq] at h
            subst h
            have e1 : allIdx y ∩ (V ∪ allIdx (Ex.const c : Ex L ι K)) = allIdx y ∩ V := by simp [allIdx]
            have e2 : ∀ W : Finset ι, slots W (Ex.const c : Ex L ι K) = [] := fun W => by rw [slots]
            have e3 : ∀ W : Finset ι, body D W (Ex.const c : Ex L ι K) = fun _ => c := fun W => by rw [body]
            rw [e1] at gy f4 hv
            rw [e2, List.nil_append] at f4 hv
            rw [e3] at hv
            exact scaled_gives D hs gy f3 f4 hv
          · by_cases cy : ∃ c, y = .const c
            · obtain ⟨c, rfl⟩ := cy
              have hs : Scalable x := by cases x <;> first | exact hF | exact absurd ⟨_, rfl⟩ cx
              rw [mkProd_const_right c hs tx, Option.some.injEq] at h
              subst h
              have e1 : allIdx x ∩ (V ∪ allIdx (Ex.const c : Ex L ι K)) = allIdx x ∩ V := by simp [allIdx]
              have e2 : ∀ W : Finset ι, slots W (Ex.const c : Ex L ι K) = [] := fun W => by rw [slots]
              have e3 : ∀ W : Finset ι, body D W (Ex.const c : Ex L ι K) = fun _ => c := fun W => by rw [body]
              rw [e1] at gx f4 hv
              rw [e2, List.append_nil] at f4 hv
              rw [e3] at hv
              simp only [mul_comm _ c] at hv
              exact scaled_gives D hs gx f3 f4 hv
            · rw [mkProd_two (fun c hcx => cx ⟨c, hcx⟩) (fun c hcy => cy ⟨c, hcy⟩), Option.some.injEq] at h
              subst h
              obtain ⟨e1, e2⟩ := value_two D V 1 x y
              simp only [one_mul] at e2
              refine ⟨f3, by rw [e1]; exact f4, ?_, by rw [hv, value, e1, e2]⟩
              rw [e1, e2]
              intro σ τ hst
              show _ * _ = _ * _
              rw [gx.dep σ τ fun z hz => hst z (List.mem_append_left _ hz), gy.dep σ τ fun z hz => hst z (List.mem_append_right _ hz)]
    | sum =>
      rw [ha] at h
      simp only [ha] at hf hc
      simp only at h
      cases hx : toExpr l with
      | none => simp [hx] at h
      | some x =>
        cases hy : toExpr r with
        | none => simp [hx, hy] at h
        | some y =>
          simp only [hx, hy, Option.some.injEq] at h
          subst h
          obtain ⟨f1, f2, f3, f4⟩ := hf
          obtain ⟨f5, f6⟩ := f4 x y hx hy
          obtain ⟨sx, sy⟩ := hc.2.2 x y hx hy
          have gx := ihl f1 hc.1 hx
          have gy := ihr f2 hc.2.1 hy
          rw [addTo_tidy _ sx (toExpr_tidy hc.1 hx), addTo_tidy _ sy (toExpr_tidy hc.2.1 hy), List.nil_append]
          have ho := open_sum V x (summands y) (toExpr_summands hc.1 hx)
          have hb : bodySum D V (summands x ++ summands y) = fun ρ => value D V x ρ + value D V y ρ := by
            rw [bodySum_append, bodySum_summands, bodySum_summands]
          refine ⟨f3, by rw [ho]; exact f5, ?_, ?_⟩
          · have e1 : body D V (.sum (summands x ++ summands y) : Ex L ι K) = bodySum D V (summands x ++ summands y) := by rw [body]
            rw [e1, hb]
            intro σ τ hst
            have hm : ∀ z ∈ openOf V (slots V x), σ z = τ z := by
              intro z hz
              rw [← ho, mem_openOf] at hz
              exact hst z hz.1
            show _ + _ = _ + _
            rw [value_depends D gx.dep σ τ hm, value_depends D gy.dep σ τ fun z hz => hm z (by rw [← f5, f6]; exact hz)]
          · rw [value_sum, hb, nodeVal_sum D _ _ _ ha, gx.val, gy.val]
            · intro z hz
              rw [← List.mem_toFinset, f5, ← gx.idx, List.mem_toFinset]; exact hz
            · intro z hz
              rw [← List.mem_toFinset, f6, ← gy.idx, List.mem_toFinset]; exact hz

/-- **C75** The expression made from a tree has the value of the tree.  Partial: the tree fits, that is, it has the indices left to right binarization
gives it and no phases, and no operand is scaled that is a sum, a variable or scaled itself. -/
theorem toExpr_value_partial {n : Node L ι K H G} {V : Finset ι} {e : Ex L ι K} (hf : Fits D V n) (hc : Clean n) (h : toExpr n = some e) :
    nodeVal D n = value D V e := (toExpr_gives D hf hc h).val

end SeQuant.Cse
