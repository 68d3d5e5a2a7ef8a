import Verif.Vertex.Props

/-!
# What normal operators keep with their operators (C59)
-/

namespace SeQuant.Vertices

variable {E H : Type} [DecidableEq H] (C : OpCfg E H)

/-- Everything kept agrees with the operators. -/
structure Current (n : NOp E H) : Prop where
  ncre : n.ncre = n.ops.countP C.cre
  hug : ∀ v, n.hug = some v → Rep C.eq v n.ops
  hash : ∀ h, n.hash = some h → h = C.hashOf n.ops

/-- Calls on a normal operator. -/
inductive OpCmd (E : Type) where
  | hug
  | hash
  | erase (i : Nat)
  | insert (i : Nat) (e : E)
  | adjoint
  | transform

def OpCmd.run (n : NOp E H) : OpCmd E → Option (NOp E H)
  | .hug => (Vertices.hug C n).map Prod.fst
  | .hash => (hashValue C n).map Prod.fst
  | .erase i => eraseOp C n i
  | .insert i e => insertOp C n i e
  | .adjoint => some (adjointOp C n)
  | .transform => some (transformOp C n)

/-- The effect on the sequence of operators. -/
def OpCmd.spec (ops : List E) : OpCmd E → List E
  | .hug => ops
  | .hash => ops
  | .erase i => ops.eraseIdx i
  | .insert i e => ops.insertIdx i e
  | .adjoint => ops.reverse.map C.adj
  | .transform => ops.map fun e => (C.subst e).getD e

/-- The calls covered: positions exist; no erasing or inserting while a hash value is memoized; no substitution that changes the kind of an
operator while there is a vertex. -/
def OpCmd.Ok (n : NOp E H) : OpCmd E → Prop
  | .hug => True
  | .hash => True
  | .erase i => i < n.ops.length ∧ n.hash = none
  | .insert i _ => i ≤ n.ops.length ∧ n.hash = none
  | .adjoint => True
  | .transform => n.hug = none ∨ ∀ e ∈ n.ops, C.eq e ((C.subst e).getD e) = true

/-- Assumptions on operators: equivalence of kinds; the adjoint exchanges creators and annihilators; substitutions keep the action. -/
structure OpLaws : Prop where
  eq : IsEq C.eq
  adj : ∀ e, C.cre (C.adj e) = !C.cre e
  subst : ∀ e, C.cre ((C.subst e).getD e) = C.cre e

variable {C}

omit [DecidableEq H] in
theorem mk_current (cres anns : List E) (hc : ∀ e ∈ cres, C.cre e = true) (ha : ∀ e ∈ anns, C.cre e = false) :
    Current C (mk cres anns : NOp E H) := by
  refine ⟨?_, by simp [mk], by simp [mk]⟩
  have h1 : cres.countP C.cre = cres.length := List.countP_eq_length.2 hc
  have h2 : anns.countP C.cre = 0 := List.countP_eq_zero.2 fun e he => by simp [ha e he]
  simp [mk, List.countP_append, List.countP_reverse, h1, h2]

theorem rep_congr {eq : E → E → Bool} (hq : IsEq eq) {v : Vtx E} {l : List E} (f : E → E) (hf : ∀ e ∈ l, eq e (f e) = true) (h : Rep eq v l) :
    Rep eq v (l.map f) := by
  refine ⟨by rw [h.length, List.length_map], ?_, ?_, h.distinct⟩
  · intro i j hij
    obtain ⟨g, e, h1, h2, h3⟩ := h.mem i j hij
    exact ⟨g, f e, h1, by rw [List.getElem?_map, h2]; rfl, hq.trans _ _ _ h3 (hf e (List.mem_of_getElem? h2))⟩
  · intro g hg
    rw [h.group g hg]
    unfold positions
    rw [List.length_map]
    refine List.filter_congr fun i _ => ?_
    rw [List.getElem?_map]
    cases hi : l[i]? with
    | none => rfl
    | some e =>
      have := hf e (List.mem_of_getElem? hi)
      simp only [Option.any_some, Option.map_some]
      rw [Bool.eq_iff_iff]
      exact ⟨fun hx => hq.trans _ _ _ hx this, fun hx => hq.trans _ _ _ hx (hq.symm _ _ this)⟩

omit [DecidableEq H] in
theorem countP_eraseIdx (p : E → Bool) : ∀ (l : List E) (i : Nat) (e : E), l[i]? = some e →
    (l.eraseIdx i).countP p = if p e then l.countP p - 1 else l.countP p
  | [], _, _, h => by simp at h
  | x :: l, 0, e, h => by
    simp only [List.getElem?_cons_zero, Option.some.injEq] at h
    subst h
    simp only [List.eraseIdx_zero, List.tail_cons, List.countP_cons]
    split <;> simp
  | x :: l, i + 1, e, h => by
    rw [List.getElem?_cons_succ] at h
    have ih := countP_eraseIdx p l i e h
    rw [List.eraseIdx_cons_succ, List.countP_cons, ih, List.countP_cons]
    by_cases hp : p e = true
    · have : 0 < l.countP p := List.countP_pos_iff.2 ⟨e, List.mem_of_getElem? h, hp⟩
      simp only [hp, if_true]
      omega
    · simp [hp]

omit [DecidableEq H] in
theorem countP_insertIdx (p : E → Bool) (e : E) : ∀ (l : List E) (i : Nat), i ≤ l.length →
    (l.insertIdx i e).countP p = if p e then l.countP p + 1 else l.countP p
  | l, 0, _ => by
    rw [List.insertIdx_zero, List.countP_cons]
    split <;> simp
  | [], i + 1, h => by simp at h
  | x :: l, i + 1, h => by
    have ih := countP_insertIdx p e l i (by simpa using h)
    rw [List.insertIdx_succ_cons, List.countP_cons, ih, List.countP_cons]
    split <;> omega

/-- One call. -/
theorem step_current (hC : OpLaws C) {n : NOp E H} (h : Current C n) (c : OpCmd E) (hok : c.Ok C n) :
    ∃ n', c.run C n = some n' ∧ Current C n' ∧ n'.ops = c.spec C n.ops := by
  cases c with
  | hug =>
    simp only [OpCmd.run, OpCmd.spec, Vertices.hug]
    cases hh : n.hug with
    | some v => exact ⟨n, rfl, h, rfl⟩
    | none =>
      obtain ⟨v, h1, h2⟩ := make_rep hC.eq n.ops
      rw [h1]
      refine ⟨_, rfl, ⟨h.ncre, ?_, h.hash⟩, rfl⟩
      intro v' hv
      simp only [Option.some.injEq] at hv
      subst hv
      exact h2
  | hash =>
    simp only [OpCmd.run, OpCmd.spec, hashValue]
    cases hh : n.hash with
    | none =>
      refine ⟨_, rfl, ⟨h.ncre, h.hug, ?_⟩, rfl⟩
      intro x hx
      simp only [Option.some.injEq] at hx
      exact hx.symm
    | some x =>
      simp only [h.hash x hh, if_true]
      exact ⟨n, rfl, h, rfl⟩
  | erase i =>
    obtain ⟨hi, hhash⟩ := hok
    have he := List.getElem?_eq_getElem hi
    simp only [OpCmd.run, OpCmd.spec, eraseOp, he]
    have hcnt := countP_eraseIdx C.cre n.ops i _ he
    rw [← h.ncre] at hcnt
    cases hh : n.hug with
    | none =>
      refine ⟨_, rfl, ⟨hcnt.symm, by simp, by simp [hhash]⟩, rfl⟩
    | some v =>
      obtain ⟨v', h1, h2⟩ := erase_rep hC.eq (h.hug v hh) he n.ops[i] (hC.eq.refl _)
      simp only [h1, Option.map_some]
      refine ⟨_, rfl, ⟨hcnt.symm, ?_, by simp [hhash]⟩, rfl⟩
      intro w hw
      simp only [Option.some.injEq] at hw
      subst hw
      exact h2
  | insert i e =>
    obtain ⟨hi, hhash⟩ := hok
    simp only [OpCmd.run, OpCmd.spec, insertOp, if_neg (Nat.not_lt.2 hi)]
    have hcnt := countP_insertIdx C.cre e n.ops i hi
    rw [← h.ncre] at hcnt
    cases hh : n.hug with
    | none =>
      refine ⟨_, rfl, ⟨hcnt.symm, by simp, by simp [hhash]⟩, rfl⟩
    | some v =>
      obtain ⟨v', h1, h2⟩ := insert_rep hC.eq (h.hug v hh) i hi e
      simp only [h1, Option.map_some]
      refine ⟨_, rfl, ⟨hcnt.symm, ?_, by simp [hhash]⟩, rfl⟩
      intro w hw
      simp only [Option.some.injEq] at hw
      subst hw
      exact h2
  | adjoint =>
    refine ⟨_, rfl, ⟨?_, by simp [adjointOp], by simp [adjointOp]⟩, rfl⟩
    simp only [adjointOp]
    rw [h.ncre, List.countP_map, List.countP_reverse]
    have e : (C.cre ∘ C.adj) = fun x => !C.cre x := by funext x; exact hC.adj x
    rw [e]
    have := List.length_eq_countP_add_countP C.cre (l := n.ops)
    have e2 : n.ops.countP (fun x => !C.cre x) = n.ops.countP (fun a => decide ¬C.cre a = true) := by
      congr 1; funext x; cases C.cre x <;> rfl
    rw [e2]
    omega
  | transform =>
    refine ⟨_, rfl, ?_, ?_⟩
    · have hcnt : n.ncre = (n.ops.map fun e => (C.subst e).getD e).countP C.cre := by
        rw [h.ncre, List.countP_map]
        congr 1
        funext e
        exact (hC.subst e).symm
      have hhug : ∀ v, n.hug = some v → Rep C.eq v (n.ops.map fun e => (C.subst e).getD e) := by
        intro v hv
        rcases hok with hn | hk
        · rw [hn] at hv; simp at hv
        · exact rep_congr hC.eq _ hk (h.hug v hv)
      unfold transformOp
      simp only
      split
      · exact ⟨hcnt, hhug, by simp⟩
      · rename_i hany
        have hid : (n.ops.map fun e => (C.subst e).getD e) = n.ops := by
          conv_rhs => rw [← List.map_id n.ops]
          refine List.map_congr_left fun e he => ?_
          have : (C.subst e).isSome = false := by
            by_contra hcon
            exact hany (List.any_eq_true.2 ⟨e, he, by simpa [Option.isSome_iff_ne_none] using hcon⟩)
          cases hs : C.subst e with
          | none => rfl
          | some x => rw [hs] at this; simp at this
        exact ⟨hcnt, hhug, fun x hx => by rw [hid]; exact h.hash x hx⟩
    · unfold transformOp
      simp only [OpCmd.spec]
      split <;> rfl

/-- A history of covered calls. -/
def OkAll (C : OpCfg E H) : NOp E H → List (OpCmd E) → Prop
  | _, [] => True
  | n, c :: cs => c.Ok C n ∧ ∀ n', c.run C n = some n' → OkAll C n' cs

/-- **C59** After every history of covered calls no assertion has failed, and the number of creators, the vertex and the memoized hash value are
those of the operators.  Partial: see `OpCmd.Ok`. -/
theorem history_current_partial (hC : OpLaws C) (cres anns : List E) (hc : ∀ e ∈ cres, C.cre e = true) (ha : ∀ e ∈ anns, C.cre e = false)
    (cs : List (OpCmd E)) (hok : OkAll C (mk cres anns) cs) :
    ∃ n, cs.foldlM (OpCmd.run C) (mk cres anns) = some n ∧ Current C n ∧ n.ops = cs.foldl (OpCmd.spec C) (cres ++ anns.reverse) := by
  have gen : ∀ (cs : List (OpCmd E)) (n : NOp E H), Current C n → OkAll C n cs →
      ∃ n', cs.foldlM (OpCmd.run C) n = some n' ∧ Current C n' ∧ n'.ops = cs.foldl (OpCmd.spec C) n.ops := by
    intro cs
    induction cs with
    | nil => intro n h _; exact ⟨n, rfl, h, rfl⟩
    | cons c cs ih =>
      intro n h hok
      obtain ⟨n1, h1, h2, h3⟩ := step_current hC h c hok.1
      obtain ⟨n2, h4, h5, h6⟩ := ih n1 h2 (hok.2 n1 h1)
      refine ⟨n2, ?_, h5, ?_⟩
      · rw [List.foldlM_cons, h1]
        exact h4
      · rw [h6, h3, List.foldl_cons]
  exact gen cs _ (mk_current cres anns hc ha) hok

omit [DecidableEq H] in
/-- `creators()` and `annihilators()` (582-590) return the creators and the annihilators if the former come first. -/
theorem creators_eq {n : NOp E H} (h : Current C n) (a b : List E) (hab : n.ops = a ++ b) (ha : ∀ e ∈ a, C.cre e = true) (hb : ∀ e ∈ b, C.cre e = false) :
    n.ops.take n.ncre = a ∧ n.ops.reverse.take (n.ops.length - n.ncre) = b.reverse := by
  have hn : n.ncre = a.length := by
    rw [h.ncre, hab, List.countP_append, List.countP_eq_length.2 ha, List.countP_eq_zero.2 fun e he => by simp [hb e he]]
    rfl
  rw [hn, hab]
  refine ⟨by simp, ?_⟩
  rw [List.reverse_append, List.length_append, Nat.add_sub_cancel_left]
  simp

/-! ### Example and failures -/

/-- Operators: index, space, creator?; kinds are given by the space and the action.  Index 1 is replaced by index 9 of space 1. -/
def exC : OpCfg (Nat × Nat × Bool) (List Nat) where
  eq a b := a.2.1 == b.2.1 && a.2.2 == b.2.2
  cre a := a.2.2
  adj a := (a.1, a.2.1, !a.2.2)
  hashOf l := l.map (·.1)
  subst a := if a.1 = 1 then some (9, 1, a.2.2) else none

theorem exC_laws : OpLaws exC where
  eq := by
    constructor
    · intro a; simp [exC]
    · intro a b h; simp only [exC, Bool.and_eq_true, beq_iff_eq] at h ⊢; exact ⟨h.1.symm, h.2.symm⟩
    · intro a b c h h'; simp only [exC, Bool.and_eq_true, beq_iff_eq] at h h' ⊢; exact ⟨h.1.trans h'.1, h.2.trans h'.2⟩
  adj e := rfl
  subst e := by
    simp only [exC]
    split <;> rfl

/-- A history with all calls. -/
example : OkAll exC (mk [(1, 1, true), (2, 1, true)] [(3, 0, false), (4, 1, false)])
    [.hug, .erase 1, .insert 0 (5, 1, true), .hash, .transform, .erase 2, .hug, .hash, .adjoint, .insert 3 (7, 0, false), .hug] := by
  simp [OkAll, OpCmd.Ok, OpCmd.run, mk, Vertices.hug, make, append, addTo, findGroup, setInsert, insertSorted, erase, insert, eraseOp, insertOp,
    hashValue, transformOp, adjointOp, exC, shiftUp, shiftDown, List.findIdx?, List.findIdx?.go]
  intro a b
  refine ⟨?_, ?_⟩ <;> rintro (⟨rfl, rfl⟩ | ⟨rfl, rfl⟩) <;> simp

/-- **C59 fails** if an operator is erased after its hash value was computed: the memoized value is not reset, the next use fails the assertion. -/
theorem erase_hash_violated : ∃ n : NOp (Nat × Nat × Bool) (List Nat),
    [OpCmd.hash, .erase 0].foldlM (OpCmd.run exC) (mk [(1, 1, true)] [(3, 0, false)]) = some n ∧
    n.hash = some [1, 3] ∧ exC.hashOf n.ops = [3] ∧ hashValue exC n = none := ⟨_, rfl, rfl, rfl, rfl⟩

/-- **C59 fails** for substitutions that change the kind of an operator: the vertex is not reset, it still puts the operators in different groups
and erasing the operator fails an assertion. -/
theorem transform_hug_violated : ∃ n : NOp (Nat × Nat × Bool) (List Nat),
    [OpCmd.hug, .transform].foldlM (OpCmd.run exC) (mk [(1, 0, true), (2, 1, true)] []) = some n ∧
    n.hug.bind (·.groupSize 0) = some 1 ∧ (make exC.eq n.ops).bind (·.groupSize 0) = some 2 ∧ eraseOp exC n 0 = none := ⟨_, rfl, rfl, rfl, rfl⟩

end SeQuant.Vertices
