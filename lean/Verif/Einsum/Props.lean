import Verif.Einsum.Value
import Verif.Einsum.Text
import Mathlib.Data.Complex.Basic
import Mathlib.Tactic.LinearCombination

/-!
# What exported Python text computes (C99, C100)
-/

namespace SeQuant.Einsum

open SeQuant.Scalar (Cplx Base Pow)

set_option linter.unusedSectionVars false

variable {K : Type} [Field K] [StarRing K] [CharZero K]

/-! ### Meaning of expressions -/

mutual
/-- The tensors of an expression. -/
def tensors : E → List (Nat × List Label)
  | .tens n ls => [(n, ls)]
  | .prod _ fs => tensorsAll fs
  | _ => []
/-- The tensors of some factors. -/
def tensorsAll : List E → List (Nat × List Label)
  | [] => []
  | e :: es => tensors e ++ tensorsAll es
end

mutual
/-- The product of the scalars of an expression. -/
def scalars (M : Meaning K) : E → K
  | .const z => cval M.I z
  | .var n c => if c then star (M.name n) else M.name n
  | .pow p =>
    let v := M.pow (match p.base with
      | .const z => cval M.I z
      | .var n c => if c then star (M.name n) else M.name n) (p.exponent : K)
    if p.conjugated then star v else v
  | .prod s fs => cval M.I s * scalarsAll M fs
  | _ => 1
/-- The product of the scalars of some factors. -/
def scalarsAll (M : Meaning K) : List E → K
  | [] => 1
  | e :: es => scalars M e * scalarsAll M es
end

mutual
/-- The same for the text. -/
def tscalars (M : Meaning K) : E → K
  | .const z => tconst M.I z
  | .var n _ => M.name n
  | .pow p => tpow M p
  | .prod s fs => tconst M.I s * tscalarsAll M fs
  | _ => 1
/-- The same for the text of some factors. -/
def tscalarsAll (M : Meaning K) : List E → K
  | [] => 1
  | e :: es => tscalars M e * tscalarsAll M es
end

/-- Imaginary parts are integers. -/
def Gaussian (z : Cplx) : Prop := z.im.den = 1

mutual
/-- Text keeps the value: imaginary parts are integers and variables are not conjugated, except as bases of powers. -/
def Plain : E → Prop
  | .const z => Gaussian z
  | .var _ c => c = false
  | .pow p => match p.base with
    | .const z => Gaussian z
    | .var _ _ => True
  | .prod s fs => Gaussian s ∧ PlainAll fs
  | .tens _ _ => True
  | .sum ts => PlainAll ts
  | .other => False
/-- All factors keep their value. -/
def PlainAll : List E → Prop
  | [] => True
  | e :: es => Plain e ∧ PlainAll es
end

theorem tconst_plain {I : K} {z : Cplx} (h : Gaussian z) : tconst I z = cval I z := by
  unfold Gaussian at h
  unfold tconst
  rw [if_pos h]

mutual
theorem tscalars_plain (M : Meaning K) : ∀ e : E, Plain e → tscalars M e = scalars M e
  | .const z, h => tconst_plain h
  | .var n c, h => by simp only [Plain] at h; subst h; rfl
  | .pow ⟨.const z, e, c⟩, h => by
    simp only [Plain] at h
    simp only [tscalars, tpow, tbase, scalars, tconst_plain h]
  | .pow ⟨.var n c', e, c⟩, h => rfl
  | .prod s fs, h => by
    simp only [Plain] at h
    simp only [tscalars, scalars, tconst_plain h.1, tscalarsAll_plain M fs h.2]
  | .tens _ _, _ => rfl
  | .sum _, _ => rfl
  | .other, _ => rfl
theorem tscalarsAll_plain (M : Meaning K) : ∀ es : List E, PlainAll es → tscalarsAll M es = scalarsAll M es
  | [], _ => rfl
  | e :: es, h => by
    simp only [PlainAll] at h
    simp only [tscalarsAll, scalarsAll, tscalars_plain M e h.1, tscalarsAll_plain M es h.2]
end

/-! ### What is collected -/

/-- The scalar factors so far. -/
def ScalOk (M : Meaning K) (s : List Tok) (v : K) : Prop := s = [] ∧ v = 1 ∨ s ≠ [] ∧ Piece M s v

theorem Piece.ne {M : Meaning K} {s : List Tok} {v : K} (h : Piece M s v) : s ≠ [] := by
  rintro rfl
  obtain ⟨f', h1, h2⟩ := h (Frame.new false) [] (ready_new _)
  have := h2.cur
  simp only [runToks, Option.some.injEq, List.cons.injEq, and_true] at h1
  rw [← h1] at this
  simp [Frame.new] at this

theorem ScalOk.add {M : Meaning K} {s t : List Tok} {v w : K} (h : ScalOk M s v) (ht : Piece M t w) : ScalOk M (addScal s t) (v * w) := by
  unfold addScal
  rcases h with ⟨rfl, rfl⟩ | ⟨h1, h2⟩
  · rw [one_mul]
    exact Or.inr ⟨ht.ne, ht⟩
  · have : s.isEmpty = false := by simpa using h1
    rw [this]
    exact Or.inr ⟨(h2.mul ht).ne, h2.mul ht⟩

/-- Operands and subscripts belong to the tensors `T`. -/
def SpecOk (st : St) (T : List (Nat × List Label)) : Prop :=
  st.letters.WF ∧ st.names = T.map (·.1) ∧
    ∃ subs, st.spec = joinSpec subs ∧ T.map (fun t => t.2.map fun l => st.letters.map.lookup l) = subs.map (·.map some)

theorem map_lookup_ext {s s' : Letters} (h : s.Ext s') {ls : List Label} {cs : List Nat} (he : ls.map (fun l => s.map.lookup l) = cs.map some) :
    ls.map (fun l => s'.map.lookup l) = cs.map some := by
  induction ls generalizing cs with
  | nil => simpa using he
  | cons l ls ih =>
    cases cs with
    | nil => simp at he
    | cons c cs =>
      simp only [List.map_cons, List.cons.injEq] at he ⊢
      exact ⟨h _ _ he.1, ih he.2⟩

theorem map_lookup_ext' {s s' : Letters} (h : s.Ext s') {T : List (Nat × List Label)} {subs : List (List Nat)}
    (he : T.map (fun t => t.2.map fun l => s.map.lookup l) = subs.map (·.map some)) :
    T.map (fun t => t.2.map fun l => s'.map.lookup l) = subs.map (·.map some) := by
  induction T generalizing subs with
  | nil => simpa using he
  | cons t T ih =>
    cases subs with
    | nil => simp at he
    | cons c cs =>
      simp only [List.map_cons, List.cons.injEq] at he ⊢
      exact ⟨map_lookup_ext h he.1, ih he.2⟩

mutual
theorem extract_spec {avail : List Nat} {M : Meaning K} (hI : M.I * M.I = -1) : ∀ (e : E) {st st' : St} {T : List (Nat × List Label)} {v : K},
    SpecOk st T → ScalOk M st.scal v → extract avail e st = .ok st' → SpecOk st' (T ++ tensors e) ∧ ScalOk M st'.scal (v * tscalars M e)
  | .tens n ls, st, st', T, v, ⟨h1, h2, subs, h3, h4⟩, hv, he => by
    simp only [extract] at he
    split at he
    · simp at he
    · rename_i cs l hs
      cases he
      obtain ⟨w, ex, hl⟩ := subscript_ok h1 hs
      refine ⟨⟨w, by simp [h2, tensors], subs ++ [cs], ?_, ?_⟩, by simpa [tscalars] using hv⟩
      · rw [joinSpec_append, h3]
      · simp only [tensors, List.map_append, List.map_cons, List.map_nil]
        rw [map_lookup_ext' ex h4, hl]
  | .const z, st, st', T, v, hT, hv, he => by
    simp only [extract, Except.ok.injEq] at he
    subst he
    refine ⟨by simp only [tensors, List.append_nil]; exact hT, ?_⟩
    exact hv.add (piece_const hI z)
  | .var n c, st, st', T, v, hT, hv, he => by
    simp only [extract, Except.ok.injEq] at he
    subst he
    refine ⟨by simp only [tensors, List.append_nil]; exact hT, ?_⟩
    exact hv.add (atom_name M n).piece
  | .pow p, st, st', T, v, hT, hv, he => by
    simp only [extract, Except.ok.injEq] at he
    subst he
    refine ⟨by simp only [tensors, List.append_nil]; exact hT, ?_⟩
    exact hv.add (piece_pow hI p)
  | .prod s fs, st, st', T, v, hT, hv, he => by
    simp only [extract] at he
    have hT' : SpecOk (if s.isIdentity then st else { st with scal := addScal st.scal (constToks s) }) T := by
      split
      · exact hT
      · exact hT
    have hv' : ScalOk M (if s.isIdentity then st else { st with scal := addScal st.scal (constToks s) }).scal (v * tconst M.I s) := by
      split
      · rename_i hid
        have : tconst M.I s = 1 := by
          simp only [Cplx.isIdentity, decide_eq_true_eq] at hid
          rw [tconst_real hid.2, hid.1]; simp
        rw [this, mul_one]; exact hv
      · exact hv.add (piece_const hI s)
    have := extractAll_spec hI fs hT' hv' he
    simp only [tensors, tscalars]
    rw [← mul_assoc]
    exact this
  | .sum ts, st, st', T, v, hT, hv, he => by simp [extract] at he
  | .other, st, st', T, v, hT, hv, he => by
    simp only [extract, Except.ok.injEq] at he
    subst he
    exact ⟨by simpa [tensors] using hT, by simpa [tscalars] using hv⟩
theorem extractAll_spec {avail : List Nat} {M : Meaning K} (hI : M.I * M.I = -1) : ∀ (es : List E) {st st' : St} {T : List (Nat × List Label)} {v : K},
    SpecOk st T → ScalOk M st.scal v → extractAll avail es st = .ok st' → SpecOk st' (T ++ tensorsAll es) ∧ ScalOk M st'.scal (v * tscalarsAll M es)
  | [], st, st', T, v, hT, hv, he => by
    simp only [extractAll, Except.ok.injEq] at he
    subst he
    exact ⟨by simpa [tensorsAll] using hT, by simpa [tscalarsAll] using hv⟩
  | e :: es, st, st', T, v, hT, hv, he => by
    simp only [extractAll] at he
    split at he
    · simp at he
    · rename_i st1 h1
      obtain ⟨a, b⟩ := extract_spec hI e hT hv h1
      have := extractAll_spec hI es a b he
      simp only [tensorsAll, tscalarsAll]
      rw [← List.append_assoc, ← mul_assoc]
      exact this
end

theorem specOk_init : SpecOk St.init [] := ⟨⟨rfl, List.nodup_nil, List.nodup_nil⟩, rfl, [], rfl, rfl⟩

/-- Letters as a function. -/
theorem specOk_map {st : St} {T : List (Nat × List Label)} {s' : Letters} (h : SpecOk st T) (hw : s'.WF) (hx : st.letters.Ext s') {result : List Label} {out : List Nat}
    (ho : result.map (fun l => s'.map.lookup l) = out.map some) :
    ∃ φ : Label → Nat, (∀ a ∈ T.flatMap (·.2) ++ result, ∀ b ∈ T.flatMap (·.2) ++ result, φ a = φ b → a = b) ∧
      st.spec = joinSpec (T.map fun t => t.2.map φ) ∧ out = result.map φ := by
  obtain ⟨_, _, subs, h3, h4⟩ := h
  have h4 := map_lookup_ext' hx h4
  have key : ∀ {ls : List Label} {cs : List Nat}, ls.map (fun l => s'.map.lookup l) = cs.map some →
      cs = ls.map (fun l => (s'.map.lookup l).getD 0) ∧ ∀ l ∈ ls, (s'.map.lookup l).isSome = true := by
    intro ls
    induction ls with
    | nil => intro cs h; simp at h; simp [h]
    | cons l ls ih =>
      intro cs h
      cases cs with
      | nil => simp at h
      | cons c cs =>
        simp only [List.map_cons, List.cons.injEq] at h
        obtain ⟨i1, i2⟩ := ih h.2
        refine ⟨by rw [List.map_cons, h.1, ← i1]; rfl, ?_⟩
        intro x hx
        rcases List.mem_cons.1 hx with rfl | hx
        · rw [h.1]; rfl
        · exact i2 x hx
  have key2 : ∀ {T : List (Nat × List Label)} {subs : List (List Nat)}, T.map (fun t => t.2.map fun l => s'.map.lookup l) = subs.map (·.map some) →
      subs = T.map (fun t => t.2.map fun l => (s'.map.lookup l).getD 0) ∧ ∀ l ∈ T.flatMap (·.2), (s'.map.lookup l).isSome = true := by
    intro T
    induction T with
    | nil => intro cs h; simp at h; simp [h]
    | cons t T ih =>
      intro cs h
      cases cs with
      | nil => simp at h
      | cons c cs =>
        simp only [List.map_cons, List.cons.injEq] at h
        obtain ⟨i1, i2⟩ := ih h.2
        obtain ⟨k1, k2⟩ := key h.1
        refine ⟨by rw [List.map_cons, ← k1, ← i1], ?_⟩
        intro x hx
        rw [List.flatMap_cons] at hx
        rcases List.mem_append.1 hx with hx | hx
        · exact k2 x hx
        · exact i2 x hx
  obtain ⟨a1, a2⟩ := key2 h4
  obtain ⟨b1, b2⟩ := key ho
  refine ⟨fun l => (s'.map.lookup l).getD 0, ?_, by rw [h3, a1], b1⟩
  have hall : ∀ l ∈ T.flatMap (·.2) ++ result, (s'.map.lookup l).isSome = true := by
    intro l hl
    rcases List.mem_append.1 hl with h | h
    · exact a2 l h
    · exact b2 l h
  intro a ha b hb hab
  obtain ⟨ca, hca⟩ := Option.isSome_iff_exists.1 (hall a ha)
  obtain ⟨cb, hcb⟩ := Option.isSome_iff_exists.1 (hall b hb)
  simp only [hca, hcb, Option.getD_some] at hab
  subst hab
  exact hw.inj hca hcb

theorem piece_one {M : Meaning K} {v : K} (h : Piece M [.int 1] v) : v = 1 := by
  have h1 := h.whole.eval
  have h2 := (atom_int M 1).piece.whole.eval
  rw [h1] at h2
  simpa using h2

/-- The text in the end. -/
theorem piece_finish {M : Meaning K} {st : St} {out : List Nat} {v w : K} (hv : ScalOk M st.scal v)
    (hw : st.names = [] ∧ w = 1 ∨ st.names ≠ [] ∧ M.call ⟨st.spec, out, st.names⟩ = some w) : Piece M (finish st out) (v * w) := by
  unfold finish
  rcases hw with ⟨h1, rfl⟩ | ⟨h1, h2⟩
  · rw [h1, mul_one]
    rcases hv with ⟨h3, rfl⟩ | ⟨h3, h4⟩
    · rw [h3]
      have := (atom_int M 1).piece
      rw [Nat.cast_one] at this
      exact this
    · have : st.scal.isEmpty = false := by simpa using h3
      rw [this]
      exact h4
  · have hn : st.names.isEmpty = false := by simpa using h1
    rw [hn]
    simp only [Bool.false_eq_true, if_false]
    rcases hv with ⟨h3, rfl⟩ | ⟨h3, h4⟩
    · rw [h3, one_mul]
      exact (atom_call h2).piece
    · have : st.scal.isEmpty = false := by simpa using h3
      rw [this]
      by_cases h5 : st.scal = [.int 1]
      · rw [h5] at h4
        rw [h5, piece_one h4, one_mul]
        exact (atom_call h2).piece
      · simp only [Bool.not_false, Bool.true_and, decide_eq_true_eq]
        rw [if_pos h5]
        have := h4.mul (atom_call h2).piece
        simpa using this

/-- The commas of a call are right: the first tensor has indices, or it is alone. -/
def Commas (T : List (Nat × List Label)) : Prop := T.length ≤ 1 ∨ T.head?.map (·.2) ≠ some []

/-- The value of an expression without sums at the element `y` of a result. -/
def evalue (M : Meaning K) (arr : Nat → List Nat → K) (dim : Label → Nat) (result : List Label) (y : List Nat) (e : E) : K :=
  scalars M e * (if tensors e = [] then 1 else contract arr dim result y (tensors e))

/-- The same with the scalars of the text. -/
def tvalue (M : Meaning K) (arr : Nat → List Nat → K) (dim : Label → Nat) (result : List Label) (y : List Nat) (e : E) : K :=
  tscalars M e * (if tensors e = [] then 1 else contract arr dim result y (tensors e))

theorem toEinsum_text {avail : List Nat} {e : E} {result : List Label} {ts : List Tok} (he : toEinsum avail e result = .ok ts) {M : Meaning K}
    (hI : M.I * M.I = -1) {arr : Nat → List Nat → K} {shape : Nat → List Nat} {dim : Label → Nat} {y : List Nat} (hM : M.call = einsumAt arr shape y)
    (hd : ∀ t ∈ tensors e, shape t.1 = t.2.map dim) (hc : Commas (tensors e)) (hr : result.Nodup)
    (hin : tensors e ≠ [] → ∀ l ∈ result, l ∈ (tensors e).flatMap (·.2)) : Piece M ts (tvalue M arr dim result y e) := by
  unfold toEinsum at he
  split at he
  · simp at he
  · rename_i st h1
    split at he
    · simp at he
    · rename_i out s' h2
      cases he
      obtain ⟨a, b⟩ := extract_spec hI e specOk_init (Or.inl ⟨rfl, rfl⟩) h1
      rw [List.nil_append] at a
      rw [one_mul] at b
      obtain ⟨w, ex, ho⟩ := subscript_ok a.1 h2
      obtain ⟨φ, p1, p2, p3⟩ := specOk_map a w ex ho
      unfold tvalue
      apply piece_finish b
      by_cases ht : tensors e = []
      · left
        rw [if_pos ht]
        exact ⟨by rw [a.2.1, ht]; rfl, rfl⟩
      · right
        rw [if_neg ht]
        refine ⟨by rw [a.2.1]; simpa using ht, ?_⟩
        rw [hM, p2, p3, a.2.1]
        refine einsumAt_value arr p1 hd ?_ hr (hin ht) y
        rcases hc with h | h
        · left
          have := List.length_pos_iff.2 ht
          omega
        · exact Or.inr ⟨h, ht⟩

/-- **The exported assignment computes the tensor**: the text of a product for a result with some indices evaluates, at each element, to the
scalars times the sum over all labels that the result does not have. The conditions: imaginary parts are integers, variables are not
conjugated, the first tensor has indices if it is not alone, the result has no index twice and none that no tensor has. -/
theorem toEinsum_value {avail : List Nat} {e : E} {result : List Label} {ts : List Tok} (he : toEinsum avail e result = .ok ts) (hp : Plain e) {M : Meaning K}
    (hI : M.I * M.I = -1) {arr : Nat → List Nat → K} {shape : Nat → List Nat} {dim : Label → Nat} {y : List Nat} (hM : M.call = einsumAt arr shape y)
    (hd : ∀ t ∈ tensors e, shape t.1 = t.2.map dim) (hc : Commas (tensors e)) (hr : result.Nodup)
    (hin : tensors e ≠ [] → ∀ l ∈ result, l ∈ (tensors e).flatMap (·.2)) : evalToks M ts = some (evalue M arr dim result y e) := by
  have := (toEinsum_text he hI hM hd hc hr hin).whole.eval
  rw [this]
  simp only [tvalue, evalue, tscalars_plain M e hp]

/-! ### Scalar results -/

mutual
/-- The value of a scalar expression. -/
def svalue (M : Meaning K) (arr : Nat → List Nat → K) (dim : Label → Nat) : E → K
  | .sum ts => svalues M arr dim ts
  | .tens n ls => evalue M arr dim [] [] (.tens n ls)
  | .const z => evalue M arr dim [] [] (.const z)
  | .var n c => evalue M arr dim [] [] (.var n c)
  | .pow p => evalue M arr dim [] [] (.pow p)
  | .prod s fs => evalue M arr dim [] [] (.prod s fs)
  | .other => 1
/-- The sum of some summands. -/
def svalues (M : Meaning K) (arr : Nat → List Nat → K) (dim : Label → Nat) : List E → K
  | [] => 0
  | e :: es => svalue M arr dim e + svalues M arr dim es
end

mutual
/-- Arrays have the right shapes, commas are right and no sum is empty. -/
def Fits (shape : Nat → List Nat) (dim : Label → Nat) : E → Prop
  | .sum ts => ts ≠ [] ∧ FitsAll shape dim ts
  | .prod _ fs => (∀ t ∈ tensorsAll fs, shape t.1 = t.2.map dim) ∧ Commas (tensorsAll fs)
  | _ => True
/-- The same for all summands. -/
def FitsAll (shape : Nat → List Nat) (dim : Label → Nat) : List E → Prop
  | [] => True
  | e :: es => Fits shape dim e ∧ FitsAll shape dim es
end

theorem toScalar_prod {avail : List Nat} {s : Cplx} {fs : List E} {ts : List Tok} (he : toScalar avail (.prod s fs) = .ok ts) :
    toEinsum avail (.prod s fs) [] = .ok ts := by
  simp only [toScalar] at he
  unfold toEinsum
  split at he
  · simp at he
  · rename_i st h1
    cases he
    simp [subscript]

mutual
theorem toScalar_piece {avail : List Nat} {M : Meaning K} (hI : M.I * M.I = -1) {arr : Nat → List Nat → K} {shape : Nat → List Nat} {dim : Label → Nat}
    (hM : M.call = einsumAt arr shape []) : ∀ (e : E) {ts : List Tok}, toScalar avail e = .ok ts → Plain e → Fits shape dim e → Piece M ts (svalue M arr dim e)
  | .const z, ts, he, hp, hf => by
    simp only [toScalar, Except.ok.injEq] at he
    subst he
    have := piece_const hI z
    rw [tconst_plain hp] at this
    simpa [svalue, evalue, tensors, scalars] using this
  | .var n c, ts, he, hp, hf => by
    simp only [toScalar, Except.ok.injEq] at he
    subst he
    simp only [Plain] at hp
    subst hp
    simpa [svalue, evalue, tensors, scalars] using (atom_name M n).piece
  | .pow p, ts, he, hp, hf => by
    simp only [toScalar, Except.ok.injEq] at he
    subst he
    have := piece_pow hI p
    have h2 : tpow M p = scalars M (.pow p) := tscalars_plain M (.pow p) hp
    rw [h2] at this
    simpa [svalue, evalue, tensors] using this
  | .prod s fs, ts, he, hp, hf => by
    simp only [Fits] at hf
    have := toEinsum_text (toScalar_prod he) hI (dim := dim) hM hf.1 hf.2 List.nodup_nil (fun _ l hl => by simp at hl)
    unfold tvalue at this
    rw [tscalars_plain M _ hp] at this
    exact this
  | .sum es, ts, he, hp, hf => by
    simp only [toScalar] at he
    split at he
    · simp at he
    · rename_i t h1
      cases he
      simp only [Fits] at hf
      simp only [Plain] at hp
      exact (toScalars_whole hI hM es h1 hp hf.2 hf.1).paren.piece
  | .tens _ _, ts, he, hp, hf => by simp [toScalar] at he
  | .other, ts, he, hp, hf => by simp [toScalar] at he
theorem toScalars_whole {avail : List Nat} {M : Meaning K} (hI : M.I * M.I = -1) {arr : Nat → List Nat → K} {shape : Nat → List Nat} {dim : Label → Nat}
    (hM : M.call = einsumAt arr shape []) : ∀ (es : List E) {ts : List Tok}, toScalars avail es = .ok ts → PlainAll es → FitsAll shape dim es → es ≠ [] →
      Whole M ts (svalues M arr dim es)
  | [], ts, he, hp, hf, hne => absurd rfl hne
  | [e], ts, he, hp, hf, hne => by
    simp only [toScalars] at he
    have := (toScalar_piece hI hM e he hp.1 hf.1).whole
    simpa [svalues] using this
  | e :: e' :: es, ts, he, hp, hf, hne => by
    simp only [toScalars] at he
    split at he
    · simp at he
    · rename_i t h1
      split at he
      · simp at he
      · rename_i t' h2
        cases he
        have h3 := toScalar_piece hI hM e h1 hp.1 hf.1
        have h4 := toScalars_whole hI hM (e' :: es) (ts := t') h2 hp.2 hf.2 (by simp)
        exact h3.add h4
end

/-- **The exported text of a scalar has its value**, under the same conditions. -/
theorem toScalar_value {avail : List Nat} {e : E} {ts : List Tok} (he : toScalar avail e = .ok ts) (hp : Plain e) {M : Meaning K} (hI : M.I * M.I = -1)
    {arr : Nat → List Nat → K} {shape : Nat → List Nat} {dim : Label → Nat} (hM : M.call = einsumAt arr shape []) (hf : Fits shape dim e) :
    evalToks M ts = some (svalue M arr dim e) := (toScalar_piece hI hM e he hp hf).whole.eval

/-! ### When there is an exception -/

mutual
/-- There is no sum inside. -/
def NoSum : E → Bool
  | .sum _ => false
  | .prod _ fs => NoSumAll fs
  | _ => true
/-- There is no sum inside of some factors. -/
def NoSumAll : List E → Bool
  | [] => true
  | e :: es => NoSum e && NoSumAll es
end

mutual
theorem extract_letters {avail : List Nat} : ∀ (e : E) (st : St), NoSum e = true →
    (∀ x, subscript avail ((tensors e).flatMap (·.2)) st.letters = .error x → extract avail e st = .error x) ∧
    ∀ cs s, subscript avail ((tensors e).flatMap (·.2)) st.letters = .ok (cs, s) → ∃ st', extract avail e st = .ok st' ∧ st'.letters = s
  | .tens n ls, st, _ => by
    simp only [tensors, List.flatMap_cons, List.flatMap_nil, List.append_nil, extract]
    refine ⟨fun x hx => by rw [hx], fun cs s hs => ?_⟩
    rw [hs]
    exact ⟨_, rfl, rfl⟩
  | .const z, st, _ => by
    simp only [tensors, List.flatMap_nil, subscript, extract]
    refine ⟨fun x hx => by simp at hx, fun cs s hs => ?_⟩
    cases hs
    exact ⟨_, rfl, rfl⟩
  | .var n c, st, _ => by
    simp only [tensors, List.flatMap_nil, subscript, extract]
    refine ⟨fun x hx => by simp at hx, fun cs s hs => ?_⟩
    cases hs
    exact ⟨_, rfl, rfl⟩
  | .pow p, st, _ => by
    simp only [tensors, List.flatMap_nil, subscript, extract]
    refine ⟨fun x hx => by simp at hx, fun cs s hs => ?_⟩
    cases hs
    exact ⟨_, rfl, rfl⟩
  | .other, st, _ => by
    simp only [tensors, List.flatMap_nil, subscript, extract]
    refine ⟨fun x hx => by simp at hx, fun cs s hs => ?_⟩
    cases hs
    exact ⟨_, rfl, rfl⟩
  | .sum ts, st, h => by simp [NoSum] at h
  | .prod s fs, st, h => by
    simp only [NoSum] at h
    have := extractAll_letters (avail := avail) fs (if s.isIdentity then st else { st with scal := addScal st.scal (constToks s) }) h
    have hl : (if s.isIdentity then st else { st with scal := addScal st.scal (constToks s) }).letters = st.letters := by split <;> rfl
    rw [hl] at this
    simp only [tensors, extract]
    exact this
theorem extractAll_letters {avail : List Nat} : ∀ (es : List E) (st : St), NoSumAll es = true →
    (∀ x, subscript avail ((tensorsAll es).flatMap (·.2)) st.letters = .error x → extractAll avail es st = .error x) ∧
    ∀ cs s, subscript avail ((tensorsAll es).flatMap (·.2)) st.letters = .ok (cs, s) → ∃ st', extractAll avail es st = .ok st' ∧ st'.letters = s
  | [], st, _ => by
    simp only [tensorsAll, List.flatMap_nil, subscript, extractAll]
    refine ⟨fun x hx => by simp at hx, fun cs s hs => ?_⟩
    cases hs
    exact ⟨_, rfl, rfl⟩
  | e :: es, st, h => by
    simp only [NoSumAll, Bool.and_eq_true] at h
    obtain ⟨a1, a2⟩ := extract_letters (avail := avail) e st h.1
    simp only [tensorsAll, List.flatMap_append, subscript_append, extractAll]
    cases h1 : subscript avail ((tensors e).flatMap (·.2)) st.letters with
    | error x =>
      refine ⟨fun x' hx => ?_, fun cs s hs => by simp at hs⟩
      simp only [Except.error.injEq] at hx
      rw [a1 x h1, hx]
    | ok p =>
      obtain ⟨cs, s⟩ := p
      obtain ⟨st', h2, rfl⟩ := a2 cs s h1
      obtain ⟨b1, b2⟩ := extractAll_letters (avail := avail) es st' h.2
      rw [h2]
      simp only
      cases h3 : subscript avail ((tensorsAll es).flatMap (·.2)) st'.letters with
      | error x =>
        refine ⟨fun x' hx => ?_, fun cs s hs => by simp at hs⟩
        simp only [Except.error.injEq] at hx
        rw [b1 x h3, hx]
      | ok p =>
        obtain ⟨cs', s'⟩ := p
        refine ⟨fun x hx => by simp at hx, fun cs s hs => ?_⟩
        simp only [Except.ok.injEq, Prod.mk.injEq] at hs
        obtain ⟨st'', h4, h5⟩ := b2 cs' s' h3
        exact ⟨st'', h4, h5.trans hs.2⟩
end

theorem toEinsum_ok_iff {avail : List Nat} {e : E} {result : List Label} (hn : NoSum e = true) :
    (∃ ts, toEinsum avail e result = .ok ts) ↔ ∃ r, subscript avail ((tensors e).flatMap (·.2) ++ result) Letters.empty = .ok r := by
  obtain ⟨a1, a2⟩ := extract_letters (avail := avail) e St.init hn
  rw [subscript_append]
  change (∀ x, subscript avail ((tensors e).flatMap (·.2)) Letters.empty = _ → _) at a1
  change (∀ cs s, subscript avail ((tensors e).flatMap (·.2)) Letters.empty = _ → _) at a2
  unfold toEinsum
  cases h1 : subscript avail ((tensors e).flatMap (·.2)) Letters.empty with
  | error x =>
    rw [a1 x h1]
    simp
  | ok p =>
    obtain ⟨cs, s⟩ := p
    obtain ⟨st', h2, h3⟩ := a2 cs s h1
    rw [h2]
    simp only [h3]
    cases subscript avail result s with
    | error x => simp
    | ok p => obtain ⟨cs', s'⟩ := p; simp

/-- **An expression without sums is exported exactly if letters suffice**: there are at most 52 different labels for NumPy and 26 for PyTorch
(if labels begin with such letters). -/
theorem toEinsum_isOk_iff {avail : List Nat} (ha : avail.Nodup) {e : E} {result : List Label} (hn : NoSum e = true)
    (hf : ∀ l ∈ (tensors e).flatMap (·.2) ++ result, first l ∈ avail) :
    (∃ ts, toEinsum avail e result = .ok ts) ↔ ((tensors e).flatMap (·.2) ++ result).dedup.length ≤ avail.length := by
  rw [toEinsum_ok_iff hn, subscript_isOk_iff ha hf]

/-- **Sums are refused.** -/
theorem toEinsum_sum (avail : List Nat) (ts : List E) (result : List Label) : toEinsum avail (.sum ts) result = .error .sum := rfl

/-- **A tensor alone can not be a scalar result**, though a product of one tensor can. -/
theorem toScalar_tensor (avail : List Nat) (n : Nat) :
    toScalar avail (.tens n []) = .error .unsupported ∧ toScalar avail (.prod ⟨1, 0⟩ [.tens n []]) = .ok [.call ⟨[], [], [n]⟩] :=
  ⟨rfl, rfl⟩

/-! ### Where the text has another value -/

/-- **An imaginary part that is no integer changes its sign.** -/
theorem const_text_conj {M : Meaning K} (hI : M.I * M.I = -1) {z : Cplx} (h : z.im.den ≠ 1) :
    evalToks M (constToks z) = some ((z.re : K) - (z.im : K) * M.I) ∧ (z.re : K) - (z.im : K) * M.I ≠ cval M.I z := by
  have := (piece_const hI z).whole.eval
  refine ⟨by rw [this]; simp [tconst, h], fun he => h ?_⟩
  have hI0 : M.I ≠ 0 := fun h => by rw [h] at hI; simp at hI
  unfold cval at he
  have h2 : (2 : K) * ((z.im : K) * M.I) = 0 := by linear_combination -he
  rcases mul_eq_zero.1 h2 with h3 | h3
  · simp at h3
  · rcases mul_eq_zero.1 h3 with h4 | h4
    · rw [Rat.cast_eq_zero.1 h4]; rfl
    · exact absurd h4 hI0

/-- The imaginary half is printed as `(0+1/2j)`, which Python reads as `-0.5j`. -/
example : constToks ⟨0, 1/2⟩ = [.lpar, .int 0, .plus, .int 1, .slash, .imag 2, .rpar] := by decide +kernel

/-- **A conjugated variable is exported without its conjugation**: both are the same text. -/
theorem var_text_conj (avail : List Nat) (n : Nat) (c : Bool) (result : List Label) :
    toScalar avail (.var n c) = .ok [.name n] ∧ toEinsum avail (.prod ⟨1, 0⟩ [.var n c]) result = toEinsum avail (.prod ⟨1, 0⟩ [.var n false]) result := ⟨rfl, rfl⟩

/-- **A factor of another type disappears**: an operator in a product, and nobody is told. -/
theorem other_dropped (avail : List Nat) (n : Nat) (ls result : List Label) :
    toEinsum avail (.prod ⟨1, 0⟩ [.tens n ls, .other]) result = toEinsum avail (.prod ⟨1, 0⟩ [.tens n ls]) result := by
  have h1 : (⟨1, 0⟩ : Cplx).isIdentity = true := by decide +kernel
  simp only [toEinsum, extract, extractAll, h1]

/-- **A tensor without indices before another one**: the comma is missing and `einsum` raises an exception. -/
theorem commas_fail (arr : Nat → List Nat → K) (shape : Nat → List Nat) (y : List Nat) (M : Meaning K) (hM : M.call = einsumAt arr shape y) :
    toEinsum numpyChars (.prod ⟨1, 0⟩ [.tens 0 [], .tens 1 [[105]]]) [[105]] = .ok [.call ⟨[some 105], [105], [0, 1]⟩] ∧
      evalToks M [.call ⟨[some 105], [105], [0, 1]⟩] = none := by
  refine ⟨by rfl, ?_⟩
  have := einsumAt_fails arr shape y [105] [] [105] [0, 1] rfl
  have h2 : joinSpec [[], [105]] = [some 105] := rfl
  rw [h2] at this
  simp [evalToks, runToks, tokStep, hM, this]

/-- **An index of the result that no tensor has** is an exception of `einsum` as well. -/
theorem result_index_fails (arr : Nat → List Nat → K) (shape : Nat → List Nat) (y : List Nat) :
    einsumAt arr shape y ⟨[some 105], [105, 97], [0]⟩ = none := by
  unfold einsumAt
  rw [if_neg]
  rintro ⟨_, _, _, _, h⟩
  have := h 97 (by simp)
  simp [splitSpec] at this

/-- **An empty sum** is the text `()`, which is no number. -/
theorem empty_sum_fails (avail : List Nat) (M : Meaning K) : toScalar avail (.sum []) = .ok [.lpar, .rpar] ∧ evalToks M [.lpar, .rpar] = none := by
  refine ⟨rfl, ?_⟩
  simp [evalToks, runToks, tokStep, Frame.new, Frame.total, Frame.fin]

/-! ### Examples -/

/-- Some meaning in the complex numbers. -/
noncomputable def exM (arr : Nat → List Nat → ℂ) (shape : Nat → List Nat) (y : List Nat) : Meaning ℂ := ⟨fun n => n + Complex.I, einsumAt arr shape y, Complex.I, fun a _ => a * a⟩

/-- `-1/2 x**2 A[i_1,a_1] B[a_1,i_2]`. -/
def exE : E := .prod ⟨-1/2, 0⟩ [.pow ⟨.var 0 true, 2, false⟩, .tens 3 [[105, 95, 49], [97, 95, 49]], .tens 4 [[97, 95, 49], [105, 95, 50]]]

example : toEinsum numpyChars exE [[105, 95, 50], [105, 95, 49]] =
    .ok [.minus, .int 1, .slash, .int 2, .star, .conjOpen, .name 0, .rpar, .pow, .int 2, .star, .call ⟨[some 105, some 97, none, some 97, some 98], [98, 105], [3, 4]⟩] := by
  decide +kernel

example (arr : Nat → List Nat → ℂ) (y : List Nat) :
    evalToks (exM arr (fun _ => [5, 5]) y) [.minus, .int 1, .slash, .int 2, .star, .conjOpen, .name 0, .rpar, .pow, .int 2, .star,
      .call ⟨[some 105, some 97, none, some 97, some 98], [98, 105], [3, 4]⟩] =
    some (evalue (exM arr (fun _ => [5, 5]) y) arr (fun _ => 5) [[105, 95, 50], [105, 95, 49]] y exE) :=
  toEinsum_value (avail := numpyChars) (shape := fun _ => [5, 5]) (by decide +kernel) (by simp [exE, Plain, PlainAll, Gaussian]) (M := exM arr (fun _ => [5, 5]) y) (by simp [exM]) rfl
    (by simp [exE, tensors, tensorsAll]) (Or.inr (by simp [exE, tensors, tensorsAll])) (by decide) (by simp [exE, tensors, tensorsAll])

example : toScalar torchChars (.sum [.const ⟨-1/3, 0⟩, .prod ⟨2, 0⟩ [.tens 3 [[105]], .tens 3 [[105]]], .var 1 false]) =
    .ok [.lpar, .minus, .int 1, .slash, .int 3, .plus, .int 2, .star, .call ⟨[some 105, none, some 105], [], [3, 3]⟩, .plus, .name 1, .rpar] := by
  decide +kernel

/-- Two occurrences of the vector `(1, 2)` in a contraction give five. -/
example : einsumAt (K := ℚ) (fun _ i => (i.getD 0 0 + 1 : ℕ)) (fun _ => [2]) [] ⟨[some 105, none, some 105], [], [3, 3]⟩ = some 5 := by
  decide +kernel

end SeQuant.Einsum
