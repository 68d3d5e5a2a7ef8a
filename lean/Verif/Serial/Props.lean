import Verif.Serial.RoundTrip
import Verif.Expression.AdjointProps

/-!
# Properties of the serialization
-/

namespace SeQuant.Serial

open SeQuant.Expression

/-! ## Values -/

section value

variable {R : Type} [Ring R] [Algebra CQ R] (I : Atom → R)

theorem ofRat_mul (a b : Rat) : CQ.ofRat (a * b) = CQ.ofRat a * CQ.ofRat b := by ext <;> simp [CQ.ofRat]

theorem ofRat_one : CQ.ofRat 1 = 1 := rfl

theorem ofRat_re {c : CQ} (h : c.im = 0) : CQ.ofRat c.re = c := CQ.ext rfl h.symm

/-- Value of a factor. -/
def itemVal : Item → R
  | .num q => algebraMap CQ R (CQ.ofRat q)
  | .ex e => eval I e

theorem itemVal_split (l : List Item) :
    (l.map (itemVal I)).prod = algebraMap CQ R (CQ.ofRat (Item.nums l)) * evalProd I (Item.exprs l) := by
  induction l with
  | nil => simp [Item.nums, Item.exprs, evalProd, ofRat_one]
  | cons x l ih =>
    cases x with
    | num q => simp only [List.map_cons, List.prod_cons, ih, itemVal, Item.nums, Item.exprs, ofRat_mul, map_mul, mul_assoc]
    | ex e =>
      simp only [List.map_cons, List.prod_cons, ih, itemVal, Item.nums, Item.exprs, evalProd]
      rw [← mul_assoc, ← mul_assoc, Algebra.commutes]

theorem convProduct_val (hI : Interp CQ I) (l : List Item) : eval I (convProduct l) = (l.map (itemVal I)).prod := by
  unfold convProduct
  split
  · simp [eval, itemVal]
  · simp [itemVal]
  · rw [itemVal_split]
    split
    · rename_i h; simp [h, eval, evalProd]
    · rename_i e h
      split
      · rename_i h1; simp [h, h1, evalProd, ofRat_one]
      · rw [mkProd_val hI, h, Algebra.smul_def]
    · rw [mkProd_val hI, Algebra.smul_def]

theorem convSum_val (hI : Interp CQ I) (l : List Ex) : eval I (convSum l) = evalSum I l := by
  unfold convSum
  split
  · simp [evalSum]
  · exact mkSum_val hI l

theorem signConv_val (hI : Interp CQ I) (l : List Item) : eval I (signConv l) = (l.map (itemVal I)).prod := by
  unfold signConv
  split
  · split
    · rw [convProduct_val I hI]
      simp only [List.map_cons, List.prod_cons, itemVal]
      rw [← mul_assoc, ← map_mul, ← ofRat_mul]
      simp
    · rw [convProduct_val I hI]
  · rw [convProduct_val I hI]

variable {L : Lex} {D : Defaults} {annot : Bool}

theorem prodItems_val (c : CQ) (hc : c.im = 0) (items : List Item) :
    ((((if c ≠ 1 then [.num c.re] else []) ++ items : List Item)).map (itemVal I)).prod = c • (items.map (itemVal I)).prod := by
  by_cases h : c = 1
  · subst h; simp
  · simp [h, itemVal, ofRat_re hc, Algebra.smul_def]

mutual
theorem norm_val (hI : Interp CQ I) : (e : Ex) → ExprOk L D annot e → eval I (norm e) = eval I e
  | .const c, h => by
    rw [norm, signConv_val I hI]
    simp [itemVal, ofRat_re h.1, eval]
  | .atom a, _ => by rw [norm]
  | .prod c l, h => by
    rw [norm, signConv_val I hI, prodItems_val I c h.1.1, factorItems_val hI l h.2.2, eval]
  | .sum ci l, h => by
    rw [norm, convSum_val I hI, normL_val hI l h.2, eval]
theorem factorItem_val (hI : Interp CQ I) : (e : Ex) → ExprOk L D annot e → itemVal I (factorItem e) = eval I e
  | .const c, h => by
    rw [factorItem, itemVal, ofRat_re h.1, eval]
  | .atom a, _ => by rw [factorItem, itemVal]
  | .prod c l, h => by
    rw [factorItem, itemVal, signConv_val I hI, prodItems_val I c h.1.1, factorItems_val hI l h.2.2, eval]
  | .sum ci l, h => by
    rw [factorItem, itemVal, convSum_val I hI, normL_val hI l h.2, eval]
theorem factorItems_val (hI : Interp CQ I) : (l : List Ex) → FactorsOk L D annot l → ((factorItems l).map (itemVal I)).prod = evalProd I l
  | [], _ => by simp [factorItems, evalProd]
  | e :: l, h => by
    rw [factorItems, List.map_cons, List.prod_cons, factorItem_val hI e h.1, factorItems_val hI l h.2, evalProd]
theorem normL_val (hI : Interp CQ I) : (l : List Ex) → AddendsOk L D annot l → evalSum I (normL l) = evalSum I l
  | [], _ => by rw [normL]
  | e :: l, h => by
    rw [normL, evalSum, norm_val hI e h.1.2, normL_val hI l h.2, evalSum]
end

end value

/-! ## Round trip -/

section roundtrip

variable {L : Lex} {D : Defaults} {annot : Bool}

theorem text_ne_nil (hL : L.Ok) {e : Ex} (he : ExprOk L D annot e) (hs : e.isSum = false) : text annot e ≠ [] := by
  cases e with
  | sum => simp [Expr.isSum] at hs
  | const c =>
    rw [text, scalarText_real he.1]
    obtain ⟨d, t, ht, -⟩ := ratText_cons c.re
    simp [ht]
  | atom a =>
    obtain ⟨d, t, ht, -⟩ := factorText_head hL he
    have hft : factorText annot (.atom a) = text annot (.atom a) := by simp [factorText, Expr.isProd, Expr.isSum]
    rw [hft] at ht
    simp [ht]
  | prod c l =>
    rw [text]
    by_cases h1 : c = 1
    · subst h1
      have hl0 : l ≠ [] := by simpa using he.2.1
      obtain ⟨e, l, rfl⟩ := List.exists_cons_of_ne_nil hl0
      obtain ⟨d, t, ht, -⟩ := factorText_head hL he.2.2.1
      rw [factorsText_cons, ht]; simp
    · simp [h1]

mutual
theorem exprOk_defined (hL : L.Ok) : (e : Ex) → ExprOk L D annot e → defined annot e = true
  | .const _, _ => rfl
  | .atom _, _ => rfl
  | .prod c l, h => by rw [defined]; exact factorsOk_defined hL l h.2.2
  | .sum ci l, h => by rw [defined, (addendsOk_defined hL l h.2).1, (addendsOk_defined hL l h.2).2]; rfl
theorem factorsOk_defined (hL : L.Ok) : (l : List Ex) → FactorsOk L D annot l → definedL annot l = true
  | [], _ => by rw [definedL]
  | e :: l, h => by rw [definedL, exprOk_defined hL e h.1, factorsOk_defined hL l h.2]; rfl
theorem addendsOk_defined (hL : L.Ok) : (l : List Ex) → AddendsOk L D annot l → definedL annot l = true ∧ definedS annot l = true
  | [], _ => by rw [definedL, definedS]; simp
  | e :: l, h => by
    have := text_ne_nil hL h.1.2 h.1.1
    rw [definedL, definedS, exprOk_defined hL e h.1.2, (addendsOk_defined hL l h.2).1, (addendsOk_defined hL l h.2).2]
    simp [h.1.1, this]
end

theorem read_text (hL : L.Ok) {e : Ex} (he : ExprOk L D annot e) (fuel : Nat) (hf : (text annot e).length < fuel) :
    read L D fuel (text annot e) = .expr (norm e) := by
  obtain ⟨r', h1, h2⟩ := text_read hL e he fuel [] (.inl rfl) (by simpa using hf)
  rw [List.append_nil] at h1
  rw [read, h1]
  simp only [h2]
  rfl

/-- C39: an expression within the limits of the grammar is written without undefined behaviour, and reading what was written yields an expression of
the same value. -/
theorem roundtrip_partial (hL : L.Ok) {e : Ex} (he : ExprOk L D annot e) :
    ∃ t, write annot e = some t ∧ ∀ fuel, t.length < fuel → ∃ e', read L D fuel t = .expr e' ∧ SameValue e e' := by
  refine ⟨text annot e, by rw [write, exprOk_defined hL e he]; rfl, fun fuel hf => ⟨norm e, read_text hL he fuel hf, ?_⟩⟩
  intro R _ _ I hI
  exact (norm_val I hI e he).symm

mutual
/-- Products have a factor, and two if their scalar is one; sums have two summands: nothing that reading would simplify. -/
def Proper : Ex → Prop
  | .const _ => True
  | .atom _ => True
  | .prod c l => (l.length = 1 → c ≠ 1) ∧ l ≠ [] ∧ ProperL l
  | .sum _ l => 2 ≤ l.length ∧ ProperL l
def ProperL : List Ex → Prop
  | [] => True
  | e :: l => Proper e ∧ ProperL l
end

theorem convProduct_two (x y : Item) (l : List Item) : convProduct (x :: y :: l) =
    match Item.exprs (x :: y :: l) with
    | [] => .const (CQ.ofRat (Item.nums (x :: y :: l)))
    | [e] => if Item.nums (x :: y :: l) = 1 then e else mkProd .No (CQ.ofRat (Item.nums (x :: y :: l))) [e]
    | es => mkProd .No (CQ.ofRat (Item.nums (x :: y :: l))) es := by
  cases x <;> rfl

/-- Factors that are no constants are read as they are. -/
theorem exprs_of (l : List Ex) (h : ∀ e ∈ l, e.isConst = false) (hn : ∀ e ∈ l, norm e = e) :
    Item.exprs (factorItems l) = l ∧ Item.nums (factorItems l) = 1 := by
  induction l with
  | nil => simp [factorItems, Item.exprs, Item.nums]
  | cons e l ih =>
    have h1 := ih (fun x hx => h x (by simp [hx])) (fun x hx => hn x (by simp [hx]))
    have h2 := hn e (by simp)
    have h3 := h e (by simp)
    have h4 : factorItem e = .ex e := by
      cases e <;> simp [Expr.isConst] at h3 <;> simp [factorItem, norm] at h2 ⊢ <;> exact h2
    simp [factorItems, h4, Item.exprs, Item.nums, h1.1, h1.2]

theorem mkProd_norm (c : CQ) (l : List Ex) (h : ∀ e ∈ l, e.isProd = false ∧ e.isConst = false ∧ clone e = e) :
    mkProd .No c l = .prod c l := by
  rw [mkProd, pAppendAll_norm _ _ _ _ _ h]; simp

theorem mkSum_norm (ci : Option Nat) (l : List Ex) (h : Expression.Norm (.sum ci l)) (hc : ∀ e ∈ l, clone e = e) :
    mkSum l = .sum ci l := by
  rw [mkSum, sAppendAll_sum _ ci l h hc]

theorem properL_iff (l : List Ex) : ProperL l ↔ ∀ e ∈ l, Proper e := by
  induction l with
  | nil => simp [ProperL]
  | cons e l ih => simp [ProperL, ih]

theorem signConv_num (q : Rat) (x : Item) (l : List Item) (hx : Item.exprs (x :: l) ≠ []) (hq : q ≠ 1 ∨ 2 ≤ (Item.exprs (x :: l)).length)
    (hn : Item.nums (x :: l) = 1) : signConv (.num q :: x :: l) = mkProd .No (CQ.ofRat q) (Item.exprs (x :: l)) := by
  have key : ∀ a b m, Item.exprs (a :: b :: m) = Item.exprs (x :: l) → Item.nums (a :: b :: m) = q →
      convProduct (a :: b :: m) = mkProd .No (CQ.ofRat q) (Item.exprs (x :: l)) := by
    intro a b m h1 h2
    rw [convProduct_two, h1, h2]
    split
    · rename_i h; exact absurd h hx
    · rename_i e h
      rw [if_neg, h]
      rcases hq with hq | hq
      · exact hq
      · rw [h] at hq; simp at hq
    · rfl
  rw [signConv]
  split
  · exact key _ _ _ (by simp [Item.exprs]) (by rw [Item.nums, Item.nums, hn]; simp)
  · exact key _ _ _ (by simp [Item.exprs]) (by rw [Item.nums, hn]; simp)

theorem norm_eq (e : Ex) (he : ExprOk L D annot e) (hn : Expression.Norm e) (hp : Proper e) : norm e = e := by
  match e, he, hn, hp with
  | .const c, he, _, _ =>
    rw [norm, signConv]
    split
    · rw [convProduct_two]
      simp [Item.exprs, Item.nums, ofRat_re he.1]
    · simp [convProduct, ofRat_re he.1]
  | .atom a, _, _, _ => rw [norm]
  | .prod c l, he, hn, hp =>
    rw [Expression.Norm, NormP_iff] at hn
    rw [Proper, properL_iff] at hp
    have hok := (factorsOk_iff _ _ _ _).1 he.2.2
    have hne : ∀ x ∈ l, norm x = x := fun x hx => by
      have := List.sizeOf_lt_of_mem hx
      exact norm_eq x (hok x hx) (hn x hx).1 (hp.2.2 x hx)
    obtain ⟨h1, h2⟩ := exprs_of l (fun x hx => (hn x hx).2.2) hne
    have hmk := mkProd_norm c l fun x hx => ⟨(hn x hx).2.1, (hn x hx).2.2, clone_norm x (hn x hx).1⟩
    rw [norm]
    obtain ⟨x, m, hxm⟩ : ∃ x m, factorItems l = x :: m := by
      cases l with
      | nil => exact absurd rfl hp.2.1
      | cons e l => exact ⟨_, _, by rw [factorItems]⟩
    by_cases hc : c = 1
    · subst hc
      simp only [ne_eq, not_true_eq_false, if_false, List.nil_append]
      match l, hp, h1, h2, hmk, hn with
      | [], hp, _, _, _, _ => exact absurd rfl hp.2.1
      | [e], hp, _, _, _, _ => exact absurd rfl (hp.1 rfl)
      | e :: e' :: l, hp, h1, h2, hmk, hn =>
        have hx : ∃ e0, factorItem e = .ex e0 := by
          have := (hn e (by simp)).2.2
          cases e <;> simp [Expr.isConst] at this <;> exact ⟨_, by rw [factorItem]⟩
        obtain ⟨e0, hx⟩ := hx
        rw [factorItems, factorItems] at h1 h2 ⊢
        rw [hx] at h1 h2 ⊢
        rw [signConv]
        · rw [convProduct_two, h1, h2]
          exact hmk
        · simp
    · simp only [ne_eq, hc, not_false_eq_true, if_true, List.cons_append, List.nil_append]
      rw [hxm] at h1 h2 ⊢
      have hq : c.re ≠ 1 := fun h => hc (CQ.ext h he.1.1)
      rw [signConv_num c.re x m (by rw [h1]; exact hp.2.1) (.inl hq) h2, h1, ofRat_re he.1.1, hmk]
  | .sum ci l, he, hn, hp =>
    have hn' := hn
    rw [Expression.Norm, NormS_iff] at hn'
    rw [Proper, properL_iff] at hp
    have hok := (addendsOk_iff _ _ _ _).1 he.2
    have hne : ∀ x ∈ l, norm x = x := fun x hx => by
      have := List.sizeOf_lt_of_mem hx
      exact norm_eq x (hok x hx).2 (hn'.1 x hx).1 (hp.2 x hx)
    have hl : normL l = l := by
      rw [normL_eq]
      conv_rhs => rw [← List.map_id l]
      exact List.map_congr_left hne
    rw [norm, hl]
    match l, hp, hn, hn' with
    | [], hp, _, _ => simp at hp
    | [_], hp, _, _ => simp at hp
    | x :: y :: l, _, hn, hn' =>
      rw [convSum]
      · exact mkSum_norm ci _ hn fun e he => clone_norm e (hn'.1 e he).1
      · simp
termination_by sizeOf e

/-- C39: an expression that is normalised (no product or constant in a product, no sum or zero in a sum, one constant per sum at most) is
read back unchanged. -/
theorem roundtrip_exact_partial (hL : L.Ok) {e : Ex} (he : ExprOk L D annot e) (hn : Expression.Norm e) (hp : Proper e) (fuel : Nat)
    (hf : (text annot e).length < fuel) : (write annot e).map (read L D fuel) = some (.expr e) := by
  rw [write, exprOk_defined hL e he, if_pos rfl, Option.map_some, read_text hL he fuel hf, norm_eq e he hn hp]

end roundtrip

/-! ## Termination -/

/-- The parser does not run out of fuel and, if it succeeds, leaves at most `n - k` characters. -/
def Res.Shrinks {α : Type} (n k : Nat) : Res α → Prop
  | .ok _ r => r.length + k ≤ n
  | .stuck => False
  | _ => True

namespace Res.Shrinks

variable {α β : Type} {n k k' : Nat}

theorem bind {x : Res α} {f : α → List Char → Res β} (hx : x.Shrinks n k)
    (hf : ∀ a r, r.length + k ≤ n → (f a r).Shrinks r.length k') : (x.bind f).Shrinks n (k + k') := by
  cases x with
  | ok a r =>
    have h := hf a r hx
    have hx : r.length + k ≤ n := hx
    show (f a r).Shrinks n (k + k')
    cases hr : f a r with
    | ok b s => rw [hr] at h; have h : s.length + k' ≤ r.length := h; show s.length + (k + k') ≤ n; omega
    | stuck => rw [hr] at h; exact h.elim
    | _ => trivial
  | stuck => exact hx.elim
  | _ => trivial

theorem weaken {x : Res α} (hx : x.Shrinks n k) {n' k' : Nat} (h : n + k' ≤ n' + k) : x.Shrinks n' k' := by
  cases x with
  | ok a r => have hx : r.length + k ≤ n := hx; show r.length + k' ≤ n'; omega
  | stuck => exact hx.elim
  | _ => trivial

theorem or {x y : Res α} (hx : x.Shrinks n k) (hy : y.Shrinks n k) : (x.or y).Shrinks n k := by
  cases x with
  | fail => exact hy
  | stuck => exact hx.elim
  | _ => exact hx

theorem opt {x : Res α} (hx : x.Shrinks n 0) {d : α} {cs : List Char} (hc : cs.length ≤ n) : (x.opt d cs).Shrinks n 0 := by
  cases x with
  | fail => exact hc
  | stuck => exact hx.elim
  | _ => exact hx

theorem expect {x : Res α} (hx : x.Shrinks n k) : x.expect.Shrinks n k := by
  cases x with
  | fail => trivial
  | stuck => exact hx.elim
  | _ => exact hx

theorem ok_self (a : α) (r : List Char) : (Res.ok a r).Shrinks r.length 0 := Nat.le_refl _

end Res.Shrinks

section total

open Res.Shrinks

variable (L : Lex) (D : Defaults)

theorem rawLit_shrinks (s cs : List Char) : (rawLit s cs).Shrinks cs.length s.length := by
  rcases rawLit_cases s cs with h | ⟨r, h, rfl⟩
  · rw [h]; trivial
  · rw [h]; show r.length + s.length ≤ _; simp; omega

theorem lit_shrinks (s cs : List Char) : (lit L s cs).Shrinks cs.length s.length :=
  (rawLit_shrinks s (skip L cs)).weaken (by have := skip_length L cs; omega)

theorem doubleP_shrinks (cs : List Char) : (doubleP L cs).Shrinks cs.length 1 := by
  have h0 := skip_length L cs
  simp only [doubleP]
  generalize hr : (if decide ((skip L cs).head? = some '-') || decide ((skip L cs).head? = some '+') then (skip L cs).tail else skip L cs) = r
  have h1 : r.length ≤ cs.length := by
    rw [← hr]; split
    · simp; omega
    · exact h0
  split
  · rename_i hd
    show (r.dropWhile Char.isDigit).length + 1 ≤ cs.length
    have h2 : 0 < (r.takeWhile Char.isDigit).length := List.length_pos_of_ne_nil hd
    have h3 : (r.takeWhile Char.isDigit).length + (r.dropWhile Char.isDigit).length = r.length := by
      rw [← List.length_append, List.takeWhile_append_dropWhile]
    omega
  · cases hk : specialLen r with
    | none => trivial
    | some k =>
      show (r.drop k).length + 1 ≤ cs.length
      cases r with
      | nil => simp [specialLen] at hk
      | cons c r =>
        have : 0 < k := by
          simp only [specialLen] at hk
          split at hk
          · simp at hk; omega
          · split at hk
            · split at hk <;> simp at hk <;> omega
            · simp at hk
        simp at h1 ⊢; omega

theorem numberP_shrinks (cs : List Char) : (numberP L cs).Shrinks cs.length 1 :=
  bind (k' := 0) (doubleP_shrinks L cs) fun _ r _ =>
    bind (k := 0) (k' := 0) (opt ((bind (k' := 1) (lit_shrinks L ['/'] r) fun _ r' _ => doubleP_shrinks L r').weaken (by simp)) (Nat.le_refl _))
      fun _ _ _ => ok_self _ _

theorem nameP_shrinks (cs : List Char) : (nameP L cs).Shrinks cs.length 1 := by
  cases cs with
  | nil => trivial
  | cons c r =>
    simp only [nameP]
    split
    · split
      · show (r.dropWhile L.word).length + 1 ≤ (c :: r).length
        have := (List.dropWhile_sublist (l := r) L.word).length_le
        simp; omega
      · show r.length + 1 ≤ (c :: r).length
        simp
    · trivial

theorem variableP_shrinks (cs : List Char) : (variableP L cs).Shrinks cs.length 1 :=
  (bind (k' := 0) (nameP_shrinks L (skip L cs)) fun _ r _ =>
    bind (k := 0) (k' := 0) (opt ((bind (k' := 0) (rawLit_shrinks ['^', '*'] r) fun _ _ _ => ok_self _ _).weaken (by simp)) (Nat.le_refl _))
      fun _ _ _ => ok_self _ _).weaken (by have := skip_length L cs; omega)

theorem uintP_shrinks (cs : List Char) : (uintP cs).Shrinks cs.length 0 := by
  simp only [uintP]
  split
  · exact (List.dropWhile_sublist _).length_le
  · trivial

theorem labelP_shrinks (cs : List Char) : (labelP L cs).Shrinks cs.length 1 := by
  simp only [labelP]
  split
  · rename_i hn
    have h2 : 0 < (cs.takeWhile L.idx).length := List.length_pos_of_ne_nil hn
    have h3 : (cs.takeWhile L.idx).length + (cs.dropWhile L.idx).length = cs.length := by
      rw [← List.length_append, List.takeWhile_append_dropWhile]
    refine (bind (n := (cs.dropWhile L.idx).length) (k := 0) (k' := 0)
      (opt ((rawLit_shrinks ['_'] _).weaken (by simp)) (Nat.le_refl _)) fun _ r _ =>
      bind (k := 0) (k' := 0) (uintP_shrinks r) fun _ _ _ => ok_self _ _).weaken (by omega)
  · trivial

theorem sepLoop_shrinks {α : Type} {p : List Char → Res α} {sep : List Char → Res Unit} (N : Nat)
    (hp : ∀ cs, cs.length ≤ N → (p cs).Shrinks cs.length 1) (hs : ∀ cs, (sep cs).Shrinks cs.length 0) (fuel : Nat) (cs : List Char)
    (hN : cs.length ≤ N) (hf : cs.length < fuel) : (sepLoop p sep fuel cs).Shrinks cs.length 0 := by
  induction fuel generalizing cs with
  | zero => omega
  | succ fuel ih =>
    rw [sepLoop]
    refine opt ?_ (Nat.le_refl _)
    refine (bind (k := 1) (k' := 0) (n := cs.length) (bind (k := 0) (k' := 1) (hs cs) fun _ r hr => hp r (by omega)) fun a r hr => ?_).weaken (by omega)
    exact bind (k := 0) (k' := 0) (ih r (by omega) (by omega)) fun _ _ _ => ok_self _ _

theorem listP_shrinks {α : Type} {p : List Char → Res α} {sep : List Char → Res Unit} (N : Nat)
    (hp : ∀ cs, cs.length ≤ N → (p cs).Shrinks cs.length 1) (hs : ∀ cs, (sep cs).Shrinks cs.length 0) (fuel : Nat) (cs : List Char)
    (hN : cs.length ≤ N) (hf : cs.length ≤ fuel) : (listP fuel p sep cs).Shrinks cs.length 1 :=
  bind (k' := 0) (hp cs hN) fun _ r hr =>
    bind (k := 0) (k' := 0) (sepLoop_shrinks N hp hs fuel r (by omega) (by omega)) fun _ _ _ => ok_self _ _

theorem indexP_shrinks (fuel : Nat) (cs : List Char) (hf : cs.length ≤ fuel) : (indexP L fuel cs).Shrinks cs.length 1 := by
  have h0 := skip_length L cs
  refine (bind (k' := 0) (labelP_shrinks L (skip L cs)) fun l r hr => ?_).weaken (by omega)
  refine bind (k := 0) (k' := 0) (opt ?_ (Nat.le_refl _)) fun ps r' _ => ?_
  · refine (bind (k' := 1) (lit_shrinks L ['<'] r) fun _ r1 hr1 => bind (k' := 0)
      (listP_shrinks r1.length (fun x _ => (labelP_shrinks L (skip L x)).weaken (by have := skip_length L x; omega))
        (fun x => (lit_shrinks L [','] x).weaken (by simp)) fuel r1 (Nat.le_refl _) (by simp at hr1; omega)) fun _ r2 _ =>
      (bind (k' := 0) (lit_shrinks L ['>'] r2) fun _ _ _ => ok_self _ _).weaken (by simp)).weaken (by simp)
  · split
    · exact ok_self _ _
    · trivial

theorem indicesP_shrinks (fuel : Nat) (cs : List Char) (hf : cs.length ≤ fuel) : (indicesP L fuel cs).Shrinks cs.length 0 :=
  bind (k := 0) (k' := 0) (opt ((listP_shrinks fuel (fun x hx => indexP_shrinks L fuel x hx)
    (fun x => (lit_shrinks L [','] x).weaken (by simp)) fuel cs hf hf).weaken (by omega)) (Nat.le_refl _)) fun _ _ _ => ok_self _ _

theorem groupsP_shrinks (fuel : Nat) (cs : List Char) (hf : cs.length ≤ fuel) : (groupsP L fuel cs).Shrinks cs.length 0 := by
  have two : ∀ (s t : List Char) (g : List (Option Idx) → List (Option Idx) → List (Option Idx) × List (Option Idx) × List (Option Idx)),
      ((lit L s cs).bind fun _ r => (indicesP L fuel r).expect.bind fun b r => (lit L t r).expect.bind fun _ r =>
      (indicesP L fuel r).expect.bind fun k r => (lit L ['}'] r).expect.bind fun _ r => .ok (g b k) r).Shrinks cs.length 0 := by
    intro s t g
    refine (bind (k' := 0) (lit_shrinks L s cs) fun _ r h1 => ?_).weaken (by omega)
    refine bind (k := 0) (k' := 0) (expect (indicesP_shrinks L fuel r (by omega))) fun _ r2 h2 => ?_
    refine (bind (k' := 0) (expect (lit_shrinks L t r2)) fun _ r3 h3 => ?_).weaken (by omega)
    refine bind (k := 0) (k' := 0) (expect (indicesP_shrinks L fuel r3 (by omega))) fun _ r4 h4 => ?_
    exact (bind (k' := 0) (expect (lit_shrinks L ['}'] r4)) fun _ _ _ => ok_self _ _).weaken (by simp)
  refine or (two _ _ _) (or (two _ _ (fun k b => (b, k, []))) ?_)
  have more : ∀ r : List Char, r.length ≤ fuel →
      ((((lit L [';'] r).bind fun _ r => (indicesP L fuel r).expect).opt [] r).expect).Shrinks r.length 0 := fun r hr =>
    expect (opt ((bind (k' := 0) (lit_shrinks L [';'] r) fun _ r' h => expect (indicesP_shrinks L fuel r' (by simp at h; omega))).weaken (by simp))
      (Nat.le_refl _))
  refine (bind (k' := 0) (lit_shrinks L ['{'] cs) fun _ r h1 => ?_).weaken (by simp)
  simp only [List.length_cons, List.length_nil] at h1
  refine bind (k := 0) (k' := 0) (expect (indicesP_shrinks L fuel r (by omega))) fun _ r2 h2 => ?_
  refine bind (k := 0) (k' := 0) (more r2 (by omega)) fun _ r3 h3 => ?_
  refine bind (k := 0) (k' := 0) (more r3 (by omega)) fun _ r4 h4 => ?_
  exact (bind (k' := 0) (expect (lit_shrinks L ['}'] r4)) fun _ _ _ => ok_self _ _).weaken (by simp)

theorem upperP_shrinks (cs : List Char) : (upperP cs).Shrinks cs.length 0 := by
  cases cs with
  | nil => trivial
  | cons c r =>
    simp only [upperP]
    split
    · show r.length + 0 ≤ _; simp
    · trivial

theorem symmetryP_shrinks (cs : List Char) : (symmetryP cs).Shrinks cs.length 0 := by
  have part : ∀ r : List Char,
      (((rawLit ['-'] r).bind fun _ r => (upperP r).bind fun b r => .ok (some b) r).opt none r).Shrinks r.length 0 := fun r =>
    opt ((bind (k' := 0) (rawLit_shrinks ['-'] r) fun _ r' _ => bind (k := 0) (k' := 0) (upperP_shrinks r') fun _ _ _ => ok_self _ _).weaken (by simp))
      (Nat.le_refl _)
  refine (bind (k' := 0) (rawLit_shrinks [':'] cs) fun _ r _ => bind (k := 0) (k' := 0) (upperP_shrinks r) fun _ r2 _ =>
    bind (k := 0) (k' := 0) (part r2) fun _ r3 _ => bind (k := 0) (k' := 0) (part r3) fun _ _ _ => ok_self _ _).weaken (by simp)

theorem tensorP_shrinks (fuel : Nat) (cs : List Char) (hf : cs.length ≤ fuel) : (tensorP L D fuel cs).Shrinks cs.length 1 := by
  have h0 := skip_length L cs
  refine (bind (k' := 0) (nameP_shrinks L (skip L cs)) fun n r hr => ?_).weaken (by omega)
  refine bind (k := 0) (k' := 0) (groupsP_shrinks L fuel r (by omega)) fun g r2 _ => ?_
  refine bind (k := 0) (k' := 0) (opt ((bind (k := 0) (k' := 0) (symmetryP_shrinks r2) fun _ _ _ => ok_self _ _)) (Nat.le_refl _)) fun s r3 _ => ?_
  split
  · split
    · exact ok_self _ _
    · trivial
  · split
    · exact ok_self _ _
    · split
      · exact ok_self _ _
      · trivial

theorem baseP_shrinks (cs : List Char) : (baseP L cs).Shrinks cs.length 1 :=
  or (bind (k' := 0) (numberP_shrinks L cs) fun _ _ _ => ok_self _ _) (bind (k' := 0) (variableP_shrinks L cs) fun _ _ _ => ok_self _ _)

theorem powerCoreP_shrinks (cs : List Char) : (powerCoreP L cs).Shrinks cs.length 1 := by
  refine bind (k := 1) (k' := 0) (or ?_ (baseP_shrinks L cs)) fun b r _ => ?_
  · refine (bind (k' := 1) (lit_shrinks L ['('] cs) fun _ r _ => bind (k' := 0) (baseP_shrinks L r) fun _ r2 _ =>
      (bind (k' := 0) (lit_shrinks L [')'] r2) fun _ _ _ => ok_self _ _).weaken (by simp)).weaken (by simp)
  · refine (bind (k' := 0) (lit_shrinks L ['^'] r) fun _ r _ => (bind (k' := 0) (lit_shrinks L ['('] r) fun _ r _ =>
      (bind (k' := 0) (numberP_shrinks L r) fun _ r _ =>
      (bind (k' := 0) (lit_shrinks L [')'] r) fun _ _ _ => ok_self _ _).weaken (by simp)).weaken (by omega)).weaken (by simp)).weaken (by simp)

theorem toRat_shrinks (n : Dbl × Dbl) (r : List Char) : (toRat n r).Shrinks r.length 0 := by
  unfold toRat
  split
  · split
    · split
      · trivial
      · exact ok_self _ _
    · trivial
  · trivial

theorem powerP_shrinks (cs : List Char) : (powerP L cs).Shrinks cs.length 1 := by
  refine bind (k := 1) (k' := 0) (or (bind (k' := 0) (powerCoreP_shrinks L cs) fun _ _ _ => ok_self _ _) ?_) fun x r _ => ?_
  · refine (bind (k' := 1) (lit_shrinks L ['('] cs) fun _ r _ => bind (k' := 0) (powerCoreP_shrinks L r) fun _ r _ =>
      (bind (k' := 0) (lit_shrinks L [')'] r) fun _ r _ =>
      (bind (k' := 0) (lit_shrinks L ['^', '*'] r) fun _ _ _ => ok_self _ _).weaken (by simp)).weaken (by simp)).weaken (by simp)
  · split
    · exact bind (k := 0) (k' := 0) (toRat_shrinks _ r) fun _ r _ => bind (k := 0) (k' := 0) (toRat_shrinks _ r) fun _ _ _ => ok_self _ _
    · exact bind (k := 0) (k' := 0) (toRat_shrinks _ r) fun _ _ _ => ok_self _ _

theorem groupedP_shrinks (fuel : Nat) (rec : List Char → Res Ex) (cs : List Char) (hf : cs.length ≤ fuel)
    (hrec : ∀ x, x.length < cs.length → (rec x).Shrinks x.length 0) : (groupedP L D fuel rec cs).Shrinks cs.length 1 := by
  refine or (bind (k' := 0) (powerP_shrinks L cs) fun _ _ _ => ok_self _ _) (or ?_ (or ?_ (or ?_ ?_)))
  · refine (bind (k' := 0) (lit_shrinks L ['('] cs) fun _ r h => bind (k := 0) (k' := 0) (expect (hrec r (by simp at h; omega))) fun _ r _ =>
      (bind (k' := 0) (expect (lit_shrinks L [')'] r)) fun _ _ _ => ok_self _ _).weaken (by simp)).weaken (by simp)
  · exact bind (k' := 0) (numberP_shrinks L cs) fun _ r _ => bind (k := 0) (k' := 0) (toRat_shrinks _ r) fun _ _ _ => ok_self _ _
  · exact bind (k' := 0) (tensorP_shrinks L D fuel cs hf) fun _ _ _ => ok_self _ _
  · exact bind (k' := 0) (variableP_shrinks L cs) fun _ _ _ => ok_self _ _

theorem productP_shrinks (fuel : Nat) (rec : List Char → Res Ex) (cs : List Char) (hf : cs.length ≤ fuel)
    (hrec : ∀ x, x.length < cs.length → (rec x).Shrinks x.length 0) : (productP L D fuel rec cs).Shrinks cs.length 1 :=
  listP_shrinks cs.length (fun x hx => groupedP_shrinks L D fuel rec x (by omega) fun y hy => hrec y (by omega))
    (fun x => opt ((lit_shrinks L ['*'] x).weaken (by simp)) (Nat.le_refl _)) fuel cs (Nat.le_refl _) hf

theorem addLoop_shrinks {product : List Char → Res (List Item)} (N : Nat) (hp : ∀ cs, cs.length ≤ N → (product cs).Shrinks cs.length 1)
    (fuel : Nat) (cs : List Char) (hN : cs.length ≤ N) (hf : cs.length < fuel) : (addLoop L product fuel cs).Shrinks cs.length 0 := by
  induction fuel generalizing cs with
  | zero => omega
  | succ fuel ih =>
    rw [addLoop]
    refine opt ?_ (Nat.le_refl _)
    refine (bind (k := 1) (k' := 0) (or (bind (k' := 0) (lit_shrinks L ['+'] cs) fun _ _ _ => ok_self _ _)
      (bind (k' := 0) (lit_shrinks L ['-'] cs) fun _ _ _ => ok_self _ _)) fun neg r h => ?_).weaken (by omega)
    refine (bind (k' := 0) (expect (hp r (by omega))) fun l r2 h2 => ?_).weaken (by omega)
    exact bind (k := 0) (k' := 0) (ih r2 (by omega) (by omega)) fun _ _ _ => ok_self _ _

theorem sumP_shrinks (fuel : Nat) (cs : List Char) (hf : cs.length < fuel) : (sumP L D fuel cs).Shrinks cs.length 0 := by
  induction fuel generalizing cs with
  | zero => omega
  | succ fuel ih =>
    rw [sumP]
    have hprod : ∀ x : List Char, x.length ≤ cs.length → (productP L D fuel (sumP L D fuel) x).Shrinks x.length 1 := fun x hx =>
      productP_shrinks L D fuel _ x (by omega) fun y hy => ih y (by omega)
    refine bind (k := 0) (k' := 0) (or ?_ ?_) fun neg r h => ?_
    · exact (bind (k' := 0) (lit_shrinks L ['-'] cs) fun _ _ _ => ok_self _ _).weaken (by simp)
    · exact bind (k := 0) (k' := 0) (opt ((lit_shrinks L ['+'] cs).weaken (by simp)) (Nat.le_refl _)) fun _ _ _ => ok_self _ _
    · refine (bind (k' := 0) (hprod r (by omega)) fun l r2 h2 => ?_).weaken (by omega)
      refine bind (k := 0) (k' := 0) (addLoop_shrinks L cs.length hprod fuel r2 (by omega) (by omega)) fun _ _ _ => ok_self _ _

/-- C39: reading terminates for every text. -/
theorem read_terminates (cs : List Char) (fuel : Nat) (hf : cs.length < fuel) : read L D fuel cs ≠ .stuck := by
  have h := sumP_shrinks L D fuel cs hf
  unfold read
  split
  · split <;> simp
  · split <;> simp
  · simp
  · simp
  · rename_i he; rw [he] at h; exact h.elim

end total

/-- C39: the notation with sub- and superscripts, in either order, gives bra and ket. -/
theorem groupsP_scripts {L : Lex} (hL : L.Ok) {bra ket : List (Option Idx)} (h : ∀ s ∈ bra ++ ket, SlotOk L s = true) (fuel : Nat) (r : List Char)
    (hf : (slotsText bra ++ slotsText ket ++ r).length + 6 ≤ fuel) :
    groupsP L fuel ('_' :: '{' :: (slotsText bra ++ '}' :: '^' :: '{' :: (slotsText ket ++ '}' :: r))) = .ok (bra, ket, []) r ∧
    groupsP L fuel ('^' :: '{' :: (slotsText ket ++ '}' :: '_' :: '{' :: (slotsText bra ++ '}' :: r))) = .ok (bra, ket, []) r := by
  have hb : ∀ s ∈ bra, SlotOk L s = true := fun s hs => h s (by simp [hs])
  have hk : ∀ s ∈ ket, SlotOk L s = true := fun s hs => h s (by simp [hs])
  have hu := hL.under.2.2
  have hc : L.space '^' = false := (hL.punct _ (by simp)).2.2
  have hr : L.space '}' = false := (hL.punct _ (by simp)).2.2
  have l1 : ∀ x, lit L ['_', '{'] ('_' :: '{' :: x) = .ok () x := fun x => lit_ok L ['{'] x hu
  have l2 : ∀ x, lit L ['^', '{'] ('^' :: '{' :: x) = .ok () x := fun x => lit_ok L ['{'] x hc
  have l3 : ∀ x, lit L ['}', '^', '{'] ('}' :: '^' :: '{' :: x) = .ok () x := fun x => lit_ok L ['^', '{'] x hr
  have l4 : ∀ x, lit L ['}', '_', '{'] ('}' :: '_' :: '{' :: x) = .ok () x := fun x => lit_ok L ['_', '{'] x hr
  have f1 : ∀ x, lit L ['_', '{'] ('^' :: x) = .fail := fun x => lit_fail L (by rw [skip_stop L _ hc]; simp)
  simp only [List.length_append] at hf
  constructor
  · rw [groupsP, l1]
    simp only [Res.bind]
    rw [indicesP_slots hL hb fuel (.inr rfl) (by simp; omega)]
    simp only [Res.expect, Res.bind]
    rw [l3]
    simp only [Res.expect, Res.bind]
    rw [indicesP_slots hL hk fuel (.inr rfl) (by simp; omega)]
    simp only [Res.expect, Res.bind, lit1_ok L _ hr, Res.or]
  · rw [groupsP, f1, l2]
    simp only [Res.bind, Res.or]
    rw [indicesP_slots hL hk fuel (.inr rfl) (by simp; omega)]
    simp only [Res.expect, Res.bind]
    rw [l4]
    simp only [Res.expect, Res.bind]
    rw [indicesP_slots hL hb fuel (.inr rfl) (by simp; omega)]
    simp only [Res.expect, Res.bind, lit1_ok L _ hr, Res.or]

end SeQuant.Serial
