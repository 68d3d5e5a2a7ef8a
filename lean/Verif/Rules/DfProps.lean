import Verif.Rules.Lemmas

/-!
# Density fitting and tensor hypercontraction (C60, C61)
-/

namespace SeQuant.Rules

set_option linter.unusedSectionVars false

variable {K L ι D : Type} [CommRing K] [DecidableEq K] [DecidableEq L] [DecidableEq ι] {V : Env K L ι D} {new : ι → Bool}

/-! ### Replacing factors -/

/-- `e'` may replace `e`; its summed indices are in `s`. -/
structure Repl (V : Env K L ι D) (new : ι → Bool) (e e' : Ex K L ι) (s : ι → Prop) : Prop where
  val : ∀ ρ, val V new e' ρ = pt V new e ρ
  occ : ∀ i ∈ occ V e', new i = true → s i

theorem Repl.refl {e : Ex K L ι} (h : Clean V new e) (s : ι → Prop) : Repl V new e e s :=
  ⟨fun ρ => by rw [h.val], fun i hi hn => by rw [h i hi] at hn; simp at hn⟩

/-- The state of a loop over factors started from `st`; the summed indices are in `s`. -/
structure Loop (V : Env K L ι D) (new : ι → Bool) (s : ι → Prop) (st : K × List (Ex K L ι)) (l : List (Ex K L ι)) (r : K × List (Ex K L ι))
    (l' : List (Ex K L ι)) : Prop where
  pt : ∀ ρ, r.1 * ptProd V new r.2 ρ = st.1 * ptProd V new (st.2 ++ l') ρ
  direct : directL V r.2 = directL V (st.2 ++ l')
  occs : occL V r.2 = occL V (st.2 ++ l')
  val : ∀ ρ, l'.map (fun e => val V new e ρ) = l.map fun e => Rules.pt V new e ρ
  occ : ∀ e ∈ l', ∀ i ∈ occ V e, new i = true → s i
  apart : l'.Pairwise (Apart V new)

theorem Loop.nil (s : ι → Prop) (st : K × List (Ex K L ι)) : Loop V new s st [] st [] :=
  ⟨fun ρ => by simp, by simp, by simp, fun _ => rfl, by simp, List.Pairwise.nil⟩

theorem Loop.cons {s s1 s2 : ι → Prop} (hdis : ∀ i, s1 i → s2 i → False) (h1s : ∀ i, s1 i → s i) (h2s : ∀ i, s2 i → s i) {st r : K × List (Ex K L ι)}
    {e e' : Ex K L ι} {l l' : List (Ex K L ι)} (flat : Bool) (he : Repl V new e e' s1) (h : Loop V new s2 (pAppend flat st e') l r l') :
    Loop V new s st (e :: l) r (e' :: l') := by
  obtain ⟨h1, h2⟩ := pAppend_pt (V := V) (new := new) flat st e'
  have hap : ∀ f ∈ l', Apart V new e' f := fun f hf =>
    ⟨fun i hi hif => hdis i (he.occ i (news_occ hi) (news_new hi)) (h.occ f hf _ hif (news_new hi)),
      fun i hi hie => hdis i (he.occ i hie (news_new hi)) (h.occ f hf _ (news_occ hi) (news_new hi))⟩
  refine ⟨fun ρ => ?_, ?_, ?_, fun ρ => ?_, ?_, List.pairwise_cons.2 ⟨hap, h.apart⟩⟩
  · rw [h.pt ρ, ptProd_append, ← mul_assoc, h1 ρ, mul_assoc, ← ptProd_append, List.append_assoc, List.singleton_append]
  · rw [h.direct, directL_append, h2, ← directL_append, List.append_assoc, List.singleton_append]
  · rw [h.occs, occL_append, pAppend_occ, ← occL_append, List.append_assoc, List.singleton_append]
  · rw [List.map_cons, List.map_cons, he.val ρ, h.val ρ]
  · intro f hf i hi hin
    rcases List.mem_cons.1 hf with rfl | hf
    · exact h1s i (he.occ i hi hin)
    · exact h2s i (h.occ f hf i hi hin)

/-- A factor that is kept. -/
theorem Loop.keep {s : ι → Prop} {st r : K × List (Ex K L ι)} {e : Ex K L ι} {l l' : List (Ex K L ι)} (flat : Bool) (hc : Clean V new e)
    (h : Loop V new s (pAppend flat st e) l r l') : Loop V new s st (e :: l) r (e :: l') :=
  Loop.cons (s1 := fun _ => False) (fun _ h _ => h) (fun _ h => h.elim) (fun _ h => h) flat (Repl.refl hc _) h

/-- The auxiliary indices after the `n`-th. -/
def After (aux : Nat → ι) (n : Nat) (i : ι) : Prop := ∃ m, n < m ∧ i = aux m

theorem After.mono {aux : Nat → ι} {n n' : Nat} (h : n ≤ n') {i : ι} (hi : After aux n' i) : After aux n i := by
  obtain ⟨m, hm, rfl⟩ := hi
  exact ⟨m, by omega, rfl⟩

/-- The value of the product made by the loop. -/
theorem Loop.value {s : ι → Prop} {c : K} {l l' : List (Ex K L ι)} {r : K × List (Ex K L ι)} (h : Loop V new s (1 * c, []) l r l') (ρ : ι → D) :
    Rules.val V new (.prod r.1 r.2) ρ = Rules.pt V new (.prod c l) ρ := by
  have h1 : newsL V new r.2 = newsL V new l' := by
    unfold newsL
    rw [h.direct, List.nil_append]
  rw [val_prod, h1, ← sumOver_smul]
  have h2 : sumOver V (newsL V new l') (fun ρ => r.1 * ptProd V new r.2 ρ) ρ = sumOver V (newsL V new l') (fun ρ => c * ptProd V new l' ρ) ρ :=
    congrFun (sumOver_congr _ fun ρ => by rw [h.pt ρ, List.nil_append, one_mul]) ρ
  rw [h2, sumOver_smul, prod_apart l' h.apart, h.val ρ, ← ptProd_eq]
  rfl

/-- What is left of the indices of a term if only some are summed. -/
theorem filter_clean {l : List ι} (h : ∀ i ∈ l, new i = false) : l.filter new = [] := by
  rw [List.filter_eq_nil_iff]
  intro i hi
  simp [h i hi]

theorem slot_update {ρ : ι → D} {x i : ι} (v : D) (h : x ∉ i :: V.protos i) : slot V (Function.update ρ x v) i = slot V ρ i :=
  slot_dep fun _ hj => Function.update_of_ne (fun hjx => h (by rw [← hjx]; exact hj)) _ _

theorem slot_self {ρ : ι → D} {x : ι} (v : D) (h : V.protos x = []) : slot V (Function.update ρ x v) x = (v, []) := by
  simp [slot, h]

/-! ### Density fitting -/

/-- The tensor is the product of its factors, summed over the auxiliary index; the antisymmetric one is the difference of two. -/
structure DfLaw (V : Env K L ι D) (new : ι → Bool) (C : DfCfg L ι) (R : List D) : Prop where
  inj : ∀ m m', C.aux m = C.aux m' → m = m'
  new : ∀ m, 0 < m → new (C.aux m) = true
  rng : ∀ m, V.rng (C.aux m) = R
  protos : ∀ m, V.protos (C.aux m) = []
  direct : ∀ p q r s, V.arr C.tensor false [p, q] [r, s] [] = (R.map fun k => V.arr C.factor false [p] [r] [(k, [])] * V.arr C.factor false [q] [s] [(k, [])]).sum
  anti : ∀ p q r s, V.arr C.tensor true [p, q] [r, s] [] =
    (R.map fun k => V.arr C.factor false [p] [r] [(k, [])] * V.arr C.factor false [q] [s] [(k, [])]).sum -
    (R.map fun k => V.arr C.factor false [q] [r] [(k, [])] * V.arr C.factor false [p] [s] [(k, [])]).sum

/-- The product of two factors with one auxiliary index. -/
theorem df_pair {C : DfCfg L ι} {R : List D} (hL : DfLaw V new C R) {n : Nat} (hn : 0 < n) (c : K) (p q r s : ι)
    (hc : ∀ i ∈ [p, q, r, s], ∀ j ∈ i :: V.protos i, new j = false) (ρ : ι → D) :
    val V new (.prod c [.ten ⟨C.factor, [p], [r], [C.aux n], false⟩, .ten ⟨C.factor, [q], [s], [C.aux n], false⟩]) ρ =
      c * (R.map fun k => V.arr C.factor false [slot V ρ p] [slot V ρ r] [(k, [])] * V.arr C.factor false [slot V ρ q] [slot V ρ s] [(k, [])]).sum := by
  have hx := hL.new n hn
  have hp := hL.protos n
  have hcf : ∀ i ∈ [p, q, r, s], (i :: V.protos i).filter new = [] := fun i hi => filter_clean (hc i hi)
  have hxi : ∀ i ∈ [p, q, r, s], C.aux n ∉ i :: V.protos i := fun i hi hcon => by
    rw [hc i hi _ hcon] at hx
    simp at hx
  have hnews : newsL V new [(.ten ⟨C.factor, [p], [r], [C.aux n], false⟩ : Ex K L ι), .ten ⟨C.factor, [q], [s], [C.aux n], false⟩] = [C.aux n] := by
    have e : directL V [(.ten ⟨C.factor, [p], [r], [C.aux n], false⟩ : Ex K L ι), .ten ⟨C.factor, [q], [s], [C.aux n], false⟩] =
        (p :: V.protos p) ++ (r :: V.protos r) ++ [C.aux n] ++ ((q :: V.protos q) ++ (s :: V.protos s) ++ [C.aux n]) := by
      simp [directL, direct, Ten.idx, hp]
    unfold newsL
    rw [e]
    simp only [List.filter_append, hcf p (by simp), hcf q (by simp), hcf r (by simp), hcf s (by simp), List.nil_append]
    simp [hx]
  rw [val_prod, hnews]
  simp only [sumOver, hL.rng n]
  congr 2
  refine List.map_congr_left fun v _ => ?_
  simp only [ptProd, pt, List.map_cons, List.map_nil, slot_self v hp, slot_update v (hxi p (by simp)), slot_update v (hxi q (by simp)),
    slot_update v (hxi r (by simp)), slot_update v (hxi s (by simp)), mul_one]

theorem dfTensor_repl {C : DfCfg L ι} {R : List D} (hL : DfLaw V new C R) {n : Nat} (hn : 0 < n) (t : Ten L ι)
    (hc : Clean V new (.ten t)) : ∃ r : Option (Ex K L ι), dfTensor C t n = some r ∧ Repl V new (.ten t) (r.getD (.ten t)) fun i => i = C.aux n := by
  unfold dfTensor
  split
  · rename_i h
    obtain ⟨h1, h2, h3, h4⟩ := h
    obtain ⟨p, q, hb⟩ := List.length_eq_two.1 h2
    obtain ⟨r, s, hk⟩ := List.length_eq_two.1 h3
    have ha := List.length_eq_zero_iff.1 h4
    have hc' : ∀ i ∈ [p, q, r, s], ∀ j ∈ i :: V.protos i, new j = false := by
      intro i hi j hj
      refine hc j ?_
      simp only [occ, Ten.idx, hb, hk, ha]
      exact List.mem_flatMap.2 ⟨i, by simpa using hi, hj⟩
    have hcs : ∀ i ∈ [p, q, s, r], ∀ j ∈ i :: V.protos i, new j = false := fun i hi => hc' i (by
      simp only [List.mem_cons, List.not_mem_nil, or_false] at hi ⊢
      tauto)
    have hcq : ∀ i ∈ [q, p, r, s], ∀ j ∈ i :: V.protos i, new j = false := fun i hi => hc' i (by
      simp only [List.mem_cons, List.not_mem_nil, or_false] at hi ⊢
      tauto)
    have hp := hL.protos n
    have hocc : ∀ i : ι, new i = true → i ∈ (p :: V.protos p) ++ (q :: V.protos q) ++ (r :: V.protos r) ++ (s :: V.protos s) ++ [C.aux n] → i = C.aux n := by
      intro i hi hmem
      simp only [List.mem_append] at hmem
      rcases hmem with (((h | h) | h) | h) | h
      · have := hc' p (by simp) i h; rw [this] at hi; simp at hi
      · have := hc' q (by simp) i h; rw [this] at hi; simp at hi
      · have := hc' r (by simp) i h; rw [this] at hi; simp at hi
      · have := hc' s (by simp) i h; rw [this] at hi; simp at hi
      · simpa using h
    unfold dfImpl
    simp only [hb, hk, ha]
    split
    · rename_i hanti
      refine ⟨_, rfl, ?_, ?_⟩
      · intro ρ
        simp only [Option.getD_some]
        rw [val_sum]
        simp only [List.map_cons, List.map_nil, List.sum_cons, List.sum_nil, add_zero]
        rw [df_pair hL hn 1 p q r s hc', df_pair hL hn (-1) q p r s hcq]
        simp only [pt, h1, hb, hk, ha, hanti, List.map_cons, List.map_nil]
        rw [hL.anti]
        ring
      · intro i hi hin
        refine hocc i hin ?_
        simp only [Option.getD_some, occ, occL, Ten.idx, hp, List.mem_append, List.append_nil, List.flatMap_cons, List.flatMap_nil, List.cons_append, List.nil_append,
          List.mem_cons, List.not_mem_nil, or_false] at hi ⊢
        tauto
    · rename_i hanti
      have hanti : t.anti = false := by simpa using hanti
      refine ⟨_, rfl, ?_, ?_⟩
      · intro ρ
        simp only [Option.getD_some]
        rw [df_pair hL hn 1 p q r s hc']
        simp only [pt, h1, hb, hk, ha, hanti, List.map_cons, List.map_nil]
        rw [hL.direct, one_mul]
      · intro i hi hin
        refine hocc i hin ?_
        simp only [Option.getD_some, occ, occL, Ten.idx, hp, List.mem_append, List.append_nil, List.flatMap_cons, List.flatMap_nil, List.cons_append, List.nil_append,
          List.mem_cons, List.not_mem_nil, or_false] at hi ⊢
        tauto
  · exact ⟨none, rfl, Repl.refl hc _⟩

theorem Clean.of_mem {l : List (Ex K L ι)} (h : ∀ i ∈ occL V l, new i = false) {e : Ex K L ι} (he : e ∈ l) : Clean V new e :=
  fun i hi => h i (mem_occL.2 ⟨e, he, hi⟩)

theorem dfFactors_loop {C : DfCfg L ι} {R : List D} (hL : DfLaw V new C R) : ∀ (l : List (Ex K L ι)) (n : Nat) (st : K × List (Ex K L ι)),
    (∀ i ∈ occL V l, new i = false) → ∃ r l', dfFactors C n st l = some r ∧ Loop V new (After C.aux n) st l r l'
  | [], n, st, _ => ⟨st, [], rfl, Loop.nil _ st⟩
  | e :: l, n, st, hc => by
    have hce : Clean V new e := Clean.of_mem hc List.mem_cons_self
    have hcl : ∀ i ∈ occL V l, new i = false := fun i hi => hc i (by simp [occL, hi])
    have other : ∃ r l', dfFactors C n (pAppend false st e) l = some r ∧ Loop V new (After C.aux n) st (e :: l) r (e :: l') := by
      obtain ⟨r, l', h1, h2⟩ := dfFactors_loop hL l n (pAppend false st e) hcl
      exact ⟨r, l', h1, Loop.keep false hce h2⟩
    cases e with
    | ten t =>
      obtain ⟨x, h1, h2⟩ := dfTensor_repl hL (Nat.succ_pos n) t hce
      cases x with
      | none =>
        obtain ⟨r, l', h3, h4⟩ := dfFactors_loop hL l (n + 1) (pAppend false st (.ten t)) hcl
        refine ⟨r, .ten t :: l', ?_, Loop.cons (s1 := fun _ => False) (fun _ h _ => h) (fun _ h => h.elim) (fun _ h => h.mono (Nat.le_succ n)) false
          (Repl.refl hce _) h4⟩
        simp only [dfFactors, h1]
        exact h3
      | some e' =>
        obtain ⟨r, l', h3, h4⟩ := dfFactors_loop hL l (n + 1) (pAppend true st e') hcl
        refine ⟨r, e' :: l', ?_, Loop.cons ?_ ?_ (fun _ h => h.mono (Nat.le_succ n)) true h2 h4⟩
        · simp only [dfFactors, h1]
          exact h3
        · rintro i rfl ⟨m, hm, heq⟩
          have := hL.inj _ _ heq
          omega
        · rintro i rfl
          exact ⟨n + 1, Nat.lt_succ_self n, rfl⟩
    | const c => obtain ⟨r, l', h⟩ := other; exact ⟨r, _, h⟩
    | var v => obtain ⟨r, l', h⟩ := other; exact ⟨r, _, h⟩
    | sum m => obtain ⟨r, l', h⟩ := other; exact ⟨r, _, h⟩
    | prod c m => obtain ⟨r, l', h⟩ := other; exact ⟨r, _, h⟩

mutual
/-- **C60** `density_fit` does not fail and keeps the value, the auxiliary indices being summed in every term.  Partial: the expression has no indices
of the auxiliary space; no empty slots. -/
theorem df_value_partial {C : DfCfg L ι} {R : List D} (hL : DfLaw V new C R) : (e : Ex K L ι) → Clean V new e →
    ∃ e', df C e = some e' ∧ ∀ ρ, val V new e' ρ = val V new e ρ
  | .const c, _ => ⟨_, rfl, fun _ => rfl⟩
  | .var v, _ => ⟨_, rfl, fun _ => rfl⟩
  | .ten t, hc => by
    obtain ⟨r, h1, h2⟩ := dfTensor_repl hL Nat.one_pos t hc
    refine ⟨r.getD (.ten t), by simp only [df, h1, Option.map_some], fun ρ => ?_⟩
    rw [h2.val ρ, hc.val]
  | .prod c l, hc => by
    obtain ⟨r, l', h1, h2⟩ := dfFactors_loop hL l 0 (1 * c, []) hc
    refine ⟨.prod r.1 r.2, by simp only [df, h1, Option.map_some], fun ρ => ?_⟩
    rw [h2.value ρ, hc.val]
  | .sum l, hc => by
    obtain ⟨r, h1, h2⟩ := dfSum_value hL l [] hc
    refine ⟨.sum r, by simp only [df, h1, Option.map_some], fun ρ => ?_⟩
    rw [h2 ρ, val_sum []]
    simp
theorem dfSum_value {C : DfCfg L ι} {R : List D} (hL : DfLaw V new C R) : (l : List (Ex K L ι)) → (st : List (Ex K L ι)) → (∀ i ∈ occL V l, new i = false) →
    ∃ r, dfSum C st l = some r ∧ ∀ ρ, val V new (.sum r) ρ = val V new (.sum st) ρ + val V new (.sum l) ρ
  | [], st, _ => ⟨st, rfl, fun ρ => by simp [val_sum]⟩
  | e :: l, st, hc => by
    obtain ⟨e', h1, h2⟩ := df_value_partial hL e (Clean.of_mem hc List.mem_cons_self)
    obtain ⟨r, h3, h4⟩ := dfSum_value hL l (sAppend st e') fun i hi => hc i (by simp [occL, hi])
    refine ⟨r, by simp only [dfSum, h1]; exact h3, fun ρ => ?_⟩
    rw [h4 ρ, sAppend_val, h2 ρ]
    simp only [val_sum, List.map_cons, List.sum_cons]
    ring
end

/-! ### Tensor hypercontraction -/

structure ThcLaw (V : Env K L ι D) (new : ι → Bool) (C : ThcCfg L ι) (R : List D) : Prop where
  inj : ∀ m m', C.aux m = C.aux m' → m = m'
  new : ∀ m, 0 < m → new (C.aux m) = true
  rng : ∀ m, V.rng (C.aux m) = R
  protos : ∀ m, V.protos (C.aux m) = []
  direct : ∀ p q r s, V.arr C.tensor false [p, q] [r, s] [] = (R.map fun x => (R.map fun y =>
    V.arr C.factor false [p] [] [(x, [])] * V.arr C.factor false [] [r] [(x, [])] * V.arr C.core false [] [] [(x, []), (y, [])] *
      V.arr C.factor false [q] [] [(y, [])] * V.arr C.factor false [] [s] [(y, [])]).sum).sum
  anti : ∀ p q r s, V.arr C.tensor true [p, q] [r, s] [] = V.arr C.tensor false [p, q] [r, s] [] - V.arr C.tensor false [q, p] [r, s] []

theorem thc_quint {C : ThcCfg L ι} {R : List D} (hL : ThcLaw V new C R) {n : Nat} (c : K) (p q r s : ι)
    (hc : ∀ i ∈ [p, q, r, s], ∀ j ∈ i :: V.protos i, new j = false) (ρ : ι → D) :
    val V new (.prod c [.ten ⟨C.factor, [p], [], [C.aux (n + 1)], false⟩, .ten ⟨C.factor, [], [r], [C.aux (n + 1)], false⟩,
      .ten ⟨C.core, [], [], [C.aux (n + 1), C.aux (n + 2)], false⟩, .ten ⟨C.factor, [q], [], [C.aux (n + 2)], false⟩,
      .ten ⟨C.factor, [], [s], [C.aux (n + 2)], false⟩]) ρ = c * V.arr C.tensor false [slot V ρ p, slot V ρ q] [slot V ρ r, slot V ρ s] [] := by
  have hx := hL.new (n + 1) (by omega)
  have hy := hL.new (n + 2) (by omega)
  have hxy : C.aux (n + 1) ≠ C.aux (n + 2) := fun h => by have := hL.inj _ _ h; omega
  have hp := hL.protos (n + 1)
  have hp' := hL.protos (n + 2)
  have hcf : ∀ i ∈ [p, q, r, s], (i :: V.protos i).filter new = [] := fun i hi => filter_clean (hc i hi)
  have hxi : ∀ i ∈ [p, q, r, s], C.aux (n + 1) ∉ i :: V.protos i := fun i hi hcon => by
    rw [hc i hi _ hcon] at hx
    simp at hx
  have hyi : ∀ i ∈ [p, q, r, s], C.aux (n + 2) ∉ i :: V.protos i := fun i hi hcon => by
    rw [hc i hi _ hcon] at hy
    simp at hy
  have hnews : newsL V new [(.ten ⟨C.factor, [p], [], [C.aux (n + 1)], false⟩ : Ex K L ι), .ten ⟨C.factor, [], [r], [C.aux (n + 1)], false⟩,
      .ten ⟨C.core, [], [], [C.aux (n + 1), C.aux (n + 2)], false⟩, .ten ⟨C.factor, [q], [], [C.aux (n + 2)], false⟩,
      .ten ⟨C.factor, [], [s], [C.aux (n + 2)], false⟩] = [C.aux (n + 1), C.aux (n + 2)] := by
    have e : directL V [(.ten ⟨C.factor, [p], [], [C.aux (n + 1)], false⟩ : Ex K L ι), .ten ⟨C.factor, [], [r], [C.aux (n + 1)], false⟩,
        .ten ⟨C.core, [], [], [C.aux (n + 1), C.aux (n + 2)], false⟩, .ten ⟨C.factor, [q], [], [C.aux (n + 2)], false⟩,
        .ten ⟨C.factor, [], [s], [C.aux (n + 2)], false⟩] =
        (p :: V.protos p) ++ [C.aux (n + 1)] ++ (r :: V.protos r) ++ [C.aux (n + 1)] ++ [C.aux (n + 1), C.aux (n + 2)] ++
          ((q :: V.protos q) ++ [C.aux (n + 2)] ++ (s :: V.protos s) ++ [C.aux (n + 2)]) := by
      simp [directL, direct, Ten.idx, hp, hp']
    unfold newsL
    rw [e]
    simp only [List.filter_append, hcf p (by simp), hcf q (by simp), hcf r (by simp), hcf s (by simp), List.nil_append]
    simp [hx, hy, hxy]
  rw [val_prod, hnews, hL.direct]
  simp only [sumOver, hL.rng]
  congr 2
  refine List.map_congr_left fun v _ => ?_
  congr 1
  refine List.map_congr_left fun w _ => ?_
  have hx1 : slot V (Function.update (Function.update ρ (C.aux (n + 1)) v) (C.aux (n + 2)) w) (C.aux (n + 1)) = (v, []) := by
    rw [slot_update w (by rw [hp]; simpa using hxy.symm), slot_self v hp]
  simp only [ptProd, pt, List.map_cons, List.map_nil, hx1, slot_self w hp', slot_update w (hyi p (by simp)), slot_update w (hyi q (by simp)),
    slot_update w (hyi r (by simp)), slot_update w (hyi s (by simp)), slot_update v (hxi p (by simp)), slot_update v (hxi q (by simp)),
    slot_update v (hxi r (by simp)), slot_update v (hxi s (by simp)), mul_one]
  ring

theorem thcImpl_repl {C : ThcCfg L ι} {R : List D} (hL : ThcLaw V new C R) (n : Nat) (t : Ten L ι) (hc : Clean V new (.ten t))
    (h1 : t.label = C.tensor) (h2 : t.bra.length = 2) (h3 : t.ket.length = 2) (h4 : t.aux = []) :
    ∃ e' : Ex K L ι, thcImpl C t (C.aux (n + 1)) (C.aux (n + 2)) = some e' ∧ Repl V new (.ten t) e' fun i => ∃ m, (n < m ∧ m ≤ n + 2) ∧ i = C.aux m := by
  obtain ⟨p, q, hb⟩ := List.length_eq_two.1 h2
  obtain ⟨r, s, hk⟩ := List.length_eq_two.1 h3
  have hc' : ∀ i ∈ [p, q, r, s], ∀ j ∈ i :: V.protos i, new j = false := by
    intro i hi j hj
    refine hc j ?_
    simp only [occ, Ten.idx, hb, hk, h4]
    exact List.mem_flatMap.2 ⟨i, by simpa using hi, hj⟩
  have hcq : ∀ i ∈ [q, p, r, s], ∀ j ∈ i :: V.protos i, new j = false := fun i hi => hc' i (by
    simp only [List.mem_cons, List.not_mem_nil, or_false] at hi ⊢
    tauto)
  have hp := hL.protos (n + 1)
  have hp' := hL.protos (n + 2)
  have hocc : ∀ i : ι, new i = true → i ∈ (p :: V.protos p) ++ (q :: V.protos q) ++ (r :: V.protos r) ++ (s :: V.protos s) ++ [C.aux (n + 1), C.aux (n + 2)] →
      ∃ m, (n < m ∧ m ≤ n + 2) ∧ i = C.aux m := by
    intro i hi hmem
    simp only [List.mem_append] at hmem
    rcases hmem with (((h | h) | h) | h) | h
    · have := hc' p (by simp) i h; rw [this] at hi; simp at hi
    · have := hc' q (by simp) i h; rw [this] at hi; simp at hi
    · have := hc' r (by simp) i h; rw [this] at hi; simp at hi
    · have := hc' s (by simp) i h; rw [this] at hi; simp at hi
    · simp only [List.mem_cons, List.not_mem_nil, or_false] at h
      rcases h with h | h
      · exact ⟨n + 1, ⟨by omega, by omega⟩, h⟩
      · exact ⟨n + 2, ⟨by omega, by omega⟩, h⟩
  unfold thcImpl
  simp only [hb, hk, h4]
  split
  · rename_i hanti
    refine ⟨_, rfl, ?_, ?_⟩
    · intro ρ
      rw [val_sum]
      simp only [List.map_cons, List.map_nil, List.sum_cons, List.sum_nil, add_zero]
      rw [thc_quint hL 1 p q r s hc', thc_quint hL (-1) q p r s hcq]
      simp only [pt, h1, hb, hk, h4, hanti, List.map_cons, List.map_nil]
      rw [hL.anti]
      ring
    · intro i hi hin
      refine hocc i hin ?_
      simp only [occ, occL, Ten.idx, hp, hp', List.mem_append, List.append_nil, List.flatMap_cons, List.flatMap_nil, List.cons_append, List.nil_append,
        List.mem_cons, List.not_mem_nil, or_false] at hi ⊢
      tauto
  · rename_i hanti
    have hanti : t.anti = false := by simpa using hanti
    refine ⟨_, rfl, ?_, ?_⟩
    · intro ρ
      rw [thc_quint hL 1 p q r s hc']
      simp only [pt, h1, hb, hk, h4, hanti, List.map_cons, List.map_nil, one_mul]
    · intro i hi hin
      refine hocc i hin ?_
      simp only [occ, occL, Ten.idx, hp, hp', List.mem_append, List.append_nil, List.flatMap_cons, List.flatMap_nil, List.cons_append, List.nil_append,
        List.mem_cons, List.not_mem_nil, or_false] at hi ⊢
      tauto

mutual
/-- All tensors with the label to replace that are factors of products have rank 2 and no auxiliary index. -/
def ThcOk (C : ThcCfg L ι) : Ex K L ι → Prop
  | .ten t => t.label = C.tensor → t.bra.length = 2 → t.ket.length = 2 → t.aux = []
  | .prod _ l => ∀ t, .ten t ∈ l → t.label = C.tensor → t.bra.length = 2 ∧ t.ket.length = 2 ∧ t.aux = []
  | .sum l => ThcOkL C l
  | .const _ => True
  | .var _ => True
def ThcOkL (C : ThcCfg L ι) : List (Ex K L ι) → Prop
  | [] => True
  | e :: l => ThcOk C e ∧ ThcOkL C l
end

theorem thcFactors_loop {C : ThcCfg L ι} {R : List D} (hL : ThcLaw V new C R) : ∀ (l : List (Ex K L ι)) (n : Nat) (st : K × List (Ex K L ι)),
    (∀ i ∈ occL V l, new i = false) → (∀ t, .ten t ∈ l → t.label = C.tensor → t.bra.length = 2 ∧ t.ket.length = 2 ∧ t.aux = []) →
    ∃ r l', thcFactors C n st l = some r ∧ Loop V new (After C.aux n) st l r l'
  | [], n, st, _, _ => ⟨st, [], rfl, Loop.nil _ st⟩
  | e :: l, n, st, hc, hok => by
    have hce : Clean V new e := Clean.of_mem hc List.mem_cons_self
    have hcl : ∀ i ∈ occL V l, new i = false := fun i hi => hc i (by simp [occL, hi])
    have hokl := fun t ht => hok t (List.mem_cons_of_mem _ ht)
    have other : ∃ r l', thcFactors C n (pAppend false st e) l = some r ∧ Loop V new (After C.aux n) st (e :: l) r (e :: l') := by
      obtain ⟨r, l', h1, h2⟩ := thcFactors_loop hL l n (pAppend false st e) hcl hokl
      exact ⟨r, l', h1, Loop.keep false hce h2⟩
    cases e with
    | ten t =>
      by_cases hlab : t.label = C.tensor
      · obtain ⟨h2, h3, h4⟩ := hok t List.mem_cons_self hlab
        obtain ⟨e', h5, h6⟩ := thcImpl_repl hL n t hce hlab h2 h3 h4
        obtain ⟨r, l', h7, h8⟩ := thcFactors_loop hL l (n + 2) (pAppend true st e') hcl hokl
        refine ⟨r, e' :: l', ?_, Loop.cons ?_ ?_ (fun _ h => h.mono (by omega)) true h6 h8⟩
        · simp only [thcFactors, if_pos hlab, h5]
          exact h7
        · rintro i ⟨m, hm, rfl⟩ ⟨m', hm', heq⟩
          have := hL.inj _ _ heq
          omega
        · rintro i ⟨m, hm, rfl⟩
          exact ⟨m, hm.1, rfl⟩
      · obtain ⟨r, l', h1, h2⟩ := other
        refine ⟨r, _, ?_, h2⟩
        simp only [thcFactors, if_neg hlab]
        exact h1
    | const c => obtain ⟨r, l', h⟩ := other; exact ⟨r, _, h⟩
    | var v => obtain ⟨r, l', h⟩ := other; exact ⟨r, _, h⟩
    | sum m => obtain ⟨r, l', h⟩ := other; exact ⟨r, _, h⟩
    | prod c m => obtain ⟨r, l', h⟩ := other; exact ⟨r, _, h⟩

mutual
/-- **C61** `tensor_hypercontract` keeps the value, the auxiliary indices being summed in every term.  Partial: the expression has no indices of the
auxiliary space and all tensors to be replaced in products have rank 2 (`thc_rank_violated`). -/
theorem thc_value_partial {C : ThcCfg L ι} {R : List D} (hL : ThcLaw V new C R) : (e : Ex K L ι) → Clean V new e → ThcOk C e →
    ∃ e', thc C e = some e' ∧ ∀ ρ, val V new e' ρ = val V new e ρ
  | .const c, _, _ => ⟨_, rfl, fun _ => rfl⟩
  | .var v, _, _ => ⟨_, rfl, fun _ => rfl⟩
  | .ten t, hc, hok => by
    by_cases h : t.label = C.tensor ∧ t.bra.length = 2 ∧ t.ket.length = 2
    · obtain ⟨e', h5, h6⟩ := thcImpl_repl hL 0 t hc h.1 h.2.1 h.2.2 (hok h.1 h.2.1 h.2.2)
      refine ⟨e', by simp only [thc, if_pos h]; exact h5, fun ρ => ?_⟩
      rw [h6.val ρ, hc.val]
    · exact ⟨.ten t, by simp only [thc, if_neg h], fun _ => rfl⟩
  | .prod c l, hc, hok => by
    obtain ⟨r, l', h1, h2⟩ := thcFactors_loop hL l 0 (1 * c, []) hc hok
    refine ⟨.prod r.1 r.2, by simp only [thc, h1, Option.map_some], fun ρ => ?_⟩
    rw [h2.value ρ, hc.val]
  | .sum l, hc, hok => by
    obtain ⟨r, h1, h2⟩ := thcSum_value hL l [] hc hok
    refine ⟨.sum r, by simp only [thc, h1, Option.map_some], fun ρ => ?_⟩
    rw [h2 ρ, val_sum []]
    simp
theorem thcSum_value {C : ThcCfg L ι} {R : List D} (hL : ThcLaw V new C R) : (l : List (Ex K L ι)) → (st : List (Ex K L ι)) →
    (∀ i ∈ occL V l, new i = false) → ThcOkL C l →
    ∃ r, thcSum C st l = some r ∧ ∀ ρ, val V new (.sum r) ρ = val V new (.sum st) ρ + val V new (.sum l) ρ
  | [], st, _, _ => ⟨st, rfl, fun ρ => by simp [val_sum]⟩
  | e :: l, st, hc, hok => by
    obtain ⟨e', h1, h2⟩ := thc_value_partial hL e (Clean.of_mem hc List.mem_cons_self) hok.1
    obtain ⟨r, h3, h4⟩ := thcSum_value hL l (sAppend st e') (fun i hi => hc i (by simp [occL, hi])) hok.2
    refine ⟨r, by simp only [thcSum, h1]; exact h3, fun ρ => ?_⟩
    rw [h4 ρ, sAppend_val, h2 ρ]
    simp only [val_sum, List.map_cons, List.sum_cons]
    ring
end

/-! ### Examples and failures -/

/-- Labels: 0, 1 two-body tensors; 2, 3 their factors; 4 a core tensor; even indices are auxiliary. -/
def exEnv : Env Int Nat Nat Bool where
  var _ := 5
  arr l a _ _ _ := if l ≤ 1 then if a then 0 else 2 else if l = 4 then 0 else 1
  rng _ := [false, true]
  protos _ := []

def exNew (i : Nat) : Bool := i % 2 == 0

def exDf (g b : Nat) : DfCfg Nat Nat := ⟨g, b, fun n => 2 * n⟩

theorem exDf_law {g : Nat} (hg : g ≤ 1) {b : Nat} (hb : b = 2 ∨ b = 3) : DfLaw exEnv exNew (exDf g b) [false, true] := by
  have h1 : ¬ b ≤ 1 := by omega
  have h2 : b ≠ 4 := by omega
  constructor
  · intro m m' h; simp only [exDf] at h; omega
  · intro m _; simp [exDf, exNew]
  · intro m; rfl
  · intro m; rfl
  · intro p q r s; simp [exEnv, exDf, hg, h1, h2]
  · intro p q r s; simp [exEnv, exDf, hg, h1, h2]

/-- A product with two tensors and one antisymmetric one. -/
example : Clean exEnv exNew (.prod 3 [.ten ⟨0, [1, 3], [5, 7], [], false⟩, .var 9, .ten ⟨0, [5, 7], [1, 3], [], true⟩] : Ex Int Nat Nat) ∧
    (df (exDf 0 2) (.prod 3 [.ten ⟨0, [1, 3], [5, 7], [], false⟩, .var 9, .ten ⟨0, [5, 7], [1, 3], [], true⟩] : Ex Int Nat Nat)) =
      some (.prod (1 * 3 * 1) [.ten ⟨2, [1], [5], [2], false⟩, .ten ⟨2, [3], [7], [2], false⟩, .var 9,
        .sum [.prod 1 [.ten ⟨2, [5], [1], [4], false⟩, .ten ⟨2, [7], [3], [4], false⟩],
          .prod (-1) [.ten ⟨2, [7], [1], [4], false⟩, .ten ⟨2, [5], [3], [4], false⟩]]]) := by
  refine ⟨?_, rfl⟩
  intro i hi
  simp [occ, occL, Ten.idx, exEnv] at hi
  rcases hi with rfl | rfl | rfl | rfl | rfl | rfl | rfl | rfl <;> rfl

/-- **C60 fails** for expressions with indices of the auxiliary space: the numbers of the new ones are not checked against them.  Fitting first one tensor, then
another: the third factor of the result of the first gets the index that the last one has got. -/
theorem df_twice_violated : ∃ (e e1 e2 : Ex Int Nat Nat), Clean exEnv exNew e ∧ DfLaw exEnv exNew (exDf 0 2) [false, true] ∧
    DfLaw exEnv exNew (exDf 1 3) [false, true] ∧ df (exDf 0 2) e = some e1 ∧ df (exDf 1 3) e1 = some e2 ∧
    val exEnv exNew e (fun _ => false) = 8 ∧ val exEnv exNew e1 (fun _ => false) = 8 ∧ val exEnv exNew e2 (fun _ => false) = 4 := by
  refine ⟨.prod 1 [.ten ⟨0, [1, 3], [5, 7], [], false⟩, .ten ⟨1, [1, 3], [5, 7], [], false⟩, .ten ⟨0, [5, 7], [1, 3], [], false⟩], _, _, ?_,
    exDf_law (by omega) (Or.inl rfl), exDf_law (by omega) (Or.inr rfl), rfl, rfl, by decide, by decide, by decide⟩
  intro i hi
  simp [occ, occL, Ten.idx, exEnv] at hi
  rcases hi with rfl | rfl | rfl | rfl | rfl | rfl | rfl | rfl | rfl | rfl | rfl | rfl <;> rfl

def exThc : ThcCfg Nat Nat := ⟨7, 2, 3, fun n => 2 * n⟩

/-- An instance of the law: all factors 1, two values of the auxiliary index. -/
def exEnv' : Env Int Nat Nat Bool where
  var _ := 5
  arr l a _ _ _ := if l = 7 then if a then 0 else 4 else 1
  rng _ := [false, true]
  protos _ := []

theorem exThc_law : ThcLaw exEnv' exNew exThc [false, true] := by
  constructor
  · intro m m' h; simp only [exThc] at h; omega
  · intro m _; simp [exThc, exNew]
  · intro m; rfl
  · intro m; rfl
  · intro p q r s; simp [exEnv', exThc]
  · intro p q r s; simp [exEnv', exThc]

example : ThcOk exThc (.prod 3 [.ten ⟨7, [1, 3], [5, 7], [], false⟩, .var 9] : Ex Int Nat Nat) := by
  intro t ht _
  simp at ht
  subst ht
  exact ⟨rfl, rfl, rfl⟩

/-- **C61 fails** for factors with the label but of another rank: an assertion fails, while such a tensor by itself is left alone. -/
theorem thc_rank_violated : thc exThc (.prod 3 [.ten ⟨7, [1], [5], [], false⟩, .var 9] : Ex Int Nat Nat) = none ∧
    thc exThc (.ten ⟨7, [1], [5], [], false⟩ : Ex Int Nat Nat) = some (.ten ⟨7, [1], [5], [], false⟩) ∧
    df (exDf 7 2) (.prod 3 [.ten ⟨7, [1], [5], [], false⟩, .var 9] : Ex Int Nat Nat) = some (.prod (1 * 3) [.ten ⟨7, [1], [5], [], false⟩, .var 9]) :=
  ⟨rfl, rfl, rfl⟩

end SeQuant.Rules
