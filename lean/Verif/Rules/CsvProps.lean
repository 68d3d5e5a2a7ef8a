import Verif.Rules.DfProps

/-!
# Transformation to cluster-specific virtuals (C62)
-/

namespace SeQuant.Rules

set_option linter.unusedSectionVars false

variable {K L ι D : Type} [CommRing K] [DecidableEq K] [DecidableEq L] [DecidableEq ι] {V : Env K L ι D} {new : ι → Bool}

/-- A function of slots is transformed by coefficients in every slot with proto-indices. -/
def Lin (R : List D) (coef : D × List D → D → K) (G : List (D × List D) → K) : Prop :=
  ∀ pre v ps post, ps ≠ [] → G (pre ++ (v, ps) :: post) = (R.map fun k => coef (v, ps) k * G (pre ++ (k, []) :: post)).sum

def coefB (V : Env K L ι D) (C : CsvCfg L ι) (x : D × List D) (k : D) : K := V.arr C.coeff false [x] [(k, [])] []
def coefK (V : Env K L ι D) (C : CsvCfg L ι) (x : D × List D) (k : D) : K := V.arr C.coeff false [(k, [])] [x] []

/-- The basis: tensors in it and their transforms; the overlap of two virtuals. -/
structure CsvLaw (V : Env K L ι D) (new : ι → Bool) (C : CsvCfg L ι) (n0 : Nat) (R : List D) : Prop where
  proto : ∀ i, C.hasProto i = true ↔ V.protos i ≠ []
  inj : ∀ m m', C.tmp m = C.tmp m' → m = m'
  new : ∀ m, n0 ≤ m → new (C.tmp m) = true
  rng : ∀ m, V.rng (C.tmp m) = R
  protos : ∀ m, V.protos (C.tmp m) = []
  bra : ∀ lab anti k x, lab ∈ C.labels → ¬ (C.orth ∧ lab = C.overlap) → Lin R (coefB V C) fun b => V.arr lab anti b k x
  ket : ∀ lab anti b x, lab ∈ C.labels → ¬ (C.orth ∧ lab = C.overlap) → Lin R (coefK V C) fun k => V.arr lab anti b k x
  overlap : C.orth = true → ∀ anti x y, x.2 ≠ [] → y.2 ≠ [] → V.arr C.overlap anti [x] [y] [] = (R.map fun k => coefB V C x k * coefK V C y k).sum
  overlap1 : C.orth = true → ∀ anti x y, (x.2 ≠ [] ∧ y.2 = [] ∨ x.2 = [] ∧ y.2 ≠ []) → V.arr C.overlap anti [x] [y] [] = V.arr C.coeff false [x] [y] []

/-! ### The temporary indices -/

/-- The temporary indices from `n` to `n'`. -/
def tmps (C : CsvCfg L ι) (n n' : Nat) : List ι := (List.range' n (n' - n)).map C.tmp

theorem mem_tmps {C : CsvCfg L ι} {n n' : Nat} {i : ι} : i ∈ tmps C n n' ↔ ∃ m, n ≤ m ∧ m < n' ∧ i = C.tmp m := by
  simp only [tmps, List.mem_map, List.mem_range'_1]
  constructor
  · rintro ⟨m, hm, rfl⟩; exact ⟨m, hm.1, by omega, rfl⟩
  · rintro ⟨m, h1, h2, rfl⟩; exact ⟨m, ⟨h1, by omega⟩, rfl⟩

theorem tmps_nil (C : CsvCfg L ι) (n : Nat) : tmps C n n = [] := by simp [tmps]

theorem tmps_cons (C : CsvCfg L ι) {n n' : Nat} (h : n < n') : tmps C n n' = C.tmp n :: tmps C (n + 1) n' := by
  unfold tmps
  have : n' - n = (n' - (n + 1)) + 1 := by omega
  rw [this, List.range'_succ, List.map_cons]

theorem tmps_append (C : CsvCfg L ι) {n n' n'' : Nat} (h : n ≤ n') (h' : n' ≤ n'') : tmps C n n' ++ tmps C n' n'' = tmps C n n'' := by
  unfold tmps
  rw [← List.map_append]
  congr 1
  have e1 : n' = n + (n' - n) := by omega
  have e2 : n'' - n = (n' - n) + (n'' - n') := by omega
  conv_lhs => rw [show List.range' n' (n'' - n') = List.range' (n + 1 * (n' - n)) (n'' - n') by rw [one_mul, ← e1]]
  rw [List.range'_append, e2]

theorem tmps_nodup {C : CsvCfg L ι} (hinj : ∀ m m', C.tmp m = C.tmp m' → m = m') (n n' : Nat) : (tmps C n n').Nodup :=
  List.Nodup.map_on (fun a _ b _ h => hinj a b h) (List.nodup_range' (h := Nat.one_pos))

theorem csvSlots_le (C : CsvCfg L ι) (coeff : ι → ι → Ex K L ι) : ∀ (l : List ι) (n : Nat), n ≤ (csvSlots C coeff n l).2.2
  | [], n => le_rfl
  | i :: l, n => by
    simp only [csvSlots]
    split
    · exact le_trans (Nat.le_succ n) (csvSlots_le C coeff l (n + 1))
    · exact csvSlots_le C coeff l n

/-- Only functions on assignments reached matter. -/
theorem sumOver_congr_on (l : List ι) {F G : (ι → D) → K} (ρ : ι → D) (h : ∀ ρ', (∀ i, i ∉ l → ρ' i = ρ i) → F ρ' = G ρ') : sumOver V l F ρ = sumOver V l G ρ := by
  induction l generalizing ρ with
  | nil => exact h ρ fun _ _ => rfl
  | cons i l ih =>
    simp only [sumOver]
    congr 1
    refine List.map_congr_left fun v _ => ih _ fun ρ' hr => h ρ' fun j hj => ?_
    rw [hr j fun hjl => hj (List.mem_cons_of_mem _ hjl), Function.update_of_ne fun hji => hj (by rw [hji]; exact List.mem_cons_self)]

variable {C : CsvCfg L ι} {n0 : Nat} {R : List D}

/-- Summed indices among the transformed slots and in the coefficients. -/
theorem csvSlots_filter (hL : CsvLaw V new C n0 R) (coeff : ι → ι → Ex K L ι)
    (hcoeff : ∀ i x, direct V (coeff i x) = (i :: V.protos i) ++ (x :: V.protos x) ∨ direct V (coeff i x) = (x :: V.protos x) ++ (i :: V.protos i)) :
    ∀ (l : List ι) (n : Nat), n0 ≤ n → (∀ i ∈ l, ∀ j ∈ i :: V.protos i, new j = false) →
      ((csvSlots C coeff n l).1.flatMap fun i => i :: V.protos i).filter new = tmps C n (csvSlots C coeff n l).2.2 ∧
      (directL V (csvSlots C coeff n l).2.1).filter new = tmps C n (csvSlots C coeff n l).2.2
  | [], n, _, _ => by simp [csvSlots, tmps_nil, directL]
  | i :: l, n, hn, hc => by
    have hcl : ∀ i ∈ l, ∀ j ∈ i :: V.protos i, new j = false := fun k hk => hc k (List.mem_cons_of_mem _ hk)
    have hci := filter_clean (new := new) (hc i List.mem_cons_self)
    simp only [csvSlots]
    split
    · obtain ⟨h1, h2⟩ := csvSlots_filter hL coeff hcoeff l (n + 1) (by omega) hcl
      have hlt : n < (csvSlots C coeff (n + 1) l).2.2 := csvSlots_le C coeff l (n + 1)
      have hx : (C.tmp n :: V.protos (C.tmp n)).filter new = [C.tmp n] := by rw [hL.protos]; simp [hL.new n hn]
      simp only
      rw [tmps_cons C hlt]
      refine ⟨?_, ?_⟩
      · rw [List.flatMap_cons, List.filter_append, hx, h1]; rfl
      · rw [directL, List.filter_append, h2]
        rcases hcoeff i (C.tmp n) with h | h
        · rw [h, List.filter_append, hci, hx]; rfl
        · rw [h, List.filter_append, hci, hx]; rfl
    · obtain ⟨h1, h2⟩ := csvSlots_filter hL coeff hcoeff l n hn hcl
      refine ⟨?_, h2⟩
      simp only
      rw [List.flatMap_cons, List.filter_append, hci, h1]; rfl

/-- The indices in the transformed slots and coefficients. -/
theorem csvSlots_occ (hL : CsvLaw V new C n0 R) (coeff : ι → ι → Ex K L ι)
    (hcoeff : ∀ i x, ∀ j ∈ occ V (coeff i x), j ∈ (i :: V.protos i) ++ (x :: V.protos x)) :
    ∀ (l : List ι) (n : Nat) (j : ι),
      (j ∈ ((csvSlots C coeff n l).1.flatMap fun i => i :: V.protos i) ∨ j ∈ occL V (csvSlots C coeff n l).2.1) →
      j ∈ (l.flatMap fun i => i :: V.protos i) ∨ j ∈ tmps C n (csvSlots C coeff n l).2.2
  | [], n, j, h => by simp [csvSlots, occL] at h
  | i :: l, n, j, h => by
    have ih := csvSlots_occ hL coeff hcoeff l
    simp only [csvSlots] at h ⊢
    split at h
    · rename_i hp
      rw [if_pos hp]
      have hlt : n < (csvSlots C coeff (n + 1) l).2.2 := csvSlots_le C coeff l (n + 1)
      simp only at h ⊢
      rw [tmps_cons C hlt, List.flatMap_cons, List.mem_append, List.mem_cons (b := C.tmp n)]
      have hx : j ∈ C.tmp n :: V.protos (C.tmp n) → j = C.tmp n := by rw [hL.protos]; simp
      rcases h with h | h
      · rw [List.flatMap_cons, List.mem_append] at h
        rcases h with h | h
        · exact Or.inr (Or.inl (hx h))
        · rcases ih (n + 1) j (Or.inl h) with h | h
          · exact Or.inl (Or.inr h)
          · exact Or.inr (Or.inr h)
      · rw [occL, List.mem_append] at h
        rcases h with h | h
        · rcases List.mem_append.1 (hcoeff _ _ j h) with h | h
          · exact Or.inl (Or.inl h)
          · exact Or.inr (Or.inl (hx h))
        · rcases ih (n + 1) j (Or.inr h) with h | h
          · exact Or.inl (Or.inr h)
          · exact Or.inr (Or.inr h)
    · rename_i hp
      rw [if_neg hp]
      simp only at h ⊢
      rw [List.flatMap_cons, List.mem_append]
      rcases h with h | h
      · rw [List.flatMap_cons, List.mem_append] at h
        rcases h with h | h
        · exact Or.inl (Or.inl h)
        · exact (ih n j (Or.inl h)).imp Or.inr id
      · exact (ih n j (Or.inr h)).imp Or.inr id

/-- The sum over the temporary indices of one group of slots. -/
theorem csvSlots_sum (hL : CsvLaw V new C n0 R) (coeff : ι → ι → Ex K L ι) (coef : D × List D → D → K)
    (hcoeff : ∀ (ρ : ι → D) i x, V.protos x = [] → pt V new (coeff i x) ρ = coef (slot V ρ i) (ρ x)) :
    ∀ (l : List ι) (n : Nat) (G : List (D × List D) → K), n0 ≤ n → (∀ i ∈ l, ∀ j ∈ i :: V.protos i, new j = false) → Lin R coef G → ∀ ρ,
      sumOver V (tmps C n (csvSlots C coeff n l).2.2) (fun ρ => G ((csvSlots C coeff n l).1.map (slot V ρ)) * ptProd V new (csvSlots C coeff n l).2.1 ρ) ρ =
        G (l.map (slot V ρ))
  | [], n, G, _, _, _, ρ => by simp [csvSlots, tmps_nil, sumOver, ptProd]
  | i :: l, n, G, hn, hc, hG, ρ => by
    have hcl : ∀ i ∈ l, ∀ j ∈ i :: V.protos i, new j = false := fun k hk => hc k (List.mem_cons_of_mem _ hk)
    have hGx : ∀ x, Lin R coef fun post => G (x :: post) := fun x pre v ps post hps => hG (x :: pre) v ps post hps
    have hnot : ∀ m, n0 ≤ m → ∀ k ∈ i :: l, C.tmp m ∉ k :: V.protos k := fun m hm k hk hcon => by
      have := hc k hk _ hcon
      rw [hL.new m hm] at this
      simp at this
    simp only [csvSlots]
    split
    · rename_i hp
      have hlt : n < (csvSlots C coeff (n + 1) l).2.2 := csvSlots_le C coeff l (n + 1)
      simp only
      rw [tmps_cons C hlt]
      simp only [sumOver, hL.rng]
      have hps : V.protos i ≠ [] := (hL.proto i).1 hp
      have hlin := hG [] (ρ i) ((V.protos i).map ρ) (l.map (slot V ρ)) (by simpa using hps)
      simp only [List.nil_append] at hlin
      rw [List.map_cons]
      refine Eq.trans ?_ hlin.symm
      congr 1
      refine List.map_congr_left fun v _ => ?_
      have hstep : sumOver V (tmps C (n + 1) (csvSlots C coeff (n + 1) l).2.2)
          (fun ρ => G ((C.tmp n :: (csvSlots C coeff (n + 1) l).1).map (slot V ρ)) * ptProd V new (coeff i (C.tmp n) :: (csvSlots C coeff (n + 1) l).2.1) ρ)
          (Function.update ρ (C.tmp n) v) =
        sumOver V (tmps C (n + 1) (csvSlots C coeff (n + 1) l).2.2)
          (fun ρ' => coef (slot V ρ i) v * (G ((v, []) :: (csvSlots C coeff (n + 1) l).1.map (slot V ρ')) * ptProd V new (csvSlots C coeff (n + 1) l).2.1 ρ'))
          (Function.update ρ (C.tmp n) v) := by
        refine sumOver_congr_on _ _ fun ρ' hr => ?_
        have hv : ρ' (C.tmp n) = v := by
          rw [hr, Function.update_self]
          intro hmem
          obtain ⟨m, h1, _, h3⟩ := mem_tmps.1 hmem
          have := hL.inj _ _ h3
          omega
        have hsl : slot V ρ' i = slot V ρ i := by
          refine slot_dep fun j hj => ?_
          rw [hr, Function.update_of_ne]
          · intro hji
            exact hnot n hn i List.mem_cons_self (by rw [← hji]; exact hj)
          · intro hmem
            obtain ⟨m, h1, _, h3⟩ := mem_tmps.1 hmem
            exact hnot m (by omega) i List.mem_cons_self (by rw [← h3]; exact hj)
        rw [List.map_cons, ptProd, hcoeff ρ' i _ (hL.protos n), hv, hsl]
        have : slot V ρ' (C.tmp n) = (v, []) := by simp [slot, hL.protos, hv]
        rw [this]
        ring
      rw [hstep, sumOver_smul, csvSlots_sum hL coeff coef hcoeff l (n + 1) (fun post => G ((v, []) :: post)) (by omega) hcl (hGx _)]
      congr 3
      exact List.map_congr_left fun k hk => slot_update v (hnot n hn k (List.mem_cons_of_mem _ hk))
    · simp only
      have hstep : sumOver V (tmps C n (csvSlots C coeff n l).2.2)
          (fun ρ => G ((i :: (csvSlots C coeff n l).1).map (slot V ρ)) * ptProd V new (csvSlots C coeff n l).2.1 ρ) ρ =
        sumOver V (tmps C n (csvSlots C coeff n l).2.2)
          (fun ρ' => G (slot V ρ i :: (csvSlots C coeff n l).1.map (slot V ρ')) * ptProd V new (csvSlots C coeff n l).2.1 ρ') ρ := by
        refine sumOver_congr_on _ _ fun ρ' hr => ?_
        have hsl : slot V ρ' i = slot V ρ i := by
          refine slot_dep fun j hj => hr j ?_
          intro hmem
          obtain ⟨m, h1, _, h3⟩ := mem_tmps.1 hmem
          exact hnot m (by omega) i List.mem_cons_self (by rw [← h3]; exact hj)
        rw [List.map_cons, hsl]
      rw [hstep, csvSlots_sum hL coeff coef hcoeff l n (fun post => G (slot V ρ i :: post)) hn hcl (hGx _)]
      rfl

/-! ### One tensor -/

/-- The index without proto-indices used for the overlap of two virtuals. -/
def tenDums (C : CsvCfg L ι) (t : Ten L ι) : List ι :=
  if t.label ∈ C.labels ∧ C.orth ∧ t.label = C.overlap then
    match t.bra, t.ket with
    | [a], [b] => if C.hasProto a ∧ C.hasProto b then [if C.ordLt a b then C.drop a else C.drop b] else []
    | _, _ => []
  else []

/-- Tensors for which the assertions hold, and for which the index of the overlap is new. -/
structure TenOk (V : Env K L ι D) (new : ι → Bool) (C : CsvCfg L ι) (R : List D) (t : Ten L ι) : Prop where
  aux : t.label ∈ C.labels → ∀ i ∈ t.aux, C.hasProto i = false
  overlap : t.label ∈ C.labels → C.orth → t.label = C.overlap → t.bra.length = 1 ∧ t.ket.length = 1 ∧ t.aux = []
  dums : ∀ d ∈ tenDums C t, new d = true ∧ V.rng d = R ∧ V.protos d = [] ∧ ∀ m, d ≠ C.tmp m

/-- The summed indices that the transformation of an expression may add. -/
def Adds (C : CsvCfg L ι) (n n' : Nat) (d : List ι) (i : ι) : Prop := i ∈ tmps C n n' ∨ i ∈ d

theorem csvTen_repl (hL : CsvLaw V new C n0 R) {n : Nat} (hn : n0 ≤ n) (t : Ten L ι) (hc : Clean V new (.ten t)) (hok : TenOk V new C R t) :
    ∃ (e' : Ex K L ι) (n' : Nat), csv C n (.ten t) = some (some e', n') ∧ n ≤ n' ∧ Repl V new (.ten t) e' (Adds C n n' (tenDums C t)) := by
  have hc0 : ∀ i ∈ t.bra ++ t.ket ++ t.aux, ∀ j ∈ i :: V.protos i, new j = false := fun i hi j hj => hc j (List.mem_flatMap.2 ⟨i, hi, hj⟩)
  have hcb : ∀ i ∈ t.bra, ∀ j ∈ i :: V.protos i, new j = false := fun i hi => hc0 i (by simp [hi])
  have hck : ∀ i ∈ t.ket, ∀ j ∈ i :: V.protos i, new j = false := fun i hi => hc0 i (by simp [hi])
  have hca : ∀ i ∈ t.aux, ∀ j ∈ i :: V.protos i, new j = false := fun i hi => hc0 i (by simp [hi])
  by_cases hlab : t.label ∈ C.labels
  swap
  · exact ⟨.ten t, n, by simp [csv, hlab], le_rfl, Repl.refl hc _⟩
  by_cases hany : (t.bra ++ t.ket ++ t.aux).any C.hasProto = true
  swap
  · exact ⟨.ten t, n, by simp only [csv]; rw [if_neg (by simpa using hlab), if_pos (by simpa using hany)], le_rfl, Repl.refl hc _⟩
  have haux : t.aux.any C.hasProto = false := by
    rw [List.any_eq_false]
    intro i hi
    simp [hok.aux hlab i hi]
  have hbk : (t.bra ++ t.ket).any C.hasProto = true := by
    rw [List.any_append, haux, Bool.or_false] at hany
    exact hany
  have hcsv : csv C n (.ten t : Ex K L ι) = csvImpl C n t := by
    simp only [csv]
    rw [if_neg (by simpa using hlab), if_neg (by rw [hany]; simp)]
  rw [hcsv]
  unfold csvImpl
  rw [if_neg (by simp [hbk]), if_neg (by simp [haux])]
  by_cases hov : C.orth = true ∧ t.label = C.overlap
  · rw [if_pos hov]
    obtain ⟨h1, h2, h3⟩ := hok.overlap hlab hov.1 hov.2
    obtain ⟨a, ha⟩ := List.length_eq_one_iff.1 h1
    obtain ⟨b, hb⟩ := List.length_eq_one_iff.1 h2
    rw [ha] at hcb
    rw [hb] at hck
    have hca' := filter_clean (hcb a (by simp))
    have hcb' := filter_clean (hck b (by simp))
    simp only [ha, hb, h3]
    by_cases hpp : C.hasProto a = true ∧ C.hasProto b = true
    · rw [if_pos hpp]
      have hd : tenDums C t = [if C.ordLt a b then C.drop a else C.drop b] := by
        simp only [tenDums, ha, hb]
        rw [if_pos ⟨hlab, hov⟩, if_pos hpp]
      obtain ⟨h4, h5, h6, -⟩ := hok.dums (if C.ordLt a b then C.drop a else C.drop b) (by rw [hd]; simp)
      rw [hd]
      generalize (if C.ordLt a b then C.drop a else C.drop b) = d at h4 h5 h6 ⊢
      have hda : d ∉ a :: V.protos a := fun hcon => by have := hcb a (by simp) d hcon; rw [h4] at this; simp at this
      have hdb : d ∉ b :: V.protos b := fun hcon => by have := hck b (by simp) d hcon; rw [h4] at this; simp at this
      refine ⟨_, n, rfl, le_rfl, ?_, ?_⟩
      · intro ρ
        have hnews : newsL V new [(.ten ⟨C.coeff, [a], [d], [], false⟩ : Ex K L ι), .ten ⟨C.coeff, [d], [b], [], false⟩] = [d] := by
          have e : directL V [(.ten ⟨C.coeff, [a], [d], [], false⟩ : Ex K L ι), .ten ⟨C.coeff, [d], [b], [], false⟩] =
              (a :: V.protos a) ++ [d] ++ ([d] ++ (b :: V.protos b)) := by simp [directL, direct, Ten.idx, h6]
          unfold newsL
          rw [e]
          simp only [List.filter_append, hca', hcb', List.nil_append, List.append_nil]
          simp [h4]
        rw [val_prod, hnews, one_mul]
        simp only [sumOver, h5]
        simp only [pt, ha, hb, h3, hov.2, List.map_cons, List.map_nil]
        rw [hL.overlap hov.1 _ _ _ (by simpa [slot] using (hL.proto a).1 hpp.1) (by simpa [slot] using (hL.proto b).1 hpp.2)]
        congr 1
        refine List.map_congr_left fun v _ => ?_
        simp only [ptProd, pt, List.map_cons, List.map_nil, slot_self v h6, slot_update v hda, slot_update v hdb, mul_one, coefB, coefK]
      · intro i hi hin
        simp only [occ, occL, Ten.idx, h6, List.append_nil, List.flatMap_cons, List.flatMap_nil, List.cons_append, List.nil_append] at hi
        have h7 : i ∈ a :: V.protos a → False := fun hcon => by have := hcb a (by simp) i hcon; rw [hin] at this; simp at this
        have h8 : i ∈ b :: V.protos b → False := fun hcon => by have := hck b (by simp) i hcon; rw [hin] at this; simp at this
        simp only [List.mem_cons, List.mem_append, List.not_mem_nil, or_false] at hi h7 h8
        refine Or.inr ?_
        rw [List.mem_singleton]
        tauto
    · rw [if_neg hpp]
      refine ⟨_, n, rfl, le_rfl, ?_, ?_⟩
      · intro ρ
        have hcl : Clean V new (.prod 1 [.ten ⟨C.coeff, [a], [b], [], false⟩] : Ex K L ι) := by
          intro i hi
          simp only [occ, occL, Ten.idx, List.append_nil, List.singleton_append, List.flatMap_cons, List.flatMap_nil] at hi
          rcases List.mem_append.1 hi with h | h
          · exact hcb a (by simp) i h
          · exact hck b (by simp) i h
        rw [hcl.val]
        simp only [pt, ptProd, ha, hb, h3, hov.2, List.map_cons, List.map_nil, one_mul, mul_one]
        rw [hL.overlap1 hov.1]
        have h7 : C.hasProto a = true ∨ C.hasProto b = true := by simpa [ha, hb] using hbk
        have h8 := hL.proto a
        have h9 := hL.proto b
        simp only [slot, ne_eq, List.map_eq_nil_iff]
        by_cases ha' : V.protos a = []
        · refine Or.inr ⟨ha', ?_⟩
          rcases h7 with h | h
          · exact absurd ha' (h8.1 h)
          · exact h9.1 h
        · refine Or.inl ⟨ha', ?_⟩
          by_contra hb'
          exact hpp ⟨h8.2 ha', h9.2 hb'⟩
      · intro i hi hin
        simp only [occ, occL, Ten.idx, List.append_nil, List.singleton_append, List.flatMap_cons, List.flatMap_nil] at hi
        rcases List.mem_append.1 hi with h | h
        · rw [hcb a (by simp) i h] at hin; simp at hin
        · rw [hck b (by simp) i h] at hin; simp at hin
  · rw [if_neg hov]
    simp only
    have dB : ∀ i x, direct V (coeffBra (K := K) C i x) = (i :: V.protos i) ++ (x :: V.protos x) := fun i x => by simp [coeffBra, direct, Ten.idx]
    have dK : ∀ i x, direct V (coeffKet (K := K) C i x) = (x :: V.protos x) ++ (i :: V.protos i) := fun i x => by simp [coeffKet, direct, Ten.idx]
    have oB : ∀ i x, ∀ j ∈ occ V (coeffBra (K := K) C i x), j ∈ (i :: V.protos i) ++ (x :: V.protos x) := fun i x j hj => by
      simpa [coeffBra, occ, Ten.idx] using hj
    have oK : ∀ i x, ∀ j ∈ occ V (coeffKet (K := K) C i x), j ∈ (i :: V.protos i) ++ (x :: V.protos x) := fun i x j hj => by
      have : j ∈ (x :: V.protos x) ++ (i :: V.protos i) := by simpa [coeffKet, occ, Ten.idx] using hj
      exact List.mem_append.2 (List.mem_append.1 this).symm
    have pB : ∀ (ρ : ι → D) i x, V.protos x = [] → pt V new (coeffBra (K := K) C i x) ρ = coefB V C (slot V ρ i) (ρ x) := fun ρ i x hx => by
      simp [coeffBra, pt, coefB, slot, hx]
    have pK : ∀ (ρ : ι → D) i x, V.protos x = [] → pt V new (coeffKet (K := K) C i x) ρ = coefK V C (slot V ρ i) (ρ x) := fun ρ i x hx => by
      simp [coeffKet, pt, coefK, slot, hx]
    have lB := csvSlots_le C (coeffBra (K := K) C) t.bra n
    obtain ⟨fB1, fB2⟩ := csvSlots_filter hL (coeffBra (K := K) C) (fun i x => Or.inl (dB i x)) t.bra n hn hcb
    have xB := csvSlots_occ hL (coeffBra (K := K) C) oB t.bra n
    have sB := csvSlots_sum hL (coeffBra (K := K) C) (coefB V C) pB t.bra n
    generalize csvSlots C (coeffBra (K := K) C) n t.bra = B at lB fB1 fB2 xB sB ⊢
    have lK := csvSlots_le C (coeffKet (K := K) C) t.ket B.2.2
    obtain ⟨fK1, fK2⟩ := csvSlots_filter hL (coeffKet (K := K) C) (fun i x => Or.inr (dK i x)) t.ket B.2.2 (by omega) hck
    have xK := csvSlots_occ hL (coeffKet (K := K) C) oK t.ket B.2.2
    have sK := csvSlots_sum hL (coeffKet (K := K) C) (coefK V C) pK t.ket B.2.2
    generalize csvSlots C (coeffKet (K := K) C) B.2.2 t.ket = Q at lK fK1 fK2 xK sK ⊢
    refine ⟨_, Q.2.2, rfl, by omega, ?_, ?_⟩
    · intro ρ
      have hnews : newsL V new ((.ten { t with bra := B.1, ket := Q.1 } : Ex K L ι) :: (B.2.1 ++ Q.2.1)) = tmps C n B.2.2 ++ tmps C B.2.2 Q.2.2 := by
        unfold newsL
        rw [directL, directL_append]
        simp only [direct, Ten.idx, List.flatMap_append, List.filter_append, fB1, fB2, fK1, fK2]
        have : (t.aux.flatMap fun i => i :: V.protos i).filter new = [] := by
          refine filter_clean fun j hj => ?_
          obtain ⟨i, hi, hj⟩ := List.mem_flatMap.1 hj
          exact hca i hi j hj
        rw [this, List.append_nil, tmps_append C lB lK, List.Subset.dedup_append_right (List.Subset.refl _), (tmps_nodup hL.inj _ _).dedup]
      rw [val_prod, one_mul, hnews, sumOver_append]
      have hk0 : ∀ ρ', sumOver V (tmps C B.2.2 Q.2.2) (ptProd V new ((.ten { t with bra := B.1, ket := Q.1 } : Ex K L ι) :: (B.2.1 ++ Q.2.1))) ρ' =
          V.arr t.label t.anti (B.1.map (slot V ρ')) (t.ket.map (slot V ρ')) (t.aux.map (slot V ρ')) * ptProd V new B.2.1 ρ' := by
        intro ρ'
        have hfix : ∀ ρ'', (∀ i, i ∉ tmps C B.2.2 Q.2.2 → ρ'' i = ρ' i) →
            ptProd V new ((.ten { t with bra := B.1, ket := Q.1 } : Ex K L ι) :: (B.2.1 ++ Q.2.1)) ρ'' =
            ptProd V new B.2.1 ρ' * (V.arr t.label t.anti (B.1.map (slot V ρ')) (Q.1.map (slot V ρ'')) (t.aux.map (slot V ρ')) * ptProd V new Q.2.1 ρ'') := by
          intro ρ'' hr
          have hold : ∀ j, j ∈ tmps C n B.2.2 ∨ new j = false → ρ'' j = ρ' j := by
            intro j hj
            refine hr j fun hmem => ?_
            obtain ⟨m, h1, h2, rfl⟩ := mem_tmps.1 hmem
            rcases hj with hj | hj
            · obtain ⟨m', h3, h4, h5⟩ := mem_tmps.1 hj
              have := hL.inj _ _ h5
              omega
            · rw [hL.new m (by omega)] at hj; simp at hj
          have hold' : ∀ j, (j ∈ (t.bra.flatMap fun i => i :: V.protos i) ∨ j ∈ tmps C n B.2.2) → ρ'' j = ρ' j := by
            intro j hj
            rcases hj with hj | hj
            · obtain ⟨i, hi, hj⟩ := List.mem_flatMap.1 hj
              exact hold j (Or.inr (hcb i hi j hj))
            · exact hold j (Or.inl hj)
          have e1 : B.1.map (slot V ρ'') = B.1.map (slot V ρ') := slots_dep fun j hj => hold' j (xB j (Or.inl hj))
          have e2 : t.aux.map (slot V ρ'') = t.aux.map (slot V ρ') := slots_dep fun j hj => by
            obtain ⟨i, hi, hj⟩ := List.mem_flatMap.1 hj
            exact hold j (Or.inr (hca i hi j hj))
          have e3 : ptProd V new B.2.1 ρ'' = ptProd V new B.2.1 ρ' := ptProd_dep _ _ _ fun j hj => hold' j (xB j (Or.inr hj))
          rw [ptProd, ptProd_append, pt, e1, e2, e3]
          ring
        rw [sumOver_congr_on _ ρ' hfix, sumOver_smul, sK (fun k => V.arr t.label t.anti (B.1.map (slot V ρ')) k (t.aux.map (slot V ρ'))) (by omega) hck
          (hL.ket _ _ _ _ hlab hov)]
        ring
      rw [sumOver_congr _ hk0]
      have hfix : ∀ ρ', (∀ i, i ∉ tmps C n B.2.2 → ρ' i = ρ i) →
          V.arr t.label t.anti (B.1.map (slot V ρ')) (t.ket.map (slot V ρ')) (t.aux.map (slot V ρ')) * ptProd V new B.2.1 ρ' =
          V.arr t.label t.anti (B.1.map (slot V ρ')) (t.ket.map (slot V ρ)) (t.aux.map (slot V ρ)) * ptProd V new B.2.1 ρ' := by
        intro ρ' hr
        have hold : ∀ j, new j = false → ρ' j = ρ j := by
          intro j hj
          refine hr j fun hmem => ?_
          obtain ⟨m, h1, h2, rfl⟩ := mem_tmps.1 hmem
          rw [hL.new m (by omega)] at hj; simp at hj
        have e1 : t.ket.map (slot V ρ') = t.ket.map (slot V ρ) := slots_dep fun j hj => by
          obtain ⟨i, hi, hj⟩ := List.mem_flatMap.1 hj
          exact hold j (hck i hi j hj)
        have e2 : t.aux.map (slot V ρ') = t.aux.map (slot V ρ) := slots_dep fun j hj => by
          obtain ⟨i, hi, hj⟩ := List.mem_flatMap.1 hj
          exact hold j (hca i hi j hj)
        rw [e1, e2]
      rw [sumOver_congr_on _ ρ hfix, sB (fun b => V.arr t.label t.anti b (t.ket.map (slot V ρ)) (t.aux.map (slot V ρ))) hn hcb (hL.bra _ _ _ _ hlab hov)]
      rfl
    · intro i hi hin
      refine Or.inl ?_
      rw [← tmps_append C lB lK]
      simp only [occ, occL, occL_append, Ten.idx, List.flatMap_append, List.mem_append] at hi
      have key : ∀ l : List ι, (∀ i ∈ l, ∀ j ∈ i :: V.protos i, new j = false) → i ∈ (l.flatMap fun i => i :: V.protos i) → False := by
        intro l hl hm
        obtain ⟨k, hk, hik⟩ := List.mem_flatMap.1 hm
        rw [hl k hk i hik] at hin
        simp at hin
      rw [List.mem_append]
      rcases hi with ((hi | hi) | hi) | hi | hi
      · exact Or.inl ((xB i (Or.inl hi)).resolve_left (key _ hcb))
      · exact Or.inr ((xK i (Or.inl hi)).resolve_left (key _ hck))
      · exact absurd hi (key _ hca)
      · exact Or.inl ((xB i (Or.inr hi)).resolve_left (key _ hcb))
      · exact Or.inr ((xK i (Or.inr hi)).resolve_left (key _ hck))

/-! ### Expressions -/

mutual
/-- The indices used for overlaps. -/
def dums (C : CsvCfg L ι) : Ex K L ι → List ι
  | .ten t => tenDums C t
  | .prod _ l => dumsL C l
  | .sum l => dumsL C l
  | .const _ => []
  | .var _ => []
def dumsL (C : CsvCfg L ι) : List (Ex K L ι) → List ι
  | [] => []
  | e :: l => dums C e ++ dumsL C l
end

/-- The indices used for overlaps in different factors differ. -/
def Distinct (C : CsvCfg L ι) : List (Ex K L ι) → Prop
  | [] => True
  | e :: l => (∀ d ∈ dums C e, d ∉ dumsL C l) ∧ Distinct C l

mutual
/-- The assertions hold for all tensors, and the indices used for overlaps in different factors differ. -/
def CsvOk (V : Env K L ι D) (new : ι → Bool) (C : CsvCfg L ι) (R : List D) : Ex K L ι → Prop
  | .ten t => TenOk V new C R t
  | .prod _ l => CsvOkL V new C R l ∧ Distinct C l
  | .sum l => CsvOkL V new C R l
  | .const _ => True
  | .var _ => True
def CsvOkL (V : Env K L ι D) (new : ι → Bool) (C : CsvCfg L ι) (R : List D) : List (Ex K L ι) → Prop
  | [] => True
  | e :: l => CsvOk V new C R e ∧ CsvOkL V new C R l
end

mutual
theorem dums_tmp : (e : Ex K L ι) → CsvOk V new C R e → ∀ d ∈ dums C e, ∀ m, d ≠ C.tmp m
  | .ten t, h, d, hd => (h.dums d hd).2.2.2
  | .prod _ l, h, d, hd => dumsL_tmp l h.1 d hd
  | .sum l, h, d, hd => dumsL_tmp l h d hd
  | .const _, _, d, hd => by simp [dums] at hd
  | .var _, _, d, hd => by simp [dums] at hd
theorem dumsL_tmp : (l : List (Ex K L ι)) → CsvOkL V new C R l → ∀ d ∈ dumsL C l, ∀ m, d ≠ C.tmp m
  | [], _, d, hd => by simp [dumsL] at hd
  | e :: l, h, d, hd => by
    rcases List.mem_append.1 hd with hd | hd
    · exact dums_tmp e h.1 d hd
    · exact dumsL_tmp l h.2 d hd
end

theorem tmps_mono {n n' a b : Nat} (h1 : a ≤ n) (h2 : n' ≤ b) {i : ι} (h : i ∈ tmps C n n') : i ∈ tmps C a b := by
  obtain ⟨m, h3, h4, rfl⟩ := mem_tmps.1 h
  exact mem_tmps.2 ⟨m, by omega, by omega, rfl⟩

mutual
theorem csv_repl (hL : CsvLaw V new C n0 R) : (e : Ex K L ι) → (n : Nat) → n0 ≤ n → Clean V new e → CsvOk V new C R e →
    ∃ e' n', csv C n e = some (some e', n') ∧ n ≤ n' ∧ Repl V new e e' (Adds C n n' (dums C e))
  | .ten t, n, hn, hc, hok => csvTen_repl hL hn t hc hok
  | .const c, n, _, hc, _ => ⟨.const c, n, rfl, le_rfl, Repl.refl hc _⟩
  | .var v, n, _, hc, _ => ⟨.var v, n, rfl, le_rfl, Repl.refl hc _⟩
  | .prod c l, n, hn, hc, hok => by
    obtain ⟨r, n', l', h1, h2, h3⟩ := csvProd_loop hL l n (1 * c, []) hn hc hok.1 hok.2
    refine ⟨.prod r.1 r.2, n', by simp only [csv, h1, Option.map_some], h2, h3.value, ?_⟩
    intro i hi hin
    simp only [occ] at hi
    rw [h3.occs, List.nil_append] at hi
    obtain ⟨e, he, hie⟩ := mem_occL.1 hi
    exact h3.occ e he i hie hin
  | .sum l, n, hn, hc, hok => by
    obtain ⟨r, n', h1, h2, h3, h4⟩ := csvSum_value hL l n [] hn hc hok
    refine ⟨.sum r, n', by simp only [csv, h1, Option.map_some], h2, fun ρ => ?_, ?_⟩
    · rw [h3 ρ, val_sum [], ← hc.val]
      simp
    · intro i hi hin
      rcases h4 i hi hin with h | h
      · simp [occL] at h
      · exact h
theorem csvProd_loop (hL : CsvLaw V new C n0 R) : (l : List (Ex K L ι)) → (n : Nat) → (st : K × List (Ex K L ι)) → n0 ≤ n →
    (∀ i ∈ occL V l, new i = false) → CsvOkL V new C R l → Distinct C l →
    ∃ r n' l', csvProd C n st l = some (r, n') ∧ n ≤ n' ∧ Loop V new (Adds C n n' (dumsL C l)) st l r l'
  | [], n, st, _, _, _, _ => ⟨st, n, [], rfl, le_rfl, Loop.nil _ st⟩
  | e :: l, n, st, hn, hc, hok, hd => by
    obtain ⟨e', n1, h1, h2, h3⟩ := csv_repl hL e n hn (Clean.of_mem hc List.mem_cons_self) hok.1
    obtain ⟨r, n2, l', h4, h5, h6⟩ := csvProd_loop hL l n1 (pAppend false st e') (by omega) (fun i hi => hc i (by simp [occL, hi])) hok.2 hd.2
    refine ⟨r, n2, e' :: l', by simp only [csvProd, h1]; exact h4, by omega, Loop.cons ?_ ?_ ?_ false h3 h6⟩
    · rintro i (h7 | h7) (h8 | h8)
      · obtain ⟨m, h9, h10, rfl⟩ := mem_tmps.1 h7
        obtain ⟨m', h11, h12, h13⟩ := mem_tmps.1 h8
        have := hL.inj _ _ h13
        omega
      · obtain ⟨m, h9, h10, rfl⟩ := mem_tmps.1 h7
        exact dumsL_tmp l hok.2 _ h8 m rfl
      · obtain ⟨m, h9, h10, rfl⟩ := mem_tmps.1 h8
        exact dums_tmp e hok.1 _ h7 m rfl
      · exact hd.1 i h7 h8
    · rintro i (h7 | h7)
      · exact Or.inl (tmps_mono le_rfl h5 h7)
      · exact Or.inr (List.mem_append_left _ h7)
    · rintro i (h7 | h7)
      · exact Or.inl (tmps_mono h2 le_rfl h7)
      · exact Or.inr (List.mem_append_right _ h7)
theorem csvSum_value (hL : CsvLaw V new C n0 R) : (l : List (Ex K L ι)) → (n : Nat) → (st : List (Ex K L ι)) → n0 ≤ n →
    (∀ i ∈ occL V l, new i = false) → CsvOkL V new C R l →
    ∃ r n', csvSum C n st l = some (r, n') ∧ n ≤ n' ∧ (∀ ρ, val V new (.sum r) ρ = val V new (.sum st) ρ + val V new (.sum l) ρ) ∧
      ∀ i ∈ occL V r, new i = true → i ∈ occL V st ∨ Adds C n n' (dumsL C l) i
  | [], n, st, _, _, _ => ⟨st, n, rfl, le_rfl, fun ρ => by simp [val_sum], fun i hi _ => Or.inl hi⟩
  | e :: l, n, st, hn, hc, hok => by
    have hce : Clean V new e := Clean.of_mem hc List.mem_cons_self
    obtain ⟨e', n1, h1, h2, h3⟩ := csv_repl hL e n hn hce hok.1
    obtain ⟨r, n2, h4, h5, h6, h7⟩ := csvSum_value hL l n1 (sAppend st e') (by omega) (fun i hi => hc i (by simp [occL, hi])) hok.2
    refine ⟨r, n2, by simp only [csvSum, h1]; exact h4, by omega, fun ρ => ?_, ?_⟩
    · rw [h6 ρ, sAppend_val, h3.val ρ, ← hce.val]
      simp only [val_sum, List.map_cons, List.sum_cons]
      ring
    · intro i hi hin
      rcases h7 i hi hin with h | h | h
      · rcases sAppend_occ st e' i h with h | h
        · exact Or.inl h
        · rcases h3.occ i h hin with h | h
          · exact Or.inr (Or.inl (tmps_mono le_rfl h5 h))
          · exact Or.inr (Or.inr (List.mem_append_left _ h))
      · exact Or.inr (Or.inl (tmps_mono h2 le_rfl h))
      · exact Or.inr (Or.inr (List.mem_append_right _ h))
end

/-- **C62** `csv_transform` keeps the value, the new indices being summed in every term.  Partial: the auxiliary indices of the tensors have no
proto-indices, and the indices used for overlaps are new and different for different factors (`csv_overlap_violated`, `csv_null_violated`). -/
theorem csv_value_partial (hL : CsvLaw V new C n0 R) (e : Ex K L ι) (n : Nat) (hn : n0 ≤ n) (hc : Clean V new e) (hok : CsvOk V new C R e) :
    ∃ e' n', csv C n e = some (some e', n') ∧ ∀ ρ, val V new e' ρ = val V new e ρ := by
  obtain ⟨e', n', h1, _, h2⟩ := csv_repl hL e n hn hc hok
  exact ⟨e', n', h1, fun ρ => by rw [h2.val ρ, hc.val]⟩

/-! ### Example and failures -/

/-- Indices: (0, n) without, (1, n) with proto-index (0, 1), (2, n) temporary, (3, n) with the proto-index dropped.  Tensors: 0 any, 1 overlap,
2 coefficients (all 1). -/
def exCsvEnv : Env Int Nat (Nat × Nat) Bool where
  var _ := 5
  arr l _ b k _ :=
    if l = 0 then (b.map fun x => if x.2 = [] then 1 else 2).prod * (k.map fun x => if x.2 = [] then 1 else 2).prod
    else if l = 1 then if (b ++ k).all (fun x => x.2 ≠ []) then 2 else 1
    else 1
  rng _ := [false, true]
  protos i := if i.1 = 1 then [(0, 1)] else []

def exCsv : CsvCfg Nat (Nat × Nat) where
  coeff := 2
  overlap := 1
  labels := [0, 1]
  orth := true
  hasProto i := i.1 == 1
  drop i := (3, i.2)
  ordLt i j := decide (i.2 < j.2)
  tmp n := (2, n)

def exCsvNew (i : Nat × Nat) : Bool := decide (2 ≤ i.1)

theorem exCsv_law : CsvLaw exCsvEnv exCsvNew exCsv 0 [false, true] := by
  have hlab : ∀ lab : Nat, lab ∈ exCsv.labels → ¬ (exCsv.orth ∧ lab = exCsv.overlap) → lab = 0 := by
    intro lab h1 h2
    simp [exCsv] at h1 h2
    omega
  constructor
  · intro i; simp [exCsv, exCsvEnv]
  · intro m m' h; simpa [exCsv] using h
  · intro m _; simp [exCsv, exCsvNew]
  · intro m; rfl
  · intro m; rfl
  · intro lab anti k x h1 h2 pre v ps post hps
    rw [hlab lab h1 h2]
    simp [exCsvEnv, hps, coefB, exCsv]
    ring
  · intro lab anti k x h1 h2 pre v ps post hps
    rw [hlab lab h1 h2]
    simp [exCsvEnv, hps, coefK, exCsv]
    ring
  · intro _ anti x y hx hy
    simp [exCsvEnv, coefB, coefK, exCsv, hx, hy]
  · intro _ anti x y h
    rcases h with ⟨hx, hy⟩ | ⟨hx, hy⟩ <;> simp [exCsvEnv, exCsv, hx, hy]

/-- A product of a tensor and an overlap. -/
def exCsvE : Ex Int Nat (Nat × Nat) := .prod 3 [.ten ⟨0, [(1, 1), (0, 4)], [(1, 2), (1, 3)], [(0, 7)], true⟩, .ten ⟨1, [(1, 2)], [(1, 4)], [], false⟩, .var 8]

example : Clean exCsvEnv exCsvNew exCsvE ∧ CsvOk exCsvEnv exCsvNew exCsv [false, true] exCsvE ∧
    csv exCsv 5 exCsvE = some (some (.prod (1 * 3) [.prod 1 [.ten ⟨0, [(2, 5), (0, 4)], [(2, 6), (2, 7)], [(0, 7)], true⟩,
      .ten ⟨2, [(1, 1)], [(2, 5)], [], false⟩, .ten ⟨2, [(2, 6)], [(1, 2)], [], false⟩, .ten ⟨2, [(2, 7)], [(1, 3)], [], false⟩],
      .prod 1 [.ten ⟨2, [(1, 2)], [(3, 2)], [], false⟩, .ten ⟨2, [(3, 2)], [(1, 4)], [], false⟩], .var 8]), 8) := by
  refine ⟨?_, ?_, rfl⟩
  · intro i hi
    simp [exCsvE, occ, occL, Ten.idx, exCsvEnv] at hi
    rcases hi with rfl | rfl | rfl | rfl | rfl | rfl | rfl | rfl | rfl | rfl | rfl | rfl <;> rfl
  · have hT : ∀ t : Ten Nat (Nat × Nat), tenDums exCsv t = [] ∨ tenDums exCsv t = [(3, 2)] → (∀ i ∈ t.aux, exCsv.hasProto i = false) →
        (t.label = 1 → t.bra.length = 1 ∧ t.ket.length = 1 ∧ t.aux = []) → TenOk exCsvEnv exCsvNew exCsv [false, true] t := by
      intro t h1 h2 h3
      refine ⟨fun _ => h2, fun _ _ => h3, ?_⟩
      rintro d hd
      rcases h1 with h | h
      · rw [h] at hd; simp at hd
      · rw [h, List.mem_singleton] at hd
        subst hd
        exact ⟨rfl, rfl, rfl, fun m h => by simp [exCsv] at h⟩
    refine ⟨⟨hT _ (Or.inl rfl) (by simp [exCsv]) (by simp), hT _ (Or.inr rfl) (by simp) (by simp), trivial, trivial⟩, ?_⟩
    refine ⟨by simp [dums, tenDums, exCsv], ?_, ?_, trivial⟩
    · simp [dumsL, dums]
    · simp [dums]

/-- **C62 fails** for two overlaps with a common index: both use this index without its proto-indices, so instead of two there is one summation. -/
theorem csv_overlap_violated : ∃ e e' : Ex Int Nat (Nat × Nat), Clean exCsvEnv exCsvNew e ∧ csv exCsv 0 e = some (some e', 0) ∧
    val exCsvEnv exCsvNew e (fun _ => false) = 4 ∧ val exCsvEnv exCsvNew e' (fun _ => false) = 2 := by
  refine ⟨.prod 1 [.ten ⟨1, [(1, 1)], [(1, 2)], [], false⟩, .ten ⟨1, [(1, 3)], [(1, 1)], [], false⟩], _, ?_, rfl, by decide, by decide⟩
  intro i hi
  simp [occ, occL, Ten.idx, exCsvEnv] at hi
  rcases hi with rfl | rfl | rfl | rfl | rfl | rfl | rfl | rfl <;> rfl

/-- **C62 fails** for tensors with proto-indices on auxiliary indices only: the result is a null pointer, in a sum an assertion fails (in a product the tensor is
left alone). -/
theorem csv_null_violated : csv exCsv 0 (.ten ⟨0, [(0, 1)], [(0, 2)], [(1, 1)], false⟩ : Ex Int Nat (Nat × Nat)) = some (none, 0) ∧
    csv exCsv 0 (.sum [.ten ⟨0, [(0, 1)], [(0, 2)], [(1, 1)], false⟩, .var 8] : Ex Int Nat (Nat × Nat)) = none ∧
    csv exCsv 0 (.prod 1 [.ten ⟨0, [(0, 1)], [(0, 2)], [(1, 1)], false⟩] : Ex Int Nat (Nat × Nat)) =
      some (some (.prod (1 * 1) [.ten ⟨0, [(0, 1)], [(0, 2)], [(1, 1)], false⟩]), 0) := ⟨rfl, rfl, rfl⟩

end SeQuant.Rules
