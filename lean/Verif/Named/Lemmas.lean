import Mathlib.Data.List.Flatten
import Mathlib.Data.List.Perm.Basic
import Mathlib.Data.List.Perm.Lattice
import Verif.Named.Model
import Verif.Optimize.UniqueProps

/-!
# Lemmas about groups of indices
-/

namespace SeQuant.Named

open SeQuant.Optimize

variable {ι : Type} [DecidableEq ι]

omit [DecidableEq ι] in
theorem place_get_from (slot : Slot) (off : Nat) (l : List ι) (k : Nat) (cont : List (List (Slotted ι))) (i : Nat) :
    ((l.zipIdx k).foldl (fun c p => c.modify (off + p.2) (· ++ [(p.1, slot)])) cont)[i]? =
      (cont[i]?).map fun g => g ++ if off + k ≤ i then (l[i - (off + k)]?).toList.map (·, slot) else [] := by
  induction l generalizing k cont with
  | nil => simp
  | cons x l ih =>
    rw [List.zipIdx_cons, List.foldl_cons, ih, List.getElem?_modify]
    cases cont[i]? with
    | none => rfl
    | some g =>
      simp only [Option.map_some, Option.map_eq_map]
      congr 1
      by_cases h : off + k = i
      · subst h
        rw [if_pos rfl, if_neg (by omega), if_pos (Nat.le_refl _), List.append_nil, Nat.sub_self]
        rfl
      · rw [if_neg h]
        by_cases h2 : off + k ≤ i
        · rw [if_pos (by omega), if_pos h2, show i - (off + k) = i - (off + (k + 1)) + 1 by omega, List.getElem?_cons_succ]
        · rw [if_neg (by omega), if_neg h2]

omit [DecidableEq ι] in
theorem place_get (slot : Slot) (off : Nat) (l : List ι) (cont : List (List (Slotted ι))) (i : Nat) :
    (place slot off l cont)[i]? = (cont[i]?).map fun g => g ++ if off ≤ i then (l[i - off]?).toList.map (·, slot) else [] :=
  place_get_from slot off l 0 cont i

/-- The bra and ket index of column `i`. -/
def colAt (b k : List ι) (i : Nat) : List (Slotted ι) := (b[i]?).toList.map (·, .bra) ++ (k[i]?).toList.map (·, .ket)

omit [DecidableEq ι] in
theorem columns_eq (b k a : List ι) :
    columns b k a = (List.range (max b.length k.length)).map (colAt b k) ++ a.map fun x => [(x, .aux)] := by
  apply List.ext_getElem?
  intro i
  show (place .aux (max b.length k.length) a (place .ket 0 k (place .bra 0 b _)))[i]? = _
  rw [place_get, place_get, place_get, List.getElem?_append, List.getElem?_replicate]
  simp only [List.length_map, List.length_range, Nat.zero_le, if_true, Nat.sub_zero, List.getElem?_map]
  by_cases h : i < max b.length k.length
  · rw [if_pos (show i < max b.length k.length + a.length by omega), if_pos h, List.getElem?_range h,
      if_neg (show ¬ max b.length k.length ≤ i by omega)]
    simp only [Option.map_some, List.nil_append, List.append_nil, colAt]
  · rw [if_neg h]
    by_cases h2 : i < max b.length k.length + a.length
    · rw [if_pos h2, List.getElem?_eq_none (l := b) (by omega), List.getElem?_eq_none (l := k) (by omega), if_pos (show max b.length k.length ≤ i by omega)]
      have : i - max b.length k.length < a.length := by omega
      rw [List.getElem?_eq_getElem this]
      rfl
    · rw [if_neg h2, List.getElem?_eq_none (l := a) (by omega)]
      rfl

omit [DecidableEq ι] in
theorem range_get (l : List ι) (f : ι → Slotted ι) (n : Nat) (h : l.length ≤ n) :
    ((List.range n).flatMap fun i => (l[i]?).toList.map f) = l.map f := by
  induction l generalizing n with
  | nil => simp
  | cons x l ih =>
    obtain ⟨m, rfl⟩ : ∃ m, n = m + 1 := ⟨n - 1, by simp only [List.length_cons] at h; omega⟩
    rw [List.range_succ_eq_map, List.flatMap_cons, List.flatMap_map]
    simp only [List.getElem?_cons_succ, List.getElem?_cons_zero, Option.toList_some, List.map_cons, List.map_nil]
    rw [ih m (by simpa using h)]
    rfl

omit [DecidableEq ι] in
theorem columns_flatten (b k a : List ι) :
    (columns b k a).flatten.Perm (b.map (·, Slot.bra) ++ (k.map (·, Slot.ket) ++ a.map (·, Slot.aux))) := by
  rw [columns_eq, List.flatten_append, ← List.flatMap_def]
  have h2 : (a.map fun x => [(x, Slot.aux)]).flatten = a.map (·, Slot.aux) := by
    induction a with
    | nil => rfl
    | cons x a ih => simp [ih]
  rw [h2, ← List.append_assoc]
  refine List.Perm.append_right _ ?_
  have h := List.flatMap_append_perm (List.range (max b.length k.length)) (fun i => (b[i]?).toList.map (·, Slot.bra))
    (fun i => (k[i]?).toList.map (·, Slot.ket))
  rw [range_get b _ _ (by omega), range_get k _ _ (by omega)] at h
  exact h.symm

/-! ### Symmetrizers -/

theorem mapM_ok {α β : Type} (f : α → Except Fault β) (g : α → β) (l : List α) (h : ∀ x ∈ l, f x = .ok (g x)) : l.mapM f = .ok (l.map g) := by
  induction l with
  | nil => rfl
  | cons x l ih =>
    rw [List.mapM_cons, h x (by simp), ih fun y hy => h y (by simp [hy])]
    rfl

theorem mapM_error {α β : Type} (f : α → Except Fault β) (e : Fault) (l : List α) (h : ∀ x ∈ l, f x = .error e ∨ ∃ y, f x = .ok y)
    (h2 : ∃ x ∈ l, f x = .error e) : l.mapM f = .error e := by
  induction l with
  | nil => simp at h2
  | cons x l ih =>
    rw [List.mapM_cons]
    rcases h x (by simp) with hx | ⟨y, hx⟩
    · rw [hx]; rfl
    · rw [hx]
      have : l.mapM f = .error e := by
        apply ih fun z hz => h z (by simp [hz])
        obtain ⟨z, hz, hf⟩ := h2
        rcases List.mem_cons.mp hz with rfl | hz
        · rw [hx] at hf; cases hf
        · exact ⟨z, hz, hf⟩
      show (l.mapM f >>= fun bs => pure (y :: bs)) = _
      rw [this]
      rfl

omit [DecidableEq ι] in
theorem conj_col (isSymm : Bool) (b k : List ι) (i : Nat) (hi : i < max b.length k.length)
    (h : isSymm = false ∨ (i < b.length ∧ i < k.length)) : conjGroup isSymm (colAt b k i) = .ok (colAt k b i) := by
  by_cases hb : i < b.length <;> by_cases hk : i < k.length
  · simp [colAt, List.getElem?_eq_getElem hb, List.getElem?_eq_getElem hk, conjGroup]
  · have hs : isSymm = false := by rcases h with h | h; exacts [h, absurd h.2 hk]
    simp [colAt, List.getElem?_eq_getElem hb, List.getElem?_eq_none (Nat.not_lt.mp hk), conjGroup, hs, flipSlot]
  · have hs : isSymm = false := by rcases h with h | h; exacts [h, absurd h.1 hb]
    simp [colAt, List.getElem?_eq_getElem hk, List.getElem?_eq_none (Nat.not_lt.mp hb), conjGroup, hs, flipSlot]
  · omega

omit [DecidableEq ι] in
theorem conj_col_unpaired (b k : List ι) (i : Nat) (h : ¬ (i < b.length ∧ i < k.length)) : conjGroup true (colAt b k i) = .error .thrown := by
  by_cases hb : i < b.length <;> by_cases hk : i < k.length
  · exact absurd ⟨hb, hk⟩ h
  · simp [colAt, List.getElem?_eq_getElem hb, List.getElem?_eq_none (Nat.not_lt.mp hk), conjGroup]
  · simp [colAt, List.getElem?_eq_getElem hk, List.getElem?_eq_none (Nat.not_lt.mp hb), conjGroup]
  · simp [colAt, List.getElem?_eq_none (Nat.not_lt.mp hk), List.getElem?_eq_none (Nat.not_lt.mp hb), conjGroup]

omit [DecidableEq ι] in
theorem columns_take (b k a : List ι) :
    (columns b k a).take (max b.length k.length) = (List.range (max b.length k.length)).map (colAt b k) := by
  rw [columns_eq]
  exact List.take_left' (by simp)

omit [DecidableEq ι] in
theorem columns_drop (b k a : List ι) : (columns b k a).drop (max b.length k.length) = a.map fun x => [(x, Slot.aux)] := by
  rw [columns_eq]
  exact List.drop_left' (by simp)

/-! ### Finding the symmetrizer -/

theorem symmStep_skip (checks : Bool) (o : Option (Ten ι)) (a : NExpr ι) (h : ∀ t, a = .tensor t → t.kind = .other) :
    symmStep checks o a = .ok o := by
  cases a with
  | tensor t => simp [symmStep, h t rfl]
  | _ => rfl

theorem foldSymm_none (checks : Bool) (l : List (NExpr ι)) (o : Option (Ten ι)) (h : ∀ t, .tensor t ∈ l → t.kind = .other) :
    l.foldlM (symmStep checks) o = .ok o := by
  induction l generalizing o with
  | nil => rfl
  | cons a l ih =>
    rw [List.foldlM_cons, symmStep_skip checks o a (fun t ht => h t (by simp [ht]))]
    exact ih o fun t ht => h t (by simp [ht])

theorem foldSymm_some (checks : Bool) (S : Ten ι) (hS : S.kind ≠ .other) (l : List (NExpr ι)) (o : Option (Ten ι)) (ho : o = none ∨ o = some S)
    (h : ∀ t, .tensor t ∈ l → t.kind ≠ .other → t = S) (hm : o = some S ∨ .tensor S ∈ l) : l.foldlM (symmStep checks) o = .ok (some S) := by
  induction l generalizing o with
  | nil => rcases hm with rfl | hm; exacts [rfl, absurd hm (by simp)]
  | cons a l ih =>
    rw [List.foldlM_cons]
    by_cases ha : ∃ t, a = .tensor t ∧ t.kind ≠ .other
    · obtain ⟨t, rfl, ht⟩ := ha
      obtain rfl := h t (by simp) ht
      have : symmStep checks o (.tensor t) = .ok (some t) := by
        rcases ho with rfl | rfl <;> simp [symmStep, ht]
      rw [this]
      exact ih (some t) (Or.inr rfl) (fun t' ht' => h t' (by simp [ht'])) (Or.inl rfl)
    · rw [symmStep_skip checks o a fun t ht => by by_contra hk; exact ha ⟨t, ht, hk⟩]
      refine ih o ho (fun t' ht' => h t' (by simp [ht'])) ?_
      rcases hm with hm | hm
      · exact Or.inl hm
      · rcases List.mem_cons.mp hm with rfl | hm
        · exact absurd ⟨S, rfl, hS⟩ ha
        · exact Or.inr hm

theorem foldSymm_two (T : Ten ι) (hT : T.kind ≠ .other) (l : List (NExpr ι)) (S : Ten ι) (hne : S ≠ T) (hm : .tensor T ∈ l) :
    l.foldlM (symmStep true) (some S) = .error .assertion := by
  induction l generalizing S with
  | nil => simp at hm
  | cons a l ih =>
    rw [List.foldlM_cons]
    by_cases ha : ∃ t, a = .tensor t ∧ t.kind ≠ .other
    · obtain ⟨t, rfl, ht⟩ := ha
      by_cases hst : S = t
      · subst hst
        have : symmStep true (some S) (.tensor S) = .ok (some S) := by simp [symmStep, ht]
        rw [this]
        refine ih S hne ?_
        rcases List.mem_cons.mp hm with hm | hm
        · cases hm; exact absurd rfl hne
        · exact hm
      · have : symmStep true (some S) (.tensor t) = .error .assertion := by simp [symmStep, ht, hst]
        rw [this]
        rfl
    · rw [symmStep_skip true _ a fun t ht => by by_contra hk; exact ha ⟨t, ht, hk⟩]
      refine ih S hne ?_
      rcases List.mem_cons.mp hm with rfl | hm
      · exact absurd ⟨T, rfl, hT⟩ ha
      · exact hm

theorem foldSymm_two' (S T : Ten ι) (hS : S.kind ≠ .other) (hT : T.kind ≠ .other) (hne : S ≠ T) (l : List (NExpr ι)) (hSm : .tensor S ∈ l)
    (hTm : .tensor T ∈ l) : l.foldlM (symmStep true) none = .error .assertion := by
  induction l with
  | nil => simp at hSm
  | cons a l ih =>
    rw [List.foldlM_cons]
    by_cases ha : ∃ t, a = .tensor t ∧ t.kind ≠ .other
    · obtain ⟨t, rfl, ht⟩ := ha
      have : symmStep true none (.tensor t) = .ok (some t) := by simp [symmStep, ht]
      rw [this]
      show l.foldlM (symmStep true) (some t) = _
      by_cases hst : t = S
      · subst hst
        refine foldSymm_two T hT l t hne ?_
        rcases List.mem_cons.mp hTm with h | h
        · cases h; exact absurd rfl hne
        · exact h
      · refine foldSymm_two S hS l t hst ?_
        rcases List.mem_cons.mp hSm with h | h
        · cases h; exact absurd rfl hst
        · exact h
    · have hsk := symmStep_skip true none a fun t ht => by by_contra hk; exact ha ⟨t, ht, hk⟩
      rw [hsk]
      refine ih ?_ ?_
      · rcases List.mem_cons.mp hSm with rfl | h
        exacts [absurd ⟨S, rfl, hS⟩ ha, h]
      · rcases List.mem_cons.mp hTm with rfl | h
        exacts [absurd ⟨T, rfl, hT⟩ ha, h]

end SeQuant.Named
