import Verif.Itf.Model
import Mathlib.Data.List.Nodup

/-!
# Names of indices for ITF (C97)
-/

namespace SeQuant.Itf

/-! ### Decimal numbers -/

theorem toStr_ne_nil (n : Nat) : toStr n ≠ [] := by
  unfold toStr
  split
  · simp
  · rename_i h
    simp [Nat.digits_ne_nil_iff_ne_zero.2 h]

/-- The digits of a number are bytes from `'0'` to `'9'`. -/
theorem toStr_digits {n x : Nat} (h : x ∈ toStr n) : 48 ≤ x ∧ x ≤ 57 := by
  unfold toStr at h
  split at h
  · simp at h; omega
  · simp only [List.mem_map, List.mem_reverse] at h
    obtain ⟨d, hd, rfl⟩ := h
    have := Nat.digits_lt_base (by omega) hd
    omega

theorem toStr_inj {m n : Nat} (h : toStr m = toStr n) : m = n := by
  have hz : ∀ k : Nat, k ≠ 0 → toStr k ≠ [48] := by
    intro k hk e
    unfold toStr at e
    rw [if_neg hk] at e
    have h1 : (Nat.digits 10 k).reverse = [0] := by
      have hinj : Function.Injective (fun x : Nat => x + 48) := fun a b h => by simpa using h
      exact List.map_injective_iff.2 hinj (by simpa using e)
    have h2 : Nat.digits 10 k = [0] := by
      have := congrArg List.reverse h1
      simpa using this
    have h3 := Nat.ofDigits_digits 10 k
    rw [h2] at h3
    simp [Nat.ofDigits] at h3
    exact hk h3.symm
  by_cases hm : m = 0
  · by_cases hn : n = 0
    · rw [hm, hn]
    · rw [hm] at h
      exact absurd h.symm (hz n hn)
  · by_cases hn : n = 0
    · rw [hn] at h
      exact absurd h (hz m hm)
    · unfold toStr at h
      rw [if_neg hm, if_neg hn] at h
      have hinj : Function.Injective (fun x : Nat => x + 48) := fun a b h => by simpa using h
      have h1 := List.map_injective_iff.2 hinj h
      exact Nat.digits_inj_iff.1 (List.reverse_injective h1)

example : toStr 0 = [48] ∧ toStr 7 = [55] ∧ toStr 120 = [49, 50, 48] := by
  refine ⟨rfl, ?_, ?_⟩ <;> simp [toStr]

/-! ### Names -/

/-- A key for which a number can be told from the key: not empty, and its last byte is not a digit. -/
def GoodKey (k : List Nat) : Prop := ∃ c, k.getLast? = some c ∧ ¬(48 ≤ c ∧ c ≤ 57)

instance (k : List Nat) : Decidable (GoodKey k) :=
  match h : k.getLast? with
  | none => isFalse fun ⟨c, hc, _⟩ => by rw [h] at hc; simp at hc
  | some c => if hc : 48 ≤ c ∧ c ≤ 57 then isFalse fun ⟨d, hd, hn⟩ => by rw [h] at hd; cases hd; exact hn hc else isTrue ⟨c, h, hc⟩

theorem key_toStr_inj {k k' : List Nat} (hk : GoodKey k) (hk' : GoodKey k') {m n : Nat} (h : k ++ toStr m = k' ++ toStr n) : k = k' ∧ m = n := by
  have key : ∀ {k k' : List Nat}, GoodKey k' → ∀ {m n : Nat}, k ++ toStr m = k' ++ toStr n → (toStr n).length ≤ (toStr m).length → k = k' ∧ m = n := by
    intro k k' hk' m n h hle
    have hlen := congrArg List.length h
    simp only [List.length_append] at hlen
    by_cases he : k.length = k'.length
    · obtain ⟨h1, h2⟩ := List.append_inj h he
      exact ⟨h1, toStr_inj h2⟩
    · obtain ⟨c, hc, hd⟩ := hk'
      have hk0 : k' ≠ [] := by rintro rfl; simp at hc
      have hpos : 0 < k'.length := List.length_pos_iff.2 hk0
      have hc' : k'[k'.length - 1]? = some c := by rw [← List.getLast?_eq_getElem?]; exact hc
      have hget : (k ++ toStr m)[k'.length - 1]? = some c := by
        rw [h, List.getElem?_append_left (by omega)]; exact hc'
      rw [List.getElem?_append_right (by omega)] at hget
      exact absurd (toStr_digits (List.mem_of_getElem? hget)) hd
  rcases Nat.le_total (toStr n).length (toStr m).length with hle | hle
  · exact key hk' h hle
  · obtain ⟨h1, h2⟩ := key hk h.symm hle
    exact ⟨h1.symm, h2.symm⟩

/-- The name of an index. -/
theorem indexName_eq {offset : Nat} {key : List Nat} {o : Nat} (h : offset ≤ o) :
    indexName offset key o = some (match key with
      | [c] => if c + (o - offset) > 122 then [c] ++ toStr (o - offset) else [c + (o - offset)]
      | _ => key ++ toStr (o - offset)) := by
  unfold indexName
  rw [if_neg (by omega)]
  match key with
  | [] => rfl
  | [c] => simp only; split <;> rfl
  | _ :: _ :: _ => rfl

/-- A name exists for each ordinal that is not below the offset. -/
theorem indexName_isSome (offset : Nat) (key : List Nat) (o : Nat) : (indexName offset key o).isSome ↔ offset ≤ o := by
  constructor
  · intro h
    by_contra hc
    simp [indexName, Nat.lt_of_not_le hc] at h
  · intro h; rw [indexName_eq h]; rfl

theorem indexName_cases {offset : Nat} {key n : List Nat} {o : Nat} (hk : GoodKey key) (h : indexName offset key o = some n) :
    offset ≤ o ∧ ((∃ c, key = [c] ∧ c + (o - offset) ≤ 122 ∧ n = [c + (o - offset)]) ∨
      ((∀ c, key = [c] → 122 < c + (o - offset)) ∧ n = key ++ toStr (o - offset) ∧ 2 ≤ n.length)) := by
  have ho : offset ≤ o := (indexName_isSome offset key o).1 (by rw [h]; rfl)
  refine ⟨ho, ?_⟩
  rw [indexName_eq ho] at h
  have hpos : 0 < (toStr (o - offset)).length := List.length_pos_iff.2 (toStr_ne_nil _)
  match key, hk with
  | [], ⟨c, hc, _⟩ => simp at hc
  | [c], _ =>
    simp only at h
    split at h
    · right
      rename_i hc
      cases h
      exact ⟨fun d hd => by cases hd; exact hc, rfl, by simp only [List.length_append, List.length_singleton]; omega⟩
    · left
      rename_i hc
      cases h
      exact ⟨c, rfl, by omega, rfl⟩
  | a :: b :: l, _ =>
    right
    cases h
    exact ⟨fun d hd => by simp at hd, rfl, by simp only [List.length_append, List.length_cons]; omega⟩

/-- **When two indices get the same name**: exactly if they have the same key and ordinal, or if both keys are letters and counting from
them arrives at the same letter. -/
theorem indexName_eq_iff {offset : Nat} {k k' : List Nat} (hk : GoodKey k) (hk' : GoodKey k') {o o' : Nat} (ho : offset ≤ o) (ho' : offset ≤ o') :
    indexName offset k o = indexName offset k' o' ↔
      (k = k' ∧ o = o') ∨ ∃ c c', k = [c] ∧ k' = [c'] ∧ c + (o - offset) ≤ 122 ∧ c + (o - offset) = c' + (o' - offset) := by
  constructor
  · intro h
    obtain ⟨n, hn⟩ := Option.isSome_iff_exists.1 ((indexName_isSome offset k o).2 ho)
    have hn' : indexName offset k' o' = some n := by rw [← h]; exact hn
    obtain ⟨_, h1⟩ := indexName_cases hk hn
    obtain ⟨_, h2⟩ := indexName_cases hk' hn'
    rcases h1 with ⟨c, e1, h3, h4⟩ | ⟨h3, h4, h5⟩ <;> rcases h2 with ⟨c', e2, h6, h7⟩ | ⟨h6, h7, h8⟩
    · right
      rw [h4] at h7
      exact ⟨c, c', e1, e2, h3, by simpa using h7⟩
    · rw [h4] at h8; simp at h8
    · rw [h7] at h5; simp at h5
    · left
      rw [h4] at h7
      obtain ⟨h9, h10⟩ := key_toStr_inj hk hk' h7
      exact ⟨h9, by omega⟩
  · rintro (⟨rfl, rfl⟩ | ⟨c, c', rfl, rfl, h1, h2⟩)
    · rfl
    · rw [indexName_eq ho, indexName_eq ho']
      simp only
      rw [if_neg (by omega), if_neg (by omega), h2]

/-- **Indices of one space have different names.** -/
theorem indexName_inj {offset : Nat} {k : List Nat} (hk : GoodKey k) {o o' : Nat} (ho : offset ≤ o) (ho' : offset ≤ o')
    (h : indexName offset k o = indexName offset k o') : o = o' := by
  rcases (indexName_eq_iff hk hk ho ho').1 h with ⟨_, h⟩ | ⟨c, c', h1, h2, _, h4⟩
  · exact h
  · rw [h1] at h2
    cases h2
    omega

/-- **Indices of all spaces have different names** if the letters used for one space do not reach the letter of another. -/
theorem indexName_inj_of_apart {offset : Nat} {l : List (List Nat × Nat)} (hk : ∀ i ∈ l, GoodKey i.1) (ho : ∀ i ∈ l, offset ≤ i.2)
    (hap : ∀ i ∈ l, ∀ j ∈ l, ∀ c c', i.1 = [c] → j.1 = [c'] → c < c' → c + (i.2 - offset) < c') :
    ∀ i ∈ l, ∀ j ∈ l, indexName offset i.1 i.2 = indexName offset j.1 j.2 → i = j := by
  intro i hi j hj h
  rcases (indexName_eq_iff (hk i hi) (hk j hj) (ho i hi) (ho j hj)).1 h with ⟨h1, h2⟩ | ⟨c, c', h1, h2, h3, h4⟩
  · exact Prod.ext h1 h2
  · rcases Nat.lt_trichotomy c c' with hc | hc | hc
    · have := hap i hi j hj c c' h1 h2 hc; omega
    · subst hc
      exact Prod.ext (h1.trans h2.symm) (by have := ho i hi; have := ho j hj; omega)
    · have := hap j hj i hi c' c h2 h1 hc; omega

/-- Up to eight virtual and eighteen occupied indices with offset 1. -/
example : ∀ i ∈ [([97], 1), ([97], 8), ([105], 1), ([105], 18), ([105], 19)], ∀ j ∈ [([97], 1), ([97], 8), ([105], 1), ([105], 18), ([105], 19)],
    indexName 1 i.1 i.2 = indexName 1 j.1 j.2 → i = j :=
  indexName_inj_of_apart (by decide) (by decide) (by
    intro i hi j hj c c' h1 h2
    simp only [List.mem_cons, List.not_mem_nil, or_false] at hi hj
    rcases hi with rfl | rfl | rfl | rfl | rfl <;> rcases hj with rfl | rfl | rfl | rfl | rfl <;> simp at h1 h2 ⊢ <;> omega)

/-- **`a_9` and `i_1` get the same name** `i`: the letters of the virtual space reach the one of the occupied space, and nothing stops them,
because the limits of letters can not be set. -/
theorem indexName_collision : indexName 1 [97] 9 = some [105] ∧ indexName 1 [105] 1 = some [105] := by decide

/-- A key that ends in a digit clashes with a shorter one: `i1` number 8 and `i` number 18. -/
theorem indexName_digit_collision : indexName 0 [105, 49] 8 = indexName 0 [105] 18 := by
  simp [indexName, toStr]

/-- **Letters after `Z` are no letters**: the second index of a space `Z` is called `[`, the fourth one `]`, which ends a list of indices. -/
theorem indexName_bracket : indexName 0 [90] 1 = some [91] ∧ indexName 0 [90] 3 = some [93] := by decide

/-! ### Lists of indices can be read -/

/-- A byte that is no brace. -/
def noBrace (l : List Nat) : Prop := ∀ c ∈ l, c ≠ 123 ∧ c ≠ 125

/-- What `represent` makes of a name (itf.hpp:155-157). -/
def wrap (n : List Nat) : List Nat := if n.length > 1 then [123] ++ n ++ [125] else n

theorem wrap_append_inj {n n' r r' : List Nat} (h1 : noBrace n) (h2 : noBrace n') (hn : n ≠ []) (hn' : n' ≠ []) (h : wrap n ++ r = wrap n' ++ r') :
    n = n' ∧ r = r' := by
  unfold wrap at h
  by_cases c1 : n.length > 1 <;> by_cases c2 : n'.length > 1
  · rw [if_pos c1, if_pos c2] at h
    simp only [List.cons_append, List.nil_append, List.append_assoc, List.cons.injEq, true_and] at h
    have key : ∀ (n n' : List Nat), noBrace n → noBrace n' → n ++ 125 :: r = n' ++ 125 :: r' → n = n' ∧ r = r' := by
      intro n
      induction n with
      | nil =>
        intro n' _ h2 h
        match n' with
        | [] => simpa using h
        | c :: l =>
          simp only [List.nil_append, List.cons_append, List.cons.injEq] at h
          exact absurd h.1.symm (h2 c (by simp)).2
      | cons c l ih =>
        intro n' h1 h2 h
        match n' with
        | [] =>
          simp only [List.nil_append, List.cons_append, List.cons.injEq] at h
          exact absurd h.1 (h1 c (by simp)).2
        | c' :: l' =>
          simp only [List.cons_append, List.cons.injEq] at h
          obtain ⟨h3, h4⟩ := ih l' (fun x hx => h1 x (by simp [hx])) (fun x hx => h2 x (by simp [hx])) h.2
          exact ⟨by rw [h.1, h3], h4⟩
    exact key n n' h1 h2 h
  · rw [if_pos c1, if_neg c2] at h
    match n', hn' with
    | [c], _ =>
      simp only [List.cons_append, List.nil_append, List.cons.injEq] at h
      exact absurd h.1.symm (h2 c (by simp)).1
    | _ :: _ :: _, _ => simp at c2
  · rw [if_neg c1, if_pos c2] at h
    match n, hn with
    | [c], _ =>
      simp only [List.cons_append, List.nil_append, List.cons.injEq] at h
      exact absurd h.1 (h1 c (by simp)).1
    | _ :: _ :: _, _ => simp at c1
  · rw [if_neg c1, if_neg c2] at h
    match n, n', hn, hn' with
    | [c], [c'], _, _ =>
      simp only [List.cons_append, List.nil_append, List.cons.injEq] at h
      exact ⟨by rw [h.1], h.2⟩
    | _ :: _ :: _, _, _, _ => simp at c1
    | [_], _ :: _ :: _, _, _ => simp at c2

/-- A key that can be used: good and without braces. -/
def ReadableKey (k : List Nat) : Prop := GoodKey k ∧ noBrace k ∧ ∀ c ∈ k, c ≤ 255

theorem indexName_noBrace {offset : Nat} {k n : List Nat} {o : Nat} (hk : ReadableKey k) (h : indexName offset k o = some n) : noBrace n ∧ n ≠ [] := by
  obtain ⟨_, h1⟩ := indexName_cases hk.1 h
  rcases h1 with ⟨c, e, h2, rfl⟩ | ⟨_, rfl, h2⟩
  · refine ⟨fun x hx => ?_, by simp⟩
    simp only [List.mem_singleton] at hx
    omega
  · refine ⟨fun x hx => ?_, fun e => by rw [e] at h2; simp at h2⟩
    rcases List.mem_append.1 hx with hx | hx
    · exact hk.2.1 x hx
    · have := toStr_digits hx; omega

/-- **A list of indices can be read off its text**: two lists with the same text have the same names, one by one. -/
theorem representAll_names {offset : Nat} {l l' : List (List Nat × Option Nat)} (hk : ∀ i ∈ l, ReadableKey i.1) (hk' : ∀ i ∈ l', ReadableKey i.1) {s : List Nat}
    (h : representAll offset l = some s) (h' : representAll offset l' = some s) :
    l.map (fun i => i.2.bind (indexName offset i.1)) = l'.map (fun i => i.2.bind (indexName offset i.1)) := by
  have one : ∀ (i : List Nat × Option Nat) (s : List Nat), represent offset i.1 i.2 = some s →
      ∃ n, i.2.bind (indexName offset i.1) = some n ∧ s = wrap n := by
    rintro ⟨k, o⟩ s hs
    cases o with
    | none => simp [represent] at hs
    | some o =>
      simp only [represent, Option.map_eq_some_iff] at hs
      obtain ⟨n, hn, rfl⟩ := hs
      exact ⟨n, hn, rfl⟩
  have good : ∀ (i : List Nat × Option Nat) (n : List Nat), ReadableKey i.1 → i.2.bind (indexName offset i.1) = some n → noBrace n ∧ n ≠ [] := by
    rintro ⟨k, o⟩ n hk hn
    cases o with
    | none => simp at hn
    | some o => exact indexName_noBrace hk hn
  have wrap_ne : ∀ n : List Nat, n ≠ [] → ∀ r : List Nat, wrap n ++ r ≠ [] := by
    intro n hn r
    unfold wrap
    split <;> simp [hn]
  induction l generalizing l' s with
  | nil =>
    simp only [representAll, Option.some.injEq] at h
    subst h
    match l' with
    | [] => rfl
    | j :: l'' =>
      simp only [representAll, Option.bind_eq_some_iff, Option.map_eq_some_iff] at h'
      obtain ⟨t, ht, r, _, he⟩ := h'
      obtain ⟨n, hn, rfl⟩ := one j t ht
      exact absurd he (wrap_ne n (good j n (hk' j (by simp)) hn).2 r)
  | cons i l ih =>
    simp only [representAll, Option.bind_eq_some_iff, Option.map_eq_some_iff] at h
    obtain ⟨t, ht, r, hr, he⟩ := h
    obtain ⟨n, hn, rfl⟩ := one i t ht
    have g1 := good i n (hk i (by simp)) hn
    match l' with
    | [] =>
      simp only [representAll, Option.some.injEq] at h'
      rw [← h'] at he
      exact absurd he (wrap_ne n g1.2 r)
    | j :: l'' =>
      simp only [representAll, Option.bind_eq_some_iff, Option.map_eq_some_iff] at h'
      obtain ⟨t', ht', r', hr', he'⟩ := h'
      obtain ⟨n', hn', rfl⟩ := one j t' ht'
      have g2 := good j n' (hk' j (by simp)) hn'
      obtain ⟨e1, e2⟩ := wrap_append_inj g1.1 g2.1 g1.2 g2.2 (he.trans he'.symm)
      rw [List.map_cons, List.map_cons, hn, hn', e1, ih (l' := l'') (fun x hx => hk x (by simp [hx])) (fun x hx => hk' x (by simp [hx])) hr (by rw [e2]; exact hr')]

/-- `t:eecc[ab{i30}j]` has the indices a, b, i30 and j. -/
example : representAll 1 [([97], some 1), ([97], some 2), ([105], some 31), ([105], some 2)] = some [97, 98, 123, 105, 51, 48, 125, 106] := by
  simp [representAll, represent, indexName, toStr]

end SeQuant.Itf
