import Verif.Latex.Align
import Mathlib.Data.List.Basic
import Mathlib.Data.List.Infix
import Mathlib.Tactic.Common

/-
Property C117: line breaks in the LaTeX of a sum.
-/

namespace SeQuant.Latex

/-! ## What is inserted where -/

/-- What may stand before a sign. -/
inductive Brk
  | none
  | line
  | block
  deriving DecidableEq, Repr

/-- The text for it. -/
def Brk.str : Brk → Str
  | .none => []
  | .line => w! "\\\\\n& "
  | .block => w! "\n\\end{align}\n\\begin{align}\n& "

/-- What stands before the `k`-th sign if the block has `line` full lines. -/
def brk (maxLines maxTerms line k : Nat) : Brk :=
  if 0 < maxLines ∧ line = maxLines then .block
  else if k % maxTerms = 0 then .line
  else .none

/-- The number of full lines after it. -/
def Brk.lines (line : Nat) : Brk → Nat
  | .none => line
  | .line => line + 1
  | .block => 0

/-- What stands before the signs number `k + 1`, …, `k + n`. -/
def breaks (maxLines maxTerms : Nat) (line k : Nat) : Nat → List Brk
  | 0 => []
  | n + 1 =>
    brk maxLines maxTerms line (k + 1) ::
      breaks maxLines maxTerms ((brk maxLines maxTerms line (k + 1)).lines line) (k + 1) n

/-- The summands with their signs, and what stands before the signs.  The first summand
has no sign if it is not negative. -/
def lay : List Brk → Bool → List (Bool × Str) → Str
  | _, _, [] => []
  | bs, true, (false, t) :: ts => t ++ lay bs false ts
  | b :: bs, _, (neg, t) :: ts =>
    w! " " ++ b.str ++ (if neg then w! "- " else w! "+ ") ++ t ++ lay bs false ts
  | [], _, (neg, t) :: ts => (if neg then w! " - " else w! " + ") ++ t ++ lay [] false ts

/-- The LaTeX of a summand has no sign between blanks, also not together with the blanks
around it. -/
def Clean (t : Str) : Prop :=
  ¬ w! " + " <:+: w! " " ++ t ++ w! " " ∧ ¬ w! " - " <:+: w! " " ++ t ++ w! " "

instance (t : Str) : Decidable (Clean t) := inferInstanceAs (Decidable (_ ∧ _))

/-! ## The loop in closed form -/

/-- A sign between blanks stands here. -/
def startsSep (s : Str) : Bool := plusPat.isPrefixOf s || minusPat.isPrefixOf s

theorem not_both (s : Str) : ¬ (plusPat.isPrefixOf s = true ∧ minusPat.isPrefixOf s = true) := by
  rintro ⟨h1, h2⟩
  rw [List.isPrefixOf_iff_prefix] at h1 h2
  obtain ⟨a, ha⟩ := h1
  obtain ⟨b, hb⟩ := h2
  rw [← hb] at ha
  simp [plusPat, minusPat] at ha

/-- The text with everything inserted. -/
def weave (maxLines maxTerms : Nat) : Nat → Nat → Str → Str
  | _, _, [] => []
  | line, k, c :: r =>
    if startsSep (c :: r) then
      c :: ((brk maxLines maxTerms line (k + 1)).str ++
        weave maxLines maxTerms ((brk maxLines maxTerms line (k + 1)).lines line) (k + 1) r)
    else c :: weave maxLines maxTerms line k r

/-- The variables when everything before `R` is done and the next signs have been
looked for. -/
def stateAt (D R : Str) (line k : Nat) : Scan :=
  let plus := (findS plusPat R).map (· + D.length)
  let minus := (findS minusPat R).map (· + D.length)
  let pos := minPos plus minus
  ⟨D ++ R, line, if pos.isSome then k + 1 else k, pos, plus, minus, decide (pos = plus), pos.isSome⟩

theorem findS_skip {pat : Str} {c : Nat} {r : Str} (h : pat.isPrefixOf (c :: r) = false) (D : Str) :
    (findS pat (c :: r)).map (· + D.length) = (findS pat r).map (· + (D ++ [c]).length) := by
  rw [findS, if_neg (by simp [h]), Option.map_map]
  congr 1
  funext x
  simp
  omega

theorem findS_here {pat : Str} {c : Nat} {r : Str} (h : pat.isPrefixOf (c :: r) = true) (D : Str) :
    (findS pat (c :: r)).map (· + D.length) = some D.length := by
  rw [findS, if_pos h]
  simp

theorem findFrom_append (pat D R : Str) : findFrom pat (D ++ R) D.length = (findS pat R).map (· + D.length) := by
  rw [findFrom, List.drop_left]

theorem stateAt_skip {c : Nat} {r : Str} (h : startsSep (c :: r) = false) (D : Str) (line k : Nat) :
    stateAt D (c :: r) line k = stateAt (D ++ [c]) r line k := by
  simp only [startsSep, Bool.or_eq_false_iff] at h
  simp only [stateAt, findS_skip h.1, findS_skip h.2]
  simp

theorem minPos_self_left {a b : Option Nat} {n : Nat} (ha : a = some n) (hb : ∀ m, b = some m → n ≤ m) :
    minPos a b = some n := by
  subst ha
  cases b with
  | none => rfl
  | some m => simp [minPos, hb m rfl]

theorem minPos_self_right {a b : Option Nat} {n : Nat} (hb : b = some n) (ha : ∀ m, a = some m → n ≤ m) :
    minPos a b = some n := by
  subst hb
  cases a with
  | none => rfl
  | some m => simp [minPos, ha m rfl]

theorem findS_shift_le {pat R : Str} {n m : Nat} (h : (findS pat R).map (· + n) = some m) : n ≤ m := by
  rcases hf : findS pat R with _ | x
  · rw [hf] at h; simp at h
  · rw [hf] at h
    simp at h
    omega

theorem pos_here {c : Nat} {r : Str} (h : startsSep (c :: r) = true) (D : Str) (line k : Nat) :
    (stateAt D (c :: r) line k).pos = some D.length := by
  rw [startsSep, Bool.or_eq_true] at h
  rcases h with h | h
  · exact minPos_self_left (findS_here h D) fun m hm => findS_shift_le hm
  · exact minPos_self_right (findS_here h D) fun m hm => findS_shift_le hm

theorem term_here {c : Nat} {r : Str} (h : startsSep (c :: r) = true) (D : Str) (line k : Nat) :
    (stateAt D (c :: r) line k).term = k + 1 ∧ (stateAt D (c :: r) line k).more = true := by
  have hp := pos_here h D line k
  constructor
  · show (if (stateAt D (c :: r) line k).pos.isSome then k + 1 else k) = k + 1
    rw [hp]
    rfl
  · show (stateAt D (c :: r) line k).pos.isSome = true
    rw [hp]
    rfl

/-- The step to the next sign. -/
theorem next_here {c : Nat} {r : Str} (h : startsSep (c :: r) = true) (E : Str) (hE : E ≠ []) (line k : Nat) :
    (stateAt E (c :: r) line k).next = stateAt (E ++ [c]) r line (k + 1) := by
  have hp := pos_here h E line k
  have ht := term_here h E line k
  have hlen : 0 < E.length := List.length_pos_iff.2 hE
  have hfind : ∀ pat, findFrom pat (E ++ c :: r) (E.length + 1) = (findS pat r).map (· + (E ++ [c]).length) := by
    intro pat
    have := findFrom_append pat (E ++ [c]) r
    rw [List.append_assoc, List.singleton_append] at this
    rw [← this]
    simp
  have hne : ∀ pat, (findS pat (c :: r)).map (· + E.length) ≠ some 0 := by
    intro pat h0
    have := findS_shift_le h0
    omega
  have hboth := not_both (c :: r)
  -- both searches restart right after the sign
  have key : ∀ st : Scan, st.result = E ++ c :: r → st.line = line → st.term = k + 1 → st.pos = some E.length →
      st.plus = (findS plusPat (c :: r)).map (· + E.length) → st.minus = (findS minusPat (c :: r)).map (· + E.length) →
      st.lastPlus = decide (st.pos = st.plus) → st.next = stateAt (E ++ [c]) r line (k + 1) := by
    intro st h1 h2 h3 h4 h5 h6 h7
    have hplus : (if st.plus = some 0 ∨ st.lastPlus = true then findNext plusPat st.result st.plus else st.plus) =
        (findS plusPat r).map (· + (E ++ [c]).length) := by
      cases hpp : plusPat.isPrefixOf (c :: r)
      · have hlp : st.lastPlus = false := by
          rw [h7, h4, h5, findS_skip hpp]
          simp only [decide_eq_false_iff_not]
          intro h0
          have := findS_shift_le h0.symm
          simp at this
          omega
        rw [if_neg (by rw [hlp, h5]; simp [hne plusPat]), h5, findS_skip hpp]
      · rw [findS_here hpp] at h5
        have hlp : st.lastPlus = true := by rw [h7, h4, h5]; simp
        rw [if_pos (.inr hlp), h5, h1]
        exact hfind _
    have hminus : (if st.minus = some 0 ∨ st.lastPlus = false then findNext minusPat st.result st.minus else st.minus) =
        (findS minusPat r).map (· + (E ++ [c]).length) := by
      cases hmm : minusPat.isPrefixOf (c :: r)
      · have hpp : plusPat.isPrefixOf (c :: r) = true := by
          rw [startsSep, hmm, Bool.or_false] at h
          exact h
        have hlp : st.lastPlus = true := by
          rw [h7, h4, h5, findS_here hpp]; simp
        rw [if_neg (by rw [hlp, h6]; simp [hne minusPat]), h6, findS_skip hmm]
      · have hpp : plusPat.isPrefixOf (c :: r) = false := by
          cases hx : plusPat.isPrefixOf (c :: r)
          · rfl
          · exact absurd ⟨hx, hmm⟩ hboth
        have hlp : st.lastPlus = false := by
          rw [h7, h4, h5, findS_skip hpp]
          simp only [decide_eq_false_iff_not]
          intro h0
          have := findS_shift_le h0.symm
          simp at this
          omega
        rw [findS_here hmm] at h6
        rw [if_pos (.inr hlp), h6, h1]
        exact hfind _
    unfold Scan.next
    rw [hplus, hminus]
    simp only [stateAt, h1, h2, h3, List.append_assoc, List.singleton_append]
  exact key _ rfl rfl ht.1 hp rfl rfl rfl

theorem findS_at {pat : Str} : ∀ {R : Str} {j : Nat}, findS pat R = some j → findS pat (R.drop j) = some 0
  | [], j, h => by simp [findS] at h
  | c :: r, j, h => by
    by_cases hp : pat.isPrefixOf (c :: r) = true
    · rw [findS, if_pos hp] at h
      simp only [Option.some.injEq] at h
      subst h
      rw [List.drop_zero, findS, if_pos hp]
    · rw [findS, if_neg hp] at h
      rcases hf : findS pat r with _ | x
      · rw [hf] at h; simp at h
      · rw [hf] at h
        simp only [Option.map_some, Option.some.injEq] at h
        subst h
        rw [List.drop_succ_cons]
        exact findS_at hf

theorem find_again (pat D R : Str) :
    (findS pat R).map (· + D.length) =
      ((findS pat R).map (· + D.length)).bind (findFrom pat (D ++ R)) := by
  rcases hf : findS pat R with _ | j
  · rfl
  · simp only [Option.map_some, Option.bind_some, findFrom]
    rw [Nat.add_comm j, ← List.drop_drop, List.drop_left, findS_at hf]
    simp

/-- An insertion ending with a blank. -/
theorem insert_here {r : Str} (h : startsSep (32 :: r) = true) (D s : Str) (line k : Nat) :
    (stateAt D (32 :: r) line k).insert (s ++ [32]) = .ok (stateAt (D ++ 32 :: s) (32 :: r) line k) := by
  have hp := pos_here h D line k
  have hp' := pos_here h (D ++ 32 :: s) line k
  have hshift : ∀ pat, ((findS pat (32 :: r)).map (· + D.length)).map (· + (s ++ [32]).length) =
      (findS pat (32 :: r)).map (· + (D ++ 32 :: s).length) := by
    intro pat
    rw [Option.map_map]
    congr 1
    funext x
    simp
    omega
  have hres : (D ++ 32 :: r).take (D.length + 1) ++ (s ++ [32]) ++ (D ++ 32 :: r).drop (D.length + 1) =
      (D ++ 32 :: s) ++ 32 :: r := by
    rw [List.take_length_add_append, List.drop_length_add_append]
    simp
  have hpos : some (D.length + (s ++ [32]).length) = (stateAt (D ++ 32 :: s) (32 :: r) line k).pos := by
    rw [hp']
    simp
  unfold Scan.insert
  rw [hp]
  simp only
  rw [if_neg (by simp [stateAt])]
  have e1 : (stateAt D (32 :: r) line k).result = D ++ 32 :: r := rfl
  have e2 : (stateAt D (32 :: r) line k).plus = (findS plusPat (32 :: r)).map (· + D.length) := rfl
  have e3 : (stateAt D (32 :: r) line k).minus = (findS minusPat (32 :: r)).map (· + D.length) := rfl
  rw [e1, e2, e3, hshift, hshift, hres, hpos]
  rw [if_neg (fun h => h.2 (find_again _ _ _)), if_neg (fun h => h.2 (find_again _ _ _))]
  congr 1
  have t1 := term_here h D line k
  have t2 := term_here h (D ++ 32 :: s) line k
  have l1 : (stateAt D (32 :: r) line k).lastPlus = (stateAt (D ++ 32 :: s) (32 :: r) line k).lastPlus := by
    show decide ((stateAt D (32 :: r) line k).pos = (findS plusPat (32 :: r)).map (· + D.length)) =
      decide ((stateAt (D ++ 32 :: s) (32 :: r) line k).pos = (findS plusPat (32 :: r)).map (· + (D ++ 32 :: s).length))
    rw [hp, hp']
    rcases findS plusPat (32 :: r) with _ | x
    · simp
    · simp
  have t1' : (stateAt D (32 :: r) line k).term = (stateAt (D ++ 32 :: s) (32 :: r) line k).term := by
    rw [t1.1, t2.1]
  have t2' : (stateAt D (32 :: r) line k).more = (stateAt (D ++ 32 :: s) (32 :: r) line k).more := by
    rw [t1.2, t2.2]
  rw [l1, t1', t2']
  rfl

theorem startsSep_blank {c : Nat} {r : Str} (h : startsSep (c :: r) = true) : c = 32 := by
  simp [startsSep, plusPat, minusPat, List.isPrefixOf] at h
  omega

theorem stateAt_line (D R : Str) (line line' k : Nat) :
    { stateAt D R line k with line := line' } = stateAt D R line' k := rfl

/-- One pass over a sign. -/
theorem break_here {c : Nat} {r : Str} (h : startsSep (c :: r) = true) (maxLines maxTerms : Nat) (hT : 0 < maxTerms)
    (D : Str) (hD : D ≠ []) (line k : Nat) :
    ∃ st, (stateAt D (c :: r) line k).break maxLines maxTerms = .ok st ∧
      st.next = stateAt (D ++ c :: (brk maxLines maxTerms line (k + 1)).str) r
        ((brk maxLines maxTerms line (k + 1)).lines line) (k + 1) := by
  obtain rfl := startsSep_blank h
  have ht := (term_here h D line k).1
  have hl : (stateAt D (32 :: r) line k).line = line := rfl
  unfold Scan.break
  rw [hl, ht]
  by_cases hb : 0 < maxLines ∧ line = maxLines
  · rw [if_pos hb]
    have hbs : blockStr = w! "\n\\end{align}\n\\begin{align}\n&" ++ [32] := rfl
    rw [hbs, insert_here h]
    refine ⟨_, rfl, ?_⟩
    rw [stateAt_line, next_here h _ (by simp)]
    have hk : brk maxLines maxTerms line (k + 1) = .block := by rw [brk, if_pos hb]
    rw [hk]
    simp [Brk.str, Brk.lines]
  · rw [if_neg hb, if_pos (by omega), if_neg (by omega)]
    by_cases hm : (k + 1) % maxTerms = 0
    · rw [if_pos hm]
      have hbs : lineStr = w! "\\\\\n&" ++ [32] := rfl
      rw [hbs, insert_here h]
      refine ⟨_, rfl, ?_⟩
      have hk : brk maxLines maxTerms line (k + 1) = .line := by rw [brk, if_neg hb, if_pos hm]
      rw [show (stateAt (D ++ 32 :: w! "\\\\\n&") (32 :: r) line k).line + 1 = line + 1 from rfl, stateAt_line,
        next_here h _ (by simp), hk]
      simp [Brk.str, Brk.lines]
    · rw [if_neg hm]
      refine ⟨_, rfl, ?_⟩
      have hk : brk maxLines maxTerms line (k + 1) = .none := by rw [brk, if_neg hb, if_neg hm]
      rw [next_here h _ hD, hk]
      simp [Brk.str, Brk.lines]

theorem loop_weave (maxLines maxTerms : Nat) (hT : 0 < maxTerms) : ∀ (R D : Str) (line k fuel : Nat), D ≠ [] → R.length < fuel →
    alignLoop maxLines maxTerms fuel (stateAt D R line k) = some (.ok (D ++ weave maxLines maxTerms line k R)) := by
  intro R
  induction R with
  | nil =>
    intro D line k fuel _ hf
    obtain ⟨f, rfl⟩ : ∃ f, fuel = f + 1 := ⟨fuel - 1, by omega⟩
    rw [alignLoop, if_neg (by simp [stateAt, findS, minPos])]
    rfl
  | cons c r ih =>
    intro D line k fuel hD hf
    cases h : startsSep (c :: r)
    · rw [stateAt_skip h, ih _ _ _ _ (by simp) (by simp at hf; omega), weave, if_neg (by simp [h])]
      simp
    · obtain ⟨f, rfl⟩ : ∃ f, fuel = f + 1 := ⟨fuel - 1, by omega⟩
      obtain ⟨st, h1, h2⟩ := break_here h maxLines maxTerms hT D hD line k
      rw [alignLoop, if_pos (term_here h D line k).2, h1]
      simp only
      rw [h2, ih _ _ _ _ (by simp) (by simp at hf; omega), weave, if_pos h]
      simp

/-- The first pass. -/
theorem first_pass (c : Nat) (R : Str) (maxLines maxTerms fuel : Nat) :
    alignLoop maxLines maxTerms (fuel + 1) ⟨c :: R, 0, 0, some 0, some 0, some 0, false, true⟩ =
      alignLoop maxLines maxTerms fuel (stateAt [c] R 0 0) := by
  rw [alignLoop, if_pos rfl]
  have hb : (Scan.mk (c :: R) 0 0 (some 0) (some 0) (some 0) false true).break maxLines maxTerms =
      .ok ⟨c :: R, 0, 0, some 0, some 0, some 0, false, true⟩ := by
    unfold Scan.break
    simp only
    rw [if_neg (by omega), if_neg (by simp)]
  rw [hb]
  rfl

theorem weave_header (maxLines maxTerms : Nat) (X : Str) :
    weave maxLines maxTerms 0 0 (w! "begin{align}\n& (" ++ X) = w! "begin{align}\n& (" ++ weave maxLines maxTerms 0 0 X := by
  simp [weave, startsSep, plusPat, minusPat, List.isPrefixOf]

/-- The text of a sum with its first and last characters replaced. -/
theorem align_sum_eq (ts : List (Bool × Str)) (maxLines maxTerms : Nat) (hT : 0 < maxTerms) :
    alignText true (sumLatex ts) maxLines maxTerms =
      some (.ok (beginStr ++ w! "(" ++ weave maxLines maxTerms 0 0 (sumBody true ts ++ w! ")") ++ endStr)) := by
  unfold alignText
  rw [if_pos rfl]
  have h1 : (sumLatex ts).drop 7 = w! "(" ++ sumBody true ts ++ w! "\\bigr) }" := rfl
  have h2 : (w! "(" ++ sumBody true ts ++ w! "\\bigr) }").length - 8 = (w! "(" ++ sumBody true ts).length := by simp
  simp only [h1, h2]
  rw [if_neg (by simp), List.take_left]
  have h3 : beginStr ++ (w! "(" ++ sumBody true ts ++ w! ")") = 92 :: (w! "begin{align}\n& (" ++ (sumBody true ts ++ w! ")")) := by
    simp [beginStr]
  rw [h3, first_pass, loop_weave _ _ hT _ _ _ _ _ (by simp) (by simp), weave_header]
  simp [beginStr]

/-! ## Summands -/

theorem startsSep_iff (s : Str) : startsSep s = true ↔ (∃ r, s = 32 :: 43 :: 32 :: r) ∨ ∃ r, s = 32 :: 45 :: 32 :: r := by
  rw [startsSep, Bool.or_eq_true, List.isPrefixOf_iff_prefix, List.isPrefixOf_iff_prefix]
  constructor
  · rintro (⟨r, hr⟩ | ⟨r, hr⟩)
    · exact .inl ⟨r, hr.symm⟩
    · exact .inr ⟨r, hr.symm⟩
  · rintro (⟨r, hr⟩ | ⟨r, hr⟩)
    · exact .inl ⟨r, hr.symm⟩
    · exact .inr ⟨r, hr.symm⟩

/-- No sign between blanks in `u` followed by a blank. -/
def NoSep (u : Str) : Prop := ¬ plusPat <:+: u ++ [32] ∧ ¬ minusPat <:+: u ++ [32]

theorem NoSep.tail {c : Nat} {u : Str} (h : NoSep (c :: u)) : NoSep u :=
  ⟨fun hi => h.1 (hi.trans (List.suffix_cons c (u ++ [32])).isInfix), fun hi => h.2 (hi.trans (List.suffix_cons c (u ++ [32])).isInfix)⟩

theorem noSep_starts {c : Nat} {u rest : Str} (h : NoSep (c :: u)) (hr : rest.head? = some 32 ∨ rest.head? = some 41) :
    startsSep (c :: u ++ rest) = false := by
  have key : ∀ x y z, [x, y, z] = plusPat ∨ [x, y, z] = minusPat → ∀ r, c :: u ++ rest ≠ x :: y :: z :: r := by
    intro x y z hx r he
    have hy : y = 43 ∨ y = 45 := by
      rcases hx with hx | hx <;> simp [plusPat, minusPat] at hx <;> omega
    have hz : z = 32 := by
      rcases hx with hx | hx <;> simp [plusPat, minusPat] at hx <;> omega
    have hpre : [x, y, z] <:+: (c :: u) ++ [32] := by
      match u, rest, hr with
      | [], [], hr => simp at hr
      | [], d :: rest, hr =>
        simp at he hr
        omega
      | [d], [], hr => simp at hr
      | [d], e :: rest, hr =>
        simp at he
        refine List.IsPrefix.isInfix ⟨[], ?_⟩
        simp
        omega
      | d :: e :: u, rest, hr =>
        simp at he
        refine List.IsPrefix.isInfix ⟨u ++ [32], ?_⟩
        simp
        omega
    rcases hx with hx | hx
    · rw [hx] at hpre; exact h.1 hpre
    · rw [hx] at hpre; exact h.2 hpre
  cases hs : startsSep (c :: u ++ rest)
  · rfl
  · rw [startsSep_iff] at hs
    rcases hs with ⟨r, hr'⟩ | ⟨r, hr'⟩
    · exact absurd hr' (key _ _ _ (.inl rfl) r)
    · exact absurd hr' (key _ _ _ (.inr rfl) r)

theorem weave_noSep (maxLines maxTerms line k : Nat) {rest : Str} (hr : rest.head? = some 32 ∨ rest.head? = some 41) :
    ∀ {u : Str}, NoSep u → weave maxLines maxTerms line k (u ++ rest) = u ++ weave maxLines maxTerms line k rest
  | [], _ => rfl
  | c :: u, h => by
    have hs := noSep_starts h hr
    rw [List.cons_append] at hs ⊢
    rw [weave, if_neg (by simp [hs]), weave_noSep maxLines maxTerms line k hr h.tail]
    rfl

theorem body_head (ts : List (Bool × Str)) :
    (sumBody false ts ++ w! ")").head? = some 32 ∨ (sumBody false ts ++ w! ")").head? = some 41 := by
  match ts with
  | [] => right; rfl
  | (true, t) :: ts => left; rfl
  | (false, t) :: ts => left; rfl

theorem weave_sign (maxLines maxTerms line k sgn : Nat) (hs : sgn = 43 ∨ sgn = 45) {t rest : Str} (ht : NoSep (32 :: t))
    (hr : rest.head? = some 32 ∨ rest.head? = some 41) :
    weave maxLines maxTerms line k (32 :: sgn :: 32 :: t ++ rest) =
      32 :: ((brk maxLines maxTerms line (k + 1)).str ++ sgn :: 32 :: t ++
        weave maxLines maxTerms ((brk maxLines maxTerms line (k + 1)).lines line) (k + 1) rest) := by
  have h1 : startsSep (32 :: sgn :: 32 :: t ++ rest) = true := by
    rw [startsSep_iff]
    rcases hs with rfl | rfl
    · exact .inl ⟨_, rfl⟩
    · exact .inr ⟨_, rfl⟩
  have h2 : startsSep (sgn :: (32 :: t ++ rest)) = false := by
    cases hx : startsSep (sgn :: (32 :: t ++ rest))
    · rfl
    · have := startsSep_blank hx
      omega
  rw [List.cons_append, List.cons_append] at h1 ⊢
  rw [weave, if_pos h1, weave, if_neg (by rw [h2]; simp), weave_noSep _ _ _ _ hr ht]
  simp

theorem clean_noSep {t : Str} (h : Clean t) : NoSep (32 :: t) := h

theorem weave_body (maxLines maxTerms : Nat) : ∀ (ts : List (Bool × Str)) (line k n : Nat), (∀ p ∈ ts, Clean p.2) → ts.length ≤ n →
    weave maxLines maxTerms line k (sumBody false ts ++ w! ")") =
      lay (breaks maxLines maxTerms line k n) false ts ++ w! ")" := by
  intro ts
  induction ts with
  | nil =>
    intro line k n _ _
    simp [sumBody, lay, weave, startsSep, plusPat, minusPat, List.isPrefixOf]
  | cons p ts ih =>
    intro line k n hc hn
    obtain ⟨neg, t⟩ := p
    obtain ⟨m, rfl⟩ : ∃ m, n = m + 1 := ⟨n - 1, by simp at hn; omega⟩
    have ht := clean_noSep (hc (neg, t) (by simp))
    have hrest := body_head ts
    have ih' := ih ((brk maxLines maxTerms line (k + 1)).lines line) (k + 1) m
      (fun q hq => hc q (List.mem_cons_of_mem _ hq)) (by simp at hn; omega)
    cases neg
    · have e : sumBody false ((false, t) :: ts) ++ w! ")" = 32 :: 43 :: 32 :: t ++ (sumBody false ts ++ w! ")") := by
        simp [sumBody]
      rw [e, weave_sign _ _ _ _ 43 (.inl rfl) ht hrest, ih', breaks]
      simp [lay]
    · have e : sumBody false ((true, t) :: ts) ++ w! ")" = 32 :: 45 :: 32 :: t ++ (sumBody false ts ++ w! ")") := by
        simp [sumBody]
      rw [e, weave_sign _ _ _ _ 45 (.inr rfl) ht hrest, ih', breaks]
      simp [lay]

/-- **C117.** If no summand has a sign between blanks, the result consists of all
summands with their signs, each once and in order, between the beginning and the end of
the environment; before a sign stands a line break or a new environment or nothing, as
`breaks` tells.  No assertion fails. -/
theorem align_terms (ts : List (Bool × Str)) (hc : ∀ p ∈ ts, Clean p.2) (maxLines maxTerms : Nat) (hT : 0 < maxTerms) :
    alignText true (sumLatex ts) maxLines maxTerms =
      some (.ok (w! "\\begin{align}\n& (" ++ lay (breaks maxLines maxTerms 0 0 ts.length) true ts ++ w! ")\n\\end{align}")) := by
  rw [align_sum_eq _ _ _ hT]
  have key : weave maxLines maxTerms 0 0 (sumBody true ts ++ w! ")") =
      lay (breaks maxLines maxTerms 0 0 ts.length) true ts ++ w! ")" := by
    match ts, hc with
    | [], _ => exact weave_body maxLines maxTerms [] 0 0 0 (by simp) (by simp)
    | (true, t) :: ts, hc =>
      have := weave_body maxLines maxTerms ((true, t) :: ts) 0 0 (ts.length + 1) hc (by simp)
      have e : sumBody true ((true, t) :: ts) = sumBody false ((true, t) :: ts) := rfl
      rw [e, this]
      rfl
    | (false, t) :: ts, hc =>
      have ht := (clean_noSep (hc (false, t) (by simp))).tail
      have := weave_body maxLines maxTerms ts 0 0 (ts.length + 1) (fun q hq => hc q (List.mem_cons_of_mem _ hq)) (by simp)
      have e : sumBody true ((false, t) :: ts) ++ w! ")" = t ++ (sumBody false ts ++ w! ")") := by simp [sumBody]
      rw [e, weave_noSep _ _ _ _ (body_head ts) ht, this]
      simp [lay]
  rw [key]
  simp [beginStr, endStr]

/-- Three summands, two per line. -/
example : alignText true (sumLatex [(false, w! "x"), (true, w! "y"), (false, w! "z")]) 0 2 =
    some (.ok (w! "\\begin{align}\n& (x - y \\\\\n& + z)\n\\end{align}")) := by decide +kernel

example : Clean (w! "{{f^{{i_1}}_{{a_1}}}") ∧ ¬ Clean (w! "{{1} + i {2}}x") := by decide +kernel

/-- **C117.** Other expressions are put into one environment as they are. -/
theorem align_other (text : Str) (maxLines maxTerms : Nat) :
    alignText false text maxLines maxTerms = some (.ok (w! "\\begin{align}\n& " ++ text ++ w! "\n\\end{align}")) := rfl

example : alignText false (w! "x") 0 1 = some (.ok (w! "\\begin{align}\n& x\n\\end{align}")) := by decide +kernel

/-! ## Lines and blocks -/

theorem breaks_length (maxLines maxTerms : Nat) : ∀ (n line k : Nat), (breaks maxLines maxTerms line k n).length = n
  | 0, _, _ => rfl
  | n + 1, _, _ => by rw [breaks, List.length_cons, breaks_length maxLines maxTerms n]

/-- **C117.** Every `maxTerms`-th sign starts a new line or block, so that no line has more
than `maxTerms` summands. -/
theorem lines_short (maxLines maxTerms : Nat) : ∀ (n line k i : Nat), i < n → (k + i + 1) % maxTerms = 0 →
    (breaks maxLines maxTerms line k n)[i]? = some .line ∨ (breaks maxLines maxTerms line k n)[i]? = some .block := by
  intro n
  induction n with
  | zero => intro line k i hi; omega
  | succ n ih =>
    intro line k i hi hm
    rw [breaks]
    cases i with
    | zero =>
      rw [List.getElem?_cons_zero, brk]
      by_cases hb : 0 < maxLines ∧ line = maxLines
      · right; rw [if_pos hb]
      · left; rw [if_neg hb, if_pos (by simpa using hm)]
    | succ i =>
      rw [List.getElem?_cons_succ]
      exact ih _ _ i (by omega) (by rw [← hm]; congr 1; omega)

example : breaks 0 2 0 0 5 = [.none, .line, .none, .line, .none] := by decide +kernel

/-- **C117.** With the default arguments each sign starts a line. -/
theorem default_lines (n : Nat) : breaks 0 1 0 0 n = List.replicate n .line := by
  suffices h : ∀ line k, breaks 0 1 line k n = List.replicate n .line from h 0 0
  induction n with
  | zero => intro line k; rfl
  | succ n ih =>
    intro line k
    rw [breaks, ih]
    have : brk 0 1 line (k + 1) = .line := by
      rw [brk, if_neg (by omega), if_pos (Nat.mod_one _)]
    rw [this]
    rfl

example : alignText true (sumLatex [(false, w! "x"), (false, w! "y")]) 0 1 =
    some (.ok (w! "\\begin{align}\n& (x \\\\\n& + y)\n\\end{align}")) := by decide +kernel

theorem brk_zero (maxTerms line k : Nat) : brk 0 maxTerms line k ≠ .block := by
  rw [brk, if_neg (by omega)]
  split <;> simp

/-- **C117.** Without a limit of lines there is one block. -/
theorem one_block (maxTerms : Nat) : ∀ (n line k : Nat), Brk.block ∉ breaks 0 maxTerms line k n
  | 0, _, _ => by simp [breaks]
  | n + 1, line, k => by
    rw [breaks, List.mem_cons, not_or]
    exact ⟨(brk_zero _ _ _).symm, one_block maxTerms n _ _⟩

/-- **C117 (partial).** A block has at most one line more than the limit: a piece of the
schedule without new block has at most `maxLines` line breaks. -/
theorem blocks_short_partial (maxLines maxTerms : Nat) (hL : 0 < maxLines) : ∀ (n line k : Nat), line ≤ maxLines →
    ∀ a b c : List Brk, breaks maxLines maxTerms line k n = a ++ b ++ c → Brk.block ∉ b → b.count .line ≤ maxLines := by
  have key : ∀ (n line k : Nat), line ≤ maxLines → ∀ b c : List Brk, breaks maxLines maxTerms line k n = b ++ c →
      Brk.block ∉ b → line + b.count .line ≤ maxLines := by
    intro n
    induction n with
    | zero =>
      intro line k hl b c h _
      simp only [breaks] at h
      have := List.append_eq_nil_iff.1 h.symm
      rw [this.1]
      simpa using hl
    | succ n ih =>
      intro line k hl b c h hb
      cases b with
      | nil => simpa using hl
      | cons x b =>
        rw [breaks, List.cons_append, List.cons.injEq] at h
        obtain ⟨h1, h2⟩ := h
        rw [List.mem_cons, not_or] at hb
        rw [h1] at h2
        have hx : x.lines line ≤ maxLines := by
          cases x with
          | none => exact hl
          | block => exact absurd rfl hb.1
          | line =>
            unfold brk at h1
            by_cases hc : 0 < maxLines ∧ line = maxLines
            · rw [if_pos hc] at h1; cases h1
            · show line + 1 ≤ maxLines
              omega
        have := ih _ _ hx b c h2 hb.2
        cases x with
        | none => simpa [Brk.lines] using this
        | block => exact absurd rfl hb.1
        | line =>
          simp only [Brk.lines, List.count_cons_self] at this ⊢
          omega
  intro n
  induction n with
  | zero =>
    intro line k hl a b c h _
    simp only [breaks] at h
    have h1 := List.append_eq_nil_iff.1 h.symm
    have h2 := List.append_eq_nil_iff.1 h1.1
    rw [h2.2]
    simp
  | succ n ih =>
    intro line k hl a b c h hb
    cases a with
    | nil =>
      have := key (n + 1) line k hl b c (by rw [h]; rfl) hb
      omega
    | cons x a =>
      rw [breaks, List.cons_append, List.cons_append, List.cons.injEq] at h
      refine ih _ _ ?_ a b c h.2 hb
      unfold brk
      by_cases hc : 0 < maxLines ∧ line = maxLines
      · rw [if_pos hc]; simp [Brk.lines]
      · rw [if_neg hc]
        split
        · simp only [Brk.lines]; omega
        · exact hl

example : breaks 2 1 0 0 7 = [.line, .line, .block, .line, .line, .block, .line] := by decide +kernel

/-- **C117 (refuted).** With at most one line per block and one summand per line the first
block has two lines. -/
theorem blocks_too_long : alignText true (sumLatex [(false, w! "x"), (false, w! "y"), (false, w! "z")]) 1 1 =
    some (.ok (w! "\\begin{align}\n& (x \\\\\n& + y \n\\end{align}\n\\begin{align}\n& + z)\n\\end{align}")) := by decide +kernel

/-- **C117 (refuted).** With two summands per line and one line per block, a block is
started in the middle of a line. -/
theorem block_in_line : breaks 1 2 0 0 6 = [.none, .line, .block, .line, .block, .line] := by decide +kernel

/-- **C117 (refuted).** If the first summand is negative, the first line has only the
parenthesis. -/
theorem negative_first : alignText true (sumLatex [(true, w! "x"), (false, w! "y")]) 0 1 =
    some (.ok (w! "\\begin{align}\n& ( \\\\\n& - x \\\\\n& + y)\n\\end{align}")) := by decide +kernel

/-- **C117 (refuted).** A complex prefactor, whose LaTeX has a sign between blanks, is torn
apart. -/
theorem complex_torn : alignText true (sumLatex [(false, w! "{{1} + i {2}}x"), (false, w! "y")]) 0 1 =
    some (.ok (w! "\\begin{align}\n& ({{1} \\\\\n& + i {2}}x \\\\\n& + y)\n\\end{align}")) := by decide +kernel

theorem loop_zero : ∀ (R D : Str) (k fuel : Nat), (∃ a b, R = a ++ plusPat ++ b ∨ R = a ++ minusPat ++ b) → R.length < fuel →
    ∀ maxLines, alignLoop maxLines 0 fuel (stateAt D R 0 k) = some .ub := by
  intro R
  induction R with
  | nil =>
    intro D k fuel h
    obtain ⟨a, b, h | h⟩ := h <;> simp [plusPat, minusPat] at h
  | cons c r ih =>
    intro D k fuel h hf maxLines
    cases hs : startsSep (c :: r)
    · rw [stateAt_skip hs]
      refine ih _ _ _ ?_ (by simp at hf; omega) maxLines
      obtain ⟨a, b, h⟩ := h
      cases a with
      | nil =>
        exfalso
        have : startsSep (c :: r) = true := by
          rw [startsSep_iff]
          rcases h with h | h
          · exact .inl ⟨b, h⟩
          · exact .inr ⟨b, h⟩
        rw [hs] at this
        cases this
      | cons x a =>
        refine ⟨a, b, ?_⟩
        rcases h with h | h
        · left; simpa using (List.cons.inj h).2
        · right; simpa using (List.cons.inj h).2
    · obtain ⟨f, rfl⟩ : ∃ f, fuel = f + 1 := ⟨fuel - 1, by omega⟩
      rw [alignLoop, if_pos (term_here hs D 0 k).2]
      have hb : (stateAt D (c :: r) 0 k).break maxLines 0 = .ub := by
        unfold Scan.break
        rw [(term_here hs D 0 k).1, show (stateAt D (c :: r) 0 k).line = 0 from rfl, if_neg (by omega), if_pos (by omega),
          if_pos rfl]
      rw [hb]

/-- **C117 (refuted).** With at most zero summands per line any sum of two or more summands
makes the code divide by zero. -/
theorem zero_terms_ub (p q : Bool × Str) (ts : List (Bool × Str)) (maxLines : Nat) :
    alignText true (sumLatex (p :: q :: ts)) maxLines 0 = some .ub := by
  unfold alignText
  rw [if_pos rfl]
  have h1 : (sumLatex (p :: q :: ts)).drop 7 = w! "(" ++ sumBody true (p :: q :: ts) ++ w! "\\bigr) }" := rfl
  have h2 : (w! "(" ++ sumBody true (p :: q :: ts) ++ w! "\\bigr) }").length - 8 = (w! "(" ++ sumBody true (p :: q :: ts)).length := by simp
  simp only [h1, h2]
  rw [if_neg (by simp), List.take_left]
  have h3 : beginStr ++ (w! "(" ++ sumBody true (p :: q :: ts) ++ w! ")") =
      92 :: (w! "begin{align}\n& (" ++ (sumBody true (p :: q :: ts) ++ w! ")")) := by
    simp [beginStr]
  have hq : ∃ a b, sumBody false (q :: ts) = a ++ plusPat ++ b ∨ sumBody false (q :: ts) = a ++ minusPat ++ b := by
    obtain ⟨neg, t⟩ := q
    cases neg
    · exact ⟨[], t ++ sumBody false ts, .inl (by simp [sumBody, plusPat])⟩
    · exact ⟨[], t ++ sumBody false ts, .inr (by simp [sumBody, minusPat])⟩
  have hp : ∃ a, sumBody true (p :: q :: ts) = a ++ sumBody false (q :: ts) := by
    obtain ⟨neg, t⟩ := p
    cases neg
    · exact ⟨t, by simp [sumBody]⟩
    · exact ⟨w! " - " ++ t, by simp [sumBody]⟩
  obtain ⟨a', ha'⟩ := hp
  obtain ⟨a, b, hab⟩ := hq
  rw [h3, first_pass, loop_zero _ _ _ _ ?_ (by simp)]
  refine ⟨w! "begin{align}\n& (" ++ a' ++ a, b ++ w! ")", ?_⟩
  rw [ha']
  rcases hab with hab | hab
  · left; rw [hab]; simp
  · right; rw [hab]; simp

end SeQuant.Latex
