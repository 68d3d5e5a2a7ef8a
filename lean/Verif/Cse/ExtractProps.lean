import Verif.Cse.ExtractModel

/-!
# Extraction of subtrees (C78)
-/

namespace SeQuant.Cse

open SeQuant.Eval

variable {A : Type}

/-! ### What is expected -/

/-- The value of the predicate for a tree that nothing was taken from. -/
def holdsAt (pred : ETree A → Bool → Bool → Bool) : ETree A → Bool
  | .leaf a => pred (.leaf a) false false
  | .node a l r => pred (.node a l r) (holdsAt pred l) (holdsAt pred r)

/-- The subtree at the end of a path (`true`: right). -/
def sub : ETree A → List Bool → Option (ETree A)
  | n, [] => some n
  | .leaf _, _ :: _ => none
  | .node _ l r, b :: p => sub (if b then r else l) p

/-- The predicate holds at the end of the path, but not for the parent. -/
def Maximal (pred : ETree A → Bool → Bool → Bool) (n : ETree A) (p : List Bool) : Prop :=
  ∃ q b m k, p = q ++ [b] ∧ sub n q = some m ∧ holdsAt pred m = false ∧ sub n p = some k ∧ holdsAt pred k = true

/-- What a predicate may look at: the payload of the node, and those of its children. -/
def top : ETree A → A × Option (A × Bool × A × Bool)
  | .leaf a => (a, none)
  | .node a l r => (a, some (l.label, l.isLeaf, r.label, r.isLeaf))

/-- A predicate that looks no further than at the children. -/
def Local (pred : ETree A → Bool → Bool → Bool) : Prop := ∀ n m b c, top n = top m → pred n b c = pred m b c

/-- A tree with its maximal subtrees, other than itself, replaced. -/
def cut (pred : ETree A → Bool → Bool → Bool) (reset : A → A) : ETree A → ETree A
  | .leaf a => .leaf a
  | .node a l r =>
    .node a (if !holdsAt pred (.node a l r) && holdsAt pred l then hole reset l else cut pred reset l)
      (if !holdsAt pred (.node a l r) && holdsAt pred r then hole reset r else cut pred reset r)

/-- The maximal subtrees of a tree, other than itself, as they are put into the set. -/
def caught (pred : ETree A → Bool → Bool → Bool) (reset : A → A) : ETree A → List (ETree A)
  | .leaf _ => []
  | .node a l r =>
    caught pred reset l ++ caught pred reset r ++
      (if !holdsAt pred (.node a l r) && holdsAt pred l then [cut pred reset l] else []) ++
      (if !holdsAt pred (.node a l r) && holdsAt pred r then [cut pred reset r] else [])

/-- `m` is `n` with its holes filled by trees of `C`, whose holes are filled too. -/
inductive Filled (reset : A → A) (C : ETree A → Prop) : ETree A → ETree A → Prop
  | leaf (a : A) : Filled reset C (.leaf a) (.leaf a)
  | node {a l r l' r'} : Filled reset C l l' → Filled reset C r r' → Filled reset C (.node a l r) (.node a l' r')
  | hole {k m} : C k → Filled reset C k m → Filled reset C (hole reset k) m

/-! ### The visitor -/

variable {pred : ETree A → Bool → Bool → Bool} {reset : A → A} {eq : ETree A → ETree A → Bool}

theorem cut_label (n : ETree A) : (cut pred reset n).label = n.label := by cases n <;> rfl

theorem cut_isLeaf (n : ETree A) : (cut pred reset n).isLeaf = n.isLeaf := by cases n <;> rfl

theorem hole_cut (n : ETree A) : hole reset (cut pred reset n) = hole reset n := by rw [hole, cut_label, hole]

theorem extractIn_spec (hl : Local pred) : ∀ (n : ETree A) (res : List (ETree A)),
    extractIn pred reset eq n res = (cut pred reset n, holdsAt pred n, (caught pred reset n).foldl (insertSet eq) res) := by
  intro n
  induction n with
  | leaf a => intro res; rfl
  | node a l r ihl ihr =>
    intro res
    rw [extractIn, ihl, ihr]
    simp only
    have e : pred (.node a (cut pred reset l) (cut pred reset r)) (holdsAt pred l) (holdsAt pred r) = holdsAt pred (.node a l r) := by
      rw [holdsAt]
      apply hl
      simp [top, cut_label, cut_isLeaf]
    rw [e]
    cases hn : holdsAt pred (.node a l r) with
    | true => simp [cut, caught, hn]
    | false => cases h1 : holdsAt pred l <;> cases h2 : holdsAt pred r <;> simp [cut, caught, hn, h1, h2, hole_cut]

/-! ### Paths -/

theorem maximal_cons {a : A} {l r : ETree A} {b : Bool} {p : List Bool} : Maximal pred (.node a l r) (b :: p) ↔
    (p = [] ∧ holdsAt pred (.node a l r) = false ∧ holdsAt pred (if b then r else l) = true) ∨ Maximal pred (if b then r else l) p := by
  constructor
  · rintro ⟨q, b', m, k, e, h1, h2, h3, h4⟩
    cases q with
    | nil =>
      simp only [List.nil_append, List.cons.injEq] at e
      obtain ⟨rfl, rfl⟩ := e
      simp only [sub, Option.some.injEq] at h1 h3
      subst h1 h3
      exact Or.inl ⟨rfl, h2, h4⟩
    | cons c q =>
      simp only [List.cons_append, List.cons.injEq] at e
      obtain ⟨rfl, rfl⟩ := e
      simp only [sub] at h1 h3
      exact Or.inr ⟨q, b', m, k, rfl, h1, h2, h3, h4⟩
  · rintro (⟨rfl, h1, h2⟩ | ⟨q, b', m, k, rfl, h1, h2, h3, h4⟩)
    · exact ⟨[], b, _, _, rfl, rfl, h1, by simp [sub], h2⟩
    · exact ⟨b :: q, b', m, k, rfl, by simpa [sub] using h1, h2, by simpa [sub] using h3, h4⟩

theorem maximal_leaf {a : A} {p : List Bool} : ¬ Maximal pred (.leaf a) p := by
  rintro ⟨q, b, m, k, rfl, _, _, h3, _⟩
  cases q <;> simp [sub] at h3

theorem maximal_nil {n : ETree A} : ¬ Maximal pred n [] := by
  rintro ⟨q, b, m, k, e, _⟩
  simp at e

theorem mem_caught : ∀ {n x : ETree A}, x ∈ caught pred reset n ↔ ∃ p k, Maximal pred n p ∧ sub n p = some k ∧ x = cut pred reset k := by
  intro n
  induction n with
  | leaf a =>
    intro x
    simp only [caught, List.not_mem_nil, false_iff, not_exists, not_and]
    exact fun p k h => absurd h maximal_leaf
  | node a l r ihl ihr =>
    intro x
    have key : ∀ (b : Bool) (c : ETree A), c = (if b then r else l) →
        ((x ∈ caught pred reset c ∨ (holdsAt pred (.node a l r) = false ∧ holdsAt pred c = true ∧ x = cut pred reset c)) ↔
          ∃ p k, Maximal pred (.node a l r) (b :: p) ∧ sub (.node a l r) (b :: p) = some k ∧ x = cut pred reset k) := by
      intro b c hc
      have ih : x ∈ caught pred reset c ↔ ∃ p k, Maximal pred c p ∧ sub c p = some k ∧ x = cut pred reset k := by
        cases b
        · simp only [Bool.false_eq_true, if_false] at hc; subst hc; exact ihl
        · simp only [if_true] at hc; subst hc; exact ihr
      constructor
      · rintro (h | ⟨h1, h2, rfl⟩)
        · obtain ⟨p, k, h1, h2, rfl⟩ := ih.1 h
          exact ⟨p, k, maximal_cons.2 (Or.inr (hc ▸ h1)), by rw [sub, ← hc]; exact h2, rfl⟩
        · exact ⟨[], c, maximal_cons.2 (Or.inl ⟨rfl, h1, hc ▸ h2⟩), by simp [sub, hc], rfl⟩
      · rintro ⟨p, k, h1, h2, rfl⟩
        rw [sub, ← hc] at h2
        rcases maximal_cons.1 h1 with ⟨rfl, h3, h4⟩ | h3
        · simp only [sub, Option.some.injEq] at h2
          subst h2
          exact Or.inr ⟨h3, hc ▸ h4, rfl⟩
        · exact Or.inl (ih.2 ⟨p, k, hc ▸ h3, h2, rfl⟩)
    have kl := key false l rfl
    have kr := key true r rfl
    have e : x ∈ caught pred reset (.node a l r) ↔
        (x ∈ caught pred reset l ∨ (holdsAt pred (.node a l r) = false ∧ holdsAt pred l = true ∧ x = cut pred reset l)) ∨
        (x ∈ caught pred reset r ∨ (holdsAt pred (.node a l r) = false ∧ holdsAt pred r = true ∧ x = cut pred reset r)) := by
      simp only [caught, List.mem_append]
      cases holdsAt pred (.node a l r) <;> cases holdsAt pred l <;> cases holdsAt pred r <;> simp <;> tauto
    rw [e, kl, kr]
    constructor
    · rintro (⟨p, k, h⟩ | ⟨p, k, h⟩)
      · exact ⟨_, k, h⟩
      · exact ⟨_, k, h⟩
    · rintro ⟨p, k, h⟩
      cases p with
      | nil => exact absurd h.1 maximal_nil
      | cons b p =>
        cases b
        · exact Or.inl ⟨p, k, h⟩
        · exact Or.inr ⟨p, k, h⟩

theorem prefix_cons {b : Bool} {p q : List Bool} (h : q <+: b :: p) : q = [] ∨ ∃ q', q = b :: q' ∧ q' <+: p := by
  cases q with
  | nil => exact Or.inl rfl
  | cons c q' =>
    rw [List.cons_prefix_cons] at h
    exact Or.inr ⟨q', by rw [h.1], h.2⟩

/-- Where no maximal subtree begins on the way, the tree is the same. -/
theorem cut_same : ∀ (n : ETree A) (p : List Bool), (∀ q, q <+: p → ¬ Maximal pred n q) →
    (sub (cut pred reset n) p).map (fun m => (m.label, m.isLeaf)) = (sub n p).map fun m => (m.label, m.isLeaf) := by
  intro n
  induction n with
  | leaf a => intro p _; rfl
  | node a l r ihl ihr =>
    intro p hp
    cases p with
    | nil => simp [sub, cut_label, cut_isLeaf]
    | cons b p =>
      have h1 := hp [b] (by simp)
      rw [maximal_cons] at h1
      push Not at h1
      have h2 : ∀ q, q <+: p → ¬ Maximal pred (if b then r else l) q := by
        intro q hq hm
        exact hp (b :: q) (by simpa using hq) (maximal_cons.2 (Or.inr hm))
      have h3 : ¬ (holdsAt pred (.node a l r) = false ∧ holdsAt pred (if b then r else l) = true) := fun h => h1.1 rfl h.1 h.2
      rw [cut, sub, sub]
      cases b
      · simp only [Bool.false_eq_true, if_false] at h2 h3 ⊢
        rw [if_neg (by simpa using h3)]
        exact ihl p h2
      · simp only [if_true] at h2 h3 ⊢
        rw [if_neg (by simpa using h3)]
        exact ihr p h2

/-- A maximal subtree that is in no other one is replaced by a leaf with its payload. -/
theorem cut_hole : ∀ (n : ETree A) (p : List Bool) (k : ETree A), Maximal pred n p → (∀ q, q <+: p → q ≠ p → ¬ Maximal pred n q) → sub n p = some k →
    sub (cut pred reset n) p = some (hole reset k) := by
  intro n
  induction n with
  | leaf a => intro p k h; exact absurd h maximal_leaf
  | node a l r ihl ihr =>
    intro p k hm hp hk
    cases p with
    | nil => exact absurd hm maximal_nil
    | cons b p =>
      rw [sub] at hk
      rcases maximal_cons.1 hm with ⟨rfl, h1, h2⟩ | h1
      · simp only [sub, Option.some.injEq] at hk
        cases b
        · simp only [Bool.false_eq_true, if_false] at h2 hk
          subst hk
          simp [cut, sub, h1, h2]
        · simp only [if_true] at h2 hk
          subst hk
          simp [cut, sub, h1, h2]
      · have hne : p ≠ [] := by rintro rfl; exact maximal_nil h1
        have h0 := hp [b] (by simp) (by rintro h; exact hne (List.cons.inj h).2.symm)
        rw [maximal_cons] at h0
        push Not at h0
        have h3 : ¬ (holdsAt pred (.node a l r) = false ∧ holdsAt pred (if b then r else l) = true) := fun h => h0.1 rfl h.1 h.2
        have h2 : ∀ q, q <+: p → q ≠ p → ¬ Maximal pred (if b then r else l) q := by
          intro q hq hqp hmq
          exact hp (b :: q) (by simpa using hq) (by simpa using hqp) (maximal_cons.2 (Or.inr hmq))
        rw [cut, sub]
        cases b
        · simp only [Bool.false_eq_true, if_false] at h1 h2 h3 hk ⊢
          rw [if_neg (by simpa using h3)]
          exact ihl p k h1 h2 hk
        · simp only [if_true] at h1 h2 h3 hk ⊢
          rw [if_neg (by simpa using h3)]
          exact ihr p k h1 h2 hk

theorem Filled.mono {C C' : ETree A → Prop} (h : ∀ k, C k → C' k) {n m : ETree A} (hf : Filled reset C n m) : Filled reset C' n m := by
  induction hf with
  | leaf a => exact .leaf a
  | node _ _ ih1 ih2 => exact .node ih1 ih2
  | hole hc _ ih => exact .hole (h _ hc) ih

/-- With the holes filled, the tree is the original one. -/
theorem cut_filled : ∀ n : ETree A, Filled reset (· ∈ caught pred reset n) (cut pred reset n) n := by
  intro n
  induction n with
  | leaf a => exact .leaf a
  | node a l r ihl ihr =>
    have il : ∀ k ∈ caught pred reset l, k ∈ caught pred reset (.node a l r) := fun k hk => by simp [caught, hk]
    have ir : ∀ k ∈ caught pred reset r, k ∈ caught pred reset (.node a l r) := fun k hk => by simp [caught, hk]
    rw [cut]
    refine .node ?_ ?_
    · split
      · rename_i h
        rw [← hole_cut (pred := pred)]
        exact .hole (by simp [caught, h]) (ihl.mono il)
      · exact ihl.mono il
    · split
      · rename_i h
        rw [← hole_cut (pred := pred)]
        exact .hole (by simp [caught, h]) (ihr.mono ir)
      · exact ihr.mono ir

/-! ### The set -/

theorem insertSet_spec (he : ∀ x, eq x x = true) : ∀ (l res : List (ETree A)), res.Pairwise (fun x y => eq x y = false) →
    (l.foldl (insertSet eq) res).Pairwise (fun x y => eq x y = false) ∧ (∀ x ∈ l.foldl (insertSet eq) res, x ∈ res ∨ x ∈ l) ∧
    (∀ x ∈ res, x ∈ l.foldl (insertSet eq) res) ∧ ∀ x ∈ l, ∃ y ∈ l.foldl (insertSet eq) res, eq y x = true := by
  intro l
  induction l with
  | nil => intro res h; exact ⟨h, fun x hx => Or.inl hx, fun x hx => hx, by simp⟩
  | cons a l ih =>
    intro res h
    have h1 : (insertSet eq res a).Pairwise (fun x y => eq x y = false) := by
      unfold insertSet
      split
      · exact h
      · rename_i hn
        rw [List.pairwise_append]
        refine ⟨h, by simp, fun x hx y hy => ?_⟩
        rw [List.mem_singleton] at hy
        subst hy
        simp only [List.any_eq_true, not_exists, not_and, Bool.not_eq_true] at hn
        exact hn x hx
    have h2 : ∀ x ∈ res, x ∈ insertSet eq res a := by
      intro x hx
      unfold insertSet
      split
      · exact hx
      · simp [hx]
    have h3 : ∀ x ∈ insertSet eq res a, x ∈ res ∨ x = a := by
      intro x hx
      unfold insertSet at hx
      split at hx
      · exact Or.inl hx
      · simpa using hx
    have h4 : ∃ y ∈ insertSet eq res a, eq y a = true := by
      unfold insertSet
      split
      · rename_i hn
        exact List.any_eq_true.1 hn
      · exact ⟨a, by simp, he a⟩
    obtain ⟨a1, a2, a3, a4⟩ := ih (insertSet eq res a) h1
    refine ⟨a1, ?_, fun x hx => a3 x (h2 x hx), ?_⟩
    · intro x hx
      rcases a2 x hx with hx | hx
      · rcases h3 x hx with hx | rfl
        · exact Or.inl hx
        · exact Or.inr (by simp)
      · exact Or.inr (by simp [hx])
    · intro x hx
      rcases List.mem_cons.1 hx with rfl | hx
      · obtain ⟨y, hy, hye⟩ := h4
        exact ⟨y, a3 y hy, hye⟩
      · exact a4 x hx

/-! ### Forests -/

/-- What is taken from a tree: the tree itself if the predicate holds for it, and its maximal subtrees. -/
def Taken (pred : ETree A → Bool → Bool → Bool) (t : ETree A) (p : List Bool) (k : ETree A) : Prop :=
  sub t p = some k ∧ ((p = [] ∧ holdsAt pred t = true) ∨ Maximal pred t p)

/-- What is left of a tree. -/
def left_ (pred : ETree A → Bool → Bool → Bool) (reset : A → A) (t : ETree A) : ETree A := if holdsAt pred t then hole reset t else cut pred reset t

def allCaught (pred : ETree A → Bool → Bool → Bool) (reset : A → A) (t : ETree A) : List (ETree A) :=
  caught pred reset t ++ if holdsAt pred t then [cut pred reset t] else []

theorem extract_run (hl : Local pred) : ∀ (ts res : List (ETree A)),
    extract pred reset eq ts res = (ts.map (left_ pred reset), (ts.flatMap (allCaught pred reset)).foldl (insertSet eq) res) := by
  intro ts
  induction ts with
  | nil => intro res; rfl
  | cons t ts ih =>
    intro res
    rw [extract]
    simp only [extractRoot, extractIn_spec hl]
    rw [ih]
    cases h : holdsAt pred t <;> simp [left_, allCaught, h, List.foldl_append, hole_cut]

theorem mem_allCaught {t x : ETree A} : x ∈ allCaught pred reset t ↔ ∃ p k, Taken pred t p k ∧ x = cut pred reset k := by
  unfold allCaught Taken
  rw [List.mem_append, mem_caught]
  constructor
  · rintro (⟨p, k, h1, h2, h3⟩ | h)
    · exact ⟨p, k, ⟨h2, Or.inr h1⟩, h3⟩
    · split at h
      · rename_i ht
        rw [List.mem_singleton] at h
        exact ⟨[], t, ⟨rfl, Or.inl ⟨rfl, ht⟩⟩, h⟩
      · simp at h
  · rintro ⟨p, k, ⟨h1, ⟨rfl, h2⟩ | h2⟩, h3⟩
    · simp only [sub, Option.some.injEq] at h1
      subst h1
      exact Or.inr (by simp [h2, h3])
    · exact Or.inl ⟨p, k, h2, h1, h3⟩

/-- **C78** A subtree is extracted if and only if the predicate holds for it, and it is a root or the predicate does not hold for its parent; in the
set, no two trees are the same, and with the extracted trees put in place of the leaves, the original trees are there again. -/
theorem extract_spec (hl : Local pred) (he : ∀ x, eq x x = true) (ts : List (ETree A)) :
    (extract pred reset eq ts []).1.length = ts.length ∧
    (extract pred reset eq ts []).2.Pairwise (fun x y => eq x y = false) ∧
    (∀ x ∈ (extract pred reset eq ts []).2, ∃ t ∈ ts, ∃ p k, Taken pred t p k ∧ x = cut pred reset k) ∧
    (∀ t ∈ ts, ∀ p k, Taken pred t p k → ∃ x ∈ (extract pred reset eq ts []).2, eq x (cut pred reset k) = true) ∧
    List.Forall₂ (fun n t => Filled reset (fun x => ∃ t ∈ ts, ∃ p k, Taken pred t p k ∧ x = cut pred reset k) n t) (extract pred reset eq ts []).1 ts := by
  rw [extract_run hl]
  obtain ⟨h1, h2, _, h4⟩ := insertSet_spec (eq := eq) he (ts.flatMap (allCaught pred reset)) [] .nil
  refine ⟨by simp, h1, ?_, ?_, ?_⟩
  · intro x hx
    rcases h2 x hx with h | h
    · simp at h
    · obtain ⟨t, ht, hxt⟩ := List.mem_flatMap.1 h
      exact ⟨t, ht, mem_allCaught.1 hxt⟩
  · intro t ht p k htk
    exact h4 _ (List.mem_flatMap.2 ⟨t, ht, mem_allCaught.2 ⟨p, k, htk, rfl⟩⟩)
  · rw [List.forall₂_map_left_iff, List.forall₂_same]
    intro t ht
    have hm : ∀ k ∈ caught pred reset t, ∃ t ∈ ts, ∃ p k', Taken pred t p k' ∧ k = cut pred reset k' := fun k hk =>
      ⟨t, ht, mem_allCaught.1 (by simp [allCaught, hk])⟩
    unfold left_
    split
    · rename_i hh
      rw [← hole_cut (pred := pred)]
      refine .hole ⟨t, ht, [], t, ⟨rfl, Or.inl ⟨rfl, hh⟩⟩, rfl⟩ (cut_filled t |>.mono hm)
    · exact (cut_filled t).mono hm

/-- **C78** Where the trees stay as they are and where leaves are put. -/
theorem extract_tree (hl : Local pred) (ts : List (ETree A)) (i : Nat) (t : ETree A) (ht : ts[i]? = some t) :
    ∃ n, (extract pred reset eq ts []).1[i]? = some n ∧
      (∀ p, (∀ q k, q <+: p → ¬ Taken pred t q k) → (sub n p).map (fun m => (m.label, m.isLeaf)) = (sub t p).map fun m => (m.label, m.isLeaf)) ∧
      (∀ p k, Taken pred t p k → (∀ q k', q <+: p → q ≠ p → ¬ Taken pred t q k') → sub n p = some (.leaf (reset k.label))) := by
  rw [extract_run hl]
  refine ⟨left_ pred reset t, by simp [ht], ?_, ?_⟩
  · intro p hp
    have h0 : holdsAt pred t = false := by
      by_contra h
      exact hp [] t (by simp) ⟨rfl, Or.inl ⟨rfl, by simpa using h⟩⟩
    rw [left_, h0]
    simp only [Bool.false_eq_true, if_false]
    apply cut_same
    intro q hq hm
    obtain ⟨_, _, _, k, _, _, _, hk, _⟩ := id hm
    exact hp q k hq ⟨hk, Or.inr hm⟩
  · intro p k htk hp
    by_cases h0 : holdsAt pred t = true
    · by_cases hp0 : p = []
      · subst hp0
        have := htk.1
        simp only [sub, Option.some.injEq] at this
        subst this
        simp [left_, h0, sub, hole]
      · exact absurd ⟨rfl, Or.inl ⟨rfl, h0⟩⟩ (hp [] t (by simp) (fun h => hp0 h.symm))
    · rw [left_, if_neg h0]
      rcases htk with ⟨hk, ⟨_, h1⟩ | h1⟩
      · exact absurd h1 h0
      · refine cut_hole t p k h1 ?_ hk
        intro q hq hqp hm
        obtain ⟨_, _, _, k', _, _, _, hk', _⟩ := id hm
        exact hp q k' hq hqp ⟨hk', Or.inr hm⟩

/-- **C78** A subtree without maximal subtrees below it is extracted as it is. -/
theorem cut_self : ∀ (n : ETree A), (∀ p, ¬ Maximal pred n p) → cut pred reset n = n := by
  intro n
  induction n with
  | leaf a => intro _; rfl
  | node a l r ihl ihr =>
    intro h
    have hl : cut pred reset l = l := ihl fun p hp => h (false :: p) (maximal_cons.2 (Or.inr hp))
    have hr : cut pred reset r = r := ihr fun p hp => h (true :: p) (maximal_cons.2 (Or.inr hp))
    have h1 := h [false]
    have h2 := h [true]
    rw [maximal_cons] at h1 h2
    push Not at h1 h2
    rw [cut, if_neg, if_neg, hl, hr]
    · intro hc
      simp only [Bool.and_eq_true, Bool.not_eq_true'] at hc
      exact h2.1 rfl hc.1 hc.2
    · intro hc
      simp only [Bool.and_eq_true, Bool.not_eq_true'] at hc
      exact h1.1 rfl hc.1 hc.2

/-! ### Examples -/

/-- The predicate of the documentation (58-69): an intermediate without the leaf 0. -/
def docPred (n : ETree Nat) (pl pr : Bool) : Bool :=
  match n with
  | .leaf _ => false
  | .node _ l r =>
    let ok := fun (c : ETree Nat) (pc : Bool) => match c with
      | .leaf a => decide (a ≠ 0)
      | .node .. => pc
    ok l pl && ok r pr

theorem docPred_local : Local docPred := by
  intro n m b c h
  cases n with
  | leaf a => cases m with
    | leaf a' => rfl
    | node a' l' r' => simp [top] at h
  | node a l r => cases m with
    | leaf a' => simp [top] at h
    | node a' l' r' =>
      cases l <;> cases r <;> cases l' <;> cases r' <;> simp_all [top, ETree.label, ETree.isLeaf, docPred]

/-- `((1 2) 0) ((1 2) 3)`: the two products `1 2` and `(1 2) 3` are taken, the latter as a whole. -/
def exForest : List (ETree Nat) :=
  [.node 9 (.node 8 (.node 7 (.leaf 1) (.leaf 2)) (.leaf 0)) (.node 6 (.node 7 (.leaf 1) (.leaf 2)) (.leaf 3))]

example : extract docPred id (fun x y => decide (x = y)) exForest [] =
    ([.node 9 (.node 8 (.leaf 7) (.leaf 0)) (.leaf 6)], [.node 7 (.leaf 1) (.leaf 2), .node 6 (.node 7 (.leaf 1) (.leaf 2)) (.leaf 3)]) := by decide

example : Taken docPred (.node 8 (.node 7 (.leaf 1) (.leaf 2)) (.leaf 0)) [false] (.node 7 (.leaf 1) (.leaf 2)) :=
  ⟨rfl, Or.inr ⟨[], false, _, _, rfl, rfl, rfl, rfl, rfl⟩⟩

/-- An even payload. -/
def evenPred (n : ETree Nat) (_ _ : Bool) : Bool := decide (n.label % 2 = 0)

theorem evenPred_local : Local evenPred := by
  intro n m b c h
  have : n.label = m.label := by cases n <;> cases m <;> simp_all [top, ETree.label]
  simp [evenPred, this]

/-- **C78 fails** for what the documentation says about subtrees of extracted trees (49-50): they are extracted too when the predicate does not hold
in between, and the tree around them has a leaf in their place. -/
theorem nested_extracted : extract evenPred id (fun x y => decide (x = y)) [.node 2 (.node 3 (.node 4 (.leaf 1) (.leaf 5)) (.leaf 7)) (.leaf 9)] [] =
    ([.leaf 2], [.node 4 (.leaf 1) (.leaf 5), .node 2 (.node 3 (.leaf 4) (.leaf 7)) (.leaf 9)]) := by decide

/-- **C78 fails** for predicates that look further than at the children: they are asked about trees from which subtrees were taken already.  The root
has 9 nodes, but it is not extracted, since only 5 nodes are left of it. -/
theorem deep_predicate : holdsAt (fun (n : ETree Nat) _ _ => decide (n.label = 4 ∨ 8 ≤ SeQuant.Binarize.size n))
      (.node 1 (.node 2 (.node 4 (.leaf 5) (.leaf 5)) (.node 4 (.leaf 5) (.leaf 6))) (.leaf 3)) = true ∧
    (extract (fun n _ _ => decide (n.label = 4 ∨ 8 ≤ SeQuant.Binarize.size n)) id (fun x y => decide (x = y))
      [.node 1 (.node 2 (.node 4 (.leaf 5) (.leaf 5)) (.node 4 (.leaf 5) (.leaf 6))) (.leaf 3)] []).1 =
      [.node 1 (.node 2 (.leaf 4) (.leaf 4)) (.leaf 3)] := by decide

end SeQuant.Cse
