import Mathlib.Data.List.Basic
import Mathlib.Data.List.Chain

/-!
# Splitting a mode of a tiled array into batches

Transcribes `mode_batches_of_trange1` and the bounds of `slice_mode` (`SeQuant/core/eval/backends/tiledarray/result.hpp:354-396, 435-455`).
A `TiledRange1` is the list of its tiles `[first, second)`.  `size_t` is unbounded.
-/

namespace SeQuant.Batch

abbrev Tile := Nat × Nat

/-- `TiledRange1::elements_range`. -/
def elementsRange (tr : List Tile) : Nat × Nat :=
  match tr.head?, tr.getLast? with
  | some a, some b => (a.1, b.2)
  | _, _ => (0, 0)

/-- The loop over tiles (377-394). -/
def batchLoop (target : Nat) : List Tile → Nat → Nat → List (Nat × Nat)
  | [], _, _ => []
  | t :: rest, grpLo, acc =>
    let close := acc > 0 ∧ acc + (t.2 - t.1) > target
    let lo := if close then t.1 else grpLo
    let acc' := (if close then 0 else acc) + (t.2 - t.1)
    (if close then [(grpLo, t.1)] else []) ++ (if rest = [] then [(lo, t.2)] else batchLoop target rest lo acc')

/-- `mode_batches_of_trange1` (368-396). -/
def modeBatches (tr : List Tile) (target : Nat) : List (Nat × Nat) :=
  let er := elementsRange tr
  if er.2 ≤ er.1 then [] else batchLoop (max target 1) tr er.1 0

/-- `TiledRange1::element_to_tile`: the tile that contains the element. -/
def elementToTile (tr : List Tile) (e : Nat) : Nat := tr.findIdx fun t => t.1 ≤ e ∧ e < t.2

/-- The range of tiles that `slice_mode` keeps (435-455); `none` = failed assertion. -/
def sliceTiles (tr : List Tile) (lo hi : Nat) : Option (Nat × Nat) :=
  let er := elementsRange tr
  if ¬ (er.1 ≤ lo ∧ lo < hi ∧ hi ≤ er.2) then none
  else
    let tileLo := elementToTile tr lo
    if (tr[tileLo]?).map Prod.fst ≠ some lo then none
    else
      let tileHi := if hi ≥ er.2 then tr.length else elementToTile tr hi
      if ¬ (hi ≥ er.2 ∨ (tr[tileHi]?).map Prod.fst = some hi) then none
      else some (tileLo, tileHi)

/-! ### What is expected -/

/-- Ranges that follow each other without gap or overlap from `lo` to `hi`. -/
def Follow : Nat → Nat → List (Nat × Nat) → Prop
  | lo, hi, [] => lo = hi
  | lo, hi, b :: bs => b.1 = lo ∧ b.1 ≤ b.2 ∧ Follow b.2 hi bs

instance decFollow : ∀ lo hi bs, Decidable (Follow lo hi bs)
  | lo, hi, [] => inferInstanceAs (Decidable (lo = hi))
  | lo, hi, b :: bs => by
    unfold Follow
    have := decFollow b.2 hi bs
    infer_instance

/-- A tiled range: tiles that follow each other. -/
def Tiled (tr : List Tile) : Prop := Follow (elementsRange tr).1 (elementsRange tr).2 tr

theorem follow_le : ∀ {lo hi : Nat} {bs : List (Nat × Nat)}, Follow lo hi bs → lo ≤ hi
  | _, _, [], h => le_of_eq h
  | _, _, _ :: _, ⟨h1, h2, h3⟩ => by have := follow_le h3; omega

theorem follow_append : ∀ {lo hi : Nat} {as bs : List (Nat × Nat)}, Follow lo hi (as ++ bs) ↔ ∃ m, Follow lo m as ∧ Follow m hi bs
  | lo, hi, [], bs => by simp [Follow]
  | lo, hi, a :: as, bs => by
    simp only [List.cons_append, Follow, follow_append (as := as)]
    constructor
    · rintro ⟨h1, h2, m, h3, h4⟩; exact ⟨m, ⟨h1, h2, h3⟩, h4⟩
    · rintro ⟨m, ⟨h1, h2, h3⟩, h4⟩; exact ⟨h1, h2, m, h3, h4⟩

theorem follow_fst_inj {lo lo' hi hi' : Nat} {bs : List (Nat × Nat)} (hne : bs ≠ []) (h : Follow lo hi bs) (h' : Follow lo' hi' bs) :
    lo = lo' ∧ hi = hi' := by
  induction bs generalizing lo lo' with
  | nil => exact absurd rfl hne
  | cons b bs ih =>
    refine ⟨h.1.symm.trans h'.1, ?_⟩
    by_cases hb : bs = []
    · subst hb; exact h.2.2.symm.trans h'.2.2
    · exact (ih hb h.2.2 h'.2.2).2

theorem tiled_of_follow {lo hi : Nat} {tr : List Tile} (hne : tr ≠ []) (h : Follow lo hi tr) : elementsRange tr = (lo, hi) := by
  have e1 : ∃ a, tr.head? = some a ∧ a.1 = lo := by
    cases tr with
    | nil => exact absurd rfl hne
    | cons a as => exact ⟨a, rfl, h.1⟩
  have e2 : ∃ b, tr.getLast? = some b ∧ b.2 = hi := by
    clear e1
    induction tr generalizing lo with
    | nil => exact absurd rfl hne
    | cons a as ih =>
      by_cases ha : as = []
      · subst ha; exact ⟨a, rfl, h.2.2⟩
      · obtain ⟨b, h1, h2⟩ := ih ha h.2.2
        exact ⟨b, by rw [List.getLast?_cons]; simp [h1], h2⟩
  obtain ⟨a, ha, ha'⟩ := e1
  obtain ⟨b, hb, hb'⟩ := e2
  simp [elementsRange, ha, hb, ha', hb']

/-- A batch is made of whole tiles, at least one, and does not exceed the target unless it is a single tile (apart from empty ones). -/
structure Whole (tr : List Tile) (target : Nat) (b : Nat × Nat) : Prop where
  tiles : ∃ pre mid post, tr = pre ++ mid ++ post ∧ mid ≠ [] ∧ Follow b.1 b.2 mid ∧
    (b.2 - b.1 ≤ target ∨ ∃ t ∈ mid, t.2 - t.1 = b.2 - b.1)

theorem batchLoop_spec (target : Nat) (full : List Tile) : ∀ (tr : List Tile) (pre mid : List Tile) (lo grpLo a hi : Nat),
    full = pre ++ mid ++ tr → Follow lo grpLo pre → Follow grpLo a mid → Follow a hi tr → tr ≠ [] →
    (a - grpLo ≤ target ∨ ∃ t ∈ mid, t.2 - t.1 = a - grpLo) →
    Follow grpLo hi (batchLoop target tr grpLo (a - grpLo)) ∧ batchLoop target tr grpLo (a - grpLo) ≠ [] ∧
    ∀ b ∈ batchLoop target tr grpLo (a - grpLo), Whole full target b := by
  intro tr
  induction tr with
  | nil => intro _ _ _ _ _ _ _ _ _ _ h; exact absurd rfl h
  | cons t rest ih =>
    intro pre mid lo grpLo a hi hfull hpre hmid htr _ hacc
    have hga := follow_le hmid
    obtain ⟨ht1, ht2, hrest⟩ := htr
    rw [batchLoop]
    by_cases hc : a - grpLo > 0 ∧ a - grpLo + (t.2 - t.1) > target
    · simp only [hc, and_self, if_true, gt_iff_lt]
      have hmid0 : mid ≠ [] := by
        rintro rfl
        have : grpLo = a := hmid
        omega
      have hb0 : Whole full target (grpLo, t.1) := ⟨pre, mid, t :: rest, by simp [hfull], hmid0, by rw [ht1]; exact hmid, by rw [ht1]; exact hacc⟩
      by_cases hr : rest = []
      · subst hr
        have hh : t.2 = hi := hrest
        simp only [if_true, List.cons_append, List.nil_append]
        refine ⟨⟨rfl, by simp only; omega, rfl, ht2, hh⟩, by simp, ?_⟩
        intro b hb
        rcases List.mem_cons.1 hb with rfl | hb
        · exact hb0
        · obtain rfl := List.mem_singleton.1 hb
          exact ⟨pre ++ mid, [t], [], by simp [hfull], by simp, ⟨rfl, ht2, rfl⟩, .inr ⟨t, by simp, rfl⟩⟩
      · simp only [hr, if_false, List.cons_append, List.nil_append, Nat.zero_add]
        obtain ⟨h1, h2, h3⟩ := ih (pre ++ mid) [t] lo t.1 t.2 hi (by simp [hfull]) (follow_append.2 ⟨grpLo, hpre, by rw [ht1]; exact hmid⟩)
          ⟨rfl, ht2, rfl⟩ hrest hr (.inr ⟨t, by simp, rfl⟩)
        refine ⟨⟨rfl, by simp only; omega, h1⟩, by simp, ?_⟩
        intro b hb
        rcases List.mem_cons.1 hb with rfl | hb
        · exact hb0
        · exact h3 b hb
    · simp only [hc, if_false, List.nil_append]
      have hmid' : Follow grpLo t.2 (mid ++ [t]) := follow_append.2 ⟨a, hmid, ht1, ht2, rfl⟩
      have hsz : a - grpLo + (t.2 - t.1) = t.2 - grpLo := by omega
      have hacc' : t.2 - grpLo ≤ target ∨ ∃ u ∈ mid ++ [t], u.2 - u.1 = t.2 - grpLo := by
        rw [← hsz]
        by_cases h0 : a - grpLo > 0
        · left; by_contra hx; exact hc ⟨h0, by omega⟩
        · right; exact ⟨t, by simp, by omega⟩
      by_cases hr : rest = []
      · subst hr
        have hh : t.2 = hi := hrest
        simp only [if_true]
        refine ⟨⟨rfl, by simp only; omega, hh⟩, by simp, ?_⟩
        intro b hb
        obtain rfl := List.mem_singleton.1 hb
        exact ⟨pre, mid ++ [t], [], by simp [hfull], by simp, hmid', hacc'⟩
      · simp only [hr, if_false, hsz]
        exact ih pre (mid ++ [t]) lo grpLo t.2 hi (by simp [hfull]) hpre hmid' hrest hr hacc'

/-- C79: the batches of a mode cover its elements one after the other, consist of whole tiles, and exceed the target only if they are a
single tile. -/
theorem modeBatches_spec (tr : List Tile) (target : Nat) (h : Tiled tr) :
    (∀ b ∈ modeBatches tr target, Whole tr (max target 1) b) ∧
    ((elementsRange tr).1 < (elementsRange tr).2 →
      Follow (elementsRange tr).1 (elementsRange tr).2 (modeBatches tr target) ∧ modeBatches tr target ≠ []) ∧
    ((elementsRange tr).2 ≤ (elementsRange tr).1 → modeBatches tr target = []) := by
  unfold modeBatches
  by_cases he : (elementsRange tr).2 ≤ (elementsRange tr).1
  · simp only [he, if_true]
    exact ⟨by simp, fun h => absurd h (by omega), by simp⟩
  · simp only [he, if_false]
    have hne : tr ≠ [] := by rintro rfl; exact he (by simp [elementsRange])
    have := batchLoop_spec (max target 1) tr tr [] [] (elementsRange tr).1 (elementsRange tr).1 (elementsRange tr).1 (elementsRange tr).2
      (by simp) rfl rfl h hne (.inl (by simp))
    rw [Nat.sub_self] at this
    exact ⟨this.2.2, fun _ => ⟨this.1, this.2.1⟩, fun h => absurd h (by simpa using he)⟩

/-! ### No batch is closed too early -/

/-- Every batch is followed by a tile that does not fit any more. -/
def Greedy (tr : List Tile) (target : Nat) : List (Nat × Nat) → Prop
  | [] => True
  | [_] => True
  | b :: b' :: bs => (∃ t ∈ tr, t.1 = b'.1 ∧ target < b.2 - b.1 + (t.2 - t.1)) ∧ b.1 < b.2 ∧ Greedy tr target (b' :: bs)

theorem batchLoop_head (target : Nat) : ∀ (tr : List Tile) (lo acc : Nat), tr ≠ [] → ∃ b bs, batchLoop target tr lo acc = b :: bs ∧ b.1 = lo
  | [], _, _, h => absurd rfl h
  | t :: rest, lo, acc, _ => by
    rw [batchLoop]
    by_cases hc : acc > 0 ∧ acc + (t.2 - t.1) > target
    · simp only [hc, and_self, if_true]; exact ⟨_, _, rfl, rfl⟩
    · simp only [hc, if_false, List.nil_append]
      by_cases hr : rest = []
      · subst hr; exact ⟨_, _, rfl, rfl⟩
      · simp only [hr, if_false]; exact batchLoop_head target rest lo _ hr

theorem batchLoop_greedy (target : Nat) (full : List Tile) : ∀ (tr : List Tile) (grpLo a hi : Nat), (∀ t ∈ tr, t ∈ full) → grpLo ≤ a →
    Follow a hi tr → Greedy full target (batchLoop target tr grpLo (a - grpLo)) := by
  intro tr
  induction tr with
  | nil => intros; trivial
  | cons t rest ih =>
    intro grpLo a hi hmem hga ⟨ht1, ht2, hrest⟩
    rw [batchLoop]
    by_cases hc : a - grpLo > 0 ∧ a - grpLo + (t.2 - t.1) > target
    · simp only [hc, and_self, if_true, gt_iff_lt, List.cons_append, List.nil_append, Nat.zero_add]
      have hw : ∃ u ∈ full, u.1 = t.1 ∧ target < t.1 - grpLo + (u.2 - u.1) := ⟨t, hmem t (by simp), rfl, by rw [ht1]; omega⟩
      by_cases hr : rest = []
      · subst hr; exact ⟨hw, by simp only; omega, trivial⟩
      · simp only [hr, if_false]
        obtain ⟨b, bs, hb, hb1⟩ := batchLoop_head target rest t.1 (t.2 - t.1) hr
        have := ih t.1 t.2 hi (fun u hu => hmem u (by simp [hu])) ht2 hrest
        rw [hb] at this ⊢
        exact ⟨by rw [hb1]; exact hw, by simp only; omega, this⟩
    · simp only [hc, if_false, List.nil_append]
      by_cases hr : rest = []
      · subst hr; trivial
      · simp only [hr, if_false]
        rw [show a - grpLo + (t.2 - t.1) = t.2 - grpLo by omega]
        exact ih grpLo t.2 hi (fun u hu => hmem u (by simp [hu])) (by omega) hrest

/-- C79: a batch ends only where the next tile would exceed the target. -/
theorem modeBatches_greedy (tr : List Tile) (target : Nat) (h : Tiled tr) : Greedy tr (max target 1) (modeBatches tr target) := by
  unfold modeBatches
  by_cases he : (elementsRange tr).2 ≤ (elementsRange tr).1
  · simp only [he, if_true]; trivial
  · simp only [he, if_false]
    have := batchLoop_greedy (max target 1) tr tr (elementsRange tr).1 (elementsRange tr).1 (elementsRange tr).2 (fun _ h => h) (le_refl _) h
    rwa [Nat.sub_self] at this

/-! ### Cutting on tile boundaries -/

theorem findIdx_split {α : Type} (p : α → Bool) (pre post : List α) (h : ∀ a ∈ pre, p a = false) :
    (pre ++ post).findIdx p = pre.length + post.findIdx p := by
  induction pre with
  | nil => simp
  | cons a as ih =>
    rw [List.cons_append, List.findIdx_cons, h a (by simp), ih (fun b hb => h b (by simp [hb]))]
    simp only [cond_false, List.length_cons]; omega

theorem follow_bounds : ∀ {lo hi : Nat} {bs : List (Nat × Nat)}, Follow lo hi bs → ∀ b ∈ bs, lo ≤ b.1 ∧ b.2 ≤ hi
  | lo, hi, b :: bs, ⟨h1, h2, h3⟩, c, hc => by
    have := follow_le h3
    rcases List.mem_cons.1 hc with rfl | hc
    · omega
    · have := follow_bounds h3 c hc; omega

/-- The first tile that contains the element where tiles `mid` begin: empty tiles come before it. -/
theorem elementToTile_start : ∀ {lo hi : Nat} {mid : List Tile}, Follow lo hi mid → lo < hi →
    ∃ e t post, mid = e ++ t :: post ∧ t.1 = lo ∧ t.1 < t.2 ∧ (∀ u ∈ e, u.1 = lo ∧ u.2 = lo) ∧ elementToTile mid lo = e.length
  | lo, hi, [], h, hlt => absurd h (by simp only [Follow]; omega)
  | lo, hi, t :: ts, ⟨h1, h2, h3⟩, hlt => by
    by_cases ht : t.1 < t.2
    · exact ⟨[], t, ts, rfl, h1, ht, by simp, by
        have : (decide (t.1 ≤ lo ∧ lo < t.2)) = true := by simp; omega
        rw [elementToTile, List.findIdx_cons, this]; rfl⟩
    · obtain ⟨e, u, post, rfl, h4, h5, h6, h7⟩ := elementToTile_start h3 (by omega)
      refine ⟨t :: e, u, post, rfl, by omega, h5, ?_, ?_⟩
      · intro v hv
        rcases List.mem_cons.1 hv with rfl | hv
        · omega
        · have := h6 v hv; omega
      · have e1 : t.2 = lo := by omega
        rw [e1] at h7
        unfold elementToTile at h7 ⊢
        have : (decide (t.1 ≤ lo ∧ lo < t.2)) = false := by simp; omega
        rw [List.findIdx_cons, this, cond_false, h7, List.length_cons]

theorem elementToTile_at {lo hi m : Nat} {pre mid : List Tile} (h1 : Follow lo m pre) (h2 : Follow m hi mid) (hlt : m < hi) :
    ∃ e t post, mid = e ++ t :: post ∧ t.1 = m ∧ t.1 < t.2 ∧ (∀ u ∈ e, u.1 = m ∧ u.2 = m) ∧
    elementToTile (pre ++ mid) m = pre.length + e.length := by
  obtain ⟨e, t, post, h3, h4, h5, h6, h7⟩ := elementToTile_start h2 hlt
  refine ⟨e, t, post, h3, h4, h5, h6, ?_⟩
  unfold elementToTile at h7 ⊢
  rw [findIdx_split, h7]
  intro u hu
  have := follow_bounds h1 u hu
  simp; omega

/-- The elements of a list of tiles. -/
def elements (tr : List Tile) (e : Nat) : Prop := ∃ t ∈ tr, t.1 ≤ e ∧ e < t.2

theorem elements_follow : ∀ {lo hi : Nat} {tr : List Tile}, Follow lo hi tr → ∀ e, elements tr e ↔ lo ≤ e ∧ e < hi
  | lo, hi, [], h, e => by simp only [Follow] at h; simp [elements]; omega
  | lo, hi, t :: ts, ⟨h1, h2, h3⟩, e => by
    have := elements_follow h3 e
    have hle := follow_le h3
    simp only [elements] at this ⊢
    simp only [List.exists_mem_cons_iff, this]
    omega

/-- C79: every batch that is not empty can be cut out: the assertions of `slice_mode` hold, and the tiles kept have exactly the elements of the
batch. -/
theorem slice_batch (tr : List Tile) (target : Nat) (h : Tiled tr) (b : Nat × Nat) (hb : b ∈ modeBatches tr target) (hne : b.1 < b.2) :
    ∃ i j, sliceTiles tr b.1 b.2 = some (i, j) ∧ i < j ∧ j ≤ tr.length ∧ ∀ e, elements ((tr.take j).drop i) e ↔ b.1 ≤ e ∧ e < b.2 := by
  obtain ⟨⟨pre, mid, post, htr, hm0, hmid, -⟩⟩ := (modeBatches_spec tr target h).1 b hb
  have hf := h
  unfold Tiled at hf
  rw [htr] at hf
  obtain ⟨m2, hf12, hf3⟩ := follow_append.1 hf
  obtain ⟨m1, hf1, hf2⟩ := follow_append.1 hf12
  obtain ⟨rfl, rfl⟩ := follow_fst_inj hm0 hf2 hmid
  rw [← htr] at hf1 hf3
  have l1 := follow_le hf1
  have l3 := follow_le hf3
  obtain ⟨e, t, q, hmid', ht1, ht2, he, hidx⟩ := elementToTile_at hf1 hf2 hne
  have hidx' : elementToTile tr b.1 = pre.length + e.length := by
    rw [htr, hmid', List.append_assoc]
    have := elementToTile_at hf1 (follow_append.2 ⟨_, hf2, hf3⟩) (by omega)
    obtain ⟨e', t', q', g1, g2, g3, g4, g5⟩ := this
    rw [hmid'] at g1 g5
    rw [g5]
    -- both splits start with empty tiles and end at the first nonempty one
    have key : ∀ (e e' : List Tile) (t t' : Tile) (r r' : List Tile), e ++ t :: r = e' ++ t' :: r' → (∀ u ∈ e, u.1 = u.2) →
        (∀ u ∈ e', u.1 = u.2) → t.1 < t.2 → t'.1 < t'.2 → e.length = e'.length := by
      intro e
      induction e with
      | nil =>
        rintro (_ | ⟨u, us⟩) t t' r r' h _ h2 h3 h4
        · rfl
        · simp at h; have := h2 u (by simp); rw [← h.1] at this; omega
      | cons v vs ih =>
        rintro (_ | ⟨u, us⟩) t t' r r' h h1 h2 h3 h4
        · simp at h; have := h1 v (by simp); rw [h.1] at this; omega
        · simp only [List.cons_append, List.cons.injEq] at h
          simp only [List.length_cons]
          rw [ih us t t' r r' h.2 (fun w hw => h1 w (by simp [hw])) (fun w hw => h2 w (by simp [hw])) h3 h4]
    rw [key e e' t t' (q ++ post) q' (by rw [← g1]; simp) (fun u hu => (he u hu).1.trans (he u hu).2.symm)
      (fun u hu => (g4 u hu).1.trans (g4 u hu).2.symm) ht2 g3]
  have hget : tr[pre.length + e.length]? = some t := by
    rw [htr, hmid', show pre ++ (e ++ t :: q) ++ post = (pre ++ e) ++ (t :: (q ++ post)) by simp, ← List.length_append,
      List.getElem?_append_right (le_refl _)]
    simp
  unfold sliceTiles
  simp only [hidx', hget, Option.map_some, ht1]
  have hA : ¬ ¬ ((elementsRange tr).1 ≤ b.1 ∧ b.1 < b.2 ∧ b.2 ≤ (elementsRange tr).2) := by simp; omega
  rw [if_neg hA, if_neg (by simp)]
  -- the elements of the tiles from the first nonempty tile of the batch on
  have hq : Follow b.1 b.2 (t :: q) := by
    rw [hmid'] at hf2
    obtain ⟨m, ha, hb'⟩ := follow_append.1 hf2
    have := hb'.1
    rw [ht1] at this; rw [← this] at hb'; exact hb'
  have htrlen : tr.length = pre.length + (e.length + (q.length + 1)) + post.length := by rw [htr, hmid']; simp; omega
  have htr' : tr = (pre ++ e) ++ ((t :: q) ++ post) := by rw [htr, hmid']; simp
  by_cases hhi : b.2 ≥ (elementsRange tr).2
  · simp only [hhi, if_true, true_or, not_true, if_false]
    refine ⟨_, _, rfl, by omega, le_refl _, ?_⟩
    intro x
    rw [List.take_length]
    have : tr.drop (pre.length + e.length) = (t :: q) ++ post := by rw [htr', ← List.length_append, List.drop_left]
    rw [this]
    exact elements_follow (follow_append.2 ⟨_, hq, by have : (elementsRange tr).2 = b.2 := by omega
                                                      rw [this] at hf3; exact hf3⟩) x
  · obtain ⟨e2, t2, q2, g1, g2, g3, g4, g5⟩ := elementToTile_at hf12 hf3 (by omega)
    rw [← htr] at g5
    have hget2 : tr[elementToTile tr b.2]? = some t2 := by
      rw [g5, htr, g1, ← List.append_assoc, ← List.length_append, List.getElem?_append_right (le_refl _)]
      simp
    simp only [hhi, if_false, hget2, Option.map_some, g2, or_true, not_true]
    have hlenm : mid.length = e.length + (q.length + 1) := by rw [hmid']; simp
    have hpost : post.length = e2.length + (q2.length + 1) := by rw [g1]; simp
    refine ⟨_, _, rfl, by rw [g5]; simp; omega, by rw [g5, htrlen]; simp; omega, ?_⟩
    intro x
    have htk : (tr.take (elementToTile tr b.2)).drop (pre.length + e.length) = (t :: q) ++ e2 := by
      rw [g5]
      have e1 : tr = (pre ++ mid ++ e2) ++ (t2 :: q2) := by rw [htr, g1]; simp
      have e3 : tr.take ((pre ++ mid).length + e2.length) = pre ++ mid ++ e2 := by
        rw [e1, ← List.length_append, List.take_left]
      rw [e3, hmid']
      rw [show pre ++ (e ++ t :: q) ++ e2 = (pre ++ e) ++ ((t :: q) ++ e2) by simp, ← List.length_append, List.drop_left]
    rw [htk]
    have hq2 : Follow b.1 b.2 ((t :: q) ++ e2) := by
      refine follow_append.2 ⟨_, hq, ?_⟩
      clear hget2 g5 g1 hpost htk
      induction e2 with
      | nil => rfl
      | cons u us ih => exact ⟨(g4 u (by simp)).1, by have := g4 u (by simp); omega, by rw [(g4 u (by simp)).2]; exact ih (fun v hv => g4 v (by simp [hv]))⟩
    exact elements_follow hq2 x

/-! ### Examples -/

/-- Tiles of sizes 3, 2, 0, 9, 1, 1 from element 5 on. -/
def demoTiles : List Tile := [(5, 8), (8, 10), (10, 10), (10, 19), (19, 20), (20, 21)]

instance (tr : List Tile) : Decidable (Tiled tr) := inferInstanceAs (Decidable (Follow _ _ _))

example : Tiled demoTiles := by decide
example : modeBatches demoTiles 6 = [(5, 10), (10, 19), (19, 21)] := by decide
example : sliceTiles demoTiles 10 19 = some (3, 4) := by decide
example : sliceTiles demoTiles 6 19 = none := by decide
/-- A batch can be empty: an empty tile after one that exceeds the target. -/
example : modeBatches [(0, 9), (9, 9)] 4 = [(0, 9), (9, 9)] := by decide

end SeQuant.Batch
