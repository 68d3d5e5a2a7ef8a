import Verif.Conv.Model
import Verif.Space.SetProps
import Mathlib.Data.List.Nodup
import Mathlib.Data.List.Pairwise
import Mathlib.Data.List.Perm.Subperm
import Mathlib.Data.Fintype.Basic
import Mathlib.Tactic.Tauto

/-!
# What designated spaces, spin spaces and the predefined registries guarantee (C125)
-/

namespace SeQuant.Conv

open SeQuant.Spaces (Mask Attr)

theorem bind_ok {α β : Type} (x : Out α) (f : α → Out β) (b : β) : (x >>= f) = .ok b ↔ ∃ a, x = .ok a ∧ f a = .ok b := by
  cases x <;> simp [Bind.bind, Out.bind]

theorem pure_ok {α : Type} (a b : α) : (pure a : Out α) = .ok b ↔ a = b := by simp [pure]

/-! ### Designations -/

/-- Some registered space has this type. -/
def TypeThere (r : Reg) (t : Mask) : Prop := ∃ s ∈ r.spaces, s.attr.type = t

theorem hasType_iff (r : Reg) (t : Mask) : hasType r.spaces t = true ↔ TypeThere r t := by simp [hasType, TypeThere]

/-- **C125.** Designating a type succeeds exactly if some space has it; nothing else changes.  The type is then what is reported; the
null type is reported as missing unless it is asked for. -/
theorem designate (r : Reg) (w : Role) (t : Mask) :
    (TypeThere r t → ∃ r', setDefault r w t = .ok r' ∧ r'.spaces = r.spaces ∧ r'.mask = r.mask ∧
      (∀ v, v ≠ w → r'.desig v = r.desig v) ∧ (r'.desig w).perQn = (r.desig w).perQn ∧
      getDefault r' w true = .ok t ∧ getDefault r' w false = if t = 0#32 then .throws else .ok t) ∧
    (¬ TypeThere r t → setDefault r w t = .throws) := by
  constructor
  · intro h
    refine ⟨⟨r.spaces, r.mask, fun v => if v = w then ⟨t, (r.desig w).perQn⟩ else r.desig v⟩,
      by rw [setDefault, if_pos ((hasType_iff r t).2 h)], rfl, rfl, fun v hv => by simp [hv], by simp, ?_, ?_⟩
    · by_cases ht : t = 0#32 <;> simp [getDefault, ht]
    · by_cases ht : t = 0#32 <;> simp [getDefault, ht]
  · intro h
    rw [setDefault, if_neg (by rw [hasType_iff]; exact h)]

example : ∃ r', setDefault ⟨[⟨['i'], ⟨1#32, 3#32⟩, 10, true⟩], 3#32, fun _ => {}⟩ .hole 1#32 = .ok r' :=
  let ⟨r', h, _⟩ := (designate _ .hole 1#32).1 ⟨_, List.mem_cons_self, rfl⟩
  ⟨r', h⟩

/-! ### Designations for particular quantum numbers -/

theorem loop_checked (n : Nat) (l : List (Sp × (Mask × Mask))) :
    missingLoop true n [] l = if ∃ p ∈ l, p.1.attr = ⟨p.2.2, p.2.1⟩ then .aborts else .throws := by
  induction l with
  | nil => simp [missingLoop]
  | cons p l ih =>
    obtain ⟨s, e⟩ := p
    have hs : (s.attr = ⟨e.2, e.1⟩) ↔ (s.attr.type = e.2 ∧ s.attr.qns = e.1) := by
      obtain ⟨k, ⟨a, b⟩, c, d⟩ := s
      simp
    by_cases h : s.attr.type = e.2 ∧ s.attr.qns = e.1
    · simp [missingLoop, h.1, h.2, hs]
    · have : missingLoop true n [] ((s, e) :: l) = missingLoop true n [] l := by
        rw [missingLoop, if_neg h]
      rw [this, ih]
      simp only [List.mem_cons, exists_eq_or_imp, hs, h, false_or]

/-- An entry names a registered space. -/
def Registered (r : Reg) (e : Mask × Mask) : Prop := ∃ s ∈ r.spaces, s.attr = ⟨e.2, e.1⟩

instance (r : Reg) (e : Mask × Mask) : Decidable (Registered r e) := by unfold Registered; infer_instance

/-- **C125.** With assertions compiled in, no designation for particular quantum numbers is ever accepted: it is rejected by the assertion
if some entry names a registered space, and by an exception otherwise. -/
theorem perQn_checked (r : Reg) (w : Role) (m : List (Mask × Mask)) :
    ((∃ e ∈ m, Registered r e) → setPerQn true r w m = .aborts) ∧ ((¬ ∃ e ∈ m, Registered r e) → setPerQn true r w m = .throws) := by
  have key : (∃ p ∈ (r.spaces.flatMap fun s => m.map fun e => (s, e)), p.1.attr = ⟨p.2.2, p.2.1⟩) ↔ ∃ e ∈ m, Registered r e := by
    constructor
    · rintro ⟨p, hp, h⟩
      obtain ⟨s, hs, hp⟩ := List.mem_flatMap.1 hp
      obtain ⟨e, he, rfl⟩ := List.mem_map.1 hp
      exact ⟨e, he, s, hs, h⟩
    · rintro ⟨e, he, s, hs, h⟩
      exact ⟨(s, e), List.mem_flatMap.2 ⟨s, hs, List.mem_map.2 ⟨e, he, rfl⟩⟩, h⟩
  have hm : missingAny true r.spaces m = if ∃ e ∈ m, Registered r e then .aborts else .throws := by
    rw [missingAny, loop_checked]
    by_cases h : ∃ e ∈ m, Registered r e
    · rw [if_pos h, if_pos (key.2 h)]
    · rw [if_neg h, if_neg (fun x => h (key.1 x))]
  constructor
  · intro h
    simp only [setPerQn, hm, if_pos h]
    rfl
  · intro h
    simp only [setPerQn, hm, if_neg h]
    rfl

example : setPerQn true ⟨[⟨['i', '↑'], ⟨1#32, 1#32⟩, 10, true⟩], 3#32, fun _ => {}⟩ .vac [(1#32, 1#32)] = .aborts :=
  (perQn_checked _ .vac _).1 ⟨_, List.mem_cons_self, _, List.mem_cons_self, rfl⟩

theorem loop_released (m : List (Mask × Mask)) (hm : (m.map Prod.fst).Nodup) (l : List (Sp × (Mask × Mask))) (hl : ∀ p ∈ l, p.2 ∈ m)
    (found : List Mask) (hf : found.Nodup) (hs : ∀ q ∈ found, q ∈ m.map Prod.fst) (hn : found = [] ∨ found.length ≠ m.length) :
    missingLoop false m.length found l = .ok () ↔
      m ≠ [] ∧ ∀ e ∈ m, e.1 ∈ found ∨ ∃ p ∈ l, p.2 = e ∧ p.1.attr = ⟨e.2, e.1⟩ := by
  induction l generalizing found with
  | nil =>
    simp only [missingLoop, List.not_mem_nil, false_and, exists_false, or_false]
    constructor
    · intro h; cases h
    · rintro ⟨hne, h⟩
      exfalso
      have hsub : m.map Prod.fst ⊆ found := fun q hq => by
        obtain ⟨e, he, rfl⟩ := List.mem_map.1 hq
        exact h e he
      have h1 := (hm.subperm hsub).length_le
      have h2 := (hf.subperm hs).length_le
      rw [List.length_map] at h1 h2
      rcases hn with rfl | hn
      · simp at h1; exact hne h1
      · omega
  | cons p l ih =>
    obtain ⟨s, e⟩ := p
    have he : e ∈ m := hl (s, e) (by simp)
    have hl' : ∀ p ∈ l, p.2 ∈ m := fun p hp => hl p (List.mem_cons_of_mem _ hp)
    have hattr : ∀ e : Mask × Mask, (s.attr = ⟨e.2, e.1⟩) ↔ (s.attr.type = e.2 ∧ s.attr.qns = e.1) := by
      obtain ⟨k, ⟨a, b⟩, c, d⟩ := s
      simp
    by_cases h : s.attr.type = e.2 ∧ s.attr.qns = e.1
    · set found' := if e.1 ∈ found then found else e.1 :: found with hfd
      have hf' : found'.Nodup := by
        rw [hfd]; split_ifs with hc
        · exact hf
        · exact List.nodup_cons.2 ⟨hc, hf⟩
      have hs' : ∀ q ∈ found', q ∈ m.map Prod.fst := by
        rw [hfd]; split_ifs with hc
        · exact hs
        · intro q hq
          rcases List.mem_cons.1 hq with rfl | hq
          · exact List.mem_map.2 ⟨e, he, rfl⟩
          · exact hs q hq
      have hmem : ∀ q, q ∈ found' ↔ q = e.1 ∨ q ∈ found := by
        intro q
        rw [hfd]; split_ifs with hc
        · constructor
          · exact Or.inr
          · rintro (rfl | hq)
            · exact hc
            · exact hq
        · simp
      have hstep : missingLoop false m.length found ((s, e) :: l) =
          if found'.length = m.length then .ok () else missingLoop false m.length found' l := by
        rw [missingLoop, if_pos h, if_neg (by simp)]
      rw [hstep]
      by_cases hlen : found'.length = m.length
      · rw [if_pos hlen]
        refine ⟨fun _ => ⟨List.ne_nil_of_mem he, fun e' he' => ?_⟩, fun _ => rfl⟩
        have hperm : found'.Perm (m.map Prod.fst) :=
          (hf'.subperm hs').perm_of_length_le (by rw [List.length_map, hlen])
        have : e'.1 ∈ found' := hperm.mem_iff.2 (List.mem_map.2 ⟨e', he', rfl⟩)
        rcases (hmem _).1 this with hq | hq
        · have hee : e' = e := List.inj_on_of_nodup_map hm he' he hq
          exact .inr ⟨(s, e), by simp, hee.symm, by rw [hee]; exact (hattr e).2 h⟩
        · exact .inl hq
      · rw [if_neg hlen, ih hl' found' hf' hs' (.inr hlen)]
        refine and_congr_right fun _ => forall₂_congr fun e' he' => ?_
        rw [hmem]
        constructor
        · rintro ((hq | hq) | ⟨p, hp, hpe⟩)
          · have hee : e' = e := List.inj_on_of_nodup_map hm he' he hq
            exact .inr ⟨(s, e), by simp, hee.symm, by rw [hee]; exact (hattr e).2 h⟩
          · exact .inl hq
          · exact .inr ⟨p, List.mem_cons_of_mem _ hp, hpe⟩
        · rintro (hq | ⟨p, hp, hpe, hpa⟩)
          · exact .inl (.inr hq)
          · rcases List.mem_cons.1 hp with rfl | hp
            · exact .inl (.inl (by rw [← hpe]))
            · exact .inr ⟨p, hp, hpe, hpa⟩
    · have hstep : missingLoop false m.length found ((s, e) :: l) = missingLoop false m.length found l := by
        rw [missingLoop, if_neg h]
      rw [hstep, ih hl' found hf hs hn]
      refine and_congr_right fun _ => forall₂_congr fun e' he' => or_congr_right ?_
      constructor
      · rintro ⟨p, hp, hpe⟩
        exact ⟨p, List.mem_cons_of_mem _ hp, hpe⟩
      · rintro ⟨p, hp, hpe, hpa⟩
        rcases List.mem_cons.1 hp with rfl | hp
        · exact absurd ((hattr e').1 hpa) (by rw [← hpe]; exact h)
        · exact ⟨p, hp, hpe, hpa⟩

/-- **C125.** Without assertions, designations for particular quantum numbers are accepted exactly if there is at least one and each names a
registered space; those are the spaces then reported. -/
theorem perQn_released (r : Reg) (w : Role) (m : List (Mask × Mask)) (hm : (m.map Prod.fst).Nodup) :
    ((setPerQn false r w m).isOk = true ↔ m ≠ [] ∧ ∀ e ∈ m, Registered r e) ∧
    ∀ r', setPerQn false r w m = .ok r' → ∀ e ∈ m, ∃ s ∈ r.spaces, getQn r' w e.1 = .ok s ∧ s.attr = ⟨e.2, e.1⟩ := by
  have key : missingAny false r.spaces m = .ok () ↔ m ≠ [] ∧ ∀ e ∈ m, Registered r e := by
    rw [missingAny, loop_released m hm _ _ [] List.nodup_nil (by simp) (.inl rfl)]
    · refine and_congr_right fun _ => forall₂_congr fun e he => ?_
      simp only [List.not_mem_nil, false_or]
      constructor
      · rintro ⟨p, hp, hpe, hpa⟩
        obtain ⟨s, hs, hp⟩ := List.mem_flatMap.1 hp
        obtain ⟨e', _, rfl⟩ := List.mem_map.1 hp
        exact ⟨s, hs, hpa⟩
      · rintro ⟨s, hs, hsa⟩
        exact ⟨(s, e), List.mem_flatMap.2 ⟨s, hs, List.mem_map.2 ⟨e, he, rfl⟩⟩, rfl, hsa⟩
    · intro p hp
      obtain ⟨s, hs, hp⟩ := List.mem_flatMap.1 hp
      obtain ⟨e', he', rfl⟩ := List.mem_map.1 hp
      exact he'
  constructor
  · rw [← key]
    rcases hx : missingAny false r.spaces m with u | _ | _
    · simp [setPerQn, hx, Bind.bind, Out.bind, pure, Out.isOk]
    · simp [setPerQn, hx, Bind.bind, Out.bind, Out.isOk]
    · simp [setPerQn, hx, Bind.bind, Out.bind, Out.isOk]
  · intro r' h e he
    rw [setPerQn, bind_ok] at h
    obtain ⟨u, hu, h⟩ := h
    obtain ⟨s, hs, hsa⟩ := (key.1 hu).2 e he
    rw [pure_ok] at h
    subst h
    have hfind : (m.find? fun x => decide (x.1 = e.1)) = some e := by
      rcases hx : m.find? fun x => decide (x.1 = e.1) with _ | x
      · have := List.find?_eq_none.1 hx e he
        simp at this
      · have h1 := List.mem_of_find?_eq_some hx
        have h2 := List.find?_some hx
        simp only [decide_eq_true_eq] at h2
        rw [hx, List.inj_on_of_nodup_map hm h1 he h2]
    rcases hy : findAttr r.spaces ⟨e.2, e.1⟩ with _ | t
    · have := List.find?_eq_none.1 hy s hs
      simp [hsa] at this
    · refine ⟨t, List.mem_of_find?_eq_some hy, ?_, by simpa using List.find?_some hy⟩
      simp only [getQn, if_true, hfind, retrieve, hy]

example : (setPerQn false ⟨[⟨['i', '↑'], ⟨1#32, 1#32⟩, 10, true⟩], 3#32, fun _ => {}⟩ .vac [(1#32, 1#32)]).isOk = true :=
  (perQn_released _ .vac _ (by simp)).1.2 ⟨by simp, fun e he => by simp at he; subst he; exact ⟨_, List.mem_cons_self, rfl⟩⟩

/-- **C125.** Designations for particular quantum numbers cannot be withdrawn: an empty map is rejected. -/
theorem perQn_empty (checks : Bool) (r : Reg) (w : Role) : setPerQn checks r w [] = .throws := by
  have : (r.spaces.flatMap fun s => ([] : List (Mask × Mask)).map fun e => (s, e)) = [] := by simp
  simp only [setPerQn, missingAny, this]
  rfl

/-! ### Spin spaces -/

/-- Successive `add`s. -/
def addAll (l : List Sp) : List Sp → Out (List Sp)
  | [] => .ok l
  | s :: ns => do addAll (← addSp l s) ns

/-- Neither the key nor the attributes are used by the other. -/
def Apart (s t : Sp) : Prop := s.key ≠ t.key ∧ s.attr ≠ t.attr

theorem addSp_ok (l l' : List Sp) (s : Sp) : addSp l s = .ok l' ↔ (∀ t ∈ l, Apart t s) ∧ l' = l ++ [s] := by
  unfold addSp Apart
  by_cases h1 : (l.any fun t => decide (t.key = s.key)) = true
  · rw [if_pos h1]
    simp only [List.any_eq_true, decide_eq_true_eq] at h1
    obtain ⟨t, ht, hk⟩ := h1
    constructor
    · intro h; cases h
    · rintro ⟨h, _⟩; exact absurd hk (h t ht).1
  · rw [if_neg h1]
    simp only [List.any_eq_true, decide_eq_true_eq, not_exists, not_and] at h1
    by_cases h2 : (l.any fun t => decide (s.attr = t.attr)) = true
    · rw [if_pos h2]
      simp only [List.any_eq_true, decide_eq_true_eq] at h2
      obtain ⟨t, ht, hk⟩ := h2
      constructor
      · intro h; cases h
      · rintro ⟨h, _⟩; exact absurd hk.symm (h t ht).2
    · rw [if_neg h2]
      simp only [List.any_eq_true, decide_eq_true_eq, not_exists, not_and] at h2
      constructor
      · intro h
        injection h with h
        exact ⟨fun t ht => ⟨h1 t ht, fun hc => h2 t ht hc.symm⟩, h.symm⟩
      · rintro ⟨_, rfl⟩; rfl

theorem addAll_ok (l l' ns : List Sp) :
    addAll l ns = .ok l' ↔ (∀ n ∈ ns, ∀ t ∈ l, Apart t n) ∧ ns.Pairwise Apart ∧ l' = l ++ ns := by
  induction ns generalizing l with
  | nil => simp [addAll, eq_comm]
  | cons n ns ih =>
    rw [addAll, bind_ok]
    constructor
    · rintro ⟨a, ha, h⟩
      obtain ⟨h1, rfl⟩ := (addSp_ok _ _ _).1 ha
      obtain ⟨h2, h3, h4⟩ := (ih _).1 h
      refine ⟨fun m hm t ht => ?_, List.pairwise_cons.2 ⟨fun m hm => h2 m hm n (by simp), h3⟩, by simpa using h4⟩
      rcases List.mem_cons.1 hm with rfl | hm
      · exact h1 t ht
      · exact h2 m hm t (by simp [ht])
    · rintro ⟨h1, h2, h3⟩
      rw [List.pairwise_cons] at h2
      refine ⟨_, (addSp_ok _ _ _).2 ⟨fun t ht => h1 n (by simp) t ht, rfl⟩, (ih _).2 ⟨fun m hm t ht => ?_, h2.2, by simpa using h3⟩⟩
      rcases List.mem_append.1 ht with ht | ht
      · exact h1 m (List.mem_cons_of_mem _ hm) t ht
      · rw [List.mem_singleton] at ht
        subst ht
        exact h2.1 m hm

/-- The spaces other than the null space. -/
def named (l : List Sp) : List Sp := l.filter fun s => decide (s.key ≠ [])

def news (l : List Sp) : List Sp := (named l).flatMap fun s => [up s, down s]

theorem spinLoop_ok (acc l l' : List Sp) :
    spinLoop acc l = .ok l' ↔ (∀ s ∈ named l, annotable s.key = true) ∧ addAll acc (news l) = .ok l' := by
  induction l generalizing acc with
  | nil => simp [spinLoop, named, news, addAll]
  | cons s l ih =>
    by_cases hk : s.key = []
    · have h1 : named (s :: l) = named l := by simp [named, hk]
      have h2 : news (s :: l) = news l := by simp [news, h1]
      have h3 : spinLoop acc (s :: l) = spinLoop acc l := by rw [spinLoop, if_pos hk]
      rw [h1, h2, h3, ih]
    · have h1 : named (s :: l) = s :: named l := by simp [named, hk]
      have h2 : news (s :: l) = up s :: down s :: news l := by simp [news, h1]
      rw [h1, h2, spinLoop, if_neg hk]
      by_cases ha : annotable s.key = true
      · rw [if_pos ha, bind_ok, addAll, bind_ok]
        constructor
        · rintro ⟨a, h3, h4⟩
          rw [bind_ok] at h4
          obtain ⟨b, h4, h5⟩ := h4
          obtain ⟨h6, h7⟩ := (ih b).1 h5
          refine ⟨fun t ht => ?_, a, h3, ?_⟩
          · rcases List.mem_cons.1 ht with rfl | ht
            · exact ha
            · exact h6 t ht
          · rw [addAll, bind_ok]
            exact ⟨b, h4, h7⟩
        · rintro ⟨h6, a, h3, h4⟩
          rw [addAll, bind_ok] at h4
          obtain ⟨b, h4, h5⟩ := h4
          refine ⟨a, h3, ?_⟩
          rw [bind_ok]
          exact ⟨b, h4, (ih b).2 ⟨fun t ht => h6 t (List.mem_cons_of_mem _ ht), h5⟩⟩
      · rw [if_neg ha]
        constructor
        · intro h; cases h
        · rintro ⟨h, _⟩; exact absurd (h s (by simp)) ha

theorem setDefault_ok (r r' : Reg) (w : Role) (t : Mask) :
    setDefault r w t = .ok r' ↔
      TypeThere r t ∧ r' = ⟨r.spaces, r.mask, fun v => if v = w then ⟨t, (r.desig w).perQn⟩ else r.desig v⟩ := by
  unfold setDefault
  by_cases h : hasType r.spaces t = true
  · rw [if_pos h]
    have h' := (hasType_iff r t).1 h
    constructor
    · intro e; injection e with e; exact ⟨h', e.symm⟩
    · rintro ⟨_, rfl⟩; rfl
  · rw [if_neg h]
    constructor
    · intro e; cases e
    · rintro ⟨h', _⟩; exact absurd ((hasType_iff r t).2 h') h

theorem getDefault_true (r : Reg) (w : Role) : getDefault r w true = .ok (r.desig w).dflt := by
  by_cases h : (r.desig w).dflt = 0#32 <;> simp [getDefault, h]

theorem copyDefault_ok (r0 r r' : Reg) (w : Role) (hd : r.desig = r0.desig) :
    copyDefault r0 w r = .ok r' ↔ TypeThere r (r0.desig w).dflt ∧ r' = r := by
  have he : (⟨r.spaces, r.mask, fun v => if v = w then ⟨(r0.desig w).dflt, (r.desig w).perQn⟩ else r.desig v⟩ : Reg) = r := by
    obtain ⟨a, b, c⟩ := r
    simp only at hd
    subst hd
    congr 1
    funext v
    by_cases hv : v = w
    · subst hv; simp
    · simp [hv]
  rw [copyDefault, bind_ok]
  constructor
  · rintro ⟨t, ht, h⟩
    rw [getDefault_true] at ht
    injection ht with ht
    subst ht
    obtain ⟨h1, h2⟩ := (setDefault_ok _ _ _ _).1 h
    exact ⟨h1, h2.trans he⟩
  · rintro ⟨h1, rfl⟩
    exact ⟨_, getDefault_true _ _, (setDefault_ok _ _ _ _).2 ⟨h1, he.symm⟩⟩

theorem annotable_iff (k : Key) : annotable k = true ↔ '_' ∉ k ∧ k.getLast? ≠ some '↑' ∧ k.getLast? ≠ some '↓' := by
  simp [annotable, and_assoc]

/-- When spin spaces can be added: keys can be annotated, no two named spaces share a type, no spin space with such a type is
there yet, and the designated types exist. -/
structure SpinReady (r : Reg) : Prop where
  keys : ∀ s ∈ r.spaces, s.key ≠ [] → '_' ∉ s.key ∧ s.key.getLast? ≠ some '↑' ∧ s.key.getLast? ≠ some '↓'
  types : (named r.spaces).Pairwise fun s t => s.attr.type ≠ t.attr.type
  fresh : ∀ s ∈ r.spaces, s.key ≠ [] → ∀ t ∈ r.spaces, t.attr.type = s.attr.type → t.attr.qns ≠ alpha ∧ t.attr.qns ≠ beta
  there : ∀ w, TypeThere r (r.desig w).dflt

theorem mem_named (l : List Sp) (s : Sp) : s ∈ named l ↔ s ∈ l ∧ s.key ≠ [] := by simp [named]

theorem mem_news (l : List Sp) (s : Sp) : s ∈ news l ↔ ∃ t ∈ l, t.key ≠ [] ∧ (s = up t ∨ s = down t) := by
  simp only [news, List.mem_flatMap, mem_named, List.mem_cons, List.not_mem_nil, or_false]
  constructor
  · rintro ⟨t, ⟨h1, h2⟩, h3⟩; exact ⟨t, h1, h2, h3⟩
  · rintro ⟨t, h1, h2, h3⟩; exact ⟨t, ⟨h1, h2⟩, h3⟩

theorem attr_ext (a b : Attr) : a = b ↔ a.type = b.type ∧ a.qns = b.qns := by
  obtain ⟨x, y⟩ := a
  obtain ⟨z, w⟩ := b
  simp

theorem news_apart (r : Reg) (hu : r.spaces.Pairwise fun s t => s.key ≠ t.key) (hk : ∀ s ∈ r.spaces, s.key ≠ [] → annotable s.key = true) :
    ((∀ n ∈ news r.spaces, ∀ t ∈ r.spaces, Apart t n) ∧ (news r.spaces).Pairwise Apart) ↔
      (named r.spaces).Pairwise (fun s t => s.attr.type ≠ t.attr.type) ∧
      ∀ s ∈ r.spaces, s.key ≠ [] → ∀ t ∈ r.spaces, t.attr.type = s.attr.type → t.attr.qns ≠ alpha ∧ t.attr.qns ≠ beta := by
  have hlast : ∀ t ∈ r.spaces, ∀ s : Sp, t.key ≠ s.key ++ ['↑'] ∧ t.key ≠ s.key ++ ['↓'] := by
    intro t ht s
    constructor
    · intro h
      have := hk t ht (by rw [h]; simp)
      rw [h] at this
      simp [annotable] at this
    · intro h
      have := hk t ht (by rw [h]; simp)
      rw [h] at this
      simp [annotable] at this
  have hab : alpha ≠ beta := by decide
  have hkeys : (named r.spaces).Pairwise fun s t => s.key ≠ t.key := hu.sublist List.filter_sublist
  constructor
  · rintro ⟨h1, h2⟩
    constructor
    · rw [news, List.pairwise_flatMap] at h2
      refine h2.2.imp fun {s t} h hst => ?_
      have := (h (up s) (by simp) (up t) (by simp)).2
      exact this (by simp [up, hst])
    · intro s hs hsk t ht htt
      have hup := (h1 (up s) ((mem_news _ _).2 ⟨s, hs, hsk, .inl rfl⟩) t ht).2
      have hdn := (h1 (down s) ((mem_news _ _).2 ⟨s, hs, hsk, .inr rfl⟩) t ht).2
      exact ⟨fun hq => hup ((attr_ext _ _).2 ⟨htt, hq⟩), fun hq => hdn ((attr_ext _ _).2 ⟨htt, hq⟩)⟩
  · rintro ⟨h1, h2⟩
    constructor
    · intro n hn t ht
      obtain ⟨s, hs, hsk, rfl | rfl⟩ := (mem_news _ _).1 hn
      · refine ⟨(hlast t ht s).1, fun h => ?_⟩
        obtain ⟨h3, h4⟩ := (attr_ext _ _).1 h
        exact (h2 s hs hsk t ht h3).1 h4
      · refine ⟨(hlast t ht s).2, fun h => ?_⟩
        obtain ⟨h3, h4⟩ := (attr_ext _ _).1 h
        exact (h2 s hs hsk t ht h3).2 h4
    · rw [news, List.pairwise_flatMap]
      constructor
      · intro s hs
        refine List.pairwise_pair.2 ⟨?_, ?_⟩
        · simp [up, down]
        · simp [up, down, alpha, beta]
      · refine (h1.and hkeys).imp fun {s t} h => ?_
        obtain ⟨ht, hk⟩ := h
        intro a ha b hb
        simp only [List.mem_cons, List.not_mem_nil, or_false] at ha hb
        have hty : a.attr.type = s.attr.type := by rcases ha with rfl | rfl <;> rfl
        have hty' : b.attr.type = t.attr.type := by rcases hb with rfl | rfl <;> rfl
        refine ⟨?_, fun he => ht (by rw [← hty, ← hty', he])⟩
        rcases ha with rfl | rfl <;> rcases hb with rfl | rfl <;> simp [up, down, hk]

/-- **C125.** Adding spin spaces succeeds exactly in the stated case, and then adds to every named space a spin-up and a spin-down space of the
same type and size, and nothing else; all designations and the mask are kept. -/
theorem spin_iff (r : Reg) (hu : r.spaces.Pairwise fun s t => s.key ≠ t.key) :
    (∀ r', addFermiSpin r = .ok r' ↔ SpinReady r ∧ r' = ⟨r.spaces ++ news r.spaces, r.mask, r.desig⟩) := by
  intro r'
  have hthere : ∀ (w : Role) (m : List Sp), TypeThere r (r.desig w).dflt → TypeThere ⟨r.spaces ++ m, r.mask, r.desig⟩ (r.desig w).dflt := by
    rintro w m ⟨s, hs, h⟩
    exact ⟨s, List.mem_append_left _ hs, h⟩
  have hback : ∀ (t : Mask), TypeThere ⟨r.spaces ++ news r.spaces, r.mask, r.desig⟩ t → TypeThere r t := by
    rintro t ⟨s, hs, h⟩
    rcases List.mem_append.1 hs with hs | hs
    · exact ⟨s, hs, h⟩
    · obtain ⟨u, hu, _, rfl | rfl⟩ := (mem_news _ _).1 hs
      · exact ⟨u, hu, h⟩
      · exact ⟨u, hu, h⟩
  rw [addFermiSpin, bind_ok]
  constructor
  · rintro ⟨l, hl, h⟩
    obtain ⟨h1, h2⟩ := (spinLoop_ok _ _ _).1 hl
    obtain ⟨h3, h4, rfl⟩ := (addAll_ok _ _ _).1 h2
    have hk : ∀ s ∈ r.spaces, s.key ≠ [] → annotable s.key = true := fun s hs hsk => h1 s ((mem_named _ _).2 ⟨hs, hsk⟩)
    obtain ⟨h5, h6⟩ := (news_apart r hu hk).1 ⟨h3, h4⟩
    simp only [bind_ok] at h
    obtain ⟨r1, hr1, r2, hr2, r3, hr3, r4, hr4, h⟩ := h
    obtain ⟨a1, rfl⟩ := (copyDefault_ok _ _ _ _ (by rfl)).1 hr1
    obtain ⟨a2, rfl⟩ := (copyDefault_ok _ _ _ _ (by rfl)).1 hr2
    obtain ⟨a3, rfl⟩ := (copyDefault_ok _ _ _ _ (by rfl)).1 hr3
    obtain ⟨a4, rfl⟩ := (copyDefault_ok _ _ _ _ (by rfl)).1 hr4
    obtain ⟨a5, rfl⟩ := (copyDefault_ok _ _ _ _ (by rfl)).1 h
    refine ⟨⟨fun s hs hsk => (annotable_iff _).1 (hk s hs hsk), h5, h6, fun w => ?_⟩, rfl⟩
    cases w
    · exact hback _ a2
    · exact hback _ a1
    · exact hback _ a5
    · exact hback _ a4
    · exact hback _ a3
  · rintro ⟨⟨hk', ht, hf, hd⟩, rfl⟩
    have hk : ∀ s ∈ r.spaces, s.key ≠ [] → annotable s.key = true := fun s hs hsk => (annotable_iff _).2 (hk' s hs hsk)
    obtain ⟨h3, h4⟩ := (news_apart r hu hk).2 ⟨ht, hf⟩
    refine ⟨_, (spinLoop_ok _ _ _).2 ⟨fun s hs => hk s ((mem_named _ _).1 hs).1 ((mem_named _ _).1 hs).2,
      (addAll_ok _ _ _).2 ⟨h3, h4, rfl⟩⟩, ?_⟩
    have key : ∀ w, copyDefault r w ⟨r.spaces ++ news r.spaces, r.mask, r.desig⟩ = .ok ⟨r.spaces ++ news r.spaces, r.mask, r.desig⟩ :=
      fun w => (copyDefault_ok _ _ _ _ (by rfl)).2 ⟨hthere w _ (hd w), rfl⟩
    simp only [bind_ok]
    exact ⟨_, key _, _, key _, _, key _, _, key _, key _⟩

/-- A registry with one named space. -/
def one (q : Mask) (c : Bool) : Reg := ⟨[⟨[], Attr.null, 10, true⟩, ⟨['i'], ⟨1#32, q⟩, 7, c⟩], 0#32, fun _ => {}⟩

theorem one_ready (c : Bool) : SpinReady (one anySpin c) := by
  refine ⟨?_, ?_, ?_, fun w => ⟨⟨[], Attr.null, 10, true⟩, by simp [one], rfl⟩⟩
  · intro s hs hk
    simp only [one, List.mem_cons, List.not_mem_nil, or_false] at hs
    rcases hs with rfl | rfl
    · exact absurd rfl hk
    · exact (annotable_iff ['i']).1 (by decide)
  · simp [one, named]
  · intro s hs hk t ht _
    simp only [one, List.mem_cons, List.not_mem_nil, or_false] at ht
    rcases ht with rfl | rfl <;> simp [Attr.null, alpha, beta, anySpin]

example : ∃ r', addFermiSpin (one anySpin true) = .ok r' ∧ r'.spaces.length = 4 :=
  ⟨_, (spin_iff _ (by simp [one]) _).2 ⟨one_ready true, rfl⟩, by simp [one, news, named]⟩

/-- **C125.** After spin spaces have been added, each named space is found with both spins, under its annotated key. -/
theorem spin_retrieve (r r' : Reg) (hu : r.spaces.Pairwise fun s t => s.key ≠ t.key) (h : addFermiSpin r = .ok r')
    (s : Sp) (hs : s ∈ r.spaces) (hk : s.key ≠ []) :
    (∃ t, retrieve r'.spaces ⟨s.attr.type, alpha⟩ = .ok t ∧ t.key = s.key ++ ['↑'] ∧ t.size = s.size) ∧
    (∃ t, retrieve r'.spaces ⟨s.attr.type, beta⟩ = .ok t ∧ t.key = s.key ++ ['↓'] ∧ t.size = s.size) := by
  obtain ⟨hr, rfl⟩ := (spin_iff r hu r').1 h
  obtain ⟨h3, h4⟩ := (news_apart r hu fun s hs hsk => (annotable_iff _).2 (hr.keys s hs hsk)).2 ⟨hr.types, hr.fresh⟩
  have huniq : ∀ n ∈ news r.spaces, ∀ t ∈ r.spaces ++ news r.spaces, t.attr = n.attr → t = n := by
    intro n hn t ht hat
    rcases List.mem_append.1 ht with ht | ht
    · exact absurd hat (h3 n hn t ht).2
    · by_contra hne
      have : Std.Symm Apart := ⟨fun x y hxy => ⟨hxy.1.symm, hxy.2.symm⟩⟩
      exact (h4.forall ht hn hne).2 hat
  have hfind : ∀ n ∈ news r.spaces, retrieve (r.spaces ++ news r.spaces) n.attr = .ok n := by
    intro n hn
    rcases hx : findAttr (r.spaces ++ news r.spaces) n.attr with _ | t
    · have := List.find?_eq_none.1 hx n (List.mem_append_right _ hn)
      simp at this
    · have h1 := List.mem_of_find?_eq_some hx
      have h2 := List.find?_some hx
      simp only [decide_eq_true_eq] at h2
      rw [retrieve, hx, huniq n hn t h1 h2]
  exact ⟨⟨up s, hfind (up s) ((mem_news _ _).2 ⟨s, hs, hk, .inl rfl⟩), rfl, rfl⟩,
    ⟨down s, hfind (down s) ((mem_news _ _).2 ⟨s, hs, hk, .inr rfl⟩), rfl, rfl⟩⟩

example : ∃ r', addFermiSpin (one anySpin true) = .ok r' ∧ ∃ t, retrieve r'.spaces ⟨1#32, beta⟩ = .ok t ∧ t.key = ['i', '↓'] := by
  have h := (spin_iff (one anySpin true) (by simp [one]) _).2 ⟨one_ready true, rfl⟩
  obtain ⟨_, t, h1, h2, _⟩ := spin_retrieve _ _ (by simp [one]) h ⟨['i'], ⟨1#32, anySpin⟩, 7, true⟩ (by simp [one]) (by simp)
  exact ⟨_, h, t, h1, h2⟩

/-- **C125.** Spin spaces cannot be added twice. -/
theorem spin_twice (r r' : Reg) (hu : r.spaces.Pairwise fun s t => s.key ≠ t.key) (hn : ∃ s ∈ r.spaces, s.key ≠ [])
    (h : addFermiSpin r = .ok r') : ∀ r'', addFermiSpin r' ≠ .ok r'' := by
  intro r'' h'
  obtain ⟨hr, rfl⟩ := (spin_iff r hu r').1 h
  obtain ⟨s, hs, hk⟩ := hn
  rw [addFermiSpin, bind_ok] at h'
  obtain ⟨l, hl, _⟩ := h'
  have := ((spinLoop_ok _ _ _).1 hl).1 (up s)
    ((mem_named _ _).2 ⟨List.mem_append_right _ ((mem_news _ _).2 ⟨s, hs, hk, .inl rfl⟩), by simp [up]⟩)
  simp [up, annotable] at this

/-- **C125.** Two named spaces of one type (as after adding density-fitting or atomic-orbital spaces) are an error. -/
theorem spin_shared_type (r : Reg) (s t : Sp) (hu : r.spaces.Pairwise fun s t => s.key ≠ t.key) (hs : s ∈ r.spaces) (ht : t ∈ r.spaces)
    (hsk : s.key ≠ []) (htk : t.key ≠ []) (hst : s ≠ t) (h : s.attr.type = t.attr.type) : ∀ r', addFermiSpin r ≠ .ok r' := by
  intro r' h'
  obtain ⟨hr, _⟩ := (spin_iff r hu r').1 h'
  have : Std.Symm fun x y : Sp => x.attr.type ≠ y.attr.type := ⟨fun x y hxy => hxy.symm⟩
  exact hr.types.forall ((mem_named _ _).2 ⟨hs, hsk⟩) ((mem_named _ _).2 ⟨ht, htk⟩) hst h

/-- **C125.** The field is lost: the spin spaces of a real space are complex. -/
theorem spin_field (r r' : Reg) (hu : r.spaces.Pairwise fun s t => s.key ≠ t.key) (h : addFermiSpin r = .ok r') :
    ∀ s ∈ r'.spaces, s ∈ r.spaces ∨ s.complex = true := by
  obtain ⟨hr, rfl⟩ := (spin_iff r hu r').1 h
  intro s hs
  rcases List.mem_append.1 hs with hs | hs
  · exact .inl hs
  · obtain ⟨u, _, _, rfl | rfl⟩ := (mem_news _ _).1 hs
    · exact .inr rfl
    · exact .inr rfl

example : ∃ r', addFermiSpin (one anySpin false) = .ok r' ∧ ∃ t ∈ r'.spaces, t.key = ['i', '↑'] ∧ t.complex = true :=
  ⟨_, (spin_iff _ (by simp [one]) _).2 ⟨one_ready false, rfl⟩, up ⟨['i'], ⟨1#32, anySpin⟩, 7, false⟩,
    by simp [one, news, named], rfl, rfl⟩

end SeQuant.Conv
