import Verif.Reduce.Value
import Mathlib.Data.List.Duplicate

/-!
# Invariants of the replacement rules
-/

namespace SeQuant.Reduce

variable {T S V A : Type} [DecidableEq S]

/-- `P` of the value returned, `Z` if the result is zero, `Y` if there is an exception. -/
def Post {α : Type} (Y Z : Prop) (P : α → Prop) : Except Stop α → Prop
  | .ok a => P a
  | .error .zero => Z
  | .error .throw => Y

theorem Post.bind {α β : Type} {Y Z : Prop} {P : α → Prop} {R : β → Prop} {x : Except Stop α} {f : α → Except Stop β} (hx : Post Y Z P x)
    (hf : ∀ a, P a → Post Y Z R (f a)) : Post Y Z R (x >>= f) := by
  cases x with
  | ok a => exact hf a hx
  | error s => cases s <;> exact hx

theorem Post.mono {α : Type} {Y Z : Prop} {P R : α → Prop} {x : Except Stop α} (hx : Post Y Z P x) (hf : ∀ a, P a → R a) : Post Y Z R x := by
  cases x with
  | ok a => exact hf a hx
  | error s => cases s <;> exact hx

/-! ## Fresh indices -/

theorem freshOrd_spec {all : List (Idx S)} {s : S} : ∀ {fuel n m : Nat}, freshOrd all s fuel n = some m → n < m ∧ (⟨s, m⟩ : Idx S) ∉ all
  | 0, _, _, h => by simp [freshOrd] at h
  | fuel + 1, n, m, h => by
    simp only [freshOrd] at h
    split_ifs at h with hm
    · have := freshOrd_spec h; exact ⟨by omega, this.2⟩
    · simp only [Option.some.injEq] at h; subst h; exact ⟨by omega, hm⟩

theorem freshOrd_none {all : List (Idx S)} {s : S} : ∀ {fuel n : Nat}, freshOrd all s fuel n = none → ∀ j, j < fuel → (⟨s, n + 1 + j⟩ : Idx S) ∈ all
  | 0, _, _, j, hj => by omega
  | fuel + 1, n, h, j, hj => by
    simp only [freshOrd] at h
    split_ifs at h with hm
    rcases j with _ | j
    · exact hm
    · have := freshOrd_none h j (by omega)
      have e : n + 1 + 1 + j = n + 1 + (j + 1) := by omega
      rwa [e] at this

theorem freshOrd_total (all : List (Idx S)) (s : S) (n : Nat) : freshOrd all s (all.length + 1) n ≠ none := by
  intro h
  have hm := freshOrd_none h
  let l := (List.range (all.length + 1)).map fun j => (⟨s, n + 1 + j⟩ : Idx S)
  have hnd : l.Nodup := by
    refine List.Nodup.map_on ?_ List.nodup_range
    intro a _ b _ hab
    simp only [Idx.mk.injEq, true_and] at hab; omega
  have hsub : l ⊆ all := by
    intro x hx
    obtain ⟨j, hj, rfl⟩ := List.mem_map.1 hx
    exact hm j (List.mem_range.1 hj)
  have := (hnd.subperm hsub).length_le
  simp [l] at this
  omega

theorem fresh_total (all : List (Idx S)) (st : St S) (s : S) : ∃ r, fresh all st s = .ok r := by
  unfold fresh
  cases h : freshOrd all s (all.length + 1) (st.cnt s) with
  | none => exact absurd h (freshOrd_total all s _)
  | some n => exact ⟨_, rfl⟩

/-! ## The invariant -/

section

/-- What stays fixed during a pass. -/
structure Pass (T S V A : Type) where
  I : Interp T S V A
  E : Env S
  ext : List (Idx S)
  all : List (Idx S)
  D : Finset (Idx S)
  e : Idx S → V
  fs : List (Fac T S)

variable (P : Pass T S V A)

def Pass.Q (σ : Idx S → V) : Prop := Adm P.I P.D P.e P.fs σ ∧ ∀ i ∈ P.ext, P.I.dom i.space (P.e i) = true

/-- The registry lacks an intersection. -/
def Pass.Thr : Prop := ∃ s t, P.E.inter s t = .error .throw

structure Pass.WF : Prop where
  exact : Exact P.I P.E
  D_all : ∀ i ∈ P.D, i ∈ P.all
  all_D : ∀ i ∈ P.all, i ∈ P.D ∨ i ∈ P.ext
  D_ext : ∀ i ∈ P.D, i ∉ P.ext
  ext_tmp : ∀ i ∈ P.ext, i.ord < P.E.minTmp

/-- What a destination may be: an external index that occurs, or a new index. -/
def DstOk (cnt : S → Nat) (d : Idx S) : Prop :=
  (d ∈ P.ext ∧ d ∈ P.all) ∨ (d ∉ P.all ∧ d ∉ P.ext ∧ d.ord ≤ cnt d.space)

structure Inv (st : St S) : Prop where
  src_mem : ∀ c ∈ st.cls, ∀ s ∈ c.srcs, s ∈ P.D
  ne : ∀ c ∈ st.cls, c.srcs ≠ []
  disj : ∀ c ∈ st.cls, ∀ c' ∈ st.cls, ∀ s ∈ c.srcs, s ∈ c'.srcs → c = c'
  dst : ∀ c ∈ st.cls, DstOk P st.cnt c.dst
  dinj : ∀ c ∈ st.cls, ∀ c' ∈ st.cls, c.dst = c'.dst → c = c'
  sub : ∀ c ∈ st.cls, ∀ s ∈ c.srcs, ∀ v, P.I.dom c.dst.space v = true → P.I.dom s.space v = true
  val : ∀ σ, P.Q σ → ∀ c ∈ st.cls, ∀ s ∈ c.srcs, P.I.dom c.dst.space (σ s) = true ∧ (c.dst ∈ P.ext → P.e c.dst = σ s) ∧ ∀ s' ∈ c.srcs, σ s' = σ s
  cnt : ∀ s, P.E.minTmp - 1 ≤ st.cnt s

/-- Two indices have a common destination. -/
def Same (st : St S) (x y : Idx S) : Prop := ∃ c ∈ st.cls, x ∈ c.srcs ∧ y ∈ c.srcs

/-- Common destinations stay common. -/
def Keeps (st st' : St S) : Prop := ∀ x y, Same st x y → Same st' x y

omit [DecidableEq S] in
theorem Keeps.trans {a b c : St S} (h1 : Keeps a b) (h2 : Keeps b c) : Keeps a c := fun x y h => h2 x y (h1 x y h)

omit [DecidableEq S] in
theorem Keeps.of_eq {a b : St S} (h : b.cls = a.cls) : Keeps a b := by
  intro x y hxy
  unfold Same at *
  rw [h]; exact hxy

/-- A destination no rule has. -/
def NewDst (st : St S) (d : Idx S) : Prop := DstOk P st.cnt d ∧ ∀ c ∈ st.cls, c.dst ≠ d

variable {P}

theorem fresh_spec (hP : P.WF) {st : St S} (h : Inv P st) (s : S) {Y Z : Prop} :
    Post Y Z (fun r => Inv P r.2 ∧ r.1.space = s ∧ r.2.cls = st.cls ∧ NewDst P r.2 r.1 ∧ r.1 ∉ P.ext ∧ ∀ t, st.cnt t ≤ r.2.cnt t) (fresh P.all st s) := by
  unfold fresh
  cases hf : freshOrd P.all s (P.all.length + 1) (st.cnt s) with
  | none => exact absurd hf (freshOrd_total _ _ _)
  | some n =>
    obtain ⟨hn, hall⟩ := freshOrd_spec hf
    have hmono : ∀ t, st.cnt t ≤ (if t = s then n else st.cnt t) := by
      intro t; split_ifs with ht
      · subst ht; omega
      · exact le_refl _
    have hok : ∀ d, DstOk P st.cnt d → DstOk P (fun t => if t = s then n else st.cnt t) d := by
      intro d hd
      rcases hd with hd | ⟨h1, h2, h3⟩
      · exact Or.inl hd
      · exact Or.inr ⟨h1, h2, le_trans h3 (hmono _)⟩
    have hext : (⟨s, n⟩ : Idx S) ∉ P.ext := by
      intro hx
      have h1 := hP.ext_tmp _ hx
      have h2 := h.cnt s
      simp only at h1
      omega
    refine ⟨⟨h.src_mem, h.ne, h.disj, fun c hc => hok _ (h.dst c hc), h.dinj, h.sub, h.val, fun t => le_trans (h.cnt t) (hmono t)⟩, rfl, rfl, ⟨?_, ?_⟩, hext, hmono⟩
    · exact Or.inr ⟨hall, hext, by simp⟩
    · intro c hc hcd
      rcases h.dst c hc with ⟨h1, _⟩ | ⟨_, _, h3⟩
      · rw [hcd] at h1; exact hext h1
      · rw [hcd] at h3; simp only at h3; omega

/-! ## Elementary changes -/

theorem find_some {st : St S} {i : Idx S} {c : Cls S} (h : st.find i = some c) : c ∈ st.cls ∧ i ∈ c.srcs := by
  unfold St.find at h
  exact ⟨List.mem_of_find?_eq_some h, by simpa using List.find?_some h⟩

theorem find_none {st : St S} {i : Idx S} (h : st.find i = none) : ∀ c ∈ st.cls, i ∉ c.srcs := by
  unfold St.find at h
  intro c hc hi
  have := List.find?_eq_none.1 h c hc
  simp [hi] at this

/-- A source is appended to the class selected. -/
theorem append_spec {st : St S} (h : Inv P st) {p : Cls S → Bool} {src : Idx S} (hD : src ∈ P.D) (hnew : ∀ c ∈ st.cls, src ∉ c.srcs)
    (hp : ∀ c ∈ st.cls, ∀ c' ∈ st.cls, p c = true → p c' = true → c = c')
    (hsub : ∀ c ∈ st.cls, p c = true → ∀ v, P.I.dom c.dst.space v = true → P.I.dom src.space v = true)
    (hval : ∀ σ, P.Q σ → ∀ c ∈ st.cls, p c = true → ∀ s ∈ c.srcs, σ s = σ src) {Y Z : Prop} :
    Post Y Z (fun st' => Inv P st' ∧ Keeps st st' ∧ ∀ c ∈ st.cls, p c = true → ∀ x ∈ c.srcs, Same st' x src) (st.append p src) := by
  unfold St.append
  split_ifs with hany
  · exfalso
    simp only [List.any_eq_true, Bool.and_eq_true, decide_eq_true_eq] at hany
    obtain ⟨c, hc, _, hs⟩ := hany
    exact hnew c hc hs
  · have hm : ∀ c' ∈ st.cls.map (fun c => if p c = true then { c with srcs := c.srcs ++ [src] } else c),
        ∃ c ∈ st.cls, c'.dst = c.dst ∧ ((p c = true ∧ c'.srcs = c.srcs ++ [src]) ∨ (p c = false ∧ c' = c)) := by
      intro c' hc'
      obtain ⟨c, hc, rfl⟩ := List.mem_map.1 hc'
      refine ⟨c, hc, ?_⟩
      cases hpc : p c <;> simp
    refine ⟨⟨?_, ?_, ?_, ?_, ?_, ?_, ?_, h.cnt⟩, ?_, ?_⟩
    · intro c' hc' s hs
      obtain ⟨c, hc, hd, ⟨hpc, he⟩ | ⟨hpc, rfl⟩⟩ := hm c' hc'
      · rw [he] at hs
        rcases List.mem_append.1 hs with hs | hs
        · exact h.src_mem c hc s hs
        · simp only [List.mem_singleton] at hs; rw [hs]; exact hD
      · exact h.src_mem _ hc s hs
    · intro c' hc'
      obtain ⟨c, hc, hd, ⟨hpc, he⟩ | ⟨hpc, rfl⟩⟩ := hm c' hc'
      · rw [he]; simp
      · exact h.ne _ hc
    · intro c' hc' d' hd' s hs hs'
      have key : ∀ x ∈ st.cls, ∀ y ∈ st.cls, x = y →
          (if p x = true then { x with srcs := x.srcs ++ [src] } else x) = (if p y = true then { y with srcs := y.srcs ++ [src] } else y) := by
        intro x _ y _ hxy; rw [hxy]
      obtain ⟨c, hc, rfl⟩ := List.mem_map.1 hc'
      obtain ⟨d, hd, rfl⟩ := List.mem_map.1 hd'
      refine key c hc d hd ?_
      cases hpc : p c <;> cases hpd : p d <;> simp only [hpc, hpd, if_true, if_false, Bool.false_eq_true, List.mem_append, List.mem_singleton] at hs hs'
      · exact h.disj c hc d hd s hs hs'
      · rcases hs' with hs' | rfl
        · exact h.disj c hc d hd s hs hs'
        · exact absurd hs (hnew c hc)
      · rcases hs with hs | rfl
        · exact h.disj c hc d hd s hs hs'
        · exact absurd hs' (hnew d hd)
      · exact hp c hc d hd hpc hpd
    · intro c' hc'
      obtain ⟨c, hc, hd, _⟩ := hm c' hc'
      rw [hd]; exact h.dst c hc
    · intro c' hc' d' hd' hcd
      obtain ⟨c, hc, rfl⟩ := List.mem_map.1 hc'
      obtain ⟨d, hd, rfl⟩ := List.mem_map.1 hd'
      have : c.dst = d.dst := by
        cases hpc : p c <;> cases hpd : p d <;> simpa [hpc, hpd] using hcd
      rw [h.dinj c hc d hd this]
    · intro c' hc' s hs v hv
      obtain ⟨c, hc, hd, ⟨hpc, he⟩ | ⟨hpc, rfl⟩⟩ := hm c' hc'
      · rw [hd] at hv
        rw [he] at hs
        rcases List.mem_append.1 hs with hs | hs
        · exact h.sub c hc s hs v hv
        · simp only [List.mem_singleton] at hs; rw [hs]; exact hsub c hc hpc v hv
      · exact h.sub _ hc s hs v hv
    · intro σ hσ c' hc' s hs
      obtain ⟨c, hc, hd, ⟨hpc, he⟩ | ⟨hpc, rfl⟩⟩ := hm c' hc'
      · rw [hd]
        rw [he] at hs ⊢
        obtain ⟨s0, hs0⟩ := List.exists_mem_of_ne_nil _ (h.ne c hc)
        have h0 := h.val σ hσ c hc s0 hs0
        have hall : ∀ x ∈ c.srcs ++ [src], σ x = σ s0 := by
          intro x hx
          rcases List.mem_append.1 hx with hx | hx
          · exact h0.2.2 x hx
          · simp only [List.mem_singleton] at hx; rw [hx]; exact (hval σ hσ c hc hpc s0 hs0).symm
        rw [hall s hs]
        exact ⟨h0.1, h0.2.1, hall⟩
      · exact h.val σ hσ _ hc s hs
    · rintro x y ⟨c, hc, hx, hy⟩
      refine ⟨_, List.mem_map.2 ⟨c, hc, rfl⟩, ?_⟩
      cases hpc : p c <;> simp [hx, hy]
    · intro c hc hpc x hx
      refine ⟨_, List.mem_map.2 ⟨c, hc, rfl⟩, ?_⟩
      simp [hpc, hx]

/-- The destination of the class of a source is replaced. -/
theorem setDst_spec {st : St S} (h : Inv P st) {c : Cls S} {src d : Idx S} (hc : c ∈ st.cls) (hs : src ∈ c.srcs) (hd : DstOk P st.cnt d)
    (hne : ∀ c' ∈ st.cls, src ∉ c'.srcs → c'.dst ≠ d) (hsub : ∀ v, P.I.dom d.space v = true → P.I.dom c.dst.space v = true)
    (hval : ∀ σ, P.Q σ → P.I.dom d.space (σ src) = true ∧ (d ∈ P.ext → P.e d = σ src)) :
    Inv P (st.setDst src d) ∧ (∀ c' ∈ (st.setDst src d).cls, src ∈ c'.srcs → c'.dst = d) ∧
      (∀ x, (∃ c' ∈ (st.setDst src d).cls, x ∈ c'.srcs) ↔ ∃ c' ∈ st.cls, x ∈ c'.srcs) ∧ Keeps st (st.setDst src d) := by
  have hm : ∀ c' ∈ (st.setDst src d).cls, (c' = { c with dst := d }) ∨ (c' ∈ st.cls ∧ src ∉ c'.srcs) := by
    intro c' hc'
    obtain ⟨x, hx, rfl⟩ := List.mem_map.1 hc'
    by_cases hxs : src ∈ x.srcs
    · left; rw [if_pos hxs, h.disj x hx c hc src hxs hs]
    · right; rw [if_neg hxs]; exact ⟨hx, hxs⟩
  refine ⟨⟨?_, ?_, ?_, ?_, ?_, ?_, ?_, h.cnt⟩, ?_, ?_, ?_⟩
  · intro c' hc' s hs'
    rcases hm c' hc' with rfl | ⟨hc'', _⟩
    · exact h.src_mem c hc s hs'
    · exact h.src_mem c' hc'' s hs'
  · intro c' hc'
    rcases hm c' hc' with rfl | ⟨hc'', _⟩
    · exact h.ne c hc
    · exact h.ne c' hc''
  · intro c1 h1 c2 h2 s hs1 hs2
    rcases hm c1 h1 with rfl | ⟨h1', n1⟩ <;> rcases hm c2 h2 with rfl | ⟨h2', n2⟩
    · rfl
    · exact absurd hs (by rw [h.disj c hc c2 h2' s hs1 hs2]; exact n2)
    · exact absurd hs (by rw [h.disj c hc c1 h1' s hs2 hs1]; exact n1)
    · exact h.disj c1 h1' c2 h2' s hs1 hs2
  · intro c' hc'
    rcases hm c' hc' with rfl | ⟨hc'', _⟩
    · exact hd
    · exact h.dst c' hc''
  · intro c1 h1 c2 h2 hcd
    rcases hm c1 h1 with rfl | ⟨h1', n1⟩ <;> rcases hm c2 h2 with rfl | ⟨h2', n2⟩
    · rfl
    · exact absurd hcd.symm (hne c2 h2' n2)
    · exact absurd hcd (hne c1 h1' n1)
    · exact h.dinj c1 h1' c2 h2' hcd
  · intro c' hc' s hs' v hv
    rcases hm c' hc' with rfl | ⟨hc'', _⟩
    · exact h.sub c hc s hs' v (hsub v hv)
    · exact h.sub c' hc'' s hs' v hv
  · intro σ hσ c' hc' s hs'
    rcases hm c' hc' with rfl | ⟨hc'', _⟩
    · have h0 := h.val σ hσ c hc src hs
      have h1 := hval σ hσ
      have : σ s = σ src := h0.2.2 s hs'
      simp only
      rw [this]
      exact ⟨h1.1, h1.2, h0.2.2⟩
    · exact h.val σ hσ c' hc'' s hs'
  · intro c' hc' hs'
    rcases hm c' hc' with rfl | ⟨_, n⟩
    · rfl
    · exact absurd hs' n
  · intro x
    constructor
    · rintro ⟨c', hc', hx⟩
      rcases hm c' hc' with rfl | ⟨hc'', _⟩
      · exact ⟨c, hc, hx⟩
      · exact ⟨c', hc'', hx⟩
    · rintro ⟨c', hc', hx⟩
      refine ⟨_, List.mem_map.2 ⟨c', hc', rfl⟩, ?_⟩
      split_ifs <;> exact hx
  · rintro x y ⟨c', hc', hx, hy⟩
    refine ⟨_, List.mem_map.2 ⟨c', hc', rfl⟩, ?_⟩
    split_ifs <;> exact ⟨hx, hy⟩

/-! ## Rules -/

omit [DecidableEq S] in
theorem addNew_spec {st : St S} (h : Inv P st) {src dst : Idx S} (hD : src ∈ P.D) (hnew : ∀ c ∈ st.cls, src ∉ c.srcs)
    (hd : NewDst P st dst) (hsub : ∀ v, P.I.dom dst.space v = true → P.I.dom src.space v = true)
    (hval : ∀ σ, P.Q σ → P.I.dom dst.space (σ src) = true ∧ (dst ∈ P.ext → P.e dst = σ src)) :
    Inv P { st with cls := st.cls ++ [⟨dst, [src]⟩] } := by
  have hm : ∀ c' ∈ st.cls ++ [(⟨dst, [src]⟩ : Cls S)], c' ∈ st.cls ∨ c' = ⟨dst, [src]⟩ := by
    intro c' hc'; simpa using hc'
  refine ⟨?_, ?_, ?_, ?_, ?_, ?_, ?_, h.cnt⟩
  · intro c' hc' s hs
    rcases hm c' hc' with hc | rfl
    · exact h.src_mem c' hc s hs
    · simp only [List.mem_singleton] at hs; rw [hs]; exact hD
  · intro c' hc'
    rcases hm c' hc' with hc | rfl
    · exact h.ne c' hc
    · simp
  · intro c1 h1 c2 h2 s hs1 hs2
    rcases hm c1 h1 with h1' | rfl <;> rcases hm c2 h2 with h2' | rfl
    · exact h.disj c1 h1' c2 h2' s hs1 hs2
    · simp only [List.mem_singleton] at hs2; rw [hs2] at hs1; exact absurd hs1 (hnew c1 h1')
    · simp only [List.mem_singleton] at hs1; rw [hs1] at hs2; exact absurd hs2 (hnew c2 h2')
    · rfl
  · intro c' hc'
    rcases hm c' hc' with hc | rfl
    · exact h.dst c' hc
    · exact hd.1
  · intro c1 h1 c2 h2 hcd
    rcases hm c1 h1 with h1' | rfl <;> rcases hm c2 h2 with h2' | rfl
    · exact h.dinj c1 h1' c2 h2' hcd
    · exact absurd hcd (hd.2 c1 h1')
    · exact absurd hcd.symm (hd.2 c2 h2')
    · rfl
  · intro c' hc' s hs v hv
    rcases hm c' hc' with hc | rfl
    · exact h.sub c' hc s hs v hv
    · simp only [List.mem_singleton] at hs; rw [hs]; exact hsub v hv
  · intro σ hσ c' hc' s hs
    rcases hm c' hc' with hc | rfl
    · exact h.val σ hσ c' hc s hs
    · simp only [List.mem_singleton] at hs; subst hs
      exact ⟨(hval σ hσ).1, (hval σ hσ).2, by simp⟩

theorem addRule_spec {st : St S} (h : Inv P st) {src dst : Idx S} (hD : src ∈ P.D) (hnew : ∀ c ∈ st.cls, src ∉ c.srcs)
    (hd : DstOk P st.cnt dst) (hsub : ∀ v, P.I.dom dst.space v = true → P.I.dom src.space v = true)
    (hval : ∀ σ, P.Q σ → P.I.dom dst.space (σ src) = true ∧ (dst ∈ P.ext → P.e dst = σ src))
    (hcls : ∀ σ, P.Q σ → dst ∉ P.ext → ∀ c ∈ st.cls, c.dst = dst → ∀ s ∈ c.srcs, σ s = σ src) {Y Z : Prop} :
    Post Y Z (fun st' => Inv P st' ∧ Keeps st st' ∧ ∀ c ∈ st.cls, c.dst = dst → ∀ x ∈ c.srcs, Same st' x src) (addRule st src dst) := by
  unfold addRule
  split_ifs with hany
  · refine (append_spec h hD hnew ?_ ?_ ?_).mono fun st' h' => ⟨h'.1, h'.2.1, fun c hc hd => h'.2.2 c hc (by simp [hd])⟩
    · intro c hc c' hc' h1 h2
      simp only [decide_eq_true_eq] at h1 h2
      exact h.dinj c hc c' hc' (h1.trans h2.symm)
    · intro c hc h1 v hv
      simp only [decide_eq_true_eq] at h1
      rw [h1] at hv; exact hsub v hv
    · intro σ hσ c hc h1 s hs
      simp only [decide_eq_true_eq] at h1
      by_cases hx : dst ∈ P.ext
      · have h2 := (h.val σ hσ c hc s hs).2.1 (by rw [h1]; exact hx)
        rw [h1] at h2
        rw [← h2]; exact (hval σ hσ).2 hx
      · exact hcls σ hσ hx c hc h1 s hs
  · have hno : ∀ c ∈ st.cls, c.dst ≠ dst := fun c hc hcd =>
      hany (by simp only [List.any_eq_true, decide_eq_true_eq]; exact ⟨c, hc, hcd⟩)
    refine ⟨addNew_spec h hD hnew ⟨hd, hno⟩ hsub hval, ?_, fun c hc hcd => absurd hcd (hno c hc)⟩
    rintro x y ⟨c, hc, hxy⟩
    exact ⟨c, by simp [hc], hxy⟩

theorem updateRule_spec (hP : P.WF) {st : St S} (h : Inv P st) {src dst : Idx S} (hsome : st.find src ≠ none) (hval : ∀ σ, P.Q σ → P.I.dom dst.space (σ src) = true) :
    Post P.Thr (∀ σ, ¬ P.Q σ) (fun st' => Inv P st' ∧ (∀ c ∈ st'.cls, src ∈ c.srcs → ∀ v, P.I.dom c.dst.space v = true → P.I.dom dst.space v = true) ∧
      (∀ x, (∃ c ∈ st'.cls, x ∈ c.srcs) ↔ ∃ c ∈ st.cls, x ∈ c.srcs) ∧ Keeps st st') (updateRule P.E P.all st src dst) := by
  unfold updateRule
  cases hf : st.find src with
  | none => exact absurd hf hsome
  | some c =>
    obtain ⟨hc, hs⟩ := find_some hf
    simp only
    split_ifs with hsp
    · refine ⟨h, ?_, fun _ => Iff.rfl, Keeps.of_eq rfl⟩
      intro c' hc' hs' v hv
      rw [h.disj c' hc' c hc src hs' hs] at hv
      rw [hsp]; exact hv
    · cases hi : P.E.inter c.dst.space dst.space with
      | error z =>
        cases z with
        | throw => exact ⟨_, _, hi⟩
        | zero =>
          intro σ hσ
          exact hP.exact.null hi (σ src) ⟨(h.val σ hσ c hc src hs).1, hval σ hσ⟩
      | ok s =>
        have hx := hP.exact.inter hi
        refine Post.bind (x := fresh P.all st s) (f := fun r => Except.ok (r.2.setDst src r.1)) (fresh_spec hP h s) ?_
        rintro ⟨d, st1⟩ ⟨h1, hsp1, hcls, hnew, hext, _⟩
        simp only at h1 hsp1 hcls hnew hext
        have hspec := setDst_spec (d := d) h1 (by rw [hcls]; exact hc) hs hnew.1 (fun c' hc' _ => hnew.2 c' hc')
          (by intro v hv; rw [hsp1] at hv; exact ((hx v).1 hv).1)
          (by
            intro σ hσ
            refine ⟨?_, fun hh => absurd hh hext⟩
            rw [hsp1]
            exact (hx _).2 ⟨(h.val σ hσ c hc src hs).1, hval σ hσ⟩)
        refine ⟨hspec.1, ?_, ?_, (Keeps.of_eq hcls).trans hspec.2.2.2⟩
        · intro c' hc' hs' v hv
          rw [hspec.2.1 c' hc' hs', hsp1] at hv
          exact ((hx v).1 hv).2
        · intro x
          rw [← hcls]; exact hspec.2.2.1 x

theorem addOrUpdate_spec (hP : P.WF) {st : St S} (h : Inv P st) {src dst : Idx S} (hD : src ∈ P.D)
    (hd : DstOk P st.cnt dst) (hsub : ∀ v, P.I.dom dst.space v = true → P.I.dom src.space v = true)
    (hval : ∀ σ, P.Q σ → P.I.dom dst.space (σ src) = true ∧ (dst ∈ P.ext → P.e dst = σ src))
    (hcls : dst ∉ P.ext → ∀ c ∈ st.cls, c.dst ≠ dst) : Post P.Thr (∀ σ, ¬ P.Q σ) (fun st' => Inv P st' ∧ Keeps st st') (addOrUpdate P.E P.all st src dst) := by
  unfold addOrUpdate
  split_ifs with hn
  · rw [Option.isNone_iff_eq_none] at hn
    exact (addRule_spec h hD (find_none hn) hd hsub hval (fun σ _ hx c hc hcd => absurd hcd (hcls hx c hc))).mono fun st' h' => ⟨h'.1, h'.2.1⟩
  · refine (updateRule_spec hP h ?_ (fun σ hσ => (hval σ hσ).1)).mono fun st' h' => ⟨h'.1, h'.2.2.2⟩
    intro hf; rw [hf] at hn; exact hn rfl

theorem updateAdd_spec (hP : P.WF) {st : St S} (h : Inv P st) {src1 src2 dst : Idx S} (hD2 : src2 ∈ P.D) (hf1 : st.find src1 ≠ none) (hf2 : st.find src2 = none)
    (hsub2 : ∀ v, P.I.dom dst.space v = true → P.I.dom src2.space v = true)
    (hval : ∀ σ, P.Q σ → P.I.dom dst.space (σ src1) = true ∧ σ src1 = σ src2) :
    Post P.Thr (∀ σ, ¬ P.Q σ) (fun st' => Inv P st' ∧ Keeps st st' ∧ Same st' src1 src2) (do addSrc (← updateRule P.E P.all st src1 dst) src2 src1) := by
  refine Post.bind (updateRule_spec hP h hf1 (fun σ hσ => (hval σ hσ).1)) ?_
  rintro st1 ⟨h1, hd1, hs1, hk1⟩
  unfold addSrc
  obtain ⟨c0, hc0, hm0⟩ : ∃ c ∈ st1.cls, src1 ∈ c.srcs := by
    rw [hs1]
    cases hf : st.find src1 with
    | none => exact absurd hf hf1
    | some c => exact ⟨c, find_some hf⟩
  refine (append_spec h1 hD2 ?_ ?_ ?_ ?_).mono fun st' h' => ⟨h'.1, hk1.trans h'.2.1, h'.2.2 c0 hc0 (by simp [hm0]) src1 hm0⟩
  · intro c hc hs
    obtain ⟨c', hc', hs'⟩ := (hs1 src2).1 ⟨c, hc, hs⟩
    exact find_none hf2 c' hc' hs'
  · intro c hc c' hc' e1 e2
    simp only [decide_eq_true_eq] at e1 e2
    exact h1.disj c hc c' hc' src1 e1 e2
  · intro c hc e1 v hv
    simp only [decide_eq_true_eq] at e1
    exact hsub2 v (hd1 c hc e1 v hv)
  · intro σ hσ c hc e1 s hs
    simp only [decide_eq_true_eq] at e1
    rw [(h1.val σ hσ c hc src1 e1).2.2 s hs, (hval σ hσ).2]

end

end SeQuant.Reduce
