import Verif.Reduce.Rules

/-!
# Merging of rules, a pass over the factors, the loop
-/

namespace SeQuant.Reduce

variable {T S V A : Type} [DecidableEq S] {P : Pass T S V A}

/-- What the destination common to two sources must satisfy. -/
structure Common (P : Pass T S V A) (st : St S) (src1 src2 : Idx S) (s : S) (d : Idx S) : Prop where
  ok : DstOk P st.cnt d
  sp : d.space = s
  other : ∀ c ∈ st.cls, src1 ∉ c.srcs → src2 ∉ c.srcs → c.dst ≠ d
  val : ∀ σ, P.Q σ → d ∈ P.ext → P.e d = σ src1

theorem chooseDst_spec (hP : P.WF) {st : St S} (h : Inv P st) {src1 src2 d1 d2 dst : Idx S} {s : S} {Y Z : Prop}
    (c1 : Common P st src1 src2 d1.space d1) (c2 : Common P st src1 src2 d2.space d2) (c3 : Common P st src1 src2 dst.space dst) :
    Post Y Z (fun r => Inv P r.2 ∧ r.2.cls = st.cls ∧ Common P r.2 src1 src2 s r.1) (chooseDst P.E P.all st s d1 d2 dst) := by
  have lift : ∀ d : Idx S, Common P st src1 src2 d.space d → s = d.space → Common P st src1 src2 s d := fun d hd hs => hs ▸ hd
  unfold chooseDst
  by_cases h1 : s = d1.space
  · rw [if_pos h1]
    refine ⟨h, rfl, ?_⟩
    by_cases a : s = d2.space ∧ P.E.lt d2 d1 = true
    · simp only [if_pos a]
      by_cases b : s = dst.space ∧ P.E.lt dst d2 = true
      · simp only [if_pos b]; exact lift _ c3 b.1
      · simp only [if_neg b]; exact lift _ c2 a.1
    · simp only [if_neg a]
      by_cases b : s = dst.space ∧ P.E.lt dst d1 = true
      · simp only [if_pos b]; exact lift _ c3 b.1
      · simp only [if_neg b]; exact lift _ c1 h1
  · rw [if_neg h1]
    by_cases h2 : s = d2.space
    · rw [if_pos h2]
      refine ⟨h, rfl, ?_⟩
      by_cases b : s = dst.space ∧ P.E.lt dst d2 = true
      · simp only [if_pos b]; exact lift _ c3 b.1
      · simp only [if_neg b]; exact lift _ c2 h2
    · rw [if_neg h2]
      by_cases h3 : s = dst.space
      · rw [if_pos h3]; exact ⟨h, rfl, lift _ c3 h3⟩
      · rw [if_neg h3]
        refine (fresh_spec hP h s).mono ?_
        rintro r ⟨h1, hs, hc, hn, hx, _⟩
        exact ⟨h1, hc, hn.1, hs, fun c hc _ _ => hn.2 c hc, fun σ _ hh => absurd hh hx⟩

theorem mergeRules_spec (hP : P.WF) {st : St S} (h : Inv P st) {c1 c2 : Cls S} {src1 src2 dst : Idx S} (hc1 : c1 ∈ st.cls) (hs1 : src1 ∈ c1.srcs)
    (hc2 : c2 ∈ st.cls) (hs2 : src2 ∈ c2.srcs) (hd : NewDst P st dst) (hx : dst ∉ P.ext)
    (hval : ∀ σ, P.Q σ → P.I.dom dst.space (σ src1) = true ∧ σ src1 = σ src2) :
    Post P.Thr (∀ σ, ¬ P.Q σ) (fun st' => Inv P st' ∧ Keeps st st' ∧ Same st' src1 src2) (mergeRules P.E P.all st c1 c2 src1 src2 dst) := by
  unfold mergeRules
  have v1 := fun σ hσ => h.val σ hσ c1 hc1 src1 hs1
  have v2 : ∀ σ, P.Q σ → P.I.dom c2.dst.space (σ src1) = true ∧ (c2.dst ∈ P.ext → P.e c2.dst = σ src1) := by
    intro σ hσ
    have := h.val σ hσ c2 hc2 src2 hs2
    rw [(hval σ hσ).2]; exact ⟨this.1, this.2.1⟩
  have hspace : Post P.Thr (∀ σ, ¬ P.Q σ)
      (fun s => ∀ v, P.I.dom s v = true ↔ P.I.dom c1.dst.space v = true ∧ P.I.dom c2.dst.space v = true ∧ P.I.dom dst.space v = true)
      (commonSpace P.E c1.dst c2.dst dst) := by
    unfold commonSpace
    split_ifs with hne
    · cases hi : P.E.inter c1.dst.space c2.dst.space with
      | error z =>
        cases z with
        | throw => exact ⟨_, _, hi⟩
        | zero => exact fun σ hσ => hP.exact.null hi (σ src1) ⟨(v1 σ hσ).1, (v2 σ hσ).1⟩
      | ok u =>
        show Post _ _ _ (P.E.inter u dst.space)
        have hu := hP.exact.inter hi
        cases hj : P.E.inter u dst.space with
        | error z =>
          cases z with
          | throw => exact ⟨_, _, hj⟩
          | zero => exact fun σ hσ => hP.exact.null hj (σ src1) ⟨(hu _).2 ⟨(v1 σ hσ).1, (v2 σ hσ).1⟩, (hval σ hσ).1⟩
        | ok s =>
          intro v
          rw [hP.exact.inter hj v, hu v, and_assoc]
    · simp only [ne_eq, not_or, not_not] at hne
      intro v
      rw [← hne.1, ← hne.2]; simp
  refine Post.bind hspace ?_
  intro s hs
  refine Post.bind (chooseDst_spec (s := s) (src1 := src1) (src2 := src2) hP h ⟨h.dst c1 hc1, rfl, ?_, fun σ hσ => (v1 σ hσ).2.1⟩
    ⟨h.dst c2 hc2, rfl, ?_, fun σ hσ => (v2 σ hσ).2⟩ ⟨hd.1, rfl, fun c hc _ _ => hd.2 c hc, fun _ _ hh => absurd hh hx⟩) ?_
  · intro c hc n1 _ hcd
    exact n1 (by rw [h.dinj c hc c1 hc1 hcd]; exact hs1)
  · intro c hc _ n2 hcd
    exact n2 (by rw [h.dinj c hc c2 hc2 hcd]; exact hs2)
  rintro ⟨d, st1⟩ ⟨h1, hcls, hcom⟩
  simp only at h1 hcls hcom
  have hc1' : c1 ∈ st1.cls := hcls ▸ hc1
  have hc2' : c2 ∈ st1.cls := hcls ▸ hc2
  have hvd : ∀ σ, P.Q σ → P.I.dom d.space (σ src1) = true ∧ (d ∈ P.ext → P.e d = σ src1) := by
    intro σ hσ
    refine ⟨?_, hcom.val σ hσ⟩
    rw [hcom.sp]; exact (hs _).2 ⟨(v1 σ hσ).1, (v2 σ hσ).1, (hval σ hσ).1⟩
  have hsub1 : ∀ v, P.I.dom d.space v = true → P.I.dom c1.dst.space v = true := by
    intro v hv; rw [hcom.sp] at hv; exact ((hs v).1 hv).1
  have hsub2 : ∀ v, P.I.dom d.space v = true → P.I.dom c2.dst.space v = true := by
    intro v hv; rw [hcom.sp] at hv; exact ((hs v).1 hv).2.1
  split_ifs with hsame
  · have hko : ∀ c ∈ st1.cls, src1 ∉ c.srcs → c.dst ≠ d := ?_
    · have hsp := setDst_spec h1 hc1' hs1 hcom.ok hko hsub1 hvd
      have hk := (Keeps.of_eq hcls).trans hsp.2.2.2
      exact ⟨hsp.1, hk, hk _ _ ⟨c1, hc1, hs1, hsame⟩⟩
    intro c hc n1 hcd
    refine hcom.other c hc n1 ?_ hcd
    intro n2
    rw [h1.disj c hc c1 hc1' src2 n2 hsame] at n1
    exact n1 hs1
  · have hne : ∀ c ∈ st1.cls, src2 ∉ c.srcs → ∀ x ∈ c.srcs, x ∉ c2.srcs := by
      intro c hc n2 x hx1 hx2
      exact n2 (by rw [h1.disj c hc c2 hc2' x hx1 hx2]; exact hs2)
    have hm : ∀ c' ∈ (st1.cls.filter fun c => decide (src2 ∉ c.srcs)).map (fun c => if src1 ∈ c.srcs then (⟨d, c.srcs ++ c2.srcs⟩ : Cls S) else c),
        c' = ⟨d, c1.srcs ++ c2.srcs⟩ ∨ (c' ∈ st1.cls ∧ src1 ∉ c'.srcs ∧ src2 ∉ c'.srcs) := by
      intro c' hc'
      obtain ⟨c, hc, rfl⟩ := List.mem_map.1 hc'
      simp only [List.mem_filter, decide_eq_true_eq] at hc
      by_cases hh : src1 ∈ c.srcs
      · left; rw [if_pos hh, h1.disj c hc.1 c1 hc1' src1 hh hs1]
      · right; rw [if_neg hh]; exact ⟨hc.1, hh, hc.2⟩
    have hapart : ∀ c ∈ st1.cls, src1 ∉ c.srcs → src2 ∉ c.srcs → ∀ x ∈ c.srcs, x ∉ c1.srcs ++ c2.srcs := by
      intro c hc n1 n2 x hx1 hx2
      rcases List.mem_append.1 hx2 with hx2 | hx2
      · exact n1 (by rw [h1.disj c hc c1 hc1' x hx1 hx2]; exact hs1)
      · exact n2 (by rw [h1.disj c hc c2 hc2' x hx1 hx2]; exact hs2)
    have hmem : (⟨d, c1.srcs ++ c2.srcs⟩ : Cls S) ∈
        (st1.cls.filter fun c => decide (src2 ∉ c.srcs)).map (fun c => if src1 ∈ c.srcs then (⟨d, c.srcs ++ c2.srcs⟩ : Cls S) else c) := by
      refine List.mem_map.2 ⟨c1, List.mem_filter.2 ⟨hc1', by simpa using hsame⟩, by rw [if_pos hs1]⟩
    refine ⟨⟨?_, ?_, ?_, ?_, ?_, ?_, ?_, h1.cnt⟩, ?_, ⟨_, hmem, by simp [hs1], by simp [hs2]⟩⟩
    · intro c' hc' x hx
      rcases hm c' hc' with rfl | ⟨hc, _, _⟩
      · rcases List.mem_append.1 hx with hx | hx
        · exact h1.src_mem c1 hc1' x hx
        · exact h1.src_mem c2 hc2' x hx
      · exact h1.src_mem c' hc x hx
    · intro c' hc'
      rcases hm c' hc' with rfl | ⟨hc, _, _⟩
      · have := h1.ne c1 hc1'
        simp [this]
      · exact h1.ne c' hc
    · intro a ha b hb x hxa hxb
      rcases hm a ha with rfl | ⟨ha', na, ma⟩ <;> rcases hm b hb with rfl | ⟨hb', nb, mb⟩
      · rfl
      · exact absurd hxa (hapart b hb' nb mb x hxb)
      · exact absurd hxb (hapart a ha' na ma x hxa)
      · exact h1.disj a ha' b hb' x hxa hxb
    · intro c' hc'
      rcases hm c' hc' with rfl | ⟨hc, _, _⟩
      · exact hcom.ok
      · exact h1.dst c' hc
    · intro a ha b hb hab
      rcases hm a ha with rfl | ⟨ha', na, ma⟩ <;> rcases hm b hb with rfl | ⟨hb', nb, mb⟩
      · rfl
      · exact absurd hab.symm (hcom.other b hb' nb mb)
      · exact absurd hab (hcom.other a ha' na ma)
      · exact h1.dinj a ha' b hb' hab
    · intro c' hc' x hx v hv
      rcases hm c' hc' with rfl | ⟨hc, _, _⟩
      · rcases List.mem_append.1 hx with hx | hx
        · exact h1.sub c1 hc1' x hx v (hsub1 v hv)
        · exact h1.sub c2 hc2' x hx v (hsub2 v hv)
      · exact h1.sub c' hc x hx v hv
    · intro σ hσ c' hc' x hx
      rcases hm c' hc' with rfl | ⟨hc, _, _⟩
      · have hall : ∀ y ∈ c1.srcs ++ c2.srcs, σ y = σ src1 := by
          intro y hy
          rcases List.mem_append.1 hy with hy | hy
          · exact (h1.val σ hσ c1 hc1' src1 hs1).2.2 y hy
          · rw [(hval σ hσ).2]; exact (h1.val σ hσ c2 hc2' src2 hs2).2.2 y hy
        simp only
        rw [hall x hx]
        exact ⟨(hvd σ hσ).1, (hvd σ hσ).2, hall⟩
      · exact h1.val σ hσ c' hc x hx
    · rintro x y ⟨c, hc, hx, hy⟩
      rw [← hcls] at hc
      by_cases n2 : src2 ∈ c.srcs
      · rw [h1.disj c hc c2 hc2' src2 n2 hs2] at hx hy
        exact ⟨_, hmem, by simp [hx], by simp [hy]⟩
      · by_cases n1 : src1 ∈ c.srcs
        · rw [h1.disj c hc c1 hc1' src1 n1 hs1] at hx hy
          exact ⟨_, hmem, by simp [hx], by simp [hy]⟩
        · refine ⟨c, List.mem_map.2 ⟨c, List.mem_filter.2 ⟨hc, by simpa using n2⟩, by rw [if_neg n1]⟩, hx, hy⟩

theorem addOrUpdate2_spec (hP : P.WF) {st : St S} (h : Inv P st) {src1 src2 dst : Idx S} (hD1 : src1 ∈ P.D) (hD2 : src2 ∈ P.D) (hne : src1 ≠ src2)
    (hd : NewDst P st dst) (hx : dst ∉ P.ext) (hsub1 : ∀ v, P.I.dom dst.space v = true → P.I.dom src1.space v = true)
    (hsub2 : ∀ v, P.I.dom dst.space v = true → P.I.dom src2.space v = true)
    (hval : ∀ σ, P.Q σ → P.I.dom dst.space (σ src1) = true ∧ σ src1 = σ src2) :
    Post P.Thr (∀ σ, ¬ P.Q σ) (fun st' => Inv P st' ∧ Keeps st st' ∧ Same st' src1 src2) (addOrUpdate2 P.E P.all st src1 src2 dst) := by
  have hval' : ∀ σ, P.Q σ → P.I.dom dst.space (σ src2) = true ∧ σ src2 = σ src1 := by
    intro σ hσ
    have := hval σ hσ
    rw [← this.2]; exact ⟨this.1, rfl⟩
  unfold addOrUpdate2
  cases hf1 : st.find src1 with
  | none =>
    cases hf2 : st.find src2 with
    | none =>
      simp only
      have hfirst : addRule st src1 dst = .ok { st with cls := st.cls ++ [⟨dst, [src1]⟩] } := by
        unfold addRule
        rw [if_neg]
        simp only [List.any_eq_true, decide_eq_true_eq, not_exists, not_and]
        exact fun c hc => hd.2 c hc
      rw [hfirst]
      have h1 := addNew_spec h hD1 (find_none hf1) hd hsub1 (fun σ hσ => ⟨(hval σ hσ).1, fun hh => absurd hh hx⟩)
      show Post _ _ _ (addRule _ src2 dst)
      refine (addRule_spec h1 hD2 ?_ hd.1 hsub2 (fun σ hσ => ⟨(hval' σ hσ).1, fun hh => absurd hh hx⟩) ?_).mono fun st' h' =>
        ⟨h'.1, Keeps.trans (b := { st with cls := st.cls ++ [⟨dst, [src1]⟩] }) ?_ h'.2.1, h'.2.2 ⟨dst, [src1]⟩ (by simp) rfl src1 (by simp)⟩
      · intro c hc hs
        simp only [List.mem_append, List.mem_singleton] at hc
        rcases hc with hc | rfl
        · exact find_none hf2 c hc hs
        · simp only [List.mem_singleton] at hs; exact hne hs.symm
      · intro σ hσ _ c hc hcd s hs
        simp only [List.mem_append, List.mem_singleton] at hc
        rcases hc with hc | rfl
        · exact absurd hcd (hd.2 c hc)
        · simp only [List.mem_singleton] at hs; rw [hs]; exact (hval σ hσ).2
      · rintro x y ⟨c, hc, hxy⟩
        exact ⟨c, by simp [hc], hxy⟩
    | some c2 =>
      refine (updateAdd_spec hP h hD1 (by simp [hf2]) hf1 hsub1 hval').mono fun st' h' => ⟨h'.1, h'.2.1, ?_⟩
      obtain ⟨c, hc, h1, h2⟩ := h'.2.2
      exact ⟨c, hc, h2, h1⟩
  | some c1 =>
    cases hf2 : st.find src2 with
    | none => exact updateAdd_spec hP h hD2 (by simp [hf1]) hf2 hsub2 hval
    | some c2 =>
      have m1 := find_some hf1
      have m2 := find_some hf2
      exact mergeRules_spec hP h m1.1 m1.2 m2.1 m2.2 hd hx hval

/-! ## A pass -/

theorem dom_all (hP : P.WF) {σ : Idx S → V} (hσ : P.Q σ) {i : Idx S} (hi : i ∈ P.all) : P.I.dom i.space (σ i) = true := by
  by_cases hD : i ∈ P.D
  · exact hσ.1.dom i hD
  · rw [hσ.1.ext i hD]
    rcases hP.all_D i hi with h | h
    · exact absurd h hD
    · exact hσ.2 i h

/-- A rule from an internal index to the external index a delta joins it to. -/
theorem extInt_spec (hP : P.WF) {st : St S} (h : Inv P st) {x i : Idx S} {s : S} (hx : x ∈ P.ext) (hxa : x ∈ P.all) (hi : i ∉ P.ext) (hia : i ∈ P.all)
    (hs : ∀ v, P.I.dom s v = true ↔ P.I.dom x.space v = true ∧ P.I.dom i.space v = true) (heq : ∀ σ, P.Q σ → σ x = σ i) :
    Post P.Thr (∀ σ, ¬ P.Q σ) (fun st' => Inv P st' ∧ Keeps st st') (if P.E.incl i.space x.space then addOrUpdate P.E P.all st i x
      else do let r ← fresh P.all st s; addOrUpdate P.E P.all r.2 i r.1) := by
  have hiD : i ∈ P.D := (hP.all_D i hia).resolve_right hi
  split_ifs with hinc
  · refine addOrUpdate_spec hP h hiD (Or.inl ⟨hx, hxa⟩) (hP.exact.incl hinc) ?_ (fun hh => absurd hx hh)
    intro σ hσ
    rw [← heq σ hσ]
    refine ⟨dom_all hP hσ hxa, fun _ => ?_⟩
    rw [hσ.1.ext x (fun hh => hP.D_ext x hh hx)]
  · refine Post.bind (fresh_spec hP h s) ?_
    rintro ⟨d, st1⟩ ⟨h1, hsp, hcls, hnew, hdx, _⟩
    simp only at h1 hsp hnew hdx hcls
    refine (addOrUpdate_spec hP h1 hiD hnew.1 ?_ ?_ (fun _ => hnew.2)).mono fun st' h' => ⟨h'.1, (Keeps.of_eq hcls).trans h'.2⟩
    · intro v hv; rw [hsp] at hv; exact ((hs v).1 hv).2
    · intro σ hσ
      refine ⟨?_, fun hh => absurd hh hdx⟩
      rw [hsp]
      refine (hs _).2 ⟨?_, dom_all hP hσ hia⟩
      rw [← heq σ hσ]; exact dom_all hP hσ hxa

theorem step_spec (hP : P.WF) {st : St S} (h : Inv P st) (nc : List (Idx S)) {g : Fac T S} (hg : g ∈ P.fs) (hgi : ∀ i ∈ g.idx, i ∈ P.all) :
    Post P.Thr (∀ σ, ¬ P.Q σ) (fun st' => Inv P st' ∧ Keeps st st' ∧ ∀ o b k, g = .delta o b k → b ≠ k → b ∉ P.ext → k ∉ P.ext →
      (o = true → b ∈ nc → k ∉ nc) → Same st' b k) (step P.E P.ext nc P.all st g) := by
  cases g with
  | tens t l => exact ⟨h, Keeps.of_eq rfl, by simp⟩
  | one => exact ⟨h, Keeps.of_eq rfl, by simp⟩
  | delta o b k =>
    have hb : b ∈ P.all := hgi b (by simp [Fac.idx])
    have hk : k ∈ P.all := hgi k (by simp [Fac.idx])
    have heq : ∀ σ, P.Q σ → σ b = σ k := fun σ hσ => hσ.1.del hg
    simp only [step]
    by_cases hskip : b = k ∨ (o = true ∧ b ∈ nc ∧ k ∈ nc)
    · rw [if_pos hskip]
      refine ⟨h, Keeps.of_eq rfl, ?_⟩
      rintro o' b' k' he hne hbx hkx hnc
      simp only [Fac.delta.injEq] at he
      obtain ⟨rfl, rfl, rfl⟩ := he
      rcases hskip with hs | ⟨h1, h2, h3⟩
      · exact absurd hs hne
      · exact absurd h3 (hnc h1 h2)
    · rw [if_neg hskip]
      cases hi : P.E.inter b.space k.space with
      | error z =>
        cases z with
        | throw => exact ⟨_, _, hi⟩
        | zero =>
          intro σ hσ
          exact hP.exact.null hi (σ b) ⟨dom_all hP hσ hb, by rw [heq σ hσ]; exact dom_all hP hσ hk⟩
      | ok s =>
        have hs := hP.exact.inter hi
        show Post _ _ _ (if b ∉ P.ext ∧ k ∉ P.ext then _ else _)
        by_cases hbx : b ∈ P.ext <;> by_cases hkx : k ∈ P.ext
        · simp only [hbx, hkx, not_true_eq_false, and_false, and_true, if_false]
          refine ⟨h, Keeps.of_eq rfl, ?_⟩
          rintro o' b' k' he _ hbx' _
          simp only [Fac.delta.injEq] at he
          exact absurd hbx (he.2.1 ▸ hbx')
        · simp only [hbx, hkx, not_true_eq_false, not_false_eq_true, and_true, if_false, if_true]
          refine (extInt_spec hP h hbx hb hkx hk hs heq).mono fun st' h' => ⟨h'.1, h'.2, ?_⟩
          rintro o' b' k' he _ hbx' _
          simp only [Fac.delta.injEq] at he
          exact absurd hbx (he.2.1 ▸ hbx')
        · simp only [hbx, hkx, not_true_eq_false, not_false_eq_true, and_true, and_false, if_false, if_true]
          refine (extInt_spec hP h hkx hk hbx hb (fun v => (hs v).trans and_comm) (fun σ hσ => (heq σ hσ).symm)).mono fun st' h' => ⟨h'.1, h'.2, ?_⟩
          rintro o' b' k' he _ _ hkx'
          simp only [Fac.delta.injEq] at he
          exact absurd hkx (he.2.2 ▸ hkx')
        · simp only [hbx, hkx, not_false_eq_true, and_true, if_true]
          refine Post.bind (fresh_spec hP h s) ?_
          rintro ⟨d, st1⟩ ⟨h1, hsp, hcls, hnew, hdx, _⟩
          simp only at h1 hsp hnew hdx hcls
          refine (addOrUpdate2_spec hP h1 ((hP.all_D b hb).resolve_right hbx) ((hP.all_D k hk).resolve_right hkx) (fun hh => hskip (Or.inl hh)) hnew hdx
            ?_ ?_ ?_).mono fun st' h' => ⟨h'.1, (Keeps.of_eq hcls).trans h'.2.1, ?_⟩
          · intro v hv; rw [hsp] at hv; exact ((hs v).1 hv).1
          · intro v hv; rw [hsp] at hv; exact ((hs v).1 hv).2
          · intro σ hσ
            refine ⟨?_, heq σ hσ⟩
            rw [hsp]
            exact (hs _).2 ⟨dom_all hP hσ hb, by rw [heq σ hσ]; exact dom_all hP hσ hk⟩
          · rintro o' b' k' he _ _ _ _
            simp only [Fac.delta.injEq] at he
            obtain ⟨_, rfl, rfl⟩ := he
            exact h'.2.2

theorem rules_spec (hP : P.WF) (nc : List (Idx S)) (hall : ∀ i, i ∈ used P.fs → i ∈ P.all) :
    Post P.Thr (∀ σ, ¬ P.Q σ) (fun st => Inv P st ∧ ∀ o b k, Fac.delta o b k ∈ P.fs → b ≠ k → b ∉ P.ext → k ∉ P.ext →
      (o = true → b ∈ nc → k ∉ nc) → Same st b k) (rules P.E P.ext nc P.all P.fs) := by
  have key : ∀ (l : List (Fac T S)) (st : St S), (∀ g ∈ l, g ∈ P.fs) → Inv P st →
      Post P.Thr (∀ σ, ¬ P.Q σ) (fun st' => Inv P st' ∧ Keeps st st' ∧ ∀ o b k, Fac.delta o b k ∈ l → b ≠ k → b ∉ P.ext → k ∉ P.ext →
        (o = true → b ∈ nc → k ∉ nc) → Same st' b k) (l.foldlM (step P.E P.ext nc P.all) st) := by
    intro l
    induction l with
    | nil => intro st _ h; exact ⟨h, Keeps.of_eq rfl, by simp⟩
    | cons g l ih =>
      intro st hl h
      rw [List.foldlM_cons]
      refine Post.bind (step_spec hP h nc (hl g (by simp)) fun i hi => hall i (mem_used.2 ⟨g, hl g (by simp), hi⟩)) ?_
      rintro st1 ⟨h1, k1, s1⟩
      refine (ih st1 (fun g hg => hl g (by simp [hg])) h1).mono ?_
      rintro st2 ⟨h2, k2, s2⟩
      refine ⟨h2, k1.trans k2, ?_⟩
      intro o b k hm hne hb hk hnc
      rcases List.mem_cons.1 hm with hm | hm
      · exact k2 b k (s1 o b k hm.symm hne hb hk hnc)
      · exact s2 o b k hm hne hb hk hnc
  refine (key P.fs _ (fun _ h => h) ?_).mono fun st h => ⟨h.1, h.2.2⟩
  exact ⟨by simp, by simp, by simp, by simp, by simp, by simp, by simp, by simp⟩

/-! ## Replacement -/

theorem rho_of_mem {st : St S} (h : Inv P st) {c : Cls S} (hc : c ∈ st.cls) {i : Idx S} (hi : i ∈ c.srcs) : st.rho i = c.dst := by
  unfold St.rho
  cases hf : st.find i with
  | none => exact absurd hi (find_none hf c hc)
  | some c' => rw [h.disj c' (find_some hf).1 c hc i (find_some hf).2 hi]

theorem rho_cases {st : St S} (i : Idx S) : (∃ c ∈ st.cls, i ∈ c.srcs ∧ st.rho i = c.dst) ∨ ((∀ c ∈ st.cls, i ∉ c.srcs) ∧ st.rho i = i) := by
  unfold St.rho
  cases hf : st.find i with
  | none => exact Or.inr ⟨find_none hf, rfl⟩
  | some c => exact Or.inl ⟨c, (find_some hf).1, (find_some hf).2, rfl⟩

/-- A source of the rule with a given destination. -/
def repOf (st : St S) (d : Idx S) : Idx S :=
  match st.cls.find? fun c => decide (c.dst = d) with
  | some c => c.srcs.headD d
  | none => d

theorem repOf_dst {st : St S} (h : Inv P st) {c : Cls S} (hc : c ∈ st.cls) : repOf st c.dst ∈ c.srcs := by
  unfold repOf
  cases hf : st.cls.find? fun c' => decide (c'.dst = c.dst) with
  | none => have := List.find?_eq_none.1 hf c hc; simp at this
  | some c' =>
    have h1 : c'.dst = c.dst := by simpa using List.find?_some hf
    have h2 := h.dinj c' (List.mem_of_find?_eq_some hf) c hc h1
    subst h2
    simp only
    have := h.ne _ hc
    cases hs : c'.srcs with
    | nil => exact absurd hs this
    | cons a l => simp

theorem repOf_self {st : St S} {d : Idx S} (hd : ∀ c ∈ st.cls, c.dst ≠ d) : repOf st d = d := by
  unfold repOf
  cases hf : st.cls.find? fun c' => decide (c'.dst = d) with
  | none => rfl
  | some c' =>
    have h1 : c'.dst = d := by simpa using List.find?_some hf
    exact absurd h1 (hd c' (List.mem_of_find?_eq_some hf))

variable [DecidableEq V] [Fintype V] [Ring A]

/-- The replacement keeps the value, summed over the images of the summed indices. -/
theorem rules_value {P : Pass T S V A} (hP : P.WF) (hall : ∀ i, i ∈ used P.fs → i ∈ P.all)
    (hext : ∀ i ∈ P.ext, P.I.dom i.space (P.e i) = true) {st : St S} (h : Inv P st) :
    value P.I P.D P.e P.fs = value P.I ((P.D.image st.rho).filter (· ∉ P.ext)) P.e (P.fs.map (Fac.map st.rho)) := by
  have hself : ∀ i ∈ P.D, ∀ c ∈ st.cls, c.dst ≠ i := by
    intro i hi c hc hcd
    rcases h.dst c hc with ⟨h1, _⟩ | ⟨h1, _⟩
    · rw [hcd] at h1; exact hP.D_ext i hi h1
    · rw [hcd] at h1; exact h1 (hP.D_all i hi)
  have hout : ∀ i, i ∉ P.D → st.rho i = i := by
    intro i hi
    rcases rho_cases (st := st) i with ⟨c, hc, hs, _⟩ | ⟨_, h2⟩
    · exact absurd (h.src_mem c hc i hs) hi
    · exact h2
  have hD' : ∀ i ∈ P.D, st.rho i ∉ (P.D.image st.rho).filter (· ∉ P.ext) → st.rho i ∈ P.ext := by
    intro i hi hn
    by_contra hx
    exact hn (Finset.mem_filter.2 ⟨Finset.mem_image.2 ⟨i, hi, rfl⟩, hx⟩)
  refine value_rule P.I (rep := repOf st) ?_ ?_ ?_ ?_ ?_
  · intro d hd
    obtain ⟨hd1, hdx⟩ := Finset.mem_filter.1 hd
    obtain ⟨i, hi, rfl⟩ := Finset.mem_image.1 hd1
    rcases rho_cases (st := st) i with ⟨c, hc, hs, he⟩ | ⟨_, he⟩
    · rw [he]
      have := repOf_dst h hc
      exact ⟨h.src_mem c hc _ this, rho_of_mem h hc this⟩
    · rw [he, repOf_self (hself i hi)]; exact ⟨hi, he⟩
  · intro i hi hiD
    refine ⟨hout i hiD, ?_⟩
    intro hm
    have := (Finset.mem_filter.1 hm).2
    exact this ((hP.all_D i (hall i hi)).resolve_left hiD)
  · intro i hi v hv
    rcases rho_cases (st := st) i with ⟨c, hc, hs, he⟩ | ⟨_, he⟩
    · rw [he] at hv; exact h.sub c hc i hs v hv
    · rw [he] at hv; exact hv
  · intro i hi hn
    exact hext _ (hD' i hi hn)
  · intro σ hσ
    have hval : ∀ i ∈ P.D, P.I.dom (st.rho i).space (σ i) = true ∧ σ (repOf st (st.rho i)) = σ i ∧ (st.rho i ∈ P.ext → P.e (st.rho i) = σ i) := by
      intro i hi
      rcases rho_cases (st := st) i with ⟨c, hc, hs, he⟩ | ⟨_, he⟩
      · have := h.val σ ⟨hσ, hext⟩ c hc i hs
        rw [he]
        exact ⟨this.1, this.2.2 _ (repOf_dst h hc), this.2.1⟩
      · rw [he, repOf_self (hself i hi)]
        exact ⟨hσ.dom i hi, rfl, fun hx => absurd hx (hP.D_ext i hi)⟩
    refine ⟨?_, ?_⟩
    · intro d hd
      obtain ⟨hd1, hdx⟩ := Finset.mem_filter.1 hd
      obtain ⟨i, hi, rfl⟩ := Finset.mem_image.1 hd1
      rw [(hval i hi).2.1]; exact (hval i hi).1
    · intro i hi
      exact ⟨fun _ => (hval i hi).2.1, fun hn => (hval i hi).2.2 (hD' i hi hn)⟩

end SeQuant.Reduce
