import Verif.Binarize.CompareProps

/-!
# Evaluation with a cache that uses the comparison of nodes (C57)
-/

namespace SeQuant.Binarize

open SeQuant.Eval SeQuant.Tensors SeQuant.Optimize

variable {L ι K H G S : Type} [DecidableEq ι] [CommRing K] [Star K]

theorem Every.imp {A : Type} {P Q : ETree A → Prop} (h : ∀ n, P n → Q n) : ∀ {n : ETree A}, Every P n → Every Q n := by
  intro n
  induction n with
  | leaf a => exact h _
  | node a l r ihl ihr => exact fun hn => ⟨h _ hn.1, ihl hn.2.1, ihr hn.2.2⟩

/-- The trees that may be evaluated with the same cache. -/
def Fit (D : Store L ι S K) (cfg : Cfg L ι K H G) (Adm : Ten L ι → Prop) (n : Node L ι K H G) : Prop :=
  Every (fun n => At D cfg n ∧ PhasesKept n ∧ ∀ t ∈ collect n, Adm t) n

variable {D : Store L ι S K} {cfg : Cfg L ι K H G} {Key R M : Type} [DecidableEq Key]

/-- A backend that computes with arrays, in memory that it only extends. -/
structure Backend (D : Store L ι S K) (env : Env (EE L ι K H G) Key R M) (W : View M R (List Nat → K)) : Prop where
  op : env.op = EE.op
  phase : env.phase = EE.phase
  leaf : ∀ a m, W.inv m → Ext W m (env.leaf a m).1 ∧ W.val (env.leaf a m).1 (env.leaf a m).2 ((arrays D).leaf a)
  sum : ∀ t x y m u v, W.val m x u → W.val m y v → Ext W m (env.sum t x y m).1 ∧
    W.val (env.sum t x y m).1 (env.sum t x y m).2 ((arrays D).sum t u v)
  prod : ∀ t x y m u v, W.val m x u → W.val m y v → Ext W m (env.prod t x y m).1 ∧
    W.val (env.prod t x y m).1 (env.prod t x y m).2 ((arrays D).prod t u v)
  adj : ∀ t x m u, W.val m x u → Ext W m (env.adj t x m).1 ∧ W.val (env.adj t x m).1 (env.adj t x m).2 ((arrays D).adj t u)
  scale : ∀ p x m u, W.val m x u → Ext W m (env.scale p x m).1 ∧ W.val (env.scale p x m).1 (env.scale p x m).2 ((arrays (H := H) (G := G) D).scale p u)
  custom : env.custom = none
  hook : env.hook = none

variable [DecidableEq L] [DecidableEq K] [DecidableEq H] [DecidableEq G] [DecidableEq S]

theorem fit_sound {Adm : Ten L ι → Prop} (hnet : NetLaw D cfg Adm) (hadj : AdjLaw D Adm) {env : Env (EE L ι K H G) Key R M}
    {W : View M R (List Nat → K)} (hB : Backend D env W) (hkey : ∀ t t', env.key t = env.key t' → same D.sp t t' = true) :
    Sound env (arrays D) W (Fit D cfg Adm) where
  children a l r h := ⟨h.2.1, h.2.2⟩
  leaf := hB.leaf
  sum := hB.sum
  prod := hB.prod
  adj := hB.adj
  scale := hB.scale
  phase t ht v := by
    funext q
    rw [hB.phase]
    have h := phase_unit (Adm := Adm) hnet (ht.imp fun n h => h.1) (ht.imp fun n h => h.2.1)
    show ((t.label.phase : Int) : K) * (((t.label.phase : Int) : K) * v q) = v q
    rw [← mul_assoc, ← Int.cast_mul, h, Int.cast_one, one_mul]
  coherent t t' ht ht' h := by
    have hs := hkey t t' h
    have := same_sound_partial hnet hadj (ht.imp fun n h => h.1) (ht'.imp fun n h => h.1) (ht.imp fun n h => h.2.1)
      (ht'.imp fun n h => h.2.1) ht.here.2.2 ht'.here.2.2 hs
    have e : ∀ t : Node L ι K H G, canonical env (arrays D) t = fun p => ((t.label.phase : Int) : K) * nodeArr D t p := by
      intro t
      unfold canonical
      rw [hB.phase, hB.op]
      split
      · rename_i h1
        funext p
        rw [h1, Int.cast_one, one_mul]
        rfl
      · rfl
    rw [e, e]
    funext p
    exact this p
  custom f h := by rw [hB.custom] at h; simp at h
  hook f h := by rw [hB.hook] at h; simp at h

/-- Trees made from expressions without sums evaluate to the values of the expressions, whatever was evaluated before with the same cache, if
the cache takes only nodes that compare equal for the same. -/
theorem cached_value_partial {Adm : Ten L ι → Prop} (hc : Lawful cfg) (hnet : NetLaw D cfg Adm) (hadj : AdjLaw D Adm)
    {env : Env (EE L ι K H G) Key R M} {W : View M R (List Nat → K)} (hB : Backend D env W)
    (hkey : ∀ t t', env.key t = env.key t' → same D.sp t t' = true) (reg : List (Key × Nat)) (pers : Key → Bool) (m : M) (hm : W.inv m)
    (cs : List (Cmd (EE L ι K H G)))
    (hcs : ∀ t b, Cmd.eval t b ∈ cs → (∃ V e, WF D cfg V e ∧ NoSum e ∧ bin cfg V e = some t) ∧
      Every (fun n => PhasesKept n ∧ ∀ t ∈ collect n, Adm t) t) :
    ∃ mc' rs, runCmds env cs (m, Cache.make reg pers) = some (mc', rs) ∧
      rs.map Prod.fst = (cs.filterMap fun c => match c with | .eval t _ => some t | .reset => none) ∧
      ∀ q ∈ rs, ∀ V e, WF D cfg V e → bin cfg V e = some q.1 → ∃ arr, W.val mc'.1 q.2 arr ∧ ∀ ρ, arr (q.1.label.idx.map ρ) = value D V e ρ := by
  have hS : ∀ t b, Cmd.eval t b ∈ cs → Fit D cfg Adm t := by
    intro t b ht
    obtain ⟨⟨V, e, h1, h2, h3⟩, h4⟩ := hcs t b ht
    obtain ⟨n, h5, -, -, h6⟩ := bin_net hc V e h1 h2
    rw [h3, Option.some.injEq] at h5
    subst h5
    have both : ∀ {n : Node L ι K H G}, Every (At D cfg) n → Every (fun n => PhasesKept n ∧ ∀ t ∈ collect n, Adm t) n → Fit D cfg Adm n := by
      intro n
      induction n with
      | leaf a => exact fun h h' => ⟨h, h'⟩
      | node a l r ihl ihr => exact fun h h' => ⟨⟨h.1, h'.1⟩, ihl h.2.1 h'.2.1, ihr h.2.2 h'.2.2⟩
    exact both h6 h4
  obtain ⟨mc', rs, h1, h2, h3⟩ := runCmds_correct (fit_sound hnet hadj hB hkey) reg pers m cs hm hS
  refine ⟨mc', rs, h1, by rw [h3]; congr 1; funext c; cases c <;> rfl, ?_⟩
  intro q hq V e he hbin
  refine ⟨_, h2 q hq, ?_⟩
  obtain ⟨n, h4, h5, -⟩ := binarize_value_partial (D := D) hc V e he
  rw [hbin, Option.some.injEq] at h4
  intro ρ
  rw [← h5, ← h4, hB.op]
  rfl

/-! ### Adjoint tensors -/

/-- Adjoint tensors without empty slots whose label determines the numbers of bra and ket indices. -/
def FullAdj (kb kk : L → Nat) (t : Ten L ι) : Prop :=
  t.adj = true → t.idx.Nodup ∧ ∃ b c : List ι, t.s.bra = b.map some ∧ t.s.ket = c.map some ∧ b.length = kb t.label ∧ c.length = kk t.label

omit [DecidableEq ι] in
theorem swapBraKet_full (s : Tens ι) (b c : List ι) (hb : s.bra = b.map some) (hc : s.ket = c.map some) :
    swapBraKet s = { s with bra := c.map some, ket := b.map some } := by
  unfold swapBraKet canonicalizeSlots
  simp [hb, hc]

omit [DecidableEq ι] in
theorem full_idx (t : Ten L ι) (b c : List ι) (hb : t.s.bra = b.map some) (hc : t.s.ket = c.map some) :
    t.idx = b ++ (c ++ t.aux) ∧ t.adjoint.idx = c ++ (b ++ t.aux) ∧ t.slots = b.length + c.length + t.aux.length ∧
      t.adjoint.slots = c.length + b.length + t.aux.length := by
  have e := swapBraKet_full t.s b c hb hc
  refine ⟨?_, ?_, ?_, ?_⟩
  · simp [Ten.idx, hb, hc, List.filterMap_map]
  · simp [Ten.idx, Ten.adjoint, e, List.filterMap_map]
  · simp [Ten.slots, hb, hc]
  · simp [Ten.slots, Ten.adjoint, e]

omit [DecidableEq K] [DecidableEq H] [DecidableEq G] in
/-- Such tensors are told apart. -/
theorem adjLaw_full (D : Store L ι S K) (kb kk : L → Nat) : AdjLaw D (FullAdj kb kk) := by
  intro t u ht hu ha hbl p
  obtain ⟨h1, h2, h3, h4, h5⟩ := blockEq_iff.1 hbl
  obtain ⟨nt, b, c, tb, tc, lb, lc⟩ := ht ha
  have ha' : u.adj = true := by rw [← h2, ha]
  obtain ⟨nu, b', c', ub, uc, lb', lc'⟩ := hu ha'
  obtain ⟨t1, t2, t3, t4⟩ := full_idx t b c tb tc
  obtain ⟨u1, u2, u3, u4⟩ := full_idx u b' c' ub uc
  have eb : b.length = b'.length := by rw [lb, lb', h1]
  have ec : c.length = c'.length := by rw [lc, lc', h1]
  have split : ∀ {α : Type} (f g : ι → α), t.idx.map f = u.idx.map g → t.adjoint.idx.map f = u.adjoint.idx.map g := by
    intro α f g h
    rw [t1, u1] at h
    simp only [List.map_append] at h
    obtain ⟨x1, x2⟩ := List.append_inj h (by simp [eb])
    obtain ⟨x3, x4⟩ := List.append_inj x2 (by simp [ec])
    rw [t2, u2]
    simp only [List.map_append, x1, x3, x4]
  have es : t.adjoint.slots = u.adjoint.slots := by omega
  have e1 := split D.sp D.sp h5
  have e2 := split (asg t.idx p) (asg u.idx p) (by rw [map_asg nt, map_asg nu, h4])
  simp only [Store.ten, ha, ha', if_true, h1, es, e1, e2]

end SeQuant.Binarize
