import Verif.Linked.Search

/-!
# The constrained search is a filter of the unconstrained one: the induction
-/

namespace SeQuant.Linked

open SeQuant.Wick

variable {Op : Type}

/-- The pair is avoided. -/
def forbidden (avoided : Option (Nat → Nat → Bool)) (n1 n2 : Nat) : Bool :=
  match avoided with
  | none => false
  | some a => !a n1 n2

theorem connect_forbidden (g : Cfg Op) (target avoided : Option (Nat → Nat → Bool)) (n1 n2 r1 r2 : Nat) (o1 o2 : Op) (s : CState Op)
    (h : forbidden avoided n1 n2 = true) : connect g target avoided n1 n2 r1 r2 o1 o2 s = none := by
  cases avoided with
  | none => simp [forbidden] at h
  | some a => simp only [forbidden] at h; simp [connect, h]

theorem register_conn (g : Cfg Op) (o1 o2 : Op) (n1 n2 : Nat) (s : CState Op) :
    (register o1 o2 (connectOp g o1 o2 (connectNop g n2 (connectNop g n1 s)))).nopConn = s.nopConn := by
  unfold register connectOp connectNop
  split <;> split <;> split <;> rfl

theorem connect_free (g : Cfg Op) (avoided : Option (Nat → Nat → Bool)) (n1 n2 r1 r2 : Nat) (o1 o2 : Op) (s : CState Op)
    (h : forbidden avoided n1 n2 = false) :
    ∃ s', connect g none avoided n1 n2 r1 r2 o1 o2 s = some s' ∧ s'.nopConn = s.nopConn := by
  refine ⟨register o1 o2 (connectOp g o1 o2 (connectNop g n2 (connectNop g n1 s))), ?_, register_conn ..⟩
  cases avoided with
  | none => simp [connect]
  | some a => simp only [forbidden] at h; simp [connect, h]

theorem connect_needs (g : Cfg Op) (t : Nat → Nat → Bool) (avoided : Option (Nat → Nat → Bool)) (n1 n2 r1 r2 : Nat) (o1 o2 : Op)
    (s : CState Op)
    (h : needs g.nnop (connBits n1 n2 s.nopConn) t n1 > r1 ∨ needs g.nnop (connBits n1 n2 s.nopConn) t n2 > r2) :
    connect g (some t) avoided n1 n2 r1 r2 o1 o2 s = none := by
  by_cases hf : forbidden avoided n1 n2 = true
  · exact connect_forbidden g _ avoided n1 n2 r1 r2 o1 o2 s hf
  · rw [Bool.not_eq_true] at hf
    rcases hc : connect g (some t) avoided n1 n2 r1 r2 o1 o2 s with _ | s'
    · rfl
    · exfalso
      unfold connect at hc
      extract_lets fb was conn s1 i s2 at hc
      split at hc
      · cases hc
      · change needs g.nnop conn t n1 > r1 ∨ needs g.nnop conn t n2 > r2 at h
        change (if needs g.nnop conn t n1 > r1 then none else if needs g.nnop conn t n2 > r2 then none else
          some (register o1 o2 (connectOp g o1 o2 (connectNop g n2 (connectNop g n1 s2))))) = some s' at hc
        by_cases h1 : needs g.nnop conn t n1 > r1
        · rw [if_pos h1] at hc; cases hc
        · rw [if_neg h1] at hc
          rw [if_pos (h.resolve_left h1)] at hc; cases hc

theorem connect_ok (g : Cfg Op) (t : Nat → Nat → Bool) (avoided : Option (Nat → Nat → Bool)) (n1 n2 r1 r2 : Nat) (o1 o2 : Op)
    (s : CState Op) (hf : forbidden avoided n1 n2 = false)
    (h1 : needs g.nnop (connBits n1 n2 s.nopConn) t n1 ≤ r1) (h2 : needs g.nnop (connBits n1 n2 s.nopConn) t n2 ≤ r2) :
    ∃ s', connect g (some t) avoided n1 n2 r1 r2 o1 o2 s = some s' ∧ s'.nopConn = connBits n1 n2 s.nopConn := by
  refine ⟨register o1 o2 (connectOp g o1 o2 (connectNop g n2 (connectNop g n1
      { s with
        nopConn := connBits n1 n2 s.nopConn
        nopAdj := upd s.nopAdj (uptriIdx n1 n2 g.nnop) (s.nopAdj (uptriIdx n1 n2 g.nnop) + 1) }))), ?_, register_conn ..⟩
  unfold connect
  extract_lets fb was conn s1 i s2
  have hfb : fb = false := by
    cases avoided with
    | none => rfl
    | some a => exact hf
  rw [hfb]
  simp only [Bool.false_eq_true, if_false]
  change needs g.nnop conn t n1 ≤ r1 at h1
  change needs g.nnop conn t n2 ≤ r2 at h2
  rw [if_neg (by omega), if_neg (by omega)]
  rfl

/-- What the search may assume: the ordinals are correct and different, and a normal operator without operators left (or no longer
in the sequence) has no required connection left. -/
structure Ready (nnop : Nat) (nopOf : Op → Nat) (target : Option (Nat → Nat → Bool)) (conn : Nat → Nat → Bool)
    (nops : List (Nop Op)) : Prop where
  ord : ∀ l ∈ nops, ∀ o ∈ l.2, nopOf o = l.1
  lt : ∀ l ∈ nops, l.1 < nnop
  nodup : (nops.map Prod.fst).Nodup
  symm : ∀ i j, conn i j = conn j i
  done : ∀ t, target = some t → ∀ k < nnop, (∀ l ∈ nops, l.1 = k → l.2 = []) → needs nnop conn t k = 0

theorem needs_connBits (nnop : Nat) (t conn : Nat → Nat → Bool) (hs : ∀ i j, conn i j = conn j i) (n1 n2 k : Nat)
    (h : needs nnop conn t k = 0) : needs nnop (connBits n1 n2 conn) t k = 0 := by
  rw [needs_zero] at h ⊢
  intro j hj
  rcases h j hj with h | h
  · left; rw [connBits_apply n1 n2 conn hs, h]; rfl
  · exact Or.inr h

theorem countP_ord (nopOf : Op → Nat) (ls : List (Nop Op)) (hord : ∀ l ∈ ls, ∀ o ∈ l.2, nopOf o = l.1) (k : Nat) (hk : k ∉ ls.map Prod.fst) :
    (ls.map Prod.snd).flatten.countP (fun x => decide (nopOf x = k)) = 0 := by
  rw [List.countP_eq_zero]
  intro x hx
  simp only [List.mem_flatten, List.mem_map] at hx
  obtain ⟨_, ⟨l, hl, rfl⟩, hx⟩ := hx
  rw [decide_eq_true_eq, hord l hl x hx]
  intro h
  exact hk (h ▸ List.mem_map_of_mem hl)

theorem countP_self (nopOf : Op → Nat) (l : List Op) (k : Nat) (h : ∀ o ∈ l, nopOf o = k) :
    l.countP (fun x => decide (nopOf x = k)) = l.length := by
  rw [List.countP_eq_length]
  intro x hx
  simp [h x hx]

theorem flatMap_congr_mem {α β : Type} {l : List α} {f g : α → List β} (h : ∀ a ∈ l, f a = g a) : l.flatMap f = l.flatMap g := by
  induction l with
  | nil => rfl
  | cons a l ih =>
    rw [List.flatMap_cons, List.flatMap_cons, h a (by simp), ih (fun b hb => h b (by simp [hb]))]

theorem filter_flatMap {α β : Type} (l : List α) (f : α → List β) (q : β → Bool) :
    (l.flatMap f).filter q = l.flatMap fun a => (f a).filter q := by
  induction l with
  | nil => rfl
  | cons a l ih => simp [List.flatMap_cons, List.filter_append, ih]

/-- One contraction of the search keeps the assumptions. -/
theorem ready_step (nnop : Nat) (nopOf : Op → Nat) (target : Option (Nat → Nat → Bool)) (conn : Nat → Nat → Bool)
    (k : Nat) (o : Op) (rest : List Op) (others : List (Nop Op)) (p : Pick Op) (hp : p ∈ picksC others)
    (h : Ready nnop nopOf target conn ((k, o :: rest) :: others))
    (hn : ∀ t, target = some t → needs nnop (connBits k p.ord conn) t k ≤ rest.length ∧
      needs nnop (connBits k p.ord conn) t p.ord ≤ p.others) :
    Ready nnop nopOf target (connBits k p.ord conn) ((k, rest) :: p.rest) := by
  obtain ⟨a, pre, post, b, h1, h2, h3⟩ := picksC_split others p hp
  have hmem : ∀ l ∈ (k, rest) :: p.rest, ∃ l' ∈ (k, o :: rest) :: others, l'.1 = l.1 ∧ ∀ x ∈ l.2, x ∈ l'.2 := by
    intro l hl
    rw [h2] at hl
    rw [h1]
    simp only [List.mem_cons, List.mem_append] at hl
    rcases hl with rfl | hl | rfl | hl
    · exact ⟨(k, o :: rest), by simp, rfl, fun x hx => by simp [hx]⟩
    · exact ⟨l, by simp [hl], rfl, fun x hx => hx⟩
    · refine ⟨(p.ord, pre ++ p.op :: post), by simp, rfl, fun x hx => ?_⟩
      simp only [List.mem_append, List.mem_cons] at hx ⊢
      tauto
    · exact ⟨l, by simp [hl], rfl, fun x hx => hx⟩
  have hfst : ((k, rest) :: p.rest).map Prod.fst = ((k, o :: rest) :: others).map Prod.fst := by
    rw [h1, h2]; simp
  refine ⟨?_, ?_, by rw [hfst]; exact h.nodup, connBits_symm k p.ord conn h.symm, ?_⟩
  · intro l hl x hx
    obtain ⟨l', hl', e, hs⟩ := hmem l hl
    rw [← e]; exact h.ord l' hl' x (hs x hx)
  · intro l hl
    obtain ⟨l', hl', e, hs⟩ := hmem l hl
    rw [← e]; exact h.lt l' hl'
  · intro t ht k' hk' hempty
    obtain ⟨n1, n2⟩ := hn t ht
    by_cases e1 : k' = k
    · subst e1
      have : rest = [] := hempty (k', rest) (by simp) rfl
      rw [this] at n1
      simpa using n1
    · by_cases e2 : k' = p.ord
      · have : pre ++ post = [] := hempty (p.ord, pre ++ post) (by rw [h2]; simp) e2.symm
        rw [h3, this] at n2
        rw [e2]; simpa using n2
      · apply needs_connBits nnop t conn h.symm
        apply h.done t ht k' hk'
        intro l hl hlk
        rw [h1] at hl
        simp only [List.mem_cons, List.mem_append] at hl
        rcases hl with rfl | hl | rfl | hl
        · exact absurd hlk (by simpa using Ne.symm e1)
        · exact hempty l (by rw [h2]; simp [hl]) hlk
        · exact absurd hlk (by simpa using Ne.symm e2)
        · exact hempty l (by rw [h2]; simp [hl]) hlk

/-- The constrained search finds exactly those full sets of contractions of the unconstrained search that satisfy the
constraints, in the same order. -/
theorem wickConn_filter (S : Statistics) (isQpAnn : Op → Bool) (cc : Op → Op → Bool) (g : Cfg Op) (nopOf : Op → Nat)
    (target avoided : Option (Nat → Nat → Bool)) (fuel : Nat) (s : CState Op) (nops : List (Nop Op))
    (h : Ready g.nnop nopOf target s.nopConn nops) :
    wickConn S isQpAnn cc g target avoided fuel s nops =
      (wickFull S isQpAnn cc fuel (nops.map Prod.snd)).filter fun t =>
        okT g.nnop nopOf target s.nopConn t.2 && okA nopOf avoided t.2 := by
  induction fuel generalizing s nops with
  | zero => rfl
  | succ fuel ih =>
    match nops with
    | [] => rfl
    | (k, []) :: nops =>
      simp only [wickConn, List.map_cons, wickFull]
      apply ih
      refine ⟨fun l hl => h.ord l (by simp [hl]), fun l hl => h.lt l (by simp [hl]), (List.nodup_cons.mp h.nodup).2, h.symm, ?_⟩
      intro t ht k' hk' hempty
      apply h.done t ht k' hk'
      intro l hl hlk
      simp only [List.mem_cons] at hl
      rcases hl with rfl | hl
      · rfl
      · exact hempty l hl hlk
    | (k, o :: rest) :: others =>
      simp only [wickConn, List.map_cons, wickFull]
      by_cases hq : isQpAnn o = true
      swap
      · simp [hq]
      simp only [hq, Bool.not_true, Bool.false_eq_true, if_false]
      rw [picks_picksC, filter_flatMap, List.flatMap_map]
      apply flatMap_congr_mem
      intro p hp
      by_cases hcc : cc o p.op = true
      swap
      · simp [hcc]
      simp only [hcc, if_true]
      obtain ⟨a, pre, post, b, h1, h2, h3⟩ := picksC_split others p hp
      have ho : nopOf o = k := h.ord (k, o :: rest) (by simp) o (by simp)
      have hop : nopOf p.op = p.ord := h.ord (p.ord, pre ++ p.op :: post) (by rw [h1]; simp) p.op (by simp)
      have hklt : k < g.nnop := h.lt (k, o :: rest) (by simp)
      have hplt : p.ord < g.nnop := h.lt (p.ord, pre ++ p.op :: post) (by rw [h1]; simp)
      -- the predicate on a summand that begins with this contraction
      have hA : ∀ cs, okA nopOf avoided ((o, p.op) :: cs) = (!forbidden avoided k p.ord && okA nopOf avoided cs) := by
        intro cs
        cases avoided with
        | none => rfl
        | some a => simp [okA, forbidden, ho, hop]
      by_cases hf : forbidden avoided k p.ord = true
      · rw [connect_forbidden _ _ _ _ _ _ _ _ _ _ hf]
        symm
        rw [List.filter_eq_nil_iff]
        intro t ht
        have : ∃ cs, t.2 = (o, p.op) :: cs := by
          split at ht
          · simp only [List.mem_singleton] at ht; exact ⟨[], by rw [ht]⟩
          · simp only [List.mem_map] at ht; obtain ⟨t', _, rfl⟩ := ht; exact ⟨t'.2, rfl⟩
        obtain ⟨cs, hcs⟩ := this
        rw [hcs, hA, hf]; simp
      · rw [Bool.not_eq_true] at hf
        have hA' : ∀ cs, okA nopOf avoided ((o, p.op) :: cs) = okA nopOf avoided cs := by
          intro cs; rw [hA, hf]; rfl
        have hA0 : okA nopOf avoided [] = true := by cases avoided <;> rfl
        match htarget : target with
        | none =>
          obtain ⟨s', hs', hconn⟩ := connect_free g avoided k p.ord rest.length p.others o p.op s hf
          rw [hs']
          simp only
          have hr : Ready g.nnop nopOf none s'.nopConn ((k, rest) :: p.rest) := by
            have := ready_step g.nnop nopOf none s.nopConn k o rest others p hp h (fun t ht => by cases ht)
            exact ⟨this.ord, this.lt, this.nodup, by rw [hconn]; exact h.symm, fun t ht => by cases ht⟩
          split
          · simp [okT, hA', hA0]
          · rw [ih s' _ hr, List.filter_map]
            congr 1
            apply List.filter_congr
            intro t ht
            simp [okT, hA']
        | some t =>
          have hT : ∀ cs, okT g.nnop nopOf (some t) s.nopConn ((o, p.op) :: cs) =
              okT g.nnop nopOf (some t) (connBits k p.ord s.nopConn) cs := by
            intro cs; rw [okT_cons _ _ _ _ h.symm, ho, hop]
          -- the operators of the two normal operators that are left
          have hnd := h.nodup
          have hkn : k ∉ others.map Prod.fst := by
            simp only [List.map_cons] at hnd; exact (List.nodup_cons.mp hnd).1
          have hpn : p.ord ∉ (a ++ b).map Prod.fst ∧ p.ord ≠ k := by
            rw [h1] at hnd hkn
            simp only [List.map_cons, List.map_append, List.nodup_cons, List.mem_append, List.mem_cons] at hnd hkn
            have hnd2 := hnd.2
            rw [List.nodup_middle] at hnd2
            refine ⟨by simpa using (List.nodup_cons.mp hnd2).1, ?_⟩
            rintro rfl
            exact hkn (Or.inr (Or.inl rfl))
          have hordr := (ready_step g.nnop nopOf none s.nopConn k o rest others p hp
            ⟨h.ord, h.lt, h.nodup, h.symm, fun t ht => by cases ht⟩ (fun t ht => by cases ht)).ord
          have hfstr : p.rest.map Prod.fst = others.map Prod.fst := by rw [h1, h2]; simp
          have hck : ((rest :: p.rest.map Prod.snd).flatten).countP (fun x => decide (nopOf x = k)) = rest.length := by
            rw [List.flatten_cons, List.countP_append,
              countP_self nopOf rest k (fun x hx => hordr (k, rest) (by simp) x hx),
              countP_ord nopOf p.rest (fun l hl => hordr l (by simp [hl])) k (by rw [hfstr]; exact hkn)]
            rfl
          have hcp : ((rest :: p.rest.map Prod.snd).flatten).countP (fun x => decide (nopOf x = p.ord)) = p.others := by
            have e1 : rest.countP (fun x => decide (nopOf x = p.ord)) = 0 := by
              have := countP_ord nopOf [(k, rest)] (fun l hl => hordr l (by simp at hl; simp [hl])) p.ord (by simpa using hpn.2)
              simpa using this
            have hab : ∀ l ∈ a ++ b, ∀ x ∈ l.2, nopOf x = l.1 := by
              intro l hl
              refine hordr l ?_
              rw [h2]
              simp only [List.mem_append] at hl
              rcases hl with hl | hl <;> simp [hl]
            have e2 := countP_ord nopOf a (fun l hl => hab l (by simp [hl])) p.ord
              (fun hm => hpn.1 (by simp only [List.map_append, List.mem_append]; exact Or.inl hm))
            have e3 := countP_ord nopOf b (fun l hl => hab l (by simp [hl])) p.ord
              (fun hm => hpn.1 (by simp only [List.map_append, List.mem_append]; exact Or.inr hm))
            have e4 := countP_self nopOf (pre ++ post) p.ord (fun x hx => hordr (p.ord, pre ++ post) (by rw [h2]; simp) x hx)
            rw [h2, h3]
            simp only [List.map_append, List.map_cons, List.flatten_cons, List.flatten_append, List.countP_append] at e1 e2 e3 e4 ⊢
            omega
          -- every full set of contractions of the rest
          have hall : ∀ t' ∈ (if opsize (rest :: p.rest.map Prod.snd) = 0 then [(phase S (rest.length + p.skip), [(o, p.op)])]
              else (wickFull S isQpAnn cc fuel (rest :: p.rest.map Prod.snd)).map fun t' =>
                (phase S (rest.length + p.skip) * t'.1, (o, p.op) :: t'.2)),
              ∃ cs, t'.2 = (o, p.op) :: cs ∧ (pairOps cs).Perm (rest :: p.rest.map Prod.snd).flatten := by
            intro t' ht'
            split at ht'
            · rename_i h0
              simp only [List.mem_singleton] at ht'
              refine ⟨[], by rw [ht'], ?_⟩
              have : (rest :: p.rest.map Prod.snd).flatten = [] :=
                List.length_eq_zero_iff.mp (by rw [← opsize_flatten]; exact h0)
              rw [this]; exact List.Perm.refl _
            · simp only [List.mem_map] at ht'
              obtain ⟨t'', h'', rfl⟩ := ht'
              exact ⟨t''.2, rfl, wickFull_perm S isQpAnn cc fuel _ t'' h''⟩
          by_cases hn : needs g.nnop (connBits k p.ord s.nopConn) t k > rest.length ∨
              needs g.nnop (connBits k p.ord s.nopConn) t p.ord > p.others
          · rw [connect_needs _ _ _ _ _ _ _ _ _ _ hn]
            symm
            rw [List.filter_eq_nil_iff]
            intro t' ht'
            obtain ⟨cs, hcs, hperm⟩ := hall t' ht'
            rw [hcs, hT]
            intro hok
            rw [Bool.and_eq_true] at hok
            have b1 := needs_le k hklt hok.1
            have b2 := needs_le p.ord hplt hok.1
            rw [hperm.countP_eq] at b1 b2
            rw [hck] at b1
            rw [hcp] at b2
            omega
          · rw [not_or] at hn
            obtain ⟨s', hs', hconn⟩ := connect_ok g t avoided k p.ord rest.length p.others o p.op s hf (by omega) (by omega)
            rw [hs']
            simp only
            have hr := ready_step g.nnop nopOf (some t) s.nopConn k o rest others p hp h
              (fun t' ht' => by cases ht'; constructor <;> omega)
            split
            · rename_i h0
              have hempty : ∀ l ∈ (k, rest) :: p.rest, l.2 = [] := by
                intro l hl
                have hsum : (((k, rest) :: p.rest).map Prod.snd).flatten = [] := by
                  apply List.length_eq_zero_iff.mp
                  rw [← opsize_flatten]; exact h0
                rw [List.flatten_eq_nil_iff] at hsum
                exact hsum l.2 (List.mem_map_of_mem hl)
              have hok : okT g.nnop nopOf (some t) (connBits k p.ord s.nopConn) [] = true := by
                rw [okT_iff]
                intro i hi j hj
                have := needs_zero.mp (hr.done t rfl i hi (fun l hl _ => hempty l hl)) j hj
                tauto
              simp [hT, hA', hA0, hok]
            · rw [← hconn] at hr
              rw [ih s' _ hr, List.filter_map]
              congr 1
              apply List.filter_congr
              intro t' ht'
              simp [hT, hA', hconn]

end SeQuant.Linked
