import Verif.Network.LexLemmas
import Verif.Network.Ext
import Verif.Network.Total
import Mathlib.Data.List.Lex
import Mathlib.Algebra.Order.BigOperators.Ring.List

/-!
# Canonicalization of tensor networks: properties

`canonicalize` keeps the value of the network, the sum over its anonymous indices of the product of its tensors, up to the byproduct.
-/

namespace SeQuant.Network

open SeQuant.Sort SeQuant.Tensors

variable {L C S V A : Type} [DecidableEq S] [DecidableEq C]

/-! ## Concrete networks -/

/-- Indices ordered by space, ordinal, proto-indices. -/
def Ix.key (i : Ix ℕ) : List ℕ := i.space :: i.ord :: i.protos.flatMap fun p => [p.space, p.ord]

def natOrds : Ords ℕ := ⟨fun i j => decide (i.key < j.key), fun p q => decide ([p.space, p.ord] < [q.space, q.ord])⟩

theorem key_inj {i j : Ix ℕ} (h : i.key = j.key) : i = j := by
  obtain ⟨a, b, p⟩ := i
  obtain ⟨c, d, q⟩ := j
  simp only [Ix.key, List.cons.injEq] at h
  obtain ⟨rfl, rfl, h⟩ := h
  congr 1
  induction p generalizing q with
  | nil => cases q with
    | nil => rfl
    | cons y q => simp at h
  | cons x p ih => cases q with
    | nil => simp at h
    | cons y q =>
      obtain ⟨x1, x2⟩ := x
      obtain ⟨y1, y2⟩ := y
      simp only [List.flatMap_cons, List.cons_append, List.nil_append, List.cons.injEq] at h
      obtain ⟨rfl, rfl, h⟩ := h
      rw [ih q h]

theorem natOrds_total : natOrds.Total where
  irrefl i := by simp [natOrds]
  trans i j k h1 h2 := by
    simp only [natOrds, decide_eq_true_eq] at h1 h2 ⊢
    exact lt_trans h1 h2
  total i j h := by
    simp only [natOrds, decide_eq_true_eq]
    exact lt_or_gt_of_ne fun hh => h (key_inj hh)

/-- Occupied (0) and virtual (1) indices. -/
def ii (n : ℕ) : Ix ℕ := ⟨0, n, []⟩
def aa (n : ℕ) (p : List ℕ) : Ix ℕ := ⟨1, n, p.map fun k => ⟨0, k⟩⟩

/-- Comparators of the lexicographic stage. -/
def optLt (f : Ix ℕ → List ℕ) (x y : Option (Ix ℕ)) : Bool := decide ((x.map f).getD [] < (y.map f).getD [])

def natLex : Lex ℕ ℕ ℕ where
  spaceLess := optLt fun i => [i.space]
  blockIdx := optLt fun i => [i.space]
  blockPair x y := if x.1 = y.1 then optLt (fun i => [i.space]) x.2 y.2 else optLt (fun i => [i.space]) x.1 y.1
  idx := optLt Ix.key
  pair x y := if x.1 = y.1 then optLt Ix.key x.2 y.2 else optLt Ix.key x.1 y.1
  edge x y := decide (x.idx.key < y.idx.key)
  base _ x y := decide (x.label < y.label)

def tens (label : ℕ) (sym : Sym) (bra ket : List (Ix ℕ)) : NT ℕ ℕ ℕ :=
  ⟨label, 0, true, ⟨sym, false, true, bra.map some, ket.map some⟩, []⟩

/-! ## The topological stage -/

/-- The topological stage keeps the value, up to the sign.  Missing: networks in which two anonymous indices differ in their proto-indices only
(`canonGraph_refuted`), named indices given by the caller without the proto-indices that are in no slot (`canonGraph_capture`). -/
theorem canonGraph_value_partial [Fintype V] [Ring A] {O : Ords S} (hO : O.Total) {fuel : Nat} {π : Nat → Nat} {named : List (Ix S)}
    {ts : List (NT L C S)} {r : List (NT L C S) × List Nat × ℤ} (hc : Closed named ts) (hd : Distinct named ts)
    (hv : ∀ n ∈ ts, n.t.sym = .nonsymm → Valid n.t) (h : canonGraph O fuel π named ts = some r) (I : Interp L S V A)
    (hI : Sound I (ts.map NT.head)) (e : Ix S → V) : value I (dummies named ts) e ts = r.2.2 • value I (dummies named r.1) e r.1 :=
  (canonGraph_keeps hO hc hd hv h).1.value I hI e

/-- With the default named indices no condition on these is needed. -/
theorem canonGraph_default_partial [Fintype V] [Ring A] {O : Ords S} (hO : O.Total) {fuel : Nat} {π : Nat → Nat}
    {ts : List (NT L C S)} {r : List (NT L C S) × List Nat × ℤ} (hd : Distinct (extIndices (initEdges O ts)) ts)
    (hv : ∀ n ∈ ts, n.t.sym = .nonsymm → Valid n.t) (h : canonGraph O fuel π (extIndices (initEdges O ts)) ts = some r) (I : Interp L S V A)
    (hI : Sound I (ts.map NT.head)) (e : Ix S → V) :
    value I (dummies (extIndices (initEdges O ts)) ts) e ts = r.2.2 • value I (dummies (extIndices (initEdges O ts)) r.1) e r.1 :=
  canonGraph_value_partial hO (closed_ext hO ts) hd hv h I hI e

/-- The topological stage runs to its end. -/
theorem canonGraph_total {O : Ords S} (hO : O.Total) {π : Nat → Nat} {named : List (Ix S)} {ts : List (NT L C S)} (hc : Closed named ts)
    (hd : Distinct named ts) (hl : ∀ n ∈ ts, LaidT n) : ∃ fuel r, canonGraph O fuel π named ts = some r := by
  have hb : ∀ l : List (NT L C S), ∃ N, ∀ n ∈ l, max n.t.bra.length n.t.ket.length * max n.t.bra.length n.t.ket.length < N := by
    intro l
    induction l with
    | nil => exact ⟨0, by simp⟩
    | cons n l ih =>
      obtain ⟨N, hN⟩ := ih
      refine ⟨N + max n.t.bra.length n.t.ket.length * max n.t.bra.length n.t.ket.length + 1, fun m hm => ?_⟩
      rcases List.mem_cons.1 hm with h | h
      · rw [h]; omega
      · have := hN m h; omega
  obtain ⟨N, hN⟩ := hb ts
  exact ⟨N + 3 + (ts.length * ts.length + 1), canonGraph_some hO hc hd hl (by omega) (by omega) fun n hn => by have := hN n hn; omega⟩

/-- Slots as the constructors of `Tensor` leave them (`canonicalize_slots`) need no further condition. -/
theorem canonGraph_total' {O : Ords S} (hO : O.Total) {π : Nat → Nat} {named : List (Ix S)} {ts : List (NT L C S)} (hc : Closed named ts)
    (hd : Distinct named ts) (hl : ∀ n ∈ ts, ∃ t, n.t = canonicalizeSlots t) : ∃ fuel r, canonGraph O fuel π named ts = some r := by
  refine canonGraph_total hO hc hd fun n hn hs hcol => ?_
  obtain ⟨t, ht⟩ := hl n hn
  rw [ht] at hs hcol ⊢
  have h1 : (canonicalizeSlots t).sym = t.sym ∧ (canonicalizeSlots t).col = t.col := by
    unfold canonicalizeSlots
    split
    · split <;> exact ⟨rfl, rfl⟩
    · exact ⟨rfl, rfl⟩
  rw [h1.1] at hs
  rw [h1.2] at hcol
  exact laid_canonical t hs hcol

/-- An antisymmetric integral and an amplitude. -/
def net1 : List (NT ℕ ℕ ℕ) := [tens 1 .antisymm [aa 5 [], aa 3 []] [ii 9, ii 4], tens 0 .antisymm [ii 4, ii 9] [aa 3 [], aa 5 []]]

def pi1 : Nat → Nat := fun v => (7 * v) % 23

/-- Antisymmetric elements: Vandermonde determinants. -/
def vand : List ℤ → ℤ
  | [] => 1
  | a :: l => (l.map fun b => b - a).prod * vand l

theorem vand_swap (p q : List ℤ) (x y : ℤ) : vand (p ++ y :: x :: q) = - vand (p ++ x :: y :: q) := by
  induction p with
  | nil => simp only [List.nil_append, vand, List.map_cons, List.prod_cons]; ring
  | cons a p ih =>
    simp only [List.cons_append, vand, ih]
    have : ((p ++ y :: x :: q).map fun b => b - a).prod = ((p ++ x :: y :: q).map fun b => b - a).prod :=
      (((List.Perm.swap x y q).append_left p).map _).prod_eq
    rw [this, mul_neg]

def slotVal (o : Option (Res ℕ (Fin 3))) : ℤ := (o.map fun r => (r.2.1.val : ℤ)).getD 7

def vandI : Interp ℕ ℕ (Fin 3) ℤ := ⟨fun l b k _ => (l + 2) * vand (b.map slotVal) * vand (k.map slotVal), fun _ _ _ => True⟩

theorem sound_vand (ts : List (NT ℕ ℕ ℕ)) (h : ∀ n ∈ ts, n.t.sym = .antisymm ∧ n.t.braket = true) : Sound vandI (ts.map NT.head) := by
  refine ⟨fun g hg x => ?_, fun _ _ _ _ _ _ _ _ _ _ _ => mul_comm _ _⟩
  obtain ⟨n, hn, rfl⟩ := List.mem_map.1 hg
  obtain ⟨h1, h2⟩ := h n hn
  refine ⟨fun _ => ⟨fun p q x y k => ?_, fun p q x y k => ?_⟩, fun hs => ?_, fun hs => ?_, fun _ b k => ?_⟩
  · simp only [vandI, List.map_append, List.map_cons]; rw [vand_swap]; ring
  · simp only [vandI, List.map_append, List.map_cons]; rw [vand_swap]; ring
  · simp [NT.head, h1] at hs
  · simp [NT.head, h1] at hs
  · simp only [vandI]; ring

def net1' : List (NT ℕ ℕ ℕ) := net1.map fun n => { n with t := { n.t with braket := true } }

example : (canonGraph natOrds 20 pi1 (extIndices (initEdges natOrds net1')) net1').map (fun r => (r.1.map NT.slots, r.2)) =
    some ([[some (aa 2 []), some (aa 1 []), some (ii 2), some (ii 1)], [some (ii 2), some (ii 1), some (aa 1 []), some (aa 2 [])]], [0, 1], -1) := by
  decide +kernel

example : Distinct (extIndices (initEdges natOrds net1')) net1' ∧ Sound vandI (net1'.map NT.head) ∧
    (∀ n ∈ net1', n.t.sym = .nonsymm → Valid n.t) ∧ ∀ n ∈ net1', LaidT n := by
  refine ⟨?_, sound_vand _ ?_, ?_, ?_⟩
  · unfold Distinct; decide +kernel
  · decide +kernel
  · intro n hn hs; exfalso; revert n; decide +kernel
  · intro n hn hs; exfalso; revert n; decide +kernel

/-- A network with constant elements. -/
def one (V : Type) : Interp ℕ ℕ V ℤ := ⟨fun _ _ _ _ => 1, fun _ _ _ => True⟩

theorem value_one [Fintype V] (D : Finset (Ix ℕ)) (e : Ix ℕ → V) (ts : List (NT ℕ ℕ ℕ)) : value (one V) D e ts = (Fintype.card V : ℤ) ^ D.card := by
  rw [value]
  simp only [one, implies_true, if_true]
  rw [Finset.sum_congr rfl (g := fun _ => (1 : ℤ)) fun f _ => ?_]
  · simp
  · rw [pval, List.prod_eq_one]
    intro x hx
    obtain ⟨n, _, rfl⟩ := List.mem_map.1 hx
    rfl

theorem sound_one (hs : List (Head ℕ ℕ)) (h : ∀ x ∈ hs, x.sym = .nonsymm) : Sound (one V) hs := by
  refine ⟨fun x hx y => ?_, fun _ _ _ _ _ _ _ _ _ _ _ => rfl⟩
  have h1 := h x hx
  refine ⟨fun hh => ?_, fun hh => ?_, fun _ _ _ _ _ _ _ => rfl, fun _ _ _ => rfl⟩
  · simp [h1] at hh
  · simp [h1] at hh

def net2 : List (NT ℕ ℕ ℕ) :=
  [tens 0 .nonsymm [aa 1 [2], ii 1] [aa 1 [1], ii 2], tens 1 .nonsymm [aa 1 [2], ii 1] [aa 1 [1], ii 2]]

/-- Two anonymous indices `a_1<i_2>`, `a_1<i_1>` become the same one: the former is mapped to itself, hence is not tagged, and after the replacement of its
proto-index it is the key of the latter. -/
theorem canonGraph_refuted : ∃ (π : Equiv.Perm ℕ) (r : List (NT ℕ ℕ ℕ) × List Nat × ℤ),
    canonGraph natOrds 10 π (extIndices (initEdges natOrds net2)) net2 = some r ∧
    (∀ n ∈ net2, n.t.sym = .nonsymm → Valid n.t) ∧ Sound (one Bool) (net2.map NT.head) ∧
    ∀ e, value (one Bool) (dummies (extIndices (initEdges natOrds net2)) net2) e net2 ≠
      r.2.2 • value (one Bool) (dummies (extIndices (initEdges natOrds net2)) r.1) e r.1 := by
  refine ⟨Equiv.swap 20 21 * Equiv.swap 22 24, ([tens 0 .nonsymm [aa 2 [2], ii 2] [aa 2 [2], ii 1], tens 1 .nonsymm [aa 2 [2], ii 2] [aa 2 [2], ii 1]],
    [0, 1], 1), by decide +kernel, ?_, ?_, fun e => ?_⟩
  · intro n hn _ c hc
    simp only [net2, tens, List.mem_cons, List.not_mem_nil, or_false] at hn
    rcases hn with rfl | rfl <;>
    · simp only [List.map_cons, List.map_nil, cols, List.mem_cons, List.not_mem_nil, or_false] at hc
      rcases hc with rfl | rfl <;> simp [full]
  · exact sound_one _ (by decide +kernel)
  · rw [value_one, value_one]
    have h1 : (dummies (extIndices (initEdges natOrds net2)) net2).card = 4 := by decide +kernel
    rw [h1, one_smul]
    decide +kernel

/-- The proto-index `i_1` is in no slot. -/
def net3 : List (NT ℕ ℕ ℕ) := [tens 0 .nonsymm [aa 1 [1]] [ii 7], tens 1 .nonsymm [aa 1 [1]] [ii 7]]

/-- The element is 1 if the proto-index of the bra index is `true`, otherwise 0. -/
def protoI : Interp ℕ ℕ Bool ℤ :=
  ⟨fun _ b k _ => if ((cols b k).all fun c => decide (c.1.map (fun r => r.2.2) = some {((0 : ℕ), true)})) then 1 else 0, fun _ _ _ => True⟩

theorem valid_tens (l : ℕ) (sym : Sym) (b k : List (Ix ℕ)) (h : b.length = k.length) : Valid (tens l sym b k).t := by
  intro c hc
  simp only [tens] at hc
  induction b generalizing k with
  | nil =>
    cases k with
    | nil => simp [cols] at hc
    | cons => simp at h
  | cons x b ih =>
    cases k with
    | nil => simp at h
    | cons y k =>
      simp only [List.map_cons, cols, List.mem_cons] at hc
      rcases hc with hc | hc
      · rw [hc]; rfl
      · exact ih k (by simpa using h) hc

theorem sound_proto (hs : List (Head ℕ ℕ)) (h : ∀ x ∈ hs, x.sym = .nonsymm ∧ x.braket = false) : Sound protoI hs := by
  refine ⟨fun x hx y => ?_, fun _ _ _ _ _ _ _ _ _ _ _ => mul_comm _ _⟩
  obtain ⟨h1, h2⟩ := h x hx
  refine ⟨fun hh => ?_, fun hh => ?_, fun _ _ b k b' k' hp => ?_, fun hh => ?_⟩
  · simp [h1] at hh
  · simp [h1] at hh
  · simp only [protoI, List.all_eq, hp.mem_iff]
  · simp [h2] at hh

theorem protoI_false (σ : Ix ℕ → Bool) (h : σ (ii 1) = false) : pval protoI σ net3 = 0 := by
  have h2 : ((⟨0, 1⟩ : PIx ℕ)).toIx = ii 1 := rfl
  simp [pval, net3, tval, protoI, tens, resL, cols, res, protoVals, aa, h2, h]

theorem protoI_true (σ : Ix ℕ → Bool) (h : σ (ii 1) = true) :
    pval protoI σ [tens 0 .nonsymm [aa 1 [1]] [ii 1], tens 1 .nonsymm [aa 1 [1]] [ii 1]] = 1 := by
  have h2 : ((⟨0, 1⟩ : PIx ℕ)).toIx = ii 1 := rfl
  simp [pval, tval, protoI, tens, resL, cols, res, protoVals, aa, h2, h]

theorem protoI_nonneg (σ : Ix ℕ → Bool) (ts : List (NT ℕ ℕ ℕ)) : 0 ≤ pval protoI σ ts := by
  refine List.prod_nonneg fun x hx => ?_
  obtain ⟨n, _, rfl⟩ := List.mem_map.1 hx
  simp only [tval, protoI]
  split <;> decide

/-- A named set that lacks a proto-index that is in no slot: the fresh index `i_1` captures it. -/
theorem canonGraph_capture : ∃ r, canonGraph natOrds 10 id [] net3 = some r ∧ Distinct [] net3 ∧
    (∀ n ∈ net3, n.t.sym = .nonsymm → Valid n.t) ∧ Sound protoI (net3.map NT.head) ∧
    value protoI (dummies [] net3) (fun _ => false) net3 ≠ r.2.2 • value protoI (dummies [] r.1) (fun _ => false) r.1 := by
  refine ⟨([tens 0 .nonsymm [aa 1 [1]] [ii 1], tens 1 .nonsymm [aa 1 [1]] [ii 1]], [0, 1], 1), by decide +kernel, by unfold Distinct; decide +kernel, ?_, ?_, ?_⟩
  · intro n hn _
    simp only [net3, List.mem_cons, List.not_mem_nil, or_false] at hn
    rcases hn with rfl | rfl <;> exact valid_tens _ _ _ _ rfl
  · exact sound_proto _ (by decide +kernel)
  · have h0 : value protoI (dummies [] net3) (fun _ => false) net3 = 0 := by
      rw [value]
      refine Finset.sum_eq_zero fun f _ => ?_
      rw [protoI_false _ (by rw [extend, dif_neg (by decide +kernel)]), ite_self]
    rw [h0, one_smul]
    refine ne_of_lt ?_
    rw [value]
    refine Finset.sum_pos' (fun f _ => ?_) ⟨fun _ => true, Finset.mem_univ _, ?_⟩
    · split
      · exact protoI_nonneg _ _
      · exact le_refl _
    · rw [if_pos]
      · rw [protoI_true _ (by rw [extend, dif_pos (by decide +kernel)])]
        decide
      · exact fun _ _ => trivial

/-! ## The whole -/

/-- `canonicalize` keeps the value, up to the byproduct.  Missing: besides what is missing in `canonGraph_value_partial`, networks whose named indices are
not all in slots if the lexicographic stage is asked for (`canonicalize_refuted`). -/
theorem canonicalize_keeps {O : Ords S} (hO : O.Total) {X : Lex L C S} {fuel : Nat} {π : Nat → Nat} {topo lex : Bool}
    {opt : Option (List (Ix S))} {ts : List (NT L C S)} {r : List (NT L C S) × List Nat × ℤ}
    (hc : ∀ N, opt = some N → Closed N ts ∧ N.Nodup) (hd : Distinct (namedOf O opt ts) ts) (hs : lex = true → ∀ i ∈ namedOf O opt ts, i ∈ slotIdx ts)
    (hv : ∀ n ∈ ts, n.t.sym = .nonsymm → Valid n.t) (h : canonicalize O X fuel π topo lex opt ts = some r) :
    Keeps (namedOf O opt ts) r.2.2 ts r.1 := by
  have hcl : Closed (namedOf O opt ts) ts := by
    cases opt with
    | none => exact closed_ext hO ts
    | some N => exact (hc N rfl).1
  rw [canonicalize] at h
  simp only [Option.bind_eq_bind, Option.bind_eq_some_iff, Option.pure_def] at h
  obtain ⟨q, hq, h⟩ := h
  have h1 : Keeps (namedOf O opt ts) q.2.2 ts q.1 ∧ Distinct (namedOf O opt ts) q.1 ∧ q.2.1.length = q.1.length := by
    cases topo with
    | false =>
      simp only [topoStage, Bool.false_eq_true, if_false, Option.some.injEq] at hq
      subst hq
      exact ⟨(Exch.refl ts).keeps, hd, by simp⟩
    | true =>
      simp only [topoStage, if_true] at hq
      obtain ⟨h2, h3, h4⟩ := canonGraph_keeps hO hcl hd hv hq
      refine ⟨h2, h3, ?_⟩
      rw [h4, List.length_range]
      simpa using h2.heads.length_eq.symm
  obtain ⟨k1, d1, l1⟩ := h1
  cases lex with
  | false =>
    simp only [Bool.false_eq_true, if_false, Option.some.injEq] at h
    subst h
    exact k1
  | true =>
    simp only [if_true, Option.bind_eq_some_iff, Option.some.injEq] at h
    obtain ⟨w, hw, rfl⟩ := h
    obtain ⟨ρ, hρ, hp⟩ := k1.idx
    have hmem : ∀ i, i ∈ namedOf O opt q.1 ↔ i ∈ namedOf O opt ts := by
      cases opt with
      | none => exact fun i => ext_renames hO hρ hp i
      | some N => exact fun i => Iff.rfl
    have hN : ∀ ts1 : List (NT L C S), (slotIdx ts1).Perm (slotIdx q.1) → namedOf O opt ts1 = namedOf O opt q.1 := by
      intro ts1 h5
      cases opt with
      | none => simp only [namedOf, Option.getD_none, initEdges_perm hO h5]
      | some N => rfl
    have hnd : (namedOf O opt q.1).Nodup := by
      cases opt with
      | none => exact extIndices_nodup _
      | some N => exact (hc N rfl).2
    have hsl : ∀ i ∈ namedOf O opt q.1, i ∈ slotIdx q.1 := fun i hi => by
      have := (hmem i).1 hi
      exact hp.mem_iff.2 (List.mem_map.2 ⟨i, hs rfl i this, hρ.fixed i this⟩)
    obtain ⟨k2, _⟩ := canonLex_keeps hO hN l1 ((k1.closed hcl).congr fun i => (hmem i).symm) (d1.congr fun i => (hmem i).symm) hnd hsl (k1.valid hv) hw
    have k3 := (k1.trans (k2.congr hmem)).trans (exch_lexSort (X := X) w.1).keeps
    rw [mul_one] at k3
    exact k3

/-- As `canonicalize_keeps`: the value of the network. -/
theorem canonicalize_value_partial [Fintype V] [Ring A] {O : Ords S} (hO : O.Total) {X : Lex L C S} {fuel : Nat} {π : Nat → Nat} {topo lex : Bool}
    {opt : Option (List (Ix S))} {ts : List (NT L C S)} {r : List (NT L C S) × List Nat × ℤ}
    (hc : ∀ N, opt = some N → Closed N ts ∧ N.Nodup) (hd : Distinct (namedOf O opt ts) ts) (hs : lex = true → ∀ i ∈ namedOf O opt ts, i ∈ slotIdx ts)
    (hv : ∀ n ∈ ts, n.t.sym = .nonsymm → Valid n.t) (h : canonicalize O X fuel π topo lex opt ts = some r) (I : Interp L S V A)
    (hI : Sound I (ts.map NT.head)) (e : Ix S → V) :
    value I (dummies (namedOf O opt ts) ts) e ts = r.2.2 • value I (dummies (namedOf O opt ts) r.1) e r.1 :=
  (canonicalize_keeps hO hc hd hs hv h).value I hI e

/-- With the default named indices. -/
theorem canonicalize_default_partial [Fintype V] [Ring A] {O : Ords S} (hO : O.Total) {X : Lex L C S} {fuel : Nat} {π : Nat → Nat} {topo lex : Bool}
    {ts : List (NT L C S)} {r : List (NT L C S) × List Nat × ℤ} (hd : Distinct (extIndices (initEdges O ts)) ts)
    (hs : ∀ i ∈ slotIdx ts, ∀ p ∈ i.protos, p.toIx ∈ slotIdx ts) (hv : ∀ n ∈ ts, n.t.sym = .nonsymm → Valid n.t)
    (h : canonicalize O X fuel π topo lex none ts = some r) (I : Interp L S V A) (hI : Sound I (ts.map NT.head)) (e : Ix S → V) :
    value I (dummies (extIndices (initEdges O ts)) ts) e ts = r.2.2 • value I (dummies (extIndices (initEdges O r.1)) r.1) e r.1 := by
  have hk := canonicalize_keeps (opt := none) hO (by simp) hd (fun _ i hi => ?_) hv h
  · refine (hk.value I hI e).trans ?_
    obtain ⟨ρ, h1, h2⟩ := hk.idx
    rw [dummies_named (N := namedOf O none ts) (N' := extIndices (initEdges O r.1)) (fun i => (ext_renames hO h1 h2 i).symm)]
  · rcases (mem_extIndices hO ts i).1 hi with h1 | ⟨j, h1, p, hp, rfl⟩ | ⟨_, j, hj, p, hp, rfl⟩
    · exact List.count_pos_iff.1 (by omega)
    · exact hs j (List.count_pos_iff.1 (by omega)) p hp
    · exact hs j hj p hp

/-- `canonicalize` keeps the external indices and, up to order, everything about the tensors except their indices. -/
theorem canonicalize_externals_partial {O : Ords S} (hO : O.Total) {X : Lex L C S} {fuel : Nat} {π : Nat → Nat} {topo lex : Bool}
    {ts : List (NT L C S)} {r : List (NT L C S) × List Nat × ℤ} (hd : Distinct (extIndices (initEdges O ts)) ts)
    (hs : ∀ i ∈ slotIdx ts, ∀ p ∈ i.protos, p.toIx ∈ slotIdx ts) (hv : ∀ n ∈ ts, n.t.sym = .nonsymm → Valid n.t)
    (h : canonicalize O X fuel π topo lex none ts = some r) :
    (∀ i, i ∈ extIndices (initEdges O r.1) ↔ i ∈ extIndices (initEdges O ts)) ∧ (r.1.map NT.head).Perm (ts.map NT.head) := by
  have hk := canonicalize_keeps (opt := none) hO (by simp) hd (fun _ i hi => ?_) hv h
  · obtain ⟨ρ, h1, h2⟩ := hk.idx
    exact ⟨ext_renames hO h1 h2, hk.heads⟩
  · rcases (mem_extIndices hO ts i).1 hi with h1 | ⟨j, h1, p, hp, rfl⟩ | ⟨_, j, hj, p, hp, rfl⟩
    · exact List.count_pos_iff.1 (by omega)
    · exact hs j (List.count_pos_iff.1 (by omega)) p hp
    · exact hs j hj p hp

/-- An external index, a proto-index, a matrix without symmetry. -/
def net4 : List (NT ℕ ℕ ℕ) :=
  [tens 1 .antisymm [aa 5 [9, 4], aa 3 [9, 4]] [ii 9, ii 4], tens 0 .antisymm [ii 4, ii 8] [aa 3 [9, 4], aa 5 [9, 4]], tens 2 .nonsymm [ii 9] [ii 2]]

example : (canonicalize natOrds natLex 20 pi1 true true none net4).map (fun r => (r.1.map NT.slots, r.2)) =
    some ([[some (ii 1), some (ii 8), some (aa 1 [1, 3]), some (aa 2 [1, 3])], [some (aa 1 [1, 3]), some (aa 2 [1, 3]), some (ii 1), some (ii 3)],
      [some (ii 3), some (ii 2)]], [1, 0, 2], 1) := by
  decide +kernel

example : Distinct (extIndices (initEdges natOrds net4)) net4 ∧ (∀ i ∈ slotIdx net4, ∀ p ∈ i.protos, p.toIx ∈ slotIdx net4) := by
  unfold Distinct
  decide +kernel

/-- The loop starts at `named_indices.size()`, the number of all named indices, not of those in slots: an anonymous index is passed over, and another
one is given its name. -/
def net5 : List (NT ℕ ℕ ℕ) := [tens 0 .nonsymm [aa 1 [1]] [aa 2 [1]], tens 1 .nonsymm [aa 1 [1]] [aa 2 [1]]]

theorem canonicalize_refuted : ∀ topo, ∃ r, canonicalize natOrds natLex 10 id topo true none net5 = some r ∧
    Distinct (extIndices (initEdges natOrds net5)) net5 ∧ (∀ n ∈ net5, n.t.sym = .nonsymm → Valid n.t) ∧ Sound (one Bool) (net5.map NT.head) ∧
    ∀ e, value (one Bool) (dummies (extIndices (initEdges natOrds net5)) net5) e net5 ≠
      r.2.2 • value (one Bool) (dummies (extIndices (initEdges natOrds r.1)) r.1) e r.1 := by
  intro topo
  refine ⟨([tens 0 .nonsymm [aa 1 [1]] [aa 1 [1]], tens 1 .nonsymm [aa 1 [1]] [aa 1 [1]]], [0, 1], 1), by revert topo; decide +kernel,
    by unfold Distinct; decide +kernel, ?_, ?_, fun e => ?_⟩
  · intro n hn _
    simp only [net5, List.mem_cons, List.not_mem_nil, or_false] at hn
    rcases hn with rfl | rfl <;> exact valid_tens _ _ _ _ rfl
  · exact sound_one _ (by decide +kernel)
  · rw [value_one, value_one]
    have h1 : (dummies (extIndices (initEdges natOrds net5)) net5).card = 2 := by decide +kernel
    rw [h1, one_smul]
    decide +kernel

/-! ## The order of the tensors -/

omit [DecidableEq S] in
/-- The comparator of the final sort is a strict weak order, as `std::stable_sort` requires, if tensors that do not commute compare alike with all others. -/
theorem tcmp_strictWeak (X : Lex L C S) (b : Bool) (ts : List (NT L C S)) (hi : ∀ x ∈ ts, X.base b x x = false)
    (ht : ∀ x ∈ ts, ∀ y ∈ ts, ∀ z ∈ ts, X.base b x y = true → X.base b y z = true → X.base b x z = true)
    (hw : ∀ x ∈ ts, ∀ y ∈ ts, ∀ z ∈ ts, X.base b x y = true → X.base b x z = true ∨ X.base b z y = true)
    (hn : ∀ x ∈ ts, ∀ y ∈ ts, commute x y = false → ∀ z ∈ ts, commute x z = commute y z ∧
      (commute x z = true → X.base b x z = X.base b y z ∧ X.base b z x = X.base b z y)) :
    (∀ x ∈ ts, tcmp X b x x = false) ∧
    (∀ x ∈ ts, ∀ y ∈ ts, ∀ z ∈ ts, tcmp X b x y = true → tcmp X b y z = true → tcmp X b x z = true) ∧
    (∀ x ∈ ts, ∀ y ∈ ts, ∀ z ∈ ts, tcmp X b x y = true → tcmp X b x z = true ∨ tcmp X b z y = true) := by
  have key : ∀ x y : NT L C S, tcmp X b x y = true ↔ commute x y = true ∧ X.base b x y = true := by
    intro x y
    rw [tcmp]
    split <;> simp_all
  refine ⟨fun x hx => ?_, fun x hx y hy z hz h1 h2 => ?_, fun x hx y hy z hz h1 => ?_⟩
  · rw [tcmp, hi x hx, ite_self]
  · rw [key] at h1 h2 ⊢
    by_cases hc : commute x z = true
    · exact ⟨hc, ht x hx y hy z hz h1.2 h2.2⟩
    · have h3 := ((hn x hx z hz (by simpa using hc) y hy).2 h1.1).2
      have := ht x hx y hy x hx h1.2 (h3.trans h2.2)
      rw [hi x hx] at this
      cases this
  · rw [key] at h1
    rw [key, key]
    by_cases hc : commute x z = true
    · by_cases hc' : commute z y = true
      · rcases hw x hx y hy z hz h1.2 with h2 | h2
        · exact .inl ⟨hc, h2⟩
        · exact .inr ⟨hc', h2⟩
      · have h3 := hn z hz y hy (by simpa using hc') x hx
        exact .inl ⟨hc, ((h3.2 (commute_symm hc)).2).trans h1.2⟩
    · have h3 := hn x hx z hz (by simpa using hc) y hy
      exact .inr ⟨h3.1 ▸ h1.1, ((h3.2 h1.1).1).symm.trans h1.2⟩

omit [DecidableEq S] in
/-- This is so if the tensors are compared by labels first and the label tells what does not commute. -/
theorem tcmp_strictWeak_labels (X : Lex L C S) (b : Bool) (ts : List (NT L C S)) (lt : L → L → Bool) (hi : ∀ x ∈ ts, X.base b x x = false)
    (ht : ∀ x ∈ ts, ∀ y ∈ ts, ∀ z ∈ ts, X.base b x y = true → X.base b y z = true → X.base b x z = true)
    (hw : ∀ x ∈ ts, ∀ y ∈ ts, ∀ z ∈ ts, X.base b x y = true → X.base b x z = true ∨ X.base b z y = true)
    (hl : ∀ x ∈ ts, ∀ y ∈ ts, x.label ≠ y.label → X.base b x y = lt x.label y.label)
    (hq : ∀ x ∈ ts, ∀ y ∈ ts, x.label = y.label → x.color = y.color ∧ x.cnum = y.cnum)
    (hc : ∀ x ∈ ts, ∀ y ∈ ts, commute x y = false → x.label = y.label) :
    (∀ x ∈ ts, tcmp X b x x = false) ∧
    (∀ x ∈ ts, ∀ y ∈ ts, ∀ z ∈ ts, tcmp X b x y = true → tcmp X b y z = true → tcmp X b x z = true) ∧
    (∀ x ∈ ts, ∀ y ∈ ts, ∀ z ∈ ts, tcmp X b x y = true → tcmp X b x z = true ∨ tcmp X b z y = true) := by
  refine tcmp_strictWeak X b ts hi ht hw fun x hx y hy hxy z hz => ?_
  have h1 := hc x hx y hy hxy
  obtain ⟨h2, h3⟩ := hq x hx y hy h1
  have h4 : commute x z = commute y z := by simp only [commute, h2, h3]
  refine ⟨h4, fun h5 => ?_⟩
  have h6 : x.label ≠ z.label := by
    intro h
    obtain ⟨h7, h8⟩ := hq x hx z hz h
    simp only [commute, ← h2, ← h3, ← h7, ← h8] at hxy h5
    rw [h5] at hxy
    cases hxy
  rw [hl x hx z hz h6, hl z hz x hx (Ne.symm h6), hl y hy z hz (h1 ▸ h6), hl z hz y hy (Ne.symm (h1 ▸ h6)), h1]
  exact ⟨rfl, rfl⟩

/-- In general it is not: the operators `f` and `h` do not commute, the number `g` is between them. -/
theorem tcmp_refuted : ∃ f g h : NT ℕ ℕ ℕ, tcmp natLex false f g = true ∧ tcmp natLex false g h = true ∧ tcmp natLex false f h = false :=
  ⟨{ tens 0 .nonsymm [] [] with cnum := false }, tens 1 .nonsymm [] [], { tens 2 .nonsymm [] [] with cnum := false }, by decide +kernel⟩

example : lexSort natLex [tens 2 .nonsymm [ii 1] [ii 2], { tens 1 .nonsymm [] [] with cnum := false }, { tens 1 .nonsymm [ii 1] [] with cnum := false },
    tens 0 .nonsymm [ii 2] [ii 1]] = [tens 0 .nonsymm [ii 2] [ii 1], { tens 1 .nonsymm [] [] with cnum := false },
    { tens 1 .nonsymm [ii 1] [] with cnum := false }, tens 2 .nonsymm [ii 1] [ii 2]] := by decide +kernel

/-! ## Input ordinals -/

/-- `sort_via_ordinals` returns `0, …, n - 1`, whatever the order, though it does sort. -/
theorem sort_via_ordinals_result {α : Type} (fuel : Nat) (seq : List α) (lt : Nat → Nat → Bool) :
    (∀ r, sortStrict seq lt = some r → r.2 = List.range seq.length ∧ r.1.Perm seq) ∧
    (∀ r, sortWeak fuel seq lt = some r → r.2 = List.range seq.length ∧ r.1.Perm seq) := by
  refine ⟨fun r h => ?_, fun r h => ?_⟩
  · obtain ⟨t, h1, h2⟩ := sortStrict_eq seq lt
    rw [h1, Option.some.injEq] at h
    subst h
    exact ⟨rfl, h2⟩
  · obtain ⟨o, n, _, rfl, hp⟩ := sortWeak_eq fuel seq lt r h
    exact ⟨rfl, pick_perm seq hp⟩

/-- It does not return the "ordinals of sorted elements in the input sequence". -/
theorem sort_via_ordinals_refuted : ∃ (seq : List ℕ) (r : List ℕ × List ℕ), sortStrict seq (fun a b => decide (seq.getD a 0 < seq.getD b 0)) = some r ∧
    r.1.Pairwise (· ≤ ·) ∧ ∃ k, k < seq.length ∧ r.1[k]? ≠ seq[r.2.getD k 0]? :=
  ⟨[3, 1, 2], ([1, 2, 3], [0, 1, 2]), by decide +kernel, by decide, 0, by decide, by decide⟩

/-- After the topological stage the tensors are in another order, the ordinals are not. -/
theorem canonGraph_ordinals_refuted : ∃ (π : Equiv.Perm ℕ) (ts : List (NT ℕ ℕ ℕ)) (r : List (NT ℕ ℕ ℕ) × List Nat × ℤ),
    canonGraph natOrds 10 π [] ts = some r ∧ r.1.map NT.label = [1, 0] ∧ ts.map NT.label = [0, 1] ∧ r.2.1 = [0, 1] := by
  refine ⟨Equiv.swap 0 7, [tens 0 .nonsymm [ii 1] [ii 1], tens 1 .nonsymm [aa 1 []] [aa 1 []]],
    ([tens 1 .nonsymm [aa 1 []] [aa 1 []], tens 0 .nonsymm [ii 1] [ii 1]], [0, 1], 1), by decide +kernel, by decide, by decide, rfl⟩

omit [DecidableEq C] in
theorem mapM_heads {O : Ords S} {fuel : Nat} {m : List (Ix S × Ix S)} {ts ts' : List (NT L C S)} (h : ts.mapM (replTensor O fuel m) = some ts') :
    ts'.map NT.head = ts.map NT.head := by
  induction ts generalizing ts' with
  | nil =>
    simp only [List.mapM_nil, Option.pure_def, Option.some.injEq] at h
    subst h
    rfl
  | cons n ts ih =>
    simp only [List.mapM_cons, Option.bind_eq_bind, Option.bind_eq_some_iff, Option.pure_def, Option.some.injEq] at h
    obtain ⟨n', hn, l, hl, rfl⟩ := h
    rw [List.map_cons, List.map_cons, ih hl]
    simp only [replTensor, Option.bind_eq_bind, Option.bind_eq_some_iff, Option.pure_def, Option.some.injEq] at hn
    obtain ⟨_, _, rfl⟩ := hn
    rfl

/-- The lexicographic stage up to its final sort does keep track of the ordinals.  Missing: everything else. -/
theorem canonLex_ordinals_partial {O : Ords S} {X : Lex L C S} {fuel : Nat} {N : List (NT L C S) → List (Ix S)}
    {ts : List (NT L C S)} {ords : List Nat} {r : List (NT L C S) × List Nat × ℤ} (hv : ∀ n ∈ ts, n.t.sym = .nonsymm → Valid n.t)
    (h : canonLex O X fuel N ts ords = some r) : ((r.1.map NT.head).zip r.2.1).Perm ((ts.map NT.head).zip ords) := by
  rw [canonLex] at h
  simp only [Option.bind_eq_bind, Option.bind_eq_some_iff, Option.pure_def, Option.some.injEq] at h
  obtain ⟨b, hb, z, hz, m, hm, ts2, hts2, d, hdd, rfl⟩ := h
  have n1 := (canonEach_same (fun n hn p t' ht => canonBlock_same (hv n hn) ht) hb).heads
  have n2 := (canonEach_same (fun n hn p t' ht => canonCore_same ht) hdd).heads
  have n3 : ts2.map NT.head = (z.1.map Prod.fst).map NT.head := mapM_heads hts2
  have hp := (bubbleSort_swaps _ fuel _ _ _ hz).perm
  simp only
  rw [n2, n3, ← n1]
  have e1 : ((z.1.map Prod.fst).map NT.head).zip (z.1.map Prod.snd) = z.1.map fun x => (x.1.head, x.2) := by
    rw [List.map_map, List.zip_map']
    rfl
  have e2 : (b.1.map NT.head).zip ords = (b.1.zip ords).map fun x => (x.1.head, x.2) := by
    rw [List.zip_map_left]
    rfl
  rw [e1, e2]
  exact hp.map _

example : (canonLex natOrds natLex 10 (fun _ => []) net1 [0, 1]).map (fun r => (r.1.map NT.label, r.2.1)) = some ([0, 1], [1, 0]) := by decide +kernel

/-! ## Edges and external indices -/

omit [DecidableEq C] in
/-- One edge for every index of a slot, with the number of its slots, in the order of the indices. -/
theorem initEdges_spec {O : Ords S} (hO : O.Total) (ts : List (NT L C S)) :
    (∀ e, e ∈ initEdges O ts ↔ e.idx ∈ slotIdx ts ∧ e.count = (slotIdx ts).count e.idx) ∧
    ((initEdges O ts).map Edge.idx).Pairwise (fun i j => O.ilt i j = true) :=
  ⟨mem_initEdges hO ts, initEdges_sorted hO ts⟩

omit [DecidableEq C] in
/-- External indices: those of exactly one slot, their proto-indices, and the proto-indices that are in no slot. -/
theorem ext_indices_spec {O : Ords S} (hO : O.Total) (ts : List (NT L C S)) (i : Ix S) :
    i ∈ extIndices (initEdges O ts) ↔ (slotIdx ts).count i = 1 ∨ (∃ j, (slotIdx ts).count j = 1 ∧ ∃ p ∈ j.protos, p.toIx = i) ∨
      (i ∉ slotIdx ts ∧ ∃ j ∈ slotIdx ts, ∃ p ∈ j.protos, p.toIx = i) :=
  mem_extIndices hO ts i

omit [DecidableEq C] in
/-- They do not depend on the order of the tensors nor on the order of slots within them. -/
theorem ext_indices_order {O : Ords S} (hO : O.Total) {ts ts' : List (NT L C S)} (h : (slotIdx ts').Perm (slotIdx ts)) :
    initEdges O ts' = initEdges O ts ∧ extIndices (initEdges O ts') = extIndices (initEdges O ts) :=
  ⟨initEdges_perm hO h, by rw [initEdges_perm hO h]⟩

example : (initEdges natOrds net4).map (fun e => (e.idx, e.count)) =
    [(ii 2, 1), (ii 4, 2), (ii 8, 1), (ii 9, 2), (aa 3 [9, 4], 2), (aa 5 [9, 4], 2)] := by decide +kernel
example : extIndices (initEdges natOrds net4) = [ii 2, ii 8] := by decide +kernel
example : extIndices (initEdges natOrds (tens 3 .nonsymm [aa 1 [1, 2]] [aa 2 [3]] :: net5)) = [aa 1 [1, 2], aa 2 [3], ii 2, ii 1, ii 3] :=
  by decide +kernel

end SeQuant.Network
