import Verif.Topology.Sign

/-!
# C102, C103: concrete instances, and what goes wrong when operators are only equivalent together
-/

namespace SeQuant.Topology

open SeQuant.Wick

/-! ### Two annihilators against two creators -/

def exParts : Parts := ⟨[[0, 1], [2, 3]], [1, 1, 2, 2]⟩
def exNops : List (List Nat) := [[0, 1], [2, 3]]
def exAnn (x : Nat) : Bool := decide (x < 2)
def exCan (x y : Nat) : Bool := decide (x < 2) && decide (2 ≤ y)

example : setOpPartitions 4 [[0, 1], [2, 3]] = some exParts := by decide +kernel
example : setOpPartitions 4 [[1, 0]] = some ⟨[[0, 1], [2], [3]], [1, 1, 2, 3]⟩ := by decide +kernel
example : setOpPartitions 4 [[2, 3], [0, 1]] = none := by decide +kernel
example : setOpPartitions 4 [[0, 1], [1, 2]] = none := by decide +kernel
example : setOpPartitions 4 [[0, 1], []] = none := by decide +kernel
example : setOpPartitions 4 [[0, 4]] = none := by decide +kernel
example : defaultPartitions 3 = some ⟨[[0], [1], [2]], [1, 2, 3]⟩ := by decide +kernel

/-- One summand of weight 2 instead of two summands. -/
example : topoTerms .FermiDirac exAnn exCan exParts exNops = [(some 2, -1, [(0, 2), (1, 3)])] := by decide +kernel
example : wickFull .FermiDirac exAnn exCan (wickFuel exNops) exNops = [(-1, [(0, 2), (1, 3)]), (1, [(0, 3), (1, 2)])] := by decide +kernel

theorem exInput : Input exParts 4 exCan exNops where
  flat := by decide
  wf := ⟨by decide +kernel, by decide +kernel, by decide +kernel, by
    intro i j h1 h2
    have : j < 2 := h2
    obtain ⟨rfl, rfl⟩ : i = 0 ∧ j = 1 := by omega
    decide⟩
  inNop := by
    have H : ∀ x y : Fin 4, exParts.part x = exParts.part y → exNops.any fun l => l.contains x.val && l.contains y.val := by decide +kernel
    intro x hx y hy h
    have := H ⟨x, hx⟩ ⟨y, hy⟩ h
    simpa using this
  canc := by
    have H : ∀ x x' y y' : Fin 4, exParts.part x = exParts.part x' → exParts.part y = exParts.part y' →
        exCan x y = exCan x' y' := by decide +kernel
    intro x hx x' hx' y hy y' hy' h1 h2
    exact H ⟨x, hx⟩ ⟨x', hx'⟩ ⟨y, hy⟩ ⟨y', hy'⟩ h1 h2

/-- Two kinds: four equivalent operators of the first normal operator are distributed over three partitions of the second one. -/
def exParts2 : Parts := ⟨[[0, 1, 2, 3], [4, 5], [6], [7]], [1, 1, 1, 1, 2, 2, 3, 4]⟩

example : (topoTerms .FermiDirac (fun x => decide (x < 4)) (fun x y => decide (x < 4) && decide (4 ≤ y)) exParts2
    [[0, 1, 2, 3], [4, 5, 6, 7]]).map (fun t => (t.1, t.2.2)) = [(some 24, [(0, 4), (1, 5), (2, 6), (3, 7)])] := by decide +kernel

/-- Interleaved partitions, and a normal operator contracted to the left and to the right. -/
def exParts3 : Parts := ⟨[[0, 2], [1, 3], [4, 5], [6, 7]], [1, 2, 1, 2, 3, 3, 4, 4]⟩

example : (topoTerms .FermiDirac (fun x => decide (x < 4)) (fun x y => decide (x < 4) && decide (4 ≤ y)) exParts3
    [[0, 1, 2, 3], [4, 5], [6, 7]]) =
      [(some 16, 1, [(0, 4), (1, 5), (2, 6), (3, 7)]), (some 4, -1, [(0, 4), (1, 6), (2, 5), (3, 7)]),
        (some 4, -1, [(0, 6), (1, 4), (2, 7), (3, 5)])] := by decide +kernel

/-- A normal operator (ordinals 2, 3) contracted to the left and to the right. -/
example : (topoTerms .FermiDirac (fun x => decide (x ≠ 4 ∧ x ≠ 5)) (fun x y => decide (x < y) && decide (y - x ≤ 3))
    ⟨[[0, 1], [2, 3], [4, 5]], [1, 1, 2, 2, 3, 3]⟩ [[0, 1], [2, 3], [4, 5]]).map (fun t => (t.1, t.2.2)) =
      [(some 8, [(0, 2), (1, 4), (3, 5)])] := by decide +kernel

/-- The hypotheses of `topology_tensor_sum` hold for an antisymmetric tensor and its conjugate. -/
example : ∀ τ : Equiv.Perm (Fin 4), Inside exParts τ → ∀ φ : Fin 4 → Bool,
    (fun φ : Fin 4 → Bool => ((if φ 0 then 1 else 0) - (if φ 1 then 1 else 0)) * ((if φ 2 then 1 else 0) - (if φ 3 then 1 else 0)) : (Fin 4 → Bool) → Int)
      (φ ∘ τ) = Statistics.FermiDirac.sgn (Equiv.Perm.sign τ) •
    (fun φ : Fin 4 → Bool => ((if φ 0 then 1 else 0) - (if φ 1 then 1 else 0)) * ((if φ 2 then 1 else 0) - (if φ 3 then 1 else 0)) : (Fin 4 → Bool) → Int) φ := by
  unfold Inside
  decide +kernel

/-! ### Operators that are equivalent only together -/

/-- Two normal operators with two bra and two ket indices each, as in `t t ã` times its adjoint: `0, 1 | 2, 3` and `4, 5 | 6, 7`. -/
def ttNops : List (List Nat) := [[0, 1, 2, 3], [4, 5, 6, 7]]
def ttAnn (x : Nat) : Bool := decide (x < 4)
def ttCan (x y : Nat) : Bool := decide (x < 4) && decide (y / 2 = x / 2 + 2)

/-- The automorphism that exchanges the two tensors `t` of the first factor, and with them the indices `0, 1` and `2, 3` *together*. -/
def ttAut1 (v : Nat) : Nat := if v < 4 then v / 2 * 2 + (1 - v % 2) else v
def ttAut2 (v : Nat) : Nat := if 4 ≤ v then v / 2 * 2 + (1 - v % 2) else v

/-- `exclude_index_vertex_pair`: only indices of the same bra or ket of a normal operator are united (wick.impl.hpp:1146-1194). -/
def ttExclude (v w : Nat) : Bool := decide (v / 2 ≠ w / 2)

def ttParts : Parts := ⟨[[0, 1], [2, 3], [4, 5], [6, 7]], [1, 1, 2, 2, 3, 3, 4, 4]⟩

theorem tt_partitions :
    setOpPartitions 8 (extractPartitions (computePartitions ttExclude (List.range 8) [ttAut1, ttAut2]) id) = some ttParts := by
  decide +kernel

/-- The tensors: `t(0,2) t(1,3) t(4,6) t(5,7)` with `t` the unit matrix of two orbitals, and contractions that identify orbitals. The
operators of the second factor get the orbitals `l`, those of the first factor the orbitals of their partners. -/
def ttVal (cs : List (Nat × Nat)) : Int :=
  let bits : List Nat := [0, 1]
  let delta (x y : Nat) : Int := if x = y then 1 else 0
  ((bits.flatMap fun a => bits.flatMap fun b => bits.flatMap fun c => bits.map fun d => [a, b, c, d]).map fun l =>
    let orb (y : Nat) : Nat := l.getD (y - 4) 0
    let p (x : Nat) : Nat := orb ((cs.lookup x).getD 0)
    delta (p 0) (p 2) * delta (p 1) (p 3) * (delta (orb 4) (orb 6) * delta (orb 5) (orb 7))).sum

/-- The value is invariant under both automorphisms, which are even ... -/
theorem tt_invariant : ∀ t ∈ wickFull .FermiDirac ttAnn ttCan (wickFuel ttNops) ttNops,
    ttVal (t.2.map fun p => (ttAut1 p.1, p.2)) = ttVal t.2 ∧ ttVal (t.2.map fun p => (p.1, ttAut2 p.2)) = ttVal t.2 := by
  decide +kernel

/-- **Discrepancy.** ... but the partitions treat the two exchanges as independent, and the reduced sum is 16 instead of 4: a normal
operator whose indices belong to two equal tensors gets a wrong expectation value when the topology is used. -/
theorem tt_topology_wrong :
    ((topoTerms .FermiDirac ttAnn ttCan ttParts ttNops).map fun t => (t.1.getD 0) * ((t.2.1 * ttVal t.2.2 : Int) : Rat)).sum = 16 ∧
    ((wickFull .FermiDirac ttAnn ttCan (wickFuel ttNops) ttNops).map fun t => ((t.1 * ttVal t.2 : Int) : Rat)).sum = 4 := by
  decide +kernel

end SeQuant.Topology
