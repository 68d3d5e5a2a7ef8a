import Verif.Uncontr.Sign
import Verif.Topology.Examples

/-!
# C102, C103 with partial contractions: concrete instances
-/

namespace SeQuant.Topology

open SeQuant.Wick SeQuant.Wick.Inst

/-- Two annihilators against two creators: four single contractions of one kind and two double ones. -/
example : (topoPartialTerms .FermiDirac exCan exParts exNops).map (fun t => (t.1, t.2.1, t.2.2.1)) =
    [(some 4, -1, [(0, 2)]), (some 2, -1, [(0, 2), (1, 3)]), (some 1, 1, [])] := by decide +kernel
example : (topoPartialTerms .FermiDirac exCan exParts exNops).map (fun t => t.2.2.2) =
    [[[1], [3]], [[], []], [[0, 1], [2, 3]]] := by decide +kernel
example : (wickPartialAll .FermiDirac exCan exNops).length = 7 := by decide +kernel

/-- An operator that is passed over blocks the later ones of its partition: `1` is not contracted when `0` stays. -/
example : ∀ t ∈ topoPartialTerms .FermiDirac exCan exParts exNops, (t.2.2.1.any fun p => decide (p.1 = 1)) = true →
    (t.2.2.1.any fun p => decide (p.1 = 0)) = true := by decide +kernel

/-- Interleaved partitions. -/
example : ((topoPartialTerms .FermiDirac (fun x y => decide (x < 4) && decide (4 ≤ y)) exParts3 [[0, 1, 2, 3], [4, 5], [6, 7]]).map
    fun t => t.1.getD 0).sum = (wickPartialAll .FermiDirac (fun x y => decide (x < 4) && decide (4 ≤ y)) [[0, 1, 2, 3], [4, 5], [6, 7]]).length := by
  decide +kernel

/-- The hypotheses of `topology_operator_identity` and `topology_vacuum_identity` hold for bosons: `a a` times `a† a†`. -/
example : bose1.prod [[false, false], [true, true]] =
    ((topoPartialTerms .BoseEinstein exCan exParts exNops).map fun t =>
      (t.1.getD 0) • (t.2.1 • summand (n := 4) (Orb := Unit) bose1 exParts (fun i _ => decide (i = 1)) (fun _ => 1) t.2.2.1
        t.2.2.2.flatten)).sum := by
  rw [← topology_operator_identity bose1 exInput (fun i (_ : Unit) => decide (i = 1))]
  · simp [opAt, exNops, exParts, Parts.part]
  · have H : ∀ x y : Fin 4, exCan x y = false → exParts.part x = 1 ∨ exParts.part y = 0 := by decide +kernel
    intro x hx y hy _ _ hxy
    rcases H ⟨x, hx⟩ ⟨y, hy⟩ hxy with h | h
    · simp only at h; simp [bose1, h]
    · simp only at h; simp [bose1, h]
  · intro τ _ φ
    simp [Statistics.sgn]

end SeQuant.Topology
