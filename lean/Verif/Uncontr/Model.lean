import Verif.Topology.Model

/-!
# Model of the topological reduction with partial contractions (`SeQuant/core/wick.hpp:1244-1647`, `full_contractions_ == false`)

The filter `isUnique` and the weight `degeneracy` are those of `Verif.Topology.Model`, now with `full = false`.
-/

namespace SeQuant.Topology

open SeQuant.Wick

/-- A produced summand: topological weight, phase, contractions, remaining operators. -/
abbrev WPTerm := Option Rat × PartialTerm Nat

/-- `recursive_nontensor_wick` with `use_topology_` and without `full_contractions_` (wick.hpp:1244-1647), see `Wick.wickPartial`; no
connectivity constraints.  Each contraction that passes the filter emits a summand with the weight of the state after it
(wick.hpp:1476-1527). -/
def wickTopoPartial (S : Statistics) (canContract : Nat → Nat → Bool) (P : Parts) : Nat → TState → List (List Nat) → List WPTerm
  | 0, _, _ => []
  | _ + 1, _, [] => []
  | fuel + 1, s, [] :: nops =>
    (wickTopoPartial S canContract P fuel s nops).map fun t => (t.1, t.2.1, t.2.2.1, [] :: t.2.2.2)
  | fuel + 1, s, (o :: rest) :: others =>
    ((picks others).flatMap fun p =>
      if canContract o p.2.1 && isUnique P false s o p.2.1 then
        let ph := phase S (rest.length + p.1)
        let nops' := rest :: p.2.2
        let s' := s.connect P o p.2.1
        (degeneracy P false s', ph, [(o, p.2.1)], nops') ::
          (if opsize nops' = 0 then []
           else (wickTopoPartial S canContract P fuel s' nops').map fun t =>
            (t.1, ph * t.2.1, (o, p.2.1) :: t.2.2.1, t.2.2.2))
      else []) ++
      (wickTopoPartial S canContract P fuel s (rest :: others)).map fun t => (t.1, t.2.1, t.2.2.1, restore o t.2.2.2)

/-- `compute_nontensor_wick` (wick.hpp:1180-1238) without `full_contractions_` and without required connections: the contraction-free
summand is added with no topological weight. -/
def topoPartialTerms (S : Statistics) (canContract : Nat → Nat → Bool) (P : Parts) (nops : List (List Nat)) : List WPTerm :=
  wickTopoPartial S canContract P (wickFuel nops) TState.init nops ++ [(some 1, 1, [], nops)]

end SeQuant.Topology
