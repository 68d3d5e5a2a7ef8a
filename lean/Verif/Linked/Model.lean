import Verif.Wick.ConnectProps

/-!
# Model of the Wick engine with required and avoided connections

`set_nop_connections`, `set_nop_avoided_connections` (`SeQuant/core/wick.hpp:202-358`) and `recursive_nontensor_wick` with
`connect` (`SeQuant/core/wick.hpp:963-1092, 1244-1647`).  The bookkeeping `connect` is the model of `Verif.Wick.ConnectModel`; that
`disconnect` takes it back is proved there, so here a branch of the search simply gets its own state.  As in
`Verif.Wick.Model` there are no user-defined partitions of operators.
-/

namespace SeQuant.Linked

open SeQuant.Wick

variable {Op : Type}

/-- `has_duplicates` (wick.hpp:215-224, 293-302). -/
def hasDuplicates : List (Nat × Nat) → Bool
  | [] => false
  | p :: ps => decide (p ∈ ps) || hasDuplicates ps

/-- The bits made by `set_nop_connections` and `set_nop_avoided_connections` for a sequence of `n` normal operators (wick.hpp:214-268,
291-348): `none` = exception (duplicates, ordinal out of range), `some none` = the container stays empty (no constraints),
otherwise all bits are set except those of the given pairs, in both orders.  Negative ordinals are out of range. -/
def setPairs (n : Nat) (pairs : List (Nat × Nat)) : Option (Option (Nat → Nat → Bool)) :=
  if hasDuplicates pairs then none
  else if pairs.any fun p => decide (n ≤ p.1) || decide (n ≤ p.2) then none
  else if pairs.length ≠ 0 then
    some (some (pairs.foldl (fun b p => upd2 (upd2 b p.1 p.2 false) p.2 p.1 false) fun _ _ => true))
  else some none

/-- A normal operator with its ordinal in the input (`range_ordinal`), which does not change when operators are erased. -/
abbrev Nop (Op : Type) := Nat × List Op

/-- A right operator offered by the loop over `op_right_iter` (wick.hpp:1275-1286): operators skipped, ordinal of its normal operator,
number of other operators in it, the operator, and the normal operators after erasing it. -/
structure Pick (Op : Type) where
  skip : Nat
  ord : Nat
  others : Nat
  op : Op
  rest : List (Nop Op)

/-- The loop over `op_right_iter`; the same as `Wick.picks` with the ordinals. -/
def picksC : List (Nop Op) → List (Pick Op)
  | [] => []
  | l :: ls =>
    ((picksIn l.2).map fun p => ⟨p.1, l.1, l.2.length - 1, p.2.1, (l.1, p.2.2) :: ls⟩) ++
      (picksC ls).map fun p => ⟨l.2.length + p.skip, p.ord, p.others, p.op, l :: p.rest⟩

/-- `recursive_nontensor_wick` with `full_contractions_ == true` and constraints (wick.hpp:1244-1647); `Wick.wickFull` is the case
without constraints. -/
def wickConn (S : Statistics) (isQpAnn : Op → Bool) (canContract : Op → Op → Bool) (g : Cfg Op)
    (target avoided : Option (Nat → Nat → Bool)) : Nat → CState Op → List (Nop Op) → List (Term Op)
  | 0, _, _ => []
  | _ + 1, _, [] => []
  | fuel + 1, s, (_, []) :: nops => wickConn S isQpAnn canContract g target avoided fuel s nops
  | fuel + 1, s, (k, o :: rest) :: others =>
    if !isQpAnn o then []
    else
      (picksC others).flatMap fun p =>
        if canContract o p.op then
          match connect g target avoided k p.ord rest.length p.others o p.op s with
          | none => []
          | some s' =>
            let ph := phase S (rest.length + p.skip)
            let nops' := (k, rest) :: p.rest
            if opsize (nops'.map Prod.snd) = 0 then [(ph, [(o, p.op)])]
            else (wickConn S isQpAnn canContract g target avoided fuel s' nops').map fun t => (ph * t.1, (o, p.op) :: t.2)
        else []

/-- `recursive_nontensor_wick` with `full_contractions_ == false` and constraints (wick.hpp:1244-1647): every accepted contraction emits
a summand (wick.hpp:1526-1527), whether or not all required connections have been made. -/
def wickConnPartial (S : Statistics) (canContract : Op → Op → Bool) (g : Cfg Op)
    (target avoided : Option (Nat → Nat → Bool)) : Nat → CState Op → List (Nop Op) → List (Term Op)
  | 0, _, _ => []
  | _ + 1, _, [] => []
  | fuel + 1, s, (_, []) :: nops => wickConnPartial S canContract g target avoided fuel s nops
  | fuel + 1, s, (k, o :: rest) :: others =>
    ((picksC others).flatMap fun p =>
      if canContract o p.op then
        match connect g target avoided k p.ord rest.length p.others o p.op s with
        | none => []
        | some s' =>
          let ph := phase S (rest.length + p.skip)
          let nops' := (k, rest) :: p.rest
          (ph, [(o, p.op)]) ::
            (if opsize (nops'.map Prod.snd) = 0 then []
             else (wickConnPartial S canContract g target avoided fuel s' nops').map fun t => (ph * t.1, (o, p.op) :: t.2))
      else []) ++
      wickConnPartial S canContract g target avoided fuel s ((k, rest) :: others)

/-- The constants of the engine for `n` normal operators without partitions. -/
def plainCfg (n : Nat) : Cfg Op := ⟨n, fun _ => 0, false, false, 0, fun _ => 0⟩

/-- `compute_nontensor_wick` (wick.hpp:1180-1238) for full contractions with required and avoided connections; `none` = exception. -/
def wickFullConn (S : Statistics) (isQpAnn : Op → Bool) (canContract : Op → Op → Bool) (required avoid : List (Nat × Nat))
    (nops : List (List Op)) : Option (List (Term Op)) := do
  let target ← setPairs nops.length required
  let avoided ← setPairs nops.length avoid
  some (wickConn S isQpAnn canContract (plainCfg nops.length) target avoided (wickFuel nops)
    (initState (plainCfg nops.length)) (nops.zipIdx.map fun p => (p.2, p.1)))

/-- The same for partial contractions (wick.hpp:1180-1238) of an input given as a sequence of normal operators: `nop_nconnections_total_` is the size of
`nop_connections_input_` (wick.hpp:259), which is filled for an input given as an expression only, so it is 0 and the contraction-free
summand is included (wick.hpp:1207). -/
def wickPartialConn (S : Statistics) (canContract : Op → Op → Bool) (required avoid : List (Nat × Nat))
    (nops : List (List Op)) : Option (List (Term Op)) := do
  let target ← setPairs nops.length required
  let avoided ← setPairs nops.length avoid
  some (wickConnPartial S canContract (plainCfg nops.length) target avoided (wickFuel nops)
    (initState (plainCfg nops.length)) (nops.zipIdx.map fun p => (p.2, p.1)) ++ [(1, [])])

end SeQuant.Linked
