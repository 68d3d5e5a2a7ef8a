import Verif.Mbpt.QnsModel

/-!
# Amplitude equations of the coupled-cluster model (C114)

Transcribes the loops over the manifolds projected on in `CC::t` and `CC::λ` (`SeQuant/domain/mbpt/models/cc.cpp`:87-137, 139-202) and the four
predicates they screen the terms with (`SeQuant/domain/mbpt/op.cpp`:1305-1328).

Simplifications: a term of the similarity-transformed Hamiltonian is anything the quantum numbers of whose operators are known (`acts`); the
average of the projected sum (`ref_av` of its product with `P`) is a function `av` of the rank and of the terms; that the operator-level
Hamiltonian is a sum (it is one of at least two terms, `H(2)`) is assumed; the element 0 of the result of `CC::λ` is left out.  A pointer to a
sum that was never made is a separate outcome.
-/

namespace SeQuant.Cc

open SeQuant.Mbpt

/-- What is asked about the base spaces: which are occupied in the vacuum, which are part of the particle and of the hole space, and whether
those are base spaces. -/
structure Frame where
  occs : List Bool
  sp : List BaseSpace
  apsBase : Bool
  ahsBase : Bool

/-- `raises_vacuum_up_to_rank` (op.cpp:1305-1310). -/
def raisesUpTo (f : Frame) (k : Nat) (acts : List Qns) : Option Bool :=
  canChange f.occs acts (intervalExcitationType k f.sp) (qzero f.occs.length)

/-- `lowers_rank_or_lower_to_vacuum` (1312-1317). -/
def lowersUpTo (f : Frame) (k : Nat) (acts : List Qns) : Option Bool :=
  canChange f.occs acts (qzero f.occs.length) (intervalExcitationType k f.sp)

/-- `raises_vacuum_to_rank` (1319-1323). -/
def raisesTo (f : Frame) (k : Nat) (acts : List Qns) : Option Bool :=
  canChange f.occs acts (excitationType f.apsBase f.ahsBase k f.sp) (qzero f.occs.length)

/-- `lowers_rank_to_vacuum` (1325-1328). -/
def lowersTo (f : Frame) (k : Nat) (acts : List Qns) : Option Bool :=
  canChange f.occs acts (qzero f.occs.length) (excitationType f.apsBase f.ahsBase k f.sp)

variable {α β : Type}

/-- The loop over the terms (cc.cpp:110-125, 177-193): the terms of rank at most `p`, and those of rank `p` among them. -/
def screen (le eq : α → Option Bool) : List α → Option (List α × List α)
  | [] => some ([], [])
  | t :: ts =>
    match le t with
    | none => none
    | some false => screen le eq ts
    | some true =>
      match eq t with
      | none => none
      | some b =>
        match screen le eq ts with
        | none => none
        | some (l, v) => some (t :: l, if b then t :: v else v)

/-- The outcome: a result, an assertion that fails, or a null pointer that is dereferenced. -/
inductive Outcome (β : Type) where
  | done (b : β)
  | failed
  | null
deriving DecidableEq, Repr

/-- Sets the element of the result. -/
def Outcome.push (x : Nat × β) : Outcome (List (Nat × β)) → Outcome (List (Nat × β))
  | .done l => .done (x :: l)
  | .failed => .failed
  | .null => .null

/-- The loop over the ranks `pmin + n - 1, …, pmin` (101-134, 168-200); the terms kept replace the terms (126, 193).  Without terms of rank `p` the
sum to be averaged is a null pointer (104-105), and so is the one to go on with if there are no terms at all. -/
def ranks (scr : Bool) (le eq : Nat → α → Option Bool) (av : Nat → List α → β) (pmin : Nat) : Nat → List α → Outcome (List (Nat × β))
  | 0, _ => .done []
  | n + 1, h =>
    if scr then
      match screen (le (pmin + n)) (eq (pmin + n)) h with
      | none => .failed
      | some (l, v) => if v.isEmpty then .null else (ranks scr le eq av pmin n l).push (pmin + n, av (pmin + n) v)
    else (ranks scr le eq av pmin n h).push (pmin + n, av (pmin + n) h)

/-- `CC::t` (87-137); `pmax` is the rank of the model if not given (88). -/
def ccT (scr : Bool) (f : Frame) (acts : α → List Qns) (av : Nat → List α → β) (N : Nat) (pmax : Option Nat) (pmin : Nat) (hbar : List α) :
    Outcome (List (Nat × β)) :=
  let pm := pmax.getD N
  if pmin ≤ pm then
    ranks scr (fun p t => raisesUpTo f p (acts t)) (fun p t => raisesTo f p (acts t)) av pmin (pm + 1 - pmin) hbar
  else .failed

/-- `CC::λ` (139-202). -/
def ccL (scr : Bool) (f : Frame) (acts : α → List Qns) (av : Nat → List α → β) (N : Nat) (lhbar : List α) : Outcome (List (Nat × β)) :=
  ranks scr (fun p t => lowersUpTo f p (acts t)) (fun p t => lowersTo f p (acts t)) av 1 N lhbar

end SeQuant.Cc
