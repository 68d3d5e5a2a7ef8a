import Verif.Wick.Model

/-!
# Model of the connection bookkeeping of the Wick engine (`SeQuant/core/wick.hpp:752-1175`)

Bit sets and arrays are functions on ordinals (accesses are in range by the assertions of the code); packed triangular arrays
are functions of the packed index.
-/

namespace SeQuant.Wick

/-- `ntri` (wick.hpp:757-760); the assertion `n > 0` is a precondition. -/
def ntri (n : Nat) : Nat := n * (n - 1) / 2

/-- `lowtri_idx` (wick.hpp:763-766), precondition `j < i`. -/
def lowtriIdx (i j : Nat) : Nat := i * (i - 1) / 2 + j

/-- `uptri_idx` (wick.hpp:769-776), precondition `i < j < n`. -/
def uptriIdx (i j n : Nat) : Nat := i * (2 * n - i - 1) / 2 + j - i - 1

/-- Assignment to one element of an array. -/
def upd {β : Type} (f : Nat → β) (i : Nat) (v : β) : Nat → β := fun k => if k = i then v else f k

/-- Assignment to one element of a matrix of bits (`svector<bitset>`). -/
def upd2 {β : Type} (f : Nat → Nat → β) (i j : Nat) (v : β) : Nat → Nat → β := upd f i (upd (f i) j v)

/-- What the engine knows about the input and never changes: number of normal operators, `nop_partition_idx_` (0 = in no partition),
number of operator partitions and `op_partition_idx_ - 1` as a function of the operator (wick.hpp:1007-1023). -/
structure Cfg (Op : Type) where
  nnop : Nat
  nopPartition : Nat → Nat
  hasNopPartitions : Bool
  hasOpPartitions : Bool
  npart : Nat
  opPartition : Op → Nat

/-- The mutable bookkeeping of `NontensorWickState` (wick.hpp:815-854). `nopFree p k`: the set `nop_partitions[p]` contains `k`. -/
structure CState (Op : Type) where
  contractions : List (Op × Op)
  nopConn : Nat → Nat → Bool
  nopAdj : Nat → Nat
  nopN : Nat → Nat
  nopFree : Nat → Nat → Bool
  cdeg : Nat → Nat
  ncontr : Nat → Nat

variable {Op : Type}

/-- `update_nop_metadata` of `connect` (wick.hpp:990-1005). -/
def connectNop (g : Cfg Op) (k : Nat) (s : CState Op) : CState Op :=
  let s' := if g.hasNopPartitions ∧ s.nopN k = 0 ∧ g.nopPartition k > 0 then
    { s with nopFree := upd2 s.nopFree (g.nopPartition k - 1) k false } else s
  { s' with nopN := upd s'.nopN k (s'.nopN k + 1) }

/-- `update_op_metadata` of `connect` (wick.hpp:1007-1032). -/
def connectOp (g : Cfg Op) (o1 o2 : Op) (s : CState Op) : CState Op :=
  if g.hasOpPartitions then
    let i := uptriIdx (g.opPartition o1) (g.opPartition o2) g.npart
    let s := { s with cdeg := upd s.cdeg i (s.cdeg i + 1) }
    let s := { s with ncontr := upd s.ncontr (g.opPartition o1) (s.ncontr (g.opPartition o1) + 1) }
    { s with ncontr := upd s.ncontr (g.opPartition o2) (s.ncontr (g.opPartition o2) + 1) }
  else s

/-- `register_contraction` (wick.hpp:981-988). -/
def register (o1 o2 : Op) (s : CState Op) : CState Op := { s with contractions := s.contractions ++ [(o1, o2)] }

/-- Number of zero bits of `nop_connections[k] | target[k]` (wick.hpp:1057-1060): required connections not made yet.  The bits
from `nnop` to `max_input_size` are set in `target` (wick.hpp:250-253). -/
def needs (nnop : Nat) (conn target : Nat → Nat → Bool) (k : Nat) : Nat :=
  ((List.range nnop).filter fun j => !(conn k j || target k j)).length

/-- `connect` (wick.hpp:963-1092).  `target = none`: no constraints (`target_nop_connections.empty()`); a bit of `target` or `avoided`
is *reset* for a required or forbidden pair.  `n1`, `n2`: ordinals of the two normal operators; `r1`, `r2`: their current numbers of
operators minus one.  `none` = rejected. -/
def connect (g : Cfg Op) (target avoided : Option (Nat → Nat → Bool)) (n1 n2 r1 r2 : Nat) (o1 o2 : Op) (s : CState Op) :
    Option (CState Op) :=
  let forbidden := match avoided with
    | none => false
    | some a => !a n1 n2
  if forbidden then none
  else
    match target with
    | none => some (register o1 o2 (connectOp g o1 o2 (connectNop g n2 (connectNop g n1 s))))
    | some t =>
      let was := s.nopConn n1 n2
      let conn := if !was then upd2 (upd2 s.nopConn n1 n2 true) n2 n1 true else s.nopConn
      if needs g.nnop conn t n1 > r1 then none
      else if needs g.nnop conn t n2 > r2 then none
      else
        let s := { s with nopConn := conn }
        let i := uptriIdx n1 n2 g.nnop
        let s := { s with nopAdj := upd s.nopAdj i (s.nopAdj i + 1) }
        some (register o1 o2 (connectOp g o1 o2 (connectNop g n2 (connectNop g n1 s))))

/-- What a rejected `connect` leaves behind: `nop_connections` after setting and resetting the two bits (wick.hpp:1045-1083). -/
def connectRejected (n1 n2 : Nat) (s : CState Op) : CState Op :=
  if !s.nopConn n1 n2 then
    let conn := upd2 (upd2 s.nopConn n1 n2 true) n2 n1 true
    { s with nopConn := upd2 (upd2 conn n1 n2 false) n2 n1 false }
  else s

/-- `update_nop_metadata` of `disconnect` (wick.hpp:1110-1122); `none` = assertion failure. -/
def disconnectNop (g : Cfg Op) (k : Nat) (s : CState Op) : Option (CState Op) :=
  if s.nopN k = 0 then none
  else
    let s := { s with nopN := upd s.nopN k (s.nopN k - 1) }
    if g.hasNopPartitions ∧ s.nopN k = 0 ∧ g.nopPartition k > 0 then
      if s.nopFree (g.nopPartition k - 1) k then none
      else some { s with nopFree := upd2 s.nopFree (g.nopPartition k - 1) k true }
    else some s

/-- `update_op_metadata` of `disconnect` (wick.hpp:1124-1153). -/
def disconnectOp (g : Cfg Op) (o1 o2 : Op) (s : CState Op) : Option (CState Op) :=
  if g.hasOpPartitions then
    let i := uptriIdx (g.opPartition o1) (g.opPartition o2) g.npart
    if s.cdeg i = 0 then none
    else
      let s := { s with cdeg := upd s.cdeg i (s.cdeg i - 1) }
      if s.ncontr (g.opPartition o1) = 0 ∨ s.ncontr (g.opPartition o2) = 0 then none
      else
        let s := { s with ncontr := upd s.ncontr (g.opPartition o1) (s.ncontr (g.opPartition o1) - 1) }
        some { s with ncontr := upd s.ncontr (g.opPartition o2) (s.ncontr (g.opPartition o2) - 1) }
  else some s

/-- `unregister_contraction` (wick.hpp:1101-1108): erases the first occurrence. -/
def unregister [DecidableEq Op] (o1 o2 : Op) (s : CState Op) : Option (CState Op) :=
  if (o1, o2) ∈ s.contractions then some { s with contractions := s.contractions.erase (o1, o2) } else none

/-- `disconnect` (wick.hpp:1096-1174). -/
def disconnect [DecidableEq Op] (g : Cfg Op) (target : Option (Nat → Nat → Bool)) (n1 n2 : Nat) (o1 o2 : Op) (s : CState Op) :
    Option (CState Op) := do
  let s ← disconnectNop g n1 s
  let s ← disconnectNop g n2 s
  let s ← disconnectOp g o1 o2 s
  let s ← unregister o1 o2 s
  match target with
  | none => some s
  | some _ =>
    if !s.nopConn n1 n2 then none
    else
      let i := uptriIdx n1 n2 g.nnop
      if s.nopAdj i = 0 then none
      else
        let s := { s with nopAdj := upd s.nopAdj i (s.nopAdj i - 1) }
        if s.nopAdj i = 0 then
          some { s with nopConn := upd2 (upd2 s.nopConn n1 n2 false) n2 n1 false }
        else some s

end SeQuant.Wick
