import Verif.Space.Model
import Mathlib.Order.Defs.LinearOrder

/-!
# Indices

Transcribes `SeQuant/core/index.hpp`.  Labels are derived data and not modelled.  Tags hold an `int` (the only type used with indices in
the core).
-/

namespace SeQuant.Indices

open SeQuant.Spaces

/-- `class Index` (index.hpp:90-1057): space, ordinal, proto-indices, their symmetry, and the tag (tag.hpp). -/
inductive Idx (Key : Type) where
  | mk (space : Space Key) (ord : Option Nat) (protos : List (Idx Key)) (sym : Bool) (tag : Option Int)

variable {Key : Type} [LinearOrder Key]

namespace Idx

def space : Idx Key → Space Key | mk s _ _ _ _ => s
def ord : Idx Key → Option Nat | mk _ o _ _ _ => o
def protos : Idx Key → List (Idx Key) | mk _ _ p _ _ => p
def sym : Idx Key → Bool | mk _ _ _ y _ => y
def tag : Idx Key → Option Int | mk _ _ _ _ t => t

mutual
/-- `operator==` (index.hpp:1004-1010). -/
def beq : Idx Key → Idx Key → Bool
  | mk s1 o1 p1 _ _, mk s2 o2 p2 _ _ =>
    s1.beq s2 && (decide (s1.attr ≠ Attr.reserved) || decide (s1.key = s2.key)) && decide (o1 = o2) && beqL p1 p2
/-- `operator==` of vectors. -/
def beqL : List (Idx Key) → List (Idx Key) → Bool
  | [], [] => true
  | a :: l, b :: m => beq a b && beqL l m
  | _, _ => false
end

/-- `operator<` of `std::optional`. -/
def optLt : Option Nat → Option Nat → Bool
  | none, some _ => true
  | some a, some b => decide (a < b)
  | _, none => false

mutual
/-- `operator<=>` (index.hpp:1024-1053). -/
def cmp : Idx Key → Idx Key → Ordering
  | mk s1 o1 p1 _ t1, mk s2 o2 p2 _ t2 =>
    let sans : Ordering :=
      if s1.cmp s2 ≠ .eq then s1.cmp s2
      else if o1 ≠ o2 then (if optLt o1 o2 then .lt else .gt)
      else if beqL p1 p2 then .eq
      else if cmpL p1 p2 = .lt then .lt else .gt
    if s1.attr.qns = s2.attr.qns then
      match t1, t2 with
      | some a, some b => if a = b then sans else if a < b then .lt else .gt
      | _, _ => sans
    else if maskLt s1.attr.qns s2.attr.qns then .lt else .gt
/-- `operator<=>` of vectors. -/
def cmpL : List (Idx Key) → List (Idx Key) → Ordering
  | [], [] => .eq
  | [], _ :: _ => .lt
  | _ :: _, [] => .gt
  | a :: l, b :: m => (cmp a b).then (cmpL l m)
end

end Idx

/-! ### Hash -/

/-- The hash functions that `hash_value` is made of. -/
structure Hashing (Key : Type) where
  H : Type
  seed : H
  combine : H → H → H
  ofInt : Int → H
  ofKey : Key → H
  ofOrd : Nat → H

/-- `hash_value(IndexSpace)` (space.hpp:559-565). -/
def Hashing.space (h : Hashing Key) (s : Space Key) : h.H := h.combine (h.ofInt s.attr.toInt64) (h.ofKey s.key)

mutual
/-- `hash_value(Index)` (index.hpp:1197-1205). -/
def Hashing.idx (h : Hashing Key) : Idx Key → h.H
  | .mk s o p _ _ =>
    let v := h.combine (h.range h.seed p) (h.space s)
    match o with
    | some n => h.combine v (h.ofOrd n)
    | none => v
/-- `hash::range` (hash.hpp:122-133). -/
def Hashing.range (h : Hashing Key) (acc : h.H) : List (Idx Key) → h.H
  | [] => acc
  | a :: l => h.range (h.combine acc (h.idx a)) l
end

/-! ### Substitution -/

namespace Idx

/-- Insertion that keeps earlier elements first among equals. -/
def insertStable (a : Idx Key) : List (Idx Key) → List (Idx Key)
  | [] => [a]
  | b :: l => if cmp b a = .lt then b :: insertStable a l else a :: b :: l

/-- `std::stable_sort` with `operator<`. -/
def stableSort : List (Idx Key) → List (Idx Key)
  | [] => []
  | a :: l => insertStable a (stableSort l)

/-- `canonicalize_proto_indices` (index.hpp:1093-1096). -/
def canonProtos (sym : Bool) (p : List (Idx Key)) : List (Idx Key) := if sym then stableSort p else p

/-- `index_map.find`: the maps are ordered by `operator<`, two keys are the same if neither is less. -/
def lookup (m : List (Idx Key × Idx Key)) (i : Idx Key) : Option (Idx Key) := (m.find? fun e => cmp e.1 i = .eq).map Prod.snd

def withTag : Idx Key → Option Int → Idx Key
  | mk s o p y _, t => mk s o p y t

/-- `*this = it->second; this->tag().assign(0)` (843-844): `assign` asserts that there is no tag yet. -/
def assignImage (v : Idx Key) : Option (Idx Key) := if v.tag = none then some (v.withTag (some 0)) else none

mutual
/-- `Index::transform` (index.hpp:821-874): the new index and whether it was mutated; `none` = failed assertion.
The recursion on the proto-indices is on the index before the replacement, since after a replacement the loop of 851-854 is skipped. -/
def transform (m : List (Idx Key × Idx Key)) : Idx Key → Option (Idx Key × Bool)
  | mk s o p y t =>
    match t with
    | some k =>
      if k = 0 then do
        let r ← transformL m p
        if r.2 then return (mk s o (canonProtos y r.1) y t, true)
        else return (mk s o r.1 y t, false)
      else none
    | none =>
      match lookup m (mk s o p y none) with
      | some v => do return (← assignImage v, true)
      | none => do
        let r ← transformL m p
        if r.2 then
          let i := mk s o (canonProtos y r.1) y none
          match lookup m i with
          | some v => return (← assignImage v, true)
          | none => return (i, true)
        else return (mk s o r.1 y none, false)
/-- The loop over the proto-indices (851-854). -/
def transformL (m : List (Idx Key × Idx Key)) : List (Idx Key) → Option (List (Idx Key) × Bool)
  | [] => some ([], false)
  | a :: l =>
    match a with
    | mk _ _ (_ :: _) _ _ => none
    | mk s o [] y t => do
      let r ← transform m (mk s o [] y t)
      let rs ← transformL m l
      return (r.1 :: rs.1, r.2 || rs.2)
end

/-- `reset_tag` (476-480): resets the tag of the index and of its proto-indices. -/
def resetTag : Idx Key → Idx Key
  | mk s o p y _ => mk s o (p.map fun q => q.withTag none) y none

end Idx

end SeQuant.Indices
