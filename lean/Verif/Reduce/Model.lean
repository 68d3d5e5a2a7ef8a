import Mathlib.Data.List.Basic

/-!
# Model of the elimination of Kronecker deltas and overlaps

`detail::compute_index_replacement_rules`, `apply_index_replacement_rules`, `reduce_wick_impl` (`SeQuant/core/wick.impl.hpp:34-649`) and
`IndexFactory::make(space)` (`SeQuant/core/index.hpp:1127-1148`).

Simplifications: indices have no proto-indices; the product is a list of factors (it is expanded); an object `index_repl_dst_t` shared by its sources is one
`Cls`, and `src2dst` maps an index to the class that has it among its sources; registry lookups are parameters.
-/

namespace SeQuant.Reduce

/-- `Index`. -/
structure Idx (S : Type) where
  space : S
  ord : Nat
deriving DecidableEq, Repr

/-- A factor: Kronecker delta or overlap with its bra and ket index, another tensor or normal operator, the constant 1 left by a delta. -/
inductive Fac (T S : Type) where
  | delta (overlap : Bool) (bra ket : Idx S)
  | tens (t : T) (slots : List (Idx S))
  | one
deriving DecidableEq, Repr

/-- Why no rules are returned: the product is zero; an exception or a failed assertion. -/
inductive Stop where
  | zero | throw
deriving DecidableEq, Repr

/-- `IndexSpaceRegistry::intersection` (index_space_registry.hpp:608-636; `zero`: the null space), `includes`, `operator<` of indices,
`Index::min_tmp_index()`. -/
structure Env (S : Type) where
  inter : S → S → Except Stop S
  incl : S → S → Bool
  lt : Idx S → Idx S → Bool
  minTmp : Nat

/-- `index_repl_dst_t` (wick.impl.hpp:46-79). -/
structure Cls (S : Type) where
  dst : Idx S
  srcs : List (Idx S)
deriving DecidableEq, Repr

/-- `dst_list` with `src2dst`, and the counters of `idxfac`. -/
structure St (S : Type) where
  cls : List (Cls S)
  cnt : S → Nat

variable {T S : Type} [DecidableEq S]

/-! ## Fresh indices -/

def freshOrd (all : List (Idx S)) (s : S) : Nat → Nat → Option Nat
  | 0, _ => none
  | fuel + 1, n => if (⟨s, n + 1⟩ : Idx S) ∈ all then freshOrd all s fuel (n + 1) else some (n + 1)

/-- `idxfac.make(space)` with the validator of lines 131-134. -/
def fresh (all : List (Idx S)) (st : St S) (s : S) : Except Stop (Idx S × St S) :=
  match freshOrd all s (all.length + 1) (st.cnt s) with
  | some n => .ok (⟨s, n⟩, { st with cnt := fun t => if t = s then n else st.cnt t })
  | none => .error .throw

/-! ## Rules -/

/-- `src2dst.find(src)`. -/
def St.find (st : St S) (src : Idx S) : Option (Cls S) := st.cls.find? fun c => decide (src ∈ c.srcs)

/-- `append_src` (66-74) on the objects selected. -/
def St.append (st : St S) (p : Cls S → Bool) (src : Idx S) : Except Stop (St S) :=
  if st.cls.any (fun c => p c && decide (src ∈ c.srcs)) then .error .throw
  else .ok { st with cls := st.cls.map fun c => if p c then { c with srcs := c.srcs ++ [src] } else c }

/-- `update_dst` on the object of `src`. -/
def St.setDst (st : St S) (src dst : Idx S) : St S :=
  { st with cls := st.cls.map fun c => if src ∈ c.srcs then { c with dst := dst } else c }

/-- `add_rule` (205-220). -/
def addRule (st : St S) (src dst : Idx S) : Except Stop (St S) :=
  if st.cls.any (fun c => decide (c.dst = dst)) then st.append (fun c => decide (c.dst = dst)) src
  else .ok { st with cls := st.cls ++ [⟨dst, [src]⟩] }

/-- `update_rule` (223-258). -/
def updateRule (E : Env S) (all : List (Idx S)) (st : St S) (src dst : Idx S) : Except Stop (St S) :=
  match st.find src with
  | none => .error .throw
  | some c =>
    if dst.space = c.dst.space then .ok st
    else do
      let s ← E.inter c.dst.space dst.space
      let r ← fresh all st s
      return r.2.setDst src r.1

/-- `add_or_update_rule` (262-272). -/
def addOrUpdate (E : Env S) (all : List (Idx S)) (st : St S) (src dst : Idx S) : Except Stop (St S) :=
  if (st.find src).isNone then addRule st src dst else updateRule E all st src dst

/-- `add_src_to_existing_dst` (159-163). -/
def addSrc (st : St S) (src old : Idx S) : Except Stop (St S) := st.append (fun c => decide (old ∈ c.srcs)) src

/-- The choice of the new destination (329-345). -/
def chooseDst (E : Env S) (all : List (Idx S)) (st : St S) (s : S) (d1 d2 dst : Idx S) : Except Stop (Idx S × St S) :=
  if s = d1.space then
    let n := if s = d2.space ∧ E.lt d2 d1 = true then d2 else d1
    .ok (if s = dst.space ∧ E.lt dst n = true then dst else n, st)
  else if s = d2.space then .ok (if s = dst.space ∧ E.lt dst d2 = true then dst else d2, st)
  else if s = dst.space then .ok (dst, st)
  else fresh all st s

/-- The space of the new destination (321-326). -/
def commonSpace (E : Env S) (d1 d2 dst : Idx S) : Except Stop S :=
  if dst.space ≠ d1.space ∨ dst.space ≠ d2.space then (E.inter d1.space d2.space).bind (fun u => E.inter u dst.space)
  else .ok dst.space

/-- The case of two existing rules (315-360), with `merge_dst2_into_dst1` (172-202). -/
def mergeRules (E : Env S) (all : List (Idx S)) (st : St S) (c1 c2 : Cls S) (src1 src2 dst : Idx S) : Except Stop (St S) := do
  let s ← commonSpace E c1.dst c2.dst dst
  let r ← chooseDst E all st s c1.dst c2.dst dst
  if src2 ∈ c1.srcs then return r.2.setDst src1 r.1
  else return { r.2 with
    cls := (r.2.cls.filter fun c => decide (src2 ∉ c.srcs)).map fun c => if src1 ∈ c.srcs then ⟨r.1, c.srcs ++ c2.srcs⟩ else c }

/-- `add_or_update_rules` (277-362). -/
def addOrUpdate2 (E : Env S) (all : List (Idx S)) (st : St S) (src1 src2 dst : Idx S) : Except Stop (St S) :=
  match st.find src1, st.find src2 with
  | none, none => do addRule (← addRule st src1 dst) src2 dst
  | some _, none => do addSrc (← updateRule E all st src1 dst) src2 src1
  | none, some _ => do addSrc (← updateRule E all st src2 dst) src1 src2
  | some c1, some c2 => mergeRules E all st c1 c2 src1 src2 dst

/-- The body of the loop over the factors (369-432). -/
def step (E : Env S) (ext nc all : List (Idx S)) (st : St S) : Fac T S → Except Stop (St S)
  | .delta ov b k =>
    if b = k ∨ (ov = true ∧ b ∈ nc ∧ k ∈ nc) then .ok st
    else do
      let s ← E.inter b.space k.space
      if b ∉ ext ∧ k ∉ ext then
        let r ← fresh all st s
        addOrUpdate2 E all r.2 b k r.1
      else if b ∈ ext ∧ k ∉ ext then
        if E.incl k.space b.space then addOrUpdate E all st k b
        else
          let r ← fresh all st s
          addOrUpdate E all r.2 k r.1
      else if b ∉ ext ∧ k ∈ ext then
        if E.incl b.space k.space then addOrUpdate E all st b k
        else
          let r ← fresh all st s
          addOrUpdate E all r.2 b r.1
      else .ok st
  | _ => .ok st

/-- `compute_index_replacement_rules` (105-443); `have_kroneckers` is not needed: without deltas nothing is replaced. -/
def rules (E : Env S) (ext nc all : List (Idx S)) (fs : List (Fac T S)) : Except Stop (St S) :=
  fs.foldlM (step E ext nc all) ⟨[], fun _ => E.minTmp - 1⟩

/-- The map of indices returned. -/
def St.rho (st : St S) (i : Idx S) : Idx S :=
  match st.find i with
  | some c => c.dst
  | none => i

/-! ## Application -/

def Fac.map (f : Idx S → Idx S) : Fac T S → Fac T S
  | .delta ov b k => .delta ov (f b) (f k)
  | .tens t l => .tens t (l.map f)
  | .one => .one

/-- A delta with equal indices. -/
def Fac.trivial : Fac T S → Bool
  | .delta _ b k => decide (b = k)
  | _ => false

/-- `apply_index_replacement_rules` (446-518): the tags make the replacement simultaneous, so that further rounds of its loop change nothing; the flag is
set only by the deltas removed (`pass_mutated &= …`, line 480, leaves it false). -/
def applyRules (ρ : Idx S → Idx S) (fs : List (Fac T S)) : List (Fac T S) × Bool :=
  let gs := fs.map (Fac.map ρ)
  (gs.map fun g => if g.trivial then .one else g, gs.any Fac.trivial)

def Fac.idx : Fac T S → List (Idx S)
  | .delta _ b k => [b, k]
  | .tens _ l => l
  | .one => []

/-- `get_used_indices`. -/
def used (fs : List (Fac T S)) : List (Idx S) := fs.flatMap Fac.idx

/-- `reduce_wick_impl` (523-649); `nc`: the noncovariant indices of each pass (552-614). -/
def reduce (E : Env S) (ext : List (Idx S)) (nc : List (Fac T S) → List (Idx S)) : Nat → List (Fac T S) → Except Stop (List (Fac T S))
  | 0, _ => .error .throw
  | fuel + 1, fs => do
    let st ← rules E ext (nc fs) (used fs) fs
    let r := applyRules st.rho fs
    if r.2 then reduce E ext nc fuel r.1 else return r.1

end SeQuant.Reduce
