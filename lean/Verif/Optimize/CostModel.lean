import Mathlib.Data.List.Basic
import Mathlib.Data.Rat.Defs
import Mathlib.Order.Defs.LinearOrder
import Mathlib.Algebra.Order.Ring.Rat

/-!
# Asymptotic costs

Transcribes `AsyCost` (`SeQuant/core/asy_cost.hpp`, `SeQuant/core/asy_cost.cpp`).  Index spaces are elements of a linear order; maps and
sets are sorted lists, as in the flat containers; floating-point numbers are replaced by rationals, infinity by `none`.
-/

namespace SeQuant.Optimize

variable {σ : Type} [LinearOrder σ]

/-- `ExponentMap`: sorted by key (asy_cost.hpp:28). -/
abbrev Exps (σ : Type) := List (σ × Nat)

/-- `AsyCostEntry` (asy_cost.hpp:35-38). -/
structure Entry (σ : Type) where
  exps : Exps σ
  pref : ℚ
  isMax : Bool
deriving DecidableEq

/-- The constructor (asy_cost.cpp:22-34). -/
def Entry.make (e : Exps σ) (p : ℚ) : Entry σ :=
  let e' := e.filter fun kv => kv.2 ≠ 0
  if p = 0 ∨ e' = [] then ⟨[], 0, false⟩ else ⟨e', p, false⟩

/-- `AsyCostEntry::max` (36-41). -/
def Entry.max : Entry σ := ⟨[], 9223372036854775807, true⟩

/-- `is_zero` (56-58). -/
def Entry.isZero (e : Entry σ) : Bool := !e.isMax && e.exps.isEmpty && decide (e.pref = 0)

/-- `exp_for` (140-143). -/
def expFor (m : Exps σ) (s : σ) : Nat :=
  match m.find? fun kv => kv.1 = s with
  | some kv => kv.2
  | none => 0

/-- `total_degree` (145-149). -/
def degree (m : Exps σ) : Nat := m.foldl (fun a kv => a + kv.2) 0

/-- Insertion into `container::set<IndexSpace>`. -/
def insertSpace (s : σ) : List σ → List σ
  | [] => [s]
  | t :: l => if s < t then s :: t :: l else if s = t then t :: l else t :: insertSpace s l

/-- The loop over the spaces from the largest one (160-165). -/
def lexLt (f g : σ → Nat) : List σ → Bool
  | [] => false
  | s :: l => if f s ≠ g s then decide (f s < g s) else lexLt f g l

/-- `AsyCostEntry::operator<` (129-166). -/
def Entry.lt (a b : Entry σ) : Bool :=
  if a.isMax ≠ b.isMax then !a.isMax
  else if degree a.exps ≠ degree b.exps then decide (degree a.exps < degree b.exps)
  else
    let spaces := (a.exps ++ b.exps).foldl (fun l kv => insertSpace kv.1 l) []
    lexLt (expFor a.exps) (expFor b.exps) spaces.reverse

/-- `AsyCostEntry::operator==` (168-170). -/
def Entry.eqv (a b : Entry σ) : Bool := a.isMax == b.isMax && decide (a.exps = b.exps)

/-- `AsyCost`: a set of entries, smallest first (asy_cost.hpp:110). -/
abbrev Cost (σ : Type) := List (Entry σ)

/-- The constructors from an entry and from exponents (asy_cost.cpp:176-183). -/
def Cost.ofEntry (e : Entry σ) : Cost σ := if !e.isZero then [e] else []
def Cost.make (e : Exps σ) (p : ℚ) : Cost σ := Cost.ofEntry (Entry.make e p)
def Cost.max : Cost σ := Cost.ofEntry Entry.max

/-- `std::pow`. -/
def power (x : ℚ) (n : Nat) : ℚ := x ^ n

/-- The value of one entry (189-196). -/
def Entry.ops (x : σ → ℚ) (e : Entry σ) : ℚ := e.pref * e.exps.foldl (fun t kv => t * power (x kv.1) kv.2) 1

/-- The body of the loop of `ops` (187-197); `none` is infinity, which is returned at once. -/
def opsStep (x : σ → ℚ) (t : Option ℚ) (e : Entry σ) : Option ℚ :=
  match t with
  | none => none
  | some t => if e.isMax then none else some (t + e.ops x)

/-- `ops` (185-199). -/
def Cost.ops (x : σ → ℚ) (c : Cost σ) : Option ℚ :=
  c.foldl (opsStep x) (some 0)

/-- The body of the loop of `operator+` (224-231): `find`, then add and perhaps erase, or emplace in order. -/
def Cost.add1 (d : Cost σ) (c : Entry σ) : Cost σ :=
  match d with
  | [] => [c]
  | e :: d =>
    if e.lt c then e :: Cost.add1 d c
    else if c.lt e then c :: e :: d
    else if e.pref + c.pref = 0 then d else { e with pref := e.pref + c.pref } :: d

/-- `operator+` (221-233). -/
def Cost.add (l r : Cost σ) : Cost σ := r.foldl Cost.add1 l

/-- `operator*` (239-245). -/
def Cost.scale (c : Cost σ) (q : ℚ) : Cost σ := c.map fun e => { e with pref := e.pref * q }

/-- `operator-` (235-237) and `operator/` (247-249). -/
def Cost.sub (l r : Cost σ) : Cost σ := l.add (r.scale (-1))
def Cost.div (c : Cost σ) (q : ℚ) : Cost σ := c.scale (1 / q)

/-- The loop of `operator<` (255-265) over the reversed zip; `none` if it ran through. -/
def ltLoop : List (Entry σ × Entry σ) → Option Bool
  | [] => none
  | (c1, c2) :: l =>
    if c1.lt c2 then some true
    else if c1.eqv c2 then
      if c1.pref < c2.pref then some true
      else if c1.pref > c2.pref then some false
      else ltLoop l
    else some false

/-- `operator<` (251-268).  `reverse(zip(l, r))` of range-v3 starts at the ends of *both* containers (the end iterator
of a zip of common ranges holds each container's own end, and two zip iterators are equal as soon as one component is),
so the largest entries are paired with each other whatever the sizes. -/
def Cost.lt (l r : Cost σ) : Bool :=
  match ltLoop (l.reverse.zip r.reverse) with
  | some b => b
  | none => decide (l.length < r.length)

/-- The same loop over a zip that is cut to the common length before it is reversed (what `std::views::zip` would do):
not the code, kept to show that the order depends on this. -/
def Cost.ltCut (l r : Cost σ) : Bool :=
  match ltLoop (l.zip r).reverse with
  | some b => b
  | none => decide (l.length < r.length)

/-- `operator==` (270-272), `>` (278-280), `<=` (282-284), `>=` (286-288). -/
def Cost.eqv (l r : Cost σ) : Bool := decide (l.length = r.length) && !(l.lt r || r.lt l)
def Cost.gt (l r : Cost σ) : Bool := !(l.lt r || l.eqv r)
def Cost.le (l r : Cost σ) : Bool := l.lt r || l.eqv r
def Cost.ge (l r : Cost σ) : Bool := l.gt r || l.eqv r

end SeQuant.Optimize
