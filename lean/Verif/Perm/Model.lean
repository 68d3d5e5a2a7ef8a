/-!
# Model of `next_permutation_parity`, `permutation_parity` and `count_cycles`
(`SeQuant/core/algorithm.hpp:106-137`, `SeQuant/core/utility/permutation.hpp`)
-/

namespace SeQuant.Perm

variable {α : Type}

/-- `comp(*i, *j)`; `none` stands for an access outside of the range (undefined behaviour in C++). -/
def cmpAt (comp : α → α → Bool) (l : List α) (i j : Nat) : Option Bool :=
  match l[i]?, l[j]? with
  | some a, some b => some (comp a b)
  | _, _ => none

/-- The `for (;;)` loop (algorithm.hpp:113-136) as the search for `i`: positions `ii = i + 1`, starting with
the last element.  Outer `none`: invalid access; `some none`: the loop left through `i == first`
(algorithm.hpp:130); `some (some i)`: `comp(*i, *ii)` holds. -/
def findPivot (comp : α → α → Bool) (l : List α) : Nat → Option (Option Nat)
  | 0 => some none
  | i + 1 =>
    match cmpAt comp l i (i + 1) with
    | none => none
    | some true => some (some i)
    | some false => findPivot comp l i

/-- `while (!comp(*i, *(--j)))` (algorithm.hpp:119-121), with `j` starting at `last`. -/
def findSwap (comp : α → α → Bool) (l : List α) (i : Nat) : Nat → Option Nat
  | 0 => none
  | j + 1 =>
    match cmpAt comp l i j with
    | none => none
    | some true => some j
    | some false => findSwap comp l i j

/-- `std::iter_swap(i, j)`. -/
def iterSwap (l : List α) (i j : Nat) : Option (List α) :=
  match l[i]?, l[j]? with
  | some a, some b => some ((l.set i b).set j a)
  | _, _ => none

/-- `std::reverse(ii, last)`. -/
def reverseFrom (l : List α) (ii : Nat) : List α := l.take ii ++ (l.drop ii).reverse

/-- `next_permutation_parity` (algorithm.hpp:106-137): the return value, the new range and the new parity;
`none` if the code would leave the range. -/
def nextPermutationParity (comp : α → α → Bool) (parity : Nat) (l : List α) :
    Option (Bool × List α × Nat) :=
  if l.length ≤ 1 then some (false, l, parity)
  else
    match findPivot comp l (l.length - 1) with
    | none => none
    | some (some i) =>
      match findSwap comp l i l.length with
      | none => none
      | some j =>
        match iterSwap l i j with
        | none => none
        | some l' =>
          some (true, reverseFrom l' (i + 1), (parity + 1 + (l.length - (i + 1)) / 2) % 2)
    | some none => some (false, reverseFrom l 0, (parity + l.length / 2) % 2)

/-- `do f while (next_permutation_parity(parity, ...))`: the sequence of (range, parity) seen by `f`.
This is how `antisymmetrizer.cpp` and `result.hpp` use the function.  `fuel` bounds the number of rounds
(`none` = not finished). -/
def enumerate (comp : α → α → Bool) : Nat → Nat → List α → Option (List (List α × Nat))
  | 0, _, _ => none
  | fuel + 1, parity, l =>
    match nextPermutationParity comp parity l with
    | none => none
    | some (false, _, _) => some [(l, parity)]
    | some (true, l', parity') => (enumerate comp fuel parity' l').map ((l, parity) :: ·)


/-! ### `permutation_parity` (permutation.hpp:118-146) -/

/-- The `do ... while (p[i] < N)` loop (permutation.hpp:133-137); `none`: out-of-range access or fuel exhausted.
Entries are natural numbers, i.e. the wrap-around of the element type `T` is not modelled (`p[i] + N` is assumed to
be representable). -/
def cycleLoop (N : Nat) : Nat → List Nat → Nat → Nat → Option (List Nat × Nat)
  | 0, _, _, _ => none
  | fuel + 1, p, i, len =>
    match p[i]? with
    | none => none
    | some i' =>
      match p[i']? with
      | none => none
      | some v =>
        let p' := p.set i' (v + N)
        if v + N < N then cycleLoop N fuel p' i' (len + 1) else some (p', len + 1)

/-- The `for` loop over `k` (permutation.hpp:129-139): remaining positions, current `p`, current parity. -/
def parityLoop (N : Nat) : List Nat → List Nat → Int → Option (List Nat × Int)
  | [], p, parity => some (p, parity)
  | k :: ks, p, parity =>
    match p[k]? with
    | none => none
    | some v =>
      if N ≤ v then parityLoop N ks p parity
      else
        match cycleLoop N (N + 1) p k 1 with
        | none => none
        | some (p', len) => parityLoop N ks p' (if len % 2 = 0 then -parity else parity)

/-- `permutation_parity(p, overwrite)` (permutation.hpp:122-146): the returned parity and the final content of
`p` (as for a signed element type). -/
def permutationParity (p : List Nat) (overwrite : Bool) : Option (Int × List Int) :=
  (parityLoop p.length (List.range p.length) p 1).map fun r =>
    (r.2, r.1.map fun (e : Nat) => if overwrite then (e : Int) - p.length else (e : Int))

/-! ### `count_cycles` (permutation.hpp:46-116) -/

/-- The array `parent` of the union-find structure, as a function of the slot. -/
abbrev Parent := Nat → Nat

/-- `find` with path halving (permutation.hpp:84-90); `none`: not finished within `fuel` rounds. -/
def find : Nat → Parent → Nat → Option (Nat × Parent)
  | 0, _, _ => none
  | fuel + 1, parent, x =>
    if parent x ≠ x then
      let parent' := fun y => if y = x then parent (parent x) else parent y
      find fuel parent' (parent' x)
    else some (x, parent)

/-- `unite(a, b)`: `parent[find(a)] = find(b)` (permutation.hpp:91).  Since C++17 the right operand of an assignment
is evaluated first. -/
def unite (fuel : Nat) (parent : Parent) (a b : Nat) : Option Parent :=
  match find fuel parent b with
  | none => none
  | some (rb, parent₁) =>
    match find fuel parent₁ a with
    | none => none
    | some (ra, parent₂) => some fun y => if y = ra then rb else parent₂ y

/-- A sequence of `unite` calls. -/
def uniteAll (fuel : Nat) : Parent → List (Nat × Nat) → Option Parent
  | parent, [] => some parent
  | parent, (a, b) :: es =>
    match unite fuel parent a b with
    | none => none
    | some parent' => uniteAll fuel parent' es

/-- The arguments of the `unite` calls made by `add_slot` (permutation.hpp:99-103) for the values `vs` in slots
`slot, slot + 1, ...`; `first` is the map `first_slot`. -/
def contractionEdges [DecidableEq α] : List (α × Nat) → Nat → List α → List (Nat × Nat)
  | _, _, [] => []
  | first, slot, v :: vs =>
    match first.lookup v with
    | none => contractionEdges ((v, slot) :: first) (slot + 1) vs
    | some s => (s, slot) :: contractionEdges first (slot + 1) vs

/-- The final loop counting the roots (permutation.hpp:112-115). -/
def countRoots (fuel : Nat) : Parent → List Nat → Option Nat
  | _, [] => some 0
  | parent, i :: is =>
    match find fuel parent i with
    | none => none
    | some (r, parent') => (countRoots fuel parent' is).map fun c => if r = i then c + 1 else c

/-- `count_cycles(v0, v1)` (permutation.hpp:46-116) without the debug-only precondition check.  `fuel` bounds the number
of rounds of each `find` loop.  The two loops over `v0` and `v1` (permutation.hpp:104-109) number the slots
`0 .. n0 + n1 - 1` consecutively. -/
def countCycles [DecidableEq α] (fuel : Nat) (v0 v1 : List α) : Option Nat :=
  let n0 := v0.length
  let n1 := v1.length
  let columns := (List.range (min n0 n1)).map fun i => (i, n0 + i)
  match uniteAll fuel id (columns ++ contractionEdges [] 0 (v0 ++ v1)) with
  | none => none
  | some parent => countRoots fuel parent (List.range (n0 + n1))

end SeQuant.Perm
