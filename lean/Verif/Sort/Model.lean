/-!
# Model of `bubble_sort` (`SeQuant/core/algorithm.hpp:30-95`) and of the swap counter
(`SeQuant/core/utility/swap.hpp`)
-/

namespace SeQuant.Sort

variable {α β : Type}

/-- The inner `for` loop (algorithm.hpp:45-93): walks once over the range comparing `*inext` with `*i`; if
`comp(*inext, *i)` the two are exchanged.  The first component is the new range, the second the number of
exchanges (`swapped` is `true` iff that number is nonzero). -/
def pass (comp : α → α → Bool) : List α → List α × Nat
  | [] => ([], 0)
  | [x] => ([x], 0)
  | x :: y :: rest =>
    if comp y x then
      let r := pass comp (x :: rest)
      (y :: r.1, r.2 + 1)
    else
      let r := pass comp (y :: rest)
      (x :: r.1, r.2)
termination_by l => l.length

/-- The `do ... while (swapped)` loop (algorithm.hpp:33-94).  `fuel` bounds the number of rounds; `none` means
that the loop has not finished within `fuel` rounds, so non-termination is visible in the model.  The result
carries the total number of exchanges. -/
def bubbleSort (comp : α → α → Bool) : Nat → List α → Option (List α × Nat)
  | 0, _ => none
  | fuel + 1, l =>
    let r := pass comp l
    if r.2 = 0 then some (r.1, 0)
    else (bubbleSort comp fuel r.1).map fun q => (q.1, r.2 + q.2)

/-- The comparator used on zipped ranges when `comp` only compares single elements
(`composite_compare`, algorithm.hpp:73-82). -/
def compositeCompare (comp : α → α → Bool) (c0 c1 : α × α) : Bool :=
  if comp c0.1 c1.1 then true
  else if !comp c1.1 c0.1 then comp c0.2 c1.2
  else false

/-- State of the per-thread swap counter after `n` counted swaps since `reset`
(`SwapCounter::reset`, `toggle`, `even_num_of_swaps`, swap.hpp:44-56 of that file). -/
def counterIsEven : Nat → Bool
  | 0 => true
  | n + 1 => !counterIsEven n

end SeQuant.Sort
