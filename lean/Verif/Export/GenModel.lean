/-
Model of the peephole optimizer for generated code,
SeQuant/core/export/generation_optimizer.hpp.

Objects (`std::variant<Tensor, Variable>`, l. 27) are represented by their
comparison class: `object_equals` (l. 180-195) compares a fixed tuple of
attributes, so two objects are the same object for the optimizer exactly when
these attributes agree; the type `α` has decidable equality and stands for that
tuple.  The expression of a computation (l. 341) is an opaque value of type `ε`.

`chk` says whether `SEQUANT_ASSERT` is active: an assertion which fails gives
`none` if it is, and is skipped otherwise.  Accesses out of bounds give `none`.
-/
import Mathlib.Data.List.Basic
import Mathlib.Logic.Function.Basic

namespace SeQuant.Export

/-- The operations, generation_optimizer.hpp:29-38 and 198-342. -/
inductive Op (α ε : Type) where
  | create (o : α) (zeroInit : Bool)
  | load (o : α)
  | loadZero (o : α)
  | zero (o : α)
  | unload (o : α)
  | destroy (o : α)
  | persist (o : α)
  | compute (o : α) (e : ε)
  deriving DecidableEq, Repr

/-- generation_optimizer.hpp:40-44. -/
inductive Action where
  | dealloc | none | alloc
  deriving DecidableEq, Repr

variable {α ε : Type} [DecidableEq α]

/-- `m_object`, generation_optimizer.hpp:178. -/
def Op.obj : Op α ε → α
  | .create o _ | .load o | .loadZero o | .zero o
  | .unload o | .destroy o | .persist o | .compute o _ => o

/-- `memory_action`, generation_optimizer.hpp:107-123. -/
def Op.action : Op α ε → Action
  | .create _ _ | .load _ | .loadZero _ => .alloc
  | .unload _ | .destroy _ | .persist _ => .dealloc
  | .zero _ | .compute _ _ => .none

/-- `cancels`, generation_optimizer.hpp:64-74. -/
def Op.cancels : Op α ε → Op α ε → Bool
  | .load o, .unload o' => decide (o = o')
  | .unload o, .load o' => decide (o = o')
  | _, _ => false

/-- `pairs_with`, generation_optimizer.hpp:78-105. -/
def Op.pairsWith (a b : Op α ε) : Bool :=
  if a.obj = b.obj then
    match a.action with
    | .alloc => decide (b.action = .dealloc)
    | .dealloc => decide (b.action = .alloc)
    | .none => false
  else false

/-- One pass of the first loop of `process_operation_queue` up to the first
erasure, generation_optimizer.hpp:534-537: the queue without the first two
neighbours which cancel, `none` if there are none. -/
def firstCancel : List (Op α ε) → Option (List (Op α ε))
  | a :: b :: q => if a.cancels b then some q else (firstCancel (b :: q)).map (a :: ·)
  | _ => none

/-- The first loop of `process_operation_queue`, generation_optimizer.hpp:534-543.
After an erasure the counter is `max(i - 2, SIZE_MAX) = SIZE_MAX`, and the
increment makes it 0: the loop starts again.  The bound `m_queue.size() - 1` is
evaluated in unsigned arithmetic: when the queue is empty it is `SIZE_MAX` and
`m_queue[0]` is read out of bounds (`none`).  The number bounds the erasures;
`cancelLoop_eq` shows that it does not matter. -/
def cancelFuel : Nat → List (Op α ε) → Option (List (Op α ε))
  | _, [] => none
  | 0, _ => none
  | n + 1, q =>
    match firstCancel q with
    | none => some q
    | some q' => cancelFuel n q'

/-- The first loop of `process_operation_queue`. -/
def cancelLoop (q : List (Op α ε)) : Option (List (Op α ε)) := cancelFuel q.length q

/-- The inner pairing loop, generation_optimizer.hpp:559-585: the first later
operation which pairs with `a`; `k` is the index of the head of the list. -/
def findPartner (a : Op α ε) : List (Op α ε) → Nat → Option Nat
  | [], _ => none
  | b :: q, k => if a.pairsWith b then some k else findPartner a q (k + 1)

/-- The outer pairing loop, generation_optimizer.hpp:556-586, on the rest of the
queue starting with index `i` (already increased by the size of the cache).  The
last element is visited by the model too: it has no later operation. -/
def pairLoop (chk : Bool) :
    List (Op α ε) → Nat → List (Nat × Nat) → Option (List (Nat × Nat))
  | [], _, ps => some ps
  | a :: q, i, ps =>
    match findPartner a q (i + 1) with
    | none => pairLoop chk q (i + 1) ps
    | some k =>
      if chk && (ps.any (fun p => decide (p.1 = i)) || ps.any (fun p => decide (p.2 = k)))
      then none
      else pairLoop chk q (i + 1) (ps ++ [(i, k)])

/-- `process_operation_queue`, generation_optimizer.hpp:530-591: returns the new
cache and the new list of pairs. -/
def processQueue (chk : Bool) (queue cache : List (Op α ε)) (ps : List (Nat × Nat)) :
    Option (List (Op α ε) × List (Nat × Nat)) :=
  match cancelLoop queue with
  | none => none
  | some q =>
    match pairLoop chk q cache.length ps with
    | none => none
    | some ps' => some (cache ++ q, ps')

/-- `find_unpaired_allocation`, generation_optimizer.hpp:495-528, on the reversed
prefix; the result is the number of elements skipped (`none`: `end`). -/
def findUnpaired : List (Op α ε) → List (Op α ε) → Nat → Option Nat
  | [], _, _ => none
  | a :: l, st, n =>
    match a.action with
    | .dealloc => findUnpaired l (a :: st) (n + 1)
    | .none => findUnpaired l st (n + 1)
    | .alloc =>
      match st with
      | b :: st' => if a.pairsWith b then findUnpaired l st' (n + 1) else some n
      | [] => some n

/-- Index of the last unpaired allocation strictly before `idx`
(generation_optimizer.hpp:644-649, 652-656). -/
def unpairedBefore (cache : List (Op α ε)) (idx : Nat) : Option Nat :=
  (findUnpaired (cache.take idx).reverse [] 0).map (fun n => idx - 1 - n)

/-- Exchange two elements (`std::swap`, generation_optimizer.hpp:663-664). -/
def swapAt (l : List (Op α ε)) (i j : Nat) : List (Op α ε) :=
  match l[i]?, l[j]? with
  | some a, some b => (l.set i b).set j a
  | _, _ => l

/-- The body of the loop of `optimize_operation_cache` for one pair whose indices
have already been reduced, generation_optimizer.hpp:608-677: the new cache and
whether two operations were erased. -/
def optimizePair (chk : Bool) (cache : List (Op α ε)) (f s : Nat) :
    Option (List (Op α ε) × Bool) :=
  match cache[f]?, cache[s]? with
  | some first, some second =>
    if chk && !(decide (f < s)) then none
    else if chk && !(first.pairsWith second) then none
    -- the difference is unsigned: a negative one is larger than 2
    else if s < f ∨ s - f > 2 then some (cache, false)
    else match cache[f + 1]? with
      | none => none
      | some inter =>
        match inter.action with
        | .none => some (cache, false)
        | .alloc => some (cache, false)
        | .dealloc =>
          if chk && !(decide (first.action = .dealloc)) then none
          else match unpairedBefore cache f with
            | none => none
            | some fa =>
              match cache[fa]? with
              | none => none
              | some fop =>
                if chk && !(fop.pairsWith first) then none
                else match unpairedBefore cache fa with
                  | none => none
                  | some ia =>
                    match cache[ia]? with
                    | none => none
                    | some iop =>
                      if chk && !(iop.pairsWith inter) then none
                      else if fa - ia = 1 then
                        some (((swapAt cache ia fa).eraseIdx s).eraseIdx f, true)
                      else some (cache, false)
  | _, _ => none

/-- `optimize_operation_cache`, generation_optimizer.hpp:593-679.  Without active
assertions, a pair whose reduced index would be negative is out of bounds. -/
def optimizeLoop (chk : Bool) :
    List (Nat × Nat) → Nat → List (Op α ε) → Option (List (Op α ε))
  | [], _, cache => some cache
  | (f, s) :: ps, erased, cache =>
    if f < erased ∨ s < erased then none
    else match optimizePair chk cache (f - erased) (s - erased) with
      | none => none
      | some (cache', true) => optimizeLoop chk ps (erased + 2) cache'
      | some (cache', false) => optimizeLoop chk ps erased cache'

/-- `process_operation_cache`, generation_optimizer.hpp:681-694: the operations
which are executed. -/
def processCache (chk : Bool) (cache : List (Op α ε)) (ps : List (Nat × Nat)) :
    Option (List (Op α ε)) :=
  match cache with
  | [] => optimizeLoop chk ps 0 []
  | a :: l =>
    if chk && !(a.pairsWith ((a :: l).getLast (by simp))) then none
    else optimizeLoop chk ps 0 (a :: l)

/-- The callbacks of one expression (generation_optimizer.hpp:358-440): every
operation enters the queue, a computation processes the queue, and the end of the
expression processes queue and cache. -/
def genLoop (chk : Bool) :
    List (Op α ε) → List (Op α ε) → List (Op α ε) → List (Nat × Nat) →
      Option (List (Op α ε))
  | [], queue, cache, ps =>
    match processQueue chk queue cache ps with
    | none => none
    | some (c, ps') => processCache chk c ps'
  | .compute o e :: p, queue, cache, ps =>
    match processQueue chk (queue ++ [.compute o e]) cache ps with
    | none => none
    | some (c, ps') => genLoop chk p [] c ps'
  | a :: p, queue, cache, ps => genLoop chk p (queue ++ [a]) cache ps

/-- The operations emitted for one expression. -/
def optimize (chk : Bool) (p : List (Op α ε)) : Option (List (Op α ε)) :=
  genLoop chk p [] [] []

/-- The operations emitted for an export of several expressions. -/
def optimizeAll (chk : Bool) : List (List (Op α ε)) → Option (List (Op α ε))
  | [] => some []
  | p :: es =>
    match optimize chk p with
    | none => none
    | some q => (optimizeAll chk es).map (q ++ ·)

/-! ### Meaning of the operations

The documentation of the callbacks (generator.hpp:94-148) fixes their meaning in
terms of the memory and of the place tensors are loaded from: loading copies the
stored value into memory, unloading discards the value in memory, persisting
stores it, destroying makes it unavailable.  `memory_action` treats persisting as
a deallocation, so it releases the memory. -/

/-- What is known about one object: the value in memory, the value it would be
loaded with, and whether a value has been discarded by unloading which differed
from the stored one. -/
structure Cell (V : Type) where
  mem : Option V
  store : Option V
  lost : Bool
  deriving DecidableEq, Repr

/-- The meaning of the language of generated code: the value zero, the content of
fresh memory, and the values computed by expressions from those in memory. -/
structure Sem (α ε V : Type) where
  zero : V
  junk : α → V
  ev : α → ε → (α → Option V) → Option V

variable {V : Type} [DecidableEq V]

/-- Effect of an operation other than a computation on the object it names;
`none` is a run-time error.  With `strict`, loading an object whose value was
discarded is an error too. -/
def cellStep (S : Sem α ε V) (strict : Bool) : Op α ε → Cell V → Option (Cell V)
  | .create o z, c =>
    if c.mem.isSome then none else some { c with mem := some (if z then S.zero else S.junk o) }
  | .load _, c =>
    if c.mem.isSome ∨ c.store.isNone ∨ (strict = true ∧ c.lost = true) then none
    else some { c with mem := c.store }
  | .loadZero _, c =>
    if c.mem.isSome ∨ c.store.isNone then none else some { c with mem := some S.zero }
  | .zero _, c => if c.mem.isSome then some { c with mem := some S.zero } else none
  | .unload _, c =>
    if c.mem.isSome then some ⟨none, c.store, c.lost || decide (c.mem ≠ c.store)⟩ else none
  | .destroy _, c => if c.mem.isSome then some ⟨none, none, false⟩ else none
  | .persist _, c => if c.mem.isSome then some ⟨none, c.mem, false⟩ else none
  | .compute _ _, _ => none

/-- Effect of one operation on the state. -/
def step (S : Sem α ε V) (strict : Bool) (a : Op α ε) (s : α → Cell V) :
    Option (α → Cell V) :=
  match a with
  | .compute o e =>
    if (s o).mem.isSome then
      match S.ev o e (fun x => (s x).mem) with
      | none => none
      | some v => some (Function.update s o { s o with mem := some v })
    else none
  | a => (cellStep S strict a (s a.obj)).map (Function.update s a.obj)

/-- Effect of a program. -/
def run (S : Sem α ε V) (strict : Bool) : List (Op α ε) → (α → Cell V) → Option (α → Cell V)
  | [], s => some s
  | a :: p, s => (step S strict a s).bind (run S strict p)

/-- Only `load` follows, and only `unload` precedes: nothing is created or loaded
with zeros after it was released, and nothing is allocated again after it was
destroyed or persisted. -/
def OnlyReload (p : List (Op α ε)) : Prop :=
  p.Pairwise fun a b =>
    a.obj = b.obj → a.action = .dealloc → b.action = .alloc →
      a = .unload a.obj ∧ b = .load b.obj

instance [DecidableEq ε] (p : List (Op α ε)) : Decidable (OnlyReload p) := by
  unfold OnlyReload; infer_instance

end SeQuant.Export
