import Verif.Expression.AccumModel
import Verif.Optimize.DpModel

/-!
# From products to optimized products (C31)

Transcribes `SeQuant/core/optimize/single_term.hpp` 189-230 and `optimize.cpp` 88-126, 136-178, 183-242.

Simplifications: the sequence of contractions comes from a function `seqOf` of the list of tensors (`singleTermSeq` and its variants);
the parallel loop over summands (optimize.cpp:219-224) is sequential, the summands are independent; reordering of sums is treated
in `SumModel`; logging is dropped; `none` is a failed assertion or undefined behaviour.
-/

namespace SeQuant.Optimize

open SeQuant.Expression

/-- What a leaf other than a constant is. -/
inductive Kind | tensor | scalar | other
deriving DecidableEq

section

variable {K A : Type}

def isTensorE (cls : A → Kind) : Expr K A → Bool
  | .atom a => decide (cls a = .tensor)
  | _ => false

mutual
/-- `Expr::is_scalar` (expr.hpp:170-176, constant.hpp:76, variable.hpp:53, power.hpp:177).  An empty product or sum counts as an atom: not a scalar. -/
def isScalarE (cls : A → Kind) : Expr K A → Bool
  | .const _ => true
  | .atom a => decide (cls a = .scalar)
  | .prod _ l => !l.isEmpty && allScalar cls l
  | .sum _ l => !l.isEmpty && allScalar cls l
def allScalar (cls : A → Kind) : List (Expr K A) → Bool
  | [] => true
  | e :: l => isScalarE cls e && allScalar cls l
end

variable [Mul K] [Add K] [Zero K] [One K] [Neg K] [DecidableEq K] [Atoms K A]

/-- The product formed for a contraction (single_term.hpp:216-218). -/
def contractE (l r : Expr K A) : Expr K A :=
  match mkProd .No 1 [l, r] with
  | .prod _ fs => mkProd .No 1 fs
  | e => e

/-- The loop over the sequence (210-221); the top of the stack is the head of the list.  `tensors.at(i)` throws when out of range. -/
def seqLoop (tensors : List (Expr K A)) : List Int → List (Expr K A) → Option (List (Expr K A))
  | [], s => some s
  | i :: is, s =>
    if i = -1 then
      match s with
      | r :: l :: s => seqLoop tensors is (contractE l r :: s)
      | _ => none
    else if i < 0 then none
    else
      match tensors[i.toNat]? with
      | some t => seqLoop tensors is (t :: s)
      | none => none

/-- `single_term_opt(prod)` (189-230). -/
def singleTermExpr (cls : A → Kind) (seqOf : List (Expr K A) → Option (List Int)) (c : K) (l : List (Expr K A)) : Option (Expr K A) :=
  if l.length < 3 then some (mkProd .No c l)
  else
    let tensors := l.filter (isTensorE cls)
    match seqOf tensors with
    | none => none
    | some seq =>
      match seqLoop tensors seq [] with
      | some (.prod d fs :: _) =>
        let st := (l.reverse.filter (isScalarE cls)).foldl (fun st v => pPrepend clone .No st v) (d, fs)
        some (.prod (st.1 * c) st.2)
      | _ => none

end

/-! ### Placeholders -/

section

variable {K A : Type}

/-- Leaves of the auxiliary product: the original ones and numbered placeholder tensors `@__opt_i`. -/
def kindP (cls : A → Kind) : A ⊕ Nat → Kind
  | .inl a => cls a
  | .inr _ => .tensor

mutual
/-- The same expression with the larger set of leaves. -/
def liftE : Expr K A → Expr K (A ⊕ Nat)
  | .const c => .const c
  | .atom a => .atom (.inl a)
  | .prod c l => .prod c (liftL l)
  | .sum ci l => .sum ci (liftL l)
def liftL : List (Expr K A) → List (Expr K (A ⊕ Nat))
  | [] => []
  | e :: l => liftE e :: liftL l
end

instance [Atoms K A] : Atoms K (A ⊕ Nat) where
  isZero := fun x => match x with
    | .inl a => Atoms.isZero K a
    | .inr _ => false
  flat := fun x => match x with
    | .inl a => (Atoms.flat a : Option (K ⊕ A)).map fun y => match y with
      | .inl c => .inl c
      | .inr b => .inr (.inl b)
    | .inr _ => none

/-- The new factors (optimize.cpp:141-152). -/
def placeholders (cls : A → Kind) (i : Nat) : List (Expr K A) → List (Expr K (A ⊕ Nat))
  | [] => []
  | f :: l => (if isTensorE cls f || isScalarE cls f then liftE f else .atom (.inr i)) :: placeholders cls (i + 1) l

mutual
/-- The replacement of placeholders (157-176): `visit` with `atoms_only` assigns to the children in place; a placeholder without entry fails the
assertion of 172. -/
def unplace (cl : Expr K A → Expr K A) (orig : List (Expr K A)) : Expr K (A ⊕ Nat) → Option (Expr K A)
  | .const c => some (.const c)
  | .atom (.inl a) => some (.atom a)
  | .atom (.inr i) => orig[i]?.map cl
  | .prod c l => (unplaceL cl orig l).map (.prod c ·)
  | .sum ci l => (unplaceL cl orig l).map (.sum ci ·)
def unplaceL (cl : Expr K A → Expr K A) (orig : List (Expr K A)) : List (Expr K (A ⊕ Nat)) → Option (List (Expr K A))
  | [] => some []
  | e :: l =>
    match unplace cl orig e, unplaceL cl orig l with
    | some e', some l' => some (e' :: l')
    | _, _ => none
end

variable [Mul K] [Add K] [Zero K] [One K] [Neg K] [DecidableEq K] [Atoms K A]

/-- `opt_mixed_product` (136-178). -/
def optMixed (cls : A → Kind) (seqOf : List (Expr K (A ⊕ Nat)) → Option (List Int)) (c : K) (l : List (Expr K A)) : Option (Expr K A) :=
  match (mkProd .No c (placeholders cls 0 l) : Expr K (A ⊕ Nat)) with
  | .prod c' l' => (singleTermExpr (kindP cls) seqOf c' l').bind (unplace clone l)
  | _ => none

mutual
/-- `optimize_impl` (183-242) without reordering. -/
def optE (cls : A → Kind) (seqOf : List (Expr K A) → Option (List Int)) (seqOf' : List (Expr K (A ⊕ Nat)) → Option (List Int)) :
    Expr K A → Option (Expr K A)
  | .prod c l =>
    if l.all (fun f => isTensorE cls f || isScalarE cls f) then singleTermExpr cls seqOf c l else optMixed cls seqOf' c l
  | .sum _ l =>
    match optL cls seqOf seqOf' l with
    | none => none
    | some l' =>
      match moveOnly l' with
      | .ok st => some (.sum st.1 st.2)
      | _ => none
  | e => some (clone e)
def optL (cls : A → Kind) (seqOf : List (Expr K A) → Option (List Int)) (seqOf' : List (Expr K (A ⊕ Nat)) → Option (List Int)) :
    List (Expr K A) → Option (List (Expr K A))
  | [] => some []
  | e :: l =>
    match optE cls seqOf seqOf' e, optL cls seqOf seqOf' l with
    | some e', some l' => some (e' :: l')
    | _, _ => none
end

end

end SeQuant.Optimize
