import Mathlib.Data.Nat.Factorial.Basic
import Mathlib.Data.Rat.Defs
import Verif.Registry.Model
import Verif.Mbpt.QnsModel

/-!
# Model of the construction of many-body operators
(`SeQuant/domain/mbpt/op.hpp` 98-121, 572-880, `op.cpp` 461-1260)

`OpMaker` turns lists of spaces into a tensor multiplied by a normal-ordered operator; the functions of `mbpt::op::tensor` call it, the functions
of `mbpt::op` store a closure that does and one that tells how the quantum numbers change.

Simplifications: spaces are a type `σ`; an index is its space, its ordinal and the list of its proto-indices (spaces and ordinals, in the order
given: sorting them is not modelled); the counter of temporary indices does not overflow and is passed along; labels are strings; a failed
assertion is `none` (assertions are taken to be enabled); assertions that the registry contains a label or that a space contains unoccupied
states are left to the caller.
-/

namespace SeQuant.Maker

open SeQuant.Registry (OpClass)

/-- `Index`: its space, ordinal and proto-indices. -/
structure Idx (σ : Type) where
  space : σ
  ord : Nat
  proto : List (σ × Nat)
deriving DecidableEq, Repr

/-- `Index::make_tmp_index` (index.hpp:489-511) for every space in a list: the counter is incremented before it is used (794-796). -/
def tmpIndices {σ : Type} (proto : List (σ × Nat)) : List σ → Nat → List (Idx σ)
  | [], _ => []
  | s :: ss, n => ⟨s, n + 1, proto⟩ :: tmpIndices proto ss (n + 1)

/-- `OpMaker::UseDepIdx` (op.hpp:660-667). -/
inductive Dep
  | bra | ket | none
deriving DecidableEq, Repr

/-- `Symmetry` (attr.hpp). -/
inductive Sym
  | symm | antisymm | nonsymm
deriving DecidableEq, Repr

/-- `SPBasis` (attr.hpp:109). -/
inductive Basis
  | spinor | spinfree
deriving DecidableEq, Repr

/-- `Normalization` (op.hpp:576-581). -/
inductive Norm
  | default | implicit | squareRoot
deriving DecidableEq, Repr

/-- `OpMaker::OpInfo` (670-676), and the counter afterwards. -/
structure Info (σ : Type) where
  cre : List (Idx σ)
  ann : List (Idx σ)
  mult : Nat
  symm : Sym
  counter : Nat
deriving DecidableEq, Repr

/-- The name under which an index is a proto-index. -/
def Idx.name {σ : Type} (i : Idx σ) : σ × Nat := (i.space, i.ord)

/-- `OpMaker::build_op_info` (692-740); `fermi` is the template parameter. -/
def buildInfo {σ : Type} (basis : Basis) (fermi : Bool) (cre ann : List σ) (dep : Dep) (n : Nat) : Option (Info σ) :=
  -- 700-702
  if basis ≠ .spinor ∧ cre.length ≠ ann.length then none
  else
    -- 719-730
    let (c, a) := match dep with
      | .bra =>
        let a := tmpIndices [] ann n
        (tmpIndices (a.map Idx.name) cre (n + ann.length), a)
      | .ket =>
        let c := tmpIndices [] cre n
        (c, tmpIndices (c.map Idx.name) ann (n + cre.length))
      | .none => (tmpIndices [] cre n, tmpIndices [] ann (n + cre.length))
    -- 732-738
    let mult := if basis = .spinor then cre.length.factorial * ann.length.factorial else cre.length.factorial
    let symm := if basis = .spinor then (if fermi then .antisymm else .symm) else .nonsymm
    some ⟨c, a, mult, symm, n + cre.length + ann.length⟩

/-- A prefactor: a number or its square root. -/
inductive Coef
  | one
  | num (q : ℚ)
  | sqrt (q : ℚ)
deriving DecidableEq

/-- `OpMaker::apply_normalization` (745-758). -/
def normalize (norm : Norm) (mult : Nat) : Coef :=
  match norm with
  | .default => .num (1 / (mult : ℚ))
  | .implicit => .one
  | .squareRoot => .sqrt (1 / (mult : ℚ))

/-- What `make` returns: a prefactor times a tensor times a normal-ordered operator; and the counter afterwards. -/
structure Term (σ : Type) where
  coef : Coef
  label : String
  bra : List (Idx σ)
  ket : List (Idx σ)
  aux : List (Idx σ)
  symm : Sym
  opCre : List (Idx σ)
  opAnn : List (Idx σ)
  counter : Nat
deriving DecidableEq

/-- `OpMaker::make` (769-785, 823-851) with the generator of `operator()` (op.cpp:606-626): the tensor has the label and the symmetry given, or else
that of the basis. -/
def make {σ : Type} (basis : Basis) (label : String) (cre ann : List σ) (aux : List (Idx σ)) (symm : Option Sym) (dep : Dep) (norm : Norm) (n : Nat) :
    Option (Term σ) :=
  match buildInfo basis true cre ann dep n with
  | none => none
  | some i => some ⟨normalize norm i.mult, label, i.cre, i.ann, aux, symm.getD i.symm, i.cre, i.ann, i.counter⟩

/-- `OpParams` (op.hpp:97-104) without `skip1`. -/
structure Params where
  order : Nat
  nbatch : Option Nat
  ordinals : List Nat
deriving DecidableEq

/-- `ranges::is_sorted`. -/
def isSorted : List Nat → Bool
  | a :: b :: l => decide (a ≤ b) && isSorted (b :: l)
  | _ => true

/-- `ranges::adjacent_find` finds nothing. -/
def noAdjacent : List Nat → Bool
  | a :: b :: l => decide (a ≠ b) && noAdjacent (b :: l)
  | _ => true

/-- `OpParams::validate` (107-120). -/
def Params.validate (p : Params) : Bool :=
  decide (p.order ≤ 9) && !(p.nbatch.isSome && !p.ordinals.isEmpty) && (p.ordinals.isEmpty || (isSorted p.ordinals && noAdjacent p.ordinals))

/-- The ordinals of the batching indices (op.cpp:535-555, and `make_batch_indices`, 468-482, with a factory whose first ordinal is 1): `none` if an
assertion fails, `some none` if there are no batching indices. -/
def Params.batch (p : Params) : Option (Option (List Nat)) :=
  if p.validate then
    if p.ordinals.isEmpty then
      match p.nbatch with
      | none => some none
      | some 0 => none
      | some k => some (some ((List.range k).map (· + 1)))
    else some (some p.ordinals)
  else none

/-- The spaces the context knows (mbpt/space_qns.hpp, convention.cpp): particle, hole and complete. -/
inductive Sel
  | particle | hole | complete
deriving DecidableEq, Repr

/-- `OpMaker(label, nc, na)` (op.cpp:491-511); `cls` is `registry->to_class(label)`. -/
def classSpaces (cls : OpClass) (nc na : Nat) : Option (List Sel × List Sel) :=
  if nc = 0 ∧ na = 0 then none
  else match cls with
    | .ex => some (List.replicate nc .particle, List.replicate na .hole)
    | .deex => some (List.replicate nc .hole, List.replicate na .particle)
    | .gen => some (List.replicate nc .complete, List.replicate na .complete)

/-- Which indices depend on the others, if not told (op.cpp:580-599). -/
def defaultDep (dep : Option Dep) (csv : Bool) (cls : OpClass) : Dep :=
  match dep with
  | some d => d
  | none => if csv then (match cls with | .ex => .bra | .deex => .ket | .gen => .none) else .none

/-- Normalization, if not told (602-607). -/
def defaultNorm (norm : Option Norm) (label : String) : Norm := norm.getD (if label = "Â" ∨ label = "Ŝ" then .implicit else .default)

/-- The operators of `mbpt::op`. -/
inductive Op
  /-- `h(k)`, `θ(k)` and `Hʼ(k)` -/
  | gen (label : String) (k : Nat)
  /-- `t(k)`, `tʼ(k)` -/
  | t (k : Nat)
  /-- `λ(k)`, `λʼ(k)` -/
  | lambda (k : Nat)
  /-- `r(np, nh)` -/
  | r (np nh : Nat) (norm : Norm)
  /-- `l(np, nh)` -/
  | l (np nh : Nat) (norm : Norm)
  /-- `A(np, nh)` -/
  | A (np nh : Int) (norm : Option Norm)
  /-- `S(K)` -/
  | S (k : Int) (norm : Option Norm)
  /-- `P(np, nh)` -/
  | P (np nh : Int) (norm : Option Norm)
deriving DecidableEq

/-- The spaces of `tensor::A` (op.cpp:796-823), `none` if an assertion fails. -/
def spacesA (np nh : Int) : Option (List Sel × List Sel) :=
  if np = 0 ∧ nh = 0 then none
  else if np ≠ 0 ∧ nh ≠ 0 ∧ ¬((0 < np ∧ 0 < nh) ∨ (np < 0 ∧ nh < 0)) then none
  else
    let c1 := if 0 < nh then [] else List.replicate nh.natAbs Sel.hole
    let a1 := if 0 < nh then List.replicate nh.natAbs Sel.hole else []
    let c2 := if 0 < np then List.replicate np.natAbs Sel.particle else []
    let a2 := if 0 < np then [] else List.replicate np.natAbs Sel.particle
    some (c1 ++ c2, a1 ++ a2)

/-- The spaces of `tensor::S` (834-851). -/
def spacesS (k : Int) : Option (List Sel × List Sel) :=
  if k = 0 then none
  else if 0 < k then some (List.replicate k.natAbs .particle, List.replicate k.natAbs .hole)
  else some (List.replicate k.natAbs .hole, List.replicate k.natAbs .particle)

/-- The spaces of creators and annihilators of the tensor form; `cls` is the class of a label in the registry. -/
def Op.spaces (cls : String → OpClass) (basis : Basis) : Op → Option (List Sel × List Sel)
  | .gen label k => classSpaces (cls label) k k
  | .t k => classSpaces (cls "t") k k
  | .lambda k => classSpaces (cls "λ") k k
  -- 767-772: `ncre(np)`, `nann(nh)`
  | .r np nh _ => classSpaces (cls "R") np nh
  -- 781-786: `ncre(nh)`, `nann(np)`
  | .l np nh _ => classSpaces (cls "L") nh np
  | .A np nh _ => spacesA np nh
  | .S k _ => spacesS k
  -- 788-796
  | .P np nh _ => if basis = .spinfree then (if np = nh then spacesS (-nh) else none) else spacesA (-np) (-nh)

/-- The tensor form (op.cpp:640-866): label, symmetry, dependence and normalization of each operator. -/
def Op.tensor (cls : String → OpClass) (basis : Basis) (csv : Bool) (n : Nat) (o : Op) : Option (Term Sel) :=
  match o.spaces cls basis with
  | none => none
  | some (c, a) =>
    let make' (label : String) (symm : Option Sym) (dep : Option Dep) (norm : Option Norm) : Option (Term Sel) :=
      make basis label c a [] symm (defaultDep dep csv (cls label)) (defaultNorm norm label) n
    match o with
    | .gen label _ => make' label none none none
    | .t _ => make' "t" none none none
    | .lambda _ => make' "λ" none none none
    | .r _ _ norm => make' "R" none none (some norm)
    | .l _ _ norm => make' "L" none none (some norm)
    | .A np nh norm => make' "Â" (some .antisymm) (if csv then some (if 0 < np ∨ 0 < nh then .bra else .ket) else none) norm
    | .S k norm => make' "Ŝ" (some .nonsymm) (if csv then some (if 0 < k then .bra else .ket) else none) norm
    | .P np nh norm =>
      if basis = .spinfree then make' "Ŝ" (some .nonsymm) (if csv then some (if 0 < -nh then .bra else .ket) else none) norm
      else make' "Â" (some .antisymm) (if csv then some (if 0 < -np ∨ 0 < -nh then .bra else .ket) else none) norm

/-- The change of quantum numbers stored with the operator (op.cpp:930-1243); `sp` describes the base spaces, `pBase`, `hBase`: are the particle and
hole spaces base spaces. -/
def Op.qns (basis : Basis) (pBase hBase : Bool) (sp : List Mbpt.BaseSpace) : Op → Mbpt.Qns
  | .gen _ k => Mbpt.generalType sp.length k
  | .t k => Mbpt.excitationType pBase hBase k sp
  | .lambda k => Mbpt.deexcitationType pBase hBase k sp
  | .r np nh _ => Mbpt.genericExcitation pBase hBase np nh sp
  | .l np nh _ => Mbpt.genericDeexcitation pBase hBase np nh sp
  | .A np nh _ => qnsA np nh
  | .S k _ => qnsS k
  | .P np nh _ => if basis = .spinfree then qnsS (-np) else qnsA (-np) (-nh)
where
  /-- 1068-1083 -/
  qnsA (np nh : Int) : Mbpt.Qns :=
    if np < 0 ∨ nh < 0 then Mbpt.genericDeexcitation pBase hBase np.natAbs nh.natAbs sp
    else Mbpt.genericExcitation pBase hBase np.natAbs nh.natAbs sp
  /-- 1091-1099 -/
  qnsS (k : Int) : Mbpt.Qns :=
    if k < 0 then Mbpt.deexcitationType pBase hBase k.natAbs sp else Mbpt.excitationType pBase hBase k.natAbs sp

/-- The ranks in `T(K, skip1)` and `Λ(K, skip1)` (op.cpp:735-743, 1015-1024): `none` if the assertion fails. -/
def ranksT (K : Nat) (skip1 : Bool) : Option (List Nat) :=
  if K > (if skip1 then 1 else 0) then some ((List.range (K + 1)).filter fun k => decide ((if skip1 then 2 else 1) ≤ k)) else none

/-- The loop of `R` and `L` (1189-1196, 1214-1221), on annihilators and creators. -/
def loopR : Nat → Nat → List (Nat × Nat)
  | 0, 0 => []
  | 0, c + 1 => [(0, c + 1)]
  | a + 1, 0 => [(a + 1, 0)]
  | a + 1, c + 1 => (a + 1, c + 1) :: loopR a c

/-- The ranks in `R(na, nc)` and `L(na, nc)`: `none` if the assertion fails. -/
def ranksR (na nc : Nat) : Option (List (Nat × Nat)) := if na > 0 ∨ nc > 0 then some (loopR na nc) else none

/-- One term of the two-electron part of the explicit Fock operator: sign and the four indices of `g`, bra and ket, where `Sum.inl` are the indices of
the operator and `Sum.inr` the summed ones, `m1` and `m2`. -/
structure FockTerm where
  neg : Bool
  bra : List (Bool ⊕ Bool)
  ket : List (Bool ⊕ Bool)
deriving DecidableEq

/-- The lambda of `tensor::F(false, occ)` (op.cpp:686-718); `inl false` is the creator, `inl true` the annihilator, `inr false` is `m1`, `inr true` is `m2`.
The result also has the factor `δ^{m1}_{m2}`; the symmetry of `g` is the second component. -/
def fockTerms (basis : Basis) : List FockTerm × Sym :=
  match basis with
  | .spinor => ([⟨false, [.inl false, .inr false], [.inl true, .inr true]⟩], .antisymm)
  | .spinfree => ([⟨false, [.inl false, .inr false], [.inl true, .inr true]⟩, ⟨true, [.inl false, .inr false], [.inr true, .inl true]⟩], .nonsymm)

end SeQuant.Maker
