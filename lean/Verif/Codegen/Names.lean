import Verif.Codegen.GenMain

/-!
# The objects and indices of the generated program
-/

namespace SeQuant.Codegen

open SeQuant.Eval (EOp)
open SeQuant.Export (Op)

variable {K : Type} [CommRing K]

set_option linter.unusedSectionVars false

/-- The objects of an operation. -/
def opNames : Op Name (Rhs K) → List Name
  | .create n _ => [n]
  | .load n => [n]
  | .loadZero n => [n]
  | .zero n => [n]
  | .unload n => [n]
  | .destroy n => [n]
  | .persist n => [n]
  | .compute n e => n :: e.2.filterMap EX.name

/-- The indices of an operation. -/
def opIdx : Op Name (Rhs K) → List Nat
  | .compute _ e => e.1 ++ e.2.flatMap EX.idx
  | _ => []

/-- The operations only concern these objects and indices. -/
def Only (N : Name → Prop) (X : Nat → Prop) (p : Code K) : Prop := ∀ o ∈ p, (∀ n ∈ opNames o, N n) ∧ ∀ i ∈ opIdx o, X i

theorem Only.nil {N : Name → Prop} {X : Nat → Prop} : Only N X ([] : Code K) := by intro o ho; cases ho

theorem Only.append {N : Name → Prop} {X : Nat → Prop} {p q : Code K} (hp : Only N X p) (hq : Only N X q) : Only N X (p ++ q) := by
  intro o ho
  rcases List.mem_append.1 ho with h | h
  · exact hp o h
  · exact hq o h

theorem Only.mono {N N' : Name → Prop} {X X' : Nat → Prop} {p : Code K} (hp : Only N X p) (hN : ∀ n, N n → N' n) (hX : ∀ i, X i → X' i) :
    Only N' X' p := fun o ho => ⟨fun n hn => hN n ((hp o ho).1 n hn), fun i hi => hX i ((hp o ho).2 i hi)⟩

theorem loadOrCreate_only {N : Name → Prop} {X : Nat → Prop} (c : Ctx) (g : GS) (n : Name) (b : Bool) (hn : N n) :
    Only N X (loadOrCreate c g n b : Code K × GS).1 := by
  simp only [loadOrCreate]
  split_ifs <;> intro o ho <;> simp only [List.mem_singleton, List.not_mem_nil] at ho <;> subst ho <;> simp [opNames, opIdx, hn]

theorem drops_only {N : Name → Prop} {X : Nat → Prop} (l : List (EX K)) {g g' : GS} {o : Code K} (h : drops g l = some (o, g'))
    (hl : ∀ x ∈ l, ∀ n ∈ x.name, N n) : Only N X o := by
  induction l generalizing g o with
  | nil => cases h; exact Only.nil
  | cons x l ih =>
    simp only [drops] at h
    cases hd : drop g x with
    | none => rw [hd] at h; cases h
    | some q =>
      obtain ⟨o₁, g₁⟩ := q
      rw [hd] at h
      simp only at h
      cases hr : drops g₁ l with
      | none => rw [hr] at h; cases h
      | some q' =>
        obtain ⟨o₂, g₂⟩ := q'
        rw [hr] at h
        cases h
        refine Only.append ?_ (ih hr fun y hy => hl y (List.mem_cons_of_mem _ hy))
        unfold drop at hd
        cases hx : x.name with
        | none => rw [hx] at hd; cases hd; exact Only.nil
        | some n =>
          rw [hx] at hd
          simp only at hd
          split at hd
          · cases hd
            intro o ho
            split at ho
            · simp only [List.mem_singleton] at ho
              subst ho
              simpa [opNames, opIdx] using hl x List.mem_cons_self n hx
            · cases ho
          · cases hd

theorem loadFactors_only {N : Name → Prop} {X : Nat → Prop} (l : List (EX K)) (g : GS) (hl : ∀ x ∈ l, ∀ n ∈ x.name, N n) :
    Only N X (loadFactors g l).1 := by
  induction l generalizing g with
  | nil => exact Only.nil
  | cons x l ih =>
    have hl' : ∀ y ∈ l, ∀ n ∈ y.name, N n := fun y hy => hl y (List.mem_cons_of_mem _ hy)
    cases hx : x.name with
    | none => simp only [loadFactors, hx]; exact ih g hl'
    | some n =>
      simp only [loadFactors, hx]
      refine Only.append ?_ (ih _ hl')
      intro o ho
      split at ho
      · simp only [List.mem_singleton] at ho
        subst ho
        simpa [opNames, opIdx] using hl x List.mem_cons_self n hx
      · cases ho

theorem expr_occ (t : P K) : (∀ n ∈ t.expr.name, t.occ n) ∧ ∀ i ∈ t.expr.idx, t.occIdx i := by
  cases t with
  | leaf x => exact ⟨fun n hn => hn, fun i hi => hi⟩
  | node => exact ⟨fun n hn => by simp only [P.expr, EX.name, Option.mem_def, Option.some.injEq] at hn; exact Or.inl hn.symm, fun i hi => Or.inl hi⟩

theorem summands_mem (op : EOp) (cl cr : Bool) (xl xr : EX K) (e : List (EX K)) (he : e ∈ summands op cl cr xl xr) : ∀ x ∈ e, x = xl ∨ x = xr := by
  intro x hx
  cases op <;> cases cl <;> cases cr <;> simp [summands] at he <;> (try rcases he with rfl | rfl) <;> simp at hx <;> tauto

/-- The program of a tree only concerns its objects and indices. -/
theorem gen_only (c : Ctx) (t : P K) (hix : t.Ix) {g g' : GS} {o : Code K} (h : gen c t g = some (o, g')) : Only t.occ t.occIdx o := by
  induction t generalizing g o g' with
  | leaf x =>
    simp only [gen, Option.some.injEq] at h
    have h1 : (loadExpr c g x true).1 = o := by rw [h]
    rw [← h1]
    unfold loadExpr
    cases hx : x.name with
    | none => exact Only.nil
    | some n => exact loadOrCreate_only c g n true hx
  | node op cl cr n a fac l r ihl ihr =>
    simp only [gen] at h
    cases hl : gen c l (loadOrCreate c g n false : Code K × GS).2 with
    | none => rw [hl] at h; cases h
    | some ql =>
      obtain ⟨ol, g₁⟩ := ql
      rw [hl] at h; simp only at h
      cases hr : gen c r g₁ with
      | none => rw [hr] at h; cases h
      | some qr =>
        obtain ⟨or, g₂⟩ := qr
        rw [hr] at h; simp only at h
        cases hp : processComp g₂ op cl cr n a fac l.expr r.expr with
        | none => rw [hp] at h; cases h
        | some qp =>
          obtain ⟨op', g₃⟩ := qp
          rw [hp] at h
          cases h
          have hfac : ∀ x ∈ fac, ∀ m ∈ x.name, (P.node op cl cr n a fac l r).occ m := fun x hx m hm => Or.inr (Or.inl ⟨x, hx, hm⟩)
          have hlr : ∀ x, x = l.expr ∨ x = r.expr → (∀ m ∈ x.name, (P.node op cl cr n a fac l r).occ m) ∧
              ∀ i ∈ x.idx, (P.node op cl cr n a fac l r).occIdx i := by
            rintro x (rfl | rfl)
            · exact ⟨fun m hm => Or.inr (Or.inr (Or.inl ((expr_occ l).1 m hm))), fun i hi => Or.inr (Or.inl ((expr_occ l).2 i hi))⟩
            · exact ⟨fun m hm => Or.inr (Or.inr (Or.inr ((expr_occ r).1 m hm))), fun i hi => Or.inr (Or.inr ((expr_occ r).2 i hi))⟩
          refine Only.append (Only.append (Only.append (loadOrCreate_only c g n false (Or.inl rfl)) ?_) ?_) ?_
          · exact (ihl hix.1 hl).mono (fun m hm => Or.inr (Or.inr (Or.inl hm))) (fun i hi => Or.inr (Or.inl hi))
          · exact (ihr hix.2.1 hr).mono (fun m hm => Or.inr (Or.inr (Or.inr hm))) (fun i hi => Or.inr (Or.inr hi))
          · simp only [processComp] at hp
            split at hp
            · cases hp; exact Only.nil
            · cases hd₁ : drops (loadFactors g₂ fac).2 fac.reverse with
              | none => rw [hd₁] at hp; cases hp
              | some q₁ =>
                obtain ⟨o₁, g₄⟩ := q₁
                rw [hd₁] at hp; simp only at hp
                cases hd₂ : drops g₄ [r.expr, l.expr] with
                | none => rw [hd₂] at hp; cases hp
                | some q₂ =>
                  obtain ⟨o₂, g₅⟩ := q₂
                  rw [hd₂] at hp
                  cases hp
                  refine Only.append (Only.append (Only.append (loadFactors_only fac g₂ hfac) ?_) ?_) ?_
                  · intro o ho
                    obtain ⟨e, he, rfl⟩ := List.mem_map.1 ho
                    have hm := summands_mem _ _ _ _ _ e he
                    constructor
                    · intro m hm'
                      simp only [opNames, List.mem_cons, List.mem_filterMap, List.mem_append] at hm'
                      rcases hm' with rfl | ⟨x, hx | hx, hxm⟩
                      · exact Or.inl rfl
                      · exact hfac x hx m hxm
                      · exact (hlr x (hm x hx)).1 m hxm
                    · intro i hi
                      simp only [opIdx, List.mem_append, List.mem_flatMap] at hi
                      rcases hi with hi | ⟨x, hx | hx, hxi⟩
                      · exact Or.inl hi
                      · rw [hix.2.2.1 x hx] at hxi; cases hxi
                      · exact (hlr x (hm x hx)).2 i hxi
                  · exact drops_only _ hd₁ (fun x hx => hfac x (List.mem_reverse.1 hx))
                  · refine drops_only _ hd₂ (fun x hx => ?_)
                    simp only [List.mem_cons, List.not_mem_nil, or_false] at hx
                    exact (hlr x hx.symm).1

/-- A program only changes objects it mentions. -/
theorem step_frame (I : Interp K) {s s' : Mem K} {o : Op Name (Rhs K)} (h : step I s o = some s') {n : Name} (hn : n ∉ opNames o) : s' n = s n := by
  cases o with
  | create m z =>
    simp only [opNames, List.mem_singleton] at hn
    simp only [step] at h
    split at h
    · cases h
    · cases h; simp [hn]
  | load m =>
    simp only [opNames, List.mem_singleton] at hn
    simp only [step] at h
    split at h
    · cases h; simp [hn]
    · cases h
  | loadZero m =>
    simp only [opNames, List.mem_singleton] at hn
    simp only [step] at h
    split at h
    · cases h; simp [hn]
    · cases h
  | zero m =>
    simp only [opNames, List.mem_singleton] at hn
    simp only [step] at h
    split at h
    · cases h; simp [hn]
    · cases h
  | unload m =>
    simp only [opNames, List.mem_singleton] at hn
    simp only [step] at h
    split at h
    · cases h; simp [hn]
    · cases h
  | destroy m =>
    simp only [opNames, List.mem_singleton] at hn
    simp only [step] at h
    split at h
    · cases h; simp [hn]
    · cases h
  | persist m =>
    simp only [opNames, List.mem_singleton] at hn
    simp only [step] at h
    split at h
    · cases h; simp [hn]
    · cases h
  | compute m e =>
    simp only [opNames, List.mem_cons, not_or] at hn
    simp only [step] at h
    split at h
    · cases h; simp [hn.1]
    · cases h

theorem run_frame (I : Interp K) {p : Code K} {s s' : Mem K} (h : run I p s = some s') {n : Name} (hn : ∀ o ∈ p, n ∉ opNames o) : s' n = s n := by
  induction p generalizing s with
  | nil => cases h; rfl
  | cons o p ih =>
    simp only [run] at h
    cases ho : step I s o with
    | none => rw [ho] at h; cases h
    | some s₁ =>
      rw [ho] at h
      rw [ih h (fun o' ho' => hn o' (List.mem_cons_of_mem _ ho'))]
      exact step_frame I ho (hn o List.mem_cons_self)

end SeQuant.Codegen
