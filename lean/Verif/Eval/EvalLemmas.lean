import Verif.Eval.EvalModel
import Verif.Eval.CacheProps

/-!
# The stack machine of `evaluate` computes a structural recursion

`evalRec` is a proof device: what a frame of the machine does, by recursion on the tree.
-/

namespace SeQuant.Eval

variable {L K R M : Type} [DecidableEq K]

abbrev Res (K R M : Type) := Option ((M × Cache K R) × R)

/-- What happens to a node that is not found in the cache and not intercepted, given how to evaluate its children. -/
def evalRec (env : Env L K R M) : Bool → ETree L → M × Cache K R → Res K R M
  | checked, t, mc =>
    let acc : Cache K R × Option R := if checked then mc.2.access (env.key t) else (mc.2, none)
    match acc.2 with
    | some ptr => let a := applyPhase env t ptr mc.1; some ((a.1, acc.1), a.2)
    | none =>
      let sa := if checked then acc.1.exists_ (env.key t) else false
      let c := tryCustom env t (mc.1, acc.1)
      match c.2 with
      | some r => finish env t sa r c.1
      | none =>
        match t with
        | .leaf a => let r := env.leaf a c.1.1; finish env (.leaf a) sa r.2 (r.1, c.1.2)
        | .node a l r =>
          match evalRec env true l c.1 with
          | none => none
          | some (mc1, x) =>
            if env.op a = .adjoint then
              let z := env.adj (.node a l r) x mc1.1
              finish env (.node a l r) sa z.2 (z.1, mc1.2)
            else
              match evalRec env true r mc1 with
              | none => none
              | some (mc2, y) =>
                let z := combine env (.node a l r) x y mc2.1
                finish env (.node a l r) sa z.2 (z.1, mc2.2)

/-- Number of rounds that suffice for a tree. -/
def ETree.rounds : ETree L → Nat
  | .leaf _ => 1
  | .node _ l r => l.rounds + r.rounds + 3

theorem run_cons (env : Env L K R M) (fuel : Nat) (mc : M × Cache K R) (f : Frame L R) (stk : List (Frame L R)) (ret : Option R) :
    run env (fuel + 1) ⟨mc, f :: stk, ret⟩ = (step env mc f stk ret).bind (run env fuel) := by
  rw [run]
  cases step env mc f stk ret <;> rfl

theorem run_mono (env : Env L K R M) : ∀ (fuel k : Nat) (s : Machine L K R M) (v), run env fuel s = some v → run env (fuel + k) s = some v := by
  intro fuel
  induction fuel with
  | zero =>
    rintro k ⟨mc, _ | ⟨f, stk⟩, ret⟩ v h
    · rw [run] at h ⊢; exact h
    · simp [run] at h
  | succ fuel ih =>
    rintro k ⟨mc, _ | ⟨f, stk⟩, ret⟩ v h
    · rw [run] at h ⊢; exact h
    · rw [show fuel + 1 + k = (fuel + k) + 1 by omega, run_cons]
      rw [run_cons] at h
      cases hs : step env mc f stk ret with
      | none => simp [hs] at h
      | some s => rw [hs] at h; exact ih k s v h

/-- Go on with the rest of the stack. -/
def cont (env : Env L K R M) (fuel : Nat) (stk : List (Frame L R)) : Res K R M → Res K R M
  | none => none
  | some (mc, r) => run env fuel ⟨mc, stk, some r⟩

/-- A frame that enters a node: after some rounds its result is in `ret`, the rest of the stack is untouched. -/
theorem run_enter (env : Env L K R M) (t : ETree L) : ∀ (checked : Bool) (mc : M × Cache K R) (stk : List (Frame L R)) (ret : Option R),
    ∃ n ≤ t.rounds, ∀ fuel, run env (n + fuel) ⟨mc, { node := t, checked := checked } :: stk, ret⟩ =
      cont env fuel stk (evalRec env checked t mc) := by
  have fin : ∀ (f : Frame L R) (stk : List (Frame L R)) (r : R) (mc : M × Cache K R) (fuel : Nat),
      (finalize env f stk r mc).bind (run env fuel) =
        cont env fuel stk (finish env f.node f.storeAfter r mc) := by
    intro f stk r mc fuel
    unfold finalize
    cases finish env f.node f.storeAfter r mc <;> rfl
  induction t with
  | leaf a =>
    intro checked mc stk ret
    refine ⟨1, by simp [ETree.rounds], fun fuel => ?_⟩
    rw [show 1 + fuel = fuel + 1 by omega, run_cons, evalRec]
    simp only [step]
    generalize (if checked = true then mc.2.access (env.key (.leaf a)) else (mc.2, none)) = acc
    cases h : acc.2 with
    | some ptr => rfl
    | none =>
      simp only
      cases hc : (tryCustom env (.leaf a) (mc.1, acc.1)).2 with
      | some r => simp only [fin]
      | none => simp only [fin]
  | node a l r ihl ihr =>
    intro checked mc stk ret
    have key : ∀ fuel, run env (fuel + 1) ⟨mc, { node := .node a l r, checked := checked } :: stk, ret⟩ =
        (step env mc { node := .node a l r, checked := checked } stk ret).bind (run env fuel) := fun fuel => run_cons ..
    rw [evalRec]
    simp only [step] at key
    generalize (if checked = true then mc.2.access (env.key (.node a l r)) else (mc.2, none)) = acc at key ⊢
    generalize (if checked = true then acc.1.exists_ (env.key (.node a l r)) else false) = sa at key ⊢
    cases h : acc.2 with
    | some ptr =>
      refine ⟨1, by simp only [ETree.rounds]; omega, fun fuel => ?_⟩
      rw [show 1 + fuel = fuel + 1 by omega, key, h]; rfl
    | none =>
      simp only [h] at key ⊢
      generalize tryCustom env (.node a l r) (mc.1, acc.1) = c at key ⊢
      cases hc : c.2 with
      | some r' =>
        refine ⟨1, by simp only [ETree.rounds]; omega, fun fuel => ?_⟩
        rw [show 1 + fuel = fuel + 1 by omega, key, hc]; simp only [fin]
      | none =>
        simp only [hc, Option.bind_some] at key ⊢
        obtain ⟨n1, hn1, h1⟩ := ihl true c.1
          ({ node := .node a l r, checked := checked, storeAfter := sa, stage := if env.op a = .adjoint then Stage.needLeftAdj else Stage.needLeft } :: stk) ret
        cases hl : evalRec env true l c.1 with
        | none =>
          refine ⟨n1 + 1, by simp only [ETree.rounds]; omega, fun fuel => ?_⟩
          rw [show n1 + 1 + fuel = (n1 + fuel) + 1 by omega, key, h1, hl]; rfl
        | some p =>
          obtain ⟨mc1, x⟩ := p
          simp only [hl, cont] at h1 ⊢
          by_cases hadj : env.op a = .adjoint
          · simp only [hadj, if_true] at h1 key ⊢
            refine ⟨n1 + 2, by simp only [ETree.rounds]; omega, fun fuel => ?_⟩
            rw [show n1 + 2 + fuel = (n1 + (fuel + 1)) + 1 by omega, key, h1, run_cons, step]
            simp only [fin]; rfl
          · simp only [hadj, if_false] at h1 key ⊢
            obtain ⟨n2, hn2, h2⟩ := ihr true mc1
              ({ node := .node a l r, checked := checked, storeAfter := sa, left := some x, stage := .needRight } :: stk) none
            cases hr : evalRec env true r mc1 with
            | none =>
              refine ⟨n1 + n2 + 2, by simp only [ETree.rounds]; omega, fun fuel => ?_⟩
              rw [show n1 + n2 + 2 + fuel = (n1 + ((n2 + fuel) + 1)) + 1 by omega, key, h1, run_cons, step]
              simp only [Option.bind_some]
              rw [h2, hr]; rfl
            | some q =>
              obtain ⟨mc2, y⟩ := q
              simp only [hr, cont] at h2 ⊢
              refine ⟨n1 + n2 + 3, by simp only [ETree.rounds]; omega, fun fuel => ?_⟩
              rw [show n1 + n2 + 3 + fuel = (n1 + ((n2 + (fuel + 1)) + 1)) + 1 by omega, key, h1, run_cons, step]
              simp only [Option.bind_some]
              rw [h2, run_cons, step]
              simp only [fin]; rfl

/-- The machine stops within `t.rounds` rounds and computes `evalRec`. -/
theorem evaluate_eq (env : Env L K R M) (t : ETree L) (checked : Bool) (mc : M × Cache K R) (fuel : Nat) (hf : t.rounds ≤ fuel) :
    evaluate env fuel checked t mc = evalRec env checked t mc := by
  obtain ⟨n, hn, h⟩ := run_enter env t checked mc [] none
  obtain ⟨k, rfl⟩ : ∃ k, fuel = n + k := ⟨fuel - n, by omega⟩
  rw [evaluate, h]
  cases evalRec env checked t mc with
  | none => rfl
  | some p => simp only [cont]; unfold run; rfl

theorem store_some (c : Cache K R) (k : K) (d : R) : (c.store k d).2 = some d := by
  unfold Cache.store
  cases c k with
  | none => rfl
  | some e =>
    exact (access_fields (e.store d)).2.2.2.1

end SeQuant.Eval
