import Verif.Proof.ConvexMarks

/-! After an optimisation method has returned, the variables have the values of the solution. -/

noncomputable section

namespace Verif.Convex
open Verif.Py Verif.Base

variable {n : ℕ} {U : Uni n} {S : Solver n} {D : Data n}

/-- If weights are returned, they come from the solution of the last problem given to the solver, and the variables
have its values. -/
def Ends (S : Solver n) (x : M n (Fin n → ℝ)) : Prop :=
  ∀ o h w, (x o h).1 = .ok w → ∃ l P s v, (x o h).2.2.log = l ++ [P] ∧ S l.length P = .optimal s v ∧
    (x o h).2.2.vals = some s ∧ (x o h).2.1.weights = some w

theorem Ends.bind {α : Type} {x : M n α} {f : α → M n (Fin n → ℝ)} (hf : ∀ a, Ends S (f a)) : Ends S (x >>= f) := by
  intro o h w
  rw [bind_run]
  rcases hr : x o h with ⟨r, o', h'⟩
  cases r with
  | error e => intro hw; cases hw
  | ok a => exact hf a o' h' w

theorem Ends.raise (e : PyErr) : Ends S (raise e) := nofun

theorem Ends.ite {c : Prop} [Decidable c] {x y : M n (Fin n → ℝ)} (hx : Ends S x) (hy : Ends S y) :
    Ends S (if c then x else y) := by split <;> assumption

theorem Ends.callSolver (p : Opt n) : Ends S (callSolver S p) := by
  intro o h w hw
  obtain ⟨w', vals, e, h1, -⟩ := callSolver_run (S := S) p o h
  rw [e] at hw ⊢
  obtain ⟨s, v, hs, rfl⟩ := outcome_ok hw
  exact ⟨_, _, s, v, rfl, hs, (h1 s v hs).1, (h1 s v hs).2⟩

theorem Ends.solve : Ends S (solve S) := by
  intro o h w hw
  unfold Convex.solve at hw ⊢
  rw [bind_ok (a := o) (o' := o) (h' := h) rfl] at hw ⊢
  cases ho : o.opt with
  | none =>
    cases hob : o.objective with
    | none => rw [ho, hob] at hw; cases hw
    | some ob =>
      rw [ho, hob] at hw
      dsimp only at hw ⊢
      by_cases hc : ¬ ob.body.scalar = true ∨ ¬ usable o.cons
      · rw [if_pos hc] at hw; cases hw
      · rw [if_neg hc] at hw ⊢
        cases hi : idsOf o.cons with
        | error e => rw [hi] at hw; cases hw
        | ok ids =>
          rw [hi] at hw
          exact Ends.callSolver _ _ _ _ hw
  | some p =>
    cases hob : o.objective with
    | none => rw [ho, hob] at hw; cases hw
    | some ob =>
      rw [ho, hob] at hw
      dsimp only at hw ⊢
      by_cases hc : ob.id ≠ p.initObj
      · rw [if_pos hc] at hw; cases hw
      · rw [if_neg hc] at hw ⊢
        refine Ends.bind (fun ids => ?_) _ _ _ hw
        cases p.initCons with
        | none => exact Ends.raise _
        | some ini => exact Ends.ite (Ends.raise _) (Ends.callSolver _)

theorem Ends.withParameter (nm : String) (mn : Bool) (v : ℝ) (build : M n Unit) :
    Ends S (withParameter S nm mn v build) := by
  refine .bind fun b => ?_
  dsimp only
  split
  · exact .bind fun _ => .bind fun _ => .solve
  · exact .bind fun _ => .solve

macro "ends" : tactic => `(tactic| repeat' (first
  | with_reducible exact Ends.solve | with_reducible exact Ends.raise _
  | with_reducible apply Ends.withParameter
  | with_reducible apply Ends.bind | with_reducible apply Ends.ite
  | split | intro _))

/-- The calls that return weights, except `max_sharpe` and `nonconvex_objective`. -/
theorem run_ends {c : Call n} (hnc : ∀ m b, c ≠ .nonconvex m b) (hsh : ∀ r, c ≠ .maxSharpe r)
    (o : OState n) (h : Heap n) (w : Fin n → ℝ) (hw : (run U S D c o h).1 = .ok (some w)) :
    ∃ l P s v, (run U S D c o h).2.2.log = l ++ [P] ∧ S l.length P = .optimal s v ∧
      (run U S D c o h).2.2.vals = some s ∧ (run U S D c o h).2.1.weights = some w := by
  have key : ∀ x : M n (Fin n → ℝ), Ends S x → run U S D c o h = (x >>= fun w => pure (some w)) o h →
      ∃ l P s v, (run U S D c o h).2.2.log = l ++ [P] ∧ S l.length P = .optimal s v ∧
      (run U S D c o h).2.2.vals = some s ∧ (run U S D c o h).2.1.weights = some w := by
    intro x hx e
    rw [e, bind_run] at hw ⊢
    have := hx o h w
    rcases hr : x o h with ⟨r, o', h'⟩
    rw [hr] at this hw
    cases r with
    | error e => cases hw
    | ok a =>
      cases hw
      exact this rfl
  have none : ∀ x : M n Unit, run U S D c o h = (x >>= fun _ => pure Option.none) o h → False := by
    intro x e
    rw [e, bind_run] at hw
    rcases hr : x o h with ⟨r, o', h'⟩
    rw [hr] at hw
    cases r <;> cases hw
  cases c with
  | addObjective r => exact (none _ rfl).elim
  | addConstraint cl r => exact (none _ rfl).elim
  | addSectors s l u => exact (none _ rfl).elim
  | setWeights w => exact (none _ rfl).elim
  | setPar i v => exact (none _ rfl).elim
  | nonconvex m b => exact absurd rfl (hnc m b)
  | maxSharpe rf => exact absurd rfl (hsh rf)
  | convex r b => exact key _ (by unfold convexObjective; ends) rfl
  | minVolatility =>
    cases hk : D.kind with
    | ef => exact key (minVolatility S D) (by unfold minVolatility; ends) (by simp only [run, hk])
    | _ => simp only [run, hk] at hw; cases hw
  | maxUtility r mn =>
    cases hk : D.kind with
    | ef => exact key (maxUtility S D r mn) (by unfold maxUtility; ends) (by simp only [run, hk])
    | semi => exact key (semiUtility S D r mn) (by unfold semiUtility; ends) (by simp only [run, hk])
    | _ => simp only [run, hk] at hw; cases hw
  | efficientRisk t mn =>
    cases hk : D.kind with
    | ef => exact key (efficientRisk S D t mn) (by unfold efficientRisk; ends) (by simp only [run, hk])
    | cvar => exact key (cvarRisk S D t mn) (by unfold cvarRisk; ends) (by simp only [run, hk])
    | cdar => exact key (cdarRisk S D t mn) (by unfold cdarRisk; ends) (by simp only [run, hk])
    | semi => exact key (semiRisk S D t mn) (by unfold semiRisk; ends) (by simp only [run, hk])
  | efficientReturn f t mn =>
    cases hk : D.kind with
    | ef => exact key (efficientReturn S D f t mn) (by unfold efficientReturn; ends) (by simp only [run, hk])
    | cvar => exact key (cvarReturn S D t mn) (by unfold cvarReturn; ends) (by simp only [run, hk])
    | cdar => exact key (cdarReturn S D t mn) (by unfold cdarReturn; ends) (by simp only [run, hk])
    | semi => exact key (semiReturn S D f t mn) (by unfold semiReturn; ends) (by simp only [run, hk])
  | minCvar mn =>
    cases hk : D.kind with
    | cvar => exact key (minCvar S D mn) (by unfold minCvar; ends) (by simp only [run, hk])
    | _ => simp only [run, hk] at hw; cases hw
  | minCdar mn =>
    cases hk : D.kind with
    | cdar => exact key (minCdar S D mn) (by unfold minCdar; ends) (by simp only [run, hk])
    | _ => simp only [run, hk] at hw; cases hw
  | minSemi mn =>
    cases hk : D.kind with
    | semi => exact key (minSemi S D mn) (by unfold minSemi; ends) (by simp only [run, hk])
    | _ => simp only [run, hk] at hw; cases hw

end Verif.Convex
