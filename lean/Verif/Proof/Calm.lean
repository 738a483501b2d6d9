import Verif.Proof.ConvexMarks

/-! Calls that do not reach the solver leave the values of the variables as they are. -/

noncomputable section

namespace Verif.Convex
open Verif.Py Verif.Base Matrix

variable {n : ℕ} {U : Uni n} {S : Solver n} {D : Data n}

/-- Problems are only added to the log, and if none is added the variables keep their values. -/
def Calm {α : Type} (x : M n α) : Prop :=
  ∀ o h, ∃ l, (x o h).2.2.log = h.log ++ l ∧ (l = [] → (x o h).2.2.vals = h.vals)

theorem setPars_vals (v : ℝ) (l : List Par) (o : OState n) (h : Heap n) : (setPars v l o h).2.2.vals = h.vals := by
  induction l generalizing h with
  | nil => rfl
  | cons p l ih =>
    unfold setPars
    split
    · rfl
    · refine (ih (h.setPar p v)).trans ?_
      unfold Heap.setPar
      cases p.ref <;> rfl

namespace Calm

theorem pure {α : Type} (a : α) : Calm (pure a : M n α) := fun _ h => ⟨[], (List.append_nil _).symm, fun _ => rfl⟩
theorem raise {α : Type} (e : PyErr) : Calm (raise e : M n α) := fun _ h => ⟨[], (List.append_nil _).symm, fun _ => rfl⟩
theorem lift {α : Type} (r : Except PyErr α) : Calm (lift r : M n α) := fun _ h => ⟨[], (List.append_nil _).symm, fun _ => rfl⟩
theorem get : Calm (get : M n _) := fun _ h => ⟨[], (List.append_nil _).symm, fun _ => rfl⟩
theorem freshId : Calm (freshId : M n _) := fun _ h => ⟨[], (List.append_nil _).symm, fun _ => rfl⟩
theorem freshVar : Calm (freshVar : M n _) := fun _ h => ⟨[], (List.append_nil _).symm, fun _ => rfl⟩
theorem isDefined (nm : String) : Calm (isDefined nm : M n _) := fun _ h => ⟨[], (List.append_nil _).symm, fun _ => rfl⟩
theorem modify (f : OState n → OState n) : Calm (modify f) := fun _ h => ⟨[], (List.append_nil _).symm, fun _ => rfl⟩

theorem bind {α β : Type} {x : M n α} {f : α → M n β} (hx : Calm x) (hf : ∀ a, Calm (f a)) :
    Calm (x >>= f) := by
  intro o h
  obtain ⟨l, h1, h2⟩ := hx o h
  rw [bind_run]
  rcases hr : x o h with ⟨r, o', h'⟩
  rw [hr] at h1 h2
  cases r with
  | error e => exact ⟨l, h1, h2⟩
  | ok a =>
    obtain ⟨l', k1, k2⟩ := hf a o' h'
    refine ⟨l ++ l', by rw [← List.append_assoc, ← h1]; exact k1, fun e => ?_⟩
    obtain ⟨e1, e2⟩ := List.append_eq_nil_iff.1 e
    exact (k2 e2).trans (h2 e1)

theorem ite {α : Type} {c : Prop} [Decidable c] {x y : M n α} (hx : Calm x) (hy : Calm y) :
    Calm (if c then x else y) := by split <;> assumption

theorem newPar (nm : String) (v : ℝ) (nn : Bool) : Calm (newPar nm v nn : M n _) := by
  intro o h
  unfold Convex.newPar
  split <;> exact ⟨[], (List.append_nil _).symm, fun _ => rfl⟩

theorem setPars (v : ℝ) (l : List Par) : Calm (setPars v l : M n _) := by
  intro o h
  obtain ⟨-, -, e⟩ := setPars_other v l o h
  exact ⟨[], by rw [e, List.append_nil], fun _ => setPars_vals v l o h⟩

theorem addEach (l : List (Obj n)) : Calm (addEach l) := by
  induction l with
  | nil => exact pure _
  | cons b l ih =>
    unfold Convex.addEach
    refine bind get fun o => ?_
    split
    · exact raise _
    · exact bind freshId fun _ => bind (modify _) fun _ => ih

theorem addAll : Calm (addAll : M n _) := bind get fun _ => addEach _

theorem setObjective (ps : List Par) (f : Env n → EReal) : Calm (setObjective ps f) :=
  bind freshId fun _ => modify _

theorem addLib (b : ConBody Par (Env n)) (d : Env n → Prop) : Calm (addLib b d) := by
  refine bind get fun o => ?_
  dsimp only
  split
  · exact bind (raise _) fun _ => bind freshId fun _ => modify _
  · exact bind freshId fun _ => modify _

theorem mapBounds (lb ub : Fin n → EReal) : Calm (mapBounds lb ub) :=
  bind (modify _) fun _ => bind (addLib _ _) fun _ => addLib _ _

theorem makeWeightSum (mn : Bool) : Calm (makeWeightSum mn : M n _) := by
  refine bind ?_ fun _ => modify _
  unfold sumConstraint amendBounds
  exact ite (bind (bind get fun _ => ite (bind (mapBounds _ _) fun _ => modify _) (pure _)) fun _ => addLib _ _)
    (addLib _ _)

theorem rebuildAll (k : ℕ) (l : List (Con n)) : Calm (rebuildAll k l) := by
  induction l with
  | nil => exact pure _
  | cons c l ih => exact bind (lift _) fun _ => bind freshId fun _ => bind ih fun _ => pure _

theorem varianceExpr : Calm (varianceExpr D) := ite (pure _) (raise _)

theorem returnExpr (b : Bool) : Calm (returnExpr D b) := by
  unfold Convex.returnExpr; split
  · exact raise _
  · exact pure _

theorem muTimesW : Calm (muTimesW D) := by
  unfold Convex.muTimesW; split
  · exact raise _
  · exact pure _

theorem tailCoef : Calm (tailCoef D) := ite (raise _) (pure _)
theorem cvarExpr : Calm (cvarExpr D) := bind tailCoef fun _ => pure _
theorem cdarExpr : Calm (cdarExpr D) := bind tailCoef fun _ => pure _
theorem cvarCons : Calm (cvarCons D) := bind (addLib _ _) fun _ => addLib _ _

theorem cdarCons : Calm (cdarCons D) :=
  bind (addLib _ _) fun _ => bind (addLib _ _) fun _ => bind (addLib _ _) fun _ => bind (addLib _ _) fun _ =>
    addLib _ _

theorem semiCon (p q : ℕ) : Calm (semiCon D p q) := addLib _ _

theorem buildCdar (mn : Bool) : Calm (buildCdar D mn) :=
  bind cdarExpr fun _ => bind (setObjective _ _) fun _ => bind addAll fun _ => bind cdarCons fun _ => makeWeightSum _

theorem validateNeutral (mn : Bool) : Calm (validateNeutral mn : M n _) :=
  bind get fun _ => ite (raise _) (pure _)

theorem updatePar (nm : String) (v : ℝ) : Calm (updatePar nm v : M n _) := by
  refine bind (isDefined _) fun b => ?_
  dsimp only
  split
  · exact bind (raise _) fun _ => bind get fun _ => setPars _ _
  · exact bind get fun _ => setPars _ _

end Calm

macro "calm" : tactic => `(tactic| repeat' (first
  | with_reducible exact Calm.pure _ | with_reducible exact Calm.raise _ | with_reducible exact Calm.lift _
  | with_reducible exact Calm.get | with_reducible exact Calm.freshVar
  | with_reducible exact Calm.freshId | with_reducible exact Calm.modify _
  | with_reducible exact Calm.newPar _ _ _ | with_reducible exact Calm.setPars _ _
  | with_reducible exact Calm.addAll | with_reducible exact Calm.setObjective _ _
  | with_reducible exact Calm.addLib _ _ 
  | with_reducible exact Calm.makeWeightSum _ | with_reducible exact Calm.rebuildAll _ _
  | with_reducible exact Calm.varianceExpr | with_reducible exact Calm.returnExpr _
  | with_reducible exact Calm.muTimesW | with_reducible exact Calm.cvarExpr
  | with_reducible exact Calm.cdarExpr
  | with_reducible exact Calm.cvarCons | with_reducible exact Calm.cdarCons
  | with_reducible exact Calm.semiCon _ _ | with_reducible exact Calm.buildCdar _
  | with_reducible exact Calm.validateNeutral _ | with_reducible exact Calm.updatePar _ _
  | with_reducible apply Calm.bind | with_reducible apply Calm.ite | intro _))


theorem Calm.callSolver (p : Opt n) : Calm (callSolver S p) := by
  intro o h
  obtain ⟨w, vals, e, -, -⟩ := callSolver_run (S := S) p o h
  rw [e]
  exact ⟨[_], rfl, nofun⟩

theorem Calm.solve : Calm (solve S) := by
  unfold Convex.solve
  refine .bind .get fun o => ?_
  cases ho : o.opt with
  | none =>
    cases hob : o.objective with
    | none => exact .raise _
    | some ob =>
      dsimp only
      split
      · exact .raise _
      · cases idsOf o.cons with
        | error e => exact .bind (.modify _) fun _ => .raise _
        | ok ids => exact .bind (.modify _) fun _ => .callSolver _
  | some p =>
    cases hob : o.objective with
    | none => exact .raise _
    | some ob =>
      dsimp only
      refine .ite (.raise _) (.bind (.lift _) fun ids => ?_)
      cases p.initCons with
      | none => exact .raise _
      | some ini => exact .ite (.raise _) (.callSolver _)

theorem Calm.withParameter (nm : String) (mn : Bool) (v : ℝ) {build : M n Unit} (hb : Calm build) :
    Calm (withParameter S nm mn v build) := by
  refine .bind (.isDefined _) fun b => ?_
  dsimp only
  split
  · exact .bind (.validateNeutral _) fun _ => .bind (.updatePar _ _) fun _ => .solve
  · exact .bind hb fun _ => .solve

theorem Calm.addSectors (sec : Fin n → Option String) (up : Bool) (l : List (Option String × ℝ)) :
    Calm (Convex.addSectors sec up l) := by
  induction l with
  | nil => exact pure _
  | cons b l ih => exact bind (addLib _ _) fun _ => ih

macro "calms" : tactic => `(tactic| repeat' (first
  | with_reducible exact Calm.solve | with_reducible exact Calm.raise _
  | with_reducible apply Calm.withParameter
  | (with_reducible show Calm _; calm) | split | intro _))

/-- The calls on objects of the two tail classes. -/
theorem run_calm (hk : D.kind = .cvar ∨ D.kind = .cdar) (c : Call n) : Calm (run U S D c) := by
  cases c with
  | addObjective r =>
    refine .bind ?_ fun _ => .pure _
    unfold addObjective
    refine .bind .get fun o => ?_
    dsimp only
    split <;> calm
  | addConstraint b r =>
    refine .bind ?_ fun _ => .pure _
    unfold addConstraint
    split <;> calm
  | addSectors s l u => exact .bind (.bind (.addSectors _ _ _) fun _ => .addSectors _ _ _) fun _ => .pure _
  | convex r b =>
    refine .bind ?_ fun _ => .pure _
    unfold convexObjective
    calms
  | nonconvex m b =>
    exact .bind (.bind .get fun _ => .bind (.lift _) fun _ => .bind (.modify _) fun _ => .pure _) fun _ => .pure _
  | setWeights w =>
    refine .bind ?_ fun _ => .pure _
    unfold setWeights
    split <;> calm
  | setPar i v => exact .bind (.setPars _ _) fun _ => .pure _
  | minVolatility => rcases hk with hk | hk <;> simp only [run, hk] <;> exact .raise _
  | maxSharpe rf => rcases hk with hk | hk <;> simp only [run, hk] <;> exact .raise _
  | maxUtility r mn => rcases hk with hk | hk <;> simp only [run, hk] <;> exact .raise _
  | efficientRisk t mn =>
    rcases hk with hk | hk <;> simp only [run, hk] <;> refine .bind ?_ fun _ => .pure _
    · unfold cvarRisk; calms
    · unfold cdarRisk; calms
  | efficientReturn f t mn =>
    rcases hk with hk | hk <;> simp only [run, hk] <;> refine .bind ?_ fun _ => .pure _
    · unfold cvarReturn; calms
    · unfold cdarReturn; calms
  | minCvar mn =>
    rcases hk with hk | hk <;> simp only [run, hk]
    · refine .bind ?_ fun _ => .pure _
      unfold minCvar; calms
    · exact .raise _
  | minCdar mn =>
    rcases hk with hk | hk <;> simp only [run, hk]
    · exact .raise _
    · refine .bind ?_ fun _ => .pure _
      unfold minCdar; calms
  | minSemi mn => rcases hk with hk | hk <;> simp only [run, hk] <;> exact .raise _

end Verif.Convex
