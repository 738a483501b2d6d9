import Verif.Proof.ConvexRetarget

/-! An attempted optimisation marks the object; returned weights are stored; rejected arguments. -/

noncomputable section

namespace Verif.Convex
open Verif.Py Verif.Base Matrix

variable {n : ℕ} {U : Uni n} {S : Solver n} {D : Data n} {cfg : Cfg n} {o : OState n} {h : Heap n}

/-! ### The solver is not called -/

def Logless {α : Type} (x : M n α) : Prop := ∀ o h, (x o h).2.2.log = h.log

namespace Logless

theorem pure {α : Type} (a : α) : Logless (pure a : M n α) := fun _ _ => rfl
theorem raise {α : Type} (e : PyErr) : Logless (raise e : M n α) := fun _ _ => rfl
theorem lift {α : Type} (r : Except PyErr α) : Logless (lift r : M n α) := fun _ _ => rfl
theorem get : Logless (get : M n _) := fun _ _ => rfl
theorem freshId : Logless (freshId : M n _) := fun _ _ => rfl
theorem freshVar : Logless (freshVar : M n _) := fun _ _ => rfl
theorem isDefined (nm : String) : Logless (isDefined nm : M n _) := fun _ _ => rfl
theorem modify (f : OState n → OState n) : Logless (modify f) := fun _ _ => rfl

theorem bind {α β : Type} {x : M n α} {f : α → M n β} (hx : Logless x) (hf : ∀ a, Logless (f a)) :
    Logless (x >>= f) := by
  intro o h
  have h1 := hx o h
  rw [bind_run]
  rcases hr : x o h with ⟨r, o', h'⟩
  rw [hr] at h1
  cases r with
  | error e => exact h1
  | ok a => exact (hf a o' h').trans h1

theorem ite {α : Type} {c : Prop} [Decidable c] {x y : M n α} (hx : Logless x) (hy : Logless y) :
    Logless (if c then x else y) := by split <;> assumption

theorem newPar (nm : String) (v : ℝ) (nn : Bool) : Logless (newPar nm v nn : M n _) := by
  intro o h
  unfold Convex.newPar
  split <;> rfl

theorem setPars (v : ℝ) (l : List Par) : Logless (setPars v l : M n _) := fun o h => (setPars_other v l o h).2.2

theorem addEach (l : List (Obj n)) : Logless (addEach l) := by
  induction l with
  | nil => exact pure _
  | cons b l ih =>
    unfold Convex.addEach
    refine bind get fun o => ?_
    split
    · exact raise _
    · exact bind freshId fun _ => bind (modify _) fun _ => ih

theorem addAll : Logless (addAll : M n _) := bind get fun _ => addEach _

theorem setObjective (ps : List Par) (f : Env n → EReal) : Logless (setObjective ps f) :=
  bind freshId fun _ => modify _

theorem addLib (b : ConBody Par (Env n)) (d : Env n → Prop) : Logless (addLib b d) := by
  refine bind get fun o => ?_
  dsimp only
  split
  · exact bind (raise _) fun _ => bind freshId fun _ => modify _
  · exact bind freshId fun _ => modify _

theorem mapBounds (lb ub : Fin n → EReal) : Logless (mapBounds lb ub) :=
  bind (modify _) fun _ => bind (addLib _ _) fun _ => addLib _ _

theorem makeWeightSum (mn : Bool) : Logless (makeWeightSum mn : M n _) := by
  refine bind ?_ fun _ => modify _
  unfold sumConstraint amendBounds
  exact ite (bind (bind get fun _ => ite (bind (mapBounds _ _) fun _ => modify _) (pure _)) fun _ => addLib _ _)
    (addLib _ _)

theorem rebuildAll (k : ℕ) (l : List (Con n)) : Logless (rebuildAll k l) := by
  induction l with
  | nil => exact pure _
  | cons c l ih => exact bind (lift _) fun _ => bind freshId fun _ => bind ih fun _ => pure _

theorem varianceExpr : Logless (varianceExpr D) := ite (pure _) (raise _)

theorem returnExpr (b : Bool) : Logless (returnExpr D b) := by
  unfold Convex.returnExpr; split
  · exact raise _
  · exact pure _

theorem muTimesW : Logless (muTimesW D) := by
  unfold Convex.muTimesW; split
  · exact raise _
  · exact pure _

theorem tailCoef : Logless (tailCoef D) := ite (raise _) (pure _)
theorem cvarExpr : Logless (cvarExpr D) := bind tailCoef fun _ => pure _
theorem cdarExpr : Logless (cdarExpr D) := bind tailCoef fun _ => pure _
theorem cvarCons : Logless (cvarCons D) := bind (addLib _ _) fun _ => addLib _ _

theorem cdarCons : Logless (cdarCons D) :=
  bind (addLib _ _) fun _ => bind (addLib _ _) fun _ => bind (addLib _ _) fun _ => bind (addLib _ _) fun _ =>
    addLib _ _

theorem semiCon (p q : ℕ) : Logless (semiCon D p q) := addLib _ _

theorem buildCdar (mn : Bool) : Logless (buildCdar D mn) :=
  bind cdarExpr fun _ => bind (setObjective _ _) fun _ => bind addAll fun _ => bind cdarCons fun _ => makeWeightSum _

theorem validateNeutral (mn : Bool) : Logless (validateNeutral mn : M n _) :=
  bind get fun _ => ite (raise _) (pure _)

theorem updatePar (nm : String) (v : ℝ) : Logless (updatePar nm v : M n _) := by
  refine bind (isDefined _) fun b => ?_
  dsimp only
  split
  · exact bind (raise _) fun _ => bind get fun _ => setPars _ _
  · exact bind get fun _ => setPars _ _

end Logless

macro "logless" : tactic => `(tactic| repeat' (first
  | with_reducible exact Logless.pure _ | with_reducible exact Logless.raise _ | with_reducible exact Logless.lift _
  | with_reducible exact Logless.get | with_reducible exact Logless.freshVar
  | with_reducible exact Logless.freshId | with_reducible exact Logless.modify _
  | with_reducible exact Logless.newPar _ _ _ | with_reducible exact Logless.setPars _ _
  | with_reducible exact Logless.addAll | with_reducible exact Logless.setObjective _ _
  | with_reducible exact Logless.addLib _ _ 
  | with_reducible exact Logless.makeWeightSum _ | with_reducible exact Logless.rebuildAll _ _
  | with_reducible exact Logless.varianceExpr | with_reducible exact Logless.returnExpr _
  | with_reducible exact Logless.muTimesW | with_reducible exact Logless.cvarExpr
  | with_reducible exact Logless.cdarExpr
  | with_reducible exact Logless.cvarCons | with_reducible exact Logless.cdarCons
  | with_reducible exact Logless.semiCon _ _ | with_reducible exact Logless.buildCdar _
  | with_reducible exact Logless.validateNeutral _ | with_reducible exact Logless.updatePar _ _
  | with_reducible apply Logless.bind | with_reducible apply Logless.ite | intro _))

/-! ### Optimisation methods -/

/-- If the solver is called a problem is stored. -/
def Marks {α : Type} (x : M n α) : Prop := ∀ o h, (x o h).2.2.log = h.log ∨ (x o h).2.1.opt ≠ none

/-- If weights are returned a problem is stored, and so are the weights. -/
def Stops (x : M n (Fin n → ℝ)) : Prop :=
  ∀ o h w, (x o h).1 = .ok w → (x o h).2.1.opt ≠ none ∧ (x o h).2.1.weights = some w

theorem Logless.marks {α : Type} {x : M n α} (hx : Logless x) : Marks x := fun o h => .inl (hx o h)

theorem Marks.bind {α β : Type} {x : M n α} {f : α → M n β} (hx : Logless x) (hf : ∀ a, Marks (f a)) :
    Marks (x >>= f) := by
  intro o h
  have h1 := hx o h
  rw [bind_run]
  rcases hr : x o h with ⟨r, o', h'⟩
  rw [hr] at h1
  cases r with
  | error e => exact .inl h1
  | ok a => exact (hf a o' h').imp (fun e => e.trans h1) id

theorem Stops.bind {α : Type} {x : M n α} {f : α → M n (Fin n → ℝ)} (hf : ∀ a, Stops (f a)) : Stops (x >>= f) := by
  intro o h w
  rw [bind_run]
  rcases hr : x o h with ⟨r, o', h'⟩
  cases r with
  | error e => intro hw; cases hw
  | ok a => exact hf a o' h' w

theorem Stops.raise (e : PyErr) : Stops (raise e : M n _) := nofun

theorem Marks.ite {α : Type} {c : Prop} [Decidable c] {x y : M n α} (hx : Marks x) (hy : Marks y) :
    Marks (if c then x else y) := by split <;> assumption

theorem Stops.ite {c : Prop} [Decidable c] {x y : M n (Fin n → ℝ)} (hx : Stops x) (hy : Stops y) :
    Stops (if c then x else y) := by split <;> assumption

theorem callSolver_stops (p : Opt n) (o : OState n) (h : Heap n) :
    (callSolver S p o h).2.1.opt = o.opt ∧
      ∀ w, (callSolver S p o h).1 = .ok w → (callSolver S p o h).2.1.weights = some w := by
  obtain ⟨w, vals, e, h1, -⟩ := callSolver_run (S := S) p o h
  rw [e]
  refine ⟨rfl, fun w' hw => ?_⟩
  obtain ⟨s, v, hs, rfl⟩ := outcome_ok hw
  exact (h1 s v hs).2

theorem solve_both : Marks (solve S) ∧ Stops (solve S) := by
  have key : ∀ o h, ((solve S o h).2.2.log = h.log ∧ ∃ e, (solve S o h).1 = .error e) ∨
      ∃ p o₁, solve S o h = callSolver S p o₁ h ∧ o₁.opt ≠ none := by
    intro o h
    unfold solve
    rw [bind_ok (a := o) (o' := o) (h' := h) rfl]
    cases ho : o.opt with
    | none =>
      cases hob : o.objective with
      | none => exact .inl ⟨rfl, _, rfl⟩
      | some ob =>
        dsimp only
        by_cases hc : ¬ ob.body.scalar = true ∨ ¬ usable o.cons
        · rw [if_pos hc]; exact .inl ⟨rfl, _, rfl⟩
        · rw [if_neg hc]
          cases idsOf o.cons with
          | error e => exact .inl ⟨rfl, _, rfl⟩
          | ok ids => exact .inr ⟨_, _, rfl, nofun⟩
    | some p =>
      cases hob : o.objective with
      | none => exact .inl ⟨rfl, _, rfl⟩
      | some ob =>
        dsimp only
        by_cases hc : ob.id ≠ p.initObj
        · rw [if_pos hc]; exact .inl ⟨rfl, _, rfl⟩
        · rw [if_neg hc]
          cases hi : idsOf o.cons with
          | error e => exact .inl ⟨rfl, _, rfl⟩
          | ok ids =>
            rw [bind_ok (a := ids) (o' := o) (h' := h) rfl]
            cases p.initCons with
            | none => exact .inl ⟨rfl, _, rfl⟩
            | some ini =>
              dsimp only
              split
              · exact .inl ⟨rfl, _, rfl⟩
              · exact .inr ⟨p, o, rfl, by rw [ho]; exact nofun⟩
  constructor
  · intro o h
    rcases key o h with ⟨h1, -⟩ | ⟨p, o₁, e, ho⟩
    · exact .inl h1
    · right; rw [e, (callSolver_stops p o₁ h).1]; exact ho
  · intro o h w hw
    rcases key o h with ⟨-, e, h1⟩ | ⟨p, o₁, e, ho⟩
    · rw [h1] at hw; cases hw
    · rw [e] at hw ⊢
      exact ⟨by rw [(callSolver_stops p o₁ h).1]; exact ho, (callSolver_stops p o₁ h).2 w hw⟩

theorem Marks.solve : Marks (solve S) := solve_both.1
theorem Stops.solve : Stops (solve S) := solve_both.2

theorem rescale_run (k : ℕ) (o : OState n) (h : Heap n) :
    (rescale k o h).2.1.opt = o.opt ∧ (rescale k o h).2.2.log = h.log ∧
      ∀ w, (rescale k o h).1 = .ok w → (rescale k o h).2.1.weights = some w := by
  unfold rescale
  split
  · exact ⟨rfl, rfl, nofun⟩
  · exact ⟨rfl, rfl, fun w hw => congrArg some (Except.ok.inj hw)⟩

/-- The end of `max_sharpe`. -/
theorem Marks.tail (k : ℕ) : Marks (Convex.solve S >>= fun _ => rescale k) := by
  intro o h
  have h1 := Marks.solve (S := S) o h
  rw [bind_run]
  rcases hr : Convex.solve S o h with ⟨r, o', h'⟩
  rw [hr] at h1
  cases r with
  | error e => exact h1
  | ok a =>
    obtain ⟨k1, k2, -⟩ := rescale_run k o' h'
    refine h1.imp (fun e => k2.trans e) (fun e => ?_)
    show (rescale k o' h').2.1.opt ≠ none
    rw [k1]; exact e

theorem Stops.tail (k : ℕ) : Stops (Convex.solve S >>= fun _ => rescale k) := by
  intro o h w
  have h1 := Stops.solve (S := S) o h
  rw [bind_run]
  rcases hr : Convex.solve S o h with ⟨r, o', h'⟩
  rw [hr] at h1
  cases r with
  | error e => intro hw; cases hw
  | ok a =>
    intro hw
    obtain ⟨k1, -, k3⟩ := rescale_run k o' h'
    refine ⟨?_, k3 w hw⟩
    show (rescale k o' h').2.1.opt ≠ none
    rw [k1]; exact (h1 a rfl).1

theorem Marks.withParameter (nm : String) (mn : Bool) (v : ℝ) {build : M n Unit} (hb : Logless build) :
    Marks (withParameter S nm mn v build) := by
  refine .bind (.isDefined _) fun b => ?_
  dsimp only
  split
  · exact .bind (.validateNeutral _) fun _ => .bind (.updatePar _ _) fun _ => .solve
  · exact .bind hb fun _ => .solve

theorem Stops.withParameter (nm : String) (mn : Bool) (v : ℝ) (build : M n Unit) :
    Stops (withParameter S nm mn v build) := by
  refine .bind fun b => ?_
  dsimp only
  split
  · exact .bind fun _ => .bind fun _ => .solve
  · exact .bind fun _ => .solve

macro "marks" : tactic => `(tactic| repeat' (first
  | with_reducible exact Marks.tail _
  | with_reducible exact Marks.solve | with_reducible exact (Logless.raise _).marks
  | with_reducible apply Marks.withParameter
  | with_reducible apply Marks.bind | with_reducible apply Marks.ite
  | (with_reducible show Logless _; logless) | split | intro _))

macro "stops" : tactic => `(tactic| repeat' (first
  | with_reducible exact Stops.tail _
  | with_reducible exact Stops.solve | with_reducible exact Stops.raise _
  | with_reducible apply Stops.withParameter
  | with_reducible apply Stops.bind | with_reducible apply Stops.ite
  | split | intro _))

/-- What holds of an optimisation method. -/
structure Opts (x : M n (Fin n → ℝ)) : Prop where
  marks : Marks x
  stops : Stops x

theorem opts_minVolatility : Opts (minVolatility S D) := by unfold minVolatility; exact ⟨by marks, by stops⟩
theorem opts_maxSharpe (rf : ℝ) : Opts (maxSharpe S D rf) := by unfold maxSharpe; exact ⟨by marks, by stops⟩
theorem opts_maxUtility (r : ℝ) (mn : Bool) : Opts (maxUtility S D r mn) := by
  unfold maxUtility; exact ⟨by marks, by stops⟩
theorem opts_efficientRisk (t : ℝ) (mn : Bool) : Opts (efficientRisk S D t mn) := by
  unfold efficientRisk; exact ⟨by marks, by stops⟩
theorem stops_efficientReturn (f : Bool) (t : ℝ) (mn : Bool) : Stops (efficientReturn S D f t mn) := by
  unfold efficientReturn; stops
theorem opts_minCvar (mn : Bool) : Opts (minCvar S D mn) := by unfold minCvar; exact ⟨by marks, by stops⟩
theorem opts_cvarReturn (t : ℝ) (mn : Bool) : Opts (cvarReturn S D t mn) := by
  unfold cvarReturn; exact ⟨by marks, by stops⟩
theorem opts_cvarRisk (t : ℝ) (mn : Bool) : Opts (cvarRisk S D t mn) := by
  unfold cvarRisk; exact ⟨by marks, by stops⟩
theorem opts_minCdar (mn : Bool) : Opts (minCdar S D mn) := by unfold minCdar; exact ⟨by marks, by stops⟩
theorem opts_cdarReturn (t : ℝ) (mn : Bool) : Opts (cdarReturn S D t mn) := by
  unfold cdarReturn; exact ⟨by marks, by stops⟩
theorem opts_cdarRisk (t : ℝ) (mn : Bool) : Opts (cdarRisk S D t mn) := by
  unfold cdarRisk; exact ⟨by marks, by stops⟩
theorem opts_minSemi (mn : Bool) : Opts (minSemi S D mn) := by unfold minSemi; exact ⟨by marks, by stops⟩
theorem opts_semiUtility (r : ℝ) (mn : Bool) : Opts (semiUtility S D r mn) := by
  unfold semiUtility; exact ⟨by marks, by stops⟩
theorem opts_semiRisk (t : ℝ) (mn : Bool) : Opts (semiRisk S D t mn) := by
  unfold semiRisk; exact ⟨by marks, by stops⟩
theorem opts_semiReturn (f : Bool) (t : ℝ) (mn : Bool) : Opts (semiReturn S D f t mn) := by
  unfold semiReturn; exact ⟨by marks, by stops⟩
theorem opts_convex (r : Except PyErr ℕ) (b : Bool) : Opts (convexObjective U S r b) := by
  unfold convexObjective; exact ⟨by marks, by stops⟩

/-- What holds of a call. -/
structure CallOpts (U : Uni n) (S : Solver n) (D : Data n) (c : Call n) : Prop where
  marks : (∀ f t mn, D.kind = .ef → c ≠ .efficientReturn f t mn) → Marks (run U S D c)
  stops : (∀ m b, c ≠ .nonconvex m b) → ∀ o h w, (run U S D c o h).1 = .ok (some w) →
    (run U S D c o h).2.1.opt ≠ none ∧ (run U S D c o h).2.1.weights = some w

theorem some_stops {c : Call n} {x : M n (Fin n → ℝ)} (hx : run U S D c = (x >>= fun w => pure (some w)))
    (s : Stops x) (o : OState n) (h : Heap n) (w : Fin n → ℝ) (hw : (run U S D c o h).1 = .ok (some w)) :
    (run U S D c o h).2.1.opt ≠ none ∧ (run U S D c o h).2.1.weights = some w := by
  rw [hx, some_run] at hw ⊢
  refine s o h w ?_
  dsimp only at hw
  cases hr : (x o h).1 with
  | error e => rw [hr] at hw; cases hw
  | ok w' => rw [hr] at hw; cases hw; rfl

theorem Opts.call {c : Call n} {x : M n (Fin n → ℝ)} (p : Opts x)
    (hx : run U S D c = (x >>= fun w => pure (some w))) : CallOpts U S D c := by
  refine ⟨fun _ o h => ?_, fun _ => some_stops hx p.stops⟩
  rw [hx, some_run]
  exact p.marks o h

theorem raise_call {c : Call n} {e : PyErr} (hx : run U S D c = raise e) : CallOpts U S D c := by
  refine ⟨fun _ o h => ?_, fun _ o h w hw => ?_⟩
  · rw [hx]; exact .inl rfl
  · rw [hx] at hw; cases hw

theorem none_call {c : Call n} {x : M n Unit} (hl : Logless x)
    (hx : run U S D c = (x >>= fun _ => pure none)) : CallOpts U S D c := by
  refine ⟨fun _ o h => ?_, fun _ o h w hw => ?_⟩
  · rw [hx, none_run]; exact .inl (hl o h)
  · rw [hx, none_run] at hw
    dsimp only at hw
    cases hr : (x o h).1 <;> rw [hr] at hw <;> cases hw

theorem Logless.addSectors (sec : Fin n → Option String) (up : Bool) (l : List (Option String × ℝ)) :
    Logless (Convex.addSectors sec up l) := by
  induction l with
  | nil => exact pure _
  | cons b l ih => exact bind (addLib _ _) fun _ => ih

theorem call_opts (c : Call n) : CallOpts U S D c := by
  cases c with
  | addObjective r =>
    refine none_call (x := addObjective U r) ?_ rfl
    unfold addObjective
    refine .bind .get fun o => ?_
    dsimp only
    split <;> logless
  | addConstraint b r =>
    refine none_call (x := addConstraint U b r) ?_ rfl
    unfold addConstraint
    split <;> logless
    all_goals (dsimp only; split <;> logless)
  | addSectors s l u =>
    exact none_call (x := addSectorConstraints s l u) (.bind (.addSectors _ _ _) fun _ => .addSectors _ _ _) rfl
  | convex r b => exact (opts_convex r b).call rfl
  | nonconvex m b =>
    refine ⟨fun _ => Logless.marks ?_, fun hn => absurd rfl (hn m b)⟩
    exact .bind (.bind .get fun _ => .bind (.lift _) fun _ => .bind (.modify _) fun _ => .pure _) fun _ => .pure _
  | setWeights w =>
    refine none_call (x := setWeights D w) ?_ rfl
    unfold setWeights
    split <;> logless
  | setPar i v => exact none_call (x := setUserPar U i v) (.setPars _ _) rfl
  | minVolatility =>
    cases hk : D.kind with
    | ef => exact opts_minVolatility.call (by simp only [run, hk]; rfl)
    | _ => exact raise_call (by simp only [run, hk]; rfl)
  | maxSharpe rf =>
    cases hk : D.kind with
    | ef => exact (opts_maxSharpe rf).call (by simp only [run, hk]; rfl)
    | _ => exact raise_call (by simp only [run, hk]; rfl)
  | maxUtility r mn =>
    cases hk : D.kind with
    | ef => exact (opts_maxUtility r mn).call (by simp only [run, hk]; rfl)
    | semi => exact (opts_semiUtility r mn).call (by simp only [run, hk]; rfl)
    | _ => exact raise_call (by simp only [run, hk]; rfl)
  | efficientRisk t mn =>
    cases hk : D.kind with
    | ef => exact (opts_efficientRisk t mn).call (by simp only [run, hk]; rfl)
    | cvar => exact (opts_cvarRisk t mn).call (by simp only [run, hk]; rfl)
    | cdar => exact (opts_cdarRisk t mn).call (by simp only [run, hk]; rfl)
    | semi => exact (opts_semiRisk t mn).call (by simp only [run, hk]; rfl)
  | efficientReturn f t mn =>
    cases hk : D.kind with
    | ef => exact ⟨fun hn => absurd rfl (hn f t mn hk), fun _ =>
        some_stops (x := efficientReturn S D f t mn) (by simp only [run, hk]) (stops_efficientReturn f t mn)⟩
    | cvar => exact (opts_cvarReturn t mn).call (by simp only [run, hk]; rfl)
    | cdar => exact (opts_cdarReturn t mn).call (by simp only [run, hk]; rfl)
    | semi => exact (opts_semiReturn f t mn).call (by simp only [run, hk]; rfl)
  | minCvar mn =>
    cases hk : D.kind with
    | cvar => exact (opts_minCvar mn).call (by simp only [run, hk]; rfl)
    | _ => exact raise_call (by simp only [run, hk]; rfl)
  | minCdar mn =>
    cases hk : D.kind with
    | cdar => exact (opts_minCdar mn).call (by simp only [run, hk]; rfl)
    | _ => exact raise_call (by simp only [run, hk]; rfl)
  | minSemi mn =>
    cases hk : D.kind with
    | semi => exact (opts_minSemi mn).call (by simp only [run, hk]; rfl)
    | _ => exact raise_call (by simp only [run, hk]; rfl)

/-! ### Rejected first calls -/

/-- The program raises without calling the solver. -/
def Errs {α : Type} (x : M n α) : Prop := ∀ o h, ∃ e, (x o h).1 = .error e ∧ (x o h).2.2.log = h.log

theorem Errs.bind {α β : Type} {x : M n α} {f : α → M n β} (hx : Logless x) (hf : ∀ a, Errs (f a)) :
    Errs (x >>= f) := by
  intro o h
  have h1 := hx o h
  rw [bind_run]
  rcases hr : x o h with ⟨r, o', h'⟩
  rw [hr] at h1
  cases r with
  | error e => exact ⟨e, rfl, h1⟩
  | ok a =>
    obtain ⟨e, k1, k2⟩ := hf a o' h'
    exact ⟨e, k1, k2.trans h1⟩

theorem Errs.first {α β : Type} {x : M n α} (hx : Errs x) (f : α → M n β) : Errs (x >>= f) := by
  intro o h
  obtain ⟨e, k1, k2⟩ := hx o h
  rw [bind_run]
  rcases hr : x o h with ⟨r, o', h'⟩
  rw [hr] at k1 k2
  dsimp only at k1
  subst k1
  exact ⟨e, rfl, k2⟩

theorem Errs.newPar (nm : String) {v : ℝ} (hv : v < 0) : Errs (newPar nm v true : M n _) := by
  intro o h
  unfold Convex.newPar
  rw [if_pos ⟨rfl, hv⟩]
  exact ⟨_, rfl, rfl⟩

theorem Errs.raise {α : Type} (e : PyErr) : Errs (raise e : M n α) := fun _ _ => ⟨e, rfl, rfl⟩

theorem Errs.run {c : Call n} {x : M n (Fin n → ℝ)} (hx : Convex.run U S D c = (x >>= fun w => pure (some w)))
    (hf : ∃ e, (x o h).1 = .error e ∧ (x o h).2.2.log = h.log) :
    ∃ e, (Convex.run U S D c o h).1 = .error e ∧ (Convex.run U S D c o h).2.2.log = h.log := by
  rw [hx, some_run]
  obtain ⟨e, k1, k2⟩ := hf
  exact ⟨e, by rw [k1]; rfl, k2⟩

/-- A first call whose argument is not accepted raises without calling the solver. -/
theorem fresh_rejects (hU : Usable U D) (g : Good U D cfg o h) (ho : o.opt = none) {c : Call n}
    (hp : (pname D.kind c).isSome = true) (ha : ¬ Accepts D c) :
    ∃ e, (run U S D c o h).1 = .error e ∧ (run U S D c o h).2.2.log = h.log := by
  rcases g with ⟨b, hob⟩ | ⟨p, s⟩
  swap
  · rw [s.opt] at ho; cases ho
  have par : ∀ (nm : String) (mn : Bool) (v : ℝ) (build : M n Unit), nm ∈ libNames → Errs build →
      ∃ e, (withParameter S nm mn v build o h).1 = .error e ∧ (withParameter S nm mn v build o h).2.2.log = h.log := by
    intro nm mn v build hn hf
    rw [withParameter_clean hU b hob hn]
    exact hf.first _ o h
  cases c with
  | maxUtility r mn =>
    have hr : r ≤ 0 := not_lt.1 ha
    cases hk : D.kind with
    | ef =>
      refine Errs.run (x := maxUtility S D r mn) (by simp only [run, hk]) ?_
      unfold maxUtility; rw [if_pos hr]; exact ⟨_, rfl, rfl⟩
    | semi =>
      refine Errs.run (x := semiUtility S D r mn) (by simp only [run, hk]) ?_
      unfold semiUtility; rw [if_pos hr]; exact ⟨_, rfl, rfl⟩
    | _ => simp [pname, hk] at hp
  | efficientRisk t mn =>
    cases hk : D.kind with
    | ef =>
      have ha : ¬ (0 ≤ t ∧ ¬ numLt t (globalMinVol D)) := by simpa only [Accepts, hk] using ha
      refine Errs.run (x := efficientRisk S D t mn) (by simp only [run, hk]) ?_
      unfold efficientRisk
      by_cases h0 : t < 0
      · rw [if_pos h0]; exact ⟨_, rfl, rfl⟩
      · rw [if_neg h0, if_pos (by by_contra hn; exact ha ⟨not_lt.1 h0, hn⟩)]; exact ⟨_, rfl, rfl⟩
    | cvar =>
      have ha : t < 0 := by simpa only [Accepts, hk, not_le] using ha
      refine Errs.run (x := cvarRisk S D t mn) (by simp only [run, hk]) ?_
      exact par _ _ _ _ (by decide) (.bind (.returnExpr _) fun _ => .bind (.setObjective _ _) fun _ =>
        .bind .addAll fun _ => .bind .cvarExpr fun _ => (Errs.newPar _ ha).first _)
    | cdar =>
      have ha : t < 0 := by simpa only [Accepts, hk, not_le] using ha
      refine Errs.run (x := cdarRisk S D t mn) (by simp only [run, hk]) ?_
      exact par _ _ _ _ (by decide) (.bind (.returnExpr _) fun _ => .bind (.setObjective _ _) fun _ =>
        .bind .addAll fun _ => .bind .cdarExpr fun _ => (Errs.newPar _ ha).first _)
    | semi => simp [Accepts, hk] at ha
  | efficientReturn f t mn =>
    cases hk : D.kind with
    | ef =>
      have ha : f = false := by simpa [Accepts, hk] using ha
      subst ha
      exact Errs.run (x := efficientReturn S D false t mn) (by simp only [run, hk]) ⟨_, rfl, rfl⟩
    | cvar => simp [Accepts, hk] at ha
    | cdar =>
      have ha : t < 0 := by simpa only [Accepts, hk, not_le] using ha
      refine Errs.run (x := cdarReturn S D t mn) (by simp only [run, hk]) ?_
      exact par _ _ _ _ (by decide) (.bind .muTimesW fun _ => (Errs.newPar _ ha).first _)
    | semi =>
      have ha : ¬ (f = true ∧ 0 ≤ t ∧ ∃ mu, D.mu = some mu ∧ ∃ i, t ≤ |mu i|) := by simpa only [Accepts, hk] using ha
      refine Errs.run (x := semiReturn S D f t mn) (by simp only [run, hk]) ?_
      unfold semiReturn
      by_cases h0 : (!f) = true ∨ t < 0
      · rw [if_pos h0]; exact ⟨_, rfl, rfl⟩
      · rw [if_neg h0]
        cases hmu : D.mu with
        | none => exact ⟨_, rfl, rfl⟩
        | some mu =>
        dsimp only
        rw [if_pos]
        · exact ⟨_, rfl, rfl⟩
        · intro i
          by_contra hi
          refine ha ⟨?_, ?_, mu, hmu, i, not_lt.1 hi⟩
          · by_contra hf; exact h0 (.inl (by simp [hf]))
          · by_contra ht; exact h0 (.inr (not_le.1 ht))
  | _ => simp [pname] at hp

end Verif.Convex
