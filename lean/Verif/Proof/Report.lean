import Verif.Proof.Vals
import Verif.Spec.Report

/-! Which calls change the stored weights and the stored risk-free rate. -/

noncomputable section

namespace Verif.Convex
open Verif.Py Verif.Base

variable {n : ℕ} {U : Uni n} {S : Solver n} {D : Data n}

/-- Weights and rate stay as they are. -/
def Still {α : Type} (x : M n α) : Prop :=
  ∀ o h, (x o h).2.1.weights = o.weights ∧ (x o h).2.1.rf = o.rf

namespace Still
variable {α β : Type}

theorem pure (a : α) : Still (Pure.pure a : M n α) := fun _ _ => ⟨rfl, rfl⟩
theorem raise (e : PyErr) : Still (raise e : M n α) := fun _ _ => ⟨rfl, rfl⟩
theorem lift (r : Except PyErr α) : Still (lift r : M n α) := fun _ _ => ⟨rfl, rfl⟩
theorem get : Still (get : M n _) := fun _ _ => ⟨rfl, rfl⟩
theorem freshId : Still (freshId : M n _) := fun _ _ => ⟨rfl, rfl⟩
theorem freshVar : Still (freshVar : M n _) := fun _ _ => ⟨rfl, rfl⟩
theorem isDefined (nm : String) : Still (isDefined nm : M n _) := fun _ _ => ⟨rfl, rfl⟩

theorem modify {f : OState n → OState n} (h : ∀ o, (f o).weights = o.weights ∧ (f o).rf = o.rf) : Still (modify f) :=
  fun o _ => h o

theorem newPar (nm : String) (v : ℝ) (b : Bool) : Still (newPar nm v b : M n _) := by
  intro o h
  unfold Convex.newPar
  split <;> exact ⟨rfl, rfl⟩

theorem bind {x : M n α} {f : α → M n β} (hx : Still x) (hf : ∀ a, Still (f a)) : Still (x >>= f) := by
  intro o h
  rw [bind_run]
  have k := hx o h
  rcases hr : x o h with ⟨r, o', h'⟩
  rw [hr] at k
  cases r with
  | error e => exact k
  | ok a =>
    have k' := hf a o' h'
    exact ⟨k'.1.trans k.1, k'.2.trans k.2⟩

theorem ite {c : Prop} [Decidable c] {x y : M n α} (hx : Still x) (hy : Still y) : Still (if c then x else y) := by
  split <;> assumption

theorem setPars (v : ℝ) (l : List Par) : Still (setPars v l : M n _) := by
  intro o h
  obtain ⟨e, -⟩ := setPars_other v l o h
  exact ⟨by rw [e], by rw [e]⟩

theorem addEach (l : List (Obj n)) : Still (addEach l) := by
  induction l with
  | nil => exact pure _
  | cons b l ih =>
    unfold Convex.addEach
    refine bind get fun o => ?_
    split
    · exact raise _
    · exact bind freshId fun _ => bind (modify fun _ => ⟨rfl, rfl⟩) fun _ => ih

theorem addAll : Still (addAll : M n _) := bind get fun _ => addEach _

theorem setObjective (ps : List Par) (f : Env n → EReal) : Still (setObjective ps f) :=
  bind freshId fun _ => modify fun _ => ⟨rfl, rfl⟩

theorem addLib (b : ConBody Par (Env n)) (d : Env n → Prop) : Still (addLib b d) := by
  refine bind get fun o => ?_
  dsimp only
  split
  · exact bind (raise _) fun _ => bind freshId fun _ => modify fun _ => ⟨rfl, rfl⟩
  · exact bind freshId fun _ => modify fun _ => ⟨rfl, rfl⟩

theorem mapBounds (lb ub : Fin n → EReal) : Still (mapBounds lb ub) :=
  bind (modify fun _ => ⟨rfl, rfl⟩) fun _ => bind (addLib _ _) fun _ => addLib _ _

theorem makeWeightSum (mn : Bool) : Still (makeWeightSum mn : M n _) := by
  refine bind ?_ fun _ => modify fun _ => ⟨rfl, rfl⟩
  unfold sumConstraint amendBounds
  exact ite (bind (bind get fun _ => ite (bind (mapBounds _ _) fun _ => modify fun _ => ⟨rfl, rfl⟩) (pure _)) fun _ =>
    addLib _ _) (addLib _ _)

theorem rebuildAll (k : ℕ) (l : List (Con n)) : Still (rebuildAll k l) := by
  induction l with
  | nil => exact pure _
  | cons c l ih => exact bind (lift _) fun _ => bind freshId fun _ => bind ih fun _ => pure _

theorem varianceExpr : Still (varianceExpr D) := ite (pure _) (raise _)

theorem returnExpr (b : Bool) : Still (returnExpr D b) := by
  unfold Convex.returnExpr; split
  · exact raise _
  · exact pure _

theorem muTimesW : Still (muTimesW D) := by
  unfold Convex.muTimesW; split
  · exact raise _
  · exact pure _

theorem tailCoef : Still (tailCoef D) := ite (raise _) (pure _)
theorem cvarExpr : Still (cvarExpr D) := bind tailCoef fun _ => pure _
theorem cdarExpr : Still (cdarExpr D) := bind tailCoef fun _ => pure _
theorem cvarCons : Still (cvarCons D) := bind (addLib _ _) fun _ => addLib _ _

theorem cdarCons : Still (cdarCons D) :=
  bind (addLib _ _) fun _ => bind (addLib _ _) fun _ => bind (addLib _ _) fun _ => bind (addLib _ _) fun _ =>
    addLib _ _

theorem semiCon (p q : ℕ) : Still (semiCon D p q) := addLib _ _

theorem buildCdar (mn : Bool) : Still (buildCdar D mn) :=
  bind cdarExpr fun _ => bind (setObjective _ _) fun _ => bind addAll fun _ => bind cdarCons fun _ => makeWeightSum _

theorem validateNeutral (mn : Bool) : Still (validateNeutral mn : M n _) :=
  bind get fun _ => ite (raise _) (pure _)

theorem updatePar (nm : String) (v : ℝ) : Still (updatePar nm v : M n _) := by
  refine bind (isDefined _) fun b => ?_
  dsimp only
  split
  · exact bind (raise _) fun _ => bind get fun _ => setPars _ _
  · exact bind get fun _ => setPars _ _

theorem addSectors (sec : Fin n → Option String) (up : Bool) (l : List (Option String × ℝ)) :
    Still (Convex.addSectors sec up l) := by
  induction l with
  | nil => exact pure _
  | cons b l ih => exact bind (addLib _ _) fun _ => ih

theorem maxReturnOfCopy : Still (maxReturnOfCopy S D) := fun _ _ => ⟨rfl, rfl⟩

theorem checkMaxReturn (t : ℝ) : Still (checkMaxReturn S D t) := by
  refine bind get fun o => bind ?_ fun m => bind (modify fun _ => ⟨rfl, rfl⟩) fun _ => ite (raise _) (pure _)
  cases o.maxRet with
  | none => exact maxReturnOfCopy
  | some m => exact ite maxReturnOfCopy (pure _)

end Still

macro "still" : tactic => `(tactic| repeat' (first
  | with_reducible exact Still.pure _ | with_reducible exact Still.raise _ | with_reducible exact Still.lift _
  | with_reducible exact Still.get | with_reducible exact Still.freshVar
  | with_reducible exact Still.freshId
  | with_reducible exact Still.newPar _ _ _ | with_reducible exact Still.setPars _ _
  | with_reducible exact Still.addAll | with_reducible exact Still.setObjective _ _
  | with_reducible exact Still.addLib _ _
  | with_reducible exact Still.makeWeightSum _ | with_reducible exact Still.rebuildAll _ _
  | with_reducible exact Still.varianceExpr | with_reducible exact Still.returnExpr _
  | with_reducible exact Still.muTimesW | with_reducible exact Still.cvarExpr
  | with_reducible exact Still.cdarExpr
  | with_reducible exact Still.cvarCons | with_reducible exact Still.cdarCons
  | with_reducible exact Still.semiCon _ _ | with_reducible exact Still.buildCdar _
  | with_reducible exact Still.checkMaxReturn _
  | with_reducible exact Still.validateNeutral _ | with_reducible exact Still.updatePar _ _
  | with_reducible apply Still.bind | with_reducible apply Still.ite | intro _))

/-- Weights that are returned are stored; without an answer they stay.  The rate stays. -/
def Gives (x : M n (Fin n → ℝ)) : Prop :=
  ∀ o h, (x o h).2.1.rf = o.rf ∧
    (x o h).2.1.weights = match (x o h).1 with | .ok w => some w | .error _ => o.weights

namespace Gives

theorem bind {α : Type} {x : M n α} {f : α → M n (Fin n → ℝ)} (hx : Still x) (hf : ∀ a, Gives (f a)) :
    Gives (x >>= f) := by
  intro o h
  rw [bind_run]
  have k := hx o h
  rcases hr : x o h with ⟨r, o', h'⟩
  rw [hr] at k
  cases r with
  | error e => exact ⟨k.2, k.1⟩
  | ok a =>
    obtain ⟨k1, k2⟩ := hf a o' h'
    refine ⟨k1.trans k.2, k2.trans ?_⟩
    show _ = match (f a o' h').1 with | .ok w => some w | .error _ => o.weights
    cases (f a o' h').1 with
    | error e => exact k.1
    | ok w => rfl

theorem raise (e : PyErr) : Gives (raise e : M n _) := fun _ _ => ⟨rfl, rfl⟩

theorem ite {c : Prop} [Decidable c] {x y : M n (Fin n → ℝ)} (hx : Gives x) (hy : Gives y) :
    Gives (if c then x else y) := by split <;> assumption

theorem callSolver (p : Opt n) : Gives (callSolver S p) := by
  intro o h
  obtain ⟨w, vals, e, h1, h2⟩ := callSolver_run (S := S) p o h
  rw [e]
  refine ⟨rfl, ?_⟩
  show w = match outcome (S h.log.length (p.prob h)) with | .ok w => some w | .error _ => o.weights
  cases ho : S h.log.length (p.prob h) with
  | optimal s v => exact (h1 s v ho).2
  | status s => exact h2 (by rw [ho]; nofun)
  | raised e => exact (h2 (by rw [ho]; nofun)).trans (by cases e <;> rfl)

theorem solve : Gives (solve S) := by
  unfold Convex.solve
  refine bind .get fun o => ?_
  cases ho : o.opt with
  | none =>
    cases hob : o.objective with
    | none => exact raise _
    | some ob =>
      dsimp only
      split
      · exact raise _
      · cases idsOf o.cons with
        | error e => exact bind (.modify fun _ => ⟨rfl, rfl⟩) fun _ => raise _
        | ok ids => exact bind (.modify fun _ => ⟨rfl, rfl⟩) fun _ => callSolver _
  | some p =>
    cases hob : o.objective with
    | none => exact raise _
    | some ob =>
      dsimp only
      refine ite (raise _) (bind (.lift _) fun ids => ?_)
      cases p.initCons with
      | none => exact raise _
      | some ini => exact ite (raise _) (callSolver _)

theorem withParameter (nm : String) (mn : Bool) (v : ℝ) {build : M n Unit} (hb : Still build) :
    Gives (withParameter S nm mn v build) := by
  refine bind (.isDefined _) fun b => ?_
  dsimp only
  split
  · exact bind (.validateNeutral _) fun _ => bind (.updatePar _ _) fun _ => solve
  · exact bind hb fun _ => solve

end Gives

/-- Requirements of a call: what is stored afterwards. -/
def Stores (D : Data n) (c : Call n) (o : OState n) (r : Except PyErr (Option (Fin n → ℝ)) × OState n × Heap n) : Prop :=
  r.2.1.weights = (Event.portfolio (c, r.1)).or o.weights ∧ r.2.1.rf = (Event.rate D (c, r.1)).or o.rf

theorem Gives.stores {x : M n (Fin n → ℝ)} (hx : Gives x) {c : Call n} (hc : ∀ w, c ≠ .setWeights w)
    (hr : ∀ rf, c ≠ .maxSharpe rf) (e : run U S D c = (x >>= fun w => pure (some w))) (o : OState n) (h : Heap n) :
    Stores D c o (run U S D c o h) := by
  rw [e, some_run]
  obtain ⟨k1, k2⟩ := hx o h
  rcases hq : x o h with ⟨r, o', h'⟩
  rw [hq] at k1 k2
  have e1 : ∀ r, Event.rate D (c, r) = none := fun r => by
    cases c <;> first | rfl | exact absurd rfl (hr _)
  refine ⟨?_, by rw [e1]; exact k1⟩
  show o'.weights = (Event.portfolio (c, r.map some)).or o.weights
  rw [k2]
  cases r with
  | error e => cases c <;> first | rfl | exact absurd rfl (hc _)
  | ok w => cases c <;> first | rfl | exact absurd rfl (hc _)

theorem stores_raise {c : Call n} (hr : ∀ rf, D.kind = .ef → c ≠ .maxSharpe rf) {e : PyErr} (o : OState n) (h : Heap n) :
    Stores D c o (.error e, o, h) := by
  constructor
  · cases c with
    | setWeights w => cases w <;> rfl
    | _ => rfl
  · cases c with
    | maxSharpe rf =>
      show o.rf = (Event.rate D (.maxSharpe rf, .error e)).or o.rf
      unfold Event.rate
      cases hk : D.kind with
      | ef => exact absurd rfl (hr rf hk)
      | _ => rfl
    | _ => rfl

theorem Still.stores {x : M n Unit} (hx : Still x) {c : Call n} (hc : ∀ w, c ≠ .setWeights w)
    (hr : ∀ rf, c ≠ .maxSharpe rf) (e : run U S D c = (x >>= fun _ => Pure.pure none)) (o : OState n) (h : Heap n) :
    Stores D c o (run U S D c o h) := by
  rw [e, none_run]
  obtain ⟨k1, k2⟩ := hx o h
  rcases hq : x o h with ⟨r, o', h'⟩
  rw [hq] at k1 k2
  have e1 : ∀ r, Event.rate D (c, r) = none := fun r => by
    cases c <;> first | rfl | exact absurd rfl (hr _)
  refine ⟨?_, by rw [e1]; exact k2⟩
  show o'.weights = (Event.portfolio (c, r.map fun _ => none)).or o.weights
  rw [k1]
  cases r with
  | error e => cases c <;> first | rfl | exact absurd rfl (hc _)
  | ok w => cases c <;> first | rfl | exact absurd rfl (hc _)

/-- The end of `max_sharpe`: solve, then divide by `k`. -/
theorem gives_rescale (k : ℕ) : Gives (do let _ ← solve S; rescale k : M n (Fin n → ℝ)) := by
  intro o h
  rw [bind_run]
  have g := Gives.solve (S := S) o h
  have en := Ends.solve (S := S) o h
  rcases hq : solve S o h with ⟨r, o', h'⟩
  rw [hq] at g en
  cases r with
  | error e => exact g
  | ok w =>
    obtain ⟨l, P, s, v, -, -, hv, -⟩ := en w rfl
    have hv : h'.vals = some s := hv
    show (rescale k o' h').2.1.rf = o.rf ∧ (rescale k o' h').2.1.weights = match (rescale k o' h').1 with
      | .ok w => some w | .error _ => o.weights
    simp only [rescale, hv]
    exact ⟨g.1, trivial⟩

/-- `max_sharpe` after the check of the rate. -/
def sharpeTail (S : Solver n) (D : Data n) (mu : Fin n → ℝ) (rf : ℝ) : M n (Fin n → ℝ) := do
  let v ← varianceExpr D
  setObjective [] (fun e => (v e.asg : EReal))
  let k ← freshVar
  addAll
  let o ← get
  let new ← rebuildAll k o.cons
  let i₁ ← freshId
  let i₂ ← freshId
  let i₃ ← freshId
  let c₁ : Con n := ⟨i₁, .eq 1 (scalar (fun s => ∑ i, (mu i - rf) * s.w i)) (const (fun _ => 1)),
    fun _ => True⟩
  let c₂ : Con n := ⟨i₂, .eq 1 sumExpr (scalar (fun s => s.lib k 0)), fun _ => True⟩
  let c₃ : Con n := ⟨i₃, .ineq 1 (const (fun _ => 0)) (scalar (fun s => s.lib k 0)), fun _ => True⟩
  modify (fun o => { o with cons := [c₁, c₂, c₃] ++ new })
  let _ ← solve S
  rescale k

theorem gives_sharpeTail (mu : Fin n → ℝ) (rf : ℝ) : Gives (sharpeTail S D mu rf) :=
  .bind .varianceExpr fun _ => .bind (.setObjective _ _) fun _ => .bind .freshVar fun k => .bind .addAll fun _ =>
    .bind .get fun _ => .bind (.rebuildAll _ _) fun _ => .bind .freshId fun _ => .bind .freshId fun _ =>
    .bind .freshId fun _ => .bind (.modify fun _ => ⟨rfl, rfl⟩) fun _ => gives_rescale k

theorem maxSharpe_stores (hk : D.kind = .ef) (rf : ℝ) (o : OState n) (h : Heap n) :
    Stores D (.maxSharpe rf) o (run U S D (.maxSharpe rf) o h) := by
  have e : run U S D (.maxSharpe rf) = (maxSharpe S D rf >>= fun w => pure (some w)) := by simp only [run, hk]
  rw [e, some_run]
  cases hmu : D.mu with
  | none =>
    have : maxSharpe S D rf o h = (.error .typeError, o, h) := by unfold maxSharpe; rw [hmu]; rfl
    rw [this]
    exact ⟨rfl, by simp [Event.rate, hk, hmu]⟩
  | some mu =>
    by_cases hr : ∀ i, mu i ≤ rf
    · have : maxSharpe S D rf o h = (.error .valueError, o, h) := by
        unfold maxSharpe; rw [hmu]; dsimp only; rw [if_pos hr]; rfl
      rw [this]
      refine ⟨rfl, ?_⟩
      have hr' : ¬ ∃ i, rf < mu i := by push Not; exact hr
      simp [Event.rate, hk, hmu, hr']
    · have hr' : ∃ i, rf < mu i := by push Not at hr; exact hr
      obtain ⟨k1, k2⟩ := gives_sharpeTail (S := S) (D := D) mu rf { o with rf := some rf } h
      have e2 : maxSharpe S D rf o h = sharpeTail S D mu rf { o with rf := some rf } h := by
        unfold maxSharpe
        rw [hmu]
        dsimp only
        rw [if_neg hr, bind_ok (a := ()) (o' := { o with rf := some rf }) (h' := h) rfl]
        rfl
      rw [e2]
      refine ⟨?_, ?_⟩
      · refine k2.trans ?_
        cases (sharpeTail S D mu rf { o with rf := some rf } h).1 with
        | error e => rfl
        | ok w => rfl
      · refine k1.trans ?_
        simp [Event.rate, hk, hmu, hr']

theorem run_stores (c : Call n) (o : OState n) (h : Heap n) : Stores D c o (run U S D c o h) := by
  cases c with
  | addObjective r =>
    exact Still.stores (x := addObjective U r) (by
      refine .bind .get fun o => ?_
      dsimp only
      split
      · exact .bind (.raise _) fun _ => .bind (.lift _) fun _ => .modify fun _ => ⟨rfl, rfl⟩
      · exact .bind (.lift _) fun _ => .modify fun _ => ⟨rfl, rfl⟩) (by nofun) (by nofun) rfl o h
  | addConstraint b r =>
    exact Still.stores (x := addConstraint U b r) (by
      unfold addConstraint
      have : Still (do
          let o ← get
          if o.opt.isSome then raise .instantiation
          let i ← lift r
          modify (fun o => { o with cons := o.cons ++ [U.mkCon i] }) : M n Unit) := by
        refine .bind .get fun o => ?_
        dsimp only
        split
        · exact .bind (.raise _) fun _ => .bind (.lift _) fun _ => .modify fun _ => ⟨rfl, rfl⟩
        · exact .bind (.lift _) fun _ => .modify fun _ => ⟨rfl, rfl⟩
      split
      · exact .bind (.raise _) fun _ => this
      · exact this) (by nofun) (by nofun) rfl o h
  | addSectors s l u =>
    exact Still.stores (x := addSectorConstraints s l u)
      (.bind (.addSectors _ _ _) fun _ => .addSectors _ _ _) (by nofun) (by nofun) rfl o h
  | setPar i v => exact Still.stores (x := setUserPar U i v) (.setPars _ _) (by nofun) (by nofun) rfl o h
  | convex r b =>
    refine Gives.stores (x := convexObjective U S r b) ?_ (by nofun) (by nofun) rfl o h
    unfold convexObjective
    refine .bind (.lift _) fun i => .bind (.modify fun _ => ⟨rfl, rfl⟩) fun _ => .bind .addAll fun _ => ?_
    split
    · exact .bind (.addLib _ _) fun _ => .solve
    · exact .solve
  | nonconvex mi b =>
    have hrun : run U S D (.nonconvex mi b) o h = match mi o.lb o.ub b with
        | .error e => (.error e, o, h)
        | .ok x => (.ok (some x), { o with weights := some x }, h) := by
      show (nonconvexObjective mi b >>= fun w => pure (some w)) o h = _
      rw [some_run]
      unfold nonconvexObjective
      rw [bind_ok (a := o) (o' := o) (h' := h) rfl]
      cases hx : mi o.lb o.ub b with
      | error e => rw [bind_err (e := e) (o' := o) (h' := h) rfl]; rfl
      | ok x => rw [bind_ok (a := x) (o' := o) (h' := h) rfl]; rfl
    rw [hrun]
    cases mi o.lb o.ub b with
    | error e => exact stores_raise (by nofun) o h
    | ok x => exact ⟨rfl, rfl⟩
  | setWeights w =>
    have hrun : run U S D (.setWeights w) o h = if D.kind = .cvar ∨ D.kind = .cdar then (.error .notImplemented, o, h)
        else match w with
        | .error e => (.error e, o, h)
        | .ok x => (.ok none, { o with weights := some x }, h) := by
      show (setWeights D w >>= fun _ => pure none) o h = _
      rw [none_run]
      unfold setWeights
      by_cases hk : D.kind = .cvar ∨ D.kind = .cdar
      · rw [if_pos hk, if_pos hk]; rfl
      · rw [if_neg hk, if_neg hk]; cases w <;> rfl
    rw [hrun]
    split
    · exact stores_raise (by nofun) o h
    · cases w with
      | error e => exact stores_raise (by nofun) o h
      | ok x => exact ⟨rfl, rfl⟩
  | minVolatility =>
    cases hk : D.kind with
    | ef =>
      exact Gives.stores (x := minVolatility S D)
        (.bind .varianceExpr fun _ => .bind (.setObjective _ _) fun _ => .bind .addAll fun _ => .bind (.addLib _ _) fun _ =>
          .solve) (by nofun) (by nofun) (by simp only [run, hk]) o h
    | _ => simp only [run, hk]; exact stores_raise (by nofun) o h
  | maxSharpe rf =>
    cases hk : D.kind with
    | ef => exact maxSharpe_stores hk rf o h
    | _ => simp only [run, hk]; exact stores_raise (by rw [hk]; nofun) o h
  | maxUtility r mn =>
    cases hk : D.kind with
    | ef =>
      refine Gives.stores (x := maxUtility S D r mn) ?_ (by nofun) (by nofun) (by simp only [run, hk]) o h
      unfold maxUtility
      dsimp only
      split
      · exact .bind (.raise _) fun _ => .withParameter _ _ _ (by still)
      · exact .withParameter _ _ _ (by still)
    | semi =>
      refine Gives.stores (x := semiUtility S D r mn) ?_ (by nofun) (by nofun) (by simp only [run, hk]) o h
      unfold semiUtility
      dsimp only
      split
      · exact .bind (.raise _) fun _ => .withParameter _ _ _ (by still)
      · exact .withParameter _ _ _ (by still)
    | _ => simp only [run, hk]; exact stores_raise (by nofun) o h
  | efficientRisk t mn =>
    cases hk : D.kind with
    | ef =>
      refine Gives.stores (x := efficientRisk S D t mn) ?_ (by nofun) (by nofun) (by simp only [run, hk]) o h
      unfold efficientRisk
      dsimp only
      split
      · refine .bind (.raise _) fun _ => ?_
        split
        · exact .bind (.raise _) fun _ => .withParameter _ _ _ (by still)
        · exact .withParameter _ _ _ (by still)
      · split
        · exact .bind (.raise _) fun _ => .withParameter _ _ _ (by still)
        · exact .withParameter _ _ _ (by still)
    | cvar =>
      exact Gives.stores (x := cvarRisk S D t mn) (.withParameter _ _ _ (by still)) (by nofun) (by nofun)
        (by simp only [run, hk]) o h
    | cdar =>
      exact Gives.stores (x := cdarRisk S D t mn) (.withParameter _ _ _ (by still)) (by nofun) (by nofun)
        (by simp only [run, hk]) o h
    | semi =>
      exact Gives.stores (x := semiRisk S D t mn) (.withParameter _ _ _ (by still)) (by nofun) (by nofun)
        (by simp only [run, hk]) o h
  | efficientReturn f t mn =>
    cases hk : D.kind with
    | ef =>
      refine Gives.stores (x := efficientReturn S D f t mn) ?_ (by nofun) (by nofun) (by simp only [run, hk]) o h
      unfold efficientReturn
      dsimp only
      split
      · exact .bind (.raise _) fun _ => .bind (.checkMaxReturn _) fun _ => .withParameter _ _ _ (by still)
      · exact .bind (.checkMaxReturn _) fun _ => .withParameter _ _ _ (by still)
    | cvar =>
      exact Gives.stores (x := cvarReturn S D t mn) (.withParameter _ _ _ (by still)) (by nofun) (by nofun)
        (by simp only [run, hk]) o h
    | cdar =>
      exact Gives.stores (x := cdarReturn S D t mn) (.withParameter _ _ _ (by still)) (by nofun) (by nofun)
        (by simp only [run, hk]) o h
    | semi =>
      refine Gives.stores (x := semiReturn S D f t mn) ?_ (by nofun) (by nofun) (by simp only [run, hk]) o h
      unfold semiReturn
      have : Gives (match D.mu with
        | none => raise .typeError
        | some mu => do
          if ∀ i, |mu i| < t then raise .valueError
          withParameter S "target_return" mn t do
            let p ← freshVar
            let q ← freshVar
            setObjective [] (fun e => (sumSquares D q e.asg : EReal))
            addAll
            let a ← newPar "target_return" t false
            addLib (.ineq 1 (ofPar a) (scalar (fun s => s.w ⬝ᵥ mu)))
            semiCon D p q
            makeWeightSum mn : M n (Fin n → ℝ)) := by
        split
        · exact .raise _
        · dsimp only
          split
          · exact .bind (.raise _) fun _ => .withParameter _ _ _ (by still)
          · exact .withParameter _ _ _ (by still)
      dsimp only at this ⊢
      split
      · exact .bind (.raise _) fun _ => this
      · exact this
  | minCvar mn =>
    cases hk : D.kind with
    | cvar =>
      exact Gives.stores (x := minCvar S D mn) (.bind .cvarExpr fun _ => .bind (.setObjective _ _) fun _ => .bind .addAll
        fun _ => .bind .cvarCons fun _ => .bind (.makeWeightSum _) fun _ => .solve) (by nofun) (by nofun) (by simp only [run, hk]) o h
    | _ => simp only [run, hk]; exact stores_raise (by nofun) o h
  | minCdar mn =>
    cases hk : D.kind with
    | cdar =>
      exact Gives.stores (x := minCdar S D mn) (.bind (.buildCdar _) fun _ => .solve) (by nofun) (by nofun)
        (by simp only [run, hk]) o h
    | _ => simp only [run, hk]; exact stores_raise (by nofun) o h
  | minSemi mn =>
    cases hk : D.kind with
    | semi =>
      refine Gives.stores (x := minSemi S D mn) ?_ (by nofun) (by nofun) (by simp only [run, hk]) o h
      unfold minSemi
      exact .bind .freshVar fun _ => .bind .freshVar fun _ => .bind (.setObjective _ _) fun _ => .bind .addAll fun _ =>
        .bind (.semiCon _ _) fun _ => .bind (.makeWeightSum _) fun _ => .solve
    | _ => simp only [run, hk]; exact stores_raise (by nofun) o h

end Verif.Convex
