import Verif.Proof.ConvexCalls

/-! The invariant over histories of calls. -/

noncomputable section

namespace Verif.Convex
open Verif.Py Verif.Base Matrix

variable {n : ℕ} {U : Uni n} {S : Solver n} {D : Data n} {cfg : Cfg n} {o : OState n} {h : Heap n}

/-! ### What no method changes -/

/-- A stored problem is never replaced; with `m` the cached largest return is kept. -/
structure Rel (m : Bool) (o o' : OState n) : Prop where
  opt : ∀ p, o.opt = some p → o'.opt = some p
  maxRet : m = true → o'.maxRet = o.maxRet

theorem Rel.refl (m : Bool) (o : OState n) : Rel m o o := ⟨fun _ h => h, fun _ => rfl⟩

theorem Rel.trans {m : Bool} {o o' o'' : OState n} (a : Rel m o o') (b : Rel m o' o'') : Rel m o o'' :=
  ⟨fun p h => b.opt p (a.opt p h), fun h => (b.maxRet h).trans (a.maxRet h)⟩

def Keeps (m : Bool) {α : Type} (x : M n α) : Prop := ∀ o h, Rel m o (x o h).2.1

namespace Keeps
variable {m : Bool}

theorem pure {α : Type} (a : α) : Keeps m (pure a : M n α) := fun o _ => .refl m o
theorem raise {α : Type} (e : PyErr) : Keeps m (raise e : M n α) := fun o _ => .refl m o
theorem lift {α : Type} (r : Except PyErr α) : Keeps m (lift r : M n α) := fun o _ => .refl m o
theorem get : Keeps m (get : M n _) := fun o _ => .refl m o
theorem freshId : Keeps m (freshId : M n _) := fun o _ => .refl m o
theorem freshVar : Keeps m (freshVar : M n _) := fun o _ => .refl m o
theorem callNo : Keeps m (callNo : M n _) := fun o _ => .refl m o
theorem isDefined (nm : String) : Keeps m (isDefined nm : M n _) := fun o _ => .refl m o

theorem bind {α β : Type} {x : M n α} {f : α → M n β} (hx : Keeps m x) (hf : ∀ a, Keeps m (f a)) :
    Keeps m (x >>= f) := by
  intro o h
  have h1 := hx o h
  rw [bind_run]
  rcases hr : x o h with ⟨r, o', h'⟩
  rw [hr] at h1
  cases r with
  | error e => exact h1
  | ok a => exact h1.trans (hf a o' h')

theorem modify {f : OState n → OState n} (hf : ∀ o, Rel m o (f o)) : Keeps m (modify f) := fun o _ => hf o

theorem ite {α : Type} {c : Prop} [Decidable c] {x y : M n α} (hx : Keeps m x) (hy : Keeps m y) :
    Keeps m (if c then x else y) := by split <;> assumption

theorem newPar (nm : String) (v : ℝ) (nn : Bool) : Keeps m (newPar nm v nn : M n _) := by
  intro o h
  unfold Convex.newPar
  split <;> exact .refl m o

theorem setPars (v : ℝ) (l : List Par) : Keeps m (setPars v l : M n _) := by
  intro o h
  rw [(setPars_other v l o h).1]
  exact .refl m o

theorem rescale (k : ℕ) : Keeps m (rescale k : M n _) := by
  intro o h
  unfold Convex.rescale
  split
  · exact .refl m o
  · exact ⟨fun _ h => h, fun _ => rfl⟩

theorem callSolver (p : Opt n) : Keeps m (callSolver S p) := by
  intro o h
  obtain ⟨w, vals, e, -, -⟩ := callSolver_run (S := S) p o h
  rw [e]
  exact ⟨fun _ h => h, fun _ => rfl⟩

open Classical in
/-- Solving stores a problem only if there is none. -/
theorem solve : Keeps m (solve S) := by
  intro o h
  unfold Convex.solve
  rw [bind_ok (a := o) (o' := o) (h' := h) rfl]
  cases ho : o.opt with
  | none =>
    have new : ∀ q : Opt n, Rel m o { o with opt := some q } := fun q =>
      ⟨fun p hp => (by rw [ho] at hp; cases hp), fun _ => rfl⟩
    cases hob : o.objective with
    | none => exact .refl m o
    | some ob =>
      dsimp only
      by_cases hc : ¬ ob.body.scalar = true ∨ ¬ usable o.cons
      · rw [if_pos hc]; exact .refl m o
      · rw [if_neg hc]
        cases idsOf o.cons with
        | error e => exact new _
        | ok ids => exact (new _).trans (callSolver _ _ _)
  | some p =>
    cases hob : o.objective with
    | none => exact .refl m o
    | some ob =>
      dsimp only
      by_cases hc : ob.id ≠ p.initObj
      · rw [if_pos hc]; exact .refl m o
      · rw [if_neg hc]
        refine bind (lift _) (fun ids => ?_) o h
        cases p.initCons with
        | none => exact raise _
        | some ini => exact ite (raise _) (callSolver _)

theorem addEach (l : List (Obj n)) : Keeps m (addEach l) := by
  induction l with
  | nil => exact pure _
  | cons b l ih =>
    unfold Convex.addEach
    refine bind get fun o => ?_
    split
    · exact raise _
    · exact bind freshId fun _ => bind (modify fun o => ⟨fun _ h => h, fun _ => rfl⟩) fun _ => ih

theorem addAll : Keeps m (addAll : M n _) := bind get fun _ => addEach _

theorem setObjective (ps : List Par) (f : Env n → EReal) : Keeps m (setObjective ps f) :=
  bind freshId fun _ => modify fun _ => ⟨fun _ h => h, fun _ => rfl⟩

theorem addLib (b : ConBody Par (Env n)) (d : Env n → Prop) : Keeps m (addLib b d) := by
  refine bind get fun o => ?_
  dsimp only
  split
  · exact bind (raise _) fun _ => bind freshId fun _ => modify fun _ => ⟨fun _ h => h, fun _ => rfl⟩
  · exact bind freshId fun _ => modify fun _ => ⟨fun _ h => h, fun _ => rfl⟩

theorem addSectors (sec : Fin n → Option String) (up : Bool) (l : List (Option String × ℝ)) :
    Keeps m (addSectors sec up l) := by
  induction l with
  | nil => exact pure _
  | cons b l ih => exact bind (addLib _ _) fun _ => ih

theorem mapBounds (lb ub : Fin n → EReal) : Keeps m (mapBounds lb ub) :=
  bind (modify fun _ => ⟨fun _ h => h, fun _ => rfl⟩) fun _ => bind (addLib _ _) fun _ => addLib _ _

theorem amendBounds : Keeps m (amendBounds : M n _) :=
  bind get fun _ => ite (bind (mapBounds _ _) fun _ => modify fun _ => ⟨fun _ h => h, fun _ => rfl⟩) (pure _)

theorem makeWeightSum (mn : Bool) : Keeps m (makeWeightSum mn : M n _) := by
  refine bind ?_ fun _ => modify fun _ => ⟨fun _ h => h, fun _ => rfl⟩
  unfold sumConstraint
  exact ite (bind amendBounds fun _ => addLib _ _) (addLib _ _)

theorem rebuildAll (k : ℕ) (l : List (Con n)) : Keeps m (rebuildAll k l) := by
  induction l with
  | nil => exact pure _
  | cons c l ih => exact bind (lift _) fun _ => bind freshId fun _ => bind ih fun _ => pure _

theorem varianceExpr : Keeps m (varianceExpr D) := ite (pure _) (raise _)

theorem returnExpr (b : Bool) : Keeps m (returnExpr D b) := by
  unfold Convex.returnExpr; split
  · exact raise _
  · exact pure _

theorem muTimesW : Keeps m (muTimesW D) := by
  unfold Convex.muTimesW; split
  · exact raise _
  · exact pure _

theorem tailCoef : Keeps m (tailCoef D) := ite (raise _) (pure _)

theorem cvarExpr : Keeps m (cvarExpr D) := bind tailCoef fun _ => pure _

theorem cdarExpr : Keeps m (cdarExpr D) := bind tailCoef fun _ => pure _

theorem cvarCons : Keeps m (cvarCons D) := bind (addLib _ _) fun _ => addLib _ _

theorem cdarCons : Keeps m (cdarCons D) :=
  bind (addLib _ _) fun _ => bind (addLib _ _) fun _ => bind (addLib _ _) fun _ => bind (addLib _ _) fun _ =>
    addLib _ _

theorem semiCon (p q : ℕ) : Keeps m (semiCon D p q) := addLib _ _

theorem validateNeutral (mn : Bool) : Keeps m (validateNeutral mn : M n _) := by
  refine bind get fun o => ?_
  exact ite (raise _) (pure _)

theorem updatePar (nm : String) (v : ℝ) : Keeps m (updatePar nm v : M n _) := by
  refine bind (isDefined _) fun b => ?_
  dsimp only
  split
  · exact bind (raise _) fun _ => bind get fun _ => setPars _ _
  · exact bind get fun _ => setPars _ _

theorem withParameter (nm : String) (mn : Bool) (v : ℝ) {build : M n Unit} (hb : Keeps m build) :
    Keeps m (withParameter S nm mn v build) := by
  refine bind (isDefined _) fun b => ?_
  dsimp only
  split
  · exact bind (validateNeutral _) fun _ => bind (updatePar _ _) fun _ => solve
  · exact bind hb fun _ => solve

end Keeps

/-- Splits a method into its steps. -/
macro "keeps" : tactic => `(tactic| repeat' (first
  | with_reducible apply Keeps.bind | with_reducible apply Keeps.ite
  | with_reducible exact Keeps.pure _ | with_reducible exact Keeps.raise _ | with_reducible exact Keeps.lift _
  | with_reducible exact Keeps.get | with_reducible exact Keeps.freshVar
  | with_reducible exact Keeps.freshId
  | with_reducible exact Keeps.newPar _ _ _ | with_reducible exact Keeps.setPars _ _
  | with_reducible exact Keeps.rescale _ | with_reducible exact Keeps.solve
  | with_reducible exact Keeps.addAll | with_reducible exact Keeps.setObjective _ _
  | with_reducible exact Keeps.addLib _ _ | with_reducible exact Keeps.addSectors _ _ _
  | with_reducible exact Keeps.makeWeightSum _ | with_reducible exact Keeps.rebuildAll _ _
  | with_reducible exact Keeps.varianceExpr | with_reducible exact Keeps.returnExpr _
  | with_reducible exact Keeps.muTimesW | with_reducible exact Keeps.cvarExpr | with_reducible exact Keeps.cdarExpr
  | with_reducible exact Keeps.cvarCons | with_reducible exact Keeps.cdarCons
  | with_reducible exact Keeps.semiCon _ _
  | (with_reducible apply Keeps.modify; exact fun _ => ⟨fun _ h => h, fun _ => rfl⟩)
  | with_reducible apply Keeps.withParameter | split | intro _))

section
variable {m : Bool}

theorem Keeps.addObjective (r : Except PyErr ℕ) : Keeps m (addObjective U r) := by
  unfold Convex.addObjective; keeps

theorem Keeps.addConstraint (b : Bool) (r : Except PyErr ℕ) : Keeps m (addConstraint U b r) := by
  unfold Convex.addConstraint; keeps

theorem Keeps.convexObjective (r : Except PyErr ℕ) (b : Bool) : Keeps m (convexObjective U S r b) := by
  unfold Convex.convexObjective; keeps

theorem Keeps.setWeights (w : Except PyErr (Fin n → ℝ)) : Keeps m (setWeights D w) := by
  unfold Convex.setWeights; keeps

theorem Keeps.minVolatility : Keeps m (minVolatility S D) := by unfold Convex.minVolatility; keeps

theorem Keeps.maxSharpe (rf : ℝ) : Keeps m (maxSharpe S D rf) := by unfold Convex.maxSharpe; keeps

theorem Keeps.maxUtility (r : ℝ) (mn : Bool) : Keeps m (maxUtility S D r mn) := by
  unfold Convex.maxUtility; keeps

theorem Keeps.efficientRisk (r : ℝ) (mn : Bool) : Keeps m (efficientRisk S D r mn) := by
  unfold Convex.efficientRisk; keeps

theorem Keeps.minCvar (mn : Bool) : Keeps m (minCvar S D mn) := by unfold Convex.minCvar; keeps

theorem Keeps.cvarReturn (r : ℝ) (mn : Bool) : Keeps m (cvarReturn S D r mn) := by
  unfold Convex.cvarReturn; keeps

theorem Keeps.cvarRisk (r : ℝ) (mn : Bool) : Keeps m (cvarRisk S D r mn) := by unfold Convex.cvarRisk; keeps

theorem Keeps.buildCdar (mn : Bool) : Keeps m (buildCdar D mn) := by unfold Convex.buildCdar; keeps

theorem Keeps.minCdar (mn : Bool) : Keeps m (minCdar S D mn) := .bind (.buildCdar mn) fun _ => .solve

theorem Keeps.cdarReturn (r : ℝ) (mn : Bool) : Keeps m (cdarReturn S D r mn) :=
  .withParameter _ _ _ (.bind .muTimesW fun _ => .bind (.newPar _ _ _) fun _ => .bind (.addLib _ _) fun _ =>
    .buildCdar mn)

theorem Keeps.cdarRisk (r : ℝ) (mn : Bool) : Keeps m (cdarRisk S D r mn) := by unfold Convex.cdarRisk; keeps

theorem Keeps.minSemi (mn : Bool) : Keeps m (minSemi S D mn) := by unfold Convex.minSemi; keeps

theorem Keeps.semiUtility (r : ℝ) (mn : Bool) : Keeps m (semiUtility S D r mn) := by
  unfold Convex.semiUtility; keeps

theorem Keeps.semiRisk (r : ℝ) (mn : Bool) : Keeps m (semiRisk S D r mn) := by unfold Convex.semiRisk; keeps

theorem Keeps.semiReturn (f : Bool) (r : ℝ) (mn : Bool) : Keeps m (semiReturn S D f r mn) := by
  unfold Convex.semiReturn; keeps

theorem Keeps.ofCopy : Keeps m (maxReturnOfCopy S D) := fun o _ => .refl m o

theorem Keeps.checkMax (t : ℝ) : Keeps false (checkMaxReturn S D t) := by
  unfold checkMaxReturn
  refine .bind .get fun o => .bind ?_ fun _ => .bind (.modify fun _ => ⟨fun _ h => h, nofun⟩) fun _ =>
    .ite (.raise _) (.pure _)
  split
  · exact .ite .ofCopy (.pure _)
  · exact .ofCopy

/-- `efficient_return` after the check of the largest return. -/
theorem keeps_efTarget (t : ℝ) (mn : Bool) : Keeps m (withParameter S "target_return" mn t (do
    let v ← varianceExpr D
    setObjective [] (fun e => (v e.asg : EReal))
    let r ← returnExpr D false
    addAll
    let p ← newPar "target_return" t false
    addLib (.ineq 1 (ofPar p) (scalar r))
    makeWeightSum mn)) := by
  keeps

theorem Keeps.efficientReturn (f : Bool) (t : ℝ) (mn : Bool) : Keeps false (efficientReturn S D f t mn) := by
  unfold Convex.efficientReturn
  dsimp only
  split
  · exact .bind (.raise _) fun _ => .bind (.checkMax _) fun _ => keeps_efTarget _ _
  · exact .bind (.checkMax _) fun _ => keeps_efTarget _ _

end

theorem keeps_run (c : Call n) (m : Bool)
    (hc : (∀ f t mn, D.kind = .ef → c ≠ .efficientReturn f t mn) ∨ m = false) : Keeps m (run U S D c) := by
  cases c with
  | efficientReturn f t mn =>
    unfold run
    cases hk : D.kind with
    | ef =>
      rcases hc with hc | rfl
      · exact absurd rfl (hc f t mn hk)
      · exact .bind (.efficientReturn _ _ _) fun _ => .pure _
    | cvar => exact .bind (.cvarReturn _ _) fun _ => .pure _
    | cdar => exact .bind (.cdarReturn _ _) fun _ => .pure _
    | semi => exact .bind (.semiReturn _ _ _) fun _ => .pure _
  | addObjective r => exact .bind (.addObjective _) fun _ => .pure _
  | addConstraint b r => exact .bind (.addConstraint _ _) fun _ => .pure _
  | addSectors s l u =>
    exact .bind (.bind (.addSectors _ _ _) fun _ => .addSectors _ _ _) fun _ => .pure _
  | convex r b => exact .bind (.convexObjective _ _) fun _ => .pure _
  | nonconvex mi b =>
    exact .bind (.bind .get fun _ => .bind (.lift _) fun _ => .bind
      (.modify fun _ => ⟨fun _ h => h, fun _ => rfl⟩) fun _ => .pure _) fun _ => .pure _
  | setWeights w => exact .bind (.setWeights _) fun _ => .pure _
  | setPar i v => exact .bind (.setPars _ _) fun _ => .pure _
  | minVolatility =>
    unfold run
    cases D.kind with
    | ef => exact .bind .minVolatility fun _ => .pure _
    | _ => exact .raise _
  | maxSharpe rf =>
    unfold run
    cases D.kind with
    | ef => exact .bind (.maxSharpe _) fun _ => .pure _
    | _ => exact .raise _
  | maxUtility r mn =>
    unfold run
    cases D.kind with
    | ef => exact .bind (.maxUtility _ _) fun _ => .pure _
    | semi => exact .bind (.semiUtility _ _) fun _ => .pure _
    | _ => exact .raise _
  | efficientRisk t mn =>
    unfold run
    cases D.kind with
    | ef => exact .bind (.efficientRisk _ _) fun _ => .pure _
    | cvar => exact .bind (.cvarRisk _ _) fun _ => .pure _
    | cdar => exact .bind (.cdarRisk _ _) fun _ => .pure _
    | semi => exact .bind (.semiRisk _ _) fun _ => .pure _
  | minCvar mn =>
    unfold run
    cases D.kind with
    | cvar => exact .bind (.minCvar _) fun _ => .pure _
    | _ => exact .raise _
  | minCdar mn =>
    unfold run
    cases D.kind with
    | cdar => exact .bind (.minCdar _) fun _ => .pure _
    | _ => exact .raise _
  | minSemi mn =>
    unfold run
    cases D.kind with
    | semi => exact .bind (.minSemi _) fun _ => .pure _
    | _ => exact .raise _

/-! ### One call -/

/-- What is proved of one call. -/
structure CPost (U : Uni n) (S : Solver n) (D : Data n) (cfg : Cfg n) (c : Call n) (o : OState n) (h : Heap n)
    (r : Except PyErr (Option (Fin n → ℝ)) × OState n × Heap n) : Prop where
  good : Good U D (cfg.after (isOk r.1) c) r.2.1 r.2.2
  mono : h.nextId ≤ r.2.2.nextId
  max : MaxOk U S D (cfg.after (isOk r.1) c) r.2.1
  res : ∃ pre, Pre U D cfg h.upar c pre ∧
    ((r.2.2.log = h.log ++ pre ∧ ∀ w, r.1 = .ok (some w) → ∃ m b, c = .nonconvex m b) ∨
      ∃ P f, Documented U D cfg h.upar o.opt.isSome c P f ∧
        r.1 = (outcomeF f (S (h.log ++ pre).length P)).map some ∧ r.2.2.log = h.log ++ pre ++ [P])

theorem some_run (x : M n (Fin n → ℝ)) (o : OState n) (h : Heap n) :
    (x >>= fun w => pure (some w)) o h = ((x o h).1.map some, (x o h).2.1, (x o h).2.2) := by
  rw [bind_run]
  rcases x o h with ⟨r, o', h'⟩
  cases r <;> rfl

theorem none_run (x : M n Unit) (o : OState n) (h : Heap n) :
    (x >>= fun _ => pure (none : Option (Fin n → ℝ))) o h =
      ((x o h).1.map (fun _ => none), (x o h).2.1, (x o h).2.2) := by
  rw [bind_run]
  rcases x o h with ⟨r, o', h'⟩
  cases r <;> rfl

theorem RPost.cpost {c : Call n} {r : Except PyErr (Fin n → ℝ) × OState n × Heap n}
    (p : RPost U S D cfg c o.opt.isSome h r) (hc : ∀ b, cfg.after b c = cfg) (hm : MaxOk U S D cfg r.2.1) :
    CPost U S D cfg c o h (r.1.map some, r.2.1, r.2.2) := by
  refine ⟨?_, p.mono, ?_, ?_⟩
  · rw [hc]; exact p.good
  · rw [hc]; exact hm
  · obtain ⟨pre, h1, ⟨e, h2, h3⟩ | ⟨P, f, h2, h3, h4⟩⟩ := p.res
    · exact ⟨pre, h1, .inl ⟨h3, fun w hw => by rw [h2] at hw; cases hw⟩⟩
    · exact ⟨pre, h1, .inr ⟨P, f, h2, by rw [h3], h4⟩⟩

theorem MaxOk.keep {o' : OState n} (hm : MaxOk U S D cfg o) (k : Rel true o o') : MaxOk U S D cfg o' := by
  intro m e
  rw [k.maxRet rfl] at e
  exact hm m e

theorem MaxOk.grow {cfg' : Cfg n} {o' : OState n} (hm : MaxOk U S D cfg o) (k : o'.maxRet = o.maxRet)
    (hl : cfg'.lb = cfg.lb) (hu : cfg'.ub = cfg.ub) (hc : cfg.cons <+: cfg'.cons) : MaxOk U S D cfg' o' := by
  intro m e
  rw [k] at e
  obtain ⟨mu, j, upar, cons, s, v, h1, h2, h3, h4⟩ := hm m e
  refine ⟨mu, j, upar, cons, s, v, h1, h2.trans hc, ?_, h4⟩
  have : maxProb U { cfg' with cons := cons } upar mu = maxProb U { cfg with cons := cons } upar mu := by
    unfold maxProb doc Within
    simp only [hl, hu]
  rw [this]; exact h3

theorem efficientReturn_max (hU : Usable U D) (g : Good U D cfg o h) (hm : MaxOk U S D cfg o) (f : Bool) (t : ℝ)
    (mn : Bool) : MaxOk U S D cfg (efficientReturn S D f t mn o h).2.1 := by
  unfold efficientReturn
  by_cases hf : (!f) = true
  · rw [if_pos hf]; exact hm
  simp only [if_neg hf, pure_bind]
  obtain ⟨r, o', h', pre, e, h1, h2, h3, h4, h5, h6, -, -⟩ := checkMax_post hU g hm t
  cases r with
  | error e' => rw [bind_err e]; exact h6
  | ok u => rw [bind_ok e]; exact h6.keep (keeps_efTarget t mn o' h')

/-- A call that raises and changes nothing. -/
theorem refused_post (g : Good U D cfg o h) (hm : MaxOk U S D cfg o) (c : Call n) (e : PyErr)
    (hc : cfg.after false c = cfg) : CPost U S D cfg c o h (.error e, o, h) :=
  ⟨by rw [show isOk (Except.error e : Except PyErr (Option (Fin n → ℝ))) = false from rfl, hc]; exact g, le_rfl,
    by rw [show isOk (Except.error e : Except PyErr (Option (Fin n → ℝ))) = false from rfl, hc]; exact hm,
    [], .inl rfl, .inl ⟨(List.append_nil _).symm, nofun⟩⟩

theorem after_false (cfg : Cfg n) (c : Call n) : cfg.after false c = cfg := by
  cases c with
  | addObjective r => cases r <;> rfl
  | addConstraint b r => cases r <;> rfl
  | _ => rfl

theorem addObjective_post (g : Good U D cfg o h) (hm : MaxOk U S D cfg o) (r : Except PyErr ℕ) :
    CPost U S D cfg (.addObjective r) o h (run U S D (.addObjective r) o h) := by
  rcases g with ⟨b, hob⟩ | ⟨p, s⟩
  · cases r with
    | error e =>
      have : run U S D (.addObjective (.error e)) o h = (.error e, o, h) := by
        show (addObjective U (.error e) >>= fun _ => pure none) o h = _
        rw [none_run]
        unfold addObjective
        rw [bind_ok (a := o) (o' := o) (h' := h) rfl, if_neg (by rw [b.opt]; exact Bool.false_ne_true)]
        rfl
      rw [this]
      exact refused_post (.inl ⟨b, hob⟩) hm _ e rfl
    | ok i =>
      have : run U S D (.addObjective (.ok i)) o h = (.ok none, { o with added := o.added ++ [U.mkObj i] }, h) := by
        show (addObjective U (.ok i) >>= fun _ => pure none) o h = _
        rw [none_run]
        unfold addObjective
        rw [bind_ok (a := o) (o' := o) (h' := h) rfl, if_neg (by rw [b.opt]; exact Bool.false_ne_true)]
        rfl
      rw [this]
      refine ⟨.inl ⟨⟨b.opt, b.lb, b.ub, ?_, b.cons, b.ids⟩, hob⟩, le_rfl,
        hm.grow rfl rfl rfl (List.prefix_refl _), [], .inl rfl, .inl ⟨(List.append_nil _).symm, nofun⟩⟩
      show o.added ++ [U.mkObj i] = (cfg.objs ++ [i]).map U.mkObj
      rw [b.added, List.map_append]
      rfl
  · have : run U S D (.addObjective r) o h = (.error .instantiation, o, h) := by
      show (addObjective U r >>= fun _ => pure none) o h = _
      rw [none_run]
      unfold addObjective
      rw [bind_ok (a := o) (o' := o) (h' := h) rfl, s.opt]
      rfl
    rw [this]
    exact refused_post (.inr ⟨p, s⟩) hm _ _ (after_false _ _)

theorem addConstraint_post (g : Good U D cfg o h) (hm : MaxOk U S D cfg o) (cl : Bool) (r : Except PyErr ℕ) :
    CPost U S D cfg (.addConstraint cl r) o h (run U S D (.addConstraint cl r) o h) := by
  cases cl with
  | false =>
    have : run U S D (.addConstraint false r) o h = (.error .typeError, o, h) := by
      show (addConstraint U false r >>= fun _ => pure none) o h = _
      rw [none_run]; rfl
    rw [this]
    exact refused_post g hm _ _ (after_false _ _)
  | true =>
  rcases g with ⟨b, hob⟩ | ⟨p, s⟩
  · cases r with
    | error e =>
      have : run U S D (.addConstraint true (.error e)) o h = (.error e, o, h) := by
        show (addConstraint U true (.error e) >>= fun _ => pure none) o h = _
        rw [none_run]
        have : addConstraint U true (.error e) o h = _ := bind_ok (a := o) (o' := o) (h' := h) rfl
        rw [this, if_neg (by rw [b.opt]; exact Bool.false_ne_true)]
        rfl
      rw [this]
      exact refused_post (.inl ⟨b, hob⟩) hm _ e rfl
    | ok i =>
      have : run U S D (.addConstraint true (.ok i)) o h =
          (.ok none, { o with cons := o.cons ++ [U.mkCon i] }, h) := by
        show (addConstraint U true (.ok i) >>= fun _ => pure none) o h = _
        rw [none_run]
        have : addConstraint U true (.ok i) o h = _ := bind_ok (a := o) (o' := o) (h' := h) rfl
        rw [this, if_neg (by rw [b.opt]; exact Bool.false_ne_true)]
        rfl
      rw [this]
      refine ⟨.inl ⟨⟨b.opt, b.lb, b.ub, b.added, ?_, ?_⟩, hob⟩, le_rfl,
        hm.grow rfl rfl rfl (List.prefix_append _ _), [], .inl rfl, .inl ⟨(List.append_nil _).symm, nofun⟩⟩
      · obtain ⟨b₁, b₂, us, es, c1, c2, c3, c4, c5⟩ := b.cons
        cases c5
        refine ⟨b₁, b₂, us ++ [U.mkCon i], [], ?_, c2, c3, List.rel_append c4 (.cons rfl .nil), .nil⟩
        simp [c1]
      · intro c hc
        rcases List.mem_append.1 hc with hc | hc
        · exact b.ids c hc
        · rw [List.mem_singleton.1 hc]; trivial
  · have : run U S D (.addConstraint true r) o h = (.error .instantiation, o, h) := by
      show (addConstraint U true r >>= fun _ => pure none) o h = _
      rw [none_run]
      have : addConstraint U true r o h = _ := bind_ok (a := o) (o' := o) (h' := h) rfl
      rw [this, s.opt]
      rfl
    rw [this]
    exact refused_post (.inr ⟨p, s⟩) hm _ _ (after_false _ _)

/-- Adding sector constraints before the first solve. -/
theorem addSectors_clean (sec : Fin n → Option String) (up : Bool) (l : List (Option String × ℝ))
    (b : Base U cfg o h []) :
    ∃ o' i, addSectors sec up l o h = (.ok (), o', { h with nextId := i }) ∧ h.nextId ≤ i ∧
      Base U { cfg with cons := cfg.cons ++ l.map (fun p => .sector sec p.1 up p.2) } o' { h with nextId := i } [] ∧
      o'.objective = o.objective ∧ o'.maxRet = o.maxRet := by
  induction l generalizing o h cfg with
  | nil => exact ⟨o, h.nextId, rfl, le_rfl, by simpa using b, rfl, rfl⟩
  | cons x l ih =>
    let o₁ : OState n := { o with cons := o.cons ++ [⟨.lib h.nextId, sectorBody sec x.1 up x.2, fun _ => True⟩] }
    have r : addLib (sectorBody sec x.1 up x.2) (fun _ => True) o h =
        (.ok (), o₁, { h with nextId := h.nextId + 1 }) := addLib_run _ _ o h b.opt
    have b₁ : Base U { cfg with cons := cfg.cons ++ [.sector sec x.1 up x.2] } o₁ { h with nextId := h.nextId + 1 }
        [] := by
      refine ⟨b.opt, b.lb, b.ub, b.added, ?_, ?_⟩
      · obtain ⟨b₁, b₂, us, es, c1, c2, c3, c4, c5⟩ := b.cons
        cases c5
        refine ⟨b₁, b₂, us ++ [⟨.lib h.nextId, sectorBody sec x.1 up x.2, fun _ => True⟩], [], ?_, c2, c3,
          List.rel_append c4 (.cons ⟨_, rfl⟩ .nil), .nil⟩
        simp [o₁, c1]
      · intro c hc
        rcases List.mem_append.1 hc with hc | hc
        · exact (b.ids c hc).mono (Nat.le_succ _)
        · rw [List.mem_singleton.1 hc]; exact Nat.lt_succ_self _
    obtain ⟨o', i, h1, h2, h3, h4, h5⟩ := ih b₁
    refine ⟨o', i, (bind_ok r).trans h1, (Nat.le_succ _).trans h2, ?_, h4, h5⟩
    simpa using h3

theorem addSectors_solved (sec : Fin n → Option String) (up : Bool) (l : List (Option String × ℝ)) {p : Opt n}
    (ho : o.opt = some p) :
    addSectors sec up l o h = (if l = [] then .ok () else .error .instantiation, o, h) := by
  cases l with
  | nil => rfl
  | cons x l => exact bind_err (addLib_solved (sectorBody sec x.1 up x.2) _ o h ho)

theorem addSectorConstraints_post (g : Good U D cfg o h) (hm : MaxOk U S D cfg o) (sec : Fin n → Option String)
    (lo up : List (Option String × ℝ)) :
    CPost U S D cfg (.addSectors sec lo up) o h (run U S D (.addSectors sec lo up) o h) := by
  have hrun : run U S D (.addSectors sec lo up) o h =
    (((addSectorConstraints sec lo up) o h).1.map (fun _ => none), ((addSectorConstraints sec lo up) o h).2.1,
      ((addSectorConstraints sec lo up) o h).2.2) := none_run _ _ _
  rcases g with ⟨b, hob⟩ | ⟨p, s⟩
  · obtain ⟨o₁, i₁, e1, k1, b₁, j1, l1⟩ := addSectors_clean sec true up b
    obtain ⟨o₂, i₂, e2, k2, b₂, j2, l2⟩ := addSectors_clean sec false lo b₁
    have e : addSectorConstraints sec lo up o h = (.ok (), o₂, { h with nextId := i₂ }) := (bind_ok e1).trans e2
    rw [hrun, e]
    refine ⟨.inl ⟨b₂, ?_⟩, k1.trans k2, hm.grow (l2.trans l1) rfl rfl ?_, [], .inl rfl,
      .inl ⟨(List.append_nil _).symm, nofun⟩⟩
    · intro ob hx
      exact hob ob (by rw [← j1, ← j2]; exact hx)
    · show cfg.cons <+: cfg.cons ++ _ ++ _
      rw [List.append_assoc]
      exact List.prefix_append _ _
  · have e : addSectorConstraints sec lo up o h =
        (if up = [] ∧ lo = [] then .ok () else .error .instantiation, o, h) := by
      unfold addSectorConstraints
      by_cases h1 : up = []
      · rw [bind_ok (a := ()) (o' := o) (h' := h) (by rw [addSectors_solved _ _ _ s.opt, if_pos h1]),
          addSectors_solved _ _ _ s.opt]
        simp [h1]
      · rw [bind_err (e := .instantiation) (o' := o) (h' := h)
          (by rw [addSectors_solved _ _ _ s.opt, if_neg h1])]
        simp [h1]
    rw [hrun, e]
    by_cases h1 : up = [] ∧ lo = []
    · rw [if_pos h1]
      obtain ⟨rfl, rfl⟩ := h1
      have hc : cfg.after true (.addSectors sec [] []) = cfg := by
        show ({ cfg with cons := cfg.cons ++ [] ++ [] } : Cfg n) = cfg
        simp
      refine ⟨?_, le_rfl, ?_, [], .inl rfl, .inl ⟨(List.append_nil _).symm, nofun⟩⟩
      · show Good U D (cfg.after true _) o h
        rw [hc]; exact .inr ⟨p, s⟩
      · show MaxOk U S D (cfg.after true _) o
        rw [hc]; exact hm
    · rw [if_neg h1]
      exact refused_post (.inr ⟨p, s⟩) hm _ _ rfl

theorem Good.heap (g : Good U D cfg o h) {h' : Heap n} (hh : h'.nextId = h.nextId) : Good U D cfg o h' :=
  g.mono hh.ge

theorem run_post (hU : Usable U D) (g : Good U D cfg o h) (hm : MaxOk U S D cfg o) (c : Call n) :
    CPost U S D cfg c o h (run U S D c o h) := by
  have keep : (∀ f t mn, D.kind = .ef → c ≠ .efficientReturn f t mn) → MaxOk U S D cfg (run U S D c o h).2.1 :=
    fun hc => hm.keep (keeps_run c true (.inl hc) o h)
  have err : ∀ e, cfg.after false c = cfg → CPost U S D cfg c o h (.error e, o, h) :=
    fun e he => refused_post g hm c e he
  have fin : ∀ (x : M n (Fin n → ℝ)), (∀ f t mn, D.kind = .ef → c ≠ .efficientReturn f t mn) →
      run U S D c = (x >>= fun w => pure (some w)) → (∀ b, cfg.after b c = cfg) →
      RPost U S D cfg c o.opt.isSome h (x o h) → CPost U S D cfg c o h (run U S D c o h) := by
    intro x hc hx ha hp
    have k := keep hc
    rw [hx, some_run] at k ⊢
    exact hp.cpost ha k
  cases c with
  | addObjective r => exact addObjective_post g hm r
  | addConstraint b r => exact addConstraint_post g hm b r
  | addSectors s l u => exact addSectorConstraints_post g hm s l u
  | convex r b => exact fin _ nofun rfl (fun _ => rfl) (convexObjective_post hU g r b)
  | nonconvex mi b =>
    have hrun : run U S D (.nonconvex mi b) o h = match mi o.lb o.ub b with
        | .error e => (.error e, o, h)
        | .ok x => (.ok (some x), { o with weights := some x }, h) := by
      show (nonconvexObjective mi b >>= fun w => pure (some w)) o h = _
      rw [some_run]
      unfold nonconvexObjective
      rw [bind_ok (a := o) (o' := o) (h' := h) rfl]
      cases hx : mi o.lb o.ub b with
      | error e => rw [bind_err (e := e) (o' := o) (h' := h) rfl]; rfl
      | ok x => rw [bind_ok (a := x) (o' := o) (h' := h) rfl]; rfl
    rw [hrun]
    cases mi o.lb o.ub b with
    | error e => exact err e rfl
    | ok x => exact ⟨g.weights _, le_rfl, hm, [], .inl rfl, .inl ⟨(List.append_nil _).symm, fun _ _ => ⟨mi, b, rfl⟩⟩⟩
  | setWeights w =>
    have hrun : run U S D (.setWeights w) o h = if D.kind = .cvar ∨ D.kind = .cdar then (.error .notImplemented, o, h)
        else match w with
        | .error e => (.error e, o, h)
        | .ok x => (.ok none, { o with weights := some x }, h) := by
      show (setWeights D w >>= fun _ => pure none) o h = _
      rw [none_run]
      unfold setWeights
      by_cases hk : D.kind = .cvar ∨ D.kind = .cdar
      · rw [if_pos hk, if_pos hk]; rfl
      · rw [if_neg hk, if_neg hk]; cases w <;> rfl
    rw [hrun]
    split
    · exact err _ rfl
    · cases w with
      | error e => exact err e rfl
      | ok x => exact ⟨g.weights _, le_rfl, hm, [], .inl rfl, .inl ⟨(List.append_nil _).symm, nofun⟩⟩
  | setPar i v =>
    have hrun : run U S D (.setPar i v) o h = if (U.par i).2 = true ∧ v < 0 then (.error .valueError, o, h)
        else (.ok none, o, { h with upar := Function.update h.upar i v }) := by
      show (setUserPar U i v >>= fun _ => pure none) o h = _
      rw [none_run]
      unfold setUserPar setPars
      by_cases hv : (U.toPar i).nonneg = true ∧ v < 0
      · rw [if_pos hv, if_pos (show (U.par i).2 = true ∧ v < 0 from hv)]; rfl
      · rw [if_neg hv, if_neg (show ¬ ((U.par i).2 = true ∧ v < 0) from hv)]; rfl
    rw [hrun]
    split
    · exact err _ rfl
    · exact ⟨g.heap rfl, le_rfl, hm, [], .inl rfl, .inl ⟨(List.append_nil _).symm, nofun⟩⟩
  | minVolatility =>
    cases hk : D.kind with
    | ef => exact fin _ nofun (by simp only [run, hk]) (fun _ => rfl) ((minVolatility_post hU hk g).rpost _)
    | _ => simp only [run, hk]; exact err _ rfl
  | maxSharpe rf =>
    cases hk : D.kind with
    | ef => exact fin _ nofun (by simp only [run, hk]) (fun _ => rfl) (maxSharpe_post hU hk g rf _)
    | _ => simp only [run, hk]; exact err _ rfl
  | maxUtility r mn =>
    cases hk : D.kind with
    | ef => exact fin _ nofun (by simp only [run, hk]) (fun _ => rfl) ((maxUtility_post hU hk g r mn).rpost _)
    | semi => exact fin _ nofun (by simp only [run, hk]) (fun _ => rfl) ((semiUtility_post hU hk g r mn).rpost _)
    | _ => simp only [run, hk]; exact err _ rfl
  | efficientRisk t mn =>
    cases hk : D.kind with
    | ef => exact fin _ nofun (by simp only [run, hk]) (fun _ => rfl) ((efficientRisk_post hU hk g t mn).rpost _)
    | cvar => exact fin _ nofun (by simp only [run, hk]) (fun _ => rfl) ((cvarRisk_post hU hk g t mn).rpost _)
    | cdar => exact fin _ nofun (by simp only [run, hk]) (fun _ => rfl) ((cdarRisk_post hU hk g t mn).rpost _)
    | semi => exact fin _ nofun (by simp only [run, hk]) (fun _ => rfl) ((semiRisk_post hU hk g t mn).rpost _)
  | efficientReturn f t mn =>
    cases hk : D.kind with
    | ef =>
      have hx : run U S D (.efficientReturn f t mn) = (efficientReturn S D f t mn >>= fun w => pure (some w)) := by
        simp only [run, hk]
      rw [hx, some_run]
      exact (efficientReturn_post hU hk g hm f t mn _).cpost (fun _ => rfl) (efficientReturn_max hU g hm f t mn)
    | cvar =>
      exact fin _ (fun _ _ _ h => by rw [hk] at h; cases h) (by simp only [run, hk]) (fun _ => rfl)
        ((cvarReturn_post hU hk g f t mn).rpost _)
    | cdar =>
      exact fin _ (fun _ _ _ h => by rw [hk] at h; cases h) (by simp only [run, hk]) (fun _ => rfl)
        ((cdarReturn_post hU hk g f t mn).rpost _)
    | semi =>
      exact fin _ (fun _ _ _ h => by rw [hk] at h; cases h) (by simp only [run, hk]) (fun _ => rfl)
        ((semiReturn_post hU hk g f t mn).rpost _)
  | minCvar mn =>
    cases hk : D.kind with
    | cvar => exact fin _ nofun (by simp only [run, hk]) (fun _ => rfl) ((minCvar_post hU hk g mn).rpost _)
    | _ => simp only [run, hk]; exact err _ rfl
  | minCdar mn =>
    cases hk : D.kind with
    | cdar => exact fin _ nofun (by simp only [run, hk]) (fun _ => rfl) ((minCdar_post hU hk g mn).rpost _)
    | _ => simp only [run, hk]; exact err _ rfl
  | minSemi mn =>
    cases hk : D.kind with
    | semi => exact fin _ nofun (by simp only [run, hk]) (fun _ => rfl) ((minSemi_post hU hk g mn).rpost _)
    | _ => simp only [run, hk]; exact err _ rfl

/-! ### Histories -/

theorem good_new (lb ub : Fin n → EReal) (upar : ℕ → ℝ) :
    ∀ x ∈ (newWorld lb ub upar).objs, Good U D x.1 x.2 (newWorld lb ub upar).heap ∧ MaxOk U S D x.1 x.2 := by
  have e : mapBounds lb ub blank (heap₀ upar) = (.ok (),
      { (blank : OState n) with
        lb := lb, ub := ub,
        cons := [⟨.lib 0, lowerCon lb, fun _ => True⟩, ⟨.lib 1, upperCon ub, fun _ => True⟩] },
      { heap₀ upar with nextId := 2 }) := rfl
  intro x hx
  unfold newWorld at hx ⊢
  rw [e] at hx ⊢
  dsimp only at hx
  obtain rfl := List.mem_singleton.1 hx
  refine ⟨.inl ⟨⟨rfl, rfl, rfl, rfl, ?_, ?_⟩, nofun⟩, nofun⟩
  · exact ⟨_, _, [], [], rfl, ⟨⟨_, rfl⟩, rfl, rfl⟩, ⟨⟨_, rfl⟩, rfl, rfl⟩, .nil, .nil⟩
  · intro c hc
    simp only [List.mem_cons, List.not_mem_nil, or_false] at hc
    rcases hc with rfl | rfl
    · exact Nat.zero_lt_two
    · exact Nat.one_lt_two

/-- In every reachable world every object satisfies the invariant. -/
theorem good_of_reachable (hU : Usable U D) {W : World n} (hr : Reachable U S D W) :
    ∀ x ∈ W.objs, Good U D x.1 x.2 W.heap ∧ MaxOk U S D x.1 x.2 := by
  induction hr with
  | new lb ub upar => exact good_new lb ub upar
  | step hW hs ih =>
    cases hs with
    | call hj c =>
      rename_i W j cfg o
      intro x hx
      have hmem := List.mem_of_getElem? hj
      obtain ⟨g, hm⟩ := ih _ hmem
      have p := run_post (S := S) hU g hm c
      rcases List.mem_or_eq_of_mem_set hx with hx | rfl
      · exact ⟨(ih x hx).1.mono p.mono, (ih x hx).2⟩
      · exact ⟨p.good, p.max⟩
    | copy hj =>
      rename_i W j cfg o
      intro x hx
      rcases List.mem_append.1 hx with hx | hx
      · exact ih x hx
      · rw [List.mem_singleton.1 hx]
        exact ih _ (List.mem_of_getElem? hj)

end Verif.Convex
