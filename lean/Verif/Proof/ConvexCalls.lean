import Verif.Proof.ConvexMethods

/-! The remaining calls, and the invariant over histories. -/

noncomputable section

namespace Verif.Convex
open Verif.Py Verif.Base Matrix

variable {n : ℕ} {U : Uni n} {S : Solver n} {D : Data n} {cfg : Cfg n} {o : OState n} {h : Heap n}

/-- The stored problem after a first solve. -/
def optOf (ob : Obj n) (cons : List (Con n)) : Opt n := ⟨ob, cons, ob.id, some (cons.map Con.id)⟩

theorem solve_fresh {ob : Obj n} (ho : o.opt = none) (h1 : o.objective = some ob)
    (h4 : ob.body.scalar = true) (hp : ∀ c ∈ o.cons, Proper c.body) :
    solve S o h = callSolver S (optOf ob o.cons) { o with opt := some (optOf ob o.cons) } h := by
  generalize hg : callSolver S (optOf ob o.cons) { o with opt := some (optOf ob o.cons) } h = R
  unfold solve
  rw [bind_ok (a := o) (o' := o) (h' := h) rfl, ho]
  dsimp only
  rw [h1]
  dsimp only
  have : ¬ (¬ ob.body.scalar = true ∨ ¬ usable o.cons) := by
    simp only [h4, not_true_eq_false, false_or, not_not]
    exact usable_proper _ hp
  rw [if_neg this, idsOf_proper _ hp]
  exact hg

theorem Base.sat {ex : List (Piece n)} (b : Base U cfg o h ex) (e : Env n) :
    (∀ c ∈ o.cons, c.sat e) ↔ (∀ i, cfg.lb i ≤ (e.asg.w i : EReal) ∧ (e.asg.w i : EReal) ≤ cfg.ub i) ∧
      (∀ x ∈ cfg.cons, x.holds U e.upar e.asg) ∧ pieceSat ex e := by
  obtain ⟨b₁, b₂, us, es, c1, c2, c3, c4, c5⟩ := b.cons
  rw [c1]
  simp only [List.forall_mem_cons, List.forall_mem_append, forall₂_sat c4, forall₂_piece c5]
  have e1 : b₁.sat e ↔ (lowerCon cfg.lb).sat e := by unfold Con.sat; rw [c2.2.1, c2.2.2]; simp [always]
  have e2 : b₂.sat e ↔ (upperCon cfg.ub).sat e := by unfold Con.sat; rw [c3.2.1, c3.2.2]; simp [always]
  rw [e1, e2, ← and_assoc, sat_bounds]

/-! ### The largest return -/

/-- What `_max_return` makes of the answer. -/
def maxOutcome : Answer n → Except PyErr ℝ
  | .optimal _ v => .ok (-v)
  | .status _ => .error .optimization
  | .raised .typeError => .error .optimization
  | .raised .dcp => .error .optimization
  | .raised e => .error e

theorem maxReturn_clean (hU : Usable U D) (b : Base U cfg o h []) {mu : Fin n → ℝ} (hmu : D.mu = some mu) :
    ∃ o' h', maxReturn S D o h = (maxOutcome (S h.log.length (maxProb U cfg h.upar mu)), o', h') ∧
      h'.log = h.log ++ [maxProb U cfg h.upar mu] ∧ h.nextId ≤ h'.nextId ∧ h'.upar = h.upar := by
  let ob : Obj n := ⟨.lib h.nextId, true, [], fun e => (Obj.ret e.asg.w mu true : EReal)⟩
  have b' : Base U cfg { o with objective := some ob } { h with nextId := h.nextId + 1 } [] :=
    ⟨b.opt, b.lb, b.ub, b.added, b.cons, fun c hc => (b.ids c hc).mono (Nat.le_succ _)⟩
  obtain ⟨o₂, r2, rd, h2, h3, h4⟩ := b'.sumOne hU (by simp)
  have hsolve := solve_fresh (S := S) (h := { h with nextId := h.nextId + 1 + 1 }) rd.opt h2 rfl rd.proper
  have hprob : (optOf ob o₂.cons).prob { h with nextId := h.nextId + 1 + 1 } = maxProb U cfg h.upar mu := by
    ext s
    · show ((Obj.ret s.w mu true : ℝ) : EReal) = ((-(s.w ⬝ᵥ mu) : ℝ) : EReal) + (List.map _ []).sum
      rw [ret_true, List.map_nil, List.sum_nil, add_zero]
    · show (∀ c ∈ o₂.cons, c.sat _) ↔ _
      rw [rd.sat, pieceSat_nil]
      rfl
  have hrun : maxReturn S D o h = (solve S >>= fun _ => negValue S h.log.length) o₂
      { h with nextId := h.nextId + 1 + 1 } := by
    unfold maxReturn returnExpr
    rw [hmu]
    dsimp only
    rw [bind_ok (a := fun s => Obj.ret s.w mu true) (o' := o) (h' := h) rfl]
    rw [bind_ok (setObjective_run [] (fun e => ((fun s => Obj.ret s.w mu true) e.asg : EReal)) o h)]
    exact (bind_ok r2).trans rfl
  obtain ⟨w, vals, hc, -, -⟩ := callSolver_run (S := S) (optOf ob o₂.cons)
    { o₂ with opt := some (optOf ob o₂.cons) } { h with nextId := h.nextId + 1 + 1 }
  rw [hprob] at hc
  rw [hrun, bind_run, hsolve, hc]
  dsimp only
  have hlog : (h.log ++ [maxProb U cfg h.upar mu])[h.log.length]? = some (maxProb U cfg h.upar mu) := by simp
  cases hS : S h.log.length (maxProb U cfg h.upar mu) with
  | optimal s v =>
    refine ⟨{ o₂ with opt := some (optOf ob o₂.cons), weights := w }, { h with
      nextId := h.nextId + 1 + 1, log := h.log ++ [maxProb U cfg h.upar mu], vals := vals }, ?_, rfl,
      by show h.nextId ≤ h.nextId + 1 + 1; omega, rfl⟩
    show negValue S h.log.length _ _ = _
    unfold negValue
    simp only [hlog, hS, maxOutcome]
  | status s => exact ⟨_, _, rfl, rfl, by show h.nextId ≤ h.nextId + 1 + 1; omega, rfl⟩
  | raised e =>
    cases e <;> exact ⟨_, _, rfl, rfl, by show h.nextId ≤ h.nextId + 1 + 1; omega, rfl⟩

theorem maxReturn_solved {p : Opt n} (s : Solved U D cfg o h p) :
    ∃ e o' h', maxReturn S D o h = (.error e, o', h') ∧ h'.log = h.log ∧ h.nextId ≤ h'.nextId ∧
      h'.upar = h.upar := by
  unfold maxReturn
  cases hmu : D.mu with
  | none => exact ⟨_, _, _, rfl, rfl, le_rfl, rfl⟩
  | some mu =>
    dsimp only
    unfold returnExpr
    rw [hmu]
    dsimp only
    rw [bind_ok (a := fun s => Obj.ret s.w mu true) (o' := o) (h' := h) rfl]
    rw [bind_ok (setObjective_run [] (fun e => ((fun s => Obj.ret s.w mu true) e.asg : EReal)) o h)]
    rw [bind_err (addLib_solved _ _ { o with objective := some _ } _ s.opt)]
    exact ⟨_, _, _, rfl, rfl, Nat.le_succ _, rfl⟩

/-- The problems `_max_return` may have solved. -/
def IsMax (U : Uni n) (D : Data n) (cfg : Cfg n) (upar : ℕ → ℝ) (pre : List (Prob n)) : Prop :=
  pre = [] ∨ ∃ mu, D.mu = some mu ∧ pre = [maxProb U cfg upar mu]

/-- The cached largest return comes from the solver. -/
def MaxOk (U : Uni n) (S : Solver n) (D : Data n) (cfg : Cfg n) (o : OState n) : Prop :=
  ∀ m, o.maxRet = some m → ∃ mu k upar cons s v, D.mu = some mu ∧ cons <+: cfg.cons ∧
    S k (maxProb U { cfg with cons := cons } upar mu) = .optimal s v ∧ m = -v

theorem maxOfCopy_post (hU : Usable U D) (g : Good U D cfg o h) :
    ∃ r h' pre, maxReturnOfCopy S D o h = (r, o, h') ∧ IsMax U D cfg h.upar pre ∧ h'.log = h.log ++ pre ∧
      h.nextId ≤ h'.nextId ∧ h'.upar = h.upar ∧
      ∀ m, r = .ok m → ∃ mu s v, D.mu = some mu ∧
        S h.log.length (maxProb U cfg h.upar mu) = .optimal s v ∧ m = -v := by
  unfold maxReturnOfCopy deepcopy
  rcases g with ⟨b, hob⟩ | ⟨p, s⟩
  · cases hmu : D.mu with
    | none =>
      refine ⟨.error .valueError, h, [], ?_, .inl rfl, by simp, le_rfl, rfl, nofun⟩
      unfold maxReturn
      simp only [hmu, raise_run]
    | some mu =>
      obtain ⟨o', h', e, h1, h2, h3⟩ := maxReturn_clean (S := S) hU b hmu
      refine ⟨_, h', _, by rw [e], .inr ⟨mu, hmu, rfl⟩, h1, h2, h3, ?_⟩
      intro m hm
      cases hS : S h.log.length (maxProb U cfg h.upar mu) with
      | optimal s v =>
        rw [hS] at hm
        exact ⟨mu, s, v, rfl, hS, (Except.ok.inj hm).symm⟩
      | status s => rw [hS] at hm; cases hm
      | raised e => rw [hS] at hm; cases e <;> cases hm
  · obtain ⟨e, o', h', e1, h1, h2, h3⟩ := maxReturn_solved (S := S) s
    exact ⟨.error e, h', [], by rw [e1], .inl rfl, by simp [h1], h2, h3, nofun⟩

theorem Good.maxRet (g : Good U D cfg o h) (m : Option ℝ) : Good U D cfg { o with maxRet := m } h := by
  rcases g with ⟨b, hob⟩ | ⟨p, s⟩
  · exact .inl ⟨⟨b.opt, b.lb, b.ub, b.added, b.cons, b.ids⟩, hob⟩
  · exact .inr ⟨p, ⟨s.opt, s.added, s.initObj, s.initCons, s.properP, s.properO, s.objective, s.cons, s.idObj,
      s.ids, s.origin⟩⟩

theorem Good.weights (g : Good U D cfg o h) (m : Option (Fin n → ℝ)) :
    Good U D cfg { o with weights := m } h := by
  rcases g with ⟨b, hob⟩ | ⟨p, s⟩
  · exact .inl ⟨⟨b.opt, b.lb, b.ub, b.added, b.cons, b.ids⟩, hob⟩
  · exact .inr ⟨p, ⟨s.opt, s.added, s.initObj, s.initCons, s.properP, s.properO, s.objective, s.cons, s.idObj,
      s.ids, s.origin⟩⟩

theorem checkMax_post (hU : Usable U D) (g : Good U D cfg o h) (hm : MaxOk U S D cfg o) (t : ℝ) :
    ∃ r o' h' pre, checkMaxReturn S D t o h = (r, o', h') ∧ IsMax U D cfg h.upar pre ∧ h'.log = h.log ++ pre ∧
      h.nextId ≤ h'.nextId ∧ h'.upar = h.upar ∧ Good U D cfg o' h' ∧ MaxOk U S D cfg o' ∧ o'.opt = o.opt ∧
      ∀ e, r = .error e → (∃ m, o'.maxRet = some m ∧ m < t) ∨ ∃ e' h', maxReturnOfCopy S D o h = (.error e', o, h') := by
  have key : ∀ (x : M n ℝ), (∃ r h' pre, x o h = (r, o, h') ∧ IsMax U D cfg h.upar pre ∧ h'.log = h.log ++ pre ∧
      h.nextId ≤ h'.nextId ∧ h'.upar = h.upar ∧
      (∀ m, r = .ok m → MaxOk U S D cfg { o with maxRet := some m }) ∧
      (∀ e, r = .error e → ∃ e' h', maxReturnOfCopy S D o h = (.error e', o, h'))) →
      ∃ r o' h' pre, (x >>= fun m => modify (fun o => { o with maxRet := some m }) >>= fun _ =>
        if m < t then raise .valueError else pure ()) o h = (r, o', h') ∧ IsMax U D cfg h.upar pre ∧
        h'.log = h.log ++ pre ∧ h.nextId ≤ h'.nextId ∧ h'.upar = h.upar ∧ Good U D cfg o' h' ∧
        MaxOk U S D cfg o' ∧ o'.opt = o.opt ∧
      ∀ e, r = .error e → (∃ m, o'.maxRet = some m ∧ m < t) ∨
        ∃ e' h', maxReturnOfCopy S D o h = (.error e', o, h') := by
    rintro x ⟨r, h', pre, e, h1, h2, h3, h4, h5, h6⟩
    cases r with
    | error e' =>
      exact ⟨_, _, _, pre, bind_err e, h1, h2, h3, h4, g.mono h3, hm, rfl, fun _ _ => .inr (h6 _ rfl)⟩
    | ok m =>
      rw [bind_ok e, bind_ok (a := ()) (o' := { o with maxRet := some m }) (h' := h') rfl]
      by_cases hlt : m < t
      · rw [if_pos hlt]
        exact ⟨_, _, _, pre, rfl, h1, h2, h3, h4, (g.mono h3).maxRet _, h5 m rfl, rfl, fun _ _ => .inl ⟨m, rfl, hlt⟩⟩
      · rw [if_neg hlt]
        exact ⟨_, _, _, pre, rfl, h1, h2, h3, h4, (g.mono h3).maxRet _, h5 m rfl, rfl, nofun⟩
  have hcopy : ∃ r h' pre, maxReturnOfCopy S D o h = (r, o, h') ∧ IsMax U D cfg h.upar pre ∧
      h'.log = h.log ++ pre ∧ h.nextId ≤ h'.nextId ∧ h'.upar = h.upar ∧
      (∀ m, r = .ok m → MaxOk U S D cfg { o with maxRet := some m }) ∧
      (∀ e, r = .error e → ∃ e' h', maxReturnOfCopy S D o h = (.error e', o, h')) := by
    obtain ⟨r, h', pre, e, h1, h2, h3, h4, h5⟩ := maxOfCopy_post (S := S) hU g
    refine ⟨r, h', pre, e, h1, h2, h3, h4, ?_, fun e' he' => ⟨e', h', by rw [e, he']⟩⟩
    rintro m hm' m' ⟨⟩
    obtain ⟨mu, s, v, k1, k2, k3⟩ := h5 m hm'
    exact ⟨mu, _, _, cfg.cons, s, v, k1, List.prefix_refl _, k2, k3⟩
  unfold checkMaxReturn
  rw [bind_ok (a := o) (o' := o) (h' := h) rfl]
  cases hmr : o.maxRet with
  | none => exact key _ hcopy
  | some m =>
    dsimp only
    by_cases h0 : m = 0
    · rw [if_pos h0]; exact key _ hcopy
    · rw [if_neg h0]
      refine key _ ⟨.ok m, h, [], rfl, .inl rfl, by simp, le_rfl, rfl, ?_, nofun⟩
      rintro m' ⟨⟩ x ⟨⟩
      exact hm m hmr

/-! ### Results of optimisation methods -/

/-- What becomes of the solver's answer when the weights are `f` of the solution. -/
def outcomeF (f : Asg n → Fin n → ℝ) : Answer n → Except PyErr (Fin n → ℝ)
  | .optimal s _ => .ok (round16 (f s))
  | .status _ => .error .optimization
  | .raised .typeError => .error .optimization
  | .raised .dcp => .error .optimization
  | .raised e => .error e

theorem outcomeF_w (a : Answer n) : outcomeF (fun s => s.w) a = outcome a := by
  cases a with
  | raised e => cases e <;> rfl
  | _ => rfl

/-- The result of a method: the invariant is kept; apart from a possible computation of the largest
return, the solver is called at most once, with a documented problem, and its answer is returned. -/
structure RPost (U : Uni n) (S : Solver n) (D : Data n) (cfg : Cfg n) (c : Call n) (again : Bool) (h : Heap n)
    (r : Except PyErr (Fin n → ℝ) × OState n × Heap n) : Prop where
  good : Good U D cfg r.2.1 r.2.2
  mono : h.nextId ≤ r.2.2.nextId
  res : ∃ pre, Pre U D cfg h.upar c pre ∧
    ((∃ e, r.1 = .error e ∧ r.2.2.log = h.log ++ pre) ∨
      ∃ P f, Documented U D cfg h.upar again c P f ∧ r.1 = outcomeF f (S (h.log ++ pre).length P) ∧
        r.2.2.log = h.log ++ pre ++ [P])

theorem MPost.rpost {c : Call n} {r : Except PyErr (Fin n → ℝ) × OState n × Heap n}
    (m : MPost U S D cfg c o h r) (again : Bool) : RPost U S D cfg c again h r := by
  refine ⟨m.good, m.mono, [], .inl rfl, ?_⟩
  rcases m.res with ⟨e, h1, h2⟩ | ⟨v, q, h1, h2, h3⟩
  · exact .inl ⟨e, h1, by simp [h2]⟩
  · refine .inr ⟨_, _, .ask v q h1, ?_, ?_⟩
    · rw [outcomeF_w, List.append_nil]; exact h2
    · rw [List.append_nil]; exact h3

theorem efficientReturn_post (hU : Usable U D) (hk : D.kind = .ef) (g : Good U D cfg o h)
    (hm : MaxOk U S D cfg o) (f : Bool) (t : ℝ) (mn again : Bool) :
    RPost U S D cfg (.efficientReturn f t mn) again h (efficientReturn S D f t mn o h) := by
  unfold efficientReturn
  by_cases hf : (!f) = true
  · rw [if_pos hf]
    exact (err_post g _ _).rpost again
  simp only [if_neg hf, pure_bind]
  obtain ⟨r, o', h', pre, e, h0, h2, h3, h4, h5, h6, -, -⟩ := checkMax_post hU g hm t
  have h1 : Pre U D cfg h.upar (.efficientReturn f t mn) pre :=
    h0.imp id fun ⟨mu, k1, k2⟩ => ⟨mu, f, t, mn, hk, k1, rfl, k2⟩
  cases r with
  | error e' =>
    rw [bind_err e]
    exact ⟨h5, h3, pre, h1, .inl ⟨e', rfl, h2⟩⟩
  | ok u =>
    rw [bind_ok e]
    have m := efTarget_post (S := S) hU hk h5 f t mn
    refine ⟨m.good, h3.trans m.mono, pre, h1, ?_⟩
    rcases m.res with ⟨e', k1, k2⟩ | ⟨v, q, k1, k2, k3⟩
    · exact .inl ⟨e', k1, by rw [k2, h2]⟩
    · rw [h4] at k2 k3
      refine .inr ⟨_, _, .ask v q k1, ?_, ?_⟩
      · rw [outcomeF_w, ← h2]; exact k2
      · rw [k3, h2]

/-! ### `max_sharpe` -/

/-- `max_sharpe` up to the rebuilding of the constraints. -/
def sharpeHead (D : Data n) (rf : ℝ) : M n ℕ := do
  modify (fun o => { o with rf := some rf })
  let v ← varianceExpr D
  setObjective [] (fun e => (v e.asg : EReal))
  let k ← freshVar
  addAll
  pure k

/-- The three constraints in front. -/
def sharpeCons (mu : Fin n → ℝ) (rf : ℝ) (k i : ℕ) : List (Con n) :=
  [⟨.lib i, .eq 1 (scalar (fun s => ∑ i, (mu i - rf) * s.w i)) (const (fun _ => 1)), fun _ => True⟩,
    ⟨.lib (i + 1), .eq 1 sumExpr (scalar (fun s => s.lib k 0)), fun _ => True⟩,
    ⟨.lib (i + 2), .ineq 1 (const (fun _ => 0)) (scalar (fun s => s.lib k 0)), fun _ => True⟩]

/-- Replacing the constraint list. -/
def setCons (mu : Fin n → ℝ) (rf : ℝ) (k : ℕ) (new : List (Con n)) : M n Unit := fun o h =>
  (.ok (), { o with cons := sharpeCons mu rf k h.nextId ++ new }, { h with nextId := h.nextId + 3 })

theorem maxSharpe_eq {mu : Fin n → ℝ} (hmu : D.mu = some mu) (rf : ℝ) (hr : ¬ ∀ i, mu i ≤ rf) :
    maxSharpe S D rf o h = (sharpeHead D rf >>= fun k => get >>= fun o => rebuildAll k o.cons >>= fun new =>
      setCons mu rf k new >>= fun _ => solve S >>= fun _ => rescale k) o h := by
  unfold maxSharpe sharpeHead
  rw [hmu]
  dsimp only
  rw [if_neg hr]
  simp only [massoc]
  rfl

theorem Quiet.sharpeHead (rf : ℝ) : Quiet (sharpeHead D rf) :=
  .bind (fun _ _ _ => ⟨rfl, rfl, rfl, rfl, rfl, rfl, .inl rfl, rfl, rfl, rfl, le_rfl, le_rfl, le_rfl⟩) fun _ =>
    .bind .varianceExpr fun _ => .bind (.setObjective _ _) fun _ => .bind .freshVar fun _ => .bind .addAll fun _ =>
    .pure _

theorem tri_sharpeHead (hU : Usable U D) (rf : ℝ) :
    Tri U cfg h (Mid U cfg h (ix₀ h)) (sharpeHead D rf) (fun k o' h' => k = h.nextVar ∧
      Mid U cfg h ⟨[], some (true, [], fun e => (Obj.variance e.asg.w D.cov : EReal)), h.lpar, h.nextVar + 1,
        h.nextPar⟩ o' h') := by
  refine .seq (Q := Mid U cfg h (ix₀ h)) ?_ ?_
  · intro o' h' m
    refine .inl ⟨_, _, _, rfl, ?_⟩
    exact ⟨⟨m.base.opt, m.base.lb, m.base.ub, m.base.added, m.base.cons, m.base.ids⟩, m.ob, m.log, m.upar, m.id,
      m.lpar, m.nextVar, m.nextPar⟩
  · refine .bind (tri_variance rfl obClean_none) fun v hv => ?_
    subst hv
    refine .seq (tri_setObjective _ _) ?_
    refine .bind tri_freshVar fun k hk => ?_
    subst hk
    exact .seq (tri_addAll hU rfl) (tri_pure _ rfl)

/-- A rebuilt constraint. -/
def Rebuilt (k : ℕ) (c c' : Con n) : Prop :=
  ∃ j b, c' = ⟨.lib j, b, c.dom⟩ ∧ rebuildBody k c.body = .ok b

theorem rebuildAll_run (k : ℕ) (l : List (Con n)) (o : OState n) (h : Heap n) :
    (∃ e i, h.nextId ≤ i ∧ rebuildAll k l o h = (.error e, o, { h with nextId := i })) ∨
      ∃ new i, h.nextId ≤ i ∧ rebuildAll k l o h = (.ok new, o, { h with nextId := i }) ∧
        List.Forall₂ (Rebuilt k) l new ∧ ∀ c ∈ new, idLt i c.id := by
  induction l generalizing h with
  | nil => exact .inr ⟨[], h.nextId, le_rfl, rfl, .nil, by simp⟩
  | cons c l ih =>
    unfold rebuildAll
    cases hb : rebuildBody k c.body with
    | error e => exact .inl ⟨e, h.nextId, le_rfl, rfl⟩
    | ok b =>
      rw [bind_ok (a := b) (o' := o) (h' := h) rfl]
      rw [bind_ok (a := Ref.lib h.nextId) (o' := o) (h' := { h with nextId := h.nextId + 1 }) rfl]
      rcases ih { h with nextId := h.nextId + 1 } with ⟨e, i, h1, h2⟩ | ⟨new, i, h1, h2, h3, h4⟩
      · rw [bind_err h2]
        exact .inl ⟨e, i, (Nat.le_succ _).trans h1, rfl⟩
      · rw [bind_ok h2]
        refine .inr ⟨_, i, (Nat.le_succ _).trans h1, rfl, .cons ⟨h.nextId, b, rfl, hb⟩ h3, ?_⟩
        rw [List.forall_mem_cons]
        exact ⟨h1, h4⟩

theorem rebuild_proper {k : ℕ} {b b' : ConBody Par (Env n)} (h : rebuildBody k b = .ok b') : Proper b' := by
  cases b with
  | ineq m x y =>
    unfold rebuildBody at h; dsimp only at h
    by_cases hx : x.isConst = true
    · rw [if_pos hx] at h; cases h; exact proper_ineq _ _
    · rw [if_neg hx] at h; cases h; exact proper_ineq _ _
  | eq m x y => cases h; exact proper_eq _ _
  | other _ _ => cases h
  | bool _ => cases h
  | junk => cases h

theorem rebuild_pars {k : ℕ} {b b' : ConBody Par (Env n)} (h : rebuildBody k b = .ok b') :
    conPars b' = conPars b := by
  cases b with
  | ineq m x y =>
    unfold rebuildBody at h; dsimp only at h
    by_cases hx : x.isConst = true
    · rw [if_pos hx] at h; cases h; rfl
    · rw [if_neg hx] at h; cases h; rfl
  | eq m x y => cases h; rfl
  | other _ _ => cases h
  | bool _ => cases h
  | junk => cases h

theorem rebuilt_user {k i : ℕ} {c' : Con n} (h : Rebuilt k (U.mkCon i) c') (e : Env n) :
    c'.sat e ↔ scaledCon (e.asg.lib k 0) (U.con i) ⟨e.asg.w, e.asg.usr, e.upar⟩ := by
  obtain ⟨j, b, rfl, hb⟩ := h
  unfold Uni.mkCon at hb ⊢
  unfold Con.sat
  simp only [and_true]
  cases hc : U.con i with
  | ineq m x y =>
    rw [hc] at hb
    simp only [ConBody.map, rebuildBody] at hb
    by_cases hx : x.isConst = true
    · have hx' : (x.map U.toPar Env.user).isConst = true := hx
      rw [if_pos hx'] at hb
      cases hb
      simp only [scaledCon, if_pos hx]
      rfl
    · have hx' : ¬ (x.map U.toPar Env.user).isConst = true := hx
      rw [if_neg hx'] at hb
      cases hb
      simp only [scaledCon, if_neg hx]
      rfl
  | eq m x y => rw [hc] at hb; cases hb; rfl
  | other _ _ => rw [hc] at hb; cases hb
  | bool _ => rw [hc] at hb; cases hb
  | junk => rw [hc] at hb; cases hb

theorem rebuilt_added {k : ℕ} {c c' : Con n} {a : Added n} (hm : Matches U c a) (h : Rebuilt k c c') (e : Env n) :
    c'.sat e ↔ a.scaled U e.upar (e.asg.lib k 0) e.asg := by
  cases a with
  | usr i =>
    have hm : c = U.mkCon i := hm
    subst hm
    exact rebuilt_user h e
  | sector sec s up b =>
    obtain ⟨j, rfl⟩ := hm
    obtain ⟨j', b', rfl, hb⟩ := h
    unfold Con.sat
    simp only [and_true]
    cases up with
    | true =>
      simp only [sectorBody, if_true, rebuildBody, real, Bool.false_eq_true, if_false] at hb
      cases hb
      simp only [ConBody.sat, scaleBy, const, ← EReal.coe_mul, EReal.coe_le_coe_iff, Fin.forall_fin_one,
        Added.scaled, Finset.sum_filter]
    | false =>
      simp only [sectorBody, rebuildBody, const, Bool.false_eq_true, if_false, if_true] at hb
      cases hb
      simp only [ConBody.sat, scaleBy, real, ← EReal.coe_mul, EReal.coe_le_coe_iff, Fin.forall_fin_one,
        Added.scaled, Finset.sum_filter]

theorem rebuilt_bounds {k : ℕ} {b₁ b₂ c₁ c₂ : Con n} {lb ub : Fin n → EReal} (h1 : IsPiece b₁ (lowerCon lb, always))
    (h2 : IsPiece b₂ (upperCon ub, always)) (r1 : Rebuilt k b₁ c₁) (r2 : Rebuilt k b₂ c₂) (e : Env n) :
    (c₁.sat e ↔ ∀ i, lb i * (e.asg.lib k 0 : EReal) ≤ (e.asg.w i : EReal)) ∧
      (c₂.sat e ↔ ∀ i, (e.asg.w i : EReal) ≤ ub i * (e.asg.lib k 0 : EReal)) := by
  obtain ⟨j, b, rfl, hb⟩ := r1
  obtain ⟨j', b', rfl, hb'⟩ := r2
  rw [h1.2.1] at hb
  rw [h2.2.1] at hb'
  unfold Con.sat
  rw [h1.2.2, h2.2.2]
  simp only [always, and_true]
  simp only [lowerCon, rebuildBody, const, if_true] at hb
  simp only [upperCon, rebuildBody, wExpr, real, Bool.false_eq_true, if_false] at hb'
  cases hb
  cases hb'
  exact ⟨Iff.rfl, Iff.rfl⟩

theorem forall₂_rebuilt {k : ℕ} {us us' : List (Con n)} {as : List (Added n)} (hm : List.Forall₂ (Matches U) us as)
    (hr : List.Forall₂ (Rebuilt k) us us') (e : Env n) :
    (∀ c ∈ us', c.sat e) ↔ ∀ a ∈ as, a.scaled U e.upar (e.asg.lib k 0) e.asg := by
  induction hm generalizing us' with
  | nil => cases hr; simp
  | cons h1 _ ih =>
    cases hr with
    | cons r1 rs => simp only [List.forall_mem_cons, rebuilt_added h1 r1, ih rs]

theorem rebuilt_proper {k : ℕ} {l l' : List (Con n)} (hr : List.Forall₂ (Rebuilt k) l l') :
    ∀ c ∈ l', Proper c.body := by
  induction hr with
  | nil => simp
  | cons r _ ih =>
    obtain ⟨j, b, rfl, hb⟩ := r
    rw [List.forall_mem_cons]
    exact ⟨rebuild_proper hb, ih⟩

theorem rebuilt_pars {k : ℕ} {l l' : List (Con n)} (hr : List.Forall₂ (Rebuilt k) l l') :
    l'.flatMap (fun c => conPars c.body) = l.flatMap (fun c => conPars c.body) := by
  induction hr with
  | nil => rfl
  | cons r _ ih =>
    obtain ⟨j, b, rfl, hb⟩ := r
    rw [List.flatMap_cons, List.flatMap_cons, ih, rebuild_pars hb]

theorem sharpeCons_sat (mu : Fin n → ℝ) (rf : ℝ) (k i : ℕ) (e : Env n) :
    (∀ c ∈ sharpeCons mu rf k i, c.sat e) ↔ ∑ i, (mu i - rf) * e.asg.w i = 1 ∧ ∑ i, e.asg.w i = e.asg.lib k 0 ∧
      0 ≤ e.asg.lib k 0 := by
  simp [sharpeCons, Con.sat, ConBody.sat, scalar, real, const, sumExpr, ← EReal.coe_one]

theorem sharpeCons_proper (mu : Fin n → ℝ) (rf : ℝ) (k i : ℕ) : ∀ c ∈ sharpeCons mu rf k i, Proper c.body := by
  simp [sharpeCons, proper_eq, proper_ineq]

theorem sharpeCons_pars (mu : Fin n → ℝ) (rf : ℝ) (k i : ℕ) :
    (sharpeCons mu rf k i).flatMap (fun c => conPars c.body) = [] := rfl

theorem maxSharpe_post (hU : Usable U D) (hk : D.kind = .ef) (g : Good U D cfg o h) (rf : ℝ) (again : Bool) :
    RPost U S D cfg (.maxSharpe rf) again h (maxSharpe S D rf o h) := by
  cases hmu : D.mu with
  | none =>
    have : maxSharpe S D rf o h = (.error .typeError, o, h) := by
      unfold maxSharpe; rw [hmu]; rfl
    rw [this]
    exact (err_post g _ _).rpost again
  | some mu =>
  by_cases hr : ∀ i, mu i ≤ rf
  · have : maxSharpe S D rf o h = (.error .valueError, o, h) := by
      unfold maxSharpe; rw [hmu]; dsimp only; rw [if_pos hr]; rfl
    rw [this]
    exact (err_post g _ _).rpost again
  rw [maxSharpe_eq hmu rf hr]
  rcases g with ⟨b, hob⟩ | ⟨p, s⟩
  · rcases tri_sharpeHead hU rf o h (mid₀ b hob) with ⟨k, o₁, h₁, e1, rfl, m⟩ | ⟨e, o₁, h₁, e1, fl⟩
    swap
    · rw [bind_err e1]
      exact ⟨fl.good, fl.id, [], .inl rfl, .inl ⟨e, rfl, by simp [fl.log]⟩⟩
    rw [bind_ok e1, bind_ok (a := o₁) (o' := o₁) (h' := h₁) rfl]
    rcases rebuildAll_run h.nextVar o₁.cons o₁ h₁ with ⟨e, i, hi, e2⟩ | ⟨new, i, hi, e2, hnew, hids⟩
    · rw [bind_err e2]
      have fl := m.fails rfl (obClean_some _ _)
      exact ⟨.inl ⟨fl.base.mono hi, fl.ob⟩, fl.id.trans hi, [], .inl rfl, .inl ⟨e, rfl, by simp [fl.log]⟩⟩
    rw [bind_ok e2]
    obtain ⟨ob, kk, k1, k2, k3, k4, k5, k6⟩ := m.ob
    let o₂ : OState n := { o₁ with cons := sharpeCons mu rf h.nextVar i ++ new }
    let h₂ : Heap n := { h₁ with nextId := i + 3 }
    rw [bind_ok (a := ()) (o' := o₂) (h' := h₂) rfl]
    have hprop : ∀ c ∈ o₂.cons, Proper c.body := by
      intro c hc
      rcases List.mem_append.1 hc with hc | hc
      · exact sharpeCons_proper _ _ _ _ c hc
      · exact rebuilt_proper hnew c hc
    have hsolve := solve_fresh (S := S) (o := o₂) (h := h₂) m.base.opt k1 k4 hprop
    have hprob : (optOf ob o₂.cons).prob h₂ = sharpeProb U cfg D.cov mu rf h.nextVar h.upar := by
      ext s
      · show ob.body.val ⟨s, h₁.upar, h₁.lpar⟩ = _
        rw [k6, m.upar]
        rfl
      · show (∀ c ∈ sharpeCons mu rf h.nextVar i ++ new, c.sat ⟨s, h₁.upar, h₁.lpar⟩) ↔ _
        rw [List.forall_mem_append, sharpeCons_sat]
        obtain ⟨b₁, b₂, us, es, c1, c2, c3, c4, c5⟩ := m.base.cons
        cases c5
        rw [c1, List.append_nil] at hnew
        cases hnew with
        | cons r1 hnew =>
        cases hnew with
        | cons r2 hnew =>
        obtain ⟨q1, q2⟩ := rebuilt_bounds c2 c3 r1 r2 ⟨s, h₁.upar, h₁.lpar⟩
        rw [List.forall_mem_cons, List.forall_mem_cons, q1, q2, forall₂_rebuilt c4 hnew, m.upar]
        simp only [sharpeProb, forall_and, and_assoc]
    have hpars : libPars (optOf ob o₂.cons).pars = [] := by
      show libPars ((sharpeCons mu rf h.nextVar i ++ new).flatMap _ ++ ob.body.params) = []
      rw [List.flatMap_append, sharpeCons_pars, rebuilt_pars hnew, List.nil_append, libPars_append, k5,
        m.base.conPars_nil hU]
      rfl
    obtain ⟨w, vals, hc, hv, -⟩ := callSolver_run (S := S) (optOf ob o₂.cons)
      { o₂ with opt := some (optOf ob o₂.cons) } h₂
    rw [hprob] at hc hv
    have hlen : h₂.log.length = h.log.length := by
      show h₁.log.length = _
      rw [m.log]
    have hgood : ∀ w vals L, Good U D cfg { o₂ with opt := some (optOf ob o₂.cons), weights := w }
        { h₂ with log := L, vals := vals } := by
      intro w vals L
      refine .inr ⟨optOf ob o₂.cons, rfl, m.base.added, rfl, rfl, hprop, hprop, .inl k1, .inl rfl, ?_, ?_,
        .once kk k2 hpars⟩
      · show idLt (i + 3) ob.id
        rw [k2]
        show kk < i + 3
        have : h₁.nextId ≤ i := hi
        omega
      · intro c hc
        rcases List.mem_append.1 hc with hc | hc
        · simp only [sharpeCons, List.mem_cons, List.not_mem_nil, or_false] at hc
          rcases hc with rfl | rfl | rfl <;> show (_ : ℕ) < i + 3 <;> omega
        · exact (hids c hc).mono (Nat.le_add_right _ _)
    have hmono : h.nextId ≤ i + 3 := (m.id.trans hi).trans (Nat.le_add_right _ _)
    rw [bind_run, hsolve, hc]
    cases hS : S h₂.log.length (sharpeProb U cfg D.cov mu rf h.nextVar h.upar) with
    | optimal s v =>
      obtain ⟨rfl, -⟩ := hv s v hS
      refine ⟨hgood _ _ _, hmono, [], .inl rfl, .inr ⟨_, _, .sharpe rf mu h.nextVar rfl hk hmu, ?_, ?_⟩⟩
      · rw [List.append_nil, ← hlen, hS]; rfl
      · show h₁.log ++ _ = _
        rw [m.log, List.append_nil]
    | status s =>
      refine ⟨hgood _ _ _, hmono, [], .inl rfl, .inr ⟨_, _, .sharpe rf mu h.nextVar rfl hk hmu, ?_, ?_⟩⟩
      · rw [List.append_nil, ← hlen, hS]; rfl
      · show h₁.log ++ _ = _
        rw [m.log, List.append_nil]
    | raised e =>
      have hx : outcome (.raised e : Answer n) = outcomeF (fun s i => s.w i / s.lib h.nextVar 0) (.raised e) := by
        cases e <;> rfl
      obtain ⟨e', he'⟩ : ∃ e', outcome (.raised e : Answer n) = .error e' := by cases e <;> exact ⟨_, rfl⟩
      rw [he']
      refine ⟨hgood _ _ _, hmono, [], .inl rfl, .inr ⟨_, _, .sharpe rf mu h.nextVar rfl hk hmu, ?_, ?_⟩⟩
      · rw [List.append_nil, ← hlen, hS, ← hx, he']
      · show h₁.log ++ _ = _
        rw [m.log, List.append_nil]
  · have ho : o.opt ≠ none := by rw [s.opt]; exact nofun
    have sm := Quiet.sharpeHead (D := D) rf o h ho
    rcases hh : sharpeHead D rf o h with ⟨r, o₁, h₁⟩
    rw [hh] at sm
    dsimp only at sm
    cases r with
    | error e =>
      rw [bind_err hh]
      exact ⟨.inr ⟨p, s.same sm⟩, sm.nextId, [], .inl rfl, .inl ⟨e, rfl, sm.log.trans (List.append_nil _).symm⟩⟩
    | ok k =>
      rw [bind_ok hh, bind_ok (a := o₁) (o' := o₁) (h' := h₁) rfl]
      have s₁ := s.same sm
      rcases rebuildAll_run k o₁.cons o₁ h₁ with ⟨e, i, hi, e2⟩ | ⟨new, i, hi, e2, hnew, hids⟩
      · rw [bind_err e2]
        exact ⟨.inr ⟨p, s₁.mono hi⟩, sm.nextId.trans hi, [], .inl rfl, .inl ⟨e, rfl, sm.log.trans (List.append_nil _).symm⟩⟩
      rw [bind_ok e2]
      let o₂ : OState n := { o₁ with cons := sharpeCons mu rf k i ++ new }
      let h₂ : Heap n := { h₁ with nextId := i + 3 }
      rw [bind_ok (a := ()) (o' := o₂) (h' := h₂) rfl]
      have hnot : (.lib i : Ref) ∉ p.cons.map Con.id := by
        intro hmem
        obtain ⟨c, hc, hid⟩ := List.mem_map.1 hmem
        have := s₁.ids c hc
        rw [hid] at this
        exact absurd (lt_of_lt_of_le this hi) (lt_irrefl _)
      have hin : (⟨.lib i, .eq 1 (scalar (fun s => ∑ i, (mu i - rf) * s.w i)) (const (fun _ => 1)),
          fun _ => True⟩ : Con n) ∈ o₂.cons := by
        show _ ∈ sharpeCons mu rf k i ++ new
        exact List.mem_append_left _ List.mem_cons_self
      have hle : h₁.nextId ≤ i + 3 := hi.trans (Nat.le_add_right _ _)
      have s₂ : Solved U D cfg o₂ h₂ p := by
        refine ⟨s₁.opt, s₁.added, s₁.initObj, s₁.initCons, s₁.properP, ?_, s₁.objective, .inr ⟨_, hin, hnot⟩,
          s₁.idObj.mono hle, fun c hc => (s₁.ids c hc).mono hle, s₁.origin⟩
        intro c hc
        rcases List.mem_append.1 hc with hc | hc
        · exact sharpeCons_proper _ _ _ _ c hc
        · exact rebuilt_proper hnew c hc
      rcases solve_solved (S := S) s₂ with ⟨e, he⟩ | ⟨-, hcons, -⟩
      · rw [bind_err he]
        exact ⟨.inr ⟨p, s₂⟩, sm.nextId.trans hle, [], .inl rfl,
          .inl ⟨e, rfl, sm.log.trans (List.append_nil _).symm⟩⟩
      · exfalso
        rw [hcons] at hin
        exact hnot (List.mem_map_of_mem hin)

/-! ### `convex_objective` -/

theorem sumObj_nil_or (a : Obj n) (l : List (Obj n)) (k : ℕ) :
    (l = [] ∧ sumObj a l k = a) ∨ ∃ i, (sumObj a l k).id = .lib i ∧ k ≤ i ∧ i < k + l.length := sumObj_id a l k

theorem convexObjective_eq (i : ℕ) (b : Bool) :
    convexObjective U S (.ok i) b o h =
      ((if b then addLib (sumCon 1) else pure ()) >>= fun _ => solve S)
        { o with objective := some (sumObj (U.mkObj i) o.added h.nextId) }
        { h with nextId := h.nextId + o.added.length } := by
  unfold convexObjective
  rw [bind_ok (a := i) (o' := o) (h' := h) rfl,
    bind_ok (a := ()) (o' := { o with objective := some (U.mkObj i) }) (h' := h) rfl]
  have e := addAll_run (U.mkObj i) { o with objective := some (U.mkObj i) } h rfl
  rw [bind_ok e]
  cases b <;> rfl

def sumPiece (b : Bool) : List (Piece n) := if b then [(sumCon 1, always)] else []

theorem convexObjective_post (hU : Usable U D) (g : Good U D cfg o h) (r : Except PyErr ℕ) (b : Bool) :
    RPost U S D cfg (.convex r b) o.opt.isSome h (convexObjective U S r b o h) := by
  cases r with
  | error e =>
    have : convexObjective U S (.error e) b o h = (.error e, o, h) := rfl
    rw [this]
    exact (err_post g _ _).rpost _
  | ok i =>
  rw [convexObjective_eq]
  rcases g with ⟨bs, hob⟩ | ⟨p, s⟩
  · -- first solve
    set ob := sumObj (U.mkObj i) o.added h.nextId with hobdef
    have hl : ∀ x ∈ o.added, x.body.scalar = true ∧ libPars x.body.params = [] := by
      intro x hx
      rw [bs.added] at hx
      obtain ⟨i, -, rfl⟩ := List.mem_map.1 hx
      exact ⟨mkObj_scalar hU i, mkObj_libPars hU i⟩
    have k4 : ob.body.scalar = true := sumObj_scalar _ _ _ (mkObj_scalar hU i) fun x hx => (hl x hx).1
    have k5 : libPars ob.body.params = [] := by
      rw [hobdef, sumObj_libPars _ _ _ fun x hx => (hl x hx).2]; exact mkObj_libPars hU i
    have k6 : ∀ e, ob.body.val e = (U.obj i).val ⟨e.asg.w, e.asg.usr, e.upar⟩ + addedVal U cfg e := by
      intro e
      rw [hobdef, sumObj_val, bs.added, List.map_map]
      rfl
    let o₁ : OState n := { o with objective := some ob }
    let h₁ : Heap n := { h with nextId := h.nextId + o.added.length }
    have b₁ : Base U cfg o₁ h₁ [] :=
      ⟨bs.opt, bs.lb, bs.ub, bs.added, bs.cons, fun c hc => (bs.ids c hc).mono (Nat.le_add_right _ _)⟩
    have step : ∃ o₂ j, (if b then addLib (sumCon 1) else pure ()) o₁ h₁ = (.ok (), o₂, { h with nextId := j }) ∧
        h₁.nextId ≤ j ∧ Base U cfg o₂ { h with nextId := j } (sumPiece b) ∧
        o₂.objective = some ob := by
      cases b with
      | false => exact ⟨o₁, _, rfl, le_rfl, b₁, rfl⟩
      | true =>
        obtain ⟨o₂, e, b₂, h2, -, -⟩ := b₁.addLib (sumCon 1) always
        exact ⟨o₂, _, e, Nat.le_succ _, b₂, h2⟩
    obtain ⟨o₂, j, e1, hj, b₂, h2⟩ := step
    rw [bind_ok e1]
    have hpr : ∀ x ∈ (sumPiece b : List (Piece n)), Proper x.1 := by
      cases b <;> simp [sumPiece, sumCon, proper_eq]
    have hprop := b₂.proper hU hpr
    have hsolve := solve_fresh (S := S) (o := o₂) (h := { h with nextId := j }) b₂.opt h2 k4 hprop
    have hprob : ∀ h', (optOf ob o₂.cons).prob h' = docConvex U cfg h'.upar i b := by
      intro h'
      ext s
      · show ob.body.val ⟨s, h'.upar, h'.lpar⟩ = _
        rw [k6]
        rfl
      · show (∀ c ∈ o₂.cons, c.sat ⟨s, h'.upar, h'.lpar⟩) ↔ _
        rw [b₂.sat]
        unfold docConvex
        have : pieceSat (sumPiece b)
            ⟨s, h'.upar, h'.lpar⟩ ↔ (b = true → ∑ i, s.w i = 1) := by
          cases b
          · simp [sumPiece, pieceSat]
          · simp [sumPiece, pieceSat, sat_sum, always]
        rw [this]
        simp [Within]
    have hpars : libPars (optOf ob o₂.cons).pars = [] := by
      show libPars (o₂.cons.flatMap _ ++ ob.body.params) = []
      rw [libPars_append, k5]
      obtain ⟨b₁, b₂, us, es, c1, c2, c3, c4, c5⟩ := b₂.cons
      rw [c1, List.flatMap_cons, List.flatMap_cons, c2.2.1, c3.2.1, List.flatMap_append, forall₂_pars_piece c5]
      simp only [libPars_append, forall₂_pars_user hU c4]
      cases b <;> rfl
    obtain ⟨w, vals, hc, -, -⟩ := callSolver_run (S := S) (optOf ob o₂.cons)
      { o₂ with opt := some (optOf ob o₂.cons) } { h with nextId := j }
    rw [hprob] at hc
    rw [hsolve, hc]
    have hle : h.nextId ≤ j := le_trans (Nat.le_add_right _ _) hj
    have hor : idLt j ob.id ∧ ∀ nb, Origin U D cfg (optOf ob o₂.cons) nb := by
      rcases sumObj_id (U.mkObj i) o.added h.nextId with ⟨q1, q2⟩ | ⟨k, q1, q2, q3⟩
      · have e : ob = U.mkObj i := q2
        refine ⟨by rw [e]; trivial, fun nb => .convex i b e hpars hprob⟩
      · refine ⟨?_, fun nb => .once k q1 hpars⟩
        have : ob.id = .lib k := q1
        rw [this]
        exact lt_of_lt_of_le q3 hj
    refine ⟨.inr ⟨optOf ob o₂.cons, ⟨rfl, b₂.added, rfl, rfl, hprop, hprop, .inl h2, .inl rfl, hor.1, b₂.ids,
      hor.2 _⟩⟩, hle, [], .inl rfl, .inr ⟨_, _, .convex i b b rfl (.inl rfl), ?_, ?_⟩⟩
    · rw [outcomeF_w, List.append_nil]
    · simp
  · -- solved before
    have hob : (sumObj (U.mkObj i) o.added h.nextId).id = p.obj.id →
        o.added = [] ∧ p.obj = U.mkObj i ∧ sumObj (U.mkObj i) o.added h.nextId = U.mkObj i := by
      intro hid
      rcases sumObj_id (U.mkObj i) o.added h.nextId with ⟨q1, q2⟩ | ⟨k, q1, q2, q3⟩
      · rw [q2] at hid
        cases s.origin with
        | once k hk hp => rw [hk] at hid; cases hid
        | target _ _ _ _ _ k hk => rw [hk] at hid; cases hid
        | convex i' b' hid' hp hd =>
          rw [hid'] at hid
          have : i = i' := by
            have : (Ref.usr i) = Ref.usr i' := hid
            cases this; rfl
          subst this
          exact ⟨q1, hid', q2⟩
      · exfalso
        have := s.idObj
        rw [← hid, q1] at this
        exact absurd (lt_of_lt_of_le this q2) (lt_irrefl _)
    let o₁ : OState n := { o with objective := some (sumObj (U.mkObj i) o.added h.nextId) }
    let h₁ : Heap n := { h with nextId := h.nextId + o.added.length }
    have hle : h.nextId ≤ h₁.nextId := Nat.le_add_right _ _
    have s₁ : Solved U D cfg o₁ h₁ p := by
      refine ⟨s.opt, s.added, s.initObj, s.initCons, s.properP, s.properO, ?_, s.cons, s.idObj.mono hle,
        fun c hc => (s.ids c hc).mono hle, s.origin⟩
      by_cases hid : (sumObj (U.mkObj i) o.added h.nextId).id = p.obj.id
      · obtain ⟨-, q2, q3⟩ := hob hid
        left
        show some (sumObj _ _ _) = _
        rw [q3, q2]
      · exact .inr ⟨_, rfl, hid⟩
    have hsome : o.opt.isSome = true := by rw [s.opt]; rfl
    cases b with
    | true =>
      have : ((if true = true then addLib (sumCon 1) else pure ()) >>= fun _ => solve S) o₁ h₁ =
          (.error .instantiation, o₁, h₁) := bind_err (addLib_solved _ _ o₁ h₁ s₁.opt)
      rw [this]
      exact ⟨.inr ⟨p, s₁⟩, hle, [], .inl rfl, .inl ⟨_, rfl, by simp [h₁]⟩⟩
    | false =>
      have : ((if false = true then addLib (sumCon 1) else pure ()) >>= fun _ => solve S) o₁ h₁ = solve S o₁ h₁ := rfl
      rw [this]
      rcases solve_solved (S := S) s₁ with ⟨e, he⟩ | ⟨k1, k2, k3⟩
      · rw [he]
        exact ⟨.inr ⟨p, s₁⟩, hle, [], .inl rfl, .inl ⟨_, rfl, by simp [h₁]⟩⟩
      · have hid : (sumObj (U.mkObj i) o.added h.nextId).id = p.obj.id := by
          have : some (sumObj (U.mkObj i) o.added h.nextId) = some p.obj := k1
          rw [Option.some.inj this]
        obtain ⟨-, q2, q3⟩ := hob hid
        have hd : ∃ b', ∀ h, p.prob h = docConvex U cfg h.upar i b' := by
          cases s.origin with
          | once k hk hp => rw [q2] at hk; cases hk
          | target _ _ _ _ _ k hk => rw [q2] at hk; cases hk
          | convex i' b' hid' hp hd =>
            rw [q2] at hid'
            have : i = i' := by
              have : (Ref.usr i) = Ref.usr i' := congrArg Obj.id hid'
              cases this; rfl
            subst this
            exact ⟨b', hd⟩
        obtain ⟨b', hd⟩ := hd
        obtain ⟨w, vals, hc, -, -⟩ := callSolver_run (S := S) p o₁ h₁
        rw [hd] at hc
        rw [k3, hc]
        refine ⟨.inr ⟨p, ⟨s₁.opt, s₁.added, s₁.initObj, s₁.initCons, s₁.properP, s₁.properO, s₁.objective, s₁.cons,
          s₁.idObj, s₁.ids, s₁.origin⟩⟩, hle, [], .inl rfl,
          .inr ⟨_, _, .convex i false b' rfl (.inr ⟨hsome, rfl⟩), ?_, ?_⟩⟩
        · rw [outcomeF_w, List.append_nil]
        · simp [h₁]

end Verif.Convex
