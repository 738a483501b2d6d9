import Verif.Proof.ConvexHistory
import Verif.Spec.Retarget

/-! Calls that must reach the solver: first calls with complete data, and new targets. -/

noncomputable section

namespace Verif.Convex
open Verif.Py Verif.Base Matrix

variable {n : ℕ} {U : Uni n} {S : Solver n} {D : Data n} {cfg : Cfg n} {o : OState n} {h : Heap n}

/-! ### Building a first problem does not fail -/

/-- Not optimised, with constraints and additional objectives that cvxpy accepts; with `b` there is a
scalar objective. -/
structure Rdy (b : Bool) (o : OState n) : Prop where
  opt : o.opt = none
  proper : ∀ c ∈ o.cons, Proper c.body
  added : ∀ x ∈ o.added, x.body.scalar = true
  obj : b = true → ∃ ob, o.objective = some ob ∧ ob.body.scalar = true

/-- The program does not raise. -/
def Runs (b b' : Bool) {α : Type} (x : M n α) : Prop :=
  ∀ o h, Rdy b o → ∃ a o' h', x o h = (.ok a, o', h') ∧ Rdy b' o' ∧ h'.log = h.log

namespace Runs
variable {b b' b'' : Bool}

theorem bind {α β : Type} {x : M n α} {f : α → M n β} (hx : Runs b b' x) (hf : ∀ a, Runs b' b'' (f a)) :
    Runs b b'' (x >>= f) := by
  intro o h r
  obtain ⟨a, o', h', e, r', l⟩ := hx o h r
  obtain ⟨y, o'', h'', e', r'', l'⟩ := hf a o' h' r'
  exact ⟨y, o'', h'', by rw [bind_ok e, e'], r'', l'.trans l⟩

theorem pure {α : Type} (a : α) : Runs b b (pure a : M n α) := fun o h r => ⟨a, o, h, rfl, r, rfl⟩

theorem freshVar : Runs b b (freshVar : M n _) := fun _ _ r => ⟨_, _, _, rfl, r, rfl⟩

theorem setObjective (ps : List Par) (f : Env n → EReal) : Runs b true (setObjective ps f) :=
  fun o h r => ⟨_, _, _, setObjective_run ps f o h, ⟨r.opt, r.proper, r.added, fun _ => ⟨_, rfl, rfl⟩⟩, rfl⟩

theorem addAll : Runs true true (addAll : M n _) := by
  intro o h r
  obtain ⟨ob, ho, hs⟩ := r.obj rfl
  exact ⟨_, _, _, addAll_run ob o h ho,
    ⟨r.opt, r.proper, r.added, fun _ => ⟨_, rfl, sumObj_scalar _ _ _ hs r.added⟩⟩, rfl⟩

theorem addLib {c : ConBody Par (Env n)} (hc : Proper c) (d : Env n → Prop) : Runs b b (addLib c d) := by
  intro o h r
  refine ⟨_, _, _, addLib_run c d o h r.opt, ⟨r.opt, ?_, r.added, r.obj⟩, rfl⟩
  intro x hx
  rcases List.mem_append.1 hx with hx | hx
  · exact r.proper x hx
  · rw [List.mem_singleton.1 hx]; exact hc

theorem newPar (nm : String) (v : ℝ) (nn : Bool) (hv : nn = true → 0 ≤ v) : Runs b b (newPar nm v nn : M n _) :=
  fun o h r => ⟨_, _, _, newPar_run nm v nn o h (fun hn => absurd hn.2 (not_lt.2 (hv hn.1))), r, rfl⟩

theorem modify {f : OState n → OState n} (hf : ∀ o, Rdy b o → Rdy b (f o)) : Runs b b (modify f) :=
  fun o _ r => ⟨_, _, _, rfl, hf o r, rfl⟩

theorem makeWeightSum (mn : Bool) : Runs b b (makeWeightSum mn : M n _) := by
  refine bind ?_ fun _ => modify fun o r => ⟨r.opt, r.proper, r.added, r.obj⟩
  unfold sumConstraint
  cases mn with
  | false => exact addLib (proper_eq _ _) _
  | true =>
    refine bind ?_ fun _ => addLib (proper_eq _ _) _
    intro o h r
    unfold amendBounds
    rw [bind_ok (a := o) (o' := o) (h' := h) rfl]
    split
    · have h1 : Runs b b (mapBounds (fun _ => -1) (fun _ => 1) : M n Unit) :=
        bind (modify (f := fun o => { o with lb := fun _ => -1, ub := fun _ => 1 }) fun o r =>
          ⟨r.opt, r.proper, r.added, r.obj⟩) fun _ => bind (addLib (proper_ineq _ _) _) fun _ =>
          addLib (proper_ineq _ _) _
      have h2 : Runs b b (Convex.modify (fun o : OState n => { o with cons := o.cons.drop 2 })) :=
        modify fun o r => ⟨r.opt, fun c hc => r.proper c (List.mem_of_mem_drop hc), r.added, r.obj⟩
      exact bind h1 (fun _ => h2) o h r
    · exact pure _ o h r

theorem varianceExpr (hs : D.symOk = true) : Runs b b (varianceExpr D) := by
  unfold Convex.varianceExpr; rw [if_pos hs]; exact pure _

theorem returnExpr (hm : D.mu.isSome = true) (neg : Bool) : Runs b b (returnExpr D neg) := by
  unfold Convex.returnExpr
  cases hmu : D.mu with
  | none => rw [hmu] at hm; cases hm
  | some mu => exact pure _

theorem muTimesW (hm : D.mu.isSome = true) : Runs b b (muTimesW D) := by
  unfold Convex.muTimesW
  cases hmu : D.mu with
  | none => rw [hmu] at hm; cases hm
  | some mu => exact pure _

theorem tailCoef (ht : (D.T : ℝ) * (1 - D.beta) ≠ 0) : Runs b b (tailCoef D) := by
  unfold Convex.tailCoef; rw [if_neg ht]; exact pure _

theorem cvarExpr (ht : (D.T : ℝ) * (1 - D.beta) ≠ 0) : Runs b b (cvarExpr D) :=
  bind (tailCoef ht) fun _ => pure _

theorem cdarExpr (ht : (D.T : ℝ) * (1 - D.beta) ≠ 0) : Runs b b (cdarExpr D) :=
  bind (tailCoef ht) fun _ => pure _

theorem cvarCons : Runs b b (cvarCons D) :=
  bind (addLib (proper_ineq _ _) _) fun _ => addLib (proper_ineq _ _) _

theorem cdarCons : Runs b b (cdarCons D) :=
  bind (addLib (proper_ineq _ _) _) fun _ => bind (addLib (proper_ineq _ _) _) fun _ =>
    bind (addLib (proper_eq _ _) _) fun _ => bind (addLib (proper_ineq _ _) _) fun _ => addLib (proper_ineq _ _) _

theorem semiCon (p q : ℕ) : Runs b b (semiCon D p q) := addLib (proper_eq _ _) _

theorem buildCdar (ht : (D.T : ℝ) * (1 - D.beta) ≠ 0) (mn : Bool) : Runs b true (buildCdar D mn) :=
  bind (cdarExpr ht) fun _ => bind (setObjective _ _) fun _ => bind addAll fun _ => bind cdarCons fun _ =>
    makeWeightSum mn

end Runs

/-- Solving a problem that has been built calls the solver. -/
theorem Runs.reach {build : M n Unit} (hb : Runs false true build) (r : Rdy false o) :
    ((build >>= fun _ => solve S) o h).2.2.log ≠ h.log := by
  obtain ⟨a, o', h', e, r', l⟩ := hb o h r
  obtain ⟨ob, ho, hs⟩ := r'.obj rfl
  rw [bind_ok e, solve_fresh r'.opt ho hs r'.proper]
  obtain ⟨w, vals, hc, -, -⟩ := callSolver_run (S := S) (optOf ob o'.cons) { o' with opt := some (optOf ob o'.cons) } h'
  rw [hc]
  show h'.log ++ _ ≠ h.log
  rw [l]
  simp

theorem Base.rdy (hU : Usable U D) (b : Base U cfg o h []) : Rdy false o := by
  refine ⟨b.opt, b.proper hU (by simp), ?_, nofun⟩
  intro x hx
  rw [b.added] at hx
  obtain ⟨i, -, rfl⟩ := List.mem_map.1 hx
  exact mkObj_scalar hU i

theorem Runs.target (hU : Usable U D) (b : Base U cfg o h [])
    (hob : ∀ ob, o.objective = some ob → libPars ob.body.params = []) {nm : String} (hn : nm ∈ libNames) (mn : Bool)
    (v : ℝ) {build : M n Unit} (hb : Runs false true build) :
    (withParameter S nm mn v build o h).2.2.log ≠ h.log := by
  rw [withParameter_clean hU b hob hn]
  exact hb.reach (b.rdy hU)

/-! ### From `MPost` to `Passes` -/

theorem returned_eq (a : Answer n) : Returned a = (outcome a).map some := by
  cases a with
  | raised e => cases e <;> rfl
  | _ => rfl

theorem MPost.passes {c : Call n} {r : Except PyErr (Fin n → ℝ) × OState n × Heap n} (m : MPost U S D cfg c o h r)
    (hl : r.2.2.log ≠ h.log) : Passes U S D cfg c h (r.1.map some, r.2.1, r.2.2) := by
  rcases m.res with ⟨e, -, h2⟩ | ⟨v, q, h1, h2, h3⟩
  · exact absurd h2 hl
  · exact ⟨v, q, h1, by rw [returned_eq, h2], h3⟩

/-- What is proved of a call that must reach the solver. -/
def Reaches (U : Uni n) (S : Solver n) (D : Data n) (cfg : Cfg n) (c : Call n) (h : Heap n)
    (r : Except PyErr (Option (Fin n → ℝ)) × OState n × Heap n) : Prop :=
  Passes U S D cfg c h r ∧ ((pname D.kind c).isSome = true → Live U D cfg r.2.1 r.2.2 c)

theorem MPost.reaches {c : Call n} {r : Except PyErr (Fin n → ℝ) × OState n × Heap n} (m : MPost U S D cfg c o h r)
    (hl : r.2.2.log ≠ h.log) : Reaches U S D cfg c h (r.1.map some, r.2.1, r.2.2) :=
  ⟨m.passes hl, fun hp => m.live hp hl⟩

/-! ### First calls -/

/-- `run` of an optimisation method, as the method followed by wrapping the weights. -/
theorem reaches_some {c : Call n} {x : M n (Fin n → ℝ)} (hx : run U S D c = (x >>= fun w => pure (some w)))
    (m : MPost U S D cfg c o h (x o h)) (hl : (x o h).2.2.log ≠ h.log) :
    Reaches U S D cfg c h (run U S D c o h) := by
  rw [hx, some_run]; exact m.reaches hl

/-- A first call with complete data and an accepted argument reaches the solver. -/
theorem fresh_reaches (hU : Usable U D) (g : Good U D cfg o h) (ho : o.opt = none) {c : Call n}
    (hc : Complete D c) (ha : Accepts D c) (hne : ∀ f t mn, D.kind = .ef → c ≠ .efficientReturn f t mn) :
    Reaches U S D cfg c h (run U S D c o h) := by
  have g' := g
  rcases g' with ⟨b, hob⟩ | ⟨p, s⟩
  swap
  · rw [s.opt] at ho; cases ho
  cases c with
  | minVolatility =>
    obtain ⟨hk, hs⟩ := hc
    refine reaches_some (by simp only [run, hk]) (minVolatility_post hU hk g) ?_
    have hb : Runs false true (do
        let v ← varianceExpr D
        setObjective [] (fun e => (v e.asg : EReal))
        addAll
        addLib (sumCon 1)) :=
      .bind (.varianceExpr hs) fun _ => .bind (.setObjective _ _) fun _ => .bind .addAll fun _ =>
        .addLib (proper_eq _ _) _
    have := hb.reach (S := S) (h := h) (b.rdy hU)
    simp only [massoc] at this
    exact this
  | maxUtility r mn =>
    have hr : ¬ r ≤ 0 := not_le.2 ha
    obtain ⟨hk | hk, hm⟩ := hc
    · obtain ⟨hk, hs⟩ := hk
      refine reaches_some (by simp only [run, hk]) (maxUtility_post hU hk g r mn) ?_
      unfold maxUtility
      rw [if_neg hr]
      exact Runs.target hU b hob (by decide) _ _ (.bind (.returnExpr hm _) fun _ => .bind (.varianceExpr hs) fun _ =>
        .bind (.newPar _ _ _ fun _ => le_of_lt ha) fun _ => .bind (.setObjective _ _) fun _ => .bind .addAll fun _ =>
        .makeWeightSum _)
    · refine reaches_some (by simp only [run, hk]) (semiUtility_post hU hk g r mn) ?_
      unfold semiUtility
      rw [if_neg hr]
      exact Runs.target hU b hob (by decide) _ _ (.bind .freshVar fun _ => .bind .freshVar fun _ =>
        .bind (.returnExpr hm _) fun _ => .bind (.newPar _ _ _ fun _ => le_of_lt ha) fun _ =>
        .bind (.setObjective _ _) fun _ => .bind .addAll fun _ => .bind (.semiCon _ _) fun _ => .makeWeightSum _)
  | efficientRisk t mn =>
    obtain ⟨hs, hm⟩ := hc
    cases hk : D.kind with
    | ef =>
      have ha : 0 ≤ t ∧ ¬ numLt t (globalMinVol D) := by simpa only [Accepts, hk] using ha
      refine reaches_some (by simp only [run, hk]) (efficientRisk_post hU hk g t mn) ?_
      unfold efficientRisk
      rw [if_neg (not_lt.2 ha.1), if_neg ha.2]
      exact Runs.target hU b hob (by decide) _ _ (.bind (.returnExpr hm _) fun _ => .bind (.setObjective _ _) fun _ =>
        .bind (.varianceExpr (hs hk)) fun _ => .bind .addAll fun _ => .bind (.newPar _ _ _ fun _ => sq_nonneg t) fun _ =>
        .bind (.addLib (proper_ineq _ _) _) fun _ => .makeWeightSum _)
    | cvar =>
      have ha : 0 ≤ t := by simpa only [Accepts, hk] using ha
      have ht := hU.tail (.inl hk)
      refine reaches_some (by simp only [run, hk]) (cvarRisk_post hU hk g t mn) ?_
      exact Runs.target hU b hob (by decide) _ _ (.bind (.returnExpr hm _) fun _ => .bind (.setObjective _ _) fun _ =>
        .bind .addAll fun _ => .bind (.cvarExpr ht) fun _ => .bind (.newPar _ _ _ fun _ => ha) fun _ =>
        .bind (.addLib (proper_ineq _ _) _) fun _ => .bind .cvarCons fun _ => .makeWeightSum _)
    | cdar =>
      have ha : 0 ≤ t := by simpa only [Accepts, hk] using ha
      have ht := hU.tail (.inr hk)
      refine reaches_some (by simp only [run, hk]) (cdarRisk_post hU hk g t mn) ?_
      exact Runs.target hU b hob (by decide) _ _ (.bind (.returnExpr hm _) fun _ => .bind (.setObjective _ _) fun _ =>
        .bind .addAll fun _ => .bind (.cdarExpr ht) fun _ => .bind (.newPar _ _ _ fun _ => ha) fun _ =>
        .bind (.addLib (proper_ineq _ _) _) fun _ => .bind .cdarCons fun _ => .makeWeightSum _)
    | semi =>
      refine reaches_some (by simp only [run, hk]) (semiRisk_post hU hk g t mn) ?_
      exact Runs.target hU b hob (by decide) _ _ (.bind (.returnExpr hm _) fun _ => .bind (.setObjective _ _) fun _ =>
        .bind .addAll fun _ => .bind .freshVar fun _ => .bind .freshVar fun _ =>
        .bind (.newPar _ _ _ fun _ => sq_nonneg t) fun _ =>
        .bind (.addLib (proper_ineq _ _) _) fun _ => .bind (.semiCon _ _) fun _ => .makeWeightSum _)
  | efficientReturn f t mn =>
    obtain ⟨-, hm⟩ := hc
    cases hk : D.kind with
    | ef => exact absurd rfl (hne f t mn hk)
    | cvar =>
      have ht := hU.tail (.inl hk)
      refine reaches_some (by simp only [run, hk]) (cvarReturn_post hU hk g f t mn) ?_
      exact Runs.target hU b hob (by decide) _ _ (.bind (.cvarExpr ht) fun _ => .bind (.setObjective _ _) fun _ =>
        .bind .addAll fun _ => .bind .cvarCons fun _ => .bind (.muTimesW hm) fun _ => .bind (.newPar _ _ _ nofun) fun _ =>
        .bind (.addLib (proper_ineq _ _) _) fun _ => .makeWeightSum _)
    | cdar =>
      have ha : 0 ≤ t := by simpa only [Accepts, hk] using ha
      have ht := hU.tail (.inr hk)
      refine reaches_some (by simp only [run, hk]) (cdarReturn_post hU hk g f t mn) ?_
      exact Runs.target hU b hob (by decide) _ _ (.bind (.muTimesW hm) fun _ => .bind (.newPar _ _ _ fun _ => ha) fun _ =>
        .bind (.addLib (proper_ineq _ _) _) fun _ => .buildCdar ht _)
    | semi =>
      have ha : f = true ∧ 0 ≤ t ∧ ∃ mu, D.mu = some mu ∧ ∃ i, t ≤ |mu i| := by simpa only [Accepts, hk] using ha
      obtain ⟨rfl, h0, mu, hmu, i, hi⟩ := ha
      refine reaches_some (by simp only [run, hk]) (semiReturn_post hU hk g true t mn) ?_
      unfold semiReturn
      rw [if_neg (by simp [h0]), hmu]
      dsimp only
      rw [if_neg (fun hall => absurd (hall i) (not_lt.2 hi))]
      exact Runs.target hU b hob (by decide) _ _ (.bind .freshVar fun _ => .bind .freshVar fun _ =>
        .bind (.setObjective _ _) fun _ => .bind .addAll fun _ => .bind (.newPar _ _ _ nofun) fun _ =>
        .bind (.addLib (proper_ineq _ _) _) fun _ => .bind (.semiCon _ _) fun _ => .makeWeightSum _)
  | minCvar mn =>
    have hk : D.kind = .cvar := hc
    refine reaches_some (by simp only [run, hk]) (minCvar_post hU hk g mn) ?_
    have hb : Runs false true (do
        let v ← cvarExpr D
        setObjective [] (fun e => (v e.asg : EReal))
        addAll
        cvarCons D
        makeWeightSum mn) :=
      .bind (.cvarExpr (hU.tail (.inl hk))) fun _ => .bind (.setObjective _ _) fun _ => .bind .addAll fun _ =>
        .bind .cvarCons fun _ => .makeWeightSum _
    have := hb.reach (S := S) (h := h) (b.rdy hU)
    simp only [massoc] at this
    exact this
  | minCdar mn =>
    have hk : D.kind = .cdar := hc
    refine reaches_some (by simp only [run, hk]) (minCdar_post hU hk g mn) ?_
    exact (Runs.buildCdar (hU.tail (.inr hk)) mn).reach (S := S) (h := h) (b.rdy hU)
  | minSemi mn =>
    have hk : D.kind = .semi := hc
    refine reaches_some (by simp only [run, hk]) (minSemi_post hU hk g mn) ?_
    have hb : Runs false true (do
        let p ← freshVar
        let q ← freshVar
        setObjective [] (fun e => (sumSquares D q e.asg : EReal))
        addAll
        semiCon D p q
        makeWeightSum mn) :=
      .bind .freshVar fun _ => .bind .freshVar fun _ => .bind (.setObjective _ _) fun _ => .bind .addAll fun _ =>
        .bind (.semiCon _ _) fun _ => .makeWeightSum _
    have := hb.reach (S := S) (h := h) (b.rdy hU)
    simp only [massoc] at this
    exact this
  | _ => exact absurd hc (by simp [Complete])

/-! ### New targets -/

theorem Live.congr {c c' : Call n} (l : Live U D cfg o h c) {nm : String} (hc : pname D.kind c = some nm)
    (hc' : pname D.kind c' = some nm) (hm : mnOf c = mnOf c') : Live U D cfg o h c' := by
  obtain ⟨p, v, nm', a, l⟩ := l
  have : nm' = nm := Option.some.inj (l.name.symm.trans hc)
  subst this
  refine ⟨p, v, nm', a, l.solved, l.obj, l.cons, hc', ?_, ?_, ?_⟩
  · rw [← nnOf_congr hc hc']; exact l.par
  · rw [← hm]; exact l.neutral
  · rw [← fam_congr hc hc' hm]; exact l.req

theorem LiveAt.isDefined {c : Call n} {p : Opt n} {v a : ℕ} {nm : String} (l : LiveAt U D cfg o h c p v nm a) :
    named nm o = [⟨nm, nnOf D c, .lib a⟩] ∧ isDefined nm o h = (.ok true, o, h) := by
  have hall : allPars o = p.pars := by
    unfold allPars Opt.pars; rw [l.obj, l.cons]
  have e : named nm o = [⟨nm, nnOf D c, .lib a⟩] := by
    rw [named_eq nm o l.solved.properO, filter_libPars (pname_mem l.name), hall, l.par]; simp
  refine ⟨e, ?_⟩
  rw [isDefined_eq nm o h l.solved.properO, e]
  simp

theorem validate_run (mn : Bool) (o : OState n) (h : Heap n) : validateNeutral mn o h =
    if o.neutral ≠ some mn then (.error .instantiation, o, h) else (.ok (), o, h) := by
  unfold validateNeutral
  rw [bind_ok (a := o) (o' := o) (h' := h) rfl]
  split <;> rfl

/-- A new accepted target on a problem that is current reaches the solver. -/
theorem live_reach {c : Call n} (l : Live U D cfg o h c) {nm : String} (hc : pname D.kind c = some nm) {mn : Bool}
    (hm : mn = mnOf c) {x : ℝ} (hx : x = parVal D c) (hv : nnOf D c = true → 0 ≤ x) {build : M n Unit} :
    (withParameter S nm mn x build o h).2.2.log ≠ h.log := by
  subst hm
  obtain ⟨p, v, nm', a, l⟩ := l
  have : nm' = nm := Option.some.inj (l.name.symm.trans hc)
  subst this
  obtain ⟨e1, e2⟩ := l.isDefined
  have hnot : ¬ (nnOf D c = true ∧ x < 0) := fun hn => absurd hn.2 (not_lt.2 (hv hn.1))
  let h' : Heap n := { h with lpar := Function.update h.lpar a x }
  have hupd : updatePar nm' x o h = (.ok (), o, h') := by
    have : updatePar nm' x o h = setPars x (named nm' o) o h := by
      unfold updatePar
      rw [bind_ok e2]
      rfl
    rw [this, e1]
    unfold setPars
    rw [if_neg hnot]
    rfl
  have hrun : withParameter S nm' (mnOf c) x build o h = solve S o h' := by
    unfold withParameter
    rw [bind_ok e2, if_pos rfl]
    have hval := validate_run (mnOf c) o h
    rw [if_neg (not_not.2 l.neutral)] at hval
    rw [bind_ok hval, bind_ok hupd]
  rw [hrun]
  have s' : Solved U D cfg o h' p := l.solved.mono le_rfl
  have hs : solve S o h' = callSolver S p o h' := by
    unfold solve
    rw [bind_ok (a := o) (o' := o) (h' := h') rfl, s'.opt]
    dsimp only
    rw [l.obj]
    dsimp only
    rw [if_neg (not_not.2 s'.initObj.symm)]
    rw [bind_ok (a := o.cons.map Con.id) (o' := o) (h' := h')
      (by show (idsOf o.cons, o, h') = _; rw [idsOf_proper _ s'.properO])]
    rw [s'.initCons]
    dsimp only
    rw [l.cons, sameIds_refl]
    rfl
  obtain ⟨w, vals, hcs, -, -⟩ := callSolver_run (S := S) p o h'
  rw [hs, hcs]
  show h.log ++ _ ≠ h.log
  simp

/-- A change of market neutrality is refused. -/
theorem live_neutral {c : Call n} (l : Live U D cfg o h c) {nm : String} (hc : pname D.kind c = some nm) {mn : Bool}
    (hm : mn ≠ mnOf c) {x : ℝ} {build : M n Unit} :
    withParameter S nm mn x build o h = (.error .instantiation, o, h) := by
  obtain ⟨p, v, nm', a, l⟩ := l
  have : nm' = nm := Option.some.inj (l.name.symm.trans hc)
  subst this
  obtain ⟨e1, e2⟩ := l.isDefined
  unfold withParameter
  rw [bind_ok e2, if_pos rfl]
  have hval := validate_run mn o h
  rw [if_pos (by rw [l.neutral]; simpa using hm.symm)] at hval
  rw [bind_err hval]

/-- The next target on a current problem. -/
theorem live_reaches (hU : Usable U D) {c : Call n} (l : Live U D cfg o h c) (ha : Accepts D c)
    (hne : ∀ f t mn, D.kind = .ef → c ≠ .efficientReturn f t mn) :
    Reaches U S D cfg c h (run U S D c o h) := by
  have g : Good U D cfg o h := by obtain ⟨p, v, nm, a, l⟩ := l; exact .inr ⟨p, l.solved⟩
  have hnm : ∃ nm, pname D.kind c = some nm := by obtain ⟨p, v, nm, a, l⟩ := l; exact ⟨nm, l.name⟩
  cases c with
  | maxUtility r mn =>
    have hr : ¬ r ≤ 0 := not_le.2 ha
    cases hk : D.kind with
    | ef =>
      refine reaches_some (by simp only [run, hk]) (maxUtility_post hU hk g r mn) ?_
      unfold maxUtility
      rw [if_neg hr]
      exact live_reach l (by simp [pname, hk]) rfl rfl fun _ => le_of_lt ha
    | semi =>
      refine reaches_some (by simp only [run, hk]) (semiUtility_post hU hk g r mn) ?_
      unfold semiUtility
      rw [if_neg hr]
      exact live_reach l (by simp [pname, hk]) rfl rfl fun _ => le_of_lt ha
    | _ => simp [pname, hk] at hnm
  | efficientRisk t mn =>
    cases hk : D.kind with
    | ef =>
      have ha : 0 ≤ t ∧ ¬ numLt t (globalMinVol D) := by simpa only [Accepts, hk] using ha
      refine reaches_some (by simp only [run, hk]) (efficientRisk_post hU hk g t mn) ?_
      unfold efficientRisk
      rw [if_neg (not_lt.2 ha.1), if_neg ha.2]
      exact live_reach l (by simp [pname, hk]) rfl (by simp [parVal, hk]) fun _ => sq_nonneg t
    | cvar =>
      have ha : 0 ≤ t := by simpa only [Accepts, hk] using ha
      refine reaches_some (by simp only [run, hk]) (cvarRisk_post hU hk g t mn) ?_
      exact live_reach l (by simp [pname, hk]) rfl (by simp [parVal, hk]) fun _ => ha
    | cdar =>
      have ha : 0 ≤ t := by simpa only [Accepts, hk] using ha
      refine reaches_some (by simp only [run, hk]) (cdarRisk_post hU hk g t mn) ?_
      exact live_reach l (by simp [pname, hk]) rfl (by simp [parVal, hk]) fun _ => ha
    | semi =>
      refine reaches_some (by simp only [run, hk]) (semiRisk_post hU hk g t mn) ?_
      exact live_reach l (by simp [pname, hk]) rfl (by simp [parVal, hk]) fun _ => sq_nonneg t
  | efficientReturn f t mn =>
    cases hk : D.kind with
    | ef => exact absurd rfl (hne f t mn hk)
    | cvar =>
      refine reaches_some (by simp only [run, hk]) (cvarReturn_post hU hk g f t mn) ?_
      exact live_reach l (by simp [pname]) rfl rfl fun hn => by simp [nnOf, hk] at hn
    | cdar =>
      have ha : 0 ≤ t := by simpa only [Accepts, hk] using ha
      refine reaches_some (by simp only [run, hk]) (cdarReturn_post hU hk g f t mn) ?_
      exact live_reach l (by simp [pname]) rfl rfl fun _ => ha
    | semi =>
      have ha : f = true ∧ 0 ≤ t ∧ ∃ mu, D.mu = some mu ∧ ∃ i, t ≤ |mu i| := by simpa only [Accepts, hk] using ha
      obtain ⟨rfl, h0, mu, hmu, i, hi⟩ := ha
      refine reaches_some (by simp only [run, hk]) (semiReturn_post hU hk g true t mn) ?_
      unfold semiReturn
      rw [if_neg (by simp [h0]), hmu]
      dsimp only
      rw [if_neg (fun hall => absurd (hall i) (not_lt.2 hi))]
      exact live_reach l (by simp [pname]) rfl rfl fun hn => by simp [nnOf, hk] at hn
  | _ => simp [pname] at hnm

theorem Live.mu {c : Call n} (l : Live U D cfg o h c) : ∃ mu, D.mu = some mu := by
  obtain ⟨p, v, nm, a, l⟩ := l
  cases hmu : D.mu with
  | some mu => exact ⟨mu, rfl⟩
  | none =>
    obtain ⟨q, hq, -⟩ := l.req h
    have hn := l.name
    cases hk : D.kind <;> cases c <;> simp [pname, hk] at hn <;> simp [fam, ask, hk, hmu] at hq

/-- A target outside the accepted range is refused and nothing changes. -/
theorem live_par_refused {c : Call n} (l : Live U D cfg o h c) {nm : String} (hc : pname D.kind c = some nm)
    {mn : Bool} (hm : mn = mnOf c) {x : ℝ} (hn : nnOf D c = true) (hx : x < 0) {build : M n Unit} :
    withParameter S nm mn x build o h = (.error .valueError, o, h) := by
  subst hm
  obtain ⟨p, v, nm', a, l⟩ := l
  have : nm' = nm := Option.some.inj (l.name.symm.trans hc)
  subst this
  obtain ⟨e1, e2⟩ := l.isDefined
  have hupd : updatePar nm' x o h = (.error .valueError, o, h) := by
    have : updatePar nm' x o h = setPars x (named nm' o) o h := by
      unfold updatePar
      rw [bind_ok e2]
      rfl
    rw [this, e1]
    unfold setPars
    rw [if_pos ⟨hn, hx⟩]
  unfold withParameter
  rw [bind_ok e2, if_pos rfl]
  have hval := validate_run (mnOf c) o h
  rw [if_neg (not_not.2 l.neutral)] at hval
  rw [bind_ok hval, bind_err hupd]

theorem some_err {c : Call n} {x : M n (Fin n → ℝ)} {e : PyErr} (hx : run U S D c = (x >>= fun w => pure (some w)))
    (he : x o h = (.error e, o, h)) : run U S D c o h = (.error e, o, h) := by
  rw [hx, bind_err he]

theorem live_rejects {c : Call n} (l : Live U D cfg o h c) (ha : ¬ Accepts D c) :
    run U S D c o h = (.error .valueError, o, h) := by
  have hnm : ∃ nm, pname D.kind c = some nm := by obtain ⟨p, v, nm, a, l⟩ := l; exact ⟨nm, l.name⟩
  obtain ⟨mu, hmu⟩ := l.mu
  cases c with
  | maxUtility r mn =>
    have hr : r ≤ 0 := not_lt.1 ha
    cases hk : D.kind with
    | ef =>
      refine some_err (x := maxUtility S D r mn) (by simp only [run, hk]) ?_
      unfold maxUtility; rw [if_pos hr]; rfl
    | semi =>
      refine some_err (x := semiUtility S D r mn) (by simp only [run, hk]) ?_
      unfold semiUtility; rw [if_pos hr]; rfl
    | _ => simp [pname, hk] at hnm
  | efficientRisk t mn =>
    cases hk : D.kind with
    | ef =>
      have ha : ¬ (0 ≤ t ∧ ¬ numLt t (globalMinVol D)) := by simpa only [Accepts, hk] using ha
      refine some_err (x := efficientRisk S D t mn) (by simp only [run, hk]) ?_
      unfold efficientRisk
      by_cases h0 : t < 0
      · rw [if_pos h0]; rfl
      · rw [if_neg h0, if_pos (by by_contra hn; exact ha ⟨not_lt.1 h0, hn⟩)]; rfl
    | cvar =>
      have ha : t < 0 := by simpa only [Accepts, hk, not_le] using ha
      refine some_err (x := cvarRisk S D t mn) (by simp only [run, hk]) ?_
      exact live_par_refused l (by simp [pname, hk]) rfl rfl ha
    | cdar =>
      have ha : t < 0 := by simpa only [Accepts, hk, not_le] using ha
      refine some_err (x := cdarRisk S D t mn) (by simp only [run, hk]) ?_
      exact live_par_refused l (by simp [pname, hk]) rfl rfl ha
    | semi => simp [Accepts, hk] at ha
  | efficientReturn f t mn =>
    cases hk : D.kind with
    | ef =>
      have ha : f = false := by simpa [Accepts, hk] using ha
      subst ha
      exact some_err (x := efficientReturn S D false t mn) (by simp only [run, hk]) rfl
    | cvar => simp [Accepts, hk] at ha
    | cdar =>
      have ha : t < 0 := by simpa only [Accepts, hk, not_le] using ha
      refine some_err (x := cdarReturn S D t mn) (by simp only [run, hk]) ?_
      exact live_par_refused l (by simp [pname]) rfl (by simp [nnOf, hk]) ha
    | semi =>
      have ha : ¬ (f = true ∧ 0 ≤ t ∧ ∃ mu, D.mu = some mu ∧ ∃ i, t ≤ |mu i|) := by simpa only [Accepts, hk] using ha
      refine some_err (x := semiReturn S D f t mn) (by simp only [run, hk]) ?_
      unfold semiReturn
      by_cases h0 : (!f) = true ∨ t < 0
      · rw [if_pos h0]; rfl
      · rw [if_neg h0, hmu]
        dsimp only
        rw [if_pos]
        · rfl
        · intro i
          by_contra hi
          refine ha ⟨?_, ?_, mu, hmu, i, not_lt.1 hi⟩
          · by_contra hf; exact h0 (.inl (by simp [hf]))
          · by_contra ht; exact h0 (.inr (not_le.1 ht))
  | _ => simp [pname] at hnm

/-! ### `EfficientFrontier.efficient_return` -/

theorem Live.keep {c : Call n} (l : Live U D cfg o h c) {o' : OState n} {h' : Heap n}
    (ho : o' = o ∨ ∃ m, o' = { o with maxRet := some m }) (hh : h.nextId ≤ h'.nextId) : Live U D cfg o' h' c := by
  obtain ⟨p, v, nm, a, l⟩ := l
  have s := l.solved.mono hh
  rcases ho with rfl | ⟨m, rfl⟩
  · exact ⟨p, v, nm, a, s, l.obj, l.cons, l.name, l.par, l.neutral, l.req⟩
  · exact ⟨p, v, nm, a, ⟨s.opt, s.added, s.initObj, s.initCons, s.properP, s.properO, s.objective, s.cons, s.idObj,
      s.ids, s.origin⟩, l.obj, l.cons, l.name, l.par, l.neutral, l.req⟩

theorem checkMax_shape (t : ℝ) (o : OState n) (h : Heap n) :
    ((∃ e, (checkMaxReturn S D t o h).1 = .error e) ∧ (checkMaxReturn S D t o h).2.1 = o) ∨
      ∃ m, (checkMaxReturn S D t o h).2.1 = { o with maxRet := some m } := by
  have key : ∀ x : M n ℝ, (x o h).2.1 = o →
      ((∃ e, ((x >>= fun m => modify (fun o => { o with maxRet := some m }) >>= fun _ =>
        if m < t then raise .valueError else pure ()) o h).1 = .error e) ∧
        ((x >>= fun m => modify (fun o => { o with maxRet := some m }) >>= fun _ =>
        if m < t then raise .valueError else pure ()) o h).2.1 = o) ∨
        ∃ m, ((x >>= fun m => modify (fun o => { o with maxRet := some m }) >>= fun _ =>
        if m < t then raise .valueError else pure ()) o h).2.1 = { o with maxRet := some m } := by
    intro x hx
    rcases hr : x o h with ⟨r, o', h'⟩
    rw [hr] at hx
    dsimp only at hx
    subst hx
    cases r with
    | error e => rw [bind_err hr]; exact .inl ⟨⟨e, rfl⟩, rfl⟩
    | ok m =>
      rw [bind_ok hr, bind_ok (a := ()) (o' := { o' with maxRet := some m }) (h' := h') rfl]
      right
      split <;> exact ⟨m, rfl⟩
  unfold checkMaxReturn
  rw [bind_ok (a := o) (o' := o) (h' := h) rfl]
  cases o.maxRet with
  | none => exact key _ rfl
  | some m =>
    dsimp only
    by_cases h0 : m = 0
    · rw [if_pos h0]; exact key _ rfl
    · rw [if_neg h0]; exact key _ rfl

theorem checkMax_cached {m : ℝ} (hm : o.maxRet = some m) (h0 : m ≠ 0) (t : ℝ) :
    checkMaxReturn S D t o h = if m < t then (.error .valueError, o, h) else (.ok (), o, h) := by
  unfold checkMaxReturn
  rw [bind_ok (a := o) (o' := o) (h' := h) rfl, hm]
  dsimp only
  rw [if_neg h0, bind_ok (a := m) (o' := o) (h' := h) rfl,
    bind_ok (a := ()) (o' := { o with maxRet := some m }) (h' := h) rfl]
  have e : ({ o with maxRet := some m } : OState n) = o := by rw [← hm]
  rw [e]
  split <;> rfl

/-- A new target return no larger than a non-zero cached largest return reaches the solver. -/
theorem live_return (hU : Usable U D) (hk : D.kind = .ef) {t : ℝ} {mn : Bool}
    (l : Live U D cfg o h (.efficientReturn true t mn)) {m : ℝ} (hm : o.maxRet = some m) (h0 : m ≠ 0) (ht : t ≤ m) :
    Reaches U S D cfg (.efficientReturn true t mn) h (run U S D (.efficientReturn true t mn) o h) := by
  have g : Good U D cfg o h := by obtain ⟨p, v, nm, a, l⟩ := l; exact .inr ⟨p, l.solved⟩
  have hx : efficientReturn S D true t mn o h = (withParameter S "target_return" mn t (do
      let v ← varianceExpr D
      setObjective [] (fun e => (v e.asg : EReal))
      let r ← returnExpr D false
      addAll
      let p ← newPar "target_return" t false
      addLib (.ineq 1 (ofPar p) (scalar r))
      makeWeightSum mn) o h) := by
    have e := checkMax_cached (S := S) (D := D) (h := h) hm h0 t
    rw [if_neg (not_lt.2 ht)] at e
    exact bind_ok e
  have hl := live_reach (S := S) l (nm := "target_return") (by simp [pname]) (mn := mn) rfl (x := t) rfl
    (fun hn => by simp [nnOf, hk] at hn) (build := (do
      let v ← varianceExpr D
      setObjective [] (fun e => (v e.asg : EReal))
      let r ← returnExpr D false
      addAll
      let p ← newPar "target_return" t false
      addLib (.ineq 1 (ofPar p) (scalar r))
      makeWeightSum mn))
  refine reaches_some (x := efficientReturn S D true t mn) (by simp only [run, hk]) ?_ ?_
  · rw [hx]; exact efTarget_post hU hk g true t mn
  · rw [hx]; exact hl

/-- With a cached largest return of zero every new target is refused. -/
theorem live_zero (hk : D.kind = .ef) {c : Call n} (l : Live U D cfg o h c) (t : ℝ) (mn : Bool)
    (hm : o.maxRet = some 0) :
    ∃ h', run U S D (.efficientReturn true t mn) o h = (.error .instantiation, o, h') ∧ h'.log = h.log := by
  obtain ⟨mu, hmu⟩ := l.mu
  obtain ⟨p, v, nm, a, l⟩ := l
  have e1 : ∃ o', maxReturn S D o h = (.error .instantiation, o', { h with nextId := h.nextId + 1 }) := by
    unfold maxReturn returnExpr
    rw [hmu]
    dsimp only
    rw [bind_ok (a := fun s => Obj.ret s.w mu true) (o' := o) (h' := h) rfl]
    rw [bind_ok (setObjective_run [] (fun e => ((fun s => Obj.ret s.w mu true) e.asg : EReal)) o h)]
    exact ⟨_, bind_err (addLib_solved _ _ { o with objective := some _ } _ l.solved.opt)⟩
  obtain ⟨o', e1⟩ := e1
  have e2 : maxReturnOfCopy S D o h = (.error .instantiation, o, { h with nextId := h.nextId + 1 }) := by
    unfold maxReturnOfCopy deepcopy
    rw [e1]
  have e3 : checkMaxReturn S D t o h = (.error .instantiation, o, { h with nextId := h.nextId + 1 }) := by
    unfold checkMaxReturn
    rw [bind_ok (a := o) (o' := o) (h' := h) rfl, hm]
    dsimp only
    rw [if_pos rfl, bind_err e2]
  have e4 : efficientReturn S D true t mn o h = (.error .instantiation, o, { h with nextId := h.nextId + 1 }) :=
    bind_err e3
  have hx : run U S D (.efficientReturn true t mn) = (efficientReturn S D true t mn >>= fun w => pure (some w)) := by
    simp only [run, hk]
  exact ⟨{ h with nextId := h.nextId + 1 }, by rw [hx, bind_err e4], rfl⟩

/-! ### Histories of one target method -/

theorem method_mpost (hU : Usable U D) (g : Good U D cfg o h) {c : Call n}
    (hp : (pname D.kind c).isSome = true) (hne : ∀ f t mn, D.kind = .ef → c ≠ .efficientReturn f t mn) :
    ∃ x, run U S D c = (x >>= fun w => pure (some w)) ∧ MPost U S D cfg c o h (x o h) := by
  cases c with
  | maxUtility r mn =>
    cases hk : D.kind with
    | ef => exact ⟨_, by simp only [run, hk], maxUtility_post hU hk g r mn⟩
    | semi => exact ⟨_, by simp only [run, hk], semiUtility_post hU hk g r mn⟩
    | _ => simp [pname, hk] at hp
  | efficientRisk t mn =>
    cases hk : D.kind with
    | ef => exact ⟨_, by simp only [run, hk], efficientRisk_post hU hk g t mn⟩
    | cvar => exact ⟨_, by simp only [run, hk], cvarRisk_post hU hk g t mn⟩
    | cdar => exact ⟨_, by simp only [run, hk], cdarRisk_post hU hk g t mn⟩
    | semi => exact ⟨_, by simp only [run, hk], semiRisk_post hU hk g t mn⟩
  | efficientReturn f t mn =>
    cases hk : D.kind with
    | ef => exact absurd rfl (hne f t mn hk)
    | cvar => exact ⟨_, by simp only [run, hk], cvarReturn_post hU hk g f t mn⟩
    | cdar => exact ⟨_, by simp only [run, hk], cdarReturn_post hU hk g f t mn⟩
    | semi => exact ⟨_, by simp only [run, hk], semiReturn_post hU hk g f t mn⟩
  | _ => simp [pname] at hp

theorem pname_same {k : Kind} {c c' : Call n} (hs : SameMethod c c') : pname k c' = pname k c := by
  cases c <;> cases c' <;> simp_all [SameMethod, pname]

theorem mnOf_same {c c' : Call n} (hs : SameMethod c c') (hn : c'.neutral = c.neutral) : mnOf c = mnOf c' := by
  cases c <;> cases c' <;> simp_all [SameMethod, mnOf, Call.neutral]

/-- Not optimised yet, or the problem of `c` is current. -/
def Current (U : Uni n) (D : Data n) (cfg : Cfg n) (o : OState n) (h : Heap n) (c : Call n) : Prop :=
  o.opt = none ∨ Live U D cfg o h c

theorem current_step (hU : Usable U D) (g : Good U D cfg o h) (hm : MaxOk U S D cfg o) {c₀ c : Call n}
    (hp : (pname D.kind c₀).isSome = true) (hs : SameMethod c₀ c) (hn : c.neutral = c₀.neutral)
    (cu : Current U D cfg o h c₀) : Current U D cfg (run U S D c o h).2.1 (run U S D c o h).2.2 c₀ := by
  obtain ⟨nm, hnm⟩ := Option.isSome_iff_exists.1 hp
  have hnm' : pname D.kind c = some nm := (pname_same hs).trans hnm
  have hmn := mnOf_same hs hn
  by_cases hne : ∀ f t mn, D.kind = .ef → c ≠ .efficientReturn f t mn
  · rcases cu with ho | l
    · obtain ⟨x, hx, mp⟩ := method_mpost (S := S) hU g (c := c) (by rw [hnm']; rfl) hne
      rw [hx, some_run]
      by_cases hl : (x o h).2.2.log = h.log
      · exact .inl (mp.idle ho hl)
      · exact .inr ((mp.live (by rw [hnm']; rfl) hl).congr hnm' hnm hmn.symm)
    · have l' := l.congr hnm hnm' hmn
      by_cases ha : Accepts D c
      · exact .inr (((live_reaches (S := S) hU l' ha hne).2 (by rw [hnm']; rfl)).congr hnm' hnm hmn.symm)
      · rw [live_rejects l' ha]; exact .inr l
  · simp only [not_forall, not_not] at hne
    obtain ⟨f, t, mn, hk, rfl⟩ := hne
    have hx : run U S D (.efficientReturn f t mn) = (efficientReturn S D f t mn >>= fun w => pure (some w)) := by
      simp only [run, hk]
    rw [hx, some_run]
    unfold efficientReturn
    by_cases hf : (!f) = true
    · rw [if_pos hf]; exact cu
    simp only [if_neg hf]
    have shape := checkMax_shape (S := S) (D := D) t o h
    obtain ⟨r, o', h', pre, e, -, -, h3, -, h5, -, h7, -⟩ := checkMax_post hU g hm t
    rw [e] at shape
    have cu' : Current U D cfg o' h' c₀ := by
      rcases cu with ho | l
      · exact .inl (h7.trans ho)
      · exact .inr (l.keep (shape.imp (fun s => s.2) id) h3)
    cases r with
    | error e' => rw [bind_err e]; exact cu'
    | ok u =>
      rw [bind_ok e]
      have mp := efTarget_post (S := S) hU hk h5 f t mn
      rcases cu' with ho | l
      · by_cases hl : (withParameter S "target_return" mn t (do
            let v ← varianceExpr D
            setObjective [] (fun e => (v e.asg : EReal))
            let r ← returnExpr D false
            addAll
            let p ← newPar "target_return" t false
            addLib (.ineq 1 (ofPar p) (scalar r))
            makeWeightSum mn) o' h').2.2.log = h'.log
        · exact .inl (mp.idle ho hl)
        · exact .inr ((mp.live (by simp [pname]) hl).congr hnm' hnm hmn.symm)
      · refine .inr ((mp.live (by simp [pname]) ?_).congr hnm' hnm hmn.symm)
        exact live_reach (l.congr hnm hnm' hmn) (by simp [pname]) rfl rfl (fun hn => by simp [nnOf, hk] at hn)

end Verif.Convex
