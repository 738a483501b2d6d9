import Verif.Proof.OneMethod
import Verif.Spec.Nonconvex

/-! Which calls change the bounds an object keeps. -/

noncomputable section

namespace Verif.Convex
open Verif.Py Verif.Base Matrix

variable {n : ℕ} {U : Uni n} {S : Solver n} {D : Data n} {cfg : Cfg n} {o : OState n} {h : Heap n} {p : Opt n} {mn : Bool}

/-- The bounds are kept, or, for a market-neutral request, replaced by -1 and 1. -/
def Shift (mn : Bool) (o o' : OState n) : Prop :=
  (o'.lb = o.lb ∧ o'.ub = o.ub) ∨
    mn = true ∧ (∀ i, 0 ≤ o.lb i) ∧ (o'.lb = fun _ => -1) ∧ (o'.ub = fun _ => 1)

theorem Shift.refl (mn : Bool) (o : OState n) : Shift mn o o := .inl ⟨rfl, rfl⟩

theorem Shift.trans {o o' o'' : OState n} (a : Shift mn o o') (b : Shift mn o' o'') : Shift mn o o'' := by
  rcases a with ⟨a1, a2⟩ | ⟨a1, a2, a3, a4⟩ <;> rcases b with ⟨b1, b2⟩ | ⟨b1, b2, b3, b4⟩
  · exact .inl ⟨b1.trans a1, b2.trans a2⟩
  · exact .inr ⟨b1, by rw [← a1]; exact b2, b3, b4⟩
  · exact .inr ⟨a1, a2, b1.trans a3, b2.trans a4⟩
  · exact .inr ⟨a1, a2, b3, b4⟩

def Lim (mn : Bool) {α : Type} (x : M n α) : Prop := ∀ o h, Shift mn o (x o h).2.1

namespace Lim
variable {α β : Type}

theorem of {x : M n α} (hx : ∀ o h, (x o h).2.1.lb = o.lb ∧ (x o h).2.1.ub = o.ub) : Lim mn x := fun o h => .inl (hx o h)
theorem raise (e : PyErr) : Lim mn (raise e : M n α) := .of fun _ _ => ⟨rfl, rfl⟩
theorem stop (e : PyErr) (f : α → M n β) : Lim mn (Convex.raise e >>= f) := .of fun _ _ => ⟨rfl, rfl⟩
theorem pure (a : α) : Lim mn (Pure.pure a : M n α) := .of fun _ _ => ⟨rfl, rfl⟩
theorem get : Lim mn (get : M n _) := .of fun _ _ => ⟨rfl, rfl⟩
theorem lift (r : Except PyErr α) : Lim mn (lift r : M n α) := .of fun _ _ => ⟨rfl, rfl⟩
theorem freshId : Lim mn (freshId : M n _) := .of fun _ _ => ⟨rfl, rfl⟩
theorem freshVar : Lim mn (freshVar : M n _) := .of fun _ _ => ⟨rfl, rfl⟩
theorem callNo : Lim mn (callNo : M n _) := .of fun _ _ => ⟨rfl, rfl⟩
theorem isDefined (nm : String) : Lim mn (isDefined nm : M n _) := .of fun _ _ => ⟨rfl, rfl⟩
theorem modify {f : OState n → OState n} (hf : ∀ o, (f o).lb = o.lb ∧ (f o).ub = o.ub) : Lim mn (modify f) :=
  .of fun o _ => hf o

theorem bind {x : M n α} {f : α → M n β} (hx : Lim mn x) (hf : ∀ a, Lim mn (f a)) : Lim mn (x >>= f) := by
  intro o h
  have h1 := hx o h
  rw [bind_run]
  rcases hr : x o h with ⟨r, o', h'⟩
  rw [hr] at h1
  cases r with
  | error e => exact h1
  | ok a => exact h1.trans (hf a o' h')

theorem ite {c : Prop} [Decidable c] {x y : M n α} (hx : Lim mn x) (hy : Lim mn y) : Lim mn (if c then x else y) := by
  split <;> assumption

theorem newPar (nm : String) (v : ℝ) (b : Bool) : Lim mn (newPar nm v b : M n _) := by
  refine .of fun o h => ?_
  unfold Convex.newPar
  split <;> exact ⟨rfl, rfl⟩

theorem setPars (v : ℝ) (l : List Par) : Lim mn (setPars v l : M n _) :=
  .of fun o h => by rw [(setPars_other v l o h).1]; exact ⟨rfl, rfl⟩

theorem rescale (k : ℕ) : Lim mn (rescale k : M n _) := by
  refine .of fun o h => ?_
  unfold Convex.rescale
  split <;> exact ⟨rfl, rfl⟩

theorem callSolver (p : Opt n) : Lim mn (callSolver S p) := by
  refine .of fun o h => ?_
  obtain ⟨w, vals, e, -, -⟩ := callSolver_run (S := S) p o h
  rw [e]
  exact ⟨rfl, rfl⟩

theorem solve : Lim mn (solve S) := by
  unfold Convex.solve
  refine .bind .get fun o => ?_
  cases ho : o.opt with
  | none =>
    cases hob : o.objective with
    | none => exact .raise _
    | some ob =>
      dsimp only
      split
      · exact .raise _
      · cases idsOf o.cons with
        | error e => exact .bind (.modify fun _ => ⟨rfl, rfl⟩) fun _ => .raise _
        | ok ids => exact .bind (.modify fun _ => ⟨rfl, rfl⟩) fun _ => .callSolver _
  | some p =>
    cases hob : o.objective with
    | none => exact .raise _
    | some ob =>
      dsimp only
      refine .ite (.raise _) (.bind (.lift _) fun ids => ?_)
      cases p.initCons with
      | none => exact .raise _
      | some ini => exact .ite (.raise _) (.callSolver _)

theorem addEach (l : List (Obj n)) : Lim mn (addEach l) := by
  induction l with
  | nil => exact pure _
  | cons b l ih =>
    unfold Convex.addEach
    refine bind get fun o => ?_
    split
    · exact raise _
    · exact bind freshId fun _ => bind (modify fun _ => ⟨rfl, rfl⟩) fun _ => ih

theorem addAll : Lim mn (addAll : M n _) := bind get fun _ => addEach _

theorem setObjective (ps : List Par) (f : Env n → EReal) : Lim mn (setObjective ps f) :=
  bind freshId fun _ => modify fun _ => ⟨rfl, rfl⟩

theorem addLib (b : ConBody Par (Env n)) (d : Env n → Prop) : Lim mn (addLib b d) := by
  refine bind get fun o => ?_
  dsimp only
  split
  · exact bind (raise _) fun _ => bind freshId fun _ => modify fun _ => ⟨rfl, rfl⟩
  · exact bind freshId fun _ => modify fun _ => ⟨rfl, rfl⟩

theorem addSectors (sec : Fin n → Option String) (up : Bool) (l : List (Option String × ℝ)) :
    Lim mn (Convex.addSectors sec up l) := by
  induction l with
  | nil => exact pure _
  | cons b l ih => exact bind (addLib _ _) fun _ => ih

end Lim

/-- `_map_bounds_to_constraints` sets the bounds before it can fail. -/
theorem mapBounds_lim (lb ub : Fin n → EReal) (o : OState n) (h : Heap n) :
    (mapBounds lb ub o h).2.1.lb = lb ∧ (mapBounds lb ub o h).2.1.ub = ub := by
  have := (Lim.bind (mn := false) (Lim.addLib (lowerCon lb) (fun _ => True)) fun _ => Lim.addLib (upperCon ub) fun _ => True)
    { o with lb := lb, ub := ub } h
  rcases this with h1 | ⟨h1, -⟩
  · exact h1
  · cases h1

/-- After the bounds have been looked at, they are -1 and 1 if no lower bound was negative. -/
theorem amendBounds_lim (o : OState n) (h : Heap n) (hp : ∀ i, 0 ≤ o.lb i) :
    ((amendBounds o h).2.1.lb = fun _ => -1) ∧ (amendBounds o h).2.1.ub = fun _ => 1 := by
  unfold amendBounds
  rw [bind_ok (a := o) (o' := o) (h' := h) rfl, if_pos (by push Not; exact hp), bind_run]
  have k := mapBounds_lim (fun _ => -1) (fun _ => 1) o h
  rcases hr : mapBounds (fun _ => -1) (fun _ => 1) o h with ⟨r, o', h'⟩
  rw [hr] at k
  cases r with
  | error e => exact k
  | ok a => exact k

namespace Lim

theorem amendBounds : Lim true (amendBounds : M n _) := by
  intro o h
  by_cases hp : ∀ i, 0 ≤ o.lb i
  · exact .inr ⟨rfl, hp, amendBounds_lim o h hp⟩
  · unfold Convex.amendBounds
    rw [bind_ok (a := o) (o' := o) (h' := h) rfl, if_neg (by push Not at hp ⊢; exact hp)]
    exact .refl _ _

theorem makeWeightSum (mn : Bool) : Lim mn (makeWeightSum mn : M n _) := by
  refine bind ?_ fun _ => modify fun _ => ⟨rfl, rfl⟩
  unfold sumConstraint
  cases mn with
  | true => exact bind amendBounds fun _ => addLib _ _
  | false => exact addLib _ _

theorem rebuildAll (k : ℕ) (l : List (Con n)) : Lim mn (rebuildAll k l) := by
  induction l with
  | nil => exact pure _
  | cons c l ih => exact bind (lift _) fun _ => bind freshId fun _ => bind ih fun _ => pure _

theorem varianceExpr : Lim mn (varianceExpr D) := ite (pure _) (raise _)

theorem returnExpr (b : Bool) : Lim mn (returnExpr D b) := by
  unfold Convex.returnExpr; split
  · exact raise _
  · exact pure _

theorem muTimesW : Lim mn (muTimesW D) := by
  unfold Convex.muTimesW; split
  · exact raise _
  · exact pure _

theorem tailCoef : Lim mn (tailCoef D) := ite (raise _) (pure _)
theorem cvarExpr : Lim mn (cvarExpr D) := bind tailCoef fun _ => pure _
theorem cdarExpr : Lim mn (cdarExpr D) := bind tailCoef fun _ => pure _
theorem cvarCons : Lim mn (cvarCons D) := bind (addLib _ _) fun _ => addLib _ _

theorem cdarCons : Lim mn (cdarCons D) :=
  bind (addLib _ _) fun _ => bind (addLib _ _) fun _ => bind (addLib _ _) fun _ => bind (addLib _ _) fun _ =>
    addLib _ _

theorem semiCon (p q : ℕ) : Lim mn (semiCon D p q) := addLib _ _

theorem buildCdar (mn : Bool) : Lim mn (buildCdar D mn) :=
  bind cdarExpr fun _ => bind (setObjective _ _) fun _ => bind addAll fun _ => bind cdarCons fun _ => makeWeightSum _

theorem validateNeutral (b : Bool) : Lim mn (validateNeutral b : M n _) :=
  bind get fun _ => ite (raise _) (pure _)

theorem updatePar (nm : String) (v : ℝ) : Lim mn (updatePar nm v : M n _) := by
  refine bind (isDefined _) fun b => ?_
  dsimp only
  split
  · exact bind (raise _) fun _ => bind get fun _ => setPars _ _
  · exact bind get fun _ => setPars _ _

theorem withParameter (nm : String) (b : Bool) (v : ℝ) {build : M n Unit} (hb : Lim mn build) :
    Lim mn (withParameter S nm b v build) := by
  refine bind (isDefined _) fun b => ?_
  dsimp only
  split
  · exact bind (validateNeutral _) fun _ => bind (updatePar _ _) fun _ => solve
  · exact bind hb fun _ => solve

end Lim

macro "lim" : tactic => `(tactic| repeat' (first
  | with_reducible refine Lim.bind ?_ fun _ => ?_
  | with_reducible exact Lim.pure _ | with_reducible exact Lim.raise _ | with_reducible exact Lim.lift _
  | with_reducible exact Lim.get | with_reducible exact Lim.freshVar
  | with_reducible exact Lim.freshId
  | with_reducible exact Lim.newPar _ _ _ | with_reducible exact Lim.setPars _ _
  | with_reducible exact Lim.addAll | with_reducible exact Lim.setObjective _ _
  | with_reducible exact Lim.addLib _ _ | with_reducible exact Lim.solve
  | with_reducible exact Lim.makeWeightSum _ | with_reducible exact Lim.rebuildAll _ _
  | with_reducible exact Lim.varianceExpr | with_reducible exact Lim.returnExpr _
  | with_reducible exact Lim.muTimesW | with_reducible exact Lim.cvarExpr
  | with_reducible exact Lim.cdarExpr
  | with_reducible exact Lim.cvarCons | with_reducible exact Lim.cdarCons
  | with_reducible exact Lim.semiCon _ _ | with_reducible exact Lim.buildCdar _
  | with_reducible apply Lim.withParameter
  | with_reducible apply Lim.ite))

theorem Lim.none {c : Call n} {er : PyErr} (e : run U S D c = Convex.raise er) : Lim mn (run U S D c) := by
  rw [e]; exact .raise _

theorem Lim.some {x : M n (Fin n → ℝ)} (hx : Lim mn x) {c : Call n}
    (e : run U S D c = (x >>= fun w => Pure.pure (Option.some w))) : Lim mn (run U S D c) := by
  rw [e]; exact .bind hx fun _ => .pure _

theorem Lim.checkMax (t : ℝ) : Lim mn (checkMaxReturn S D t) := by
  refine .bind .get fun o => .bind ?_ fun m => .bind (.modify fun _ => ⟨rfl, rfl⟩) fun _ => .ite (.raise _) (.pure _)
  cases o.maxRet with
  | none => exact .of fun _ _ => ⟨rfl, rfl⟩
  | some m => exact .ite (.of fun _ _ => ⟨rfl, rfl⟩) (.pure _)

theorem lim_maxUtility (r : ℝ) (mn : Bool) : Lim mn (run U S D (.maxUtility r mn)) := by
  cases hk : D.kind with
  | ef =>
    refine .some (x := maxUtility S D r mn) ?_ (by simp only [run, hk])
    unfold maxUtility
    dsimp only
    split
    · exact .bind (.raise _) fun _ => .withParameter _ _ _ (by lim)
    · exact .withParameter _ _ _ (by lim)
  | semi =>
    refine .some (x := semiUtility S D r mn) ?_ (by simp only [run, hk])
    unfold semiUtility
    dsimp only
    split
    · exact .bind (.raise _) fun _ => .withParameter _ _ _ (by lim)
    · exact .withParameter _ _ _ (by lim)
  | _ => exact .none (er := .notImplemented) (by simp only [run, hk])

theorem lim_efficientRisk (t : ℝ) (mn : Bool) : Lim mn (run U S D (.efficientRisk t mn)) := by
  cases hk : D.kind with
  | ef =>
    refine .some (x := efficientRisk S D t mn) ?_ (by simp only [run, hk])
    have hw : Lim (n := n) mn (withParameter S "target_variance" mn (t ^ 2) do
        let r ← returnExpr D true
        setObjective [] (fun e => (r e.asg : EReal))
        let v ← varianceExpr D
        addAll
        let p ← newPar "target_variance" (t ^ 2) true
        addLib (.ineq 1 (scalar v) (ofPar p))
        makeWeightSum mn) := .withParameter _ _ _ (by lim)
    unfold efficientRisk
    dsimp only
    split
    · exact .bind (.raise _) fun _ => by split <;> [exact .bind (.raise _) fun _ => hw; exact hw]
    · split
      · exact .bind (.raise _) fun _ => hw
      · exact hw
  | cvar => exact .some (x := cvarRisk S D t mn) (.withParameter _ _ _ (by lim)) (by simp only [run, hk])
  | cdar => exact .some (x := cdarRisk S D t mn) (.withParameter _ _ _ (by lim)) (by simp only [run, hk])
  | semi => exact .some (x := semiRisk S D t mn) (.withParameter _ _ _ (by lim)) (by simp only [run, hk])

theorem lim_efficientReturn (f : Bool) (t : ℝ) (mn : Bool) : Lim mn (run U S D (.efficientReturn f t mn)) := by
  cases hk : D.kind with
  | ef =>
    refine .some (x := efficientReturn S D f t mn) ?_ (by simp only [run, hk])
    unfold efficientReturn
    dsimp only
    split
    · exact .bind (.raise _) fun _ => .bind (.checkMax _) fun _ => .withParameter _ _ _ (by lim)
    · exact .bind (.checkMax _) fun _ => .withParameter _ _ _ (by lim)
  | cvar => exact .some (x := cvarReturn S D t mn) (.withParameter _ _ _ (by lim)) (by simp only [run, hk])
  | cdar =>
    exact .some (x := cdarReturn S D t mn) (.withParameter _ _ _ (by unfold buildCdar; lim)) (by simp only [run, hk])
  | semi =>
    refine .some (x := semiReturn S D f t mn) ?_ (by simp only [run, hk])
    unfold semiReturn
    dsimp only
    split
    · exact .stop _ _
    · split
      · exact .raise _
      · split
        · exact .stop _ _
        · exact .withParameter _ _ _ (by lim)

theorem lim_maxSharpe (rf : ℝ) : Lim mn (run U S D (.maxSharpe rf)) := by
  cases hk : D.kind with
  | ef =>
    refine .some (x := maxSharpe S D rf) ?_ (by simp only [run, hk])
    unfold maxSharpe
    split
    · exact .raise _
    · refine .ite (.raise _) (.bind (.modify fun _ => ⟨rfl, rfl⟩) fun _ => .bind .varianceExpr fun _ =>
        .bind (.setObjective _ _) fun _ => .bind .freshVar fun _ => .bind .addAll fun _ =>
        .bind .get fun _ => .bind (.rebuildAll _ _) fun _ => .bind .freshId fun _ => .bind .freshId fun _ =>
        .bind .freshId fun _ => .bind (.modify fun _ => ⟨rfl, rfl⟩) fun _ => .bind .solve fun _ => ?_)
      exact .rescale _
  | _ => exact .none (er := .notImplemented) (by simp only [run, hk])

/-- A call changes the bounds only if it asks for market neutrality and no lower bound is negative, and then sets them to
-1 and 1. -/
theorem lim_run (c : Call n) (o : OState n) (h : Heap n) :
    ((run U S D c o h).2.1.lb = o.lb ∧ (run U S D c o h).2.1.ub = o.ub) ∨
      WantsNeutral c ∧ (∀ i, 0 ≤ o.lb i) ∧ ((run U S D c o h).2.1.lb = fun _ => -1) ∧
        (run U S D c o h).2.1.ub = fun _ => 1 := by
  have lim : ∀ mn, Lim mn (run U S D c) → (mn = true → WantsNeutral c) → _ := fun mn hl hn =>
    (hl o h).imp_right (And.imp_left hn)
  cases c with
  | addObjective r =>
    refine lim false (.bind (.bind .get fun o => ?_) fun _ => .pure _) nofun
    dsimp only
    split
    · exact .bind (.raise _) fun _ => .bind (.lift _) fun _ => .modify fun _ => ⟨rfl, rfl⟩
    · exact .bind (.lift _) fun _ => .modify fun _ => ⟨rfl, rfl⟩
  | addConstraint b r =>
    refine lim false (.bind ?_ fun _ => .pure _) nofun
    unfold addConstraint
    dsimp only
    split
    · exact .stop _ _
    · refine .bind .get fun o => ?_
      split
      · exact .stop _ _
      · exact .bind (.lift _) fun _ => .modify fun _ => ⟨rfl, rfl⟩
  | addSectors s l u =>
    exact lim false (.bind (.bind (.addSectors _ _ _) fun _ => .addSectors _ _ _) fun _ => .pure _) nofun
  | convex r b =>
    refine lim false (.bind (.bind (.lift _) fun i => .bind (.modify fun _ => ⟨rfl, rfl⟩) fun _ => .bind .addAll fun _ => ?_)
      fun _ => .pure _) nofun
    cases b with
    | true => exact .bind (.addLib _ _) fun _ => .solve
    | false => exact .solve
  | nonconvex m b =>
    exact lim false (.bind (.bind .get fun o => .bind (.lift _) fun _ => .bind (.modify fun _ => ⟨rfl, rfl⟩) fun _ => .pure _)
      fun _ => .pure _) nofun
  | setWeights w =>
    refine lim false (.bind ?_ fun _ => .pure _) nofun
    unfold setWeights
    dsimp only
    split
    · exact .bind (.raise _) fun _ => .bind (.lift _) fun _ => .modify fun _ => ⟨rfl, rfl⟩
    · exact .bind (.lift _) fun _ => .modify fun _ => ⟨rfl, rfl⟩
  | setPar i v => exact lim false (.bind (.setPars _ _) fun _ => .pure _) nofun
  | minVolatility =>
    refine lim false ?_ nofun
    cases hk : D.kind with
    | ef => exact .some (x := minVolatility S D) (by unfold minVolatility; lim) (by simp only [run, hk])
    | _ => exact .none (er := .notImplemented) (by simp only [run, hk])
  | maxSharpe rf => exact lim false (lim_maxSharpe rf) nofun
  | maxUtility r mn => exact lim mn (lim_maxUtility r mn) id
  | efficientRisk t mn => exact lim mn (lim_efficientRisk t mn) id
  | efficientReturn f t mn => exact lim mn (lim_efficientReturn f t mn) id
  | minCvar mn =>
    refine lim mn ?_ id
    cases hk : D.kind with
    | cvar => exact .some (x := minCvar S D mn) (by unfold minCvar; lim) (by simp only [run, hk])
    | _ => exact .none (er := .attribute) (by simp only [run, hk])
  | minCdar mn =>
    refine lim mn ?_ id
    cases hk : D.kind with
    | cdar => exact .some (x := minCdar S D mn) (by unfold minCdar buildCdar; lim) (by simp only [run, hk])
    | _ => exact .none (er := .attribute) (by simp only [run, hk])
  | minSemi mn =>
    refine lim mn ?_ id
    cases hk : D.kind with
    | semi => exact .some (x := minSemi S D mn) (by unfold minSemi; lim) (by simp only [run, hk])
    | _ => exact .none (er := .attribute) (by simp only [run, hk])

theorem Cfg.after_bounds (cfg : Cfg n) (b : Bool) (c : Call n) : (cfg.after b c).lb = cfg.lb ∧ (cfg.after b c).ub = cfg.ub := by
  unfold Cfg.after
  split <;> (try split) <;> exact ⟨rfl, rfl⟩

/-- Invariants of objects, their configurations and their records. -/
theorem Traced.always {P : Cfg n → OState n → List (Event n) → Prop}
    (new : ∀ lb ub h, P ⟨lb, ub, [], []⟩ (mapBounds lb ub blank h).2.1 [])
    (call : ∀ {W : World n} {T : List (List (Event n))} {j : ℕ} {cfg : Cfg n} {o : OState n} {es : List (Event n)} (c : Call n),
      Traced U S D W T → W.objs[j]? = some (cfg, o) → T[j]? = some es → P cfg o es →
      P (cfg.after (isOk (run U S D c o W.heap).1) c) (run U S D c o W.heap).2.1 (es ++ [(c, (run U S D c o W.heap).1)]))
    {W : World n} {T : List (List (Event n))} (hT : Traced U S D W T) {j : ℕ} {cfg : Cfg n} {o : OState n}
    {es : List (Event n)} (hj : W.objs[j]? = some (cfg, o)) (he : T[j]? = some es) : P cfg o es := by
  induction hT generalizing j cfg o es with
  | new lb ub upar =>
    rcases j with _ | j
    · obtain ⟨rfl, rfl⟩ : _ ∧ _ = o := by simpa [newWorld] using hj
      obtain rfl : [] = es := by simpa using he
      exact new lb ub _
    · simp at he
  | @call W T i cfg' o' es' hT hi hei c ih =>
    rw [List.getElem?_set] at hj he
    split_ifs at hj with h1 h2
    · subst h1
      rw [if_pos rfl, if_pos (by rw [hT.length]; exact h2)] at he
      obtain ⟨rfl, rfl⟩ : _ = cfg ∧ (run U S D c o' _).2.1 = o := by simpa using hj
      obtain rfl := Option.some.inj he
      exact call c hT hi hei (ih hi hei)
    · rw [if_neg h1] at he
      exact ih hj he
  | @copy W T i cfg' o' es' hT hi hei ih =>
    rw [List.getElem?_append] at hj he
    rw [hT.length] at he
    split_ifs at hj he with h1
    · exact ih hj he
    · have h2 : (cfg', o') = (cfg, o) ∧ es' = es := by
        rcases hm : j - W.objs.length with _ | m
        · rw [hm] at hj he; exact ⟨by simpa [deepcopy] using hj, by simpa using he⟩
        · rw [hm] at hj; simp at hj
      obtain ⟨h2, rfl⟩ := h2
      obtain ⟨rfl, rfl⟩ := Prod.mk.inj h2
      exact ih hi hei

/-- The bounds of an object are the constructor's, or -1 and 1 after a market-neutral request. -/
theorem Traced.bounds {W : World n} {T : List (List (Event n))} (hT : Traced U S D W T) {j : ℕ} {cfg : Cfg n} {o : OState n}
    {es : List (Event n)} (hj : W.objs[j]? = some (cfg, o)) (he : T[j]? = some es) :
    (o.lb = cfg.lb ∧ o.ub = cfg.ub) ∨
      (∃ e ∈ es, WantsNeutral e.1) ∧ (∀ i, 0 ≤ cfg.lb i) ∧ (o.lb = fun _ => -1) ∧ o.ub = fun _ => 1 := by
  refine Traced.always (P := fun cfg o es => (o.lb = cfg.lb ∧ o.ub = cfg.ub) ∨
    (∃ e ∈ es, WantsNeutral e.1) ∧ (∀ i, 0 ≤ cfg.lb i) ∧ (o.lb = fun _ => -1) ∧ o.ub = fun _ => 1) ?_ ?_ hT hj he
  · exact fun lb ub h => .inl (mapBounds_lim lb ub _ _)
  · intro W T j cfg' o' es' c hT hi hei k
    obtain ⟨a1, a2⟩ := cfg'.after_bounds (isOk (run U S D c o' W.heap).1) c
    rw [a1, a2]
    rcases lim_run (U := U) (S := S) (D := D) c o' W.heap with ⟨b1, b2⟩ | ⟨b1, b2, b3⟩
    · rw [b1, b2]
      exact k.imp_right (And.imp_left fun ⟨e, he, hw⟩ => ⟨e, List.mem_append_left _ he, hw⟩)
    · refine .inr ⟨⟨_, List.mem_append_right _ (List.mem_singleton_self _), b1⟩, ?_, b3⟩
      rcases k with ⟨k1, -⟩ | ⟨-, k2, -⟩
      · rw [← k1]; exact b2
      · exact k2

/-! ### Requests that do change the bounds -/

/-- The bounds end up as -1 and 1, whether the program succeeds or not. -/
def Amends {α : Type} (x : M n α) : Prop :=
  ∀ o h, (∀ i, 0 ≤ o.lb i) → ((x o h).2.1.lb = fun _ => -1) ∧ (x o h).2.1.ub = fun _ => 1

/-- Never fails, and leaves the bounds. -/
def Easy {α : Type} (x : M n α) : Prop := ∀ o h, ∃ a o' h', x o h = (.ok a, o', h') ∧ o'.lb = o.lb

namespace Amends
variable {α β : Type}

theorem easy {x : M n α} {f : α → M n β} (hx : Easy x) (hf : ∀ a, Amends (f a)) : Amends (x >>= f) := by
  intro o h hp
  obtain ⟨a, o', h', e, e'⟩ := hx o h
  rw [bind_ok e]
  exact hf a o' h' (by rw [e']; exact hp)

theorem left {x : M n α} {f : α → M n β} (hx : Amends x) (hf : ∀ a, Lim mn (f a)) : Amends (x >>= f) := by
  intro o h hp
  have k := hx o h hp
  rw [bind_run]
  rcases hr : x o h with ⟨r, o', h'⟩
  rw [hr] at k
  cases r with
  | error e => exact k
  | ok a =>
    rcases hf a o' h' with ⟨h1, h2⟩ | ⟨-, -, h3⟩
    · exact ⟨h1.trans k.1, h2.trans k.2⟩
    · exact h3

theorem makeWeightSum : Amends (makeWeightSum true : M n _) :=
  left (mn := false) (left (x := amendBounds) (mn := false) amendBounds_lim fun _ => .addLib _ _) fun _ =>
    .modify fun _ => ⟨rfl, rfl⟩

theorem addEach_run (l : List (Obj n)) (o : OState n) (h : Heap n) (ho : o.objective ≠ none) :
    ∃ o' h', addEach l o h = (.ok (), o', h') ∧ o'.lb = o.lb := by
  induction l generalizing o h with
  | nil => exact ⟨o, h, rfl, rfl⟩
  | cons b l ih =>
    obtain ⟨a, ha⟩ := Option.ne_none_iff_exists'.1 ho
    unfold addEach
    rw [bind_ok (a := o) (o' := o) (h' := h) rfl, ha]
    dsimp only
    obtain ⟨o', h', e, e'⟩ := ih { o with objective := some (addTo a b (.lib h.nextId)) } { h with nextId := h.nextId + 1 } nofun
    exact ⟨o', h', e, e'⟩

theorem obj {f : Unit → M n β} (ps : List Par) (g : Env n → EReal) (hf : ∀ a, Amends (f a)) :
    Amends (setObjective ps g >>= fun _ => addAll >>= f) := by
  intro o h hp
  rw [bind_run]
  obtain ⟨ob, o₁, h₁, e, e1, e2⟩ : ∃ ob o₁ h₁, setObjective ps g o h = (.ok (), o₁, h₁) ∧ o₁.objective = some ob ∧ o₁.lb = o.lb :=
    ⟨_, _, _, rfl, rfl, rfl⟩
  rw [e]
  obtain ⟨o₂, h₂, k, k'⟩ := addEach_run o₁.added o₁ h₁ (by rw [e1]; nofun)
  have k : addAll o₁ h₁ = (.ok (), o₂, h₂) := k
  show ((addAll >>= f) o₁ h₁).2.1.lb = _ ∧ ((addAll >>= f) o₁ h₁).2.1.ub = _
  rw [bind_ok k]
  exact hf () o₂ h₂ (by rw [k', e2]; exact hp)

end Amends

namespace Easy

theorem varianceExpr (hs : D.symOk = true) : Easy (varianceExpr D) := by
  unfold Convex.varianceExpr; rw [if_pos hs]; exact fun o h => ⟨_, o, h, rfl, rfl⟩
theorem returnExpr (hm : D.mu.isSome = true) (neg : Bool) : Easy (returnExpr D neg) := by
  unfold Convex.returnExpr
  cases hmu : D.mu with
  | none => rw [hmu] at hm; cases hm
  | some mu => exact fun o h => ⟨_, o, h, rfl, rfl⟩
theorem newPar (nm : String) (v : ℝ) (b : Bool) (hv : 0 ≤ v) : Easy (newPar nm v b : M n _) :=
  fun o h => ⟨_, _, _, newPar_run nm v b o h (fun hn => absurd hn.2 (not_lt.2 hv)), rfl⟩
theorem freshVar : Easy (freshVar : M n _) := fun _ _ => ⟨_, _, _, rfl, rfl⟩

end Easy

theorem amends_parameter {nm : String} (hd : isDefined nm o h = (.ok false, o, h)) (mn : Bool) (v : ℝ) {build : M n Unit}
    (hb : Amends build) (hp : ∀ i, 0 ≤ o.lb i) :
    ((withParameter S nm mn v build o h).2.1.lb = fun _ => -1) ∧ (withParameter S nm mn v build o h).2.1.ub = fun _ => 1 := by
  unfold withParameter
  rw [bind_ok hd]
  exact (hb.left (mn := false) fun _ => .solve) o h hp

/-- A market-neutral `max_quadratic_utility` on an object without a problem of this method leaves it with bounds -1 and 1,
whether it succeeds or raises. -/
theorem amends_maxUtility {r : ℝ} (hk : D.kind = .ef) (hf : Offered D (.maxUtility r true)) (hp : ∀ i, 0 ≤ o.lb i)
    (hd : isDefined "risk_aversion" o h = (.ok false, o, h)) :
    ((run U S D (.maxUtility r true) o h).2.1.lb = fun _ => -1) ∧ (run U S D (.maxUtility r true) o h).2.1.ub = fun _ => 1 := by
  obtain ⟨⟨hk', hmu⟩, ha⟩ := hf
  have ha : 0 < r := ha
  have hs : D.symOk = true := by
    rcases hk' with ⟨-, hs⟩ | hk'
    · exact hs
    · rw [hk] at hk'; cases hk'
  have e : run U S D (.maxUtility r true) = (maxUtility S D r true >>= fun w => Pure.pure (Option.some w)) := by
    simp only [run, hk]
  rw [e, some_run]
  unfold maxUtility
  rw [if_neg (not_le.2 ha)]
  exact amends_parameter hd _ _ (.easy (.returnExpr hmu _) fun _ => .easy (.varianceExpr hs) fun _ =>
    .easy (.newPar _ _ _ ha.le) fun _ => .obj _ _ fun _ => .makeWeightSum) hp

/-- Before the first solve, and after another method has been used, there is no parameter of this method. -/
theorem isDefined_fresh (hU : Usable U D) (g : Good U D cfg o h) (ho : o.opt = none) {nm : String} (hn : nm ∈ libNames) :
    isDefined nm o h = (.ok false, o, h) := by
  rcases g with ⟨b, hob⟩ | ⟨p, s⟩
  swap
  · rw [s.opt] at ho; cases ho
  have hp := b.proper hU (by simp)
  have hl : libPars (allPars o) = [] := by
    unfold allPars
    rw [libPars_append, b.conPars_nil hU]
    cases ho : o.objective with
    | none => rfl
    | some ob => exact hob ob ho
  have hname : named nm o = [] := by
    rw [named_eq nm o hp, filter_libPars hn, hl]; rfl
  rw [isDefined_eq nm o h hp, hname]; rfl

theorem isDefined_after {c₀ c : Call n} (a : After D c₀ o p) (g : Good U D cfg o h) (hn : ¬ SameMethod c₀ c) {nm : String}
    (hp : pname D.kind c = some nm) : isDefined nm o h = (.ok false, o, h) := by
  have s : Solved U D cfg o h p := by
    rcases g with ⟨b, -⟩ | ⟨p', s⟩
    · have := b.opt; rw [a.opt] at this; cases this
    · have := s.opt; rw [a.opt] at this; cases this; exact s
  have hl : libPars (allPars o) = libPars p.pars := by
    unfold allPars Opt.pars
    rw [a.obj, a.cons]
  have hnm : named nm o = [] := by
    rw [named_eq nm o s.properO, filter_libPars (pname_mem hp), hl]
    cases hp₀ : pname D.kind c₀ with
    | none => rw [a.fits.plain hp₀]; rfl
    | some nm₀ =>
      obtain ⟨b, x, h1, -⟩ := a.fits.named nm₀ hp₀
      rw [h1]
      have : nm₀ ≠ nm := by rintro rfl; exact hn (same_of_pname hp₀ hp)
      simp [this]
  rw [isDefined_eq nm o h s.properO, hnm]
  rfl

end Verif.Convex
