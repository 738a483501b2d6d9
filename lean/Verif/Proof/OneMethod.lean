import Verif.Proof.Settled

/-! Which calls can return weights on an object that has been optimised. -/

noncomputable section

namespace Verif.Convex
open Verif.Py Verif.Base Matrix

variable {n : ℕ} {U : Uni n} {S : Solver n} {D : Data n} {cfg : Cfg n} {o : OState n} {h : Heap n} {p : Opt n}

/-! ### Invariants of objects and their records -/

theorem Traced.reachable {W : World n} {T : List (List (Event n))} (hT : Traced U S D W T) : Reachable U S D W := by
  induction hT with
  | new lb ub upar => exact .new lb ub upar
  | call _ hj _ c ih => exact .step ih (.call hj c)
  | copy _ hj _ ih => exact .step ih (.copy hj)

theorem Traced.length {W : World n} {T : List (List (Event n))} (hT : Traced U S D W T) : T.length = W.objs.length := by
  induction hT with
  | new lb ub upar => rfl
  | call hT hj he c ih => simpa using ih
  | copy hT hj he ih => simpa using ih

theorem Traced.invariant (hU : Usable U D) {P : OState n → Heap n → List (Event n) → Prop} (new : ∀ o h, P o h [])
    (mono : ∀ {o h h' es}, P o h es → h.nextId ≤ h'.nextId → P o h' es)
    (call : ∀ {cfg o h es} (c : Call n), Good U D cfg o h → MaxOk U S D cfg o → P o h es →
      P (run U S D c o h).2.1 (run U S D c o h).2.2 (es ++ [(c, (run U S D c o h).1)]))
    {W : World n} {T : List (List (Event n))} (hT : Traced U S D W T) {j : ℕ} {cfg : Cfg n} {o : OState n}
    {es : List (Event n)} (hj : W.objs[j]? = some (cfg, o)) (he : T[j]? = some es) : P o W.heap es := by
  induction hT generalizing j cfg o es with
  | new lb ub upar =>
    rcases j with _ | j
    · obtain rfl : [] = es := by simpa using he
      exact new _ _
    · simp at he
  | @call W T i cfg' o' es' hT hi hei c ih =>
    obtain ⟨g, hm⟩ := good_of_reachable hU hT.reachable _ (List.mem_of_getElem? hi)
    rw [List.getElem?_set] at hj he
    split_ifs at hj with h1 h2
    · subst h1
      rw [if_pos rfl, if_pos (by rw [hT.length]; exact h2)] at he
      obtain ⟨-, rfl⟩ : _ ∧ (run U S D c o' _).2.1 = o := by simpa using hj
      obtain rfl := Option.some.inj he
      exact call c g hm (ih hi hei)
    · rw [if_neg h1] at he
      exact mono (ih hj he) (run_post hU g hm c).mono
  | @copy W T i cfg' o' es' hT hi hei ih =>
    rw [List.getElem?_append] at hj he
    rw [hT.length] at he
    split_ifs at hj he with h1
    · exact ih hj he
    · have h2 : (cfg', o') = (cfg, o) ∧ es' = es := by
        rcases hm : j - W.objs.length with _ | m
        · rw [hm] at hj he; exact ⟨by simpa [deepcopy] using hj, by simpa using he⟩
        · rw [hm] at hj; simp at hj
      obtain ⟨h2, rfl⟩ := h2
      obtain ⟨-, rfl⟩ := Prod.mk.inj h2
      exact ih hi hei

/-! ### Calls on a stored problem -/

theorem Solved.stored (s : Solved U D cfg o h p) : Stored p o h := ⟨s.opt, by rw [s.initObj]; exact s.idObj⟩

/-- The stored problem stays. -/
def Holds (p : Opt n) {α : Type} (x : M n α) : Prop := ∀ o h, Stored p o h → Stored p (x o h).2.1 (x o h).2.2

/-- On an object with a stored problem the program raises. -/
def Balks (p : Opt n) {α : Type} (x : M n α) : Prop := ∀ o h, Stored p o h → ∃ e, (x o h).1 = .error e

namespace Balks
variable {α β : Type}

theorem raise (e : PyErr) : Balks p (raise e : M n α) := fun _ _ _ => ⟨e, rfl⟩

theorem bind {x : M n α} {f : α → M n β} (hx : Holds p x) (hf : ∀ a, Balks p (f a)) : Balks p (x >>= f) := by
  intro o h k
  rw [bind_run]
  have k' := hx o h k
  rcases hr : x o h with ⟨y, o', h'⟩
  rw [hr] at k'
  cases y with
  | error e => exact ⟨e, rfl⟩
  | ok b => exact hf b o' h' k'

theorem left {x : M n α} {f : α → M n β} (hx : Balks p x) : Balks p (x >>= f) := by
  intro o h k
  obtain ⟨e, he⟩ := hx o h k
  rw [bind_run]
  rcases hr : x o h with ⟨y, o', h'⟩
  rw [hr] at he
  cases he
  exact ⟨e, rfl⟩

theorem obj {f : Unit → M n β} (ps : List Par) (g : Env n → EReal) (hf : ∀ a, Sinks p (f a)) :
    Balks p (setObjective ps g >>= f) := by
  intro o h k
  rw [bind_run]
  exact (hf () _ _ (k.setObjective ps g)).2

theorem ite {c : Prop} [Decidable c] {x y : M n α} (hx : Balks p x) (hy : Balks p y) : Balks p (if c then x else y) := by
  split <;> assumption

end Balks

theorem holds_variance : Holds p (varianceExpr D) := by unfold varianceExpr; split <;> exact fun _ _ h => h
theorem holds_tail : Holds p (tailCoef D) := by unfold tailCoef; split <;> exact fun _ _ h => h

theorem balks_run {c : Call n} (hc : Once c) : Balks p (run U S D c) := by
  have fin : ∀ {x : M n (Fin n → ℝ)}, run U S D c = (x >>= fun w => pure (some w)) → Balks p x →
      Balks p (run U S D c) := fun e hx => by rw [e]; exact hx.left
  cases c with
  | minVolatility =>
    cases hk : D.kind with
    | ef =>
      exact fin (x := minVolatility S D) (by simp only [run, hk]) (.bind holds_variance fun _ => .obj _ _ fun _ =>
        .bind .addAll fun _ => .left (.addLib _ _))
    | _ => simp only [run, hk]; exact .raise _
  | maxSharpe rf =>
    cases hk : D.kind with
    | ef =>
      refine fin (x := maxSharpe S D rf) (by simp only [run, hk]) ?_
      unfold maxSharpe
      split
      · exact .raise _
      · exact .ite (.raise _) (.bind (fun _ _ h => h) fun _ => .bind holds_variance fun _ => .obj _ _ fun _ =>
          .bind .freshVar fun _ => .bind .addAll fun _ => .bind .get fun _ =>
          .bind (.rebuildAll _ _) fun _ => .bind .freshId fun _ => .bind .freshId fun _ => .bind .freshId fun _ =>
          .bind (.modify fun _ => ⟨rfl, rfl⟩) fun _ => .left .solve)
    | _ => simp only [run, hk]; exact .raise _
  | minCvar mn =>
    cases hk : D.kind with
    | cvar =>
      refine fin (x := minCvar S D mn) (by simp only [run, hk]) ?_
      unfold minCvar cvarExpr
      simp only [massoc, pure_bind]
      exact .bind holds_tail fun _ => .obj _ _ fun _ => .bind .addAll fun _ => .left .cvarCons
    | _ => simp only [run, hk]; exact .raise _
  | minCdar mn =>
    cases hk : D.kind with
    | cdar =>
      refine fin (x := minCdar S D mn) (by simp only [run, hk]) ?_
      unfold minCdar buildCdar cdarExpr
      simp only [massoc, pure_bind]
      exact .bind holds_tail fun _ => .obj _ _ fun _ => .bind .addAll fun _ => .left .cdarCons
    | _ => simp only [run, hk]; exact .raise _
  | minSemi mn =>
    cases hk : D.kind with
    | semi =>
      exact fin (x := minSemi S D mn) (by simp only [run, hk]) (.bind (fun _ _ h => h) fun _ => .bind (fun _ _ h => h) fun _ =>
        .obj _ _ fun _ => .bind .addAll fun _ => .left (.semiCon _ _))
    | _ => simp only [run, hk]; exact .raise _
  | _ => exact hc.elim

/-! ### Neutrality of a stored problem -/

/-- On an object with a stored problem, the problem and the neutrality stay. -/
def Neu {α : Type} (x : M n α) : Prop :=
  ∀ o h, o.opt ≠ none → (x o h).2.1.opt = o.opt ∧ (x o h).2.1.neutral = o.neutral

namespace Neu
variable {α β : Type}

theorem of {x : M n α} (hx : ∀ o h, (x o h).2.1 = o) : Neu x := fun o h _ => by rw [hx]; exact ⟨rfl, rfl⟩
theorem quiet {x : M n α} (hx : Quiet x) : Neu x := fun o h ho => ⟨(hx o h ho).opt, (hx o h ho).neutral⟩
theorem raise (e : PyErr) : Neu (raise e : M n α) := .of fun _ _ => rfl
theorem stop (e : PyErr) (f : α → M n β) : Neu (Convex.raise e >>= f) := .of fun _ _ => rfl
theorem pure (a : α) : Neu (Pure.pure a : M n α) := .of fun _ _ => rfl
theorem get : Neu (get : M n _) := .of fun _ _ => rfl
theorem lift (r : Except PyErr α) : Neu (lift r : M n α) := .of fun _ _ => rfl
theorem modify {f : OState n → OState n} (hf : ∀ o, (f o).opt = o.opt ∧ (f o).neutral = o.neutral) : Neu (modify f) :=
  fun o _ _ => hf o

theorem bind {x : M n α} {f : α → M n β} (hx : Neu x) (hf : ∀ a, Neu (f a)) : Neu (x >>= f) := by
  intro o h ho
  rw [bind_run]
  have k := hx o h ho
  rcases hr : x o h with ⟨y, o', h'⟩
  rw [hr] at k
  cases y with
  | error e => exact k
  | ok b =>
    obtain ⟨k1, k2⟩ := hf b o' h' (by rw [k.1]; exact ho)
    exact ⟨k1.trans k.1, k2.trans k.2⟩

theorem ite {c : Prop} [Decidable c] {x y : M n α} (hx : Neu x) (hy : Neu y) : Neu (if c then x else y) := by
  split <;> assumption

theorem setPars (v : ℝ) (l : List Par) : Neu (setPars v l : M n _) := .of fun o h => (setPars_other v l o h).1

theorem callSolver (p : Opt n) : Neu (callSolver S p) := by
  intro o h _
  obtain ⟨w, vals, hc, -, -⟩ := callSolver_run (S := S) p o h
  rw [hc]
  exact ⟨rfl, rfl⟩

open Classical in
theorem solve : Neu (solve S) := by
  intro o h ho
  obtain ⟨p, hp⟩ := Option.ne_none_iff_exists'.1 ho
  unfold Convex.solve
  rw [bind_ok (a := o) (o' := o) (h' := h) rfl, hp]
  dsimp only
  cases o.objective with
  | none => exact ⟨hp, rfl⟩
  | some ob =>
    dsimp only
    rw [← hp]
    refine (ite (raise _) (bind (lift _) fun ids => ?_) : Neu _) o h ho
    split
    · exact raise _
    · exact ite (raise _) (callSolver _)

theorem updatePar (nm : String) (v : ℝ) : Neu (updatePar nm v : M n _) := by
  refine bind (.of fun _ _ => rfl) fun b => ?_
  dsimp only
  split
  · exact bind (raise _) fun _ => bind get fun _ => setPars _ _
  · exact bind get fun _ => setPars _ _

theorem withParameter (nm : String) (mn : Bool) (v : ℝ) {build : M n Unit} (hb : Neu build) :
    Neu (withParameter S nm mn v build) := by
  refine .bind (.of fun _ _ => rfl) fun b => ?_
  dsimp only
  split
  · exact .bind (.bind .get fun _ => .ite (.raise _) (.pure _)) fun _ => .bind (updatePar _ _) fun _ => solve
  · exact .bind hb fun _ => solve

theorem checkMax (t : ℝ) : Neu (checkMaxReturn S D t) := by
  refine .bind .get fun o => .bind ?_ fun m => .bind (.modify fun _ => ⟨rfl, rfl⟩) fun _ => .ite (.raise _) (.pure _)
  cases o.maxRet with
  | none => exact .of fun _ _ => rfl
  | some m => exact .ite (.of fun _ _ => rfl) (.pure _)

theorem rebuildAll (k : ℕ) (l : List (Con n)) : Neu (rebuildAll k l) := by
  refine .of fun o h => ?_
  rcases rebuildAll_run k l o h with ⟨e, i, -, hr⟩ | ⟨new, i, -, hr, -, -⟩ <;> rw [hr]

end Neu

macro "neu" : tactic => `(tactic| repeat' (first
  | with_reducible refine Neu.bind ?_ fun _ => ?_
  | with_reducible exact Neu.pure _ | with_reducible exact Neu.raise _ | with_reducible exact Neu.lift _
  | with_reducible exact Neu.get | with_reducible exact Neu.quiet Quiet.freshVar
  | with_reducible exact Neu.quiet Quiet.freshId
  | with_reducible exact Neu.quiet (Quiet.newPar _ _ _) | with_reducible exact Neu.setPars _ _
  | with_reducible exact Neu.quiet Quiet.addAll | with_reducible exact Neu.quiet (Quiet.setObjective _ _)
  | with_reducible exact Neu.quiet (Quiet.addLib _ _) | with_reducible exact Neu.solve
  | with_reducible exact Neu.quiet (Quiet.makeWeightSum _) | with_reducible exact Neu.rebuildAll _ _
  | with_reducible exact Neu.quiet Quiet.varianceExpr | with_reducible exact Neu.quiet (Quiet.returnExpr _)
  | with_reducible exact Neu.quiet Quiet.muTimesW | with_reducible exact Neu.quiet Quiet.cvarExpr
  | with_reducible exact Neu.quiet Quiet.cdarExpr
  | with_reducible exact Neu.quiet Quiet.cvarCons | with_reducible exact Neu.quiet Quiet.cdarCons
  | with_reducible exact Neu.quiet (Quiet.semiCon _ _)
  | with_reducible exact Neu.checkMax _
  | with_reducible apply Neu.withParameter
  | with_reducible apply Neu.ite))

theorem Neu.addSectors (sec : Fin n → Option String) (up : Bool) (l : List (Option String × ℝ)) :
    Neu (Convex.addSectors sec up l) := by
  induction l with
  | nil => exact .pure _
  | cons x l ih => exact .bind (.quiet (.addLib _ _)) fun _ => ih

theorem Neu.none {c : Call n} {er : PyErr} (e : run U S D c = Convex.raise er) : Neu (run U S D c) := by
  rw [e]; exact .raise _

theorem Neu.some {x : M n (Fin n → ℝ)} (hx : Neu x) {c : Call n}
    (e : run U S D c = (x >>= fun w => Pure.pure (Option.some w))) :
    Neu (run U S D c) := by
  rw [e]; exact .bind hx fun _ => .pure _

theorem neu_once {c : Call n} (hc : Once c) : Neu (run U S D c) := by
  cases c with
  | minVolatility =>
    cases hk : D.kind with
    | ef => exact .some (x := minVolatility S D) (by unfold minVolatility; neu) (by simp only [run, hk])
    | _ => exact .none (er := .notImplemented) (by simp only [run, hk])
  | maxSharpe rf =>
    cases hk : D.kind with
    | ef =>
      refine .some (x := maxSharpe S D rf) ?_ (by simp only [run, hk])
      unfold maxSharpe
      split
      · exact .raise _
      · refine .ite (.raise _) (.bind (.modify fun _ => ⟨rfl, rfl⟩) fun _ => .bind (.quiet .varianceExpr) fun _ =>
          .bind (.quiet (.setObjective _ _)) fun _ => .bind (.quiet .freshVar) fun _ => .bind (.quiet .addAll) fun _ =>
          .bind .get fun _ => .bind (.rebuildAll _ _) fun _ => .bind (.quiet .freshId) fun _ => .bind (.quiet .freshId) fun _ =>
          .bind (.quiet .freshId) fun _ => .bind (.modify fun _ => ⟨rfl, rfl⟩) fun _ => .bind .solve fun _ => ?_)
        intro o h _
        unfold rescale
        split <;> exact ⟨rfl, rfl⟩
    | _ => exact .none (er := .notImplemented) (by simp only [run, hk])
  | minCvar mn =>
    cases hk : D.kind with
    | cvar => exact .some (x := minCvar S D mn) (by unfold minCvar; neu) (by simp only [run, hk])
    | _ => exact .none (er := .attribute) (by simp only [run, hk])
  | minCdar mn =>
    cases hk : D.kind with
    | cdar => exact .some (x := minCdar S D mn) (by unfold minCdar buildCdar; neu) (by simp only [run, hk])
    | _ => exact .none (er := .attribute) (by simp only [run, hk])
  | minSemi mn =>
    cases hk : D.kind with
    | semi => exact .some (x := minSemi S D mn) (by unfold minSemi; neu) (by simp only [run, hk])
    | _ => exact .none (er := .attribute) (by simp only [run, hk])
  | _ => exact hc.elim

theorem neu_maxUtility (r : ℝ) (mn : Bool) : Neu (run U S D (.maxUtility r mn)) := by
  cases hk : D.kind with
  | ef =>
    refine .some (x := maxUtility S D r mn) ?_ (by simp only [run, hk])
    unfold maxUtility
    dsimp only
    split
    · exact .bind (.raise _) fun _ => .withParameter _ _ _ (by neu)
    · exact .withParameter _ _ _ (by neu)
  | semi =>
    refine .some (x := semiUtility S D r mn) ?_ (by simp only [run, hk])
    unfold semiUtility
    dsimp only
    split
    · exact .bind (.raise _) fun _ => .withParameter _ _ _ (by neu)
    · exact .withParameter _ _ _ (by neu)
  | _ => exact .none (er := .notImplemented) (by simp only [run, hk])

theorem neu_efficientRisk (t : ℝ) (mn : Bool) : Neu (run U S D (.efficientRisk t mn)) := by
  cases hk : D.kind with
  | ef =>
    refine .some (x := efficientRisk S D t mn) ?_ (by simp only [run, hk])
    have hw : Neu (n := n) (withParameter S "target_variance" mn (t ^ 2) do
        let r ← returnExpr D true
        setObjective [] (fun e => (r e.asg : EReal))
        let v ← varianceExpr D
        addAll
        let p ← newPar "target_variance" (t ^ 2) true
        addLib (.ineq 1 (scalar v) (ofPar p))
        makeWeightSum mn) := .withParameter _ _ _ (by neu)
    unfold efficientRisk
    dsimp only
    split
    · exact .bind (.raise _) fun _ => by split <;> [exact .bind (.raise _) fun _ => hw; exact hw]
    · split
      · exact .bind (.raise _) fun _ => hw
      · exact hw
  | cvar => exact .some (x := cvarRisk S D t mn) (.withParameter _ _ _ (by neu)) (by simp only [run, hk])
  | cdar => exact .some (x := cdarRisk S D t mn) (.withParameter _ _ _ (by neu)) (by simp only [run, hk])
  | semi => exact .some (x := semiRisk S D t mn) (.withParameter _ _ _ (by neu)) (by simp only [run, hk])

theorem neu_efficientReturn (f : Bool) (t : ℝ) (mn : Bool) : Neu (run U S D (.efficientReturn f t mn)) := by
  cases hk : D.kind with
  | ef =>
    refine .some (x := efficientReturn S D f t mn) ?_ (by simp only [run, hk])
    unfold efficientReturn
    dsimp only
    split
    · exact .bind (.raise _) fun _ => .bind (.checkMax _) fun _ => .withParameter _ _ _ (by neu)
    · exact .bind (.checkMax _) fun _ => .withParameter _ _ _ (by neu)
  | cvar => exact .some (x := cvarReturn S D t mn) (.withParameter _ _ _ (by neu)) (by simp only [run, hk])
  | cdar =>
    exact .some (x := cdarReturn S D t mn) (.withParameter _ _ _ (by unfold buildCdar; neu)) (by simp only [run, hk])
  | semi =>
    refine .some (x := semiReturn S D f t mn) ?_ (by simp only [run, hk])
    unfold semiReturn
    dsimp only
    split
    · exact .stop _ _
    · split
      · exact .raise _
      · split
        · exact .stop _ _
        · exact .withParameter _ _ _ (by neu)

theorem neu_run (c : Call n) : Neu (run U S D c) := by
  cases c with
  | addObjective r =>
    refine .bind ?_ fun _ => .pure _
    refine .bind .get fun o => ?_
    dsimp only
    split
    · exact .bind (.raise _) fun _ => .bind (.lift _) fun _ => .modify fun _ => ⟨rfl, rfl⟩
    · exact .bind (.lift _) fun _ => .modify fun _ => ⟨rfl, rfl⟩
  | addConstraint b r =>
    intro o h ho
    show ((addConstraint U b r >>= fun _ => pure none) o h).2.1.opt = _ ∧
      ((addConstraint U b r >>= fun _ => pure none) o h).2.1.neutral = _
    rw [none_run]
    cases b with
    | false => exact ⟨rfl, rfl⟩
    | true =>
      obtain ⟨p, hp⟩ := Option.ne_none_iff_exists'.1 ho
      have e : addConstraint U true r o h = _ := bind_ok (a := o) (o' := o) (h' := h) rfl
      rw [e, hp]
      exact ⟨hp, rfl⟩
  | addSectors s l u => exact .bind (.bind (.addSectors _ _ _) fun _ => .addSectors _ _ _) fun _ => .pure _
  | convex r b =>
    refine .bind (.bind (.lift _) fun i => .bind (.modify fun _ => ⟨rfl, rfl⟩) fun _ => .bind (.quiet .addAll) fun _ => ?_)
      fun _ => .pure _
    cases b with
    | true => exact .bind (.quiet (.addLib _ _)) fun _ => .solve
    | false => exact .solve
  | nonconvex m b =>
    exact .bind (.bind .get fun o => .bind (.lift _) fun _ => .bind (.modify fun _ => ⟨rfl, rfl⟩) fun _ => .pure _)
      fun _ => .pure _
  | setWeights w =>
    refine .bind ?_ fun _ => .pure _
    unfold setWeights
    dsimp only
    split
    · exact .bind (.raise _) fun _ => .bind (.lift _) fun _ => .modify fun _ => ⟨rfl, rfl⟩
    · exact .bind (.lift _) fun _ => .modify fun _ => ⟨rfl, rfl⟩
  | setPar i v => exact .bind (.setPars _ _) fun _ => .pure _
  | maxUtility r mn => exact neu_maxUtility r mn
  | efficientRisk t mn => exact neu_efficientRisk t mn
  | efficientReturn f t mn => exact neu_efficientReturn f t mn
  | _ => exact neu_once (by exact True.intro)

/-! ### What a problem tells about the call that returned its weights -/

/-- The stored problem fits a call that returned weights. -/
structure From (D : Data n) (p : Opt n) (neutral : Option Bool) (c : Call n) : Prop where
  named : ∀ nm, pname D.kind c = some nm → ∃ b a, libPars p.pars = [⟨nm, b, .lib a⟩] ∧ neutral = some (mnOf c)
  plain : pname D.kind c = none → libPars p.pars = []
  lib : Optimises c → ∃ k, p.obj.id = .lib k

theorem found_live (hU : Usable U D) (g : Good U D cfg o h) (hm : MaxOk U S D cfg o) {c : Call n}
    (hp : (pname D.kind c).isSome = true) {w : Fin n → ℝ} (hw : (run U S D c o h).1 = .ok (some w)) :
    Live U D cfg (run U S D c o h).2.1 (run U S D c o h).2.2 c := by
  have fin : ∀ {o₁ h₁} {r : Except PyErr (Fin n → ℝ) × OState n × Heap n}, MPost U S D cfg c o₁ h₁ r →
      r.1.map some = .ok (some w) → Live U D cfg r.2.1 r.2.2 c := by
    intro o₁ h₁ r m hr
    refine m.live hp ?_
    rcases m.res with ⟨e, he, -⟩ | ⟨v, q, -, -, hl⟩
    · rw [he] at hr; cases hr
    · rw [hl]; simp
  by_cases hne : ∀ f t mn, D.kind = .ef → c ≠ .efficientReturn f t mn
  · obtain ⟨x, hx, m⟩ := method_mpost (S := S) hU g hp hne
    rw [hx, some_run] at hw ⊢
    exact fin m hw
  · push Not at hne
    obtain ⟨f, t, mn, hk, rfl⟩ := hne
    have hx : run U S D (.efficientReturn f t mn) = (efficientReturn S D f t mn >>= fun w => pure (some w)) := by
      simp only [run, hk]
    rw [hx, some_run] at hw ⊢
    unfold efficientReturn at hw ⊢
    by_cases hf : (!f) = true
    · rw [if_pos hf] at hw; cases hw
    simp only [if_neg hf, pure_bind] at hw ⊢
    obtain ⟨r, o', h', pre, e, -, -, -, -, h5, -, -, -⟩ := checkMax_post hU g hm t
    cases r with
    | error e' => rw [bind_err e] at hw; cases hw
    | ok u =>
      rw [bind_ok e] at hw ⊢
      exact fin (efTarget_post (S := S) hU hk h5 f t mn) hw

/-- After a call that returned weights. -/
structure After (D : Data n) (c : Call n) (o' : OState n) (p : Opt n) : Prop where
  opt : o'.opt = some p
  fits : From D p o'.neutral c
  obj : o'.objective = some p.obj
  cons : o'.cons = p.cons

theorem found_after (hU : Usable U D) (g : Good U D cfg o h) (hm : MaxOk U S D cfg o) {c : Call n}
    (hc : Optimises c ∨ ∃ r b, c = .convex r b) {w : Fin n → ℝ} (hw : (run U S D c o h).1 = .ok (some w)) :
    ∃ p, After D c (run U S D c o h).2.1 p ∧ (o.opt ≠ none →
      (pname D.kind c).isSome = true ∨ (∃ r b, c = .convex r b) ∧ ∃ i, p.obj.id = .usr i) := by
  cases hp : pname D.kind c with
  | some nm =>
    obtain ⟨p, v, nm', a, l⟩ := found_live hU g hm (by rw [hp]; rfl) hw
    have hn : nm' = nm := by have := l.name; rw [hp] at this; exact (Option.some.inj this).symm
    subst hn
    refine ⟨p, ⟨l.solved.opt, ⟨?_, fun e => (by rw [hp] at e; cases e), fun _ => ?_⟩, l.obj, l.cons⟩, fun _ => .inl rfl⟩
    · intro nm₁ h1
      rw [hp] at h1
      cases h1
      exact ⟨_, a, l.par, l.neutral⟩
    · cases l.solved.origin with
      | once k hid _ => exact ⟨k, hid⟩
      | target _ _ _ _ _ k hid => exact ⟨k, hid⟩
      | convex i b _ hl => rw [l.par] at hl; cases hl
  | none =>
    have plain : ∀ {p : Opt n} {nu}, libPars p.pars = [] → (Optimises c → ∃ k, p.obj.id = .lib k) → From D p nu c :=
      fun h1 h2 => ⟨fun nm h => (by rw [hp] at h; cases h), fun _ => h1, h2⟩
    rcases hc with hc | ⟨r, b, rfl⟩
    · by_cases ho : o.opt = none
      · have lay : Once c → ∃ p, After D c (run U S D c o h).2.1 p ∧ (o.opt ≠ none →
            (none : Option String).isSome = true ∨ (∃ r b, c = .convex r b) ∧ ∃ i, p.obj.id = .usr i) := by
          intro h1
          obtain ⟨p, e1, e2, e3, e4, e5⟩ := lays_run (U := U) (S := S) (D := D) h1 o h (plain_of_good hU g ho) _ hw
          exact ⟨p, ⟨e1, plain e2 fun _ => e3 rfl, e4, e5⟩, fun h => absurd ho h⟩
        cases c with
        | maxUtility r mn =>
          exfalso
          cases hk : D.kind <;> simp [pname, hk] at hp <;> simp only [run, hk] at hw <;> cases hw
        | efficientRisk t mn => cases hk : D.kind <;> simp [pname, hk] at hp
        | efficientReturn f t mn => simp [pname] at hp
        | _ => first | exact lay (by exact True.intro) | exact hc.elim
      · exfalso
        rcases g with ⟨b, -⟩ | ⟨p, s⟩
        · exact ho b.opt
        · have bk : Once c → False := by
            intro h1
            obtain ⟨e, he⟩ := balks_run (U := U) (S := S) (D := D) h1 o h s.stored
            rw [he] at hw
            cases hw
          cases c with
          | maxUtility r mn => cases hk : D.kind <;> simp [pname, hk] at hp <;> simp only [run, hk] at hw <;> cases hw
          | efficientRisk t mn => cases hk : D.kind <;> simp [pname, hk] at hp
          | efficientReturn f t mn => simp [pname] at hp
          | _ => first | exact bk (by exact True.intro) | exact hc.elim
    · by_cases ho : o.opt = none
      · obtain ⟨p, e1, e2, -, e4, e5⟩ := lays_convex (S := S) hU r b o h (plain_of_good hU g ho) _ hw
        exact ⟨p, ⟨e1, plain e2 (by nofun), e4, e5⟩, fun h => absurd ho h⟩
      · have pst := (run_post (S := S) hU g hm (.convex r b)).good
        rcases g with ⟨bs, -⟩ | ⟨p, s⟩
        · exact absurd bs.opt ho
        cases r with
        | error e => cases hw
        | ok i =>
        have hx : run U S D (.convex (.ok i) b) = (convexObjective U S (.ok i) b >>= fun w => pure (some w)) := rfl
        obtain ⟨ko, -⟩ := neu_run (U := U) (S := S) (D := D) (.convex (.ok i) b) o h ho
        have hop := ko.trans s.opt
        rcases pst with ⟨bs, -⟩ | ⟨p', s'⟩
        · rw [bs.opt] at hop; cases hop
        obtain rfl : p' = p := by have := s'.opt; rw [hop] at this; exact (Option.some.inj this).symm
        rw [hx, some_run, convexObjective_eq] at hw hop ⊢
        cases b with
        | true =>
          exfalso
          have e0 : ((if true = true then addLib (sumCon 1) else pure ()) >>= fun _ => solve S)
              { o with objective := some (sumObj (U.mkObj i) o.added h.nextId) }
              { h with nextId := h.nextId + o.added.length } = (.error .instantiation, _, _) :=
            bind_err (addLib_solved _ _ { o with objective := some (sumObj (U.mkObj i) o.added h.nextId) }
              { h with nextId := h.nextId + o.added.length } s.opt)
          rw [e0] at hw
          cases hw
        | false =>
          have e0 : ((if false = true then addLib (sumCon 1) else pure ()) >>= fun _ => solve S)
              { o with objective := some (sumObj (U.mkObj i) o.added h.nextId) }
              { h with nextId := h.nextId + o.added.length } = solve S
              { o with objective := some (sumObj (U.mkObj i) o.added h.nextId) }
              { h with nextId := h.nextId + o.added.length } := rfl
          rw [e0] at hw hop ⊢
          by_cases hid : (sumObj (U.mkObj i) o.added h.nextId).id = p'.obj.id
          · have hle : h.nextId ≤ h.nextId + o.added.length := Nat.le_add_right _ _
            have q : sumObj (U.mkObj i) o.added h.nextId = U.mkObj i ∧ p'.obj = U.mkObj i ∧ libPars p'.pars = [] := by
              rcases sumObj_id (U.mkObj i) o.added h.nextId with ⟨-, q2⟩ | ⟨k, q1, q2, -⟩
              · rw [q2] at hid
                cases s.origin with
                | once k hk hp => rw [hk] at hid; cases hid
                | target _ _ _ _ _ k hk => rw [hk] at hid; cases hid
                | convex i' b' hid' hl hd =>
                  rw [hid'] at hid
                  obtain rfl : i = i' := by
                    have : (Ref.usr i) = Ref.usr i' := hid
                    cases this; rfl
                  exact ⟨q2, hid', hl⟩
              · exfalso
                have := s.idObj
                rw [← hid, q1] at this
                exact absurd (lt_of_lt_of_le this q2) (lt_irrefl _)
            obtain ⟨q1, q2, q3⟩ := q
            have s₁ : Solved U D cfg { o with objective := some (sumObj (U.mkObj i) o.added h.nextId) }
                { h with nextId := h.nextId + o.added.length } p' :=
              ⟨s.opt, s.added, s.initObj, s.initCons, s.properP, s.properO, .inl (by rw [q1, q2]), s.cons, s.idObj.mono hle,
                fun c hc => (s.ids c hc).mono hle, s.origin⟩
            rcases solve_solved (S := S) s₁ with ⟨e, he⟩ | ⟨k1, k2, k3⟩
            · rw [he] at hw; cases hw
            · obtain ⟨w', vals, hcs, -, -⟩ := callSolver_run (S := S) p'
                { o with objective := some (sumObj (U.mkObj i) o.added h.nextId) }
                { h with nextId := h.nextId + o.added.length }
              rw [k3, hcs]
              exact ⟨p', ⟨s.opt, plain q3 (by nofun), k1, k2⟩, fun _ => .inr ⟨⟨_, _, rfl⟩, i, by rw [q2]; rfl⟩⟩
          · exfalso
            have sp : Spoiled p' { o with objective := some (sumObj (U.mkObj i) o.added h.nextId) }
                { h with nextId := h.nextId + o.added.length } :=
              ⟨⟨s.opt, s.stored.2.mono (Nat.le_add_right _ _)⟩, _, rfl, by rw [s.initObj]; exact hid⟩
            obtain ⟨-, e, he⟩ := Sinks.solve (S := S) _ _ sp
            rw [he] at hw
            cases hw

theorem same_of_pname {c c' : Call n} {k : Kind} {nm : String} (h : pname k c = some nm) (h' : pname k c' = some nm) :
    SameMethod c c' := by
  cases k <;> cases c <;> cases c' <;> simp [pname] at h h' <;>
    first
      | exact True.intro
      | (subst h; exact absurd h' (by decide))

theorem neutral_mnOf {c : Call n} {k : Kind} (h : (pname k c).isSome = true) : c.neutral = mnOf c := by
  cases c <;> first | rfl | simp [pname] at h

theorem From.alike {ν : Option Bool} {e c : Call n} (he : From D p ν e) (hc : From D p ν c)
    (oe : Optimises e ∨ ∃ r b, e = .convex r b)
    (h : (pname D.kind c).isSome = true ∨ (∃ r b, c = .convex r b) ∧ ∃ i, p.obj.id = .usr i) : Alike e c := by
  rcases h with h | ⟨h, i, hi⟩
  · obtain ⟨nm, hnm⟩ := Option.isSome_iff_exists.1 h
    obtain ⟨b, a, h1, h2⟩ := hc.named nm hnm
    cases hp : pname D.kind e with
    | none => have := he.plain hp; rw [h1] at this; cases this
    | some nm' =>
      obtain ⟨b', a', h1', h2'⟩ := he.named nm' hp
      rw [h1] at h1'
      obtain rfl : nm = nm' := by simp at h1'; exact h1'.1
      refine .inl ⟨same_of_pname hp hnm, ?_⟩
      rw [neutral_mnOf (k := D.kind) (by rw [hp]; rfl), neutral_mnOf (k := D.kind) h]
      rw [h2] at h2'
      exact (Option.some.inj h2').symm
  · rcases oe with oe | oe
    · obtain ⟨k, hk⟩ := he.lib oe
      rw [hk] at hi
      cases hi
    · exact .inr ⟨oe, h⟩

/-- Optimisation methods return weights if they return at all. -/
theorem optimises_some {c : Call n} (hc : Optimises c) : (run U S D c o h).1 ≠ .ok none := by
  have fin : ∀ {x : M n (Fin n → ℝ)}, run U S D c = (x >>= fun w => pure (some w)) → (run U S D c o h).1 ≠ .ok none := by
    intro x e
    rw [e, some_run]
    cases (x o h).1 <;> nofun
  cases c with
  | minVolatility => cases hk : D.kind <;> first | exact fin (by simp only [run, hk]; rfl) | (simp only [run, hk]; nofun)
  | maxSharpe rf => cases hk : D.kind <;> first | exact fin (by simp only [run, hk]; rfl) | (simp only [run, hk]; nofun)
  | maxUtility r mn => cases hk : D.kind <;> first | exact fin (by simp only [run, hk]; rfl) | (simp only [run, hk]; nofun)
  | efficientRisk t mn => cases hk : D.kind <;> exact fin (by simp only [run, hk]; rfl)
  | efficientReturn f t mn => cases hk : D.kind <;> exact fin (by simp only [run, hk]; rfl)
  | minCvar mn => cases hk : D.kind <;> first | exact fin (by simp only [run, hk]; rfl) | (simp only [run, hk]; nofun)
  | minCdar mn => cases hk : D.kind <;> first | exact fin (by simp only [run, hk]; rfl) | (simp only [run, hk]; nofun)
  | minSemi mn => cases hk : D.kind <;> first | exact fin (by simp only [run, hk]; rfl) | (simp only [run, hk]; nofun)
  | _ => exact hc.elim

/-! ### How an object gets spoiled -/

/-- The program gives an object with a stored problem another objective. -/
def Spoils (p : Opt n) {α : Type} (x : M n α) : Prop := ∀ o h, Stored p o h → Spoiled p (x o h).2.1 (x o h).2.2

/-- The program cannot fail on an object with a stored problem, and keeps the problem. -/
def Smooth (p : Opt n) {α : Type} (x : M n α) : Prop :=
  ∀ o h, Stored p o h → ∃ a o' h', x o h = (.ok a, o', h') ∧ Stored p o' h'

namespace Smooth
variable {α β : Type}

theorem pure (a : α) : Smooth p (Pure.pure a : M n α) := fun o h k => ⟨a, o, h, rfl, k⟩
theorem freshVar : Smooth p (freshVar : M n _) := fun _ _ k => ⟨_, _, _, rfl, k⟩
theorem modify {f : OState n → OState n} (hf : ∀ o, (f o).opt = o.opt) : Smooth p (modify f) :=
  fun o _ k => ⟨_, _, _, rfl, (hf o).trans k.1, k.2⟩
theorem newPar (nm : String) (v : ℝ) (b : Bool) (hv : 0 ≤ v) : Smooth p (newPar nm v b : M n _) :=
  fun o h k => ⟨_, _, _, newPar_run nm v b o h (fun hn => absurd hn.2 (not_lt.2 hv)), k⟩
theorem varianceExpr (hs : D.symOk = true) : Smooth p (varianceExpr D) := by
  unfold Convex.varianceExpr; rw [if_pos hs]; exact pure _
theorem returnExpr (hm : D.mu.isSome = true) (neg : Bool) : Smooth p (returnExpr D neg) := by
  unfold Convex.returnExpr
  cases hmu : D.mu with
  | none => rw [hmu] at hm; cases hm
  | some mu => exact pure _
theorem tailCoef (ht : (D.T : ℝ) * (1 - D.beta) ≠ 0) : Smooth p (tailCoef D) := by
  unfold Convex.tailCoef; rw [if_neg ht]; exact pure _

theorem bind {x : M n α} {f : α → M n β} (hx : Smooth p x) (hf : ∀ a, Smooth p (f a)) : Smooth p (x >>= f) := by
  intro o h k
  obtain ⟨a, o', h', e, k'⟩ := hx o h k
  rw [bind_ok e]
  exact hf a o' h' k'

theorem cvarExpr (ht : (D.T : ℝ) * (1 - D.beta) ≠ 0) : Smooth p (cvarExpr D) := bind (tailCoef ht) fun _ => pure _
theorem cdarExpr (ht : (D.T : ℝ) * (1 - D.beta) ≠ 0) : Smooth p (cdarExpr D) := bind (tailCoef ht) fun _ => pure _

end Smooth

namespace Spoils
variable {α β : Type}

theorem bind {x : M n α} {f : α → M n β} (hx : Smooth p x) (hf : ∀ a, Spoils p (f a)) : Spoils p (x >>= f) := by
  intro o h k
  obtain ⟨a, o', h', e, k'⟩ := hx o h k
  rw [bind_ok e]
  exact hf a o' h' k'

theorem obj {f : Unit → M n β} (ps : List Par) (g : Env n → EReal) (hf : ∀ a, Rots p (f a)) :
    Spoils p (setObjective ps g >>= f) := by
  intro o h k
  rw [bind_run]
  exact hf () _ _ (k.setObjective ps g)

/-- The parameter is not there, so the problem is built anew. -/
theorem parameter {nm : String} (hd : isDefined nm o h = (.ok false, o, h)) (mn : Bool) (v : ℝ) {build : M n Unit}
    (hb : Spoils p build) (k : Stored p o h) :
    Spoiled p (withParameter S nm mn v build o h).2.1 (withParameter S nm mn v build o h).2.2 := by
  unfold withParameter
  rw [bind_ok hd]
  show Spoiled p ((build >>= fun _ => solve S) o h).2.1 ((build >>= fun _ => solve S) o h).2.2
  rw [bind_run]
  have k' := hb o h k
  rcases hr : build o h with ⟨y, o', h'⟩
  rw [hr] at k'
  cases y with
  | error e => exact k'
  | ok a => exact (Sinks.solve (S := S) o' h' k').1

end Spoils

theorem spoiled_some {c : Call n} {x : M n (Fin n → ℝ)} (e : run U S D c = (x >>= fun w => pure (some w)))
    (k : Spoiled p (x o h).2.1 (x o h).2.2) : Spoiled p (run U S D c o h).2.1 (run U S D c o h).2.2 := by
  rw [e, some_run]; exact k

theorem spoils_once (hU : Usable U D) {c : Call n} (h1 : Once c) (hf : Offered D c) (k : Stored p o h) :
    Spoiled p (run U S D c o h).2.1 (run U S D c o h).2.2 := by
  cases c with
  | minVolatility =>
    obtain ⟨⟨hk, hs⟩, -⟩ := hf
    refine spoiled_some (x := minVolatility S D) (by simp only [run, hk]) ?_
    exact (Spoils.bind (.varianceExpr hs) fun _ => .obj _ _ fun _ => .bind .addAll fun _ => (Sinks.left (.addLib _ _)).rots : Spoils p _) o h k
  | maxSharpe rf =>
    obtain ⟨hk, hs, mu, hmu, i, hi⟩ := hf
    refine spoiled_some (x := maxSharpe S D rf) (by simp only [run, hk]) ?_
    unfold maxSharpe
    rw [hmu]
    dsimp only
    rw [if_neg (fun hall => absurd (hall i) (not_le.2 hi))]
    refine Spoils.bind (p := p) ?_ (fun _ => .bind (.varianceExpr hs) fun _ => .obj _ _ fun _ =>
      .bind .freshVar fun _ => .bind .addAll fun _ => .bind .get fun _ => .bind (.rebuildAll _ _) fun _ =>
      .bind .freshId fun _ => .bind .freshId fun _ => .bind .freshId fun _ => .bind ?_ fun _ =>
      (Sinks.left .solve).rots) o h k
    · exact .modify fun _ => rfl
    · exact .modify fun _ => ⟨rfl, rfl⟩
  | minCvar mn =>
    obtain ⟨hk, -⟩ := hf
    have hk : D.kind = .cvar := hk
    refine spoiled_some (x := minCvar S D mn) (by simp only [run, hk]) ?_
    exact (Spoils.bind (.cvarExpr (hU.tail (.inl hk))) fun _ => .obj _ _ fun _ => .bind .addAll fun _ =>
      (Sinks.left .cvarCons).rots : Spoils p _) o h k
  | minCdar mn =>
    obtain ⟨hk, -⟩ := hf
    have hk : D.kind = .cdar := hk
    refine spoiled_some (x := minCdar S D mn) (by simp only [run, hk]) ?_
    unfold minCdar buildCdar
    simp only [massoc]
    exact (Spoils.bind (.cdarExpr (hU.tail (.inr hk))) fun _ => .obj _ _ fun _ => .bind .addAll fun _ =>
      (Sinks.left .cdarCons).rots : Spoils p _) o h k
  | minSemi mn =>
    obtain ⟨hk, -⟩ := hf
    have hk : D.kind = .semi := hk
    refine spoiled_some (x := minSemi S D mn) (by simp only [run, hk]) ?_
    exact (Spoils.bind .freshVar fun _ => .bind .freshVar fun _ => .obj _ _ fun _ => .bind .addAll fun _ =>
      (Sinks.left (.semiCon _ _)).rots : Spoils p _) o h k
  | _ => exact h1.elim

theorem spoils_target (hU : Usable U D) {c : Call n} (hf : Offered D c)
    (hr : ∀ f t mn, c = .efficientReturn f t mn → D.kind = .cvar ∨ D.kind = .semi) {nm : String}
    (hp : pname D.kind c = some nm) (hd : isDefined nm o h = (.ok false, o, h)) (k : Stored p o h) :
    Spoiled p (run U S D c o h).2.1 (run U S D c o h).2.2 := by
  cases c with
  | maxUtility r mn =>
    obtain ⟨⟨hk, hmu⟩, ha⟩ := hf
    have ha : 0 < r := ha
    rcases hk with ⟨hk, hs⟩ | hk
    · obtain rfl : "risk_aversion" = nm := by simpa [pname, hk] using hp
      refine spoiled_some (x := maxUtility S D r mn) (by simp only [run, hk]) ?_
      unfold maxUtility
      rw [if_neg (not_le.2 ha)]
      exact Spoils.parameter hd _ _ (.bind (.returnExpr hmu _) fun _ => .bind (.varianceExpr hs) fun _ =>
        .bind (.newPar _ _ _ ha.le) fun _ => .obj _ _ fun _ => by rots) k
    · obtain rfl : "risk_aversion" = nm := by simpa [pname, hk] using hp
      refine spoiled_some (x := semiUtility S D r mn) (by simp only [run, hk]) ?_
      unfold semiUtility
      rw [if_neg (not_le.2 ha)]
      exact Spoils.parameter hd _ _ (.bind .freshVar fun _ => .bind .freshVar fun _ => .bind (.returnExpr hmu _) fun _ =>
        .bind (.newPar _ _ _ ha.le) fun _ => .obj _ _ fun _ => by rots) k
  | efficientRisk t mn =>
    obtain ⟨⟨-, hmu⟩, ha⟩ := hf
    cases hk : D.kind with
    | ef =>
      obtain rfl : "target_variance" = nm := by simpa [pname, hk] using hp
      simp only [Accepts, hk] at ha
      refine spoiled_some (x := efficientRisk S D t mn) (by simp only [run, hk]) ?_
      unfold efficientRisk
      rw [if_neg (not_lt.2 ha.1), if_neg ha.2]
      exact Spoils.parameter hd _ _ (.bind (.returnExpr hmu _) fun _ => .obj _ _ fun _ => by rots) k
    | cvar =>
      obtain rfl : "target_cvar" = nm := by simpa [pname, hk] using hp
      exact spoiled_some (x := cvarRisk S D t mn) (by simp only [run, hk])
        (Spoils.parameter hd _ _ (.bind (.returnExpr hmu _) fun _ => .obj _ _ fun _ => by rots) k)
    | cdar =>
      obtain rfl : "target_cdar" = nm := by simpa [pname, hk] using hp
      exact spoiled_some (x := cdarRisk S D t mn) (by simp only [run, hk])
        (Spoils.parameter hd _ _ (.bind (.returnExpr hmu _) fun _ => .obj _ _ fun _ => by rots) k)
    | semi =>
      obtain rfl : "target_semivariance" = nm := by simpa [pname, hk] using hp
      exact spoiled_some (x := semiRisk S D t mn) (by simp only [run, hk])
        (Spoils.parameter hd _ _ (.bind (.returnExpr hmu _) fun _ => .obj _ _ fun _ => by rots) k)
  | efficientReturn f t mn =>
    obtain ⟨-, ha⟩ := hf
    obtain rfl : "target_return" = nm := by simpa [pname] using hp
    rcases hr f t mn rfl with hk | hk
    · exact spoiled_some (x := cvarReturn S D t mn) (by simp only [run, hk])
        (Spoils.parameter hd _ _ (.bind (.cvarExpr (hU.tail (.inl hk))) fun _ => .obj _ _ fun _ => by rots) k)
    · simp only [Accepts, hk] at ha
      obtain ⟨rfl, h0, mu, hmu, i, hi⟩ := ha
      refine spoiled_some (x := semiReturn S D true t mn) (by simp only [run, hk]) ?_
      unfold semiReturn
      rw [if_neg (by simp [h0]), hmu]
      dsimp only
      rw [if_neg (fun hall => absurd (hall i) (not_lt.2 hi))]
      exact Spoils.parameter hd _ _ (.bind .freshVar fun _ => .bind .freshVar fun _ => .obj _ _ fun _ => by rots) k
  | _ => simp [pname] at hp

theorem spoils_run (hU : Usable U D) {c₀ c : Call n} (a : After D c₀ o p) (g : Good U D cfg o h) (hs : Switches D c₀ c) :
    Spoiled p (run U S D c o h).2.1 (run U S D c o h).2.2 := by
  obtain ⟨ho, hf, hn, hr⟩ := hs
  have s : Solved U D cfg o h p := by
    rcases g with ⟨b, -⟩ | ⟨p', s⟩
    · have := b.opt; rw [a.opt] at this; cases this
    · have := s.opt; rw [a.opt] at this; cases this; exact s
  cases hp : pname D.kind c with
  | none =>
    refine spoils_once hU ?_ hf s.stored
    cases c with
    | maxUtility r mn =>
      exfalso
      obtain ⟨⟨hk, -⟩, -⟩ := hf
      rcases hk with ⟨hk, -⟩ | hk <;> simp [pname, hk] at hp
    | efficientRisk t mn => cases hk : D.kind <;> simp [pname, hk] at hp
    | efficientReturn f t mn => simp [pname] at hp
    | _ => first | exact True.intro | exact ho.elim
  | some nm =>
    refine spoils_target hU hf hr hp ?_ s.stored
    have hl : libPars (allPars o) = libPars p.pars := by
      unfold allPars Opt.pars
      rw [a.obj, a.cons]
    have hnm : named nm o = [] := by
      rw [named_eq nm o s.properO, filter_libPars (pname_mem hp), hl]
      cases hp₀ : pname D.kind c₀ with
      | none => rw [a.fits.plain hp₀]; rfl
      | some nm₀ =>
        obtain ⟨b, x, h1, -⟩ := a.fits.named nm₀ hp₀
        rw [h1]
        have : nm₀ ≠ nm := by rintro rfl; exact hn (same_of_pname hp₀ hp)
        simp [this]
    rw [isDefined_eq nm o h s.properO, hnm]
    rfl

end Verif.Convex
