import Verif.Proof.ConvexWorlds
import Verif.Spec.Spoiled

/-! Objects whose objective is no longer that of their stored problem. -/

noncomputable section

namespace Verif.Convex
open Verif.Py Verif.Base Matrix

variable {n : ℕ} {U : Uni n} {S : Solver n} {D : Data n} {cfg : Cfg n} {p : Opt n}

/-- The object stores problem `p`. -/
def Stored (p : Opt n) (o : OState n) (h : Heap n) : Prop := o.opt = some p ∧ idLt h.nextId p.initObj

/-- The object stores problem `p` and has got another objective since. -/
def Spoiled (p : Opt n) (o : OState n) (h : Heap n) : Prop :=
  Stored p o h ∧ ∃ ob, o.objective = some ob ∧ ob.id ≠ p.initObj

/-- Spoiled objects stay so. -/
def Rots (p : Opt n) {α : Type} (x : M n α) : Prop := ∀ o h, Spoiled p o h → Spoiled p (x o h).2.1 (x o h).2.2

/-- Spoiled objects stay so, and the call raises. -/
def Sinks (p : Opt n) {α : Type} (x : M n α) : Prop :=
  ∀ o h, Spoiled p o h → Spoiled p (x o h).2.1 (x o h).2.2 ∧ ∃ e, (x o h).1 = .error e

namespace Rots
variable {α β : Type}

theorem pure (a : α) : Rots p (Pure.pure a : M n α) := fun _ _ h => h
theorem raise (e : PyErr) : Rots p (raise e : M n α) := fun _ _ h => h
theorem lift (r : Except PyErr α) : Rots p (lift r : M n α) := fun _ _ h => h
theorem get : Rots p (get : M n _) := fun _ _ h => h
theorem freshId : Rots p (freshId : M n _) := fun _ _ h => ⟨⟨h.1.1, h.1.2.mono (Nat.le_succ _)⟩, h.2⟩
theorem freshVar : Rots p (freshVar : M n _) := fun _ _ h => h
theorem isDefined (nm : String) : Rots p (isDefined nm : M n _) := fun _ _ h => h

theorem modify {f : OState n → OState n} (h : ∀ o, (f o).opt = o.opt ∧ (f o).objective = o.objective) :
    Rots p (modify f) := by
  rintro o hp ⟨⟨h1, h2⟩, h3⟩
  exact ⟨⟨(h o).1.trans h1, h2⟩, by rw [show (Convex.modify f o hp).2.1.objective = _ from (h o).2]; exact h3⟩

theorem newPar (nm : String) (v : ℝ) (b : Bool) : Rots p (newPar nm v b : M n _) := by
  intro o h hs
  unfold Convex.newPar
  split <;> exact hs

theorem bind {x : M n α} {f : α → M n β} (hx : Rots p x) (hf : ∀ a, Rots p (f a)) : Rots p (x >>= f) := by
  intro o h hs
  rw [bind_run]
  have k := hx o h hs
  rcases hr : x o h with ⟨r, o', h'⟩
  rw [hr] at k
  cases r with
  | error e => exact k
  | ok a => exact hf a o' h' k

theorem ite {c : Prop} [Decidable c] {x y : M n α} (hx : Rots p x) (hy : Rots p y) : Rots p (if c then x else y) := by
  split <;> assumption

theorem setPars (v : ℝ) (l : List Par) : Rots p (setPars v l : M n _) := by
  intro o h hs
  obtain ⟨e1, e2, -⟩ := setPars_other v l o h
  rw [e1]
  exact ⟨⟨hs.1.1, by rw [e2]; exact hs.1.2⟩, hs.2⟩

end Rots

theorem Stored.setObjective {o : OState n} {h : Heap n} (hs : Stored p o h) (ps : List Par) (f : Env n → EReal) :
    Spoiled p (setObjective ps f o h).2.1 (setObjective ps f o h).2.2 := by
  refine ⟨⟨hs.1, hs.2.mono (Nat.le_succ _)⟩, _, rfl, ?_⟩
  intro e
  have := hs.2
  rw [← e] at this
  exact absurd this (lt_irrefl _)

theorem Rots.setObjective (ps : List Par) (f : Env n → EReal) : Rots p (setObjective ps f : M n _) :=
  fun _ _ hs => hs.1.setObjective ps f

theorem Rots.addEach (l : List (Obj n)) : Rots p (addEach l) := by
  induction l with
  | nil => exact .pure _
  | cons b l ih =>
    intro o h hs
    obtain ⟨hs', ob, hob, hne⟩ := hs
    unfold Convex.addEach
    rw [bind_ok (a := o) (o' := o) (h' := h) rfl, hob]
    refine ih { o with objective := some (addTo ob b (.lib h.nextId)) } { h with nextId := h.nextId + 1 }
      ⟨⟨hs'.1, hs'.2.mono (Nat.le_succ _)⟩, _, rfl, ?_⟩
    intro e
    have := hs'.2
    rw [← e] at this
    exact absurd this (lt_irrefl _)

theorem Rots.addAll : Rots p (addAll : M n _) := .bind .get fun _ => .addEach _

namespace Sinks
variable {α β : Type}

theorem raise (e : PyErr) : Sinks p (raise e : M n α) := fun _ _ h => ⟨h, _, rfl⟩

theorem rots {x : M n α} (hx : Sinks p x) : Rots p x := fun o h hs => (hx o h hs).1

theorem bind {x : M n α} {f : α → M n β} (hx : Rots p x) (hf : ∀ a, Sinks p (f a)) : Sinks p (x >>= f) := by
  intro o h hs
  rw [bind_run]
  have k := hx o h hs
  rcases hr : x o h with ⟨r, o', h'⟩
  rw [hr] at k
  cases r with
  | error e => exact ⟨k, _, rfl⟩
  | ok a => exact hf a o' h' k

theorem left {x : M n α} {f : α → M n β} (hx : Sinks p x) : Sinks p (x >>= f) := by
  intro o h hs
  rw [bind_run]
  obtain ⟨k, e, he⟩ := hx o h hs
  rcases hr : x o h with ⟨r, o', h'⟩
  rw [hr] at k he
  cases he
  exact ⟨k, _, rfl⟩

theorem ite {c : Prop} [Decidable c] {x y : M n α} (hx : Sinks p x) (hy : Sinks p y) : Sinks p (if c then x else y) := by
  split <;> assumption

theorem addLib (b : ConBody Par (Env n)) (d : Env n → Prop) : Sinks p (addLib b d) := fun o h hs => by
  rw [addLib_error (by rw [hs.1.1]; nofun)]
  exact ⟨hs, _, rfl⟩

open Classical in
theorem solve : Sinks p (solve S) := by
  rintro o h hs
  obtain ⟨ob, hob, hne⟩ := hs.2
  unfold Convex.solve
  rw [bind_ok (a := o) (o' := o) (h' := h) rfl, hs.1.1, hob]
  dsimp only
  rw [if_pos hne]
  exact ⟨hs, _, rfl⟩

theorem updatePar (nm : String) (v : ℝ) : Rots p (updatePar nm v : M n _) := by
  refine .bind (.isDefined _) fun b => ?_
  dsimp only
  split
  · exact .bind (.raise _) fun _ => .bind .get fun _ => .setPars _ _
  · exact .bind .get fun _ => .setPars _ _

theorem withParameter (nm : String) (mn : Bool) (v : ℝ) {build : M n Unit} (hb : Rots p build) :
    Sinks p (withParameter S nm mn v build) := by
  refine .bind (.isDefined _) fun b => ?_
  dsimp only
  split
  · exact .bind (.bind .get fun _ => .ite (.raise _) (.pure _)) fun _ => .bind (updatePar _ _) fun _ => solve
  · exact .bind hb fun _ => solve

theorem makeWeightSum (mn : Bool) : Sinks p (makeWeightSum mn : M n _) := by
  refine .left ?_
  unfold sumConstraint amendBounds
  refine .ite (.bind (.bind .get fun _ => .ite (.bind ?_ fun _ => .modify fun _ => ⟨rfl, rfl⟩) (.pure _)) fun _ => addLib _ _)
    (addLib _ _)
  exact .bind (.modify fun _ => ⟨rfl, rfl⟩) fun _ => (Sinks.left (addLib _ _)).rots

theorem cdarCons : Sinks p (cdarCons D) := .left (addLib _ _)
theorem cvarCons : Sinks p (cvarCons D) := .left (addLib _ _)
theorem semiCon (a b : ℕ) : Sinks p (semiCon D a b) := addLib _ _

end Sinks

theorem Rots.rebuildAll (k : ℕ) (l : List (Con n)) : Rots p (rebuildAll k l) := by
  induction l with
  | nil => exact pure _
  | cons c l ih => exact .bind (.lift _) fun _ => .bind .freshId fun _ => .bind ih fun _ => .pure _

theorem Rots.varianceExpr : Rots p (varianceExpr D) := .ite (.pure _) (.raise _)
theorem Rots.returnExpr (b : Bool) : Rots p (returnExpr D b) := by
  unfold Convex.returnExpr; split
  · exact .raise _
  · exact .pure _
theorem Rots.muTimesW : Rots p (muTimesW D) := by
  unfold Convex.muTimesW; split
  · exact .raise _
  · exact .pure _
theorem Rots.cvarExpr : Rots p (cvarExpr D) := .bind (.ite (.raise _) (.pure _)) fun _ => .pure _
theorem Rots.cdarExpr : Rots p (cdarExpr D) := .bind (.ite (.raise _) (.pure _)) fun _ => .pure _

theorem Sinks.buildCdar (mn : Bool) : Sinks p (buildCdar D mn) :=
  .bind .cdarExpr fun _ => .bind (.setObjective _ _) fun _ => .bind .addAll fun _ => .left .cdarCons

theorem Sinks.maxReturn : Sinks p (maxReturn S D) := by
  unfold Convex.maxReturn
  split
  · exact .raise _
  · exact .bind (.returnExpr _) fun _ => .bind (.setObjective _ _) fun _ => .left (.addLib _ _)

theorem Sinks.maxReturnOfCopy : Sinks p (maxReturnOfCopy S D) := by
  intro o h hs
  obtain ⟨k, e, he⟩ := Sinks.maxReturn (S := S) (D := D) o h hs
  exact ⟨⟨⟨hs.1.1, k.1.2⟩, hs.2⟩, e, he⟩

theorem Rots.checkMaxReturn (t : ℝ) : Rots p (checkMaxReturn S D t) := by
  refine .bind .get fun o => .bind ?_ fun m => .bind (.modify fun _ => ⟨rfl, rfl⟩) fun _ => .ite (.raise _) (.pure _)
  cases o.maxRet with
  | none => exact Sinks.maxReturnOfCopy.rots
  | some m => exact .ite Sinks.maxReturnOfCopy.rots (.pure _)

macro "rots" : tactic => `(tactic| repeat' (first
  | with_reducible refine Rots.bind ?_ fun _ => ?_
  | with_reducible exact Rots.pure _ | with_reducible exact Rots.raise _ | with_reducible exact Rots.lift _
  | with_reducible exact Rots.get | with_reducible exact Rots.freshVar
  | with_reducible exact Rots.freshId
  | with_reducible exact Rots.newPar _ _ _ | with_reducible exact Rots.setPars _ _
  | with_reducible exact Rots.addAll | with_reducible exact Rots.setObjective _ _
  | with_reducible exact Sinks.rots (Sinks.addLib _ _)
  | with_reducible exact Sinks.rots (Sinks.makeWeightSum _) | with_reducible exact Rots.rebuildAll _ _
  | with_reducible exact Rots.varianceExpr | with_reducible exact Rots.returnExpr _
  | with_reducible exact Rots.muTimesW | with_reducible exact Rots.cvarExpr
  | with_reducible exact Rots.cdarExpr
  | with_reducible exact Sinks.rots Sinks.cvarCons | with_reducible exact Sinks.rots Sinks.cdarCons
  | with_reducible exact Sinks.rots (Sinks.semiCon _ _) | with_reducible exact Sinks.rots (Sinks.buildCdar _)
  | with_reducible exact Rots.checkMaxReturn _
  | with_reducible apply Rots.ite))

theorem Sinks.some {x : M n (Fin n → ℝ)} (hx : Sinks p x) {c : Call n} (e : run U S D c = (x >>= fun w => pure (some w))) :
    Sinks p (run U S D c) := by rw [e]; exact hx.left

theorem Sinks.none {c : Call n} {er : PyErr} (e : run U S D c = Convex.raise er) : Sinks p (run U S D c) := by
  rw [e]; exact .raise _

theorem fails_minVolatility : Sinks p (run U S D .minVolatility) := by
  cases hk : D.kind with
  | ef =>
    exact .some (x := minVolatility S D) (.bind .varianceExpr fun _ => .bind (.setObjective _ _) fun _ =>
      .bind .addAll fun _ => .left (.addLib _ _)) (by simp only [run, hk])
  | _ => exact .none (er := .notImplemented) (by simp only [run, hk])

theorem fails_maxSharpe (rf : ℝ) : Sinks p (run U S D (.maxSharpe rf)) := by
  cases hk : D.kind with
  | ef =>
    refine .some (x := maxSharpe S D rf) ?_ (by simp only [run, hk])
    unfold maxSharpe
    split
    · exact .raise _
    · exact .ite (.raise _) (.bind (.modify fun _ => ⟨rfl, rfl⟩) fun _ => .bind .varianceExpr fun _ =>
        .bind (.setObjective _ _) fun _ => .bind .freshVar fun _ => .bind .addAll fun _ => .bind .get fun _ =>
        .bind (.rebuildAll _ _) fun _ => .bind .freshId fun _ => .bind .freshId fun _ => .bind .freshId fun _ =>
        .bind (.modify fun _ => ⟨rfl, rfl⟩) fun _ => .left .solve)
  | _ => exact .none (er := .notImplemented) (by simp only [run, hk])

theorem fails_maxUtility (r : ℝ) (mn : Bool) : Sinks p (run U S D (.maxUtility r mn)) := by
  cases hk : D.kind with
  | ef =>
    refine .some (x := maxUtility S D r mn) ?_ (by simp only [run, hk])
    unfold maxUtility
    dsimp only
    split
    · exact .left (.raise _)
    · exact .withParameter _ _ _ (by rots)
  | semi =>
    refine .some (x := semiUtility S D r mn) ?_ (by simp only [run, hk])
    unfold semiUtility
    dsimp only
    split
    · exact .left (.raise _)
    · exact .withParameter _ _ _ (by rots)
  | _ => exact .none (er := .notImplemented) (by simp only [run, hk])

theorem fails_efficientRisk (t : ℝ) (mn : Bool) : Sinks p (run U S D (.efficientRisk t mn)) := by
  cases hk : D.kind with
  | ef =>
    refine .some (x := efficientRisk S D t mn) ?_ (by simp only [run, hk])
    unfold efficientRisk
    dsimp only
    split
    · exact .left (.raise _)
    · split
      · exact .left (.raise _)
      · exact .withParameter _ _ _ (by rots)
  | cvar => exact .some (x := cvarRisk S D t mn) (.withParameter _ _ _ (by rots)) (by simp only [run, hk])
  | cdar => exact .some (x := cdarRisk S D t mn) (.withParameter _ _ _ (by rots)) (by simp only [run, hk])
  | semi => exact .some (x := semiRisk S D t mn) (.withParameter _ _ _ (by rots)) (by simp only [run, hk])

theorem fails_efficientReturn (f : Bool) (t : ℝ) (mn : Bool) : Sinks p (run U S D (.efficientReturn f t mn)) := by
  cases hk : D.kind with
  | ef =>
    refine .some (x := efficientReturn S D f t mn) ?_ (by simp only [run, hk])
    unfold efficientReturn
    dsimp only
    split
    · exact .left (.raise _)
    · exact .bind (.checkMaxReturn _) fun _ => .withParameter _ _ _ (by rots)
  | cvar => exact .some (x := cvarReturn S D t mn) (.withParameter _ _ _ (by rots)) (by simp only [run, hk])
  | cdar => exact .some (x := cdarReturn S D t mn) (.withParameter _ _ _ (by rots)) (by simp only [run, hk])
  | semi =>
    refine .some (x := semiReturn S D f t mn) ?_ (by simp only [run, hk])
    unfold semiReturn
    dsimp only
    split
    · exact .left (.raise _)
    · split
      · exact .raise _
      · split
        · exact .left (.raise _)
        · exact .withParameter _ _ _ (by rots)

theorem fails_minCvar (mn : Bool) : Sinks p (run U S D (.minCvar mn)) := by
  cases hk : D.kind with
  | cvar =>
    exact .some (x := minCvar S D mn) (.bind .cvarExpr fun _ => .bind (.setObjective _ _) fun _ => .bind .addAll fun _ =>
      .left .cvarCons) (by simp only [run, hk])
  | _ => exact .none (er := .attribute) (by simp only [run, hk])

theorem fails_minCdar (mn : Bool) : Sinks p (run U S D (.minCdar mn)) := by
  cases hk : D.kind with
  | cdar => exact .some (x := minCdar S D mn) (.left (.buildCdar _)) (by simp only [run, hk])
  | _ => exact .none (er := .attribute) (by simp only [run, hk])

theorem fails_minSemi (mn : Bool) : Sinks p (run U S D (.minSemi mn)) := by
  cases hk : D.kind with
  | semi =>
    exact .some (x := minSemi S D mn) (.bind .freshVar fun _ => .bind .freshVar fun _ => .bind (.setObjective _ _) fun _ =>
      .bind .addAll fun _ => .left (.semiCon _ _)) (by simp only [run, hk])
  | _ => exact .none (er := .attribute) (by simp only [run, hk])

/-- On a spoiled object every optimisation method raises, and the object stays spoiled. -/
theorem fails_run {c : Call n} (hc : Optimises c) : Sinks p (run U S D c) := by
  cases c with
  | minVolatility => exact fails_minVolatility
  | maxSharpe rf => exact fails_maxSharpe _
  | maxUtility r mn => exact fails_maxUtility _ _
  | efficientRisk t mn => exact fails_efficientRisk _ _
  | efficientReturn f t mn => exact fails_efficientReturn _ _ _
  | minCvar mn => exact fails_minCvar _
  | minCdar mn => exact fails_minCdar _
  | minSemi mn => exact fails_minSemi _
  | _ => exact hc.elim

theorem Rots.addSectors (sec : Fin n → Option String) (up : Bool) (l : List (Option String × ℝ)) :
    Rots p (Convex.addSectors sec up l) := by
  cases l with
  | nil => exact .pure _
  | cons x l => exact (Sinks.left (.addLib _ _)).rots

/-- No call but `convex_objective` gets a spoiled object out of that state. -/
theorem rots_run {c : Call n} (hc : ∀ r b, c ≠ .convex r b) : Rots p (run U S D c) := by
  cases c with
  | addObjective r =>
    refine .bind ?_ fun _ => .pure _
    refine .bind .get fun o => ?_
    dsimp only
    split
    · exact .bind (.raise _) fun _ => .bind (.lift _) fun _ => .modify fun _ => ⟨rfl, rfl⟩
    · exact .bind (.lift _) fun _ => .modify fun _ => ⟨rfl, rfl⟩
  | addConstraint b r =>
    intro o h hs
    show Spoiled p ((addConstraint U b r >>= fun _ => pure none) o h).2.1 ((addConstraint U b r >>= fun _ => pure none) o h).2.2
    rw [none_run]
    cases b with
    | false => exact hs
    | true =>
      have e : addConstraint U true r o h = _ := bind_ok (a := o) (o' := o) (h' := h) rfl
      rw [e, hs.1.1]
      exact hs
  | addSectors s l u => exact .bind (.bind (.addSectors _ _ _) fun _ => .addSectors _ _ _) fun _ => .pure _
  | convex r b => exact absurd rfl (hc r b)
  | nonconvex m b =>
    refine .bind (.bind .get fun o => .bind (.lift _) fun _ => .bind (.modify fun _ => ⟨rfl, rfl⟩) fun _ => .pure _)
      fun _ => .pure _
  | setWeights w =>
    refine .bind ?_ fun _ => .pure _
    unfold setWeights
    dsimp only
    split
    · exact .bind (.raise _) fun _ => .bind (.lift _) fun _ => .modify fun _ => ⟨rfl, rfl⟩
    · exact .bind (.lift _) fun _ => .modify fun _ => ⟨rfl, rfl⟩
  | setPar i v => exact .bind (.setPars _ _) fun _ => .pure _
  | _ => exact (fails_run (by exact True.intro)).rots

end Verif.Convex
