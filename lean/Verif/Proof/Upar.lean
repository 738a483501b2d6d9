import Verif.Proof.ConvexReturn

/-! Optimising leaves the user's parameters alone. -/

noncomputable section

namespace Verif.Convex
open Verif.Py Verif.Base Matrix

variable {n : ℕ} {U : Uni n} {S : Solver n} {D : Data n} {cfg : Cfg n} {o : OState n} {h : Heap n}

/-- The user's parameters keep their values. -/
def UparFree {α : Type} (x : M n α) : Prop := ∀ o h, (x o h).2.2.upar = h.upar

namespace UparFree

theorem pure {α : Type} (a : α) : UparFree (pure a : M n α) := fun _ _ => rfl
theorem raise {α : Type} (e : PyErr) : UparFree (raise e : M n α) := fun _ _ => rfl
theorem lift {α : Type} (r : Except PyErr α) : UparFree (lift r : M n α) := fun _ _ => rfl
theorem get : UparFree (get : M n _) := fun _ _ => rfl
theorem freshId : UparFree (freshId : M n _) := fun _ _ => rfl
theorem freshVar : UparFree (freshVar : M n _) := fun _ _ => rfl
theorem isDefined (nm : String) : UparFree (isDefined nm : M n _) := fun _ _ => rfl
theorem modify (f : OState n → OState n) : UparFree (modify f) := fun _ _ => rfl

theorem bind {α β : Type} {x : M n α} {f : α → M n β} (hx : UparFree x) (hf : ∀ a, UparFree (f a)) :
    UparFree (x >>= f) := by
  intro o h
  have h1 := hx o h
  rw [bind_run]
  rcases hr : x o h with ⟨r, o', h'⟩
  rw [hr] at h1
  cases r with
  | error e => exact h1
  | ok a => exact (hf a o' h').trans h1

theorem ite {α : Type} {c : Prop} [Decidable c] {x y : M n α} (hx : UparFree x) (hy : UparFree y) :
    UparFree (if c then x else y) := by split <;> assumption

theorem newPar (nm : String) (v : ℝ) (nn : Bool) : UparFree (newPar nm v nn : M n _) := by
  intro o h
  unfold Convex.newPar
  split <;> rfl

theorem addEach (l : List (Obj n)) : UparFree (addEach l) := by
  induction l with
  | nil => exact pure _
  | cons b l ih =>
    unfold Convex.addEach
    refine bind get fun o => ?_
    split
    · exact raise _
    · exact bind freshId fun _ => bind (modify _) fun _ => ih

theorem addAll : UparFree (addAll : M n _) := bind get fun _ => addEach _

theorem setObjective (ps : List Par) (f : Env n → EReal) : UparFree (setObjective ps f) :=
  bind freshId fun _ => modify _

theorem addLib (b : ConBody Par (Env n)) (d : Env n → Prop) : UparFree (addLib b d) := by
  refine bind get fun o => ?_
  dsimp only
  split
  · exact bind (raise _) fun _ => bind freshId fun _ => modify _
  · exact bind freshId fun _ => modify _

theorem mapBounds (lb ub : Fin n → EReal) : UparFree (mapBounds lb ub) :=
  bind (modify _) fun _ => bind (addLib _ _) fun _ => addLib _ _

theorem makeWeightSum (mn : Bool) : UparFree (makeWeightSum mn : M n _) := by
  refine bind ?_ fun _ => modify _
  unfold sumConstraint amendBounds
  exact ite (bind (bind get fun _ => ite (bind (mapBounds _ _) fun _ => modify _) (pure _)) fun _ => addLib _ _)
    (addLib _ _)

theorem rebuildAll (k : ℕ) (l : List (Con n)) : UparFree (rebuildAll k l) := by
  induction l with
  | nil => exact pure _
  | cons c l ih => exact bind (lift _) fun _ => bind freshId fun _ => bind ih fun _ => pure _

theorem varianceExpr : UparFree (varianceExpr D) := ite (pure _) (raise _)

theorem returnExpr (b : Bool) : UparFree (returnExpr D b) := by
  unfold Convex.returnExpr; split
  · exact raise _
  · exact pure _

theorem muTimesW : UparFree (muTimesW D) := by
  unfold Convex.muTimesW; split
  · exact raise _
  · exact pure _

theorem tailCoef : UparFree (tailCoef D) := ite (raise _) (pure _)
theorem cvarExpr : UparFree (cvarExpr D) := bind tailCoef fun _ => pure _
theorem cdarExpr : UparFree (cdarExpr D) := bind tailCoef fun _ => pure _
theorem cvarCons : UparFree (cvarCons D) := bind (addLib _ _) fun _ => addLib _ _

theorem cdarCons : UparFree (cdarCons D) :=
  bind (addLib _ _) fun _ => bind (addLib _ _) fun _ => bind (addLib _ _) fun _ => bind (addLib _ _) fun _ =>
    addLib _ _

theorem semiCon (p q : ℕ) : UparFree (semiCon D p q) := addLib _ _

theorem buildCdar (mn : Bool) : UparFree (buildCdar D mn) :=
  bind cdarExpr fun _ => bind (setObjective _ _) fun _ => bind addAll fun _ => bind cdarCons fun _ => makeWeightSum _

theorem validateNeutral (mn : Bool) : UparFree (validateNeutral mn : M n _) :=
  bind get fun _ => ite (raise _) (pure _)

end UparFree

macro "uparfree" : tactic => `(tactic| repeat' (first
  | with_reducible exact UparFree.pure _ | with_reducible exact UparFree.raise _ | with_reducible exact UparFree.lift _
  | with_reducible exact UparFree.get | with_reducible exact UparFree.freshVar
  | with_reducible exact UparFree.freshId | with_reducible exact UparFree.modify _
  | with_reducible exact UparFree.newPar _ _ _
  | with_reducible exact UparFree.addAll | with_reducible exact UparFree.setObjective _ _
  | with_reducible exact UparFree.addLib _ _ 
  | with_reducible exact UparFree.makeWeightSum _ | with_reducible exact UparFree.rebuildAll _ _
  | with_reducible exact UparFree.varianceExpr | with_reducible exact UparFree.returnExpr _
  | with_reducible exact UparFree.muTimesW | with_reducible exact UparFree.cvarExpr
  | with_reducible exact UparFree.cdarExpr
  | with_reducible exact UparFree.cvarCons | with_reducible exact UparFree.cdarCons
  | with_reducible exact UparFree.semiCon _ _ | with_reducible exact UparFree.buildCdar _
  | with_reducible exact UparFree.validateNeutral _
  | with_reducible apply UparFree.bind | with_reducible apply UparFree.ite | intro _))


theorem UparFree.callSolver (p : Opt n) : UparFree (callSolver S p) := by
  intro o h
  obtain ⟨w, vals, e, -, -⟩ := callSolver_run (S := S) p o h
  rw [e]

theorem UparFree.solve : UparFree (solve S) := by
  unfold Convex.solve
  refine .bind .get fun o => ?_
  cases ho : o.opt with
  | none =>
    cases hob : o.objective with
    | none => exact .raise _
    | some ob =>
      dsimp only
      split
      · exact .raise _
      · cases idsOf o.cons with
        | error e => exact .bind (.modify _) fun _ => .raise _
        | ok ids => exact .bind (.modify _) fun _ => .callSolver _
  | some p =>
    cases hob : o.objective with
    | none => exact .raise _
    | some ob =>
      dsimp only
      refine .ite (.raise _) (.bind (.lift _) fun ids => ?_)
      cases p.initCons with
      | none => exact .raise _
      | some ini => exact .ite (.raise _) (.callSolver _)

theorem UparFree.maxReturn : UparFree (maxReturn S D) := by
  unfold Convex.maxReturn
  cases D.mu with
  | none => exact .raise _
  | some mu =>
    refine .bind (.returnExpr _) fun _ => .bind (.setObjective _ _) fun _ => .bind (.addLib _ _) fun _ =>
      .bind (fun _ _ => rfl) fun k => .bind .solve fun _ => fun o h => ?_
    unfold negValue
    cases h.log[k]? with
    | none => rfl
    | some P => dsimp only; cases S k P <;> rfl

theorem UparFree.maxReturnOfCopy : UparFree (maxReturnOfCopy S D) := fun o h => UparFree.maxReturn (deepcopy o) h

theorem UparFree.checkMaxReturn (t : ℝ) : UparFree (checkMaxReturn S D t) := by
  unfold Convex.checkMaxReturn
  refine .bind .get fun o => .bind ?_ fun m => .bind (.modify _) fun _ => .ite (.raise _) (.pure _)
  cases o.maxRet with
  | none => exact .maxReturnOfCopy
  | some m => exact .ite .maxReturnOfCopy (.pure _)

/-- Parameters bearing the name are the library's own. -/
def LibNamed (nm : String) (o : OState n) : Prop := ∀ q ∈ named nm o, ∃ a, q.ref = .lib a

theorem setPars_upar (v : ℝ) (l : List Par) (hl : ∀ q ∈ l, ∃ a, q.ref = .lib a) (o : OState n) (h : Heap n) :
    (setPars v l o h).2.2.upar = h.upar := by
  induction l generalizing h with
  | nil => rfl
  | cons p l ih =>
    unfold setPars
    split
    · rfl
    · refine (ih (fun q hq => hl q (List.mem_cons_of_mem _ hq)) (h.setPar p v)).trans ?_
      obtain ⟨a, ha⟩ := hl p List.mem_cons_self
      unfold Heap.setPar
      rw [ha]

theorem withParameter_upar {nm : String} (hn : LibNamed nm o) (mn : Bool) (v : ℝ) {build : M n Unit}
    (hb : UparFree build) (h : Heap n) : (withParameter S nm mn v build o h).2.2.upar = h.upar := by
  unfold withParameter
  rcases hd : isDefined nm o h with ⟨r, o', h'⟩
  have e1 : o' = o ∧ h' = h := by
    cases hd
    exact ⟨rfl, rfl⟩
  obtain ⟨rfl, rfl⟩ := e1
  cases r with
  | error e => rw [bind_err hd]
  | ok b =>
    rw [bind_ok hd]
    cases b with
    | false =>
      exact (UparFree.bind hb fun _ => UparFree.solve (S := S)) o' h'
    | true =>
      rw [if_pos rfl]
      have hv := validate_run mn o' h'
      by_cases hmn : o'.neutral ≠ some mn
      · rw [if_pos hmn] at hv; rw [bind_err hv]
      · rw [if_neg hmn] at hv
        rw [bind_ok hv]
        have hupd : updatePar nm v o' h' = setPars v (named nm o') o' h' := by
          unfold updatePar
          rw [bind_ok hd]
          rfl
        have e := setPars_upar v (named nm o') hn o' h'
        rw [bind_run, hupd]
        rcases hs : setPars v (named nm o') o' h' with ⟨r, o₁, h₁⟩
        rw [hs] at e
        cases r with
        | error e' => exact e
        | ok _ => exact (UparFree.solve (S := S) o₁ h₁).trans e

theorem Current.libNamed (hU : Usable U D) (g : Good U D cfg o h) {c : Call n} (cu : Current U D cfg o h c) {nm : String}
    (hc : pname D.kind c = some nm) : LibNamed nm o := by
  rcases cu with ho | ⟨p, v, nm', a, l⟩
  · rcases g with ⟨b, hob⟩ | ⟨p, s⟩
    · have hp := b.proper hU (by simp)
      have hl : libPars (allPars o) = [] := by
        unfold allPars
        rw [libPars_append, b.conPars_nil hU]
        cases ho : o.objective with
        | none => rfl
        | some ob => exact hob ob ho
      intro q hq
      rw [named_eq nm o hp, filter_libPars (pname_mem hc), hl] at hq
      cases hq
    · rw [s.opt] at ho; cases ho
  · have : nm' = nm := Option.some.inj (l.name.symm.trans hc)
    subst this
    intro q hq
    rw [l.isDefined.1, List.mem_singleton] at hq
    exact ⟨a, by rw [hq]⟩

/-- Calls of the target methods of `EfficientFrontier`. -/
theorem target_upar (hU : Usable U D) (hk : D.kind = .ef) (g : Good U D cfg o h) {c : Call n} (hp : (pname D.kind c).isSome = true)
    (cu : Current U D cfg o h c) : (run U S D c o h).2.2.upar = h.upar := by
  obtain ⟨nm, hnm⟩ := Option.isSome_iff_exists.1 hp
  have hl := cu.libNamed hU g hnm
  cases c with
  | maxUtility r mn =>
    simp only [pname, hk] at hnm
    cases hnm
    simp only [run, hk]
    rw [some_run]
    show (maxUtility S D r mn o h).2.2.upar = h.upar
    unfold maxUtility
    split
    · rfl
    · exact withParameter_upar hl mn r (by uparfree) h
  | efficientRisk t mn =>
    simp only [pname, hk] at hnm
    cases hnm
    simp only [run, hk]
    rw [some_run]
    show (efficientRisk S D t mn o h).2.2.upar = h.upar
    unfold efficientRisk
    split
    · rfl
    · split
      · rfl
      · exact withParameter_upar hl mn _ (by uparfree) h
  | efficientReturn f t mn =>
    simp only [pname] at hnm
    cases hnm
    simp only [run, hk]
    rw [some_run]
    show (efficientReturn S D f t mn o h).2.2.upar = h.upar
    unfold efficientReturn
    split
    · rfl
    · have e := UparFree.checkMaxReturn (S := S) (D := D) t o h
      have shape := checkMax_shape (S := S) (D := D) t o h
      beta_reduce
      rw [bind_run]
      rcases hr : checkMaxReturn S D t o h with ⟨r, o', h'⟩
      rw [hr] at e shape
      cases r with
      | error e' => exact e
      | ok u =>
        rcases shape with ⟨⟨e', he⟩, -⟩ | ⟨m, hm⟩
        · cases he
        · dsimp only at hm e ⊢
          subst hm
          refine (withParameter_upar (o := { o with maxRet := some m }) hl mn t (by uparfree) h').trans e
  | _ => simp [pname] at hp

end Verif.Convex
