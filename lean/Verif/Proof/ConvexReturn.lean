import Verif.Proof.ConvexWorlds

/-! First calls of `EfficientFrontier.efficient_return`. -/

noncomputable section

namespace Verif.Convex
open Verif.Py Verif.Base Matrix

variable {n : ℕ} {U : Uni n} {S : Solver n} {D : Data n} {cfg : Cfg n} {o : OState n} {h : Heap n}

/-- No largest return is cached, or a zero, which the code takes for none. -/
def Uncached (o : OState n) : Prop := ∀ m, o.maxRet = some m → m = 0

theorem checkMax_fresh (hU : Usable U D) (b : Base U cfg o h []) {mu : Fin n → ℝ} (hmu : D.mu = some mu)
    (hc : Uncached o) (t : ℝ) : ∃ h', h'.log = h.log ++ [maxProb U cfg h.upar mu] ∧ h.nextId ≤ h'.nextId ∧
      h'.upar = h.upar ∧
      ((∃ e, maxOutcome (S h.log.length (maxProb U cfg h.upar mu)) = .error e ∧
          checkMaxReturn S D t o h = (.error e, o, h')) ∨
        ∃ m, maxOutcome (S h.log.length (maxProb U cfg h.upar mu)) = .ok m ∧
          checkMaxReturn S D t o h = (if m < t then .error .valueError else .ok (), { o with maxRet := some m }, h')) := by
  obtain ⟨o', h', e, h1, h2, h3⟩ := maxReturn_clean (S := S) hU b hmu
  have e2 : maxReturnOfCopy S D o h = (maxOutcome (S h.log.length (maxProb U cfg h.upar mu)), o, h') := by
    unfold maxReturnOfCopy deepcopy
    rw [e]
  refine ⟨h', h1, h2, h3, ?_⟩
  have e3 : checkMaxReturn S D t o h = (maxReturnOfCopy S D >>= fun m =>
      modify (fun o => { o with maxRet := some m }) >>= fun _ => if m < t then raise .valueError else pure ()) o h := by
    unfold checkMaxReturn
    rw [bind_ok (a := o) (o' := o) (h' := h) rfl]
    cases hm : o.maxRet with
    | none => rfl
    | some m => dsimp only; rw [if_pos (hc m hm)]
  rw [e3]
  cases hmo : maxOutcome (S h.log.length (maxProb U cfg h.upar mu)) with
  | error e' => rw [hmo] at e2; exact .inl ⟨e', rfl, bind_err e2⟩
  | ok m =>
    rw [hmo] at e2
    refine .inr ⟨m, rfl, ?_⟩
    rw [bind_ok e2, bind_ok (a := ()) (o' := { o with maxRet := some m }) (h' := h') rfl]
    split <;> rfl

/-- A first call with a reachable target solves the problem of the largest return, then the documented
problem; with a larger target it raises ValueError. -/
theorem fresh_return (hU : Usable U D) (hk : D.kind = .ef) (hsym : D.symOk = true) (g : Good U D cfg o h)
    (ho : o.opt = none) {mu : Fin n → ℝ} (hmu : D.mu = some mu) (hc : Uncached o) {t : ℝ} {mn : Bool} :
    ∃ h₁, h₁.log = h.log ++ [maxProb U cfg h.upar mu] ∧ h.nextId ≤ h₁.nextId ∧ h₁.upar = h.upar ∧
      ((∃ e, maxOutcome (S h.log.length (maxProb U cfg h.upar mu)) = .error e ∧
          run U S D (.efficientReturn true t mn) o h = (.error e, o, h₁)) ∨
        ∃ m, maxOutcome (S h.log.length (maxProb U cfg h.upar mu)) = .ok m ∧
          (m < t → run U S D (.efficientReturn true t mn) o h = (.error .valueError, { o with maxRet := some m }, h₁)) ∧
          (t ≤ m → Reaches U S D cfg (.efficientReturn true t mn) h₁ (run U S D (.efficientReturn true t mn) o h) ∧
            (run U S D (.efficientReturn true t mn) o h).2.1.opt ≠ none ∧
            (run U S D (.efficientReturn true t mn) o h).2.1.maxRet = some m)) := by
  have b : Base U cfg o h [] := by
    rcases g with ⟨b, -⟩ | ⟨p, s⟩
    · exact b
    · rw [s.opt] at ho; cases ho
  obtain ⟨h₁, k1, k2, k3, k4⟩ := checkMax_fresh (S := S) hU b hmu hc t
  refine ⟨h₁, k1, k2, k3, ?_⟩
  have hx : run U S D (.efficientReturn true t mn) = (efficientReturn S D true t mn >>= fun w => pure (some w)) := by
    simp only [run, hk]
  rcases k4 with ⟨e, e1, e2⟩ | ⟨m, e1, e2⟩
  · exact .inl ⟨e, e1, by rw [hx]; exact bind_err (x := efficientReturn S D true t mn) (bind_err e2)⟩
  · refine .inr ⟨m, e1, fun hlt => ?_, fun hle => ?_⟩
    · rw [if_pos hlt] at e2
      rw [hx]
      exact bind_err (x := efficientReturn S D true t mn) (bind_err e2)
    · rw [if_neg (not_lt.2 hle)] at e2
      have g' : Good U D cfg { o with maxRet := some m } h₁ := (g.mono k2).maxRet _
      have hy : efficientReturn S D true t mn o h = (withParameter S "target_return" mn t (do
          let v ← varianceExpr D
          setObjective [] (fun e => (v e.asg : EReal))
          let r ← returnExpr D false
          addAll
          let p ← newPar "target_return" t false
          addLib (.ineq 1 (ofPar p) (scalar r))
          makeWeightSum mn)) { o with maxRet := some m } h₁ := bind_ok e2
      have mp := efTarget_post (S := S) hU hk g' true t mn
      have hsome : D.mu.isSome = true := by rw [hmu]; rfl
      have hl : (efficientReturn S D true t mn o h).2.2.log ≠ h₁.log := by
        rw [hy]
        rcases g' with ⟨b', hob⟩ | ⟨p, s⟩
        · exact Runs.target hU b' hob (by decide) _ _ (.bind (.varianceExpr hsym) fun _ =>
            .bind (.setObjective _ _) fun _ => .bind (.returnExpr hsome _) fun _ => .bind .addAll fun _ =>
            .bind (.newPar _ _ _ nofun) fun _ => .bind (.addLib (proper_ineq _ _) _) fun _ => .makeWeightSum _)
        · have := s.opt
          change o.opt = _ at this
          rw [ho] at this; cases this
      have hr : Reaches U S D cfg (.efficientReturn true t mn) h₁ (run U S D (.efficientReturn true t mn) o h) := by
        rw [hx, some_run]
        rw [← hy] at mp
        exact mp.reaches hl
      refine ⟨hr, ?_, ?_⟩
      · obtain ⟨p, v, nm, a, l⟩ := hr.2 (by simp [pname])
        rw [l.solved.opt]
        exact nofun
      · rw [hx, some_run]
        show (efficientReturn S D true t mn o h).2.1.maxRet = some m
        rw [hy]
        exact (Keeps.withParameter (m := true) (S := S) "target_return" mn t (build := do
          let v ← varianceExpr D
          setObjective [] (fun e => (v e.asg : EReal))
          let r ← returnExpr D false
          addAll
          let p ← newPar "target_return" t false
          addLib (.ineq 1 (ofPar p) (scalar r))
          makeWeightSum mn) (.bind .varianceExpr fun _ => .bind (.setObjective _ _) fun _ =>
            .bind (.returnExpr _) fun _ => .bind .addAll fun _ => .bind (.newPar _ _ _) fun _ =>
            .bind (.addLib _ _) fun _ => .makeWeightSum _) _ h₁).2 rfl

end Verif.Convex
