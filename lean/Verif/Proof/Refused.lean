import Verif.Proof.ConvexHistory
import Verif.Spec.Retarget

/-! Disabled methods and refused arguments. -/

noncomputable section

namespace Verif.Convex
open Verif.Py Verif.Base

variable {n : ℕ} {U : Uni n} {S : Solver n} {D : Data n} {c : Call n} {e : PyErr}

theorem disabled_run (h : Disabled D.kind c e) (o : OState n) (hp : Heap n) : run U S D c o hp = (.error e, o, hp) := by
  rcases hk : D.kind with _ | _ | _ | _ <;> rw [hk] at h <;> cases h <;>
    first
    | (simp only [run, hk]; rfl)
    | (simp only [run, setWeights, hk]; rfl)
    | exact absurd rfl ‹_ ≠ _›

theorem run_raise {x : M n (Fin n → ℝ)} (hc : run U S D c = (x >>= fun w => pure (some w)))
    (hx : x = raise e) (o : OState n) (hp : Heap n) : run U S D c o hp = (.error e, o, hp) := by
  rw [hc, hx]; rfl

theorem badArg_run (h : BadArg D c e) (o : OState n) (hp : Heap n) : run U S D c o hp = (.error e, o, hp) := by
  cases h with
  | @aversion h r hr mn =>
    rcases h with h | h
    · exact run_raise (x := maxUtility S D r mn) (by simp only [run, h]) (by
      unfold maxUtility; rw [if_pos hr]; rfl) o hp
    · exact run_raise (x := semiUtility S D r mn) (by simp only [run, h]) (by
      unfold semiUtility; rw [if_pos hr]; rfl) o hp
  | @rate h mu hmu rf hr =>
    refine run_raise (x := maxSharpe S D rf) (by simp only [run, h]) ?_ o hp
    unfold maxSharpe
    rw [hmu]
    exact if_pos hr
  | noReturns h hmu rf =>
    refine run_raise (x := maxSharpe S D rf) (by simp only [run, h]) ?_ o hp
    unfold maxSharpe
    rw [hmu]
  | @negRisk h t ht mn =>
    exact run_raise (x := efficientRisk S D t mn) (by simp only [run, h]) (by
      unfold efficientRisk; rw [if_pos ht]; rfl) o hp
  | notFloat h t mn =>
    rcases h with h | h
    · exact run_raise (x := efficientReturn S D false t mn) (by simp only [run, h]) (by
      unfold efficientReturn; rw [if_pos (by rfl)]; rfl) o hp
    · exact run_raise (x := semiReturn S D false t mn) (by simp only [run, h]) (by
      unfold semiReturn; rw [if_pos (Or.inl (by rfl))]; rfl) o hp
  | @negReturn h t ht f mn =>
    exact run_raise (x := semiReturn S D f t mn) (by simp only [run, h]) (by
      unfold semiReturn; rw [if_pos (Or.inr ht)]; rfl) o hp
  | @bigReturn h mu hmu t ht f mn =>
    refine run_raise (x := semiReturn S D f t mn) (by simp only [run, h]) ?_ o hp
    unfold semiReturn
    by_cases h1 : !f ∨ t < 0
    · rw [if_pos h1]; rfl
    · rw [hmu]
      dsimp only
      rw [if_neg h1, if_pos ht]
      rfl
  | notCallable r => rfl
  | weights h e =>
    have : ¬ (D.kind = .cvar ∨ D.kind = .cdar) := by rcases h with h | h <;> simp [h]
    show (setWeights D (.error e) >>= fun _ => pure none) o hp = _
    unfold setWeights
    rw [if_neg this]
    rfl

theorem addLib_error {b : ConBody Par (Env n)} {d : Env n → Prop} {o : OState n} {h : Heap n} (hp : o.opt ≠ none) :
    addLib b d o h = (.error .instantiation, o, h) := by
  obtain ⟨p, hp⟩ := Option.ne_none_iff_exists'.1 hp
  unfold addLib
  rw [bind_ok (a := o) (o' := o) (h' := h) rfl, hp]
  rfl

theorem addSectors_none (sec : Fin n → Option String) (up : Bool) (l : List (Option String × ℝ)) (o : OState n) (h : Heap n)
    (ho : o.opt = none) : ∃ o' h', addSectors sec up l o h = (.ok (), o', h') ∧ o'.opt = none := by
  induction l generalizing o h with
  | nil => exact ⟨o, h, rfl, ho⟩
  | cons x l ih =>
    obtain ⟨o', h', e, k⟩ := ih
      { o with cons := o.cons ++ [⟨.lib h.nextId, sectorBody sec x.1 up x.2, fun _ => True⟩] } _ ho
    exact ⟨o', h', (bind_ok (addLib_run _ _ o h ho)).trans e, k⟩

theorem addObjective_cases (r : Except PyErr ℕ) (o : OState n) (h : Heap n) :
    (∃ e, addObjective U r o h = (.error e, o, h)) ∨ ∃ o', addObjective U r o h = (.ok (), o', h) := by
  unfold addObjective
  rw [bind_ok (a := o) (o' := o) (h' := h) rfl]
  cases o.opt with
  | some p => exact .inl ⟨_, rfl⟩
  | none =>
    cases r with
    | error e => exact .inl ⟨_, rfl⟩
    | ok i => exact .inr ⟨_, rfl⟩

theorem addConstraint_cases (b : Bool) (r : Except PyErr ℕ) (o : OState n) (h : Heap n) :
    (∃ e, addConstraint U b r o h = (.error e, o, h)) ∨ ∃ o', addConstraint U b r o h = (.ok (), o', h) := by
  cases b with
  | false => exact .inl ⟨_, rfl⟩
  | true =>
    have e' : addConstraint U true r o h = _ := bind_ok (a := o) (o' := o) (h' := h) rfl
    rw [e']
    cases o.opt with
    | some p => exact .inl ⟨_, rfl⟩
    | none =>
      cases r with
      | error e => exact .inl ⟨_, rfl⟩
      | ok i => exact .inr ⟨_, rfl⟩

theorem addSectorConstraints_cases (sec : Fin n → Option String) (lo up : List (Option String × ℝ)) (o : OState n)
    (h : Heap n) : (∃ e, addSectorConstraints sec lo up o h = (.error e, o, h)) ∨
      ∃ o' h', addSectorConstraints sec lo up o h = (.ok (), o', h') := by
  rcases ho : o.opt with _ | p
  · obtain ⟨o₁, h₁, e1, k1⟩ := addSectors_none sec true up o h ho
    obtain ⟨o₂, h₂, e2, -⟩ := addSectors_none sec false lo o₁ h₁ k1
    exact .inr ⟨o₂, h₂, (bind_ok e1).trans e2⟩
  · have hn : o.opt ≠ none := by rw [ho]; nofun
    unfold addSectorConstraints
    cases up with
    | cons x l => exact .inl ⟨_, bind_err (bind_err (addLib_error hn))⟩
    | nil =>
      rw [bind_ok (a := ()) (o' := o) (h' := h) rfl]
      cases lo with
      | cons x l => exact .inl ⟨_, bind_err (addLib_error hn)⟩
      | nil => exact .inr ⟨_, _, rfl⟩

/-- Idle calls change nothing but stored weights and parameters of the user. -/
theorem idle_run {o : OState n} {h : Heap n} (hi : Idle D (isOk (run U S D c o h).1) c) :
    (∃ w, (run U S D c o h).2.1 = { o with weights := w }) ∧ (run U S D c o h).2.2.nextId = h.nextId := by
  have same : ∀ {r : Except PyErr (Option (Fin n → ℝ))}, run U S D c o h = (r, o, h) →
      (∃ w, (run U S D c o h).2.1 = { o with weights := w }) ∧ (run U S D c o h).2.2.nextId = h.nextId :=
    fun e => by rw [e]; exact ⟨⟨o.weights, rfl⟩, rfl⟩
  cases c with
  | setWeights w =>
    show (∃ w', ((setWeights D w >>= fun _ => pure none) o h).2.1 = { o with weights := w' }) ∧
      ((setWeights D w >>= fun _ => pure none) o h).2.2.nextId = h.nextId
    unfold setWeights
    by_cases hk : D.kind = .cvar ∨ D.kind = .cdar
    · rw [if_pos hk]; exact ⟨⟨o.weights, rfl⟩, rfl⟩
    · rw [if_neg hk]
      cases w with
      | error e => exact ⟨⟨o.weights, rfl⟩, rfl⟩
      | ok x => exact ⟨⟨some x, rfl⟩, rfl⟩
  | setPar i v =>
    show (∃ w', ((setUserPar U i v >>= fun _ => pure none) o h).2.1 = { o with weights := w' }) ∧
      ((setUserPar U i v >>= fun _ => pure none) o h).2.2.nextId = h.nextId
    rw [none_run]
    obtain ⟨e1, e2, -⟩ := setPars_other v [U.toPar i] o h
    exact ⟨⟨o.weights, e1⟩, e2⟩
  | nonconvex m b =>
    show (∃ w', ((nonconvexObjective m b >>= fun w => pure (some w)) o h).2.1 = { o with weights := w' }) ∧
      ((nonconvexObjective m b >>= fun w => pure (some w)) o h).2.2.nextId = h.nextId
    rw [some_run]
    unfold nonconvexObjective
    rw [bind_ok (a := o) (o' := o) (h' := h) rfl]
    cases hx : m o.lb o.ub b with
    | error e => rw [bind_err (e := e) (o' := o) (h' := h) rfl]; exact ⟨⟨o.weights, rfl⟩, rfl⟩
    | ok x => rw [bind_ok (a := x) (o' := o) (h' := h) rfl]; exact ⟨⟨some x, rfl⟩, rfl⟩
  | addObjective r =>
    have hi : isOk ((addObjective U r >>= fun _ => pure none) o h).1 = false := hi
    rw [none_run] at hi
    rcases addObjective_cases (U := U) r o h with ⟨e, he⟩ | ⟨o', he⟩
    · refine same (r := .error e) ?_
      show (addObjective U r >>= fun _ => pure none) o h = _
      rw [none_run, he]; rfl
    · rw [he] at hi; cases hi
  | addConstraint b r =>
    have hi : isOk ((addConstraint U b r >>= fun _ => pure none) o h).1 = false := hi
    rw [none_run] at hi
    rcases addConstraint_cases (U := U) b r o h with ⟨e, he⟩ | ⟨o', he⟩
    · refine same (r := .error e) ?_
      show (addConstraint U b r >>= fun _ => pure none) o h = _
      rw [none_run, he]; rfl
    · rw [he] at hi; cases hi
  | addSectors sec lo up =>
    have hi : isOk ((addSectorConstraints sec lo up >>= fun _ => pure none) o h).1 = false := hi
    rw [none_run] at hi
    rcases addSectorConstraints_cases sec lo up o h with ⟨e, he⟩ | ⟨o', h', he⟩
    · refine same (r := .error e) ?_
      show (addSectorConstraints sec lo up >>= fun _ => pure none) o h = _
      rw [none_run, he]; rfl
    · rw [he] at hi; cases hi
  | _ =>
    obtain ⟨e, he | he⟩ := hi
    · exact same (disabled_run he o h)
    · exact same (badArg_run he o h)

theorem idle_cfg {b : Bool} (hi : Idle D b c) (cfg : Cfg n) : cfg.after b c = cfg := by
  cases c with
  | addObjective r => cases hi; cases r <;> rfl
  | addConstraint x r => cases hi; cases r <;> rfl
  | addSectors s l u => cases hi; rfl
  | _ => rfl

end Verif.Convex
