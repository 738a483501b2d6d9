import Verif.Model.Plot
import Verif.Spec.Plot
import Verif.Proof.Upar
import Verif.Proof.Psd
import Verif.Props.Tail
import Verif.Props.Targets

/-! Property C51: the frontier that is plotted. -/

noncomputable section

namespace Verif.Convex
open Verif.Py Verif.Base Matrix

variable {n : ℕ} {U : Uni n} {S : Solver n} {D : Data n} {cfg : Cfg n} {o : OState n} {h : Heap n}
variable {mu : Fin n → ℝ} {param : String}

/-! ### Steps of the loop -/

/-- One of the three parameters, and the call made for a value. -/
structure Sweep (D : Data n) (param : String) (call : Bool × ℝ → Call n) : Prop where
  eq : ∀ v, plotCall param v = some (call v)
  name : ∀ v, (pname D.kind (call v)).isSome = true
  same : ∀ v v', SameMethod (call v) (call v')
  neutral : ∀ v, (call v).neutral = false

theorem sweep_utility (hk : D.kind = .ef) : Sweep D "utility" (fun v => .maxUtility v.2 false) :=
  ⟨fun _ => rfl, fun _ => by simp [pname, hk], fun _ _ => trivial, fun _ => rfl⟩

theorem sweep_risk (hk : D.kind = .ef) : Sweep D "risk" (fun v => .efficientRisk v.2 false) :=
  ⟨fun _ => by simp [plotCall], fun _ => by simp [pname, hk], fun _ _ => trivial, fun _ => rfl⟩

theorem sweep_return : Sweep D "return" (fun v => .efficientReturn v.1 v.2 false) :=
  ⟨fun _ => by simp [plotCall], fun _ => by simp [pname], fun _ _ => trivial, fun _ => rfl⟩

theorem plotPoint_ef (hk : D.kind = .ef) (hmu : D.mu = some mu) (hp : D.cov.PosSemidef) {w : Fin n → ℝ}
    (hw : o.weights = some w) : plotPoint D o h = .ok (pointOf D.cov mu w) := by
  have : ¬ w ⬝ᵥ D.cov *ᵥ w < 0 := not_lt.2 (by simpa using hp.dotProduct_mulVec_nonneg w)
  simp only [plotPoint, hk, efPerformance, hw, hmu, Perf.fsqrt, if_neg this, pointOf, vol, Except.map]

section steps
variable {call : Bool × ℝ → Call n} {v : Bool × ℝ} {vs : List (Bool × ℝ)} {o' : OState n} {h' : Heap n}

theorem plot_skip (hc : plotCall param v = some (call v)) (hr : run U S D (call v) o h = (.error .optimization, o', h')) :
    plotEf U S D param (v :: vs) o h = plotEf U S D param vs o' h' := by
  simp only [plotEf, hc, hr]

theorem plot_draw (hc : plotCall param v = some (call v)) {w : Option (Fin n → ℝ)} (hr : run U S D (call v) o h = (.ok w, o', h'))
    {p : Option ℝ × Flt ℝ} (hp : plotPoint D o' h' = .ok p) :
    plotEf U S D param (v :: vs) o h = (plotEf U S D param vs >>= fun ps => pure (p :: ps)) o' h' := by
  simp only [plotEf, hc, hr, hp]

theorem plot_stale (hc : plotCall param v = some (call v)) (hr : run U S D (call v) o h = (.error .valueError, o', h'))
    {p : Option ℝ × Flt ℝ} (hp : plotPoint D o' h' = .ok p) :
    plotEf U S D param (v :: vs) o h = (plotEf U S D param vs >>= fun ps => pure (p :: ps)) o' h' := by
  simp only [plotEf, hc, hr, hp]

theorem plot_fail (hc : plotCall param v = some (call v)) (hr : run U S D (call v) o h = (.error .valueError, o', h'))
    {e : PyErr} (hp : plotPoint D o' h' = .error e) : plotEf U S D param (v :: vs) o h = (.error e, o', h') := by
  simp only [plotEf, hc, hr, hp]

theorem plot_raise (hc : plotCall param v = some (call v)) {e : PyErr} (hr : run U S D (call v) o h = (.error e, o', h'))
    (h1 : e ≠ .optimization) (h2 : e ≠ .valueError) : plotEf U S D param (v :: vs) o h = (.error e, o', h') := by
  simp only [plotEf, hc, hr]

end steps

/-- **C51**, the part that is true for any object and any history: if each value is either solved or ends in
OptimizationError, then exactly the portfolios of the solved values are drawn, in order. -/
theorem C51_points_partial (hk : D.kind = .ef) (hmu : D.mu = some mu) (hp : D.cov.PosSemidef)
    {call : Bool × ℝ → Call n} (hc : Sweep D param call) (vs : List (Bool × ℝ))
    (hv : ∀ r ∈ outcomes U S D (vs.map call) o h, r = .error .optimization ∨ ∃ w, r = .ok (some w)) :
    (plotEf U S D param vs o h).1 = .ok ((outcomes U S D (vs.map call) o h).filterMap fun r =>
      match r with
      | .ok (some w) => some (pointOf D.cov mu w)
      | _ => none) := by
  induction vs generalizing o h with
  | nil => rfl
  | cons v vs ih =>
    simp only [List.map_cons, outcomes] at hv ⊢
    rcases hr : run U S D (call v) o h with ⟨r, o', h'⟩
    rw [hr] at hv
    dsimp only at hv ⊢
    have ih' := ih (o := o') (h := h') fun r hr => hv r (List.mem_cons_of_mem _ hr)
    rcases hv r List.mem_cons_self with rfl | ⟨w, rfl⟩
    · rw [plot_skip (hc.eq v) hr, ih', List.filterMap_cons_none rfl]
    · have hw : o'.weights = some w := by
        obtain ⟨-, -, -, -, -, -, -, e⟩ := run_ends (U := U) (S := S) (D := D) (c := call v)
          (fun m b e => by have := hc.name v; rw [e] at this; simp [pname] at this)
          (fun r e => by have := hc.name v; rw [e] at this; simp [pname] at this) o h w (by rw [hr])
        rw [hr] at e
        exact e
      rw [plot_draw (hc.eq v) hr (plotPoint_ef hk hmu hp hw), bind_run]
      rcases hq : plotEf U S D param vs o' h' with ⟨q, o'', h''⟩
      rw [hq] at ih'
      dsimp only at ih'
      subst ih'
      rfl

/-- **C51**: an error other than OptimizationError and ValueError in any step ends the plot with that error. -/
theorem C51_other_errors {call : Bool × ℝ → Call n}
    (hc : Sweep D param call) (vs : List (Bool × ℝ)) {e : PyErr} (h1 : e ≠ .optimization) (h2 : e ≠ .valueError)
    (he : .error e ∈ outcomes U S D (vs.map call) o h) : ∃ e', (plotEf U S D param vs o h).1 = .error e' := by
  induction vs generalizing o h with
  | nil => cases he
  | cons v vs ih =>
    simp only [List.map_cons, outcomes, List.mem_cons] at he
    rcases hr : run U S D (call v) o h with ⟨r, o', h'⟩
    rw [hr] at he
    dsimp only at he
    rcases he with rfl | he
    · rw [plot_raise (hc.eq v) hr h1 h2]; exact ⟨_, rfl⟩
    · obtain ⟨e', ih'⟩ := ih he
      have rest : ∀ p : Option ℝ × Flt ℝ,
          ((plotEf U S D param vs >>= fun ps => pure (p :: ps)) o' h').1 = .error e' := by
        intro p
        rw [bind_run]
        rcases hq : plotEf U S D param vs o' h' with ⟨q, o'', h''⟩
        rw [hq] at ih'
        dsimp only at ih'
        subst ih'
        rfl
      cases r with
      | ok w =>
        cases hpt : plotPoint D o' h' with
        | error e'' => simp only [plotEf, hc.eq v, hr, hpt]; exact ⟨_, rfl⟩
        | ok p => rw [plot_draw (hc.eq v) hr hpt]; exact ⟨e', rest p⟩
      | error e'' =>
        by_cases k1 : e'' = .optimization
        · subst k1; rw [plot_skip (hc.eq v) hr]; exact ⟨e', ih'⟩
        · by_cases k2 : e'' = .valueError
          · subst k2
            cases hpt : plotPoint D o' h' with
            | error e'' => rw [plot_fail (hc.eq v) hr hpt]; exact ⟨_, rfl⟩
            | ok p => rw [plot_stale (hc.eq v) hr hpt]; exact ⟨e', rest p⟩
          · rw [plot_raise (hc.eq v) hr k1 k2]; exact ⟨_, rfl⟩

/-! ### Which points are drawn -/

/-- An optimum of a problem about the weights alone is a best portfolio. -/
theorem solvable_iff {q : Ask n} {upar : ℕ → ℝ} {req : (Fin n → ℝ) → Prop} {f : (Fin n → ℝ) → ℝ}
    (hr : ∀ s : Asg n, q.extra s ↔ req s.w) (hf : ∀ s : Asg n, q.base s = f s.w) :
    (∃ s v, IsOpt (doc U cfg upar q) s v) ↔ Solvable U cfg upar q.mn req f := by
  constructor
  · rintro ⟨s, v, hs⟩
    refine ⟨s.w, s.usr, v, best_of_opt hs hr hf, ?_⟩
    have := hs.value
    simp only [doc, hf] at this
    exact this
  · rintro ⟨w, usr, v, hb, ht⟩
    refine ⟨⟨w, usr, fun _ _ => 0⟩, v, ⟨hb.adm.within, hb.adm.cons, hb.adm.sum, (hr _).2 hb.meets⟩, ?_, fun s hs => ?_⟩
    · simp only [doc, hf]; exact ht
    · obtain ⟨h1, h2, h3, h4⟩ := hs
      have := hb.best s.w s.usr ⟨h1, fun a ha => (holds_lib a _ _ _ _).1 (h2 a ha), h3⟩ ((hr s).1 h4)
      simp only [doc, hf]
      exact this

/-- The solver solves what can be solved and otherwise reports a status. -/
structure Decides (S : Solver n) : Prop extends Exact S where
  quiet : ∀ k P e, S k P ≠ .raised e

open Classical in
theorem exists_decides : ∃ S : Solver n, Decides S := by
  refine ⟨fun _ P => if h : ∃ x : Asg n × ℝ, IsOpt P x.1 x.2 then .optimal h.choose.1 h.choose.2 else .status none,
    ⟨?_, ?_⟩, ?_⟩
  · intro k P
    split
    · rename_i h; exact h.choose_spec
    · trivial
  · intro k P s v h
    have hx : ∃ x : Asg n × ℝ, IsOpt P x.1 x.2 := ⟨(s, v), h⟩
    exact ⟨_, _, dif_pos hx⟩
  · intro k P e
    split <;> exact nofun

theorem ask_same {v : ℕ} {c : Call n} (hk : D.kind = .ef) : ask D v c = ask D 0 c := by
  cases c <;> simp only [ask, hk] <;> cases D.mu <;> rfl

open Classical in
/-- The general argument: all calls reach the solver with their documented problem. -/
theorem sweep_points (hk : D.kind = .ef) (hmu : D.mu = some mu) (hp : D.cov.PosSemidef) (hS : Decides S)
    {call : Bool × ℝ → Call n} (hc : Sweep D param call) {upar : ℕ → ℝ} {req : ℝ → (Fin n → ℝ) → Prop}
    {f : ℝ → (Fin n → ℝ) → ℝ}
    (hq : ∀ t, ∃ q, ask D 0 (call (true, t)) = some q ∧ q.mn = false ∧ (∀ s : Asg n, q.extra s ↔ req t s.w) ∧
      ∀ s : Asg n, q.base s = f t s.w)
    (inv : OState n → Heap n → Prop) (ts : List ℝ)
    (hi : ∀ t ∈ ts, ∀ o h, inv o h → ∃ h₁, h₁.upar = upar ∧
      Passes U S D cfg (call (true, t)) h₁ (run U S D (call (true, t)) o h) ∧
      inv (run U S D (call (true, t)) o h).2.1 (run U S D (call (true, t)) o h).2.2)
    (hio : inv o h) :
    ∃ pts, (plotEf U S D param (ts.map fun t => (true, t)) o h).1 = .ok pts ∧
      List.Forall₂ (fun t p => Shows U cfg upar D.cov mu (req t) (f t) p)
        (ts.filter fun t => decide (Solvable U cfg upar false (req t) (f t))) pts := by
  induction ts generalizing o h with
  | nil => exact ⟨[], rfl, .nil⟩
  | cons t ts ih =>
    obtain ⟨h₁, hu, hpass, hinv⟩ := hi t List.mem_cons_self o h hio
    obtain ⟨v, q, hq1, hret, hlog⟩ := hpass
    obtain ⟨q', hq2, hmn, hr, hf⟩ := hq t
    rw [ask_same hk, hq2] at hq1
    obtain rfl := Option.some.inj hq1
    have hsol := solvable_iff (U := U) (cfg := cfg) (upar := upar) hr hf
    rw [hmn] at hsol
    rw [hu] at hret
    obtain ⟨pts, ih1, ih2⟩ := ih (fun t' ht' => hi t' (List.mem_cons_of_mem _ ht')) hinv
    have right := hS.right h₁.log.length (doc U cfg upar q')
    have quiet := hS.quiet h₁.log.length (doc U cfg upar q')
    have solves := hS.solves h₁.log.length (doc U cfg upar q')
    rcases hrun : run U S D (call (true, t)) o h with ⟨r, o', h'⟩
    rw [hrun] at hret ih1
    dsimp only at hret ih1
    cases ha : S h₁.log.length (doc U cfg upar q') with
    | raised e => exact absurd ha (quiet e)
    | status st =>
      rw [ha] at hret
      subst hret
      have hno : ¬ Solvable U cfg upar false (req t) (f t) := by
        intro hs
        obtain ⟨s, v, hs⟩ := hsol.2 hs
        obtain ⟨s', v', e⟩ := solves s v hs
        rw [ha] at e
        cases e
      refine ⟨pts, ?_, ?_⟩
      · rw [List.map_cons, plot_skip (hc.eq _) hrun]
        exact ih1
      · rw [List.filter_cons_of_neg (by simpa using hno)]
        exact ih2
    | optimal s x =>
      rw [ha] at hret right
      subst hret
      have right : IsOpt _ s x := right
      have hyes : Solvable U cfg upar false (req t) (f t) := hsol.1 ⟨s, x, right⟩
      have hw : o'.weights = some (round16 s.w) := by
        obtain ⟨-, -, -, -, -, -, -, e⟩ := run_ends (U := U) (S := S) (D := D) (c := call (true, t))
          (fun m b e => by have := hc.name (true, t); rw [e] at this; simp [pname] at this)
          (fun r e => by have := hc.name (true, t); rw [e] at this; simp [pname] at this) o h (round16 s.w)
          (by rw [hrun]; rfl)
        rw [hrun] at e
        exact e
      refine ⟨pointOf D.cov mu (round16 s.w) :: pts, ?_, ?_⟩
      · rw [List.map_cons, plot_draw (hc.eq _) hrun (plotPoint_ef hk hmu hp hw), bind_run]
        rcases hq : plotEf U S D param (ts.map fun t => (true, t)) o' h' with ⟨q, o'', h''⟩
        rw [hq] at ih1
        dsimp only at ih1
        subst ih1
        rfl
      · rw [List.filter_cons_of_pos (by simpa using hyes)]
        have hb := best_of_opt right hr hf
        rw [hmn] at hb
        exact .cons ⟨_, _, _, round16_rounded _, hb, rfl⟩ ih2

section ranges
variable {W : World n} {j : ℕ}

/-- What holds along a sweep of one target method over an object that has not been optimised before. -/
structure Along (U : Uni n) (S : Solver n) (D : Data n) (cfg : Cfg n) (upar : ℕ → ℝ) (c : Call n) (o : OState n) (h : Heap n) :
    Prop where
  good : Good U D cfg o h
  max : MaxOk U S D cfg o
  cur : Current U D cfg o h c
  upar : h.upar = upar

theorem Along.step (hU : Usable U D) (hk : D.kind = .ef) {upar : ℕ → ℝ} {call : Bool × ℝ → Call n}
    (hc : Sweep D param call) {v : Bool × ℝ} (a : Along U S D cfg upar (call v) o h) (v' : Bool × ℝ) :
    Along U S D cfg upar (call v) (run U S D (call v') o h).2.1 (run U S D (call v') o h).2.2 := by
  have post := run_post hU a.good a.max (call v')
  have ha : cfg.after (isOk (run U S D (call v') o h).1) (call v') = cfg := after_method (hc.name v') _ _
  have g := post.good
  have m := post.max
  rw [ha] at g m
  have hn : (call v').neutral = (call v).neutral := by rw [hc.neutral, hc.neutral]
  have cu : Current U D cfg o h (call v') := a.cur.imp id fun l => by
    obtain ⟨nm, hnm⟩ := Option.isSome_iff_exists.1 (hc.name v)
    exact l.congr hnm ((pname_same (hc.same v v')).trans hnm) (mnOf_same (hc.same v v') hn)
  exact ⟨g, m, current_step hU a.good a.max (hc.name v) (hc.same v v') hn a.cur,
    (target_upar hU hk a.good (hc.name v') cu).trans a.upar⟩

theorem Along.passes (hU : Usable U D) {upar : ℕ → ℝ} {call : Bool × ℝ → Call n}
    (hc : Sweep D param call) {v v' : Bool × ℝ} (a : Along U S D cfg upar (call v) o h) (hcomp : Complete D (call v'))
    (hacc : Accepts D (call v')) (hne : ∀ f t mn, D.kind = .ef → call v' ≠ .efficientReturn f t mn) :
    Passes U S D cfg (call v') h (run U S D (call v') o h) := by
  have hn : (call v').neutral = (call v).neutral := by rw [hc.neutral, hc.neutral]
  rcases a.cur with ho | l
  · exact (fresh_reaches hU a.good ho hcomp hacc hne).1
  · obtain ⟨nm, hnm⟩ := Option.isSome_iff_exists.1 (hc.name v)
    exact (live_reaches hU (l.congr hnm ((pname_same (hc.same v v')).trans hnm)
      (mnOf_same (hc.same v v') hn)) hacc hne).1

open Classical in
/-- **C51**, `ef_param="utility"` on an object that has not been optimised: for risk aversions above 0 exactly the
values that have a best portfolio are drawn, each with the return and volatility of such a portfolio (rounded to 16
decimals). -/
theorem C51_utility_partial (hU : Usable U D) (hk : D.kind = .ef) (hsym : D.symOk = true) (hmu : D.mu = some mu)
    (hp : D.cov.PosSemidef) (hS : Decides S) (hW : Reachable U S D W) (hj : W.objs[j]? = some (cfg, o))
    (ho : o.opt = none) (ts : List ℝ) (ht : ∀ t ∈ ts, 0 < t) (N : ℕ) :
    ∃ pts, (plotFrontier U S D "utility" (some (ts.map fun t => (true, t))) N o W.heap).1 = .ok pts ∧
      List.Forall₂ (fun t p => Shows U cfg W.heap.upar D.cov mu (fun _ => True)
          (fun w => -(w ⬝ᵥ mu - t / 2 * (w ⬝ᵥ D.cov *ᵥ w))) p)
        (ts.filter fun t => decide (Solvable U cfg W.heap.upar false (fun _ => True)
          (fun w => -(w ⬝ᵥ mu - t / 2 * (w ⬝ᵥ D.cov *ᵥ w))))) pts := by
  obtain ⟨g, hm⟩ := good_of_reachable hU hW _ (List.mem_of_getElem? hj)
  have hc := sweep_utility (D := D) hk
  refine sweep_points hk hmu hp hS hc (req := fun _ _ => True)
    (f := fun t w => -(w ⬝ᵥ mu - t / 2 * (w ⬝ᵥ D.cov *ᵥ w))) (fun t => ?_)
    (Along U S D cfg W.heap.upar (.maxUtility 0 false)) ts (fun t htt o h a => ?_) ⟨g, hm, .inl ho, rfl⟩
  · refine ⟨_, by simp only [ask, hk, hmu]; rfl, rfl, fun _ => Iff.rfl, fun _ => rfl⟩
  · refine ⟨h, a.upar, ?_, Along.step hU hk hc (v := (true, 0)) a (true, t)⟩
    exact Along.passes hU hc (v := (true, 0)) (v' := (true, t)) a ⟨.inl ⟨hk, hsym⟩, by rw [hmu]; rfl⟩
      (ht t htt) (fun _ _ _ _ => nofun)

open Classical in
/-- **C51**, `ef_param="risk"`: for targets that are not negative and not below the volatility the code computes as the
least possible one (see C44), exactly the values that have a best portfolio are drawn. -/
theorem C51_risk_partial (hU : Usable U D) (hk : D.kind = .ef) (hsym : D.symOk = true) (hmu : D.mu = some mu)
    (hp : D.cov.PosSemidef) (hS : Decides S) (hW : Reachable U S D W) (hj : W.objs[j]? = some (cfg, o))
    (ho : o.opt = none) (ts : List ℝ) (ht : ∀ t ∈ ts, 0 ≤ t ∧ ¬ numLt t (globalMinVol D)) (N : ℕ) :
    ∃ pts, (plotFrontier U S D "risk" (some (ts.map fun t => (true, t))) N o W.heap).1 = .ok pts ∧
      List.Forall₂ (fun t p => Shows U cfg W.heap.upar D.cov mu (fun w => vol D.cov w ≤ t) (fun w => -(w ⬝ᵥ mu)) p)
        (ts.filter fun t => decide (Solvable U cfg W.heap.upar false (fun w => vol D.cov w ≤ t)
          (fun w => -(w ⬝ᵥ mu)))) pts := by
  obtain ⟨g, hm⟩ := good_of_reachable hU hW _ (List.mem_of_getElem? hj)
  have hc := sweep_risk (D := D) hk
  have key := sweep_points (ts := ts) hk hmu hp hS hc (req := fun t w => w ⬝ᵥ D.cov *ᵥ w ≤ t ^ 2)
    (f := fun _ w => -(w ⬝ᵥ mu)) (fun t => ⟨_, by simp only [ask, hk, hmu]; rfl, rfl, fun _ => Iff.rfl, fun _ => rfl⟩)
    (Along U S D cfg W.heap.upar (.efficientRisk 0 false)) (fun t htt o h a => by
      refine ⟨h, a.upar, ?_, Along.step hU hk hc (v := (true, 0)) a (true, t)⟩
      refine Along.passes hU hc (v := (true, 0)) (v' := (true, t)) a ⟨fun _ => hsym, by rw [hmu]; rfl⟩ ?_
        (fun _ _ _ _ => nofun)
      simp only [Accepts, hk]
      exact ht t htt) (⟨g, hm, .inl ho, rfl⟩ : Along U S D cfg W.heap.upar (.efficientRisk 0 false) o W.heap)
  have req : ∀ t ∈ ts, (fun w : Fin n → ℝ => w ⬝ᵥ D.cov *ᵥ w ≤ t ^ 2) = fun w => vol D.cov w ≤ t := by
    intro t htt
    funext w
    exact propext (Real.sqrt_le_left (ht t htt).1).symm
  obtain ⟨pts, k1, k2⟩ := key
  refine ⟨pts, k1, ?_⟩
  have e : (ts.filter fun t => decide (Solvable U cfg W.heap.upar false (fun w => w ⬝ᵥ D.cov *ᵥ w ≤ t ^ 2)
      (fun w => -(w ⬝ᵥ mu)))) = ts.filter fun t => decide (Solvable U cfg W.heap.upar false (fun w => vol D.cov w ≤ t)
          (fun w => -(w ⬝ᵥ mu))) := List.filter_congr fun t htt => by rw [req t htt]
  rw [e] at k2
  have hmem : ∀ t ∈ ts.filter fun t => decide (Solvable U cfg W.heap.upar false (fun w => vol D.cov w ≤ t)
          (fun w => -(w ⬝ᵥ mu))), t ∈ ts := fun t htt => List.mem_of_mem_filter htt
  generalize (ts.filter fun t => decide (Solvable U cfg W.heap.upar false (fun w => vol D.cov w ≤ t)
          (fun w => -(w ⬝ᵥ mu)))) = l at k2 hmem ⊢
  clear k1
  induction k2 with
  | nil => exact .nil
  | cons hp _ ih =>
    refine .cons ?_ (ih fun t ht => hmem t (List.mem_cons_of_mem _ ht))
    rw [← req _ (hmem _ List.mem_cons_self)]
    exact hp

/-- The largest return of an admissible portfolio. -/
theorem max_isOpt {upar : ℕ → ℝ} {m : ℝ}
    (hm : IsGreatest {r | ∃ w usr, Admissible U cfg upar false w usr ∧ r = w ⬝ᵥ mu} m) :
    ∃ s, IsOpt (maxProb U cfg upar mu) s (-m) := by
  obtain ⟨⟨w, usr, ha, rfl⟩, hb⟩ := hm
  refine ⟨⟨w, usr, fun _ _ => 0⟩, ⟨ha.within, ha.cons, ha.sum, trivial⟩, by simp [maxProb, doc], fun s hs => ?_⟩
  obtain ⟨h1, h2, h3, -⟩ := hs
  have := hb ⟨s.w, s.usr, ⟨h1, fun a ha => (holds_lib a _ _ _ _).1 (h2 a ha), h3⟩, rfl⟩
  have e : ∀ s : Asg n, (maxProb U cfg upar mu).obj s = ((-(s.w ⬝ᵥ mu) : ℝ) : EReal) := fun s => by simp [maxProb, doc]
  rw [e, e, EReal.coe_le_coe_iff]
  exact neg_le_neg this

theorem max_answer (hS : Exact S) {upar : ℕ → ℝ} {m : ℝ}
    (hm : IsGreatest {r | ∃ w usr, Admissible U cfg upar false w usr ∧ r = w ⬝ᵥ mu} m) (k : ℕ) :
    maxOutcome (S k (maxProb U cfg upar mu)) = .ok m := by
  obtain ⟨s, hs⟩ := max_isOpt hm
  obtain ⟨s', e, -⟩ := hS.sol k hs
  rw [e]
  exact congrArg Except.ok (neg_neg m)

/-- Calls of `efficient_return` keep a cached largest return. -/
theorem return_keeps (hk : D.kind = .ef) {m t : ℝ} (hm : o.maxRet = some m) (h0 : m ≠ 0) (mn : Bool) :
    (run U S D (.efficientReturn true t mn) o h).2.1.maxRet = some m := by
  simp only [run, hk]
  rw [some_run]
  show (efficientReturn S D true t mn o h).2.1.maxRet = some m
  have e := checkMax_cached (S := S) (D := D) (h := h) hm h0 t
  by_cases ht : m < t
  · rw [if_pos ht] at e
    have : efficientReturn S D true t mn o h = (.error .valueError, o, h) := bind_err e
    rw [this]
    exact hm
  · rw [if_neg ht] at e
    have hy : efficientReturn S D true t mn o h = (withParameter S "target_return" mn t (do
        let v ← varianceExpr D
        setObjective [] (fun e => (v e.asg : EReal))
        let r ← returnExpr D false
        addAll
        let p ← newPar "target_return" t false
        addLib (.ineq 1 (ofPar p) (scalar r))
        makeWeightSum mn)) o h := bind_ok e
    rw [hy]
    exact ((Keeps.withParameter (m := true) (S := S) "target_return" mn t (build := do
          let v ← varianceExpr D
          setObjective [] (fun e => (v e.asg : EReal))
          let r ← returnExpr D false
          addAll
          let p ← newPar "target_return" t false
          addLib (.ineq 1 (ofPar p) (scalar r))
          makeWeightSum mn) (.bind .varianceExpr fun _ => .bind (.setObjective _ _) fun _ =>
            .bind (.returnExpr _) fun _ => .bind .addAll fun _ => .bind (.newPar _ _ _) fun _ =>
            .bind (.addLib _ _) fun _ => .makeWeightSum _) o h).2 rfl).trans hm

open Classical in
theorem return_points (hU : Usable U D) (hk : D.kind = .ef) (hsym : D.symOk = true) (hmu : D.mu = some mu)
    (hp : D.cov.PosSemidef) (hS : Decides S) (g : Good U D cfg o h) (hmo : MaxOk U S D cfg o)
    (ho : o.opt = none) (hc : Uncached o) {m : ℝ}
    (hm : IsGreatest {r | ∃ w usr, Admissible U cfg h.upar false w usr ∧ r = w ⬝ᵥ mu} m) (h0 : m ≠ 0)
    (ts : List ℝ) (ht : ∀ t ∈ ts, t ≤ m) :
    ∃ pts, (plotEf U S D "return" (ts.map fun t => (true, t)) o h).1 = .ok pts ∧
      List.Forall₂ (fun t p => Shows U cfg h.upar D.cov mu (fun w => t ≤ w ⬝ᵥ mu) (fun w => w ⬝ᵥ D.cov *ᵥ w) p)
        (ts.filter fun t => decide (Solvable U cfg h.upar false (fun w => t ≤ w ⬝ᵥ mu)
          (fun w => w ⬝ᵥ D.cov *ᵥ w))) pts := by
  have hsw := sweep_return (D := D)
  refine sweep_points hk hmu hp hS hsw (req := fun t w => t ≤ w ⬝ᵥ mu) (f := fun _ w => w ⬝ᵥ D.cov *ᵥ w)
    (fun t => ⟨_, by simp only [ask, hk, hmu]; rfl, rfl, fun _ => Iff.rfl, fun _ => rfl⟩)
    (fun o' h' => Along U S D cfg h.upar (.efficientReturn true 0 false) o' h' ∧
      (o'.opt = none ∧ Uncached o' ∨ Live U D cfg o' h' (.efficientReturn true 0 false) ∧ o'.maxRet = some m))
    ts (fun t htt o' h' a => ?_) ⟨⟨g, hmo, .inl ho, rfl⟩, .inl ⟨ho, hc⟩⟩
  obtain ⟨a, b⟩ := a
  have a' := Along.step (S := S) hU hk hsw (v := (true, 0)) a (true, t)
  rcases b with ⟨b1, b2⟩ | ⟨b1, b2⟩
  · obtain ⟨h₁, -, -, k3, k4⟩ := fresh_return (S := S) hU hk hsym a.good b1 hmu b2 (t := t) (mn := false)
    have hans : maxOutcome (S h'.log.length (maxProb U cfg h'.upar mu)) = .ok m := by
      rw [a.upar]; exact max_answer hS.toExact hm _
    rw [hans] at k4
    rcases k4 with ⟨e, k4, -⟩ | ⟨m', k4, -, k5⟩
    · cases k4
    · cases k4
      obtain ⟨k6, k7, k8⟩ := k5 (ht t htt)
      refine ⟨h₁, k3.trans a.upar, k6.1, a', .inr ⟨a'.cur.resolve_left k7, k8⟩⟩
  · have l : Live U D cfg o' h' (.efficientReturn true t false) :=
      b1.congr (nm := "target_return") (by simp [pname]) (by simp [pname]) rfl
    have r := live_return (S := S) hU hk l b2 h0 (ht t htt)
    refine ⟨h', a.upar, r.1, a', .inr ⟨?_, return_keeps hk b2 h0 false⟩⟩
    exact (r.2 (by simp [pname])).congr (nm := "target_return") (by simp [pname]) (by simp [pname]) rfl

open Classical in
/-- **C51**, `ef_param="return"` on an object that has not been optimised and has no largest return cached: for targets up
to the largest possible return (which must not be 0, see C41) exactly the values that have a best portfolio are drawn,
each with the return and volatility of such a portfolio (rounded to 16 decimals). -/
theorem C51_return_partial (hU : Usable U D) (hk : D.kind = .ef) (hsym : D.symOk = true) (hmu : D.mu = some mu)
    (hp : D.cov.PosSemidef) (hS : Decides S) (hW : Reachable U S D W) (hj : W.objs[j]? = some (cfg, o))
    (ho : o.opt = none) (hc : Uncached o) {m : ℝ}
    (hm : IsGreatest {r | ∃ w usr, Admissible U cfg W.heap.upar false w usr ∧ r = w ⬝ᵥ mu} m) (h0 : m ≠ 0)
    (ts : List ℝ) (ht : ∀ t ∈ ts, t ≤ m) (N : ℕ) :
    ∃ pts, (plotFrontier U S D "return" (some (ts.map fun t => (true, t))) N o W.heap).1 = .ok pts ∧
      List.Forall₂ (fun t p => Shows U cfg W.heap.upar D.cov mu (fun w => t ≤ w ⬝ᵥ mu) (fun w => w ⬝ᵥ D.cov *ᵥ w) p)
        (ts.filter fun t => decide (Solvable U cfg W.heap.upar false (fun w => t ≤ w ⬝ᵥ mu)
          (fun w => w ⬝ᵥ D.cov *ᵥ w))) pts := by
  obtain ⟨g, hmo⟩ := good_of_reachable hU hW _ (List.mem_of_getElem? hj)
  exact return_points hU hk hsym hmu hp hS g hmo ho hc hm h0 ts ht

theorem minVol_upar (hk : D.kind = .ef) (o : OState n) (h : Heap n) :
    (run U S D .minVolatility o h).2.2.upar = h.upar := by
  simp only [run, hk]
  refine UparFree.bind ?_ (fun _ => UparFree.pure _) o h
  unfold minVolatility
  refine UparFree.bind .varianceExpr fun _ => UparFree.bind (.setObjective _ _) fun _ => UparFree.bind .addAll fun _ =>
    UparFree.bind (.addLib _ _) fun _ => UparFree.solve

theorem linspace_le {a b : ℝ} {N : ℕ} {m : ℝ} (ha : a ≤ m) (hb : b ≤ m) : ∀ t ∈ linspace a b N, t ≤ m := by
  intro t ht
  unfold linspace at ht
  split at ht
  · rw [List.mem_singleton.1 ht]; exact ha
  · rename_i hN
    obtain ⟨i, hi, rfl⟩ := List.mem_map.1 ht
    have hi := List.mem_range.1 hi
    have hpos : (0 : ℝ) < (N - 1 : ℕ) := by
      have : 0 < N - 1 := by omega
      exact_mod_cast this
    have hle : (i : ℝ) ≤ (N - 1 : ℕ) := by
      have : i ≤ N - 1 := by omega
      exact_mod_cast this
    have e : a + i * ((b - a) / (N - 1 : ℕ)) = (1 - i / (N - 1 : ℕ)) * a + i / (N - 1 : ℕ) * b := by
      field_simp
      ring
    have h1 : (i : ℝ) / (N - 1 : ℕ) ≤ 1 := (div_le_one hpos).2 hle
    have h0 : 0 ≤ (i : ℝ) / (N - 1 : ℕ) := by positivity
    rw [e]
    nlinarith

/-- **C51**, spacing of the default range: the given number of values, from the first to the last end point in equal
steps; a single value is the first end point. -/
theorem C51_spacing (a b : ℝ) (N : ℕ) :
    (linspace a b N).length = N ∧ (0 < N → (linspace a b N)[0]? = some a) ∧
    (1 < N → (linspace a b N)[N - 1]? = some b) ∧
    ∀ (i : ℕ) (x y z : ℝ), (linspace a b N)[i]? = some x → (linspace a b N)[i + 1]? = some y →
      (linspace a b N)[i + 2]? = some z → z - y = y - x := by
  by_cases h1 : N = 1
  · subst h1
    refine ⟨rfl, fun _ => rfl, fun h => absurd h (lt_irrefl _), fun i x y z _ hy _ => ?_⟩
    simp [linspace] at hy
  have hl : (linspace a b N).length = N := by simp [linspace, h1]
  have hg : ∀ i : ℕ, i < N → (linspace a b N)[i]? = some (a + i * ((b - a) / (N - 1 : ℕ))) := fun i hi => by
    simp [linspace, h1, hi]
  refine ⟨hl, fun h => by rw [hg 0 h]; simp, fun h => ?_, fun i x y z hx hy hz => ?_⟩
  · rw [hg _ (by omega)]
    have : ((N - 1 : ℕ) : ℝ) ≠ 0 := Nat.cast_ne_zero.2 (by omega)
    congr 1
    field_simp
    ring
  · have hi : i + 2 < N := by
      have := (List.getElem?_eq_some_iff.1 hz).1
      omega
    rw [hg _ (by omega)] at hx hy hz
    cases hx; cases hy; cases hz
    push_cast
    ring

open Classical in
/-- **C51**, default range: on an object that has not been optimised and has a least-variance portfolio, the targets run
evenly from the return of such a portfolio (rounded) to the largest return less 0.0001, and exactly the ones that have a
best portfolio are drawn.  The last hypothesis excludes `C51_default_false`. -/
theorem C51_default_partial (hU : Usable U D) (hk : D.kind = .ef) (hsym : D.symOk = true) (hmu : D.mu = some mu)
    (hp : D.cov.PosSemidef) (hS : Decides S) (hW : Reachable U S D W) (hj : W.objs[j]? = some (cfg, o))
    (ho : o.opt = none) (hc : Uncached o) {m : ℝ}
    (hm : IsGreatest {r | ∃ w usr, Admissible U cfg W.heap.upar false w usr ∧ r = w ⬝ᵥ mu} m) (h0 : m ≠ 0)
    (hv : Solvable U cfg W.heap.upar false (fun _ => True) fun w => w ⬝ᵥ D.cov *ᵥ w)
    (hle : ∀ w s usr, Rounded w s → Best U cfg W.heap.upar false (fun _ => True) (fun w => w ⬝ᵥ D.cov *ᵥ w) s usr →
      w ⬝ᵥ mu ≤ m) (N : ℕ) :
    ∃ w s usr pts, Rounded w s ∧ Best U cfg W.heap.upar false (fun _ => True) (fun w => w ⬝ᵥ D.cov *ᵥ w) s usr ∧
      (plotFrontier U S D "return" none N o W.heap).1 = .ok pts ∧
      List.Forall₂ (fun t p => Shows U cfg W.heap.upar D.cov mu (fun w => t ≤ w ⬝ᵥ mu) (fun w => w ⬝ᵥ D.cov *ᵥ w) p)
        ((linspace (w ⬝ᵥ mu) (m - 0.0001) N).filter fun t => decide (Solvable U cfg W.heap.upar false
          (fun w => t ≤ w ⬝ᵥ mu) (fun w => w ⬝ᵥ D.cov *ᵥ w))) pts := by
  obtain ⟨g, hmo⟩ := good_of_reachable hU hW _ (List.mem_of_getElem? hj)
  obtain ⟨p, -⟩ := fresh_reaches (S := S) hU g ho (c := .minVolatility) ⟨hk, hsym⟩ trivial (fun _ _ _ _ => nofun)
  let q : Ask n := ⟨fun s => s.w ⬝ᵥ D.cov *ᵥ s.w, fun _ => True, false⟩
  have hq : ∀ v, ask D v .minVolatility = some q := fun v => by simp only [ask, hk]; rfl
  obtain ⟨s₀, v₀, hs₀⟩ := (solvable_iff (q := q) (req := fun _ => True) (f := fun w => w ⬝ᵥ D.cov *ᵥ w)
    (fun _ => Iff.rfl) (fun _ => rfl)).2 hv
  obtain ⟨s, e, hs, -⟩ := p.exact hS.toExact (by rw [hk]; nofun) (hq _) hs₀
  have hb := best_of_opt hs (req := fun _ => True) (f := fun w => w ⬝ᵥ D.cov *ᵥ w) (fun _ => Iff.rfl) (fun _ => rfl)
  have mono := (run_post hU g hmo (.minVolatility : Call n)).mono
  have hup := minVol_upar (U := U) (S := S) hk o W.heap
  have hw : (run U S D .minVolatility o W.heap).2.1.weights = some (round16 s.w) := by
    obtain ⟨-, -, -, -, -, -, -, e'⟩ := run_ends (U := U) (S := S) (D := D) (c := .minVolatility) nofun nofun o W.heap
      (round16 s.w) e
    exact e'
  rcases hrun : run U S D .minVolatility o W.heap with ⟨r, o₁, h₁⟩
  rw [hrun] at e mono hup hw
  dsimp only at e mono hup hw
  subst e
  have g₁ : Good U D cfg o h₁ := g.mono mono
  have b : Base U cfg o h₁ [] := by
    rcases g₁ with ⟨b, -⟩ | ⟨p, s⟩
    · exact b
    · rw [s.opt] at ho; cases ho
  obtain ⟨o₂, h₂, hx, -, mono₂, hup₂⟩ := maxReturn_clean (S := S) hU b hmu
  rw [hup, max_answer hS.toExact hm] at hx
  have hd : defaultRange U S D N o W.heap = (.ok (linspace (round16 s.w ⬝ᵥ mu) (m - 0.0001) N), o, h₂) := by
    simp only [defaultRange, deepcopy, hrun, plotPoint_ef hk hmu hp hw, pointOf, hx]
  have hpl : plotFrontier U S D "return" none N o W.heap =
      plotEf U S D "return" ((linspace (round16 s.w ⬝ᵥ mu) (m - 0.0001) N).map fun t => (true, t)) o h₂ := bind_ok hd
  have hup' : h₂.upar = W.heap.upar := hup₂.trans hup
  have hr := round16_rounded s.w
  obtain ⟨pts, k1, k2⟩ := return_points hU hk hsym hmu hp hS (g₁.mono mono₂) hmo ho hc (hup' ▸ hm) h0 _
    (linspace_le (N := N) (hle _ _ _ hr hb) (b := m - 0.0001) (by linarith))
  rw [hup'] at k2
  exact ⟨_, _, _, pts, hr, hb, by rw [hpl]; exact k1, k2⟩

end ranges

end Verif.Convex
