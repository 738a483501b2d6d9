import Verif.Props.ClaObj
import Verif.Proof.ClaSmallInvScale

/-! Property C69: the plot of a `CLA` object. -/

noncomputable section

namespace Verif.ClaObj
open Verif.Py Verif.Base Verif.Cla Verif.Perf

variable {n : ℕ} {inv : Cla.Inv ℝ} {sharpe : (Fin n → ℝ) → ℝ} {fuel : ℕ} {p : Problem n ℝ} {o : Obj n} {cs : List Call}
variable {outs : List (Out n)}

/-- **C69**, true in any history: the line consists of returns and volatilities of its weights, the mark shows return,
volatility and Sharpe ratio of the weights given beside it, and each asset is drawn at its own volatility and expected
return. -/
theorem C69_drawn (h : runs inv sharpe fuel (fresh p) cs = some (o, outs)) (q : Picture n) (hq : .picture q ∈ outs) :
    Belongs p.mean p.cov q.line.1 q.line.2.1 q.line.2.2 ∧
    (∃ w, q.markedWeights = some w ∧ Documented w p.mean p.cov 0 q.marked) ∧
    q.assets.length = n ∧
    ∀ i : Fin n, ∃ x, q.assets[i.1]? = some (x, p.mean i) ∧ (0 ≤ p.cov i i → x = .fin (Real.sqrt (p.cov i i))) := by
  have a := after_runs h
  obtain ⟨w, h1, h2, h3⟩ := a.marked q hq
  refine ⟨a.fits _ hq q.line rfl, ⟨w, h1, h2⟩, by rw [h3, List.length_ofFn], fun i => ?_⟩
  refine ⟨Perf.fsqrt (p.cov i i), ?_, fun hi => if_neg (not_lt.2 hi)⟩
  rw [h3, List.getElem?_ofFn]
  simp

/-- The calls that agree with a plot of `points` points. -/
def Call.agrees (points : ℕ) : Call → Prop
  | .maxSharpe => True
  | .minVolatility => False
  | .efficientFrontier k => k = points
  | .setWeights => True
  | .plot k => k = points

/-- **C69**, when neither `min_volatility` nor a frontier with another number of points has been asked for before: the
line is what `efficient_frontier(points)` and the mark what `max_sharpe` returns on a new object.  Either may be the
first call; the weights of the mark are stored in the object, as after `max_sharpe`. -/
theorem C69_plot_partial (hsol : Solvable inv fuel p) (points : ℕ) (cs : List Call) (hcs : ∀ c ∈ cs, c.agrees points) :
    ∃ o outs o₁ q o₂ o₃ w, runs inv sharpe fuel (fresh p) cs = some (o, outs) ∧
      o.run inv sharpe fuel (.plot points) = some (o₁, .picture q) ∧
      (fresh p).run inv sharpe fuel (.efficientFrontier points) = some (o₂, .frontier q.line) ∧
      (fresh p).run inv sharpe fuel .maxSharpe = some (o₃, .weights w) ∧
      q.markedWeights = some w ∧ Documented w p.mean p.cov 0 q.marked ∧ o₁.weights = some w := by
  obtain ⟨s₀, hs, h0⟩ := solvable_solve hsol
  obtain ⟨w, e3, hw⟩ := maxSharpe_known (sharpe := sharpe) hs h0 (o := fresh p) rfl (.inl rfl)
  set F := frontierOf p (frontierPoints (points / s₀.w.length) s₀.w) with hF
  have e2 := efficientFrontier_known hs h0 (o := fresh p) rfl (.inl rfl) points
  -- the state along the calls
  let I : Obj n → Prop := fun o => o.p = p ∧ Known s₀ o ∧ (o.weights = none ∨ o.weights = some w) ∧
    (o.frontier = none ∨ o.frontier = some F)
  have hmax : ∀ o, I o → o.maxSharpe inv sharpe fuel = some ({ o with s := s₀, weights := some w }, .weights w) := by
    intro o hI
    obtain ⟨w', e, hw'⟩ := maxSharpe_known (sharpe := sharpe) hs h0 hI.1 hI.2.1
    rw [hw] at hw'
    cases hw'
    exact e
  have hdraw : ∀ o, I o → o.weights = some w → ∃ o₁ q, o.draw inv fuel points = some (o₁, .picture q) ∧ I o₁ ∧
      q.markedWeights = some w ∧ q.line = F ∧ o₁.weights = some w := by
    intro o hI hww
    obtain ⟨o₁, q, e, k, hm, hl⟩ := draw_known hs h0 hI.1 hI.2.1 hww points
    have st := (draw_step e).1
    have hl' : q.line = F := by
      rw [hl]
      rcases hI.2.2.2 with h | h <;> rw [h] <;> rfl
    have hw₁ : o₁.weights = some w := by rw [st.weights]; simp only [shown, hm]; rfl
    refine ⟨o₁, q, e, ⟨st.data.trans hI.1, k, .inr hw₁, .inr ?_⟩, hm, hl', hw₁⟩
    rw [st.frontier]
    simp only [drawn, hl']
    rfl
  have hplot : ∀ o, I o → ∃ o₁ q, o.run inv sharpe fuel (.plot points) = some (o₁, .picture q) ∧ I o₁ ∧
      q.markedWeights = some w ∧ q.line = F ∧ o₁.weights = some w := by
    intro o hI
    show ∃ o₁ q, o.plot inv sharpe fuel points = some (o₁, .picture q) ∧ _
    unfold Obj.plot
    rcases hI.2.2.1 with hn | hs'
    · rw [hn]
      dsimp only
      rw [hmax o hI]
      exact hdraw _ ⟨hI.1, .inr rfl, .inr rfl, hI.2.2.2⟩ rfl
    · rw [hs']
      exact hdraw o hI hs'
  have hruns : ∀ (cs : List Call) (o : Obj n), (∀ c ∈ cs, c.agrees points) → I o →
      ∃ o₁ xs, runs inv sharpe fuel o cs = some (o₁, xs) ∧ I o₁ := by
    intro cs
    induction cs with
    | nil => intro o _ hI; exact ⟨o, [], rfl, hI⟩
    | cons c cs ih =>
      intro o hc hI
      have step : ∃ o₁ x, o.run inv sharpe fuel c = some (o₁, x) ∧ I o₁ := by
        have := hc c List.mem_cons_self
        cases c with
        | maxSharpe => exact ⟨_, _, hmax o hI, hI.1, .inr rfl, .inr rfl, hI.2.2.2⟩
        | minVolatility => exact this.elim
        | efficientFrontier k =>
          obtain rfl : k = points := this
          exact ⟨_, _, efficientFrontier_known hs h0 hI.1 hI.2.1 k, hI.1, .inr rfl, hI.2.2.1, .inr rfl⟩
        | setWeights => exact ⟨_, _, rfl, hI⟩
        | plot k =>
          obtain rfl : k = points := this
          obtain ⟨o₁, q, e, h1, -⟩ := hplot o hI
          exact ⟨_, _, e, h1⟩
      obtain ⟨o₁, x, e, h1⟩ := step
      obtain ⟨o₂, xs, e', h2⟩ := ih o₁ (fun c hc' => hc c (List.mem_cons_of_mem _ hc')) h1
      exact ⟨o₂, x :: xs, by simp only [runs, e, e']; rfl, h2⟩
  obtain ⟨o, outs, hr, hI⟩ := hruns cs (fresh p) hcs ⟨rfl, .inl rfl, .inl rfl, .inl rfl⟩
  obtain ⟨o₁, q, e1, -, h1, h2, h3⟩ := hplot o hI
  have st := run_step e1
  obtain ⟨w', hw', hd, -⟩ := st.marked q rfl
  rw [h1] at hw'
  cases hw'
  rw [hI.1] at hd
  obtain ⟨o₂, e2⟩ : ∃ o₂, (fresh p).efficientFrontier inv fuel points = some (o₂, .frontier F) := ⟨_, e2⟩
  rw [← h2] at e2
  exact ⟨o, outs, o₁, q, o₂, _, w, hr, e1, e2, e3, h1, hd, h3⟩

/-! ### A concrete object -/

theorem p3_solve : solve p3.real (smallInvOf ℝ) 10 {} =
    (solve p3 smallInv 10 {}).map fun r => (r.1.lift (Rat.castHom ℝ) 1 1, r.2) :=
  solve_rel (real_rel p3 rfl) (smallInv_rel _ one_ne_zero) 10 {}

theorem p3_turning : ∃ s, solve p3.real (smallInvOf ℝ) 10 {} = some (s, .ok ()) ∧
    s.w = [![1, 0, 0], ![1, 0, 0], ![3/4, 1/4, 0], ![1/10, 0, 9/10]] := by
  have hpairs : (match solve p3 smallInv 10 {} with
      | some (s, .ok _) => decide (s.w = [![1, 0, 0], ![1, 0, 0], ![3/4, 1/4, 0], ![1/10, 0, 9/10]])
      | _ => false) = true := by decide +kernel
  rw [p3_solve]
  split at hpairs
  · rename_i s u hs
    rw [hs]
    refine ⟨_, rfl, ?_⟩
    rw [show (State.lift (Rat.castHom ℝ) 1 1 s).w = s.w.map (lift (Rat.castHom ℝ)) from rfl, of_decide_eq_true hpairs]
    simp only [List.map_cons, List.map_nil]
    congr 1
    · funext i; fin_cases i <;> simp [lift]
    congr 1
    · funext i; fin_cases i <;> simp [lift]
    congr 1
    · funext i; fin_cases i <;> simp [lift]
    congr 1
    · funext i; fin_cases i <;> simp [lift]
  · cases hpairs

/-- The least volatile turning point of the example. -/
theorem p3_minVol : ∃ o, (fresh p3.real).minVolatility (smallInvOf ℝ) 10 = some (o, .weights ![1/10, 0, 9/10]) := by
  have e := minVolatility_rel (real_rel p3 rfl) (smallInv_rel (Rat.castHom ℝ) one_ne_zero) 10 {}
  have hq : (match minVolatility p3 smallInv 10 {} with
      | some (_, .ok w) => decide (w = ![1/10, 0, 9/10]) | _ => false) = true := by decide +kernel
  split at hq
  · rename_i s w hs
    have hs' : minVolatility p3 (smallInvOf ℚ) 10 {} = some (s, .ok w) := hs
    rw [hs', of_decide_eq_true hq] at e
    have e : minVolatility p3.real (smallInvOf ℝ) 10 {} = _ := e
    refine ⟨{ fresh p3.real with s := s.lift (Rat.castHom ℝ) 1 1, weights := some ![1/10, 0, 9/10] }, ?_⟩
    unfold Obj.minVolatility
    rw [show (fresh p3.real).p = p3.real from rfl, show (fresh p3.real).s = {} from rfl, e]
    have : lift (Rat.castHom ℝ) ![1/10, 0, 9/10] = ![1/10, 0, 9/10] := by
      funext i; fin_cases i <;> simp [lift]
    simp only [Option.map_some, Except.map, this]
    rfl
  · cases hq

theorem p3_solvable : Solvable (smallInvOf ℝ) 10 p3.real := by
  obtain ⟨o, e⟩ := p3_minVol
  exact ⟨o, _, e⟩

/-- The frontier of the example with `4 * k` points. -/
theorem p3_frontier (k : ℕ) (o : Obj 3) (hp : o.p = p3.real) (hk : ∀ s, solve p3.real (smallInvOf ℝ) 10 {} = some (s, .ok ()) → Known s o) :
    ∃ o', o.efficientFrontier (smallInvOf ℝ) 10 (4 * k) = some (o', .frontier (frontierOf p3.real
      (frontierPoints k [![1, 0, 0], ![1, 0, 0], ![3/4, 1/4, 0], ![1/10, 0, 9/10]]))) ∧ o'.p = p3.real := by
  obtain ⟨s, hs, hw⟩ := p3_turning
  have h0 : s.w ≠ [] := by rw [hw]; simp
  have e := efficientFrontier_known hs h0 hp (hk s hs) (4 * k)
  rw [hw] at e
  simp only [List.length_cons, List.length_nil] at e
  rw [Nat.mul_div_cancel_left k (by norm_num)] at e
  exact ⟨_, e, hp⟩

theorem length_frontier (k : ℕ) (p : Problem 3 ℝ) (a b c d : Fin 3 → ℝ) :
    (frontierOf p (frontierPoints k [a, b, c, d])).1.length = (k - 1) + (k - 1) + k := by
  simp [frontierOf, frontierPoints, linspace01]
  omega

/-- **C69** (fails): the number of points asked for is ignored once a frontier is stored.  After
`efficient_frontier(points=8)` a plot with 16 points draws 4 points, where a new object draws 10. -/
theorem C69_points_false : ∃ o₁ o₂ o₃ x q q', (smallInvOf ℝ).Sound ∧
    runs (smallInvOf ℝ) (evalSr p3.real) 10 (fresh p3.real) [.efficientFrontier 8, .plot 16] = some (o₁, [x, .picture q]) ∧
    runs (smallInvOf ℝ) (evalSr p3.real) 10 (fresh p3.real) [.plot 16] = some (o₂, [.picture q']) ∧
    (fresh p3.real).run (smallInvOf ℝ) (evalSr p3.real) 10 (.efficientFrontier 16) = some (o₃, .frontier q'.line) ∧
    q.line.1.length = 4 ∧ q'.line.1.length = 10 := by
  obtain ⟨s, hs, hw⟩ := p3_turning
  have h0 : s.w ≠ [] := by rw [hw]; simp
  obtain ⟨o₁, e1, hp1⟩ := p3_frontier 2 (fresh p3.real) rfl (fun _ _ => .inl rfl)
  obtain ⟨o₃, e3, hp3⟩ := p3_frontier 4 (fresh p3.real) rfl (fun _ _ => .inl rfl)
  -- after the first frontier
  obtain ⟨oa, xa, ea, ka⟩ := run_known (sharpe := evalSr p3.real) hs h0 (o := fresh p3.real) rfl (.inl rfl) (.efficientFrontier 8)
  have ea' : (fresh p3.real).efficientFrontier (smallInvOf ℝ) 10 8 = some (oa, xa) := ea
  rw [e1] at ea'
  cases ea'
  have hf := (run_step ea).frontier
  have hw' := (run_step ea).weights
  obtain ⟨w, em, -⟩ := maxSharpe_known (sharpe := evalSr p3.real) hs h0 (o := o₁) hp1 ka
  obtain ⟨o₂, q, ed, -, -, hl⟩ := draw_known (o := { o₁ with s := s, weights := some w }) hs h0 hp1 (.inr rfl) rfl 16
  have epl : o₁.plot (smallInvOf ℝ) (evalSr p3.real) 10 16 = some (o₂, .picture q) := by
    unfold Obj.plot
    rw [hw']
    simp only [shown, fresh]
    rw [em]
    exact ed
  -- a new object
  obtain ⟨o, outs, o₄, q', o₅, o₆, w', hr, hp', hf', -⟩ :=
    C69_plot_partial (sharpe := evalSr p3.real) p3_solvable 16 [] nofun
  cases hr
  have e3' : (fresh p3.real).run (smallInvOf ℝ) (evalSr p3.real) 10 (.efficientFrontier 16) = _ := e3
  rw [hf'] at e3'
  have hq' : q'.line = _ := Out.frontier.inj (Prod.mk.inj (Option.some.inj e3')).2
  have hr₂ : ∃ x, runs (smallInvOf ℝ) (evalSr p3.real) 10 (fresh p3.real) [.efficientFrontier 8, .plot 16] =
      some (o₂, [x, .picture q]) := by
    refine ⟨.frontier (frontierOf p3.real (frontierPoints 2 [![1, 0, 0], ![1, 0, 0], ![3/4, 1/4, 0], ![1/10, 0, 9/10]])), ?_⟩
    simp only [runs]
    rw [ea]
    simp only [Obj.run, epl]
    rfl
  obtain ⟨x, hr₂⟩ := hr₂
  refine ⟨o₂, o₄, o₅, x, q, q', smallInvOf_sound, hr₂, ?_, hf', ?_, ?_⟩
  · simp only [runs]
    rw [hp']
    rfl
  · rw [hl]
    simp only [hf, drawn]
    exact length_frontier 2 _ _ _ _ _
  · rw [hq', length_frontier 4]

/-- **C69** (fails): the marked portfolio, labelled "Max Sharpe Portfolio", is whatever was optimised last.  After
`min_volatility` a point of the drawn line itself has a strictly larger Sharpe ratio than the mark. -/
theorem C69_marker_false : ∃ (o : Obj 3) (x : Out 3) (q : Picture 3) (mu sigma s : ℝ) (k : ℕ), (smallInvOf ℝ).Sound ∧
    runs (smallInvOf ℝ) (evalSr p3.real) 10 (fresh p3.real) [.minVolatility, .plot 12] = some (o, [x, .picture q]) ∧
    q.line.1[k]? = some mu ∧ q.line.2.1[k]? = some (.fin sigma) ∧ 0 < sigma ∧
    q.marked.2.2 = some (.fin s) ∧ s < mu / sigma := by
  obtain ⟨s, hs, hw⟩ := p3_turning
  have h0 : s.w ≠ [] := by rw [hw]; simp
  obtain ⟨o₁, e1⟩ := p3_minVol
  have er : (fresh p3.real).run (smallInvOf ℝ) (evalSr p3.real) 10 .minVolatility = some (o₁, .weights ![1/10, 0, 9/10]) := e1
  have st := run_step er
  obtain ⟨w, ek, -⟩ := minVolatility_known hs h0 (o := fresh p3.real) rfl (.inl rfl)
  rw [e1] at ek
  have ho := (Prod.mk.inj (Option.some.inj ek)).1
  have hk : Known s o₁ := by rw [ho]; exact .inr rfl
  have hw₁ : o₁.weights = some ![1/10, 0, 9/10] := st.weights
  obtain ⟨o₂, q, ed, -, hm, hl⟩ := draw_known hs h0 st.data hk hw₁ 12
  have epl : o₁.plot (smallInvOf ℝ) (evalSr p3.real) 10 12 = some (o₂, .picture q) := by
    unfold Obj.plot
    rw [hw₁]
    exact ed
  have hline : q.line = frontierOf p3.real (frontierPoints 3 [![1, 0, 0], ![1, 0, 0], ![3/4, 1/4, 0], ![1/10, 0, 9/10]]) := by
    rw [hl, st.frontier]
    simp only [drawn, fresh, hw]
    rfl
  have hruns : runs (smallInvOf ℝ) (evalSr p3.real) 10 (fresh p3.real) [.minVolatility, .plot 12] =
      some (o₂, [.weights ![1/10, 0, 9/10], .picture q]) := by
    simp only [runs]
    rw [er]
    simp only [Obj.run, epl]
    rfl
  obtain ⟨w', hw', hd, -⟩ := (after_runs hruns).marked q (by simp)
  rw [hm] at hw'
  cases hw'
  have hvar : specVariance ![1/10, 0, 9/10] p3.real.cov = 9/1000 := by
    simp [specVariance, Fin.sum_univ_three, Problem.real, p3]; norm_num
  have hret : specReturn ![1/10, 0, 9/10] p3.real.mean = 12/100 := by
    simp [specReturn, Fin.sum_univ_three, Problem.real, p3]; norm_num
  have hsr := hd.2.2.2.1 (by rw [hvar]; norm_num)
  rw [hvar, hret] at hsr
  have hmu : ret p3.real ![17/40, 1/8, 9/20] = 79/400 := by
    simp [ret, Fin.sum_univ_three, Problem.real, p3]; norm_num
  have hva : variance p3.real ![17/40, 1/8, 9/20] = 777/32000 := by
    simp [variance, Fin.sum_univ_three, Problem.real, p3]; norm_num
  have hpt : (frontierPoints 3 [![1, 0, 0], ![1, 0, 0], ![3/4, 1/4, 0], ![(1:ℝ)/10, 0, 9/10]])[5]? = some ![17/40, 1/8, 9/20] := by
    simp [frontierPoints, linspace01, List.range_succ]
    funext i
    fin_cases i <;> simp <;> norm_num
  refine ⟨o₂, _, q, 79/400, Real.sqrt (777/32000), _, 5, smallInvOf_sound, hruns, ?_, ?_, by positivity, hsr, ?_⟩
  · rw [hline]
    simp only [frontierOf, List.getElem?_map, hpt, Option.map_some, hmu]
  · rw [hline]
    simp only [frontierOf, List.getElem?_map, hpt, Option.map_some, hva]
    rw [Perf.fsqrt, if_neg (by norm_num)]
  · rw [sub_zero, div_lt_div_iff₀ (by positivity) (by positivity)]
    have h1 : (0:ℝ) ≤ 12/100 * Real.sqrt (777/32000) := by positivity
    have h2 : (0:ℝ) ≤ 79/400 * Real.sqrt (9/1000) := by positivity
    rw [← abs_of_nonneg h1, ← abs_of_nonneg h2, ← sq_lt_sq, mul_pow, mul_pow, Real.sq_sqrt (by norm_num), Real.sq_sqrt (by norm_num)]
    norm_num

/-- C68 and C69 are not vacuous: a history of the example object with two optimisations, a frontier, a refused
`set_weights` and a plot. -/
example : ∃ o outs, runs (smallInvOf ℝ) (evalSr p3.real) 10 (fresh p3.real)
      [.setWeights, .efficientFrontier 8, .maxSharpe, .plot 16, .minVolatility] = some (o, outs) ∧
    (outs.filterMap shown).getLast? = some ![1/10, 0, 9/10] := by
  obtain ⟨s, hs, hw⟩ := p3_turning
  have h0 : s.w ≠ [] := by rw [hw]; simp
  obtain ⟨o, outs, hr, hp, hk⟩ := runs_known (sharpe := evalSr p3.real) hs h0 (o := fresh p3.real) rfl (.inl rfl)
    [.setWeights, .efficientFrontier 8, .maxSharpe, .plot 16, .minVolatility]
  refine ⟨o, outs, hr, ?_⟩
  obtain ⟨o₁, outs₁, x, o₂, o₃, h1, h2, h3⟩ := C68_order (sharpe := evalSr p3.real) p3_solvable
    [.setWeights, .efficientFrontier 8, .maxSharpe, .plot 16] .minVolatility trivial
  obtain ⟨o₄, e4⟩ := p3_minVol
  have e4 : (fresh p3.real).run (smallInvOf ℝ) (evalSr p3.real) 10 .minVolatility = _ := e4
  rw [h3] at e4
  cases e4
  have hrr : ∀ (cs : List Call) (o o₁ o₂ : Obj 3) (xs : List (Out 3)) (x : Out 3) (c : Call),
      runs (smallInvOf ℝ) (evalSr p3.real) 10 o cs = some (o₁, xs) → o₁.run (smallInvOf ℝ) (evalSr p3.real) 10 c = some (o₂, x) →
      runs (smallInvOf ℝ) (evalSr p3.real) 10 o (cs ++ [c]) = some (o₂, xs ++ [x]) := by
    intro cs
    induction cs with
    | nil => intro o o₁ o₂ xs x c h h'; cases h; simp [runs, h']
    | cons c' cs ih =>
      intro o o₁ o₂ xs x c h h'
      simp only [runs] at h
      cases hc : o.run (smallInvOf ℝ) (evalSr p3.real) 10 c' with
      | none => rw [hc] at h; cases h
      | some r =>
        obtain ⟨oo, xx⟩ := r
        rw [hc] at h
        obtain ⟨⟨oe, xe⟩, hh, e⟩ := Option.map_eq_some_iff.1 h
        cases e
        have := ih oo _ _ _ _ _ hh h'
        simp only [List.cons_append, runs, hc, this]
        rfl
  have := hrr _ _ _ _ _ _ _ h1 h2
  rw [show ([.setWeights, .efficientFrontier 8, .maxSharpe, .plot 16] ++ [.minVolatility] : List Call) =
    [.setWeights, .efficientFrontier 8, .maxSharpe, .plot 16, .minVolatility] from rfl, hr] at this
  cases this
  rw [getLast?_snoc]
  rfl

end Verif.ClaObj
