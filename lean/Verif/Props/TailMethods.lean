import Verif.Props.Tail

/-!
Properties C46 to C48 for the methods: `min_cvar`, `min_cdar`, `min_semivariance`, `efficient_return`,
`efficient_risk`, `max_quadratic_utility`, and `portfolio_performance` after them.
-/

noncomputable section

namespace Verif.Convex
open Verif.Py Verif.Base Matrix

variable {n : ℕ} {U : Uni n} {S : Solver n} {D : Data n} {cfg : Cfg n} {o : OState n} {W : World n} {j : ℕ}
  {w : Fin n → ℝ}

theorem Usable.pos (hU : Usable U D) (hk : D.kind = .cvar ∨ D.kind = .cdar) : 0 < D.T := by
  have := left_ne_zero_of_mul (hU.tail hk)
  exact Nat.pos_of_ne_zero fun e => this (by rw [e]; simp)

theorem cvarPerf_eq {h : Heap n} {mu : Fin n → ℝ} {s : Asg n} (hT : (D.T : ℝ) * (1 - D.beta) ≠ 0)
    (hm : D.mu = some mu) (hw : o.weights = some w) (hv : h.vals = some s) :
    cvarPerformance D o h = .ok (w ⬝ᵥ mu, some (cvarOf D s)) := by
  simp only [cvarPerformance, perfReturn, perfCoef, hw, hm, hv, if_neg hT]
  rfl

theorem cdarPerf_eq {h : Heap n} {mu : Fin n → ℝ} {s : Asg n} (hT : (D.T : ℝ) * (1 - D.beta) ≠ 0)
    (hm : D.mu = some mu) (hw : o.weights = some w) (hv : h.vals = some s) :
    cdarPerformance D o h = .ok (w ⬝ᵥ mu, some (cdarOf D s)) := by
  simp only [cdarPerformance, perfReturn, perfCoef, hw, hm, hv, if_neg hT]
  rfl

/-! ### C46

Partial: the risk reported is that of the solver's weights, of which the returned weights are the rounding
(`C46_rounded` bounds the difference); user objects are as in C39; objects without expected returns are left out
(`C46_no_returns_false`). -/

/-- **C46**, `min_cvar`: the weights are the rounding of a portfolio of least conditional value at risk, and
`portfolio_performance` reports the conditional value at risk of that portfolio. -/
theorem C46_min_cvar_partial (hU : Usable U D) (hk : D.kind = .cvar) (h0 : 0 ≤ D.beta) (h1 : D.beta < 1)
    (hW : Reachable U S D W) (hj : W.objs[j]? = some (cfg, o)) {mn : Bool}
    (hw : (run U S D (.minCvar mn) o W.heap).1 = .ok (some w))
    (hS : Correct S W.heap (run U S D (.minCvar mn) o W.heap).2.2) :
    ∃ mu s usr, D.mu = some mu ∧ Rounded w s ∧
      Best U cfg W.heap.upar mn (fun _ => True) (portCvar D.beta D.R) s usr ∧
      cvarPerformance D (run U S D (.minCvar mn) o W.heap).2.1 (run U S D (.minCvar mn) o W.heap).2.2 =
        .ok (w ⬝ᵥ mu, some (portCvar D.beta D.R s)) := by
  have hT := hU.tail (.inl hk)
  obtain ⟨v, q, s, x, hq, rfl, ho, e1, e2⟩ := solved_vals hU hW hj (c := .minCvar mn) nofun nofun nofun hw hS
  obtain ⟨mu, hm⟩ := Option.isSome_iff_exists.1 (hU.mu hk)
  simp only [ask, hk, if_true] at hq
  cases hq
  obtain ⟨k1, -, -, k2⟩ := best_of_rep ho (rep_cvar hT h0 h1) (B := fun _ r => r) (Q := fun _ _ => True) (fun _ => rfl)
    (fun s => ⟨fun h => ⟨trivial, h⟩, And.right⟩) (fun _ _ _ h => h) (fun _ _ _ _ _ => trivial)
  refine ⟨mu, s.w, s.usr, hm, round16_rounded _, k1, ?_⟩
  rw [cvarPerf_eq hT hm e2 e1, k2]

/-- **C46**, `efficient_return`: the same among the portfolios whose return is at least the target. -/
theorem C46_efficient_return_partial (hU : Usable U D) (hk : D.kind = .cvar) (h0 : 0 ≤ D.beta) (h1 : D.beta < 1)
    (hW : Reachable U S D W) (hj : W.objs[j]? = some (cfg, o)) {f mn : Bool} {t : ℝ}
    (hw : (run U S D (.efficientReturn f t mn) o W.heap).1 = .ok (some w))
    (hS : Correct S W.heap (run U S D (.efficientReturn f t mn) o W.heap).2.2) :
    ∃ mu s usr, D.mu = some mu ∧ Rounded w s ∧
      Best U cfg W.heap.upar mn (fun w => t ≤ w ⬝ᵥ mu) (portCvar D.beta D.R) s usr ∧
      cvarPerformance D (run U S D (.efficientReturn f t mn) o W.heap).2.1
          (run U S D (.efficientReturn f t mn) o W.heap).2.2 =
        .ok (w ⬝ᵥ mu, some (portCvar D.beta D.R s)) := by
  have hT := hU.tail (.inl hk)
  obtain ⟨v, q, s, x, hq, rfl, ho, e1, e2⟩ :=
    solved_vals hU hW hj (c := .efficientReturn f t mn) nofun nofun nofun hw hS
  obtain ⟨mu, hm⟩ := Option.isSome_iff_exists.1 (hU.mu hk)
  simp only [ask, hk, hm] at hq
  cases hq
  obtain ⟨k1, -, -, k2⟩ := best_of_rep ho (rep_cvar hT h0 h1) (B := fun _ r => r) (Q := fun w _ => t ≤ w ⬝ᵥ mu)
    (fun _ => rfl) (fun s => Iff.rfl) (fun _ _ _ h => h) (fun _ _ _ _ h => h)
  refine ⟨mu, s.w, s.usr, hm, round16_rounded _, k1, ?_⟩
  rw [cvarPerf_eq hT hm e2 e1, k2]

/-- **C46**, `efficient_risk`: the largest return among the portfolios whose conditional value at risk is at most the
target; the reported value lies between the true one and the target. -/
theorem C46_efficient_risk_partial (hU : Usable U D) (hk : D.kind = .cvar) (h0 : 0 ≤ D.beta) (h1 : D.beta < 1)
    (hW : Reachable U S D W) (hj : W.objs[j]? = some (cfg, o)) {mn : Bool} {t : ℝ}
    (hw : (run U S D (.efficientRisk t mn) o W.heap).1 = .ok (some w))
    (hS : Correct S W.heap (run U S D (.efficientRisk t mn) o W.heap).2.2) :
    ∃ mu s usr r, D.mu = some mu ∧ Rounded w s ∧
      Best U cfg W.heap.upar mn (fun w => portCvar D.beta D.R w ≤ t) (fun w => -(w ⬝ᵥ mu)) s usr ∧
      cvarPerformance D (run U S D (.efficientRisk t mn) o W.heap).2.1 (run U S D (.efficientRisk t mn) o W.heap).2.2 =
        .ok (w ⬝ᵥ mu, some r) ∧ portCvar D.beta D.R s ≤ r ∧ r ≤ t := by
  have hT := hU.tail (.inl hk)
  obtain ⟨v, q, s, x, hq, rfl, ho, e1, e2⟩ := solved_vals hU hW hj (c := .efficientRisk t mn) nofun nofun nofun hw hS
  obtain ⟨mu, hm⟩ := Option.isSome_iff_exists.1 (hU.mu hk)
  simp only [ask, hk, hm] at hq
  cases hq
  obtain ⟨k1, k2, k3, -⟩ := best_of_rep ho (rep_cvar hT h0 h1) (B := fun w _ => -(w ⬝ᵥ mu)) (Q := fun _ r => r ≤ t)
    (fun _ => rfl) (fun s => Iff.rfl) (fun _ _ _ _ => le_rfl) (fun _ _ _ h h' => h.trans h')
  exact ⟨mu, s.w, s.usr, _, hm, round16_rounded _, k1, cvarPerf_eq hT hm e2 e1, k3, k2⟩

/-! ### C47

Partial: the risk reported is that of the solver's weights, of which the returned weights are the rounding
(`C47_rounded` bounds the difference); user objects are as in C39. -/

/-- **C47**, `min_cdar`. -/
theorem C47_min_cdar_partial (hU : Usable U D) (hk : D.kind = .cdar) (h0 : 0 ≤ D.beta) (h1 : D.beta < 1)
    {mu : Fin n → ℝ} (hm : D.mu = some mu)
    (hW : Reachable U S D W) (hj : W.objs[j]? = some (cfg, o)) {mn : Bool}
    (hw : (run U S D (.minCdar mn) o W.heap).1 = .ok (some w))
    (hS : Correct S W.heap (run U S D (.minCdar mn) o W.heap).2.2) :
    ∃ s usr, Rounded w s ∧
      Best U cfg W.heap.upar mn (fun _ => True) (portCdar D.beta D.R) s usr ∧
      cdarPerformance D (run U S D (.minCdar mn) o W.heap).2.1 (run U S D (.minCdar mn) o W.heap).2.2 =
        .ok (w ⬝ᵥ mu, some (portCdar D.beta D.R s)) := by
  have hT := hU.tail (.inr hk)
  obtain ⟨v, q, s, x, hq, rfl, ho, e1, e2⟩ := solved_vals hU hW hj (c := .minCdar mn) nofun nofun nofun hw hS
  simp only [ask, hk, if_true] at hq
  cases hq
  obtain ⟨k1, -, -, k2⟩ := best_of_rep ho (rep_cdar hT h0 h1) (B := fun _ r => r) (Q := fun _ _ => True) (fun _ => rfl)
    (fun s => ⟨fun h => ⟨trivial, h⟩, And.right⟩) (fun _ _ _ h => h) (fun _ _ _ _ _ => trivial)
  refine ⟨s.w, s.usr, round16_rounded _, k1, ?_⟩
  rw [cdarPerf_eq hT hm e2 e1, k2]

/-- **C47**, `efficient_return`. -/
theorem C47_efficient_return_partial (hU : Usable U D) (hk : D.kind = .cdar) (h0 : 0 ≤ D.beta) (h1 : D.beta < 1)
    {mu : Fin n → ℝ} (hm : D.mu = some mu)
    (hW : Reachable U S D W) (hj : W.objs[j]? = some (cfg, o)) {f mn : Bool} {t : ℝ}
    (hw : (run U S D (.efficientReturn f t mn) o W.heap).1 = .ok (some w))
    (hS : Correct S W.heap (run U S D (.efficientReturn f t mn) o W.heap).2.2) :
    ∃ s usr, Rounded w s ∧
      Best U cfg W.heap.upar mn (fun w => t ≤ w ⬝ᵥ mu) (portCdar D.beta D.R) s usr ∧
      cdarPerformance D (run U S D (.efficientReturn f t mn) o W.heap).2.1
          (run U S D (.efficientReturn f t mn) o W.heap).2.2 =
        .ok (w ⬝ᵥ mu, some (portCdar D.beta D.R s)) := by
  have hT := hU.tail (.inr hk)
  obtain ⟨v, q, s, x, hq, rfl, ho, e1, e2⟩ :=
    solved_vals hU hW hj (c := .efficientReturn f t mn) nofun nofun nofun hw hS
  simp only [ask, hk, hm] at hq
  cases hq
  obtain ⟨k1, -, -, k2⟩ := best_of_rep ho (rep_cdar hT h0 h1) (B := fun _ r => r) (Q := fun w _ => t ≤ w ⬝ᵥ mu)
    (fun _ => rfl) (fun s => Iff.rfl) (fun _ _ _ h => h) (fun _ _ _ _ h => h)
  refine ⟨s.w, s.usr, round16_rounded _, k1, ?_⟩
  rw [cdarPerf_eq hT hm e2 e1, k2]

/-- **C47**, `efficient_risk`. -/
theorem C47_efficient_risk_partial (hU : Usable U D) (hk : D.kind = .cdar) (h0 : 0 ≤ D.beta) (h1 : D.beta < 1)
    {mu : Fin n → ℝ} (hm : D.mu = some mu)
    (hW : Reachable U S D W) (hj : W.objs[j]? = some (cfg, o)) {mn : Bool} {t : ℝ}
    (hw : (run U S D (.efficientRisk t mn) o W.heap).1 = .ok (some w))
    (hS : Correct S W.heap (run U S D (.efficientRisk t mn) o W.heap).2.2) :
    ∃ s usr r, Rounded w s ∧
      Best U cfg W.heap.upar mn (fun w => portCdar D.beta D.R w ≤ t) (fun w => -(w ⬝ᵥ mu)) s usr ∧
      cdarPerformance D (run U S D (.efficientRisk t mn) o W.heap).2.1 (run U S D (.efficientRisk t mn) o W.heap).2.2 =
        .ok (w ⬝ᵥ mu, some r) ∧ portCdar D.beta D.R s ≤ r ∧ r ≤ t := by
  have hT := hU.tail (.inr hk)
  obtain ⟨v, q, s, x, hq, rfl, ho, e1, e2⟩ := solved_vals hU hW hj (c := .efficientRisk t mn) nofun nofun nofun hw hS
  simp only [ask, hk, hm] at hq
  cases hq
  obtain ⟨k1, k2, k3, -⟩ := best_of_rep ho (rep_cdar hT h0 h1) (B := fun w _ => -(w ⬝ᵥ mu)) (Q := fun _ r => r ≤ t)
    (fun _ => rfl) (fun s => Iff.rfl) (fun _ _ _ _ => le_rfl) (fun _ _ _ h h' => h.trans h')
  exact ⟨s.w, s.usr, _, round16_rounded _, k1, cdarPerf_eq hT hm e2 e1, k3, k2⟩

/-! ### C48 -/

theorem perfSemi_eq (hT : D.T ≠ 0) (hf : 0 ≤ D.freq) (w : Fin n → ℝ) :
    perfSemi D w = .fin (semidev D.freq D.bench (daily D.R w)) := by
  have hT' : (D.T : ℝ) ≠ 0 := Nat.cast_ne_zero.2 hT
  have hv : 0 ≤ semivar D.bench (daily D.R w) :=
    div_nonneg (Finset.sum_nonneg fun _ _ => sq_nonneg _) (Nat.cast_nonneg _)
  simp only [perfSemi, Perf.fdiv, if_neg hT']
  have e : (∑ t, min (D.R t ⬝ᵥ w - D.bench) 0 ^ 2) / (D.T : ℝ) = semivar D.bench (daily D.R w) := rfl
  rw [e, Perf.fsqrt, if_neg (not_lt.2 (mul_nonneg hv hf)), mul_comm]
  rfl

theorem semiPerf_eq {mu : Fin n → ℝ} (hT : D.T ≠ 0) (hf : 0 ≤ D.freq) (hm : D.mu = some mu) (hw : o.weights = some w)
    (rf : ℝ) : semiPerformance D rf o = .ok (w ⬝ᵥ mu, .fin (semidev D.freq D.bench (daily D.R w)),
      Perf.fdiv (w ⬝ᵥ mu - rf) (.fin (semidev D.freq D.bench (daily D.R w)))) := by
  simp only [semiPerformance, perfReturn, hw, hm, perfSemi_eq hT hf]
  rfl

/-- What is optimised is what is reported: for portfolios whose weights sum to 1, or if the benchmark is 0. -/
theorem semi_same {mn : Bool} (hb : mn = false ∨ D.bench = 0) (w : Fin n → ℝ)
    (hw : ∑ i, w i = if mn then 0 else 1) :
    semivar (D.bench * ∑ i, w i) (daily D.R w) = semivar D.bench (daily D.R w) := by
  rcases hb with rfl | hb
  · rw [hw]; simp
  · rw [hb, zero_mul]

/-- Without added objectives, least semivariance is least semideviation. -/
theorem Best.semidev {req : (Fin n → ℝ) → Prop} {upar : ℕ → ℝ} {mn : Bool} {s : Fin n → ℝ} {usr : ℕ → ℝ}
    (hb : Best U cfg upar mn req (fun w => semivar D.bench (daily D.R w)) s usr) (hf : 0 ≤ D.freq)
    (hc : cfg.objs = []) :
    Best U cfg upar mn req (fun w => Convex.semidev D.freq D.bench (daily D.R w)) s usr := by
  refine ⟨hb.adm, hb.meets, fun w' usr' ha hm => ?_⟩
  have := hb.best w' usr' ha hm
  simp only [total, hc, List.map_nil, List.sum_nil, add_zero, EReal.coe_le_coe_iff] at this ⊢
  exact Real.sqrt_le_sqrt (mul_le_mul_of_nonneg_left this hf)

/-- **C48** (part), `min_semivariance`: missing are market-neutral portfolios with a benchmark other than 0. -/
theorem C48_min_semivariance_partial (hU : Usable U D) (hk : D.kind = .semi) (hT : D.T ≠ 0)
    (hW : Reachable U S D W) (hj : W.objs[j]? = some (cfg, o)) {mn : Bool} (hb : mn = false ∨ D.bench = 0)
    (hw : (run U S D (.minSemi mn) o W.heap).1 = .ok (some w))
    (hS : Correct S W.heap (run U S D (.minSemi mn) o W.heap).2.2) :
    ∃ s usr, Rounded w s ∧
      Best U cfg W.heap.upar mn (fun _ => True) (fun w => semivar D.bench (daily D.R w)) s usr ∧
      (0 ≤ D.freq → cfg.objs = [] →
        Best U cfg W.heap.upar mn (fun _ => True) (fun w => semidev D.freq D.bench (daily D.R w)) s usr) ∧
      ∀ mu rf, D.mu = some mu → 0 ≤ D.freq →
        semiPerformance D rf (run U S D (.minSemi mn) o W.heap).2.1 =
          .ok (w ⬝ᵥ mu, .fin (semidev D.freq D.bench (daily D.R w)),
            Perf.fdiv (w ⬝ᵥ mu - rf) (.fin (semidev D.freq D.bench (daily D.R w)))) := by
  obtain ⟨v, q, s, x, hq, rfl, ho, -, e2⟩ := solved_vals hU hW hj (c := .minSemi mn) nofun nofun nofun hw hS
  simp only [ask, hk, if_true] at hq
  cases hq
  obtain ⟨k1, -, -, -⟩ := best_of_rep ho (rep_semi hT v) (B := fun _ r => r) (Q := fun _ _ => True) (fun _ => rfl)
    (fun s => ⟨fun h => ⟨trivial, h⟩, And.right⟩) (fun _ _ _ h => h) (fun _ _ _ _ _ => trivial)
  have k2 : Best U cfg W.heap.upar mn (fun _ => True) (fun w => semivar D.bench (daily D.R w)) s.w s.usr :=
    k1.congr (fun _ _ => Iff.rfl) fun w hw => semi_same hb w hw
  exact ⟨s.w, s.usr, round16_rounded _, k2, k2.semidev, fun mu rf hm hf => semiPerf_eq hT hf hm e2 rf⟩

/-- **C48** (part), `efficient_return`. -/
theorem C48_efficient_return_partial (hU : Usable U D) (hk : D.kind = .semi) (hT : D.T ≠ 0)
    (hW : Reachable U S D W) (hj : W.objs[j]? = some (cfg, o)) {f mn : Bool} {t : ℝ} (hb : mn = false ∨ D.bench = 0)
    (hw : (run U S D (.efficientReturn f t mn) o W.heap).1 = .ok (some w))
    (hS : Correct S W.heap (run U S D (.efficientReturn f t mn) o W.heap).2.2) :
    ∃ mu s usr, D.mu = some mu ∧ Rounded w s ∧
      Best U cfg W.heap.upar mn (fun w => t ≤ w ⬝ᵥ mu) (fun w => semivar D.bench (daily D.R w)) s usr ∧
      (0 ≤ D.freq → cfg.objs = [] →
        Best U cfg W.heap.upar mn (fun w => t ≤ w ⬝ᵥ mu) (fun w => semidev D.freq D.bench (daily D.R w)) s usr) ∧
      ∀ rf, 0 ≤ D.freq →
        semiPerformance D rf (run U S D (.efficientReturn f t mn) o W.heap).2.1 =
          .ok (w ⬝ᵥ mu, .fin (semidev D.freq D.bench (daily D.R w)),
            Perf.fdiv (w ⬝ᵥ mu - rf) (.fin (semidev D.freq D.bench (daily D.R w)))) := by
  obtain ⟨v, q, s, x, hq, rfl, ho, -, e2⟩ :=
    solved_vals hU hW hj (c := .efficientReturn f t mn) nofun nofun nofun hw hS
  simp only [ask, hk] at hq
  cases hm : D.mu with
  | none => rw [hm] at hq; cases hq
  | some mu =>
    rw [hm] at hq
    cases hq
    obtain ⟨k1, -, -, -⟩ := best_of_rep ho (rep_semi hT v) (B := fun _ r => r) (Q := fun w _ => t ≤ w ⬝ᵥ mu)
      (fun _ => rfl) (fun s => Iff.rfl) (fun _ _ _ h => h) (fun _ _ _ _ h => h)
    have k2 : Best U cfg W.heap.upar mn (fun w => t ≤ w ⬝ᵥ mu) (fun w => semivar D.bench (daily D.R w)) s.w s.usr :=
      k1.congr (fun _ _ => Iff.rfl) fun w hw => semi_same hb w hw
    exact ⟨mu, s.w, s.usr, rfl, round16_rounded _, k2, k2.semidev, fun rf hf => semiPerf_eq hT hf hm e2 rf⟩

/-- **C48** (part), `efficient_risk`: the largest return with semideviation at most the target (its absolute value, as
the code squares it); the reported semideviation exceeds it only by rounding. -/
theorem C48_efficient_risk_partial (hU : Usable U D) (hk : D.kind = .semi) (hT : D.T ≠ 0) (hf : 0 ≤ D.freq)
    (hW : Reachable U S D W) (hj : W.objs[j]? = some (cfg, o)) {mn : Bool} {t : ℝ} (hb : mn = false ∨ D.bench = 0)
    (hw : (run U S D (.efficientRisk t mn) o W.heap).1 = .ok (some w))
    (hS : Correct S W.heap (run U S D (.efficientRisk t mn) o W.heap).2.2) :
    ∃ mu s usr, D.mu = some mu ∧ Rounded w s ∧
      Best U cfg W.heap.upar mn (fun w => semidev D.freq D.bench (daily D.R w) ≤ |t|) (fun w => -(w ⬝ᵥ mu)) s usr ∧
      (∀ rf, semiPerformance D rf (run U S D (.efficientRisk t mn) o W.heap).2.1 =
          .ok (w ⬝ᵥ mu, .fin (semidev D.freq D.bench (daily D.R w)),
            Perf.fdiv (w ⬝ᵥ mu - rf) (.fin (semidev D.freq D.bench (daily D.R w))))) ∧
      semidev D.freq D.bench (daily D.R w) ≤
        |t| + 1 / 2 / 10 ^ 16 * Real.sqrt (D.freq * ((∑ t, (∑ i, |D.R t i|) ^ 2) / D.T)) := by
  obtain ⟨v, q, s, x, hq, rfl, ho, -, e2⟩ := solved_vals hU hW hj (c := .efficientRisk t mn) nofun nofun nofun hw hS
  simp only [ask, hk] at hq
  cases hm : D.mu with
  | none => rw [hm] at hq; cases hq
  | some mu =>
    rw [hm] at hq
    cases hq
    obtain ⟨k1, -, -, -⟩ := best_of_rep ho (rep_semi hT v) (B := fun w _ => -(w ⬝ᵥ mu))
      (Q := fun _ r => D.freq * r ≤ t ^ 2) (fun _ => rfl) (fun s => Iff.rfl) (fun _ _ _ _ => le_rfl)
      (fun _ _ _ h h' => (mul_le_mul_of_nonneg_left h hf).trans h')
    have k2 : Best U cfg W.heap.upar mn (fun w => semidev D.freq D.bench (daily D.R w) ≤ |t|) (fun w => -(w ⬝ᵥ mu))
        s.w s.usr := by
      refine k1.congr (fun w hw => ?_) fun _ _ => rfl
      rw [semi_same hb w hw, semidev, Real.sqrt_le_left (abs_nonneg t), sq_abs]
    refine ⟨mu, s.w, s.usr, rfl, round16_rounded _, k2, fun rf => semiPerf_eq hT hf hm e2 rf, ?_⟩
    have h1 := (abs_le.1 (C48_rounded (R := D.R) (b := D.bench) hf (round16_rounded s.w))).2
    have h2 := k2.meets
    linarith

/-- **C48** (part), `max_quadratic_utility`: the utility of return and semivariance, both annual. -/
theorem C48_max_quadratic_utility_partial (hU : Usable U D) (hk : D.kind = .semi) (hT : D.T ≠ 0) (hf : 0 < D.freq)
    (hW : Reachable U S D W) (hj : W.objs[j]? = some (cfg, o)) {mn : Bool} {r : ℝ}
    (hb : mn = false ∨ D.bench = 0) (hc : cfg.objs = [])
    (hw : (run U S D (.maxUtility r mn) o W.heap).1 = .ok (some w))
    (hS : Correct S W.heap (run U S D (.maxUtility r mn) o W.heap).2.2) :
    ∃ mu s usr, D.mu = some mu ∧ Rounded w s ∧
      Best U cfg W.heap.upar mn (fun _ => True)
        (fun w => -(w ⬝ᵥ mu - r / 2 * semidev D.freq D.bench (daily D.R w) ^ 2)) s usr := by
  have hr : 0 ≤ r := by
    by_contra h
    have : run U S D (.maxUtility r mn) o W.heap = (.error .valueError, o, W.heap) := by
      refine some_err (x := semiUtility S D r mn) (by simp only [run, hk]) ?_
      unfold semiUtility
      rw [if_pos (not_le.1 h).le]
      rfl
    rw [this] at hw
    cases hw
  obtain ⟨v, q, s, x, hq, rfl, ho, -, e2⟩ := solved_vals hU hW hj (c := .maxUtility r mn) nofun nofun nofun hw hS
  simp only [ask, hk] at hq
  cases hm : D.mu with
  | none => rw [hm] at hq; cases hq
  | some mu =>
    rw [hm] at hq
    cases hq
    obtain ⟨k1, -, -, -⟩ := best_of_rep ho (rep_semi hT v) (B := fun w x => -(w ⬝ᵥ mu) / D.freq + r / 2 * x)
      (Q := fun _ _ => True) (fun _ => rfl) (fun s => ⟨fun h => ⟨trivial, h⟩, And.right⟩)
      (fun _ _ _ h => add_le_add_right (mul_le_mul_of_nonneg_left h (by linarith)) _) (fun _ _ _ _ _ => trivial)
    refine ⟨mu, s.w, s.usr, rfl, round16_rounded _, k1.adm, trivial, fun w' usr' ha _ => ?_⟩
    have h1 := k1.best w' usr' ha trivial
    simp only [total, hc, List.map_nil, List.sum_nil, add_zero, EReal.coe_le_coe_iff] at h1 ⊢
    rw [semi_same hb _ k1.adm.sum, semi_same hb _ ha.sum] at h1
    have hsq : ∀ w : Fin n → ℝ, semidev D.freq D.bench (daily D.R w) ^ 2 = D.freq * semivar D.bench (daily D.R w) :=
      fun w => Real.sq_sqrt (mul_nonneg hf.le
        (div_nonneg (Finset.sum_nonneg fun _ _ => sq_nonneg _) (Nat.cast_nonneg _)))
    rw [hsq, hsq]
    have h2 := mul_le_mul_of_nonneg_left h1 hf.le
    have e : ∀ a b : ℝ, D.freq * (-a / D.freq + r / 2 * b) = -(a - r / 2 * (D.freq * b)) := by
      intro a b
      field_simp
      ring
    rw [e, e] at h2
    exact h2

end Verif.Convex
