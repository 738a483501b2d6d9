import Verif.Props.Answered

/-! Cases for C85, and requests that can be met but are refused. -/

noncomputable section

namespace Verif.Convex
open Verif.Py Verif.Base Matrix

variable {n : ℕ} {S : Solver n}

theorem exCfg_finite (mn : Bool) : Finite (exCfg : Cfg n) mn :=
  .inr ⟨fun _ => 0, fun _ => 1, fun _ => rfl, fun _ => rfl⟩

theorem no_objs {U : Uni n} {cfg : Cfg n} {upar : ℕ → ℝ} (h : cfg.objs = []) : ContObjs U cfg upar :=
  ⟨fun _ => 0, continuous_const, fun _ _ => by simp [h]⟩

theorem no_cons {U : Uni n} {cfg : Cfg n} {upar : ℕ → ℝ} (h : cfg.cons = []) : ClosedCons U cfg upar :=
  fun i hi => by rw [h] at hi; cases hi

theorem tD_sound (k : Kind) (mn : Bool) : Sound (tD k 0) mn := by
  cases k
  · exact PosSemidef.zero
  · exact ⟨by norm_num [tD], by norm_num [tD]⟩
  · exact ⟨by norm_num [tD], by norm_num [tD]⟩
  · exact ⟨two_ne_zero, by norm_num [tD], .inr rfl⟩

/-- A fresh object of the example, without constraints or objectives. -/
theorem tD_outcome {S : Solver 2} (hS : Decides S) (k : Kind) {mn : Bool} {c : Call 2} (hmn : Asks mn c)
    (hc : Complete (tD k 0) c) (ha : Accepts (tD k 0) c) (hr : NonnegRisk c)
    (hne : ∀ f t mn, k = .ef → c ≠ .efficientReturn f t mn) {w : Fin 2 → ℝ} {usr : ℕ → ℝ}
    (hw : Admissible exU exCfg (exW : World 2).heap.upar mn w usr) (hm : Meets (tD k 0) c w) :
    ∃ w s usr, (run exU S (tD k 0) c exO (exW : World 2).heap).1 = .ok (some w) ∧ Rounded w s ∧
      Admissible exU exCfg (exW : World 2).heap.upar mn s usr ∧ Meets (tD k 0) c s :=
  (C85_outcome_partial (tD_usable k 0) (tD_sound k mn) hS exW_reachable exW_get exO_opt hmn hc ha hr hne
    (exCfg_finite mn) (no_cons rfl) (no_objs rfl)).1 ⟨w, usr, hw, hm⟩

theorem half_adm : Admissible exU exCfg (exW : World 2).heap.upar false ![1 / 2, 1 / 2] fun _ => 0 :=
  ex_adm.2 ⟨fun i => by fin_cases i <;> norm_num, by norm_num [Fin.sum_univ_two]⟩

/-- Half of each asset has a conditional value at risk of 2 percent: this target is met. -/
example {S : Solver 2} (hS : Decides S) : ∃ w s usr,
    (run exU S (tD .cvar 0) (.efficientRisk 0.02 false) exO (exW : World 2).heap).1 = .ok (some w) ∧ Rounded w s ∧
      Admissible exU exCfg (exW : World 2).heap.upar false s usr ∧ portCvar (1 / 2) tR s ≤ 0.02 :=
  tD_outcome hS .cvar (c := .efficientRisk 0.02 false) rfl ⟨nofun, rfl⟩ (by show (0 : ℝ) ≤ _; norm_num)
    (by show (0 : ℝ) ≤ _; norm_num) nofun half_adm (by
      show portCvar (1 / 2) tR ![1 / 2, 1 / 2] ≤ 0.02
      rw [tD_cvar (by norm_num) (by norm_num)]
      norm_num)

/-- A market-neutral portfolio of least drawdown is found, and one of least semivariance. -/
example {S : Solver 2} (hS : Decides S) :
    (∃ w, (run exU S (tD .cdar 0) (.minCdar true) exO (exW : World 2).heap).1 = .ok (some w)) ∧
    ∃ w, (run exU S (tD .semi 0) (.minSemi true) exO (exW : World 2).heap).1 = .ok (some w) := by
  have h0 : Admissible exU exCfg (exW : World 2).heap.upar true ![1, -1] fun _ => 0 := by
    refine ⟨?_, nofun, by norm_num [Fin.sum_univ_two]⟩
    rw [Within, if_pos ⟨rfl, fun _ => le_rfl⟩]
    intro i
    fin_cases i <;> norm_num
  obtain ⟨w, -, -, h, -⟩ := tD_outcome hS .cdar (c := .minCdar true) rfl rfl trivial trivial nofun h0 trivial
  obtain ⟨w', -, -, h', -⟩ := tD_outcome hS .semi (c := .minSemi true) rfl rfl trivial trivial nofun h0 trivial
  exact ⟨⟨w, h⟩, w', h'⟩

/-- A conditional value at risk below 1 percent cannot be had: OptimizationError. -/
theorem low_refused {S : Solver 2} (hS : Decides S) :
    (run exU S (tD .cvar 0) (.efficientRisk 0.005 false) exO (exW : World 2).heap).1 = .error .optimization := by
  refine (C85_outcome_partial (tD_usable .cvar 0) (tD_sound .cvar false) hS exW_reachable exW_get exO_opt
    (c := .efficientRisk 0.005 false) rfl ⟨nofun, rfl⟩ (by show (0 : ℝ) ≤ _; norm_num) (by show (0 : ℝ) ≤ _; norm_num) nofun
    (exCfg_finite _) (no_cons rfl) (no_objs rfl)).2 ?_
  rintro ⟨w, usr, hw, hm⟩
  obtain ⟨h1, h2⟩ := ex_adm.1 hw
  rw [Fin.sum_univ_two] at h2
  have hm : portCvar (1 / 2) tR w ≤ 0.005 := hm
  rw [tD_cvar h2 (h1 0).1] at hm
  have := (h1 0).1
  norm_num at hm
  linarith

/-- Targets of `EfficientFrontier.efficient_return` up to the largest return are met; above it ValueError is raised. -/
example {S : Solver 2} (hS : Decides S) :
    (∃ w, (run exU S (exD ![0.3, 0.1]) (.efficientReturn true 0.3 false) exO (exW : World 2).heap).1 = .ok (some w)) ∧
    (run exU S (exD ![0.3, 0.1]) (.efficientReturn true 0.4 false) exO (exW : World 2).heap).1 = .error .valueError := by
  have h1 : Admissible exU exCfg (exW : World 2).heap.upar false ![1, 0] fun _ => 0 :=
    ex_adm.2 ⟨fun i => by fin_cases i <;> norm_num, by norm_num [Fin.sum_univ_two]⟩
  constructor
  · obtain ⟨w, -, -, h, -⟩ := (C85_return_partial (exU_usable ![0.3, 0.1]) rfl rfl rfl PosSemidef.one hS exW_reachable exW_get
      exO_opt nofun 0.3 (exCfg_finite _) (no_cons rfl) (no_objs rfl)).1 ⟨_, _, h1, by rw [ret_two]; norm_num⟩
    exact ⟨w, h⟩
  · refine (C85_return_partial (exU_usable ![0.3, 0.1]) rfl rfl rfl PosSemidef.one hS exW_reachable exW_get
      exO_opt nofun 0.4 (exCfg_finite _) (no_cons rfl) (no_objs rfl)).2.1 ⟨_, _, h1⟩ ?_
    rintro ⟨w, usr, hw, hm⟩
    obtain ⟨h1, h2⟩ := ex_adm.1 hw
    rw [Fin.sum_univ_two] at h2
    rw [ret_two] at hm
    have hm : (0.4 : ℝ) ≤ w 0 * 0.3 + w 1 * 0.1 := hm
    have := (h1 1).1
    norm_num at hm
    linarith

/-- The largest Sharpe ratio exists for every rate some asset beats. -/
example {S : Solver n} (hS : Decides S) (mu : Fin n → ℝ) {rf : ℝ} (i : Fin n) (hi : rf < mu i) :
    ∃ w s usr, (run exU S (exD mu) (.maxSharpe rf) exO (exW : World n).heap).1 = .ok (some w) ∧ Rounded w s ∧
      BestSharpe exU exCfg (exW : World n).heap.upar 1 mu rf s usr := by
  refine (C85_sharpe_partial (exU_usable mu) rfl rfl rfl PosSemidef.one hS exW_reachable exW_get exO_opt rfl
    (lb := fun _ => 0) (ub := fun _ => 1) (fun _ => rfl) (fun _ => rfl) (no_cons rfl) nofun
    (fun w usr h => vol_pos PosDef.one h) ⟨i, hi⟩).1 ⟨Pi.single i 1, fun _ => 0, ex_adm.2 ?_, ?_⟩
  · exact simplex_iff.2 (single_mem_stdSimplex ℝ i)
  · rw [single_dotProduct, one_mul]
    exact hi

/-- The user's objective `2 * cp.sum_squares(w)` (`L2_reg` with gamma 2) and constraint `w[0] <= 0.4`. -/
def regU : Uni 2 :=
  { (exU : Uni 2) with
    obj := fun _ => ⟨true, [], fun e => ((2 * ∑ i, e.w i ^ 2 : ℝ) : EReal)⟩
    con := fun _ => .ineq 1 ⟨false, [], fun e _ => ((e.w 0 : ℝ) : EReal)⟩ ⟨true, [], fun _ _ => ((0.4 : ℝ) : EReal)⟩ }

/-- Regularised least volatility under a further constraint is found. -/
example {S : Solver 2} (hS : Decides S) (mu : Fin 2 → ℝ) : ∃ (W : World 2) (cfg : Cfg 2) (o : OState 2),
    Reachable regU S (exD mu) W ∧ W.objs[0]? = some (cfg, o) ∧ cfg.objs = [0] ∧ cfg.cons = [.usr 0] ∧
    ∃ w, (run regU S (exD mu) .minVolatility o W.heap).1 = .ok (some w) := by
  have h := Step.call (U := regU) (S := S) (D := exD mu) (W := newWorld (fun _ => 0) (fun _ => 1) (fun _ => 0))
    (j := 0) rfl (.addConstraint true (.ok 0))
  have h1 : Reachable regU S (exD mu) ⟨[(⟨fun _ => 0, fun _ => 1, [], [.usr 0]⟩,
      { (exO : OState 2) with cons := exO.cons ++ [regU.mkCon 0] })], (exW : World 2).heap⟩ :=
    .step (.new (fun _ => 0) (fun _ => 1) (fun _ => 0)) h
  obtain ⟨W, o, hW, hj, ho⟩ : ∃ (W : World 2) (o : OState 2), Reachable regU S (exD mu) W ∧
      W.objs[0]? = some (⟨fun _ => 0, fun _ => 1, [0], [.usr 0]⟩, o) ∧ o.opt = none :=
    ⟨_, _, Reachable.step h1 (Step.call (j := 0) rfl (.addObjective (.ok 0))), rfl, rfl⟩
  refine ⟨W, _, o, hW, hj, rfl, rfl, ?_⟩
  have hU : Usable regU (exD mu) :=
    { names := fun _ => by simp [regU, exU]
      scalar := fun _ => rfl
      cons := fun _ => ⟨nofun, nofun⟩
      mu := nofun
      tail := by rintro (h | h) <;> cases h }
  have hc : ∀ (w : Fin 2 → ℝ) usr upar, (regU.con 0).sat ⟨w, usr, upar⟩ ↔ w 0 ≤ 0.4 := by
    intro w usr upar
    refine ⟨fun h => EReal.coe_le_coe_iff.1 (h (0 : Fin 1)), fun h _ => EReal.coe_le_coe_iff.2 h⟩
  obtain ⟨w, -, -, e, -⟩ := (C85_outcome_partial (mn := false) hU (show (1 : Matrix (Fin 2) (Fin 2) ℝ).PosSemidef from PosSemidef.one)
    hS hW hj ho (c := .minVolatility) rfl ⟨rfl, rfl⟩ trivial trivial nofun
    (.inr ⟨fun _ => 0, fun _ => 1, fun _ => rfl, fun _ => rfl⟩)
    (fun i hi => ⟨{w | w 0 ≤ 0.4}, isClosed_le (continuous_apply 0) continuous_const, fun w usr => hc w usr _⟩)
    ⟨fun w => 2 * ∑ i, w i ^ 2, by fun_prop, fun w usr => by simp [regU]⟩).1
    ⟨![0.4, 0.6], fun _ => 0, ⟨(exWithin (n := 2)).2 fun i => by fin_cases i <;> norm_num, fun x hx => by
      rw [List.mem_singleton.1 hx]
      exact (hc _ _ _).2 (by norm_num), by norm_num [Fin.sum_univ_two]⟩, trivial⟩
  exact ⟨w, e⟩

/-! ### Requests that can be met but are refused -/

/-- Two assets that gained 1 percent on each of two days. -/
def gainD : Data 2 := { tD .cvar 0 with R := fun _ _ => 0.01 }

/-- **C85 is false of the code** for `EfficientCVaR.efficient_risk` with a negative target: in a history without losses
half of each asset has a conditional value at risk of -1 percent, and the target -0.5 percent is refused, without calling
the solver, because the parameter that holds the target must not be negative. -/
theorem C85_cvar_false {S : Solver 2} : ∃ (W : World 2) (cfg : Cfg 2) (o : OState 2),
    Reachable exU S gainD W ∧ W.objs[0]? = some (cfg, o) ∧ o.opt = none ∧
    Admissible exU cfg W.heap.upar false ![1 / 2, 1 / 2] (fun _ => 0) ∧
    Meets gainD (.efficientRisk (-0.005) false) ![1 / 2, 1 / 2] ∧
    ∃ e, (run exU S gainD (.efficientRisk (-0.005) false) o W.heap).1 = .error e ∧
      (run exU S gainD (.efficientRisk (-0.005) false) o W.heap).2.2.log = W.heap.log := by
  refine ⟨exW, exCfg, exO, exW_reachable, exW_get, exO_opt, half_adm, ?_, ?_⟩
  · show tailMean ((1 - 1 / 2) * (2 : ℕ)) (fun t => -daily gainD.R ![1 / 2, 1 / 2] t) ≤ -0.005
    have hd : ∀ t : Fin 2, -daily gainD.R ![1 / 2, 1 / 2] t = (-0.01 : ℝ) := by
      intro t
      simp only [daily, dotProduct, Fin.sum_univ_two, gainD]
      norm_num
    have := tailMean_le (T := 2) (q := (1 - 1 / 2) * (2 : ℕ)) (L := fun t => -daily gainD.R ![1 / 2, 1 / 2] t)
      (by norm_num) (by norm_num) (-0.01) (u := fun _ => 0) (fun _ => le_rfl) (fun t => by rw [hd]; norm_num)
    refine this.trans ?_
    norm_num
  · have hU : Usable exU gainD :=
      { names := fun _ => by simp [exU]
        scalar := fun _ => rfl
        cons := fun _ => ⟨nofun, nofun⟩
        mu := fun _ => rfl
        tail := fun _ => by norm_num [gainD, tD] }
    refine fresh_rejects hU (exW_good hU) exO_opt rfl ?_
    show ¬ (0 : ℝ) ≤ -0.005
    norm_num

/-- **C85 is false of the code** for `EfficientCDaR.efficient_return` with a negative target: every portfolio of the
example returns at least 5 percent, and asking for at least -1 percent is refused without calling the solver. -/
theorem C85_cdar_false {S : Solver 2} :
    (∀ w usr, Admissible exU exCfg (exW : World 2).heap.upar false w usr →
      Meets (tD .cdar 0) (.efficientReturn true (-0.01) false) w) ∧
    ∃ e, (run exU S (tD .cdar 0) (.efficientReturn true (-0.01) false) exO (exW : World 2).heap).1 = .error e ∧
      (run exU S (tD .cdar 0) (.efficientReturn true (-0.01) false) exO (exW : World 2).heap).2.2.log =
        (exW : World 2).heap.log := by
  refine ⟨fun w usr h mu hmu => ?_, ?_⟩
  · cases hmu
    obtain ⟨h1, h2⟩ := ex_adm.1 h
    have h3 := (h1 0).1
    have h4 := (h1 1).1
    rw [ret_two]
    show (-0.01 : ℝ) ≤ w 0 * 0.1 + w 1 * 0.05
    norm_num
    linarith
  · refine fresh_rejects (tD_usable _ _) (exW_good (tD_usable _ _)) exO_opt (by simp [pname]) ?_
    show ¬ (0 : ℝ) ≤ -0.01
    norm_num

/-- **C85 is false of the code** for `EfficientSemivariance.efficient_return`: with weights between -1 and 2, the portfolio
(2, -1) returns 15 percent, and asking for 12 percent is refused because no single asset returns as much. -/
theorem C85_semi_false {S : Solver 2} : ∃ (W : World 2) (cfg : Cfg 2) (o : OState 2),
    Reachable exU S (tD .semi 0) W ∧ W.objs[0]? = some (cfg, o) ∧ o.opt = none ∧
    Admissible exU cfg W.heap.upar false ![2, -1] (fun _ => 0) ∧
    Meets (tD .semi 0) (.efficientReturn true 0.12 false) ![2, -1] ∧
    run exU S (tD .semi 0) (.efficientReturn true 0.12 false) o W.heap = (.error .valueError, o, W.heap) := by
  refine ⟨newWorld (fun _ => ((-1 : ℝ) : EReal)) (fun _ => ((2 : ℝ) : EReal)) fun _ => 0, _, _, .new _ _ _, rfl, rfl,
    new_adm.2 ⟨fun i => ?_, ?_⟩, fun mu hmu => ?_, ?_⟩
  · fin_cases i <;> norm_num
  · norm_num [Fin.sum_univ_two]
  · cases hmu
    rw [ret_two]
    norm_num
  · refine badArg_run (.bigReturn (D := tD .semi 0) (mu := ![0.1, 0.05]) rfl rfl (fun i => ?_) true false) _ _
    fin_cases i <;> norm_num [abs_of_pos]

end Verif.Convex
