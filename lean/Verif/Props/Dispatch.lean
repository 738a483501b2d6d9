import Verif.Model.Risk

/-! Property theorem C52: method selectors. -/

set_option linter.unusedSectionVars false

namespace Verif.Risk
open Verif.Py Verif.Frames Verif.Returns

variable {ι κ : Type}

/-- The estimator that each documented name of `risk_matrix` stands for. -/
noncomputable def riskTable (E : Eigh) (K : Sklearn) (prices : Frame ι κ) (rd : Bool) (freq : ℝ)
    (log : Bool) (benchmark span : ℝ) (fix : String) :
    List (String × Except PyErr (CovFrame κ)) :=
  let X := shrinkX rd log prices
  [("sample_cov", sampleCovariance E prices rd freq log fix),
   ("semicovariance", semicovariance E prices rd benchmark freq log fix),
   ("semivariance", semicovariance E prices rd benchmark freq log fix),
   ("exp_cov", expCovariance E prices rd span freq log fix),
   ("ledoit_wolf", (ledoitWolf E K X freq "constant_variance").map Prod.fst),
   ("ledoit_wolf_constant_variance", (ledoitWolf E K X freq "constant_variance").map Prod.fst),
   ("ledoit_wolf_single_factor", (ledoitWolf E K X freq "single_factor").map Prod.fst),
   ("ledoit_wolf_constant_correlation", (ledoitWolf E K X freq "constant_correlation").map Prod.fst),
   ("oracle_approximating", (oracleApproximating E K X freq).map Prod.fst)]

/-- The names of the shrinkage methods, which accept fewer keywords. -/
def shrinkageNames : List String :=
  ["ledoit_wolf", "ledoit_wolf_constant_variance", "ledoit_wolf_single_factor",
    "ledoit_wolf_constant_correlation", "oracle_approximating"]

/-- C52 for `risk_matrix`: every documented name runs the estimator it names with the keywords given
(defaults otherwise), a keyword the shrinkage constructor lacks is a TypeError, and every other
string is a NotImplementedError. -/
theorem C52_risk_matrix (E : Eigh) (K : Sklearn) (prices : Frame ι κ) (kw : Kwargs) :
    (∀ e ∈ riskTable E K prices (kw.returnsData.getD false) (kw.frequency.getD 252)
        (kw.logReturns.getD false) (kw.benchmark.getD 0.000079) (kw.span.getD 180)
        (kw.fixMethod.getD "spectral"),
      (e.1 ∉ shrinkageNames ∨ (kw.span = none ∧ kw.benchmark = none ∧ kw.fixMethod = none) →
        riskMatrix E K prices e.1 kw = e.2) ∧
      (e.1 ∈ shrinkageNames → (kw.span ≠ none ∨ kw.benchmark ≠ none ∨ kw.fixMethod ≠ none) →
        riskMatrix E K prices e.1 kw = .error .typeError)) ∧
    ∀ method, (∀ e ∈ riskTable E K prices false 252 false 0 180 "spectral", method ≠ e.1) →
      riskMatrix E K prices method kw = .error .notImplemented := by
  constructor
  · intro e he
    simp only [riskTable, List.mem_cons, List.not_mem_nil, or_false] at he
    have hsome : ∀ {α : Type} (o : Option α), o ≠ none ↔ o.isSome = true := by
      intro α o; cases o <;> simp
    rcases he with rfl | rfl | rfl | rfl | rfl | rfl | rfl | rfl | rfl
    · exact ⟨fun _ => rfl, fun h => absurd h (by simp [shrinkageNames])⟩
    · exact ⟨fun _ => rfl, fun h => absurd h (by simp [shrinkageNames])⟩
    · exact ⟨fun _ => rfl, fun h => absurd h (by simp [shrinkageNames])⟩
    · exact ⟨fun _ => rfl, fun h => absurd h (by simp [shrinkageNames])⟩
    all_goals
    · refine ⟨fun h => ?_, fun _ h => ?_⟩
      · obtain ⟨h1, h2, h3⟩ := h.resolve_left (by simp [shrinkageNames])
        simp only [riskMatrix, newShrinkage, h1, h2, h3]
        simp only [Option.isSome_none, Bool.false_eq_true, or_self, if_false]
        rfl
      · simp only [hsome] at h
        simp only [riskMatrix, newShrinkage, h]
        rfl
  · intro method h
    simp only [riskTable, List.mem_cons, List.not_mem_nil, or_false, forall_eq_or_imp, forall_eq] at h
    obtain ⟨h1, h2, h3, h4, h5, h6, h7, h8, h9⟩ := h
    unfold riskMatrix
    simp [h1, h2, h3, h4, h5, h6, h7, h8, h9]

end Verif.Risk

namespace Verif.Returns
open Verif.Py Verif.Frames

variable {ι κ : Type} [DecidableEq ι] [DecidableEq κ]

/-- C52 for `return_model`. -/
theorem C52_return_model (mkt : κ) (h : Heap ι κ) (prices : ℕ) (kw : ReturnKwargs) :
    (kw.span = none → kw.marketPrices = none → kw.riskFreeRate = none →
      returnModel mkt h prices "mean_historical_return" kw =
        let r := meanHistorical h prices (kw.returnsData.getD false) (kw.compounding.getD true)
          (kw.frequency.getD 252) (kw.logReturns.getD false)
        (r.1, .ok r.2)) ∧
    (kw.marketPrices = none → kw.riskFreeRate = none →
      returnModel mkt h prices "ema_historical_return" kw =
        emaHistorical h prices (kw.returnsData.getD false) (kw.compounding.getD true)
          (kw.span.getD 500) (kw.frequency.getD 252) (kw.logReturns.getD false)) ∧
    (kw.span = none →
      returnModel mkt h prices "capm_return" kw =
        capm mkt h prices kw.marketPrices (kw.returnsData.getD false) (kw.riskFreeRate.getD 0)
          (kw.compounding.getD true) (kw.frequency.getD 252) (kw.logReturns.getD false)) ∧
    (∀ method, method ∉ ["mean_historical_return", "ema_historical_return", "capm_return"] →
      returnModel mkt h prices method kw = (h, .error .notImplemented)) ∧
    ((kw.span ≠ none ∨ kw.marketPrices ≠ none ∨ kw.riskFreeRate ≠ none) →
      returnModel mkt h prices "mean_historical_return" kw = (h, .error .typeError)) ∧
    ((kw.marketPrices ≠ none ∨ kw.riskFreeRate ≠ none) →
      returnModel mkt h prices "ema_historical_return" kw = (h, .error .typeError)) ∧
    (kw.span ≠ none → returnModel mkt h prices "capm_return" kw = (h, .error .typeError)) := by
  have hsome : ∀ {α : Type} (o : Option α), o ≠ none ↔ o.isSome = true := by
    intro α o; cases o <;> simp
  refine ⟨?_, ?_, ?_, ?_, ?_, ?_, ?_⟩
  · intro h1 h2 h3
    simp [returnModel, h1, h2, h3]
  · intro h1 h2
    simp [returnModel, h1, h2]
  · intro h1
    simp [returnModel, h1]
  · intro method hm
    simp only [List.mem_cons, List.not_mem_nil, or_false, not_or] at hm
    simp [returnModel, hm.1, hm.2.1, hm.2.2]
  · intro h1
    simp only [hsome] at h1
    simp [returnModel, h1]
  · intro h1
    simp only [hsome] at h1
    simp [returnModel, h1]
  · intro h1
    simp only [hsome] at h1
    simp [returnModel, h1]

/-- Each kind of keyword set occurs: none at all, and one with a span. -/
example : ({} : ReturnKwargs).span = none ∧ ({} : ReturnKwargs).riskFreeRate = none ∧
    ({ span := some 30 } : ReturnKwargs).span ≠ none := by simp

/-- The default risk-free rate of `capm_return` is zero, and an explicit one is passed on. -/
example (mkt : κ) (h : Heap ι κ) (prices : ℕ) :
    returnModel mkt h prices "capm_return" {} =
      capm mkt h prices none false 0 true 252 false ∧
    returnModel mkt h prices "capm_return" { riskFreeRate := some 3 } =
      capm mkt h prices none false 3 true 252 false := by
  constructor <;> rw [(C52_return_model mkt h prices _).2.2.1 rfl] <;> rfl

end Verif.Returns
