import Verif.Props.Solution
import Verif.Props.ConvexFindings

/-! Cases that meet the hypotheses of `Verif.Props.Solution`, and the effect of rounding. -/

noncomputable section

namespace Verif.Convex
open Verif.Py Verif.Base Matrix

theorem Exact.correct {n : ℕ} {S : Solver n} (hS : Exact S) (h h' : Heap n) : Correct S h h' :=
  fun k P _ _ => hS.right k P

variable {S : Solver 2}

/-- `min_volatility` on two uncorrelated assets. -/
example (hS : Exact S) (mu : Fin 2 → ℝ) : ∃ s usr, Rounded ![1 / 2, 1 / 2] s ∧
    Best exU exCfg (exW : World 2).heap.upar false (fun _ => True)
      (fun w => w ⬝ᵥ (1 : Matrix (Fin 2) (Fin 2) ℝ) *ᵥ w) s usr :=
  C42_min_volatility_partial (exU_usable mu) exW_reachable exW_get (ex_minvol hS mu) (hS.correct _ _)

/-- `max_quadratic_utility`, market neutral. -/
example (hS : Exact S) : ∃ mu s usr, (exD ![1, 1]).mu = some mu ∧ Rounded ![0, 0] s ∧
    Best exU exCfg (exW : World 2).heap.upar true (fun _ => True)
      (fun w => -(w ⬝ᵥ mu - 2 / 2 * (w ⬝ᵥ (1 : Matrix (Fin 2) (Fin 2) ℝ) *ᵥ w))) s usr :=
  C42_max_quadratic_utility_partial (exU_usable _) rfl exW_reachable exW_get (ex_neutral hS) (hS.correct _ _)

theorem exGlobal (mu : Fin 2 → ℝ) : globalMinVol (exD mu) = .fin (Real.sqrt (1 / 2)) := by
  have : (∑ i, ∑ j, (1 : Matrix (Fin 2) (Fin 2) ℝ) i j) = 2 := by
    simp [Matrix.one_apply]
  simp only [globalMinVol, exD, this]
  norm_num [Perf.fdiv, Perf.fsqrt]

/-- `efficient_risk` with target 1 puts everything into the asset with return 1. -/
theorem ex_risk (hS : Exact S) :
    ∃ w, (run exU S (exD ![1, 0]) (.efficientRisk 1 false) exO (exW : World 2).heap).1 = .ok (some w) := by
  have p : Passes exU S (exD ![1, 0]) exCfg (.efficientRisk 1 false) exW.heap
      (run exU S (exD ![1, 0]) (.efficientRisk 1 false) exO (exW : World 2).heap) :=
    (fresh_reaches (exU_usable _) (exW_good (exU_usable _)) exO_opt (c := .efficientRisk 1 false) ⟨fun _ => rfl, rfl⟩
      ⟨zero_le_one, by
        rw [exGlobal]
        show ¬ (1 : ℝ) < _
        rw [not_lt, Real.sqrt_le_left zero_le_one]
        norm_num⟩ nofun).1
  obtain ⟨s', e, -, -⟩ := p.exact hS (q := ⟨fun s => -(s.w ⬝ᵥ ![1, 0]), fun s => s.w ⬝ᵥ
      (1 : Matrix (Fin 2) (Fin 2) ℝ) *ᵥ s.w ≤ 1 ^ 2, false⟩) nofun rfl (s := ofW ![1, 0]) (v := -1) (by
    rw [ex_isOpt rfl]
    refine ⟨⟨fun i => ?_, ?_, ?_⟩, ?_, fun s hs _ _ => ?_⟩
    · fin_cases i <;> norm_num [ofW]
    · norm_num [ofW, Fin.sum_univ_two]
    · show (ofW ![1, 0]).w ⬝ᵥ _ *ᵥ _ ≤ _
      rw [variance_two]; norm_num [ofW]
    · show -((ofW ![1, 0]).w ⬝ᵥ _) = _
      rw [ret_two]; norm_num [ofW]
    · show _ ≤ -(s.w ⬝ᵥ _)
      rw [ret_two]
      have := (hs 0).2
      simp
      linarith)
  exact ⟨_, e⟩

example (hS : Exact S) : ∃ w mu s usr, (exD ![1, 0]).mu = some mu ∧ Rounded w s ∧
    Best exU exCfg (exW : World 2).heap.upar false (fun w => vol (1 : Matrix (Fin 2) (Fin 2) ℝ) w ≤ 1)
      (fun w => -(w ⬝ᵥ mu)) s usr := by
  obtain ⟨w, hw⟩ := ex_risk hS
  obtain ⟨mu, s, usr, h1, h2, -, h3, -⟩ := C42_efficient_risk_partial (exU_usable _) rfl exW_reachable exW_get hw
    (hS.correct _ _)
  exact ⟨w, mu, s, usr, h1, h2, h3⟩

/-- `efficient_return` with target -1/20 and returns 0 and -1/10. -/
example (hS : Exact S) : ∃ w mu s usr, (exD ![0, -0.1]).mu = some mu ∧ Rounded w s ∧
    Best exU exCfg (exW : World 2).heap.upar false (fun w => -0.05 ≤ w ⬝ᵥ mu)
      (fun w => w ⬝ᵥ (1 : Matrix (Fin 2) (Fin 2) ℝ) *ᵥ w) s usr := by
  obtain ⟨h₁, -, hu, r, -⟩ := exZero_first hS (exW_good (exU_usable _)) exO_opt (fun m hm => by cases hm)
    (t := -0.05) (by norm_num)
  obtain ⟨s₀, v₀, h₀⟩ := exZero_opt h₁ (t := -0.05) le_rfl (by norm_num)
  obtain ⟨s', e, -, -⟩ := r.1.exact hS (q := ⟨fun s => s.w ⬝ᵥ (1 : Matrix (Fin 2) (Fin 2) ℝ) *ᵥ s.w,
    fun s => -0.05 ≤ s.w ⬝ᵥ ![0, -0.1], false⟩) nofun rfl h₀
  obtain ⟨mu, s, usr, h1, h2, h3, -⟩ := C42_efficient_return_partial (exU_usable _) rfl exW_reachable exW_get e
    (hS.correct _ _)
  exact ⟨_, mu, s, usr, h1, h2, h3⟩

/-- **C42 is false of the code** as far as the sum is concerned: rounding to 16 decimals can make the returned
weights sum to 0.9999999999999999.  Three uncorrelated assets, `min_volatility`. -/
theorem C42_rounding_false {S : Solver 3} (hS : Exact S) (mu : Fin 3 → ℝ) :
    ∃ w, (run exU S (exD mu) .minVolatility exO (exW : World 3).heap).1 = .ok (some w) ∧
      ∑ i, w i = 0.9999999999999999 := by
  have p : Passes exU S (exD mu) exCfg .minVolatility exW.heap
      (run exU S (exD mu) .minVolatility exO (exW : World 3).heap) :=
    (fresh_reaches (exU_usable mu) (exW_good (exU_usable mu)) exO_opt (c := .minVolatility) ⟨rfl, rfl⟩ trivial nofun).1
  have hv : ∀ w : Fin 3 → ℝ, w ⬝ᵥ (1 : Matrix (Fin 3) (Fin 3) ℝ) *ᵥ w = w 0 ^ 2 + w 1 ^ 2 + w 2 ^ 2 := by
    intro w
    rw [one_mulVec, dotProduct, Fin.sum_univ_three]; ring
  obtain ⟨s', e, hs, -⟩ := p.exact hS (q := ⟨fun s => s.w ⬝ᵥ (1 : Matrix (Fin 3) (Fin 3) ℝ) *ᵥ s.w, fun _ => True,
    false⟩) nofun rfl (s := ofW fun _ => 1 / 3) (v := 1 / 3) (by
      rw [ex_isOpt rfl]
      refine ⟨⟨fun i => ?_, ?_, trivial⟩, ?_, fun s _ k2 _ => ?_⟩
      · norm_num [ofW]
      · norm_num [ofW, Fin.sum_univ_three]
      · show (ofW fun _ => 1 / 3).w ⬝ᵥ _ *ᵥ _ = _
        rw [hv]; norm_num [ofW]
      · show _ ≤ s.w ⬝ᵥ (1 : Matrix (Fin 3) (Fin 3) ℝ) *ᵥ s.w
        rw [hv]
        rw [Fin.sum_univ_three] at k2
        have : s.w 2 = 1 - s.w 0 - s.w 1 := by linarith
        rw [this]
        nlinarith [sq_nonneg (s.w 0 - s.w 1), sq_nonneg (3 * (s.w 0 + s.w 1) - 2)])
  obtain ⟨⟨-, h2, -⟩, h3, -⟩ := (ex_isOpt rfl).1 hs
  have h3 : s'.w ⬝ᵥ (1 : Matrix (Fin 3) (Fin 3) ℝ) *ᵥ s'.w = 1 / 3 := h3
  rw [hv] at h3
  rw [Fin.sum_univ_three] at h2
  have hz : (s'.w 0 - 1 / 3) ^ 2 + (s'.w 1 - 1 / 3) ^ 2 + (s'.w 2 - 1 / 3) ^ 2 = 0 := by nlinarith
  have h0 : s'.w 0 = 1 / 3 := by
    have : (s'.w 0 - 1 / 3) ^ 2 = 0 := by nlinarith [sq_nonneg (s'.w 0 - 1 / 3), sq_nonneg (s'.w 1 - 1 / 3), sq_nonneg (s'.w 2 - 1 / 3)]
    linarith [pow_eq_zero_iff two_ne_zero |>.1 this]
  have h1 : s'.w 1 = 1 / 3 := by
    have : (s'.w 1 - 1 / 3) ^ 2 = 0 := by nlinarith [sq_nonneg (s'.w 0 - 1 / 3), sq_nonneg (s'.w 1 - 1 / 3), sq_nonneg (s'.w 2 - 1 / 3)]
    linarith [pow_eq_zero_iff two_ne_zero |>.1 this]
  have h2' : s'.w 2 = 1 / 3 := by linarith
  refine ⟨_, e, ?_⟩
  have r : npRound 16 (1 / 3 : ℝ) = 3333333333333333 / 10 ^ 16 := by
    have hf : ⌊(1 / 3 * 10 ^ 16 : ℝ)⌋ = 3333333333333333 := by
      rw [Int.floor_eq_iff]; norm_num
    have : Discrete.rint (1 / 3 * 10 ^ 16 : ℝ) = 3333333333333333 := by
      rcases Discrete.rint_cases (1 / 3 * 10 ^ 16 : ℝ) with h | h
      · rw [h.1, hf]
      · rw [hf] at h
        norm_num at h
    unfold npRound
    rw [this]
    norm_num
  rw [Fin.sum_univ_three]
  show npRound 16 (s'.w 0) + npRound 16 (s'.w 1) + npRound 16 (s'.w 2) = _
  rw [h0, h1, h2', r]
  norm_num

end Verif.Convex
