import Verif.Spec.Shrink
import Verif.Props.Shrink

/-! Property theorems C37: the shrinkage intensity, and the returns it is computed from. -/

set_option linter.unusedSectionVars false

namespace Verif.Risk
open scoped Matrix
open Verif.Py Verif.Frames Verif.Returns

variable {ι κ : Type} {t n : ℕ}

theorem meanOf_add (a b : Fin t → ℝ) : meanOf (fun s => a s + b s) = meanOf a + meanOf b := by
  simp [meanOf, Finset.sum_add_distrib, add_div]

theorem meanOf_sub (a b : Fin t → ℝ) : meanOf (fun s => a s - b s) = meanOf a - meanOf b := by
  simp [meanOf, Finset.sum_sub_distrib, sub_div]

theorem meanOf_mul (c : ℝ) (a : Fin t → ℝ) : meanOf (fun s => c * a s) = c * meanOf a := by
  simp [meanOf, ← Finset.mul_sum, mul_div_assoc]

theorem meanOf_const (ht : t ≠ 0) (c : ℝ) : meanOf (fun _ : Fin t => c) = c := by
  have h : (t : ℝ) ≠ 0 := Nat.cast_ne_zero.2 ht
  simp [meanOf, mul_div_cancel_left₀ _ h]

theorem offSum_eq (f : Fin n → Fin n → ℝ) : offSum f = (∑ i, ∑ j, f i j) - ∑ i, f i i := by
  unfold offSum
  rw [← Finset.sum_sub_distrib]
  refine Finset.sum_congr rfl fun i _ => ?_
  rw [← Finset.sum_erase_add _ _ (Finset.mem_univ i)]
  ring

theorem offSum_swap (f : Fin n → Fin n → ℝ) : offSum (fun i j => f j i) = offSum f := by
  rw [offSum_eq, offSum_eq, Finset.sum_comm]

theorem offSum_add (f g : Fin n → Fin n → ℝ) :
    offSum (fun i j => f i j + g i j) = offSum f + offSum g := by
  simp [offSum, Finset.sum_add_distrib]

theorem offSum_congr {f g : Fin n → Fin n → ℝ} (h : ∀ i j, i ≠ j → f i j = g i j) :
    offSum f = offSum g := by
  unfold offSum
  refine Finset.sum_congr rfl fun i _ => Finset.sum_congr rfl fun j hj => h i j ?_
  exact (Finset.ne_of_mem_erase hj).symm

theorem offSum_mul (c : ℝ) (f : Fin n → Fin n → ℝ) : offSum (fun i j => c * f i j) = c * offSum f := by
  simp only [offSum, Finset.mul_sum]

/-- `π` expands into the moments the code computes. -/
theorem lwPi_eq (X : Matrix (Fin t) (Fin n) ℝ) (S : Matrix (Fin n) (Fin n) ℝ) (ht : t ≠ 0) (i j : Fin n) :
    lwPi X S i j = meanOf (fun s => dev (series X i) s ^ 2 * dev (series X j) s ^ 2) -
      2 * S i j * meanOf (fun s => dev (series X i) s * dev (series X j) s) + S i j ^ 2 := by
  unfold lwPi
  have : (fun s => (dev (series X i) s * dev (series X j) s - S i j) ^ 2) =
      fun s => (dev (series X i) s ^ 2 * dev (series X j) s ^ 2 -
        2 * S i j * (dev (series X i) s * dev (series X j) s)) + S i j ^ 2 := by
    funext s; ring
  rw [this, meanOf_add, meanOf_sub, meanOf_mul, meanOf_const ht]

theorem lwTheta_eq (X : Matrix (Fin t) (Fin n) ℝ) (S : Matrix (Fin n) (Fin n) ℝ) (ht : t ≠ 0) (i j : Fin n) :
    lwTheta X S i j = meanOf (fun s => dev (series X i) s ^ 3 * dev (series X j) s) -
      S i j * meanOf (fun s => dev (series X i) s * dev (series X i) s) -
      S i i * meanOf (fun s => dev (series X i) s * dev (series X j) s) + S i i * S i j := by
  unfold lwTheta
  have : (fun s => (dev (series X i) s ^ 2 - S i i) * (dev (series X i) s * dev (series X j) s - S i j)) =
      fun s => ((dev (series X i) s ^ 3 * dev (series X j) s -
        S i j * (dev (series X i) s * dev (series X i) s)) -
        S i i * (dev (series X i) s * dev (series X j) s)) + S i i * S i j := by
    funext s; ring
  rw [this, meanOf_add, meanOf_sub, meanOf_sub, meanOf_mul, meanOf_mul, meanOf_const ht]

theorem popCov_comm (a b : Fin t → ℝ) : popCov a b = popCov b a := by
  unfold popCov
  congr 1
  exact Finset.sum_congr rfl fun s _ => mul_comm _ _

theorem popCov_dev (a b : Fin t → ℝ) : popCov a b = meanOf (fun s => dev a s * dev b s) := rfl

theorem lwRhoFactor_eq (X : Matrix (Fin t) (Fin n) ℝ) (hv : popCov (market X) (market X) ≠ 0)
    (i j : Fin n) :
    lwRhoFactor X i j =
      popCov (series X j) (market X) / popCov (market X) (market X) *
        meanOf (fun s => dev (series X i) s ^ 2 * (dev (series X j) s * dev (market X) s)) +
      popCov (series X i) (market X) / popCov (market X) (market X) *
        meanOf (fun s => dev (series X j) s ^ 2 * (dev (series X i) s * dev (market X) s)) -
      popCov (series X i) (market X) * popCov (series X j) (market X) / popCov (market X) (market X) ^ 2 *
        meanOf (fun s => dev (series X i) s * dev (market X) s * (dev (series X j) s * dev (market X) s)) -
      lwFactor X i j * popCov (series X i) (series X j) := by
  rw [← meanOf_mul, ← meanOf_mul, ← meanOf_mul, ← meanOf_add, ← meanOf_sub]
  change meanOf _ - _ = meanOf _ - _
  congr 2
  funext s
  field_simp

theorem clampDelta_fin (t : ℕ) (k : ℝ) : clampDelta t (.fin k) = max 0 (min 1 (k / t)) := by
  show max 0 (if k / t < 1 then k / t else 1) = _
  congr 1
  split
  · rename_i h; exact (min_eq_right h.le).symm
  · rename_i h; exact (min_eq_left (not_lt.1 h)).symm

theorem sfR_eq (X : Matrix (Fin t) (Fin n) ℝ) (ht : 2 ≤ t) (hv : popCov (market X) (market X) ≠ 0) :
    sfR X = (∑ i, lwPi X (Matrix.of fun i j => popCov (series X i) (series X j)) i i) +
      offSum (lwRhoFactor X) := by
  have h0 : t ≠ 0 := by omega
  have hdiag : sfRdiag X = ∑ i, lwPi X (Matrix.of fun i j => popCov (series X i) (series X j)) i i := by
    unfold sfRdiag
    rw [Finset.sum_comm, Finset.mul_sum, ← Finset.sum_sub_distrib]
    refine Finset.sum_congr rfl fun i _ => ?_
    rw [lwPi_eq X _ h0, sfSample_apply X ht]
    simp only [Matrix.of_apply]
    rw [← popCov_dev]
    have : 1 / (t : ℝ) * ∑ s, (demean X s i ^ 2) ^ 2 =
        meanOf (fun s => dev (series X i) s ^ 2 * dev (series X i) s ^ 2) := by
      unfold meanOf
      rw [one_div, inv_mul_eq_div]
      congr 1
      refine Finset.sum_congr rfl fun s _ => ?_
      rw [demean_apply]
      simp only [dev, series]
      ring
    rw [this]
    ring
  have hv1 : ∀ i j, sfV1 X i j =
      meanOf (fun s => dev (series X i) s ^ 2 * (dev (series X j) s * dev (market X) s)) -
        popCov (series X i) (market X) * popCov (series X i) (series X j) := by
    intro i j
    unfold sfV1
    rw [sfBeta_apply X ht, sfSample_apply X ht, one_div, inv_mul_eq_div]
    simp only [mktRow_apply, demean_apply]
    rfl
  have hv3 : ∀ i j, sfV3 X i j =
      meanOf (fun s => dev (series X i) s * dev (market X) s * (dev (series X j) s * dev (market X) s)) -
        popCov (market X) (market X) * popCov (series X i) (series X j) := by
    intro i j
    unfold sfV3
    rw [sfVar_apply X ht, sfSample_apply X ht, one_div, inv_mul_eq_div]
    simp only [mktRow_apply, demean_apply]
    rfl
  have h1 : sfRoff1 X = offSum (fun i j => sfV1 X i j * sfBeta X j / sfVar X) := by
    unfold sfRoff1
    rw [offSum_eq]
    simp only [Finset.sum_div]
  have h3 : sfRoff3 X = offSum (fun i j => sfV3 X i j * (sfBeta X i * sfBeta X j) / sfVar X ^ 2) := by
    unfold sfRoff3
    rw [offSum_eq]
    simp only [Finset.sum_div, pow_two]
  have key : 2 * sfRoff1 X = sfRoff3 X + offSum (lwRhoFactor X) := by
    rw [two_mul, h3, ← offSum_add, h1]
    have e : offSum (fun i j => sfV1 X i j * sfBeta X j / sfVar X) +
        offSum (fun i j => sfV1 X i j * sfBeta X j / sfVar X) =
        offSum (fun i j => sfV1 X i j * sfBeta X j / sfVar X + sfV1 X j i * sfBeta X i / sfVar X) := by
      rw [offSum_add, offSum_swap (fun i j => sfV1 X i j * sfBeta X j / sfVar X)]
    rw [e]
    refine offSum_congr fun i j _ => ?_
    rw [lwRhoFactor_eq X hv, hv1, hv1, hv3, sfBeta_apply X ht, sfBeta_apply X ht, sfVar_apply X ht,
      lwFactor, popCov_comm (series X j) (series X i)]
    field_simp
    ring
  unfold sfR
  rw [hdiag, key]
  ring

theorem sfP_eq (X : Matrix (Fin t) (Fin n) ℝ) (ht : 2 ≤ t) :
    sfP X = ∑ i, ∑ j, lwPi X (Matrix.of fun i j => popCov (series X i) (series X j)) i j := by
  have h0 : t ≠ 0 := by omega
  unfold sfP
  rw [Finset.mul_sum, ← Finset.sum_sub_distrib]
  refine Finset.sum_congr rfl fun i _ => ?_
  rw [Finset.mul_sum, ← Finset.sum_sub_distrib]
  refine Finset.sum_congr rfl fun j _ => ?_
  rw [lwPi_eq X _ h0, sfSample_apply X ht]
  simp only [Matrix.of_apply]
  rw [← popCov_dev, one_div, inv_mul_eq_div]
  change meanOf (fun s => dev (series X i) s ^ 2 * dev (series X j) s ^ 2) - _ = _
  ring

theorem fdiv_fin {a b : ℝ} (h : b ≠ 0) : Perf.fdiv a (.fin b) = .fin (a / b) := by
  simp [Perf.fdiv, h]

/-- **C37 (single-factor intensity).**  Whenever target and sample differ, the intensity is that of
Ledoit and Wolf (2003). -/
theorem C37_single_factor_intensity (E : Eigh) (K : Sklearn) (X : Frame ι κ) (freq : ℝ)
    (ht : 2 ≤ X.rows.length) (hv : popCov (market (filled X)) (market (filled X)) ≠ 0)
    (hg : offSum (fun i j => (lwFactor (filled X) i j -
      popCov (series (filled X) i) (series (filled X) j)) ^ 2) ≠ 0)
    {V : CovFrame κ} {d : ℝ} (h : ledoitWolf E K X freq "single_factor" = .ok (V, d)) :
    d = lwIntensity X.rows.length
      (∑ i, ∑ j, lwPi (filled X)
        (Matrix.of fun i j => popCov (series (filled X) i) (series (filled X) j)) i j)
      ((∑ i, lwPi (filled X)
        (Matrix.of fun i j => popCov (series (filled X) i) (series (filled X) j)) i i) +
        offSum (lwRhoFactor (filled X)))
      (offSum (fun i j => (lwFactor (filled X) i j -
        popCov (series (filled X) i) (series (filled X) j)) ^ 2)) := by
  set A := filled X with hA
  have hd : d = (singleFactor (numX X)).2 := by
    unfold ledoitWolf at h
    rw [if_neg (by decide), if_pos rfl] at h
    simp only at h
    cases ha : annualize E X.cols freq (singleFactor (numX X)).1 with
    | error e => rw [ha] at h; cases h
    | ok c =>
      rw [ha] at h
      cases h
      rfl
  rw [hd, numX_eq, ← hA]
  unfold singleFactor
  rw [if_neg (by omega)]
  have hgam : (∑ i, ∑ j, (sfSample A i j - sfTarget A i j) ^ 2) =
      offSum (fun i j => (lwFactor A i j - popCov (series A i) (series A j)) ^ 2) := by
    have h1 : offSum (fun i j => (lwFactor A i j - popCov (series A i) (series A j)) ^ 2) =
        offSum (fun i j => (sfSample A i j - sfTarget A i j) ^ 2) := by
      refine offSum_congr fun i j hij => ?_
      simp only [sfTarget, Matrix.of_apply, if_neg hij]
      rw [sfSample_apply A ht, sfBeta_apply A ht, sfBeta_apply A ht, sfVar_apply A ht, lwFactor]
      ring
    rw [h1, offSum_eq]
    have h2 : ∀ i, (sfSample A i i - sfTarget A i i) ^ 2 = 0 := by
      intro i
      simp [sfTarget]
    simp [h2]
  have hvar : sfVar A ≠ 0 := by rw [sfVar_apply A ht]; exact hv
  unfold sfDelta
  rw [if_neg hvar, hgam, fdiv_fin hg, clampDelta_fin, sfP_eq A ht, sfR_eq A ht hv]
  rfl

theorem ccPi_eq (X : Matrix (Fin t) (Fin n) ℝ) (S : Matrix (Fin n) (Fin n) ℝ) (ht : t ≠ 0) (i j : Fin n) :
    ccPi X S i j = lwPi X S i j := by
  rw [lwPi_eq X S ht]
  unfold ccPi meanOf
  simp only [demean_apply]
  change (∑ s, dev (series X i) s ^ 2 * dev (series X j) s ^ 2) / t -
    2 * (∑ s, dev (series X i) s * dev (series X j) s) * S i j / t + S i j ^ 2 = _
  ring

theorem ccTheta_eq (X : Matrix (Fin t) (Fin n) ℝ) (S : Matrix (Fin n) (Fin n) ℝ) (ht : t ≠ 0)
    {i j : Fin n} (h : i ≠ j) : ccTheta X S i j = lwTheta X S i j := by
  rw [lwTheta_eq X S ht]
  unfold ccTheta meanOf
  rw [if_neg h]
  simp only [demean_apply]
  change (∑ s, dev (series X i) s ^ 3 * dev (series X j) s) / t -
    (∑ s, dev (series X i) s * dev (series X i) s) / t * S i j -
    (∑ s, dev (series X i) s * dev (series X j) s) / t * S i i + S i i * S i j = _
  ring

theorem ccRho_eq (X : Matrix (Fin t) (Fin n) ℝ) (S : Matrix (Fin n) (Fin n) ℝ) (ht : t ≠ 0)
    (hd : ∀ i, 0 < S i i) :
    ccRho X S = (∑ i, lwPi X S i i) + offSum (lwRhoCorr X S) := by
  unfold ccRho
  rw [ccRbar_eq S hd]
  congr 1
  · exact Finset.sum_congr rfl fun i _ => ccPi_eq X S ht i i
  have h1 : (∑ i, ∑ j, 1 / ccStd S i * ccStd S j * ccTheta X S i j) =
      offSum (fun i j => Real.sqrt (S j j) / Real.sqrt (S i i) * lwTheta X S i j) := by
    have : offSum (fun i j => Real.sqrt (S j j) / Real.sqrt (S i i) * lwTheta X S i j) =
        offSum (fun i j => 1 / ccStd S i * ccStd S j * ccTheta X S i j) := by
      refine offSum_congr fun i j hij => ?_
      rw [ccTheta_eq X S ht hij]
      unfold ccStd
      ring
    rw [this, offSum_eq]
    simp [ccTheta]
  rw [h1]
  have h2 : offSum (lwRhoCorr X S) = meanCorrelation S / 2 *
      (offSum (fun i j => Real.sqrt (S j j) / Real.sqrt (S i i) * lwTheta X S i j) +
        offSum (fun i j => Real.sqrt (S i i) / Real.sqrt (S j j) * lwTheta X S j i)) := by
    rw [← offSum_add, ← offSum_mul]
    rfl
  rw [h2, offSum_swap (fun i j => Real.sqrt (S j j) / Real.sqrt (S i i) * lwTheta X S i j)]
  ring

/-- **C37 (constant-correlation intensity).**  Whenever target and sample differ, the intensity is
that of Ledoit and Wolf (2004). -/
theorem C37_constant_correlation_intensity (E : Eigh) (K : Sklearn) (X : Frame ι κ) (freq : ℝ)
    (S : Matrix (Fin X.cols.length) (Fin X.cols.length) ℝ)
    (hcov : ∀ i j : Fin X.cols.length, covPair (X.col i) (X.col j) = some (S i j))
    (hd : ∀ i, 0 < S i i) (hn : 2 ≤ X.cols.length) (ht : X.rows ≠ [])
    (hg : offSum (fun i j => (meanCorrelation S * (Real.sqrt (S i i) * Real.sqrt (S j j)) - S i j) ^ 2) ≠ 0)
    {V : CovFrame κ} {d : ℝ} (h : ledoitWolf E K X freq "constant_correlation" = .ok (V, d)) :
    d = lwIntensity X.rows.length (∑ i, ∑ j, lwPi (filled X) S i j)
      ((∑ i, lwPi (filled X) S i i) + offSum (lwRhoCorr (filled X) S))
      (offSum (fun i j => (meanCorrelation S * (Real.sqrt (S i i) * Real.sqrt (S j j)) - S i j) ^ 2)) := by
  have h0 : X.rows.length ≠ 0 := fun e => ht (List.length_eq_zero_iff.1 e)
  have hS : allSome (shrinkS X) = some S := by
    have : shrinkS X = fun i j => some (S i j) := by
      funext i j; exact hcov i j
    rw [this, allSome_some]
  have hdd : d = (constantCorrelation (numX X) S).2 := by
    unfold ledoitWolf at h
    rw [if_neg (by decide), if_neg (by decide), if_pos rfl, hS] at h
    simp only at h
    cases ha : annualize E X.cols freq (constantCorrelation (numX X) S).1 with
    | error e => rw [ha] at h; cases h
    | ok c =>
      rw [ha] at h
      cases h
      rfl
  have hdef : ccDefined S = true := by
    unfold ccDefined
    exact decide_eq_true ⟨hn, hd⟩
  have hgam : (∑ i, ∑ j, (S i j - ccTarget S i j) ^ 2) =
      offSum (fun i j => (meanCorrelation S * (Real.sqrt (S i i) * Real.sqrt (S j j)) - S i j) ^ 2) := by
    have h1 : offSum (fun i j =>
        (meanCorrelation S * (Real.sqrt (S i i) * Real.sqrt (S j j)) - S i j) ^ 2) =
        offSum (fun i j => (S i j - ccTarget S i j) ^ 2) := by
      refine offSum_congr fun i j hij => ?_
      simp only [ccTarget, Matrix.of_apply, if_neg hij, ccRbar_eq S hd, ccStd]
      ring
    rw [h1, offSum_eq]
    have h2 : ∀ i, (S i i - ccTarget S i i) ^ 2 = 0 := by
      intro i
      simp [ccTarget]
    simp [h2]
  rw [hdd, numX_eq]
  show ccDelta (filled X) S = _
  unfold ccDelta
  rw [if_pos hdef, hgam, fdiv_fin hg, clampDelta_fin, ccRho_eq _ S h0 hd]
  simp only [ccPi_eq _ S h0]
  rfl

/-- **C37 (days without any return).**  Rows of the returns in which nothing is present have no influence
on any shrinkage estimate. -/
theorem C37_empty_rows (E : Eigh) (K : Sklearn) (log : Bool) (freq delta : ℝ) (target : String)
    (cols : List κ) (a b : List (ι × List Cell)) (e : ι × List Cell) (he : ∀ c ∈ e.2, c = none) :
    ledoitWolf E K (shrinkX true log ⟨cols, a ++ e :: b⟩) freq target =
        ledoitWolf E K (shrinkX true log ⟨cols, a ++ b⟩) freq target ∧
      manualShrink E (shrinkX true log ⟨cols, a ++ e :: b⟩) freq delta =
        manualShrink E (shrinkX true log ⟨cols, a ++ b⟩) freq delta ∧
      oracleApproximating E K (shrinkX true log ⟨cols, a ++ e :: b⟩) freq =
        oracleApproximating E K (shrinkX true log ⟨cols, a ++ b⟩) freq := by
  have h : shrinkX true log (⟨cols, a ++ e :: b⟩ : Frame ι κ) = shrinkX true log ⟨cols, a ++ b⟩ := by
    have hn : e.2.any (fun c => c.isSome) = false := by
      rw [List.any_eq_false]
      intro c hc
      simp [he c hc]
    simp [shrinkX, returnsIn, Frame.dropnaAll, List.filter_append, hn]
  rw [h]
  exact ⟨rfl, rfl, rfl⟩

/-- Two uncorrelated assets. -/
noncomputable def cross : Frame ℕ String :=
  full ["A", "B"] [(0, [1, 0]), (1, [-1, 0]), (2, [0, 1]), (3, [0, -1])]

theorem cross_filled : filled cross = (!![1, 0; -1, 0; 0, 1; 0, -1] : Matrix (Fin 4) (Fin 2) ℝ) := by
  refine Matrix.ext fun s j => ?_
  change Fin 4 at s
  change Fin 2 at j
  fin_cases s <;> fin_cases j <;> rfl

theorem cross_market : popCov (market (filled cross)) (market (filled cross)) = 1 / 4 := by
  rw [cross_filled]
  change popCov (t := 4) (market (n := 2) _) (market (n := 2) _) = _
  norm_num [popCov, market, meanOf, Fin.sum_univ_succ]

theorem cross_gamma' (M : Matrix (Fin 4) (Fin 2) ℝ) (hM : M = !![1, 0; -1, 0; 0, 1; 0, -1]) :
    offSum (fun i j => (lwFactor M i j - popCov (series M i) (series M j)) ^ 2) ≠ 0 := by
  subst hM
  rw [offSum_eq]
  simp only [Fin.sum_univ_two, lwFactor]
  norm_num [popCov, market, meanOf, series, Fin.sum_univ_succ]

theorem cross_gamma : offSum (fun i j => (lwFactor (filled cross) i j -
    popCov (series (filled cross) i) (series (filled cross) j)) ^ 2) ≠ 0 :=
  cross_gamma' _ cross_filled

/-- The hypotheses of `C37_single_factor_intensity` are met. -/
example (E : Eigh) (K : Sklearn) : ∃ (V : CovFrame String) (d : ℝ),
    ledoitWolf E K cross 252 "single_factor" = .ok (V, d) ∧ ∃ p r g, d = lwIntensity 4 p r g := by
  have hv : popCov (market (filled cross)) (market (filled cross)) ≠ 0 := by
    rw [cross_market]; norm_num
  have ht : 2 ≤ cross.rows.length := by simp [cross, full]
  obtain ⟨d, V, S, F, h, -⟩ := C37_single_factor_partial E K cross 252 (by norm_num) ht hv
  exact ⟨_, d, h, _, _, _, C37_single_factor_intensity E K cross 252 ht hv cross_gamma h⟩

/-- Two equal assets and an uncorrelated one. -/
noncomputable def triple : Frame ℕ String :=
  full ["A", "B", "C"] [(0, [1, 0, 1]), (1, [-1, 0, -1]), (2, [0, 1, 0]), (3, [0, -1, 0])]

theorem triple_gamma (S : Matrix (Fin 3) (Fin 3) ℝ)
    (hS : S = !![2 / 3, 0, 2 / 3; 0, 2 / 3, 0; 2 / 3, 0, 2 / 3]) :
    offSum (fun i j => (meanCorrelation S * (Real.sqrt (S i i) * Real.sqrt (S j j)) - S i j) ^ 2) ≠ 0 := by
  have hd : ∀ i, S i i = 2 / 3 := by
    intro i; subst hS; fin_cases i <;> rfl
  have he : S 0 1 = 0 ∧ S 0 2 = 2 / 3 ∧ S 1 0 = 0 ∧ S 1 2 = 0 ∧ S 2 0 = 2 / 3 ∧ S 2 1 = 0 := by
    subst hS; exact ⟨rfl, rfl, rfl, rfl, rfl, rfl⟩
  have hq : Real.sqrt (2 / 3) * Real.sqrt (2 / 3) = 2 / 3 := Real.mul_self_sqrt (by norm_num)
  have hm : meanCorrelation S = 1 / 3 := by
    change offSum (fun i j => S i j / (Real.sqrt (S i i) * Real.sqrt (S j j))) / _ = _
    rw [offSum_eq]
    simp only [hd, hq, Fin.sum_univ_three]
    simp only [he]
    norm_num
  rw [offSum_eq, hm]
  simp only [hd, hq, Fin.sum_univ_three]
  simp only [he]
  norm_num

/-- The hypotheses of `C37_constant_correlation_intensity` are met. -/
example (E : Eigh) (K : Sklearn) : ∃ (V : CovFrame String) (d : ℝ),
    ledoitWolf E K triple 252 "constant_correlation" = .ok (V, d) ∧
      ∃ p r g, d = lwIntensity 4 p r g := by
  obtain ⟨d, V, -, h, -⟩ := C37_constant_correlation_variances E K 252 (by norm_num) ["A", "B", "C"]
    [(0, [1, 0, 1]), (1, [-1, 0, -1]), (2, [0, 1, 0]), (3, [0, -1, (0 : ℝ)])] (by simp) (by simp) (by simp)
    (by intro i; fin_cases i <;> norm_num [sampleCov, avg, column])
  refine ⟨_, d, h, _, _, _, C37_constant_correlation_intensity E K triple 252
    (!![2 / 3, 0, 2 / 3; 0, 2 / 3, 0; 2 / 3, 0, 2 / 3] : Matrix (Fin 3) (Fin 3) ℝ) ?_ ?_
    (by simp [triple, full]) (by simp [triple, full]) (triple_gamma _ rfl) h⟩
  · intro i j
    unfold triple
    have hi : i.1 < 3 := i.2
    have hj : j.1 < 3 := j.2
    rw [col_full _ _ _ (by simpa using hi), col_full _ _ _ (by simpa using hj),
      covPair_some _ _ (by simp [column]) (by simp [column])]
    change Fin 3 at i j
    fin_cases i <;> fin_cases j <;> norm_num [sampleCov, avg, column]
  · intro i
    change Fin 3 at i
    fin_cases i <;> norm_num

end Verif.Risk
