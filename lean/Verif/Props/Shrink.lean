import Verif.Proof.Shrink
import Verif.Props.Risk

/-! Property theorem C37: shrinkage estimators. -/

set_option linter.unusedSectionVars false

namespace Verif.Risk
open scoped Matrix
open Verif.Py Verif.Frames Verif.Returns

variable {ι κ : Type} {t n : ℕ}

/-- C37, single-factor shrinkage.  For every frame of at least two returns (missing values count as
zero) whose equally weighted average varies: the result is a convex combination of the covariance
`S` with divisor `t` and the one-factor target; its diagonal is that of `S`; it is positive
semidefinite and returned unfixed.  Missing: the variances differ from those of `sample_cov`, see
`C37_single_factor_variance_false`. -/
theorem C37_single_factor_partial (E : Eigh) (K : Sklearn) (X : Frame ι κ) (freq : ℝ) (hf : 0 ≤ freq)
    (ht : 2 ≤ X.rows.length) (hv : popCov (market (filled X)) (market (filled X)) ≠ 0) :
    ∃ (d : ℝ) (V S F : Matrix (Fin X.cols.length) (Fin X.cols.length) ℝ),
      ledoitWolf E K X freq "single_factor" = .ok (⟨X.cols, V⟩, d) ∧ 0 ≤ d ∧ d ≤ 1 ∧
      (∀ i j, V i j = (d * F i j + (1 - d) * S i j) * freq) ∧
      (∀ i j, S i j = popCov (series (filled X) i) (series (filled X) j)) ∧
      (∀ i j, i ≠ j → F i j = popCov (series (filled X) i) (market (filled X)) *
        popCov (series (filled X) j) (market (filled X)) / popCov (market (filled X)) (market (filled X))) ∧
      (∀ i, V i i = popCov (series (filled X) i) (series (filled X) i) * freq) ∧
      S.PosSemidef ∧ F.PosSemidef ∧ V.PosSemidef := by
  set A := filled X
  have hvar : sfVar A ≠ 0 := by rw [sfVar_apply A ht]; exact hv
  have hS : (sfSample A).PosSemidef := by
    have : sfSample A = Matrix.of fun i j => popCov (series A i) (series A j) := by
      ext i j; exact sfSample_apply A ht i j
    rw [this]; exact popCov_psd A
  have hF : (sfTarget A).PosSemidef := by
    apply oneFactor_psd
    · rw [sfVar_apply A ht]
      exact lt_of_le_of_ne (popCov_self_nonneg _) (Ne.symm hv)
    · intro i
      rw [sfBeta_apply A ht, sfSample_apply A ht, sfVar_apply A ht]
      exact popCov_cs _ _
  have hd : 0 ≤ sfDelta A ∧ sfDelta A ≤ 1 := clampDelta_mem _ _
  have hcomb := convex_psd hF hS hd.1 hd.2
  refine ⟨sfDelta A, Matrix.of fun i j => (sfDelta A * sfTarget A i j + (1 - sfDelta A) * sfSample A i j) *
    freq, sfSample A, sfTarget A, ?_, hd.1, hd.2, fun i j => rfl, fun i j => sfSample_apply A ht i j, ?_, ?_, hS,
    hF, scaled_psd hcomb hf⟩
  · unfold ledoitWolf
    rw [if_neg (by decide), if_pos rfl, numX_eq]
    have : singleFactor A = (Matrix.of fun i j =>
        some (sfDelta A * sfTarget A i j + (1 - sfDelta A) * sfSample A i j), sfDelta A) := by
      unfold singleFactor
      rw [if_neg (by omega)]
      simp only [hvar, false_and, if_false]
      rw [blend_some]
    dsimp only
    rw [this]
    dsimp only
    rw [annualize_psd E X.cols freq hf (Matrix.of fun i j =>
        some (sfDelta A * sfTarget A i j + (1 - sfDelta A) * sfSample A i j)) _ (fun i j => rfl) hcomb]
    rfl
  · intro i j hij
    refine (if_neg hij).trans ?_
    rw [ sfBeta_apply A ht, sfBeta_apply A ht, sfVar_apply A ht]
  · intro i
    rw [← sfSample_apply A ht]
    change (sfDelta A * (if i = i then sfSample A i i else _) + (1 - sfDelta A) * sfSample A i i) * freq = _
    rw [if_pos rfl]
    ring

/-- C37, constant-correlation shrinkage of a sample covariance without missing entries: convex
combination of the sample covariance and the constant-correlation target, variances unchanged,
positive semidefinite and unfixed; with two assets it is the sample covariance itself. -/
theorem C37_constant_correlation (E : Eigh) (K : Sklearn) (X : Frame ι κ) (freq : ℝ) (hf : 0 ≤ freq)
    (S : Matrix (Fin X.cols.length) (Fin X.cols.length) ℝ)
    (hcov : ∀ i j : Fin X.cols.length, covPair (X.col i) (X.col j) = some (S i j)) (hS : S.PosSemidef)
    (hd : ∀ i, 0 < S i i) (hn : 2 ≤ X.cols.length) :
    ∃ (d : ℝ) (V F : Matrix (Fin X.cols.length) (Fin X.cols.length) ℝ),
      ledoitWolf E K X freq "constant_correlation" = .ok (⟨X.cols, V⟩, d) ∧ 0 ≤ d ∧ d ≤ 1 ∧
      (∀ i j, V i j = (d * F i j + (1 - d) * S i j) * freq) ∧
      (∀ i j, i ≠ j → F i j = meanCorrelation S * (Real.sqrt (S i i) * Real.sqrt (S j j))) ∧
      (∀ i, V i i = S i i * freq) ∧ F.PosSemidef ∧ V.PosSemidef ∧
      (X.cols.length = 2 → ∀ i j, V i j = S i j * freq) := by
  have hF := ccTarget_psd S hS hd hn
  have hdel : 0 ≤ ccDelta (numX X) S ∧ ccDelta (numX X) S ≤ 1 := clampDelta_mem _ _
  have hcomb := convex_psd hF hS hdel.1 hdel.2
  have hdef : ccDefined S = true := by
    unfold ccDefined
    apply decide_eq_true
    exact ⟨hn, hd⟩
  have hT : ∀ i, ccTarget S i i = S i i := by
    intro i; exact if_pos rfl
  refine ⟨ccDelta (numX X) S, Matrix.of fun i j => (ccDelta (numX X) S * ccTarget S i j +
    (1 - ccDelta (numX X) S) * S i j) * freq, ccTarget S, ?_, hdel.1, hdel.2, fun i j => rfl, ?_, ?_, hF,
    scaled_psd hcomb hf, ?_⟩
  · unfold ledoitWolf
    rw [if_neg (by decide), if_neg (by decide), if_pos rfl]
    have : shrinkS X = fun i j => some (S i j) := by
      funext i j; exact hcov i j
    rw [this, allSome_some]
    have hc : constantCorrelation (numX X) S = (Matrix.of fun i j =>
        some (ccDelta (numX X) S * ccTarget S i j + (1 - ccDelta (numX X) S) * S i j),
          ccDelta (numX X) S) := by
      unfold constantCorrelation
      simp only [hdef, true_or, if_true]
      rw [blend_some]
    dsimp only
    rw [hc]
    dsimp only
    rw [annualize_psd E X.cols freq hf (Matrix.of fun i j =>
        some (ccDelta (numX X) S * ccTarget S i j + (1 - ccDelta (numX X) S) * S i j)) _
        (fun i j => rfl) hcomb]
    rfl
  · intro i j hij
    rw [ccTarget_eq S hd]
    refine (if_neg hij).trans ?_
    rw [ccRbar_eq S hd]
  · intro i
    change (ccDelta (numX X) S * ccTarget S i i + (1 - ccDelta (numX X) S) * S i i) * freq = _
    rw [hT]
    ring
  · intro h2 i j
    have hTS : ∀ i j, ccTarget S i j = S i j := by
      clear hcomb hdel hcov hF hdef hT hf
      have : ∀ (m : ℕ) (_ : m = 2) (S : Matrix (Fin m) (Fin m) ℝ), S.PosSemidef → (∀ i, 0 < S i i) →
          ∀ i j, ccTarget S i j = S i j := ?_
      · exact this _ h2 S hS hd
      rintro m rfl S hS hd i j
      by_cases hij : i = j
      · subst hij; exact if_pos rfl
      · rw [ccTarget_eq S hd]
        refine (if_neg hij).trans ?_
        have hs : S 1 0 = S 0 1 := congrFun (congrFun (psd_symm hS) 0) 1
        have h0 := Real.sqrt_pos.2 (hd 0)
        have h1 := Real.sqrt_pos.2 (hd 1)
        have q0 := Real.mul_self_sqrt (hd 0).le
        have q1 := Real.mul_self_sqrt (hd 1).le
        have hr : ccRbar S = S 0 1 / (Real.sqrt (S 0 0) * Real.sqrt (S 1 1)) := by
          unfold ccRbar ccStd
          simp only [Fin.sum_univ_two]
          rw [q0, q1, div_self (hd 0).ne', div_self (hd 1).ne', hs,
            mul_comm (Real.sqrt (S 1 1)) (Real.sqrt (S 0 0))]
          norm_num
          ring
        rw [hr]
        have : ∀ i j : Fin 2, i ≠ j → S i j = S 0 1 ∧ Real.sqrt (S i i) * Real.sqrt (S j j) =
            Real.sqrt (S 0 0) * Real.sqrt (S 1 1) := by
          intro i j hij
          fin_cases i <;> fin_cases j
          · exact absurd rfl hij
          · exact ⟨rfl, rfl⟩
          · exact ⟨hs, mul_comm _ _⟩
          · exact absurd rfl hij
        obtain ⟨e1, e2⟩ := this i j hij
        rw [e1, e2]
        exact div_mul_cancel₀ _ (mul_pos h0 h1).ne'
    change (ccDelta (numX X) S * ccTarget S i j + (1 - ccDelta (numX X) S) * S i j) * freq = _
    rw [hTS]
    ring

/-- C37, constant-correlation shrinkage on complete data: the variances are exactly those of
`sample_cov`. -/
theorem C37_constant_correlation_variances (E : Eigh) (K : Sklearn) (freq : ℝ) (hf : 0 ≤ freq)
    (cols : List κ) (rows : List (ι × List ℝ)) (hr : ∀ r ∈ rows, r.2.length = cols.length)
    (h2 : 2 ≤ rows.length) (hn : 2 ≤ cols.length)
    (hd : ∀ i : Fin cols.length, 0 < sampleCov (column rows i) (column rows i)) :
    ∃ (d : ℝ) (V S : Matrix (Fin cols.length) (Fin cols.length) ℝ),
      ledoitWolf E K (full cols rows) freq "constant_correlation" = .ok (⟨cols, V⟩, d) ∧
      sampleCovariance E (full cols rows) true freq false "spectral" = .ok ⟨cols, S⟩ ∧
      V.PosSemidef ∧ (∀ i, V i i = S i i) ∧ (cols.length = 2 → V = S) := by
  obtain ⟨S1, h1, hpsd, he1⟩ := C35_sample_cov E (full cols rows) true false 1 "spectral" cols rows rfl hr h2
    zero_le_one
  obtain ⟨S, h1', -, he⟩ := C35_sample_cov E (full cols rows) true false freq "spectral" cols rows rfl hr h2 hf
  have hc : ∀ i j : Fin cols.length, covPair ((full cols rows).col i) ((full cols rows).col j) =
      some (S1 i j) := by
    intro i j
    rw [col_full _ _ _ (fun r h => by rw [hr r h]; exact i.2),
      col_full _ _ _ (fun r h => by rw [hr r h]; exact j.2),
      covPair_some _ _ (by simp [column]) (by simpa [column] using h2), he1, mul_one]
  obtain ⟨d, V, F, g1, -, -, -, -, g2, -, g3, g4⟩ := C37_constant_correlation E K (full cols rows) freq hf S1 hc
    hpsd (fun i => by
      have := he1 i i
      rw [mul_one] at this
      exact (hd i).trans_eq this.symm) hn
  refine ⟨d, V, S, g1, h1', g3, ?_, ?_⟩
  · intro i
    have : V i i = S1 i i * freq := g2 i
    rw [this, he1, he, mul_one]
  · intro hl
    refine Matrix.ext (fun i j => ?_)
    have : V i j = S1 i j * freq := g4 hl i j
    rw [this, he1 i j, he i j, mul_one]

/-- C37, manual shrinkage: for every intensity in [0, 1] the result is positive semidefinite, unfixed,
and has the trace of the annualised sample covariance. -/
theorem C37_manual (E : Eigh) (X : Frame ι κ) (freq d : ℝ) (hf : 0 ≤ freq) (h0 : 0 ≤ d) (h1 : d ≤ 1)
    (S : Matrix (Fin X.cols.length) (Fin X.cols.length) ℝ)
    (hcov : ∀ i j : Fin X.cols.length, covPair (X.col i) (X.col j) = some (S i j)) (hS : S.PosSemidef) :
    ∃ V : Matrix (Fin X.cols.length) (Fin X.cols.length) ℝ,
      manualShrink E X freq d = .ok ⟨X.cols, V⟩ ∧ V.PosSemidef ∧
      V.trace = S.trace * freq ∧
      (∀ i j, i ≠ j → V i j = (1 - d) * S i j * freq) ∧
      ∀ i, V i i = (d * (S.trace / X.cols.length) + (1 - d) * S i i) * freq := by
  have hSm : shrinkS X = Matrix.of fun i j => some (S i j) := by
    ext1 i j; exact hcov i j
  have htr : cellTrace (shrinkS X) = some S.trace := by
    rw [hSm]
    unfold cellTrace
    have : ∀ (l : List ℝ) (a : ℝ), (l.map some).foldl cellAdd (some a) = some (a + l.sum) := by
      intro l
      induction l with
      | nil => intro a; simp
      | cons x l ih =>
        intro a
        simp only [List.map_cons, List.foldl_cons, List.sum_cons, cellAdd]
        rw [ih, add_assoc]
    have e : (List.ofFn fun i : Fin X.cols.length => (Matrix.of fun i j => some (S i j) :
        Matrix (Fin X.cols.length) (Fin X.cols.length) Cell) i i) =
        (List.ofFn fun i => S i i).map some := by
      rw [List.map_ofFn]; rfl
    rw [e, this, List.sum_ofFn, zero_add]
    rfl
  set mu := S.trace / X.cols.length with hmu
  have hmu0 : 0 ≤ mu := div_nonneg hS.trace_nonneg (Nat.cast_nonneg _)
  set F : Matrix (Fin X.cols.length) (Fin X.cols.length) ℝ :=
    Matrix.of fun i j => (1 : Matrix (Fin X.cols.length) (Fin X.cols.length) ℝ) i j * mu with hF
  have hFp : F.PosSemidef := scaled_psd Matrix.PosSemidef.one hmu0
  have hcomb := convex_psd hFp hS h0 h1
  refine ⟨Matrix.of fun i j => (d * F i j + (1 - d) * S i j) * freq, ?_, scaled_psd hcomb hf, ?_, ?_, ?_⟩
  · unfold manualShrink
    dsimp only
    rw [htr]
    apply annualize_psd E X.cols freq hf
    · intro i j
      rw [hSm]
      rfl
    · exact hcomb
  · simp only [Matrix.trace, Matrix.diag_apply, Matrix.of_apply]
    rw [← Finset.sum_mul]
    congr 1
    rw [Finset.sum_add_distrib, ← Finset.mul_sum, ← Finset.mul_sum]
    have : ∑ i, F i i = ∑ i, S i i := by
      simp only [hF, Matrix.of_apply, Matrix.one_apply_eq, one_mul, Finset.sum_const, Finset.card_univ,
        Fintype.card_fin, nsmul_eq_mul]
      rw [hmu]
      by_cases hz : X.cols.length = 0
      · have : S.trace = 0 := by
          unfold Matrix.trace
          apply Finset.sum_eq_zero
          intro i _
          exact absurd i.2 (by omega)
        have t0 : ∑ i, S i i = 0 := this
        rw [this, zero_div, mul_zero]; exact t0.symm
      · have : (X.cols.length : ℝ) ≠ 0 := Nat.cast_ne_zero.2 hz
        rw [mul_div_cancel₀ _ this]; rfl
    rw [this]
    ring
  · intro i j hij
    simp only [Matrix.of_apply, hF, Matrix.one_apply_ne hij]
    ring
  · intro i
    simp only [Matrix.of_apply, hF, Matrix.one_apply_eq]
    ring

/-- C37, shrinkage by sklearn (constant variance target and oracle approximating), for every library
meeting its contract: the intensity is in [0, 1], the trace is that of the covariance with divisor `t`
and the result is positive semidefinite. -/
theorem C37_sklearn (E : Eigh) {K : Sklearn} (hK : K.Sound) (X : Frame ι κ) (freq : ℝ) (hf : 0 ≤ freq)
    (ht : 2 ≤ X.rows.length) (hn : X.cols ≠ [])
    (r : Except PyErr (CovFrame κ × ℝ))
    (hr : r = ledoitWolf E K X freq "constant_variance" ∨ r = oracleApproximating E K X freq) :
    ∃ (d : ℝ) (V : Matrix (Fin X.cols.length) (Fin X.cols.length) ℝ),
      r = .ok (⟨X.cols, V⟩, d) ∧ 0 ≤ d ∧ d ≤ 1 ∧ V.PosSemidef ∧
      V.trace = (∑ i, popCov (series (filled X) i) (series (filled X) i)) * freq := by
  set A := filled X
  have hS : (sfSample A).PosSemidef := by
    have : sfSample A = Matrix.of fun i j => popCov (series A i) (series A j) := by
      ext i j; exact sfSample_apply A ht i j
    rw [this]; exact popCov_psd A
  have hnn : (X.cols.length : ℝ) ≠ 0 := Nat.cast_ne_zero.2 (fun h => hn (List.length_eq_zero_iff.1 h))
  have hmu0 : 0 ≤ (sfSample A).trace / X.cols.length := div_nonneg hS.trace_nonneg (Nat.cast_nonneg _)
  have key : ∀ (d : ℝ) (M : Matrix (Fin X.cols.length) (Fin X.cols.length) ℝ), d ∈ Set.Icc (0 : ℝ) 1 →
      M = (1 - d) • sfSample A + (d * ((sfSample A).trace / X.cols.length)) • 1 →
      annualize E X.cols freq (Matrix.of fun i j => some (M i j)) =
        .ok ⟨X.cols, Matrix.of fun i j => M i j * freq⟩ ∧
      (Matrix.of fun i j => M i j * freq : Matrix (Fin X.cols.length) (Fin X.cols.length) ℝ).PosSemidef ∧
      (Matrix.of fun i j => M i j * freq : Matrix (Fin X.cols.length) (Fin X.cols.length) ℝ).trace =
        (∑ i, popCov (series A i) (series A i)) * freq := by
    intro d M hd hM
    have hp : M.PosSemidef := by
      rw [hM]
      exact (hS.smul (by linarith [hd.2])).add (Matrix.PosSemidef.one.smul (mul_nonneg hd.1 hmu0))
    refine ⟨annualize_psd E X.cols freq hf _ _ (fun i j => rfl) hp, scaled_psd hp hf, ?_⟩
    have htr : M.trace = (sfSample A).trace := by
      rw [hM, Matrix.trace_add, Matrix.trace_smul, Matrix.trace_smul, Matrix.trace_one, Fintype.card_fin]
      simp only [smul_eq_mul]
      field_simp
      ring
    have : (Matrix.of fun i j => M i j * freq : Matrix (Fin X.cols.length) (Fin X.cols.length) ℝ).trace =
        M.trace * freq := by
      simp only [Matrix.trace, Matrix.diag_apply, Matrix.of_apply]
      rw [← Finset.sum_mul]
    rw [this, htr]
    congr 1
    simp only [Matrix.trace, Matrix.diag_apply, sfSample_apply A ht]
  rcases hr with rfl | rfl
  · obtain ⟨k1, k2⟩ := hK.ledoitWolf A
    obtain ⟨g1, g2, g3⟩ := key _ _ k1 k2
    refine ⟨_, _, ?_, k1.1, k1.2, g2, g3⟩
    unfold ledoitWolf
    rw [if_pos rfl, numX_eq]
    dsimp only
    rw [g1]
    rfl
  · obtain ⟨k1, k2⟩ := hK.oas A
    obtain ⟨g1, g2, g3⟩ := key _ _ k1 k2
    refine ⟨_, _, ?_, k1.1, k1.2, g2, g3⟩
    unfold oracleApproximating
    rw [numX_eq]
    dsimp only
    rw [g1]
    rfl

/-- Libraries meeting sklearn's contract exist. -/
example : ∃ K : Sklearn, K.Sound :=
  ⟨{ ledoitWolf := fun {t n} X => ((1 - (1 / 2 : ℝ)) • sfSample X +
        ((1 / 2) * (Matrix.trace (sfSample X) / n)) • (1 : Matrix (Fin n) (Fin n) ℝ), 1 / 2)
     oas := fun {t n} X => ((1 - (1 / 2 : ℝ)) • sfSample X +
        ((1 / 2) * (Matrix.trace (sfSample X) / n)) • (1 : Matrix (Fin n) (Fin n) ℝ), 1 / 2) },
   { ledoitWolf := fun X => ⟨⟨by norm_num, by norm_num⟩, rfl⟩
     oas := fun X => ⟨⟨by norm_num, by norm_num⟩, rfl⟩ }⟩

/-- An unknown shrinkage target is rejected. -/
theorem C37_unknown_target (E : Eigh) (K : Sklearn) (X : Frame ι κ) (freq : ℝ) (target : String)
    (h : target ∉ ["constant_variance", "single_factor", "constant_correlation"]) :
    ledoitWolf E K X freq target = .error .notImplemented := by
  simp only [List.mem_cons, List.not_mem_nil, or_false, not_or] at h
  unfold ledoitWolf
  rw [if_neg h.1, if_neg h.2.1, if_neg h.2.2]

/-- Returns 1 and 3 of one asset. -/
noncomputable def twoReturns : Frame ℕ String := full ["A"] [(0, [1]), (1, [3])]

/-- C37 fails for single-factor shrinkage: a single asset with returns 1 and 3 has sample variance 2,
but the shrunk variance is 1. -/
theorem C37_single_factor_variance_false (E : Eigh) (K : Sklearn) :
    ∃ (d : ℝ) (V S : Matrix (Fin 1) (Fin 1) ℝ),
      ledoitWolf E K twoReturns 1 "single_factor" = .ok (⟨["A"], V⟩, d) ∧
      sampleCovariance E twoReturns true 1 false "spectral" = .ok ⟨["A"], S⟩ ∧
      V 0 0 = 1 ∧ S 0 0 = 2 := by
  have hfill : ∀ (s : Fin 2) (j : Fin 1), filled twoReturns s j = if s = 0 then 1 else 3 := by
    intro s j
    fin_cases s <;> fin_cases j <;> rfl
  have hser : ∀ j : Fin 1, popCov (series (filled twoReturns) j) (series (filled twoReturns) j) = 1 := by
    intro j
    have e : series (filled twoReturns) j = fun s : Fin 2 => if s = 0 then 1 else 3 := by
      funext s; exact hfill s j
    rw [e]
    change popCov (t := 2) _ _ = 1
    norm_num [popCov, meanOf, Fin.sum_univ_two]
  have hmkt : popCov (market (filled twoReturns)) (market (filled twoReturns)) = 1 := by
    have e' : ∀ s : Fin 2, market (filled twoReturns) s = if s = 0 then 1 else 3 := by
      intro s
      have h1 : ∀ g : Fin 1 → ℝ, meanOf g = g 0 := by
        intro g; unfold meanOf; simp
      exact (h1 (filled twoReturns s)).trans (hfill s 0)
    have e : market (filled twoReturns) = fun s : Fin 2 => if s = 0 then 1 else 3 := by
      funext s; exact e' s
    rw [e]
    change popCov (t := 2) _ _ = 1
    norm_num [popCov, meanOf, Fin.sum_univ_two]
  obtain ⟨d, V, S, F, h1, -, -, -, -, -, h2, -⟩ := C37_single_factor_partial E K twoReturns 1 zero_le_one
    (by decide) (by rw [hmkt]; norm_num)
  obtain ⟨S', g1, -, g2⟩ := C35_sample_cov E twoReturns true false 1 "spectral" ["A"]
    [(0, [1]), (1, [3])] rfl (by simp) (by simp) zero_le_one
  refine ⟨d, V, S', h1, g1, ?_, ?_⟩
  · have := h2 (0 : Fin 1)
    rw [hser] at this
    simpa using this
  · rw [g2]
    norm_num [sampleCov, avg, column]

/-- C37 fails when an asset's price never moves: the constant-correlation estimate has missing
entries. -/
theorem C37_zero_variance_false :
    (constantCorrelation (t := 2) !![1, 5; 3, (5 : ℝ)] !![2, 0; 0, (0 : ℝ)]).1 0 1 = none := by
  have h : ccDefined !![2, 0; 0, (0 : ℝ)] = false := by
    unfold ccDefined
    apply decide_eq_false
    intro h
    have := h.2 1
    simp at this
  unfold constantCorrelation blend
  simp [h, cellAdd, cellMul]

/-- The hypotheses of the constant-correlation theorem are met by three returns of two assets. -/
example (E : Eigh) (K : Sklearn) : ∃ (d : ℝ) (V : Matrix (Fin 2) (Fin 2) ℝ),
    ledoitWolf E K (full ["A", "B"] [(0, [1, 2]), (1, [2, 1]), (2, [3, (4 : ℝ)])]) 252
      "constant_correlation" = .ok (⟨["A", "B"], V⟩, d) ∧ V.PosSemidef := by
  obtain ⟨d, V, S, h1, -, h2, -⟩ := C37_constant_correlation_variances E K 252 (by norm_num) ["A", "B"]
    [(0, [1, 2]), (1, [2, 1]), (2, [3, (4 : ℝ)])] (by simp) (by simp) (by simp)
    (by intro i; fin_cases i <;> norm_num [sampleCov, avg, column])
  exact ⟨d, V, h1, h2⟩

end Verif.Risk
