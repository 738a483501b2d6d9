import Mathlib.Algebra.Order.Chebyshev
import Verif.Proof.Risk
import Verif.Props.RiskConv
import Verif.Spec.Risk

/-! Helper results about shrinkage. -/

set_option linter.unusedSectionVars false

namespace Verif.Risk
open scoped Matrix
open Verif.Py Verif.Frames Verif.Returns Verif.Base Verif.Perf

variable {ι κ : Type} {t n : ℕ}

theorem clampDelta_mem (t : ℕ) (x : Flt ℝ) : 0 ≤ clampDelta t x ∧ clampDelta t x ≤ 1 := by
  cases x with
  | nan => simp [clampDelta, pyMin]
  | negInf => simp [clampDelta]
  | posInf => simp [clampDelta, pyMin]
  | fin k =>
    simp only [clampDelta, pyMin]
    refine ⟨le_max_left _ _, max_le zero_le_one ?_⟩
    split
    · next h => exact h.le
    · exact le_rfl

theorem blend_some (d : ℝ) (F S : Matrix (Fin n) (Fin n) ℝ) :
    blend d (Matrix.of fun i j => some (F i j)) (Matrix.of fun i j => some (S i j)) =
      Matrix.of fun i j => some (d * F i j + (1 - d) * S i j) := rfl

theorem convex_psd {F S : Matrix (Fin n) (Fin n) ℝ} (hF : F.PosSemidef) (hS : S.PosSemidef) {d : ℝ}
    (h0 : 0 ≤ d) (h1 : d ≤ 1) :
    (Matrix.of fun i j => d * F i j + (1 - d) * S i j : Matrix (Fin n) (Fin n) ℝ).PosSemidef := by
  have : (Matrix.of fun i j => d * F i j + (1 - d) * S i j : Matrix (Fin n) (Fin n) ℝ) =
      d • F + (1 - d) • S := by ext i j; simp
  rw [this]
  exact (hF.smul h0).add (hS.smul (by linarith))

theorem annualize_psd (E : Eigh) (labels : List κ) (freq : ℝ) (hf : 0 ≤ freq)
    (M : Matrix (Fin labels.length) (Fin labels.length) Cell)
    (V : Matrix (Fin labels.length) (Fin labels.length) ℝ) (hM : ∀ i j, M i j = some (V i j))
    (h : V.PosSemidef) :
    annualize E labels freq M = .ok ⟨labels, Matrix.of fun i j => V i j * freq⟩ := by
  unfold annualize
  apply fixFrame_psd
  · intro i j
    rw [hM i j]
    rfl
  · have : (Matrix.of fun i j => V i j * freq : Matrix (Fin labels.length) (Fin labels.length) ℝ) =
        freq • V := by ext i j; simp [mul_comm]
    rw [this]
    exact h.smul hf

theorem scaled_psd {V : Matrix (Fin n) (Fin n) ℝ} (h : V.PosSemidef) {freq : ℝ} (hf : 0 ≤ freq) :
    (Matrix.of fun i j => V i j * freq : Matrix (Fin n) (Fin n) ℝ).PosSemidef := by
  have : (Matrix.of fun i j => V i j * freq : Matrix (Fin n) (Fin n) ℝ) = freq • V := by
    ext i j; simp [mul_comm]
  rw [this]
  exact h.smul hf

/-! ### Single factor -/

theorem demean_apply (X : Matrix (Fin t) (Fin n) ℝ) (s : Fin t) (j : Fin n) :
    demean X s j = X s j - meanOf (series X j) := rfl

theorem sum_dev (a : Fin t → ℝ) (ht : t ≠ 0) : ∑ s, (a s - meanOf a) = 0 := by
  have h : (t : ℝ) ≠ 0 := Nat.cast_ne_zero.2 ht
  rw [Finset.sum_sub_distrib, Finset.sum_const, Finset.card_univ, Fintype.card_fin]
  unfold meanOf
  simp only [nsmul_eq_mul]
  field_simp
  ring

theorem mktRow_apply (X : Matrix (Fin t) (Fin n) ℝ) (s : Fin t) :
    mktRow X s = market X s - meanOf (market X) := by
  unfold mktRow market
  simp only [demean_apply]
  rw [Finset.sum_sub_distrib, sub_div]
  congr 1
  unfold meanOf series
  simp only [← Finset.sum_div]
  rw [Finset.sum_comm]
  ring

theorem withMkt_castSucc (X : Matrix (Fin t) (Fin n) ℝ) (s : Fin t) (i : Fin n) :
    withMkt X s i.castSucc = series X i s - meanOf (series X i) := by
  unfold withMkt
  simp only [Matrix.of_apply, Fin.snoc_castSucc]
  rfl

theorem withMkt_last (X : Matrix (Fin t) (Fin n) ℝ) (s : Fin t) :
    withMkt X s (Fin.last n) = market X s - meanOf (market X) := by
  unfold withMkt
  simp only [Matrix.of_apply, Fin.snoc_last]
  exact mktRow_apply X s

theorem demean_withMkt (X : Matrix (Fin t) (Fin n) ℝ) (ht : t ≠ 0) : demean (withMkt X) = withMkt X := by
  ext s k
  have hz : ∑ u, withMkt X u k = 0 := by
    refine Fin.lastCases ?_ (fun i => ?_) k
    · simp only [withMkt_last]; exact sum_dev _ ht
    · simp only [withMkt_castSucc]; exact sum_dev _ ht
  unfold demean
  simp only [Matrix.of_apply]
  rw [hz]; simp

theorem sampleExt_apply (X : Matrix (Fin t) (Fin n) ℝ) (ht : 2 ≤ t) (i j : Fin (n + 1)) :
    sampleExt X i j = (∑ s, withMkt X s i * withMkt X s j) / t := by
  unfold sampleExt npCov
  simp only [Matrix.of_apply]
  rw [demean_withMkt X (by omega)]
  have : (t : ℝ) - 1 ≠ 0 := by
    have : (2 : ℝ) ≤ t := by exact_mod_cast ht
    linarith
  field_simp

theorem sfSample_apply (X : Matrix (Fin t) (Fin n) ℝ) (ht : 2 ≤ t) (i j : Fin n) :
    sfSample X i j = popCov (series X i) (series X j) := by
  unfold sfSample
  simp only [Matrix.of_apply]
  rw [sampleExt_apply X ht]
  simp only [withMkt_castSucc]
  rfl

theorem sfBeta_apply (X : Matrix (Fin t) (Fin n) ℝ) (ht : 2 ≤ t) (i : Fin n) :
    sfBeta X i = popCov (series X i) (market X) := by
  unfold sfBeta
  rw [sampleExt_apply X ht]
  simp only [withMkt_castSucc, withMkt_last]
  rfl

theorem sfVar_apply (X : Matrix (Fin t) (Fin n) ℝ) (ht : 2 ≤ t) :
    sfVar X = popCov (market X) (market X) := by
  unfold sfVar
  rw [sampleExt_apply X ht]
  simp only [withMkt_last]
  rfl

theorem popCov_cs (a b : Fin t → ℝ) : popCov a b ^ 2 ≤ popCov a a * popCov b b := by
  unfold popCov
  rw [div_pow, div_mul_div_comm, ← pow_two (t : ℝ)]
  apply div_le_div_of_nonneg_right _ (by positivity)
  have := Finset.sum_mul_sq_le_sq_mul_sq Finset.univ (fun s => a s - meanOf a) (fun s => b s - meanOf b)
  simp only [pow_two] at this ⊢
  exact this

theorem popCov_self_nonneg (a : Fin t → ℝ) : 0 ≤ popCov a a := by
  unfold popCov
  exact div_nonneg (Finset.sum_nonneg (fun s _ => mul_self_nonneg _)) (Nat.cast_nonneg _)

theorem popCov_psd (X : Matrix (Fin t) (Fin n) ℝ) :
    (Matrix.of fun i j => popCov (series X i) (series X j) : Matrix (Fin n) (Fin n) ℝ).PosSemidef := by
  have e : (Matrix.of fun i j => popCov (series X i) (series X j) : Matrix (Fin n) (Fin n) ℝ) =
      Matrix.of fun i j => (((List.finRange t).map (fun s => ((1 : ℝ) / t,
        fun i : Fin n => series X i s - meanOf (series X i)))).map (fun p => p.1 * (p.2 i * p.2 j))).sum := by
    ext i j
    simp only [Matrix.of_apply, List.map_map, Function.comp_def]
    rw [List.sum_map_mul_left]
    unfold popCov
    rw [← List.ofFn_eq_map, List.sum_ofFn]
    ring
  rw [e]
  apply gram_psd
  intro p hp
  obtain ⟨s, -, rfl⟩ := List.mem_map.1 hp
  exact div_nonneg zero_le_one (Nat.cast_nonneg _)

/-- A rank-one matrix with enlarged diagonal is positive semidefinite. -/
theorem oneFactor_psd (c d : Fin n → ℝ) (v : ℝ) (hv : 0 < v) (h : ∀ i, c i ^ 2 ≤ d i * v) :
    (Matrix.of fun i j => if i = j then d i else c i * c j / v : Matrix (Fin n) (Fin n) ℝ).PosSemidef := by
  have e : (Matrix.of fun i j => if i = j then d i else c i * c j / v : Matrix (Fin n) (Fin n) ℝ) =
      v⁻¹ • Matrix.vecMulVec c (star c) + Matrix.diagonal (fun i => d i - c i ^ 2 / v) := by
    ext i j
    by_cases hij : i = j
    · subst hij
      simp only [Matrix.of_apply, if_true, Matrix.add_apply, Matrix.smul_apply, Matrix.vecMulVec_apply,
        Matrix.diagonal_apply_eq, smul_eq_mul, Pi.star_apply, star_trivial]
      ring
    · simp only [Matrix.of_apply, if_neg hij, Matrix.add_apply, Matrix.smul_apply,
        Matrix.vecMulVec_apply, Matrix.diagonal_apply_ne _ hij, smul_eq_mul, Pi.star_apply, star_trivial]
      ring
  rw [e]
  refine ((Matrix.posSemidef_vecMulVec_self_star c).smul (inv_nonneg.2 hv.le)).add
    (Matrix.PosSemidef.diagonal ?_)
  intro i
  have := h i
  simp only [Pi.zero_apply]
  rw [sub_nonneg, div_le_iff₀ hv]
  exact this

/-! ### Constant correlation -/

/-- A constant-correlation matrix is positive semidefinite. -/
theorem constCorr_psd (s : Fin n → ℝ) (r : ℝ) (h1 : r ≤ 1) (h2 : 0 ≤ 1 + ((n : ℝ) - 1) * r) :
    (Matrix.of fun i j => if i = j then s i ^ 2 else r * (s i * s j) :
      Matrix (Fin n) (Fin n) ℝ).PosSemidef := by
  refine psd_of ?_ ?_
  · ext i j
    simp only [Matrix.transpose_apply, Matrix.of_apply]
    by_cases hij : i = j
    · subst hij; rfl
    · rw [if_neg hij, if_neg (Ne.symm hij)]; ring
  · intro x
    have e : x ⬝ᵥ (Matrix.of fun i j => if i = j then s i ^ 2 else r * (s i * s j) :
        Matrix (Fin n) (Fin n) ℝ) *ᵥ x =
        (1 - r) * ∑ i, (x i * s i) ^ 2 + r * (∑ i, x i * s i) ^ 2 := by
      simp only [dotProduct, Matrix.mulVec, Matrix.of_apply]
      rw [pow_two (∑ i, x i * s i), Finset.sum_mul_sum, Finset.mul_sum, Finset.mul_sum,
        ← Finset.sum_add_distrib]
      refine Finset.sum_congr rfl (fun i _ => ?_)
      have : ∀ j, (if i = j then s i ^ 2 else r * (s i * s j)) * x j =
          r * (s i * s j) * x j + if i = j then (1 - r) * (s i ^ 2 * x i) else 0 := by
        intro j
        split
        · next h => subst h; ring
        · ring
      simp only [this]
      rw [Finset.sum_add_distrib, Finset.sum_ite_eq, if_pos (Finset.mem_univ i), mul_add, Finset.mul_sum,
        Finset.mul_sum]
      rw [add_comm]
      congr 1
      · ring
      · refine Finset.sum_congr rfl (fun j _ => ?_)
        ring
    rw [e]
    have hq : 0 ≤ ∑ i, (x i * s i) ^ 2 := Finset.sum_nonneg (fun i _ => sq_nonneg _)
    have hcs : (∑ i, x i * s i) ^ 2 ≤ n * ∑ i, (x i * s i) ^ 2 := by
      have := sq_sum_le_card_mul_sum_sq (s := (Finset.univ : Finset (Fin n))) (f := fun i => x i * s i)
      simpa using this
    rcases le_or_gt 0 r with hr | hr
    · have : 0 ≤ r * (∑ i, x i * s i) ^ 2 := mul_nonneg hr (sq_nonneg _)
      have : 0 ≤ (1 - r) * ∑ i, (x i * s i) ^ 2 := mul_nonneg (by linarith) hq
      linarith
    · have h3 : r * (n * ∑ i, (x i * s i) ^ 2) ≤ r * (∑ i, x i * s i) ^ 2 :=
        mul_le_mul_of_nonpos_left hcs hr.le
      have h4 : 0 ≤ (1 + ((n : ℝ) - 1) * r) * ∑ i, (x i * s i) ^ 2 := mul_nonneg h2 hq
      nlinarith

/-- `r_bar` is the average off-diagonal correlation. -/
theorem ccRbar_eq (S : Matrix (Fin n) (Fin n) ℝ) (hd : ∀ i, 0 < S i i) :
    ccRbar S = meanCorrelation S := by
  unfold ccRbar meanCorrelation ccStd
  congr 1
  have : ∀ i : Fin n, ∑ j, S i j / (Real.sqrt (S i i) * Real.sqrt (S j j)) =
      1 + ∑ j ∈ Finset.univ.erase i, S i j / (Real.sqrt (S i i) * Real.sqrt (S j j)) := by
    intro i
    rw [← Finset.add_sum_erase _ _ (Finset.mem_univ i), Real.mul_self_sqrt (hd i).le,
      div_self (hd i).ne']
  simp only [this]
  rw [Finset.sum_add_distrib]
  simp

/-- Bounds on the average correlation of a covariance matrix. -/
theorem ccRbar_bounds (S : Matrix (Fin n) (Fin n) ℝ) (hS : S.PosSemidef) (hd : ∀ i, 0 < S i i)
    (hn : 2 ≤ n) : ccRbar S ≤ 1 ∧ 0 ≤ 1 + ((n : ℝ) - 1) * ccRbar S := by
  obtain ⟨R, hR, -, hb, hpsd, -⟩ := C36_cov_to_corr S hS hd
  have hRe : ∀ i j, R i j = S i j / (Real.sqrt (S i i) * Real.sqrt (S j j)) := by
    intro i j
    have := hR i j
    rw [covToCorr_apply S hd] at this
    exact (Option.some.inj this).symm
  have hn2 : (2 : ℝ) ≤ n := by exact_mod_cast hn
  set Q := ∑ i, ∑ j, S i j / (Real.sqrt (S i i) * Real.sqrt (S j j)) with hQ
  have hQ0 : 0 ≤ Q := by
    have := psd_nonneg hpsd (fun _ => 1)
    simp only [dotProduct, Matrix.mulVec, one_mul, mul_one, hRe] at this
    exact this
  have hQ1 : Q ≤ (n : ℝ) * n := by
    have : Q ≤ ∑ _i : Fin n, ∑ _j : Fin n, (1 : ℝ) := by
      apply Finset.sum_le_sum
      intro i _
      apply Finset.sum_le_sum
      intro j _
      rw [← hRe]
      exact (hb i j).2
    simpa using this
  have hpos : 0 < (n : ℝ) * ((n : ℝ) - 1) := mul_pos (by linarith) (by linarith)
  have hr : ccRbar S = (Q - n) / (n * ((n : ℝ) - 1)) := rfl
  constructor
  · rw [hr, div_le_one hpos]
    nlinarith
  · rw [hr]
    have : ((n : ℝ) - 1) * ((Q - n) / (n * ((n : ℝ) - 1))) = (Q - n) / n := by
      have h1 : (n : ℝ) - 1 ≠ 0 := by linarith
      have h2 : (n : ℝ) ≠ 0 := by linarith
      field_simp
    rw [this]
    have h2 : (0 : ℝ) < n := by linarith
    have : (Q - n) / n = Q / n - 1 := by field_simp
    rw [this]
    have : 0 ≤ Q / n := div_nonneg hQ0 h2.le
    linarith

theorem ccTarget_eq (S : Matrix (Fin n) (Fin n) ℝ) (hd : ∀ i, 0 < S i i) :
    ccTarget S = Matrix.of fun i j => if i = j then (Real.sqrt (S i i)) ^ 2
      else ccRbar S * (Real.sqrt (S i i) * Real.sqrt (S j j)) := by
  ext i j
  unfold ccTarget ccStd
  simp only [Matrix.of_apply]
  split
  · rw [Real.sq_sqrt (hd i).le]
  · rfl

theorem ccTarget_psd (S : Matrix (Fin n) (Fin n) ℝ) (hS : S.PosSemidef) (hd : ∀ i, 0 < S i i)
    (hn : 2 ≤ n) : (ccTarget S).PosSemidef := by
  rw [ccTarget_eq S hd]
  exact constCorr_psd _ _ (ccRbar_bounds S hS hd hn).1 (ccRbar_bounds S hS hd hn).2

/-! ### Frames -/

theorem numX_eq (X : Frame ι κ) : numX X = filled X := by
  ext s j
  unfold numX filled Frame.col
  simp

end Verif.Risk
