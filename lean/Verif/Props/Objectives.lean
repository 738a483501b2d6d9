import Verif.Model.Objectives
import Verif.Proof.Psd
import Mathlib.Analysis.Convex.Function
import Mathlib.Analysis.Convex.Mul
import Mathlib.Tactic.Linarith

/-! Property theorems C38: objective functions. -/

set_option linter.unusedSectionVars false
noncomputable section

namespace Verif.Obj
open Verif.Py Verif.Base Verif.Perf Matrix

variable {n T : ℕ}

theorem quad_sum (P : Matrix (Fin n) (Fin n) ℝ) (w : Fin n → ℝ) :
    quad P w = ∑ i, ∑ j, w i * P i j * w j := by
  simp only [quad, dotProduct, mulVec, Finset.mul_sum, mul_assoc]

/-- C38, formulas: each objective is its documented formula, written out entry by entry.  The documented
formula of the ex-post tracking error, a variance, is off by the factor `T`; see
`C38_ex_post_variance_false`. -/
theorem C38_formulas_partial (w mu wp b : Fin n → ℝ) (cov : Matrix (Fin n) (Fin n) ℝ) (g k : ℝ) (neg : Bool)
    (hist : Fin T → Fin n → ℝ) (bench : Fin T → ℝ) :
    variance w cov = ∑ i, ∑ j, w i * cov i j * w j ∧
    ret w mu neg = (if neg then -1 else 1) * ∑ i, w i * mu i ∧
    l2 w g = g * ∑ i, w i * w i ∧
    (∀ d, 0 ≤ d → utility w mu cov d neg =
      .ok ((if neg then -1 else 1) * (∑ i, w i * mu i - d / 2 * ∑ i, ∑ j, w i * cov i j * w j))) ∧
    (∀ d, d < 0 → utility w mu cov d neg = .error .valueError) ∧
    cost w wp k = k * ∑ i, |w i - wp i| ∧
    exAnte w cov b = ∑ i, ∑ j, (w i - b i) * cov i j * (w j - b j) ∧
    (let x : Fin T → ℝ := fun t => ∑ i, w i * hist t i - bench t
     exPost w hist bench = T * ((∑ t, (x t - (∑ s, x s) / T) ^ 2) / T)) := by
  refine ⟨quad_sum _ _, rfl, ?_, ?_, ?_, rfl, quad_sum _ _, ?_⟩
  · simp only [l2, sq]
  · intro d hd
    rw [utility, if_neg (not_lt.2 hd), quad_sum]
    congr 1
    simp only [sign, dotProduct]
    ring
  · intro d hd
    rw [utility, if_pos hd]
  · intro x
    have : exPost w hist bench = ∑ t, (x t - (∑ s, x s) / T) ^ 2 := rfl
    rw [this]
    cases T with
    | zero => simp
    | succ T => rw [mul_div_cancel₀]; positivity

/-- C38 for the Sharpe ratio: excess return over volatility, when the variance is positive. -/
theorem C38_sharpe (w mu : Fin n → ℝ) (cov : Matrix (Fin n) (Fin n) ℝ) (rf : ℝ) (neg : Bool)
    (h : 0 < ∑ i, ∑ j, w i * cov i j * w j) :
    sharpe w mu cov rf neg = .fin ((if neg then -1 else 1) *
      ((∑ i, w i * mu i - rf) / Real.sqrt (∑ i, ∑ j, w i * cov i j * w j))) := by
  rw [sharpe, quad_sum, fsqrt, if_neg (not_lt.2 h.le), fdiv, if_neg (Real.sqrt_pos.2 h).ne']
  rfl

/-- C38: the negative flag flips exactly the sign, also of infinities. -/
theorem C38_negative (w mu : Fin n → ℝ) (cov : Matrix (Fin n) (Fin n) ℝ) (rf d : ℝ) :
    ret w mu true = -ret w mu false ∧
    utility w mu cov d true = (utility w mu cov d false).map (-·) ∧
    (∀ x, sharpe w mu cov rf false = .fin x ↔ sharpe w mu cov rf true = .fin (-x)) ∧
    (sharpe w mu cov rf false = .posInf ↔ sharpe w mu cov rf true = .negInf) ∧
    (sharpe w mu cov rf false = .negInf ↔ sharpe w mu cov rf true = .posInf) ∧
    (sharpe w mu cov rf false = .nan ↔ sharpe w mu cov rf true = .nan) := by
  refine ⟨by simp [ret, sign], ?_, ?_⟩
  · unfold utility
    split
    · rfl
    · simp [sign, Except.map]
  · unfold sharpe
    generalize fdiv (w ⬝ᵥ mu - rf) (fsqrt (quad cov w)) = r
    cases r <;> simp [fsign, sign]

/-- C38: the penalties are non-negative and vanish exactly at zero weights, unchanged weights, the
benchmark weights, and (ex post) where the active return is the same in every period. -/
theorem C38_penalties (w wp b : Fin n → ℝ) (cov : Matrix (Fin n) (Fin n) ℝ) (g k : ℝ)
    (hist : Fin T → Fin n → ℝ) (bench : Fin T → ℝ) :
    (0 ≤ g → 0 ≤ l2 w g) ∧ (0 < g → (l2 w g = 0 ↔ w = 0)) ∧
    (0 ≤ k → 0 ≤ cost w wp k) ∧ (0 < k → (cost w wp k = 0 ↔ w = wp)) ∧
    (cov.PosSemidef → 0 ≤ variance w cov ∧ 0 ≤ exAnte w cov b ∧ exAnte b cov b = 0) ∧
    (cov.PosDef → (variance w cov = 0 ↔ w = 0) ∧ (exAnte w cov b = 0 ↔ w = b)) ∧
    0 ≤ exPost w hist bench ∧
    (exPost w hist bench = 0 ↔ ∀ s t, active w hist bench s = active w hist bench t) := by
  have hl : 0 ≤ ∑ i, w i ^ 2 := Finset.sum_nonneg (fun i _ => sq_nonneg _)
  have hc : 0 ≤ ∑ i, |w i - wp i| := Finset.sum_nonneg (fun i _ => abs_nonneg _)
  have hpd : cov.PosDef → ∀ x : Fin n → ℝ, quad cov x = 0 ↔ x = 0 := by
    intro h x
    constructor
    · intro hx
      by_contra hne
      have := h.dotProduct_mulVec_pos hne
      simp only [star_trivial] at this
      exact absurd hx (ne_of_gt this)
    · rintro rfl; simp [quad]
  refine ⟨fun h => mul_nonneg h hl, fun h => ?_, fun h => mul_nonneg h hc, fun h => ?_, fun h => ?_,
    fun h => ⟨hpd h w, (hpd h (w - b)).trans sub_eq_zero⟩, ?_, ?_⟩
  · rw [l2, mul_eq_zero, or_iff_right h.ne', Finset.sum_eq_zero_iff_of_nonneg (fun i _ => sq_nonneg _)]
    simp [funext_iff]
  · rw [cost, mul_eq_zero, or_iff_right h.ne', Finset.sum_eq_zero_iff_of_nonneg (fun i _ => abs_nonneg _)]
    simp [funext_iff, sub_eq_zero]
  · exact ⟨Verif.Risk.psd_nonneg h w, Verif.Risk.psd_nonneg h (w - b), by simp [exAnte, quad]⟩
  · exact Finset.sum_nonneg (fun t _ => sq_nonneg _)
  · rw [exPost, Finset.sum_eq_zero_iff_of_nonneg (fun t _ => sq_nonneg _)]
    constructor
    · intro h s t
      have hs := h s (Finset.mem_univ _)
      have ht := h t (Finset.mem_univ _)
      rw [sq_eq_zero_iff, sub_eq_zero] at hs ht
      rw [hs, ht]
    · intro h t _
      have : (∑ s, active w hist bench s) = T * active w hist bench t := by
        rw [Finset.sum_congr rfl (fun s _ => h s t)]; simp
      have hT : (T : ℝ) ≠ 0 := by have := t.pos; positivity
      rw [this, mul_div_cancel_left₀ _ hT, sub_self, zero_pow two_ne_zero]

theorem quad_convex {P : Matrix (Fin n) (Fin n) ℝ} (h : P.PosSemidef) (x y : Fin n → ℝ) (a b : ℝ)
    (ha : 0 ≤ a) (hb : 0 ≤ b) (hab : a + b = 1) :
    quad P (a • x + b • y) ≤ a * quad P x + b * quad P y := by
  have h0 := Verif.Risk.psd_nonneg h (x - y)
  have hsym : y ⬝ᵥ (P *ᵥ x) = x ⬝ᵥ (P *ᵥ y) := by
    rw [dotProduct_mulVec, dotProduct_comm, ← mulVec_transpose, Verif.Risk.psd_symm h]
  have e : a * quad P x + b * quad P y - quad P (a • x + b • y) = a * b * ((x - y) ⬝ᵥ (P *ᵥ (x - y))) := by
    obtain rfl : b = 1 - a := by linarith
    simp only [quad, mulVec_add, mulVec_sub, mulVec_smul, add_dotProduct, sub_dotProduct, dotProduct_add,
      dotProduct_sub, smul_dotProduct, dotProduct_smul, smul_eq_mul, hsym]
    ring
  have := mul_nonneg (mul_nonneg ha hb) h0
  linarith

/-- C38: variance, both tracking errors, the L2 penalty, transaction costs and the negative utility are
convex in the weights, for a positive semidefinite covariance and non-negative coefficients. -/
theorem C38_convex (mu wp b : Fin n → ℝ) {cov : Matrix (Fin n) (Fin n) ℝ} (h : cov.PosSemidef) (g k d : ℝ)
    (hg : 0 ≤ g) (hk : 0 ≤ k) (hd : 0 ≤ d) (hist : Fin T → Fin n → ℝ) (bench : Fin T → ℝ) :
    ConvexOn ℝ Set.univ (fun w => variance w cov) ∧
    ConvexOn ℝ Set.univ (fun w => exAnte w cov b) ∧
    ConvexOn ℝ Set.univ (fun w => exPost w hist bench) ∧
    ConvexOn ℝ Set.univ (fun w : Fin n → ℝ => l2 w g) ∧
    ConvexOn ℝ Set.univ (fun w => cost w wp k) ∧
    ∃ f : (Fin n → ℝ) → ℝ, (∀ w, utility w mu cov d true = .ok (f w)) ∧ ConvexOn ℝ Set.univ f := by
  have sqc : ∀ a c x y : ℝ, 0 ≤ a → 0 ≤ c → a + c = 1 → (a * x + c * y) ^ 2 ≤ a * x ^ 2 + c * y ^ 2 := by
    intro a c x y ha hc hac
    obtain rfl : c = 1 - a := by linarith
    nlinarith [mul_nonneg (mul_nonneg ha hc) (sq_nonneg (x - y))]
  refine ⟨⟨convex_univ, fun x _ y _ a c ha hc hac => quad_convex h x y a c ha hc hac⟩,
    ⟨convex_univ, fun x _ y _ a c ha hc hac => ?_⟩, ⟨convex_univ, fun x _ y _ a c ha hc hac => ?_⟩,
    ⟨convex_univ, fun x _ y _ a c ha hc hac => ?_⟩, ⟨convex_univ, fun x _ y _ a c ha hc hac => ?_⟩,
    fun w => -(w ⬝ᵥ mu - 0.5 * d * quad cov w), ?_, ⟨convex_univ, fun x _ y _ a c ha hc hac => ?_⟩⟩
  · have e : a • x + c • y - b = a • (x - b) + c • (y - b) := by
      obtain rfl : c = 1 - a := by linarith
      ext i; simp; ring
    simp only [exAnte, e, smul_eq_mul]
    exact quad_convex h _ _ a c ha hc hac
  · have ea : ∀ t, active (a • x + c • y) hist bench t = a * active x hist bench t + c * active y hist bench t := by
      intro t
      obtain rfl : c = 1 - a := by linarith
      simp only [active, add_dotProduct, smul_dotProduct, smul_eq_mul]
      ring
    simp only [exPost, ea, smul_eq_mul, Finset.mul_sum, ← Finset.sum_add_distrib]
    refine Finset.sum_le_sum (fun t _ => ?_)
    have : a * active x hist bench t + c * active y hist bench t -
        (∑ s, (a * active x hist bench s + c * active y hist bench s)) / T =
        a * (active x hist bench t - (∑ s, active x hist bench s) / T) +
        c * (active y hist bench t - (∑ s, active y hist bench s) / T) := by
      rw [Finset.sum_add_distrib, ← Finset.mul_sum, ← Finset.mul_sum]; ring
    rw [this]
    exact sqc _ _ _ _ ha hc hac
  · simp only [l2, smul_eq_mul, Pi.add_apply, Pi.smul_apply]
    have : ∑ i, (a * x i + c * y i) ^ 2 ≤ a * ∑ i, x i ^ 2 + c * ∑ i, y i ^ 2 := by
      rw [Finset.mul_sum, Finset.mul_sum, ← Finset.sum_add_distrib]
      exact Finset.sum_le_sum (fun i _ => sqc _ _ _ _ ha hc hac)
    have := mul_le_mul_of_nonneg_left this hg
    linarith
  · simp only [cost, smul_eq_mul, Pi.add_apply, Pi.smul_apply]
    have : ∑ i, |a * x i + c * y i - wp i| ≤ a * ∑ i, |x i - wp i| + c * ∑ i, |y i - wp i| := by
      rw [Finset.mul_sum, Finset.mul_sum, ← Finset.sum_add_distrib]
      refine Finset.sum_le_sum (fun i _ => ?_)
      have e : a * x i + c * y i - wp i = a * (x i - wp i) + c * (y i - wp i) := by
        obtain rfl : c = 1 - a := by linarith
        ring
      rw [e]
      refine (abs_add_le _ _).trans ?_
      rw [abs_mul, abs_mul, abs_of_nonneg ha, abs_of_nonneg hc]
    have := mul_le_mul_of_nonneg_left this hk
    linarith
  · intro w
    rw [utility, if_neg (not_lt.2 hd)]
    simp [sign]
  · have := mul_le_mul_of_nonneg_left (quad_convex h x y a c ha hc hac) (by linarith : (0 : ℝ) ≤ 0.5 * d)
    simp only [add_dotProduct, smul_dotProduct, smul_eq_mul] at this ⊢
    linarith

/-- The ex-post tracking error is documented as the variance of the active return.  It is not: with two
periods and active returns 1 and -1 the population variance is 1, the sample variance 2, and for four
periods 1, -1, 1, -1 they are 1 and 4/3, but the code returns 4. -/
theorem C38_ex_post_variance_false :
    let hist : Fin 4 → Fin 1 → ℝ := fun t _ => ![1, -1, 1, -1] t
    let x : Fin 4 → ℝ := ![1, -1, 1, -1]
    (∀ t, ∑ i, (fun _ => (1 : ℝ)) i * hist t i - 0 = x t) ∧
    exPost (fun _ => 1) hist (fun _ => 0) = 4 ∧
    (∑ t, (x t - (∑ s, x s) / 4) ^ 2) / 4 = 1 ∧
    (∑ t, (x t - (∑ s, x s) / 4) ^ 2) / (4 - 1) = 4 / 3 := by
  refine ⟨?_, ?_, ?_, ?_⟩
  · intro t; simp
  · simp [exPost, active, dotProduct, Fin.sum_univ_four]; norm_num
  · simp [Fin.sum_univ_four]; norm_num
  · simp [Fin.sum_univ_four]; norm_num

/-- The hypotheses are met: a covariance that is positive definite, and weights with positive variance. -/
example : (!![2, 1; 1, 2] : Matrix (Fin 2) (Fin 2) ℝ).PosSemidef ∧
    0 < ∑ i, ∑ j, ![(1 : ℝ) / 2, 1 / 2] i * !![2, 1; 1, (2 : ℝ)] i j * ![1 / 2, 1 / 2] j := by
  constructor
  · refine Verif.Risk.psd_of (by ext i j; fin_cases i <;> fin_cases j <;> rfl) (fun x => ?_)
    simp only [dotProduct, mulVec, Fin.sum_univ_two]
    simp
    nlinarith [sq_nonneg (x 0 + x 1), sq_nonneg (x 0), sq_nonneg (x 1)]
  · simp [Fin.sum_univ_two]; norm_num

end Verif.Obj
