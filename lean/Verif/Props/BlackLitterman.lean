import Verif.Proof.BlackLitterman

/-!
Black-Litterman posterior returns, posterior covariance and limiting cases (C22, C23, C24).  The
object may have been used in any way before: `run la natKey x cs` is the state after any sequence of
public calls on a fresh object.
-/

set_option linter.unusedSectionVars false
noncomputable section

namespace Verif.BL
open Verif.Py Verif.Base Verif.Perf Matrix

variable {κ : Type} [DecidableEq κ] {n k : ℕ}

/-! ### A concrete model: two assets, one relative view -/

/-- Covariance `[[2, 1], [1, 2]]`, the view that asset 0 beats asset 1 by 3, uncertainty 1, `τ = 1/2`. -/
def exInputs : Inputs ℕ 2 1 :=
  ⟨fun i => i, !![2, 1; 1, 2], fun _ => 3, !![1, -1], ![1, 1], !![1], 1 / 2, 1⟩

theorem exCov_posDef : (!![2, 1; 1, 2] : Matrix (Fin 2) (Fin 2) ℝ).PosDef := by
  refine PosDef.of_dotProduct_mulVec_pos ?_ ?_
  · ext i j; fin_cases i <;> fin_cases j <;> rfl
  · intro v hv
    have h : star v ⬝ᵥ (!![2, 1; 1, 2] : Matrix (Fin 2) (Fin 2) ℝ) *ᵥ v
        = v 0 ^ 2 + v 1 ^ 2 + (v 0 + v 1) ^ 2 := by
      simp [dotProduct, mulVec, Fin.sum_univ_two]; ring
    rw [h]
    have : v 0 ≠ 0 ∨ v 1 ≠ 0 := by
      by_contra hc
      push Not at hc
      exact hv (by funext i; fin_cases i <;> simp [hc.1, hc.2])
    rcases this with h0 | h0
    · have := sq_nonneg (v 1); have := sq_nonneg (v 0 + v 1); have := pow_pos (abs_pos.2 h0) 2
      rw [sq_abs] at this; linarith
    · have := sq_nonneg (v 0); have := sq_nonneg (v 0 + v 1); have := pow_pos (abs_pos.2 h0) 2
      rw [sq_abs] at this; linarith

theorem exOmega_posDef : (!![1] : Matrix (Fin 1) (Fin 1) ℝ).PosDef := by
  have : (!![1] : Matrix (Fin 1) (Fin 1) ℝ) = 1 := by ext i j; fin_cases i; fin_cases j; rfl
  rw [this]; exact PosDef.one

/-! ### C22 -/

/-- **C22.** After any history of calls, `bl_returns` is the master formula. -/
theorem C22_master_formula (la : LinAlg) (hla : la.Sound) (natKey : ℕ → κ) (x : Inputs κ n k)
    (hS : x.cov.PosDef) (hO : x.omega.PosDef) (hτ : 0 < x.tau) (cs : List (Call n)) :
    (blReturns la x (run la natKey x cs)).2 = masterReturns x.cov x.P x.omega x.tau x.pi x.Q := by
  have hA := (amat_posDef hS hO hτ).isUnit
  have hSu := (hS.smul hτ).isUnit
  have hpu := (prec_posDef hS hO hτ).isUnit
  rw [blReturns_eq (run_coherent la natKey x cs)]
  simp only [blReturns, getA_eq (coherent_init la x), getTSP_eq (coherent_init la x)]
  rw [solveOr_isUnit hla _ _ hA]
  set b := x.Q - x.P *ᵥ x.pi with hb
  have hy : (fun i => x.pi i + (tsp x * ((amat x)⁻¹ * col b)) i 0)
      = x.pi + (tsp x * (amat x)⁻¹) *ᵥ b := by
    funext i
    rw [← Matrix.mul_assoc]
    rfl
  rw [hy]
  have hmain : prec x *ᵥ (x.pi + (tsp x * (amat x)⁻¹) *ᵥ b)
      = (x.tau • x.cov)⁻¹ *ᵥ x.pi + x.Pᵀ *ᵥ (x.omega⁻¹ *ᵥ x.Q) := by
    rw [mulVec_add, mulVec_mulVec, prec_mul_tsp hSu hO.isUnit hA, hb, mulVec_sub, prec, add_mulVec,
      mulVec_mulVec, mulVec_mulVec, add_assoc, add_sub_cancel]
  unfold masterReturns
  rw [← hmain]
  change _ = (prec x)⁻¹ *ᵥ _
  rw [mulVec_mulVec, unit_inv_mul hpu, one_mulVec]

/-- **C22.** Two calls of `bl_returns`, whatever was called before either, return the same vector
(no assumption on the inputs or on the linear algebra beyond being a function). -/
theorem C22_repeatable (la : LinAlg) (natKey : ℕ → κ) (x : Inputs κ n k) (cs cs' : List (Call n)) :
    (blReturns la x (run la natKey x cs)).2 = (blReturns la x (run la natKey x cs')).2 := by
  rw [blReturns_eq (run_coherent la natKey x cs), blReturns_eq (run_coherent la natKey x cs')]

example : ∃ r, (blReturns exactLA exInputs (run exactLA id exInputs [.cov, .weights none])).2 = r ∧
    masterReturns exInputs.cov exInputs.P exInputs.omega exInputs.tau exInputs.pi exInputs.Q = r :=
  ⟨_, rfl, (C22_master_formula exactLA exactLA_sound id exInputs exCov_posDef exOmega_posDef
    (by norm_num [exInputs]) [.cov, .weights none]).symm⟩

/-! ### C23 -/

theorem blCov_val (la : LinAlg) (hla : la.Sound) (x : Inputs κ n k) (s : State n k)
    (h : Coherent la x s) (hS : x.cov.PosDef) (hO : x.omega.PosDef) (hτ : 0 < x.tau) :
    (blCov la x s).2 = x.cov + (x.tau • x.cov - tsp x * ((amat x)⁻¹ * (x.P * (x.tau • x.cov)))) := by
  simp only [blCov, getA_eq h, getTSP_eq h]
  rw [solveOr_isUnit hla _ _ (amat_posDef hS hO hτ).isUnit, tsp_transpose (symm_of_posDef hS)]

/-- **C23.** `bl_cov` is `S + [(τS)⁻¹ + P' Ω⁻¹ P]⁻¹`. -/
theorem C23_formula (la : LinAlg) (hla : la.Sound) (natKey : ℕ → κ) (x : Inputs κ n k)
    (hS : x.cov.PosDef) (hO : x.omega.PosDef) (hτ : 0 < x.tau) (cs : List (Call n)) :
    (blCov la x (run la natKey x cs)).2 = x.cov + postPrecInv x.cov x.P x.omega x.tau := by
  rw [blCov_val la hla x _ (run_coherent la natKey x cs) hS hO hτ]
  congr 1
  have h := prec_mul_M (hS.smul hτ).isUnit hO.isUnit (amat_posDef hS hO hτ).isUnit
  have hpu := (prec_posDef hS hO hτ).isUnit
  change _ = (prec x)⁻¹
  rw [← Matrix.mul_one (prec x)⁻¹, ← h, ← Matrix.mul_assoc (prec x)⁻¹ (prec x), unit_inv_mul hpu, Matrix.one_mul]

/-- **C23.** The posterior covariance is symmetric, positive definite, at least `S` and at most
`(1+τ) S` in the Loewner order. -/
theorem C23_valid (la : LinAlg) (hla : la.Sound) (natKey : ℕ → κ) (x : Inputs κ n k)
    (hS : x.cov.PosDef) (hO : x.omega.PosDef) (hτ : 0 < x.tau) (cs : List (Call n)) :
    let C := (blCov la x (run la natKey x cs)).2
    Cᵀ = C ∧ C.PosDef ∧ (C - x.cov).PosSemidef ∧ ((1 + x.tau) • x.cov - C).PosSemidef := by
  intro C
  have hC : C = x.cov + postPrecInv x.cov x.P x.omega x.tau := C23_formula la hla natKey x hS hO hτ cs
  have hp : (postPrecInv x.cov x.P x.omega x.tau).PosDef := (prec_posDef hS hO hτ).inv
  have hCd : C.PosDef := by rw [hC]; exact hS.add hp
  refine ⟨symm_of_posDef hCd, hCd, ?_, ?_⟩
  · rw [hC, add_sub_cancel_left]; exact hp.posSemidef
  · have hv : C = x.cov + (x.tau • x.cov - tsp x * ((amat x)⁻¹ * (x.P * (x.tau • x.cov)))) :=
      blCov_val la hla x _ (run_coherent la natKey x cs) hS hO hτ
    have : (1 + x.tau) • x.cov - C = tsp x * (amat x)⁻¹ * (tsp x)ᵀ := by
      rw [hv, tsp_transpose (symm_of_posDef hS), add_smul, one_smul, Matrix.mul_assoc (tsp x)]
      abel
    rw [this]
    exact psd_conj (amat_posDef hS hO hτ).inv.posSemidef (tsp x)

/-- **C23.** `bl_cov` does not depend on what was called before. -/
theorem C23_repeatable (la : LinAlg) (natKey : ℕ → κ) (x : Inputs κ n k) (cs cs' : List (Call n)) :
    (blCov la x (run la natKey x cs)).2 = (blCov la x (run la natKey x cs')).2 := by
  rw [blCov_eq (run_coherent la natKey x cs), blCov_eq (run_coherent la natKey x cs')]

example : ((blCov exactLA exInputs (run exactLA id exInputs [.returns])).2).PosDef :=
  (C23_valid exactLA exactLA_sound id exInputs exCov_posDef exOmega_posDef
    (by norm_num [exInputs]) [.returns]).2.1

/-! ### C24 -/

/-- **C24.** Views that agree with the prior leave it unchanged, whatever the covariance, the view
uncertainty (also singular) and the history. -/
theorem C24_consistent_views (la : LinAlg) (hla : la.Sound) (natKey : ℕ → κ) (x : Inputs κ n k)
    (hQ : x.Q = x.P *ᵥ x.pi) (cs : List (Call n)) :
    (blReturns la x (run la natKey x cs)).2 = x.pi := by
  rw [blReturns_eq (run_coherent la natKey x cs)]
  simp only [blReturns]
  have : col (x.Q - x.P *ᵥ x.pi) = 0 := by
    rw [hQ, sub_self]; rfl
  rw [this, solveOr_zero hla, Matrix.mul_zero]
  funext i
  exact add_zero _

theorem posterior_views (la : LinAlg) (natKey : ℕ → κ) (x : Inputs κ n k) (cs : List (Call n)) :
    x.P *ᵥ (blReturns la x (run la natKey x cs)).2
      = x.P *ᵥ x.pi + fun i => ((x.P * tsp x) * solveOr la (amat x) (col (x.Q - x.P *ᵥ x.pi))) i 0 := by
  rw [blReturns_eq (run_coherent la natKey x cs)]
  simp only [blReturns, getA_eq (coherent_init la x), getTSP_eq (coherent_init la x)]
  rw [Matrix.mul_assoc x.P]
  funext i
  simp only [mulVec, dotProduct, Pi.add_apply, Matrix.mul_apply, mul_add, Finset.sum_add_distrib]

/-- **C24.** A view without uncertainty (zero row of `Ω`) is met exactly by the posterior, other
views may be uncertain.  `P τS P' + Ω` must be non-singular. -/
theorem C24_certain_view (la : LinAlg) (hla : la.Sound) (natKey : ℕ → κ) (x : Inputs κ n k)
    (hA : IsUnit (x.P * (x.tau • x.cov) * x.Pᵀ + x.omega)) (i : Fin k) (hi : ∀ j, x.omega i j = 0)
    (cs : List (Call n)) :
    (x.P *ᵥ (blReturns la x (run la natKey x cs)).2) i = x.Q i := by
  rw [posterior_views]
  rw [← amat_eq] at hA
  have hsol : amat x * solveOr la (amat x) (col (x.Q - x.P *ᵥ x.pi)) = col (x.Q - x.P *ᵥ x.pi) := by
    rw [solveOr_isUnit hla _ _ hA, ← Matrix.mul_assoc, unit_mul_inv hA, Matrix.one_mul]
  have h1 := congrFun (congrFun hsol i) 0
  have h2 : (amat x * solveOr la (amat x) (col (x.Q - x.P *ᵥ x.pi))) i 0
      = ((x.P * tsp x) * solveOr la (amat x) (col (x.Q - x.P *ᵥ x.pi))) i 0 := by
    rw [amat, Matrix.add_mul, Matrix.add_apply, Matrix.mul_apply (M := x.omega)]
    simp [hi]
  rw [h2] at h1
  rw [Pi.add_apply, h1]
  simp [col]

/-- **C24.** With zero uncertainty and views some return vector can satisfy, the posterior satisfies
every view exactly, also when views are redundant and the system is singular. -/
theorem C24_certain_views (la : LinAlg) (hla : la.Sound) (natKey : ℕ → κ) (x : Inputs κ n k)
    (hS : x.cov.PosDef) (hτ : 0 < x.tau) (hO : x.omega = 0) (r : Fin n → ℝ) (hr : x.P *ᵥ r = x.Q)
    (cs : List (Call n)) :
    x.P *ᵥ (blReturns la x (run la natKey x cs)).2 = x.Q := by
  rw [posterior_views]
  have hAe : amat x = x.P * (x.tau • x.cov) * x.Pᵀ := by rw [amat_eq, hO, add_zero]
  set A := amat x with hA
  set X := solveOr la A (col (x.Q - x.P *ᵥ x.pi)) with hX
  have hAt : Aᵀ = A := by rw [hAe]; exact symm_of_posSemidef (psd_conj (hS.smul hτ).posSemidef x.P)
  have hn : Aᵀ * (A * X) = Aᵀ * col (x.Q - x.P *ᵥ x.pi) := solveOr_normal hla A _
  have hb : col (x.Q - x.P *ᵥ x.pi) = x.P * col (r - x.pi) := by
    rw [← hr, ← mulVec_sub]; rfl
  have hPA : x.P * tsp x = A := by rw [hAe, tsp, Matrix.mul_assoc]
  -- A (A X - b) = 0 and A X - b = P u, so u' P' ... vanishes
  set u : Fin n → ℝ := (fun i => (tsp x * X) i 0) - (r - x.pi) with hu
  have hPu : x.P *ᵥ u = fun i => (A * X) i 0 - col (x.Q - x.P *ᵥ x.pi) i 0 := by
    rw [hu, mulVec_sub, hb, ← hPA, Matrix.mul_assoc]; rfl
  have hAPu : A *ᵥ (x.P *ᵥ u) = 0 := by
    rw [hPu]
    funext i
    have := congrFun (congrFun hn i) 0
    rw [hAt] at this
    have h2 : (A * (A * X - col (x.Q - x.P *ᵥ x.pi))) i 0 = 0 := by
      rw [Matrix.mul_sub, Matrix.sub_apply, this, sub_self]
    exact h2
  have hPt : x.Pᵀ *ᵥ (x.P *ᵥ u) = 0 := by
    by_contra hne
    have hpos := (hS.smul hτ).dotProduct_mulVec_pos hne
    have h0 : (x.P *ᵥ u) ⬝ᵥ (A *ᵥ (x.P *ᵥ u)) = 0 := by rw [hAPu, dotProduct_zero]
    rw [hAe, ← mulVec_mulVec, ← mulVec_mulVec, dotProduct_mulVec, ← mulVec_transpose] at h0
    rw [star_trivial] at hpos
    linarith
  have hz : x.P *ᵥ u = 0 := by
    have h0 : u ⬝ᵥ (x.Pᵀ *ᵥ (x.P *ᵥ u)) = 0 := by rw [hPt, dotProduct_zero]
    rw [dotProduct_mulVec, ← mulVec_transpose, transpose_transpose] at h0
    exact dotProduct_self_eq_zero.1 h0
  have hAX : ∀ i, (A * X) i 0 = (x.Q - x.P *ᵥ x.pi) i := by
    intro i
    have := congrFun hPu i
    rw [hz] at this
    have : (A * X) i 0 - (x.Q - x.P *ᵥ x.pi) i = 0 := this.symm
    linarith
  funext i
  rw [Pi.add_apply, hPA, hAX i]
  simp

/-- The model of the examples with a certain view. -/
def exCertain : Inputs ℕ 2 1 := { exInputs with omega := 0 }

example : exCertain.P *ᵥ (blReturns exactLA exCertain (run exactLA id exCertain [])).2 = exCertain.Q :=
  C24_certain_views exactLA exactLA_sound id exCertain exCov_posDef (by norm_num [exCertain, exInputs]) rfl
    ![3, 0] (by funext i; fin_cases i; simp [exCertain, exInputs, mulVec, dotProduct, Fin.sum_univ_two]) []

/-- The certain view of the example disagrees with the prior, so the posterior really moves. -/
example : (blReturns exactLA exCertain (run exactLA id exCertain [])).2 ≠ exCertain.pi := by
  intro h
  have := C24_certain_views exactLA exactLA_sound id exCertain exCov_posDef
    (by norm_num [exCertain, exInputs]) rfl
    ![3, 0] (by funext i; fin_cases i; simp [exCertain, exInputs, mulVec, dotProduct, Fin.sum_univ_two]) []
  rw [h] at this
  have := congrFun this 0
  simp [exCertain, exInputs, mulVec, dotProduct, Fin.sum_univ_two] at this

end Verif.BL
