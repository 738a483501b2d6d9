import Verif.Spec.Compromise
import Verif.Props.Views
import Mathlib.Analysis.Matrix.Order

/-! Property theorem C87: the posterior is the compromise between prior and views. -/

set_option linter.unusedSectionVars false
noncomputable section

namespace Verif.BL
open Verif.Py Verif.Base Verif.Perf Matrix

variable {κ : Type} [DecidableEq κ] {n k m : ℕ}

/-! ### The least total distance -/

theorem quad_add {G : Matrix (Fin m) (Fin m) ℝ} (hG : Gᵀ = G) (a b : Fin m → ℝ) :
    (a + b) ⬝ᵥ (G *ᵥ (a + b)) = a ⬝ᵥ (G *ᵥ a) + 2 * (b ⬝ᵥ (G *ᵥ a)) + b ⬝ᵥ (G *ᵥ b) := by
  have h : a ⬝ᵥ (G *ᵥ b) = b ⬝ᵥ (G *ᵥ a) := by
    rw [dotProduct_mulVec, ← mulVec_transpose, hG, dotProduct_comm]
  rw [mulVec_add, add_dotProduct, dotProduct_add, dotProduct_add, h]
  ring

theorem inv_symm {W : Matrix (Fin m) (Fin m) ℝ} (h : W.PosDef) : (W⁻¹)ᵀ = W⁻¹ := symm_of_posDef h.inv

theorem dissent_add (x : Inputs κ n k) (hS : (x.tau • x.cov).PosDef) (hO : x.omega.PosDef) (r d : Fin n → ℝ)
    (hr : prec x *ᵥ r = (x.tau • x.cov)⁻¹ *ᵥ x.pi + x.Pᵀ *ᵥ (x.omega⁻¹ *ᵥ x.Q)) :
    fromPrior x (r + d) + fromViews x (r + d) = fromPrior x r + fromViews x r + d ⬝ᵥ (prec x *ᵥ d) := by
  unfold fromPrior fromViews strain
  have e1 : r + d - x.pi = (r - x.pi) + d := by abel
  have e2 : x.Q - x.P *ᵥ (r + d) = (x.Q - x.P *ᵥ r) + (-(x.P *ᵥ d)) := by rw [mulVec_add]; abel
  have hl : d ⬝ᵥ ((x.tau • x.cov)⁻¹ *ᵥ (r - x.pi)) = (x.P *ᵥ d) ⬝ᵥ (x.omega⁻¹ *ᵥ (x.Q - x.P *ᵥ r)) := by
    have h1 : (x.P *ᵥ d) ⬝ᵥ (x.omega⁻¹ *ᵥ (x.Q - x.P *ᵥ r)) =
        d ⬝ᵥ (x.Pᵀ *ᵥ (x.omega⁻¹ *ᵥ (x.Q - x.P *ᵥ r))) := by
      rw [dotProduct_mulVec d x.Pᵀ, ← mulVec_transpose, transpose_transpose]
    rw [h1]
    congr 1
    rw [prec, add_mulVec, ← mulVec_mulVec, ← mulVec_mulVec] at hr
    rw [mulVec_sub, mulVec_sub, mulVec_sub, sub_eq_sub_iff_add_eq_add, hr]
    abel
  have hq : d ⬝ᵥ (prec x *ᵥ d) =
      d ⬝ᵥ ((x.tau • x.cov)⁻¹ *ᵥ d) + (x.P *ᵥ d) ⬝ᵥ (x.omega⁻¹ *ᵥ (x.P *ᵥ d)) := by
    rw [prec, add_mulVec, dotProduct_add, ← mulVec_mulVec, ← mulVec_mulVec, dotProduct_mulVec d x.Pᵀ,
      ← mulVec_transpose, transpose_transpose]
  rw [e1, e2, quad_add (inv_symm hS), quad_add (inv_symm hO), hl, hq, neg_dotProduct, neg_dotProduct, mulVec_neg,
    dotProduct_neg]
  ring

theorem posterior_prec (la : LinAlg) (hla : la.Sound) (natKey : ℕ → κ) (x : Inputs κ n k)
    (hS : x.cov.PosDef) (hO : x.omega.PosDef) (hτ : 0 < x.tau) (cs : List (Call n)) :
    prec x *ᵥ (blReturns la x (run la natKey x cs)).2 =
      (x.tau • x.cov)⁻¹ *ᵥ x.pi + x.Pᵀ *ᵥ (x.omega⁻¹ *ᵥ x.Q) := by
  rw [C22_master_formula la hla natKey x hS hO hτ cs, masterReturns]
  change prec x *ᵥ ((prec x)⁻¹ *ᵥ _) = _
  rw [mulVec_mulVec, unit_mul_inv (prec_posDef hS hO hτ).isUnit, one_mulVec]

/-- C87: the posterior returns are closer to prior and views together than any other returns. -/
theorem C87_compromise (la : LinAlg) (hla : la.Sound) (natKey : ℕ → κ) (x : Inputs κ n k)
    (hS : x.cov.PosDef) (hO : x.omega.PosDef) (hτ : 0 < x.tau) (cs : List (Call n)) (r : Fin n → ℝ)
    (hr : r ≠ (blReturns la x (run la natKey x cs)).2) :
    fromPrior x (blReturns la x (run la natKey x cs)).2 + fromViews x (blReturns la x (run la natKey x cs)).2
      < fromPrior x r + fromViews x r := by
  set p := (blReturns la x (run la natKey x cs)).2 with hp
  have h := dissent_add x (hS.smul hτ) hO p (r - p) (posterior_prec la hla natKey x hS hO hτ cs)
  rw [add_sub_cancel] at h
  have hpos := (prec_posDef hS hO hτ).dotProduct_mulVec_pos (sub_ne_zero.2 hr)
  rw [star_trivial] at hpos
  linarith

/-- C87: the posterior fits the views at least as well as the prior does, better by at least the
distance it has moved. -/
theorem C87_fit (la : LinAlg) (hla : la.Sound) (natKey : ℕ → κ) (x : Inputs κ n k)
    (hS : x.cov.PosDef) (hO : x.omega.PosDef) (hτ : 0 < x.tau) (cs : List (Call n)) :
    fromViews x (blReturns la x (run la natKey x cs)).2 +
      fromPrior x (blReturns la x (run la natKey x cs)).2 ≤ fromViews x x.pi := by
  have h0 : fromPrior x x.pi = 0 := by
    unfold fromPrior strain
    rw [sub_self, zero_dotProduct]
  by_cases h : x.pi = (blReturns la x (run la natKey x cs)).2
  · rw [← h, h0, add_zero]
  · have := C87_compromise la hla natKey x hS hO hτ cs _ h
    linarith

/-! ### Uncorrelated views -/

theorem view_cov (x : Inputs κ n k) (a b : Fin k) :
    (x.P * tsp x) a b = x.tau * (x.P a ⬝ᵥ (x.cov *ᵥ x.P b)) := by
  rw [tsp, Matrix.smul_mul, Matrix.mul_smul, Matrix.smul_apply, smul_eq_mul, Matrix.mul_apply]
  rfl

/-- The posterior misses the views by `Ω` times the solution of the linear system. -/
theorem posterior_gap (la : LinAlg) (hla : la.Sound) (natKey : ℕ → κ) (x : Inputs κ n k)
    (hA : IsUnit (amat x)) (cs : List (Call n)) :
    x.Q - x.P *ᵥ (blReturns la x (run la natKey x cs)).2 =
      x.omega *ᵥ ((amat x)⁻¹ *ᵥ (x.Q - x.P *ᵥ x.pi)) := by
  rw [posterior_views, solveOr_isUnit hla _ _ hA]
  set b := x.Q - x.P *ᵥ x.pi with hb
  have h1 : (fun i => (x.P * tsp x * ((amat x)⁻¹ * col b)) i 0) = (x.P * tsp x) *ᵥ ((amat x)⁻¹ *ᵥ b) := rfl
  have h2 : x.P * tsp x = amat x - x.omega := by rw [amat, add_sub_cancel_right]
  rw [h1, h2, sub_mulVec, mulVec_mulVec, unit_mul_inv hA, one_mulVec, hb]
  abel

/-- C87: for views about uncorrelated portfolios, in particular for a single view, the posterior
return of the portfolio a view is about is an average of prior and view, the view weighted with the
variance `τ p S p'` of the prior and the prior with the uncertainty of the view. -/
theorem C87_average (la : LinAlg) (hla : la.Sound) (natKey : ℕ → κ) (x : Inputs κ n k) (o : Fin k → ℝ)
    (hO : x.omega = diagonal o) (hU : Uncorrelated x) (hne : ∀ a, x.tau * pickVar x a + o a ≠ 0)
    (cs : List (Call n)) (a : Fin k) :
    (x.P *ᵥ (blReturns la x (run la natKey x cs)).2) a =
      (x.tau * pickVar x a * x.Q a + o a * (x.P *ᵥ x.pi) a) / (x.tau * pickVar x a + o a) := by
  have hA : amat x = diagonal fun a => x.tau * pickVar x a + o a := by
    ext a b
    rw [amat, Matrix.add_apply, view_cov, hO]
    by_cases hab : a = b
    · subst hab
      rw [diagonal_apply_eq, diagonal_apply_eq]
      rfl
    · rw [diagonal_apply_ne _ hab, diagonal_apply_ne _ hab, hU a b hab]
      ring
  have hu : IsUnit (amat x) := by
    rw [hA, isUnit_iff_isUnit_det, det_diagonal]
    exact (Finset.prod_ne_zero_iff.2 fun a _ => hne a).isUnit
  have hg := congrFun (posterior_gap la hla natKey x hu cs) a
  have hs : (amat x)⁻¹ *ᵥ (x.Q - x.P *ᵥ x.pi) =
      fun a => (x.Q - x.P *ᵥ x.pi) a / (x.tau * pickVar x a + o a) := by
    have : amat x *ᵥ (fun a => (x.Q - x.P *ᵥ x.pi) a / (x.tau * pickVar x a + o a)) =
        x.Q - x.P *ᵥ x.pi := by
      funext a
      rw [hA, mulVec_diagonal]
      have := hne a
      field_simp
    conv_lhs => rw [← this]
    rw [mulVec_mulVec, unit_inv_mul hu, one_mulVec]
  rw [hs, hO, mulVec_diagonal, Pi.sub_apply, Pi.sub_apply] at hg
  have := hne a
  rw [eq_div_iff this]
  field_simp at hg
  linarith

/-- C87: with Idzorek's method each of uncorrelated views, in particular a single one, moves the
return of its portfolio from the prior the fraction of the way to the view that is the confidence in
it.  Missing: zero confidences, see `C87_zero_confidence_false`. -/
theorem C87_idzorek_partial (la : LinAlg) (hla : la.Sound) (natKey : ℕ → κ) (x : Inputs κ n k) (q : Fin k → ℝ)
    (hq : ∀ a, 0 < q a ∧ q a ≤ 1) (hx : idzorek (List.ofFn q) x.cov x.P x.tau = .ok x.omega)
    (hU : Uncorrelated x) (hv : ∀ a, pickVar x a ≠ 0) (hτ : x.tau ≠ 0) (cs : List (Call n)) (a : Fin k) :
    (x.P *ᵥ (blReturns la x (run la natKey x cs)).2) a =
      (x.P *ᵥ x.pi) a + q a * (x.Q a - (x.P *ᵥ x.pi) a) := by
  rw [idzorek_sure _ _ _ _ hq] at hx
  have hO := (Except.ok.inj hx).symm
  have hs : ∀ a, x.tau * pickVar x a + x.tau * ((1 - q a) / q a) * (x.P a ⬝ᵥ (x.cov *ᵥ x.P a)) =
      x.tau * pickVar x a / q a := by
    intro a
    have := (hq a).1
    change _ + x.tau * ((1 - q a) / q a) * pickVar x a = _
    field_simp
    ring
  rw [C87_average la hla natKey x _ hO hU (fun a => by
    rw [hs]; exact div_ne_zero (mul_ne_zero hτ (hv a)) (hq a).1.ne') cs a, hs]
  change (_ + x.tau * ((1 - q a) / q a) * pickVar x a * _) / _ = _
  have := (hq a).1
  have := hv a
  field_simp
  ring

/-- C87: with the default uncertainty it moves half the way. -/
theorem C87_default (la : LinAlg) (hla : la.Sound) (natKey : ℕ → κ) (x : Inputs κ n k)
    (hx : x.omega = defaultOmega x.cov x.P x.tau)
    (hU : Uncorrelated x) (hv : ∀ a, pickVar x a ≠ 0) (hτ : x.tau ≠ 0) (cs : List (Call n)) (a : Fin k) :
    (x.P *ᵥ (blReturns la x (run la natKey x cs)).2) a = ((x.P *ᵥ x.pi) a + x.Q a) / 2 := by
  rw [defaultOmega_diag] at hx
  have hs : ∀ a, x.tau * pickVar x a + x.tau * (x.P a ⬝ᵥ (x.cov *ᵥ x.P a)) = 2 * (x.tau * pickVar x a) := by
    intro a
    change _ + x.tau * pickVar x a = _
    ring
  rw [C87_average la hla natKey x _ hx hU (fun a => by
    rw [hs]; exact mul_ne_zero two_ne_zero (mul_ne_zero hτ (hv a))) cs a, hs]
  change (_ + x.tau * pickVar x a * _) / _ = _
  have := hv a
  field_simp
  ring

/-! ### More certainty about one view -/

theorem amat_psd (x : Inputs κ n k) (hS : x.cov.PosSemidef) (hτ : 0 ≤ x.tau) (hO : x.omega.PosSemidef) :
    (amat x).PosSemidef := by
  rw [amat_eq]
  exact (psd_conj (hS.smul hτ) x.P).add hO

/-- C87: if the uncertainty of one view is reduced and nothing else is changed, the posterior does not
miss that view by more. -/
theorem C87_more_certain (la : LinAlg) (hla : la.Sound) (natKey : ℕ → κ) (x y : Inputs κ n k)
    (hS : x.cov.PosSemidef) (hτ : 0 ≤ x.tau) (o o' : Fin k → ℝ) (hx : x.omega = diagonal o)
    (hy : y = { x with omega := diagonal o' }) (a : Fin k) (ha : o' a ≤ o a) (hb : ∀ b, b ≠ a → o' b = o b)
    (h0 : ∀ b, 0 ≤ o' b) (hA : IsUnit (y.P * (y.tau • y.cov) * y.Pᵀ + y.omega)) (cs cs' : List (Call n)) :
    |y.Q a - (y.P *ᵥ (blReturns la y (run la natKey y cs')).2) a| ≤
      |x.Q a - (x.P *ᵥ (blReturns la x (run la natKey x cs)).2) a| := by
  rw [← amat_eq] at hA
  have hyo : y.omega = diagonal o' := by rw [hy]
  have hyQ : y.Q - y.P *ᵥ y.pi = x.Q - x.P *ᵥ x.pi := by rw [hy]
  have hyp : (amat y).PosSemidef := amat_psd y (by rw [hy]; exact hS) (by rw [hy]; exact hτ)
    (by rw [hyo]; exact PosSemidef.diagonal h0)
  have hyd : (amat y).PosDef := hyp.posDef_iff_isUnit.2 hA
  have hxy : amat x = amat y + diagonal (Pi.single a (o a - o' a)) := by
    have h1 : amat y = x.P * tsp x + diagonal o' := by rw [amat, hy]; rfl
    rw [h1, amat, hx, add_assoc, diagonal_add]
    congr 2
    funext b
    by_cases hba : b = a
    · subst hba; simp
    · simp [Pi.single_eq_of_ne hba, hb b hba]
  have hd : 0 ≤ o a - o' a := by linarith
  have hxu : IsUnit (amat x) := by
    rw [hxy]
    refine (hyd.add_posSemidef (PosSemidef.diagonal fun b => ?_)).isUnit
    by_cases hba : b = a
    · subst hba; simpa using ha
    · simp [Pi.single_eq_of_ne hba]
  have gx := congrFun (posterior_gap la hla natKey x hxu cs) a
  have gy := congrFun (posterior_gap la hla natKey y hA cs') a
  rw [hx, mulVec_diagonal, Pi.sub_apply] at gx
  rw [hyo, mulVec_diagonal, Pi.sub_apply, hyQ] at gy
  rw [gx, gy]
  set b := x.Q - x.P *ᵥ x.pi with hbd
  set s := (amat x)⁻¹ *ᵥ b with hs
  set s' := (amat y)⁻¹ *ᵥ b with hs'
  have h1 : amat x *ᵥ s = b := by rw [hs, mulVec_mulVec, unit_mul_inv hxu, one_mulVec]
  have h2 : amat y *ᵥ s' = b := by rw [hs', mulVec_mulVec, unit_mul_inv hA, one_mulVec]
  set z := (amat y)⁻¹ *ᵥ Pi.single a 1 with hz
  have h3 : amat y *ᵥ z = Pi.single a 1 := by rw [hz, mulVec_mulVec, unit_mul_inv hA, one_mulVec]
  set d := o a - o' a with hdd
  have h4 : amat y *ᵥ (s' - s) = (d * s a) • Pi.single a 1 := by
    rw [mulVec_sub, h2, ← h1, hxy, add_mulVec, add_sub_cancel_left]
    funext c
    rw [mulVec_diagonal]
    by_cases hca : c = a
    · subst hca; simp
    · simp [Pi.single_eq_of_ne hca]
  have h5 : s' - s = (d * s a) • z := by
    have h6 : amat y *ᵥ ((d * s a) • z) = (d * s a) • Pi.single a 1 := by rw [mulVec_smul, h3]
    have h7 : (amat y)⁻¹ *ᵥ (amat y *ᵥ (s' - s)) = (amat y)⁻¹ *ᵥ (amat y *ᵥ ((d * s a) • z)) := by
      rw [h4, h6]
    simpa only [mulVec_mulVec, unit_inv_mul hA, one_mulVec] using h7
  have h6 : s' a = s a * (1 + d * z a) := by
    have := congrFun h5 a
    simp only [Pi.sub_apply, Pi.smul_apply, smul_eq_mul] at this
    linarith
  -- the variance `z a` of the view is between `0` and `1 / o' a`
  have h7 : z a = z ⬝ᵥ (amat y *ᵥ z) := by rw [h3]; simp
  have h8 : o' a * (z a) ^ 2 ≤ z a := by
    have h9 : z ⬝ᵥ (amat y *ᵥ z) = z ⬝ᵥ ((y.P * (y.tau • y.cov) * y.Pᵀ) *ᵥ z) + ∑ c, o' c * z c ^ 2 := by
      rw [amat_eq, add_mulVec, dotProduct_add, hyo]
      congr 1
      refine Finset.sum_congr rfl fun c _ => ?_
      rw [mulVec_diagonal]
      ring
    have h10 : 0 ≤ z ⬝ᵥ ((y.P * (y.tau • y.cov) * y.Pᵀ) *ᵥ z) := by
      have := (psd_conj (hS.smul hτ) x.P).dotProduct_mulVec_nonneg z
      rw [star_trivial] at this
      rw [hy]
      exact this
    have h11 : o' a * z a ^ 2 ≤ ∑ c, o' c * z c ^ 2 :=
      Finset.single_le_sum (f := fun c => o' c * z c ^ 2) (fun c _ => mul_nonneg (h0 c) (sq_nonneg _))
        (Finset.mem_univ a)
    rw [← h7] at h9
    linarith
  have h12 : 0 ≤ z a := le_trans (mul_nonneg (h0 a) (sq_nonneg _)) h8
  have h13 : o' a * z a ≤ 1 := by
    rcases h12.eq_or_lt with h | h
    · rw [← h]; norm_num
    · nlinarith
  rw [h6, abs_mul, abs_mul, abs_mul, abs_of_nonneg (h0 a), abs_of_nonneg ((h0 a).trans ha),
    abs_of_nonneg (by nlinarith : 0 ≤ 1 + d * z a), mul_comm |s a|, ← mul_assoc]
  refine mul_le_mul_of_nonneg_right ?_ (abs_nonneg _)
  nlinarith

/-- C87: if the confidence in one view is raised and nothing else is changed, the posterior does not
miss that view by more. -/
theorem C87_more_confident (la : LinAlg) (hla : la.Sound) (natKey : ℕ → κ) (x y : Inputs κ n k)
    (hS : x.cov.PosSemidef) (hτ : 0 ≤ x.tau) (q q' : Fin k → ℝ) (hq : ∀ b, 0 < q b ∧ q b ≤ 1) (a : Fin k)
    (ha : q a ≤ q' a) (ha1 : q' a ≤ 1) (hb : ∀ b, b ≠ a → q' b = q b)
    (hx : idzorek (List.ofFn q) x.cov x.P x.tau = .ok x.omega)
    (hy : idzorek (List.ofFn q') x.cov x.P x.tau = .ok y.omega) (hxy : y = { x with omega := y.omega })
    (hA : IsUnit (y.P * (y.tau • y.cov) * y.Pᵀ + y.omega)) (cs cs' : List (Call n)) :
    |y.Q a - (y.P *ᵥ (blReturns la y (run la natKey y cs')).2) a| ≤
      |x.Q a - (x.P *ᵥ (blReturns la x (run la natKey x cs)).2) a| := by
  have hq' : ∀ b, 0 < q' b ∧ q' b ≤ 1 := by
    intro b
    by_cases hba : b = a
    · subst hba; exact ⟨(hq b).1.trans_le ha, ha1⟩
    · rw [hb b hba]; exact hq b
  rw [idzorek_sure _ _ _ _ hq] at hx
  rw [idzorek_sure _ _ _ _ hq'] at hy
  have hv : ∀ b, 0 ≤ x.P b ⬝ᵥ (x.cov *ᵥ x.P b) := by
    intro b
    have := hS.dotProduct_mulVec_nonneg (x.P b)
    rwa [star_trivial] at this
  have hyo := (Except.ok.inj hy).symm
  refine C87_more_certain la hla natKey x y hS hτ _ _ (Except.ok.inj hx).symm (hyo ▸ hxy) a ?_ ?_ ?_ hA cs cs'
  · refine mul_le_mul_of_nonneg_right (mul_le_mul_of_nonneg_left ?_ hτ) (hv a)
    rw [div_le_div_iff₀ (hq' a).1 (hq a).1]
    nlinarith
  · intro b hba
    simp only [hb b hba]
  · intro b
    exact mul_nonneg (mul_nonneg hτ (div_nonneg (by linarith [(hq' b).2]) (hq' b).1.le)) (hv b)

/-- C87 fails for a view of zero confidence, whose uncertainty is 1000000 in any unit: one asset of
prior 0, and the view `1000 r = 1000`; the posterior return is half the way from prior to view. -/
theorem C87_zero_confidence_false (la : LinAlg) (hla : la.Sound) (natKey : ℕ → ℕ) (cs : List (Call 1)) :
    idzorek [0] (doubtful 1000).cov (doubtful 1000).P (doubtful 1000).tau = .ok (doubtful 1000).omega ∧
    ((doubtful 1000).P *ᵥ (doubtful 1000).pi) 0 = 0 ∧ (doubtful 1000).Q 0 = 1000 ∧
    ((doubtful 1000).P *ᵥ (blReturns la (doubtful 1000) (run la natKey (doubtful 1000) cs)).2) 0 = 500 := by
  refine ⟨doubtful_omega 1000, ?_, rfl, ?_⟩
  · simp [doubtful, mulVec, dotProduct]
  · have := doubtful_returns la hla natKey 1000 cs
    simp only [mulVec, dotProduct, Fin.sum_univ_one, this]
    simp [doubtful]
    norm_num

/-! ### Concrete cases -/

example (cs : List (Call 2)) (r : Fin 2 → ℝ)
    (hr : r ≠ (blReturns exactLA exInputs (run exactLA id exInputs cs)).2) :
    fromPrior exInputs (blReturns exactLA exInputs (run exactLA id exInputs cs)).2 +
      fromViews exInputs (blReturns exactLA exInputs (run exactLA id exInputs cs)).2 <
      fromPrior exInputs r + fromViews exInputs r :=
  C87_compromise exactLA exactLA_sound id exInputs exCov_posDef exOmega_posDef (by norm_num [exInputs]) cs r hr

theorem ex_single : Uncorrelated exInputs := fun a b hab => absurd (Subsingleton.elim a b) hab

theorem ex_pickVar (a : Fin 1) : pickVar exInputs a = 2 := by
  fin_cases a
  simp [pickVar, exInputs, dotProduct, mulVec, Fin.sum_univ_two]
  norm_num

/-- The view of the examples, that asset 0 beats asset 1 by 3, against the prior that they are equal:
with an uncertainty of 1 and a prior variance of 1 the posterior difference is 3/2. -/
example (cs : List (Call 2)) :
    (exInputs.P *ᵥ (blReturns exactLA exInputs (run exactLA id exInputs cs)).2) 0 = 3 / 2 := by
  have ho : exInputs.omega = diagonal fun _ => 1 := by
    ext a b; fin_cases a; fin_cases b; rfl
  have hp : (exInputs.P *ᵥ exInputs.pi) 0 = 0 := by
    simp [exInputs, mulVec, dotProduct, Fin.sum_univ_two]
  rw [C87_average exactLA exactLA_sound id exInputs (fun _ => 1) ho ex_single
    (fun a => by rw [ex_pickVar]; norm_num [exInputs]) cs 0, ex_pickVar, hp]
  norm_num [exInputs]

/-- With a confidence of 1/4 it is a quarter of 3, with 1/3 a third. -/
theorem ex_confident (q : ℝ) (h0 : 0 < q) (h1 : q ≤ 1) (cs : List (Call 2)) :
    ∃ x : Inputs ℕ 2 1, x = { exInputs with omega := x.omega } ∧
      idzorek [q] exInputs.cov exInputs.P exInputs.tau = .ok x.omega ∧
      (x.P *ᵥ (blReturns exactLA x (run exactLA id x cs)).2) 0 = q * 3 := by
  obtain ⟨o, ho⟩ : ∃ o, idzorek (List.ofFn fun _ : Fin 1 => q) exInputs.cov exInputs.P exInputs.tau = .ok o :=
    ⟨_, idzorek_sure exInputs.cov exInputs.P exInputs.tau (fun _ => q) fun _ => ⟨h0, h1⟩⟩
  refine ⟨{ exInputs with omega := o }, rfl, by simpa [List.ofFn_succ] using ho, ?_⟩
  refine (C87_idzorek_partial exactLA exactLA_sound id { exInputs with omega := o } (fun _ => q)
    (fun _ => ⟨h0, h1⟩) ho ex_single (fun a => ?_) (by norm_num [exInputs]) cs 0).trans ?_
  · change pickVar exInputs a ≠ 0
    rw [ex_pickVar]
    norm_num
  · simp [exInputs, mulVec, dotProduct, Fin.sum_univ_two]

/-- Two correlated views; the uncertainty of the second is lowered from 1 to 0. -/
example (cs cs' : List (Call 2)) :
    |5 - ((twoViews (diagonal ![1, 0])).P *ᵥ (blReturns exactLA (twoViews (diagonal ![1, 0]))
      (run exactLA id (twoViews (diagonal ![1, 0])) cs')).2) 1| ≤
    |5 - ((twoViews (diagonal ![1, 1])).P *ᵥ (blReturns exactLA (twoViews (diagonal ![1, 1]))
      (run exactLA id (twoViews (diagonal ![1, 1])) cs)).2) 1| := by
  refine C87_more_certain exactLA exactLA_sound id (twoViews (diagonal ![1, 1])) (twoViews (diagonal ![1, 0]))
    exCov_posDef.posSemidef (by norm_num [twoViews]) ![1, 1] ![1, 0] rfl rfl 1 (by norm_num) ?_ ?_ ?_ cs cs'
  · intro b hb; fin_cases b
    · rfl
    · exact absurd rfl hb
  · intro b; fin_cases b <;> norm_num
  · have : (twoViews (diagonal ![1, 0])).P * ((twoViews (diagonal ![1, 0])).tau •
        (twoViews (diagonal ![1, 0])).cov) * (twoViews (diagonal ![1, 0])).Pᵀ +
        (twoViews (diagonal ![1, 0])).omega = !![2, -1 / 2; -1 / 2, 1] := by
      ext a b
      fin_cases a <;> fin_cases b <;>
        simp [twoViews, vecMul, dotProduct, Fin.sum_univ_two] <;> norm_num
    rw [this, isUnit_iff_isUnit_det, det_fin_two]
    norm_num

end Verif.BL
