import Verif.Spec.Batches
import Verif.Props.Compromise

/-! Property theorem C88: views only reduce the posterior covariance, and can be worked in one batch
after another. -/

set_option linter.unusedSectionVars false
noncomputable section

namespace Verif.BL
open Verif.Py Verif.Base Verif.Perf Matrix

variable {κ : Type} [DecidableEq κ] {n k m : ℕ}

/-! ### More views, more certain views -/

/-- The matrix that picks the entries `f a`. -/
def picks (f : Fin k → Fin m) : Matrix (Fin k) (Fin m) ℝ := (1 : Matrix (Fin m) (Fin m) ℝ).submatrix f id

theorem picks_mul {r : ℕ} (f : Fin k → Fin m) (A : Matrix (Fin m) (Fin r) ℝ) :
    picks f * A = A.submatrix f id := by
  rw [picks]
  have := submatrix_mul_equiv (1 : Matrix (Fin m) (Fin m) ℝ) A f (Equiv.refl _) (id : Fin r → Fin r)
  simpa using this

theorem picks_conj (f : Fin k → Fin m) (A : Matrix (Fin m) (Fin m) ℝ) :
    picks f * A * (picks f)ᵀ = A.submatrix f f := by
  have h : A * (picks f)ᵀ = A.submatrix id f := by
    have := picks_mul f Aᵀ
    have := congrArg transpose this
    rwa [transpose_mul, transpose_transpose, transpose_submatrix, transpose_transpose] at this
  rw [Matrix.mul_assoc, h, picks_mul, submatrix_submatrix]
  rfl

theorem cov_form (la : LinAlg) (hla : la.Sound) (natKey : ℕ → κ) (x : Inputs κ n k) (hA : IsUnit (amat x))
    (cs : List (Call n)) : (blCov la x (run la natKey x cs)).2 =
      x.cov + (x.tau • x.cov - tsp x * (amat x)⁻¹ * (tsp x)ᵀ) := by
  rw [blCov_eq (run_coherent la natKey x cs)]
  simp only [blCov, getA_eq (coherent_init la x), getTSP_eq (coherent_init la x)]
  rw [solveOr_isUnit hla _ _ hA, Matrix.mul_assoc]

/-- C88: a model with further views, or the same views held with more certainty, has a posterior
covariance that is smaller or equal (in the Loewner order), so no portfolio has a larger posterior
variance.  The values of the views and of the prior do not matter. -/
theorem C88_informed (la : LinAlg) (hla : la.Sound) (natKey : ℕ → κ) (x : Inputs κ n k) (y : Inputs κ n m)
    (f : Fin k → Fin m) (h : Informed x y f) (hS : x.cov.PosSemidef) (hτ : 0 ≤ x.tau)
    (hO : x.omega.PosSemidef) (hO' : y.omega.PosSemidef)
    (hA : IsUnit (x.P * (x.tau • x.cov) * x.Pᵀ + x.omega))
    (hA' : IsUnit (y.P * (y.tau • y.cov) * y.Pᵀ + y.omega)) (cs cs' : List (Call n)) :
    ((blCov la x (run la natKey x cs)).2 - (blCov la y (run la natKey y cs')).2).PosSemidef := by
  rw [← amat_eq] at hA hA'
  have hyd : (amat y).PosDef :=
    (amat_psd y (by rw [h.cov]; exact hS) (by rw [h.tau]; exact hτ) hO').posDef_iff_isUnit.2 hA'
  have hxd : (amat x).PosDef := (amat_psd x hS hτ hO).posDef_iff_isUnit.2 hA
  have hP : x.P = picks f * y.P := by
    rw [picks_mul]
    ext a i
    exact (congrFun (h.pick a) i).symm
  have hT : (tsp x)ᵀ = picks f * (tsp y)ᵀ := by
    simp only [tsp, transpose_mul, transpose_transpose, h.cov, h.tau]
    rw [hP, Matrix.mul_assoc]
  have hAA : amat x - picks f * amat y * (picks f)ᵀ = x.omega - y.omega.submatrix f f := by
    rw [amat_eq, amat_eq, Matrix.mul_add, Matrix.add_mul, picks_conj f y.omega, hP, h.cov, h.tau, transpose_mul]
    simp only [Matrix.mul_assoc]
    abel
  have hd : (blCov la x (run la natKey x cs)).2 - (blCov la y (run la natKey y cs')).2 =
      tsp y * (amat y)⁻¹ * (tsp y)ᵀ - tsp x * (amat x)⁻¹ * (tsp x)ᵀ := by
    rw [cov_form la hla natKey x hA cs, cov_form la hla natKey y hA' cs', h.cov, h.tau]
    abel
  rw [hd]
  refine PosSemidef.of_dotProduct_mulVec_nonneg ?_ fun v => ?_
  · exact (psd_conj hyd.inv.posSemidef (tsp y)).isHermitian.sub (psd_conj hxd.inv.posSemidef (tsp x)).isHermitian
  · rw [star_trivial, sub_mulVec, dotProduct_sub]
    have form : ∀ {j : ℕ} (w : Inputs κ n j), v ⬝ᵥ ((tsp w * (amat w)⁻¹ * (tsp w)ᵀ) *ᵥ v) =
        ((tsp w)ᵀ *ᵥ v) ⬝ᵥ ((amat w)⁻¹ *ᵥ ((tsp w)ᵀ *ᵥ v)) := by
      intro j w
      rw [← mulVec_mulVec, ← mulVec_mulVec, dotProduct_mulVec, ← mulVec_transpose]
    rw [form x, form y]
    set t := (tsp y)ᵀ *ᵥ v with ht
    have htx : (tsp x)ᵀ *ᵥ v = picks f *ᵥ t := by rw [hT, ← mulVec_mulVec]
    rw [htx]
    set z := (amat y)⁻¹ *ᵥ t with hz
    set u := (amat x)⁻¹ *ᵥ (picks f *ᵥ t) with hu
    have hzt : amat y *ᵥ z = t := by rw [hz, mulVec_mulVec, unit_mul_inv hA', one_mulVec]
    have hut : amat x *ᵥ u = picks f *ᵥ t := by rw [hu, mulVec_mulVec, unit_mul_inv hA, one_mulVec]
    -- complete the square with the solution for the fewer views
    have h1 := hyd.posSemidef.dotProduct_mulVec_nonneg (z + -((picks f)ᵀ *ᵥ u))
    rw [star_trivial, quad_add (symm_of_posDef hyd), hzt, mulVec_neg, neg_dotProduct, neg_dotProduct,
      dotProduct_neg] at h1
    have h2 : ((picks f)ᵀ *ᵥ u) ⬝ᵥ t = u ⬝ᵥ (picks f *ᵥ t) := by
      rw [dotProduct_mulVec u, ← mulVec_transpose]
    have h3 : ((picks f)ᵀ *ᵥ u) ⬝ᵥ (amat y *ᵥ ((picks f)ᵀ *ᵥ u)) =
        u ⬝ᵥ ((picks f * amat y * (picks f)ᵀ) *ᵥ u) := by
      rw [← mulVec_mulVec, ← mulVec_mulVec, dotProduct_mulVec u, ← mulVec_transpose]
    have h4 := h.doubt.dotProduct_mulVec_nonneg u
    rw [star_trivial, ← hAA, sub_mulVec, dotProduct_sub, hut] at h4
    rw [h2, h3] at h1
    rw [dotProduct_comm t z, dotProduct_comm (picks f *ᵥ t) u]
    linarith

/-! ### One batch after another -/

variable {x : Inputs κ n k} {y : Inputs κ n m} {z : Inputs κ n (k + m)}

theorem append_eta (u : Fin (k + m) → ℝ) :
    Fin.append (fun a => u (Fin.castAdd m a)) (fun b => u (Fin.natAdd k b)) = u := by
  funext c
  refine Fin.addCases (fun a => ?_) (fun b => ?_) c <;> simp

theorem omega_append (h : Together x y z) (u : Fin k → ℝ) (v : Fin m → ℝ) :
    z.omega *ᵥ Fin.append u v = Fin.append (x.omega *ᵥ u) (y.omega *ᵥ v) := by
  funext c
  refine Fin.addCases (fun a => ?_) (fun b => ?_) c
  · simp [mulVec, dotProduct, Fin.sum_univ_add, h.doubt, h.apart]
  · simp [mulVec, dotProduct, Fin.sum_univ_add, h.doubt', h.apart']

theorem together_posDef (h : Together x y z) (hx : x.omega.PosDef) (hy : y.omega.PosDef) : z.omega.PosDef := by
  refine PosDef.of_dotProduct_mulVec_pos ?_ fun u hu => ?_
  · have sx := symm_of_posDef hx
    have sy := symm_of_posDef hy
    rw [IsHermitian, conjTranspose_eq_transpose_of_trivial]
    ext c d
    rw [transpose_apply]
    refine Fin.addCases (fun a => ?_) (fun a => ?_) c <;> refine Fin.addCases (fun b => ?_) (fun b => ?_) d
    · rw [h.doubt, h.doubt]; exact congrFun (congrFun sx a) b
    · rw [h.apart, h.apart']
    · rw [h.apart, h.apart']
    · rw [h.doubt', h.doubt']; exact congrFun (congrFun sy a) b
  · rw [star_trivial, ← append_eta u, omega_append h]
    set ux : Fin k → ℝ := fun a => u (Fin.castAdd m a) with hux
    set uy : Fin m → ℝ := fun b => u (Fin.natAdd k b) with huy
    have e : Fin.append ux uy ⬝ᵥ Fin.append (x.omega *ᵥ ux) (y.omega *ᵥ uy) =
        ux ⬝ᵥ (x.omega *ᵥ ux) + uy ⬝ᵥ (y.omega *ᵥ uy) := by
      simp [dotProduct, Fin.sum_univ_add]
    rw [e]
    have nx := hx.posSemidef.dotProduct_mulVec_nonneg ux
    have ny := hy.posSemidef.dotProduct_mulVec_nonneg uy
    rw [star_trivial] at nx ny
    by_cases h1 : ux = 0
    · have h2 : uy ≠ 0 := by
        intro h2
        apply hu
        rw [← append_eta u, ← hux, ← huy, h1, h2]
        funext c
        refine Fin.addCases (fun a => ?_) (fun b => ?_) c <;> simp
      have := hy.dotProduct_mulVec_pos h2
      rw [star_trivial] at this
      linarith
    · have := hx.dotProduct_mulVec_pos h1
      rw [star_trivial] at this
      linarith

theorem inv_append (h : Together x y z) (hx : x.omega.PosDef) (hy : y.omega.PosDef) (u : Fin k → ℝ)
    (v : Fin m → ℝ) : z.omega⁻¹ *ᵥ Fin.append u v = Fin.append (x.omega⁻¹ *ᵥ u) (y.omega⁻¹ *ᵥ v) := by
  have := omega_append h (x.omega⁻¹ *ᵥ u) (y.omega⁻¹ *ᵥ v)
  rw [mulVec_mulVec, mulVec_mulVec, unit_mul_inv hx.isUnit, unit_mul_inv hy.isUnit, one_mulVec, one_mulVec] at this
  rw [← this, mulVec_mulVec, unit_inv_mul (together_posDef h hx hy).isUnit, one_mulVec]

theorem pick_append (h : Together x y z) (d : Fin n → ℝ) :
    z.P *ᵥ d = Fin.append (x.P *ᵥ d) (y.P *ᵥ d) := by
  funext c
  refine Fin.addCases (fun a => ?_) (fun b => ?_) c
  · rw [Fin.append_left]; exact congrArg (· ⬝ᵥ d) (h.pick a)
  · rw [Fin.append_right]; exact congrArg (· ⬝ᵥ d) (h.pick' b)

theorem pickT_append (h : Together x y z) (u : Fin k → ℝ) (v : Fin m → ℝ) :
    z.Pᵀ *ᵥ Fin.append u v = x.Pᵀ *ᵥ u + y.Pᵀ *ᵥ v := by
  funext i
  simp [mulVec, dotProduct, Fin.sum_univ_add, h.pick, h.pick']

/-- C88: the views of `x` and further ones that err independently of them can be worked in together,
or one batch after the other: the posterior returns of the first model as prior of the second, and
what its posterior covariance adds to `S` as covariance, with `tau` 1, give the same posterior
returns, and the same addition to `S`. -/
theorem C88_batches (la : LinAlg) (hla : la.Sound) (natKey : ℕ → κ) (h : Together x y z)
    (hS : x.cov.PosDef) (hτ : 0 < x.tau) (hx : x.omega.PosDef) (hy : y.omega.PosDef) (ds : List (Call n))
    (hcov : y.cov = (blCov la x (run la natKey x ds)).2 - x.cov) (htau : y.tau = 1)
    (hpi : y.pi = (blReturns la x (run la natKey x ds)).2) (cs cs' : List (Call n)) :
    (blReturns la y (run la natKey y cs)).2 = (blReturns la z (run la natKey z cs')).2 ∧
    (blCov la y (run la natKey y cs)).2 - y.cov = (blCov la z (run la natKey z cs')).2 - z.cov := by
  have hz := together_posDef h hx hy
  have hzS : z.cov.PosDef := by rw [h.cov]; exact hS
  have hzτ : 0 < z.tau := by rw [h.tau]; exact hτ
  have hyc : y.cov = (prec x)⁻¹ := by
    rw [hcov, C23_formula la hla natKey x hS hx hτ ds, add_sub_cancel_left]
    rfl
  have hyS : y.cov.PosDef := by rw [hyc]; exact (prec_posDef hS hx hτ).inv
  have hyτ : 0 < y.tau := by rw [htau]; exact one_pos
  have hyi : (y.tau • y.cov)⁻¹ = prec x := by
    rw [htau, one_smul, hyc]
    exact nonsing_inv_nonsing_inv _ ((isUnit_iff_isUnit_det _).1 (prec_posDef hS hx hτ).isUnit)
  have hp : prec y = prec z := by
    have key : ∀ d, prec y *ᵥ d = prec z *ᵥ d := by
      intro d
      rw [prec, hyi, prec, prec]
      simp only [add_mulVec, ← mulVec_mulVec]
      rw [pick_append h, inv_append h hx hy, pickT_append h, h.tau, h.cov, add_assoc]
    ext i j
    have := congrFun (key (Pi.single j 1)) i
    simpa using this
  have hu := (prec_posDef hzS hz hzτ).isUnit
  constructor
  · have h1 := posterior_prec la hla natKey y hyS hy hyτ cs
    have h2 := posterior_prec la hla natKey z hzS hz hzτ cs'
    have h3 := posterior_prec la hla natKey x hS hx hτ ds
    rw [hyi, hpi, h3, hp] at h1
    rw [h.view, inv_append h hx hy, pickT_append h, h.tau, h.cov, h.prior, ← add_assoc] at h2
    have h4 := congrArg (fun v => (prec z)⁻¹ *ᵥ v) (h1.trans h2.symm)
    simpa only [mulVec_mulVec, unit_inv_mul hu, one_mulVec] using h4
  · rw [C23_formula la hla natKey y hyS hy hyτ cs, C23_formula la hla natKey z hzS hz hzτ cs',
      add_sub_cancel_left, add_sub_cancel_left]
    exact congrArg (·⁻¹) hp

/-! ### Concrete cases -/

theorem exOmega2 : (diagonal ![1, 1] : Matrix (Fin 2) (Fin 2) ℝ).PosDef := by
  have : (diagonal ![1, 1] : Matrix (Fin 2) (Fin 2) ℝ) = 1 := by
    ext i j; fin_cases i <;> fin_cases j <;> simp
  rw [this]
  exact PosDef.one

/-- A second view reduces the posterior covariance of the example. -/
example (cs cs' : List (Call 2)) :
    ((blCov exactLA exInputs (run exactLA id exInputs cs)).2 -
      (blCov exactLA (twoViews (diagonal ![1, 1])) (run exactLA id (twoViews (diagonal ![1, 1])) cs')).2).PosSemidef := by
  refine C88_informed exactLA exactLA_sound id exInputs (twoViews (diagonal ![1, 1])) (fun _ => 0)
    ⟨rfl, rfl, ?_, ?_⟩ exCov_posDef.posSemidef (by norm_num [exInputs]) exOmega_posDef.posSemidef
    exOmega2.posSemidef ?_ ?_ cs cs'
  · intro a
    fin_cases a
    funext i
    fin_cases i <;> rfl
  · have : exInputs.omega - (twoViews (diagonal ![1, 1])).omega.submatrix (fun _ => 0) (fun _ => 0) = 0 := by
      ext a b
      fin_cases a; fin_cases b
      simp [exInputs, twoViews]
    rw [this]
    exact PosSemidef.zero
  · rw [← amat_eq]
    exact (amat_posDef exCov_posDef exOmega_posDef (by norm_num [exInputs])).isUnit
  · rw [← amat_eq]
    exact (amat_posDef (x := twoViews (diagonal ![1, 1])) exCov_posDef exOmega2 (by norm_num [twoViews])).isUnit

/-- The second view of `twoViews`, worked in after the first. -/
def later (la : LinAlg) : Inputs ℕ 2 1 :=
  ⟨fun i => i, (blCov la exInputs (run la id exInputs [])).2 - exInputs.cov, fun _ => 5, !![0, 1],
    (blReturns la exInputs (run la id exInputs [])).2, !![1], 1, 1⟩

theorem later_together (la : LinAlg) :
    Together (k := 1) (m := 1) exInputs (later la) (twoViews (diagonal ![1, 1])) := by
  refine ⟨rfl, rfl, rfl, ?_, ?_, ?_, ?_, ?_, ?_, ?_⟩
  · funext c; fin_cases c <;> rfl
  · intro a; fin_cases a; funext i; fin_cases i <;> rfl
  · intro a; fin_cases a; funext i; fin_cases i <;> rfl
  · intro a b; fin_cases a; fin_cases b; rfl
  · intro a b; fin_cases a; fin_cases b; rfl
  · intro a b; fin_cases a; fin_cases b; rfl
  · intro a b; fin_cases a; fin_cases b; rfl

example (cs cs' : List (Call 2)) :
    (blReturns exactLA (later exactLA) (run exactLA id (later exactLA) cs)).2 =
      (blReturns exactLA (twoViews (diagonal ![1, 1])) (run exactLA id (twoViews (diagonal ![1, 1])) cs')).2 :=
  (C88_batches exactLA exactLA_sound id (later_together exactLA) exCov_posDef (by norm_num [exInputs])
    exOmega_posDef exOmega_posDef [] rfl rfl rfl cs cs').1

end Verif.BL
