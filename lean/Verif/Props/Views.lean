import Verif.Spec.Views
import Verif.Proof.LeastSquares
import Verif.Props.BlackLitterman
import Verif.Props.BlWeights

/-! Property theorem C84: what the Black-Litterman posterior does not depend on. -/

set_option linter.unusedSectionVars false
noncomputable section

namespace Verif.BL
open Verif.Py Verif.Base Verif.Perf Matrix

variable {κ : Type} [DecidableEq κ] {n k : ℕ} {x y : Inputs κ n k} {e : Equiv.Perm (Fin n)}
  {v : Equiv.Perm (Fin k)} {c : Fin k → ℝ} {u : ℝ}

/-! ### Linear systems written down differently -/

theorem unit_re {m : ℕ} {A B : Matrix (Fin m) (Fin m) ℝ} (g : Equiv.Perm (Fin m)) (d : Fin m → ℝ)
    (hd : ∀ a, d a ≠ 0) (h : ∀ a b, B a b = d a * d b * A (g a) (g b)) (hA : IsUnit A) : IsUnit B := by
  have e : B = diagonal d * A.submatrix g g * diagonal d := by
    ext a b
    rw [mul_diagonal, diagonal_mul, submatrix_apply, h]
    ring
  have hD : IsUnit (diagonal d) := by
    rw [isUnit_iff_isUnit_det, det_diagonal]
    exact (Finset.prod_ne_zero_iff.2 fun a _ => hd a).isUnit
  rw [e]
  exact (hD.mul ((isUnit_submatrix_equiv g g).2 hA)).mul hD

theorem inv_re {m r : ℕ} {A B : Matrix (Fin m) (Fin m) ℝ} {b b' : Matrix (Fin m) (Fin r) ℝ}
    (g : Equiv.Perm (Fin m)) (q : Equiv.Perm (Fin r)) (d : Fin m → ℝ) (z : ℝ) (hd : ∀ a, d a ≠ 0)
    (h : ∀ a b, B a b = d a * d b * A (g a) (g b)) (hA : IsUnit A)
    (hb : ∀ a i, b' a i = d a * (z * b (g a) (q i))) (a : Fin m) (i : Fin r) :
    (B⁻¹ * b') a i = z * (A⁻¹ * b) (g a) (q i) / d a := by
  have hB := unit_re g d hd h hA
  set s : Matrix (Fin m) (Fin r) ℝ := Matrix.of fun a i => z * (A⁻¹ * b) (g a) (q i) / d a with hs
  have key : B * s = b' := by
    ext a i
    have hAb : (A * (A⁻¹ * b)) (g a) (q i) = b (g a) (q i) := by
      rw [← Matrix.mul_assoc, unit_mul_inv hA, Matrix.one_mul]
    rw [Matrix.mul_apply] at hAb
    rw [hb, ← hAb, Matrix.mul_apply,
      ← Equiv.sum_comp g (fun j => A (g a) j * (A⁻¹ * b) j (q i)), Finset.mul_sum, Finset.mul_sum]
    refine Finset.sum_congr rfl fun j _ => ?_
    rw [h, hs, Matrix.of_apply]
    have := hd j
    field_simp
  have : B⁻¹ * b' = s := by
    rw [← key, ← Matrix.mul_assoc, unit_inv_mul hB, Matrix.one_mul]
  rw [this, hs, Matrix.of_apply]

/-- The same for the solver with its least-squares fallback; on singular systems the rows must be
multiplied by numbers of equal size. -/
theorem solve_re (la : LinAlg) (hla : la.Sound) {m r : ℕ} {A B : Matrix (Fin m) (Fin m) ℝ}
    {b b' : Matrix (Fin m) (Fin r) ℝ} (g : Equiv.Perm (Fin m)) (q : Equiv.Perm (Fin r)) (d : Fin m → ℝ) (z : ℝ)
    (hd : ∀ a, d a ≠ 0) (h : ∀ a b, B a b = d a * d b * A (g a) (g b))
    (hA : IsUnit A ∨ ∀ a b, d a ^ 2 = d b ^ 2) (hb : ∀ a i, b' a i = d a * (z * b (g a) (q i))) (a : Fin m)
    (i : Fin r) : solveOr la B b' a i = z * solveOr la A b (g a) (q i) / d a := by
  rcases hA with hA | hD
  · rw [solveOr_isUnit hla _ _ hA, solveOr_isUnit hla _ _ (unit_re g d hd h hA)]
    exact inv_re g q d z hd h hA hb a i
  rw [solveOr_lstsq hla, solveOr_lstsq hla]
  set X := la.lstsq m m r A b with hX
  obtain ⟨w, hw⟩ := hla.lstsq_row A b
  obtain ⟨w', hw'⟩ := hla.lstsq_row B b'
  set s : Matrix (Fin m) (Fin r) ℝ := Matrix.of fun a i => z * X (g a) (q i) / d a with hs
  have hBs : ∀ a i, (B * s) a i = d a * (z * (A * X) (g a) (q i)) := by
    intro a i
    rw [Matrix.mul_apply, Matrix.mul_apply, ← Equiv.sum_comp g (fun j => A (g a) j * X j (q i)),
      Finset.mul_sum, Finset.mul_sum]
    refine Finset.sum_congr rfl fun j _ => ?_
    rw [h, hs, Matrix.of_apply]
    have := hd j
    field_simp
  have tr : ∀ (u u' : Matrix (Fin m) (Fin r) ℝ), (∀ a i, u' a i = d a * (z * u (g a) (q i))) → ∀ a i,
      (Bᵀ * u') a i = d a ^ 2 * (d a * (z * (Aᵀ * u) (g a) (q i))) := by
    intro u u' hu a i
    rw [Matrix.mul_apply, Matrix.mul_apply, ← Equiv.sum_comp g (fun j => Aᵀ (g a) j * u j (q i)),
      Finset.mul_sum, Finset.mul_sum, Finset.mul_sum]
    refine Finset.sum_congr rfl fun j _ => ?_
    rw [hu, transpose_apply, transpose_apply, h, hD a j]
    ring
  have hn : Bᵀ * (B * s) = Bᵀ * b' := by
    ext a i
    rw [tr (A * X) (B * s) hBs, tr b b' hb, hX, hla.lstsq_normal]
  have hr : s = Bᵀ * Matrix.of fun a i => z * w (g a) (q i) / (d a * d a ^ 2) := by
    ext a i
    rw [hs, Matrix.of_apply, hX, hw, Matrix.mul_apply, Matrix.mul_apply,
      ← Equiv.sum_comp g (fun j => Aᵀ (g a) j * w j (q i)), Finset.mul_sum, Finset.sum_div]
    refine Finset.sum_congr rfl fun j _ => ?_
    rw [transpose_apply, transpose_apply, h, Matrix.of_apply, hD j a]
    have := hd j
    have := hd a
    field_simp
  rw [least_unique (hla.lstsq_normal B b') hn hw' hr, hs, Matrix.of_apply]

/-! ### The posterior -/

theorem tsp_re (h : Reworded x y e v c u) (i : Fin n) (a : Fin k) :
    tsp y i a = u ^ 2 * c a * tsp x (e i) (v a) := by
  unfold tsp
  rw [Matrix.mul_apply, Matrix.mul_apply,
    ← Equiv.sum_comp e (fun j => (x.tau • x.cov) (e i) j * x.Pᵀ j (v a)), Finset.mul_sum]
  refine Finset.sum_congr rfl fun j _ => ?_
  simp only [Matrix.smul_apply, smul_eq_mul, transpose_apply, h.tau, h.cov, h.pick]
  ring

theorem amat_re (h : Reworded x y e v c u) (ho : SameDoubt x y v c u) (a b : Fin k) :
    amat y a b = (u * c a) * (u * c b) * amat x (v a) (v b) := by
  unfold amat
  rw [Matrix.add_apply, Matrix.add_apply, ho, mul_add]
  congr 1
  rw [Matrix.mul_apply, Matrix.mul_apply, ← Equiv.sum_comp e (fun j => x.P (v a) j * tsp x j (v b)),
    Finset.mul_sum]
  refine Finset.sum_congr rfl fun j _ => ?_
  rw [h.pick, tsp_re h]
  ring

theorem gap_re (h : Reworded x y e v c u) (a : Fin k) :
    (y.Q - y.P *ᵥ y.pi) a = (u * c a) * (x.Q - x.P *ᵥ x.pi) (v a) := by
  have : (y.P *ᵥ y.pi) a = (u * c a) * (x.P *ᵥ x.pi) (v a) := by
    simp only [mulVec, dotProduct]
    rw [← Equiv.sum_comp e (fun j => x.P (v a) j * x.pi j), Finset.mul_sum]
    refine Finset.sum_congr rfl fun j _ => ?_
    rw [h.pick, h.prior]
    ring
  rw [Pi.sub_apply, Pi.sub_apply, this, h.view]
  ring

theorem same_size {c : Fin k → ℝ} (h : ∀ a b, c a ^ 2 = c b ^ 2) (u : ℝ) (a b : Fin k) :
    (u * c a) ^ 2 = (u * c b) ^ 2 := by
  rw [mul_pow, mul_pow, h a b]

/-- C84, posterior returns: the order of the assets and of the views, the scale of each view and the
unit of return make no difference but for order and unit of the result, whatever was called before.
If the system is singular and least squares are used instead, all views must be multiplied by numbers
of the same size, see `C84_redundant_false`. -/
theorem C84_returns (la : LinAlg) (hla : la.Sound) (natKey : ℕ → κ) (h : Reworded x y e v c u)
    (ho : SameDoubt x y v c u) (hc : ∀ a, c a ≠ 0) (hu : u ≠ 0)
    (hA : IsUnit (x.P * (x.tau • x.cov) * x.Pᵀ + x.omega) ∨ ∀ a b, c a ^ 2 = c b ^ 2) (cs cs' : List (Call n))
    (i : Fin n) :
    (blReturns la y (run la natKey y cs')).2 i = u * (blReturns la x (run la natKey x cs)).2 (e i) := by
  rw [← amat_eq] at hA
  have hd : ∀ a, u * c a ≠ 0 := fun a => mul_ne_zero hu (hc a)
  have hA' : IsUnit (amat x) ∨ ∀ a b, (u * c a) ^ 2 = (u * c b) ^ 2 := hA.imp id fun h => same_size h u
  rw [blReturns_eq (run_coherent la natKey y cs'), blReturns_eq (run_coherent la natKey x cs)]
  simp only [blReturns, getA_eq (coherent_init la x), getTSP_eq (coherent_init la x),
    getA_eq (coherent_init la y), getTSP_eq (coherent_init la y)]
  rw [h.prior, mul_add]
  congr 1
  rw [Matrix.mul_apply, Matrix.mul_apply, ← Equiv.sum_comp v
    (fun a => tsp x (e i) a * solveOr la (amat x) (col (x.Q - x.P *ᵥ x.pi)) a 0), Finset.mul_sum]
  refine Finset.sum_congr rfl fun a _ => ?_
  rw [solve_re la hla (b := col (x.Q - x.P *ᵥ x.pi)) v (Equiv.refl _) (fun a => u * c a) 1 hd (amat_re h ho) hA'
    (fun a i => by rw [one_mul]; exact gap_re h a), tsp_re h]
  have := hc a
  simp only [Equiv.refl_apply, one_mul]
  field_simp

/-- C84, posterior covariance. -/
theorem C84_cov (la : LinAlg) (hla : la.Sound) (natKey : ℕ → κ) (h : Reworded x y e v c u)
    (ho : SameDoubt x y v c u) (hc : ∀ a, c a ≠ 0) (hu : u ≠ 0)
    (hA : IsUnit (x.P * (x.tau • x.cov) * x.Pᵀ + x.omega) ∨ ∀ a b, c a ^ 2 = c b ^ 2) (cs cs' : List (Call n))
    (i j : Fin n) :
    (blCov la y (run la natKey y cs')).2 i j =
      u ^ 2 * (blCov la x (run la natKey x cs)).2 (e i) (e j) := by
  rw [← amat_eq] at hA
  have hd : ∀ a, u * c a ≠ 0 := fun a => mul_ne_zero hu (hc a)
  have hA' : IsUnit (amat x) ∨ ∀ a b, (u * c a) ^ 2 = (u * c b) ^ 2 := hA.imp id fun h => same_size h u
  rw [blCov_eq (run_coherent la natKey y cs'), blCov_eq (run_coherent la natKey x cs)]
  simp only [blCov, getA_eq (coherent_init la x), getTSP_eq (coherent_init la x),
    getA_eq (coherent_init la y), getTSP_eq (coherent_init la y)]
  simp only [Matrix.add_apply, Matrix.sub_apply, Matrix.smul_apply, smul_eq_mul, h.cov, h.tau]
  have key : (tsp y * solveOr la (amat y) (tsp y)ᵀ) i j =
      u ^ 2 * (tsp x * solveOr la (amat x) (tsp x)ᵀ) (e i) (e j) := by
    rw [Matrix.mul_apply, Matrix.mul_apply, ← Equiv.sum_comp v
      (fun a => tsp x (e i) a * solveOr la (amat x) (tsp x)ᵀ a (e j)), Finset.mul_sum]
    refine Finset.sum_congr rfl fun a _ => ?_
    rw [solve_re la hla (b := (tsp x)ᵀ) v e (fun a => u * c a) u hd (amat_re h ho) hA'
      (fun a i => by simp only [transpose_apply]; rw [tsp_re h]; ring), tsp_re h]
    have := hc a
    field_simp
  rw [key]
  ring

/-- C84, weights: they are the same, whatever the risk aversion. -/
theorem C84_weights (la : LinAlg) (hla : la.Sound) (natKey : ℕ → κ) (h : Reworded x y e v c u)
    (ho : SameDoubt x y v c u) (hc : ∀ a, c a ≠ 0) (hu : 0 < u)
    (hA : IsUnit (x.P * (x.tau • x.cov) * x.Pᵀ + x.omega) ∨ ∀ a b, c a ^ 2 = c b ^ 2) (hS : IsUnit x.cov)
    (cs cs' : List (Call n))
    (ra ra' : Option ℝ) (hr : 0 < ra.getD x.riskAversion) (hr' : 0 < ra'.getD y.riskAversion) :
    ∃ w : Fin n → Flt ℝ, (blWeights la x (run la natKey x cs) ra).2 = .ok w ∧
      (blWeights la y (run la natKey y cs') ra').2 = .ok (fun i => w (e i)) := by
  have hcov : ∀ i j, y.cov i j = u * u * x.cov (e i) (e j) := fun i j => by rw [h.cov]; ring
  have hS' : IsUnit y.cov := unit_re e (fun _ => u) (fun _ => hu.ne') hcov hS
  have hret := C84_returns la hla natKey h ho hc hu.ne' hA cs cs'
  unfold blWeights
  dsimp only
  rw [weightSolution_unit la hla x hS _ hr.ne', weightSolution_unit la hla y hS' _ hr'.ne']
  refine ⟨_, rfl, ?_⟩
  generalize ra.getD x.riskAversion = δ at *
  generalize ra'.getD y.riskAversion = δ' at *
  generalize (blReturns la x (run la natKey x cs)).2 = p at *
  generalize (blReturns la y (run la natKey y cs')).2 = p' at *
  have hz : ∀ i, (y.cov⁻¹ *ᵥ p') i = (x.cov⁻¹ *ᵥ p) (e i) / u := by
    intro i
    have := inv_re (b := col p) (b' := col p') e (Equiv.refl _) (fun _ => u) 1 (fun _ => hu.ne') hcov hS
      (fun a _ => by rw [one_mul]; exact hret a) i 0
    rw [one_mul] at this
    exact this
  have hraw : ∀ i, (δ'⁻¹ • (y.cov⁻¹ *ᵥ p')) i = (δ / (δ' * u)) * (δ⁻¹ • (x.cov⁻¹ *ᵥ p)) (e i) := by
    intro i
    simp only [Pi.smul_apply, smul_eq_mul, hz]
    field_simp
  have hsum : ∑ i, (δ'⁻¹ • (y.cov⁻¹ *ᵥ p')) i = (δ / (δ' * u)) * ∑ i, (δ⁻¹ • (x.cov⁻¹ *ᵥ p)) i := by
    rw [← Equiv.sum_comp e (fun i => (δ⁻¹ • (x.cov⁻¹ *ᵥ p)) i), Finset.mul_sum]
    exact Finset.sum_congr rfl fun i _ => hraw i
  refine congrArg Except.ok (funext fun i => ?_)
  rw [hraw, hsum, fdiv_scale (by positivity)]

/-! ### Where the uncertainty comes from -/

theorem variance_re (h : Reworded x y e v c u) (a : Fin k) :
    (y.P a ⬝ᵥ (y.cov *ᵥ y.P a)) = (u * c a) ^ 2 * (x.P (v a) ⬝ᵥ (x.cov *ᵥ x.P (v a))) := by
  simp only [mulVec, dotProduct]
  rw [← Equiv.sum_comp e (fun i => x.P (v a) i * ∑ j, x.cov i j * x.P (v a) j), Finset.mul_sum]
  refine Finset.sum_congr rfl fun i _ => ?_
  rw [← Equiv.sum_comp e (fun j => x.cov (e i) j * x.P (v a) j), Finset.mul_sum, Finset.mul_sum,
    Finset.mul_sum]
  refine Finset.sum_congr rfl fun j _ => ?_
  rw [h.pick, h.pick, h.cov]
  ring

theorem defaultOmega_diag (S : Matrix (Fin n) (Fin n) ℝ) (P : Matrix (Fin k) (Fin n) ℝ) (t : ℝ) :
    defaultOmega S P t = diagonal fun a => t * (P a ⬝ᵥ (S *ᵥ P a)) := by
  unfold defaultOmega
  congr 1
  funext a
  rw [Matrix.smul_mul, Matrix.smul_mul, Matrix.smul_apply, smul_eq_mul, Matrix.mul_assoc, Matrix.mul_apply]
  rfl

theorem diag_doubt {f g : Fin k → ℝ} (hx : x.omega = diagonal f) (hy : y.omega = diagonal g)
    (hfg : ∀ a, g a = (u * c a) ^ 2 * f (v a)) : SameDoubt x y v c u := by
  intro a b
  rw [hx, hy]
  by_cases hab : a = b
  · subst hab
    rw [diagonal_apply_eq, diagonal_apply_eq, hfg]
    ring
  · rw [diagonal_apply_ne _ hab, diagonal_apply_ne _ fun h' => hab (v.injective h'), mul_zero]

/-- C84: the default uncertainty is restated with the views. -/
theorem C84_default (h : Reworded x y e v c u) (hx : x.omega = defaultOmega x.cov x.P x.tau)
    (hy : y.omega = defaultOmega y.cov y.P y.tau) : SameDoubt x y v c u := by
  rw [defaultOmega_diag] at hx hy
  refine diag_doubt hx hy fun a => ?_
  rw [variance_re h, h.tau]
  ring

theorem idzorekLoop_sure (S : Matrix (Fin n) (Fin n) ℝ) (t : ℝ) (ps : List (Fin n → ℝ)) (cs : List ℝ)
    (hl : ps.length = cs.length) (hc : ∀ q ∈ cs, 0 < q ∧ q ≤ 1) :
    idzorekLoop S t ps cs =
      .ok (List.zipWith (fun p q => t * ((1 - q) / q) * (p ⬝ᵥ (S *ᵥ p))) ps cs) := by
  induction ps generalizing cs with
  | nil => rfl
  | cons p ps ih =>
    cases cs with
    | nil => simp at hl
    | cons q cs =>
      obtain ⟨h0, h1⟩ := hc q (List.mem_cons_self ..)
      have he : idzorekEntry S p t q = .ok (t * ((1 - q) / q) * (p ⬝ᵥ (S *ᵥ p))) := by
        unfold idzorekEntry
        rw [if_neg (by rintro (h | h) <;> linarith), if_neg h0.ne', smul_dotProduct, smul_eq_mul]
      unfold idzorekLoop
      rw [he, ih cs (by simpa using hl) fun q hq => hc q (List.mem_cons_of_mem _ hq)]
      rfl

theorem idzorek_sure (S : Matrix (Fin n) (Fin n) ℝ) (P : Matrix (Fin k) (Fin n) ℝ) (t : ℝ) (q : Fin k → ℝ)
    (hq : ∀ a, 0 < q a ∧ q a ≤ 1) : idzorek (List.ofFn q) S P t =
      .ok (diagonal fun a => t * ((1 - q a) / q a) * (P a ⬝ᵥ (S *ᵥ P a))) := by
  unfold idzorek
  rw [idzorekLoop_sure S t _ _ (by simp) (by
    intro z hz
    obtain ⟨a, rfl⟩ := (List.mem_ofFn' _ _).1 hz
    exact hq a)]
  refine congrArg Except.ok ?_
  congr 1
  funext a
  rw [List.getD_eq_getElem?_getD, List.getElem?_zipWith]
  simp
  exact Or.inl rfl

/-- C84: so is Idzorek's, with the confidences in the order of the views and none of them zero.
Missing: zero confidences, see `C84_zero_confidence_false`. -/
theorem C84_idzorek_partial (h : Reworded x y e v c u) (q : Fin k → ℝ) (hq : ∀ a, 0 < q a ∧ q a ≤ 1)
    (hx : idzorek (List.ofFn q) x.cov x.P x.tau = .ok x.omega)
    (hy : idzorek (List.ofFn fun a => q (v a)) y.cov y.P y.tau = .ok y.omega) : SameDoubt x y v c u := by
  rw [idzorek_sure _ _ _ _ hq] at hx
  rw [idzorek_sure _ _ _ _ fun a => hq (v a)] at hy
  refine diag_doubt (Except.ok.inj hx).symm (Except.ok.inj hy).symm fun a => ?_
  rw [variance_re h, h.tau]
  ring

/-! ### Zero confidence -/

/-- One asset of variance 1 and prior 0, `τ = 1`, and the view `s r = s`, of zero confidence. -/
def doubtful (s : ℝ) : Inputs ℕ 1 1 :=
  ⟨fun i => i, !![1], fun _ => s, !![s], ![0], !![1000000], 1, 1⟩

theorem doubtful_omega (s : ℝ) :
    idzorek [0] (doubtful s).cov (doubtful s).P (doubtful s).tau = .ok (doubtful s).omega := by
  have h0 : ∀ p : Fin 1 → ℝ, idzorekEntry (doubtful s).cov p (doubtful s).tau 0 = .ok 1000000 := by
    intro p
    unfold idzorekEntry
    rw [if_neg (by norm_num), if_pos rfl]
  unfold idzorek
  rw [List.ofFn_succ, List.ofFn_zero]
  unfold idzorekLoop
  rw [h0]
  unfold idzorekLoop
  refine congrArg Except.ok ?_
  ext a b
  fin_cases a; fin_cases b
  rfl

theorem doubtful_tsp (s : ℝ) : tsp (doubtful s) = !![s] := by
  ext i j
  fin_cases i; fin_cases j
  unfold tsp
  rw [Matrix.mul_apply, Fin.sum_univ_one]
  simp [doubtful]

theorem doubtful_amat (s : ℝ) : amat (doubtful s) = !![s * s + 1000000] := by
  ext a b
  fin_cases a; fin_cases b
  unfold amat
  rw [doubtful_tsp, Matrix.add_apply, Matrix.mul_apply, Fin.sum_univ_one]
  simp [doubtful]

theorem doubtful_returns (la : LinAlg) (hla : la.Sound) (natKey : ℕ → ℕ) (s : ℝ) (cs : List (Call 1)) :
    (blReturns la (doubtful s) (run la natKey (doubtful s) cs)).2 0 = s * s / (s * s + 1000000) := by
  have hpos : 0 < s * s + 1000000 := by nlinarith [mul_self_nonneg s]
  have hu : IsUnit (amat (doubtful s)) := by
    rw [isUnit_iff_isUnit_det, doubtful_amat]
    simpa using hpos.ne'
  rw [blReturns_eq (run_coherent la natKey _ cs)]
  simp only [blReturns, getA_eq (coherent_init la (doubtful s)), getTSP_eq (coherent_init la (doubtful s))]
  rw [solveOr_isUnit hla _ _ hu, doubtful_amat]
  set X := (!![s * s + 1000000] : Matrix (Fin 1) (Fin 1) ℝ)⁻¹ *
    col ((doubtful s).Q - (doubtful s).P *ᵥ (doubtful s).pi) with hX
  have h1 : (s * s + 1000000) * X 0 0 = s := by
    have hu' := hu
    rw [doubtful_amat] at hu'
    have : (!![s * s + 1000000] : Matrix (Fin 1) (Fin 1) ℝ) * X =
        col ((doubtful s).Q - (doubtful s).P *ᵥ (doubtful s).pi) := by
      rw [hX, ← Matrix.mul_assoc, unit_mul_inv hu', Matrix.one_mul]
    have := congrFun (congrFun this 0) 0
    simpa [Matrix.mul_apply, col, doubtful, mulVec, dotProduct] using this
  have h2 : X 0 0 = s / (s * s + 1000000) := by
    rw [eq_div_iff hpos.ne', mul_comm]; exact h1
  have h3 : (tsp (doubtful s) * X) 0 0 = s * X 0 0 := by
    rw [doubtful_tsp, Matrix.mul_apply, Fin.sum_univ_one]
    rfl
  have h4 : (doubtful s).pi 0 = 0 := rfl
  rw [h3, h2, h4]
  ring

/-- C84 fails for views of zero confidence, whose uncertainty is 1000000 in any unit: the same view,
written with the factor 1000, moves the posterior half the way to the view instead of not at all. -/
theorem C84_zero_confidence_false (la : LinAlg) (hla : la.Sound) (natKey : ℕ → ℕ) (cs : List (Call 1)) :
    Reworded (doubtful 1) (doubtful 1000) (Equiv.refl _) (Equiv.refl _) (fun _ => 1000) 1 ∧
    (∀ s, idzorek [0] (doubtful s).cov (doubtful s).P (doubtful s).tau = .ok (doubtful s).omega) ∧
    (blReturns la (doubtful 1) (run la natKey (doubtful 1) cs)).2 0 = 1 / 1000001 ∧
    (blReturns la (doubtful 1000) (run la natKey (doubtful 1000) cs)).2 0 = 1 / 2 := by
  refine ⟨⟨fun _ => rfl, ?_, ?_, ?_, ?_, rfl⟩, doubtful_omega, ?_, ?_⟩
  · intro i j; simp [doubtful]
  · intro i; fin_cases i; simp [doubtful]
  · intro a i; fin_cases a; fin_cases i; simp [doubtful]
  · intro a; simp [doubtful]
  · rw [doubtful_returns la hla]; norm_num
  · rw [doubtful_returns la hla]; norm_num

/-! ### Redundant certain views -/

/-- One asset of variance 1 and prior 0, `τ = 1`, and the views `r = 1` and `s r = 2 s`, both certain. -/
def torn (s : ℝ) : Inputs ℕ 1 2 :=
  ⟨fun i => i, !![1], ![1, 2 * s], !![1; s], ![0], 0, 1, 1⟩

theorem torn_omega (s : ℝ) : idzorek [1, 1] (torn s).cov (torn s).P (torn s).tau = .ok (torn s).omega := by
  have h := idzorek_sure (torn s).cov (torn s).P (torn s).tau (fun _ => 1) fun _ => ⟨one_pos, le_rfl⟩
  have h1 : List.ofFn (fun _ : Fin 2 => (1 : ℝ)) = [1, 1] := by simp [List.ofFn_succ]
  rw [h1] at h
  rw [h]
  refine congrArg Except.ok ?_
  have : (torn s).omega = 0 := rfl
  rw [this]
  simp

theorem torn_tsp (s : ℝ) : tsp (torn s) = !![1, s] := by
  ext i j
  unfold tsp
  rw [Matrix.mul_apply, Fin.sum_univ_one]
  fin_cases i; fin_cases j <;> simp [torn]

theorem torn_amat (s : ℝ) : amat (torn s) = !![1, s; s, s * s] := by
  unfold amat
  rw [torn_tsp]
  ext i j
  rw [Matrix.add_apply, Matrix.mul_apply, Fin.sum_univ_one]
  fin_cases i <;> fin_cases j <;> simp [torn]

theorem torn_returns (la : LinAlg) (hla : la.Sound) (natKey : ℕ → ℕ) (s : ℝ) (cs : List (Call 1)) :
    (blReturns la (torn s) (run la natKey (torn s) cs)).2 0 = (1 + 2 * s ^ 2) / (1 + s ^ 2) := by
  rw [blReturns_eq (run_coherent la natKey _ cs)]
  simp only [blReturns, getA_eq (coherent_init la (torn s)), getTSP_eq (coherent_init la (torn s))]
  have hn := solveOr_normal hla (amat (torn s)) (col ((torn s).Q - (torn s).P *ᵥ (torn s).pi))
  set X := solveOr la (amat (torn s)) (col ((torn s).Q - (torn s).P *ᵥ (torn s).pi)) with hX
  have h0 := congrFun (congrFun hn 0) 0
  rw [torn_amat] at h0
  simp only [Matrix.mul_apply, Fin.sum_univ_two, transpose_apply, col] at h0
  simp [torn, mulVec, dotProduct] at h0
  rw [torn_tsp, Matrix.mul_apply, Fin.sum_univ_two]
  simp [torn]
  have hp : 0 < 1 + s ^ 2 := by positivity
  rw [eq_div_iff hp.ne']
  linarith [h0]

/-- C84 fails for views that are certain and contradict each other: if one of them is written with the
factor 2 the posterior return is 9/5 instead of 3/2.  The uncertainty 0 is that of full confidence. -/
theorem C84_redundant_false (la : LinAlg) (hla : la.Sound) (natKey : ℕ → ℕ) (cs : List (Call 1)) :
    Reworded (torn 1) (torn 2) (Equiv.refl _) (Equiv.refl _) ![1, 2] 1 ∧
    (∀ s, idzorek [1, 1] (torn s).cov (torn s).P (torn s).tau = .ok (torn s).omega) ∧
    (blReturns la (torn 1) (run la natKey (torn 1) cs)).2 0 = 3 / 2 ∧
    (blReturns la (torn 2) (run la natKey (torn 2) cs)).2 0 = 9 / 5 := by
  refine ⟨⟨fun _ => rfl, ?_, ?_, ?_, ?_, rfl⟩, torn_omega, ?_, ?_⟩
  · intro i j; simp [torn]
  · intro i; fin_cases i; simp [torn]
  · intro a i; fin_cases a <;> fin_cases i <;> simp [torn]
  · intro a; fin_cases a <;> simp [torn]
  · rw [torn_returns la hla]; norm_num
  · rw [torn_returns la hla]; norm_num

/-! ### A concrete case -/

/-- `exInputs` with the assets swapped, the view doubled and turned round, in units of 1/10, with the
uncertainty restated. -/
def exReworded : Inputs ℕ 2 1 :=
  ⟨fun i => 1 - i, !![200, 100; 100, 200], fun _ => -60, !![2, -2], ![10, 10], !![400], 1 / 2, 7⟩

theorem ex_reworded : Reworded exInputs exReworded (Equiv.swap 0 1) (Equiv.refl _) (fun _ => -2) 10 := by
  refine ⟨?_, ?_, ?_, ?_, ?_, rfl⟩
  · intro i; fin_cases i <;> rfl
  · intro i j; fin_cases i <;> fin_cases j <;> norm_num [exInputs, exReworded]
  · intro i; fin_cases i <;> norm_num [exInputs, exReworded]
  · intro a i; fin_cases a; fin_cases i <;> norm_num [exInputs, exReworded]
  · intro a; norm_num [exInputs, exReworded]

theorem ex_doubt : SameDoubt exInputs exReworded (Equiv.refl _) (fun _ => -2) 10 := by
  intro a b
  fin_cases a; fin_cases b
  norm_num [exInputs, exReworded]

example (cs cs' : List (Call 2)) : ∃ w : Fin 2 → Flt ℝ,
    (blWeights exactLA exInputs (run exactLA id exInputs cs) none).2 = .ok w ∧
    (blWeights exactLA exReworded (run exactLA id exReworded cs') (some 3)).2 =
      .ok (fun i => w (Equiv.swap 0 1 i)) :=
  C84_weights exactLA exactLA_sound id ex_reworded ex_doubt (fun _ => by norm_num) (by norm_num)
    (.inl (by rw [← amat_eq]; exact (amat_posDef exCov_posDef exOmega_posDef (by norm_num [exInputs])).isUnit))
    exCov_posDef.isUnit cs cs' none (some 3) (by norm_num [exInputs]) (by norm_num)

/-- Two views on two assets, of uncertainty `o`; the second is on the second asset alone. -/
def twoViews (o : Matrix (Fin 2) (Fin 2) ℝ) : Inputs ℕ 2 2 :=
  ⟨fun i => i, !![2, 1; 1, 2], ![3, 5], !![1, -1; 0, 1], ![1, 1], o, 1 / 2, 1⟩

/-- The same views in the other order, the second doubled, the first turned round, in percent. -/
def twoViews' (o : Matrix (Fin 2) (Fin 2) ℝ) : Inputs ℕ 2 2 :=
  ⟨fun i => i, !![20000, 10000; 10000, 20000], ![1000, -300], !![0, 2; -1, 1], ![100, 100], o, 1 / 2, 1⟩

theorem twoViews_reworded (o o' : Matrix (Fin 2) (Fin 2) ℝ) :
    Reworded (twoViews o) (twoViews' o') (Equiv.refl _) (Equiv.swap 0 1) ![2, -1] 100 := by
  refine ⟨fun _ => rfl, ?_, ?_, ?_, ?_, rfl⟩
  · intro i j; fin_cases i <;> fin_cases j <;> norm_num [twoViews, twoViews']
  · intro i; fin_cases i <;> norm_num [twoViews, twoViews']
  · intro a i; fin_cases a <;> fin_cases i <;> norm_num [twoViews, twoViews']
  · intro a; fin_cases a <;> norm_num [twoViews, twoViews']

example : SameDoubt (twoViews (defaultOmega !![2, 1; 1, 2] !![1, -1; 0, 1] (1 / 2)))
    (twoViews' (defaultOmega !![20000, 10000; 10000, 20000] !![0, 2; -1, 1] (1 / 2)))
    (Equiv.swap 0 1) ![2, -1] 100 :=
  C84_default (twoViews_reworded _ _) rfl rfl

example : ∃ o o', idzorek [1 / 2, 1 / 4] !![2, 1; 1, 2] !![1, -1; 0, 1] (1 / 2) = .ok o ∧
    idzorek [1 / 4, 1 / 2] !![20000, 10000; 10000, 20000] !![0, 2; -1, 1] (1 / 2) = .ok o' ∧
    SameDoubt (twoViews o) (twoViews' o') (Equiv.swap 0 1) ![2, -1] 100 := by
  have hq : ∀ a, 0 < (![1 / 2, 1 / 4] : Fin 2 → ℝ) a ∧ (![1 / 2, 1 / 4] : Fin 2 → ℝ) a ≤ 1 := by
    intro a; fin_cases a <;> norm_num
  have hx := idzorek_sure !![2, 1; 1, 2] !![1, -1; 0, 1] (1 / 2) _ hq
  have hy := idzorek_sure !![20000, 10000; 10000, 20000] !![0, 2; -1, 1] (1 / 2) _
    fun a => hq (Equiv.swap 0 1 a)
  have h1 : List.ofFn (![1 / 2, 1 / 4] : Fin 2 → ℝ) = [1 / 2, 1 / 4] := by simp [List.ofFn_succ]
  have h2 : List.ofFn (fun a => (![1 / 2, 1 / 4] : Fin 2 → ℝ) (Equiv.swap 0 1 a)) = [1 / 4, 1 / 2] := by
    simp [List.ofFn_succ]
  refine ⟨_, _, h1 ▸ hx, h2 ▸ hy, ?_⟩
  exact C84_idzorek_partial (twoViews_reworded _ _) _ hq hx hy

/-- The views of `torn 1` in percent, and turned round. -/
def tornPercent : Inputs ℕ 1 2 :=
  ⟨fun i => i, !![10000], ![-100, -200], !![-1; -1], ![0], 0, 1, 1⟩

/-- Two certain views that contradict each other, a singular system: 3/2 is 150 percent. -/
example (cs cs' : List (Call 1)) :
    (blReturns exactLA tornPercent (run exactLA id tornPercent cs')).2 0 =
      100 * (blReturns exactLA (torn 1) (run exactLA id (torn 1) cs)).2 0 := by
  refine C84_returns (e := Equiv.refl _) (v := Equiv.refl _) (c := fun _ => -1) (u := 100) (x := torn 1)
    (y := tornPercent) exactLA exactLA_sound id
    ⟨fun _ => rfl, ?_, ?_, ?_, ?_, rfl⟩ ?_ (fun _ => by norm_num) (by norm_num) (.inr fun _ _ => rfl) cs cs' 0
  · intro i j; fin_cases i; fin_cases j; norm_num [torn, tornPercent]
  · intro i; fin_cases i; norm_num [torn, tornPercent]
  · intro a i; fin_cases a <;> fin_cases i <;> norm_num [torn, tornPercent]
  · intro a; fin_cases a <;> norm_num [torn, tornPercent]
  · intro a b; simp [torn, tornPercent]

end Verif.BL
