import Verif.Props.BlackLitterman
import Mathlib.Algebra.BigOperators.Field

/-!
Implied Black-Litterman weights (C25) and the market-implied prior (C28).
-/

set_option linter.unusedSectionVars false
noncomputable section

namespace Verif.BL
open Verif.Py Verif.Base Verif.Perf Matrix

variable {κ : Type} [DecidableEq κ] {n k : ℕ}

theorem smul_isUnit {S : Matrix (Fin n) (Fin n) ℝ} {δ : ℝ} (hδ : δ ≠ 0) : IsUnit (δ • S) ↔ IsUnit S := by
  constructor
  · intro h
    have h2 : S = δ⁻¹ • (δ • S) := by rw [smul_smul, inv_mul_cancel₀ hδ, one_smul]
    rw [h2]
    exact (IsUnit.smul (Units.mk0 δ⁻¹ (inv_ne_zero hδ)) h)
  · intro h
    exact (IsUnit.smul (Units.mk0 δ hδ) h)

/-- The raw solution when `S` is non-singular. -/
theorem weightSolution_unit (la : LinAlg) (hla : la.Sound) (x : Inputs κ n k) (hS : IsUnit x.cov) (δ : ℝ)
    (hδ : δ ≠ 0) (A' : Matrix (Fin k) (Fin k) ℝ) (post : Fin n → ℝ) :
    weightSolution la x A' δ post = .ok (δ⁻¹ • (x.cov⁻¹ *ᵥ post)) := by
  have hu : IsUnit (δ • x.cov) := (smul_isUnit hδ).2 hS
  unfold weightSolution
  cases hs : la.solve n 1 (δ • x.cov) (col post) with
  | none => exact absurd hu (hla.solve_none _ _ hs)
  | some w =>
    simp only
    have h1 := (hla.solve_some _ _ _ hs).1
    have h2 : (δ • x.cov) *ᵥ (fun i => w i 0) = post := by
      funext i; exact congrFun (congrFun h1 i) 0
    congr 1
    have h3 : x.cov⁻¹ *ᵥ ((δ • x.cov) *ᵥ (fun i => w i 0)) = δ • (fun i => w i 0) := by
      rw [mulVec_mulVec, Matrix.mul_smul, unit_inv_mul hS, smul_mulVec, one_mulVec]
    rw [h2] at h3
    rw [h3, smul_smul, inv_mul_cancel₀ hδ, one_smul]

theorem fdiv_scale {c : ℝ} (hc : 0 < c) (a b : ℝ) :
    fdiv (c * a) (.fin (c * b)) = fdiv a (.fin b) := by
  unfold fdiv
  simp only [mul_eq_zero, hc.ne', false_or, mul_pos_iff_of_pos_left hc, mul_div_mul_left _ _ hc.ne']

/-! ### C25 -/

/-- **C25** (non-singular `S`, implied weights with a non-zero sum).  The returned weights sum to
exactly 1 and are `S⁻¹ · posterior` up to the normalising factor.  Missing from the claim: `S`
singular, and `S⁻¹ · posterior` summing to zero; both fail, see the `_false` theorems. -/
theorem C25_weights_partial (la : LinAlg) (hla : la.Sound) (natKey : ℕ → κ) (x : Inputs κ n k)
    (hS : IsUnit x.cov) (cs : List (Call n)) (ra : Option ℝ) (hra : ra.getD x.riskAversion ≠ 0)
    (hsum : ∑ i, (x.cov⁻¹ *ᵥ (blReturns la x (run la natKey x cs)).2) i ≠ 0) :
    ∃ v : Fin n → ℝ, (blWeights la x (run la natKey x cs) ra).2 = .ok (fun i => .fin (v i)) ∧
      ∑ i, v i = 1 ∧
      x.cov *ᵥ v = (∑ i, (x.cov⁻¹ *ᵥ (blReturns la x (run la natKey x cs)).2) i)⁻¹ •
        (blReturns la x (run la natKey x cs)).2 := by
  set post := (blReturns la x (run la natKey x cs)).2 with hpost
  set T := ∑ i, (x.cov⁻¹ *ᵥ post) i with hT
  refine ⟨T⁻¹ • (x.cov⁻¹ *ᵥ post), ?_, ?_, ?_⟩
  · simp only [blWeights]
    rw [← hpost, weightSolution_unit la hla x hS _ hra]
    simp only
    congr 1
    funext i
    set δ := ra.getD x.riskAversion
    have hs : ∑ j, (δ⁻¹ • (x.cov⁻¹ *ᵥ post)) j = δ⁻¹ * T := by
      rw [hT, Finset.mul_sum]; rfl
    rw [hs]
    have hne : δ⁻¹ * T ≠ 0 := mul_ne_zero (inv_ne_zero hra) hsum
    simp only [fdiv, hne, if_false, Pi.smul_apply, smul_eq_mul]
    congr 1
    rw [mul_div_mul_left _ _ (inv_ne_zero hra), div_eq_inv_mul]
  · have : ∑ i, (T⁻¹ • (x.cov⁻¹ *ᵥ post)) i = T⁻¹ * T := by
      rw [hT, Finset.mul_sum]; rfl
    rw [this, inv_mul_cancel₀ hsum]
  · rw [mulVec_smul, mulVec_mulVec, unit_mul_inv hS, one_mulVec]

/-- **C25.** The weights (or the error, or the non-finite result) do not depend on the positive risk
aversion passed, singular `S` included. -/
theorem C25_risk_aversion_irrelevant (la : LinAlg) (hla : la.Sound) (natKey : ℕ → κ) (x : Inputs κ n k)
    (cs : List (Call n)) (ra ra' : Option ℝ) (h : 0 < ra.getD x.riskAversion)
    (h' : 0 < ra'.getD x.riskAversion) :
    (blWeights la x (run la natKey x cs) ra).2 = (blWeights la x (run la natKey x cs) ra').2 := by
  set δ := ra.getD x.riskAversion with hδ
  set δ' := ra'.getD x.riskAversion with hδ'
  set s := run la natKey x cs with hs
  by_cases hS : IsUnit x.cov
  · have key : ∀ r : Option ℝ, 0 < r.getD x.riskAversion → (blWeights la x s r).2 =
        .ok (fun i => fdiv ((x.cov⁻¹ *ᵥ (blReturns la x s).2) i)
          (.fin (∑ j, (x.cov⁻¹ *ᵥ (blReturns la x s).2) j))) := by
      intro r hr
      simp only [blWeights]
      rw [weightSolution_unit la hla x hS _ hr.ne']
      simp only
      congr 1
      funext i
      have hsum : ∑ j, ((r.getD x.riskAversion)⁻¹ • (x.cov⁻¹ *ᵥ (blReturns la x s).2)) j
          = (r.getD x.riskAversion)⁻¹ * ∑ j, (x.cov⁻¹ *ᵥ (blReturns la x s).2) j := by
        rw [Finset.mul_sum]; rfl
      rw [hsum, Pi.smul_apply, smul_eq_mul, fdiv_scale (inv_pos.2 hr)]
    rw [key ra h, key ra' h']
  · have key : ∀ r : ℝ, 0 < r → weightSolution la x (getA x s) r (blReturns la x s).2
        = if h : k = n then .ok (fun i => la.lstsq k k 1 (getA x s)
            (fun j _ => (blReturns la x s).2 (h ▸ j)) (h ▸ i) 0) else .error .linAlg := by
      intro r hr
      unfold weightSolution
      cases hsv : la.solve n 1 (r • x.cov) (col (blReturns la x s).2) with
      | none => rfl
      | some w => exact absurd ((smul_isUnit hr.ne').1 (hla.solve_some _ _ _ hsv).2) hS
    simp only [blWeights]
    rw [key _ h, key _ h']

example : ∃ v : Fin 2 → ℝ,
    (blWeights exactLA exCertain (run exactLA id exCertain [.cov]) (some 3)).2 = .ok (fun i => .fin (v i)) ∧
    ∑ i, v i = 1 := by
  have hS : IsUnit exCertain.cov := exCov_posDef.isUnit
  -- the columns of S sum to 3, so the sum of S⁻¹ post is (post 0 + post 1)/3 = 2/3
  have hrow : (fun _ => 1 : Fin 2 → ℝ) ᵥ* exCertain.cov = fun _ => 3 := by
    funext i
    fin_cases i <;> norm_num [exCertain, exInputs, vecMul, dotProduct, Fin.sum_univ_two]
  have hinv : (fun _ => 1 : Fin 2 → ℝ) ᵥ* exCertain.cov⁻¹ = fun _ => 1 / 3 := by
    have h : ((fun _ => 1 : Fin 2 → ℝ) ᵥ* exCertain.cov) ᵥ* exCertain.cov⁻¹ = fun _ => 1 := by
      rw [vecMul_vecMul, unit_mul_inv hS, vecMul_one]
    rw [hrow] at h
    have h3 : (fun _ => 3 : Fin 2 → ℝ) = (3 : ℝ) • (fun _ => 1 : Fin 2 → ℝ) := by funext i; simp
    rw [h3, smul_vecMul] at h
    funext i
    have := congrFun h i
    simp only [Pi.smul_apply, smul_eq_mul] at this
    linarith
  have hsumpost : ∀ p : Fin 2 → ℝ, ∑ i, (exCertain.cov⁻¹ *ᵥ p) i = (p 0 + p 1) / 3 := by
    intro p
    have : ∑ i, (exCertain.cov⁻¹ *ᵥ p) i = (fun _ => 1 : Fin 2 → ℝ) ⬝ᵥ (exCertain.cov⁻¹ *ᵥ p) := by
      simp [dotProduct]
    rw [this, dotProduct_mulVec, hinv]
    simp [dotProduct, Fin.sum_univ_two]; ring
  have hp : ((blReturns exactLA exCertain (run exactLA id exCertain [.cov])).2 0 +
      (blReturns exactLA exCertain (run exactLA id exCertain [.cov])).2 1) / 3 = 2 / 3 := by
    have h1 : ∀ i, (blReturns exactLA exCertain (run exactLA id exCertain [.cov])).2 i
        = 1 + (if i = 0 then 1 / 2 else -1 / 2) *
          (solveOr exactLA (amat exCertain) (col (exCertain.Q - exCertain.P *ᵥ exCertain.pi))) 0 0 := by
      intro i
      rw [blReturns_eq (run_coherent exactLA id exCertain [.cov])]
      simp only [blReturns, getA_eq (coherent_init exactLA exCertain),
        getTSP_eq (coherent_init exactLA exCertain)]
      rw [Matrix.mul_apply, Fin.sum_univ_one]
      congr 1
      · fin_cases i <;> simp [exCertain, exInputs]
      · congr 1
        fin_cases i <;> simp [tsp, exCertain, exInputs, Matrix.mul_apply, Fin.sum_univ_two] <;> norm_num
    rw [h1, h1]
    simp
    ring
  obtain ⟨v, h1, h2, _⟩ := C25_weights_partial exactLA exactLA_sound id exCertain hS [.cov] (some 3)
    (by norm_num) (by rw [hsumpost, hp]; norm_num)
  exact ⟨v, h1, h2⟩

/-- Positive semidefinite but singular covariance with a single view: `S = diag(1, 0)`. -/
def exSingular : Inputs ℕ 2 1 :=
  ⟨fun i => i, Matrix.diagonal ![1, 0], fun _ => 1, !![1, 0], ![1, 1], 1, 1, 1⟩

/-- **C25 fails.** With a singular covariance the fallback calls `lstsq` on `self._A` (one row per
view) with one right-hand side per asset; with fewer views than assets every call raises
LinAlgError instead of solving a system with `S`. -/
theorem C25_singular_raises_false :
    ∃ x : Inputs ℕ 2 1, x.cov.PosSemidef ∧ x.omega.PosDef ∧ 0 < x.tau ∧ x.tau ≤ 1 ∧
      ∀ la : LinAlg, la.Sound → ∀ (natKey : ℕ → ℕ) (cs : List (Call 2)) (ra : ℝ), 0 < ra →
        (blWeights la x (run la natKey x cs) (some ra)).2 = .error .linAlg := by
  refine ⟨exSingular, ?_, PosDef.one, by norm_num [exSingular], by norm_num [exSingular], ?_⟩
  · exact PosSemidef.diagonal (by intro i; fin_cases i <;> norm_num)
  · intro la hla natKey cs ra hra
    have hS : ¬ IsUnit (ra • exSingular.cov) := by
      rw [smul_isUnit hra.ne', Matrix.isUnit_iff_isUnit_det]
      simp [exSingular, Matrix.det_diagonal, Fin.prod_univ_two]
    simp only [blWeights, weightSolution, Option.getD_some]
    cases hsv : la.solve 2 1 (ra • exSingular.cov) (col (blReturns la exSingular (run la natKey exSingular cs)).2) with
    | some w => exact absurd (hla.solve_some _ _ _ hsv).2 hS
    | none => rfl

/-- Singular covariance `diag(1, 2, 0)`, a view on every asset, all consistent with the prior. -/
def exWrong : Inputs ℕ 3 3 :=
  ⟨fun i => i, Matrix.diagonal ![1, 2, 0], ![1, 1, 0], 1, ![1, 1, 0], 1, 1, 1⟩

/-- **C25 fails.** With a singular covariance and as many views as assets the fallback solves a
system with `P τS P' + Ω`: here `S w = c · posterior` has solutions with weights summing to 1, and no
multiple of the returned weights is a (least-squares) solution. -/
theorem C25_singular_wrong_system_false :
    ∃ x : Inputs ℕ 3 3, x.cov.PosSemidef ∧ x.omega.PosDef ∧ 0 < x.tau ∧ x.tau ≤ 1 ∧
      ∀ la : LinAlg, la.Sound → ∀ (natKey : ℕ → ℕ) (cs : List (Call 3)) (ra : ℝ), 0 < ra →
        (∃ u : Fin 3 → ℝ, x.cov *ᵥ u = (blReturns la x (run la natKey x cs)).2) ∧
        ∃ v : Fin 3 → ℝ, (blWeights la x (run la natKey x cs) (some ra)).2 = .ok (fun i => .fin (v i)) ∧
          ∀ c : ℝ, x.covᵀ *ᵥ (x.cov *ᵥ (c • v)) ≠ x.covᵀ *ᵥ (blReturns la x (run la natKey x cs)).2 := by
  refine ⟨exWrong, ?_, PosDef.one, by norm_num [exWrong], by norm_num [exWrong], ?_⟩
  · exact PosSemidef.diagonal (by intro i; fin_cases i <;> norm_num)
  intro la hla natKey cs ra hra
  have hpost : (blReturns la exWrong (run la natKey exWrong cs)).2 = ![1, 1, 0] :=
    C24_consistent_views la hla natKey exWrong (by simp [exWrong]) cs
  rw [hpost]
  refine ⟨⟨![1, 1/2, 0], by
    funext i; fin_cases i <;> simp [exWrong, mulVec_diagonal]⟩, ?_⟩
  have hA : getA exWrong (run la natKey exWrong cs) = Matrix.diagonal ![2, 3, 1] := by
    rw [getA_eq (run_coherent la natKey exWrong cs), amat_eq]
    simp only [exWrong, one_smul, transpose_one, Matrix.one_mul, Matrix.mul_one]
    rw [← Matrix.diagonal_one, Matrix.diagonal_add]
    congr 1
    funext i; fin_cases i <;> norm_num
  have hS : ¬ IsUnit (ra • exWrong.cov) := by
    rw [smul_isUnit hra.ne', Matrix.isUnit_iff_isUnit_det]
    simp [exWrong, Matrix.det_diagonal, Fin.prod_univ_three]
  -- the fallback solves diag(2, 3, 1) w = (1, 1, 0)
  have hl : ∀ i, la.lstsq 3 3 1 (Matrix.diagonal ![2, 3, 1]) (col ![1, 1, 0]) i 0 = ![1/2, 1/3, 0] i := by
    have hn := hla.lstsq_normal (Matrix.diagonal ![(2 : ℝ), 3, 1]) (col ![1, 1, 0])
    have hx := normal_exact _ _ _ (col ![1/2, 1/3, 0]) hn (by
      ext i j
      rw [Matrix.diagonal_mul]
      fin_cases i <;> simp [col])
    intro i
    have := congrFun (congrFun hx i) 0
    rw [Matrix.diagonal_mul] at this
    fin_cases i
    · simp [col] at this ⊢; linarith
    · simp [col] at this ⊢; linarith
    · simpa [col] using this
  refine ⟨![3/5, 2/5, 0], ?_, ?_⟩
  · simp only [blWeights, weightSolution, Option.getD_some]
    rw [hpost, hA]
    cases hsv : la.solve 3 1 (ra • exWrong.cov) (col ![1, 1, 0]) with
    | some w => exact absurd (hla.solve_some _ _ _ hsv).2 hS
    | none =>
      simp only [dite_true]
      have h2 : (fun i => la.lstsq 3 3 1 (Matrix.diagonal ![2, 3, 1])
          (fun j _ => (![1, 1, 0] : Fin 3 → ℝ) j) i 0) = ![1/2, 1/3, 0] := funext hl
      have h3 : (∑ j, (![1/2, 1/3, 0] : Fin 3 → ℝ) j) = 5/6 := by
        rw [Fin.sum_univ_three]
        change (1/2 : ℝ) + 1/3 + 0 = 5/6
        norm_num
      change Except.ok _ = Except.ok _
      congr 1
      funext i
      change fdiv ((fun i => la.lstsq 3 3 1 (Matrix.diagonal ![2, 3, 1])
          (fun j _ => (![1, 1, 0] : Fin 3 → ℝ) j) i 0) i) (.fin (∑ j, (fun i => la.lstsq 3 3 1
          (Matrix.diagonal ![2, 3, 1]) (fun j _ => (![1, 1, 0] : Fin 3 → ℝ) j) i 0) j)) = _
      rw [h2, h3]
      fin_cases i <;> norm_num [fdiv]
  · intro c h
    have e0 := congrFun h 0
    have e1 := congrFun h 1
    simp [exWrong, mulVec_diagonal] at e0 e1
    linarith

/-- **C25 fails.** Without a prior and with a zero view the posterior is zero, and all "weights" are
NaN although `S` is non-singular; no exception is raised. -/
theorem C25_zero_sum_false :
    ∃ x : Inputs ℕ 2 1, x.cov.PosDef ∧ x.omega.PosDef ∧ 0 < x.tau ∧ x.tau ≤ 1 ∧
      ∀ la : LinAlg, la.Sound → ∀ (natKey : ℕ → ℕ) (cs : List (Call 2)) (ra : ℝ), 0 < ra →
        (blWeights la x (run la natKey x cs) (some ra)).2 = .ok (fun _ => .nan) := by
  refine ⟨{ exInputs with pi := 0, Q := 0 }, exCov_posDef, exOmega_posDef,
    by norm_num [exInputs], by norm_num [exInputs], ?_⟩
  intro la hla natKey cs ra hra
  set x : Inputs ℕ 2 1 := { exInputs with pi := 0, Q := 0 } with hx
  have hpost : (blReturns la x (run la natKey x cs)).2 = 0 :=
    C24_consistent_views la hla natKey x (by simp [hx]) cs
  simp only [blWeights]
  rw [hpost, weightSolution_unit la hla x exCov_posDef.isUnit _ (by simpa using hra.ne')]
  simp [fdiv]

/-! ### C28 -/

theorem get?_map_snd (caps : List (κ × ℝ)) (c : ℝ) (t : κ) :
    Dict.get? (caps.map (fun p => (p.1, c * p.2))) t = (Dict.get? caps t).map (c * ·) := by
  induction caps with
  | nil => rfl
  | cons p l ih =>
    simp only [List.map_cons, Dict.get?]
    split
    · rfl
    · exact ih

/-- **C28.** The market-implied prior does not change when all caps are multiplied by a non-zero
(in particular positive) constant. -/
theorem C28_scale_invariant (tickers : Fin n → κ) (caps : List (κ × ℝ)) (c : ℝ) (hc : c ≠ 0) (δ rf : ℝ)
    (cov : Matrix (Fin n) (Fin n) ℝ) :
    marketPrior tickers (caps.map (fun p => (p.1, c * p.2))) δ cov rf
      = marketPrior tickers caps δ cov rf := by
  have hk : (caps.map (fun p => (p.1, c * p.2))).map Prod.fst = caps.map Prod.fst := by
    rw [List.map_map]; rfl
  have hs : ((caps.map (fun p => (p.1, c * p.2))).map Prod.snd).sum = c * (caps.map Prod.snd).sum := by
    rw [List.map_map, ← List.sum_map_mul_left]; rfl
  unfold marketPrior
  rw [hk, hs]
  simp only [mul_eq_zero, hc, false_or]
  split
  · split
    · rfl
    · congr 2
      funext i
      congr 2
      apply Finset.sum_congr rfl
      intro j _
      rw [get?_map_snd]
      cases Dict.get? caps (tickers j) with
      | none => simp
      | some v => simp [mul_div_mul_left _ _ hc]
  · rfl

theorem get?_of_mem (d : List (κ × ℝ)) (hd : (d.map Prod.fst).Nodup) (p : κ × ℝ) (hp : p ∈ d) :
    Dict.get? d p.1 = some p.2 := by
  induction d with
  | nil => cases hp
  | cons q l ih =>
    rw [List.map_cons, List.nodup_cons] at hd
    unfold Dict.get?
    rcases List.mem_cons.1 hp with rfl | h
    · simp
    · have : q.1 ≠ p.1 := fun he => hd.1 (he ▸ List.mem_map_of_mem h)
      rw [if_neg this]
      exact ih hd.2 h

theorem sum_caps (tickers : Fin n → κ) (hinj : Function.Injective tickers) (caps : List (κ × ℝ))
    (hd : (caps.map Prod.fst).Nodup) (h1 : ∀ i, tickers i ∈ caps.map Prod.fst)
    (h2 : ∀ t ∈ caps.map Prod.fst, ∃ i, tickers i = t) :
    ∑ j, (Dict.get? caps (tickers j)).getD 0 = (caps.map Prod.snd).sum := by
  have e1 : ∑ j, (Dict.get? caps (tickers j)).getD 0
      = ∑ t ∈ Finset.univ.image tickers, (Dict.get? caps t).getD 0 := by
    rw [Finset.sum_image (fun a _ b _ h => hinj h)]
  have e2 : Finset.univ.image tickers = (caps.map Prod.fst).toFinset := by
    ext t
    simp only [Finset.mem_image, Finset.mem_univ, true_and, List.mem_toFinset]
    exact ⟨fun ⟨i, hi⟩ => hi ▸ h1 i, h2 t⟩
  rw [e1, e2, List.sum_toFinset _ hd, List.map_map]
  congr 1
  apply List.map_congr_left
  intro p hp
  simp [get?_of_mem caps hd p hp]

/-- **C28.** With the market-implied prior at zero risk-free rate and views consistent with it, the
implied weights are exactly the market-cap weights, label by label, in whatever order the caps are
given and whatever positive risk aversion is passed. -/
theorem C28_inverts_to_market (la : LinAlg) (hla : la.Sound) (natKey : ℕ → κ) (x : Inputs κ n k)
    (hinj : Function.Injective x.tickers) (caps : List (κ × ℝ)) (hd : (caps.map Prod.fst).Nodup)
    (δ₀ : ℝ) (hδ₀ : δ₀ ≠ 0) (hpi : marketPrior x.tickers caps δ₀ x.cov 0 = .ok (some x.pi))
    (hS : IsUnit x.cov) (hQ : x.Q = x.P *ᵥ x.pi) (cs : List (Call n)) (ra : Option ℝ)
    (hra : ra.getD x.riskAversion ≠ 0) :
    ∃ w : Fin n → ℝ, (blWeights la x (run la natKey x cs) ra).2 = .ok (fun i => .fin (w i)) ∧
      (∀ p ∈ caps, ∀ i, x.tickers i = p.1 → w i = p.2 / (caps.map Prod.snd).sum) ∧ ∑ i, w i = 1 := by
  set total := (caps.map Prod.snd).sum with htot
  unfold marketPrior at hpi
  split at hpi
  case isFalse => cases hpi
  rename_i hk
  simp only [← htot] at hpi
  split at hpi
  case isTrue => cases hpi
  rename_i ht
  have hpi' := Option.some.inj (Except.ok.inj hpi)
  set m : Fin n → ℝ := fun j => (Dict.get? caps (x.tickers j)).getD 0 / total with hm
  have hpim : x.pi = δ₀ • (x.cov *ᵥ m) := by
    rw [← hpi']
    funext i
    simp only [add_zero, Pi.smul_apply, smul_eq_mul]
    rfl
  have hsm : ∑ j, m j = 1 := by
    rw [hm]
    simp only
    rw [← Finset.sum_div, sum_caps x.tickers hinj caps hd hk.1 hk.2, ← htot, div_self ht]
  have hpost := C24_consistent_views la hla natKey x hQ cs
  refine ⟨m, ?_, ?_, hsm⟩
  · simp only [blWeights]
    rw [hpost, weightSolution_unit la hla x hS _ hra]
    simp only
    set δ := ra.getD x.riskAversion
    have hraw : δ⁻¹ • (x.cov⁻¹ *ᵥ x.pi) = (δ⁻¹ * δ₀) • m := by
      rw [hpim, mulVec_smul, mulVec_mulVec, unit_inv_mul hS, one_mulVec, smul_smul]
    rw [hraw]
    have hs : ∑ j, ((δ⁻¹ * δ₀) • m) j = δ⁻¹ * δ₀ := by
      have : ∑ j, ((δ⁻¹ * δ₀) • m) j = (δ⁻¹ * δ₀) * ∑ j, m j := by rw [Finset.mul_sum]; rfl
      rw [this, hsm, mul_one]
    rw [hs]
    congr 1
    funext i
    have hne : δ⁻¹ * δ₀ ≠ 0 := mul_ne_zero (inv_ne_zero hra) hδ₀
    simp only [fdiv, hne, if_false, Pi.smul_apply, smul_eq_mul]
    congr 1
    rw [mul_comm, mul_div_assoc, div_self hne, mul_one]
  · intro p hp i hi
    simp only [hm, hi]
    rw [get?_of_mem caps hd p hp]
    rfl

/-- Caps given in the other order than the columns of the covariance. -/
def exCaps : List (ℕ × ℝ) := [(1, 30), (0, 10)]

def exMarket : Inputs ℕ 2 1 :=
  { exInputs with pi := ![5/2, 7/2], Q := fun _ => -1 }

example : ∃ w : Fin 2 → ℝ,
    (blWeights exactLA exMarket (run exactLA id exMarket []) none).2 = .ok (fun i => .fin (w i)) ∧
    w 0 = 1/4 ∧ w 1 = 3/4 := by
  have hprior : marketPrior exMarket.tickers exCaps 2 exMarket.cov 0 = .ok (some exMarket.pi) := by
    unfold marketPrior
    rw [if_pos (by
      constructor
      · intro i; fin_cases i <;> simp [exMarket, exInputs, exCaps]
      · intro t ht
        simp [exCaps] at ht
        rcases ht with rfl | rfl
        · exact ⟨1, rfl⟩
        · exact ⟨0, rfl⟩)]
    simp only [exCaps, List.map_cons, List.map_nil, List.sum_cons, List.sum_nil]
    rw [if_neg (by norm_num)]
    congr 2
    funext i
    rw [Fin.sum_univ_two]
    fin_cases i <;> norm_num [exMarket, exInputs, Dict.get?]
  obtain ⟨w, h1, h2, _⟩ := C28_inverts_to_market exactLA exactLA_sound id exMarket
    (fun a b h => by simpa [exMarket, exInputs, Fin.ext_iff] using h) exCaps (by simp [exCaps]) 2 (by norm_num) hprior exCov_posDef.isUnit
    (by funext i; fin_cases i; norm_num [exMarket, exInputs, mulVec, dotProduct, Fin.sum_univ_two]) [] none
    (by norm_num [exMarket, exInputs])
  refine ⟨w, h1, ?_, ?_⟩
  · have := h2 (0, 10) (by simp [exCaps]) 0 rfl
    rw [this]; norm_num [exCaps]
  · have := h2 (1, 30) (by simp [exCaps]) 1 rfl
    rw [this]; norm_num [exCaps]

end Verif.BL
