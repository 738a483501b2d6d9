import Verif.Props.Unique
import Verif.Props.SharpeCases
import Verif.Props.TailCases
import Mathlib.Analysis.Convex.StdSimplex

/-!
Cases for C73 to C75.  For long-only portfolios without further constraints every call has an answer, whatever the data
of an `EfficientFrontier`; so the theorems speak of all such data.
-/

noncomputable section

namespace Verif.Convex
open Verif.Py Verif.Base Matrix

section all
variable {n : ℕ} {D D' : Data n} {mu : Fin n → ℝ}

/-! ### Optima exist -/

theorem simplex_iff {w : Fin n → ℝ} : ((∀ i, 0 ≤ w i ∧ w i ≤ 1) ∧ ∑ i, w i = 1) ↔ w ∈ stdSimplex ℝ (Fin n) := by
  refine ⟨fun h => ⟨fun i => (h.1 i).1, h.2⟩, fun h => ⟨fun i => ⟨h.1 i, ?_⟩, h.2⟩⟩
  rw [← h.2]
  exact Finset.single_le_sum (fun j _ => h.1 j) (Finset.mem_univ i)

/-- Continuous objectives have long-only minima under closed requirements that can be met. -/
theorem doc_opt {q : Ask n} {upar : ℕ → ℝ} {f : (Fin n → ℝ) → ℝ} {C : Set (Fin n → ℝ)} (hq : q.mn = false)
    (hf : Continuous f) (hC : IsClosed C) (hb : ∀ s, q.base s = f s.w) (he : ∀ s, q.extra s ↔ s.w ∈ C)
    (hne : (stdSimplex ℝ (Fin n) ∩ C).Nonempty) : ∃ s v, IsOpt (doc exU exCfg upar q) s v := by
  obtain ⟨w, hw, hmin⟩ := ((isCompact_stdSimplex ℝ (Fin n)).inter_right hC).exists_isMinOn hne hf.continuousOn
  refine ⟨ofW w, f w, ?_⟩
  have hu := ex_isOpt (U := (exU : Uni n)) (h := { (exW : World n).heap with upar := upar }) hq (s := ofW w) (v := f w)
  refine hu.2 ⟨⟨(simplex_iff.2 hw.1).1, (simplex_iff.2 hw.1).2, (he _).2 hw.2⟩, hb _, fun s h1 h2 h3 => ?_⟩
  rw [hb]
  exact hmin ⟨simplex_iff.1 ⟨h1, h2⟩, (he _).1 h3⟩

theorem cont_quad (M : Matrix (Fin n) (Fin n) ℝ) : Continuous fun w : Fin n → ℝ => w ⬝ᵥ M *ᵥ w := by
  unfold dotProduct mulVec dotProduct
  fun_prop

theorem cont_dot (v : Fin n → ℝ) : Continuous fun w : Fin n → ℝ => w ⬝ᵥ v := by
  unfold dotProduct
  fun_prop

theorem ef_usable (hk : D.kind = .ef) : Usable (exU : Uni n) D where
  names _ := by simp [exU]
  scalar _ := rfl
  cons _ := ⟨nofun, nofun⟩
  mu h := by rw [hk] at h; cases h
  tail h := by rw [hk] at h; rcases h with h | h <;> cases h

/-- A call that reaches an exact solver with a solvable problem has an answer. -/
theorem got_of {S : Solver n} (hS : Exact S) {c : Call n} {h : Heap n} (hu : h.upar = (exW : World n).heap.upar)
    (p : Passes exU S D exCfg c h (run exU S D c exO (exW : World n).heap))
    (ho : ∀ v q, ask D v c = some q → ∃ s x, IsOpt (doc exU exCfg (exW : World n).heap.upar q) s x) :
    ∃ w, Got exU D exCfg (exW : World n).heap.upar c w := by
  obtain ⟨w, hw⟩ := p.ok hS (by rw [hu]; exact ho)
  exact ⟨w, S, exW, 0, exO, exW_reachable, exW_get, rfl, hw, hS.correct _ _⟩

variable (hk : D.kind = .ef) (hsym : D.symOk = true) (hn : 0 < n)
include hk hsym hn

omit hk hsym in
theorem simplex_ne : (stdSimplex ℝ (Fin n)).Nonempty :=
  ⟨_, single_mem_stdSimplex ℝ (⟨0, hn⟩ : Fin n)⟩

theorem got_minVolatility : ∃ w, Got exU D exCfg (exW : World n).heap.upar .minVolatility w := by
  obtain ⟨S, hS⟩ := exists_exact (n := n)
  refine got_of hS rfl (fresh_reaches (ef_usable hk) (exW_good (ef_usable hk)) exO_opt (c := .minVolatility)
    ⟨hk, hsym⟩ trivial nofun).1 fun v q hq => ?_
  simp only [ask, hk] at hq
  cases hq
  exact doc_opt rfl (cont_quad D.cov) isClosed_univ (fun _ => rfl) (fun _ => by simp)
    (by rw [Set.inter_univ]; exact simplex_ne hn)

variable (hmu : D.mu = some mu)
include hmu

theorem got_maxUtility {r : ℝ} (hr : 0 < r) :
    ∃ w, Got exU D exCfg (exW : World n).heap.upar (.maxUtility r false) w := by
  obtain ⟨S, hS⟩ := exists_exact (n := n)
  refine got_of hS rfl (fresh_reaches (ef_usable hk) (exW_good (ef_usable hk)) exO_opt (c := .maxUtility r false)
    ⟨.inl ⟨hk, hsym⟩, by rw [hmu]; rfl⟩ hr nofun).1 fun v q hq => ?_
  simp only [ask, hk, hmu] at hq
  cases hq
  exact doc_opt rfl (f := fun w => -(w ⬝ᵥ mu - r / 2 * (w ⬝ᵥ D.cov *ᵥ w)))
    (((cont_dot mu).sub ((cont_quad D.cov).const_mul _)).neg) isClosed_univ (fun _ => rfl) (fun _ => by simp)
    (by rw [Set.inter_univ]; exact simplex_ne hn)

/-- Every target up to some asset's return. -/
theorem got_efficientReturn {t : ℝ} (ht : ∃ i, t ≤ mu i) :
    ∃ w, Got exU D exCfg (exW : World n).heap.upar (.efficientReturn true t false) w := by
  obtain ⟨S, hS⟩ := exists_exact (n := n)
  obtain ⟨i, hi⟩ := ht
  have hs : Pi.single i (1 : ℝ) ∈ stdSimplex ℝ (Fin n) := single_mem_stdSimplex ℝ i
  obtain ⟨h₁, k1, -, k3, k4⟩ := fresh_return (S := S) (t := t) (mn := false) (ef_usable hk) hk hsym
    (exW_good (ef_usable hk)) exO_opt hmu (fun m hm => by cases hm)
  obtain ⟨s, v, hv⟩ : ∃ s v, IsOpt (maxProb exU exCfg (exW : World n).heap.upar mu) s v :=
    doc_opt (q := ⟨fun s => -(s.w ⬝ᵥ mu), fun _ => True, false⟩) rfl (cont_dot mu).neg isClosed_univ
      (fun _ => rfl) (fun _ => by simp) (by rw [Set.inter_univ]; exact ⟨_, hs⟩)
  obtain ⟨s', e, hs'⟩ := hS.sol (exW : World n).heap.log.length hv
  have hle : t ≤ -v := by
    have := ((ex_isOpt (U := (exU : Uni n)) (h := (exW : World n).heap) rfl).1
      (show IsOpt (doc exU exCfg _ ⟨fun s => -(s.w ⬝ᵥ mu), fun _ => True, false⟩) s v from hv)).2.2
      (ofW (Pi.single i 1)) (simplex_iff.2 hs).1 hs.2 trivial
    have h2 : v ≤ -((Pi.single i 1 : Fin n → ℝ) ⬝ᵥ mu) := this
    rw [single_dotProduct, one_mul] at h2
    linarith
  rcases k4 with ⟨e', k4, -⟩ | ⟨m, k4, -, k5⟩
  · rw [e] at k4; cases k4
  · rw [e] at k4
    cases k4
    refine got_of hS k3 (k5 hle).1.1 fun v q hq => ?_
    simp only [ask, hk, hmu] at hq
    cases hq
    refine doc_opt rfl (cont_quad D.cov) (C := {w | t ≤ w ⬝ᵥ mu}) (isClosed_le continuous_const (cont_dot mu))
      (fun _ => rfl) (fun _ => Iff.rfl) ⟨_, hs, ?_⟩
    show t ≤ _
    rw [single_dotProduct, one_mul]
    exact hi

/-- Every target risk that some asset stays below, if it passes the check against the global minimum. -/
theorem got_efficientRisk {t : ℝ} (h0 : 0 ≤ t) (hg : ¬ numLt t (globalMinVol D)) (ht : ∃ i, D.cov i i ≤ t ^ 2) :
    ∃ w, Got exU D exCfg (exW : World n).heap.upar (.efficientRisk t false) w := by
  obtain ⟨S, hS⟩ := exists_exact (n := n)
  obtain ⟨i, hi⟩ := ht
  refine got_of hS rfl (fresh_reaches (ef_usable hk) (exW_good (ef_usable hk)) exO_opt (c := .efficientRisk t false)
    ⟨fun _ => hsym, by rw [hmu]; rfl⟩ (by simp only [Accepts, hk]; exact ⟨h0, hg⟩) nofun).1 fun v q hq => ?_
  simp only [ask, hk, hmu] at hq
  cases hq
  refine doc_opt rfl (f := fun w => -(w ⬝ᵥ mu)) (cont_dot mu).neg (C := {w | w ⬝ᵥ D.cov *ᵥ w ≤ t ^ 2})
    (isClosed_le (cont_quad D.cov) continuous_const) (fun _ => rfl) (fun _ => Iff.rfl)
    ⟨_, single_mem_stdSimplex ℝ i, ?_⟩
  rw [Set.mem_setOf_eq]
  rw [single_dotProduct, one_mul]
  simpa [mulVec] using hi

omit hn in
/-- Every risk-free rate below some asset's return. -/
theorem got_maxSharpe (hM : D.cov.PosDef) {rf : ℝ} (hr : ∃ i, rf < mu i) :
    ∃ w, Got exU D exCfg (exW : World n).heap.upar (.maxSharpe rf) w := by
  obtain ⟨S, hS⟩ := exists_exact (n := n)
  obtain ⟨g, hm⟩ := good_of_reachable (S := S) (ef_usable hk) exW_reachable _ (List.mem_of_getElem? exW_get)
  obtain ⟨v, e, -⟩ := sharpe_reaches (S := S) (ef_usable hk) hk hsym hmu hr g hm exO_opt (by
    intro i hi; simp [exCfg] at hi)
  obtain ⟨i, hi⟩ := hr
  have hpos : ∀ w : Fin n → ℝ, w ≠ 0 → 0 < w ⬝ᵥ D.cov *ᵥ w := fun w hw => by
    simpa using hM.dotProduct_mulVec_pos hw
  have hne : ∀ w ∈ stdSimplex ℝ (Fin n), w ≠ 0 := by
    rintro w hw rfl
    have := hw.2
    simp at this
  have hvp : ∀ w ∈ stdSimplex ℝ (Fin n), 0 < vol D.cov w := fun w hw => Real.sqrt_pos.2 (hpos w (hne w hw))
  obtain ⟨w, hw, hmax⟩ := (isCompact_stdSimplex ℝ (Fin n)).exists_isMaxOn (f := fun w => (w ⬝ᵥ mu - rf) / vol D.cov w)
    ⟨_, single_mem_stdSimplex ℝ i⟩ (((cont_dot mu).sub continuous_const).continuousOn.div
      (Real.continuous_sqrt.comp (cont_quad D.cov)).continuousOn fun w hw => (hvp w hw).ne')
  have he : 0 < w ⬝ᵥ mu - rf := by
    have h1 : (Pi.single i 1 ⬝ᵥ mu - rf) / vol D.cov (Pi.single i 1) ≤ (w ⬝ᵥ mu - rf) / vol D.cov w :=
      hmax (single_mem_stdSimplex ℝ i)
    rw [single_dotProduct, one_mul] at h1
    have h2 : 0 < (mu i - rf) / vol D.cov (Pi.single i 1) :=
      div_pos (by linarith) (hvp _ (single_mem_stdSimplex ℝ i))
    have := h2.trans_le h1
    rcases div_pos_iff.1 this with h | h
    · exact h.1
    · exact absurd h.2 (hvp w hw).le.not_gt
  have hobj : ∀ s : Asg n, (sharpeProb exU exCfg D.cov mu rf v (exW : World n).heap.upar).obj s =
      ((s.w ⬝ᵥ D.cov *ᵥ s.w : ℝ) : EReal) := fun s => by simp [sharpeProb, exCfg]
  have hex : ∀ x : Fin n → ℝ, ∑ i, x i = 1 → ∀ a : ℝ, ∑ i, (mu i - rf) * (a * x i) = a * (x ⬝ᵥ mu - rf) := by
    intro x hx a
    have : ∀ i, (mu i - rf) * (a * x i) = a * (x i * mu i) - a * rf * x i := fun i => by ring
    simp only [this, Finset.sum_sub_distrib, ← Finset.mul_sum, hx, dotProduct]
    ring
  let a := (w ⬝ᵥ mu - rf)⁻¹
  have ha : 0 < a := inv_pos.2 he
  have hopt : IsOpt (sharpeProb exU exCfg D.cov mu rf v (exW : World n).heap.upar)
      ⟨fun i => a * w i, fun _ => 0, fun _ _ => a⟩ (a ^ 2 * (w ⬝ᵥ D.cov *ᵥ w)) := by
    refine ⟨⟨?_, ?_, ha.le, fun i => ?_, by simp [exCfg]⟩, ?_, fun s hs => ?_⟩
    · show ∑ i, (mu i - rf) * (a * w i) = 1
      rw [hex w hw.2]
      exact inv_mul_cancel₀ he.ne'
    · show ∑ i, a * w i = a
      rw [← Finset.mul_sum, hw.2, mul_one]
    · show (0 : EReal) * (a : EReal) ≤ ((a * w i : ℝ) : EReal) ∧ ((a * w i : ℝ) : EReal) ≤ (1 : EReal) * (a : EReal)
      rw [zero_mul, one_mul, ← EReal.coe_zero, EReal.coe_le_coe_iff, EReal.coe_le_coe_iff]
      have h1 := (simplex_iff.2 hw).1 i
      exact ⟨mul_nonneg ha.le h1.1, by nlinarith [h1.2]⟩
    · rw [hobj]
      congr 1
      show (a • w) ⬝ᵥ D.cov *ᵥ (a • w) = _
      rw [mulVec_smul, smul_dotProduct, dotProduct_smul, smul_eq_mul, smul_eq_mul]
      ring
    · rw [hobj, hobj, EReal.coe_le_coe_iff]
      obtain ⟨h1, h2, h3, h4, -⟩ := hs
      set b := s.lib v 0 with hb
      have h4 : ∀ i, 0 ≤ s.w i ∧ s.w i ≤ b := fun i => by
        have h := h4 i
        change (0 : EReal) * (b : EReal) ≤ _ ∧ _ ≤ (1 : EReal) * (b : EReal) at h
        rw [zero_mul, one_mul, ← EReal.coe_zero, EReal.coe_le_coe_iff, EReal.coe_le_coe_iff] at h
        exact h
      have hb0 : 0 < b := by
        refine lt_of_le_of_ne h3 fun h0 => ?_
        have : ∀ i, s.w i = 0 := fun i => le_antisymm (by rw [h0]; exact (h4 i).2) (h4 i).1
        simp [this] at h1
      have hx : (fun i => b⁻¹ * s.w i) ∈ stdSimplex ℝ (Fin n) :=
        ⟨fun i => mul_nonneg (inv_nonneg.2 hb0.le) (h4 i).1, by rw [← Finset.mul_sum, h2, inv_mul_cancel₀ hb0.ne']⟩
      have e1 : s.w = b • (fun i => b⁻¹ * s.w i) := by
        funext i
        simp [mul_inv_cancel_left₀ hb0.ne']
      set x : Fin n → ℝ := fun i => b⁻¹ * s.w i with hxd
      have e2 : b * (x ⬝ᵥ mu - rf) = 1 := by
        rw [← hex x hx.2 b, ← h1]
        refine Finset.sum_congr rfl fun i _ => ?_
        have := congrFun e1 i
        simp only [Pi.smul_apply, smul_eq_mul] at this
        rw [← this]
      have h5 : (x ⬝ᵥ mu - rf) / vol D.cov x ≤ (w ⬝ᵥ mu - rf) / vol D.cov w := hmax hx
      rw [div_le_div_iff₀ (hvp x hx) (hvp w hw)] at h5
      have q1 : vol D.cov w ^ 2 = w ⬝ᵥ D.cov *ᵥ w := Real.sq_sqrt (hpos w (hne w hw)).le
      have q2 : vol D.cov x ^ 2 = x ⬝ᵥ D.cov *ᵥ x := Real.sq_sqrt (hpos x (hne x hx)).le
      have e3 : (⟨fun i => a * w i, fun _ => 0, fun _ _ => a⟩ : Asg n).w = a • w := rfl
      rw [e3, e1, mulVec_smul, smul_dotProduct, dotProduct_smul, mulVec_smul, smul_dotProduct, dotProduct_smul,
        smul_eq_mul, smul_eq_mul, smul_eq_mul, smul_eq_mul, ← q1, ← q2]
      have h6 : a * vol D.cov w ≤ b * vol D.cov x := by
        have e4 : a * (w ⬝ᵥ mu - rf) = 1 := inv_mul_cancel₀ he.ne'
        have := mul_le_mul_of_nonneg_left h5 (mul_nonneg ha.le hb0.le)
        calc a * vol D.cov w = a * b * ((x ⬝ᵥ mu - rf) * vol D.cov w) := by
              rw [show a * b * ((x ⬝ᵥ mu - rf) * vol D.cov w) = a * (b * (x ⬝ᵥ mu - rf)) * vol D.cov w by ring, e2, mul_one]
          _ ≤ a * b * ((w ⬝ᵥ mu - rf) * vol D.cov x) := this
          _ = b * vol D.cov x := by
              rw [show a * b * ((w ⬝ᵥ mu - rf) * vol D.cov x) = (a * (w ⬝ᵥ mu - rf)) * (b * vol D.cov x) by ring, e4, one_mul]
      have := pow_le_pow_left₀ (mul_nonneg ha.le (hvp w hw).le) h6 2
      nlinarith
  obtain ⟨s', es, -⟩ := hS.sol (exW : World n).heap.log.length hopt
  rw [es] at e
  exact ⟨_, S, exW, 0, exO, exW_reachable, exW_get, rfl, e, hS.correct _ _⟩

omit hk hsym hn hmu

/-! ### C73 and C74 -/

theorem exCfg_convex {upar : ℕ → ℝ} : ConvexCons (exU : Uni n) exCfg upar := by
  intro i hi; simp [exCfg] at hi

theorem ef_sound (hk : D.kind = .ef) (hM : D.cov.PosSemidef) {mn : Bool} : Sound D mn := by
  simp only [Sound, hk]; exact hM

/-- C73 and C74 for `EfficientFrontier`: portfolios as in their hypotheses exist for all data; the slack is all that keeps
risk from growing with the target return. -/
example (hk : D.kind = .ef) (hsym : D.symOk = true) (hmu : D.mu = some mu) (hM : D.cov.PosSemidef) {t t' : ℝ}
    (htt : t ≤ t') (ht : ∃ i, t' ≤ mu i) : ∃ w₀ w w' w'',
      vol D.cov w₀ ≤ vol D.cov w + 2 * riskSlack D ∧ vol D.cov w ≤ vol D.cov w' + 2 * riskSlack D ∧
      vol D.cov w'' ≤ 1 / 2 * vol D.cov w + (1 - 1 / 2) * vol D.cov w' + 2 * riskSlack D := by
  obtain ⟨i, hi⟩ := ht
  have hn : 0 < n := Fin.pos i
  have hD := ef_sound hk hM (mn := false)
  have hU := ef_usable hk
  have e : risk D = vol D.cov := by unfold risk; rw [hk]
  obtain ⟨w₀, h₀⟩ := got_minVolatility hk hsym hn
  obtain ⟨w, h⟩ := got_efficientReturn hk hsym hn hmu (t := t) ⟨i, htt.trans hi⟩
  obtain ⟨w', h'⟩ := got_efficientReturn hk hsym hn hmu (t := t') ⟨i, hi⟩
  obtain ⟨w'', h''⟩ := got_efficientReturn hk hsym hn hmu (t := 1 / 2 * t + (1 - 1 / 2) * t') ⟨i, by linarith⟩
  have k0 := C74_least_risk hU rfl hD hmu (c := .minVolatility) (c' := .efficientReturn true t false) ⟨hk, rfl⟩ (by exact rfl) h₀ h
  have k1 := C73_target_return hU rfl hD hmu htt h h'
  have k2 := C73_return_convex hU rfl exCfg_convex hD hmu (by norm_num) (by norm_num) h h' h''
  rw [e] at k0 k1 k2
  exact ⟨w₀, w, w', w'', k0, k1, k2⟩

/-- C73 and C74 for risk aversions and Sharpe ratios. -/
example (hk : D.kind = .ef) (hsym : D.symOk = true) (hmu : D.mu = some mu) (hM : D.cov.PosDef) {r r' rf : ℝ}
    (hr : 0 < r) (hrr : r < r') (hrf : ∀ i, rf + 1 ≤ mu i) (hn : 0 < n) (hsm : retSlack mu ≤ 1 / 2) : ∃ w w' v,
      w' ⬝ᵥ mu ≤ w ⬝ᵥ mu + 2 * retSlack mu ∧
      (w ⬝ᵥ mu - rf - retSlack mu) * (vol D.cov v - riskSlack D) ≤
        (v ⬝ᵥ mu - rf + retSlack mu) * (vol D.cov w + riskSlack D) := by
  have hD := ef_sound hk hM.posSemidef (mn := false)
  have hU := ef_usable hk
  obtain ⟨w, h⟩ := got_maxUtility hk hsym hn hmu hr
  obtain ⟨w', h'⟩ := got_maxUtility hk hsym hn hmu (hr.trans hrr)
  obtain ⟨v, hv⟩ := got_maxSharpe hk hsym hmu hM (rf := rf) ⟨⟨0, hn⟩, by linarith [hrf ⟨0, hn⟩]⟩
  obtain ⟨s, u, hs, ha⟩ := h.admissible (mn := false) hU (by exact rfl)
  refine ⟨w, w', v, (C73_utility hU rfl hD hmu hrr h h').2, C74_sharpe_partial hU rfl hD (fun _ => ⟨0, rfl⟩)
    (by intro i hi; simp [exCfg] at hi) hmu (c' := .maxUtility r false) (by exact rfl) hv h ?_⟩
  have k1 := (abs_le.1 (hs.ret mu)).1
  have h1 := ex_adm.1 ha
  have k2 : rf + 1 ≤ s ⬝ᵥ mu := by
    have : ∑ i, s i * (rf + 1) ≤ ∑ i, s i * mu i :=
      Finset.sum_le_sum fun i _ => mul_le_mul_of_nonneg_left (hrf i) (h1.1 i).1
    rw [← Finset.sum_mul, h1.2, one_mul] at this
    exact this
  linarith

/-- C73 for target risks: all targets from the volatility of some asset upwards. -/
example (hk : D.kind = .ef) (hsym : D.symOk = true) (hmu : D.mu = some mu) (hM : D.cov.PosSemidef) {t t' : ℝ}
    (h0 : 0 ≤ t) (htt : t ≤ t') (ht : ∃ i, D.cov i i ≤ t ^ 2) (hg : ¬ numLt t (globalMinVol D))
    (hg' : ¬ numLt t' (globalMinVol D)) : ∃ w w', w ⬝ᵥ mu ≤ w' ⬝ᵥ mu + 2 * retSlack mu := by
  obtain ⟨i, hi⟩ := ht
  have hn : 0 < n := Fin.pos i
  obtain ⟨w, h⟩ := got_efficientRisk hk hsym hn hmu h0 hg ⟨i, hi⟩
  obtain ⟨w', h'⟩ := got_efficientRisk hk hsym hn hmu (h0.trans htt) hg' ⟨i, hi.trans (pow_le_pow_left₀ h0 htt 2)⟩
  exact ⟨w, w', C73_target_risk (ef_usable hk) rfl (ef_sound hk hM) hmu h0 htt h h'⟩

/-! ### C75 -/

theorem Restated.exists (π : Equiv.Perm (Fin n)) (c k : ℝ) (hk : D.kind = .ef) :
    Restated π c k D { D with cov := fun i j => c * D.cov (π i) (π j), mu := D.mu.map fun m i => k * m (π i) } :=
  ⟨⟨hk, hk⟩, fun _ _ => rfl, rfl⟩

theorem exCfg_same (π : Equiv.Perm (Fin n)) {upar : ℕ → ℝ} :
    SameChoice π false (exU : Uni n) exCfg upar exU exCfg upar :=
  sameChoice_reorder (cfg := exCfg) (cfg' := exCfg) (by intro i hi; simp [exCfg] at hi)

/-- C75: for all data, orders and units there are two portfolios as in its hypotheses, of each method. -/
example (hk : D.kind = .ef) (hsym : D.symOk = true) (hmu : D.mu = some mu) (hM : D.cov.PosDef)
    (π : Equiv.Perm (Fin n)) {c k : ℝ} (hc : 0 < c) (hk0 : 0 < k) {t r : ℝ} (ht : ∃ i, t < mu i) (hr : 0 < r) :
    ∃ D', Restated π c k D D' ∧ ∃ w w' v v' x x' y y',
      (Got exU D exCfg (exW : World n).heap.upar .minVolatility w ∧
        Got exU D' exCfg (exW : World n).heap.upar .minVolatility w' ∧ w' = fun i => w (π i)) ∧
      (Got exU D exCfg (exW : World n).heap.upar (.efficientReturn true t false) v ∧
        Got exU D' exCfg (exW : World n).heap.upar (.efficientReturn true (k * t) false) v' ∧ v' = fun i => v (π i)) ∧
      (Got exU D exCfg (exW : World n).heap.upar (.maxUtility r false) x ∧
        Got exU D' exCfg (exW : World n).heap.upar (.maxUtility (k / c * r) false) x' ∧ x' = fun i => x (π i)) ∧
      (Got exU D exCfg (exW : World n).heap.upar (.maxSharpe t) y ∧
        Got exU D' exCfg (exW : World n).heap.upar (.maxSharpe (k * t)) y' ∧ y' = fun i => y (π i)) := by
  obtain ⟨i, hi⟩ := ht
  have hn : 0 < n := Fin.pos i
  have hR := Restated.exists π c k hk
  have hU := ef_usable hk
  have hU' := ef_usable hR.kind.2
  have hi' : k * t < k * mu (π (π.symm i)) := by rw [Equiv.apply_symm_apply]; exact mul_lt_mul_of_pos_left hi hk0
  have hmu' : ({ D with cov := fun i j => c * D.cov (π i) (π j), mu := D.mu.map fun m i => k * m (π i) } : Data n).mu =
      some fun i => k * mu (π i) := by rw [hR.mu, hmu]; rfl
  have hM' : (Matrix.of fun i j => c * D.cov (π i) (π j)).PosDef := by
    have := (hM.submatrix π.injective).smul hc
    exact this
  obtain ⟨w, hw⟩ := got_minVolatility hk hsym hn
  obtain ⟨w', hw'⟩ := got_minVolatility hR.kind.2 hsym hn
  obtain ⟨v, hv⟩ := got_efficientReturn hk hsym hn hmu (t := t) ⟨i, hi.le⟩
  obtain ⟨v', hv'⟩ := got_efficientReturn hR.kind.2 hsym hn hmu' (t := k * t) ⟨π.symm i, hi'.le⟩
  obtain ⟨x, hx⟩ := got_maxUtility hk hsym hn hmu hr
  obtain ⟨x', hx'⟩ := got_maxUtility hR.kind.2 hsym hn hmu' (r := k / c * r) (by positivity)
  obtain ⟨y, hy⟩ := got_maxSharpe hk hsym hmu hM (rf := t) ⟨i, hi⟩
  obtain ⟨y', hy'⟩ := got_maxSharpe hR.kind.2 hsym hmu' hM' (rf := k * t) ⟨π.symm i, hi'⟩
  exact ⟨_, hR, w, w', v, v', x, x', y, y',
    ⟨hw, hw', C75_min_volatility hU hU' rfl rfl exCfg_convex hM hc hR (exCfg_same π) hw hw'⟩,
    ⟨hv, hv', C75_efficient_return hU hU' rfl rfl exCfg_convex hM hc hk0 hR (exCfg_same π) hmu hv hv'⟩,
    ⟨hx, hx', C75_max_quadratic_utility hU hU' rfl rfl exCfg_convex hM hc hk0 hR (exCfg_same π) hmu
      (ef_sound hk hM.posSemidef) hx hx'⟩,
    ⟨hy, hy', C75_max_sharpe_partial hU hU' rfl rfl exCfg_convex hM hc hk0 hR (exCfg_same π) hmu (fun _ => ⟨0, rfl⟩)
      (fun _ => ⟨0, rfl⟩) (by intro i hi; simp [exCfg] at hi) (by intro i hi; simp [exCfg] at hi) hy hy'⟩⟩

end all

/-! ### The tail classes -/

/-- C74 for the class of CVaR: of two days and two assets, the portfolio of least CVaR has no more than the one of least
CVaR that returns 7.5 percent. -/
example : ∃ w w', Got exU (tD .cvar 0) exCfg (exW : World 2).heap.upar (.minCvar false) w ∧
    Got exU (tD .cvar 0) exCfg (exW : World 2).heap.upar (.efficientReturn true 0.075 false) w' ∧
    portCvar (1 / 2) tR w ≤ portCvar (1 / 2) tR w' + 2 * riskSlack (tD .cvar 0) := by
  obtain ⟨S, hS⟩ := exists_exact (n := 2)
  obtain ⟨w, hw⟩ := tD_min_cvar_runs hS exW_reachable exW_get exO_opt
  obtain ⟨w', hw'⟩ := tD_return_cvar_runs hS exW_reachable exW_get exO_opt
  have h : Got exU (tD .cvar 0) exCfg (exW : World 2).heap.upar (.minCvar false) w :=
    ⟨S, exW, 0, exO, exW_reachable, exW_get, rfl, hw, hS.correct _ _⟩
  have h' : Got exU (tD .cvar 0) exCfg (exW : World 2).heap.upar (.efficientReturn true 0.075 false) w' :=
    ⟨S, exW, 0, exO, exW_reachable, exW_get, rfl, hw', hS.correct _ _⟩
  exact ⟨w, w', h, h', C74_least_risk (tD_usable _ _) rfl (by constructor <;> norm_num [tD]) (mu := ![0.1, 0.05]) rfl
    (c := .minCvar false) (c' := .efficientReturn true 0.075 false) (mn := false) ⟨rfl, rfl⟩ (by exact rfl) h h'⟩

end Verif.Convex
