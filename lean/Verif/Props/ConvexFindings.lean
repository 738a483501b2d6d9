import Verif.Props.Convex
import Verif.Proof.ConvexExact
import Mathlib.Algebra.BigOperators.Fin
import Mathlib.Data.Fin.VecNotation
import Mathlib.LinearAlgebra.Matrix.Notation

/-!
Cases that meet the hypotheses of `Verif.Props.Convex`, and cases in which the code does not do what C39 and
C41 ask.
-/

noncomputable section

namespace Verif.Convex
open Verif.Py Verif.Base Matrix

variable {S : Solver 2}

/-! ### An ordinary history -/

theorem variance_two (w : Fin 2 → ℝ) : w ⬝ᵥ (1 : Matrix (Fin 2) (Fin 2) ℝ) *ᵥ w = w 0 ^ 2 + w 1 ^ 2 := by
  rw [one_mulVec, dotProduct, Fin.sum_univ_two]; ring

theorem ret_two (mu w : Fin 2 → ℝ) : w ⬝ᵥ mu = w 0 * mu 0 + w 1 * mu 1 := by
  rw [dotProduct, Fin.sum_univ_two]

theorem ex_minvol (hS : Exact S) (mu : Fin 2 → ℝ) :
    (run exU S (exD mu) .minVolatility exO exW.heap).1 = .ok (some ![1 / 2, 1 / 2]) := by
  have p : Passes exU S (exD mu) exCfg .minVolatility exW.heap (run exU S (exD mu) .minVolatility exO exW.heap) :=
    (fresh_reaches (exU_usable mu) (exW_good (exU_usable mu)) exO_opt (c := .minVolatility) ⟨rfl, rfl⟩ trivial nofun).1
  obtain ⟨s', e, hs, -⟩ := p.exact hS (q := ⟨fun s => s.w ⬝ᵥ (1 : Matrix (Fin 2) (Fin 2) ℝ) *ᵥ s.w, fun _ => True,
    false⟩) nofun rfl (s := ofW ![1 / 2, 1 / 2]) (v := 1 / 2) (by
      rw [ex_isOpt rfl]
      refine ⟨⟨fun i => ?_, ?_, trivial⟩, ?_, fun s _ k2 _ => ?_⟩
      · fin_cases i <;> norm_num [ofW]
      · norm_num [ofW, Fin.sum_univ_two]
      · show (ofW ![1 / 2, 1 / 2]).w ⬝ᵥ _ *ᵥ _ = _
        rw [variance_two]; norm_num [ofW]
      · show _ ≤ s.w ⬝ᵥ (1 : Matrix (Fin 2) (Fin 2) ℝ) *ᵥ s.w
        rw [variance_two]
        rw [Fin.sum_univ_two] at k2
        nlinarith [sq_nonneg (s.w 0 - s.w 1)])
  obtain ⟨⟨-, h2, -⟩, h3, -⟩ := (ex_isOpt rfl).1 hs
  have h3 : s'.w ⬝ᵥ (1 : Matrix (Fin 2) (Fin 2) ℝ) *ᵥ s'.w = 1 / 2 := h3
  rw [variance_two] at h3
  rw [Fin.sum_univ_two] at h2
  have h0 : s'.w 0 - s'.w 1 = 0 := by
    have : (s'.w 0 - s'.w 1) ^ 2 = 0 := by nlinarith
    exact pow_eq_zero_iff (two_ne_zero) |>.1 this
  have hw : s'.w = ![1 / 2, 1 / 2] := by
    funext i
    fin_cases i
    · show s'.w 0 = 1 / 2; linarith
    · show s'.w 1 = 1 / 2; linarith
  rw [e, hw, round16_grid (fun _ => 5000000000000000)]
  intro i
  fin_cases i <;> norm_num

/-- The hypotheses of C39 are met: minimising the variance of two uncorrelated assets returns half and half. -/
example (hS : Exact S) (mu : Fin 2 → ℝ) :
    ∃ pre P f s v, Pre exU (exD mu) exCfg (exW : World 2).heap.upar .minVolatility pre ∧
      Documented exU (exD mu) exCfg (exW : World 2).heap.upar false .minVolatility P f ∧
      (run exU S (exD mu) .minVolatility exO exW.heap).2.2.log = exW.heap.log ++ pre ++ [P] ∧
      S ((exW : World 2).heap.log ++ pre).length P = .optimal s v ∧ ![1 / 2, 1 / 2] = round16 (f s) :=
  (C39_weights_documented_partial (exU_usable mu) exW_reachable exW_get (c := .minVolatility) nofun (.inl rfl) (ex_minvol hS mu)).2

/-- The hypotheses of C40 are met: after that call every later world refuses additions. -/
example (hS : Exact S) (mu : Fin 2 → ℝ) {W' : World 2}
    (hs : Relation.ReflTransGen (Step exU S (exD mu))
      { objs := exW.objs.set 0 (exCfg.after (isOk (run exU S (exD mu) .minVolatility exO exW.heap).1) .minVolatility,
          (run exU S (exD mu) .minVolatility exO exW.heap).2.1)
        heap := (run exU S (exD mu) .minVolatility exO exW.heap).2.2 } W') :
    ∃ cfg' o', W'.objs[0]? = some (cfg', o') ∧ Refuses exU S (exD mu) o' W'.heap :=
  C40_add_refused_forever exW_get (c := .minVolatility) (.inl ⟨_, ex_minvol hS mu, nofun⟩) hs

/-- The hypotheses of C41 are met: two targets of `max_quadratic_utility` one after the other, each accepted and
each solved as on a new object. -/
example (mu : Fin 2 → ℝ) :
    ∃ (W' : World 2) (o' : OState 2), W'.objs[0]? = some (exCfg, o') ∧ o'.opt ≠ none ∧
      Passes exU S (exD mu) exCfg (.maxUtility 2 false) W'.heap (run exU S (exD mu) (.maxUtility 2 false) o' W'.heap) := by
  have hr : Retargets exU S (exD mu) 0 (.maxUtility 1 false) exW _ := .call .refl exW_get (.maxUtility 1 false) trivial rfl
  obtain ⟨o', h1, h2⟩ := C41_retarget_partial (exU_usable mu) exW_reachable exW_get exO_opt (by simp [pname, exD]) hr
  refine ⟨_, o', h1, ?_, ((h2 (.maxUtility 2 false) trivial rfl nofun).1 ⟨.inl ⟨rfl, rfl⟩, rfl⟩ two_pos).1⟩
  have p := (fresh_reaches (S := S) (exU_usable mu) (exW_good (exU_usable mu)) exO_opt
    (c := .maxUtility 1 false) ⟨.inl ⟨rfl, rfl⟩, rfl⟩ one_pos nofun)
  obtain ⟨q, v, nm, a, l⟩ := p.2 (by simp [pname, exD])
  have : o' = (run exU S (exD mu) (.maxUtility 1 false) exO exW.heap).2.1 :=
    (Prod.ext_iff.1 (Option.some.inj (h1.symm.trans rfl))).2
  rw [this, l.solved.opt]
  exact nofun

/-- Between two targets, a refused risk aversion and weights set by the user. -/
example (mu : Fin 2 → ℝ) : ∃ (W' : World 2) (o' : OState 2), W'.objs[0]? = some (exCfg, o') ∧
    Passes exU S (exD mu) exCfg (.maxUtility 2 false) W'.heap (run exU S (exD mu) (.maxUtility 2 false) o' W'.heap) := by
  have h1 : Retargets exU S (exD mu) 0 (.maxUtility 1 false) exW _ :=
    .call .refl exW_get (.maxUtility 1 false) trivial rfl
  have h2 : Retargets exU S (exD mu) 0 (.maxUtility 1 false) exW _ :=
    .idle h1 rfl (.maxUtility 0 true) ⟨_, .inr (.aversion (.inl rfl) le_rfl _)⟩
  have hr : Retargets exU S (exD mu) 0 (.maxUtility 1 false) exW _ := .idle h2 rfl (.setWeights (.ok ![1, 0])) trivial
  obtain ⟨o', h1, h2⟩ := C41_retarget_partial (exU_usable mu) exW_reachable exW_get exO_opt (by simp [pname, exD]) hr
  exact ⟨_, o', h1, ((h2 (.maxUtility 2 false) trivial rfl nofun).1 ⟨.inl ⟨rfl, rfl⟩, rfl⟩ two_pos).1⟩

/-- Likewise for a change of neutrality after the first target. -/
example (mu : Fin 2 → ℝ) :
    ∃ (W' : World 2) (o' : OState 2), W'.objs[0]? = some (exCfg, o') ∧
      run exU S (exD mu) (.maxUtility 2 true) o' W'.heap = (.error .instantiation, o', W'.heap) := by
  have hr : Retargets exU S (exD mu) 0 (.maxUtility 1 false) exW _ := .call .refl exW_get (.maxUtility 1 false) trivial rfl
  obtain ⟨o', h1, h2⟩ := C41_neutrality_change (exU_usable mu) exW_reachable exW_get exO_opt (by simp [pname, exD]) hr
  refine ⟨_, o', h1, h2 (.maxUtility 2 true) ?_ trivial nofun two_pos (.inl nofun)⟩
  have p := (fresh_reaches (S := S) (exU_usable mu) (exW_good (exU_usable mu)) exO_opt
    (c := .maxUtility 1 false) ⟨.inl ⟨rfl, rfl⟩, rfl⟩ one_pos nofun)
  obtain ⟨q, v, nm, a, l⟩ := p.2 (by simp [pname, exD])
  have : o' = (run exU S (exD mu) (.maxUtility 1 false) exO exW.heap).2.1 :=
    (Prod.ext_iff.1 (Option.some.inj (h1.symm.trans rfl))).2
  rw [this, l.solved.opt]
  exact nofun

/-- The hypotheses of C49 are met: on a new object, asset 0 in sector `tech`, asset 1 without sector. -/
example (h : Heap 2) : ∃ o' h', run exU S (exD ![1, 0])
      (.addSectors (fun i => if i = 0 then some "tech" else none) [(some "tech", 0.1)] []) exO h = (.ok none, o', h') ∧
      ∀ e : Env 2, (∀ c ∈ o'.cons, c.sat e) ↔ (∀ c ∈ exO.cons, c.sat e) ∧ 0.1 ≤ e.asg.w 0 := by
  obtain ⟨o', h', e, -, -, -, k⟩ := C49_sector_constraints (U := exU) (S := S) (D := exD ![1, 0])
    (fun i : Fin 2 => if i = 0 then some "tech" else none) [(some "tech", 0.1)] [] h exO_opt
  refine ⟨o', h', e, fun x => ?_⟩
  rw [k]
  simp [Finset.sum_filter]

/-- The hypotheses of C50 are met: market-neutral utility of two assets with equal returns, where staying out is
best. -/
theorem ex_neutral (hS : Exact S) : (run exU S (exD ![1, 1]) (.maxUtility 2 true) exO (exW : World 2).heap).1 =
    .ok (some ![0, 0]) := by
  have p : Passes exU S (exD ![1, 1]) exCfg (.maxUtility 2 true) exW.heap
      (run exU S (exD ![1, 1]) (.maxUtility 2 true) exO (exW : World 2).heap) :=
    (fresh_reaches (exU_usable _) (exW_good (exU_usable _)) exO_opt (c := .maxUtility 2 true) ⟨.inl ⟨rfl, rfl⟩, rfl⟩
      two_pos nofun).1
  have hf : ∀ s : Asg 2, ∀ q : Ask 2, q.mn = true → q.extra = (fun _ => True) → ((doc exU exCfg (exW : World 2).heap.upar q).feas s ↔
      (∀ i, -1 ≤ s.w i ∧ s.w i ≤ 1) ∧ s.w 0 + s.w 1 = 0) := by
    intro s q hq hx
    simp [doc, Within, exCfg, hq, hx, Fin.sum_univ_two]
  have hb : ∀ s : Asg 2, s.w 0 + s.w 1 = 0 → -(s.w ⬝ᵥ ![1, 1] - 2 / 2 * (s.w ⬝ᵥ
      (1 : Matrix (Fin 2) (Fin 2) ℝ) *ᵥ s.w)) = 2 * s.w 0 ^ 2 := by
    intro s hs
    rw [variance_two, ret_two]
    have : s.w 1 = -(s.w 0) := by linarith
    rw [this]; simp; ring
  obtain ⟨s', e, hs, -⟩ := p.exact hS (q := ⟨fun s => -(s.w ⬝ᵥ ![1, 1] - 2 / 2 * (s.w ⬝ᵥ
      (1 : Matrix (Fin 2) (Fin 2) ℝ) *ᵥ s.w)), fun _ => True, true⟩) nofun rfl (s := ofW ![0, 0]) (v := 0) (by
    refine ⟨(hf _ _ rfl rfl).2 ⟨fun i => ?_, ?_⟩, ?_, fun s hs => ?_⟩
    · fin_cases i <;> norm_num [ofW]
    · norm_num [ofW]
    · rw [ex_obj]
      show ((-((ofW ![0, 0]).w ⬝ᵥ ![1, 1] - 2 / 2 * ((ofW ![0, 0]).w ⬝ᵥ
        (1 : Matrix (Fin 2) (Fin 2) ℝ) *ᵥ (ofW ![0, 0]).w)) : ℝ) : EReal) = _
      rw [hb _ (by norm_num [ofW])]
      norm_num [ofW]
    · rw [ex_obj, ex_obj, EReal.coe_le_coe_iff]
      show -((ofW ![0, 0]).w ⬝ᵥ ![1, 1] - 2 / 2 * ((ofW ![0, 0]).w ⬝ᵥ
        (1 : Matrix (Fin 2) (Fin 2) ℝ) *ᵥ (ofW ![0, 0]).w)) ≤
        -(s.w ⬝ᵥ ![1, 1] - 2 / 2 * (s.w ⬝ᵥ (1 : Matrix (Fin 2) (Fin 2) ℝ) *ᵥ s.w))
      rw [hb _ (by norm_num [ofW]), hb _ ((hf _ _ rfl rfl).1 hs).2]
      norm_num [ofW]
      positivity)
  have h1 := ((hf _ _ rfl rfl).1 hs.feas).2
  have h2 := hs.value
  rw [ex_obj, EReal.coe_eq_coe_iff] at h2
  have h2 : -(s'.w ⬝ᵥ ![1, 1] - 2 / 2 * (s'.w ⬝ᵥ (1 : Matrix (Fin 2) (Fin 2) ℝ) *ᵥ s'.w)) = 0 := h2
  rw [hb _ h1] at h2
  have h0 : s'.w 0 = 0 := by
    have : s'.w 0 ^ 2 = 0 := by linarith
    exact pow_eq_zero_iff two_ne_zero |>.1 this
  have hw : s'.w = ![0, 0] := by
    funext i
    fin_cases i
    · exact h0
    · show s'.w 1 = 0; linarith
  rw [e, hw, round16_grid (fun _ => 0)]
  intro i
  fin_cases i <;> norm_num

example (hS : Exact S) : ∃ pre P, (run exU S (exD ![1, 1]) (.maxUtility 2 true) exO (exW : World 2).heap).2.2.log =
      (exW : World 2).heap.log ++ pre ++ [P] ∧ (P.feas (ofW ![0.5, -0.5])) ∧ ¬ P.feas (ofW ![0.5, 0.5]) := by
  obtain ⟨pre, P, v, q, s, x, h1, h2, -, -, h5, -⟩ := C50_neutral_bounds (exU_usable ![1, 1]) exW_reachable exW_get
    (c := .maxUtility 2 true) rfl (ex_neutral hS)
  cases h1
  refine ⟨pre, P, h2, ?_, fun k => ?_⟩
  · refine (h5 (fun _ => le_refl _) _).2 ⟨fun i => ?_, nofun, ?_, trivial⟩
    · fin_cases i <;> norm_num [ofW]
    · norm_num [ofW, Fin.sum_univ_two]
  · have := ((h5 (fun _ => le_refl _) _).1 k).2.2.1
    norm_num [ofW, Fin.sum_univ_two] at this

/-! ### C41: a largest return of zero -/

theorem exMax_isOpt (h : Heap 2) : IsOpt (maxProb exU exCfg h.upar ![0, -0.1]) (ofW ![1, 0]) 0 := by
  show IsOpt (doc exU exCfg h.upar ⟨fun s => -(s.w ⬝ᵥ ![0, -0.1]), fun _ => True, false⟩) _ _
  rw [ex_isOpt rfl]
  refine ⟨⟨fun i => ?_, ?_, trivial⟩, ?_, fun s k1 k2 _ => ?_⟩
  · fin_cases i <;> norm_num [ofW]
  · norm_num [ofW, Fin.sum_univ_two]
  · show -((ofW ![1, 0]).w ⬝ᵥ ![0, -0.1]) = 0
    rw [ret_two]; norm_num [ofW]
  · show 0 ≤ -(s.w ⬝ᵥ ![0, -0.1])
    rw [ret_two]
    have := (k1 1).1
    simp only [Matrix.cons_val_zero, Matrix.cons_val_one]
    nlinarith

theorem exMax_outcome (hS : Exact S) (h : Heap 2) :
    maxOutcome (S h.log.length (maxProb exU exCfg h.upar ![0, -0.1])) = .ok 0 := by
  obtain ⟨s, e, -⟩ := hS.sol h.log.length (exMax_isOpt h)
  rw [e]
  show Except.ok (-(0 : ℝ)) = _
  rw [neg_zero]

/-- A first call with a target of at most 0 gives the solver the documented problem. -/
theorem exZero_first (hS : Exact S) {o : OState 2} {h : Heap 2} (g : Good exU (exD ![0, -0.1]) exCfg o h)
    (ho : o.opt = none) (hc : Uncached o) {t : ℝ} (ht : t ≤ 0) :
    ∃ h₁, h₁.log = h.log ++ [maxProb exU exCfg h.upar ![0, -0.1]] ∧ h₁.upar = h.upar ∧
      Reaches exU S (exD ![0, -0.1]) exCfg (.efficientReturn true t false) h₁
        (run exU S (exD ![0, -0.1]) (.efficientReturn true t false) o h) ∧
      (run exU S (exD ![0, -0.1]) (.efficientReturn true t false) o h).2.1.maxRet = some 0 := by
  obtain ⟨h₁, k1, -, k3, ⟨e, k4, -⟩ | ⟨m, k4, -, k5⟩⟩ := fresh_return (S := S) (exU_usable _) rfl rfl g ho
    (mu := ![0, -0.1]) rfl hc (t := t) (mn := false)
  · rw [exMax_outcome hS] at k4; cases k4
  · rw [exMax_outcome hS] at k4
    cases k4
    exact ⟨h₁, k1, k3, (k5 ht).1, (k5 ht).2.2⟩

/-- The variance problem with a target return of at most 0 is solvable. -/
theorem exZero_opt (h : Heap 2) {t : ℝ} (h0 : -0.05 ≤ t) (ht : t ≤ 0) :
    ∃ s v, IsOpt (doc exU exCfg h.upar ⟨fun s => s.w ⬝ᵥ (1 : Matrix (Fin 2) (Fin 2) ℝ) *ᵥ s.w,
      fun s => t ≤ s.w ⬝ᵥ ![0, -0.1], false⟩) s v := by
  refine ⟨ofW ![1 + 10 * t, -10 * t], (1 + 10 * t) ^ 2 + (-10 * t) ^ 2, ?_⟩
  rw [ex_isOpt rfl]
  refine ⟨⟨fun i => ?_, ?_, ?_⟩, ?_, fun s k1 k2 k3 => ?_⟩
  · fin_cases i
    · show 0 ≤ 1 + 10 * t ∧ 1 + 10 * t ≤ 1
      constructor <;> linarith
    · show 0 ≤ -10 * t ∧ -10 * t ≤ 1
      constructor <;> linarith
  · rw [Fin.sum_univ_two]
    show 1 + 10 * t + -10 * t = 1
    ring
  · show t ≤ (ofW ![1 + 10 * t, -10 * t]).w ⬝ᵥ ![0, -0.1]
    rw [ret_two]
    show t ≤ (1 + 10 * t) * 0 + -10 * t * -0.1
    linarith
  · show (ofW ![1 + 10 * t, -10 * t]).w ⬝ᵥ _ *ᵥ _ = _
    rw [variance_two]
    rfl
  · show _ ≤ s.w ⬝ᵥ (1 : Matrix (Fin 2) (Fin 2) ℝ) *ᵥ s.w
    have k3 : t ≤ s.w ⬝ᵥ ![0, -0.1] := k3
    rw [variance_two]
    rw [ret_two] at k3
    simp only [Matrix.cons_val_zero, Matrix.cons_val_one] at k3
    rw [Fin.sum_univ_two] at k2
    have h1 : s.w 0 = 1 - s.w 1 := by linarith
    have h2 : s.w 1 ≤ -10 * t := by linarith
    rw [h1]
    nlinarith

/-- **C41 is false of the code** for `EfficientFrontier.efficient_return` when the largest return is 0: the
zero is taken for "not computed yet", so the second call tries to compute it on a copy of the solved object,
which refuses.  Returns (0, -0.1), weights between 0 and 1, an exact solver: target -0.05 works, then target
-0.02 raises InstantiationError, although a new object solves it. -/
theorem C41_zero_return_false (hS : Exact S) :
    ∃ o' h', run exU S (exD ![0, -0.1]) (.efficientReturn true (-0.05) false) exO exW.heap =
        (.ok (some ![1 / 2, 1 / 2]), o', h') ∧
      (run exU S (exD ![0, -0.1]) (.efficientReturn true (-0.02) false) o' h').1 = .error .instantiation ∧
      ∃ w, (run exU S (exD ![0, -0.1]) (.efficientReturn true (-0.02) false) exO h').1 = .ok (some w) := by
  have hU := exU_usable (![0, -0.1] : Fin 2 → ℝ)
  have g := exW_good hU
  obtain ⟨h₁, k1, k2, ⟨k3, k3'⟩, k4⟩ := exZero_first hS g exO_opt (by intro m hm; cases hm) (t := -0.05) (by norm_num)
  have hq : ∀ t, ask (exD ![0, -0.1]) 0 (.efficientReturn true t false) = some ⟨fun s => s.w ⬝ᵥ
    (1 : Matrix (Fin 2) (Fin 2) ℝ) *ᵥ s.w, fun s => t ≤ s.w ⬝ᵥ ![0, -0.1], false⟩ := fun t => rfl
  obtain ⟨s, e, hs, -⟩ := k3.exact hS nofun (hq _) (s := ofW ![1 / 2, 1 / 2]) (v := 1 / 2) (by
      rw [ex_isOpt rfl]
      refine ⟨⟨fun i => ?_, ?_, ?_⟩, ?_, fun s _ k2 _ => ?_⟩
      · fin_cases i <;> norm_num [ofW]
      · norm_num [ofW, Fin.sum_univ_two]
      · show -0.05 ≤ (ofW ![1 / 2, 1 / 2]).w ⬝ᵥ ![0, -0.1]
        rw [ret_two]; norm_num [ofW]
      · show (ofW ![1 / 2, 1 / 2]).w ⬝ᵥ _ *ᵥ _ = _
        rw [variance_two]; norm_num [ofW]
      · show _ ≤ s.w ⬝ᵥ (1 : Matrix (Fin 2) (Fin 2) ℝ) *ᵥ s.w
        rw [variance_two]
        rw [Fin.sum_univ_two] at k2
        nlinarith [sq_nonneg (s.w 0 - s.w 1)])
  obtain ⟨⟨-, h2, -⟩, h3, -⟩ := (ex_isOpt rfl).1 hs
  have h3 : s.w ⬝ᵥ (1 : Matrix (Fin 2) (Fin 2) ℝ) *ᵥ s.w = 1 / 2 := h3
  rw [variance_two] at h3
  rw [Fin.sum_univ_two] at h2
  have h0 : s.w 0 - s.w 1 = 0 := by
    have : (s.w 0 - s.w 1) ^ 2 = 0 := by nlinarith
    exact pow_eq_zero_iff (two_ne_zero) |>.1 this
  have hw : s.w = ![1 / 2, 1 / 2] := by
    funext i
    fin_cases i
    · show s.w 0 = 1 / 2; linarith
    · show s.w 1 = 1 / 2; linarith
  have hr : round16 s.w = ![1 / 2, 1 / 2] := by
    rw [hw, round16_grid (fun _ => 5000000000000000)]
    intro i
    fin_cases i <;> norm_num
  rw [hr] at e
  refine ⟨_, _, Prod.ext e rfl, ?_, ?_⟩
  · obtain ⟨h', hz, -⟩ := live_zero (S := S) rfl (k3' (by simp [pname])) (-0.02) false k4
    rw [hz]
  · have g' : Good exU (exD ![0, -0.1]) exCfg (exO : OState 2)
        (run exU S (exD ![0, -0.1]) (.efficientReturn true (-0.05) false) exO exW.heap).2.2 :=
      g.mono (run_post (S := S) hU g (by intro m hm; cases hm) _).mono
    obtain ⟨h₂, l1, l2, ⟨l3, -⟩, -⟩ := exZero_first hS g' exO_opt (by intro m hm; cases hm) (t := -0.02) (by norm_num)
    obtain ⟨s', v', hv⟩ := exZero_opt h₂ (t := -0.02) (by norm_num) (by norm_num)
    obtain ⟨s'', e', -⟩ := l3.exact hS nofun (hq _) hv
    exact ⟨_, e'⟩

/-! ### C39: repeating `convex_objective` without the sum constraint -/

/-- One asset; the user's objective is its weight. -/
def repU : Uni 1 := { exU with obj := fun _ => ⟨true, [], fun e => (e.w 0 : EReal)⟩ }

/-- **C39 is false of the code** for repeated calls of `convex_objective`: the check that the problem has not
changed compares with the stored constraints, so a second call of the same expression with
`weights_sum_to_one=False` solves the first problem, which has the sum constraint.  One asset with weight
between 0 and 1, minimising the weight: the second call returns 1 although the documented optimum is 0. -/
theorem C39_repeat_false {S : Solver 1} (hS : Exact S) (mu : Fin 1 → ℝ) :
    ∃ o' h', run repU S (exD mu) (.convex (.ok 0) true) exO exW.heap = (.ok (some ![1]), o', h') ∧
      (run repU S (exD mu) (.convex (.ok 0) false) o' h').1 = .ok (some ![1]) ∧
      IsOpt (docConvex repU exCfg h'.upar 0 false) (ofW ![0]) 0 ∧
      ∀ s : Asg 1, s.w = ![1] → (docConvex repU exCfg h'.upar 0 false).obj s = 1 := by
  let cons : List (Con 1) := exO.cons ++ [⟨.lib 2, sumCon 1, fun _ => True⟩]
  let o₁ : OState 1 := { exO with objective := some (repU.mkObj 0), cons := cons }
  let h₁ : Heap 1 := { (exW : World 1).heap with nextId := 3 }
  let p := optOf (repU.mkObj 0) cons
  have hp : ∀ c ∈ cons, Proper c.body := by
    intro c hc
    have hc : c ∈ [(⟨.lib 0, lowerCon (fun _ => 0), fun _ => True⟩ : Con 1), ⟨.lib 1, upperCon (fun _ => 1), fun _ => True⟩,
      ⟨.lib 2, sumCon 1, fun _ => True⟩] := hc
    simp only [List.mem_cons, List.not_mem_nil, or_false] at hc
    rcases hc with rfl | rfl | rfl
    · exact proper_ineq _ _
    · exact proper_ineq _ _
    · exact proper_eq _ _
  have hfeas : ∀ (h : Heap 1) s, (p.prob h).feas s → s.w = ![1] := by
    intro h s hs
    have := (hs ⟨.lib 2, sumCon 1, fun _ => True⟩ (by simp [p, optOf, cons])).1
    rw [sat_sum, Fin.sum_univ_one] at this
    funext i
    rw [Subsingleton.elim i 0]
    exact this
  have hopt : ∀ h : Heap 1, IsOpt (p.prob h) (ofW ![1]) 1 := by
    intro h
    refine ⟨?_, by show ((1 : ℝ) : EReal) = _; rfl, fun s hs => ?_⟩
    · intro c hc
      have hc : c ∈ [(⟨.lib 0, lowerCon (fun _ => 0), fun _ => True⟩ : Con 1), ⟨.lib 1, upperCon (fun _ => 1), fun _ => True⟩,
        ⟨.lib 2, sumCon 1, fun _ => True⟩] := hc
      simp only [List.mem_cons, List.not_mem_nil, or_false] at hc
      rcases hc with rfl | rfl | rfl
      · refine ⟨fun i => ?_, trivial⟩
        rw [Subsingleton.elim i 0]
        show (0 : EReal) ≤ ((1 : ℝ) : EReal)
        exact EReal.coe_nonneg.2 zero_le_one
      · refine ⟨fun i => ?_, trivial⟩
        rw [Subsingleton.elim i 0]
        exact le_of_eq rfl
      · refine ⟨(sat_sum _ _).2 ?_, trivial⟩
        rw [Fin.sum_univ_one]
        rfl
    · have := hfeas h s hs
      show (((ofW ![1]).w 0 : ℝ) : EReal) ≤ ((s.w 0 : ℝ) : EReal)
      rw [this]
      rfl
  have hround : round16 (![1] : Fin 1 → ℝ) = ![1] := by
    refine round16_grid (fun _ => 10000000000000000) fun i => ?_
    rw [Subsingleton.elim i 0]
    norm_num
  obtain ⟨s₁, hs₁, e₁⟩ := callSolver_exact (o := { o₁ with opt := some p }) (h := h₁) hS p (hopt _)
  rw [hfeas _ _ hs₁.feas, hround] at e₁
  have r₁ : convexObjective repU S (.ok 0) true exO exW.heap = callSolver S p { o₁ with opt := some p } h₁ := by
    rw [convexObjective_eq]
    exact (bind_ok (addLib_run (sumCon 1) _ _ _ rfl)).trans (solve_fresh (o := o₁) rfl rfl rfl hp)
  have f₁ : run repU S (exD mu) (.convex (.ok 0) true) exO exW.heap = _ := some_run _ _ _
  rw [r₁, e₁] at f₁
  refine ⟨_, _, f₁, ?_, ?_, ?_⟩
  · let o₂ : OState 1 := { o₁ with opt := some p, weights := some ![1] }
    let h₂ : Heap 1 := { h₁ with log := h₁.log ++ [p.prob h₁], vals := some s₁ }
    obtain ⟨s₂, hs₂, e₂⟩ := callSolver_exact (o := o₂) (h := h₂) hS p (hopt _)
    rw [hfeas _ _ hs₂.feas, hround] at e₂
    have r₂ : convexObjective repU S (.ok 0) false o₂ h₂ = callSolver S p o₂ h₂ := by
      rw [convexObjective_eq]
      exact solve_again (o := o₂) (h := h₂) rfl rfl rfl rfl hp
    have f₂ : run repU S (exD mu) (.convex (.ok 0) false) o₂ h₂ = _ := some_run _ _ _
    rw [r₂, e₂] at f₂
    show (run repU S (exD mu) (.convex (.ok 0) false) o₂ h₂).1 = _
    rw [f₂]
    rfl
  · refine ⟨⟨?_, by simp [exCfg], nofun⟩, by simp [docConvex, repU, exCfg, ofW], fun s hs => ?_⟩
    · rw [exWithin]
      intro i
      rw [Subsingleton.elim i 0]
      exact ⟨le_rfl, zero_le_one⟩
    · have := (exWithin.1 hs.1 0).1
      simp only [docConvex, repU, exCfg, ofW, List.map_nil, List.sum_nil, add_zero]
      exact EReal.coe_le_coe_iff.2 this
  · intro s hs
    simp only [docConvex, repU, exCfg, List.map_nil, List.sum_nil, add_zero]
    rw [hs]
    rfl

/-! ### C39: a parameter of the user with a name of the library -/

/-- The user limits the first weight by a parameter of their own called `risk_aversion`. -/
def clashU : Uni 2 :=
  { exU with
    par := fun _ => ("risk_aversion", true)
    con := fun _ => .ineq 1 ⟨false, [], fun e _ => (e.w 0 : EReal)⟩ ⟨false, [0], fun e _ => (e.par 0 : EReal)⟩ }

/-- The object with that limit at 5. -/
def clashO : OState 2 := { (exO : OState 2) with cons := exO.cons ++ [clashU.mkCon 0] }

def clashH : Heap 2 := { (exW : World 2).heap with upar := fun _ => 5 }

def clashCfg : Cfg 2 := ⟨fun _ => 0, fun _ => 1, [], [.usr 0]⟩

def clashW : World 2 := ⟨[(clashCfg, clashO)], clashH⟩

theorem clashW_reachable : Reachable clashU S (exD ![1, 0]) clashW := by
  have h := Step.call (U := clashU) (S := S) (D := exD ![1, 0]) (W := newWorld (fun _ => 0) (fun _ => 1) (fun _ => 5))
    (j := 0) rfl (.addConstraint true (.ok 0))
  exact .step (.new (fun _ => 0) (fun _ => 1) (fun _ => 5)) h

/-- The constraints after `efficient_risk`. -/
def clashCons : List (Con 2) := clashO.cons ++ [⟨.lib 3, .ineq 1 (scalar (fun s => Obj.variance s.w 1))
  (ofPar ⟨"target_variance", true, .lib 0⟩), fun _ => True⟩, ⟨.lib 4, sumCon 1, fun _ => True⟩]

def clashOb : Obj 2 := ⟨.lib 2, true, [], fun e => ((Obj.ret e.asg.w ![1, 0] true : ℝ) : EReal)⟩

def clashO₂ : OState 2 :=
  { clashO with objective := some clashOb, cons := clashCons, neutral := some false }

def clashH₂ : Heap 2 := { clashH with nextId := 5, nextPar := 1, lpar := Function.update clashH.lpar 0 (1 ^ 2) }

theorem clash_proper : ∀ c ∈ clashCons, Proper c.body := by
  intro c hc
  have hc : c ∈ [(⟨.lib 0, lowerCon (fun _ => 0), fun _ => True⟩ : Con 2), ⟨.lib 1, upperCon (fun _ => 1), fun _ => True⟩,
    clashU.mkCon 0, ⟨.lib 3, .ineq 1 (scalar (fun s => Obj.variance s.w 1))
    (ofPar ⟨"target_variance", true, .lib 0⟩), fun _ => True⟩, ⟨.lib 4, sumCon 1, fun _ => True⟩] := hc
  simp only [List.mem_cons, List.not_mem_nil, or_false] at hc
  rcases hc with rfl | rfl | rfl | rfl | rfl
  · exact proper_ineq _ _
  · exact proper_ineq _ _
  · exact proper_ineq _ _
  · exact proper_ineq _ _
  · exact proper_eq _ _

theorem clash_build : efficientRisk S (exD ![1, 0]) 1 false clashO clashH = solve S clashO₂ clashH₂ := by
  have hg : ¬ numLt 1 (globalMinVol (exD (![1, 0] : Fin 2 → ℝ))) := by
    have : globalMinVol (exD (![1, 0] : Fin 2 → ℝ)) = .fin (Real.sqrt (1 / 2)) := by
      have h2 : ∑ i, ∑ j, (exD (![1, 0] : Fin 2 → ℝ)).pinv i j = 2 := by
        show ∑ i : Fin 2, ∑ j : Fin 2, (1 : Matrix (Fin 2) (Fin 2) ℝ) i j = 2
        norm_num [Fin.sum_univ_two, Matrix.one_apply]
      unfold globalMinVol
      rw [h2]
      norm_num [Perf.fdiv, Perf.fsqrt]
    rw [this]
    show ¬ (1 < Real.sqrt (1 / 2))
    rw [not_lt, Real.sqrt_le_one]
    norm_num
  have hd : isDefined "target_variance" clashO clashH = (.ok false, clashO, clashH) := rfl
  unfold efficientRisk
  rw [if_neg (by norm_num), if_neg hg]
  have hbuild : (do
      let r ← returnExpr (exD ![1, 0]) true
      setObjective [] (fun e => (r e.asg : EReal))
      let v ← varianceExpr (exD ![1, 0])
      addAll
      let p ← newPar "target_variance" (1 ^ 2) true
      addLib (.ineq 1 (scalar v) (ofPar p))
      makeWeightSum false : M 2 Unit) clashO clashH = (.ok (), clashO₂, clashH₂) := by
    refine (bind_ok (a := fun s => Obj.ret s.w ![1, 0] true) (o' := clashO) (h' := clashH) rfl).trans ?_
    refine (bind_ok (setObjective_run _ _ _ _)).trans ?_
    refine (bind_ok (a := fun s => Obj.variance s.w 1) (o' := { clashO with objective := some clashOb })
      (h' := { clashH with nextId := 3 }) rfl).trans ?_
    refine (bind_ok (a := ()) (o' := { clashO with objective := some clashOb })
      (h' := { clashH with nextId := 3 }) rfl).trans ?_
    refine (bind_ok (newPar_run _ _ _ _ _ (by norm_num))).trans ?_
    refine (bind_ok (addLib_run _ _ _ _ rfl)).trans ?_
    refine (bind_ok (addLib_run _ _ _ _ rfl)).trans ?_
    rfl
  exact (bind_ok hd).trans (bind_ok hbuild)

theorem clash_feas (h : Heap 2) (s : Asg 2) : ((optOf clashOb clashCons).prob h).feas s ↔
    (∀ i, 0 ≤ s.w i ∧ s.w i ≤ 1) ∧ s.w 0 ≤ h.upar 0 ∧ s.w 0 ^ 2 + s.w 1 ^ 2 ≤ h.lpar 0 ∧ s.w 0 + s.w 1 = 1 := by
  show (∀ c ∈ [(⟨.lib 0, lowerCon (fun _ => 0), fun _ => True⟩ : Con 2), ⟨.lib 1, upperCon (fun _ => 1), fun _ => True⟩,
    clashU.mkCon 0, ⟨.lib 3, .ineq 1 (scalar (fun s => Obj.variance s.w 1))
    (ofPar ⟨"target_variance", true, .lib 0⟩), fun _ => True⟩, ⟨.lib 4, sumCon 1, fun _ => True⟩],
    c.sat ⟨s, h.upar, h.lpar⟩) ↔ _
  simp only [List.forall_mem_cons, List.not_mem_nil, false_imp_iff, implies_true, and_true]
  have e1 : Con.sat (⟨.lib 0, lowerCon (fun _ => 0), fun _ => True⟩ : Con 2) ⟨s, h.upar, h.lpar⟩ ∧
      Con.sat (⟨.lib 1, upperCon (fun _ => 1), fun _ => True⟩ : Con 2) ⟨s, h.upar, h.lpar⟩ ↔
      ∀ i, 0 ≤ s.w i ∧ s.w i ≤ 1 := by
    unfold Con.sat
    rw [and_true, and_true, sat_bounds]
    refine forall_congr' fun i => ?_
    rw [show (0 : EReal) = ((0 : ℝ) : EReal) from EReal.coe_zero.symm,
      show (1 : EReal) = ((1 : ℝ) : EReal) from EReal.coe_one.symm, EReal.coe_le_coe_iff, EReal.coe_le_coe_iff]
  have e2 : (clashU.mkCon 0).sat ⟨s, h.upar, h.lpar⟩ ↔ s.w 0 ≤ h.upar 0 := by
    rw [mkCon_sat]
    show (∀ _ : Fin 1, ((s.w 0 : ℝ) : EReal) ≤ ((h.upar 0 : ℝ) : EReal)) ↔ _
    rw [forall_const, EReal.coe_le_coe_iff]
  have e3 : Con.sat (⟨.lib 3, .ineq 1 (scalar (fun s => Obj.variance s.w 1))
    (ofPar ⟨"target_variance", true, .lib 0⟩), fun _ => True⟩ : Con 2) ⟨s, h.upar, h.lpar⟩ ↔
      s.w 0 ^ 2 + s.w 1 ^ 2 ≤ h.lpar 0 := by
    show (∀ _ : Fin 1, ((s.w ⬝ᵥ (1 : Matrix (Fin 2) (Fin 2) ℝ) *ᵥ s.w : ℝ) : EReal) ≤ ((h.lpar 0 : ℝ) : EReal)) ∧ True ↔ _
    rw [forall_const, EReal.coe_le_coe_iff, variance_two, and_true]
  have e4 : Con.sat (⟨.lib 4, sumCon 1, fun _ => True⟩ : Con 2) ⟨s, h.upar, h.lpar⟩ ↔ s.w 0 + s.w 1 = 1 := by
    unfold Con.sat
    rw [sat_sum, and_true, Fin.sum_univ_two]
  rw [← and_assoc, e1, e2, e3, e4]

theorem clash_opt {h : Heap 2} (hl : h.lpar 0 = 1) (hu : 1 ≤ h.upar 0) :
    IsOpt ((optOf clashOb clashCons).prob h) (ofW ![1, 0]) (-1) ∧
      ∀ s, IsOpt ((optOf clashOb clashCons).prob h) s (-1) → s.w = ![1, 0] := by
  have ho : ∀ s, ((optOf clashOb clashCons).prob h).obj s = ((-(s.w 0) : ℝ) : EReal) := by
    intro s
    show ((Obj.ret s.w ![1, 0] true : ℝ) : EReal) = _
    rw [ret_true, ret_two]
    simp
  refine ⟨⟨?_, by rw [ho]; simp [ofW], fun s hs => ?_⟩, fun s hs => ?_⟩
  · rw [clash_feas, hl]
    refine ⟨fun i => ?_, ?_, ?_, ?_⟩
    · fin_cases i <;> norm_num [ofW]
    · exact hu
    · norm_num [ofW]
    · norm_num [ofW]
  · rw [ho, ho, EReal.coe_le_coe_iff]
    have := ((clash_feas h s).1 hs).1 0
    show -(1 : ℝ) ≤ _
    linarith [this.2]
  · have h1 := hs.value
    rw [ho] at h1
    have h1 := EReal.coe_eq_coe_iff.1 h1
    have h2 := ((clash_feas h s).1 hs.feas).2.2.2
    funext i
    fin_cases i
    · show s.w 0 = 1; linarith
    · show s.w 1 = 0; linarith

/-- **C39 is false of the code** when a parameter of the user bears a name of the library.  Two assets with
returns (1, 0) and variance 1, weights between 0 and 1, and the user's constraint `w[0] <= p`, where `p` is a
parameter with name `risk_aversion` and value 5.  After `efficient_risk(1)`, `max_quadratic_utility(2)` takes
`p` for its own parameter, overwrites its value and solves the problem of `efficient_risk` again: it returns
(1, 0), although (3/4, 1/4) has higher utility. -/
theorem C39_name_clash_false (hS : Exact S) :
    Reachable clashU S (exD ![1, 0]) clashW ∧ clashW.objs[0]? = some (clashCfg, clashO) ∧
    ∃ o' h', run clashU S (exD ![1, 0]) (.efficientRisk 1 false) clashO clashW.heap = (.ok (some ![1, 0]), o', h') ∧
      (run clashU S (exD ![1, 0]) (.maxUtility 2 false) o' h').1 = .ok (some ![1, 0]) ∧
      (run clashU S (exD ![1, 0]) (.maxUtility 2 false) o' h').2.2.upar 0 = 2 ∧
      ∀ P f, Documented clashU (exD ![1, 0]) clashCfg h'.upar false (.maxUtility 2 false) P f →
        ∃ s', P.feas s' ∧ ∀ s, f s = ![1, 0] → P.obj s' < P.obj s := by
  refine ⟨clashW_reachable, rfl, ?_⟩
  have hround : round16 (![1, 0] : Fin 2 → ℝ) = ![1, 0] := by
    refine round16_grid ![10000000000000000, 0] fun i => ?_
    fin_cases i <;> norm_num
  let p := optOf clashOb clashCons
  have hl₂ : clashH₂.lpar 0 = 1 := by simp [clashH₂]
  have hu₂ : (1 : ℝ) ≤ clashH₂.upar 0 := by norm_num [clashH₂, clashH]
  obtain ⟨s₁, hs₁, e₁⟩ := callSolver_exact (o := { clashO₂ with opt := some p }) (h := clashH₂) hS p
    (clash_opt hl₂ hu₂).1
  rw [(clash_opt hl₂ hu₂).2 s₁ hs₁, hround] at e₁
  have r₁ : efficientRisk S (exD ![1, 0]) 1 false clashO clashH = callSolver S p { clashO₂ with opt := some p } clashH₂ :=
    clash_build.trans (solve_fresh (o := clashO₂) rfl rfl rfl clash_proper)
  have f₁ : run clashU S (exD ![1, 0]) (.efficientRisk 1 false) clashO clashH = _ := some_run _ _ _
  rw [r₁, e₁] at f₁
  let o₃ : OState 2 := { clashO₂ with opt := some p, weights := some ![1, 0] }
  let h₃ : Heap 2 := { clashH₂ with log := clashH₂.log ++ [p.prob clashH₂], vals := some s₁ }
  let h₄ : Heap 2 := { h₃ with upar := Function.update h₃.upar 0 2 }
  have hl₄ : h₄.lpar 0 = 1 := hl₂
  have hu₄ : (1 : ℝ) ≤ h₄.upar 0 := by simp [h₄]
  obtain ⟨s₂, hs₂, e₂⟩ := callSolver_exact (o := o₃) (h := h₄) hS p (clash_opt hl₄ hu₄).1
  rw [(clash_opt hl₄ hu₄).2 s₂ hs₂, hround] at e₂
  have hd : isDefined "risk_aversion" o₃ h₃ = (.ok true, o₃, h₃) := rfl
  have hv : validateNeutral false o₃ h₃ = (.ok (), o₃, h₃) := rfl
  have hup : updatePar "risk_aversion" 2 o₃ h₃ = (.ok (), o₃, h₄) := by
    unfold updatePar
    refine (bind_ok hd).trans ?_
    show setPars 2 [clashU.toPar 0] o₃ h₃ = _
    unfold setPars
    rw [if_neg (by norm_num)]
    rfl
  have r₂ : maxUtility S (exD ![1, 0]) 2 false o₃ h₃ = callSolver S p o₃ h₄ := by
    unfold maxUtility
    rw [if_neg (by norm_num)]
    exact (bind_ok hd).trans ((bind_ok hv).trans ((bind_ok hup).trans
      (solve_again (o := o₃) (h := h₄) rfl rfl rfl rfl clash_proper)))
  have f₂ : run clashU S (exD ![1, 0]) (.maxUtility 2 false) o₃ h₃ = _ := some_run _ _ _
  rw [r₂, e₂] at f₂
  refine ⟨o₃, h₃, f₁, ?_, ?_, ?_⟩
  · rw [f₂]; rfl
  · rw [f₂]; simp [h₄]
  · intro P f hd
    cases hd with
    | ask v q hq =>
      cases hq
      refine ⟨ofW ![3 / 4, 1 / 4], ?_, fun s hs => ?_⟩
      · refine ⟨?_, ?_, ?_, trivial⟩
        · refine (exWithin (w := ![3 / 4, 1 / 4])).2 fun i => ?_
          fin_cases i <;> norm_num
        · intro x hx
          rw [List.mem_singleton.1 hx]
          show ∀ _ : Fin 1, (((3 / 4 : ℝ)) : EReal) ≤ ((5 : ℝ) : EReal)
          intro _
          rw [EReal.coe_le_coe_iff]
          norm_num
        · norm_num [ofW, Fin.sum_univ_two]
      · have hs : s.w = ![1, 0] := hs
        show ((_ : ℝ) : EReal) + 0 < ((_ : ℝ) : EReal) + 0
        rw [add_zero, add_zero, EReal.coe_lt_coe_iff]
        show -((ofW ![3 / 4, 1 / 4]).w ⬝ᵥ ![1, 0] - 2 / 2 * ((ofW ![3 / 4, 1 / 4]).w ⬝ᵥ
          (1 : Matrix (Fin 2) (Fin 2) ℝ) *ᵥ (ofW ![3 / 4, 1 / 4]).w)) <
          -(s.w ⬝ᵥ ![1, 0] - 2 / 2 * (s.w ⬝ᵥ (1 : Matrix (Fin 2) (Fin 2) ℝ) *ᵥ s.w))
        rw [hs, variance_two, variance_two, ret_two, ret_two]
        norm_num [ofW]
    | sharpe rf mu v hc => cases hc
    | convex i b b' hc => cases hc


end Verif.Convex
