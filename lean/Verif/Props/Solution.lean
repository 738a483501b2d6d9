import Verif.Props.Convex
import Verif.Props.Base
import Verif.Proof.Quad
import Verif.Spec.Portfolio

/-!
Property C42: weights returned by the methods of `EfficientFrontier` satisfy what was asked and are optimal, up to
the rounding to 16 decimals.
-/

noncomputable section

namespace Verif.Convex
open Verif.Py Verif.Base Matrix

variable {n : ℕ} {U : Uni n} {S : Solver n} {D : Data n} {cfg : Cfg n} {o : OState n}

/-! ### Rounding -/

theorem round16_rounded (s : Fin n → ℝ) : Rounded (round16 s) s := by
  intro i
  exact ⟨⟨_, rfl⟩, npRound_closest 16 (s i)⟩

variable {w s : Fin n → ℝ}

theorem Rounded.error (h : Rounded w s) (i : Fin n) : |w i - s i| ≤ 1 / 2 / 10 ^ 16 := by
  obtain ⟨m, hm⟩ : ∃ m : ℤ, |(m : ℝ) / 10 ^ 16 - s i| ≤ 1 / 2 / 10 ^ 16 :=
    ⟨Discrete.rint (s i * 10 ^ 16), npRound_error 16 (s i)⟩
  exact ((h i).2 m).trans hm

/-- **C42**, rounding: bounds that are multiples of 10⁻¹⁶ are kept exactly. -/
theorem C42_rounded_bounds (h : Rounded w s) (i : Fin n) (k : ℤ) :
    ((k : ℝ) / 10 ^ 16 ≤ s i → (k : ℝ) / 10 ^ 16 ≤ w i) ∧ (s i ≤ (k : ℝ) / 10 ^ 16 → w i ≤ (k : ℝ) / 10 ^ 16) := by
  obtain ⟨⟨j, hj⟩, hc⟩ := h i
  have h0 : (0 : ℝ) < 10 ^ 16 := by positivity
  have key := hc k
  constructor
  · intro hk
    by_contra hlt
    rw [not_le] at hlt
    rw [abs_of_nonpos (by linarith), abs_of_nonpos (by linarith)] at key
    linarith
  · intro hk
    by_contra hlt
    rw [not_le] at hlt
    rw [abs_of_nonneg (by linarith), abs_of_nonneg (by linarith)] at key
    linarith

/-- **C42**, rounding: sums of weights over any set of assets change by at most 5·10⁻¹⁷ for each. -/
theorem C42_rounded_sum (h : Rounded w s) (A : Finset (Fin n)) :
    |∑ i ∈ A, w i - ∑ i ∈ A, s i| ≤ A.card * (1 / 2 / 10 ^ 16) := by
  rw [← Finset.sum_sub_distrib, ← nsmul_eq_mul]
  refine (Finset.abs_sum_le_sum_abs _ _).trans ?_
  exact Finset.sum_le_card_nsmul _ _ _ fun i _ => h.error i

/-- **C42**, rounding: the return changes by at most 5·10⁻¹⁷ times the sum of the absolute returns. -/
theorem C42_rounded_return (h : Rounded w s) (mu : Fin n → ℝ) :
    |w ⬝ᵥ mu - s ⬝ᵥ mu| ≤ 1 / 2 / 10 ^ 16 * ∑ i, |mu i| := by
  rw [← sub_dotProduct, dotProduct, Finset.mul_sum]
  refine (Finset.abs_sum_le_sum_abs _ _).trans (Finset.sum_le_sum fun i _ => ?_)
  rw [abs_mul]
  exact mul_le_mul_of_nonneg_right (h.error i) (abs_nonneg _)

/-- **C42**, rounding: the volatility changes by at most 5·10⁻¹⁷ times the root of the sum of the absolute
covariances. -/
theorem C42_rounded_vol (h : Rounded w s) {cov : Matrix (Fin n) (Fin n) ℝ} (hc : cov.PosSemidef) :
    |vol cov w - vol cov s| ≤ 1 / 2 / 10 ^ 16 * Real.sqrt (∑ i, ∑ j, |cov i j|) := by
  have hd : ∀ d : Fin n → ℝ, (∀ i, |d i| ≤ 1 / 2 / 10 ^ 16) →
      Real.sqrt (d ⬝ᵥ cov *ᵥ d) ≤ 1 / 2 / 10 ^ 16 * Real.sqrt (∑ i, ∑ j, |cov i j|) := by
    intro d hd
    refine (Real.sqrt_le_sqrt (quad_le_abs d hd)).trans ?_
    rw [Real.sqrt_mul (by positivity), Real.sqrt_sq (by positivity)]
  have h1 := sqrt_quad_add hc s (w - s)
  have h2 := sqrt_quad_add hc w (s - w)
  rw [add_sub_cancel] at h1 h2
  have e1 := hd (w - s) fun i => h.error i
  have e2 := hd (s - w) fun i => by rw [Pi.sub_apply, abs_sub_comm]; exact h.error i
  unfold vol
  rw [abs_le]
  constructor <;> linarith

/-! ### Optimality -/

/-- The problem a call has solved, and its solution. -/
theorem solved_call (hU : Usable U D) {W : World n} (hW : Reachable U S D W) {j : ℕ}
    (hj : W.objs[j]? = some (cfg, o)) {c : Call n} (hnc : ∀ m b, c ≠ .nonconvex m b) (hcv : ∀ r b, c ≠ .convex r b)
    (hsh : ∀ r, c ≠ .maxSharpe r)
    (hw : (run U S D c o W.heap).1 = .ok (some w)) (hS : Correct S W.heap (run U S D c o W.heap).2.2) :
    ∃ v q s x, ask D v c = some q ∧ w = round16 s.w ∧ IsOpt (doc U cfg W.heap.upar q) s x := by
  obtain ⟨-, pre, P, f, s, x, -, h2, h3, h4, h5⟩ :=
    C39_weights_documented_partial hU hW hj hnc (.inr fun r => hcv r false) hw
  have hR := hS (W.heap.log ++ pre).length P (by rw [List.length_append]; exact Nat.le_add_right _ _)
    (by rw [h3]; simp)
  rw [h4] at hR
  cases h2 with
  | ask v q hq => exact ⟨v, q, s, x, hq, h5, hR⟩
  | sharpe rf mu v hc => exact absurd hc (hsh rf)
  | convex i b b' hc => exact absurd hc (hcv _ _)

/-- Requirements and objectives that only concern the weights. -/
theorem best_of_opt {q : Ask n} {upar : ℕ → ℝ} {x : Asg n} {v : ℝ} (ho : IsOpt (doc U cfg upar q) x v)
    {req : (Fin n → ℝ) → Prop} {f : (Fin n → ℝ) → ℝ} (hr : ∀ s : Asg n, q.extra s ↔ req s.w)
    (hf : ∀ s : Asg n, q.base s = f s.w) : Best U cfg upar q.mn req f x.w x.usr := by
  have hh : ∀ (a : Added n) (s : Asg n), a.holds U upar s ↔ a.holds U upar ⟨s.w, s.usr, fun _ _ => 0⟩ := by
    intro a s
    cases a with
    | usr i => exact Iff.rfl
    | sector sec nm up b => cases up <;> exact Iff.rfl
  obtain ⟨h1, h2, h3⟩ := ho
  refine ⟨⟨h1.1, fun a ha => (hh a x).1 (h1.2.1 a ha), h1.2.2.1⟩, (hr x).1 h1.2.2.2, fun w' usr' ha hm => ?_⟩
  have := h3 ⟨w', usr', fun _ _ => 0⟩ ⟨ha.within, ha.cons, ha.sum, (hr _).2 hm⟩
  simp only [doc, hf] at this
  exact this

section methods
variable {W : World n} {j : ℕ}

/-- **C42** (part), `min_volatility`. -/
theorem C42_min_volatility_partial (hU : Usable U D) (hW : Reachable U S D W) (hj : W.objs[j]? = some (cfg, o))
    (hw : (run U S D .minVolatility o W.heap).1 = .ok (some w))
    (hS : Correct S W.heap (run U S D .minVolatility o W.heap).2.2) :
    ∃ s usr, Rounded w s ∧
      Best U cfg W.heap.upar false (fun _ => True) (fun w => w ⬝ᵥ D.cov *ᵥ w) s usr := by
  obtain ⟨v, q, s, x, hq, rfl, ho⟩ := solved_call hU hW hj (c := .minVolatility) nofun nofun nofun hw hS
  simp only [ask] at hq
  split at hq
  · cases hq
    exact ⟨s.w, s.usr, round16_rounded _, best_of_opt ho (fun _ => Iff.rfl) (fun _ => rfl)⟩
  · cases hq

/-- **C42** (part), `max_quadratic_utility`. -/
theorem C42_max_quadratic_utility_partial (hU : Usable U D) (hk : D.kind = .ef) (hW : Reachable U S D W)
    (hj : W.objs[j]? = some (cfg, o)) {r : ℝ} {mn : Bool}
    (hw : (run U S D (.maxUtility r mn) o W.heap).1 = .ok (some w))
    (hS : Correct S W.heap (run U S D (.maxUtility r mn) o W.heap).2.2) :
    ∃ mu s usr, D.mu = some mu ∧ Rounded w s ∧
      Best U cfg W.heap.upar mn (fun _ => True) (fun w => -(w ⬝ᵥ mu - r / 2 * (w ⬝ᵥ D.cov *ᵥ w))) s usr := by
  obtain ⟨v, q, s, x, hq, rfl, ho⟩ := solved_call hU hW hj (c := .maxUtility r mn) nofun nofun nofun hw hS
  simp only [ask, hk] at hq
  cases hm : D.mu with
  | none => rw [hm] at hq; cases hq
  | some mu =>
    rw [hm] at hq
    cases hq
    exact ⟨mu, s.w, s.usr, rfl, round16_rounded _, best_of_opt ho (fun _ => Iff.rfl) (fun _ => rfl)⟩

/-- **C42** (part), `efficient_risk`: the largest return with volatility at most the target. -/
theorem C42_efficient_risk_partial (hU : Usable U D) (hk : D.kind = .ef) (hW : Reachable U S D W)
    (hj : W.objs[j]? = some (cfg, o)) {t : ℝ} {mn : Bool}
    (hw : (run U S D (.efficientRisk t mn) o W.heap).1 = .ok (some w))
    (hS : Correct S W.heap (run U S D (.efficientRisk t mn) o W.heap).2.2) :
    ∃ mu s usr, D.mu = some mu ∧ Rounded w s ∧ 0 ≤ t ∧
      Best U cfg W.heap.upar mn (fun w => vol D.cov w ≤ t) (fun w => -(w ⬝ᵥ mu)) s usr ∧
      (D.cov.PosSemidef → vol D.cov w ≤ t + 1 / 2 / 10 ^ 16 * Real.sqrt (∑ i, ∑ j, |D.cov i j|)) := by
  have ht : 0 ≤ t := by
    by_contra h
    have : run U S D (.efficientRisk t mn) o W.heap = (.error .valueError, o, W.heap) := by
      refine some_err (x := efficientRisk S D t mn) (by simp only [run, hk]) ?_
      unfold efficientRisk
      rw [if_pos (not_le.1 h)]
      rfl
    rw [this] at hw
    cases hw
  obtain ⟨v, q, s, x, hq, rfl, ho⟩ := solved_call hU hW hj (c := .efficientRisk t mn) nofun nofun nofun hw hS
  simp only [ask, hk] at hq
  cases hm : D.mu with
  | none => rw [hm] at hq; cases hq
  | some mu =>
    rw [hm] at hq
    cases hq
    have hb : Best U cfg W.heap.upar mn (fun w => vol D.cov w ≤ t) (fun w => -(w ⬝ᵥ mu)) s.w s.usr :=
      best_of_opt ho (fun s => (Real.sqrt_le_left ht).symm) (fun _ => rfl)
    refine ⟨mu, s.w, s.usr, rfl, round16_rounded _, ht, hb, fun hc => ?_⟩
    have h1 := (abs_le.1 (C42_rounded_vol (round16_rounded s.w) hc)).2
    have h2 : vol D.cov s.w ≤ t := hb.meets
    linarith

/-- **C42** (part), `efficient_return`: the smallest variance with return at least the target. -/
theorem C42_efficient_return_partial (hU : Usable U D) (hk : D.kind = .ef) (hW : Reachable U S D W)
    (hj : W.objs[j]? = some (cfg, o)) {t : ℝ} {f mn : Bool}
    (hw : (run U S D (.efficientReturn f t mn) o W.heap).1 = .ok (some w))
    (hS : Correct S W.heap (run U S D (.efficientReturn f t mn) o W.heap).2.2) :
    ∃ mu s usr, D.mu = some mu ∧ Rounded w s ∧
      Best U cfg W.heap.upar mn (fun w => t ≤ w ⬝ᵥ mu) (fun w => w ⬝ᵥ D.cov *ᵥ w) s usr ∧
      t - 1 / 2 / 10 ^ 16 * ∑ i, |mu i| ≤ w ⬝ᵥ mu := by
  obtain ⟨v, q, s, x, hq, rfl, ho⟩ := solved_call hU hW hj (c := .efficientReturn f t mn) nofun nofun nofun hw hS
  simp only [ask, hk] at hq
  cases hm : D.mu with
  | none => rw [hm] at hq; cases hq
  | some mu =>
    rw [hm] at hq
    cases hq
    have hb : Best U cfg W.heap.upar mn (fun w => t ≤ w ⬝ᵥ mu) (fun w => w ⬝ᵥ D.cov *ᵥ w) s.w s.usr :=
      best_of_opt ho (fun _ => Iff.rfl) (fun _ => rfl)
    refine ⟨mu, s.w, s.usr, rfl, round16_rounded _, hb, ?_⟩
    have h1 := (abs_le.1 (C42_rounded_return (round16_rounded s.w) mu)).1
    have h2 : t ≤ s.w ⬝ᵥ mu := hb.meets
    linarith

end methods

end Verif.Convex
