import Verif.Props.TailMethods
import Verif.Props.Sharpe
import Verif.Spec.Tradeoff

/-!
Property C73: more return is only to be had for more risk.  Portfolios returned for different targets are compared,
whatever the histories of the objects and whichever solvers were used.
-/

noncomputable section

namespace Verif.Convex
open Verif.Py Verif.Base Matrix

variable {n : ℕ} {U : Uni n} {D : Data n} {cfg : Cfg n} {upar : ℕ → ℝ} {mn : Bool} {w w' s s' : Fin n → ℝ}
  {mu : Fin n → ℝ}

/-! ### Rounding -/

theorem Rounded.ret (h : Rounded w s) (mu : Fin n → ℝ) : |w ⬝ᵥ mu - s ⬝ᵥ mu| ≤ retSlack mu :=
  C42_rounded_return h mu

theorem Rounded.risk (hU : Usable U D) (hD : Sound D mn) (h : Rounded w s) :
    |risk D w - risk D s| ≤ riskSlack D := by
  have pos : D.kind = .cvar ∨ D.kind = .cdar → 0 < D.T := fun hk =>
    Nat.pos_of_ne_zero fun e => hU.tail hk (by rw [e]; simp)
  unfold Verif.Convex.risk riskSlack
  unfold Sound at hD
  cases hk : D.kind with
  | ef => rw [hk] at hD; exact C42_rounded_vol h hD
  | cvar =>
    rw [hk] at hD
    exact C46_rounded (pos (.inl hk)) hD.1 hD.2 h fun t =>
      Finset.single_le_sum (f := fun t => ∑ i, |D.R t i|) (fun t _ => Finset.sum_nonneg fun i _ => abs_nonneg _)
        (Finset.mem_univ t)
  | cdar => rw [hk] at hD; exact C47_rounded (pos (.inr hk)) hD.1 hD.2 h
  | semi => rw [hk] at hD; exact C48_rounded hD.2.1.le h

/-! ### What the calls return -/

/-- Without added objectives only the method's own objective counts. -/
theorem Best.le {req : (Fin n → ℝ) → Prop} {f : (Fin n → ℝ) → ℝ} {usr usr' : ℕ → ℝ} (hobj : cfg.objs = [])
    (hb : Best U cfg upar mn req f s usr) (ha : Admissible U cfg upar mn s' usr') (hr : req s') : f s ≤ f s' := by
  have := hb.best s' usr' ha hr
  simpa [total, hobj] using this

theorem Best.mono {req : (Fin n → ℝ) → Prop} {f g : (Fin n → ℝ) → ℝ} {usr : ℕ → ℝ} (hobj : cfg.objs = [])
    (hb : Best U cfg upar mn req f s usr) (hg : ∀ x y, f x ≤ f y → g x ≤ g y) : Best U cfg upar mn req g s usr := by
  refine ⟨hb.adm, hb.meets, fun w' usr' ha hr => ?_⟩
  have := hg _ _ (hb.le hobj ha hr)
  simpa [total, hobj] using this

theorem risk_nonneg_sq (hk : D.kind = .ef) (hc : D.cov.PosSemidef) (x : Fin n → ℝ) :
    risk D x ^ 2 = x ⬝ᵥ D.cov *ᵥ x := by
  unfold risk
  rw [hk]
  exact Real.sq_sqrt (Verif.Risk.psd_nonneg hc x)

/-- What `efficient_return` returns, in any class. -/
theorem Got.target_return (hU : Usable U D) (hobj : cfg.objs = []) (hD : Sound D mn) {f : Bool} {t : ℝ}
    (hmu : D.mu = some mu) (h : Got U D cfg upar (.efficientReturn f t mn) w) :
    ∃ s usr, Rounded w s ∧ Best U cfg upar mn (fun w => t ≤ w ⬝ᵥ mu) (risk D) s usr := by
  obtain ⟨S, W, j, o, hW, hj, rfl, hw, hS⟩ := h
  unfold Sound at hD
  unfold Verif.Convex.risk
  cases hk : D.kind with
  | ef =>
    rw [hk] at hD
    obtain ⟨mu', s, usr, hm, hr, hb, -⟩ := C42_efficient_return_partial hU hk hW hj hw hS
    cases hm.symm.trans hmu
    exact ⟨s, usr, hr, hb.mono hobj fun x y h => Real.sqrt_le_sqrt h⟩
  | cvar =>
    rw [hk] at hD
    obtain ⟨mu', s, usr, hm, hr, hb, -⟩ := C46_efficient_return_partial hU hk hD.1 hD.2 hW hj hw hS
    cases hm.symm.trans hmu
    exact ⟨s, usr, hr, hb⟩
  | cdar =>
    rw [hk] at hD
    obtain ⟨s, usr, hr, hb, -⟩ := C47_efficient_return_partial hU hk hD.1 hD.2 hmu hW hj hw hS
    exact ⟨s, usr, hr, hb⟩
  | semi =>
    rw [hk] at hD
    obtain ⟨mu', s, usr, hm, hr, -, hb, -⟩ := C48_efficient_return_partial hU hk hD.1 hW hj hD.2.2 hw hS
    cases hm.symm.trans hmu
    exact ⟨s, usr, hr, hb hD.2.1.le hobj⟩

/-- What `efficient_risk` returns, in any class. -/
theorem Got.target_risk (hU : Usable U D) (hD : Sound D mn) {t : ℝ} (ht : 0 ≤ t)
    (hmu : D.mu = some mu) (h : Got U D cfg upar (.efficientRisk t mn) w) :
    ∃ s usr, Rounded w s ∧ Best U cfg upar mn (fun w => risk D w ≤ t) (fun w => -(w ⬝ᵥ mu)) s usr := by
  obtain ⟨S, W, j, o, hW, hj, rfl, hw, hS⟩ := h
  unfold Sound at hD
  unfold Verif.Convex.risk
  cases hk : D.kind with
  | ef =>
    obtain ⟨mu', s, usr, hm, hr, -, hb, -⟩ := C42_efficient_risk_partial hU hk hW hj hw hS
    cases hm.symm.trans hmu
    exact ⟨s, usr, hr, hb⟩
  | cvar =>
    rw [hk] at hD
    obtain ⟨mu', s, usr, -, hm, hr, hb, -⟩ := C46_efficient_risk_partial hU hk hD.1 hD.2 hW hj hw hS
    cases hm.symm.trans hmu
    exact ⟨s, usr, hr, hb⟩
  | cdar =>
    rw [hk] at hD
    obtain ⟨s, usr, -, hr, hb, -⟩ := C47_efficient_risk_partial hU hk hD.1 hD.2 hmu hW hj hw hS
    exact ⟨s, usr, hr, hb⟩
  | semi =>
    rw [hk] at hD
    obtain ⟨mu', s, usr, hm, hr, hb, -⟩ := C48_efficient_risk_partial hU hk hD.1 hD.2.1.le hW hj hD.2.2 hw hS
    cases hm.symm.trans hmu
    rw [abs_of_nonneg ht] at hb
    exact ⟨s, usr, hr, hb⟩

/-- What `max_quadratic_utility` returns, in any class. -/
theorem Got.utility (hU : Usable U D) (hobj : cfg.objs = []) (hD : Sound D mn) {r : ℝ} (hmu : D.mu = some mu)
    (h : Got U D cfg upar (.maxUtility r mn) w) :
    0 < r ∧ ∃ s usr, Rounded w s ∧
      Best U cfg upar mn (fun _ => True) (fun w => -(w ⬝ᵥ mu - r / 2 * risk D w ^ 2)) s usr := by
  obtain ⟨S, W, j, o, hW, hj, rfl, hw, hS⟩ := h
  have hr : 0 < r := by
    by_contra h
    have e : ∀ k, D.kind = k → run U S D (.maxUtility r mn) o W.heap = (.error .valueError, o, W.heap) ∨
        (run U S D (.maxUtility r mn) o W.heap).1 = .error .notImplemented := by
      intro k hk
      cases k with
      | ef =>
        refine .inl (some_err (x := maxUtility S D r mn) (by simp only [run, hk]) ?_)
        unfold maxUtility
        rw [if_pos (not_lt.1 h)]
        rfl
      | semi =>
        refine .inl (some_err (x := semiUtility S D r mn) (by simp only [run, hk]) ?_)
        unfold semiUtility
        rw [if_pos (not_lt.1 h)]
        rfl
      | cvar => right; simp only [run, hk]; rfl
      | cdar => right; simp only [run, hk]; rfl
    rcases e _ rfl with e | e
    · rw [e] at hw; cases hw
    · rw [e] at hw; cases hw
  refine ⟨hr, ?_⟩
  have hD' := hD
  unfold Sound at hD
  cases hk : D.kind with
  | ef =>
    rw [hk] at hD
    obtain ⟨mu', s, usr, hm, hro, hb⟩ := C42_max_quadratic_utility_partial hU hk hW hj hw hS
    cases hm.symm.trans hmu
    refine ⟨s, usr, hro, hb.congr (fun _ _ => Iff.rfl) fun x _ => ?_⟩
    rw [risk_nonneg_sq hk hD]
  | cvar => simp only [run, hk] at hw; cases hw
  | cdar => simp only [run, hk] at hw; cases hw
  | semi =>
    rw [hk] at hD
    obtain ⟨mu', s, usr, hm, hro, hb⟩ := C48_max_quadratic_utility_partial hU hk hD.1 hD.2.1 hW hj hD.2.2 hobj hw hS
    cases hm.symm.trans hmu
    refine ⟨s, usr, hro, hb.congr (fun _ _ => Iff.rfl) fun x _ => ?_⟩
    unfold risk
    rw [hk]

/-- What the calls for the least risk return. -/
theorem Got.least (hU : Usable U D) (hobj : cfg.objs = []) (hD : Sound D mn) {c : Call n} (hc : LeastRisk D mn c)
    (hmu : D.mu = some mu) (h : Got U D cfg upar c w) :
    ∃ s usr, Rounded w s ∧ Best U cfg upar mn (fun _ => True) (risk D) s usr := by
  obtain ⟨S, W, j, o, hW, hj, rfl, hw, hS⟩ := h
  unfold Sound at hD
  unfold Verif.Convex.risk
  cases c with
  | minVolatility =>
    obtain ⟨hk, rfl⟩ := hc
    rw [hk] at hD ⊢
    obtain ⟨s, usr, hr, hb⟩ := C42_min_volatility_partial hU hW hj hw hS
    exact ⟨s, usr, hr, hb.mono hobj fun x y h => Real.sqrt_le_sqrt h⟩
  | minCvar m =>
    obtain ⟨hk, rfl⟩ := hc
    rw [hk] at hD ⊢
    obtain ⟨-, s, usr, -, hr, hb, -⟩ := C46_min_cvar_partial hU hk hD.1 hD.2 hW hj hw hS
    exact ⟨s, usr, hr, hb⟩
  | minCdar m =>
    obtain ⟨hk, rfl⟩ := hc
    rw [hk] at hD ⊢
    obtain ⟨s, usr, hr, hb, -⟩ := C47_min_cdar_partial hU hk hD.1 hD.2 hmu hW hj hw hS
    exact ⟨s, usr, hr, hb⟩
  | minSemi m =>
    obtain ⟨hk, rfl⟩ := hc
    rw [hk] at hD ⊢
    obtain ⟨s, usr, hr, -, hb, -⟩ := C48_min_semivariance_partial hU hk hD.1 hW hj hD.2.2 hw hS
    exact ⟨s, usr, hr, hb hD.2.1.le hobj⟩
  | _ => exact hc.elim

theorem risk_nonneg (hU : Usable U D) (hk : D.kind = .ef ∨ D.kind = .semi) (x : Fin n → ℝ) : 0 ≤ risk D x := by
  unfold risk
  rcases hk with hk | hk <;> rw [hk]
  · exact Real.sqrt_nonneg _
  · exact Real.sqrt_nonneg _

/-! ### Monotonicity -/

/-- **C73**, target returns: asking for more return never gives less risk, up to the rounding of the two
portfolios. -/
theorem C73_target_return (hU : Usable U D) (hobj : cfg.objs = []) (hD : Sound D mn) (hmu : D.mu = some mu)
    {f f' : Bool} {t t' : ℝ} (htt : t ≤ t') (h : Got U D cfg upar (.efficientReturn f t mn) w)
    (h' : Got U D cfg upar (.efficientReturn f' t' mn) w') : risk D w ≤ risk D w' + 2 * riskSlack D := by
  obtain ⟨s, u, hr, hb⟩ := h.target_return hU hobj hD hmu
  obtain ⟨s', u', hr', hb'⟩ := h'.target_return hU hobj hD hmu
  have h1 := (abs_le.1 (hr.risk hU hD)).2
  have h2 := (abs_le.1 (hr'.risk hU hD)).1
  have h3 := hb.le hobj hb'.adm (htt.trans hb'.meets)
  linarith

/-- **C73**, target risks: allowing more risk never gives less return. -/
theorem C73_target_risk (hU : Usable U D) (hobj : cfg.objs = []) (hD : Sound D mn) (hmu : D.mu = some mu)
    {t t' : ℝ} (ht : 0 ≤ t) (htt : t ≤ t') (h : Got U D cfg upar (.efficientRisk t mn) w)
    (h' : Got U D cfg upar (.efficientRisk t' mn) w') : w ⬝ᵥ mu ≤ w' ⬝ᵥ mu + 2 * retSlack mu := by
  obtain ⟨s, u, hr, hb⟩ := h.target_risk hU hD ht hmu
  obtain ⟨s', u', hr', hb'⟩ := h'.target_risk hU hD (ht.trans htt) hmu
  have h1 := (abs_le.1 (hr.ret mu)).2
  have h2 := (abs_le.1 (hr'.ret mu)).1
  have h3 := hb'.le hobj hb.adm (hb.meets.trans htt)
  linarith

/-- **C73**, risk aversion: a more risk-averse investor gets neither more risk nor more return. -/
theorem C73_utility (hU : Usable U D) (hobj : cfg.objs = []) (hD : Sound D mn) (hmu : D.mu = some mu)
    {r r' : ℝ} (hrr : r < r') (h : Got U D cfg upar (.maxUtility r mn) w)
    (h' : Got U D cfg upar (.maxUtility r' mn) w') :
    risk D w' ≤ risk D w + 2 * riskSlack D ∧ w' ⬝ᵥ mu ≤ w ⬝ᵥ mu + 2 * retSlack mu := by
  have hk : D.kind = .ef ∨ D.kind = .semi := by
    obtain ⟨S, W, j, o, hW, hj, rfl, hw, hS⟩ := h
    cases hk : D.kind with
    | ef => exact .inl rfl
    | semi => exact .inr rfl
    | cvar => simp only [run, hk] at hw; cases hw
    | cdar => simp only [run, hk] at hw; cases hw
  obtain ⟨p, s, u, hr, hb⟩ := h.utility hU hobj hD hmu
  obtain ⟨p', s', u', hr', hb'⟩ := h'.utility hU hobj hD hmu
  have k1 := hb.le hobj hb'.adm trivial
  have k2 := hb'.le hobj hb.adm trivial
  have n1 := risk_nonneg hU hk s
  have n2 := risk_nonneg hU hk s'
  have k3 : risk D s' ^ 2 ≤ risk D s ^ 2 := by
    by_contra hlt
    rw [not_le] at hlt
    have := mul_pos (sub_pos.2 hrr) (sub_pos.2 hlt)
    nlinarith
  have k4 : risk D s' ≤ risk D s := (sq_le_sq₀ n2 n1).1 k3
  have k5 : s' ⬝ᵥ mu ≤ s ⬝ᵥ mu := by nlinarith [mul_nonneg p.le (sub_nonneg.2 k3)]
  have a1 := (abs_le.1 (hr.risk hU hD)).1
  have a2 := (abs_le.1 (hr'.risk hU hD)).2
  have b1 := (abs_le.1 (hr.ret mu)).1
  have b2 := (abs_le.1 (hr'.ret mu)).2
  constructor <;> linarith

/-! ### Mixtures -/

theorem tailMean_mix {T : ℕ} {q a : ℝ} (hq : 0 < q) (hT : q ≤ T) (h0 : 0 ≤ a) (h1 : a ≤ 1) {L L' L'' : Fin T → ℝ}
    (h : ∀ t, L'' t ≤ a * L t + (1 - a) * L' t) : tailMean q L'' ≤ a * tailMean q L + (1 - a) * tailMean q L' := by
  obtain ⟨α, e⟩ := tailMean_eq (L := L) hq hT
  obtain ⟨α', e'⟩ := tailMean_eq (L := L') hq hT
  have := tailMean_le (L := L'') hq hT (a * α + (1 - a) * α')
    (u := fun t => a * max 0 (L t - α) + (1 - a) * max 0 (L' t - α'))
    (fun t => add_nonneg (mul_nonneg h0 (le_max_left _ _)) (mul_nonneg (sub_nonneg.2 h1) (le_max_left _ _)))
    (fun t => by
      have k1 := mul_le_mul_of_nonneg_left (le_max_right 0 (L t - α)) h0
      have k2 := mul_le_mul_of_nonneg_left (le_max_right 0 (L' t - α')) (sub_nonneg.2 h1)
      linarith [h t])
  rw [Finset.sum_add_distrib, ← Finset.mul_sum, ← Finset.mul_sum] at this
  rw [e, e']
  linarith

theorem cum_mix {T : ℕ} (a : ℝ) (r r' : Fin T → ℝ) (k : ℕ) :
    cum (fun t => a * r t + (1 - a) * r' t) k = a * cum r k + (1 - a) * cum r' k := by
  unfold cum
  rw [Finset.sum_add_distrib, Finset.mul_sum, Finset.mul_sum]

theorem drawdown_mix {T : ℕ} {a : ℝ} (h0 : 0 ≤ a) (h1 : a ≤ 1) (r r' : Fin T → ℝ) (k : ℕ) :
    drawdown (fun t => a * r t + (1 - a) * r' t) k ≤ a * drawdown r k + (1 - a) * drawdown r' k := by
  refine Finset.sup'_le _ _ fun j hj => ?_
  have k1 : cum r j - cum r k ≤ drawdown r k := Finset.le_sup' (f := fun j => cum r j - cum r k) hj
  have k2 : cum r' j - cum r' k ≤ drawdown r' k := Finset.le_sup' (f := fun j => cum r' j - cum r' k) hj
  rw [cum_mix, cum_mix]
  nlinarith [mul_le_mul_of_nonneg_left k1 h0, mul_le_mul_of_nonneg_left k2 (sub_nonneg.2 h1)]

theorem dot_mix (a : ℝ) (x w w' : Fin n → ℝ) : x ⬝ᵥ mix a w w' = a * (x ⬝ᵥ w) + (1 - a) * (x ⬝ᵥ w') := by
  unfold mix
  simp only [dotProduct, Finset.mul_sum, ← Finset.sum_add_distrib]
  exact Finset.sum_congr rfl fun i _ => by ring

theorem daily_mix {T : ℕ} (R : Fin T → Fin n → ℝ) (a : ℝ) (w w' : Fin n → ℝ) :
    daily R (mix a w w') = fun t => a * daily R w t + (1 - a) * daily R w' t := by
  funext t
  exact dot_mix a (R t) w w'

theorem sqrt_quad_smul {M : Matrix (Fin n) (Fin n) ℝ} {a : ℝ} (ha : 0 ≤ a) (x : Fin n → ℝ) :
    Real.sqrt ((a • x) ⬝ᵥ M *ᵥ (a • x)) = a * Real.sqrt (x ⬝ᵥ M *ᵥ x) := by
  rw [mulVec_smul, dotProduct_smul, smul_dotProduct, smul_eq_mul, smul_eq_mul, ← mul_assoc, ← sq,
    Real.sqrt_mul (sq_nonneg a), Real.sqrt_sq ha]

theorem vol_mix {M : Matrix (Fin n) (Fin n) ℝ} (hM : M.PosSemidef) {a : ℝ} (h0 : 0 ≤ a) (h1 : a ≤ 1)
    (w w' : Fin n → ℝ) : vol M (mix a w w') ≤ a * vol M w + (1 - a) * vol M w' := by
  have : mix a w w' = a • w + (1 - a) • w' := by
    funext i; simp [mix]
  unfold vol
  rw [this, ← sqrt_quad_smul h0, ← sqrt_quad_smul (sub_nonneg.2 h1)]
  exact sqrt_quad_add hM _ _

theorem semidev_eq {T : ℕ} {f : ℝ} (hf : 0 ≤ f) (b : ℝ) (r : Fin T → ℝ) :
    semidev f b r = Real.sqrt (f / T) * vol (1 : Matrix (Fin T) (Fin T) ℝ) (fun t => -min (r t - b) 0) := by
  unfold vol semidev semivar
  rw [← Real.sqrt_mul (div_nonneg hf (Nat.cast_nonneg _)), one_mulVec, dotProduct]
  congr 1
  rw [Finset.sum_congr rfl fun t _ => sq (min (r t - b) 0)]
  simp only [neg_mul_neg]
  ring

theorem vol_one_mono {T : ℕ} {x y : Fin T → ℝ} (h : ∀ t, 0 ≤ x t ∧ x t ≤ y t) :
    vol (1 : Matrix (Fin T) (Fin T) ℝ) x ≤ vol (1 : Matrix (Fin T) (Fin T) ℝ) y := by
  refine Real.sqrt_le_sqrt ?_
  rw [one_mulVec, one_mulVec]
  exact Finset.sum_le_sum fun t _ => mul_self_le_mul_self (h t).1 (h t).2

theorem semidev_mix {T : ℕ} {f : ℝ} (hf : 0 ≤ f) (b : ℝ) {a : ℝ} (h0 : 0 ≤ a) (h1 : a ≤ 1) (r r' : Fin T → ℝ) :
    semidev f b (fun t => a * r t + (1 - a) * r' t) ≤ a * semidev f b r + (1 - a) * semidev f b r' := by
  rw [semidev_eq hf, semidev_eq hf, semidev_eq hf]
  have k1 : vol (1 : Matrix (Fin T) (Fin T) ℝ) (fun t => -min (a * r t + (1 - a) * r' t - b) 0) ≤
      vol 1 (mix a (fun t => -min (r t - b) 0) (fun t => -min (r' t - b) 0)) := by
    refine vol_one_mono fun t => ⟨neg_nonneg.2 (min_le_right _ _), ?_⟩
    show -min _ 0 ≤ a * -min (r t - b) 0 + (1 - a) * -min (r' t - b) 0
    have m1 := mul_le_mul_of_nonneg_left (min_le_left (r t - b) 0) h0
    have m2 := mul_le_mul_of_nonneg_left (min_le_left (r' t - b) 0) (sub_nonneg.2 h1)
    have m3 := mul_nonneg h0 (neg_nonneg.2 (min_le_right (r t - b) 0))
    have m4 := mul_nonneg (sub_nonneg.2 h1) (neg_nonneg.2 (min_le_right (r' t - b) 0))
    rcases min_choice (a * r t + (1 - a) * r' t - b) 0 with e | e <;> rw [e] <;> linarith
  have k2 := k1.trans (vol_mix PosSemidef.one h0 h1 _ _)
  have := mul_le_mul_of_nonneg_left k2 (Real.sqrt_nonneg (f / T))
  linarith

/-- Diversification: the risk of a mixture is at most the mixture of the risks. -/
theorem risk_mix (hU : Usable U D) (hD : Sound D mn) {a : ℝ} (h0 : 0 ≤ a) (h1 : a ≤ 1) (w w' : Fin n → ℝ) :
    risk D (mix a w w') ≤ a * risk D w + (1 - a) * risk D w' := by
  unfold Verif.Convex.risk
  unfold Sound at hD
  cases hk : D.kind with
  | ef => rw [hk] at hD; exact vol_mix hD h0 h1 w w'
  | cvar =>
    rw [hk] at hD
    refine tailMean_mix (tail_pos (hU.tail (.inl hk)) hD.2) (tail_le hD.1) h0 h1 fun t => ?_
    rw [daily_mix]
    linarith
  | cdar =>
    rw [hk] at hD
    refine tailMean_mix (tail_pos (hU.tail (.inr hk)) hD.2) (tail_le hD.1) h0 h1 fun t => ?_
    rw [daily_mix]
    exact drawdown_mix h0 h1 _ _ _
  | semi =>
    rw [hk] at hD
    simp only [daily_mix]
    exact semidev_mix hD.2.1.le _ h0 h1 _ _

theorem ereal_mix_le {a x y : ℝ} {b : EReal} (h0 : 0 ≤ a) (h1 : a ≤ 1) (hx : (x : EReal) ≤ b) (hy : (y : EReal) ≤ b) :
    ((a * x + (1 - a) * y : ℝ) : EReal) ≤ b := by
  refine le_trans (b := ((max x y : ℝ) : EReal)) (EReal.coe_le_coe_iff.2 ?_) ?_
  · nlinarith [mul_le_mul_of_nonneg_left (le_max_left x y) h0,
      mul_le_mul_of_nonneg_left (le_max_right x y) (sub_nonneg.2 h1)]
  · rcases max_choice x y with e | e <;> rw [e] <;> assumption

theorem le_ereal_mix {a x y : ℝ} {b : EReal} (h0 : 0 ≤ a) (h1 : a ≤ 1) (hx : b ≤ (x : EReal)) (hy : b ≤ (y : EReal)) :
    b ≤ ((a * x + (1 - a) * y : ℝ) : EReal) := by
  refine le_trans (b := ((min x y : ℝ) : EReal)) ?_ (EReal.coe_le_coe_iff.2 ?_)
  · rcases min_choice x y with e | e <;> rw [e] <;> assumption
  · nlinarith [mul_le_mul_of_nonneg_left (min_le_left x y) h0,
      mul_le_mul_of_nonneg_left (min_le_right x y) (sub_nonneg.2 h1)]

/-- Mixtures of admissible portfolios are admissible. -/
theorem Admissible.mix (hc : ConvexCons U cfg upar) {u u' : ℕ → ℝ} {a : ℝ} (h0 : 0 ≤ a) (h1 : a ≤ 1)
    (h : Admissible U cfg upar mn w u) (h' : Admissible U cfg upar mn w' u') :
    Admissible U cfg upar mn (mix a w w') fun k => a * u k + (1 - a) * u' k := by
  refine ⟨?_, fun x hx => ?_, ?_⟩
  · have k := h.within
    have k' := h'.within
    unfold Within at k k' ⊢
    split at k
    · rw [if_pos (by assumption)] at k' ⊢
      intro i
      have := k i
      have := k' i
      constructor <;> simp only [Verif.Convex.mix] <;> nlinarith
    · rw [if_neg (by assumption)] at k' ⊢
      intro i
      exact ⟨le_ereal_mix h0 h1 (k i).1 (k' i).1, ereal_mix_le h0 h1 (k i).2 (k' i).2⟩
  · have k := h.cons x hx
    have k' := h'.cons x hx
    cases x with
    | usr i => exact hc i hx w w' u u' a h0 h1 k k'
    | sector sec nm up b =>
      have e : ∑ i with sec i = nm, Verif.Convex.mix a w w' i =
          a * ∑ i with sec i = nm, w i + (1 - a) * ∑ i with sec i = nm, w' i := by
        rw [Finset.mul_sum, Finset.mul_sum, ← Finset.sum_add_distrib]; rfl
      cases up with
      | true =>
        have k : ∑ i with sec i = nm, w i ≤ b := k
        have k' : ∑ i with sec i = nm, w' i ≤ b := k'
        show ∑ i with sec i = nm, Verif.Convex.mix a w w' i ≤ b
        rw [e]; nlinarith
      | false =>
        have k : b ≤ ∑ i with sec i = nm, w i := k
        have k' : b ≤ ∑ i with sec i = nm, w' i := k'
        show b ≤ ∑ i with sec i = nm, Verif.Convex.mix a w w' i
        rw [e]; nlinarith
  · have e : ∑ i, Verif.Convex.mix a w w' i = a * ∑ i, w i + (1 - a) * ∑ i, w' i := by
      rw [Finset.mul_sum, Finset.mul_sum, ← Finset.sum_add_distrib]; rfl
    rw [e, h.sum, h'.sum]
    ring

/-- **C73**, target returns between two others: the risk is at most the corresponding mixture. -/
theorem C73_return_convex (hU : Usable U D) (hobj : cfg.objs = []) (hc : ConvexCons U cfg upar) (hD : Sound D mn)
    (hmu : D.mu = some mu) {f f' f'' : Bool} {t t' a : ℝ} (h0 : 0 ≤ a) (h1 : a ≤ 1) {w'' : Fin n → ℝ}
    (h : Got U D cfg upar (.efficientReturn f t mn) w) (h' : Got U D cfg upar (.efficientReturn f' t' mn) w')
    (h'' : Got U D cfg upar (.efficientReturn f'' (a * t + (1 - a) * t') mn) w'') :
    risk D w'' ≤ a * risk D w + (1 - a) * risk D w' + 2 * riskSlack D := by
  obtain ⟨s, u, hr, hb⟩ := h.target_return hU hobj hD hmu
  obtain ⟨s', u', hr', hb'⟩ := h'.target_return hU hobj hD hmu
  obtain ⟨s'', u'', hr'', hb''⟩ := h''.target_return hU hobj hD hmu
  have k1 := (abs_le.1 (hr.risk hU hD)).1
  have k2 := (abs_le.1 (hr'.risk hU hD)).1
  have k3 := (abs_le.1 (hr''.risk hU hD)).2
  have m1 := hb.meets
  have m2 := hb'.meets
  have k4 := hb''.le hobj (hb.adm.mix hc h0 h1 hb'.adm) (by
    show _ ≤ _ ⬝ᵥ mu
    rw [dotProduct_comm, dot_mix, dotProduct_comm mu, dotProduct_comm mu]
    nlinarith [mul_le_mul_of_nonneg_left m1 h0, mul_le_mul_of_nonneg_left m2 (sub_nonneg.2 h1)])
  have k5 := k4.trans (risk_mix hU hD h0 h1 s s')
  nlinarith [mul_le_mul_of_nonneg_left k1 h0, mul_le_mul_of_nonneg_left k2 (sub_nonneg.2 h1)]

/-- **C73**, target risks between two others: the return is at least the corresponding mixture. -/
theorem C73_risk_concave (hU : Usable U D) (hobj : cfg.objs = []) (hc : ConvexCons U cfg upar) (hD : Sound D mn)
    (hmu : D.mu = some mu) {t t' a : ℝ} (ht : 0 ≤ t) (ht' : 0 ≤ t') (h0 : 0 ≤ a) (h1 : a ≤ 1) {w'' : Fin n → ℝ}
    (h : Got U D cfg upar (.efficientRisk t mn) w) (h' : Got U D cfg upar (.efficientRisk t' mn) w')
    (h'' : Got U D cfg upar (.efficientRisk (a * t + (1 - a) * t') mn) w'') :
    a * (w ⬝ᵥ mu) + (1 - a) * (w' ⬝ᵥ mu) ≤ w'' ⬝ᵥ mu + 2 * retSlack mu := by
  obtain ⟨s, u, hr, hb⟩ := h.target_risk hU hD ht hmu
  obtain ⟨s', u', hr', hb'⟩ := h'.target_risk hU hD ht' hmu
  obtain ⟨s'', u'', hr'', hb''⟩ := h''.target_risk hU hD
    (add_nonneg (mul_nonneg h0 ht) (mul_nonneg (sub_nonneg.2 h1) ht')) hmu
  have k1 := (abs_le.1 (hr.ret mu)).2
  have k2 := (abs_le.1 (hr'.ret mu)).2
  have k3 := (abs_le.1 (hr''.ret mu)).1
  have m1 : risk D s ≤ t := hb.meets
  have m2 : risk D s' ≤ t' := hb'.meets
  have k4 := hb''.le hobj (hb.adm.mix hc h0 h1 hb'.adm) (by
    refine (risk_mix hU hD h0 h1 s s').trans ?_
    nlinarith [mul_le_mul_of_nonneg_left m1 h0, mul_le_mul_of_nonneg_left m2 (sub_nonneg.2 h1)])
  rw [dotProduct_comm (Verif.Convex.mix _ _ _), dot_mix, dotProduct_comm mu, dotProduct_comm mu] at k4
  nlinarith [mul_le_mul_of_nonneg_left k1 h0, mul_le_mul_of_nonneg_left k2 (sub_nonneg.2 h1)]

end Verif.Convex
