import Verif.Props.Tradeoffs

/-! Property C74: the optimisation methods agree with each other. -/

noncomputable section

namespace Verif.Convex
open Verif.Py Verif.Base Matrix

variable {n : ℕ} {U : Uni n} {D : Data n} {cfg : Cfg n} {upar : ℕ → ℝ} {mn : Bool} {w w' s s' : Fin n → ℝ}
  {mu : Fin n → ℝ}

/-- Whatever a call optimises, its portfolio is admissible before rounding. -/
theorem Got.admissible (hU : Usable U D) {c : Call n} (hc : Asks mn c) (h : Got U D cfg upar c w) :
    ∃ s usr, Rounded w s ∧ Admissible U cfg upar mn s usr := by
  obtain ⟨S, W, j, o, hW, hj, rfl, hw, hS⟩ := h
  obtain ⟨v, q, s, x, hq, rfl, ho⟩ := solved_call hU hW hj (c := c) (by rintro m b rfl; exact hc)
    (by rintro r b rfl; exact hc) (by rintro r rfl; exact hc) hw hS
  have hm : q.mn = mn := by
    cases c <;> simp only [Asks] at hc <;> (try exact hc.elim) <;> subst hc <;> simp only [ask] at hq <;>
      split at hq <;> cases hq <;> rfl
  obtain ⟨⟨h1, h2, h3, -⟩, -, -⟩ := ho
  rw [hm] at h1 h3
  exact ⟨s.w, s.usr, round16_rounded _, h1, fun a ha => (holds_lib a _ _ _ _).1 (h2 a ha), h3⟩

/-- **C74**, least risk: no method returns a portfolio of less risk than the method that minimises it. -/
theorem C74_least_risk (hU : Usable U D) (hobj : cfg.objs = []) (hD : Sound D mn) (hmu : D.mu = some mu)
    {c c' : Call n} (hc : LeastRisk D mn c) (hc' : Asks mn c') (h : Got U D cfg upar c w)
    (h' : Got U D cfg upar c' w') : risk D w ≤ risk D w' + 2 * riskSlack D := by
  obtain ⟨s, u, hr, hb⟩ := h.least hU hobj hD hc hmu
  obtain ⟨s', u', hr', ha⟩ := h'.admissible hU hc'
  have h1 := (abs_le.1 (hr.risk hU hD)).2
  have h2 := (abs_le.1 (hr'.risk hU hD)).1
  have h3 := hb.le hobj ha trivial
  linarith

/-- **C74**, least risk: a target return that the portfolio of least risk reaches costs no risk. -/
theorem C74_slack_target (hU : Usable U D) (hobj : cfg.objs = []) (hD : Sound D mn) (hmu : D.mu = some mu)
    {c : Call n} (hc : LeastRisk D mn c) {f : Bool} {t : ℝ} (h : Got U D cfg upar c w)
    (h' : Got U D cfg upar (.efficientReturn f t mn) w') (ht : t + retSlack mu ≤ w ⬝ᵥ mu) :
    |risk D w' - risk D w| ≤ 2 * riskSlack D := by
  obtain ⟨s, u, hr, hb⟩ := h.least hU hobj hD hc hmu
  obtain ⟨s', u', hr', hb'⟩ := h'.target_return hU hobj hD hmu
  have h1 := abs_le.1 (hr.risk hU hD)
  have h2 := abs_le.1 (hr'.risk hU hD)
  have h3 := hb.le hobj hb'.adm trivial
  have h4 := hb'.le hobj hb.adm (by
    show t ≤ s ⬝ᵥ mu
    have := (abs_le.1 (hr.ret mu)).2
    linarith)
  rw [abs_le]
  constructor <;> linarith [h1.1, h1.2, h2.1, h2.2]

/-- **C74**, targets: whoever allows the risk that `efficient_return` needs for a return gets that return from
`efficient_risk`. -/
theorem C74_risk_of_return (hU : Usable U D) (hobj : cfg.objs = []) (hD : Sound D mn) (hmu : D.mu = some mu)
    {f : Bool} {t v : ℝ} (hv : 0 ≤ v) (h : Got U D cfg upar (.efficientReturn f t mn) w)
    (h' : Got U D cfg upar (.efficientRisk v mn) w') (hwv : risk D w + riskSlack D ≤ v) :
    t ≤ w' ⬝ᵥ mu + retSlack mu := by
  obtain ⟨s, u, hr, hb⟩ := h.target_return hU hobj hD hmu
  obtain ⟨s', u', hr', hb'⟩ := h'.target_risk hU hD hv hmu
  have h1 := (abs_le.1 (hr.risk hU hD)).1
  have h2 := (abs_le.1 (hr'.ret mu)).1
  have h3 := hb'.le hobj hb.adm (by show risk D s ≤ v; linarith)
  have h4 : t ≤ s ⬝ᵥ mu := hb.meets
  linarith

/-- **C74**, targets: whoever asks `efficient_return` for the return that `efficient_risk` found at a risk is not given
more risk. -/
theorem C74_return_of_risk (hU : Usable U D) (hobj : cfg.objs = []) (hD : Sound D mn) (hmu : D.mu = some mu)
    {f : Bool} {t v : ℝ} (hv : 0 ≤ v) (h : Got U D cfg upar (.efficientRisk v mn) w)
    (h' : Got U D cfg upar (.efficientReturn f t mn) w') (ht : t + retSlack mu ≤ w ⬝ᵥ mu) :
    risk D w' ≤ v + riskSlack D := by
  obtain ⟨s, u, hr, hb⟩ := h.target_risk hU hD hv hmu
  obtain ⟨s', u', hr', hb'⟩ := h'.target_return hU hobj hD hmu
  have h1 := (abs_le.1 (hr.ret mu)).2
  have h2 := (abs_le.1 (hr'.risk hU hD)).2
  have h3 := hb'.le hobj hb.adm (by show t ≤ s ⬝ᵥ mu; linarith)
  have h4 : risk D s ≤ v := hb.meets
  linarith

/-- **C74**, utility: the portfolio of greatest utility lies on the frontier.  Asking `efficient_return` for its return,
or up to `δ` less, gives no more risk, and only so much less as the utility allows for `δ`. -/
theorem C74_utility (hU : Usable U D) (hobj : cfg.objs = []) (hD : Sound D mn) (hmu : D.mu = some mu)
    {f : Bool} {t r δ : ℝ} (h : Got U D cfg upar (.maxUtility r mn) w)
    (h' : Got U D cfg upar (.efficientReturn f t mn) w') (ht : t + retSlack mu ≤ w ⬝ᵥ mu)
    (hδ : w ⬝ᵥ mu + retSlack mu ≤ t + δ) :
    risk D w' ≤ risk D w + 2 * riskSlack D ∧
      ∃ s s', Rounded w s ∧ Rounded w' s' ∧ risk D s' ^ 2 ≤ risk D s ^ 2 ∧
        risk D s ^ 2 ≤ risk D s' ^ 2 + 2 / r * δ := by
  have hk : D.kind = .ef ∨ D.kind = .semi := by
    obtain ⟨S, W, j, o, hW, hj, rfl, hw, hS⟩ := h
    cases hk : D.kind with
    | ef => exact .inl rfl
    | semi => exact .inr rfl
    | cvar => simp only [run, hk] at hw; cases hw
    | cdar => simp only [run, hk] at hw; cases hw
  obtain ⟨p, s, u, hr, hb⟩ := h.utility hU hobj hD hmu
  obtain ⟨s', u', hr', hb'⟩ := h'.target_return hU hobj hD hmu
  have h1 := abs_le.1 (hr.ret mu)
  have h2 := (abs_le.1 (hr'.risk hU hD)).2
  have h3 := (abs_le.1 (hr.risk hU hD)).1
  have h4 := hb'.le hobj hb.adm (by show t ≤ s ⬝ᵥ mu; linarith [h1.2])
  have h5 : t ≤ s' ⬝ᵥ mu := hb'.meets
  have h6 := hb.le hobj hb'.adm trivial
  refine ⟨by linarith, s, s', hr, hr', pow_le_pow_left₀ (risk_nonneg hU hk _) h4 2, ?_⟩
  have h7 : r / 2 * (risk D s ^ 2 - risk D s' ^ 2) ≤ δ := by linarith [h1.1]
  have h8 := mul_le_mul_of_nonneg_left h7 (by positivity : 0 ≤ 2 / r)
  have h9 : 2 / r * (r / 2 * (risk D s ^ 2 - risk D s' ^ 2)) = risk D s ^ 2 - risk D s' ^ 2 := by
    field_simp
  linarith

/-- **C74**, Sharpe ratios: no method returns a portfolio with a greater ratio of excess return to volatility than
`max_sharpe`; `ρ` and `ε` are what rounding may change. -/
theorem C74_sharpe_partial (hU : Usable U D) (hobj : cfg.objs = []) (hD : Sound D false) (hlb : ∀ i, ∃ l : ℝ, cfg.lb i = l)
    (hc : ∀ i, Added.usr i ∈ cfg.cons → Scalable upar (U.con i)) (hmu : D.mu = some mu) {rf : ℝ} {c' : Call n}
    (hc' : Asks false c') (h : Got U D cfg upar (.maxSharpe rf) w) (h' : Got U D cfg upar c' w')
    (hex : rf + retSlack mu ≤ w' ⬝ᵥ mu) :
    (w' ⬝ᵥ mu - rf - retSlack mu) * (vol D.cov w - riskSlack D) ≤
      (w ⬝ᵥ mu - rf + retSlack mu) * (vol D.cov w' + riskSlack D) := by
  obtain ⟨s', u', hr', ha⟩ := h'.admissible hU hc'
  obtain ⟨S, W, j, o, hW, hj, rfl, hw, hS⟩ := h
  have hk : D.kind = .ef := by
    cases hk : D.kind with
    | ef => rfl
    | _ => simp only [run, hk] at hw; cases hw
  obtain ⟨mu', s, u, hm, hr, hA, hpos, hopt⟩ := C43_max_sharpe_partial hU hW hj hobj hlb hc hw hS
  cases hm.symm.trans hmu
  have e : risk D = vol D.cov := by unfold risk; rw [hk]
  have k1 := abs_le.1 (hr.risk hU hD)
  have k2 := abs_le.1 (hr'.risk hU hD)
  have k3 := abs_le.1 (hr.ret mu)
  have k4 := abs_le.1 (hr'.ret mu)
  rw [e] at k1 k2
  have k5 := (hopt s' u' ha).1
  have n1 : 0 ≤ vol D.cov s := Real.sqrt_nonneg _
  have n2 : 0 ≤ vol D.cov s' := Real.sqrt_nonneg _
  calc (w' ⬝ᵥ mu - rf - retSlack mu) * (vol D.cov w - riskSlack D)
      ≤ (w' ⬝ᵥ mu - rf - retSlack mu) * vol D.cov s :=
        mul_le_mul_of_nonneg_left (by linarith [k1.2]) (by linarith)
    _ ≤ (s' ⬝ᵥ mu - rf) * vol D.cov s := mul_le_mul_of_nonneg_right (by linarith [k4.2]) n1
    _ ≤ (s ⬝ᵥ mu - rf) * vol D.cov s' := k5
    _ ≤ (w ⬝ᵥ mu - rf + retSlack mu) * (vol D.cov w' + riskSlack D) :=
        mul_le_mul (by linarith [k3.1]) (by linarith [k2.1]) n2 (by linarith [k3.1])

end Verif.Convex
