import Verif.Props.Agreement

/-!
Property C75: with a positive definite covariance and convex constraints, `EfficientFrontier` has one answer.  It does
not depend on the solver, on the history of the object, on the order of the assets or on units.
-/

noncomputable section

namespace Verif.Convex
open Verif.Py Verif.Base Matrix

variable {n : ℕ} {U U' : Uni n} {D D' : Data n} {cfg cfg' : Cfg n} {upar upar' : ℕ → ℝ} {mn : Bool}
  {w w' s s' : Fin n → ℝ} {mu : Fin n → ℝ} {π : Equiv.Perm (Fin n)} {c k : ℝ}

/-! ### Strict convexity -/

theorem quad_mid {M : Matrix (Fin n) (Fin n) ℝ} (hs : Mᵀ = M) (x y : Fin n → ℝ) :
    mix (1 / 2) x y ⬝ᵥ M *ᵥ mix (1 / 2) x y =
      (x ⬝ᵥ M *ᵥ x + y ⬝ᵥ M *ᵥ y) / 2 - (x - y) ⬝ᵥ M *ᵥ (x - y) / 4 := by
  have e1 : mix (1 / 2) x y = y + (1 / 2 : ℝ) • (x - y) := by
    funext i; simp [mix]; ring
  have e2 : x ⬝ᵥ M *ᵥ x = (y + (1 : ℝ) • (x - y)) ⬝ᵥ M *ᵥ (y + (1 : ℝ) • (x - y)) := by simp
  rw [e2, e1, quad_add hs, quad_add hs]
  ring

theorem eq_of_quad {M : Matrix (Fin n) (Fin n) ℝ} (hM : M.PosDef) {x y : Fin n → ℝ}
    (h : (x - y) ⬝ᵥ M *ᵥ (x - y) ≤ 0) : x = y := by
  by_contra hne
  have := hM.dotProduct_mulVec_pos (sub_ne_zero.2 hne)
  simp only [star_trivial] at this
  linarith

/-- At most one admissible portfolio minimises variance plus something linear, under a convex requirement. -/
theorem best_unique (hobj : cfg.objs = []) (hc : ConvexCons U cfg upar) (hM : D.cov.PosDef) {req : (Fin n → ℝ) → Prop}
    (hreq : ∀ x y, req x → req y → req (mix (1 / 2) x y)) {a : ℝ} (ha : 0 < a) {v : Fin n → ℝ} {u u' : ℕ → ℝ}
    (h : Best U cfg upar mn req (fun w => v ⬝ᵥ w + a * (w ⬝ᵥ D.cov *ᵥ w)) s u)
    (h' : Best U cfg upar mn req (fun w => v ⬝ᵥ w + a * (w ⬝ᵥ D.cov *ᵥ w)) s' u') : s = s' := by
  have hsym := Verif.Risk.psd_symm hM.posSemidef
  have k := h.le hobj (h.adm.mix hc (a := 1 / 2) (by norm_num) (by norm_num) h'.adm) (hreq _ _ h.meets h'.meets)
  have k' := h'.le hobj (h.adm.mix hc (a := 1 / 2) (by norm_num) (by norm_num) h'.adm) (hreq _ _ h.meets h'.meets)
  rw [quad_mid hsym, dot_mix] at k k'
  refine eq_of_quad hM ?_
  by_contra hlt
  rw [not_le] at hlt
  have := mul_pos ha hlt
  nlinarith

/-! ### Reordering and rescaling -/

theorem quad_restated (h : Restated π c k D D') (x : Fin n → ℝ) :
    (fun i => x (π i)) ⬝ᵥ D'.cov *ᵥ (fun i => x (π i)) = c * (x ⬝ᵥ D.cov *ᵥ x) := by
  simp only [dotProduct, mulVec, h.cov, Finset.mul_sum]
  rw [← Equiv.sum_comp π fun i => ∑ j, c * (x i * (D.cov i j * x j))]
  refine Finset.sum_congr rfl fun i _ => ?_
  rw [← Equiv.sum_comp π fun j => c * (x (π i) * (D.cov (π i) j * x j))]
  exact Finset.sum_congr rfl fun j _ => by ring

theorem dot_restated (x m : Fin n → ℝ) : (fun i => x (π i)) ⬝ᵥ (fun i => k * m (π i)) = k * (x ⬝ᵥ m) := by
  simp only [dotProduct, Finset.mul_sum]
  rw [← Equiv.sum_comp π fun i => k * (x i * m i)]
  exact Finset.sum_congr rfl fun i _ => by ring

/-- A best portfolio of restated data, read in the original order. -/
theorem Best.restated (hobj' : cfg'.objs = []) (hobj : cfg.objs = []) (hch : SameChoice π mn U cfg upar U' cfg' upar')
    {req req' : (Fin n → ℝ) → Prop} {f f' : (Fin n → ℝ) → ℝ} (hr : ∀ x, req x ↔ req' fun i => x (π i)) {a : ℝ}
    (ha : 0 < a) (hf : ∀ x, f' (fun i => x (π i)) = a * f x) {u' : ℕ → ℝ}
    (h : Best U' cfg' upar' mn req' f' s' u') : ∃ u, Best U cfg upar mn req f (fun i => s' (π.symm i)) u := by
  have e : (fun i => (fun i => s' (π.symm i)) (π i)) = s' := by funext i; simp
  obtain ⟨u, hu⟩ := (hch fun i => s' (π.symm i)).2 ⟨u', by rw [e]; exact h.adm⟩
  refine ⟨u, hu, (hr _).2 (by rw [e]; exact h.meets), fun x y hx hq => ?_⟩
  obtain ⟨y', hy'⟩ := (hch x).1 ⟨y, hx⟩
  have k1 := h.le hobj' hy' ((hr x).1 hq)
  have k2 := hf fun i => s' (π.symm i)
  rw [e] at k2
  rw [hf, k2] at k1
  have k3 := le_of_mul_le_mul_left k1 ha
  simpa [total, hobj] using k3

/-- The unrounded answer of a call. -/
theorem Got.solved (hU : Usable U D) {q : Call n} (hc : Asks mn q) (h : Got U D cfg upar q w) :
    ∃ v a s x, ask D v q = some a ∧ w = round16 s.w ∧ IsOpt (doc U cfg upar a) s x := by
  obtain ⟨S, W, j, o, hW, hj, rfl, hw, hS⟩ := h
  exact solved_call hU hW hj (c := q) (by rintro m b rfl; exact hc) (by rintro r b rfl; exact hc)
    (by rintro r rfl; exact hc) hw hS

theorem Got.minVolatility (hU : Usable U D) (h : Got U D cfg upar .minVolatility w) :
    ∃ s u, w = round16 s ∧ Best U cfg upar false (fun _ => True) (fun w => w ⬝ᵥ D.cov *ᵥ w) s u := by
  obtain ⟨v, a, s, x, hq, rfl, ho⟩ := h.solved hU (mn := false) (by exact rfl)
  simp only [ask] at hq
  split at hq <;> cases hq
  exact ⟨s.w, s.usr, rfl, best_of_opt ho (fun _ => Iff.rfl) (fun _ => rfl)⟩

theorem Got.efficientReturn (hU : Usable U D) (hk : D.kind = .ef) (hmu : D.mu = some mu) {f : Bool} {t : ℝ}
    (h : Got U D cfg upar (.efficientReturn f t mn) w) :
    ∃ s u, w = round16 s ∧ Best U cfg upar mn (fun w => t ≤ w ⬝ᵥ mu) (fun w => w ⬝ᵥ D.cov *ᵥ w) s u := by
  obtain ⟨v, a, s, x, hq, rfl, ho⟩ := h.solved hU (mn := mn) (by exact rfl)
  simp only [ask, hk, hmu] at hq
  cases hq
  exact ⟨s.w, s.usr, rfl, best_of_opt ho (fun _ => Iff.rfl) (fun _ => rfl)⟩

theorem Got.maxUtility (hU : Usable U D) (hk : D.kind = .ef) (hmu : D.mu = some mu) {r : ℝ}
    (h : Got U D cfg upar (.maxUtility r mn) w) :
    ∃ s u, w = round16 s ∧
      Best U cfg upar mn (fun _ => True) (fun w => -(w ⬝ᵥ mu - r / 2 * (w ⬝ᵥ D.cov *ᵥ w))) s u := by
  obtain ⟨v, a, s, x, hq, rfl, ho⟩ := h.solved hU (mn := mn) (by exact rfl)
  simp only [ask, hk, hmu] at hq
  cases hq
  exact ⟨s.w, s.usr, rfl, best_of_opt ho (fun _ => Iff.rfl) (fun _ => rfl)⟩

theorem Got.maxSharpe (hU : Usable U D) (hobj : cfg.objs = []) (hlb : ∀ i, ∃ l : ℝ, cfg.lb i = l)
    (hc : ∀ i, Added.usr i ∈ cfg.cons → Scalable upar (U.con i)) (hmu : D.mu = some mu) {rf : ℝ}
    (h : Got U D cfg upar (.maxSharpe rf) w) :
    ∃ s u, w = round16 s ∧ Admissible U cfg upar false s u ∧ rf < s ⬝ᵥ mu ∧
      ∀ x y, Admissible U cfg upar false x y → (x ⬝ᵥ mu - rf) * vol D.cov s ≤ (s ⬝ᵥ mu - rf) * vol D.cov x := by
  obtain ⟨S, W, j, o, hW, hj, rfl, hw, hS⟩ := h
  obtain ⟨-, pre, P, f, s, x, -, h2, h3, h4, h5⟩ :=
    C39_weights_documented_partial hU hW hj (c := .maxSharpe rf) nofun (.inr nofun) hw
  have hR := hS (W.heap.log ++ pre).length P (by rw [List.length_append]; exact Nat.le_add_right _ _)
    (by rw [h3]; simp)
  rw [h4] at hR
  cases h2 with
  | ask v q hq => cases hq
  | sharpe rf' mu' v hcall hk hmu' =>
    cases hcall
    cases hmu'.symm.trans hmu
    obtain ⟨-, a2, a3, a4⟩ := sharpe_opt hobj hlb hc hR
    exact ⟨fun i => s.w i / s.lib v 0, _, h5, a2, a3, a4⟩
  | convex i b b' hcall => cases hcall

/-- At most one admissible portfolio has the greatest Sharpe ratio. -/
theorem sharpe_unique (hc : ConvexCons U cfg upar) (hM : D.cov.PosDef) {rf : ℝ} {u u' : ℕ → ℝ}
    (hA : Admissible U cfg upar false s u) (hA' : Admissible U cfg upar false s' u') (he : rf < s ⬝ᵥ mu)
    (he' : rf < s' ⬝ᵥ mu)
    (hb : ∀ x y, Admissible U cfg upar false x y → (x ⬝ᵥ mu - rf) * vol D.cov s ≤ (s ⬝ᵥ mu - rf) * vol D.cov x)
    (hb' : ∀ x y, Admissible U cfg upar false x y → (x ⬝ᵥ mu - rf) * vol D.cov s' ≤ (s' ⬝ᵥ mu - rf) * vol D.cov x) :
    s = s' := by
  have hsym := Verif.Risk.psd_symm hM.posSemidef
  have hpsd : ∀ x : Fin n → ℝ, 0 ≤ x ⬝ᵥ D.cov *ᵥ x := fun x => by
    simpa using hM.posSemidef.dotProduct_mulVec_nonneg x
  have k1 := hb _ _ hA'
  have k2 := hb' _ _ hA
  have k3 := hb _ _ (hA.mix hc (a := 1 / 2) (by norm_num) (by norm_num) hA')
  rw [dotProduct_comm (mix _ _ _), dot_mix, dotProduct_comm mu, dotProduct_comm mu] at k3
  set e := s ⬝ᵥ mu - rf with he0
  set e' := s' ⬝ᵥ mu - rf with he0'
  have p1 : 0 < e := by linarith
  have p2 : 0 < e' := by linarith
  have q1 : vol D.cov s ^ 2 = s ⬝ᵥ D.cov *ᵥ s := Real.sq_sqrt (hpsd _)
  have q2 : vol D.cov s' ^ 2 = s' ⬝ᵥ D.cov *ᵥ s' := Real.sq_sqrt (hpsd _)
  have q3 : vol D.cov (mix (1 / 2) s s') ^ 2 = _ := Real.sq_sqrt (hpsd _)
  have n1 : 0 ≤ vol D.cov s := Real.sqrt_nonneg _
  have n2 : 0 ≤ vol D.cov s' := Real.sqrt_nonneg _
  have n3 : 0 ≤ vol D.cov (mix (1 / 2) s s') := Real.sqrt_nonneg _
  have k4 : e * (vol D.cov s + vol D.cov s') ≤ e * (2 * vol D.cov (mix (1 / 2) s s')) := by
    have : 1 / 2 * (s ⬝ᵥ mu) + (1 - 1 / 2) * (s' ⬝ᵥ mu) - rf = (e + e') / 2 := by rw [he0, he0']; ring
    rw [this] at k3
    nlinarith
  have k5 := le_of_mul_le_mul_left k4 p1
  have k6 : (vol D.cov s + vol D.cov s') ^ 2 ≤ (2 * vol D.cov (mix (1 / 2) s s')) ^ 2 :=
    pow_le_pow_left₀ (by positivity) k5 2
  have c1 : s' ⬝ᵥ D.cov *ᵥ s = s ⬝ᵥ D.cov *ᵥ s' := by
    rw [dotProduct_mulVec, ← mulVec_transpose, hsym, dotProduct_comm]
  rw [mul_pow, q3] at k6
  have e1 : mix (1 / 2) s s' ⬝ᵥ D.cov *ᵥ mix (1 / 2) s s' =
      (s ⬝ᵥ D.cov *ᵥ s + s' ⬝ᵥ D.cov *ᵥ s' + 2 * (s ⬝ᵥ D.cov *ᵥ s')) / 4 := by
    rw [quad_mid hsym]
    simp only [sub_dotProduct, mulVec_sub, dotProduct_sub, c1]
    ring
  have k7 : vol D.cov s * vol D.cov s' ≤ s ⬝ᵥ D.cov *ᵥ s' := by
    rw [e1] at k6
    nlinarith
  have k8 : e' • s = e • s' := by
    refine eq_of_quad hM ?_
    have : (e' • s - e • s') ⬝ᵥ D.cov *ᵥ (e' • s - e • s') =
        e' ^ 2 * (s ⬝ᵥ D.cov *ᵥ s) + e ^ 2 * (s' ⬝ᵥ D.cov *ᵥ s') - 2 * (e * e') * (s ⬝ᵥ D.cov *ᵥ s') := by
      simp only [sub_dotProduct, mulVec_sub, dotProduct_sub, mulVec_smul, smul_dotProduct, dotProduct_smul, smul_eq_mul, c1]
      ring
    rw [this, ← q1, ← q2]
    have h0 : e' * vol D.cov s = e * vol D.cov s' := le_antisymm k1 k2
    have h1 := mul_le_mul_of_nonneg_left k7 (by positivity : 0 ≤ 2 * (e * e'))
    have h2 : (e' * vol D.cov s - e * vol D.cov s') ^ 2 = 0 := by rw [h0]; ring
    nlinarith
  have k9 : e' = e := by
    have := congrArg (fun x : Fin n → ℝ => ∑ i, x i) k8
    simpa [← Finset.mul_sum, hA.sum, hA'.sum] using this
  rw [k9] at k8
  exact smul_right_injective _ p1.ne' k8

theorem round16_reordered (h : s = fun i => s' (π.symm i)) : round16 s' = fun i => round16 s (π i) := by
  subst h
  funext i
  simp [round16]

/-! ### The same choice -/

/-- Bounds and sector constraints restated in another order admit the same portfolios. -/
theorem sameChoice_reorder (hno : ∀ i, Added.usr i ∉ cfg.cons) :
    SameChoice π mn U cfg upar U'
      { lb := fun i => cfg.lb (π i), ub := fun i => cfg.ub (π i), objs := cfg'.objs, cons := cfg.cons.map (·.reorder π) }
      upar' := by
  have key : ∀ (sec : Fin n → Option String) nm (w : Fin n → ℝ),
      (∑ i with sec (π i) = nm, w (π i)) = ∑ i with sec i = nm, w i := by
    intro sec nm w
    rw [Finset.sum_filter, Finset.sum_filter, ← Equiv.sum_comp π fun i => if sec i = nm then w i else 0]
  have hw : ∀ w, Within cfg mn w ↔ Within (n := n)
      { lb := fun i => cfg.lb (π i), ub := fun i => cfg.ub (π i), objs := cfg'.objs, cons := cfg.cons.map (·.reorder π) }
      mn fun i => w (π i) := by
    intro w
    have e : ∀ P : Fin n → Prop, (∀ i, P (π i)) ↔ ∀ i, P i := fun P => π.forall_congr_right (q := P)
    unfold Within
    simp only
    simp only [e fun i => 0 ≤ cfg.lb i, e fun i => -1 ≤ w i ∧ w i ≤ 1,
      e fun i => cfg.lb i ≤ (w i : EReal) ∧ (w i : EReal) ≤ cfg.ub i]
  have hs : ∀ w : Fin n → ℝ, ∑ i, w (π i) = ∑ i, (w i : ℝ) := fun w => Equiv.sum_comp π w
  have hc : ∀ x ∈ cfg.cons, ∀ w u u', x.holds U upar ⟨w, u, fun _ _ => 0⟩ ↔
      (x.reorder π).holds U' upar' ⟨fun i => w (π i), u', fun _ _ => 0⟩ := by
    intro x hx w u u'
    cases x with
    | usr i => exact absurd hx (hno i)
    | sector sec nm up b =>
      cases up <;> simp only [Added.holds, Added.reorder] <;> rw [key sec nm w]
  intro w
  constructor
  · rintro ⟨u, h1, h2, h3⟩
    refine ⟨u, (hw w).1 h1, fun x hx => ?_, (hs w).trans h3⟩
    obtain ⟨y, hy, rfl⟩ := List.mem_map.1 hx
    exact (hc y hy w u u).1 (h2 y hy)
  · rintro ⟨u, h1, h2, h3⟩
    exact ⟨u, (hw w).2 h1, fun x hx => (hc x hx w u u).2 (h2 _ (List.mem_map_of_mem hx)), (hs w).symm.trans h3⟩

section main
variable (hU : Usable U D) (hU' : Usable U' D') (hobj : cfg.objs = []) (hobj' : cfg'.objs = [])
  (hc : ConvexCons U cfg upar) (hM : D.cov.PosDef) (hc0 : 0 < c) (hk0 : 0 < k) (hR : Restated π c k D D')
include hU hU' hobj hobj' hc hM hc0 hR

/-- **C75**, `min_volatility`. -/
theorem C75_min_volatility (hch : SameChoice π false U cfg upar U' cfg' upar')
    (h : Got U D cfg upar .minVolatility w) (h' : Got U' D' cfg' upar' .minVolatility w') :
    w' = fun i => w (π i) := by
  obtain ⟨s, u, rfl, hb⟩ := h.minVolatility hU
  obtain ⟨s', u', rfl, hb'⟩ := h'.minVolatility hU'
  obtain ⟨u'', hb''⟩ := hb'.restated (f := fun w => w ⬝ᵥ D.cov *ᵥ w) hobj' hobj hch (req := fun _ => True)
    (fun _ => Iff.rfl) hc0 (quad_restated hR)
  refine round16_reordered (best_unique (a := 1) (v := 0) hobj hc hM (fun _ _ _ _ => trivial) one_pos
    (hb.congr (fun _ _ => Iff.rfl) fun x _ => ?_) (hb''.congr (fun _ _ => Iff.rfl) fun x _ => ?_)) <;> simp

include hk0

/-- **C75**, `efficient_return`: the target is in the unit of the returns. -/
theorem C75_efficient_return (hch : SameChoice π mn U cfg upar U' cfg' upar') (hmu : D.mu = some mu) {f f' : Bool} {t : ℝ}
    (h : Got U D cfg upar (.efficientReturn f t mn) w) (h' : Got U' D' cfg' upar' (.efficientReturn f' (k * t) mn) w') :
    w' = fun i => w (π i) := by
  have hmu' : D'.mu = some fun i => k * mu (π i) := by rw [hR.mu, hmu]; rfl
  obtain ⟨s, u, rfl, hb⟩ := h.efficientReturn hU hR.kind.1 hmu
  obtain ⟨s', u', rfl, hb'⟩ := h'.efficientReturn hU' hR.kind.2 hmu'
  obtain ⟨u'', hb''⟩ := hb'.restated (f := fun w => w ⬝ᵥ D.cov *ᵥ w) hobj' hobj hch (req := fun w => t ≤ w ⬝ᵥ mu)
    (fun x => by rw [dot_restated, mul_le_mul_iff_right₀ hk0]) hc0 (quad_restated hR)
  refine round16_reordered (best_unique (a := 1) (v := 0) (req := fun w => t ≤ w ⬝ᵥ mu) hobj hc hM (fun x y hx hy => ?_)
    one_pos (hb.congr (fun _ _ => Iff.rfl) fun x _ => ?_) (hb''.congr (fun _ _ => Iff.rfl) fun x _ => ?_))
  · rw [dotProduct_comm] at hx hy ⊢
    rw [dot_mix]
    linarith
  · simp
  · simp

/-- **C75**, `max_quadratic_utility`: the risk aversion is in the unit of returns per covariance. -/
theorem C75_max_quadratic_utility (hch : SameChoice π mn U cfg upar U' cfg' upar') (hmu : D.mu = some mu) {r : ℝ}
    (hD : Sound D mn) (h : Got U D cfg upar (.maxUtility r mn) w)
    (h' : Got U' D' cfg' upar' (.maxUtility (k / c * r) mn) w') : w' = fun i => w (π i) := by
  have hr := (h.utility hU hobj hD hmu).1
  have hmu' : D'.mu = some fun i => k * mu (π i) := by rw [hR.mu, hmu]; rfl
  obtain ⟨s, u, rfl, hb⟩ := h.maxUtility hU hR.kind.1 hmu
  obtain ⟨s', u', rfl, hb'⟩ := h'.maxUtility hU' hR.kind.2 hmu'
  obtain ⟨u'', hb''⟩ := hb'.restated (f := fun w => -(w ⬝ᵥ mu - r / 2 * (w ⬝ᵥ D.cov *ᵥ w))) hobj' hobj hch
    (req := fun _ => True) (fun _ => Iff.rfl) hk0 (fun x => by
      rw [dot_restated, quad_restated hR]
      field_simp)
  refine round16_reordered (best_unique (a := r / 2) (v := -mu) hobj hc hM (fun _ _ _ _ => trivial) (by positivity)
    (hb.congr (fun _ _ => Iff.rfl) fun x _ => ?_) (hb''.congr (fun _ _ => Iff.rfl) fun x _ => ?_)) <;>
  · rw [neg_dotProduct, dotProduct_comm mu]
    ring

/-- **C75**, `max_sharpe`: the risk-free rate is in the unit of the returns. -/
theorem C75_max_sharpe_partial (hch : SameChoice π false U cfg upar U' cfg' upar') (hmu : D.mu = some mu) {rf : ℝ}
    (hlb : ∀ i, ∃ l : ℝ, cfg.lb i = l) (hlb' : ∀ i, ∃ l : ℝ, cfg'.lb i = l)
    (hs : ∀ i, Added.usr i ∈ cfg.cons → Scalable upar (U.con i))
    (hs' : ∀ i, Added.usr i ∈ cfg'.cons → Scalable upar' (U'.con i))
    (h : Got U D cfg upar (.maxSharpe rf) w) (h' : Got U' D' cfg' upar' (.maxSharpe (k * rf)) w') :
    w' = fun i => w (π i) := by
  have hmu' : D'.mu = some fun i => k * mu (π i) := by rw [hR.mu, hmu]; rfl
  obtain ⟨s, u, rfl, hA, he, hb⟩ := h.maxSharpe hU hobj hlb hs hmu
  obtain ⟨s', u', rfl, hA', he', hb'⟩ := h'.maxSharpe hU' hobj' hlb' hs' hmu'
  have e : (fun i => (fun i => s' (π.symm i)) (π i)) = s' := by funext i; simp
  obtain ⟨u'', hA''⟩ := (hch fun i => s' (π.symm i)).2 ⟨u', by rw [e]; exact hA'⟩
  have hv : ∀ x : Fin n → ℝ, vol D'.cov (fun i => x (π i)) = Real.sqrt c * vol D.cov x := fun x => by
    unfold vol
    rw [quad_restated hR, Real.sqrt_mul hc0.le]
  have d1 := dot_restated (π := π) (k := k) (fun i => s' (π.symm i)) mu
  rw [e] at d1
  refine round16_reordered (sharpe_unique hc hM hA hA'' he ?_ hb fun x y hx => ?_)
  · rw [d1] at he'
    exact lt_of_mul_lt_mul_left he' hk0.le
  · obtain ⟨y', hy'⟩ := (hch x).1 ⟨y, hx⟩
    have k1 := hb' _ _ hy'
    have d2 := hv fun i => s' (π.symm i)
    rw [e] at d2
    rw [dot_restated, hv, d1, d2] at k1
    refine le_of_mul_le_mul_left (a := k * Real.sqrt c) ?_ (mul_pos hk0 (Real.sqrt_pos.2 hc0))
    linarith

end main

end Verif.Convex
