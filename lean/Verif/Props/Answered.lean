import Verif.Spec.Answer
import Verif.Props.TradeoffCases
import Verif.Props.SharpeFound
import Mathlib.Analysis.Convex.Continuous

/-!
Property C85: requests that can be met are met.
-/

noncomputable section

namespace Verif.Convex
open Verif.Py Verif.Base Matrix

variable {n : ℕ} {U : Uni n} {S : Solver n} {D : Data n} {cfg : Cfg n} {o : OState n} {upar : ℕ → ℝ} {mn : Bool}
variable {mu : Fin n → ℝ}

/-! ### The allowed portfolios -/

theorem within_closed : IsClosed {w : Fin n → ℝ | Within cfg mn w} := by
  unfold Within
  split
  · simp only [Set.setOf_forall]
    refine isClosed_iInter fun i => ?_
    exact (isClosed_le continuous_const (continuous_apply i)).inter (isClosed_le (continuous_apply i) continuous_const)
  · simp only [Set.setOf_forall]
    refine isClosed_iInter fun i => ?_
    have hc : Continuous fun w : Fin n → ℝ => ((w i : ℝ) : EReal) := continuous_coe_real_ereal.comp (continuous_apply i)
    exact (isClosed_le continuous_const hc).inter (isClosed_le hc continuous_const)

theorem within_box (hf : Finite cfg mn) : ∃ a b : Fin n → ℝ, {w : Fin n → ℝ | Within cfg mn w} ⊆ Set.Icc a b := by
  by_cases h : mn = true ∧ ∀ i, 0 ≤ cfg.lb i
  · refine ⟨fun _ => -1, fun _ => 1, fun w hw => ?_⟩
    simp only [Set.mem_ofPred_eq, Within, if_pos h] at hw
    exact ⟨fun i => (hw i).1, fun i => (hw i).2⟩
  · obtain ⟨lb, ub, h1, h2⟩ := hf.resolve_left h
    refine ⟨lb, ub, fun w hw => ?_⟩
    simp only [Set.mem_ofPred_eq, Within, if_neg h] at hw
    simp only [h1, h2, EReal.coe_le_coe_iff] at hw
    exact ⟨fun i => (hw i).1, fun i => (hw i).2⟩

theorem sector_closed (sec : Fin n → Option String) (nm : Option String) (up : Bool) (b : ℝ) (usr : ℕ → ℝ) (l : ℕ → ℕ → ℝ) :
    IsClosed {w : Fin n → ℝ | (Added.sector sec nm up b).holds U upar ⟨w, usr, l⟩} := by
  have hc : Continuous fun w : Fin n → ℝ => ∑ i with sec i = nm, w i := by fun_prop
  cases up
  · exact isClosed_le continuous_const hc
  · exact isClosed_le hc continuous_const

theorem allowed_eq (hc : ClosedCons U cfg upar) : allowed U cfg upar mn =
    {w | Admissible U cfg upar mn w fun _ => 0} := by
  ext w
  refine ⟨fun ⟨usr, h⟩ => ⟨h.within, fun x hx => ?_, h.sum⟩, fun h => ⟨_, h⟩⟩
  have := h.cons x hx
  cases x with
  | usr i =>
    obtain ⟨C, -, hC⟩ := hc i hx
    exact (hC _ _).2 ((hC _ _).1 this)
  | sector sec nm up b => cases up <;> exact this

theorem allowed_closed (hc : ClosedCons U cfg upar) : IsClosed (allowed U cfg upar mn) := by
  rw [allowed_eq hc]
  have e : {w | Admissible U cfg upar mn w fun _ => 0} = {w | Within cfg mn w} ∩
      ((⋂ x ∈ {x | x ∈ cfg.cons}, {w | x.holds U upar ⟨w, fun _ => 0, fun _ _ => 0⟩}) ∩
        {w | ∑ i, w i = if mn then 0 else 1}) := by
    ext w
    simp only [Set.mem_inter_iff, Set.mem_ofPred_eq, Set.mem_iInter]
    exact ⟨fun h => ⟨h.within, h.cons, h.sum⟩, fun h => ⟨h.1, h.2.1, h.2.2⟩⟩
  rw [e]
  refine within_closed.inter ((isClosed_biInter fun x hx => ?_).inter (isClosed_eq (by fun_prop) continuous_const))
  cases x with
  | usr i =>
    obtain ⟨C, h1, h2⟩ := hc i hx
    have : {w | (Added.usr i).holds U upar ⟨w, fun _ => 0, fun _ _ => 0⟩} = C := by
      ext w
      exact h2 w _
    rw [this]
    exact h1
  | sector sec nm up b => exact sector_closed _ _ _ _ _ _

theorem allowed_compact (hf : Finite cfg mn) (hc : ClosedCons U cfg upar) : IsCompact (allowed U cfg upar mn) := by
  obtain ⟨a, b, h⟩ := within_box hf
  exact isCompact_Icc.of_isClosed_subset (allowed_closed hc) fun w ⟨_, hw⟩ => h hw.within

/-! ### Optima -/

/-- The problem of a call, in terms of a risk represented by variables. -/
structure Shape (D : Data n) (c : Call n) (q : Ask n) : Prop where
  ex : ∃ (R : Asg n → Prop) (ρ : Asg n → ℝ) (f : (Fin n → ℝ) → ℝ) (B : (Fin n → ℝ) → ℝ → ℝ) (Q : (Fin n → ℝ) → ℝ → Prop),
    Rep R ρ f ∧ (∀ s, q.base s = B s.w (ρ s)) ∧ (∀ s, q.extra s ↔ Q s.w (ρ s) ∧ R s) ∧ (∀ w, Monotone (B w)) ∧
    (∀ w a b, a ≤ b → Q w b → Q w a) ∧ (Continuous fun w => B w (f w)) ∧ IsClosed {w | Q w (f w)} ∧
    ∀ w, ∑ i, w i = (if q.mn then 0 else 1) → (Q w (f w) ↔ Meets D c w)

/-- If some allowed portfolio meets the request, there is a best one. -/
theorem Shape.opt {c : Call n} {q : Ask n} (h : Shape D c q) (hA : IsCompact (allowed U cfg upar q.mn))
    (hobj : ContObjs U cfg upar) (hne : ∃ w ∈ allowed U cfg upar q.mn, Meets D c w) :
    ∃ s v, IsOpt (doc U cfg upar q) s v := by
  obtain ⟨R, ρ, f, B, Q, hR, hb, he, hB, hQ, hcont, hcl, hm⟩ := h.ex
  obtain ⟨g, hg, eg⟩ := hobj
  have ob : ∀ s, (doc U cfg upar q).obj s = ((B s.w (ρ s) + g s.w : ℝ) : EReal) := by
    intro s
    rw [EReal.coe_add, ← eg s.w s.usr]
    simp only [doc, hb]
  obtain ⟨w₀, ⟨u₀, a₀⟩, m₀⟩ := hne
  obtain ⟨w, ⟨⟨u, ha⟩, hq⟩, hmin⟩ := (hA.inter_right hcl).exists_isMinOn ⟨w₀, ⟨u₀, a₀⟩, (hm w₀ a₀.sum).2 m₀⟩
    (hcont.add hg).continuousOn
  obtain ⟨lib, hl, e⟩ := hR.eq w u
  refine ⟨⟨w, u, lib⟩, B w (f w) + g w, ⟨ha.within, fun a h => (holds_lib a _ _ _ _).1 (ha.cons a h), ha.sum,
    (he _).2 ⟨by rw [e]; exact hq, hl⟩⟩, by rw [ob, e], fun s hs => ?_⟩
  obtain ⟨h1, h2, h3, h4⟩ := hs
  obtain ⟨hq', hr⟩ := (he s).1 h4
  have hle := hR.le s hr
  have hs : s.w ∈ allowed U cfg upar q.mn := ⟨s.usr, h1, fun a h => (holds_lib a _ _ _ _).1 (h2 a h), h3⟩
  have := hmin ⟨hs, hQ _ _ _ hle hq'⟩
  rw [ob, ob, EReal.coe_le_coe_iff, e]
  have h5 : B w (f w) + g w ≤ B s.w (f s.w) + g s.w := this
  have h6 := hB s.w hle
  linarith

theorem Shape.meets {c : Call n} {q : Ask n} (h : Shape D c q) {s : Asg n} (hs : (doc U cfg upar q).feas s) :
    Admissible U cfg upar q.mn s.w s.usr ∧ Meets D c s.w := by
  obtain ⟨R, ρ, f, B, Q, hR, hb, he, hB, hQ, hcont, hcl, hm⟩ := h.ex
  obtain ⟨h1, h2, h3, h4⟩ := hs
  obtain ⟨hq, hr⟩ := (he s).1 h4
  exact ⟨⟨h1, fun a h => (holds_lib a _ _ _ _).1 (h2 a h), h3⟩, (hm _ h3).1 (hQ _ _ _ (hR.le s hr) hq)⟩

theorem rep_self (f : (Fin n → ℝ) → ℝ) : Rep (fun _ => True) (fun s => f s.w) f :=
  ⟨fun _ _ => le_rfl, fun _ _ => ⟨fun _ _ => 0, trivial, rfl⟩⟩

theorem cont_of_mix {f : (Fin n → ℝ) → ℝ}
    (h : ∀ a w w', 0 ≤ a → a ≤ 1 → f (mix a w w') ≤ a * f w + (1 - a) * f w') : Continuous f := by
  have hc : ConvexOn ℝ Set.univ f := by
    refine ⟨convex_univ, fun x _ y _ a b ha hb hab => ?_⟩
    have e : a • x + b • y = mix a x y := by
      funext i
      simp [mix, ← hab]
    rw [e]
    have := h a x y ha (by linarith)
    rw [show (1 - a : ℝ) = b by linarith] at this
    exact this
  exact continuousOn_univ.1 (hc.continuousOn isOpen_univ)

theorem cont_semivar : Continuous fun w : Fin n → ℝ => semivar (D.bench * ∑ i, w i) (daily D.R w) := by
  unfold semivar daily dotProduct
  fun_prop

theorem risk_cont (hU : Usable U D) (hD : Sound D mn) : Continuous (risk D) :=
  cont_of_mix fun _ w w' h0 h1 => risk_mix hU hD h0 h1 w w'

theorem semi_le {t : ℝ} (h0 : 0 ≤ t) (hb : mn = false ∨ D.bench = 0) (w : Fin n → ℝ)
    (hw : ∑ i, w i = if mn then 0 else 1) :
    D.freq * semivar (D.bench * ∑ i, w i) (daily D.R w) ≤ t ^ 2 ↔ semidev D.freq D.bench (daily D.R w) ≤ t := by
  rw [semi_same hb w hw, semidev, Real.sqrt_le_left h0]

theorem vol_le {t : ℝ} (h0 : 0 ≤ t) (w : Fin n → ℝ) : w ⬝ᵥ D.cov *ᵥ w ≤ t ^ 2 ↔ vol D.cov w ≤ t := by
  rw [vol, Real.sqrt_le_left h0]

/-- Targets of `efficient_risk` are not negative. -/
def NonnegRisk : Call n → Prop
  | .efficientRisk t _ => 0 ≤ t
  | _ => True

theorem shape (hU : Usable U D) (hD : Sound D mn) {c : Call n} (hmn : Asks mn c)
    (hr : NonnegRisk c) (hacc : Accepts D c) {v : ℕ} {q : Ask n} (hq : ask D v c = some q) : q.mn = mn ∧ Shape D c q := by
  have hD' := hD
  unfold Sound at hD
  have hrc := risk_cont hU hD'
  have fin : ∀ mu, D.mu = some mu → ∀ (w : Fin n → ℝ) t f, t ≤ w ⬝ᵥ mu ↔ Meets D (.efficientReturn f t mn) w := by
    intro mu hmu w t f
    refine ⟨fun h mu' e => ?_, fun h => h mu hmu⟩
    rw [hmu] at e
    cases e
    exact h
  cases hk : D.kind with
  | ef =>
    rw [hk] at hD
    cases c with
    | minVolatility =>
      simp only [ask, hk, if_true] at hq
      cases hq
      exact ⟨hmn.symm, ⟨_, _, _, fun _ r => r, fun _ _ => True, rep_self fun w => w ⬝ᵥ D.cov *ᵥ w, fun _ => rfl,
        fun _ => by simp, fun _ _ _ h => h, fun _ _ _ _ h => h, cont_quad _, by simp, fun _ _ => by simp [Meets]⟩⟩
    | maxUtility r m =>
      cases hmu : D.mu with
      | none => simp [ask, hk, hmu] at hq
      | some mu =>
      simp only [ask, hk, hmu] at hq
      cases hq
      exact ⟨hmn.symm, ⟨_, _, _, fun _ r => r, fun _ _ => True,
        rep_self fun w => -(w ⬝ᵥ mu - r / 2 * (w ⬝ᵥ D.cov *ᵥ w)), fun _ => rfl,
        fun _ => by simp, fun _ _ _ h => h, fun _ _ _ _ h => h, ((cont_dot mu).sub ((cont_quad D.cov).const_mul _)).neg,
        by simp, fun _ _ => by simp [Meets]⟩⟩
    | efficientRisk t m =>
      cases hmu : D.mu with
      | none => simp [ask, hk, hmu] at hq
      | some mu =>
      simp only [ask, hk, hmu] at hq
      cases hq
      refine ⟨hmn.symm, ⟨_, _, _, fun w _ => -(w ⬝ᵥ mu), fun _ r => r ≤ t ^ 2, rep_self fun w => w ⬝ᵥ D.cov *ᵥ w,
        fun _ => rfl, fun _ => by simp, fun _ _ _ h => le_rfl, fun _ _ _ h h' => h.trans h', (cont_dot mu).neg,
        isClosed_le (cont_quad _) continuous_const, fun w _ => ?_⟩⟩
      refine (vol_le hr w).trans ?_
      simp only [Meets, risk, hk]
    | efficientReturn f t m =>
      cases hmu : D.mu with
      | none => simp [ask, hk, hmu] at hq
      | some mu =>
      simp only [ask, hk, hmu] at hq
      cases hq
      exact ⟨hmn.symm, ⟨_, _, _, fun _ r => r, fun w _ => t ≤ w ⬝ᵥ mu, rep_self fun w => w ⬝ᵥ D.cov *ᵥ w,
        fun _ => rfl, fun _ => by simp, fun _ _ _ h => h, fun _ _ _ _ h => h, cont_quad _,
        isClosed_le continuous_const (cont_dot mu), fun w _ => fin mu hmu w t f⟩⟩
    | _ => simp [ask, hk] at hq
  | cvar =>
    rw [hk] at hD
    have hT := hU.tail (.inl hk)
    have hrc : Continuous (portCvar D.beta D.R) := by simpa only [risk, hk] using hrc
    have rep := rep_cvar hT hD.1 hD.2
    cases c with
    | minCvar m =>
      simp only [ask, hk, if_true] at hq
      cases hq
      exact ⟨hmn.symm, ⟨_, _, _, fun _ r => r, fun _ _ => True, rep, fun _ => rfl,
        fun _ => by simp, fun _ _ _ h => h, fun _ _ _ _ h => h, hrc, by simp, fun _ _ => by simp [Meets]⟩⟩
    | efficientRisk t m =>
      cases hmu : D.mu with
      | none => simp [ask, hk, hmu] at hq
      | some mu =>
      simp only [ask, hk, hmu] at hq
      cases hq
      refine ⟨hmn.symm, ⟨_, _, _, fun w _ => -(w ⬝ᵥ mu), fun _ r => r ≤ t, rep,
        fun _ => rfl, fun _ => Iff.rfl, fun _ _ _ h => le_rfl, fun _ _ _ h h' => h.trans h', (cont_dot mu).neg,
        isClosed_le hrc continuous_const, fun w _ => ?_⟩⟩
      simp only [Meets, risk, hk]
    | efficientReturn f t m =>
      cases hmu : D.mu with
      | none => simp [ask, hk, hmu] at hq
      | some mu =>
      simp only [ask, hk, hmu] at hq
      cases hq
      exact ⟨hmn.symm, ⟨_, _, _, fun _ r => r, fun w _ => t ≤ w ⬝ᵥ mu, rep,
        fun _ => rfl, fun _ => Iff.rfl, fun _ _ _ h => h, fun _ _ _ _ h => h, hrc,
        isClosed_le continuous_const (cont_dot mu), fun w _ => fin mu hmu w t f⟩⟩
    | _ => simp [ask, hk] at hq
  | cdar =>
    rw [hk] at hD
    have hT := hU.tail (.inr hk)
    have hrc : Continuous (portCdar D.beta D.R) := by simpa only [risk, hk] using hrc
    have rep := rep_cdar hT hD.1 hD.2
    cases c with
    | minCdar m =>
      simp only [ask, hk, if_true] at hq
      cases hq
      exact ⟨hmn.symm, ⟨_, _, _, fun _ r => r, fun _ _ => True, rep, fun _ => rfl,
        fun _ => by simp, fun _ _ _ h => h, fun _ _ _ _ h => h, hrc, by simp, fun _ _ => by simp [Meets]⟩⟩
    | efficientRisk t m =>
      cases hmu : D.mu with
      | none => simp [ask, hk, hmu] at hq
      | some mu =>
      simp only [ask, hk, hmu] at hq
      cases hq
      refine ⟨hmn.symm, ⟨_, _, _, fun w _ => -(w ⬝ᵥ mu), fun _ r => r ≤ t, rep,
        fun _ => rfl, fun _ => Iff.rfl, fun _ _ _ h => le_rfl, fun _ _ _ h h' => h.trans h', (cont_dot mu).neg,
        isClosed_le hrc continuous_const, fun w _ => ?_⟩⟩
      simp only [Meets, risk, hk]
    | efficientReturn f t m =>
      cases hmu : D.mu with
      | none => simp [ask, hk, hmu] at hq
      | some mu =>
      simp only [ask, hk, hmu] at hq
      cases hq
      exact ⟨hmn.symm, ⟨_, _, _, fun _ r => r, fun w _ => t ≤ w ⬝ᵥ mu, rep,
        fun _ => rfl, fun _ => Iff.rfl, fun _ _ _ h => h, fun _ _ _ _ h => h, hrc,
        isClosed_le continuous_const (cont_dot mu), fun w _ => fin mu hmu w t f⟩⟩
    | _ => simp [ask, hk] at hq
  | semi =>
    rw [hk] at hD
    obtain ⟨hT, hf, hb⟩ := hD
    have hsc := cont_semivar (D := D)
    have rep := rep_semi hT v
    cases c with
    | minSemi m =>
      simp only [ask, hk, if_true] at hq
      cases hq
      exact ⟨hmn.symm, ⟨_, _, _, fun _ r => r, fun _ _ => True, rep, fun _ => rfl,
        fun _ => by simp, fun _ _ _ h => h, fun _ _ _ _ h => h, hsc, by simp, fun _ _ => by simp [Meets]⟩⟩
    | maxUtility r m =>
      cases hmu : D.mu with
      | none => simp [ask, hk, hmu] at hq
      | some mu =>
      simp only [ask, hk, hmu] at hq
      cases hq
      have hr' : 0 < r := hacc
      exact ⟨hmn.symm, ⟨_, _, _, fun w x => -(w ⬝ᵥ mu) / D.freq + r / 2 * x, fun _ _ => True, rep, fun _ => rfl,
        fun _ => by simp, fun _ _ _ h => by
          have := mul_le_mul_of_nonneg_left h (by positivity : (0 : ℝ) ≤ r / 2)
          dsimp only
          linarith, fun _ _ _ _ h => h,
        ((cont_dot mu).neg.div_const _).add (hsc.const_mul _), by simp, fun _ _ => by simp [Meets]⟩⟩
    | efficientRisk t m =>
      cases hmu : D.mu with
      | none => simp [ask, hk, hmu] at hq
      | some mu =>
      simp only [ask, hk, hmu] at hq
      cases hq
      obtain rfl : mn = m := hmn
      refine ⟨rfl, ⟨_, _, _, fun w _ => -(w ⬝ᵥ mu), fun _ r => D.freq * r ≤ t ^ 2, rep,
        fun _ => rfl, fun _ => Iff.rfl, fun _ _ _ h => le_rfl,
        fun _ _ _ h h' => (mul_le_mul_of_nonneg_left h hf.le).trans h', (cont_dot mu).neg,
        isClosed_le (hsc.const_mul _) continuous_const, fun w hw => ?_⟩⟩
      refine (semi_le hr hb w hw).trans ?_
      simp only [Meets, risk, hk]
    | efficientReturn f t m =>
      cases hmu : D.mu with
      | none => simp [ask, hk, hmu] at hq
      | some mu =>
      simp only [ask, hk, hmu] at hq
      cases hq
      exact ⟨hmn.symm, ⟨_, _, _, fun _ r => r, fun w _ => t ≤ w ⬝ᵥ mu, rep,
        fun _ => rfl, fun _ => Iff.rfl, fun _ _ _ h => h, fun _ _ _ _ h => h, hsc,
        isClosed_le continuous_const (cont_dot mu), fun w _ => fin mu hmu w t f⟩⟩
    | _ => simp [ask, hk] at hq

/-! ### The calls -/

/-- What becomes of a problem that is handed to the solver. -/
theorem Passes.outcome {c : Call n} {h : Heap n} {r : Except PyErr (Option (Fin n → ℝ)) × OState n × Heap n}
    (p : Passes U S D cfg c h r) (hS : Decides S) (hU : Usable U D) (hD : Sound D mn) (hmn : Asks mn c)
    (hr : NonnegRisk c) (ha : Accepts D c) (hf : Finite cfg mn) (hcl : ClosedCons U cfg h.upar)
    (hobj : ContObjs U cfg h.upar) :
    ((∃ w usr, Admissible U cfg h.upar mn w usr ∧ Meets D c w) →
      ∃ w s usr, r.1 = .ok (some w) ∧ Rounded w s ∧ Admissible U cfg h.upar mn s usr ∧ Meets D c s) ∧
    ((¬ ∃ w usr, Admissible U cfg h.upar mn w usr ∧ Meets D c w) → r.1 = .error .optimization) := by
  obtain ⟨v, q, hq, e, -⟩ := p
  obtain ⟨rfl, sh⟩ := shape hU hD hmn hr ha hq
  have hR := hS.right h.log.length (doc U cfg h.upar q)
  cases hs : S h.log.length (doc U cfg h.upar q) with
  | optimal s x =>
    rw [hs] at hR e
    obtain ⟨k1, k2⟩ := sh.meets hR.feas
    exact ⟨fun _ => ⟨_, _, _, e, round16_rounded _, k1, k2⟩, fun hn => absurd ⟨_, _, k1, k2⟩ hn⟩
  | raised e => exact absurd hs (hS.quiet _ _ _)
  | status x =>
    rw [hs] at e
    refine ⟨fun ⟨w, usr, h1, h2⟩ => ?_, fun _ => e⟩
    obtain ⟨s, y, hopt⟩ := sh.opt (allowed_compact hf hcl) hobj ⟨w, ⟨usr, h1⟩, h2⟩
    obtain ⟨s', v', h'⟩ := hS.solves h.log.length _ _ _ hopt
    rw [hs] at h'
    cases h'

/-- **C85** (part).  The first optimisation of an object of any of the four classes, with finite bounds, closed
constraints on the weights and continuous added objectives, and with arguments that pass the checks: if some allowed
portfolio meets the request, weights are returned, namely the rounded weights of an allowed portfolio that meets it; if
none does, OptimizationError is raised.  For objects that have been optimised before see `C85_again_partial`.  Missing: targets that are met by
some portfolio but do not pass the checks (`C85_cvar_false`, `C85_cdar_false`, `C85_semi_false`). -/
theorem C85_outcome_partial (hU : Usable U D) (hD : Sound D mn) (hS : Decides S) {W : World n} {j : ℕ}
    (hW : Reachable U S D W) (hj : W.objs[j]? = some (cfg, o)) (ho : o.opt = none) {c : Call n} (hmn : Asks mn c)
    (hc : Complete D c) (ha : Accepts D c) (hr : NonnegRisk c)
    (hne : ∀ f t mn, D.kind = .ef → c ≠ .efficientReturn f t mn) (hf : Finite cfg mn)
    (hcl : ClosedCons U cfg W.heap.upar) (hobj : ContObjs U cfg W.heap.upar) :
    ((∃ w usr, Admissible U cfg W.heap.upar mn w usr ∧ Meets D c w) →
      ∃ w s usr, (run U S D c o W.heap).1 = .ok (some w) ∧ Rounded w s ∧ Admissible U cfg W.heap.upar mn s usr ∧
        Meets D c s) ∧
    ((¬ ∃ w usr, Admissible U cfg W.heap.upar mn w usr ∧ Meets D c w) →
      (run U S D c o W.heap).1 = .error .optimization) :=
  (C39_first_call_reaches hU hW hj ho hc ha hne).outcome hS hU hD hmn hr ha hf hcl hobj

theorem max_exists (hf : Finite cfg false) (hcl : ClosedCons U cfg upar) (mu : Fin n → ℝ)
    (hne : ∃ w usr, Admissible U cfg upar false w usr) :
    ∃ m, IsGreatest {r | ∃ w usr, Admissible U cfg upar false w usr ∧ r = w ⬝ᵥ mu} m := by
  obtain ⟨w₀, u₀, a₀⟩ := hne
  obtain ⟨w, ⟨u, ha⟩, hmax⟩ := (allowed_compact hf hcl).exists_isMaxOn ⟨w₀, u₀, a₀⟩ (cont_dot mu).continuousOn
  refine ⟨w ⬝ᵥ mu, ⟨w, u, ha, rfl⟩, ?_⟩
  rintro _ ⟨w', u', ha', rfl⟩
  exact hmax ⟨u', ha'⟩

theorem max_none (hS : Decides S) (hne : ¬ ∃ w usr, Admissible U cfg upar false w usr) (k : ℕ) :
    maxOutcome (S k (maxProb U cfg upar mu)) = .error .optimization := by
  have hR := hS.right k (maxProb U cfg upar mu)
  cases hs : S k (maxProb U cfg upar mu) with
  | optimal s x =>
    rw [hs] at hR
    obtain ⟨h1, h2, h3, -⟩ := hR.feas
    exact absurd ⟨s.w, s.usr, h1, fun a h => (holds_lib a _ _ _ _).1 (h2 a h), h3⟩ hne
  | raised e => exact absurd hs (hS.quiet _ _ _)
  | status x => rfl

/-- **C85** (part), `EfficientFrontier.efficient_return` as the first optimisation: a target some allowed portfolio
reaches is answered with a portfolio that reaches it; if portfolios are allowed but none reaches the target, ValueError is
raised; if no portfolio is allowed, OptimizationError.  Missing: market neutrality, for which the comparison is with the
fully invested portfolios (C45). -/
theorem C85_return_partial (hU : Usable U D) (hk : D.kind = .ef) (hsym : D.symOk = true) (hmu : D.mu = some mu)
    (hp : D.cov.PosSemidef) (hS : Decides S) {W : World n} {j : ℕ}
    (hW : Reachable U S D W) (hj : W.objs[j]? = some (cfg, o)) (ho : o.opt = none) (hun : Uncached o) (t : ℝ)
    (hf : Finite cfg false) (hcl : ClosedCons U cfg W.heap.upar) (hobj : ContObjs U cfg W.heap.upar) :
    ((∃ w usr, Admissible U cfg W.heap.upar false w usr ∧ t ≤ w ⬝ᵥ mu) →
      ∃ w s usr, (run U S D (.efficientReturn true t false) o W.heap).1 = .ok (some w) ∧ Rounded w s ∧
        Admissible U cfg W.heap.upar false s usr ∧ t ≤ s ⬝ᵥ mu) ∧
    ((∃ w usr, Admissible U cfg W.heap.upar false w usr) →
      (¬ ∃ w usr, Admissible U cfg W.heap.upar false w usr ∧ t ≤ w ⬝ᵥ mu) →
      (run U S D (.efficientReturn true t false) o W.heap).1 = .error .valueError) ∧
    ((¬ ∃ w usr, Admissible U cfg W.heap.upar false w usr) →
      (run U S D (.efficientReturn true t false) o W.heap).1 = .error .optimization) := by
  obtain ⟨g, -⟩ := good_of_reachable hU hW _ (List.mem_of_getElem? hj)
  obtain ⟨h₁, -, -, k3, k4⟩ := fresh_return (S := S) hU hk hsym g ho hmu hun (t := t) (mn := false)
  have fin : ∀ w : Fin n → ℝ, Meets D (.efficientReturn true t false) w ↔ t ≤ w ⬝ᵥ mu := by
    intro w
    refine ⟨fun h => h mu hmu, fun h mu' e => ?_⟩
    rw [hmu] at e
    cases e
    exact h
  have key : (∃ w usr, Admissible U cfg W.heap.upar false w usr) → ∃ m,
      IsGreatest {r | ∃ w usr, Admissible U cfg W.heap.upar false w usr ∧ r = w ⬝ᵥ mu} m ∧
      (m < t → run U S D (.efficientReturn true t false) o W.heap =
        (.error .valueError, { o with maxRet := some m }, h₁)) ∧
      (t ≤ m → Passes U S D cfg (.efficientReturn true t false) h₁ (run U S D (.efficientReturn true t false) o W.heap)) := by
    intro hne
    obtain ⟨m, hm⟩ := max_exists hf hcl mu hne
    have e := max_answer hS.toExact hm W.heap.log.length
    rw [e] at k4
    rcases k4 with ⟨e', k4, -⟩ | ⟨m', k4, k5, k6⟩
    · cases k4
    · cases k4
      exact ⟨m, hm, k5, fun h => (k6 h).1.1⟩
  refine ⟨fun hx => ?_, fun hne hx => ?_, fun hne => ?_⟩
  · obtain ⟨w, usr, h1, h2⟩ := hx
    obtain ⟨m, hm, -, hp'⟩ := key ⟨w, usr, h1⟩
    have p := hp' (h2.trans (hm.2 ⟨w, usr, h1, rfl⟩))
    have out := (p.outcome (mn := false) hS hU (by simp only [Sound, hk]; exact hp) rfl trivial
      (by simp only [Accepts, hk]) hf (by rw [k3]; exact hcl) (by rw [k3]; exact hobj)).1
    rw [k3] at out
    obtain ⟨w', s, u, e1, e2, e3, e4⟩ := out ⟨w, usr, h1, (fin w).2 h2⟩
    exact ⟨w', s, u, e1, e2, e3, (fin s).1 e4⟩
  · obtain ⟨m, hm, hlt, -⟩ := key hne
    obtain ⟨⟨w, usr, h1, e⟩, -⟩ := hm
    rw [hlt (by rw [e]; by_contra hn; exact hx ⟨w, usr, h1, not_lt.1 hn⟩)]
  · rw [max_none hS hne] at k4
    rcases k4 with ⟨e', k4, k5⟩ | ⟨m', k4, -⟩
    · cases k4
      rw [k5]
    · cases k4

/-- With finite bounds and no portfolio without risk, some portfolio has the largest Sharpe ratio if any beats the
rate. -/
theorem sharpe_exists {cov : Matrix (Fin n) (Fin n) ℝ} {rf : ℝ} (hf : Finite cfg false) (hcl : ClosedCons U cfg upar)
    (hv : ∀ w usr, Admissible U cfg upar false w usr → 0 < vol cov w)
    (hb : ∃ w usr, Admissible U cfg upar false w usr ∧ rf < w ⬝ᵥ mu) :
    ∃ w usr, BestSharpe U cfg upar cov mu rf w usr := by
  have hc : Continuous (vol cov) := Real.continuous_sqrt.comp (cont_quad cov)
  obtain ⟨w₀, u₀, a₀, b₀⟩ := hb
  obtain ⟨w, ⟨u, ha⟩, hmax⟩ := (allowed_compact hf hcl).exists_isMaxOn (f := fun w => (w ⬝ᵥ mu - rf) / vol cov w)
    ⟨w₀, u₀, a₀⟩ (((cont_dot mu).sub continuous_const).continuousOn.div hc.continuousOn
      fun w ⟨u, h⟩ => (hv w u h).ne')
  have pw := hv w u ha
  have h0 : (w₀ ⬝ᵥ mu - rf) / vol cov w₀ ≤ (w ⬝ᵥ mu - rf) / vol cov w := hmax ⟨u₀, a₀⟩
  refine ⟨w, u, ha, ?_, fun w' u' ha' => ?_⟩
  · have : 0 < (w ⬝ᵥ mu - rf) / vol cov w := (div_pos (sub_pos.2 b₀) (hv w₀ u₀ a₀)).trans_le h0
    have := (div_pos_iff_of_pos_right pw).1 this
    linarith
  · have h1 : (w' ⬝ᵥ mu - rf) / vol cov w' ≤ (w ⬝ᵥ mu - rf) / vol cov w := hmax ⟨u', ha'⟩
    rwa [div_le_div_iff₀ (hv w' u' ha') pw] at h1

/-- **C85** (part), `max_sharpe` as the first optimisation, with finite bounds, closed constraints that scale with the
portfolio, no added objectives and no allowed portfolio without risk, some asset beating the rate: if some allowed
portfolio beats the rate, the rounded weights of an allowed portfolio with the largest Sharpe ratio are returned; if none
does, OptimizationError is raised. -/
theorem C85_sharpe_partial (hU : Usable U D) (hk : D.kind = .ef) (hsym : D.symOk = true) (hmu : D.mu = some mu)
    (hp : D.cov.PosSemidef) (hS : Decides S) {W : World n} {j : ℕ} (hW : Reachable U S D W)
    (hj : W.objs[j]? = some (cfg, o)) (ho : o.opt = none) (hobj : cfg.objs = []) {lb ub : Fin n → ℝ}
    (hlb : ∀ i, cfg.lb i = lb i) (hub : ∀ i, cfg.ub i = ub i) (hcl : ClosedCons U cfg W.heap.upar)
    (hc : ∀ i, Added.usr i ∈ cfg.cons → Scalable W.heap.upar (U.con i))
    (hv : ∀ w usr, Admissible U cfg W.heap.upar false w usr → 0 < vol D.cov w) {rf : ℝ} (hr : ∃ i, rf < mu i) :
    ((∃ w usr, Admissible U cfg W.heap.upar false w usr ∧ rf < w ⬝ᵥ mu) →
      ∃ w s usr, (run U S D (.maxSharpe rf) o W.heap).1 = .ok (some w) ∧ Rounded w s ∧
        BestSharpe U cfg W.heap.upar D.cov mu rf s usr) ∧
    ((¬ ∃ w usr, Admissible U cfg W.heap.upar false w usr ∧ rf < w ⬝ᵥ mu) →
      (run U S D (.maxSharpe rf) o W.heap).1 = .error .optimization) := by
  have k := (C80_outcome_partial hU hk hsym hmu hp hS hW hj ho hobj (fun i => ⟨lb i, hlb i⟩) hc rf).2 hr
  refine ⟨fun hx => ?_, fun hx => ?_⟩
  · refine k.resolve_right fun ⟨_, h⟩ => ?_
    obtain ⟨w, usr, hb⟩ := sharpe_exists (.inr ⟨lb, ub, hlb, hub⟩) hcl hv hx
    exact h w usr hb
  · rcases k with ⟨w, s, usr, -, -, hb⟩ | ⟨h, -⟩
    · exact absurd ⟨s, usr, hb.adm, hb.beats⟩ hx
    · exact h

/-- A positive definite covariance leaves no fully invested portfolio without risk. -/
theorem vol_pos (hp : D.cov.PosDef) {w : Fin n → ℝ} {usr : ℕ → ℝ} (h : Admissible U cfg upar false w usr) :
    0 < vol D.cov w := by
  have hw : w ≠ 0 := by
    rintro rfl
    have := h.sum
    simp at this
  exact Real.sqrt_pos.2 (by simpa using hp.dotProduct_mulVec_pos hw)

end Verif.Convex
