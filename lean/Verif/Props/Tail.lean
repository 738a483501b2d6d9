import Verif.Props.Solution
import Verif.Proof.Tail
import Verif.Proof.Vals
import Verif.Model.TailPerf

/-!
Properties C46 to C48: what `EfficientCVaR`, `EfficientCDaR` and `EfficientSemivariance` measure and optimise.
-/

noncomputable section

namespace Verif.Convex
open Verif.Py Verif.Base Matrix

variable {n : ℕ} {U : Uni n} {S : Solver n} {D : Data n} {cfg : Cfg n} {o : OState n}

/-! ### Objectives represented by further variables -/

/-- A risk `f` of the weights is represented by variables: `ρ` is at least `f` whenever `R` holds, with equality for
some values of the variables. -/
structure Rep (R : Asg n → Prop) (ρ : Asg n → ℝ) (f : (Fin n → ℝ) → ℝ) : Prop where
  le : ∀ s, R s → f s.w ≤ ρ s
  eq : ∀ w usr, ∃ lib, R ⟨w, usr, lib⟩ ∧ ρ ⟨w, usr, lib⟩ = f w

theorem holds_lib {upar : ℕ → ℝ} (a : Added n) (w : Fin n → ℝ) (usr : ℕ → ℝ) (l l' : ℕ → ℕ → ℝ) :
    a.holds U upar ⟨w, usr, l⟩ ↔ a.holds U upar ⟨w, usr, l'⟩ := by
  cases a with
  | usr i => exact Iff.rfl
  | sector sec nm up b => cases up <;> exact Iff.rfl

/-- An optimum of a problem in which a risk is represented by variables. -/
theorem best_of_rep {q : Ask n} {upar : ℕ → ℝ} {x : Asg n} {v : ℝ} (ho : IsOpt (doc U cfg upar q) x v)
    {R : Asg n → Prop} {ρ : Asg n → ℝ} {f : (Fin n → ℝ) → ℝ} (hR : Rep R ρ f)
    {B : (Fin n → ℝ) → ℝ → ℝ} {Q : (Fin n → ℝ) → ℝ → Prop}
    (hb : ∀ s, q.base s = B s.w (ρ s)) (he : ∀ s, q.extra s ↔ Q s.w (ρ s) ∧ R s)
    (hB : ∀ w, Monotone (B w)) (hQ : ∀ w a b, a ≤ b → Q w b → Q w a) :
    Best U cfg upar q.mn (fun w => Q w (f w)) (fun w => B w (f w)) x.w x.usr ∧
      Q x.w (ρ x) ∧ f x.w ≤ ρ x ∧ B x.w (ρ x) = B x.w (f x.w) := by
  obtain ⟨⟨h1, h2, h3, h4⟩, hv, hbest⟩ := ho
  obtain ⟨hq, hr⟩ := (he x).1 h4
  have hle := hR.le x hr
  have hfeas : ∀ w' usr', Admissible U cfg upar q.mn w' usr' → Q w' (f w') →
      (doc U cfg upar q).obj x ≤ total U cfg upar (fun w => B w (f w)) w' usr' := by
    intro w' usr' ha hq'
    obtain ⟨lib, hl, e⟩ := hR.eq w' usr'
    have := hbest ⟨w', usr', lib⟩ ⟨ha.within, fun a h => (holds_lib a _ _ _ _).1 (ha.cons a h), ha.sum,
      (he _).2 ⟨by rw [e]; exact hq', hl⟩⟩
    refine this.trans_eq ?_
    simp only [doc, hb, e, total]
  have hadm : Admissible U cfg upar q.mn x.w x.usr :=
    ⟨h1, fun a h => (holds_lib a _ _ _ _).1 (h2 a h), h3⟩
  have hqf : Q x.w (f x.w) := hQ _ _ _ hle hq
  have hob : (doc U cfg upar q).obj x = ((B x.w (ρ x) : ℝ) : EReal) +
      (cfg.objs.map (fun i => (U.obj i).val ⟨x.w, x.usr, upar⟩)).sum := by
    simp only [doc, hb]
  have hmono := hB x.w hle
  refine ⟨⟨hadm, hqf, fun w' usr' ha hm => ?_⟩, hq, hle, le_antisymm ?_ hmono⟩
  · refine le_trans ?_ (hfeas w' usr' ha hm)
    rw [hob]
    exact add_le_add_left (EReal.coe_le_coe_iff.2 hmono) _
  · have h5 := hfeas x.w x.usr hadm hqf
    rw [hob] at h5 hv
    simp only [total] at h5
    generalize (cfg.objs.map (fun i => (U.obj i).val ⟨x.w, x.usr, upar⟩)).sum = A at h5 hv
    induction A with
    | bot => rw [EReal.add_bot] at hv; cases hv
    | top => rw [EReal.coe_add_top] at hv; cases hv
    | coe a =>
      rw [← EReal.coe_add, ← EReal.coe_add, EReal.coe_le_coe_iff] at h5
      linarith

theorem Best.congr {upar : ℕ → ℝ} {mn : Bool} {req req' : (Fin n → ℝ) → Prop} {f g : (Fin n → ℝ) → ℝ} {s : Fin n → ℝ}
    {usr : ℕ → ℝ} (hb : Best U cfg upar mn req f s usr)
    (hr : ∀ w, ∑ i, w i = (if mn then 0 else 1) → (req w ↔ req' w))
    (hf : ∀ w, ∑ i, w i = (if mn then 0 else 1) → f w = g w) : Best U cfg upar mn req' g s usr := by
  refine ⟨hb.adm, (hr s hb.adm.sum).1 hb.meets, fun w' usr' ha hm => ?_⟩
  have := hb.best w' usr' ha ((hr w' ha.sum).2 hm)
  simpa only [total, hf s hb.adm.sum, hf w' ha.sum] using this

/-- A call that has solved its problem: the solution is in the variables. -/
theorem solved_vals (hU : Usable U D) {W : World n} (hW : Reachable U S D W) {j : ℕ}
    (hj : W.objs[j]? = some (cfg, o)) {c : Call n} (hnc : ∀ m b, c ≠ .nonconvex m b) (hcv : ∀ r b, c ≠ .convex r b)
    (hsh : ∀ r, c ≠ .maxSharpe r) {w : Fin n → ℝ}
    (hw : (run U S D c o W.heap).1 = .ok (some w)) (hS : Correct S W.heap (run U S D c o W.heap).2.2) :
    ∃ v q s x, ask D v c = some q ∧ w = round16 s.w ∧ IsOpt (doc U cfg W.heap.upar q) s x ∧
      (run U S D c o W.heap).2.2.vals = some s ∧ (run U S D c o W.heap).2.1.weights = some w := by
  obtain ⟨-, pre, P, f, s, x, -, h2, h3, h4, h5⟩ :=
    C39_weights_documented_partial hU hW hj hnc (.inr fun r => hcv r false) hw
  have hR := hS (W.heap.log ++ pre).length P (by rw [List.length_append]; exact Nat.le_add_right _ _)
    (by rw [h3]; simp)
  obtain ⟨l, P', s', x', e1, e2, e3, e4⟩ := run_ends hnc hsh o W.heap w hw
  rw [h3] at e1
  obtain ⟨rfl, rfl⟩ : W.heap.log ++ pre = l ∧ P = P' := by
    have := List.append_inj' e1 rfl
    exact ⟨this.1, List.cons.inj this.2 |>.1⟩
  rw [h4] at e2 hR
  cases e2
  cases h2 with
  | ask v q hq => exact ⟨v, q, s, x, hq, h5, hR, e3, e4⟩
  | sharpe rf mu v hc => exact absurd hc (hsh rf)
  | convex i b b' hc => exact absurd hc (hcv _ _)

/-! ### Representations -/

/-- A vector as the values of a variable. -/
def ext {T : ℕ} (u : Fin T → ℝ) (k : ℕ) : ℝ := if h : k < T then u ⟨k, h⟩ else 0

theorem ext_val {T : ℕ} (u : Fin T → ℝ) (t : Fin T) : ext u t = u t := by simp [ext]

theorem tail_pos {T : ℕ} {β : ℝ} (hT : (T : ℝ) * (1 - β) ≠ 0) (h1 : β < 1) : 0 < (1 - β) * (T : ℝ) := by
  have h2 : (T : ℝ) ≠ 0 := left_ne_zero_of_mul hT
  have h3 : (0 : ℝ) < T := lt_of_le_of_ne (Nat.cast_nonneg _) h2.symm
  exact mul_pos (by linarith) h3

theorem tail_le {T : ℕ} {β : ℝ} (h0 : 0 ≤ β) : (1 - β) * (T : ℝ) ≤ T := by
  have : (0 : ℝ) ≤ T := Nat.cast_nonneg _
  nlinarith

theorem rep_cvar (hT : (D.T : ℝ) * (1 - D.beta) ≠ 0) (h0 : 0 ≤ D.beta) (h1 : D.beta < 1) :
    Rep (CvarVars D) (cvarOf D) (portCvar D.beta D.R) where
  le s hs := by
    have := tailMean_le (L := fun t => -daily D.R s.w t) (tail_pos hT h1) (tail_le h0) (s.lib 0 0)
      (u := fun t => s.lib 1 t) (fun t => (hs t).1)
      (fun t => by have := (hs t).2; unfold daily; linarith)
    refine this.trans_eq ?_
    rw [cvarOf, mul_comm (D.T : ℝ)]
  eq w usr := by
    obtain ⟨α, e⟩ := tailMean_eq (L := fun t => -daily D.R w t) (tail_pos hT h1) (tail_le h0)
    refine ⟨fun i => if i = 0 then fun _ => α else ext fun t => max 0 (-daily D.R w t - α), fun t => ?_, ?_⟩
    · simp only [if_true, one_ne_zero, if_false, ext_val]
      refine ⟨le_max_left _ _, ?_⟩
      have := le_max_right 0 (-daily D.R w t - α)
      unfold daily at this ⊢
      linarith
    · unfold portCvar
      rw [e, cvarOf, mul_comm (D.T : ℝ)]
      simp only [if_true, one_ne_zero, if_false, ext_val]

theorem rep_cdar (hT : (D.T : ℝ) * (1 - D.beta) ≠ 0) (h0 : 0 ≤ D.beta) (h1 : D.beta < 1) :
    Rep (CdarVars D) (cdarOf D) (portCdar D.beta D.R) where
  le s hs := by
    have hd : ∀ t : Fin D.T, drawdown (daily D.R s.w) (t + 1) ≤ s.lib 1 (t + 1) := fun t =>
      drawdown_le hs.1 (fun t => ⟨(hs.2 t).2.1, (hs.2 t).2.2.2⟩) _ t.2
    have := tailMean_le (L := fun t : Fin D.T => drawdown (daily D.R s.w) (t + 1)) (tail_pos hT h1) (tail_le h0)
      (s.lib 0 0) (u := fun t => s.lib 2 t) (fun t => (hs.2 t).2.2.1)
      (fun t => by have := (hs.2 t).1; have := hd t; linarith)
    refine this.trans_eq ?_
    rw [cdarOf, mul_comm (D.T : ℝ)]
  eq w usr := by
    obtain ⟨α, e⟩ := tailMean_eq (L := fun t : Fin D.T => drawdown (daily D.R w) (t + 1)) (tail_pos hT h1) (tail_le h0)
    refine ⟨fun i => if i = 0 then fun _ => α else if i = 1 then drawdown (daily D.R w)
      else ext fun t : Fin D.T => max 0 (drawdown (daily D.R w) (t + 1) - α), ⟨?_, fun t => ?_⟩, ?_⟩
    · simp only [one_ne_zero, if_false, if_true, drawdown_zero]
    · simp only [if_true, one_ne_zero, if_false, ext_val, OfNat.ofNat_ne_zero, OfNat.ofNat_ne_one]
      refine ⟨le_max_right _ _, ?_, le_max_left _ _, drawdown_nonneg _⟩
      rw [drawdown_succ]
      exact le_max_right _ _
    · unfold portCdar
      rw [e, cdarOf, mul_comm (D.T : ℝ)]
      simp only [if_true, if_false, ext_val, OfNat.ofNat_ne_zero, OfNat.ofNat_ne_one]

/-- What the semivariance representation measures: the shortfall below the benchmark times the sum of the weights. -/
theorem rep_semi (hT : D.T ≠ 0) (v : ℕ) :
    Rep (SemiVars D v) (semiOf D v) (fun w => semivar (D.bench * ∑ i, w i) (daily D.R w)) := by
  have hT' : (0 : ℝ) < D.T := by exact_mod_cast Nat.pos_of_ne_zero hT
  have hs : 0 < Real.sqrt D.T := Real.sqrt_pos.2 hT'
  have eB : ∀ (w : Fin n → ℝ) t, ∑ i, (D.R t i - D.bench) / Real.sqrt D.T * w i =
      (daily D.R w t - D.bench * ∑ i, w i) / Real.sqrt D.T := by
    intro w t
    rw [daily, dotProduct, Finset.mul_sum, ← Finset.sum_sub_distrib, Finset.sum_div]
    exact Finset.sum_congr rfl fun i _ => by ring
  have eF : ∀ w : Fin n → ℝ, semivar (D.bench * ∑ i, w i) (daily D.R w) =
      ∑ t, max 0 (-((daily D.R w t - D.bench * ∑ i, w i) / Real.sqrt D.T)) ^ 2 := by
    intro w
    rw [semivar, Finset.sum_div]
    refine Finset.sum_congr rfl fun t _ => ?_
    generalize daily D.R w t - D.bench * ∑ i, w i = a
    have h2 : (D.T : ℝ) = Real.sqrt D.T ^ 2 := (Real.sq_sqrt hT'.le).symm
    rcases le_total a 0 with h | h
    · rw [min_eq_left h, max_eq_right (by rw [neg_nonneg]; exact div_nonpos_of_nonpos_of_nonneg h hs.le), neg_sq,
        div_pow, ← h2]
    · rw [min_eq_right h, max_eq_left (by rw [neg_nonpos]; exact div_nonneg h hs.le)]
      simp
  constructor
  · intro s hv
    rw [eF, semiOf]
    refine Finset.sum_le_sum fun t _ => ?_
    obtain ⟨h1, h2, h3⟩ := hv t
    rw [eB] at h1
    exact pow_le_pow_left₀ (le_max_left _ _) (max_le h3 (by linarith)) 2
  · intro w usr
    refine ⟨fun i => if i = v then ext fun t => max 0 ((daily D.R w t - D.bench * ∑ i, w i) / Real.sqrt D.T)
      else ext fun t => max 0 (-((daily D.R w t - D.bench * ∑ i, w i) / Real.sqrt D.T)), fun t => ?_, ?_⟩
    · simp only [if_true, Nat.succ_ne_self, if_false, ext_val]
      rw [eB]
      generalize (daily D.R w t - D.bench * ∑ i, w i) / Real.sqrt D.T = a
      refine ⟨?_, le_max_left _ _, le_max_left _ _⟩
      rcases le_total a 0 with h | h
      · rw [max_eq_left h, max_eq_right (by linarith)]; ring
      · rw [max_eq_right h, max_eq_left (by linarith)]; ring
    · rw [eF, semiOf]
      simp only [Nat.succ_ne_self, if_false, ext_val]

/-! ### Rounding -/

variable {T : ℕ} {R : Fin T → Fin n → ℝ} {w s : Fin n → ℝ}

theorem rounded_daily (h : Rounded w s) (t : Fin T) :
    |daily R w t - daily R s t| ≤ 1 / 2 / 10 ^ 16 * ∑ i, |R t i| := by
  have := C42_rounded_return h (R t)
  rwa [dotProduct_comm, dotProduct_comm s] at this

/-- **C46**, rounding: the conditional value at risk changes by at most 5·10⁻¹⁷ times the largest sum of absolute
returns of a day. -/
theorem C46_rounded {β : ℝ} (hT : 0 < T) (h0 : 0 ≤ β) (h1 : β < 1) (h : Rounded w s) {B : ℝ}
    (hB : ∀ t, ∑ i, |R t i| ≤ B) : |portCvar β R w - portCvar β R s| ≤ 1 / 2 / 10 ^ 16 * B := by
  have hq : 0 < (1 - β) * (T : ℝ) := mul_pos (by linarith) (by exact_mod_cast hT)
  have hd : ∀ t, |daily R w t - daily R s t| ≤ 1 / 2 / 10 ^ 16 * B := fun t =>
    (rounded_daily h t).trans (mul_le_mul_of_nonneg_left (hB t) (by norm_num))
  have a := tailMean_mono (L := fun t => -daily R w t) (L' := fun t => -daily R s t) hq (tail_le h0)
    (ε := 1 / 2 / 10 ^ 16 * B) fun t => by have := (abs_le.1 (hd t)).1; linarith
  have b := tailMean_mono (L := fun t => -daily R s t) (L' := fun t => -daily R w t) hq (tail_le h0)
    (ε := 1 / 2 / 10 ^ 16 * B) fun t => by have := (abs_le.1 (hd t)).2; linarith
  unfold portCvar
  rw [abs_le]
  constructor <;> linarith

/-- **C47**, rounding: the conditional drawdown at risk changes by at most 5·10⁻¹⁷ times the sum of all absolute
returns. -/
theorem C47_rounded {β : ℝ} (hT : 0 < T) (h0 : 0 ≤ β) (h1 : β < 1) (h : Rounded w s) :
    |portCdar β R w - portCdar β R s| ≤ 1 / 2 / 10 ^ 16 * ∑ t, ∑ i, |R t i| := by
  have hq : 0 < (1 - β) * (T : ℝ) := mul_pos (by linarith) (by exact_mod_cast hT)
  have hd : ∑ t, |daily R w t - daily R s t| ≤ 1 / 2 / 10 ^ 16 * ∑ t, ∑ i, |R t i| := by
    rw [Finset.mul_sum]
    exact Finset.sum_le_sum fun t _ => rounded_daily h t
  have a := tailMean_mono (L := fun t : Fin T => drawdown (daily R w) (t + 1))
    (L' := fun t : Fin T => drawdown (daily R s) (t + 1)) hq (tail_le h0)
    (ε := 1 / 2 / 10 ^ 16 * ∑ t, ∑ i, |R t i|) fun t => by
      have := drawdown_mono (daily R w) (daily R s) (t + 1); linarith
  have b := tailMean_mono (L := fun t : Fin T => drawdown (daily R s) (t + 1))
    (L' := fun t : Fin T => drawdown (daily R w) (t + 1)) hq (tail_le h0)
    (ε := 1 / 2 / 10 ^ 16 * ∑ t, ∑ i, |R t i|) fun t => by
      have := drawdown_mono (daily R s) (daily R w) (t + 1)
      rw [Finset.sum_congr rfl fun t _ => abs_sub_comm (daily R s t) (daily R w t)] at this
      linarith
  unfold portCdar
  rw [abs_le]
  constructor <;> linarith

theorem semidev_le {f b ε : ℝ} (hf : 0 ≤ f) {r r' e : Fin T → ℝ} (hε : 0 ≤ ε) (h : ∀ t, |r t - r' t| ≤ ε * e t) :
    semidev f b r ≤ semidev f b r' + ε * Real.sqrt (f * ((∑ t, e t ^ 2) / T)) := by
  have eq : ∀ x : Fin T → ℝ, Real.sqrt (f * ((∑ t, x t ^ 2) / T)) =
      Real.sqrt (f / T) * Real.sqrt (x ⬝ᵥ (1 : Matrix (Fin T) (Fin T) ℝ) *ᵥ x) := by
    intro x
    rw [← Real.sqrt_mul (div_nonneg hf (Nat.cast_nonneg _)), one_mulVec, dotProduct]
    congr 1
    rw [Finset.sum_congr rfl fun t _ => sq (x t)]
    ring
  let x : Fin T → ℝ := fun t => min (r t - b) 0
  let x' : Fin T → ℝ := fun t => min (r' t - b) 0
  have hx : ∀ t, |(x - x') t| ≤ ε * e t := by
    intro t
    refine le_trans ?_ (h t)
    have := abs_min_sub_min_le_max (r t - b) 0 (r' t - b) 0
    simpa [x, x'] using this
  have h1 := sqrt_quad_add (PosSemidef.one : (1 : Matrix (Fin T) (Fin T) ℝ).PosSemidef) x' (x - x')
  rw [add_sub_cancel] at h1
  have h2 : Real.sqrt ((x - x') ⬝ᵥ (1 : Matrix (Fin T) (Fin T) ℝ) *ᵥ (x - x')) ≤
      ε * Real.sqrt (e ⬝ᵥ (1 : Matrix (Fin T) (Fin T) ℝ) *ᵥ e) := by
    have : ε * Real.sqrt (e ⬝ᵥ (1 : Matrix (Fin T) (Fin T) ℝ) *ᵥ e) =
        Real.sqrt (ε ^ 2 * (e ⬝ᵥ (1 : Matrix (Fin T) (Fin T) ℝ) *ᵥ e)) := by
      rw [Real.sqrt_mul (sq_nonneg _), Real.sqrt_sq hε]
    rw [this]
    refine Real.sqrt_le_sqrt ?_
    rw [one_mulVec, one_mulVec, dotProduct, dotProduct, Finset.mul_sum]
    refine Finset.sum_le_sum fun t _ => ?_
    have := mul_self_le_mul_self (abs_nonneg _) (hx t)
    rw [abs_mul_abs_self] at this
    linarith
  have h3 : 0 ≤ Real.sqrt (f / T) := Real.sqrt_nonneg _
  have e1 : semidev f b r = Real.sqrt (f / T) * Real.sqrt (x ⬝ᵥ (1 : Matrix (Fin T) (Fin T) ℝ) *ᵥ x) := eq x
  have e2 : semidev f b r' = Real.sqrt (f / T) * Real.sqrt (x' ⬝ᵥ (1 : Matrix (Fin T) (Fin T) ℝ) *ᵥ x') := eq x'
  rw [e1, e2, eq e]
  nlinarith [mul_le_mul_of_nonneg_left (h1.trans (add_le_add_right h2 _)) h3]

/-- **C48**, rounding: the semideviation changes by at most 5·10⁻¹⁷ times the root mean square of the daily sums of
absolute returns, annualised. -/
theorem C48_rounded {f b : ℝ} (hf : 0 ≤ f) (h : Rounded w s) :
    |semidev f b (daily R w) - semidev f b (daily R s)| ≤
      1 / 2 / 10 ^ 16 * Real.sqrt (f * ((∑ t, (∑ i, |R t i|) ^ 2) / T)) := by
  have h1 := semidev_le (b := b) hf (ε := 1 / 2 / 10 ^ 16) (by norm_num) fun t => rounded_daily (R := R) h t
  have h2 := semidev_le (b := b) hf (r := daily R s) (r' := daily R w) (ε := 1 / 2 / 10 ^ 16) (by norm_num)
    fun t => by rw [abs_sub_comm]; exact rounded_daily (R := R) h t
  rw [abs_le]
  constructor <;> linarith

end Verif.Convex
