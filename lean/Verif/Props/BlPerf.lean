import Verif.Props.BlInputs

/-!
Performance of a Black-Litterman object (C58) and the market-implied risk aversion (C59).
-/

set_option linter.unusedSectionVars false
noncomputable section

namespace Verif.BL
open Verif.Py Verif.Base Verif.Perf Matrix

variable {κ : Type} [DecidableEq κ] {n k : ℕ}

theorem dot_ofFn (w m : Fin n → ℝ) : Perf.dot (List.ofFn w) (List.ofFn m) = w ⬝ᵥ m := by
  have : List.zipWith (· * ·) (List.ofFn w) (List.ofFn m) = List.ofFn (fun i => w i * m i) := by
    apply List.ext_getElem
    · simp
    · intro i h1 h2; simp
  rw [Perf.dot, this, List.sum_ofFn]
  rfl

theorem quadForm_ofFn (w : Fin n → ℝ) (C : Matrix (Fin n) (Fin n) ℝ) :
    quadForm (List.ofFn w) (List.ofFn (fun i => List.ofFn (C.row i))) = .ok (w ⬝ᵥ (C *ᵥ w)) := by
  have hrow : (List.ofFn (fun i => List.ofFn (C.row i))).map (fun r => Perf.dot r (List.ofFn w))
      = List.ofFn (C *ᵥ w) := by
    rw [List.map_ofFn]
    congr 1
    funext i
    exact dot_ofFn (C.row i) w
  unfold quadForm
  rw [if_pos, hrow, dot_ofFn]
  constructor
  · simp
  · rw [List.all_eq_true]
    intro r hr
    rw [List.mem_ofFn] at hr
    obtain ⟨i, rfl⟩ := hr
    rw [List.length_ofFn, List.length_ofFn]
    simp

theorem finite?_fin (w : Fin n → ℝ) : finite? (fun i => Flt.fin (w i)) = some (List.ofFn w) := by
  have : ∀ l : List ℝ, (l.map Flt.fin).mapM finVal = some l := by
    intro l
    induction l with
    | nil => rfl
    | cons a l ih => rw [List.map_cons, List.mapM_cons, ih]; rfl
  have h2 : List.ofFn (fun i => Flt.fin (w i)) = (List.ofFn w).map Flt.fin := by
    rw [List.map_ofFn]; rfl
  unfold finite?
  rw [h2, this]

/-- Once `bl_weights` was called, `posterior_rets` stays set. -/
theorem step_rets (la : LinAlg) (natKey : ℕ → κ) (x : Inputs κ n k) (s : State n k) (c : Call n)
    (h : s.posteriorRets ≠ none ∨ ∃ ra, c = .weights ra) :
    (step la natKey x s c).posteriorRets ≠ none := by
  cases c with
  | returns => rcases h with h | ⟨_, h⟩ <;> [exact h; cases h]
  | cov => rcases h with h | ⟨_, h⟩ <;> [exact h; cases h]
  | setWeights w => rcases h with h | ⟨_, h⟩ <;> [exact h; cases h]
  | weights ra =>
    simp only [step, blWeights]
    split <;> simp
  | performance rf =>
    rcases h with h | ⟨_, h⟩
    · simp only [step, performance, ensureCov]
      split
      · exact h
      · exact h
    · cases h

theorem run_rets (la : LinAlg) (natKey : ℕ → κ) (x : Inputs κ n k) (cs : List (Call n)) (ra : Option ℝ)
    (h : Call.weights ra ∈ cs) : (run la natKey x cs).posteriorRets = some (blReturns la x {}).2 := by
  have key : ∀ (cs : List (Call n)) (s : State n k),
      (s.posteriorRets ≠ none ∨ Call.weights ra ∈ cs) → (cs.foldl (step la natKey x) s).posteriorRets ≠ none := by
    intro cs
    induction cs with
    | nil => intro s h; rcases h with h | h <;> [exact h; cases h]
    | cons c cs ih =>
      intro s h
      apply ih
      rcases h with h | h
      · exact .inl (step_rets la natKey x s c (.inl h))
      · rcases List.mem_cons.1 h with rfl | h
        · exact .inl (step_rets la natKey x s _ (.inr ⟨ra, rfl⟩))
        · exact .inr h
  rcases (run_coherent la natKey x cs).r with h1 | h1
  · exact absurd h1 (key cs {} (.inr h))
  · exact h1

/-- The covariance `portfolio_performance` uses. -/
theorem perf_cov (la : LinAlg) (x : Inputs κ n k) (s : State n k) (h : Coherent la x s) :
    (ensureCov la x s).2 = (blCov la x {}).2 := by
  unfold ensureCov
  rcases h.c with h1 | h1
  · simp only [h1]; exact blCov_eq h
  · simp only [h1]

/-- **C58.** Once `bl_weights` was called, `portfolio_performance` reports, for the stored weights
(the last `bl_weights` or `set_weights`), the return under the posterior returns, the volatility under
the posterior covariance, and their ratio; whatever else was called before and in between. -/
theorem C58_performance (la : LinAlg) (natKey : ℕ → κ) (x : Inputs κ n k) (cs : List (Call n)) (ra : Option ℝ)
    (h : Call.weights ra ∈ cs) (w : Fin n → ℝ) (hw : (run la natKey x cs).weights = some (fun i => .fin (w i)))
    (rf : ℝ) :
    let post := (blReturns la x (run la natKey x cs)).2
    let C := (blCov la x (run la natKey x cs)).2
    (performance la natKey x (run la natKey x cs) rf).2 = some (.ok (some (.fin (w ⬝ᵥ post)),
      fsqrt (w ⬝ᵥ (C *ᵥ w)), some (fdiv (w ⬝ᵥ post - rf) (fsqrt (w ⬝ᵥ (C *ᵥ w)))))) := by
  intro post C
  have hco := run_coherent la natKey x cs
  have hr := run_rets la natKey x cs ra h
  have hpost : post = (blReturns la x {}).2 := blReturns_eq hco
  have hC : C = (blCov la x {}).2 := blCov_eq hco
  set s := run la natKey x cs with hs
  have hfst : ∀ p : State n k × Matrix (Fin n) (Fin n) ℝ,
      p = ensureCov la x s →
      p.1.weights = some (fun i => .fin (w i)) ∧ p.1.posteriorRets = some post ∧ p.2 = C := by
    intro p hp
    refine ⟨?_, ?_, ?_⟩
    · rw [hp, ensureCov]; split
      · exact hw
      · exact hw
    · rw [hp, hpost, ensureCov]; split
      · exact hr
      · exact hr
    · rw [hp, hC]; exact perf_cov la x s hco
  unfold performance
  simp only
  generalize hg : ensureCov la x s = p
  obtain ⟨e1, e2, e3⟩ := hfst p hg.symm
  rw [e1, e2, e3]
  simp only [finite?_fin, Option.map_some]
  congr 1
  have hm : (List.ofFn (fun i => (x.tickers i, post i))).map Prod.snd = List.ofFn post := by
    rw [List.map_ofFn]; rfl
  unfold Perf.performance
  simp only [weightVector, CovArg.rows, ReturnsArg.values, hm, bind, Except.bind, quadForm_ofFn, sharpe, matmul,
    List.length_ofFn, if_true, dot_ofFn, pure, Except.pure]

/-- Calls that choose no weights. -/
def Call.keepsWeights : Call n → Prop
  | .weights _ => False
  | .setWeights _ => False
  | _ => True

theorem step_keeps (la : LinAlg) (natKey : ℕ → κ) (x : Inputs κ n k) (s : State n k) (c : Call n)
    (h : c.keepsWeights) : (step la natKey x s c).weights = s.weights := by
  cases c with
  | weights ra => exact h.elim
  | setWeights w => exact h.elim
  | returns => rfl
  | cov => rfl
  | performance rf =>
    simp only [step, performance, ensureCov]
    split <;> rfl

theorem run_keeps (la : LinAlg) (natKey : ℕ → κ) (x : Inputs κ n k) (rest : List (Call n))
    (h : ∀ c ∈ rest, c.keepsWeights) (s : State n k) :
    (rest.foldl (step la natKey x) s).weights = s.weights := by
  induction rest generalizing s with
  | nil => rfl
  | cons c rest ih =>
    rw [List.foldl_cons, ih (fun c hc => h c (List.mem_cons_of_mem _ hc)),
      step_keeps la natKey x s c (h c List.mem_cons_self)]

/-- **C58.** The weights that `bl_weights` returned are the ones a later `portfolio_performance`
reports on, as long as no other weights are chosen in between. -/
theorem C58_returned_weights (la : LinAlg) (natKey : ℕ → κ) (x : Inputs κ n k) (cs rest : List (Call n))
    (ra : Option ℝ) (w : Fin n → ℝ)
    (hw : (blWeights la x (run la natKey x cs) ra).2 = .ok (fun i => .fin (w i)))
    (hrest : ∀ c ∈ rest, c.keepsWeights) (rf : ℝ) :
    let s := run la natKey x (cs ++ .weights ra :: rest)
    let post := (blReturns la x s).2
    let C := (blCov la x s).2
    (performance la natKey x s rf).2 = some (.ok (some (.fin (w ⬝ᵥ post)),
      fsqrt (w ⬝ᵥ (C *ᵥ w)), some (fdiv (w ⬝ᵥ post - rf) (fsqrt (w ⬝ᵥ (C *ᵥ w)))))) := by
  refine C58_performance la natKey x (cs ++ .weights ra :: rest) ra (by simp) w ?_ rf
  unfold run
  rw [List.foldl_append, List.foldl_cons, run_keeps la natKey x rest hrest]
  change (blWeights la x (run la natKey x cs) ra).1.weights = _
  unfold blWeights at hw ⊢
  simp only at hw ⊢
  split at hw
  · cases hw
  · rename_i raw hraw
    exact congrArg some (Except.ok.inj hw)

/-- **C58.** Likewise for weights set by hand, once `bl_weights` was called. -/
theorem C58_set_weights (la : LinAlg) (natKey : ℕ → κ) (x : Inputs κ n k) (cs rest : List (Call n))
    (ra : Option ℝ) (hra : Call.weights ra ∈ cs) (w : Fin n → ℝ)
    (hrest : ∀ c ∈ rest, c.keepsWeights) (rf : ℝ) :
    let s := run la natKey x (cs ++ .setWeights w :: rest)
    let post := (blReturns la x s).2
    let C := (blCov la x s).2
    (performance la natKey x s rf).2 = some (.ok (some (.fin (w ⬝ᵥ post)),
      fsqrt (w ⬝ᵥ (C *ᵥ w)), some (fdiv (w ⬝ᵥ post - rf) (fsqrt (w ⬝ᵥ (C *ᵥ w)))))) := by
  refine C58_performance la natKey x (cs ++ .setWeights w :: rest) ra
    (List.mem_append_left _ hra) w ?_ rf
  unfold run
  rw [List.foldl_append, List.foldl_cons, run_keeps la natKey x rest hrest]
  rfl

/-- **C58.** Before any weights exist the call raises ValueError. -/
theorem C58_no_weights (la : LinAlg) (natKey : ℕ → κ) (x : Inputs κ n k) (cs : List (Call n))
    (hw : (run la natKey x cs).weights = none) (rf : ℝ) :
    (performance la natKey x (run la natKey x cs) rf).2 = some (.error .valueError) := by
  set s := run la natKey x cs with hs
  unfold performance
  simp only
  generalize hg : ensureCov la x s = p
  have e1 : p.1.weights = none := by
    rw [← hg, ensureCov]; split
    · exact hw
    · exact hw
  rw [e1]
  rfl

/-- **C58.** `set_weights` without `bl_weights`: no expected return and no Sharpe ratio are reported,
the volatility still is. -/
theorem C58_set_weights_only (la : LinAlg) (natKey : ℕ → κ) (x : Inputs κ n k) (w : Fin n → ℝ) (rf : ℝ) :
    (performance la natKey x (run la natKey x [.setWeights w]) rf).2 =
      some (.ok (none, fsqrt (w ⬝ᵥ ((blCov la x {}).2 *ᵥ w)), none)) := by
  have hco : Coherent la x (setWeights ({} : State n k) w) := ⟨.inl rfl, .inl rfl, .inl rfl, .inl rfl⟩
  change (performance la natKey x (setWeights {} w) rf).2 = _
  have e1 : (ensureCov la x (setWeights ({} : State n k) w)).1.weights = some (fun i => .fin (w i)) := rfl
  have e2 : (ensureCov la x (setWeights ({} : State n k) w)).1.posteriorRets = none := rfl
  unfold performance
  simp only
  rw [e1, e2, perf_cov la x _ hco]
  simp only [finite?_fin, Option.map_some]
  unfold Perf.performance
  simp only [weightVector, CovArg.rows, ReturnsArg.values, bind, Except.bind, quadForm_ofFn, pure, Except.pure]

example : ∃ r, (performance exactLA id exInputs (run exactLA id exInputs [.weights none, .setWeights ![1, 1], .cov]) 0).2
    = some (.ok r) :=
  ⟨_, C58_performance exactLA id exInputs [.weights none, .setWeights ![1, 1], .cov] none (by simp) ![1, 1] rfl 0⟩

/-! ### C59 -/

theorem pctChange_scale {c : ℝ} (hc : c ≠ 0) : ∀ l : List ℝ, pctChange (l.map (c * ·)) = pctChange l
  | [] => rfl
  | [_] => rfl
  | a :: b :: l => by
    have := pctChange_scale hc (b :: l)
    simp only [List.map_cons, pctChange] at this ⊢
    rw [this, mul_div_mul_left _ _ hc]

/-- **C59.** The market-implied risk aversion does not depend on the unit of the prices. -/
theorem C59_scale_invariant (prices : List ℝ) (c : ℝ) (hc : c ≠ 0) (freq rf : ℝ) :
    riskAversionImplied (prices.map (c * ·)) freq rf = riskAversionImplied prices freq rf := by
  unfold riskAversionImplied
  have h0 : (0 ∈ (prices.map (c * ·)).dropLast) ↔ 0 ∈ prices.dropLast := by
    rw [← List.map_dropLast, List.mem_map]
    constructor
    · rintro ⟨a, ha, h⟩
      rcases mul_eq_zero.1 h with h | h
      · exact absurd h hc
      · exact h ▸ ha
    · intro h; exact ⟨0, h, mul_zero c⟩
  simp only [pctChange_scale hc, h0]

theorem sampleVar_nonneg (l : List ℝ) (h : 2 ≤ l.length) : 0 ≤ sampleVar l := by
  unfold sampleVar
  apply div_nonneg
  · apply List.sum_nonneg
    intro y hy
    rw [List.mem_map] at hy
    obtain ⟨x, _, rfl⟩ := hy
    exact sq_nonneg _
  · have : (2 : ℝ) ≤ l.length := by exact_mod_cast h
    linarith

/-- **C59.** With a positive frequency the implied risk aversion, when finite, is positive exactly
when the annualised mean return of the market exceeds the risk-free rate (so it is accepted by the
Black-Litterman constructor exactly then), and it times the annualised variance is the excess return. -/
theorem C59_sign (prices : List ℝ) (freq rf d : ℝ) (hf : 0 < freq)
    (h : riskAversionImplied prices freq rf = some d) :
    (0 < d ↔ rf < mean (pctChange prices) * freq) ∧
      d * (sampleVar (pctChange prices) * freq) = mean (pctChange prices) * freq - rf := by
  unfold riskAversionImplied at h
  simp only at h
  split at h
  · cases h
  · rename_i hn
    push Not at hn
    obtain ⟨h1, _, h3⟩ := hn
    have hd := Option.some.inj h
    have hpos : 0 < sampleVar (pctChange prices) * freq :=
      lt_of_le_of_ne (mul_nonneg (sampleVar_nonneg _ h1) hf.le) (Ne.symm h3)
    subst hd
    refine ⟨?_, div_mul_cancel₀ _ h3⟩
    rw [div_pos_iff_of_pos_right hpos, sub_pos]

/-- **C59** with the mean and the variance written out: the returns are `prices[t+1]/prices[t] - 1`,
the variance has one degree of freedom. -/
theorem C59_value (prices : List ℝ) (freq rf d : ℝ) (hf : 0 < freq)
    (h : riskAversionImplied prices freq rf = some d) :
    let T := prices.length - 1
    let r : ℕ → ℝ := fun t => prices.getD (t + 1) 0 / prices.getD t 0 - 1
    let m := (∑ t ∈ Finset.range T, r t) / T
    d * ((∑ t ∈ Finset.range T, (r t - m) ^ 2) / ((T : ℝ) - 1) * freq) = m * freq - rf := by
  intro T r m
  have hl : ∀ l : List ℝ, pctChange l = (List.range (l.length - 1)).map
      (fun t => l.getD (t + 1) 0 / l.getD t 0 - 1) := by
    intro l
    induction l with
    | nil => rfl
    | cons a l ih =>
      cases l with
      | nil => rfl
      | cons b l =>
        simp only [pctChange, ih, List.length_cons, Nat.add_sub_cancel]
        rw [List.range_succ_eq_map, List.map_cons, List.map_map]
        rfl
  have hsum : ∀ (f : ℕ → ℝ) (N : ℕ), ((List.range N).map f).sum = ∑ t ∈ Finset.range N, f t := by
    intro f N
    rw [Finset.sum_range, ← List.sum_ofFn, List.ofFn_eq_map, ← List.map_coe_finRange_eq_range,
      List.map_map]
    rfl
  have e := (C59_sign prices freq rf d hf h).2
  have em : mean (pctChange prices) = m := by
    rw [hl prices, mean, hsum, List.length_map, List.length_range]
  rw [sampleVar, em, hl prices, List.map_map, hsum, List.length_map, List.length_range] at e
  exact e

example : ∃ d, riskAversionImplied [100, 110, 132] 1 0 = some d ∧ 0 < d := by
  have hp : pctChange [100, 110, 132] = [(1/10 : ℝ), 1/5] := by norm_num [pctChange]
  have hv : sampleVar [(1/10 : ℝ), 1/5] = 1/200 := by norm_num [sampleVar, mean]
  have hm : mean [(1/10 : ℝ), 1/5] = 3/20 := by norm_num [mean]
  refine ⟨(3/20 * 1 - 0) / (1/200 * 1), ?_, by norm_num⟩
  unfold riskAversionImplied
  simp only [hp, hv, hm]
  rw [if_neg (by norm_num)]

end Verif.BL
