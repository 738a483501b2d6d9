import Verif.Model.HrpObj
import Verif.Spec.HrpObj
import Verif.Proof.Returns
import Verif.Props.Perf
import Verif.Props.Hrp

/-! C67: what `HRPOpt.portfolio_performance` reports. -/

set_option linter.unusedSectionVars false

noncomputable section

namespace Verif.HrpObj
open Verif.Py Verif.Frames

variable {ι κ : Type}

theorem present_col (f : Frame ι κ) (j : ℕ) : present (f.col j) = observed f j := by
  unfold present Frame.col observed
  rw [List.filterMap_map]
  congr 1

theorem pairs_col (f : Frame ι κ) (i j : ℕ) : pairs (f.col i) (f.col j) = together f i j := by
  unfold pairs Frame.col together
  rw [List.zip_map', List.filterMap_map]
  congr 1
  funext r
  simp only [Function.comp_apply, List.getD_eq_getElem?_getD]
  cases (r.2[i]?.getD none) <;> cases (r.2[j]?.getD none) <;> rfl

theorem together_self (f : Frame ι κ) (j : ℕ) :
    together f j j = (observed f j).map (fun x => (x, x)) := by
  unfold together observed
  rw [List.map_filterMap]
  congr 1
  funext r
  cases r.2.getD j none <;> rfl

theorem mean_col (f : Frame ι κ) (j : ℕ) :
    mean (f.col j) = if observed f j = [] then none else some (Returns.avg (observed f j)) := by
  unfold mean count
  rw [present_col]
  simp only [List.length_eq_zero_iff, Returns.avg]

theorem covPair_col (f : Frame ι κ) (i j : ℕ) :
    covPair (f.col i) (f.col j) = if (together f i j).length ≤ 1 then none
      else some (Returns.sampleCov ((together f i j).map Prod.fst) ((together f i j).map Prod.snd)) := by
  unfold covPair
  simp only [pairs_col]
  split
  · rfl
  · congr 1
    unfold Returns.sampleCov Returns.avg
    simp only [List.length_map]
    congr 2
    rw [List.zipWith_map_left, List.zipWith_map_right, List.zipWith_self]

theorem map_range_ofFn {α : Type} (n : ℕ) (g : ℕ → α) :
    (List.range n).map g = List.ofFn (fun i : Fin n => g i) := by
  apply List.ext_getElem <;> simp

theorem mapM_id_ofFn {n : ℕ} (m : Fin n → ℝ) :
    (List.ofFn (fun i => some (m i))).mapM id = some (List.ofFn m) := by
  induction n with
  | zero => rfl
  | succ n ih =>
    rw [List.ofFn_succ, List.ofFn_succ, List.mapM_cons]
    simp only [id_eq, Option.bind_eq_bind, Option.bind_some, ih (fun i => m i.succ)]
    rfl

theorem numbers_ofFn {k n : ℕ} (S : Fin k → Fin n → ℝ) :
    numbers (List.ofFn fun i => List.ofFn fun j => some (S i j)) =
      some (List.ofFn fun i => List.ofFn (S i)) := by
  unfold numbers
  induction k with
  | zero => rfl
  | succ k ih =>
    rw [List.ofFn_succ, List.ofFn_succ, List.mapM_cons, mapM_id_ofFn]
    simp only [Option.bind_eq_bind, Option.bind_some, ih (fun i => S i.succ)]
    rfl

theorem mapM_none {α β : Type} (g : α → Option β) : ∀ (l : List α) {x : α}, x ∈ l → g x = none →
    l.mapM g = none
  | y :: l, x, hx, h => by
    rw [List.mapM_cons]
    rcases List.mem_cons.1 hx with rfl | hx
    · simp [h]
    · rw [mapM_none g l hx h]
      cases g y <;> rfl

/-- The report on numbers without gaps. -/
theorem arrayPerformance_ofFn {n : ℕ} (w m : Fin n → ℝ) (S : Fin n → Fin n → ℝ) (rf : ℝ) :
    ∃ r, arrayPerformance (List.ofFn w) (some (List.ofFn fun i => some (m i)))
        (List.ofFn fun i => List.ofFn fun j => some (S i j)) rf = .ok r ∧
      Perf.Documented w m S rf r := by
  refine ⟨_, ?_, Perf.documented_of w m S rf⟩
  unfold arrayPerformance
  rw [if_neg (by simp)]
  have hq := Perf.quadForm_ofFn w S
  unfold Perf.quadForm at hq
  rw [if_pos (by simp)] at hq
  simp only [Except.ok.injEq] at hq
  simp only [numbers_ofFn, mapM_id_ofFn, List.length_ofFn, ne_eq, not_true_eq_false, if_false, hq,
    Perf.dot_ofFn]
  rfl

theorem means_scaled (f : Frame ι κ) (freq : ℝ) (h : ∀ j < f.cols.length, observed f j ≠ []) :
    (means f).map (fun c => c.map (· * freq)) =
      List.ofFn fun i : Fin f.cols.length => some (annualMean f freq i) := by
  unfold means
  rw [List.map_map, map_range_ofFn]
  congr 1
  funext i
  simp only [Function.comp_apply, mean_col, if_neg (h i i.2), Option.map_some, annualMean]

theorem covRows_scaled (f : Frame ι κ) (freq : ℝ)
    (h : ∀ i < f.cols.length, ∀ j < f.cols.length, 2 ≤ (together f i j).length) :
    (covRows f).map (fun r => r.map (fun c => c.map (· * freq))) =
      List.ofFn fun i : Fin f.cols.length => List.ofFn fun j : Fin f.cols.length =>
        some (annualCov f freq i j) := by
  unfold covRows
  rw [List.map_map, map_range_ofFn]
  congr 1
  funext i
  simp only [Function.comp_apply, List.map_map]
  rw [map_range_ofFn]
  congr 1
  funext j
  have := h i i.2 j j.2
  simp only [Function.comp_apply, covPair_col, if_neg (show ¬ (together f i j).length ≤ 1 by omega),
    Option.map_some, annualCov]

/-- **C67 (reported numbers).**  When every two assets share at least two days of returns, the report is
the return, volatility and Sharpe ratio of the stored weights at the annualised means and covariances
of the days available. -/
theorem C67_reported (o : Obj ι κ) (f : Frame ι κ) (hf : o.returns = some f)
    (w : Fin f.cols.length → ℝ) (hw : o.base.weights = some (List.ofFn w)) (rf freq : ℝ)
    (h : ∀ i < f.cols.length, ∀ j < f.cols.length, 2 ≤ (together f i j).length) :
    ∃ r, o.performance rf freq = .ok r ∧
      Perf.Documented w (fun i => annualMean f freq i) (fun i j => annualCov f freq i j) rf r := by
  obtain ⟨r, h1, h2⟩ := arrayPerformance_ofFn w (fun i => annualMean f freq i)
    (fun i j => annualCov f freq i j) rf
  refine ⟨r, ?_, h2⟩
  unfold Obj.performance
  rw [hw, hf]
  simp only
  rw [means_scaled f freq, covRows_scaled f freq h, h1]
  intro j hj e
  have := h j hj j hj
  rw [together_self, e] at this
  simp at this

/-- **C67 (gaps).**  An asset without any return makes the reported return and Sharpe ratio NaN; two
assets with fewer than two days in common make the volatility and the Sharpe ratio NaN — whatever the
weights. -/
theorem C67_gaps (o : Obj ι κ) (f : Frame ι κ) (hf : o.returns = some f)
    (w : List ℝ) (hw : o.base.weights = some w) (hl : w.length = f.cols.length) (rf freq : ℝ) :
    ∃ mu sigma sh, o.performance rf freq = .ok (some mu, sigma, some sh) ∧
      ((∃ j < f.cols.length, observed f j = []) → mu = .nan ∧ sh = .nan) ∧
      ((∃ i < f.cols.length, ∃ j < f.cols.length, (together f i j).length ≤ 1) →
        sigma = .nan ∧ sh = .nan) := by
  unfold Obj.performance
  rw [hw, hf]
  simp only
  have hc : ((covRows f).map (fun r => r.map (fun c => c.map (· * freq)))).length = w.length ∧
      ((covRows f).map (fun r => r.map (fun c => c.map (· * freq)))).all
        (fun r => r.length == w.length) := by
    simp [covRows, hl]
  have hm : ((means f).map (fun c => c.map (· * freq))).length = w.length := by simp [means, hl]
  have hn1 : (∃ j < f.cols.length, observed f j = []) →
      ((means f).map (fun c => c.map (· * freq))).mapM id = none := by
    rintro ⟨j, hj, e⟩
    refine mapM_none id _ (x := none) ?_ rfl
    refine List.mem_map.2 ⟨none, ?_, rfl⟩
    refine List.mem_map.2 ⟨j, List.mem_range.2 hj, ?_⟩
    rw [mean_col, if_pos e]
  have hn2 : (∃ i < f.cols.length, ∃ j < f.cols.length, (together f i j).length ≤ 1) →
      numbers ((covRows f).map (fun r => r.map (fun c => c.map (· * freq)))) = none := by
    rintro ⟨i, hi, j, hj, e⟩
    unfold numbers
    refine mapM_none _ _ (x := ((List.range f.cols.length).map fun j =>
      covPair (f.col i) (f.col j)).map (fun c => c.map (· * freq))) ?_ ?_
    · exact List.mem_map_of_mem (List.mem_map.2 ⟨i, List.mem_range.2 hi, rfl⟩)
    · refine mapM_none id _ (x := none) ?_ rfl
      refine List.mem_map.2 ⟨none, ?_, rfl⟩
      refine List.mem_map.2 ⟨j, List.mem_range.2 hj, ?_⟩
      rw [covPair_col, if_pos e]
  unfold arrayPerformance
  rw [if_neg (not_not.2 hc)]
  simp only [hm, ne_eq, not_true_eq_false, if_false]
  cases h1 : ((means f).map (fun c => c.map (· * freq))).mapM id with
  | none =>
    refine ⟨_, _, _, rfl, fun _ => ⟨rfl, rfl⟩, fun h => ?_⟩
    rw [hn2 h]
    exact ⟨rfl, rfl⟩
  | some m =>
    refine ⟨_, _, _, rfl, fun h => ?_, fun h => ?_⟩
    · rw [hn1 h] at h1
      cases h1
    · rw [hn2 h]
      exact ⟨rfl, rfl⟩

/-- **C67 (frequency).**  For complete enough data the reported return is proportional to the number of
periods in a year and the volatility to its square root. -/
theorem C67_frequency (o : Obj ι κ) (f : Frame ι κ) (hf : o.returns = some f)
    (w : Fin f.cols.length → ℝ) (hw : o.base.weights = some (List.ofFn w)) (rf rf' freq : ℝ) (h0 : 0 ≤ freq)
    (h : ∀ i < f.cols.length, ∀ j < f.cols.length, 2 ≤ (together f i j).length)
    (hp : 0 ≤ Perf.specVariance w (fun i j => annualCov f 1 i j)) :
    ∃ mu sigma sh sh', o.performance rf' 1 = .ok (some (.fin mu), .fin sigma, some sh) ∧
      o.performance rf freq = .ok (some (.fin (mu * freq)), .fin (sigma * Real.sqrt freq), some sh') := by
  obtain ⟨r, h1, a1, a2, -, -, -⟩ := C67_reported o f hf w hw rf' 1 h
  obtain ⟨r', h1', b1, b2, -, -, -⟩ := C67_reported o f hf w hw rf freq h
  obtain ⟨mu, sigma, sh⟩ := r
  obtain ⟨mu', sigma', sh'⟩ := r'
  simp only at a1 a2 b1 b2
  have hv : Perf.specVariance w (fun i j => annualCov f freq i j) =
      Perf.specVariance w (fun i j => annualCov f 1 i j) * freq := by
    simp only [Perf.specVariance, annualCov, mul_one, Finset.sum_mul]
    refine Finset.sum_congr rfl fun i _ => Finset.sum_congr rfl fun j _ => ?_
    ring
  have hm : Perf.specReturn w (fun i => annualMean f freq i) =
      Perf.specReturn w (fun i => annualMean f 1 i) * freq := by
    simp only [Perf.specReturn, annualMean, mul_one, Finset.sum_mul]
    refine Finset.sum_congr rfl fun i _ => ?_
    ring
  have hsh : ∀ {mu sigma sh}, o.performance rf' 1 = .ok (some mu, sigma, sh) → ∃ x, sh = some x := by
    intro mu sigma sh h
    obtain ⟨m, s, x, e, -⟩ := C67_gaps o f hf _ hw (by simp) rf' 1
    rw [e] at h
    cases h
    exact ⟨_, rfl⟩
  have hsh' : ∀ {mu sigma sh}, o.performance rf freq = .ok (some mu, sigma, sh) → ∃ x, sh = some x := by
    intro mu sigma sh h
    obtain ⟨m, s, x, e, -⟩ := C67_gaps o f hf _ hw (by simp) rf freq
    rw [e] at h
    cases h
    exact ⟨_, rfl⟩
  rw [a1, a2 hp] at h1
  rw [b1, b2 (by rw [hv]; exact mul_nonneg hp h0), hv, hm, Real.sqrt_mul hp] at h1'
  obtain ⟨x, rfl⟩ := hsh h1
  obtain ⟨x', rfl⟩ := hsh' h1'
  exact ⟨_, _, _, _, h1, h1'⟩

/-- **C67 (covariance only).**  The volatility of the stored weights at the covariances as given: no
return, no Sharpe ratio, and neither the frequency nor the risk-free rate matters. -/
theorem C67_covariance {n : ℕ} (o : Obj ι κ) (hr : o.returns = none) (cols : List κ)
    (S : Fin n → Fin n → ℝ) (hc : o.cov = .frame cols (List.ofFn fun i => List.ofFn (S i)))
    (w : Fin n → ℝ) (hw : o.base.weights = some (List.ofFn w)) (rf freq : ℝ) :
    ∃ σ, o.performance rf freq = .ok (none, σ, none) ∧
      (0 ≤ Perf.specVariance w S → σ = .fin (Real.sqrt (Perf.specVariance w S))) := by
  refine ⟨Perf.fsqrt (Perf.specVariance w S), ?_, fun h => by simp [Perf.fsqrt, not_lt.2 h]⟩
  have hq := Perf.quadForm_ofFn w S
  unfold Perf.quadForm at hq
  rw [if_pos (by simp)] at hq
  simp only [Except.ok.injEq] at hq
  unfold Obj.performance
  rw [hw, hr, hc]
  simp only
  have e : (List.ofFn fun i => List.ofFn (S i)).map (fun r => r.map some) =
      List.ofFn fun i => List.ofFn fun j => some (S i j) := by
    rw [List.map_ofFn]
    congr 1
    funext i
    simp only [Function.comp_apply, List.map_ofFn]
    rfl
  unfold arrayPerformance
  rw [e, if_neg (by simp)]
  simp only [numbers_ofFn, hq]

theorem lookupAll_ok [DecidableEq κ] (d : Dict κ ℝ) : ∀ (ts : List κ) {l : List ℝ},
    Base.lookupAll d ts = .ok l →
      l = ts.map (fun t => (Dict.get? d t).getD 0) ∧ ∀ t ∈ ts, Dict.get? d t ≠ none
  | [], l, h => by
    simp only [Base.lookupAll, Except.ok.injEq] at h
    subst h
    simp
  | t :: ts, l, h => by
    unfold Base.lookupAll at h
    cases e : Dict.get? d t with
    | none => simp [e] at h
    | some v =>
      simp only [e] at h
      cases e' : Base.lookupAll d ts with
      | error _ => simp [e', Except.map] at h
      | ok l' =>
        simp only [e', Except.map, Except.ok.injEq] at h
        subst h
        obtain ⟨h1, h2⟩ := lookupAll_ok d ts e'
        refine ⟨by simp [e, h1], ?_⟩
        intro x hx
        rcases List.mem_cons.1 hx with rfl | hx
        · simp [e]
        · exact h2 x hx

theorem setWeights_cases [DecidableEq κ] (o : Base.Opt κ ℝ) (d : Dict κ ℝ) :
    (∃ e, Base.setWeights o d = (o, .error e)) ∨
    (Base.setWeights o d = ({ o with weights := some (o.tickers.map (fun t => (Dict.get? d t).getD 0)) },
      .ok ()) ∧ ∀ t ∈ o.tickers, Dict.get? d t ≠ none) := by
  unfold Base.setWeights
  cases h : Base.lookupAll d o.tickers with
  | error e => exact .inl ⟨e, rfl⟩
  | ok l =>
    obtain ⟨rfl, h2⟩ := lookupAll_ok d _ h
    exact .inr ⟨rfl, h2⟩

variable [LinearOrder κ]

theorem optimize_cases (linkage : (κ → κ → ℝ) → Except PyErr (List (ℕ × ℕ))) (fuel : ℕ) (ok : Bool)
    (o : Base.Opt κ ℝ) (inp : Hrp.Input κ) :
    ((Hrp.optimize linkage fuel ok o inp).1 = o ∧ ∀ d, (Hrp.optimize linkage fuel ok o inp).2 ≠ some (.ok d)) ∨
    (∃ d, Hrp.optimize linkage fuel ok o inp =
      ({ o with weights := some (o.tickers.map (fun t => (Dict.get? d t).getD 0)) }, some (.ok d)) ∧
      ∀ t ∈ o.tickers, Dict.get? d t ≠ none) := by
  unfold Hrp.optimize
  split
  · exact .inl ⟨rfl, by simp⟩
  · split
    · exact .inl ⟨rfl, by simp⟩
    · split
      · exact .inl ⟨rfl, by simp⟩
      · split
        · exact .inl ⟨rfl, by simp⟩
        · split
          · exact .inl ⟨rfl, by simp⟩
          · next hrp _ =>
            rcases setWeights_cases o (Dict.ofPairs (Hrp.sortIndex hrp)) with ⟨e, h⟩ | ⟨h, h'⟩
            · left
              constructor
              · simp [h]
              · simp [h]
            · right
              refine ⟨Dict.ofPairs (Hrp.sortIndex hrp), ?_, h'⟩
              dsimp only
              rw [h]

theorem objOptimize_cases (linkage : (κ → κ → ℝ) → Except PyErr (List (ℕ × ℕ))) (fuel : ℕ) (ok : Bool)
    (o : Obj ι κ) :
    ((o.optimize linkage fuel ok).1 = o ∧ ∀ d, (o.optimize linkage fuel ok).2 ≠ some (.ok d)) ∨
    (∃ d, o.optimize linkage fuel ok = ({ o with base := { o.base with
        weights := some (o.base.tickers.map (fun t => (Dict.get? d t).getD 0)) } }, some (.ok d)) ∧
      ∀ t ∈ o.base.tickers, Dict.get? d t ≠ none) := by
  unfold Obj.optimize
  split
  · exact .inl ⟨rfl, by simp⟩
  · split
    · exact .inl ⟨rfl, by simp⟩
    · next inp _ =>
      rcases optimize_cases linkage fuel ok o.base inp with ⟨h1, h2⟩ | ⟨d, h1, h2⟩
      · exact .inl ⟨by simp [h1], h2⟩
      · exact .inr ⟨d, by simp only [h1], h2⟩

/-- The calls that can change an `HRPOpt` object. -/
inductive Call (κ : Type)
  | optimize (fuel : ℕ) (methodOk : Bool)
  | setWeights (d : Dict κ ℝ)

/-- One call: the object afterwards, and the weights it returned or was given if it succeeded. -/
def Call.run (linkage : (κ → κ → ℝ) → Except PyErr (List (ℕ × ℕ))) (o : Obj ι κ) :
    Call κ → Obj ι κ × Option (Dict κ ℝ)
  | .optimize fuel ok =>
    match o.optimize linkage fuel ok with
    | (o', some (.ok d)) => (o', some d)
    | (o', _) => (o', none)
  | .setWeights d =>
    match o.setWeights d with
    | (o', .ok _) => (o', some d)
    | (o', .error _) => (o', none)

/-- A sequence of calls; the weights of the last one that succeeded. -/
def runs (linkage : (κ → κ → ℝ) → Except PyErr (List (ℕ × ℕ))) :
    Obj ι κ → Option (Dict κ ℝ) → List (Call κ) → Obj ι κ × Option (Dict κ ℝ)
  | o, last, [] => (o, last)
  | o, last, c :: cs =>
    runs linkage (c.run linkage o).1 ((c.run linkage o).2.or last) cs

/-- What the object holds after a history whose last success had the weights `last`. -/
def Holds (o : Obj ι κ) (last : Option (Dict κ ℝ)) : Prop :=
  match last with
  | none => o.base.weights = none
  | some d => o.base.weights = some (o.base.tickers.map fun t => (Dict.get? d t).getD 0) ∧
      ∀ t ∈ o.base.tickers, Dict.get? d t ≠ none

theorem run_holds (linkage : (κ → κ → ℝ) → Except PyErr (List (ℕ × ℕ))) (o : Obj ι κ)
    (last : Option (Dict κ ℝ)) (h : Holds o last) (c : Call κ) :
    Holds (c.run linkage o).1 ((c.run linkage o).2.or last) ∧
      (c.run linkage o).1.returns = o.returns ∧ (c.run linkage o).1.cov = o.cov ∧
      (c.run linkage o).1.base.tickers = o.base.tickers := by
  cases c with
  | optimize fuel ok =>
    rcases objOptimize_cases linkage fuel ok o with ⟨h1, h2⟩ | ⟨d, h1, h2⟩
    · have e : (Call.optimize fuel ok).run linkage o = (o, none) := by
        show (match o.optimize linkage fuel ok with
          | (o', some (.ok d)) => (o', some d)
          | (o', _) => (o', none)) = _
        revert h1 h2
        generalize o.optimize linkage fuel ok = R
        obtain ⟨o', r⟩ := R
        rintro rfl h2
        match r, h2 with
        | none, _ => rfl
        | some (.error _), _ => rfl
        | some (.ok d), h2 => exact absurd rfl (h2 d)
      rw [e]
      exact ⟨h, rfl, rfl, rfl⟩
    · have e : (Call.optimize fuel ok).run linkage o = ((o.optimize linkage fuel ok).1, some d) := by
        show (match o.optimize linkage fuel ok with
          | (o', some (.ok d)) => (o', some d)
          | (o', _) => (o', none)) = _
        rw [h1]
      rw [e, h1]
      exact ⟨⟨rfl, h2⟩, rfl, rfl, rfl⟩
  | setWeights d =>
    rcases setWeights_cases o.base d with ⟨x, h1⟩ | ⟨h1, h2⟩
    · have e : (Call.setWeights d).run linkage o = (o, none) := by
        simp only [Call.run, Obj.setWeights, h1]
      rw [e]
      exact ⟨h, rfl, rfl, rfl⟩
    · have e : (Call.setWeights d).run linkage o = ((o.setWeights d).1, some d) := by
        simp only [Call.run, Obj.setWeights, h1]
      rw [e]
      unfold Obj.setWeights
      rw [h1]
      exact ⟨⟨rfl, h2⟩, rfl, rfl, rfl⟩

theorem runs_holds (linkage : (κ → κ → ℝ) → Except PyErr (List (ℕ × ℕ))) :
    ∀ (cs : List (Call κ)) (o : Obj ι κ) (last : Option (Dict κ ℝ)), Holds o last →
      Holds (runs linkage o last cs).1 (runs linkage o last cs).2 ∧
        (runs linkage o last cs).1.returns = o.returns ∧ (runs linkage o last cs).1.cov = o.cov ∧
        (runs linkage o last cs).1.base.tickers = o.base.tickers
  | [], _, _, h => ⟨h, rfl, rfl, rfl⟩
  | c :: cs, o, last, h => by
    obtain ⟨h1, h2, h3, h4⟩ := run_holds linkage o last h c
    obtain ⟨g1, g2, g3, g4⟩ := runs_holds linkage cs _ _ h1
    exact ⟨g1, g2.trans h2, g3.trans h3, g4.trans h4⟩

/-- **C67 (history).**  After any sequence of calls on an object made from returns, the report is ValueError
if no call succeeded, and otherwise the performance of the weights the last successful call returned
(or was given), at the means and covariances of the returns the object was made from; a `cov_matrix`
given besides plays no part. -/
theorem C67_history (linkage : (κ → κ → ℝ) → Except PyErr (List (ℕ × ℕ))) (f : Frame ι κ) (c : CovIn κ)
    {o : Obj ι κ} (ho : init (.frame f) c = .ok o) (cs : List (Call κ)) (rf freq : ℝ)
    (h : ∀ i < f.cols.length, ∀ j < f.cols.length, 2 ≤ (together f i j).length) :
    match (runs linkage o none cs).2 with
    | none => (runs linkage o none cs).1.performance rf freq = .error .valueError
    | some d => ∃ r, (runs linkage o none cs).1.performance rf freq = .ok r ∧
        ∃ w : Fin f.cols.length → ℝ, (∀ i, Dict.get? d f.cols[i] = some (w i)) ∧
          Perf.Documented w (fun i => annualMean f freq i) (fun i j => annualCov f freq i j) rf r := by
  have ho' : o = { returns := some f, cov := c, base := { tickers := f.cols, weights := none } } := by
    cases c <;> (simp only [init, Except.ok.injEq] at ho; exact ho.symm)
  subst ho'
  have hh : Holds ({ returns := some f, cov := c, base := { tickers := f.cols, weights := none } } :
      Obj ι κ) none := rfl
  obtain ⟨h1, h2, -, h4⟩ := runs_holds linkage cs _ none hh
  revert h1 h2 h4
  generalize runs linkage _ none cs = R
  obtain ⟨o', last⟩ := R
  intro h1 h2 h4
  cases last with
  | none =>
    simp only [Holds] at h1
    simp [Obj.performance, h1]
  | some d =>
    obtain ⟨h5, h6⟩ := h1
    simp only at h2 h4 h5 h6 ⊢
    rw [h4] at h5 h6
    have hw : o'.base.weights = some (List.ofFn fun i : Fin f.cols.length => (Dict.get? d f.cols[i]).getD 0) := by
      rw [h5]
      congr 1
      apply List.ext_getElem <;> simp
    obtain ⟨r, g1, g2⟩ := C67_reported o' f h2 _ hw rf freq h
    refine ⟨r, g1, _, fun i => ?_, g2⟩
    have := h6 f.cols[i] (List.getElem_mem _)
    cases e : Dict.get? d f.cols[i] with
    | none => exact absurd e this
    | some v => rfl

/-- The same for an object made from a covariance frame. -/
theorem C67_history_covariance (linkage : (κ → κ → ℝ) → Except PyErr (List (ℕ × ℕ))) (cols : List κ)
    (S : Fin cols.length → Fin cols.length → ℝ) {o : Obj ι κ}
    (ho : init .none (.frame cols (List.ofFn fun i => List.ofFn (S i))) = .ok o) (cs : List (Call κ))
    (rf freq : ℝ) :
    match (runs linkage o none cs).2 with
    | none => (runs linkage o none cs).1.performance rf freq = .error .valueError
    | some d => ∃ σ, (runs linkage o none cs).1.performance rf freq = .ok (none, σ, none) ∧
        ∃ w : Fin cols.length → ℝ, (∀ i, Dict.get? d cols[i] = some (w i)) ∧
          (0 ≤ Perf.specVariance w S → σ = .fin (Real.sqrt (Perf.specVariance w S))) := by
  simp only [init, Except.ok.injEq] at ho
  subst ho
  have hh : Holds (⟨none, .frame cols (List.ofFn fun i => List.ofFn (S i)), ⟨cols, none⟩⟩ : Obj ι κ)
      none := rfl
  obtain ⟨h1, h2, h3, h4⟩ := runs_holds linkage cs _ none hh
  revert h1 h2 h3 h4
  generalize runs linkage _ none cs = R
  obtain ⟨o', last⟩ := R
  intro h1 h2 h3 h4
  cases last with
  | none =>
    simp only [Holds] at h1
    simp [Obj.performance, h1]
  | some d =>
    obtain ⟨h5, h6⟩ := h1
    simp only at h2 h3 h4 h5 h6 ⊢
    rw [h4] at h5 h6
    have hw : o'.base.weights = some (List.ofFn fun i : Fin cols.length => (Dict.get? d cols[i]).getD 0) := by
      rw [h5]
      congr 1
      apply List.ext_getElem <;> simp
    obtain ⟨r, g1, g2⟩ := C67_covariance o' h2 cols S h3 _ hw rf freq
    refine ⟨r, g1, _, fun i => ?_, g2⟩
    have := h6 cols[i] (List.getElem_mem _)
    cases e : Dict.get? d cols[i] with
    | none => exact absurd e this
    | some v => rfl

/-- **C67 (constructor).**  Which arguments are refused, and how. -/
theorem C67_init (c : CovIn κ) :
    init (ι := ι) .none (.none : CovIn κ) = .error .valueError ∧
    init (ι := ι) .other c = .error .typeError ∧
    init (ι := ι) .none (.other : CovIn κ) = .error .attribute :=
  ⟨rfl, by cases c <;> rfl, rfl⟩

theorem corrPair_col (f : Frame ι κ) (i j : ℕ) (h : 2 ≤ (together f i j).length)
    (h1 : 0 < Returns.sampleCov ((together f i j).map Prod.fst) ((together f i j).map Prod.fst))
    (h2 : 0 < Returns.sampleCov ((together f i j).map Prod.snd) ((together f i j).map Prod.snd)) :
    ∃ x, corrPair (f.col i) (f.col j) = some x := by
  unfold corrPair
  simp only [pairs_col]
  have e : ∀ g : ℝ × ℝ → ℝ, 0 < Returns.sampleCov ((together f i j).map g) ((together f i j).map g) →
      0 < ((together f i j).map (fun p => (g p -
        ((together f i j).map g).sum / (together f i j).length) ^ 2)).sum := by
    intro g hg
    unfold Returns.sampleCov Returns.avg at hg
    simp only [List.length_map, List.zipWith_self, List.map_map, Function.comp_def] at hg
    have h3 : (0 : ℝ) < ((together f i j).length : ℝ) - 1 := by
      have : (2 : ℝ) ≤ (together f i j).length := by exact_mod_cast h
      linarith
    have := (div_pos_iff_of_pos_right h3).1 hg
    simpa only [sq] using this
  rw [if_neg]
  · exact ⟨_, rfl⟩
  · rintro (h3 | h3)
    · omega
    · have := Real.sqrt_pos.2 (mul_pos (e Prod.fst h1) (e Prod.snd h2))
      exact this.ne' h3

theorem numbers_range (n : ℕ) (g : ℕ → ℕ → Cell) (S : ℕ → ℕ → ℝ)
    (h : ∀ i < n, ∀ j < n, g i j = some (S i j)) :
    numbers ((List.range n).map fun i => (List.range n).map fun j => g i j) =
      some (List.ofFn fun i : Fin n => List.ofFn fun j : Fin n => S i j) := by
  rw [← numbers_ofFn, map_range_ofFn]
  congr 2
  funext i
  rw [map_range_ofFn]
  congr 1
  funext j
  exact h i i.2 j j.2

theorem loc_ofFn (cols : List κ) (S : ℕ → ℕ → ℝ) {a b : κ} (ha : a ∈ cols) (hb : b ∈ cols) :
    loc cols (List.ofFn fun i : Fin cols.length => List.ofFn fun j : Fin cols.length => S i j) a b =
      S (cols.idxOf a) (cols.idxOf b) := by
  have h1 := List.idxOf_lt_length_of_mem ha
  have h2 := List.idxOf_lt_length_of_mem hb
  simp [loc, List.getD_eq_getElem?_getD, h1, h2]

/-- **C67 (optimised).**  Distinct assets whose returns share days, vary, and have a positive definite
covariance: whatever valid clustering scipy answers, `optimize` succeeds with a long-only fully
invested portfolio, and the report afterwards is the performance of exactly that portfolio. -/
theorem C67_optimised (linkage : (κ → κ → ℝ) → Except PyErr (List (ℕ × ℕ))) (f : Frame ι κ) (c : CovIn κ)
    (hn : f.cols.Nodup)
    (hlink : ∀ D, ∃ link, linkage D = .ok link ∧ Hrp.ValidLinkage f.cols.length link)
    (h : ∀ i < f.cols.length, ∀ j < f.cols.length, 2 ≤ (together f i j).length ∧
      0 < Returns.sampleCov ((together f i j).map Prod.fst) ((together f i j).map Prod.fst) ∧
      0 < Returns.sampleCov ((together f i j).map Prod.snd) ((together f i j).map Prod.snd))
    (hpd : Hrp.PosDefOn (fun a b => annualCov f 1 (f.cols.idxOf a) (f.cols.idxOf b)) f.cols)
    (fuel : ℕ) (hf : f.cols.length + 2 ≤ fuel) (rf freq : ℝ) :
    ∃ o o' d r, init (.frame f) c = .ok o ∧
      o.optimize linkage fuel true = (o', some (.ok d)) ∧ Hrp.FullyInvested f.cols d ∧
      o'.performance rf freq = .ok r ∧
      ∃ w : Fin f.cols.length → ℝ, (∀ i, Dict.get? d f.cols[i] = some (w i)) ∧
        Perf.Documented w (fun i => annualMean f freq i) (fun i j => annualCov f freq i j) rf r := by
  have ho : init (.frame f) c = .ok
      ({ returns := some f, cov := c, base := { tickers := f.cols, weights := none } } : Obj ι κ) := by
    cases c <;> rfl
  choose! C hC using fun i (hi : i < f.cols.length) j (hj : j < f.cols.length) =>
    corrPair_col f i j (h i hi j hj).1 (h i hi j hj).2.1 (h i hi j hj).2.2
  have h1 : numbers (corrRows f) = some _ := numbers_range _ _ C hC
  have h2 : numbers (covRows f) = some _ := numbers_range _ _ (annualCov f 1) (by
    intro i hi j hj
    rw [covPair_col, if_neg (by have := (h i hi j hj).1; omega)]
    simp [annualCov])
  set o : Obj ι κ := { returns := some f, cov := c, base := { tickers := f.cols, weights := none } } with hod
  obtain ⟨link, hl1, hl2⟩ := hlink (Hrp.distance (Hrp.Input.returns
    (loc f.cols (List.ofFn fun i : Fin f.cols.length => List.ofFn fun j : Fin f.cols.length => C i j))
    (loc f.cols (List.ofFn fun i : Fin f.cols.length => List.ofFn fun j : Fin f.cols.length =>
      annualCov f 1 i j))).corrUsed)
  have hpd' : Hrp.PosDefOn (loc f.cols (List.ofFn fun i : Fin f.cols.length =>
      List.ofFn fun j : Fin f.cols.length => annualCov f 1 i j)) f.cols := by
    intro x hx
    have := hpd x hx
    refine lt_of_lt_of_eq this ?_
    congr 1
    apply List.map_congr_left
    intro s hs
    congr 1
    apply List.map_congr_left
    intro t ht
    rw [loc_ofFn f.cols (annualCov f 1) hs ht]
  obtain ⟨b, d, g1, g2, -⟩ := Hrp.C14_optimize linkage o.base _ hn link hl1 hl2 hpd' fuel hf
  have hopt : o.optimize linkage fuel true = ({ o with base := b }, some (.ok d)) := by
    unfold Obj.optimize
    simp only [Bool.not_true, Bool.false_eq_true, if_false]
    have : o.input = some (.returns
        (loc f.cols (List.ofFn fun i : Fin f.cols.length => List.ofFn fun j : Fin f.cols.length => C i j))
        (loc f.cols (List.ofFn fun i : Fin f.cols.length => List.ofFn fun j : Fin f.cols.length =>
          annualCov f 1 i j))) := by
      unfold Obj.input
      simp only [hod, h1, h2]
    rw [this]
    simp only [g1]
  have hh := C67_history linkage f c ho [.optimize fuel true] rf freq (fun i hi j hj => (h i hi j hj).1)
  have hr : runs linkage o none [.optimize fuel true] = ({ o with base := b }, some d) := by
    simp only [runs, Call.run, hopt]
    rfl
  rw [hr] at hh
  obtain ⟨r, k1, k2⟩ := hh
  exact ⟨o, _, d, r, ho, hopt, g2, k1, k2⟩

/-- **C67 (agreement).**  The report equals the module-level `portfolio_performance` on the dict of weights,
the series of annualised means and the frame of annualised covariances, unless the weights sum to zero. -/
theorem C67_agrees (natKey : ℕ → κ) (linkage : (κ → κ → ℝ) → Except PyErr (List (ℕ × ℕ))) (f : Frame ι κ)
    (c : CovIn κ) {o : Obj ι κ} (ho : init (.frame f) c = .ok o) (cs : List (Call κ)) (rf freq : ℝ)
    (h : ∀ i < f.cols.length, ∀ j < f.cols.length, 2 ≤ (together f i j).length)
    {d : Dict κ ℝ} (hd : (runs linkage o none cs).2 = some d)
    (hs : (f.cols.map fun t => (Dict.get? d t).getD 0).sum ≠ 0) :
    (runs linkage o none cs).1.performance rf freq =
      Perf.performance natKey (.dict d)
        (.series (List.ofFn fun i : Fin f.cols.length => (f.cols[i], annualMean f freq i)))
        (.frame f.cols (List.ofFn fun i : Fin f.cols.length => List.ofFn fun j : Fin f.cols.length =>
          annualCov f freq i j)) rf := by
  have ho' : o = { returns := some f, cov := c, base := { tickers := f.cols, weights := none } } := by
    cases c <;> (simp only [init, Except.ok.injEq] at ho; exact ho.symm)
  subst ho'
  have hh : Holds ({ returns := some f, cov := c, base := { tickers := f.cols, weights := none } } :
      Obj ι κ) none := rfl
  obtain ⟨h1, h2, -, h4⟩ := runs_holds linkage cs _ none hh
  rw [hd] at h1
  obtain ⟨h5, -⟩ := h1
  simp only at h2 h4 h5
  rw [h4] at h5
  have hw : f.cols.map (fun t => (Dict.get? d t).getD 0) =
      List.ofFn fun i : Fin f.cols.length => (Dict.get? d f.cols[i]).getD 0 := by
    apply List.ext_getElem <;> simp
  have hq := Perf.quadForm_ofFn (fun i : Fin f.cols.length => (Dict.get? d f.cols[i]).getD 0)
    (fun i j => annualCov f freq i j)
  have hq' := hq
  unfold Perf.quadForm at hq'
  rw [if_pos (by simp)] at hq'
  simp only [Except.ok.injEq] at hq'
  have hm := Perf.matmul_ofFn (fun i : Fin f.cols.length => (Dict.get? d f.cols[i]).getD 0)
    (fun i => annualMean f freq i)
  have hm' := hm
  unfold Perf.matmul at hm'
  rw [if_pos (by simp)] at hm'
  simp only [Except.ok.injEq] at hm'
  have hobs : ∀ j < f.cols.length, observed f j ≠ [] := by
    intro j hj e
    have := h j hj j hj
    rw [together_self, e] at this
    simp at this
  have ht : (List.ofFn fun i : Fin f.cols.length => (f.cols[i], annualMean f freq i)).map Prod.fst =
      f.cols := by
    apply List.ext_getElem <;> simp
  have hv : (List.ofFn fun i : Fin f.cols.length => (f.cols[i], annualMean f freq i)).map Prod.snd =
      List.ofFn fun i : Fin f.cols.length => annualMean f freq i := by
    apply List.ext_getElem <;> simp
  unfold Obj.performance
  rw [h5, h2]
  simp only
  rw [means_scaled f freq hobs, covRows_scaled f freq h]
  unfold arrayPerformance Perf.performance Perf.weightVector Perf.sharpe
  simp only [Perf.tickersOf, ht, bind, Except.bind, Perf.ReturnsArg.values, hv, Perf.CovArg.rows]
  rw [if_neg hs, hw]
  simp only [hq, hm, hq', hm', numbers_ofFn, mapM_id_ofFn, List.length_ofFn, ne_eq, not_true_eq_false, if_false]
  rw [if_neg (by simp)]
  rfl

/-- Three days of two uncorrelated assets. -/
def twoAssets : Frame ℕ ℕ := full [7, 3] [(0, [1, 1]), (1, [-1, 1]), (2, [0, -2])]

theorem twoAssets_together : together twoAssets 0 0 = [(1, 1), (-1, -1), (0, 0)] ∧
    together twoAssets 0 1 = [(1, 1), (-1, 1), (0, -2)] ∧
    together twoAssets 1 0 = [(1, 1), (1, -1), (-2, 0)] ∧
    together twoAssets 1 1 = [(1, 1), (1, 1), (-2, -2)] := ⟨rfl, rfl, rfl, rfl⟩

/-- Non-vacuity: these returns meet the hypotheses of `C67_optimised`, and the portfolio found has
expected return 0 here. -/
example (rf freq : ℝ) : ∃ (o o' : Obj ℕ ℕ) (d : Dict ℕ ℝ), init (.frame twoAssets) .none = .ok o ∧
    o.optimize (fun _ => .ok [(0, 1)]) 4 true = (o', some (.ok d)) ∧ Hrp.FullyInvested [7, 3] d ∧
    ∃ s x, o'.performance rf freq = .ok (some (.fin 0), s, x) := by
  obtain ⟨e00, e01, e10, e11⟩ := twoAssets_together
  have hc : twoAssets.cols = [7, 3] := rfl
  obtain ⟨o, o', d, r, h1, h2, h3, h4, w, -, h5, -⟩ := C67_optimised (fun _ => .ok [(0, 1)]) twoAssets .none
    (by rw [hc]; decide) (fun _ => ⟨_, rfl, by decide, rfl, by decide, by decide⟩) (by
      intro i hi j hj
      have hi : i < 2 := hi
      have hj : j < 2 := hj
      rcases (by omega : i = 0 ∨ i = 1) with rfl | rfl <;>
        rcases (by omega : j = 0 ∨ j = 1) with rfl | rfl
      · rw [e00]; norm_num [Returns.sampleCov, Returns.avg]
      · rw [e01]; norm_num [Returns.sampleCov, Returns.avg]
      · rw [e10]; norm_num [Returns.sampleCov, Returns.avg]
      · rw [e11]; norm_num [Returns.sampleCov, Returns.avg]) (by
      rintro x ⟨t, ht, hx⟩
      have i7 : List.idxOf 7 [7, 3] = 0 := by decide
      have i3 : List.idxOf 3 [7, 3] = 1 := by decide
      rw [hc] at ht ⊢
      simp only [List.map_cons, List.map_nil, List.sum_cons, List.sum_nil, i7, i3, annualCov, e00, e01,
        e10, e11]
      norm_num [Returns.sampleCov, Returns.avg]
      simp only [List.mem_cons, List.not_mem_nil, or_false] at ht
      rcases ht with rfl | rfl
      · nlinarith [mul_self_pos.2 hx, mul_self_nonneg (x 3)]
      · nlinarith [mul_self_pos.2 hx, mul_self_nonneg (x 7)]) 4 (by rw [hc]; decide) rf freq
  obtain ⟨mu, s, x⟩ := r
  simp only at h5
  refine ⟨o, o', d, h1, h2, h3, s, x, ?_⟩
  rw [h4, h5]
  have : ∀ i : Fin twoAssets.cols.length, annualMean twoAssets freq i = 0 := by
    intro i
    have hi : i.1 < 2 := i.2
    unfold annualMean
    rcases (by omega : i.1 = 0 ∨ i.1 = 1) with h | h <;> rw [h]
    · rw [show observed twoAssets 0 = [1, -1, 0] from rfl]; norm_num [Returns.avg]
    · rw [show observed twoAssets 1 = [1, 1, -2] from rfl]; norm_num [Returns.avg]
  simp [Perf.specReturn, this]

end Verif.HrpObj
