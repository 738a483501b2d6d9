import Verif.Proof.Restate
import Verif.Props.Shrink
import Verif.Props.ReturnModels

/-! Property theorem C82: what a covariance estimate does not depend on. -/

set_option linter.unusedSectionVars false

namespace Verif.Risk
open scoped Matrix
open Verif.Py Verif.Frames Verif.Returns

section restated
variable {ι ι' κ : Type} {f : Frame ι κ} {g : Frame ι' κ} {k : ℝ} {c : Fin g.cols.length → ℝ}
  {days : Fin g.rows.length ≃ Fin f.rows.length} {assets : Fin g.cols.length ≃ Fin f.cols.length}

theorem Cells.sampleCovariance (h : Cells f) (h2 : 2 ≤ f.rows.length) (E : Eigh) (freq : ℝ)
    (hf : 0 ≤ freq) (log : Bool) (fix : String) :
    sampleCovariance E f true freq log fix =
      .ok ⟨f.cols, Matrix.of fun i j => npCov (filled f) i j * freq⟩ := by
  unfold Verif.Risk.sampleCovariance
  apply fixFrame_psd
  · intro i j
    have := h.covPair h2 i j
    exact congrArg (Option.map (· * freq)) this
  · exact scaled_psd (npCov_psd _ h2) hf

/-- C82 for `sample_cov`: with the days and assets in another order, another unit of return and a
constant added to each asset's returns, the estimate is the same matrix in the new order and unit. -/
theorem C82_sample_cov (E : Eigh) (freq : ℝ) (hf : 0 ≤ freq) (log : Bool) (fix : String)
    (hF : Filled f) (h2 : 2 ≤ f.rows.length) (hk : k ≠ 0) (h : Restated f g k c days assets) :
    ∃ V : Matrix (Fin f.cols.length) (Fin f.cols.length) ℝ,
      sampleCovariance E f true freq log fix = .ok ⟨f.cols, V⟩ ∧
      sampleCovariance E g true freq log fix =
        .ok ⟨g.cols, Matrix.of fun i j => k ^ 2 * V (assets i) (assets j)⟩ := by
  have hg := h.cells hF.cells
  obtain ⟨e, -⟩ := re_general _ _ k hk c days assets h2 (h.filled hF.cells)
  refine ⟨_, hF.cells.sampleCovariance h2 E freq hf log fix, ?_⟩
  rw [hg.sampleCovariance (h.rows ▸ h2) E freq hf log fix]
  congr 2
  ext i j
  simp only [Matrix.of_apply]
  rw [e, mul_assoc]

/-- C82 for `exp_cov`, whose weights go by position: the days keep their order. -/
theorem C82_exp_cov (E : Eigh) (span freq : ℝ) (hs : 1 ≤ span) (hf : 0 ≤ freq) (log : Bool)
    (fix : String) (hF : Filled f) (h2 : 2 ≤ f.rows.length) (hk : k ≠ 0)
    (h : Restated f g k c days assets) (hd : ∀ s, (days s).1 = s.1) :
    ∃ V : Matrix (Fin f.cols.length) (Fin f.cols.length) ℝ,
      expCovariance E f true span freq log fix = .ok ⟨f.cols, V⟩ ∧
      expCovariance E g true span freq log fix =
        .ok ⟨g.cols, Matrix.of fun i j => k ^ 2 * V (assets i) (assets j)⟩ := by
  have hg := h.cells hF.cells
  obtain ⟨-, -, -, -, -, -, -, -, e⟩ := re_general _ _ k hk c days assets h2 (h.filled hF.cells)
  obtain ⟨w, hw0, hw⟩ := exp_weights span hs f.rows.length (by omega)
  have hne : f.rows ≠ [] := by rintro h0; rw [h0] at h2; simp at h2
  have hne' : g.rows ≠ [] := by
    have := h.rows
    rintro h0; rw [h0] at this; simp at this; omega
  have hw' : ∀ a : Fin g.rows.length → ℝ,
      ewmLast span ((List.ofFn a).map some) = .ok (some (∑ s, w (days s) * a s)) := by
    intro a
    have e1 : List.ofFn a = List.ofFn fun s => a (days.symm s) := by
      refine List.ext_getElem (by simp [h.rows]) fun i h1 h3 => ?_
      simp only [List.getElem_ofFn]
      congr 1
      rw [Equiv.eq_symm_apply]
      exact Fin.ext (hd _)
    rw [e1, hw]
    congr 2
    rw [← Equiv.sum_comp days]
    simp
  refine ⟨_, hF.cells.expCovariance E span freq log fix hf hne w hw0 hw, ?_⟩
  rw [hg.expCovariance E span freq log fix hf hne' (fun s => w (days s)) (fun s => hw0 _) hw']
  congr 2
  ext i j
  simp only [Matrix.of_apply]
  rw [e, mul_assoc]

/-- Average product of shortfalls of an array. -/
noncomputable def semiArray {t n : ℕ} (B : ℝ) (X : Matrix (Fin t) (Fin n) ℝ) : Matrix (Fin n) (Fin n) ℝ :=
  Matrix.of fun i j => (∑ s, min (X s i - B) 0 * min (X s j - B) 0) / t

theorem Cells.semicovariance (h : Cells f) (h1 : f.rows ≠ []) (E : Eigh) (B freq : ℝ)
    (hf : 0 ≤ freq) (log : Bool) (fix : String) :
    semicovariance E f true B freq log fix =
      .ok ⟨f.cols, Matrix.of fun i j => semiArray B (filled f) i j * freq⟩ := by
  obtain ⟨⟨lab, V⟩, e1, e2, -, e4⟩ := C35_semicovariance_any E f true log B freq fix h1 hf
  have e2' : lab = f.cols := e2
  subst e2'
  rw [e1]
  congr 2
  ext i j
  refine (e4 i j).trans ?_
  have hr : returnsIn true log f = f := rfl
  simp only [hr, Matrix.of_apply, semiArray]
  congr 2
  rw [← List.sum_ofFn]
  congr 1
  refine List.ext_getElem (by simp) fun s h3 h4 => ?_
  have hs : s < f.rows.length := by simpa using h3
  have a := h ⟨s, hs⟩ i
  have b := h ⟨s, hs⟩ j
  simp only [Fin.getElem_fin] at a b
  simp only [List.getElem_map, List.getElem_ofFn, a, b, Option.getD_some, Option.elim_some]

/-- C82 for `semicovariance`: a positive unit, and the benchmark restated with the returns. -/
theorem C82_semicovariance (E : Eigh) (B b freq : ℝ) (hf : 0 ≤ freq) (log : Bool) (fix : String)
    (hF : Filled f) (h1 : f.rows ≠ []) (hk : 0 ≤ k) (h : Restated f g k (fun _ => b) days assets) :
    ∃ V : Matrix (Fin f.cols.length) (Fin f.cols.length) ℝ,
      semicovariance E f true B freq log fix = .ok ⟨f.cols, V⟩ ∧
      semicovariance E g true (k * B + b) freq log fix =
        .ok ⟨g.cols, Matrix.of fun i j => k ^ 2 * V (assets i) (assets j)⟩ := by
  have hg := h.cells hF.cells
  have hne' : g.rows ≠ [] := by
    have := h.rows
    rintro h0; rw [h0] at this
    exact h1 (List.length_eq_zero_iff.1 (by simpa using this.symm))
  refine ⟨_, hF.cells.semicovariance h1 E B freq hf log fix, ?_⟩
  rw [hg.semicovariance hne' E _ freq hf log fix]
  congr 2
  ext i j
  have hm : ∀ x, min (k * x + b - (k * B + b)) 0 = k * min (x - B) 0 := by
    intro x
    rw [mul_min_of_nonneg _ _ hk, mul_zero]
    congr 1
    ring
  simp only [Matrix.of_apply, semiArray, h.filled hF.cells, hm]
  have hl : (g.rows.length : ℝ) = f.rows.length := by rw [h.rows]
  rw [← Equiv.sum_comp days, hl]
  rw [show (∑ s, k * min (filled f (days s) (assets i) - B) 0 *
      (k * min (filled f (days s) (assets j) - B) 0)) = k ^ 2 * ∑ s,
      min (filled f (days s) (assets i) - B) 0 * min (filled f (days s) (assets j) - B) 0 by
    rw [Finset.mul_sum]; exact Finset.sum_congr rfl fun s _ => by ring]
  ring

/-! ### Shrinkage -/

theorem Cells.shrinkX (h : Cells f) (hc : f.cols ≠ []) (log : Bool) : shrinkX true log f = f := by
  unfold Verif.Risk.shrinkX returnsIn Frame.dropnaAll
  simp only [if_true]
  have : f.rows.filter (fun r => r.2.any Option.isSome) = f.rows := by
    rw [List.filter_eq_self]
    intro r hr
    obtain ⟨s, hs, rfl⟩ := List.getElem_of_mem hr
    have a := h ⟨s, hs⟩ ⟨0, List.length_pos_iff.2 hc⟩
    simp only [Fin.getElem_fin] at a
    rw [List.any_eq_true]
    exact ⟨_, List.mem_of_getElem? a, rfl⟩
  rw [this]

theorem Restated.cols_ne (h : Restated f g k c days assets) (hc : f.cols ≠ []) : g.cols ≠ [] := by
  have := h.cols
  rintro h0; rw [h0] at this
  exact hc (List.length_eq_zero_iff.1 (by simpa using this.symm))

/-- C82 for `shrunk_covariance`. -/
theorem C82_manual (E : Eigh) (freq d : ℝ) (hf : 0 ≤ freq) (h0 : 0 ≤ d) (h1 : d ≤ 1) (log : Bool)
    (hF : Filled f) (h2 : 2 ≤ f.rows.length) (hc : f.cols ≠ []) (hk : k ≠ 0)
    (h : Restated f g k c days assets) :
    ∃ V : Matrix (Fin f.cols.length) (Fin f.cols.length) ℝ,
      manualShrink E (shrinkX true log f) freq d = .ok ⟨f.cols, V⟩ ∧
      manualShrink E (shrinkX true log g) freq d =
        .ok ⟨g.cols, Matrix.of fun i j => k ^ 2 * V (assets i) (assets j)⟩ := by
  have hg := h.cells hF.cells
  have h2' : 2 ≤ g.rows.length := h.rows ▸ h2
  rw [hF.cells.shrinkX hc, hg.shrinkX (h.cols_ne hc)]
  obtain ⟨e, -, -, -, -, -, -, et, -⟩ := re_general _ _ k hk c days assets h2 (h.filled hF.cells)
  obtain ⟨V, v1, -, -, v2, v3⟩ := C37_manual E f freq d hf h0 h1 _ (hF.cells.covPair h2) (npCov_psd _ h2)
  obtain ⟨W, w1, -, -, w2, w3⟩ := C37_manual E g freq d hf h0 h1 _ (hg.covPair h2') (npCov_psd _ h2')
  refine ⟨V, v1, w1.trans ?_⟩
  congr 2
  ext i j
  simp only [Matrix.of_apply]
  by_cases hij : i = j
  · subst hij
    have hl : (g.cols.length : ℝ) = f.cols.length := by rw [h.cols]
    rw [w3, v3, et, e, hl]
    ring
  · rw [w2 i j hij, v2 _ _ (fun h' => hij (assets.injective h')), e]
    ring

theorem sf_ok (E : Eigh) (K : Sklearn) (X : Frame ι κ) (freq : ℝ) (hf : 0 ≤ freq)
    (ht : 2 ≤ X.rows.length) (hvar : sfVar (filled X) ≠ 0) :
    ledoitWolf E K X freq "single_factor" = .ok (⟨X.cols, Matrix.of fun i j =>
      (sfDelta (filled X) * sfTarget (filled X) i j + (1 - sfDelta (filled X)) * sfSample (filled X) i j) *
        freq⟩, sfDelta (filled X)) := by
  have hv : popCov (market (filled X)) (market (filled X)) ≠ 0 := by rwa [← sfVar_apply _ ht]
  have hS : (sfSample (filled X)).PosSemidef := by
    have : sfSample (filled X) = Matrix.of fun i j => popCov (series (filled X) i) (series (filled X) j) := by
      ext i j; exact sfSample_apply _ ht i j
    rw [this]; exact popCov_psd _
  have hF : (sfTarget (filled X)).PosSemidef := by
    apply oneFactor_psd
    · rw [sfVar_apply _ ht]
      exact lt_of_le_of_ne (popCov_self_nonneg _) (Ne.symm hv)
    · intro i
      rw [sfBeta_apply _ ht, sfSample_apply _ ht, sfVar_apply _ ht]
      exact popCov_cs _ _
  have hd : 0 ≤ sfDelta (filled X) ∧ sfDelta (filled X) ≤ 1 := clampDelta_mem _ _
  have hcomb := convex_psd hF hS hd.1 hd.2
  unfold ledoitWolf
  rw [if_neg (by decide), if_pos rfl, numX_eq]
  have : singleFactor (filled X) = (Matrix.of fun i j => some (sfDelta (filled X) *
      sfTarget (filled X) i j + (1 - sfDelta (filled X)) * sfSample (filled X) i j),
      sfDelta (filled X)) := by
    unfold singleFactor
    rw [if_neg (by omega)]
    simp only [hvar, false_and, if_false]
    rw [blend_some]
  dsimp only
  rw [this]
  dsimp only
  rw [annualize_psd E X.cols freq hf (Matrix.of fun i j => some (sfDelta (filled X) *
    sfTarget (filled X) i j + (1 - sfDelta (filled X)) * sfSample (filled X) i j)) _ (fun i j => rfl) hcomb]
  rfl

/-- C82 for the single-factor target: the shrinkage intensity is the same number. -/
theorem C82_single_factor (E : Eigh) (K : Sklearn) (freq : ℝ) (hf : 0 ≤ freq) (log : Bool)
    (hF : Filled f) (h2 : 2 ≤ f.rows.length) (hc : f.cols ≠ []) (hk : k ≠ 0)
    (hv : popCov (market (filled f)) (market (filled f)) ≠ 0) (h : Restated f g k c days assets) :
    ∃ (V : Matrix (Fin f.cols.length) (Fin f.cols.length) ℝ) (d : ℝ),
      ledoitWolf E K (shrinkX true log f) freq "single_factor" = .ok (⟨f.cols, V⟩, d) ∧
      ledoitWolf E K (shrinkX true log g) freq "single_factor" =
        .ok (⟨g.cols, Matrix.of fun i j => k ^ 2 * V (assets i) (assets j)⟩, d) := by
  have hg := h.cells hF.cells
  rw [hF.cells.shrinkX hc, hg.shrinkX (h.cols_ne hc)]
  obtain ⟨-, ev, es, et, ed, -⟩ := re_general _ _ k hk c days assets h2 (h.filled hF.cells)
  have hvar : sfVar (filled f) ≠ 0 := by rwa [sfVar_apply _ h2]
  have hvar' : sfVar (filled g) ≠ 0 := by rw [ev]; exact mul_ne_zero (pow_ne_zero 2 hk) hvar
  refine ⟨_, _, sf_ok E K f freq hf h2 hvar, ?_⟩
  rw [sf_ok E K g freq hf (h.rows ▸ h2) hvar', ed]
  congr 3
  ext i j
  simp only [Matrix.of_apply]
  rw [es, et]
  ring

theorem cc_ok (E : Eigh) (K : Sklearn) (X : Frame ι κ) (freq : ℝ) (hf : 0 ≤ freq) (hX : Cells X)
    (ht : 2 ≤ X.rows.length) (hn : 2 ≤ X.cols.length) (hd : ∀ i, 0 < npCov (filled X) i i) :
    ledoitWolf E K X freq "constant_correlation" = .ok (⟨X.cols, Matrix.of fun i j =>
      (ccDelta (filled X) (npCov (filled X)) * ccTarget (npCov (filled X)) i j +
        (1 - ccDelta (filled X) (npCov (filled X))) * npCov (filled X) i j) * freq⟩,
      ccDelta (filled X) (npCov (filled X))) := by
  have hS := npCov_psd (filled X) ht
  have hT := ccTarget_psd _ hS hd hn
  have hdel : 0 ≤ ccDelta (filled X) (npCov (filled X)) ∧ ccDelta (filled X) (npCov (filled X)) ≤ 1 :=
    clampDelta_mem _ _
  have hcomb := convex_psd hT hS hdel.1 hdel.2
  have hdef : ccDefined (npCov (filled X)) = true := by
    unfold ccDefined
    exact decide_eq_true ⟨hn, hd⟩
  unfold ledoitWolf
  rw [if_neg (by decide), if_neg (by decide), if_pos rfl]
  have : shrinkS X = fun i j => some (npCov (filled X) i j) := by
    funext i j; exact hX.covPair ht i j
  rw [this, allSome_some, numX_eq]
  have hc : constantCorrelation (filled X) (npCov (filled X)) = (Matrix.of fun i j =>
      some (ccDelta (filled X) (npCov (filled X)) * ccTarget (npCov (filled X)) i j +
        (1 - ccDelta (filled X) (npCov (filled X))) * npCov (filled X) i j),
        ccDelta (filled X) (npCov (filled X))) := by
    unfold constantCorrelation
    simp only [hdef, true_or, if_true]
    rw [blend_some]
  dsimp only
  rw [hc]
  dsimp only
  rw [annualize_psd E X.cols freq hf (Matrix.of fun i j =>
      some (ccDelta (filled X) (npCov (filled X)) * ccTarget (npCov (filled X)) i j +
        (1 - ccDelta (filled X) (npCov (filled X))) * npCov (filled X) i j)) _ (fun i j => rfl) hcomb]
  rfl

/-- C82 for the constant-correlation target: the shrinkage intensity is the same number. -/
theorem C82_constant_correlation (E : Eigh) (K : Sklearn) (freq : ℝ) (hf : 0 ≤ freq) (log : Bool)
    (hF : Filled f) (h2 : 2 ≤ f.rows.length) (hn : 2 ≤ f.cols.length) (hk : k ≠ 0)
    (hv : ∀ i, popCov (series (filled f) i) (series (filled f) i) ≠ 0)
    (h : Restated f g k c days assets) :
    ∃ (V : Matrix (Fin f.cols.length) (Fin f.cols.length) ℝ) (d : ℝ),
      ledoitWolf E K (shrinkX true log f) freq "constant_correlation" = .ok (⟨f.cols, V⟩, d) ∧
      ledoitWolf E K (shrinkX true log g) freq "constant_correlation" =
        .ok (⟨g.cols, Matrix.of fun i j => k ^ 2 * V (assets i) (assets j)⟩, d) := by
  have hg := h.cells hF.cells
  have hc : f.cols ≠ [] := by rintro h0; rw [h0] at hn; simp at hn
  rw [hF.cells.shrinkX hc, hg.shrinkX (h.cols_ne hc)]
  obtain ⟨es, -, -, -, -, et, ed, -⟩ := re_general _ _ k hk c days assets h2 (h.filled hF.cells)
  have hpos : ∀ i, 0 < npCov (filled f) i i := by
    intro i
    rw [npCov_pop _ h2]
    exact mul_pos (ratio_pos h2) (lt_of_le_of_ne (popCov_self_nonneg _) (Ne.symm (hv i)))
  have hpos' : ∀ i, 0 < npCov (filled g) i i := by
    intro i
    rw [es]
    exact mul_pos (by positivity) (hpos _)
  refine ⟨_, _, cc_ok E K f freq hf hF.cells h2 hn hpos, ?_⟩
  rw [cc_ok E K g freq hf hg (h.rows ▸ h2) (h.cols ▸ hn) hpos', ed]
  congr 3
  ext i j
  simp only [Matrix.of_apply]
  rw [es, et]
  ring

end restated

/-- C82 for prices: quoting every asset in another (positive) unit of its own changes no estimate of
`risk_matrix`, whatever the method, the options and the libraries. -/
theorem C82_prices {ι κ : Type} (E : Eigh) (K : Sklearn) (cols : List κ) (rows : List (ι × List ℝ))
    (c : List ℝ) (hc : c.length = cols.length) (hpos : ∀ x ∈ c, 0 < x)
    (hr : Rect cols.length (fun x => 0 < x) rows) (method : String) (kw : Kwargs)
    (hp : kw.returnsData ≠ some true) :
    riskMatrix E K (scaled c cols rows) method kw = riskMatrix E K (full cols rows) method kw := by
  have hrd : kw.returnsData.getD false = false := by
    rcases h : kw.returnsData with _ | _ | _
    · rfl
    · rfl
    · exact absurd h hp
  have hR : ∀ log, returnsIn false log (scaled c cols rows) = returnsIn false log (full cols rows) := by
    intro log
    simp only [returnsIn, Bool.false_eq_true, if_false]
    exact returnsOf_scaled log cols rows c hc hpos hr
  have h1 : ∀ freq log fix, sampleCovariance E (scaled c cols rows) false freq log fix =
      sampleCovariance E (full cols rows) false freq log fix := fun freq log fix =>
    congrArg (fun r => sampleCovariance E r true freq log fix) (hR log)
  have h2 : ∀ b freq log fix, semicovariance E (scaled c cols rows) false b freq log fix =
      semicovariance E (full cols rows) false b freq log fix := fun b freq log fix =>
    congrArg (fun r => semicovariance E r true b freq log fix) (hR log)
  have h3 : ∀ span freq log fix, expCovariance E (scaled c cols rows) false span freq log fix =
      expCovariance E (full cols rows) false span freq log fix := fun span freq log fix =>
    congrArg (fun r => expCovariance E r true span freq log fix) (hR log)
  have h4 : newShrinkage (scaled c cols rows) kw = newShrinkage (full cols rows) kw := by
    unfold newShrinkage shrinkX
    rw [hrd, hR]
  unfold riskMatrix
  simp only [hrd, h1, h2, h3, h4]

/-! ### Concrete cases -/

/-- Three days of two assets. -/
noncomputable def plainReturns : Frame ℕ String := full ["A", "B"] [(0, [1, 2]), (1, [3, 1]), (2, [5, 9])]

/-- The same days backwards, the assets swapped, in units of 1/100, with 1 added to the returns of B
and 7 to those of A. -/
noncomputable def inPercent : Frame ℕ String :=
  full ["B", "A"] [(2, [901, 507]), (1, [101, 307]), (0, [201, 107])]

theorem plainReturns_filled : Filled plainReturns := by
  constructor
  · intro r hr
    simp only [plainReturns, full, List.map_cons, List.map_nil, List.mem_cons, List.not_mem_nil, or_false] at hr
    rcases hr with rfl | rfl | rfl <;> rfl
  · intro r hr x hx
    simp only [plainReturns, full, List.map_cons, List.map_nil, List.mem_cons, List.not_mem_nil, or_false] at hr
    rcases hr with rfl | rfl | rfl <;>
      · simp only [List.mem_cons, List.not_mem_nil, or_false] at hx
        rcases hx with rfl | rfl <;> exact Option.some_ne_none _

theorem plain_percent : Restated plainReturns inPercent 100 (fun j => if j.1 = 0 then 1 else 7)
    (Fin.revPerm (n := 3)) (Fin.revPerm (n := 2)) := by
  constructor
  · intro j
    change Fin 2 at j
    fin_cases j <;> rfl
  · intro s j x hx
    change Fin 3 at s
    change Fin 2 at j
    fin_cases s <;> fin_cases j <;>
      · have hx' := Option.some.inj (Option.some.inj hx)
        subst hx'
        refine congrArg (fun y : ℝ => some (some y)) ?_
        norm_num

/-- The hypotheses of the theorems about sample covariance and manual shrinkage are met. -/
example (E : Eigh) : ∃ V : Matrix (Fin 2) (Fin 2) ℝ,
    sampleCovariance E plainReturns true 252 false "spectral" = .ok ⟨["A", "B"], V⟩ ∧
    sampleCovariance E inPercent true 252 false "spectral" =
      .ok ⟨["B", "A"], Matrix.of fun i j => 100 ^ 2 * V (Fin.rev i) (Fin.rev j)⟩ :=
  C82_sample_cov E 252 (by norm_num) false "spectral" plainReturns_filled (by decide : 2 ≤ 3)
    (by norm_num) plain_percent

example (E : Eigh) : ∃ V : Matrix (Fin 2) (Fin 2) ℝ,
    manualShrink E (shrinkX true false plainReturns) 252 (1 / 5) = .ok ⟨["A", "B"], V⟩ ∧
    manualShrink E (shrinkX true false inPercent) 252 (1 / 5) =
      .ok ⟨["B", "A"], Matrix.of fun i j => 100 ^ 2 * V (Fin.rev i) (Fin.rev j)⟩ :=
  C82_manual E 252 (1 / 5) (by norm_num) (by norm_num) (by norm_num) false plainReturns_filled
    (by decide : 2 ≤ 3) (List.cons_ne_nil _ _) (by norm_num) plain_percent

theorem plain_values : filled plainReturns = (!![1, 2; 3, 1; 5, 9] : Matrix (Fin 3) (Fin 2) ℝ) := by
  funext s j
  change Fin 3 at s
  change Fin 2 at j
  fin_cases s <;> fin_cases j <;> rfl

/-- So are those about the two targets: the market and both assets vary. -/
example (E : Eigh) (K : Sklearn) : ∃ (V : Matrix (Fin 2) (Fin 2) ℝ) (d : ℝ),
    ledoitWolf E K (shrinkX true false plainReturns) 252 "single_factor" = .ok (⟨["A", "B"], V⟩, d) ∧
    ledoitWolf E K (shrinkX true false inPercent) 252 "single_factor" =
      .ok (⟨["B", "A"], Matrix.of fun i j => 100 ^ 2 * V (Fin.rev i) (Fin.rev j)⟩, d) := by
  refine C82_single_factor E K 252 (by norm_num) false plainReturns_filled (by decide : 2 ≤ 3)
    (List.cons_ne_nil _ _) (by norm_num) ?_ plain_percent
  rw [plain_values]
  change popCov (t := 3) (market (!![1, 2; 3, 1; 5, 9] : Matrix (Fin 3) (Fin 2) ℝ))
    (market (!![1, 2; 3, 1; 5, 9] : Matrix (Fin 3) (Fin 2) ℝ)) ≠ 0
  simp [popCov, market, meanOf, Fin.sum_univ_succ]
  norm_num

example (E : Eigh) (K : Sklearn) : ∃ (V : Matrix (Fin 2) (Fin 2) ℝ) (d : ℝ),
    ledoitWolf E K (shrinkX true false plainReturns) 252 "constant_correlation" =
      .ok (⟨["A", "B"], V⟩, d) ∧
    ledoitWolf E K (shrinkX true false inPercent) 252 "constant_correlation" =
      .ok (⟨["B", "A"], Matrix.of fun i j => 100 ^ 2 * V (Fin.rev i) (Fin.rev j)⟩, d) := by
  refine C82_constant_correlation E K 252 (by norm_num) false plainReturns_filled (by decide : 2 ≤ 3)
    (by decide : 2 ≤ 2) (by norm_num) ?_ plain_percent
  rw [plain_values]
  intro i
  change Fin 2 at i
  change popCov (t := 3) (series (!![1, 2; 3, 1; 5, 9] : Matrix (Fin 3) (Fin 2) ℝ) i) _ ≠ 0
  fin_cases i <;> simp [popCov, series, meanOf, Fin.sum_univ_succ] <;> norm_num

/-- Returns 0, 0, 3 of one asset. -/
noncomputable def spikeLast : Frame ℕ String := full ["A"] [(0, [0]), (1, [0]), (2, [3])]

/-- The same returns backwards. -/
noncomputable def spikeFirst : Frame ℕ String := full ["A"] [(2, [3]), (1, [0]), (0, [0])]

theorem spikeLast_filled : Filled spikeLast := by
  constructor
  · intro r hr
    simp only [spikeLast, full, List.map_cons, List.map_nil, List.mem_cons, List.not_mem_nil, or_false] at hr
    rcases hr with rfl | rfl | rfl <;> rfl
  · intro r hr x hx
    simp only [spikeLast, full, List.map_cons, List.map_nil, List.mem_cons, List.not_mem_nil, or_false] at hr
    rcases hr with rfl | rfl | rfl <;>
      · simp only [List.mem_cons, List.not_mem_nil, or_false] at hx
        subst hx
        exact Option.some_ne_none _

theorem spike_restated : Restated spikeLast spikeFirst 1 (fun _ => 0) (Fin.revPerm (n := 3))
    (Equiv.refl (Fin 1)) := by
  constructor
  · intro j
    change Fin 1 at j
    fin_cases j; rfl
  · intro s j x hx
    change Fin 3 at s
    change Fin 1 at j
    fin_cases s <;> fin_cases j <;>
      · have hx' := Option.some.inj (Option.some.inj hx)
        subst hx'
        refine congrArg (fun y : ℝ => some (some y)) ?_
        norm_num

/-- The shortfalls do not depend on the order of the days either. -/
example (E : Eigh) : ∃ V : Matrix (Fin 1) (Fin 1) ℝ,
    semicovariance E spikeLast true 1 252 false "spectral" = .ok ⟨["A"], V⟩ ∧
    semicovariance E spikeFirst true (1 * 1 + 0) 252 false "spectral" =
      .ok ⟨["A"], Matrix.of fun i j => 1 ^ 2 * V i j⟩ :=
  C82_semicovariance E 1 0 252 (by norm_num) false "spectral" spikeLast_filled (List.cons_ne_nil _ _)
    zero_le_one spike_restated

theorem last_only (a : Fin 3 → ℝ) : ewmLast 1 ((List.ofFn a).map some) =
    .ok (some (∑ s, (![0, 0, 1] : Fin 3 → ℝ) s * a s)) := by
  simp [ewmLast, ewmStep, List.ofFn_succ, Fin.sum_univ_succ]
  norm_num

/-- C82 fails for `exp_cov` when the days change places: the same three returns backwards, with span 1,
give the variance 1 instead of 4. -/
theorem C82_exp_cov_order_false (E : Eigh) :
    ∃ V W : Matrix (Fin 1) (Fin 1) ℝ, expCovariance E spikeLast true 1 1 false "spectral" = .ok ⟨["A"], V⟩ ∧
      expCovariance E spikeFirst true 1 1 false "spectral" = .ok ⟨["A"], W⟩ ∧ V 0 0 = 4 ∧ W 0 0 = 1 := by
  have hw0 : ∀ s : Fin 3, 0 ≤ (![0, 0, 1] : Fin 3 → ℝ) s := by
    intro s; fin_cases s <;> norm_num
  have hc := spike_restated.cells spikeLast_filled.cells
  have v1 : filled spikeLast = (!![0; 0; 3] : Matrix (Fin 3) (Fin 1) ℝ) := by
    funext s j
    change Fin 3 at s
    change Fin 1 at j
    fin_cases s <;> fin_cases j <;> rfl
  have v2 : filled spikeFirst = (!![3; 0; 0] : Matrix (Fin 3) (Fin 1) ℝ) := by
    funext s j
    change Fin 3 at s
    change Fin 1 at j
    fin_cases s <;> fin_cases j <;> rfl
  refine ⟨_, _, spikeLast_filled.cells.expCovariance E 1 1 false "spectral" zero_le_one
    (List.cons_ne_nil _ _) ![0, 0, 1] hw0 last_only, hc.expCovariance E 1 1 false "spectral" zero_le_one
    (List.cons_ne_nil _ _) ![0, 0, 1] hw0 last_only, ?_, ?_⟩
  · rw [v1]
    change expArray (t := 3) (n := 1) ![0, 0, 1] !![0; 0; 3] 0 0 * 1 = 4
    simp [expArray, demean, Fin.sum_univ_succ]
    norm_num
  · rw [v2]
    change expArray (t := 3) (n := 1) ![0, 0, 1] !![3; 0; 0] 0 0 * 1 = 1
    simp [expArray, demean, Fin.sum_univ_succ]

/-- `inPercent` with the days in the order of `plainReturns`. -/
noncomputable def percentInOrder : Frame ℕ String :=
  full ["B", "A"] [(0, [201, 107]), (1, [101, 307]), (2, [901, 507])]

theorem plain_in_order : Restated plainReturns percentInOrder 100 (fun j => if j.1 = 0 then 1 else 7)
    (Equiv.refl (Fin 3)) (Fin.revPerm (n := 2)) := by
  constructor
  · intro j
    change Fin 2 at j
    fin_cases j <;> rfl
  · intro s j x hx
    change Fin 3 at s
    change Fin 2 at j
    fin_cases s <;> fin_cases j <;>
      · have hx' := Option.some.inj (Option.some.inj hx)
        subst hx'
        refine congrArg (fun y : ℝ => some (some y)) ?_
        norm_num

/-- With the days in their order the hypotheses for `exp_cov` are met. -/
example (E : Eigh) : ∃ V : Matrix (Fin 2) (Fin 2) ℝ,
    expCovariance E plainReturns true 180 252 false "spectral" = .ok ⟨["A", "B"], V⟩ ∧
    expCovariance E percentInOrder true 180 252 false "spectral" =
      .ok ⟨["B", "A"], Matrix.of fun i j => 100 ^ 2 * V (Fin.rev i) (Fin.rev j)⟩ :=
  C82_exp_cov E 180 252 (by norm_num) (by norm_num) false "spectral" plainReturns_filled
    (by decide : 2 ≤ 3) (by norm_num) plain_in_order fun _ => rfl

/-- Prices of A in cents. -/
example (E : Eigh) (K : Sklearn) :
    riskMatrix E K (scaled [100, 1] ["A", "B"] [(0, [10, 20]), (1, [11, 19]), (2, [12, 25])])
      "ledoit_wolf_single_factor" {} =
    riskMatrix E K (full ["A", "B"] [(0, [10, 20]), (1, [11, 19]), (2, [12, 25])])
      "ledoit_wolf_single_factor" {} :=
  C82_prices E K ["A", "B"] [(0, [10, 20]), (1, [11, 19]), (2, [12, 25])] [100, 1] rfl (by simp)
    ⟨by simp, by simp⟩ "ledoit_wolf_single_factor" {} (by simp)

end Verif.Risk
