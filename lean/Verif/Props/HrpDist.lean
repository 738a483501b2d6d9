import Verif.Props.HrpObj
import Verif.Props.Base
import Verif.Spec.HrpDist
import Mathlib.Algebra.Order.Chebyshev

/-! C71: what `HRPOpt.optimize` clusters; C72: what its portfolios do not depend on. -/

set_option linter.unusedSectionVars false

noncomputable section

namespace Verif.HrpObj
open Verif.Py Verif.Frames

variable {ι κ : Type} [LinearOrder κ]

/-! ### Correlations of a list of pairs -/

/-- Sum of products of deviations. -/
def dev (ps : List (ℝ × ℝ)) (g h : ℝ × ℝ → ℝ) : ℝ :=
  (ps.map fun p => (g p - (ps.map g).sum / ps.length) * (h p - (ps.map h).sum / ps.length)).sum

theorem dev_sampleCov (ps : List (ℝ × ℝ)) (g h : ℝ × ℝ → ℝ) :
    Returns.sampleCov (ps.map g) (ps.map h) = dev ps g h / ((ps.length : ℝ) - 1) := by
  unfold Returns.sampleCov Returns.avg dev
  simp only [List.length_map]
  rw [List.zipWith_map_left, List.zipWith_map_right, List.zipWith_self]

theorem list_cauchy (l : List (ℝ × ℝ)) :
    (l.map fun p => p.1 * p.2).sum ^ 2 ≤ (l.map fun p => p.1 ^ 2).sum * (l.map fun p => p.2 ^ 2).sum := by
  have e : ∀ g : ℝ × ℝ → ℝ, (l.map g).sum = ∑ i : Fin l.length, g l[i] := by
    intro g
    conv_lhs => rw [← List.ofFn_getElem (xs := l), List.map_ofFn, List.sum_ofFn]
    rfl
  rw [e, e, e]
  exact Finset.sum_mul_sq_le_sq_mul_sq _ _ _

theorem dev_cauchy (ps : List (ℝ × ℝ)) (g h : ℝ × ℝ → ℝ) : dev ps g h ^ 2 ≤ dev ps g g * dev ps h h := by
  have := list_cauchy (ps.map fun p => (g p - (ps.map g).sum / ps.length, h p - (ps.map h).sum / ps.length))
  simp only [List.map_map, Function.comp_def] at this
  unfold dev
  simpa only [sq] using this

theorem corrPair_dev (xs ys : List Cell) : corrPair xs ys =
    if (pairs xs ys).length ≤ 1 ∨ Real.sqrt (dev (pairs xs ys) Prod.fst Prod.fst * dev (pairs xs ys) Prod.snd Prod.snd) = 0 then none
    else some (dev (pairs xs ys) Prod.fst Prod.snd /
      Real.sqrt (dev (pairs xs ys) Prod.fst Prod.fst * dev (pairs xs ys) Prod.snd Prod.snd)) := by
  unfold corrPair dev
  simp only [sq]

theorem covPair_dev (xs ys : List Cell) : covPair xs ys =
    if (pairs xs ys).length ≤ 1 then none
    else some (dev (pairs xs ys) Prod.fst Prod.snd / ((pairs xs ys).length - 1)) := rfl

section vary
variable {f : Frame ι κ} {i j : ℕ} (h : Vary f i j)
include h

theorem Vary.pos : (0 : ℝ) < ((together f i j).length : ℝ) - 1 := by
  have : (2 : ℝ) ≤ (together f i j).length := by exact_mod_cast h.1
  linarith

theorem Vary.fst : 0 < dev (together f i j) Prod.fst Prod.fst := by
  have := h.2.1
  rw [dev_sampleCov] at this
  exact (div_pos_iff_of_pos_right h.pos).1 this

theorem Vary.snd : 0 < dev (together f i j) Prod.snd Prod.snd := by
  have := h.2.2
  rw [dev_sampleCov] at this
  exact (div_pos_iff_of_pos_right h.pos).1 this

theorem correlation_dev : correlation f i j = dev (together f i j) Prod.fst Prod.snd /
    Real.sqrt (dev (together f i j) Prod.fst Prod.fst * dev (together f i j) Prod.snd Prod.snd) := by
  have hp := h.pos
  unfold correlation annualCov
  rw [mul_one, dev_sampleCov, dev_sampleCov, dev_sampleCov, ← Real.sqrt_mul (div_nonneg h.fst.le hp.le),
    div_mul_div_comm, Real.sqrt_div (mul_nonneg h.fst.le h.snd.le), Real.sqrt_mul_self hp.le,
    div_div_div_cancel_right₀ hp.ne']

theorem corrPair_vary : corrPair (f.col i) (f.col j) = some (correlation f i j) := by
  rw [corrPair_dev, pairs_col, if_neg, correlation_dev h]
  rintro (h1 | h1)
  · have := h.1; omega
  · exact (Real.sqrt_pos.2 (mul_pos h.fst h.snd)).ne' h1

theorem correlation_mem : |correlation f i j| ≤ 1 := by
  rw [correlation_dev h, abs_div, abs_of_nonneg (Real.sqrt_nonneg _), div_le_one (Real.sqrt_pos.2 (mul_pos h.fst h.snd))]
  exact Real.abs_le_sqrt (dev_cauchy _ _ _)

end vary

theorem together_swap (f : Frame ι κ) (i j : ℕ) : together f j i = (together f i j).map Prod.swap := by
  unfold together
  rw [List.map_filterMap]
  congr 1
  funext r
  cases r.2.getD i none <;> cases r.2.getD j none <;> rfl

theorem correlation_symm (f : Frame ι κ) (i j : ℕ) : correlation f j i = correlation f i j := by
  have e : ∀ ps : List (ℝ × ℝ), dev (ps.map Prod.swap) Prod.fst Prod.snd = dev ps Prod.fst Prod.snd := by
    intro ps
    unfold dev
    simp only [List.map_map, Function.comp_def, Prod.fst_swap, Prod.snd_swap, List.length_map]
    congr 1
    exact List.map_congr_left fun p _ => mul_comm _ _
  unfold correlation annualCov
  rw [together_swap]
  simp only [List.map_map, Function.comp_def, Prod.fst_swap, Prod.snd_swap]
  have := e (together f i j)
  rw [mul_comm (Real.sqrt _)]
  congr 2
  rw [dev_sampleCov (together f i j) Prod.snd Prod.fst, dev_sampleCov (together f i j) Prod.fst Prod.snd]
  congr 1
  unfold dev
  congr 1
  exact List.map_congr_left fun p _ => mul_comm _ _

theorem correlation_self {f : Frame ι κ} {j : ℕ} (h : Vary f j j) : correlation f j j = 1 := by
  rw [correlation_dev h]
  have e : ∀ g h' : ℝ × ℝ → ℝ, (∀ x : ℝ, g (x, x) = x) → (∀ x : ℝ, h' (x, x) = x) →
      dev (together f j j) g h' = dev (together f j j) Prod.fst Prod.fst := by
    intro g h' hg hh
    rw [together_self]
    unfold dev
    simp only [List.map_map, Function.comp_def, hg, hh]
  have h1 := h.fst
  rw [e Prod.fst Prod.snd (fun _ => rfl) fun _ => rfl, e Prod.snd Prod.snd (fun _ => rfl) fun _ => rfl,
    Real.sqrt_mul_self h1.le, div_self h1.ne']

theorem distance_eq {corr : κ → κ → ℝ} {a b : κ} (h : |corr a b| ≤ 1) : Hrp.distance corr a b = corrDistance (corr a b) := by
  obtain ⟨h1, h2⟩ := abs_le.1 h
  unfold Hrp.distance corrDistance
  rw [max_eq_left (by linarith), min_eq_left (by linarith)]

theorem corrDistance_mem {rho : ℝ} (h : |rho| ≤ 1) : 0 ≤ corrDistance rho ∧ corrDistance rho ≤ 1 := by
  obtain ⟨h1, h2⟩ := abs_le.1 h
  refine ⟨Real.sqrt_nonneg _, ?_⟩
  unfold corrDistance
  exact Real.sqrt_le_one.2 (by linarith)

theorem corrRows_vary {f : Frame ι κ} (h : ∀ i < f.cols.length, ∀ j < f.cols.length, Vary f i j) :
    numbers (corrRows f) = some (List.ofFn fun i : Fin f.cols.length => List.ofFn fun j : Fin f.cols.length => correlation f i j) :=
  numbers_range _ _ (correlation f) fun i hi j hj => corrPair_vary (h i hi j hj)

theorem covRows_vary {f : Frame ι κ} (h : ∀ i < f.cols.length, ∀ j < f.cols.length, Vary f i j) :
    numbers (covRows f) = some (List.ofFn fun i : Fin f.cols.length => List.ofFn fun j : Fin f.cols.length => annualCov f 1 i j) :=
  numbers_range _ _ (annualCov f 1) fun i hi j hj => by
    rw [covPair_col, if_neg (by have := (h i hi j hj).1; omega)]
    simp [annualCov]

/-- `optimize` hands exactly `D` to the clustering. -/
def Clusters (o : Obj ι κ) (D : κ → κ → ℝ) : Prop :=
  (∀ linkage linkage' fuel ok, linkage D = linkage' D → o.optimize linkage fuel ok = o.optimize linkage' fuel ok) ∧
  ∀ linkage fuel e, linkage D = .error e → o.optimize linkage fuel true = (o, some (.error e))

theorem clusters_input {o : Obj ι κ} {inp : Hrp.Input κ} (h : o.input = some inp) : Clusters o (Hrp.distance inp.corrUsed) := by
  constructor
  · intro l l' fuel ok e
    unfold Obj.optimize
    rw [h]
    dsimp only
    have : Hrp.optimize l fuel ok o.base inp = Hrp.optimize l' fuel ok o.base inp := by
      unfold Hrp.optimize
      rw [e]
    rw [this]
  · intro l fuel e he
    unfold Obj.optimize
    rw [h]
    simp only [Bool.not_true, Bool.false_eq_true, if_false]
    rw [(Hrp.C14_optimize_errors l o.base inp fuel).2 e he]

/-- **C71** for returns: if all pairs of assets have days in common on which both vary, the clustering gets the documented
distances of their correlations; these are symmetric, between 0 and 1, and 0 between an asset and itself. -/
theorem C71_returns (f : Frame ι κ) (c : CovIn κ) {o : Obj ι κ} (ho : init (.frame f) c = .ok o)
    (h : ∀ i < f.cols.length, ∀ j < f.cols.length, Vary f i j) :
    ∃ D, Clusters o D ∧ ∀ a ∈ f.cols, ∀ b ∈ f.cols,
      D a b = corrDistance (correlation f (f.cols.idxOf a) (f.cols.idxOf b)) ∧
      D a b = D b a ∧ D a a = 0 ∧ 0 ≤ D a b ∧ D a b ≤ 1 := by
  have ho' : o = { returns := some f, cov := c, base := { tickers := f.cols, weights := none } } := by
    cases c <;> exact (Except.ok.inj ho).symm
  have hin : o.input = some (.returns
      (loc f.cols (List.ofFn fun i : Fin f.cols.length => List.ofFn fun j : Fin f.cols.length => correlation f i j))
      (loc f.cols (List.ofFn fun i : Fin f.cols.length => List.ofFn fun j : Fin f.cols.length => annualCov f 1 i j))) := by
    rw [ho']
    unfold Obj.input
    simp only [corrRows_vary h, covRows_vary h]
  refine ⟨_, clusters_input hin, fun a ha b hb => ?_⟩
  have hD : ∀ a ∈ f.cols, ∀ b ∈ f.cols, Hrp.distance (Hrp.Input.corrUsed (.returns
      (loc f.cols (List.ofFn fun i : Fin f.cols.length => List.ofFn fun j : Fin f.cols.length => correlation f i j))
      (loc f.cols (List.ofFn fun i : Fin f.cols.length => List.ofFn fun j : Fin f.cols.length => annualCov f 1 i j)))) a b =
      corrDistance (correlation f (f.cols.idxOf a) (f.cols.idxOf b)) := by
    intro a ha b hb
    have e := loc_ofFn f.cols (correlation f) ha hb
    have := correlation_mem (h _ (List.idxOf_lt_length_of_mem ha) _ (List.idxOf_lt_length_of_mem hb))
    rw [← e] at this ⊢
    exact distance_eq this
  have hm := corrDistance_mem (correlation_mem (h _ (List.idxOf_lt_length_of_mem ha) _ (List.idxOf_lt_length_of_mem hb)))
  rw [hD a ha b hb, hD b hb a ha, hD a ha a ha]
  refine ⟨rfl, by rw [correlation_symm], ?_, hm⟩
  rw [correlation_self (h _ (List.idxOf_lt_length_of_mem ha) _ (List.idxOf_lt_length_of_mem ha))]
  simp [corrDistance]

theorem npRound_mem {x : ℝ} (k : ℕ) (h : |x| ≤ 1) : |Base.npRound k x| ≤ 1 := by
  have h10 : (0 : ℝ) < 10 ^ k := by positivity
  have he := Base.npRound_error k x
  unfold Base.npRound at he ⊢
  set z := Discrete.rint (x * 10 ^ k)
  have hz : |(z : ℝ)| < 10 ^ k + 1 := by
    have e : (z : ℝ) = ((z : ℝ) / 10 ^ k - x) * 10 ^ k + x * 10 ^ k := by field_simp; ring
    have h1 : |((z : ℝ) / 10 ^ k - x) * 10 ^ k| ≤ 1 / 2 := by
      rw [abs_mul, abs_of_pos h10]
      calc _ ≤ 1 / 2 / 10 ^ k * 10 ^ k := mul_le_mul_of_nonneg_right he h10.le
        _ = 1 / 2 := by field_simp
    have h2 : |x * 10 ^ k| ≤ 10 ^ k := by
      rw [abs_mul, abs_of_pos h10]
      calc _ ≤ 1 * 10 ^ k := mul_le_mul_of_nonneg_right h h10.le
        _ = _ := one_mul _
    rw [e]
    have := abs_add_le (((z : ℝ) / 10 ^ k - x) * 10 ^ k) (x * 10 ^ k)
    linarith
  rw [abs_div, abs_of_pos h10, div_le_one h10]
  have hzi : |z| < 10 ^ k + 1 := by
    have : (|z| : ℝ) < ((10 ^ k + 1 : ℤ) : ℝ) := by push_cast; exact hz
    exact_mod_cast this
  have : |z| ≤ 10 ^ k := by omega
  exact_mod_cast this

/-- **C71** for a covariance matrix with positive variances in which no covariance exceeds the product of the volatilities:
the clustering gets the documented distances of the correlations, rounded to six decimals. -/
theorem C71_covariance (cols : List κ) (S : ℕ → ℕ → ℝ) {o : Obj ι κ}
    (ho : init .none (.frame cols (List.ofFn fun i : Fin cols.length => List.ofFn fun j : Fin cols.length => S i j)) = .ok o)
    (h : ∀ i < cols.length, 0 < S i i)
    (hc : ∀ i < cols.length, ∀ j < cols.length, |S i j| ≤ Real.sqrt (S i i) * Real.sqrt (S j j)) :
    ∃ D, Clusters o D ∧ ∀ a ∈ cols, ∀ b ∈ cols, ∃ rho, |rho| ≤ 1 ∧ D a b = corrDistance rho ∧
      |rho - S (cols.idxOf a) (cols.idxOf b) /
        (Real.sqrt (S (cols.idxOf a) (cols.idxOf a)) * Real.sqrt (S (cols.idxOf b) (cols.idxOf b)))| ≤ 1 / 2 / 10 ^ 6 := by
  set rows := List.ofFn fun i : Fin cols.length => List.ofFn fun j : Fin cols.length => S i j with hrows
  have ho' : o = { returns := none, cov := .frame cols rows, base := { tickers := cols, weights := none } } :=
    (Except.ok.inj ho).symm
  have hin : o.input = some (.cov (loc cols rows)) := by rw [ho']; rfl
  refine ⟨_, clusters_input hin, fun a ha b hb => ?_⟩
  have hi := List.idxOf_lt_length_of_mem ha
  have hj := List.idxOf_lt_length_of_mem hb
  have e : Hrp.covToCorr (loc cols rows) a b = S (cols.idxOf a) (cols.idxOf b) /
      (Real.sqrt (S (cols.idxOf a) (cols.idxOf a)) * Real.sqrt (S (cols.idxOf b) (cols.idxOf b))) := by
    unfold Hrp.covToCorr
    rw [hrows, loc_ofFn cols S ha ha, loc_ofFn cols S ha hb, loc_ofFn cols S hb hb]
    field_simp
  have hpos := mul_pos (Real.sqrt_pos.2 (h _ hi)) (Real.sqrt_pos.2 (h _ hj))
  have hle : |Hrp.covToCorr (loc cols rows) a b| ≤ 1 := by
    rw [e, abs_div, abs_of_pos hpos, div_le_one hpos]
    exact hc _ hi _ hj
  refine ⟨Base.npRound 6 (Hrp.covToCorr (loc cols rows) a b), npRound_mem 6 hle, distance_eq (npRound_mem 6 hle), ?_⟩
  rw [← e]
  exact Base.npRound_error 6 _

/-! ### Units, drift, order of the days -/

theorem together_restated (k : ℝ) (b : ℕ → ℝ) (f : Frame ι κ) (i j : ℕ) :
    together (restated k b f) i j = (together f i j).map fun p => (k * p.1 + b i, k * p.2 + b j) := by
  unfold together restated
  rw [List.map_filterMap, List.filterMap_map]
  congr 1
  funext r
  simp only [Function.comp_apply, List.getD_eq_getElem?_getD, List.getElem?_mapIdx]
  rcases r.2[i]? with _ | _ | x <;> rcases r.2[j]? with _ | _ | y <;> rfl

theorem dev_restated (k bx bY : ℝ) (ps : List (ℝ × ℝ)) (hl : ps ≠ []) (g h : ℝ × ℝ → ℝ) (u v : ℝ)
    (hg : ∀ p : ℝ × ℝ, g (k * p.1 + bx, k * p.2 + bY) = k * g p + u)
    (hh : ∀ p : ℝ × ℝ, h (k * p.1 + bx, k * p.2 + bY) = k * h p + v) :
    dev (ps.map fun p => (k * p.1 + bx, k * p.2 + bY)) g h = k ^ 2 * dev ps g h := by
  have hn : (ps.length : ℝ) ≠ 0 := by simpa using hl
  have key : ∀ (g : ℝ × ℝ → ℝ) (u : ℝ), (∀ p : ℝ × ℝ, g (k * p.1 + bx, k * p.2 + bY) = k * g p + u) →
      ((ps.map fun p => (k * p.1 + bx, k * p.2 + bY)).map g).sum / ((ps.map fun p => (k * p.1 + bx, k * p.2 + bY)).length : ℝ) =
        k * ((ps.map g).sum / ps.length) + u := by
    intro g u hg
    rw [List.map_map, List.length_map]
    have : (ps.map (g ∘ fun p => (k * p.1 + bx, k * p.2 + bY))).sum = k * (ps.map g).sum + ps.length * u := by
      simp only [Function.comp_def, hg]
      rw [List.sum_map_add, List.sum_map_mul_left]
      simp
    rw [this]
    field_simp
  unfold dev
  rw [key g u hg, key h v hh, List.map_map, ← List.sum_map_mul_left]
  congr 1
  refine List.map_congr_left fun p _ => ?_
  simp only [Function.comp_apply, hg, hh]
  ring

theorem corrPair_restated {k : ℝ} (hk : k ≠ 0) (b : ℕ → ℝ) (f : Frame ι κ) (i j : ℕ) :
    corrPair ((restated k b f).col i) ((restated k b f).col j) = corrPair (f.col i) (f.col j) := by
  rw [corrPair_dev, corrPair_dev, pairs_col, pairs_col, together_restated]
  by_cases hl : (together f i j).length ≤ 1
  · rw [if_pos (.inl (by simpa using hl)), if_pos (.inl hl)]
  have hne : together f i j ≠ [] := by intro e; rw [e] at hl; simp at hl
  have hk2 : (0 : ℝ) < k ^ 2 := by positivity
  rw [dev_restated k _ _ _ hne Prod.fst Prod.fst (b i) (b i) (fun _ => rfl) fun _ => rfl,
    dev_restated k _ _ _ hne Prod.snd Prod.snd (b j) (b j) (fun _ => rfl) fun _ => rfl,
    dev_restated k _ _ _ hne Prod.fst Prod.snd (b i) (b j) (fun _ => rfl) fun _ => rfl, List.length_map]
  have e : Real.sqrt (k ^ 2 * dev (together f i j) Prod.fst Prod.fst * (k ^ 2 * dev (together f i j) Prod.snd Prod.snd)) =
      k ^ 2 * Real.sqrt (dev (together f i j) Prod.fst Prod.fst * dev (together f i j) Prod.snd Prod.snd) := by
    rw [mul_mul_mul_comm, Real.sqrt_mul (by positivity), Real.sqrt_mul_self hk2.le]
  have hz : ∀ x : ℝ, k ^ 2 * x = 0 ↔ x = 0 := fun x => by rw [mul_eq_zero, or_iff_right hk2.ne']
  simp only [e, hz, mul_div_mul_left _ _ hk2.ne']

theorem covPair_restated {k : ℝ} (b : ℕ → ℝ) (f : Frame ι κ) (i j : ℕ) :
    covPair ((restated k b f).col i) ((restated k b f).col j) = (covPair (f.col i) (f.col j)).map (k ^ 2 * ·) := by
  rw [covPair_dev, covPair_dev, pairs_col, pairs_col, together_restated, List.length_map]
  by_cases hl : (together f i j).length ≤ 1
  · rw [if_pos hl, if_pos hl]; rfl
  have hne : together f i j ≠ [] := by intro e; rw [e] at hl; simp at hl
  rw [if_neg hl, if_neg hl, dev_restated k _ _ _ hne Prod.fst Prod.snd (b i) (b j) (fun _ => rfl) fun _ => rfl, mul_div_assoc]
  rfl

theorem mapM_map_scale (k : ℝ) (l : List Cell) : (l.map (Option.map (k * ·))).mapM id = (l.mapM id).map (List.map (k * ·)) := by
  induction l with
  | nil => rfl
  | cons c l ih =>
    rw [List.map_cons, List.mapM_cons, List.mapM_cons, ih]
    cases c <;> cases l.mapM id <;> rfl

theorem numbers_scale (k : ℝ) (rows : List (List Cell)) :
    numbers (rows.map (List.map (Option.map (k * ·)))) = (numbers rows).map (List.map (List.map (k * ·))) := by
  unfold numbers
  induction rows with
  | nil => rfl
  | cons r rows ih =>
    rw [List.map_cons, List.mapM_cons, List.mapM_cons, ih, mapM_map_scale]
    cases r.mapM id <;> cases List.mapM (fun r => r.mapM id) rows <;> rfl

theorem loc_scale (cols : List κ) (k : ℝ) (rows : List (List ℝ)) :
    loc cols (rows.map (List.map (k * ·))) = fun a b => k * loc cols rows a b := by
  funext a b
  unfold loc
  simp only [List.getD_eq_getElem?_getD, List.getElem?_map]
  rcases rows[cols.idxOf a]? with _ | r
  · simp
  · simp only [Option.map_some, Option.getD_some, List.getElem?_map]
    rcases r[cols.idxOf b]? with _ | x <;> simp

/-- **C72**: stating the returns in another unit, or adding a constant to all returns of an asset, does not change what
`optimize` returns. -/
theorem C72_units (linkage : (κ → κ → ℝ) → Except PyErr (List (ℕ × ℕ))) (fuel : ℕ) (ok : Bool) (f : Frame ι κ)
    {k : ℝ} (hk : k ≠ 0) (b : ℕ → ℝ) (c c' : CovIn κ) {o o' : Obj ι κ} (ho : init (.frame f) c = .ok o)
    (ho' : init (.frame (restated k b f)) c' = .ok o') :
    (o'.optimize linkage fuel ok).2 = (o.optimize linkage fuel ok).2 := by
  have e : o = { returns := some f, cov := c, base := { tickers := f.cols, weights := none } } := by
    cases c <;> exact (Except.ok.inj ho).symm
  have e' : o' = { returns := some (restated k b f), cov := c', base := { tickers := f.cols, weights := none } } := by
    cases c' <;> exact (Except.ok.inj ho').symm
  have h1 : corrRows (restated k b f) = corrRows f := by
    unfold corrRows
    simp only [corrPair_restated hk]
    rfl
  have h2 : covRows (restated k b f) = (covRows f).map (List.map (Option.map (k ^ 2 * ·))) := by
    unfold covRows
    simp only [covPair_restated, List.map_map, Function.comp_def]
    rfl
  have hk2 : (0 : ℝ) < k ^ 2 := by positivity
  have hin : o'.input = match numbers (corrRows f), numbers (covRows f) with
      | some c, some s => some (.returns (loc f.cols c) (fun a b => k ^ 2 * loc f.cols s a b))
      | _, _ => none := by
    rw [e']
    unfold Obj.input
    simp only [h1, h2, numbers_scale]
    cases numbers (corrRows f) <;> cases numbers (covRows f) <;> simp only [Option.map_some, Option.map_none, loc_scale]
    rfl
  have hin0 : o.input = match numbers (corrRows f), numbers (covRows f) with
      | some c, some s => some (.returns (loc f.cols c) (loc f.cols s))
      | _, _ => none := by
    rw [e]
    rfl
  have hb : o'.base = o.base := by rw [e, e']
  unfold Obj.optimize
  cases ok with
  | false => rfl
  | true =>
    simp only [Bool.not_true, Bool.false_eq_true, if_false]
    rw [hin, hin0]
    cases numbers (corrRows f) with
    | none => rfl
    | some c =>
      cases numbers (covRows f) with
      | none => rfl
      | some s =>
        dsimp only
        rw [hb, Hrp.C16_scale_invariant_returns linkage fuel true o.base (loc f.cols c) (loc f.cols s) _ hk2]

theorem dev_perm {ps qs : List (ℝ × ℝ)} (h : ps.Perm qs) (g h' : ℝ × ℝ → ℝ) : dev ps g h' = dev qs g h' := by
  unfold dev
  rw [(h.map g).sum_eq, (h.map h').sum_eq, h.length_eq]
  exact (h.map _).sum_eq

/-- **C72**: neither the order of the observations nor their dates matter. -/
theorem C72_order {ι' : Type} (linkage : (κ → κ → ℝ) → Except PyErr (List (ℕ × ℕ))) (fuel : ℕ) (ok : Bool)
    (f : Frame ι κ) (f' : Frame ι' κ) (hc : f'.cols = f.cols) (hp : (f'.rows.map Prod.snd).Perm (f.rows.map Prod.snd))
    (c c' : CovIn κ) {o : Obj ι κ} {o' : Obj ι' κ} (ho : init (.frame f) c = .ok o) (ho' : init (.frame f') c' = .ok o') :
    (o'.optimize linkage fuel ok).2 = (o.optimize linkage fuel ok).2 := by
  have e : o = { returns := some f, cov := c, base := { tickers := f.cols, weights := none } } := by
    cases c <;> exact (Except.ok.inj ho).symm
  have e' : o' = { returns := some f', cov := c', base := { tickers := f'.cols, weights := none } } := by
    cases c' <;> exact (Except.ok.inj ho').symm
  have ht : ∀ i j, (together f' i j).Perm (together f i j) := by
    intro i j
    have := hp.filterMap fun r : List Cell => (r.getD i none).bind fun a => (r.getD j none).map fun b => (a, b)
    rw [List.filterMap_map, List.filterMap_map] at this
    exact this
  have h1 : corrRows f' = corrRows f := by
    unfold corrRows
    simp only [corrPair_dev, pairs_col, hc, (ht _ _).length_eq, dev_perm (ht _ _)]
  have h2 : covRows f' = covRows f := by
    unfold covRows
    simp only [covPair_dev, pairs_col, hc, (ht _ _).length_eq, dev_perm (ht _ _)]
  have hin : o'.input = o.input := by
    rw [e, e']
    unfold Obj.input
    simp only [h1, h2, hc]
  have hb : o'.base = o.base := by rw [e, e', hc]
  unfold Obj.optimize
  rw [hin, hb]
  cases ok <;> cases o.input <;> rfl

/-! ### Not vacuous -/

theorem twoAssets_vary : ∀ i < 2, ∀ j < 2, Vary twoAssets i j := by
  obtain ⟨e00, e01, e10, e11⟩ := twoAssets_together
  intro i hi j hj
  unfold Vary
  rcases (by omega : i = 0 ∨ i = 1) with rfl | rfl <;> rcases (by omega : j = 0 ∨ j = 1) with rfl | rfl
  · rw [e00]; norm_num [Returns.sampleCov, Returns.avg]
  · rw [e01]; norm_num [Returns.sampleCov, Returns.avg]
  · rw [e10]; norm_num [Returns.sampleCov, Returns.avg]
  · rw [e11]; norm_num [Returns.sampleCov, Returns.avg]

/-- Two uncorrelated assets are clustered at distance √½. -/
example {o : Obj ℕ ℕ} (ho : init (.frame twoAssets) .none = .ok o) :
    ∃ D, Clusters o D ∧ D 7 3 = Real.sqrt (1 / 2) ∧ D 7 7 = 0 := by
  obtain ⟨D, h1, h2⟩ := C71_returns twoAssets .none ho twoAssets_vary
  obtain ⟨h3, -, h4, -⟩ := h2 7 (by decide) 3 (by decide)
  refine ⟨D, h1, ?_, h4⟩
  have i7 : List.idxOf 7 twoAssets.cols = 0 := by decide
  have i3 : List.idxOf 3 twoAssets.cols = 1 := by decide
  rw [h3, i7, i3]
  have : correlation twoAssets 0 1 = 0 := by
    unfold correlation annualCov
    rw [twoAssets_together.2.1]
    norm_num [Returns.sampleCov, Returns.avg]
  rw [this, corrDistance, sub_zero]

/-- A covariance matrix of two assets with correlation 1/4. -/
example {o : Obj ℕ ℕ} (ho : init .none (.frame [7, 3] (List.ofFn fun i : Fin 2 => List.ofFn fun j : Fin 2 =>
      if (i : ℕ) = j then 4 else 1)) = .ok o) :
    ∃ D, Clusters o D ∧ ∃ rho, D 7 3 = corrDistance rho ∧ |rho - 1 / 4| ≤ 1 / 2 / 10 ^ 6 := by
  have h4 : Real.sqrt 4 = 2 := by rw [show (4 : ℝ) = 2 * 2 by norm_num]; exact Real.sqrt_mul_self (by norm_num)
  obtain ⟨D, h1, h2⟩ := C71_covariance [7, 3] (fun i j => if i = j then 4 else 1) ho
    (fun i _ => by simp) (fun i _ j _ => by
      simp only [if_true, h4]
      split <;> norm_num)
  obtain ⟨rho, -, h3, h5⟩ := h2 7 (by decide) 3 (by decide)
  refine ⟨D, h1, rho, h3, ?_⟩
  rw [show List.idxOf 7 [7, 3] = 0 by decide, show List.idxOf 3 [7, 3] = 1 by decide] at h5
  simp only [if_true, h4] at h5
  norm_num at h5 ⊢
  exact h5

/-- The same two assets in percent and with other drifts. -/
example : restated 100 (fun j => if j = 0 then 1 else 0) twoAssets =
    full [7, 3] [(0, [101, 100]), (1, [-99, 100]), (2, [1, -200])] := by
  norm_num [restated, twoAssets, full]

end Verif.HrpObj
