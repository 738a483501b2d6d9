import Verif.Proof.Risk
import Verif.Props.RiskFix

/-! Property theorem C35: covariance estimators. -/

set_option linter.unusedSectionVars false

namespace Verif.Risk
open scoped Matrix
open Verif.Py Verif.Frames Verif.Returns

variable {ι κ : Type}

/-- C35 for `sample_cov`.  On complete returns with at least two rows the result is, whatever the
repair method and the numerical library, exactly the matrix of annualised sample covariances, which
is symmetric positive semidefinite. -/
theorem C35_sample_cov (E : Eigh) (f : Frame ι κ) (rd log : Bool) (freq : ℝ) (fix : String)
    (cols : List κ) (rows : List (ι × List ℝ)) (hR : returnsIn rd log f = full cols rows)
    (hr : ∀ r ∈ rows, r.2.length = cols.length) (h2 : 2 ≤ rows.length) (hf : 0 ≤ freq) :
    ∃ S : Matrix (Fin cols.length) (Fin cols.length) ℝ,
      sampleCovariance E f rd freq log fix = .ok ⟨cols, S⟩ ∧ S.PosSemidef ∧
      ∀ i j, S i j = sampleCov (column rows i) (column rows j) * freq := by
  have hpsd : (Matrix.of fun i j : Fin cols.length =>
      sampleCov (column rows i) (column rows j) * freq).PosSemidef := by
    have e : (Matrix.of fun i j : Fin cols.length =>
        sampleCov (column rows i) (column rows j) * freq) =
        Matrix.of fun i j : Fin cols.length => ((rows.map (fun r => (freq / ((rows.length : ℝ) - 1),
          fun i : Fin cols.length => r.2.getD i 0 - avg (column rows i)))).map
          (fun p => p.1 * (p.2 i * p.2 j))).sum := by
      ext i j
      simp only [Matrix.of_apply]
      unfold column
      rw [sampleCov_map, List.map_map, div_mul_eq_mul_div, mul_comm, mul_div_right_comm]
      simp only [Function.comp_def]
      rw [List.sum_map_mul_left]
    have h1 : (0 : ℝ) ≤ (rows.length : ℝ) - 1 := by
      have : (2 : ℝ) ≤ rows.length := by exact_mod_cast h2
      linarith
    rw [e]
    apply gram_psd
    intro p hp
    obtain ⟨r, -, rfl⟩ := List.mem_map.1 hp
    exact div_nonneg hf h1
  refine ⟨_, ?_, hpsd, fun i j => rfl⟩
  unfold sampleCovariance
  rw [hR]
  apply fixFrame_psd
  · intro i j
    rw [col_full _ _ _ (fun r h => by rw [hr r h]; exact i.2),
      col_full _ _ _ (fun r h => by rw [hr r h]; exact j.2),
      covPair_some _ _ (by simp [column]) (by simpa [column] using h2)]
    rfl
  · exact hpsd

/-- C35 for `semicovariance`, for every frame with at least one row, complete or not: the result is
positive semidefinite and returned unfixed; a missing return contributes no shortfall. -/
theorem C35_semicovariance_any (E : Eigh) (f : Frame ι κ) (rd log : Bool) (b freq : ℝ) (fix : String)
    (hne : (returnsIn rd log f).rows ≠ []) (hf : 0 ≤ freq) :
    ∃ S : CovFrame κ, semicovariance E f rd b freq log fix = .ok S ∧
      S.labels = (returnsIn rd log f).cols ∧ S.val.PosSemidef ∧
      ∀ i j, S.val i j = ((returnsIn rd log f).rows.map (fun r =>
        min (((r.2[i.1]?).getD none).elim 0 (· - b)) 0 *
          min (((r.2[j.1]?).getD none).elim 0 (· - b)) 0)).sum / (returnsIn rd log f).rows.length * freq := by
  set R := returnsIn rd log f
  have hdrop : ∀ c : Cell, drop b c = min (c.elim 0 (· - b)) 0 := by
    intro c; cases c <;> simp [drop]
  set V : Matrix (Fin R.cols.length) (Fin R.cols.length) ℝ := Matrix.of fun i j =>
    (R.rows.map (fun r => min (((r.2[i.1]?).getD none).elim 0 (· - b)) 0 *
          min (((r.2[j.1]?).getD none).elim 0 (· - b)) 0)).sum / R.rows.length * freq with hV
  have hT : R.rows.length ≠ 0 := fun h => hne (List.length_eq_zero_iff.1 h)
  have hpsd : V.PosSemidef := by
    have e : V = Matrix.of fun i j : Fin R.cols.length => ((R.rows.map (fun r =>
        (freq / (R.rows.length : ℝ),
          fun i : Fin R.cols.length => min (((r.2[i.1]?).getD none).elim 0 (· - b)) 0))).map
          (fun p => p.1 * (p.2 i * p.2 j))).sum := by
      ext i j
      simp only [hV, Matrix.of_apply, List.map_map, Function.comp_def]
      rw [List.sum_map_mul_left]
      ring
    rw [e]
    apply gram_psd
    intro p hp
    obtain ⟨r, -, rfl⟩ := List.mem_map.1 hp
    exact div_nonneg hf (Nat.cast_nonneg _)
  refine ⟨⟨R.cols, V⟩, ?_, rfl, hpsd, fun i j => rfl⟩
  unfold semicovariance
  apply fixFrame_psd
  · intro i j
    refine (if_neg hT).trans ?_
    simp only [hV, Matrix.of_apply, Frame.col, List.map_map]
    congr 3
    rw [List.zipWith_map, List.zipWith_self]
    simp only [Function.comp_def, hdrop]
    rfl
  · exact hpsd

/-- C35 for `semicovariance` on complete returns: the annualised average product of shortfalls below
the benchmark. -/
theorem C35_semicovariance (E : Eigh) (f : Frame ι κ) (rd log : Bool) (b freq : ℝ) (fix : String)
    (cols : List κ) (rows : List (ι × List ℝ)) (hR : returnsIn rd log f = full cols rows)
    (hr : ∀ r ∈ rows, r.2.length = cols.length) (h1 : rows ≠ []) (hf : 0 ≤ freq) :
    ∃ S : Matrix (Fin cols.length) (Fin cols.length) ℝ,
      semicovariance E f rd b freq log fix = .ok ⟨cols, S⟩ ∧ S.PosSemidef ∧
      ∀ i j, S i j = avg (rows.map (fun r =>
        min (r.2.getD i 0 - b) 0 * min (r.2.getD j 0 - b) 0)) * freq := by
  obtain ⟨⟨lab, V⟩, e1, e2, e3, e4⟩ := C35_semicovariance_any E f rd log b freq fix
    (by rw [hR]; simpa [full] using h1) hf
  simp only at e2 e3 e4
  rw [hR] at e2
  have e2' : lab = cols := e2
  subst e2'
  refine ⟨V, e1, e3, fun i j => ?_⟩
  rw [e4 i j, hR]
  unfold avg full
  simp only [List.length_map, List.map_map]
  congr 3
  apply List.map_congr_left
  intro r h
  have hi : i.1 < r.2.length := by rw [hr r h]; exact i.2
  have hj : j.1 < r.2.length := by rw [hr r h]; exact j.2
  simp [List.getD_eq_getElem?_getD, List.getElem?_eq_getElem hi, List.getElem?_eq_getElem hj]

/-- C35 for `exp_cov`: with the weights of C31 the entries are the annualised weighted averages of
products of deviations from the means. -/
theorem C35_exp_cov (E : Eigh) (f : Frame ι κ) (rd log : Bool) (span freq : ℝ) (fix : String)
    (cols : List κ) (rows : List (ι × List ℝ)) (hR : returnsIn rd log f = full cols rows)
    (hr : ∀ r ∈ rows, r.2.length = cols.length) (h1 : rows ≠ []) (hs : 1 ≤ span) (hf : 0 ≤ freq) :
    ∃ (w : List ℝ) (S : Matrix (Fin cols.length) (Fin cols.length) ℝ),
      w.length = rows.length ∧ (∀ a ∈ w, 0 ≤ a) ∧ w.sum = 1 ∧
      (∀ i, i + 1 < rows.length → w.getD i 0 = (span - 1) / (span + 1) * w.getD (i + 1) 0) ∧
      expCovariance E f rd span freq log fix = .ok ⟨cols, S⟩ ∧ S.PosSemidef ∧
      ∀ i j, S i j = ((w.zip rows).map (fun p => p.1 *
        ((p.2.2.getD i 0 - avg (column rows i)) * (p.2.2.getD j 0 - avg (column rows j))))).sum * freq := by
  obtain ⟨w, hw1, hw2, hw3, hw4, -, hw⟩ := C31_convex_combination span hs rows.length
    (List.length_pos_iff.2 h1)
  set v : Fin cols.length → Fin cols.length → ℝ := fun i j => ((w.zip rows).map (fun p => p.1 *
        ((p.2.2.getD i 0 - avg (column rows i)) * (p.2.2.getD j 0 - avg (column rows j))))).sum with hv
  have hpair : ∀ i j : Fin cols.length, pairExpCov span ((full cols rows).col i) ((full cols rows).col j) =
      .ok (some (v i j)) := by
    intro i j
    rw [col_full _ _ _ (fun r h => by rw [hr r h]; exact i.2),
        col_full _ _ _ (fun r h => by rw [hr r h]; exact j.2)]
    unfold pairExpCov
    rw [covariation_some _ _ (by
      intro h
      have := column_length rows i
      rw [h] at this
      exact h1 (List.length_eq_zero_iff.1 this.symm)) (by simp [column])]
    obtain ⟨m, hm1, hm2, -⟩ := hw (List.zipWith (fun a b => (a - avg (column rows i)) *
      (b - avg (column rows j))) (column rows i) (column rows j)) (by simp [column])
    rw [hm1, hm2]
    congr 2
    have : ∀ p q : ℝ, List.zipWith (fun a b => (a - p) * (b - q)) (column rows i) (column rows j) =
        rows.map (fun r => (r.2.getD i 0 - p) * (r.2.getD j 0 - q)) := by
      intro p q
      unfold column
      rw [List.zipWith_map, List.zipWith_self]
    rw [this, zipWith_zip_sum]
  have hsym : ∀ i j, v i j = v j i := by
    intro i j
    simp only [hv]
    congr 1
    apply List.map_congr_left
    intro p _
    ring
  obtain ⟨S', hS1, hS2⟩ := expLoop_spec span (fun i : Fin cols.length => (full cols rows).col i)
    (fun i j => some (v i j)) (fun i j => by rw [hsym]) (upperPairs cols.length)
    (fun p _ => hpair p.1 p.2) (fun _ _ => some 0)
  have hS : ∀ a b, S' a b = some (v a b) := by
    intro a b
    rw [hS2 a b, if_pos]
    rw [upperPairs_mem, upperPairs_mem]
    exact le_total a b
  have hpsd : (Matrix.of fun i j => v i j * freq : Matrix (Fin cols.length) (Fin cols.length) ℝ).PosSemidef := by
    have e : (Matrix.of fun i j => v i j * freq : Matrix (Fin cols.length) (Fin cols.length) ℝ) =
        Matrix.of fun i j : Fin cols.length => (((w.zip rows).map (fun p => (p.1 * freq,
          fun i : Fin cols.length => p.2.2.getD i 0 - avg (column rows i)))).map
          (fun p => p.1 * (p.2 i * p.2 j))).sum := by
      ext i j
      simp only [hv, Matrix.of_apply, List.map_map, Function.comp_def]
      rw [← List.sum_map_mul_right]
      congr 1
      apply List.map_congr_left
      intro p _
      ring
    rw [e]
    apply gram_psd
    intro p hp
    obtain ⟨q, hq, rfl⟩ := List.mem_map.1 hp
    exact mul_nonneg (hw2 q.1 (List.of_mem_zip hq).1) hf
  refine ⟨w, Matrix.of fun i j => v i j * freq, hw1, hw2, hw3, hw4, ?_, hpsd, fun i j => rfl⟩
  unfold expCovariance
  rw [hR]
  dsimp only
  have : expLoop span (n := (full cols rows).cols.length) (fun i => (full cols rows).col i)
      (upperPairs (full cols rows).cols.length) (fun _ _ => some 0) = .ok S' := hS1
  rw [this]
  simp only
  apply fixFrame_psd
  · intro i j
    have := hS i j
    rw [this]
    rfl
  · exact hpsd

/-- Three prices of two assets meet the hypotheses of C35. -/
example : ∃ S : Matrix (Fin 2) (Fin 2) ℝ, sampleCovariance exactEigh
    (full ["A", "B"] [(0, [1, 2]), (1, [2, 1]), (2, [3, (4 : ℝ)])]) false 252 false "spectral" =
      .ok ⟨["A", "B"], S⟩ ∧ S.PosSemidef := by
  have h := returnsOf_full (ι := ℕ) false ["A", "B"] (0, [1, 2]) [(1, [2, 1]), (2, [3, 4])] (n := 2)
    (by refine ⟨by norm_num, ?_⟩
        intro r hr
        simp only [List.mem_cons, List.not_mem_nil, or_false] at hr
        rcases hr with rfl | rfl | rfl <;> refine ⟨rfl, ?_⟩ <;> simp)
  obtain ⟨S, h1, h2, -⟩ := C35_sample_cov exactEigh
    (full ["A", "B"] [(0, [1, 2]), (1, [2, 1]), (2, [3, (4 : ℝ)])]) false false 252 "spectral"
    ["A", "B"] _ h (by simp [mapRows, ratioRows]) (by simp [mapRows, ratioRows]) (by norm_num)
  exact ⟨S, h1, h2⟩

/-! ### Incomplete data -/

theorem pairs_comm (x y : List Cell) : pairs y x = (pairs x y).map Prod.swap := by
  unfold pairs
  induction x generalizing y with
  | nil => simp
  | cons a x ih =>
    cases y with
    | nil => simp
    | cons b y =>
      simp only [List.zip_cons_cons, List.filterMap_cons]
      rw [ih y]
      cases a <;> cases b <;> rfl

theorem covPair_comm (x y : List Cell) : covPair x y = covPair y x := by
  unfold covPair
  rw [pairs_comm x y]
  simp only [List.map_map, List.length_map, Function.comp_def, Prod.swap]
  simp only [mul_comm]

theorem setBoth_symm {n : ℕ} (S : Matrix (Fin n) (Fin n) Cell) (h : Sᵀ = S) (i j : Fin n) (v : Cell) :
    (setBoth S i j v)ᵀ = setBoth S i j v := by
  ext1 a b
  have hab : S b a = S a b := congrFun (congrFun h a) b
  simp only [Matrix.transpose_apply, setBoth, Matrix.of_apply, hab]
  congr 1
  apply propext
  constructor <;> rintro (⟨h1, h2⟩ | ⟨h1, h2⟩) <;> simp [h1, h2]

theorem expLoop_symm (span : ℝ) {n : ℕ} (col : Fin n → List Cell) (l : List (Fin n × Fin n))
    (S S' : Matrix (Fin n) (Fin n) Cell) (h : Sᵀ = S) (h' : expLoop span col l S = .ok S') : S'ᵀ = S' := by
  induction l generalizing S with
  | nil =>
    have : S = S' := by simpa [expLoop, pure, Except.pure] using h'
    rw [← this]; exact h
  | cons p l ih =>
    unfold expLoop at h'
    rw [List.foldlM_cons] at h'
    cases hp : pairExpCov span (col p.1) (col p.2) with
    | error e => rw [hp] at h'; cases h'
    | ok v =>
      rw [hp] at h'
      exact ih (setBoth S p.1 p.2 v) (setBoth_symm S h _ _ _) h'

theorem fixFrame_nearly {E : Eigh} (hE : E.Sound) (method : String) (hm : method ∈ ["spectral", "diag"])
    (labels : List κ) (M : Matrix (Fin labels.length) (Fin labels.length) Cell) (hs : ∀ i j, M i j = M j i)
    (S : CovFrame κ) (h : fixFrame E method labels M = .ok S) : S.labels = labels ∧ NearlyPsd S.val := by
  unfold fixFrame at h
  cases ha : allSome M with
  | none => rw [ha] at h; cases h
  | some V =>
    rw [ha] at h
    simp only at h
    have hV : Vᵀ = V := by
      unfold allSome at ha
      split at ha
      · cases ha
        ext i j
        simp only [Matrix.transpose_apply, Matrix.of_apply]
        rw [hs]
      · cases ha
    obtain ⟨R, h1, h2, -⟩ := (C34_fix_partial hE V hV).1 method hm
    rw [h1] at h
    cases h
    exact ⟨rfl, h2⟩

/-- C35 on any data, with missing values too: whenever an estimator returns a matrix, it carries the
asset labels and is symmetric positive semidefinite up to the test tolerance. -/
theorem C35_any_data {E : Eigh} (hE : E.Sound) (f : Frame ι κ) (rd log : Bool) (b span freq : ℝ)
    (fix : String) (hm : fix ∈ ["spectral", "diag"]) (S : CovFrame κ)
    (h : sampleCovariance E f rd freq log fix = .ok S ∨ semicovariance E f rd b freq log fix = .ok S ∨
      expCovariance E f rd span freq log fix = .ok S) :
    S.labels = (returnsIn rd log f).cols ∧ NearlyPsd S.val := by
  rcases h with h | h | h
  · exact fixFrame_nearly hE fix hm _ _ (fun i j => by rw [covPair_comm]) S h
  · refine fixFrame_nearly hE fix hm _ _ (fun i j => ?_) S h
    split
    · rfl
    · rw [List.zipWith_comm]
      simp only [mul_comm]
  · unfold expCovariance at h
    dsimp only at h
    split at h
    · cases h
    · next S' hS' =>
      refine fixFrame_nearly hE fix hm _ _ (fun i j => ?_) S h
      have := expLoop_symm _ _ _ _ _ (by ext1 i j; rfl) hS'
      rw [show S' j i = S' i j from congrFun (congrFun this i) j]

end Verif.Risk
