import Verif.Spec.Mcd
import Verif.Proof.Risk
import Verif.Props.ReturnModels

/-! Property theorem C93: `min_cov_determinant` returns the covariance of some of the complete days. -/

namespace Verif.Risk
open Verif.Py Verif.Frames Verif.Returns
open scoped Matrix

variable {ι κ ρ : Type}

theorem dayCov_psd {t n : ℕ} (X : Matrix (Fin t) (Fin n) ℝ) (D : Finset (Fin t)) {k : ℝ} (hk : 0 ≤ k) :
    (Matrix.of fun i j => dayCov X D i j * k : Matrix (Fin n) (Fin n) ℝ).PosSemidef := by
  have e : (Matrix.of fun i j => dayCov X D i j * k : Matrix (Fin n) (Fin n) ℝ) =
      (k / D.card) • ∑ s ∈ D, Matrix.vecMulVec (fun i => X s i - dayMean X D i)
        (star fun i => X s i - dayMean X D i) := by
    ext i j
    simp only [Matrix.of_apply, dayCov, Matrix.smul_apply, Matrix.sum_apply, Matrix.vecMulVec_apply, Pi.star_apply,
      star_trivial, smul_eq_mul]
    ring
  rw [e]
  exact (Matrix.posSemidef_sum _ fun s _ => Matrix.posSemidef_vecMulVec_self_star _).smul (by positivity)

/-- C93: the answer carries the labels of the prices, and is the yearly covariance of some of the days on which every
asset has a return: symmetric, positive semidefinite, and so never repaired. -/
theorem C93_support {S : FastMcd ρ} (hS : S.Sound) (E : Eigh) (prices : Frame ι κ) (returnsData log : Bool) {freq : ℝ}
    (hf : 0 ≤ freq) (seed : ρ) (fix : String) (R : CovFrame κ)
    (h : minCovDeterminant E S prices returnsData freq seed log fix = .ok R) :
    ∃ (V : Matrix (Fin prices.cols.length) (Fin prices.cols.length) ℝ)
      (D : Finset (Fin (completeRows (returnsIn returnsData log prices)).length)),
      R = ⟨prices.cols, V⟩ ∧ D.Nonempty ∧ V.PosSemidef ∧
      V = freq • dayCov (asArray prices.cols.length (completeRows (returnsIn returnsData log prices))) D := by
  unfold minCovDeterminant mcdOf at h
  split at h
  · cases h
  · rename_i C hC
    obtain ⟨D, hD, rfl⟩ := hS.support seed _ _ hC
    have hp := dayCov_psd (asArray prices.cols.length (completeRows (returnsIn returnsData log prices))) D hf
    have h' := (fixFrame_psd E fix prices.cols _ _ (fun i j => rfl) hp).symm.trans h
    cases h'
    refine ⟨_, D, rfl, hD, hp, ?_⟩
    ext i j
    simp [mul_comm]

theorem mapM_id_some {l : List Cell} {x : List ℝ} : l.mapM id = some x ↔ l = x.map some := by
  induction l generalizing x with
  | nil => cases x <;> simp
  | cons a l ih =>
    cases a with
    | none => cases x <;> simp
    | some a =>
      cases x with
      | nil => cases h : List.mapM id l <;> simp [h]
      | cons b x =>
        have := ih (x := x)
        simp only [List.mapM_cons, List.map_cons, List.cons.injEq, Option.some.injEq]
        rw [← this]
        cases h : List.mapM id l <;> simp

theorem mapM_id_none {l : List Cell} (h : none ∈ l) : l.mapM id = none := by
  induction l with
  | nil => simp at h
  | cons a l ih =>
    cases a with
    | none => simp
    | some a => simp [ih (by simpa using h)]

open Classical in
/-- C93: the rows the estimator sees are the full days, each once and in their order. -/
theorem C93_full_days (f : Frame ι κ) :
    (completeRows f).map (List.map some) = (f.rows.filter (fun r => FullDay r)).map Prod.snd := by
  unfold completeRows
  induction f.rows with
  | nil => rfl
  | cons r l ih =>
    by_cases hr : FullDay r
    · rw [List.filter_cons_of_pos (by simpa using hr), List.map_cons, ← ih]
      obtain ⟨x, hx⟩ : ∃ x : List ℝ, r.2 = x.map some :=
        ⟨r.2.map (·.getD 0), by
          rw [List.map_map]
          conv_lhs => rw [← List.map_id r.2]
          refine List.map_congr_left fun c hc => ?_
          obtain ⟨y, rfl⟩ := Option.ne_none_iff_exists'.1 (hr c hc)
          rfl⟩
      have e : r.2.mapM id = some x := mapM_id_some.2 hx
      rw [List.filterMap_cons, e, List.map_cons, hx]
    · rw [List.filter_cons_of_neg (by simpa using hr), ← ih, List.filterMap_cons, mapM_id_none]
      unfold FullDay at hr
      push Not at hr
      obtain ⟨c, hc, rfl⟩ := hr
      exact hc

open Classical in
/-- C93: a day on which some asset has no return might as well not be there. -/
theorem C93_incomplete_days (E : Eigh) (S : FastMcd ρ) (f : Frame ι κ) (freq : ℝ) (seed : ρ) (log : Bool) (fix : String) :
    minCovDeterminant E S { f with rows := f.rows.filter (fun r => FullDay r) } true freq seed log fix =
      minCovDeterminant E S f true freq seed log fix := by
  have e : completeRows { f with rows := f.rows.filter (fun r => FullDay r) } = completeRows f := by
    unfold completeRows
    simp only
    induction f.rows with
    | nil => rfl
    | cons r l ih =>
      by_cases hr : FullDay r
      · rw [List.filter_cons_of_pos (by simpa using hr), List.filterMap_cons, List.filterMap_cons, ih]
      · rw [List.filter_cons_of_neg (by simpa using hr), ih, List.filterMap_cons, mapM_id_none]
        unfold FullDay at hr
        push Not at hr
        obtain ⟨c, hc, rfl⟩ := hr
        exact hc
  exact congrArg (fun rows => mcdOf E S f.cols rows freq seed fix) e

/-- C93: with fewer than two full days there is no estimate. -/
theorem C93_too_short {S : FastMcd ρ} (hS : S.Sound) (E : Eigh) (f : Frame ι κ) (returnsData log : Bool) (freq : ℝ)
    (seed : ρ) (fix : String) (h : (completeRows (returnsIn returnsData log f)).length < 2) :
    minCovDeterminant E S f returnsData freq seed log fix = .error .valueError := by
  unfold minCovDeterminant mcdOf
  rw [hS.short seed _ h]

/-- C93: quoting every asset in another unit of its own changes nothing. -/
theorem C93_prices (E : Eigh) (S : FastMcd ρ) (cols : List κ) (rows : List (ι × List ℝ)) (c : List ℝ)
    (hc : c.length = cols.length) (hpos : ∀ x ∈ c, 0 < x) (hr : Rect cols.length (fun x => 0 < x) rows) (freq : ℝ)
    (seed : ρ) (log : Bool) (fix : String) :
    minCovDeterminant E S (scaled c cols rows) false freq seed log fix =
      minCovDeterminant E S (full cols rows) false freq seed log fix := by
  have e : returnsIn false log (scaled c cols rows) = returnsIn false log (full cols rows) :=
    returnsOf_scaled log cols rows c hc hpos hr
  exact congrArg (fun g => mcdOf E S cols (completeRows g) freq seed fix) e

/-! ### Concrete cases -/

/-- A library keeping the contract: every row is kept. -/
noncomputable def allRows : FastMcd ℕ where
  run := fun _ {t _} X => if t < 2 then .error .valueError else .ok (dayCov X Finset.univ)

theorem allRows_sound : allRows.Sound where
  support := fun seed {t n} X C h => by
    by_cases ht : t < 2
    · simp only [allRows, if_pos ht] at h
      cases h
    · simp only [allRows, if_neg ht, Except.ok.injEq] at h
      exact ⟨Finset.univ, ⟨⟨0, by omega⟩, Finset.mem_univ _⟩, h.symm⟩
  short := fun seed {t n} X ht => by simp only [allRows, if_pos ht]

/-- Three days of returns, one of them without the return of B. -/
noncomputable def gapReturns : Frame ℕ String :=
  { cols := ["A", "B"], rows := [(0, [some 1, some 2]), (1, [some 7, none]), (2, [some 3, some 6])] }

theorem gapReturns_rows : completeRows gapReturns = [[1, 2], [3, 6]] := by
  simp [completeRows, gapReturns]

/-- There is an answer, and it is about the two full days: variance of A is 1, the covariance with B is 2. -/
example (E : Eigh) : ∃ V : Matrix (Fin 2) (Fin 2) ℝ,
    minCovDeterminant E allRows gapReturns true 1 0 false "spectral" = .ok ⟨["A", "B"], V⟩ ∧ V 0 0 = 1 ∧ V 0 1 = 2 := by
  have hp := dayCov_psd (asArray 2 [[1, 2], [3, 6]]) Finset.univ (zero_le_one (α := ℝ))
  refine ⟨Matrix.of fun i j => dayCov (asArray 2 [[1, 2], [3, 6]]) Finset.univ i j * 1, ?_, ?_⟩
  · unfold minCovDeterminant
    refine (congrArg (fun rows => mcdOf E allRows ["A", "B"] rows 1 0 "spectral") gapReturns_rows).trans ?_
    exact fixFrame_psd E "spectral" ["A", "B"] _ _ (fun i j => rfl) hp
  · have u : (Finset.univ : Finset (Fin [[(1 : ℝ), 2], [3, 6]].length)) = {0, 1} := rfl
    constructor <;> norm_num [dayCov, dayMean, asArray, u]

example : ¬ FullDay ((1 : ℕ), [some (7 : ℝ), none]) := by simp [FullDay]

/-- One day is not enough. -/
example (E : Eigh) : minCovDeterminant E allRows (full ["A"] [((0 : ℕ), [(1 : ℝ)])]) true 1 0 false "spectral" =
    .error .valueError :=
  C93_too_short allRows_sound E _ _ _ _ _ _ (by simp [completeRows, full, returnsIn])

end Verif.Risk
