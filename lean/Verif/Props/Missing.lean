import Verif.Spec.Missing
import Verif.Props.Shrink

/-! Property theorem C83: days on which a return is missing. -/

set_option linter.unusedSectionVars false

namespace Verif.Risk
open scoped Matrix
open Verif.Py Verif.Frames Verif.Returns

variable {ι κ : Type}

theorem pairs_together (f : Frame ι κ) (i j : ℕ) : pairs (f.col i) (f.col j) = together f i j := by
  unfold pairs together Frame.col
  rw [List.zip_map', List.filterMap_map]
  congr 1
  funext r
  simp only [Function.comp_apply]
  rcases r.2[i]? with _ | _ | x <;> rcases r.2[j]? with _ | _ | y <;> rfl

theorem present_known (f : Frame ι κ) (i : ℕ) : present (f.col i) = known f i := by
  unfold present known Frame.col
  rw [List.filterMap_map]
  congr 1
  funext r
  simp only [Function.comp_apply]
  rcases r.2[i]? with _ | _ | x <;> rfl

theorem covPair_known (f : Frame ι κ) (i j : ℕ) (h2 : 2 ≤ (together f i j).length) :
    covPair (f.col i) (f.col j) = some (knownCov f i j) := by
  unfold covPair
  rw [pairs_together]
  dsimp only
  rw [if_neg (by omega)]
  unfold knownCov sampleCov avg
  rw [List.zipWith_map, List.zipWith_self]
  simp only [List.length_map]

/-- C83 for `sample_cov`: if every two assets have two days in common and the covariances over the
common days are those of some data (positive semidefinite), they are what is returned.  Missing: the
result when they are not, which is a repaired matrix, see C34. -/
theorem C83_sample_cov_partial (E : Eigh) (f : Frame ι κ) (freq : ℝ) (hf : 0 ≤ freq) (log : Bool)
    (fix : String) (h2 : ∀ i j : Fin f.cols.length, 2 ≤ (together f i j).length)
    (hp : (Matrix.of fun i j : Fin f.cols.length => knownCov f i j).PosSemidef) :
    sampleCovariance E f true freq log fix =
      .ok ⟨f.cols, Matrix.of fun i j => knownCov f i j * freq⟩ := by
  unfold sampleCovariance
  apply fixFrame_psd
  · intro i j
    exact congrArg (Option.map (· * freq)) (covPair_known f i j (h2 i j))
  · exact scaled_psd hp hf

theorem semi_sum (b : ℝ) (f : Frame ι κ) (i j : ℕ) :
    (f.rows.map (fun r => min (((r.2[i]?).getD none).elim 0 (· - b)) 0 *
      min (((r.2[j]?).getD none).elim 0 (· - b)) 0)).sum =
    ((together f i j).map (fun p => min (p.1 - b) 0 * min (p.2 - b) 0)).sum := by
  unfold together
  induction f.rows with
  | nil => rfl
  | cons r rows ih =>
    rw [List.map_cons, List.sum_cons, ih, List.filterMap_cons]
    rcases r.2[i]? with _ | _ | x <;> rcases r.2[j]? with _ | _ | y <;> simp

/-- C83 for `semicovariance`, for all data: the average over the days known for both is reduced by the
share of those days among all days.  Missing: equality, see `C83_semicovariance_false`. -/
theorem C83_semicovariance_partial (E : Eigh) (f : Frame ι κ) (b freq : ℝ) (hf : 0 ≤ freq) (log : Bool)
    (fix : String) (hne : f.rows ≠ []) :
    ∃ V : Matrix (Fin f.cols.length) (Fin f.cols.length) ℝ,
      semicovariance E f true b freq log fix = .ok ⟨f.cols, V⟩ ∧
      ∀ i j, V i j = ((together f i j).length / f.rows.length) * (knownSemi b f i j * freq) := by
  obtain ⟨⟨lab, V⟩, e1, e2, -, e4⟩ := C35_semicovariance_any E f true log b freq fix hne hf
  have e2' : lab = f.cols := e2
  subst e2'
  refine ⟨V, e1, fun i j => ?_⟩
  refine (e4 i j).trans ?_
  have hr : returnsIn true log f = f := rfl
  simp only [hr]
  rw [semi_sum]
  unfold knownSemi avg
  rw [List.length_map]
  by_cases h0 : together f i j = []
  · rw [h0]; simp
  · have : ((together f i j).length : ℝ) ≠ 0 := Nat.cast_ne_zero.2 fun h => h0 (List.length_eq_zero_iff.1 h)
    field_simp

/-- So the semivariance of an asset is never overstated and, with a return below the benchmark, is
right only if no return of the asset is missing. -/
theorem C83_semivariance_partial (E : Eigh) (f : Frame ι κ) (b freq : ℝ) (hf : 0 < freq) (log : Bool)
    (fix : String) (hne : f.rows ≠ []) :
    ∃ V : Matrix (Fin f.cols.length) (Fin f.cols.length) ℝ,
      semicovariance E f true b freq log fix = .ok ⟨f.cols, V⟩ ∧
      ∀ i, V i i ≤ knownSemi b f i i * freq ∧
        ((∃ p ∈ together f i i, p.1 < b) → (V i i = knownSemi b f i i * freq ↔
          ∀ r ∈ f.rows, ∃ x, r.2[i.1]? = some (some x))) := by
  obtain ⟨V, e, hV⟩ := C83_semicovariance_partial E f b freq hf.le log fix hne
  refine ⟨V, e, fun i => ?_⟩
  have hT : (0 : ℝ) < f.rows.length := Nat.cast_pos.2 (List.length_pos_iff.2 hne)
  have hsame : ∀ p ∈ together f i.1 i.1, p.1 = p.2 := by
    intro p hp
    obtain ⟨r, -, hr⟩ := List.mem_filterMap.1 hp
    rcases h : r.2[i.1]? with _ | _ | x <;> rw [h] at hr <;> cases hr
    rfl
  have hterm : ∀ y ∈ (together f i.1 i.1).map (fun p => min (p.1 - b) 0 * min (p.2 - b) 0), 0 ≤ y := by
    intro y hy
    obtain ⟨p, hp, rfl⟩ := List.mem_map.1 hy
    rw [← hsame p hp]
    exact mul_self_nonneg _
  have hk0 : 0 ≤ knownSemi b f i i :=
    div_nonneg (List.sum_nonneg hterm) (Nat.cast_nonneg _)
  have hle : (together f i.1 i.1).length ≤ f.rows.length := List.length_filterMap_le _ _
  have hshare : ((together f i.1 i.1).length : ℝ) / f.rows.length ≤ 1 := by
    rw [div_le_one hT]; exact_mod_cast hle
  constructor
  · rw [hV i i]
    exact mul_le_of_le_one_left (mul_nonneg hk0 hf.le) hshare
  · rintro ⟨p, hp, hpb⟩
    have hpos : 0 < knownSemi b f i i := by
      refine div_pos ?_ ?_
      · refine lt_of_lt_of_le ?_ (List.single_le_sum hterm _ (List.mem_map.2 ⟨p, hp, rfl⟩))
        rw [← hsame p hp, min_eq_left (by linarith)]
        exact mul_self_pos.2 (by linarith)
      · rw [List.length_map]
        exact Nat.cast_pos.2 (List.length_pos_of_mem hp)
    have hall : (together f i.1 i.1).length = f.rows.length ↔
        ∀ r ∈ f.rows, ∃ x, r.2[i.1]? = some (some x) := by
      unfold together
      rw [List.filterMap_length_eq_length]
      refine forall₂_congr fun r _ => ?_
      rcases r.2[i.1]? with _ | _ | x <;> simp
    rw [hV i i, ← hall]
    have hpf := (mul_pos hpos hf).ne'
    rw [mul_eq_right₀ hpf, div_eq_one_iff_eq hT.ne']
    exact Nat.cast_inj

/-! ### Exponential weights -/

/-- Sums over a list with one more element. -/
theorem fade_num (q : ℝ) (l : List (Option ℝ)) (c : Option ℝ) (g : ℝ → ℝ) :
    ∑ s ∈ Finset.range (l ++ [c]).length,
      (((l ++ [c])[s]?).join).elim 0 (fun x => q ^ ((l ++ [c]).length - 1 - s) * g x) =
    q * (∑ s ∈ Finset.range l.length, (l[s]?.join).elim 0 (fun x => q ^ (l.length - 1 - s) * g x)) +
      c.elim 0 g := by
  rw [List.length_append, List.length_singleton, Finset.sum_range_succ, Finset.mul_sum]
  congr 1
  · refine Finset.sum_congr rfl fun s hs => ?_
    have hs' := Finset.mem_range.1 hs
    rw [List.getElem?_append_left hs']
    rcases l[s]?.join with _ | x
    · simp
    · simp only [Option.elim_some]
      rw [show l.length + 1 - 1 - s = (l.length - 1 - s) + 1 by omega, pow_succ]
      ring
  · rw [List.getElem?_append_right le_rfl]
    rcases c with _ | x <;> simp

theorem ewm_fold (alpha : ℝ) (hq : 0 < 1 - alpha) (l : List Cell) :
    let N := ∑ s ∈ Finset.range l.length, (l[s]?.join).elim 0 (fun x => (1 - alpha) ^ (l.length - 1 - s) * x)
    let D := ∑ s ∈ Finset.range l.length, (l[s]?.join).elim 0 (fun _ => (1 - alpha) ^ (l.length - 1 - s) * 1)
    let S := l.foldl (ewmStep alpha) { avg := none, old := 1 }
    (present l = [] → S.avg = none ∧ N = 0 ∧ D = 0) ∧
    (present l ≠ [] → S.avg = some (N / D) ∧ S.old = D ∧ 0 < D) := by
  induction l using List.reverseRecOn with
  | nil => simp [present]
  | append_singleton l c ih =>
    dsimp only at ih ⊢
    have e1 := fade_num (1 - alpha) l c (fun x => x)
    have e2 := fade_num (1 - alpha) l c (fun _ => 1)
    rw [e1, e2, List.foldl_append, List.foldl_cons, List.foldl_nil]
    clear e1 e2
    generalize (∑ s ∈ Finset.range l.length,
      (l[s]?.join).elim 0 (fun x => (1 - alpha) ^ (l.length - 1 - s) * x)) = N at ih ⊢
    generalize (∑ s ∈ Finset.range l.length,
      (l[s]?.join).elim 0 (fun _ => (1 - alpha) ^ (l.length - 1 - s) * 1)) = D at ih ⊢
    generalize l.foldl (ewmStep alpha) { avg := none, old := 1 } = S at ih ⊢
    obtain ⟨ih1, ih2⟩ := ih
    have hpr : present (l ++ [c]) = present l ++ present [c] := by simp [present]
    rw [hpr]
    by_cases h : present l = []
    · obtain ⟨a1, a2, a3⟩ := ih1 h
      rw [h, a2, a3]
      cases c with
      | none => simp [present, ewmStep, a1]
      | some x => simp [present, ewmStep, a1]
    · obtain ⟨a1, a2, a3⟩ := ih2 h
      refine ⟨fun h' => absurd (List.append_eq_nil_iff.1 h').1 h, fun _ => ?_⟩
      cases c with
      | none =>
        simp only [ewmStep, a1, a2, Option.elim_none, add_zero, Option.some.injEq]
        refine ⟨?_, mul_comm _ _, mul_pos hq a3⟩
        rw [mul_div_mul_left _ _ hq.ne']
      | some x =>
        simp only [ewmStep, a1, a2, Option.elim_some, Option.some.injEq]
        refine ⟨?_, by ring, by positivity⟩
        have : D * (1 - alpha) + 1 ≠ 0 := by positivity
        rw [show (1 - alpha) * D + 1 = D * (1 - alpha) + 1 by ring]
        congr 1
        field_simp

theorem ewmLast_fading (span : ℝ) (hs : 1 < span) (l : List Cell) (h : present l ≠ []) :
    ewmLast span l = .ok (some (fading ((span - 1) / (span + 1)) l)) := by
  have hq : 1 - 2 / (span + 1) = (span - 1) / (span + 1) := by
    have : span + 1 ≠ 0 := by linarith
    field_simp; ring
  have hl : l ≠ [] := by rintro rfl; exact h rfl
  obtain ⟨e, -, -⟩ := (ewm_fold (2 / (span + 1)) (by rw [hq]; exact div_pos (by linarith) (by linarith)) l).2 h
  unfold ewmLast
  rw [if_neg (by linarith), if_neg hl, e, hq]
  unfold fading
  simp only [mul_one]

theorem pairExp_known (f : Frame ι κ) (span : ℝ) (hs : 1 < span) (i j : ℕ) (h : together f i j ≠ []) :
    pairExpCov span (f.col i) (f.col j) =
      .ok (some (fading ((span - 1) / (span + 1)) (deviations f i j))) := by
  obtain ⟨p, hp⟩ := List.exists_mem_of_ne_nil _ h
  obtain ⟨r, hr, hrp⟩ := List.mem_filterMap.1 hp
  obtain ⟨x, y, hx, hy⟩ : ∃ x y, r.2[i]? = some (some x) ∧ r.2[j]? = some (some y) := by
    rcases h1 : r.2[i]? with _ | _ | x <;> rcases h2 : r.2[j]? with _ | _ | y <;> rw [h1, h2] at hrp <;>
      first | exact ⟨x, y, rfl, rfl⟩ | cases hrp
  have hm : ∀ k, (∃ z, r.2[k]? = some (some z)) → Frames.mean (f.col k) = some (avg (known f k)) := by
    rintro k ⟨z, hz⟩
    have hk : known f k ≠ [] := List.ne_nil_of_mem (List.mem_filterMap.2 ⟨r, hr, by rw [hz]⟩)
    unfold Frames.mean Frames.count
    rw [present_known, if_neg (fun h0 => hk (List.length_eq_zero_iff.1 h0))]
    rfl
  have hd : List.zipWith (fun a b => cellMul (cellSub a (Frames.mean (f.col i)))
      (cellSub b (Frames.mean (f.col j)))) (f.col i) (f.col j) = deviations f i j := by
    rw [hm i ⟨x, hx⟩, hm j ⟨y, hy⟩]
    unfold Frame.col deviations
    rw [List.zipWith_map, List.zipWith_self]
    refine List.map_congr_left fun r' _ => ?_
    rcases r'.2[i]? with _ | _ | x <;> rcases r'.2[j]? with _ | _ | y <;> rfl
  unfold pairExpCov
  rw [hd]
  apply ewmLast_fading span hs
  refine List.ne_nil_of_mem (a := (x - avg (known f i)) * (y - avg (known f j))) ?_
  exact List.mem_filterMap.2 ⟨_, List.mem_map.2 ⟨r, hr, rfl⟩, by rw [hx, hy]; rfl⟩

/-- C83 for `exp_cov` with a span above 1: the covariances are averages over the days known for both,
each day weighing by its age, of the products of deviations from each asset's own average.  As for
`sample_cov` the matrix must need no repair. -/
theorem C83_exp_cov_partial (E : Eigh) (f : Frame ι κ) (span freq : ℝ) (hs : 1 < span) (hf : 0 ≤ freq)
    (log : Bool) (fix : String) (h1 : ∀ i j : Fin f.cols.length, together f i j ≠ [])
    (hp : (Matrix.of fun i j : Fin f.cols.length =>
      fading ((span - 1) / (span + 1)) (deviations f i j)).PosSemidef) :
    expCovariance E f true span freq log fix = .ok ⟨f.cols, Matrix.of fun i j =>
      fading ((span - 1) / (span + 1)) (deviations f i j) * freq⟩ := by
  have hsym : ∀ i j : Fin f.cols.length, deviations f i j = deviations f j i := by
    intro i j
    unfold deviations
    refine List.map_congr_left fun r _ => ?_
    rcases r.2[i.1]? with _ | _ | x <;> rcases r.2[j.1]? with _ | _ | y <;> simp [mul_comm]
  obtain ⟨S', hS1, hS2⟩ := expLoop_spec span (fun i : Fin f.cols.length => f.col i)
    (fun i j => some (fading ((span - 1) / (span + 1)) (deviations f i j)))
    (fun i j => by rw [hsym]) (upperPairs f.cols.length)
    (fun p _ => pairExp_known f span hs p.1 p.2 (h1 p.1 p.2)) (fun _ _ => some 0)
  have hS : ∀ a b, S' a b = some (fading ((span - 1) / (span + 1)) (deviations f a b)) := by
    intro a b
    rw [hS2 a b, if_pos]
    rw [upperPairs_mem, upperPairs_mem]
    exact le_total a b
  unfold expCovariance
  have hr : returnsIn true log f = f := rfl
  rw [hr]
  dsimp only
  rw [hS1]
  simp only
  apply fixFrame_psd
  · intro i j
    rw [hS]
    rfl
  · exact scaled_psd hp hf

/-! ### Concrete cases -/

/-- A loses 1 on the first day and has no return on the second, B loses 1 on both. -/
noncomputable def halfKnown : Frame ℕ String :=
  ⟨["A", "B"], [(0, [some (-1), some (-1)]), (1, [none, some (-1)])]⟩

/-- C83 fails for `semicovariance`: the only known return of A falls short by 1, so its semivariance
is 1, but 1/2 is reported. -/
theorem C83_semicovariance_false (E : Eigh) :
    ∃ V : Matrix (Fin 2) (Fin 2) ℝ,
      semicovariance E halfKnown true 0 1 false "spectral" = .ok ⟨["A", "B"], V⟩ ∧
      knownSemi 0 halfKnown 0 0 = 1 ∧ V 0 0 = 1 / 2 := by
  obtain ⟨V, e, hV⟩ := C83_semicovariance_partial E halfKnown 0 1 zero_le_one false "spectral"
    (List.cons_ne_nil _ _)
  have ht : together halfKnown 0 0 = [(-1, -1)] := rfl
  have hk : knownSemi 0 halfKnown 0 0 = 1 := by
    unfold knownSemi avg
    rw [ht]
    norm_num
  refine ⟨V, e, hk, ?_⟩
  have := hV (0 : Fin 2) (0 : Fin 2)
  refine this.trans ?_
  change ((together halfKnown 0 0).length / (2 : ℕ) : ℝ) * (knownSemi 0 halfKnown 0 0 * 1) = _
  rw [hk, ht]
  norm_num

/-- A has the same return on every day on which it has one. -/
noncomputable def steady : Frame ℕ String :=
  ⟨["A", "B"], [(0, [some 1, some 0]), (1, [some 1, some 1]), (2, [none, some 2])]⟩

/-- C83 fails for the single-factor target, where a missing return counts as a return of 0: the known
returns of A do not vary, but the variance 2/9 is reported. -/
theorem C83_single_factor_false (E : Eigh) (K : Sklearn) :
    ∃ (V : Matrix (Fin 2) (Fin 2) ℝ) (d : ℝ),
      ledoitWolf E K (shrinkX true false steady) 1 "single_factor" = .ok (⟨["A", "B"], V⟩, d) ∧
      known steady 0 = [1, 1] ∧ V 0 0 = 2 / 9 := by
  have hX : shrinkX true false steady = steady := rfl
  have hv : filled steady = (!![1, 0; 1, 1; 0, 2] : Matrix (Fin 3) (Fin 2) ℝ) := by
    funext s j
    change Fin 3 at s
    change Fin 2 at j
    fin_cases s <;> fin_cases j <;> rfl
  obtain ⟨d, V, S, F, e, -, -, -, -, -, hd, -⟩ := C37_single_factor_partial E K steady 1 zero_le_one
    (by decide : 2 ≤ 3) (by
      rw [hv]
      change popCov (t := 3) (market (!![1, 0; 1, 1; 0, 2] : Matrix (Fin 3) (Fin 2) ℝ))
        (market (!![1, 0; 1, 1; 0, 2] : Matrix (Fin 3) (Fin 2) ℝ)) ≠ 0
      simp [popCov, market, meanOf, Fin.sum_univ_succ]
      norm_num)
  refine ⟨V, d, by rw [hX]; exact e, rfl, ?_⟩
  refine (hd (0 : Fin 2)).trans ?_
  rw [hv]
  change popCov (t := 3) (series (!![1, 0; 1, 1; 0, 2] : Matrix (Fin 3) (Fin 2) ℝ) 0)
    (series (!![1, 0; 1, 1; 0, 2] : Matrix (Fin 3) (Fin 2) ℝ) 0) * 1 = _
  simp [popCov, series, meanOf, Fin.sum_univ_succ]
  norm_num

/-- A has no return on the last of three days. -/
noncomputable def lastMissing : Frame ℕ String :=
  ⟨["A", "B"], [(0, [some 1, some 0]), (1, [some 3, some 2]), (2, [none, some 4])]⟩

theorem psd_pair (a b c : ℝ) (ha : 0 < a) (h : b ^ 2 ≤ a * c) (M : Matrix (Fin 2) (Fin 2) ℝ)
    (h00 : M 0 0 = a) (h01 : M 0 1 = b) (h10 : M 1 0 = b) (h11 : M 1 1 = c) : M.PosSemidef := by
  refine Matrix.PosSemidef.of_dotProduct_mulVec_nonneg ?_ fun x => ?_
  · ext i j
    fin_cases i <;> fin_cases j <;> simp [h01, h10]
  · simp only [dotProduct, Matrix.mulVec, Fin.sum_univ_two, Pi.star_apply, star_trivial, h00, h01, h10, h11]
    have : 0 ≤ a * (x 0 * (a * x 0 + b * x 1) + x 1 * (b * x 0 + c * x 1)) := by
      nlinarith [sq_nonneg (a * x 0 + b * x 1), mul_nonneg (sub_nonneg.2 h) (sq_nonneg (x 1))]
    exact nonneg_of_mul_nonneg_right this ha

/-- The hypotheses of the theorem on `sample_cov` are met by data with a missing return. -/
example (E : Eigh) : sampleCovariance E lastMissing true 252 false "spectral" =
    .ok ⟨["A", "B"], Matrix.of fun i j => knownCov lastMissing i j * 252⟩ := by
  refine C83_sample_cov_partial E lastMissing 252 (by norm_num) false "spectral" ?_ ?_
  · intro i j
    change Fin 2 at i
    change Fin 2 at j
    fin_cases i <;> fin_cases j <;> simp [together, lastMissing]
  · refine psd_pair 2 2 4 (by norm_num) (by norm_num) _ ?_ ?_ ?_ ?_
    · change sampleCov [1, 3] [1, 3] = 2
      norm_num [sampleCov, avg]
    · change sampleCov [1, 3] [0, 2] = 2
      norm_num [sampleCov, avg]
    · change sampleCov [0, 2] [1, 3] = 2
      norm_num [sampleCov, avg]
    · change sampleCov [0, 2, 4] [0, 2, 4] = 4
      norm_num [sampleCov, avg]

/-- So are those of the theorem on `exp_cov`. -/
example (E : Eigh) : expCovariance E lastMissing true 3 252 false "spectral" =
    .ok ⟨["A", "B"], Matrix.of fun i j =>
      fading ((3 - 1) / (3 + 1)) (deviations lastMissing i j) * 252⟩ := by
  refine C83_exp_cov_partial E lastMissing 3 252 (by norm_num) (by norm_num) false "spectral" ?_ ?_
  · intro i j
    change Fin 2 at i
    change Fin 2 at j
    fin_cases i <;> fin_cases j <;> simp [together, lastMissing]
  · have a : avg [1, 3] = 2 := by norm_num [avg]
    have b : avg [0, 2, 4] = 2 := by norm_num [avg]
    refine psd_pair 1 (2 / 3) (20 / 7) (by norm_num) (by norm_num) _ ?_ ?_ ?_ ?_
    · change fading ((3 - 1) / (3 + 1)) [some ((1 - avg [1, 3]) * (1 - avg [1, 3])),
        some ((3 - avg [1, 3]) * (3 - avg [1, 3])), none] = 1
      rw [a]
      norm_num [fading, Finset.sum_range_succ]
    · change fading ((3 - 1) / (3 + 1)) [some ((1 - avg [1, 3]) * (0 - avg [0, 2, 4])),
        some ((3 - avg [1, 3]) * (2 - avg [0, 2, 4])), none] = 2 / 3
      rw [a, b]
      norm_num [fading, Finset.sum_range_succ]
    · change fading ((3 - 1) / (3 + 1)) [some ((0 - avg [0, 2, 4]) * (1 - avg [1, 3])),
        some ((2 - avg [0, 2, 4]) * (3 - avg [1, 3])), none] = 2 / 3
      rw [a, b]
      norm_num [fading, Finset.sum_range_succ]
    · change fading ((3 - 1) / (3 + 1)) [some ((0 - avg [0, 2, 4]) * (0 - avg [0, 2, 4])),
        some ((2 - avg [0, 2, 4]) * (2 - avg [0, 2, 4])),
        some ((4 - avg [0, 2, 4]) * (4 - avg [0, 2, 4]))] = 20 / 7
      rw [b]
      norm_num [fading, Finset.sum_range_succ]

end Verif.Risk
