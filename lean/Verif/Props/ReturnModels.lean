import Verif.Proof.Returns
import Mathlib.Analysis.SpecialFunctions.Exp
import Mathlib.Analysis.Complex.ExponentialBounds

/-! Property theorems C30 (mean historical return) and C31 (exponential averages). -/

set_option linter.unusedSectionVars false

namespace Verif.Returns
open Verif.Py Verif.Frames

variable {ι κ : Type}

/-! ### C30 -/

/-- The last row of a price frame. -/
def lastRow (r0 : ι × List ℝ) (rest : List (ι × List ℝ)) : List ℝ :=
  (rest.getLast?.map Prod.snd).getD r0.2

/-- C30, partial: for complete positive prices with at least two rows, the compounded mean return of
simple returns is the compound annual growth rate between the first and the last price, whatever the
prices in between; one estimate per column, in order.  Missing: `log_returns=True`, for which the
claim is false (`C30_log_returns_false`). -/
theorem C30_cagr_partial (h : Heap ι κ) (ref : ℕ) (cols : List κ) (r0 : ι × List ℝ)
    (rest : List (ι × List ℝ)) (hd : deref h ref = full cols (r0 :: rest)) (hne : rest ≠ [])
    (hr : Rect cols.length (fun x => 0 < x) (r0 :: rest)) (freq : ℝ) :
    (meanHistorical h ref false true freq false).2 = cols.zipIdx.map (fun c =>
      (c.1, some (((lastRow r0 rest).getD c.2 0 / r0.2.getD c.2 0) ^ (freq / rest.length) - 1))) := by
  have hne0 : Rect cols.length (fun x => if false then 0 < x else x ≠ 0) (r0 :: rest) :=
    ⟨hr.1, fun r h => ⟨(hr.2 r h).1, fun x hx => by simpa using ((hr.2 r h).2 x hx).ne'⟩⟩
  have hrr := returnsOf_full false cols r0 rest hne0
  have hq : Rect cols.length (fun x => 0 < x) (ratioRows r0.2 rest) :=
    ratioRows_rect (fun a b ha hb => div_pos hb ha) _ _ (hr.2 r0 (by simp)).1 (hr.2 r0 (by simp)).2
      ⟨hr.1, fun r h => hr.2 r (by simp [h])⟩
  unfold meanHistorical
  simp only [Bool.false_eq_true, if_false, if_true]
  have e : deref (returnsFromPrices h ref false).1 (returnsFromPrices h ref false).2 =
      full cols (mapRows (periodReturn false) (ratioRows r0.2 rest)) := by
    unfold returnsFromPrices
    rw [deref_alloc, hd, hrr]
  rw [e]
  apply List.map_congr_left
  intro c hc
  have hj : c.2 < cols.length := by simpa [full] using (List.mem_zipIdx hc).2.1
  refine Prod.ext rfl ?_
  simp only
  rw [col_full]
  · have hcol : column (mapRows (periodReturn false) (ratioRows r0.2 rest)) c.2 =
        (column (ratioRows r0.2 rest) c.2).map (fun q => q - 1) := by
      unfold column mapRows
      simp only [List.map_map]
      apply List.map_congr_left
      intro r hr'
      have hl : c.2 < r.2.length := by rw [(hq.2 r hr').1]; exact hj
      simp [List.getD_eq_getElem?_getD, List.getElem?_eq_getElem hl, periodReturn]
    have hpos : ∀ q ∈ column (ratioRows r0.2 rest) c.2, 0 < q := by
      intro q hq'
      obtain ⟨r, hr', rfl⟩ := List.mem_map.1 hq'
      have hl : c.2 < r.2.length := by rw [(hq.2 r hr').1]; exact hj
      rw [List.getD_eq_getElem?_getD, List.getElem?_eq_getElem hl]
      exact (hq.2 r hr').2 _ (List.getElem_mem _)
    have hlen : (column (ratioRows r0.2 rest) c.2).length = rest.length := by
      unfold column; rw [List.length_map, ratioRows_length]
    rw [hcol, geometricMean_some]
    · unfold annual
      rw [if_pos rfl, List.map_map]
      have : ((fun x : ℝ => 1 + x) ∘ fun q => q - 1) = id := by funext q; simp
      rw [this, List.map_id, List.length_map, hlen]
      have hp0 : 0 < r0.2.getD c.2 0 := by
        have h0 := hr.2 r0 (by simp)
        have hl : c.2 < r0.2.length := by rw [h0.1]; exact hj
        rw [List.getD_eq_getElem?_getD, List.getElem?_eq_getElem hl]
        exact h0.2 _ (List.getElem_mem _)
      have htel := ratio_prod r0.2 rest c.2 (by rw [(hr.2 r0 (by simp)).1]; exact hj) hp0.ne' (by
        intro r hr'
        have h0 := hr.2 r (by simp [hr'])
        have hl : c.2 < r.2.length := by rw [h0.1]; exact hj
        refine ⟨hl, ?_⟩
        rw [List.getD_eq_getElem?_getD, List.getElem?_eq_getElem hl]
        exact (h0.2 _ (List.getElem_mem _)).ne')
      rw [← eq_div_iff hp0.ne'] at htel
      rw [htel]
      rfl
    · intro e
      have := congrArg List.length e
      rw [List.length_map, hlen] at this
      exact hne (List.length_eq_zero_iff.1 this)
    · intro x hx
      obtain ⟨q, hq', rfl⟩ := List.mem_map.1 hx
      have := hpos q hq'
      linarith
  · intro r hr1
    obtain ⟨r', hr', rfl⟩ := List.mem_map.1 hr1
    simpa [(hq.2 r' hr').1] using hj

/-- C30 is false with `log_returns=True`: prices 1 and e, one period a year.  The growth rate is
e − 1 but the estimate is 1 (log returns are compounded as if they were simple returns). -/
theorem C30_log_returns_false :
    (meanHistorical [(full ["A"] [(0, [1]), (1, [Real.exp 1])] : Frame ℕ String)] 0 false true 1 true).2
      = [("A", some 1)] ∧ (Real.exp 1 / 1) ^ ((1 : ℝ) / 1) - 1 ≠ 1 := by
  constructor
  · have hr : Rect 1 (fun x => if true then 0 < x else x ≠ 0)
        [((0 : ℕ), [(1 : ℝ)]), (1, [Real.exp 1])] := by
      refine ⟨by norm_num, ?_⟩
      intro r hr
      simp only [List.mem_cons, List.not_mem_nil, or_false] at hr
      rcases hr with rfl | rfl
      · exact ⟨rfl, by simp⟩
      · exact ⟨rfl, by simp [Real.exp_pos]⟩
    have e := returnsOf_full true ["A"] ((0 : ℕ), [(1 : ℝ)]) [(1, [Real.exp 1])] hr
    unfold meanHistorical returnsFromPrices
    simp only [Bool.false_eq_true, if_false, if_true]
    rw [deref_alloc]
    have e0 : deref [(full ["A"] [(0, [1]), (1, [Real.exp 1])] : Frame ℕ String)] 0 =
        full ["A"] [(0, [1]), (1, [Real.exp 1])] := rfl
    rw [e0, e]
    have e1 : mapRows (periodReturn true) (ratioRows [(1 : ℝ)] [((1 : ℕ), [Real.exp 1])]) =
        [((1 : ℕ), [(1 : ℝ)])] := by
      simp [mapRows, ratioRows, periodReturn]
    simp only [e1]
    have hc : (full ["A"] [((1 : ℕ), [(1 : ℝ)])] : Frame ℕ String).col 0 = [(1 : ℝ)].map some := rfl
    have hg := geometricMean_some 1 [(1 : ℝ)] (by simp) (by simp)
    change [("A", geometricMean 1 ((full ["A"] [((1 : ℕ), [(1 : ℝ)])] : Frame ℕ String).col 0))] = _
    rw [hc, hg]
    norm_num [annual]
  · rw [div_one, div_one, Real.rpow_one]
    have := Real.exp_one_gt_d9
    intro h
    linarith

/-- A column without any data has compounded mean return exactly 0 (not NaN): an observable
consequence of `1 ** inf`. -/
theorem C30_no_data (freq : ℝ) (n : ℕ) : geometricMean freq (List.replicate n none) = some 0 ∧
    arithmeticMean freq (List.replicate n none) = none := by
  have h : count (List.replicate n none) = 0 := by
    unfold count present; simp [List.filterMap_replicate_of_none]
  unfold geometricMean arithmeticMean mean
  rw [if_pos h, if_pos h]
  exact ⟨rfl, rfl⟩

/-- Prices after multiplying each column by its own positive factor. -/
def scaled (c : List ℝ) (cols : List κ) (rows : List (ι × List ℝ)) : Frame ι κ :=
  full cols (rows.map (fun r => (r.1, List.zipWith (· * ·) c r.2)))

theorem returnsOf_scaled (log : Bool) (cols : List κ) (rows : List (ι × List ℝ)) (c : List ℝ)
    (hc : c.length = cols.length) (hpos : ∀ x ∈ c, 0 < x)
    (hr : Rect cols.length (fun x => 0 < x) rows) :
    returnsOf log (scaled c cols rows) = returnsOf log (full cols rows) := by
  have weak : ∀ rows : List (ι × List ℝ), Rect cols.length (fun x => 0 < x) rows →
      Rect cols.length (fun x => if log then 0 < x else x ≠ 0) rows := by
    intro rows hr
    refine ⟨hr.1, fun r h => ⟨(hr.2 r h).1, fun x hx => ?_⟩⟩
    have := (hr.2 r h).2 x hx
    cases log
    · simpa using this.ne'
    · simpa using this
  unfold scaled
  cases rows with
  | nil => rfl
  | cons r0 rest =>
    have hs : Rect cols.length (fun x => 0 < x)
        ((r0 :: rest).map (fun r => (r.1, List.zipWith (· * ·) c r.2))) := by
      refine ⟨hr.1, ?_⟩
      intro r h
      obtain ⟨r', h', rfl⟩ := List.mem_map.1 h
      refine ⟨by simp [hc, (hr.2 r' h').1], ?_⟩
      exact mem_zipWith_mul (fun a b => mul_pos) hpos (hr.2 r' h').2
    rw [returnsOf_full log cols r0 rest (weak _ hr)]
    rw [List.map_cons] at hs ⊢
    rw [returnsOf_full log cols _ _ (weak _ hs)]
    congr 2
    exact ratio_scale c (fun x hx => (hpos x hx).ne') r0.2 rest
      (by rw [hc]; exact (hr.2 r0 (by simp)).1)
      (fun r h => by rw [hc]; exact (hr.2 r (by simp [h])).1)

/-- C30, units: no estimate changes when every asset's prices are multiplied by a positive constant
of its own (nor, for CAPM, when the market's prices are). -/
theorem C30_scale_invariant [DecidableEq ι] [DecidableEq κ] (h h' : Heap ι κ) (ref ref' : ℕ)
    (cols : List κ) (rows : List (ι × List ℝ)) (c : List ℝ) (hc : c.length = cols.length)
    (hpos : ∀ x ∈ c, 0 < x) (hr : Rect cols.length (fun x => 0 < x) rows)
    (hd : deref h ref = full cols rows) (hd' : deref h' ref' = scaled c cols rows)
    (freq span rf : ℝ) (comp log : Bool) (mkt : κ) :
    (meanHistorical h ref false comp freq log).2 = (meanHistorical h' ref' false comp freq log).2 ∧
    (emaHistorical h ref false comp span freq log).2 =
      (emaHistorical h' ref' false comp span freq log).2 ∧
    (capm mkt h ref none false rf comp freq log).2 = (capm mkt h' ref' none false rf comp freq log).2 ∧
    ∀ (m m' : ℕ) (mc : List κ) (mrows : List (ι × List ℝ)) (d : List ℝ), m < h.length →
      m' < h'.length → deref h m = full mc mrows → deref h' m' = scaled d mc mrows →
      d.length = mc.length → (∀ x ∈ d, 0 < x) → Rect mc.length (fun x => 0 < x) mrows →
      (capm mkt h ref (some m) false rf comp freq log).2 =
        (capm mkt h' ref' (some m') false rf comp freq log).2 := by
  have e : returnsOf log (deref h ref) = returnsOf log (deref h' ref') := by
    rw [hd, hd', returnsOf_scaled log cols rows c hc hpos hr]
  have e1 : deref (returnsFromPrices h ref log).1 (returnsFromPrices h ref log).2 =
      deref (returnsFromPrices h' ref' log).1 (returnsFromPrices h' ref' log).2 := by
    unfold returnsFromPrices; rw [deref_alloc, deref_alloc, e]
  refine ⟨?_, ?_, ?_, ?_⟩
  · unfold meanHistorical
    simp only [Bool.false_eq_true, if_false, e1]
  · unfold emaHistorical
    simp only [Bool.false_eq_true, if_false, e1]
  · unfold capm capmFrame
    simp only [Bool.false_eq_true, if_false]
    have hset : ∀ (H : Heap ι κ) (f g : Frame ι κ), deref ((H ++ [f]).set H.length g) H.length = g := by
      intro H f g
      rw [List.set_append_right _ _ le_rfl]
      simp [deref]
    have e2 : ∀ (H : Heap ι κ) (r : ℕ) (g : Frame ι κ), deref ((returnsFromPrices H r log).1.set
        (returnsFromPrices H r log).2 g) (returnsFromPrices H r log).2 = g := by
      intro H r g; exact hset _ _ _
    rw [e2, e2, e1]
  · intro m m' mc mrows d hm hm' hdm hdm' hdl hdp hmr
    have em : returnsOf log (deref h m) = returnsOf log (deref h' m') := by
      rw [hdm, hdm', returnsOf_scaled log mc mrows d hdl hdp hmr]
    unfold capm capmFrame returnsFromPrices
    simp only [Bool.false_eq_true, if_false, alloc]
    have d1 : ∀ (H : Heap ι κ) (f g : Frame ι κ),
        deref ((H ++ [f]) ++ [g]) (H ++ [f]).length = g := fun H f g => deref_alloc _ _
    have d0 : ∀ (H : Heap ι κ) (f g : Frame ι κ) (i : ℕ), i < H.length →
        deref (H ++ [f]) i = deref H i := fun H f g i hi => deref_append H [f] i hi
    have d2 : ∀ (H : Heap ι κ) (f g k : Frame ι κ),
        ((H ++ [f]) ++ [g]).set (H ++ [f]).length k = (H ++ [f]) ++ [k] := by
      intro H f g k; rw [List.set_append_right _ _ le_rfl]; simp
    have d3 : ∀ (H : Heap ι κ) (f k : Frame ι κ), deref ((H ++ [f]) ++ [k]) H.length = f := by
      intro H f k
      rw [deref_append _ _ _ (by simp)]
      exact deref_alloc _ _
    rw [d0 h _ ⟨[], []⟩ m hm, d0 h' _ ⟨[], []⟩ m' hm', d1, d1, em, e]
    cases setColumns mkt (returnsOf log (deref h' m')) with
    | error er => rfl
    | ok g =>
      simp only
      rw [d2, d2, d1, d1, d3, d3]
      cases leftJoin (returnsOf log (deref h' ref')) g with
      | error er => rfl
      | ok j => rfl

/-! ### C31 -/

theorem span_factor {span : ℝ} (h : 1 ≤ span) : 0 ≤ 1 - 2 / (span + 1) ∧ 1 - 2 / (span + 1) < 1 ∧
    (1 < span → 0 < 1 - 2 / (span + 1)) := by
  have h1 : 0 < span + 1 := by linarith
  refine ⟨?_, ?_, ?_⟩
  · rw [sub_nonneg, div_le_one h1]; linarith
  · have : 0 < 2 / (span + 1) := by positivity
    linarith
  · intro h2
    rw [sub_pos, div_lt_one h1]; linarith

/-- C31.  For every length there are fixed weights, non-negative with sum one, each the one before
divided by the decay factor `(span−1)/(span+1)` (so strictly increasing towards the most recent
observation when `span > 1`), such that the exponential average of every complete series of that
length is its weighted sum; hence it lies between the smallest and the largest observation. -/
theorem C31_convex_combination (span : ℝ) (hs : 1 ≤ span) (T : ℕ) (hT : 0 < T) :
    ∃ w : List ℝ, w.length = T ∧ (∀ a ∈ w, 0 ≤ a) ∧ w.sum = 1 ∧
      (∀ i, i + 1 < T → w.getD i 0 = (span - 1) / (span + 1) * w.getD (i + 1) 0) ∧
      (1 < span → ∀ i j, i < j → j < T → w.getD i 0 < w.getD j 0) ∧
      ∀ xs : List ℝ, xs.length = T → ∃ m, ewmLast span (xs.map some) = .ok (some m) ∧
        m = (List.zipWith (· * ·) w xs).sum ∧
        ∀ lo hi, (∀ x ∈ xs, lo ≤ x ∧ x ≤ hi) → lo ≤ m ∧ m ≤ hi := by
  obtain ⟨hb0, hb1, hb2⟩ := span_factor hs
  set b := 1 - 2 / (span + 1) with hb
  have hden := ewmDen_pos hb0 T hT
  have hget : ∀ i < T, (ewmWeights b T).getD i 0 = b ^ (T - 1 - i) / ewmDen b T := by
    intro i hi
    unfold ewmWeights
    rw [List.getD_eq_getElem?_getD, List.getElem?_map, List.getElem?_range hi]
    rfl
  have hmap : ewmWeights b T = ((List.range T).map (fun i => b ^ (T - 1 - i))).map (· / ewmDen b T) := by
    unfold ewmWeights; rw [List.map_map]; rfl
  have hsum : (ewmWeights b T).sum = 1 := by
    rw [hmap]
    have : (fun x : ℝ => x / ewmDen b T) = fun x => x * (ewmDen b T)⁻¹ := by
      funext x; exact div_eq_mul_inv _ _
    rw [this, List.sum_map_mul_right, List.map_id']
    exact mul_inv_cancel₀ hden.ne'
  have hnn : ∀ a ∈ ewmWeights b T, 0 ≤ a := by
    intro a ha
    obtain ⟨i, -, rfl⟩ := List.mem_map.1 ha
    exact div_nonneg (pow_nonneg hb0 _) hden.le
  have hstep : ∀ i, i + 1 < T → (ewmWeights b T).getD i 0 = b * (ewmWeights b T).getD (i + 1) 0 := by
    intro i hi
    rw [hget i (by omega), hget (i + 1) hi, ← mul_div_assoc, ← pow_succ']
    congr 2
    omega
  refine ⟨ewmWeights b T, by simp [ewmWeights], hnn, hsum, ?_, ?_, ?_⟩
  · intro i hi
    rw [hstep i hi, hb]
    congr 1
    field_simp
    ring
  · intro h1 i j hij hj
    rw [hget i (by omega), hget j hj]
    apply div_lt_div_of_pos_right _ hden
    exact pow_lt_pow_right_of_lt_one₀ (hb2 h1) hb1 (by omega)
  · intro xs hx
    have hxs : xs ≠ [] := by
      intro e; rw [e] at hx; simp at hx; omega
    refine ⟨_, ?_, rfl, ?_⟩
    · unfold ewmLast
      rw [if_neg (by linarith), if_neg (by simpa using hxs), ewm_fold _ (by rw [← hb]; exact hb0) xs hxs, ← hb]
      simp only
      rw [hx]
      congr 2
      rw [← wsum_div, hmap]
      rfl
    · intro lo hi hb
      have := wsum_bounds (ewmWeights b T) xs (by simp [ewmWeights, hx]) hnn lo hi hb
      rw [hsum, one_mul, one_mul] at this
      exact this

/-- C31 with missing values: the average of a series with at least one observation exists and lies
between the smallest and the largest observation that is present. -/
theorem C31_missing_values (span : ℝ) (hs : 1 ≤ span) (l : List Cell) (hl : ∃ x, some x ∈ l) :
    ∃ m, ewmLast span l = .ok (some m) ∧
      ∀ lo hi, (∀ x, some x ∈ l → lo ≤ x ∧ x ≤ hi) → lo ≤ m ∧ m ≤ hi := by
  obtain ⟨hb0, hb1, -⟩ := span_factor hs
  set al := 2 / (span + 1) with hal
  have key : ∀ l : List Cell, (∃ x, some x ∈ l) →
      ∃ m, (l.foldl (ewmStep al) { avg := none, old := 1 }).avg = some m ∧
        0 ≤ (l.foldl (ewmStep al) { avg := none, old := 1 }).old ∧
        ∀ lo hi, (∀ x, some x ∈ l → lo ≤ x ∧ x ≤ hi) → lo ≤ m ∧ m ≤ hi := by
    intro l
    induction l using List.reverseRecOn with
    | nil => rintro ⟨x, hx⟩; simp at hx
    | append_singleton l c ih =>
      intro hex
      rw [List.foldl_append]
      simp only [List.foldl_cons, List.foldl_nil]
      by_cases hl : ∃ x, some x ∈ l
      · obtain ⟨m, h1, h2, h3⟩ := ih hl
        generalize l.foldl (ewmStep al) { avg := none, old := 1 } = st at h1 h2
        obtain ⟨avg, old⟩ := st
        simp only at h1 h2
        subst h1
        cases c with
        | none =>
          refine ⟨m, rfl, mul_nonneg h2 hb0, ?_⟩
          intro lo hi hb
          exact h3 lo hi (fun x hx => hb x (by simp [hx]))
        | some x =>
          have ho : 0 ≤ old * (1 - al) := mul_nonneg h2 hb0
          have hp : 0 < old * (1 - al) + 1 := by linarith
          refine ⟨_, rfl, hp.le, ?_⟩
          intro lo hi hb
          obtain ⟨a1, a2⟩ := h3 lo hi (fun x hx => hb x (by simp [hx]))
          obtain ⟨b1, b2⟩ := hb x (by simp)
          constructor
          · rw [le_div_iff₀ hp]; nlinarith
          · rw [div_le_iff₀ hp]; nlinarith
      · have hnone : (l.foldl (ewmStep al) { avg := none, old := 1 }) = { avg := none, old := 1 } := by
          have : ∀ c ∈ l, c = none := by
            intro c hc
            cases c with
            | none => rfl
            | some x => exact absurd ⟨x, hc⟩ hl
          clear ih hex
          induction l with
          | nil => rfl
          | cons c l ih =>
            have hc := this c (by simp)
            subst hc
            rw [List.foldl_cons]
            exact ih (fun ⟨x, hx⟩ => hl ⟨x, by simp [hx]⟩) (fun c hc => this c (by simp [hc]))
        rw [hnone]
        obtain ⟨x, hx⟩ := hex
        have hc : c = some x := by
          rcases List.mem_append.1 hx with h | h
          · exact absurd ⟨x, h⟩ hl
          · exact (List.mem_singleton.1 h).symm
        subst hc
        refine ⟨x, rfl, by simp [ewmStep], ?_⟩
        intro lo hi hb
        exact hb x (by simp)
  obtain ⟨m, h1, -, h3⟩ := key l hl
  refine ⟨m, ?_, h3⟩
  unfold ewmLast
  rw [if_neg (by linarith), if_neg, h1]
  rintro rfl
  obtain ⟨x, hx⟩ := hl
  simp at hx

/-- `ema_historical_return` on complete return data: each column's estimate is the annualised
exponential average of that column, which lies between its smallest and largest return. -/
theorem C31_ema_historical (h : Heap ι κ) (ref : ℕ) (cols : List κ) (rows : List (ι × List ℝ))
    (hd : deref h ref = full cols rows) (hne : rows ≠ [])
    (hr : Rect cols.length (fun x => -1 < x) rows) (span freq : ℝ) (hs : 1 ≤ span) (comp log : Bool) :
    ∃ m : ℕ → ℝ, (∀ j < cols.length, ∀ lo hi, (∀ x ∈ column rows j, lo ≤ x ∧ x ≤ hi) →
        lo ≤ m j ∧ m j ≤ hi) ∧
      (∀ j < cols.length, ewmLast span ((column rows j).map some) = .ok (some (m j))) ∧
      (emaHistorical h ref true comp span freq log).2 = .ok (cols.zipIdx.map (fun c =>
        (c.1, some (if comp then (1 + m c.2) ^ freq - 1 else m c.2 * freq)))) := by
  have hT : 0 < rows.length := List.length_pos_iff.2 hne
  obtain ⟨w, -, -, -, -, -, hw⟩ := C31_convex_combination span hs rows.length hT
  have hcol : ∀ j, (column rows j).length = rows.length := fun j => by simp [column]
  choose m hm1 _ hm3 using fun j => hw (column rows j) (hcol j)
  refine ⟨m, fun j _ => hm3 j, fun j _ => hm1 j, ?_⟩
  unfold emaHistorical
  simp only [if_true, hd]
  have hmem : ∀ c ∈ cols.zipIdx, (emaColumn comp span freq ((full cols rows).col c.2)).map
      (fun v => (c.1, v)) = .ok (c.1, some (if comp then (1 + m c.2) ^ freq - 1 else m c.2 * freq)) := by
    intro c hc
    have hj : c.2 < cols.length := by simpa [full] using (List.mem_zipIdx hc).2.1
    rw [col_full cols rows c.2 (fun r h => by rw [(hr.2 r h).1]; exact hj)]
    unfold emaColumn
    rw [hm1 c.2]
    have hpos : 0 < 1 + m c.2 := by
      -- every observation is above -1, hence the average is
      obtain ⟨x, hx, hmin⟩ : ∃ x ∈ column rows c.2, ∀ y ∈ column rows c.2, x ≤ y := by
        have hne' : column rows c.2 ≠ [] := by
          intro e; have := hcol c.2; rw [e] at this; simp at this; omega
        obtain ⟨x, hx⟩ := Option.isSome_iff_exists.1 (show ((column rows c.2).min?).isSome by
          rw [List.isSome_min?_iff]; exact hne')
        have := List.min?_eq_some_iff.1 hx
        exact ⟨x, this.1, this.2⟩
      obtain ⟨y, hy, hmax⟩ : ∃ y ∈ column rows c.2, ∀ z ∈ column rows c.2, z ≤ y := by
        have hne' : column rows c.2 ≠ [] := by
          intro e; have := hcol c.2; rw [e] at this; simp at this; omega
        obtain ⟨x, hx⟩ := Option.isSome_iff_exists.1 (show ((column rows c.2).max?).isSome by
          rw [List.isSome_max?_iff]; exact hne')
        have := List.max?_eq_some_iff.1 hx
        exact ⟨x, this.1, this.2⟩
      have h1 := (hm3 c.2 x y (fun z hz => ⟨hmin z hz, hmax z hz⟩)).1
      have h2 : -1 < x := by
        obtain ⟨r, hr', rfl⟩ := List.mem_map.1 hx
        have hl : c.2 < r.2.length := by rw [(hr.2 r hr').1]; exact hj
        rw [List.getD_eq_getElem?_getD, List.getElem?_eq_getElem hl]
        exact (hr.2 r hr').2 _ (List.getElem_mem _)
      linarith
    cases comp
    · rfl
    · simp only [Except.map, Option.bind_some, if_true]
      rw [npow_pos hpos]
      rfl
  have hmapM : ∀ (l : List (κ × ℕ)) (f : κ × ℕ → Except PyErr (κ × Cell)) (g : κ × ℕ → κ × Cell),
      (∀ c ∈ l, f c = .ok (g c)) → l.mapM f = .ok (l.map g) := by
    intro l f g hl
    induction l with
    | nil => rfl
    | cons c l ih =>
      rw [List.mapM_cons, hl c (by simp), ih (fun c h => hl c (by simp [h]))]
      rfl
  exact hmapM _ _ _ hmem

/-- A non-trivial instance of the hypotheses of C31. -/
example : ∃ m, ewmLast 3 ([1, 2, 4].map some) = .ok (some m) ∧ m = 3 := by
  refine ⟨3, ?_, rfl⟩
  unfold ewmLast
  rw [if_neg (by norm_num), if_neg (by simp)]
  norm_num [ewmStep]

end Verif.Returns
