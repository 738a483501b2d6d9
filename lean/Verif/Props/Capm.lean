import Verif.Proof.Returns

/-! Property theorem C32 (CAPM estimates). -/

set_option linter.unusedSectionVars false

namespace Verif.Returns
open Verif.Py Verif.Frames

variable {ι κ : Type} [DecidableEq ι] [DecidableEq κ]

/-- The returns `capm_return` works with. -/
noncomputable def returnsArg (h : Heap ι κ) (ref : ℕ) (returnsData log : Bool) : Frame ι κ :=
  if returnsData then deref h ref else returnsOf log (deref h ref)

theorem capm_none (mkt : κ) (h : Heap ι κ) (ref : ℕ) (rd : Bool) (rf : ℝ) (c : Bool) (freq : ℝ)
    (log : Bool) : (capm mkt h ref none rd rf c freq log).2 =
      .ok (capmEstimates mkt rf c freq (appendMean mkt (returnsArg h ref rd log))) := by
  have hset : ∀ (H : Heap ι κ) (f g : Frame ι κ), deref ((H ++ [f]).set H.length g) H.length = g := by
    intro H f g
    rw [List.set_append_right _ _ le_rfl]
    simp [deref]
  have hlast : ∀ (H : Heap ι κ) (f : Frame ι κ), deref (H ++ [f]) H.length = f :=
    fun H f => deref_alloc H f
  unfold capm capmFrame returnsArg
  cases rd
  · simp only [Bool.false_eq_true, if_false, returnsFromPrices, alloc]
    rw [hset, hlast]
    rfl
  · simp only [if_true, alloc]
    rw [hset, hlast]
    rfl

theorem capm_some (mkt : κ) (h : Heap ι κ) (ref m : ℕ) (hm : m < h.length) (rd : Bool) (rf : ℝ)
    (c : Bool) (freq : ℝ) (log : Bool) (hone : (returnsArg h m rd log).cols.length = 1) :
    (capm mkt h ref (some m) rd rf c freq log).2 =
      (leftJoin (returnsArg h ref rd log) { returnsArg h m rd log with cols := [mkt] }).map
        (capmEstimates mkt rf c freq) := by
  have hlast : ∀ (H : Heap ι κ) (f : Frame ι κ), deref (H ++ [f]) H.length = f :=
    fun H f => deref_alloc H f
  have d0 : ∀ (H : Heap ι κ) (f : Frame ι κ) (i : ℕ), i < H.length →
      deref (H ++ [f]) i = deref H i := fun H f i hi => deref_append H [f] i hi
  unfold capm capmFrame
  cases rd
  · simp only [returnsArg, Bool.false_eq_true, if_false] at hone ⊢
    simp only [returnsFromPrices, alloc]
    have d2 : ∀ (H : Heap ι κ) (f g k : Frame ι κ),
        ((H ++ [f]) ++ [g]).set (H ++ [f]).length k = (H ++ [f]) ++ [k] := by
      intro H f g k; rw [List.set_append_right _ _ le_rfl]; simp
    rw [hlast (h ++ [_]), d0 h _ m hm]
    unfold setColumns
    rw [if_pos hone]
    simp only
    rw [d2, hlast (h ++ [_]), d0 (h ++ [_]) _ h.length (by simp), hlast]
    cases leftJoin (returnsOf log (deref h ref)) { returnsOf log (deref h m) with cols := [mkt] } with
    | error e => rfl
    | ok j => rfl
  · simp only [returnsArg, if_true] at hone ⊢
    simp only [alloc]
    rw [d0 h _ m hm]
    unfold setColumns
    rw [if_pos hone]
    simp only
    have s1 : ∀ (f g : Frame ι κ), deref ((h ++ [f]).set m g) h.length = f := by
      intro f g
      unfold deref
      rw [List.getElem?_set_ne (by omega)]
      simp
    have s2 : ∀ (f g : Frame ι κ), deref ((h ++ [f]).set m g) m = g := by
      intro f g
      unfold deref
      rw [List.getElem?_set_self (by simp; omega)]
      rfl
    rw [s1, s2]
    cases leftJoin (deref h ref) { deref h m with cols := [mkt] } with
    | error e => rfl
    | ok j => rfl

theorem zipIdx_zip (l : List κ) (g : ℕ → Cell) :
    l.zipIdx.map (fun c => (c.1, g c.2)) = l.zip ((List.range l.length).map g) := by
  apply List.ext_getElem
  · simp
  · intro i hi hi'
    simp

/-- Estimates from a complete frame whose last column is the market. -/
theorem capmEstimates_full (mkt : κ) (rf : ℝ) (c : Bool) (freq : ℝ) (cols : List κ)
    (rows : List (ι × List ℝ)) (y : ι × List ℝ → ℝ) (hn : mkt ∉ cols)
    (hr : ∀ r ∈ rows, r.2.length = cols.length) (h2 : 2 ≤ rows.length)
    (hvar : sampleCov (rows.map y) (rows.map y) ≠ 0) (hpos : c = true → ∀ r ∈ rows, 0 < 1 + y r) :
    capmEstimates mkt rf c freq
        (full (cols ++ [mkt]) (rows.map (fun r => (r.1, r.2 ++ [y r])))) =
      cols.zip ((List.range cols.length).map (fun j => some (rf +
        sampleCov (column rows j) (rows.map y) / sampleCov (rows.map y) (rows.map y) *
          (annual c freq (rows.map y) - rf)))) := by
  set F := full (cols ++ [mkt]) (rows.map (fun r => (r.1, r.2 ++ [y r]))) with hF
  have hcols : F.cols = cols ++ [mkt] := rfl
  have hidx : F.cols.idxOf mkt = cols.length := by
    rw [hcols, List.idxOf_append_of_notMem hn]; simp
  have hm : F.col cols.length = (rows.map y).map some := by
    rw [hF, col_full]
    · unfold column
      congr 1
      rw [List.map_map]
      apply List.map_congr_left
      intro r h
      simp [List.getD_eq_getElem?_getD, ← hr r h]
    · intro r h
      obtain ⟨r', h', rfl⟩ := List.mem_map.1 h
      simp [hr r' h']
  have hcj : ∀ j < cols.length, F.col j = (column rows j).map some := by
    intro j hj
    rw [hF, col_full]
    · unfold column
      congr 1
      rw [List.map_map]
      apply List.map_congr_left
      intro r h
      have : j < r.2.length := by rw [hr r h]; exact hj
      simp [List.getD_eq_getElem?_getD, List.getElem?_append_left this]
    · intro r h
      obtain ⟨r', h', rfl⟩ := List.mem_map.1 h
      simp [hr r' h']; omega
  unfold capmEstimates
  rw [hidx, hm]
  dsimp only
  rw [annual_some c freq _ (by
    intro e
    have := congrArg List.length e
    simp at this
    rw [this] at h2; simp at h2) (by
    intro hc x hx
    obtain ⟨r, hr', rfl⟩ := List.mem_map.1 hx
    exact hpos hc r hr')]
  rw [covPair_some _ _ rfl (by simpa using h2), hcols, List.zipIdx_append, List.map_append,
    List.filter_append]
  have e1 : (([mkt].zipIdx (0 + cols.length)).map (fun c : κ × ℕ => (c.1, cellDiv
      (covPair (F.col c.2) ((rows.map y).map some)) (some (sampleCov (rows.map y) (rows.map y)))))).filter
      (fun b => b.1 ≠ mkt) = [] := by
    simp
  rw [e1, List.append_nil]
  have e2 : (cols.zipIdx.map (fun c : κ × ℕ => (c.1, cellDiv
      (covPair (F.col c.2) ((rows.map y).map some)) (some (sampleCov (rows.map y) (rows.map y)))))) =
      cols.zipIdx.map (fun c : κ × ℕ => (c.1, some (sampleCov (column rows c.2) (rows.map y) /
        sampleCov (rows.map y) (rows.map y)))) := by
    apply List.map_congr_left
    intro c hc
    have hj : c.2 < cols.length := by simpa using (List.mem_zipIdx hc).2.1
    rw [hcj c.2 hj, covPair_some _ _ (by simp [column]) (by simpa [column] using h2)]
    simp [cellDiv, hvar]
  rw [e2]
  have e3 : (cols.zipIdx.map (fun c : κ × ℕ => (c.1, some (sampleCov (column rows c.2) (rows.map y) /
        sampleCov (rows.map y) (rows.map y))))).filter (fun b => b.1 ≠ mkt) =
      cols.zipIdx.map (fun c : κ × ℕ => (c.1, some (sampleCov (column rows c.2) (rows.map y) /
        sampleCov (rows.map y) (rows.map y)))) := by
    rw [List.filter_eq_self]
    intro b hb
    obtain ⟨c, hc, rfl⟩ := List.mem_map.1 hb
    have : c.1 ∈ cols := (List.mem_zipIdx hc).2.2 ▸ List.getElem_mem _
    simp only [ne_eq, decide_not, Bool.not_eq_true', decide_eq_false_iff_not]
    rintro rfl
    exact hn this
  rw [e3, List.map_map, ← zipIdx_zip]
  rfl

theorem avg_add {α : Type} (rows : List α) (f g : α → ℝ) :
    avg (rows.map (fun r => f r + g r)) = avg (rows.map f) + avg (rows.map g) := by
  unfold avg
  simp only [List.length_map]
  rw [List.sum_map_add, add_div]

theorem sampleCov_add {α : Type} (rows : List α) (f g y : α → ℝ) :
    sampleCov (rows.map (fun r => f r + g r)) (rows.map y) =
      sampleCov (rows.map f) (rows.map y) + sampleCov (rows.map g) (rows.map y) := by
  rw [sampleCov_map, sampleCov_map, sampleCov_map, ← add_div, ← List.sum_map_add, avg_add]
  congr 2
  apply List.map_congr_left
  intro r _
  ring

theorem sampleCov_smul {α : Type} (rows : List α) (c : ℝ) (f y : α → ℝ) :
    sampleCov (rows.map (fun r => c * f r)) (rows.map y) = c * sampleCov (rows.map f) (rows.map y) := by
  have ha : avg (rows.map (fun r => c * f r)) = c * avg (rows.map f) := by
    unfold avg
    simp only [List.length_map]
    rw [List.sum_map_mul_left, mul_div_assoc]
  rw [sampleCov_map, sampleCov_map, ← mul_div_assoc, ← List.sum_map_mul_left, ha]
  congr 2
  apply List.map_congr_left
  intro r _
  ring

theorem sum_cov_columns (rows : List (ι × List ℝ)) (y : ι × List ℝ → ℝ) (k : ℕ)
    (hr : ∀ r ∈ rows, k ≤ r.2.length) :
    ((List.range k).map (fun j => sampleCov (column rows j) (rows.map y))).sum =
      sampleCov (rows.map (fun r => (r.2.take k).sum)) (rows.map y) := by
  induction k with
  | zero =>
    have := sampleCov_smul rows 0 (fun _ => 0) y
    simp only [zero_mul] at this
    simp only [List.range_zero, List.map_nil, List.sum_nil, List.take_zero]
    exact this.symm
  | succ k ih =>
    rw [List.range_succ, List.map_append, List.sum_append, ih (fun r h => by have := hr r h; omega)]
    have e : rows.map (fun r => (r.2.take (k + 1)).sum) =
        rows.map (fun r => (r.2.take k).sum + r.2.getD k 0) := by
      apply List.map_congr_left
      intro r h
      have := hr r h
      rw [List.take_add_one, List.sum_append, List.getElem?_eq_getElem (by omega),
        List.getD_eq_getElem?_getD, List.getElem?_eq_getElem (by omega)]
      simp
    rw [e, sampleCov_add]
    simp [column]

/-- C32.  With the default market proxy, on complete returns of at least two periods whose average
over assets is not constant: the call succeeds, each estimate lies on the security market line of its
beta (sample covariance with the average over its sample variance), the betas average to exactly one
and the estimates average to exactly the market's annual return.  Missing: an asset whose ticker is that of the market
column, see `C32_mkt_ticker_false`, and returns of −1 or less. -/
theorem C32_capm_default_partial (mkt : κ) (h : Heap ι κ) (ref : ℕ) (rd log : Bool) (rf freq : ℝ) (c : Bool)
    (cols : List κ) (rows : List (ι × List ℝ)) (hR : returnsArg h ref rd log = full cols rows)
    (hn : mkt ∉ cols) (hr : Rect cols.length (fun x => -1 < x) rows) (h2 : 2 ≤ rows.length)
    (hvar : sampleCov (rows.map (fun r => avg r.2)) (rows.map (fun r => avg r.2)) ≠ 0) :
    ∃ beta est : List ℝ,
      (capm mkt h ref none rd rf c freq log).2 = .ok (cols.zip (est.map some)) ∧
      beta.length = cols.length ∧ est.length = cols.length ∧
      (∀ j < cols.length, beta.getD j 0 = sampleCov (column rows j) (rows.map (fun r => avg r.2)) /
        sampleCov (rows.map (fun r => avg r.2)) (rows.map (fun r => avg r.2))) ∧
      (∀ j < cols.length, est.getD j 0 =
        rf + beta.getD j 0 * (annual c freq (rows.map (fun r => avg r.2)) - rf)) ∧
      avg beta = 1 ∧ avg est = annual c freq (rows.map (fun r => avg r.2)) := by
  set M := rows.map (fun r => avg r.2) with hM
  set b : ℕ → ℝ := fun j => sampleCov (column rows j) M / sampleCov M M with hb
  have hncols : (0 : ℝ) < cols.length := by exact_mod_cast hr.1
  have hsumb : ((List.range cols.length).map b).sum = cols.length := by
    have e1 : ((List.range cols.length).map b) =
        (List.range cols.length).map (fun j => sampleCov (column rows j) M * (sampleCov M M)⁻¹) := by
      apply List.map_congr_left; intro j _; exact div_eq_mul_inv _ _
    rw [e1, List.sum_map_mul_right, hM, sum_cov_columns rows _ cols.length
      (fun r h => (hr.2 r h).1.ge)]
    have e2 : rows.map (fun r => (r.2.take cols.length).sum) =
        rows.map (fun r => (cols.length : ℝ) * avg r.2) := by
      apply List.map_congr_left
      intro r h
      unfold avg
      rw [List.take_of_length_le (hr.2 r h).1.le, (hr.2 r h).1]
      field_simp
    rw [e2, sampleCov_smul, ← hM, mul_assoc, mul_inv_cancel₀ hvar, mul_one]
  refine ⟨(List.range cols.length).map b,
    (List.range cols.length).map (fun j => rf + b j * (annual c freq M - rf)), ?_, by simp, by simp,
    ?_, ?_, ?_, ?_⟩
  · rw [capm_none, hR]
    have hap : appendMean mkt (full cols rows) =
        full (cols ++ [mkt]) (rows.map (fun r => (r.1, r.2 ++ [avg r.2]))) := by
      unfold appendMean
      rw [if_neg (by exact hn)]
      unfold full
      simp only [List.map_map]
      congr 1
      apply List.map_congr_left
      intro r h
      refine Prod.ext rfl ?_
      simp only [Function.comp_apply, List.map_append, List.map_cons, List.map_nil]
      rw [mean_some]
      intro e
      have := (hr.2 r h).1
      rw [e] at this
      have := hr.1
      simp at *
      omega
    rw [hap, capmEstimates_full mkt rf c freq cols rows (fun r => avg r.2) hn
      (fun r h => (hr.2 r h).1) h2 hvar]
    · rw [List.map_map]; rfl
    · intro _ r h
      unfold avg
      have hlen := (hr.2 r h).1
      have hp : (0 : ℝ) < r.2.length := by rw [hlen]; exact hncols
      have hs : -(r.2.length : ℝ) < r.2.sum := by
        have hx := (hr.2 r h).2
        have hl0 : r.2 ≠ [] := by
          intro e; rw [e] at hp; simp at hp
        have : ∀ l : List ℝ, l ≠ [] → (∀ x ∈ l, -1 < x) → -(l.length : ℝ) < l.sum := by
          intro l
          induction l with
          | nil => intro h; exact absurd rfl h
          | cons x l ih =>
            intro _ hx
            have h1 := hx x (by simp)
            by_cases hl : l = []
            · subst hl; simpa using h1
            · have := ih hl (fun y hy => hx y (by simp [hy]))
              simp only [List.length_cons, List.sum_cons, Nat.cast_add, Nat.cast_one]
              linarith
        exact this r.2 hl0 hx
      have : -1 < r.2.sum / r.2.length := by rw [lt_div_iff₀ hp]; linarith
      linarith
  · intro j hj
    rw [List.getD_eq_getElem?_getD, List.getElem?_map, List.getElem?_range hj]
    rfl
  · intro j hj
    rw [List.getD_eq_getElem?_getD, List.getElem?_map, List.getElem?_range hj,
      List.getD_eq_getElem?_getD, List.getElem?_map, List.getElem?_range hj]
    rfl
  · unfold avg
    rw [hsumb, List.length_map, List.length_range]
    exact div_self hncols.ne'
  · have e : ((List.range cols.length).map (fun j => rf + b j * (annual c freq M - rf))).sum =
        cols.length * rf + cols.length * (annual c freq M - rf) := by
      rw [List.sum_map_add, List.sum_map_mul_right, hsumb]
      simp
    unfold avg at *
    rw [e, List.length_map, List.length_range]
    field_simp
    ring

/-- C32 with a market frame: any single-column market whose dates include those of the assets
exactly once; the estimates lie on the security market line.  Missing: as for the default market. -/
theorem C32_capm_market_partial (mkt : κ) (h : Heap ι κ) (ref m : ℕ) (hm : m < h.length) (rd log : Bool)
    (rf freq : ℝ) (c : Bool) (cols : List κ) (rows mrows : List (ι × List ℝ)) (mname : κ)
    (y : ι × List ℝ → ℝ)
    (hR : returnsArg h ref rd log = full cols rows) (hRm : returnsArg h m rd log = full [mname] mrows)
    (hn : mkt ∉ cols) (hr : ∀ r ∈ rows, r.2.length = cols.length) (h2 : 2 ≤ rows.length)
    (hy : ∀ r ∈ rows, mrows.filter (fun s => s.1 = r.1) = [(r.1, [y r])])
    (hpos : ∀ r ∈ rows, -1 < y r)
    (hvar : sampleCov (rows.map y) (rows.map y) ≠ 0) :
    (capm mkt h ref (some m) rd rf c freq log).2 =
      .ok (cols.zip ((List.range cols.length).map (fun j => some (rf +
        sampleCov (column rows j) (rows.map y) / sampleCov (rows.map y) (rows.map y) *
          (annual c freq (rows.map y) - rf))))) := by
  rw [capm_some mkt h ref m hm rd rf c freq log (by rw [hRm]; rfl), hR, hRm]
  have hj : leftJoin (full cols rows) { full [mname] mrows with cols := [mkt] } =
      .ok (full (cols ++ [mkt]) (rows.map (fun r => (r.1, r.2 ++ [y r])))) := by
    unfold leftJoin
    rw [if_neg]
    · congr 1
      unfold full
      congr 1
      simp only [List.map_map]
      rw [List.flatMap_map]
      have : ∀ r ∈ rows, (match (mrows.map (fun r => (r.1, r.2.map some))).filter
          (fun z => z.1 = r.1) with
          | [] => [(r.1, r.2.map some ++ [mkt].map (fun _ => none))]
          | ys => ys.map (fun z => (r.1, r.2.map some ++ z.2))) =
          [(r.1, (r.2 ++ [y r]).map some)] := by
        intro r h
        have e : (mrows.map (fun r => (r.1, r.2.map some))).filter (fun z => z.1 = r.1) =
            [(r.1, [some (y r)])] := by
          rw [List.filter_map]
          have : (List.filter ((fun z => decide (z.1 = r.1)) ∘ fun r : ι × List ℝ =>
              (r.1, r.2.map some)) mrows) = [(r.1, [y r])] := hy r h
          rw [this]
          rfl
        rw [e]
        simp
      refine (List.flatMap_congr this).trans ?_
      rw [← List.map_eq_flatMap]
      rfl
    · rintro ⟨x, hx, hx'⟩
      simp only [List.mem_singleton] at hx'
      subst hx'
      exact hn hx
  rw [hj]
  simp only [Except.map]
  rw [capmEstimates_full mkt rf c freq cols rows y hn hr h2 hvar]
  intro _ r h
  have := hpos r h
  linarith

/-- The hypotheses of C32 are met by two assets over three periods; A has beta 3/2, B beta 1/2. -/
example : ∃ est : List ℝ,
    (capm "mkt" [full ["A", "B"] [(0, [0.1, 0.3]), (1, [0.2, 0.2]), (2, [0.6, 0.4])]] 0 none true
      0.02 false 252 false).2 = .ok (["A", "B"].zip (est.map some)) ∧
      avg est = annual false 252 [0.2, 0.2, 0.5] := by
  obtain ⟨b, e, h1, -, -, -, -, -, h2⟩ := C32_capm_default_partial (ι := ℕ) "mkt"
    [full ["A", "B"] [(0, [0.1, 0.3]), (1, [0.2, 0.2]), (2, [0.6, 0.4])]] 0 true false 0.02 252 false
    ["A", "B"] [(0, [0.1, 0.3]), (1, [0.2, 0.2]), (2, [0.6, 0.4])] rfl (by decide)
    (by constructor
        · decide
        · intro r hr
          simp only [List.mem_cons, List.not_mem_nil, or_false] at hr
          rcases hr with rfl | rfl | rfl <;> refine ⟨rfl, ?_⟩ <;> norm_num)
    (by decide) (by norm_num [sampleCov, avg])
  refine ⟨e, h1, h2.trans ?_⟩
  norm_num [avg]

/-- The hypotheses of C32 with a market frame are met. -/
example : ∃ l, (capm "mkt" [full ["A"] [(0, [0.1]), (1, [0.4])], full ["SPY"] [(0, [0.1]), (1, [0.2])]]
    0 (some 1) true 0.02 false 252 false).2 = .ok l := by
  refine ⟨_, C32_capm_market_partial (ι := ℕ) "mkt"
    [full ["A"] [(0, [0.1]), (1, [0.4])], full ["SPY"] [(0, [0.1]), (1, [0.2])]] 0 1 (by decide)
    true false 0.02 252 false ["A"] [(0, [0.1]), (1, [0.4])] [(0, [0.1]), (1, [0.2])] "SPY"
    (fun r => if r.1 = 0 then 0.1 else 0.2) rfl rfl (by decide) (by simp) (by decide)
    (by simp) (by simp; norm_num) (by norm_num [sampleCov, avg])⟩

/-- C32 is false of the code for a universe with an asset called "mkt": its returns are overwritten with the average over
assets, there is no estimate for it, and the estimates do not average to the market return of 0.3. -/
theorem C32_mkt_ticker_false :
    (capm "mkt" [full ["mkt", "B"] [((0 : ℕ), [0, 0.2]), (1, [0.2, 0.8])]] 0 none true 0 false 1 false).2 =
      .ok [("B", some 0.45)] ∧ avg [0.45] ≠ annual false 1 [0.1, 0.5] := by
  have hf : (capmFrame "mkt" [full ["mkt", "B"] [((0 : ℕ), [0, 0.2]), (1, [0.2, 0.8])]] 0 none true false).2 =
      .ok (full ["mkt", "B"] [(0, [0.1, 0.2]), (1, [0.5, 0.8])]) := by
    simp [capmFrame, appendMean, alloc, deref, full, Frames.mean, count, present]
    norm_num
  refine ⟨?_, by norm_num [avg, annual]⟩
  refine (congrArg (Except.map (capmEstimates "mkt" 0 false 1)) hf).trans ?_
  simp [Except.map, capmEstimates, full, Frame.col, covPair, pairs, arithmeticMean, Frames.mean, count, present, cellDiv]
  norm_num

end Verif.Returns
