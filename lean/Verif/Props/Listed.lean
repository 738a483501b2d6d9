import Verif.Proof.Returns

/-!
C30 for prices with missing values: assets listed after the first day, and gaps.
-/

namespace Verif.Returns
open Verif.Py Verif.Frames

variable {ι κ : Type}

/-- `pct_change` of one column. -/
noncomputable def pctCol : List Cell → List Cell
  | [] => []
  | c :: l => none :: List.zipWith pctCell (c :: l) l

theorem pctRows_col (j : ℕ) : ∀ (prev : List Cell) (rows : List (ι × List Cell)),
    (∀ r ∈ rows, r.2.length = prev.length) →
    (pctRows prev rows).map (fun r => (r.2[j]?).getD none) =
      List.zipWith pctCell ((prev[j]?).getD none :: rows.map (fun r => (r.2[j]?).getD none))
        (rows.map (fun r => (r.2[j]?).getD none))
  | _, [], _ => rfl
  | prev, r :: rest, h => by
    have hr : r.2.length = prev.length := h r (by simp)
    have ih := pctRows_col j r.2 rest (fun x hx => (h x (by simp [hx])).trans hr.symm)
    simp only [pctRows, List.map_cons, List.zipWith_cons_cons]
    rw [ih]
    congr 1
    rw [List.getElem?_zipWith]
    by_cases hj : j < prev.length
    · simp [hj, hr]
    · have h1 : prev[j]? = none := by simp; omega
      have h2 : r.2[j]? = none := by simp; omega
      simp [h1, h2, pctCell]

theorem pctChange_col (f : Frame ι κ) (hf : f.Shaped) (j : ℕ) :
    f.pctChange.col j = pctCol (f.col j) := by
  unfold Frame.pctChange
  cases hr : f.rows with
  | nil => simp [Frame.col, hr, pctCol]
  | cons r rest =>
    have h1 : r.2.length = f.cols.length := hf r (by simp [hr])
    have := pctRows_col j r.2 rest (fun x hx => (hf x (by simp [hr, hx])).trans h1.symm)
    simp only [Frame.col, List.map_cons, hr, pctCol]
    rw [this]
    congr 1
    by_cases hj : j < r.2.length
    · simp [hj]
    · simp [hj]

theorem present_append (a b : List Cell) : present (a ++ b) = present a ++ present b := by
  simp [present]

/-- Dropping empty rows loses no number of any column. -/
theorem present_dropna (f : Frame ι κ) (j : ℕ) : present (f.dropnaAll.col j) = present (f.col j) := by
  unfold Frame.dropnaAll Frame.col
  induction f.rows with
  | nil => rfl
  | cons r rows ih =>
    by_cases h : r.2.any (fun c => c.isSome)
    · rw [List.filter_cons_of_pos (by simpa using h)]
      simp only [List.map_cons, present, List.filterMap_cons, id] at ih ⊢
      rw [ih]
    · rw [List.filter_cons_of_neg (by simpa using h)]
      have : (r.2[j]?).getD none = none := by
        cases hx : r.2[j]? with
        | none => rfl
        | some c =>
          have hm := List.mem_of_getElem? hx
          cases c with
          | none => rfl
          | some x => exact absurd (List.any_eq_true.2 ⟨_, hm, rfl⟩) h
      simp only [List.map_cons, present, List.filterMap_cons, id, this] at ih ⊢
      exact ih

theorem geometricMean_present (freq : ℝ) (l : List Cell) :
    geometricMean freq l = geometricMean freq ((present l).map some) := by
  have h1 : present ((present l).map some) = present l := by simp [present]
  have h2 : count ((present l).map some) = count l := by unfold count; rw [h1]
  have h3 : ∀ l : List Cell, present (l.map (fun c => c.map (1 + ·))) = (present l).map (1 + ·) := by
    intro l
    induction l with
    | nil => rfl
    | cons c l ih =>
      cases c with
      | none => simpa [present] using ih
      | some x => simpa [present] using ih
  unfold geometricMean
  rw [h2]
  unfold Frames.prod
  rw [h3, h3, h1]

theorem arithmeticMean_present (freq : ℝ) (l : List Cell) :
    arithmeticMean freq l = arithmeticMean freq ((present l).map some) := by
  have h1 : present ((present l).map some) = present l := by simp [present]
  unfold arithmeticMean Frames.mean count
  rw [h1]

/-- **C30 (missing days do not count).**  A column's estimate is that of its present returns alone. -/
theorem C30_missing (freq : ℝ) (l : List Cell) (x : List ℝ) (h : present l = x) :
    geometricMean freq l = geometricMean freq (x.map some) ∧
      arithmeticMean freq l = arithmeticMean freq (x.map some) := by
  subst h
  exact ⟨geometricMean_present freq l, arithmeticMean_present freq l⟩

/-- The simple returns between consecutive prices. -/
noncomputable def changes : ℝ → List ℝ → List ℝ
  | _, [] => []
  | p, q :: l => (q / p - 1) :: changes q l

theorem present_pctCell_zip : ∀ (p : ℝ) (ps : List ℝ), (∀ x ∈ p :: ps, 0 < x) →
    present (List.zipWith pctCell ((p :: ps).map some) (ps.map some)) = changes p ps
  | _, [], _ => rfl
  | p, q :: ps, h => by
    have hp : p ≠ 0 := (h p (by simp)).ne'
    have ih := present_pctCell_zip q ps (fun x hx => h x (by simp [List.mem_cons.1 hx]))
    simp only [List.map_cons, List.zipWith_cons_cons, present, List.filterMap_cons, pctCell, if_neg hp,
      id, changes] at ih ⊢
    rw [ih]

theorem present_pctCol (k : ℕ) (p : ℝ) (ps : List ℝ) (h : ∀ x ∈ p :: ps, 0 < x) :
    present (pctCol (List.replicate k none ++ (p :: ps).map some)) = changes p ps := by
  cases k with
  | zero =>
    simp only [List.replicate, List.nil_append, List.map_cons, pctCol]
    exact present_pctCell_zip p ps h
  | succ k =>
    have : ∀ k, present (List.zipWith pctCell (List.replicate (k + 1) none ++ (p :: ps).map some)
        (List.replicate k none ++ (p :: ps).map some)) = changes p ps := by
      intro k
      induction k with
      | zero =>
        simp only [List.replicate, List.nil_append, List.map_cons, List.cons_append,
          List.zipWith_cons_cons]
        exact present_pctCell_zip p ps h
      | succ k ih =>
        rw [List.replicate_succ (n := k + 1), List.replicate_succ (n := k), List.cons_append,
          List.cons_append,
          List.zipWith_cons_cons]
        exact ih
    rw [List.replicate_succ, List.cons_append]
    simp only [pctCol]
    exact this k

theorem changes_length : ∀ (p : ℝ) (ps : List ℝ), (changes p ps).length = ps.length
  | _, [] => rfl
  | _, q :: ps => by simp [changes, changes_length q ps]

theorem changes_pos : ∀ (p : ℝ) (ps : List ℝ), (∀ x ∈ p :: ps, 0 < x) →
    ∀ y ∈ changes p ps, 0 < 1 + y
  | _, [], _ => by simp [changes]
  | p, q :: ps, h => by
    intro y hy
    rcases List.mem_cons.1 hy with rfl | hy
    · have := div_pos (h q (by simp)) (h p (by simp))
      linarith
    · exact changes_pos q ps (fun x hx => h x (by simp [List.mem_cons.1 hx])) y hy

theorem changes_prod : ∀ (p : ℝ) (ps : List ℝ), (∀ x ∈ p :: ps, 0 < x) →
    ((changes p ps).map (1 + ·)).prod = (p :: ps).getLast (by simp) / p
  | p, [], h => by simp [changes, div_self (h p (by simp)).ne']
  | p, q :: ps, h => by
    have hp := (h p (by simp)).ne'
    have hq := (h q (by simp)).ne'
    have ih := changes_prod q ps (fun x hx => h x (by simp [List.mem_cons.1 hx]))
    simp only [changes, List.map_cons, List.prod_cons, ih]
    rw [List.getLast_cons_cons]
    field_simp
    ring

/-- **C30, partial (assets listed later).**  In a table of prices where some columns start after the
first day, the compounded estimate of such a column is the constant annual rate that takes its first
price to its last over the days it was listed; other columns play no role.  Not covered: gaps inside a
column (see `C30_gap_false`). -/
theorem C30_listed_partial (h : Heap ι κ) (ref : ℕ) (hs : (deref h ref).Shaped) (j : ℕ) (name : κ)
    (hj : (deref h ref).cols[j]? = some name) (k : ℕ) (p : ℝ) (ps : List ℝ) (hne : ps ≠ [])
    (hp : ∀ x ∈ p :: ps, 0 < x)
    (hc : (deref h ref).col j = List.replicate k none ++ (p :: ps).map some) (freq : ℝ) :
    (meanHistorical h ref false true freq false).2[j]? =
        some (name, some (((p :: ps).getLast (by simp) / p) ^ (freq / ps.length) - 1)) ∧
      (meanHistorical h ref false false freq false).2[j]? =
        some (name, some ((changes p ps).sum / ps.length * freq)) := by
  have hd : ∀ g : Frame ι κ, deref (h ++ [g]) h.length = g := by
    intro g
    simp [deref]
  have hpres : present ((returnsOf false (deref h ref)).col j) = changes p ps := by
    simp only [returnsOf, Bool.false_eq_true, if_false]
    rw [present_dropna, pctChange_col _ hs, hc, present_pctCol k p ps hp]
  have hcols : (returnsOf false (deref h ref)).cols = (deref h ref).cols := by
    simp only [returnsOf, Bool.false_eq_true, if_false, Frame.dropnaAll, Frame.pctChange]
    split <;> rfl
  have hnc : changes p ps ≠ [] := by
    intro e
    have := changes_length p ps
    rw [e] at this
    exact hne (List.length_eq_zero_iff.1 this.symm)
  obtain ⟨m1, m2⟩ := C30_missing freq _ _ hpres
  rw [geometricMean_some freq _ hnc (changes_pos p ps hp)] at m1
  rw [arithmeticMean_some freq _ hnc] at m2
  simp only [meanHistorical, Bool.false_eq_true, if_false, if_true, returnsFromPrices, alloc, hd, hcols,
    List.getElem?_map, List.getElem?_zipIdx, hj, Option.map_some, Nat.zero_add, m1, m2, annual]
  rw [changes_prod p ps hp, changes_length]
  exact ⟨rfl, by simp [avg, changes_length]⟩

/-- **C30 is false of the code for a gap.**  A price that doubles over a day without a quote: the
compounded estimate is 0. -/
theorem C30_gap_false :
    (meanHistorical [(⟨["A", "B"], [(0, [some 1, some 1]), (1, [none, some 1]), (2, [some 2, some 1]),
      (3, [some 2, some 1])]⟩ : Frame ℕ String)] 0 false true 252 false).2[0]? = some ("A", some 0) := by
  have hpres : ∀ f : Frame ℕ String, f = ⟨["A", "B"], [(0, [some 1, some 1]), (1, [none, some 1]),
      (2, [some 2, some 1]), (3, [some 2, some 1])]⟩ →
      present ((returnsOf false f).col 0) = [0] := by
    rintro f rfl
    simp only [returnsOf, Bool.false_eq_true, if_false]
    rw [present_dropna, pctChange_col _ (by intro r hr; fin_cases hr <;> rfl)]
    simp [Frame.col, pctCol, present, pctCell]
  have m1 := (C30_missing 252 _ _ (hpres _ rfl)).1
  rw [geometricMean_some 252 [0] (by simp) (by simp)] at m1
  simp only [meanHistorical, Bool.false_eq_true, if_false, if_true, returnsFromPrices, alloc, deref,
    List.length_singleton, List.cons_append, List.nil_append, List.getElem?_cons_succ,
    List.getElem?_cons_zero, Option.getD_some, List.getElem?_map, List.getElem?_zipIdx]
  have hcols : ∀ f : Frame ℕ String, (returnsOf false f).cols = f.cols := by
    intro f
    simp only [returnsOf, Bool.false_eq_true, if_false, Frame.dropnaAll, Frame.pctChange]
    split <;> rfl
  rw [hcols]
  simp only [List.getElem?_cons_zero, Option.map_some, Nat.zero_add, m1, annual]
  simp

example : (meanHistorical [(⟨["A", "B"], [(0, [some 1, none]), (1, [some 1, some 4]),
    (2, [some 1, some 6]), (3, [some 1, some 9])]⟩ : Frame ℕ String)] 0 false true 2 false).2[1]? =
      some ("B", some (5 / 4)) := by
  have := (C30_listed_partial [(⟨["A", "B"], [(0, [some 1, none]), (1, [some 1, some 4]),
    (2, [some 1, some 6]), (3, [some 1, some 9])]⟩ : Frame ℕ String)] 0
    (by intro r hr; simp [deref] at hr ⊢; rcases hr with rfl | rfl | rfl | rfl <;> rfl) 1 "B" rfl 1 4 [6, 9]
    (by simp) (by simp) (by simp [deref, Frame.col]) 2).1
  rw [this]
  norm_num

/-- **C31 (short spans).**  A span below one is refused for every table with a column. -/
theorem C31_span_refused (h : Heap ι κ) (ref : ℕ) (rd comp : Bool) (span freq : ℝ) (log : Bool)
    (hs : span < 1) (hc : (deref h ref).cols ≠ []) :
    (emaHistorical h ref rd comp span freq log).2 = .error .valueError := by
  have hd : ∀ g : Frame ι κ, deref (h ++ [g]) h.length = g := by
    intro g
    simp [deref]
  have hcols : (returnsOf log (deref h ref)).cols = (deref h ref).cols := by
    unfold returnsOf Frame.dropnaAll Frame.pctChange Frame.mapCells
    cases log <;> cases (deref h ref).rows <;> rfl
  have key : ∀ f : Frame ι κ, f.cols ≠ [] → f.cols.zipIdx.mapM (fun c =>
      (emaColumn comp span freq (f.col c.2)).map (fun v => (c.1, v))) = .error .valueError := by
    intro f hf
    cases hx : f.cols with
    | nil => exact absurd hx hf
    | cons a l =>
      rw [List.zipIdx_cons, List.mapM_cons]
      simp only [emaColumn, ewmLast, if_pos hs]
      rfl
  cases rd with
  | true => exact key _ hc
  | false =>
    refine key _ ?_
    show (deref (h ++ [_]) h.length).cols ≠ []
    rw [hd, hcols]
    exact hc

example : (emaHistorical [(full ["A"] [(0, [1]), (1, [2])] : Frame ℕ String)] 0 false true (1 / 2) 252
    false).2 = .error .valueError :=
  C31_span_refused _ 0 false true _ _ _ (by norm_num) (by simp [deref, full])

end Verif.Returns
