import Verif.Model.Latest
import Verif.Spec.Discrete
import Verif.Props.Discrete
import Mathlib.Data.Real.Archimedean

/-!
C65: the most recent price of each asset.
-/

noncomputable section

namespace Verif.Discrete
open Verif.Py Verif.Frames

variable {ι κ : Type}

/-- The last quote of a column, if there is one. -/
def lastQuote (l : List Cell) : Cell := (l.filter Option.isSome).getLast?.getD none

theorem lastQuote_append (l : List Cell) (c : Cell) :
    lastQuote (l ++ [c]) = fillCell (lastQuote l) c := by
  cases c with
  | none => simp [lastQuote, fillCell]
  | some x => simp [lastQuote, fillCell, List.filter_append]

theorem foldl_fill (c : Cell) (l : List Cell) :
    l.foldl fillCell c = fillCell c (lastQuote l) := by
  induction l using List.reverseRecOn with
  | nil => cases c <;> rfl
  | append_singleton l a ih =>
    rw [List.foldl_append, ih, lastQuote_append]
    cases a <;> simp [fillCell]

theorem ffillRows_last (cols : ℕ) : ∀ (prev : List Cell) (rows : List (ι × List Cell)),
    prev.length = cols → (∀ r ∈ rows, r.2.length = cols) → rows ≠ [] →
    ∃ r, (ffillRows prev rows).getLast? = some r ∧ r.2.length = cols ∧
      ∀ j < cols, (r.2[j]?).getD none =
        (rows.map (fun r => (r.2[j]?).getD none)).foldl fillCell ((prev[j]?).getD none)
  | _, [], _, _, h => absurd rfl h
  | prev, [r], hp, hr, _ => by
    have h1 : r.2.length = cols := hr r (by simp)
    refine ⟨(r.1, List.zipWith fillCell prev r.2), by simp [ffillRows], by simp [hp, h1],
      fun j hj => ?_⟩
    simp [List.getElem?_zipWith, hp, h1, hj]
  | prev, r :: s :: rest, hp, hr, _ => by
    have h1 : r.2.length = cols := hr r (by simp)
    obtain ⟨x, hx, hl, hj⟩ := ffillRows_last cols (List.zipWith fillCell prev r.2) (s :: rest)
      (by simp [hp, h1]) (fun y hy => hr y (by simp [List.mem_cons.1 hy])) (by simp)
    refine ⟨x, ?_, hl, fun j hj' => ?_⟩
    · simp only [ffillRows] at hx ⊢
      rw [List.getLast?_cons_cons]
      exact hx
    · have e : ((List.zipWith fillCell prev r.2)[j]?).getD none =
          fillCell ((prev[j]?).getD none) ((r.2[j]?).getD none) := by
        simp [List.getElem?_zipWith, hp, h1, hj']
      rw [hj j hj', e, List.map_cons (a := r), List.foldl_cons]

/-- **C65 (latest prices).**  For every table with at least one row, the latest price of each column is
its last quote, and NaN if it has none. -/
theorem C65_latest (f : Frame ι κ) (hf : f.Shaped) (hne : f.rows ≠ []) :
    latestPrices (.frame f) = .ok (f.cols.zipIdx.map (fun c => (c.1, lastQuote (f.col c.2)))) := by
  obtain ⟨r, hr, hl, hj⟩ := ffillRows_last f.cols.length (f.cols.map (fun _ => none)) f.rows (by simp)
    hf hne
  simp only [latestPrices, ffill, hr]
  congr 1
  apply List.ext_getElem
  · simp [hl]
  · intro j h1 h2
    simp at h1
    have := hj j h1.1
    have e : ((f.cols.map (fun _ => (none : Cell)))[j]?).getD none = none := by simp [h1.1]
    rw [e, foldl_fill] at this
    have e2 : r.2[j] = (r.2[j]?).getD none := by simp [h1.2]
    simp only [List.getElem_zip, List.getElem_map, List.getElem_zipIdx, Nat.zero_add, e2, this]
    simp only [Frame.col]
    cases lastQuote (f.rows.map fun r => (r.2[j]?).getD none) <;> rfl

/-- **C65 (refusals).**  Other objects are a TypeError, an empty table an IndexError. -/
theorem C65_refusals (f : Frame ι κ) (hne : f.rows = []) :
    latestPrices (.other : PricesArg ι κ) = .error .typeError ∧
      latestPrices (.frame f) = .error .indexError := by
  refine ⟨rfl, ?_⟩
  simp [latestPrices, ffill, hne, ffillRows]

/-- What `DiscreteAllocation(weights, get_latest_prices(prices))` is called with. -/
def allocArgs (w : Dict κ ℝ) (s : List (κ × Cell)) (total : ℝ) : RawArgs κ ℝ where
  weightsIsDict := true
  weights := w.map (fun x => (x.1, some x.2))
  pricesIsSeries := true
  prices := s
  total := total
  shortRatio := none

/-- **C65 (into the allocation).**  With weights and a positive total the allocation object is built
exactly when every column of the table has a quote — also columns of assets without a weight —, and is
refused with TypeError otherwise; each label then has its last quote as price. -/
theorem C65_allocation (f : Frame ι κ) (hf : f.Shaped) (hne : f.rows ≠ []) (w : Dict κ ℝ) (total : ℝ)
    (ht : 0 < total) (s : List (κ × Cell)) (hs : latestPrices (.frame f) = .ok s) :
    ((∀ j < f.cols.length, lastQuote (f.col j) ≠ none) →
      ∃ d, init (allocArgs w s total) = .ok d ∧ d.weights = w ∧
        d.prices = f.cols.zipIdx.map (fun c => (c.1, (lastQuote (f.col c.2)).getD 0))) ∧
    ((∃ j < f.cols.length, lastQuote (f.col j) = none) →
      init (allocArgs w s total) = .error .typeError) := by
  rw [C65_latest f hf hne] at hs
  cases hs
  have hw : ∀ w : Dict κ ℝ, dropNan (w.map (fun x => (x.1, some x.2))) = w := by
    intro w
    induction w with
    | nil => rfl
    | cons x w ih => simpa [dropNan] using ih
  have hnan : ((w.map (fun x => (x.1, some x.2))).any (fun x => x.2.isNone)) = false := by simp
  constructor
  · intro hq
    have hp : ((f.cols.zipIdx.map (fun c => (c.1, lastQuote (f.col c.2)))).any (fun x => x.2.isNone)) =
        false := by
      rw [List.any_eq_false]
      intro x hx
      obtain ⟨c, hc, rfl⟩ := List.mem_map.1 hx
      have hlt := (List.mem_zipIdx hc).2.1
      simp only [Nat.zero_add] at hlt
      simpa using hq c.2 hlt
    refine ⟨{ weights := dropNan (w.map (fun x => (x.1, some x.2)))
              prices := dropNan (f.cols.zipIdx.map (fun c => (c.1, lastQuote (f.col c.2))))
              total := total
              shortRatio := defaultShortRatio (dropNan (w.map (fun x => (x.1, some x.2)))) },
      ?_, ?_, ?_⟩
    · unfold init
      simp only [allocArgs, hnan, hp, Bool.not_true, Bool.false_eq_true, if_false, Bool.or_false,
        if_neg (not_le.2 ht), badShortRatio]
      rfl
    · exact hw w
    · show dropNan _ = _
      have : ∀ l : List (κ × ℕ), (∀ c ∈ l, lastQuote (f.col c.2) ≠ none) →
          dropNan (l.map (fun c => (c.1, lastQuote (f.col c.2)))) =
            l.map (fun c => (c.1, (lastQuote (f.col c.2)).getD 0)) := by
        intro l
        induction l with
        | nil => intro _; rfl
        | cons c l ih =>
          intro h
          obtain ⟨x, hx⟩ := Option.ne_none_iff_exists'.1 (h c (by simp))
          have := ih (fun c' hc' => h c' (by simp [hc']))
          simp only [dropNan, List.map_cons, hx, List.filterMap_cons, Option.map_some,
            Option.getD_some] at this ⊢
          rw [this]
      refine this _ fun c hc => hq c.2 ?_
      have hlt := (List.mem_zipIdx hc).2.1
      simpa using hlt
  · rintro ⟨j, hj, hq⟩
    have hp : ((f.cols.zipIdx.map (fun c => (c.1, lastQuote (f.col c.2)))).any (fun x => x.2.isNone)) =
        true := by
      rw [List.any_eq_true]
      refine ⟨(f.cols[j], lastQuote (f.col j)), ?_, by simp [hq]⟩
      refine List.mem_map.2 ⟨(f.cols[j], j), ?_, rfl⟩
      rw [List.mem_zipIdx_iff_getElem?]
      simp [hj]
    unfold init
    simp only [allocArgs, hnan, hp, Bool.not_true, Bool.false_eq_true, if_false, Bool.or_true, if_true]

/-- A delisted asset keeps its last quote, a later-listed one its first ones. -/
def quotes : Frame ℕ String :=
  ⟨["A", "B"], [(0, [some 10, none]), (1, [some 11, some 5]), (2, [none, some 6])]⟩

theorem quotes_shaped : quotes.Shaped := by
  intro r hr
  simp only [quotes, List.mem_cons, List.not_mem_nil, or_false] at hr
  rcases hr with rfl | rfl | rfl <;> rfl

example : latestPrices (.frame quotes) = .ok [("A", some 11), ("B", some 6)] := by
  rw [C65_latest quotes quotes_shaped (by simp [quotes])]
  simp [quotes, Frame.col, lastQuote]

example : ∃ d, init (allocArgs [("A", 1)] [("A", some 11), ("B", some 6)] 100) = .ok d ∧
    d.weights = [("A", 1)] := by
  have h : latestPrices (.frame quotes) = .ok [("A", some 11), ("B", some 6)] := by
    rw [C65_latest quotes quotes_shaped (by simp [quotes])]
    simp [quotes, Frame.col, lastQuote]
  obtain ⟨d, h1, h2, -⟩ := (C65_allocation quotes quotes_shaped (by simp [quotes]) [("A", 1)] 100
    (by norm_num) _ h).1 (by
      intro j hj
      simp only [quotes, List.length_cons, List.length_nil] at hj
      rcases (by omega : j = 0 ∨ j = 1) with rfl | rfl <;> simp [quotes, Frame.col, lastQuote])
  exact ⟨d, h1, h2⟩

end Verif.Discrete
