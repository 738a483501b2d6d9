import Mathlib.Tactic.IntervalCases
import Verif.Model.Warn
import Verif.Props.Listed

/-!
C81: when missing prices are warned about, and what silence means.
-/

namespace Verif.Returns
open Verif.Py Verif.Frames

variable {ι κ : Type}

/-- Asset `j` has a number in row `t`. -/
def Quoted (f : Frame ι κ) (t j : ℕ) : Prop :=
  ∃ r x, f.rows[t]? = some r ∧ r.2[j]? = some (some x)

/-- Asset `j` has a price in row `t` and in the next one, so that there is a return between them. -/
def HasReturn (f : Frame ι κ) (t j : ℕ) : Prop := Quoted f t j ∧ Quoted f (t + 1) j

/-- All prices are positive. -/
def Positive (f : Frame ι κ) : Prop := ∀ r ∈ f.rows, ∀ x, some x ∈ r.2 → 0 < x

theorem pair_sublist {α : Type} (a b : α) : ∀ l : List α,
    [a, b].Sublist l ↔ ∃ s t : ℕ, s < t ∧ l[s]? = some a ∧ l[t]? = some b
  | [] => by simp
  | c :: l => by
    rw [List.sublist_cons_iff]
    constructor
    · rintro (h | ⟨r, hr, hs⟩)
      · obtain ⟨s, t, hst, h1, h2⟩ := (pair_sublist a b l).1 h
        exact ⟨s + 1, t + 1, by omega, by simpa using h1, by simpa using h2⟩
      · simp only [List.cons.injEq] at hr
        obtain ⟨rfl, rfl⟩ := hr
        obtain ⟨t, ht⟩ := List.mem_iff_getElem?.1 (List.singleton_sublist.1 hs)
        exact ⟨0, t + 1, by omega, rfl, by simpa using ht⟩
    · rintro ⟨s, t, hst, h1, h2⟩
      obtain ⟨t, rfl⟩ : ∃ t', t = t' + 1 := ⟨t - 1, by omega⟩
      rw [List.getElem?_cons_succ] at h2
      cases s with
      | zero =>
        rw [List.getElem?_cons_zero] at h1
        obtain rfl : c = a := Option.some.inj h1
        exact Or.inr ⟨[b], rfl, List.singleton_sublist.2 (List.mem_of_getElem? h2)⟩
      | succ s =>
        rw [List.getElem?_cons_succ] at h1
        exact Or.inl ((pair_sublist a b l).2 ⟨s, t, by omega, h1, h2⟩)

theorem maskRows_iff : ∀ (prev : List Cell) (rows : List (ι × List Cell)),
    (∀ r ∈ rows, r.2.length = prev.length) →
    ((List.zipWith (fun (r s : ι × List Cell) =>
        (r.1, List.zipWith (fun (c d : Cell) => if d.isNone then some 0 else c) r.2 s.2)) rows
        (ffillRows prev rows)).any (fun r => r.2.any (fun c => c.isNone)) = true ↔
      ∃ (j : ℕ) (x : ℝ) (b : ι × List Cell), b.2[j]? = some none ∧
        ((prev[j]? = some (some x) ∧ b ∈ rows) ∨
          ∃ a : ι × List Cell, [a, b].Sublist rows ∧ a.2[j]? = some (some x)))
  | _, [], _ => by simp [ffillRows]
  | prev, r :: rest, h => by
    have hr : r.2.length = prev.length := h r (by simp)
    have hl : (List.zipWith ffillCell prev r.2).length = prev.length := by simp [hr]
    have ih := maskRows_iff (List.zipWith ffillCell prev r.2) rest
      (fun x hx => (h x (by simp [hx])).trans hl.symm)
    have hget : ∀ (j : ℕ) (x : ℝ), (List.zipWith ffillCell prev r.2)[j]? = some (some x) ↔
        (j < prev.length ∧ r.2[j]? = some (some x)) ∨
          (r.2[j]? = some none ∧ prev[j]? = some (some x)) := by
      intro j x
      rw [List.getElem?_zipWith]
      by_cases hj : j < prev.length
      · have hj' : j < r.2.length := by omega
        simp only [List.getElem?_eq_getElem hj, List.getElem?_eq_getElem hj', Option.some.injEq]
        cases hc : r.2[j] with
        | none => simp [ffillCell]
        | some y => simp [ffillCell, hj]
      · have h1 : prev[j]? = none := by simp; omega
        simp [hj]
    have hhead : (List.zipWith (fun (c d : Cell) => if d.isNone then some 0 else c) r.2
        (List.zipWith ffillCell prev r.2)).any (fun c => c.isNone) = true ↔
        ∃ (j : ℕ) (x : ℝ), r.2[j]? = some none ∧ prev[j]? = some (some x) := by
      rw [List.any_eq_true]
      constructor
      · rintro ⟨c, hc, hn⟩
        obtain ⟨j, hj⟩ := List.mem_iff_getElem?.1 hc
        rw [List.getElem?_zipWith] at hj
        cases h1 : r.2[j]? with
        | none => simp [h1] at hj
        | some c1 =>
          cases h2 : (List.zipWith ffillCell prev r.2)[j]? with
          | none => simp [h1, h2] at hj
          | some d =>
            simp only [h1, h2, Option.some.injEq] at hj
            cases d with
            | none =>
              simp only [Option.isNone_none, if_true] at hj
              subst hj
              cases hn
            | some x =>
              simp only [Option.isNone_some, Bool.false_eq_true, if_false] at hj
              subst hj
              cases c1 with
              | some y => cases hn
              | none =>
                rcases (hget j x).1 h2 with ⟨_, h3⟩ | ⟨h3, h4⟩
                · rw [h1] at h3; cases h3
                · exact ⟨j, x, h1, h4⟩
      · rintro ⟨j, x, h1, h2⟩
        refine ⟨none, ?_, rfl⟩
        refine List.mem_of_getElem? (i := j) ?_
        rw [List.getElem?_zipWith, h1, (hget j x).2 (Or.inr ⟨h1, h2⟩)]
        rfl
    simp only [ffillRows, List.zipWith_cons_cons, List.any_cons, Bool.or_eq_true]
    rw [hhead, ih]
    constructor
    · rintro (⟨j, x, h1, h2⟩ | ⟨j, x, b, hb, h⟩)
      · exact ⟨j, x, r, h1, Or.inl ⟨h2, by simp⟩⟩
      · refine ⟨j, x, b, hb, ?_⟩
        rcases h with ⟨h1, h2⟩ | ⟨a, h1, h2⟩
        · rcases (hget j x).1 h1 with ⟨_, h3⟩ | ⟨_, h3⟩
          · exact Or.inr ⟨r, by simpa using h2, h3⟩
          · exact Or.inl ⟨h3, by simp [h2]⟩
        · exact Or.inr ⟨a, h1.trans (List.sublist_cons_self r rest), h2⟩
    · rintro ⟨j, x, b, hb, ⟨h1, h2⟩ | ⟨a, h1, h2⟩⟩
      · rcases List.mem_cons.1 h2 with rfl | h2
        · exact Or.inl ⟨j, x, hb, h1⟩
        · have hj : j < prev.length := by
            by_contra hc
            have : prev[j]? = none := by simp; omega
            rw [this] at h1; cases h1
          have hj' : j < r.2.length := by omega
          cases hc : r.2[j] with
          | none =>
            exact Or.inr ⟨j, x, b, hb, Or.inl ⟨(hget j x).2
              (Or.inr ⟨by rw [List.getElem?_eq_getElem hj', hc], h1⟩), h2⟩⟩
          | some y =>
            exact Or.inr ⟨j, y, b, hb, Or.inl ⟨(hget j y).2
              (Or.inl ⟨hj, by rw [List.getElem?_eq_getElem hj', hc]⟩), h2⟩⟩
      · rw [List.sublist_cons_iff] at h1
        rcases h1 with h1 | ⟨l, hl', hs⟩
        · exact Or.inr ⟨j, x, b, hb, Or.inr ⟨a, h1, h2⟩⟩
        · simp only [List.cons.injEq] at hl'
          obtain ⟨rfl, rfl⟩ := hl'
          have hj : j < prev.length := by
            rw [← hr]
            by_contra hc
            have : a.2[j]? = none := by simp; omega
            rw [this] at h2; cases h2
          exact Or.inr ⟨j, x, b, hb, Or.inl ⟨(hget j x).2 (Or.inl ⟨hj, h2⟩),
            List.singleton_sublist.1 hs⟩⟩

theorem nanWarning_pairs (f : Frame ι κ) (hf : f.Shaped) : nanWarning f = true ↔
    ∃ (j : ℕ) (x : ℝ) (a b : ι × List Cell), [a, b].Sublist f.rows ∧
      a.2[j]? = some (some x) ∧ b.2[j]? = some none := by
  unfold nanWarning maskNull ffill
  rw [maskRows_iff _ _ (fun r hr => by rw [hf r hr]; simp)]
  constructor
  · rintro ⟨j, x, b, hb, ⟨h1, _⟩ | ⟨a, h1, h2⟩⟩
    · rw [List.getElem?_map] at h1
      cases h : f.cols[j]? <;> simp [h] at h1
    · exact ⟨j, x, a, b, h1, h2, hb⟩
  · rintro ⟨j, x, a, b, h1, h2, hb⟩
    exact ⟨j, x, b, hb, Or.inr ⟨a, h1, h2⟩⟩

/-- The return between two cells, as computed by `returns_from_prices`. -/
noncomputable def retCell (log : Bool) (a b : Cell) : Cell :=
  if log then (pctCell a b).bind logReturn else pctCell a b

/-- The returns before empty rows are dropped. -/
noncomputable def retFrame (log : Bool) (f : Frame ι κ) : Frame ι κ :=
  if log then f.pctChange.mapCells logReturn else f.pctChange

theorem returnsOf_eq (log : Bool) (f : Frame ι κ) : returnsOf log f = (retFrame log f).dropnaAll := by
  unfold returnsOf retFrame
  cases log <;> rfl

theorem retFrame_cols (log : Bool) (f : Frame ι κ) : (retFrame log f).cols = f.cols := by
  unfold retFrame Frame.mapCells Frame.pctChange
  cases log <;> cases f.rows <;> rfl

theorem pctRows_get : ∀ (p : ι × List Cell) (rows : List (ι × List Cell)) (i : ℕ),
    (pctRows p.2 rows)[i]? = (rows[i]?).bind (fun b => ((p :: rows)[i]?).map (fun a =>
      (b.1, List.zipWith pctCell a.2 b.2)))
  | _, [], i => by simp [pctRows]
  | p, r :: rest, 0 => by simp [pctRows]
  | p, r :: rest, i + 1 => by
    simp only [pctRows, List.getElem?_cons_succ]
    exact pctRows_get r rest i

theorem retFrame_get (log : Bool) (f : Frame ι κ) (i : ℕ) :
    (retFrame log f).rows[i + 1]? = (f.rows[i + 1]?).bind (fun b => (f.rows[i]?).map (fun a =>
      (b.1, List.zipWith (retCell log) a.2 b.2))) := by
  have h : f.pctChange.rows[i + 1]? = (f.rows[i + 1]?).bind (fun b => (f.rows[i]?).map (fun a =>
      (b.1, List.zipWith pctCell a.2 b.2))) := by
    unfold Frame.pctChange
    cases hr : f.rows with
    | nil => simp [hr]
    | cons r rest =>
      simp only [List.getElem?_cons_succ]
      exact pctRows_get r rest i
  cases log with
  | false => exact h
  | true =>
    simp only [retFrame, if_true, Frame.mapCells, List.getElem?_map, h]
    cases f.rows[i + 1]? with
    | none => rfl
    | some b =>
      cases f.rows[i]? with
      | none => rfl
      | some a =>
        simp only [Option.bind_some, Option.map_some, Option.some.injEq, Prod.mk.injEq, true_and]
        rw [List.map_zipWith]
        rfl

theorem retFrame_first (log : Bool) (f : Frame ι κ) (r : ι × List Cell)
    (h : (retFrame log f).rows[0]? = some r) (j : ℕ) (x : ℝ) : r.2[j]? ≠ some (some x) := by
  have h0 : ∀ (r : ι × List Cell), f.pctChange.rows[0]? = some r → ∀ c ∈ r.2, c = none := by
    intro r hr c hc
    unfold Frame.pctChange at hr
    cases hrow : f.rows with
    | nil => simp [hrow] at hr
    | cons q rest =>
      simp only [hrow, List.getElem?_cons_zero, Option.some.injEq] at hr
      subst hr
      simp only [List.mem_map] at hc
      obtain ⟨_, _, rfl⟩ := hc
      rfl
  intro hx
  cases log with
  | false => exact nomatch h0 r h _ (List.mem_of_getElem? hx)
  | true =>
    simp only [retFrame, if_true, Frame.mapCells, List.getElem?_map] at h
    cases hp : f.pctChange.rows[0]? with
    | none => simp [hp] at h
    | some q =>
      simp only [hp, Option.map_some, Option.some.injEq] at h
      subst h
      rw [List.getElem?_map] at hx
      cases hq : q.2[j]? with
      | none => simp [hq] at hx
      | some c =>
        have := h0 q hp c (List.mem_of_getElem? hq)
        subst this
        simp [hq] at hx

theorem retFrame_shaped (log : Bool) (f : Frame ι κ) (hf : f.Shaped) : (retFrame log f).Shaped := by
  intro r hr
  rw [retFrame_cols]
  obtain ⟨i, hi⟩ := List.mem_iff_getElem?.1 hr
  cases i with
  | succ i =>
    rw [retFrame_get] at hi
    cases h1 : f.rows[i + 1]? with
    | none => simp [h1] at hi
    | some b =>
      cases h2 : f.rows[i]? with
      | none => simp [h1, h2] at hi
      | some a =>
        simp only [h1, h2, Option.bind_some, Option.map_some, Option.some.injEq] at hi
        subst hi
        simp [hf a (List.mem_of_getElem? h2), hf b (List.mem_of_getElem? h1)]
  | zero =>
    have h0 : ∀ r : ι × List Cell, f.pctChange.rows[0]? = some r → r.2.length = f.cols.length := by
      intro r hr
      unfold Frame.pctChange at hr
      cases hrow : f.rows with
      | nil => simp [hrow] at hr
      | cons q rest =>
        simp only [hrow, List.getElem?_cons_zero, Option.some.injEq] at hr
        subst hr
        simpa using hf q (by simp [hrow])
    cases log with
    | false => exact h0 r hi
    | true =>
      simp only [retFrame, if_true, Frame.mapCells, List.getElem?_map] at hi
      cases hp : f.pctChange.rows[0]? with
      | none => simp [hp] at hi
      | some q =>
        simp only [hp, Option.map_some, Option.some.injEq] at hi
        subst hi
        simpa using h0 q hp

theorem retCell_pos (log : Bool) (a b : ℝ) (ha : 0 < a) (hb : 0 < b) :
    ∃ x, retCell log (some a) (some b) = some x := by
  have h : 0 < 1 + (b / a - 1) := by
    have := div_pos hb ha
    linarith
  cases log with
  | false => exact ⟨_, by simp only [retCell, pctCell, if_neg ha.ne', Bool.false_eq_true, if_false]; rfl⟩
  | true =>
    exact ⟨_, by simp only [retCell, pctCell, if_neg ha.ne', if_true, Option.bind_some, logReturn,
      if_pos h]; rfl⟩

theorem retCell_some (log : Bool) (a b : Cell) (x : ℝ) (h : retCell log a b = some x) :
    (∃ y, a = some y) ∧ ∃ y, b = some y := by
  cases a <;> cases b <;> cases log <;> simp [retCell, pctCell] at h ⊢

/-- A number in row `i + 1` of the returns is a pair of prices in rows `i` and `i + 1`. -/
theorem ret_present (log : Bool) (f : Frame ι κ) (hp : Positive f) (i j : ℕ) (r : ι × List Cell)
    (h : (retFrame log f).rows[i + 1]? = some r) :
    (∃ x, r.2[j]? = some (some x)) ↔ HasReturn f i j := by
  rw [retFrame_get] at h
  cases h1 : f.rows[i + 1]? with
  | none => simp [h1] at h
  | some b =>
    cases h2 : f.rows[i]? with
    | none => simp [h1, h2] at h
    | some a =>
      simp only [h1, h2, Option.bind_some, Option.map_some, Option.some.injEq] at h
      subst h
      simp only [HasReturn, Quoted, h1, h2, List.getElem?_zipWith]
      constructor
      · rintro ⟨x, hx⟩
        cases ha : a.2[j]? with
        | none => simp [ha] at hx
        | some c =>
          cases hb : b.2[j]? with
          | none => simp [ha, hb] at hx
          | some d =>
            simp only [ha, hb, Option.some.injEq] at hx
            obtain ⟨⟨y, rfl⟩, ⟨z, rfl⟩⟩ := retCell_some log c d x hx
            exact ⟨⟨a, y, rfl, ha⟩, ⟨b, z, rfl, hb⟩⟩
      · rintro ⟨⟨a', y, e1, ha⟩, ⟨b', z, e2, hb⟩⟩
        obtain rfl := Option.some.inj e1
        obtain rfl := Option.some.inj e2
        obtain ⟨x, hx⟩ := retCell_pos log y z
          (hp a (List.mem_of_getElem? h2) y (List.mem_of_getElem? ha))
          (hp b (List.mem_of_getElem? h1) z (List.mem_of_getElem? hb))
        exact ⟨x, by simp [ha, hb, hx]⟩

theorem dropna_shaped (f : Frame ι κ) (hf : f.Shaped) : f.dropnaAll.Shaped := by
  intro r hr
  exact hf r (List.mem_of_mem_filter hr)

theorem cell_none (f : Frame ι κ) (hf : f.Shaped) (r : ι × List Cell) (hr : r ∈ f.rows) (j : ℕ)
    (hj : j < f.cols.length) (h : ¬ ∃ x, r.2[j]? = some (some x)) : r.2[j]? = some none := by
  have hj' : j < r.2.length := by rw [hf r hr]; exact hj
  rw [List.getElem?_eq_getElem hj'] at h ⊢
  cases hc : r.2[j] with
  | none => rfl
  | some x => exact absurd ⟨x, by rw [hc]⟩ h

theorem quoted_col (f : Frame ι κ) (hf : f.Shaped) (t j : ℕ) (h : Quoted f t j) :
    j < f.cols.length := by
  obtain ⟨r, x, h1, h2⟩ := h
  rw [← hf r (List.mem_of_getElem? h1)]
  by_contra hc
  have : r.2[j]? = none := by simp; omega
  rw [this] at h2
  cases h2

/-- The check on the returns of a table of positive prices. -/
theorem warning_iff (log : Bool) (f : Frame ι κ) (hf : f.Shaped) (hp : Positive f) :
    nanWarning (returnsOf log f) = true ↔ ∃ j k s t : ℕ, s < t ∧ HasReturn f s j ∧
      ¬ HasReturn f t j ∧ HasReturn f t k := by
  have hsh := retFrame_shaped log f hf
  rw [returnsOf_eq, nanWarning_pairs _ (dropna_shaped _ hsh)]
  constructor
  · rintro ⟨j, x, a, b, hab, ha, hb⟩
    have hb' : b ∈ (retFrame log f).dropnaAll.rows := hab.subset (by simp)
    have hany := (List.mem_filter.1 hb').2
    obtain ⟨c, hc, hcs⟩ := List.any_eq_true.1 hany
    obtain ⟨k, hk⟩ := List.mem_iff_getElem?.1 hc
    obtain ⟨y, rfl⟩ := Option.isSome_iff_exists.1 hcs
    obtain ⟨s, t, hst, h1, h2⟩ := (pair_sublist a b _).1 (hab.trans List.filter_sublist)
    obtain ⟨t, rfl⟩ : ∃ t', t = t' + 1 := ⟨t - 1, by omega⟩
    cases s with
    | zero => exact absurd ha (retFrame_first log f a h1 j x)
    | succ s =>
      refine ⟨j, k, s, t, by omega, (ret_present log f hp s j a h1).1 ⟨x, ha⟩, fun hr => ?_,
        (ret_present log f hp t k b h2).1 ⟨y, hk⟩⟩
      obtain ⟨z, hz⟩ := (ret_present log f hp t j b h2).2 hr
      rw [hb] at hz
      cases hz
  · rintro ⟨j, k, s, t, hst, h1, h2, h3⟩
    have get : ∀ i l : ℕ, HasReturn f i l → ∃ r, (retFrame log f).rows[i + 1]? = some r := by
      rintro i l ⟨⟨a, _, ha, _⟩, ⟨b, _, hb, _⟩⟩
      exact ⟨_, by rw [retFrame_get, ha, hb]; rfl⟩
    obtain ⟨a, ha⟩ := get s j h1
    obtain ⟨b, hb⟩ := get t k h3
    obtain ⟨x, hx⟩ := (ret_present log f hp s j a ha).2 h1
    obtain ⟨y, hy⟩ := (ret_present log f hp t k b hb).2 h3
    have hj : j < (retFrame log f).cols.length := by
      rw [retFrame_cols]
      exact quoted_col f hf _ _ h1.1
    refine ⟨j, x, a, b, ?_, hx, cell_none _ hsh b (List.mem_of_getElem? hb) j hj
      (fun h => h2 ((ret_present log f hp t j b hb).1 h))⟩
    have hkeep : ∀ (r : ι × List Cell) (l : ℕ) (z : ℝ), r.2[l]? = some (some z) →
        (r.2.any fun c => c.isSome) = true := by
      intro r l z h
      exact List.any_eq_true.2 ⟨_, List.mem_of_getElem? h, rfl⟩
    have hsub := (pair_sublist a b (retFrame log f).rows).2 ⟨s + 1, t + 1, by omega, ha, hb⟩
    have := hsub.filter (fun r => r.2.any (fun c => c.isSome))
    have e : List.filter (fun r : ι × List Cell => r.2.any (fun c => c.isSome)) [a, b] = [a, b] := by
      simp only [List.filter, hkeep a j x hx, hkeep b k y hy]
    rwa [e] at this

theorem deref_new (h : Heap ι κ) (g : Frame ι κ) : deref (h ++ [g]) h.length = g := by
  simp [deref]

theorem mean_of_some (l : List Cell) (x : ℝ) (h : some x ∈ l) : Frames.mean l ≠ none := by
  have : count l ≠ 0 := by
    unfold count present
    intro e
    have := List.length_eq_zero_iff.1 e
    have hm : x ∈ l.filterMap id := List.mem_filterMap.2 ⟨some x, h, rfl⟩
    rw [this] at hm
    cases hm
  unfold Frames.mean
  rw [if_neg this]
  simp

/-- The equally weighted market adds nothing to warn about. -/
theorem appendMean_warning [DecidableEq κ] (mkt : κ) (f : Frame ι κ) (hf : f.Shaped)
    (hm : mkt ∉ f.cols) (hk : ∀ r ∈ f.rows, (r.2.any fun c => c.isSome) = true) :
    nanWarning (appendMean mkt f) = true ↔ nanWarning f = true := by
  have hrows : (appendMean mkt f).rows = f.rows.map (fun r => (r.1, r.2 ++ [Frames.mean r.2])) := by
    unfold appendMean
    rw [if_neg hm]
  have hcols : (appendMean mkt f).cols = f.cols ++ [mkt] := by
    unfold appendMean
    rw [if_neg hm]
  have hsh : (appendMean mkt f).Shaped := by
    intro r hr
    rw [hrows] at hr
    obtain ⟨q, hq, rfl⟩ := List.mem_map.1 hr
    simp [hcols, hf q hq]
  rw [nanWarning_pairs _ hsh, nanWarning_pairs f hf]
  have hfull : ∀ r ∈ f.rows, Frames.mean r.2 ≠ none := by
    intro r hr
    obtain ⟨c, hc, hs⟩ := List.any_eq_true.1 (hk r hr)
    obtain ⟨x, rfl⟩ := Option.isSome_iff_exists.1 hs
    exact mean_of_some _ x hc
  constructor
  · rintro ⟨j, x, a, b, hab, ha, hb⟩
    rw [hrows, pair_sublist] at hab
    obtain ⟨s, t, hst, h1, h2⟩ := hab
    simp only [List.getElem?_map, Option.map_eq_some_iff] at h1 h2
    obtain ⟨a, h1, rfl⟩ := h1
    obtain ⟨b, h2, rfl⟩ := h2
    have hla := hf a (List.mem_of_getElem? h1)
    have hlb := hf b (List.mem_of_getElem? h2)
    have hj : j < b.2.length := by
      by_contra hc
      rw [List.getElem?_append_right (by omega)] at hb
      cases hd : j - b.2.length with
      | zero =>
        rw [hd] at hb
        exact hfull b (List.mem_of_getElem? h2) (Option.some.inj hb)
      | succ n => simp [hd] at hb
    rw [List.getElem?_append_left (by omega)] at ha hb
    exact ⟨j, x, a, b, (pair_sublist _ _ _).2 ⟨s, t, hst, h1, h2⟩, ha, hb⟩
  · rintro ⟨j, x, a, b, hab, ha, hb⟩
    have hja : j < a.2.length := by
      by_contra hc
      have : a.2[j]? = none := by simp; omega
      rw [this] at ha
      cases ha
    have hjb : j < b.2.length := by
      by_contra hc
      have : b.2[j]? = none := by simp; omega
      rw [this] at hb
      cases hb
    refine ⟨j, x, (a.1, a.2 ++ [Frames.mean a.2]), (b.1, b.2 ++ [Frames.mean b.2]), ?_,
      (List.getElem?_append_left hja).trans ha, (List.getElem?_append_left hjb).trans hb⟩
    rw [hrows]
    exact hab.map (fun r : ι × List Cell => (r.1, r.2 ++ [Frames.mean r.2]))

/-- **C81 (when missing prices are warned about).**  The three return models, given positive prices,
warn if and only if some asset has a return, later lacks one, and another asset has a return on that
later day.  For `capm_return` this is the case without a market index, when no asset is called "mkt". -/
theorem C81_warned_iff [DecidableEq ι] [DecidableEq κ] (h : Heap ι κ) (ref : ℕ) (log : Bool)
    (hs : (deref h ref).Shaped) (hp : Positive (deref h ref)) :
    (meanWarns h ref false log = true ↔ ∃ j k s t : ℕ, s < t ∧ HasReturn (deref h ref) s j ∧
      ¬ HasReturn (deref h ref) t j ∧ HasReturn (deref h ref) t k) ∧
    (emaWarns h ref false log = true ↔ ∃ j k s t : ℕ, s < t ∧ HasReturn (deref h ref) s j ∧
      ¬ HasReturn (deref h ref) t j ∧ HasReturn (deref h ref) t k) ∧
    ∀ mkt, mkt ∉ (deref h ref).cols →
      (capmWarns mkt h ref none false log = true ↔ ∃ j k s t : ℕ, s < t ∧
        HasReturn (deref h ref) s j ∧ ¬ HasReturn (deref h ref) t j ∧ HasReturn (deref h ref) t k) := by
  have key := warning_iff log (deref h ref) hs hp
  refine ⟨?_, ?_, fun mkt hm => ?_⟩
  · simpa only [meanWarns, Bool.false_eq_true, if_false, returnsFromPrices, alloc, deref_new] using key
  · simpa only [emaWarns, Bool.false_eq_true, if_false, returnsFromPrices, alloc, deref_new] using key
  · rw [← key]
    have hc : (returnsOf log (deref h ref)).cols = (deref h ref).cols := by
      rw [returnsOf_eq]
      exact retFrame_cols log _
    have hset : deref ((h ++ [returnsOf log (deref h ref)]).set h.length
        (appendMean mkt (returnsOf log (deref h ref)))) h.length =
          appendMean mkt (returnsOf log (deref h ref)) := by
      simp [deref]
    simp only [capmWarns, capmFrame, Bool.false_eq_true, if_false, returnsFromPrices, alloc, deref_new,
      hset]
    refine appendMean_warning mkt _ ?_ (by rw [hc]; exact hm) ?_
    · rw [returnsOf_eq]
      exact dropna_shaped _ (retFrame_shaped log _ hs)
    · intro r hr
      rw [returnsOf_eq] at hr
      exact (List.mem_filter.1 hr).2

/-- **C81 (returns given).**  With `returns_data=True` nothing is dropped: the warning comes if and
only if some asset has a return and lacks a later one. -/
theorem C81_returns_iff (h : Heap ι κ) (ref : ℕ) (log : Bool) (hs : (deref h ref).Shaped) :
    (meanWarns h ref true log = true ↔ ∃ j s t : ℕ, s < t ∧ t < (deref h ref).rows.length ∧
      Quoted (deref h ref) s j ∧ ¬ Quoted (deref h ref) t j) ∧
    (emaWarns h ref true log = true ↔ ∃ j s t : ℕ, s < t ∧ t < (deref h ref).rows.length ∧
      Quoted (deref h ref) s j ∧ ¬ Quoted (deref h ref) t j) := by
  have key : nanWarning (deref h ref) = true ↔ ∃ j s t : ℕ, s < t ∧ t < (deref h ref).rows.length ∧
      Quoted (deref h ref) s j ∧ ¬ Quoted (deref h ref) t j := by
    rw [nanWarning_pairs _ hs]
    constructor
    · rintro ⟨j, x, a, b, hab, ha, hb⟩
      obtain ⟨s, t, hst, h1, h2⟩ := (pair_sublist _ _ _).1 hab
      refine ⟨j, s, t, hst, ?_, ⟨a, x, h1, ha⟩, ?_⟩
      · by_contra hc
        have : (deref h ref).rows[t]? = none := by simp; omega
        rw [this] at h2
        cases h2
      · rintro ⟨r, y, h3, h4⟩
        obtain rfl := Option.some.inj (h2.symm.trans h3)
        rw [hb] at h4
        cases h4
    · rintro ⟨j, s, t, hst, ht, hq, hn⟩
      have hj := quoted_col _ hs _ _ hq
      obtain ⟨a, x, h1, h2⟩ := hq
      have h3 := List.getElem?_eq_getElem ht
      exact ⟨j, x, a, _, (pair_sublist _ _ _).2 ⟨s, t, hst, h1, h3⟩, h2,
        cell_none _ hs _ (List.mem_of_getElem? h3) j hj (fun ⟨y, hy⟩ => hn ⟨_, y, h3, hy⟩)⟩
  exact ⟨by simpa only [meanWarns, if_true] using key, by simpa only [emaWarns, if_true] using key⟩

/-- **C81 (one asset).**  A table with a single column is never warned about, whatever is missing. -/
theorem C81_one_asset (h : Heap ι κ) (ref : ℕ) (log : Bool) (hs : (deref h ref).Shaped)
    (hp : Positive (deref h ref)) (h1 : (deref h ref).cols.length = 1) :
    meanWarns h ref false log = false ∧ emaWarns h ref false log = false := by
  have key : ¬ nanWarning (returnsOf log (deref h ref)) = true := by
    rw [warning_iff log _ hs hp]
    rintro ⟨j, k, s, t, _, h2, h3, h4⟩
    have e1 := quoted_col _ hs _ _ h2.1
    have e2 := quoted_col _ hs _ _ h4.1
    obtain rfl : j = k := by omega
    exact h3 h4
  rw [Bool.not_eq_true] at key
  exact ⟨by simpa only [meanWarns, Bool.false_eq_true, if_false, returnsFromPrices, alloc, deref_new]
      using key,
    by simpa only [emaWarns, Bool.false_eq_true, if_false, returnsFromPrices, alloc, deref_new]
      using key⟩

/-- Any two consecutive days have an asset quoted on both. -/
def Linked (f : Frame ι κ) : Prop := ∀ t, t + 1 < f.rows.length → ∃ k, HasReturn f t k

theorem present_skip : ∀ (k : ℕ) (l : List Cell),
    (∀ i < k, ∀ x y : ℝ, ¬ (l[i]? = some (some x) ∧ l[i + 1]? = some (some y))) →
    present (List.zipWith pctCell l l.tail) =
      present (List.zipWith pctCell (l.drop k) (l.drop k).tail)
  | 0, l, _ => by simp
  | k + 1, [], _ => by simp
  | k + 1, [c], _ => by simp
  | k + 1, c :: d :: l, h => by
    have ih := present_skip k (d :: l) (fun i hi x y hxy => h (i + 1) (by omega) x y
      (by simpa using hxy))
    have h0 : pctCell c d = none := by
      cases c with
      | none => rfl
      | some x =>
        cases d with
        | none => rfl
        | some y => exact absurd ⟨rfl, rfl⟩ (h 0 (by omega) x y)
    simp only [List.tail_cons, List.zipWith_cons_cons, List.drop_succ_cons] at ih ⊢
    rw [← ih, h0]
    simp [present]

theorem all_some : ∀ l : List Cell, (∀ c ∈ l, c ≠ none) → ∃ xs : List ℝ, l = xs.map some
  | [], _ => ⟨[], rfl⟩
  | c :: l, h => by
    obtain ⟨xs, rfl⟩ := all_some l (fun d hd => h d (by simp [hd]))
    cases c with
    | none => exact absurd rfl (h none (by simp))
    | some x => exact ⟨x :: xs, rfl⟩

theorem quoted_cell (f : Frame ι κ) (t j : ℕ) :
    Quoted f t j ↔ ∃ x, (f.col j)[t]? = some (some x) := by
  simp only [Quoted, Frame.col, List.getElem?_map]
  constructor
  · rintro ⟨r, x, h1, h2⟩
    exact ⟨x, by simp [h1, h2]⟩
  · rintro ⟨x, h⟩
    cases h1 : f.rows[t]? with
    | none => simp [h1] at h
    | some r =>
      refine ⟨r, x, rfl, ?_⟩
      simp only [h1, Option.map_some, Option.some.injEq] at h
      cases h2 : r.2[j]? with
      | none => simp [h2] at h
      | some c => simpa [h2] using h

/-- **C81, partial (what silence means).**  If `mean_historical_return` issues no warning and any two
consecutive days have an asset quoted on both, the prices of every asset with a return are complete from its first
return on, and its compounded estimate is the constant annual rate from the first to the last of
them: nothing between was lost.  What is missing: days on which no asset is quoted
(`C81_blank_false`); and prices before the first return are not used (`C81_start_false`). -/
theorem C81_silent_partial (h : Heap ι κ) (ref : ℕ) (hs : (deref h ref).Shaped)
    (hp : Positive (deref h ref)) (hl : Linked (deref h ref))
    (hw : meanWarns h ref false false = false) (j : ℕ) (name : κ)
    (hj : (deref h ref).cols[j]? = some name) (hr : ∃ s, HasReturn (deref h ref) s j) (freq : ℝ) :
    ∃ (k : ℕ) (p : ℝ) (ps : List ℝ), ps ≠ [] ∧
      ((deref h ref).col j).drop k = (p :: ps).map some ∧
      (∀ i < k, ¬ HasReturn (deref h ref) i j) ∧
      (meanHistorical h ref false true freq false).2[j]? =
        some (name, some (((p :: ps).getLast (by simp) / p) ^ (freq / ps.length) - 1)) := by
  classical
  set f := deref h ref with hfdef
  have hk := Nat.find_spec hr
  have hmin : ∀ i < Nat.find hr, ¬ HasReturn f i j := fun i hi => Nat.find_min hr hi
  generalize Nat.find hr = k at hk hmin
  have hlater : ∀ t, k ≤ t → t + 1 < f.rows.length → HasReturn f t j := by
    intro t ht hlen
    rcases Nat.eq_or_lt_of_le ht with rfl | hlt
    · exact hk
    · by_contra hn
      obtain ⟨m, hm⟩ := hl t hlen
      have hwn : nanWarning (returnsOf false f) = false := by
        simpa only [meanWarns, Bool.false_eq_true, if_false, returnsFromPrices, alloc, deref_new] using hw
      have := (warning_iff false f hs hp).2 ⟨j, m, k, t, hlt, hk, hn, hm⟩
      rw [hwn] at this
      cases this
  have hlen : (f.col j).length = f.rows.length := by simp [Frame.col]
  have hk1 : k + 1 < f.rows.length := by
    obtain ⟨r, _, h1, _⟩ := hk.2
    by_contra hc
    have : f.rows[k + 1]? = none := by simp; omega
    rw [this] at h1
    cases h1
  have hall : ∀ c ∈ (f.col j).drop k, c ≠ none := by
    intro c hc
    obtain ⟨i, hi⟩ := List.mem_iff_getElem?.1 hc
    rw [List.getElem?_drop] at hi
    have hlt : k + i < f.rows.length := by
      by_contra hcon
      have : (f.col j)[k + i]? = none := by simp; omega
      rw [this] at hi
      cases hi
    have hq : Quoted f (k + i) j := by
      by_cases hlast : k + i + 1 < f.rows.length
      · exact (hlater (k + i) (by omega) hlast).1
      · have := (hlater (k + i - 1) (by omega) (by omega)).2
        rwa [show k + i - 1 + 1 = k + i by omega] at this
    obtain ⟨x, hx⟩ := (quoted_cell f _ j).1 hq
    rw [hx] at hi
    rintro rfl
    cases hi
  obtain ⟨xs, hxs⟩ := all_some _ hall
  have hxl : xs.length = f.rows.length - k := by
    have := congrArg List.length hxs
    simp only [List.length_drop, hlen, List.length_map] at this
    exact this.symm
  match xs, hxs, hxl with
  | [], _, h0 => simp at h0; omega
  | [_], _, h0 => simp at h0; omega
  | p :: q :: ps, hxs, _ =>
    have hpos : ∀ x ∈ p :: q :: ps, 0 < x := by
      intro x hx
      have h1 : some x ∈ (f.col j).drop k := by
        rw [hxs]
        exact List.mem_map.2 ⟨x, hx, rfl⟩
      have h2 := List.mem_of_mem_drop h1
      simp only [Frame.col, List.mem_map] at h2
      obtain ⟨r, hr, he⟩ := h2
      cases h3 : r.2[j]? with
      | none => simp [h3] at he
      | some c =>
        simp only [h3, Option.getD_some] at he
        subst he
        exact hp r hr x (List.mem_of_getElem? h3)
    refine ⟨k, p, q :: ps, by simp, hxs, hmin, ?_⟩
    have hpres : present ((returnsOf false f).col j) = changes p (q :: ps) := by
      simp only [returnsOf, Bool.false_eq_true, if_false]
      rw [present_dropna, pctChange_col _ hs]
      have e : ∀ l : List Cell, present (pctCol l) = present (List.zipWith pctCell l l.tail) := by
        intro l
        cases l <;> simp [pctCol, present]
      rw [e, present_skip k, hxs]
      · exact present_pctCell_zip p (q :: ps) hpos
      · intro i hi x y hxy
        exact hmin i hi ⟨(quoted_cell f _ j).2 ⟨x, hxy.1⟩, (quoted_cell f _ j).2 ⟨y, hxy.2⟩⟩
    have hcols : (returnsOf false f).cols = f.cols := by
      rw [returnsOf_eq]
      exact retFrame_cols false f
    have hnc : changes p (q :: ps) ≠ [] := by simp [changes]
    have m1 := (C30_missing freq _ _ hpres).1
    rw [geometricMean_some freq _ hnc (changes_pos p (q :: ps) hpos)] at m1
    simp only [meanHistorical, Bool.false_eq_true, if_false, if_true, returnsFromPrices, alloc,
      ← hfdef, deref_new, hcols, List.getElem?_map, List.getElem?_zipIdx, hj, Option.map_some,
      Nat.zero_add, m1, annual]
    rw [changes_prod p (q :: ps) hpos, changes_length]

/-! ### Cases -/

/-- A day without any quote, over which A doubles. -/
noncomputable def blankDay : Frame ℕ String :=
  ⟨["A", "B"], [(0, [some 1, some 1]), (1, [none, none]), (2, [some 2, some 1]), (3, [some 2, some 1])]⟩

/-- A is quoted on the first day, not on the second, and doubles in between. -/
noncomputable def lateStart : Frame ℕ String :=
  ⟨["A", "B"], [(0, [some 1, some 1]), (1, [none, some 1]), (2, [some 2, some 1]),
    (3, [some 2, some 1])]⟩

/-- A is quoted on the first two days and misses the third. -/
noncomputable def gapDay : Frame ℕ String :=
  ⟨["A", "B"], [(0, [some 1, some 1]), (1, [some 1, some 1]), (2, [none, some 1]),
    (3, [some 2, some 1])]⟩

theorem four_positive (a b c d : List Cell) (ha : ∀ x, some x ∈ a ++ b ++ c ++ d → 0 < x) :
    Positive (⟨["A", "B"], [(0, a), (1, b), (2, c), (3, d)]⟩ : Frame ℕ String) := by
  intro r hr x hx
  simp only [List.mem_cons, List.not_mem_nil, or_false] at hr
  rcases hr with rfl | rfl | rfl | rfl <;> exact ha x (by simp at hx ⊢; tauto)

theorem four_shaped (a b c d : List Cell) (ha : a.length = 2) (hb : b.length = 2)
    (hc : c.length = 2) (hd : d.length = 2) :
    (⟨["A", "B"], [(0, a), (1, b), (2, c), (3, d)]⟩ : Frame ℕ String).Shaped := by
  intro r hr
  simp only [List.mem_cons, List.not_mem_nil, or_false] at hr
  rcases hr with rfl | rfl | rfl | rfl <;> assumption

theorem blankDay_return (t j : ℕ) (h : HasReturn blankDay t j) : t = 2 := by
  obtain ⟨⟨r, x, h1, h2⟩, ⟨q, y, h3, h4⟩⟩ := h
  match t with
  | 0 =>
    simp only [blankDay, List.getElem?_cons_succ, List.getElem?_cons_zero, Option.some.injEq] at h3
    subst h3
    match j with
    | 0 => simp at h4
    | 1 => simp at h4
    | j + 2 => simp at h4
  | 1 =>
    simp only [blankDay, List.getElem?_cons_succ, List.getElem?_cons_zero, Option.some.injEq] at h1
    subst h1
    match j with
    | 0 => simp at h2
    | 1 => simp at h2
    | j + 2 => simp at h2
  | 2 => rfl
  | t + 3 => simp [blankDay] at h3

theorem zero_estimate (f : Frame ℕ String) (hs : f.Shaped) (hc : f.cols[0]? = some "A")
    (hcol : f.col 0 = [some 1, none, some 2, some 2]) :
    (meanHistorical [f] 0 false true 252 false).2[0]? = some ("A", some 0) := by
  have hpres : present ((returnsOf false f).col 0) = [0] := by
    simp only [returnsOf, Bool.false_eq_true, if_false]
    rw [present_dropna, pctChange_col _ hs, hcol]
    simp [pctCol, present, pctCell]
  have m1 := (C30_missing 252 _ _ hpres).1
  rw [geometricMean_some 252 [0] (by simp) (by simp)] at m1
  have hcols : (returnsOf false f).cols = f.cols := by
    rw [returnsOf_eq]
    exact retFrame_cols false f
  have hd : deref [f] 0 = f := rfl
  simp only [meanHistorical, Bool.false_eq_true, if_false, if_true, returnsFromPrices, alloc, hd,
    deref_new, List.getElem?_map, List.getElem?_zipIdx, hcols, hc, Option.map_some, Nat.zero_add, m1,
    annual]
  simp

/-- **C81 is false of the code for days without any quote.**  A doubles over a day on which nothing is
quoted; its estimate is 0 and there is no warning. -/
theorem C81_blank_false : meanWarns [blankDay] 0 false false = false ∧
    (meanHistorical [blankDay] 0 false true 252 false).2[0]? = some ("A", some 0) := by
  have hs : blankDay.Shaped := four_shaped _ _ _ _ rfl rfl rfl rfl
  constructor
  · have h1 := (C81_warned_iff [blankDay] 0 false hs (four_positive _ _ _ _ (by simp))).1
    rw [← Bool.not_eq_true, h1]
    rintro ⟨j, k, s, t, hst, h2, _, h4⟩
    have e1 := blankDay_return s j h2
    have e2 := blankDay_return t k h4
    omega
  · exact zero_estimate blankDay hs rfl rfl

/-- **C81 is false of the code before the first return.**  A is quoted, misses a day and comes back at
twice the price; its estimate is 0 and there is no warning. -/
theorem C81_start_false : meanWarns [lateStart] 0 false false = false ∧
    (meanHistorical [lateStart] 0 false true 252 false).2[0]? = some ("A", some 0) := by
  have hs : lateStart.Shaped := four_shaped _ _ _ _ rfl rfl rfl rfl
  constructor
  · have h1 := (C81_warned_iff [lateStart] 0 false hs (four_positive _ _ _ _ (by simp))).1
    rw [← Bool.not_eq_true, h1]
    have hB : ∀ t, t < 3 → HasReturn lateStart t 1 := by
      intro t ht
      interval_cases t <;> exact ⟨⟨_, _, rfl, rfl⟩, ⟨_, _, rfl, rfl⟩⟩
    have hA : ∀ s, HasReturn lateStart s 0 → 2 ≤ s := by
      rintro s ⟨⟨r, x, h2, h3⟩, ⟨q, y, h4, h5⟩⟩
      match s with
      | 0 =>
        simp only [lateStart, List.getElem?_cons_succ, List.getElem?_cons_zero, Option.some.injEq] at h4
        subst h4
        simp at h5
      | 1 =>
        simp only [lateStart, List.getElem?_cons_succ, List.getElem?_cons_zero, Option.some.injEq] at h2
        subst h2
        simp at h3
      | s + 2 => omega
    rintro ⟨j, k, s, t, hst, h2, h3, h4⟩
    have ht : t < 3 := by
      obtain ⟨_, ⟨q, y, h5, h6⟩⟩ := h4
      by_contra hc
      obtain ⟨m, rfl⟩ : ∃ m, t = m + 3 := ⟨t - 3, by omega⟩
      simp [lateStart, deref] at h5
    have hj := quoted_col lateStart hs _ _ h2.1
    have hj2 : j < 2 := hj
    interval_cases j
    · have := hA s h2
      omega
    · exact h3 (hB t ht)
  · exact zero_estimate lateStart hs rfl rfl

/-- A day missed by a quoted asset while another one is quoted is warned about. -/
example : meanWarns [gapDay] 0 false false = true := by
  refine ((C81_warned_iff [gapDay] 0 false (four_shaped _ _ _ _ rfl rfl rfl rfl)
    (four_positive _ _ _ _ (by simp))).1).2 ⟨0, 1, 0, 1, by omega, ?_, ?_, ?_⟩
  · exact ⟨⟨_, _, rfl, rfl⟩, ⟨_, _, rfl, rfl⟩⟩
  · rintro ⟨_, ⟨q, y, h1, h2⟩⟩
    obtain rfl := Option.some.inj h1
    simp at h2
  · exact ⟨⟨_, _, rfl, rfl⟩, ⟨_, _, rfl, rfl⟩⟩

/-- Silence about `lateStart` means that A is complete from its first return on. -/
example : ∃ (k : ℕ) (p : ℝ) (ps : List ℝ), ps ≠ [] ∧ (lateStart.col 0).drop k = (p :: ps).map some := by
  obtain ⟨k, p, ps, h1, h2, _⟩ := C81_silent_partial [lateStart] 0
    (four_shaped _ _ _ _ rfl rfl rfl rfl) (four_positive _ _ _ _ (by simp)) (by
      intro t ht
      have ht3 : t < 3 := by
        have : t + 1 < 4 := ht
        omega
      refine ⟨1, ?_⟩
      clear ht
      interval_cases t <;> exact ⟨⟨_, _, rfl, rfl⟩, ⟨_, _, rfl, rfl⟩⟩)
    C81_start_false.1 0 "A" rfl ⟨2, ⟨⟨_, _, rfl, rfl⟩, ⟨_, _, rfl, rfl⟩⟩⟩ 252
  exact ⟨k, p, ps, h1, h2⟩

end Verif.Returns
