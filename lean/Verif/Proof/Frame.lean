import Verif.Spec.Frame

/-! Lemmas about complete frames. -/

set_option linter.unusedSectionVars false

namespace Verif.Frames
open Verif.Py Verif.Returns

variable {ι κ : Type}

theorem full_of_complete (f : Frame ι κ) (h : f.Complete) : ∃ rows, f = full f.cols rows := by
  obtain ⟨cols, rows⟩ := f
  refine ⟨rows.map (fun r => (r.1, r.2.map (fun c => c.getD 0))), ?_⟩
  unfold full
  congr 1
  rw [List.map_map]
  have : ∀ r ∈ rows, r = (r.1, (r.2.map (fun c => c.getD 0)).map some) := by
    intro r hr
    refine Prod.ext rfl ?_
    rw [List.map_map]
    have : ∀ c ∈ r.2, c = (some ∘ fun c : Cell => c.getD 0) c := by
      intro c hc
      have := h r hr c hc
      cases c with
      | none => exact absurd rfl this
      | some x => rfl
    conv_lhs => rw [← List.map_id r.2]
    exact List.map_congr_left this
  conv_lhs => rw [← List.map_id rows]
  exact List.map_congr_left this

/-- Apply `g` to every number. -/
def mapRows (g : ℝ → ℝ) (rows : List (ι × List ℝ)) : List (ι × List ℝ) :=
  rows.map (fun r => (r.1, r.2.map g))

/-- Ratios of consecutive rows. -/
noncomputable def ratioRows : List ℝ → List (ι × List ℝ) → List (ι × List ℝ)
  | _, [] => []
  | prev, r :: rest => (r.1, List.zipWith (fun a b => b / a) prev r.2) :: ratioRows r.2 rest

theorem zipWith_pct (a b : List ℝ) (ha : ∀ x ∈ a, x ≠ 0) :
    List.zipWith pctCell (a.map some) (b.map some) =
      ((List.zipWith (fun a b => b / a) a b).map (· - 1)).map some := by
  induction a generalizing b with
  | nil => simp
  | cons x a ih =>
    cases b with
    | nil => simp
    | cons y b =>
      simp only [List.map_cons, List.zipWith_cons_cons]
      rw [ih b (fun x hx => ha x (by simp [hx]))]
      simp [pctCell, ha x (by simp)]

theorem pctRows_full (prev : List ℝ) (rows : List (ι × List ℝ)) (hp : ∀ x ∈ prev, x ≠ 0)
    (hr : ∀ r ∈ rows, ∀ x ∈ r.2, x ≠ 0) :
    pctRows (prev.map some) (rows.map (fun r => (r.1, r.2.map some))) =
      (mapRows (· - 1) (ratioRows prev rows)).map (fun r => (r.1, r.2.map some)) := by
  induction rows generalizing prev with
  | nil => rfl
  | cons r rows ih =>
    simp only [List.map_cons, pctRows, ratioRows, mapRows]
    rw [zipWith_pct _ _ hp]
    congr 1
    exact ih r.2 (hr r (by simp)) (fun r' h => hr r' (by simp [h]))

theorem ratioRows_rect {n : ℕ} {P : ℝ → Prop} (hP : ∀ a b, P a → P b → P (b / a)) (prev : List ℝ)
    (rows : List (ι × List ℝ)) (hl : prev.length = n) (hp : ∀ x ∈ prev, P x) (hr : Rect n P rows) :
    Rect n P (ratioRows prev rows) := by
  refine ⟨hr.1, ?_⟩
  replace hr := hr.2
  induction rows generalizing prev with
  | nil => intro r h; cases h
  | cons r rows ih =>
    intro r' h'
    obtain ⟨h1, h2⟩ := hr r (by simp)
    rcases List.mem_cons.1 h' with rfl | h'
    · refine ⟨by simp [hl, h1], ?_⟩
      intro x hx
      rw [List.mem_iff_getElem] at hx
      obtain ⟨i, hi, rfl⟩ := hx
      simp only [List.getElem_zipWith]
      exact hP _ _ (hp _ (List.getElem_mem _)) (h2 _ (List.getElem_mem _))
    · exact ih r.2 h1 h2 (fun r'' h => hr r'' (by simp [h])) r' h'

theorem mapCells_full (g : ℝ → Cell) (g' : ℝ → ℝ) (cols : List κ) (rows : List (ι × List ℝ))
    (h : ∀ r ∈ rows, ∀ x ∈ r.2, g x = some (g' x)) :
    (full cols rows).mapCells g = full cols (mapRows g' rows) := by
  unfold Frame.mapCells full mapRows
  congr 1
  simp only [List.map_map]
  apply List.map_congr_left
  intro r hr
  refine Prod.ext rfl ?_
  simp only [Function.comp_apply, List.map_map]
  apply List.map_congr_left
  intro x hx
  simp [h r hr x hx]

theorem dropna_full (cols : List κ) (rows : List (ι × List ℝ)) (h : ∀ r ∈ rows, r.2 ≠ []) :
    (full cols rows).dropnaAll = full cols rows := by
  unfold Frame.dropnaAll full
  congr 1
  rw [List.filter_eq_self]
  intro r hr
  obtain ⟨r', hr', rfl⟩ := List.mem_map.1 hr
  cases e : r'.2 with
  | nil => exact absurd e (h r' hr')
  | cons a l => simp

/-- Returns of a complete price frame: from the second row on, the period returns. -/
theorem returnsOf_full (log : Bool) (cols : List κ) (r0 : ι × List ℝ) (rest : List (ι × List ℝ))
    {n : ℕ} (h : Rect n (fun x => if log then 0 < x else x ≠ 0) (r0 :: rest)) :
    returnsOf log (full cols (r0 :: rest)) =
      full cols (mapRows (periodReturn log) (ratioRows r0.2 rest)) := by
  obtain ⟨hn, hr⟩ := h
  have h0 := hr r0 (by simp)
  have hrest : Rect n (fun x => if log then 0 < x else x ≠ 0) rest :=
    ⟨hn, fun r h => hr r (by simp [h])⟩
  have hq : Rect n (fun x => if log then 0 < x else x ≠ 0) (ratioRows r0.2 rest) :=
    ratioRows_rect (by
      intro a b ha hb
      cases log
      · simp only [Bool.false_eq_true, if_false] at ha hb ⊢; exact div_ne_zero hb ha
      · simp only [if_true] at ha hb ⊢; exact div_pos hb ha) _ _ h0.1 h0.2 hrest
  have hne : ∀ x : ℝ, (if log then 0 < x else x ≠ 0) → x ≠ 0 := by
    intro x hx; cases log
    · simpa using hx
    · exact (show (0:ℝ) < x by simpa using hx).ne'
  have hpct : (full cols (r0 :: rest)).pctChange =
      ⟨cols, (r0.1, r0.2.map (fun _ => none)) ::
        (full cols (mapRows (· - 1) (ratioRows r0.2 rest))).rows⟩ := by
    unfold Frame.pctChange full
    simp only [List.map_cons]
    rw [pctRows_full _ _ (fun x hx => hne x (h0.2 x hx)) (fun r h x hx => hne x ((hrest.2 r h).2 x hx)),
      List.map_map]
    rfl
  have hmapnone : ∀ (g : ℝ → Cell) (rows : List (ι × List Cell)),
      (Frame.mapCells g ⟨cols, (r0.1, r0.2.map (fun _ => none)) :: rows⟩ : Frame ι κ).dropnaAll =
        (Frame.mapCells g ⟨cols, rows⟩).dropnaAll := by
    intro g rows
    simp [Frame.mapCells, Frame.dropnaAll]
  have hnonempty : ∀ g : ℝ → ℝ, ∀ r ∈ mapRows g (ratioRows r0.2 rest), r.2 ≠ [] := by
    intro g r hr e
    obtain ⟨r', hr', rfl⟩ := List.mem_map.1 hr
    have := (hq.2 r' hr').1
    simp only [List.map_eq_nil_iff] at e
    rw [e] at this
    simp at this; omega
  have hback : (⟨cols, (full cols (mapRows (· - 1) (ratioRows r0.2 rest))).rows⟩ : Frame ι κ) =
      full cols (mapRows (· - 1) (ratioRows r0.2 rest)) := rfl
  unfold returnsOf
  rw [hpct]
  cases log
  · simp only [Bool.false_eq_true, if_false]
    have e1 : (⟨cols, (r0.1, r0.2.map (fun _ => (none : Cell))) ::
        (full cols (mapRows (· - 1) (ratioRows r0.2 rest))).rows⟩ : Frame ι κ).dropnaAll =
        (full cols (mapRows (· - 1) (ratioRows r0.2 rest))).dropnaAll := by
      simp [Frame.dropnaAll, full]
    rw [e1, dropna_full _ _ (hnonempty _)]
    rfl
  · simp only [if_true]
    rw [hmapnone, hback, mapCells_full logReturn (fun x => Real.log (1 + x)), dropna_full]
    · congr 1
      unfold mapRows
      simp only [List.map_map]
      apply List.map_congr_left
      intro r _
      simp [periodReturn, Function.comp_def]
    · intro r hr e
      obtain ⟨r', hr', rfl⟩ := List.mem_map.1 hr
      simp only [List.map_eq_nil_iff] at e
      exact hnonempty _ r' hr' e
    · intro r hr x hx
      obtain ⟨r', hr', rfl⟩ := List.mem_map.1 hr
      obtain ⟨y, hy, rfl⟩ := List.mem_map.1 hx
      have := (hq.2 r' hr').2 y hy
      simp only [if_true] at this
      unfold logReturn
      rw [if_pos (by linarith)]

theorem zipWith_cum (acc g : List ℝ) :
    List.zipWith cumCell acc (g.map some) =
      (List.zipWith (· * ·) acc g).map (fun x => (x, some x)) := by
  induction acc generalizing g with
  | nil => simp
  | cons a acc ih =>
    cases g with
    | nil => simp
    | cons x g => simp [cumCell, ih]

theorem cumRows_full_cons (acc : List ℝ) (r : ι × List ℝ) (rows : List (ι × List Cell)) :
    cumRows acc ((r.1, r.2.map some) :: rows) =
      (r.1, (List.zipWith (· * ·) acc r.2).map some) ::
        cumRows (List.zipWith (· * ·) acc r.2) rows := by
  have e : (Prod.fst ∘ fun x : ℝ => (x, some x)) = id := rfl
  simp only [cumRows, zipWith_cum, List.map_map, e, List.map_id]
  rfl

/-- Numbers behind `cumRows`. -/
noncomputable def cumReal : List ℝ → List (ι × List ℝ) → List (ι × List ℝ)
  | _, [] => []
  | acc, r :: rest =>
    (r.1, List.zipWith (· * ·) acc r.2) :: cumReal (List.zipWith (· * ·) acc r.2) rest

theorem cumRows_full (acc : List ℝ) (rows : List (ι × List ℝ)) :
    cumRows acc (rows.map (fun r => (r.1, r.2.map some))) =
      (cumReal acc rows).map (fun r => (r.1, r.2.map some)) := by
  induction rows generalizing acc with
  | nil => rfl
  | cons r rows ih => rw [List.map_cons, cumRows_full_cons, ih]; rfl

theorem zipWith_ratio_mul (acc g : List ℝ) (hl : g.length = acc.length) (ha : ∀ x ∈ acc, x ≠ 0) :
    List.zipWith (fun a b => b / a) acc (List.zipWith (· * ·) acc g) = g := by
  induction acc generalizing g with
  | nil => simp at hl; simp [hl]
  | cons a acc ih =>
    cases g with
    | nil => simp at hl
    | cons x g =>
      simp only [List.zipWith_cons_cons]
      rw [ih g (by simpa using hl) (fun x hx => ha x (by simp [hx]))]
      rw [mul_div_cancel_left₀ _ (ha a (by simp))]

theorem mem_zipWith_mul {acc g : List ℝ} {P : ℝ → Prop} (hP : ∀ a b, P a → P b → P (a * b))
    (ha : ∀ x ∈ acc, P x) (hg : ∀ x ∈ g, P x) : ∀ x ∈ List.zipWith (· * ·) acc g, P x := by
  intro x hx
  rw [List.mem_iff_getElem] at hx
  obtain ⟨i, hi, rfl⟩ := hx
  simp only [List.getElem_zipWith]
  exact hP _ _ (ha _ (List.getElem_mem _)) (hg _ (List.getElem_mem _))

/-- Ratios of a cumulative product give back the factors. -/
theorem ratio_cum {n : ℕ} {P : ℝ → Prop} (hP : ∀ a b, P a → P b → P (a * b)) (hne : ∀ a, P a → a ≠ 0)
    (acc : List ℝ) (rows : List (ι × List ℝ)) (hl : acc.length = n) (ha : ∀ x ∈ acc, P x)
    (hr : ∀ r ∈ rows, r.2.length = n ∧ ∀ x ∈ r.2, P x) :
    ratioRows acc (cumReal acc rows) = rows := by
  induction rows generalizing acc with
  | nil => rfl
  | cons r rows ih =>
    obtain ⟨h1, h2⟩ := hr r (by simp)
    simp only [cumReal, ratioRows]
    rw [zipWith_ratio_mul _ _ (by rw [h1, hl]) (fun x hx => hne x (ha x hx))]
    rw [ih _ (by simp [hl, h1]) (mem_zipWith_mul hP ha h2) (fun r' h => hr r' (by simp [h]))]

theorem cum_rect {n : ℕ} {P : ℝ → Prop} (hP : ∀ a b, P a → P b → P (a * b))
    (acc : List ℝ) (rows : List (ι × List ℝ)) (hl : acc.length = n) (ha : ∀ x ∈ acc, P x)
    (hr : ∀ r ∈ rows, r.2.length = n ∧ ∀ x ∈ r.2, P x) :
    ∀ r ∈ cumReal acc rows, r.2.length = n ∧ ∀ x ∈ r.2, P x := by
  induction rows generalizing acc with
  | nil => intro r h; cases h
  | cons r rows ih =>
    obtain ⟨h1, h2⟩ := hr r (by simp)
    intro r' h'
    simp only [cumReal] at h'
    rcases List.mem_cons.1 h' with rfl | h'
    · exact ⟨by simp [hl, h1], mem_zipWith_mul hP ha h2⟩
    · exact ih _ (by simp [hl, h1]) (mem_zipWith_mul hP ha h2) (fun r' h => hr r' (by simp [h])) r' h'

/-- Cumulative products of ratios, started at `prev / base`, give the rows divided by `base`. -/
theorem cum_ratio {n : ℕ} (prev base : List ℝ) (rows : List (ι × List ℝ)) (hl : prev.length = n)
    (hb : base.length = n) (hp : ∀ x ∈ prev, x ≠ 0)
    (hr : ∀ r ∈ rows, r.2.length = n ∧ ∀ x ∈ r.2, x ≠ 0) :
    cumReal (List.zipWith (· / ·) prev base) (ratioRows prev rows) =
      rows.map (fun r => (r.1, List.zipWith (· / ·) r.2 base)) := by
  induction rows generalizing prev with
  | nil => rfl
  | cons r rows ih =>
    obtain ⟨h1, h2⟩ := hr r (by simp)
    have e : List.zipWith (· * ·) (List.zipWith (· / ·) prev base)
        (List.zipWith (fun a b => b / a) prev r.2) = List.zipWith (· / ·) r.2 base := by
      apply List.ext_getElem
      · simp [hl, hb, h1]
      · intro i hi hi'
        simp only [List.getElem_zipWith]
        have : prev[i]'(by simp at hi'; omega) ≠ 0 := hp _ (List.getElem_mem _)
        field_simp
    simp only [ratioRows, cumReal, List.map_cons]
    rw [e]
    congr 1
    exact ih r.2 h1 h2 (fun r' h => hr r' (by simp [h]))

theorem deref_alloc (h : Heap ι κ) (f : Frame ι κ) : deref (alloc h f).1 (alloc h f).2 = f := by
  simp [deref, alloc]

theorem deref_append (h : Heap ι κ) (l : List (Frame ι κ)) (r : ℕ) (hr : r < h.length) :
    deref (h ++ l) r = deref h r := by
  unfold deref
  rw [List.getElem?_append_left hr]

end Verif.Frames
