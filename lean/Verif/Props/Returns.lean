import Verif.Proof.Frame

/-! Property theorems C29 (prices and returns) and C33 (no change to the caller's data). -/

set_option linter.unusedSectionVars false

namespace Verif.Returns
open Verif.Py Verif.Frames

variable {ι κ : Type}

theorem zipWith_ones (n : ℕ) :
    List.zipWith (· * ·) (List.replicate n (1 : ℝ)) (List.replicate n 1) = List.replicate n 1 := by
  simp

/-- The growth factor of one period. -/
noncomputable def factor (log : Bool) (x : ℝ) : ℝ := if log then Real.exp x else 1 + x

theorem growth_eq (log : Bool) (x : ℝ) : growth log x = some (factor log x) := by
  cases log <;> simp [growth, factor]

theorem periodReturn_factor (log : Bool) (x : ℝ) : periodReturn log (factor log x) = x := by
  cases log <;> simp [periodReturn, factor]

theorem factor_periodReturn (log : Bool) {q : ℝ} (h : if log then 0 < q else q ≠ 0) :
    factor log (periodReturn log q) = q := by
  cases log
  · simp [periodReturn, factor]
  · simp only [if_true] at h
    simp [periodReturn, factor, Real.exp_log h]

/-- What `prices_from_returns` produces on a complete frame. -/
theorem pricesFromReturns_full (log : Bool) (h : Heap ι κ) (ref : ℕ)
    (cols : List κ) (r0 : ι × List ℝ) (rest : List (ι × List ℝ))
    (hd : deref h ref = full cols (r0 :: rest)) (h0 : r0.2.length = cols.length) :
    ∃ h1 p, pricesFromReturns h ref log = (h1, .ok p) ∧ (∃ l, h1 = h ++ l) ∧
      deref h1 p = full cols ((r0.1, List.replicate cols.length 1) ::
        cumReal (List.replicate cols.length 1) (mapRows (factor log) rest)) := by
  have hm : (deref h ref).mapCells (growth log) = full cols (mapRows (factor log) (r0 :: rest)) := by
    rw [hd, mapCells_full (growth log) (factor log)]
    intro r _ x _; exact growth_eq log x
  have hs : (full cols (mapRows (factor log) (r0 :: rest))).setFirstRow =
      .ok (full cols ((r0.1, List.replicate cols.length 1) :: mapRows (factor log) rest)) := by
    have e : ((fun _ => some 1) ∘ some ∘ factor log : ℝ → Option ℝ) = fun _ => some 1 := rfl
    simp [Frame.setFirstRow, full, mapRows, e, h0]
  have hc : (full cols ((r0.1, List.replicate cols.length 1) :: mapRows (factor log) rest)).cumprod =
      full cols ((r0.1, List.replicate cols.length 1) ::
        cumReal (List.replicate cols.length 1) (mapRows (factor log) rest)) := by
    unfold Frame.cumprod
    have : (full cols ((r0.1, List.replicate cols.length 1) :: mapRows (factor log) rest)).rows =
        ((r0.1, List.replicate cols.length 1) :: mapRows (factor log) rest).map
          (fun r => (r.1, r.2.map some)) := rfl
    rw [this, cumRows_full]
    have hones : (full cols ((r0.1, List.replicate cols.length 1) ::
        mapRows (factor log) rest)).cols.map (fun _ => (1 : ℝ)) = List.replicate cols.length 1 := by
      simp [full, List.map_const']
    rw [hones]
    simp only [cumReal, zipWith_ones]
    rfl
  have e1 : deref (h ++ [full cols (mapRows (factor log) (r0 :: rest))]) h.length =
      full cols (mapRows (factor log) (r0 :: rest)) := deref_alloc _ _
  have e2 : deref (h ++ [full cols ((r0.1, List.replicate cols.length 1) ::
      mapRows (factor log) rest)]) h.length =
      full cols ((r0.1, List.replicate cols.length 1) :: mapRows (factor log) rest) :=
    deref_alloc _ _
  have e3 : (h ++ [full cols (mapRows (factor log) (r0 :: rest))]).set h.length
      (full cols ((r0.1, List.replicate cols.length 1) :: mapRows (factor log) rest)) =
      h ++ [full cols ((r0.1, List.replicate cols.length 1) :: mapRows (factor log) rest)] := by
    rw [List.set_append_right _ _ le_rfl]
    simp
  refine ⟨_, _, ?_, ⟨_, List.append_assoc _ [full cols ((r0.1, List.replicate cols.length 1) ::
    mapRows (factor log) rest)] _⟩, deref_alloc _ _⟩
  unfold pricesFromReturns
  rw [hm]
  simp only [alloc, e1, hs, e3, e2, hc]

theorem unchanged_append (h l : Heap ι κ) : Unchanged h (h ++ l) := by
  intro i hi
  rw [List.getElem?_append_left hi]

/-- C29, first half: the returns of the pseudo-prices are the original returns without the first
row, for any number of rows and columns; no existing frame is changed.  Simple returns of −100%
would make a later price ratio undefined. -/
theorem C29_returns_of_prices (log : Bool) (h : Heap ι κ) (ref : ℕ)
    (cols : List κ) (r0 : ι × List ℝ) (rest : List (ι × List ℝ))
    (hd : deref h ref = full cols (r0 :: rest))
    (hr : Rect cols.length (fun _ => True) (r0 :: rest))
    (hne : log = false → ∀ r ∈ rest, ∀ x ∈ r.2, 1 + x ≠ 0) :
    ∃ h1 p h2 q, pricesFromReturns h ref log = (h1, .ok p) ∧
      returnsFromPrices h1 p log = (h2, q) ∧ deref h2 q = full cols rest ∧ Unchanged h h2 := by
  obtain ⟨h1, p, he, ⟨l, hl⟩, hp⟩ := pricesFromReturns_full log h ref cols r0 rest hd
    (hr.2 r0 (by simp)).1
  refine ⟨h1, p, _, _, he, rfl, ?_, ?_⟩
  · have hP : ∀ a b : ℝ, (if log then 0 < a else a ≠ 0) → (if log then 0 < b else b ≠ 0) →
        (if log then 0 < a * b else a * b ≠ 0) := by
      intro a b ha hb
      cases log
      · simp only [Bool.false_eq_true, if_false] at *; exact mul_ne_zero ha hb
      · simp only [if_true] at *; exact mul_pos ha hb
    have h1P : (if log then (0 : ℝ) < 1 else (1 : ℝ) ≠ 0) := by cases log <;> simp
    have hones : ∀ x ∈ List.replicate cols.length (1 : ℝ), (if log then 0 < x else x ≠ 0) := by
      intro x hx; rw [List.eq_of_mem_replicate hx]; exact h1P
    have hfac : ∀ r ∈ mapRows (factor log) rest, r.2.length = cols.length ∧
        ∀ x ∈ r.2, (if log then 0 < x else x ≠ 0) := by
      intro r hr0
      obtain ⟨r', hr', rfl⟩ := List.mem_map.1 hr0
      refine ⟨by simpa using (hr.2 r' (by simp [hr'])).1, ?_⟩
      intro x hx
      obtain ⟨y, hy, rfl⟩ := List.mem_map.1 hx
      cases log
      · simpa [factor] using hne rfl r' hr' y hy
      · simp [factor, Real.exp_pos]
    have hcum := cum_rect (n := cols.length) hP (List.replicate cols.length 1)
      (mapRows (factor log) rest) (by simp) hones hfac
    change deref (alloc h1 (returnsOf log (deref h1 p))).1 (alloc h1 (returnsOf log (deref h1 p))).2 = _
    rw [deref_alloc, hp, returnsOf_full (n := cols.length)]
    · rw [ratio_cum (n := cols.length) hP (by
        intro a ha; cases log
        · simpa using ha
        · exact (show (0:ℝ) < a by simpa using ha).ne') _ _ (by simp) hones hfac]
      unfold mapRows
      rw [List.map_map]
      congr 1
      conv_rhs => rw [← List.map_id rest]
      apply List.map_congr_left
      intro r _
      refine Prod.ext rfl ?_
      simp only [Function.comp_apply, List.map_map, id]
      conv_rhs => rw [← List.map_id r.2]
      apply List.map_congr_left
      intro x _
      exact periodReturn_factor log x
    · refine ⟨hr.1, ?_⟩
      intro r hr'
      rcases List.mem_cons.1 hr' with rfl | hr'
      · exact ⟨by simp, hones⟩
      · exact hcum r hr'
  · rw [hl]
    change Unchanged h (h ++ l ++ [_])
    rw [List.append_assoc]
    exact unchanged_append h _

/-- C29, second half: the pseudo-prices of the returns of a price frame are the prices from the
second row on, divided by that second row; no existing frame is changed. -/
theorem C29_prices_of_returns (log : Bool) (h : Heap ι κ) (ref : ℕ)
    (cols : List κ) (r0 r1 : ι × List ℝ) (rest : List (ι × List ℝ))
    (hd : deref h ref = full cols (r0 :: r1 :: rest))
    (hr : Rect cols.length (fun x => if log then 0 < x else x ≠ 0) (r0 :: r1 :: rest)) :
    ∃ h1 p h2 q, returnsFromPrices h ref log = (h1, p) ∧
      pricesFromReturns h1 p log = (h2, .ok q) ∧
      deref h2 q = full cols ((r1 :: rest).map (fun r => (r.1, List.zipWith (· / ·) r.2 r1.2))) ∧
      Unchanged h h2 := by
  have hne : ∀ x : ℝ, (if log then 0 < x else x ≠ 0) → x ≠ 0 := by
    intro a ha; cases log
    · simpa using ha
    · exact (show (0:ℝ) < a by simpa using ha).ne'
  have hret := returnsOf_full log cols r0 (r1 :: rest) hr
  have h1r := hr.2 r1 (by simp)
  have hrest : Rect cols.length (fun x => if log then 0 < x else x ≠ 0) rest :=
    ⟨hr.1, fun r h => hr.2 r (by simp [h])⟩
  have hdiv : ∀ a b : ℝ, (if log then 0 < a else a ≠ 0) → (if log then 0 < b else b ≠ 0) →
      (if log then 0 < b / a else b / a ≠ 0) := by
    intro a b ha hb
    cases log
    · simp only [Bool.false_eq_true, if_false] at *; exact div_ne_zero hb ha
    · simp only [if_true] at *; exact div_pos hb ha
  set s0 : ι × List ℝ := (r1.1, (List.zipWith (fun a b => b / a) r0.2 r1.2).map (periodReturn log))
  have hd' : deref (alloc h (returnsOf log (deref h ref))).1 (alloc h (returnsOf log (deref h ref))).2 =
      full cols (s0 :: mapRows (periodReturn log) (ratioRows r1.2 rest)) := by
    rw [deref_alloc, hd, hret]
    rfl
  obtain ⟨h2, q, he, ⟨l, hl⟩, hq⟩ := pricesFromReturns_full log _ _ cols s0 _ hd'
    (by simp [s0, (hr.2 r0 (by simp)).1, h1r.1])
  refine ⟨_, _, h2, q, rfl, he, ?_, ?_⟩
  · rw [hq]
    have hfac : mapRows (factor log) (mapRows (periodReturn log) (ratioRows r1.2 rest)) =
        ratioRows r1.2 rest := by
      have hq := ratioRows_rect (ι := ι) hdiv r1.2 rest h1r.1 h1r.2 hrest
      unfold mapRows
      rw [List.map_map]
      conv_rhs => rw [← List.map_id (ratioRows r1.2 rest)]
      apply List.map_congr_left
      intro r hr'
      refine Prod.ext rfl ?_
      simp only [Function.comp_apply, List.map_map, id]
      conv_rhs => rw [← List.map_id r.2]
      apply List.map_congr_left
      intro x hx
      exact factor_periodReturn log ((hq.2 r hr').2 x hx)
    have hone : List.zipWith (· / ·) r1.2 r1.2 = List.replicate cols.length (1 : ℝ) := by
      apply List.ext_getElem
      · simp [h1r.1]
      · intro i hi hi'
        simp only [List.getElem_zipWith, List.getElem_replicate]
        exact div_self (hne _ (h1r.2 _ (List.getElem_mem _)))
    rw [hfac, ← hone, cum_ratio (n := cols.length) r1.2 r1.2 rest h1r.1 h1r.1
      (fun x hx => hne x (h1r.2 x hx)) (fun r h => ⟨(hrest.2 r h).1, fun x hx => hne x ((hrest.2 r h).2 x hx)⟩)]
    simp only [List.map_cons]
    rfl
  · rw [hl]
    change Unchanged h (h ++ [_] ++ l)
    rw [List.append_assoc]
    exact unchanged_append h _

/-- Three dates, two assets. -/
example : Rect 2 (fun x => if true then 0 < x else x ≠ 0)
    [("d0", [1, 2]), ("d1", [2, (3 : ℝ)]), ("d2", [4, 1])] := by
  refine ⟨by norm_num, ?_⟩
  intro r hr
  simp only [List.mem_cons, List.not_mem_nil, or_false] at hr
  rcases hr with rfl | rfl | rfl <;>
    · refine ⟨rfl, ?_⟩
      intro x hx
      simp only [List.mem_cons, List.not_mem_nil, or_false] at hx
      rcases hx with rfl | rfl <;> norm_num

/-! ### C33 -/

section Capm
variable [DecidableEq ι] [DecidableEq κ]

theorem capm_heap (mkt : κ) (h : Heap ι κ) (prices : ℕ) (market : Option ℕ) (rd : Bool) (rf : ℝ)
    (c : Bool) (freq : ℝ) (log : Bool) :
    (capm mkt h prices market rd rf c freq log).1 = (capmFrame mkt h prices market rd log).1 := rfl

theorem set_append_last (h : Heap ι κ) (f g : Frame ι κ) :
    (h ++ [f]).set h.length g = h ++ [g] := by
  rw [List.set_append_right _ _ le_rfl]; simp

/-- C33, partial: unless returns are passed together with a market frame, `capm_return` changes no
existing frame, whether it succeeds or raises.  Missing: that combination, for which the claim is
false (`C33_market_renamed_false`). -/
theorem C33_unchanged_partial (mkt : κ) (h : Heap ι κ) (prices : ℕ) (market : Option ℕ) (rd : Bool)
    (rf : ℝ) (c : Bool) (freq : ℝ) (log : Bool) (hcase : rd = false ∨ market = none) :
    Unchanged h (capm mkt h prices market rd rf c freq log).1 := by
  rw [capm_heap]
  have key : ∀ x : Heap ι κ, (∃ l, x = h ++ l) → Unchanged h x := by
    rintro x ⟨l, rfl⟩; exact unchanged_append h l
  apply key
  unfold capmFrame
  cases market with
  | none =>
    cases rd <;> simp only [alloc, returnsFromPrices, Bool.false_eq_true, if_true, if_false] <;>
      exact ⟨_, set_append_last _ _ _⟩
  | some m =>
    have hrd : rd = false := by simpa using hcase
    subst hrd
    simp only [alloc, returnsFromPrices, Bool.false_eq_true, if_false]
    split
    · exact ⟨_, List.append_assoc _ _ _⟩
    · have e : ∀ (a b g : Frame ι κ), ((h ++ [a]) ++ [b]).set (h ++ [a]).length g = h ++ ([a] ++ [g]) := by
        intro a b g; rw [set_append_last, List.append_assoc]
      split
      · exact ⟨_, e _ _ _⟩
      · exact ⟨_, by rw [e, List.append_assoc]⟩

/-- C33 is false when returns are passed together with market returns: the caller's market frame
is renamed in place. -/
theorem C33_market_renamed_false :
    let market : Frame ℕ String := full ["SPY"] [(0, [1/100]), (1, [2/100])]
    let assets : Frame ℕ String := full ["A"] [(0, [1/100]), (1, [3/100])]
    let h := [assets, market]
    (∃ est, (capm "mkt" h 0 (some 1) true 0 false 252 false).2 = .ok est) ∧
    deref h 1 = market ∧
    (deref (capm "mkt" h 0 (some 1) true 0 false 252 false).1 1).cols = ["mkt"] := by
  refine ⟨⟨_, rfl⟩, rfl, rfl⟩

end Capm

end Verif.Returns
