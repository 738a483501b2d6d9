import Verif.Props.Discrete
import Mathlib.Tactic.IntervalCases

/-! Property theorems C06–C08 (integer-programming allocation, validation). -/

set_option linter.unusedSectionVars false

namespace Verif.Discrete
open Verif.Py

variable {κ : Type} [DecidableEq κ]
variable {K : Type} [Field K] [LinearOrder K] [IsStrictOrderedRing K] [FloorRing K]

/-- What the user wants minimised: total absolute deviation from the target amounts plus the unspent
cash, for share counts `f`. -/
def deviation (weights prices : List (κ × K)) (total : K) (f : κ → ℤ) : K :=
  (weights.map (fun x => |x.2 * total - (f x.1 : K) * priceOf prices x.1|)).sum +
    (total - (weights.map (fun x => priceOf prices x.1 * (f x.1 : K))).sum)

/-- Every answer of the solver is an optimum. -/
def Sound (solver : LpSolver K) : Prop := ∀ q x, solver q = some x → LpOptimal q x

/-- The solver answers whenever an optimum exists. -/
def Complete (solver : LpSolver K) : Prop := ∀ q, (∃ x, LpOptimal q x) → ∃ x, solver q = some x

/-- Non-vacuity: sound and complete solvers exist. -/
theorem exists_solver : ∃ solver : LpSolver K, Sound solver ∧ Complete solver := by
  classical
  refine ⟨fun q => if h : ∃ x, LpOptimal q x then some h.choose else none, ?_, ?_⟩
  · intro q x hx
    by_cases h : ∃ x, LpOptimal q x
    · simp only [dif_pos h, Option.some.injEq] at hx
      rw [← hx]; exact h.choose_spec
    · simp [dif_neg h] at hx
  · intro q h
    exact ⟨h.choose, by simp [dif_pos h]⟩

theorem rint_int (n : ℤ) : rint ((n : ℤ) : K) = n := by
  unfold rint
  simp [Int.floor_intCast]

theorem sum_le_of_getD (n : ℕ) (a b : List K) (ha : a.length = n) (hb : b.length = n)
    (h : ∀ i < n, a.getD i 0 ≤ b.getD i 0) : a.sum ≤ b.sum := by
  induction n generalizing a b with
  | zero =>
    rw [List.length_eq_zero_iff] at ha hb; simp [ha, hb]
  | succ n ih =>
    cases a with
    | nil => simp at ha
    | cons x a =>
      cases b with
      | nil => simp at hb
      | cons y b =>
        have h0 := h 0 (by omega)
        have := ih a b (by simpa using ha) (by simpa using hb)
          (fun i hi => by simpa using h (i + 1) (by omega))
        simp only [List.getD_cons_zero] at h0
        simp only [List.sum_cons]; linarith

theorem priceOf_self (prices : List (κ × K)) (hn : (prices.map Prod.fst).Nodup) :
    prices.map Prod.snd = (prices.map Prod.fst).map (priceOf prices) := by
  rw [List.map_map]
  apply List.map_congr_left
  intro x hx
  rw [Function.comp_apply, priceOf_eq, pr, Dict.get?_of_mem prices hn (show (x.1, x.2) ∈ prices from hx)]
  rfl

theorem cost_eq (ws prices : List (κ × K)) (f : κ → ℤ) :
    (List.zipWith (· * ·) ((ws.map Prod.fst).map (priceOf prices))
      ((ws.map Prod.fst).map (fun t => (f t : K)))).sum =
      (ws.map (fun x => priceOf prices x.1 * (f x.1 : K))).sum := by
  induction ws with
  | nil => simp
  | cons x ws ih => simp

/-- The aligned long-only case: what an optimal solver answer yields. -/
theorem lpLong_optimal (solver : LpSolver K) (hsol : Sound solver)
    (ws prices : List (κ × K)) (total : K) (hn : (ws.map Prod.fst).Nodup)
    (hal : prices.map Prod.fst = ws.map Prod.fst) {al : Dict κ ℤ} {left : K}
    (h : lpLong solver ws prices total = .ok (al, left)) :
    (∀ t, 0 ≤ held al t) ∧ 0 ≤ left ∧
    left = total - valueIn prices (ws.map Prod.fst) al ∧
    (al.map Prod.fst).Nodup ∧
    (∀ t, t ∈ al.map Prod.fst ↔ t ∈ ws.map Prod.fst ∧ held al t ≠ 0) ∧
    (∀ f : κ → ℤ, (∀ x ∈ ws, 0 ≤ f x.1) →
      (ws.map (fun x => priceOf prices x.1 * (f x.1 : K))).sum ≤ total →
      deviation ws prices total (held al) ≤ deviation ws prices total f) := by
  have hp : prices.map Prod.snd = (ws.map Prod.fst).map (priceOf prices) := by
    rw [priceOf_self prices (by rw [hal]; exact hn), hal]
  unfold lpLong at h
  dsimp only at h
  rw [if_neg (by simp [hp])] at h
  cases hx : solver { w := ws.map Prod.snd, p := prices.map Prod.snd, total := total } with
  | none => rw [hx] at h; cases h
  | some x =>
    rw [hx] at h
    simp only [Except.ok.injEq, Prod.mk.injEq] at h
    obtain ⟨h1, h2⟩ := h
    obtain ⟨u, ⟨hxl, hul, hint, hup, hlo, hx0, hr⟩, hopt⟩ := hsol _ _ hx
    simp only at hxl hul hint hup hlo hr
    rw [hp] at h2 hr
    have hlenp : (prices.map Prod.snd).length = ws.length := by rw [hp]; simp
    rw [hlenp] at hxl hul hup hlo
    set ms := x.map rint with hms
    have hxms : x = ms.map (fun n : ℤ => (n : K)) := by
      rw [hms, List.map_map]
      conv_lhs => rw [← List.map_id x]
      apply List.map_congr_left
      intro y hy
      obtain ⟨n, rfl⟩ := hint y hy
      simp [rint_int]
    have lts : ms.length = (ws.map Prod.fst).length := by simp [hms, hxl]
    have hkeys : Dict.keys (List.zip (ws.map Prod.fst) ms) = ws.map Prod.fst := zip_keys _ _ lts
    have hkn : (Dict.keys (List.zip (ws.map Prod.fst) ms)).Nodup := by rw [hkeys]; exact hn
    rw [Dict.ofPairs_eq _ hkn] at h1
    have hheld : ∀ t, held al t = held (List.zip (ws.map Prod.fst) ms) t := by
      intro t; rw [← h1, held_removeZero _ hkn]
    have hmsm : ms = (ws.map Prod.fst).map (held al) := by
      rw [funext hheld]; exact eq_map_held _ _ hn lts
    have hxm : x = (ws.map Prod.fst).map (fun t => (held al t : K)) := by
      rw [hxms, hmsm, List.map_map]; rfl
    have hcost : (List.zipWith (· * ·) ((ws.map Prod.fst).map (priceOf prices)) x).sum =
        (ws.map (fun z => priceOf prices z.1 * (held al z.1 : K))).sum := by
      rw [hxm]; exact cost_eq ws prices (held al)
    have hval : valueIn prices (ws.map Prod.fst) al =
        (ws.map (fun z => priceOf prices z.1 * (held al z.1 : K))).sum := by
      simp [valueIn, Function.comp_def]
    have hgx : ∀ i (hi : i < ws.length), x.getD i 0 = (held al ws[i].1 : K) := by
      intro i hi; rw [hxm]; simp [List.getD_eq_getElem?_getD, hi]
    have hgw : ∀ i (hi : i < ws.length), (ws.map Prod.snd).getD i 0 = ws[i].2 := by
      intro i hi; simp [List.getD_eq_getElem?_getD, hi]
    have hgp : ∀ i (hi : i < ws.length),
        (prices.map Prod.snd).getD i 0 = priceOf prices ws[i].1 := by
      intro i hi; rw [hp]; simp [List.getD_eq_getElem?_getD, hi]
    refine ⟨?_, ?_, ?_, ?_, ?_, ?_⟩
    · intro t
      by_cases ht : t ∈ ws.map Prod.fst
      · have : (held al t : K) ∈ x := by
          rw [hxm]; exact List.mem_map.2 ⟨t, ht, rfl⟩
        have := hx0 _ this
        exact_mod_cast this
      · rw [hheld, held_of_notMem]
        have := hkeys ▸ ht
        exact this
    · rw [← h2]; exact hr
    · rw [← h2, hcost, hval]
    · rw [← h1]; exact keys_removeZero_nodup _ hkn
    · intro t
      constructor
      · intro hm
        obtain ⟨z, hz, rfl⟩ := List.mem_map.1 hm
        have hz' := hz
        rw [← h1, mem_removeZero] at hz'
        have hk : z.1 ∈ Dict.keys (List.zip (ws.map Prod.fst) ms) :=
          List.mem_map.2 ⟨z, hz'.1, rfl⟩
        refine ⟨by rw [hkeys] at hk; exact hk, ?_⟩
        rw [hheld, held_eq, Dict.get?_of_mem _ hkn (show (z.1, z.2) ∈ _ from hz'.1)]
        exact hz'.2
      · rintro ⟨_, h0⟩
        by_contra hc
        exact h0 (held_of_notMem al t hc)
    · intro f hf0 hfc
      -- competitor
      set x' := (ws.map Prod.fst).map (fun t => (f t : K)) with hx'
      set u' := ws.map (fun z => |z.2 * total - (f z.1 : K) * priceOf prices z.1|) with hu'
      have hgx' : ∀ i (hi : i < ws.length), x'.getD i 0 = (f ws[i].1 : K) := by
        intro i hi; simp [hx', List.getD_eq_getElem?_getD, hi]
      have hgu' : ∀ i (hi : i < ws.length), u'.getD i 0 =
          |ws[i].2 * total - (f ws[i].1 : K) * priceOf prices ws[i].1| := by
        intro i hi; simp [hu', List.getD_eq_getElem?_getD, hi]
      have hcost' : (List.zipWith (· * ·) (prices.map Prod.snd) x').sum =
        (ws.map (fun z => priceOf prices z.1 * (f z.1 : K))).sum := by
        rw [hp]; exact cost_eq ws prices f
      have hfeas : LpFeasible { w := ws.map Prod.snd, p := prices.map Prod.snd, total := total }
          x' u' := by
        refine ⟨by simp [hx', hlenp], by simp [hu', hlenp], ?_, ?_, ?_, ?_, ?_⟩
        · intro y hy
          obtain ⟨t, -, rfl⟩ := List.mem_map.1 hy
          exact ⟨f t, rfl⟩
        · intro i hi
          simp only [hlenp] at hi
          simp only
          rw [hgx' i hi, hgu' i hi, hgw i hi, hgp i hi]
          exact le_abs_self _
        · intro i hi
          simp only [hlenp] at hi
          simp only
          rw [hgx' i hi, hgu' i hi, hgw i hi, hgp i hi]
          exact neg_abs_le _
        · intro y hy
          obtain ⟨t, ht, rfl⟩ := List.mem_map.1 hy
          obtain ⟨z, hz, rfl⟩ := List.mem_map.1 ht
          exact_mod_cast hf0 z hz
        · simp only
          rw [hcost']; linarith
      have ho := hopt x' u' hfeas
      simp only [lpObjective] at ho
      rw [hcost', hp, hcost] at ho
      have hsu : (ws.map (fun z => |z.2 * total - (held al z.1 : K) * priceOf prices z.1|)).sum
          ≤ u.sum := by
        apply sum_le_of_getD ws.length _ _ (by simp) hul
        intro i hi
        have a := hup i hi
        have b := hlo i hi
        rw [hgx i hi, hgw i hi, hgp i hi] at a b
        simp only [List.getD_eq_getElem?_getD, List.getElem?_map, hi, List.getElem?_eq_getElem,
          Option.map_some, Option.getD_some] at a b ⊢
        rw [abs_le]
        exact ⟨by linarith, a⟩
      unfold deviation
      rw [← hu']
      linarith

/-- C06.  Long-only portfolio whose price series lists the same tickers in the same order: any
optimal solver answer gives non-negative whole shares, leftover = exactly the unspent cash `≥ 0`,
and no other affordable whole-share portfolio has a smaller total deviation. -/
theorem C06_lp_optimal (solver : LpSolver K) (hsol : Sound solver)
    (d : DA κ K) (hn : (d.weights.map Prod.fst).Nodup) (hnn : ∀ x ∈ d.weights, 0 ≤ x.2)
    (hal : d.prices.map Prod.fst = d.weights.map Prod.fst) (reinvest : Bool)
    {d' : DA κ K} {al : Dict κ ℤ} {left : K}
    (h : lp solver reinvest d = (d', .ok (al, left))) :
    (∀ t, 0 ≤ held al t) ∧ 0 ≤ left ∧
    left + valueIn d.prices (d.weights.map Prod.fst) al = d.total ∧
    (al.map Prod.fst).Nodup ∧
    (∀ t, t ∈ al.map Prod.fst ↔ t ∈ d.weights.map Prod.fst ∧ held al t ≠ 0) ∧
    (∀ f : κ → ℤ, (∀ x ∈ d.weights, 0 ≤ f x.1) →
      (d.weights.map (fun x => priceOf d.prices x.1 * (f x.1 : K))).sum ≤ d.total →
      deviation d.weights d.prices d.total (held al) ≤ deviation d.weights d.prices d.total f) := by
  have hany : d.weights.any (fun x => x.2 < 0) = false := by
    rw [List.any_eq_false]
    intro x hx; simpa using hnn x hx
  unfold lp at h
  simp only [hany] at h
  cases hr : lpLong solver d.weights d.prices d.total with
  | error e => simp [hr] at h
  | ok r =>
    obtain ⟨al', left'⟩ := r
    simp only [hr, Bool.false_eq_true, if_false, Prod.mk.injEq, Except.ok.injEq] at h
    obtain ⟨-, rfl, rfl⟩ := h
    obtain ⟨a, b, c, e, f, g⟩ := lpLong_optimal solver hsol _ _ _ hn hal hr
    exact ⟨a, b, by rw [c]; ring, e, f, g⟩

/-! ### C07 -/

/-- Tickers A = 0 (weight 1, price 7) and B = 1 (weight 0, price 1); the price series is listed in
the other order. -/
def swapped : DA ℕ ℚ where
  weights := [(0, 1), (1, 0)]
  prices := [(1, 1), (0, 7)]
  total := 7
  shortRatio := 0

/-- The same data with the price series in the order of the weights. -/
def swappedHist : DA ℕ ℚ where
  weights := [(1, 0), (0, 1)]
  prices := [(1, 1), (0, 7)]
  total := 7
  shortRatio := 0

theorem swapped_feasible :
    LpFeasible { w := [1, 0], p := [1, 7], total := (7 : ℚ) } [7, 0] [0, 0] := by
  refine ⟨rfl, rfl, ?_, ?_, ?_, ?_, ?_⟩
  · intro y hy
    simp at hy
    rcases hy with rfl | rfl
    · exact ⟨7, by norm_num⟩
    · exact ⟨0, by norm_num⟩
  · intro i hi; simp at hi; interval_cases i <;> simp
  · intro i hi; simp at hi; interval_cases i <;> simp
  · intro y hy; simp at hy; rcases hy with rfl | rfl <;> norm_num
  · simp

theorem swapped_optimal : LpOptimal { w := [1, 0], p := [1, 7], total := (7 : ℚ) } [7, 0] := by
  refine ⟨[0, 0], swapped_feasible, ?_⟩
  rintro x u ⟨hxl, hul, hint, hup, hlo, hx0, hr⟩
  match x, u, hxl, hul with
  | [a, b], [c, e], _, _ =>
    have h0 := hup 0 (by simp); have h1 := hup 1 (by simp)
    have l0 := hlo 0 (by simp); have l1 := hlo 1 (by simp)
    simp [lpObjective] at h0 h1 l0 l1 hr ⊢
    linarith

theorem swapped_solution (x : List ℚ)
    (h : LpOptimal { w := [1, 0], p := [1, 7], total := (7 : ℚ) } x) : x = [7, 0] := by
  obtain ⟨u, ⟨hxl, hul, hint, hup, hlo, hx0, hr⟩, hopt⟩ := h
  match x, u, hxl, hul with
  | [a, b], [c, e], _, _ =>
    have ho := hopt _ _ swapped_feasible
    have h0 := hup 0 (by simp); have h1 := hup 1 (by simp)
    have l0 := hlo 0 (by simp); have l1 := hlo 1 (by simp)
    have p1 := hx0 a (by simp); have p2 := hx0 b (by simp)
    simp [lpObjective] at h0 h1 l0 l1 hr ho
    have hb : b = 0 := by linarith
    have ha : a = 7 := by linarith
    rw [ha, hb]

/-- C07 is false of the code, part 1: with the price series in another order than the weights,
*every* optimal solver makes `lp_portfolio` buy 7 shares of the 7-dollar asset with 7 dollars. -/
theorem C07_price_order_false (solver : LpSolver ℚ)
    (hsol : Sound solver) (hans : Complete solver) :
    ∃ d' al left, lp solver false swapped = (d', .ok (al, left)) ∧ left = 0 ∧ held al 0 = 7 ∧
      valueIn swapped.prices [0, 1] al = 49 ∧ swapped.total = 7 := by
  obtain ⟨x, hx⟩ := hans { w := [1, 0], p := [1, 7], total := (7 : ℚ) } ⟨_, swapped_optimal⟩
  have hx7 := swapped_solution x (hsol _ _ hx)
  subst hx7
  have e : lpLong solver swapped.weights swapped.prices swapped.total = .ok ([(0, 7)], 0) := by
    unfold lpLong
    simp only [swapped, List.map_cons, List.map_nil, hx]
    decide +kernel
  refine ⟨{ swapped with allocation := [(0, 7)] }, [(0, 7)], 0, ?_, rfl, by decide, ?_, rfl⟩
  · unfold lp
    have hany : swapped.weights.any (fun x => x.2 < 0) = false := by decide +kernel
    simp only [hany, Bool.false_eq_true, if_false, e]
  · decide +kernel

/-- C07 is false of the code, part 2 (history): with aligned data, calling `greedy_portfolio` first
(which sorts the weights in place) makes the following `lp_portfolio` overspend in the same way. -/
theorem C07_history_false (solver : LpSolver ℚ)
    (hsol : Sound solver) (hans : Complete solver) :
    swappedHist.prices.map Prod.fst = swappedHist.weights.map Prod.fst ∧
    ∃ d' al left, lp solver false (greedy 5 false swappedHist).1 = (d', .ok (al, left)) ∧
      left = 0 ∧ held al 0 = 7 ∧ valueIn swappedHist.prices [0, 1] al = 49 := by
  refine ⟨by decide, ?_⟩
  obtain ⟨x, hx⟩ := hans { w := [1, 0], p := [1, 7], total := (7 : ℚ) } ⟨_, swapped_optimal⟩
  have hx7 := swapped_solution x (hsol _ _ hx)
  subst hx7
  have hg : (greedy 5 false swappedHist).1.weights = [(0, 1), (1, 0)] ∧
      (greedy 5 false swappedHist).1.prices = [(1, 1), (0, 7)] ∧
      (greedy 5 false swappedHist).1.total = 7 := by decide +kernel
  set g := (greedy 5 false swappedHist).1 with hgdef
  have e : lpLong solver g.weights g.prices g.total = .ok ([(0, 7)], 0) := by
    unfold lpLong
    simp only [hg.1, hg.2.1, hg.2.2, List.map_cons, List.map_nil, hx]
    decide +kernel
  refine ⟨{ g with allocation := [(0, 7)] }, [(0, 7)], 0, ?_, rfl, by decide, ?_⟩
  · unfold lp
    have hany : g.weights.any (fun x => x.2 < 0) = false := by rw [hg.1]; decide +kernel
    simp only [hany, Bool.false_eq_true, if_false, e]
  · decide +kernel

theorem get?_perm {ν : Type} {a b : Dict κ ν} (h : a.Perm b) (hn : (a.map Prod.fst).Nodup) (t : κ) :
    Dict.get? a t = Dict.get? b t := by
  have hn' : (Dict.keys b).Nodup := (h.map Prod.fst).nodup_iff.1 hn
  cases hb : Dict.get? b t with
  | none =>
    rw [Dict.get?_eq_none_iff] at hb ⊢
    intro hm; exact hb ((h.map Prod.fst).mem_iff.1 hm)
  | some v => exact Dict.get?_of_mem a hn (h.mem_iff.2 (Dict.mem_of_get? b hb))

theorem subPrices_perm (a b : List (κ × K)) (h : a.Perm b) (hn : (a.map Prod.fst).Nodup)
    (ks : List κ) : subPrices a ks = subPrices b ks := by
  unfold subPrices
  congr 1
  funext k
  unfold lookup
  rw [get?_perm h hn k]

/-- C07, partial: with at least one short position the result of `lp_portfolio` does not depend on
the order of the price series.  Missing: long-only portfolios with a price order different from the
weights' order, and calls after `greedy_portfolio`, where the claim is false
(`C07_price_order_false`, `C07_history_false`); the aligned long-only case is `C06_lp_optimal`. -/
theorem C07_order_independent_shorts_partial (solver : LpSolver K) (reinvest : Bool) (d : DA κ K)
    (prices' : List (κ × K)) (hp : d.prices.Perm prices') (hn : (d.prices.map Prod.fst).Nodup)
    (hs : ∃ x ∈ d.weights, x.2 < 0) :
    (lp solver reinvest { d with prices := prices' }).2 = (lp solver reinvest d).2 := by
  have hany : d.weights.any (fun x => x.2 < 0) = true := by
    rw [List.any_eq_true]
    obtain ⟨x, hx, h0⟩ := hs
    exact ⟨x, hx, by simpa using h0⟩
  have hsub : ∀ ws v, subLp solver ws prices' v = subLp solver ws d.prices v := by
    intro ws v; unfold subLp; rw [subPrices_perm _ _ hp hn]
  unfold lp
  simp only [hany, if_true, hsub]
  split <;> rfl

theorem firstRound_perm (a b : List (κ × K)) (h : a.Perm b) (hn : (a.map Prod.fst).Nodup) (total : K)
    (ws : List (κ × K)) (funds : K) : firstRound a total ws funds = firstRound b total ws funds := by
  induction ws generalizing funds with
  | nil => rfl
  | cons x ws ih =>
    obtain ⟨t, w⟩ := x
    unfold firstRound lookup
    rw [get?_perm h hn t]
    simp only [ih]

/-- C07, partial (companion for the greedy method): `greedy_portfolio` never depends on the order of
the price series, for long-only and long/short portfolios alike. -/
theorem C07_greedy_order_independent_partial (fuel : ℕ) (reinvest : Bool) (d : DA κ K)
    (prices' : List (κ × K)) (hp : d.prices.Perm prices') (hn : (d.prices.map Prod.fst).Nodup) :
    (greedy fuel reinvest { d with prices := prices' }).2 = (greedy fuel reinvest d).2 := by
  have h1 : ∀ ws v, greedyLong fuel ws prices' v = greedyLong fuel ws d.prices v := by
    intro ws v; unfold greedyLong; simp only [firstRound_perm _ _ hp hn]
  have h2 : ∀ ws v, subGreedy fuel ws prices' v = subGreedy fuel ws d.prices v := by
    intro ws v; unfold subGreedy; rw [subPrices_perm _ _ hp hn]
  unfold greedy
  simp only [h1, h2]
  split
  · rfl
  · split
    · split <;> rfl
    · split <;> rfl

/-! ### C08 -/

/-- C08, partial: the constructor accepts exactly the documented inputs, stores them unchanged, and
raises the documented exception otherwise.  Missing: "every accepted long/short input can be
allocated", which is false (`C08_zero_short_ratio_false`). -/
theorem C08_validation_partial (a : RawArgs κ K) :
    ((∃ d, init a = .ok d) ↔ a.weightsIsDict = true ∧ (∀ x ∈ a.weights, x.2 ≠ none) ∧
      a.pricesIsSeries = true ∧ (∀ x ∈ a.prices, x.2 ≠ none) ∧ 0 < a.total ∧
      (∀ s, a.shortRatio = some s → 0 ≤ s)) ∧
    (a.weightsIsDict = false → init a = .error .typeError) ∧
    (a.weightsIsDict = true → (∃ x ∈ a.weights, x.2 = none) → init a = .error .valueError) ∧
    (a.weightsIsDict = true → (∀ x ∈ a.weights, x.2 ≠ none) →
      (a.pricesIsSeries = false ∨ ∃ x ∈ a.prices, x.2 = none) → init a = .error .typeError) ∧
    (∀ e, init a = .error e → e = .typeError ∨ e = .valueError) := by
  have hw : a.weights.any (fun x => x.2.isNone) = true ↔ ∃ x ∈ a.weights, x.2 = none := by
    simp [List.any_eq_true]
  have hp : a.prices.any (fun x => x.2.isNone) = true ↔ ∃ x ∈ a.prices, x.2 = none := by
    simp [List.any_eq_true]
  have hsr : badShortRatio a.shortRatio = true ↔ ∃ s, a.shortRatio = some s ∧ s < 0 := by
    cases a.shortRatio <;> simp [badShortRatio]
  unfold init
  by_cases h1 : a.weightsIsDict = true
  · by_cases h2 : ∃ x ∈ a.weights, x.2 = none
    · have h2' := hw.2 h2
      have h2'' : ¬ ∀ x ∈ a.weights, x.2 ≠ none := by push Not; exact h2
      simp only [h1, h2']
      refine ⟨?_, by simp, by simp, fun _ h => absurd h h2'', by simp⟩
      simp only [Bool.not_true, Bool.false_eq_true, if_false, if_true]
      constructor
      · rintro ⟨d, hd⟩; cases hd
      · rintro ⟨-, h, -⟩; exact absurd h h2''
    · have h2' : a.weights.any (fun x => x.2.isNone) = false := by
        rw [← Bool.not_eq_true, hw]; exact h2
      have h2'' : ∀ x ∈ a.weights, x.2 ≠ none := by push Not at h2; exact h2
      by_cases h3 : a.pricesIsSeries = false ∨ ∃ x ∈ a.prices, x.2 = none
      · have h3' : (!a.pricesIsSeries || a.prices.any (fun x => x.2.isNone)) = true := by
          rcases h3 with h | h
          · simp [h]
          · simp [hp.2 h]
        simp only [h1, h2', h3']
        refine ⟨?_, by simp, fun _ h => absurd h h2, by simp, by simp⟩
        simp only [Bool.not_true, Bool.false_eq_true, if_false, if_true]
        constructor
        · rintro ⟨d, hd⟩; cases hd
        · rintro ⟨-, -, hs, hq, -⟩
          rcases h3 with h | ⟨x, hx, h⟩
          · rw [h] at hs; cases hs
          · exact absurd h (hq x hx)
      · push Not at h3
        have h3s : a.pricesIsSeries = true := by simpa using h3.1
        have h3' : (!a.pricesIsSeries || a.prices.any (fun x => x.2.isNone)) = false := by
          have : a.prices.any (fun x => x.2.isNone) = false := by
            rw [← Bool.not_eq_true, hp]; push Not; exact h3.2
          simp [h3s, this]
        have h4 : ¬ (a.pricesIsSeries = false ∨ ∃ x ∈ a.prices, x.2 = none) := by
          push Not; exact h3
        simp only [h1, h2', h3', Bool.not_true, Bool.false_eq_true, if_false]
        refine ⟨?_, by simp, fun _ h => absurd h h2, fun _ _ h => absurd h h4, ?_⟩
        · by_cases ht : a.total ≤ 0
          · rw [if_pos ht]
            constructor
            · rintro ⟨d, hd⟩; cases hd
            · rintro ⟨-, -, -, -, h, -⟩; exact absurd h (not_lt.2 ht)
          · rw [if_neg ht]
            by_cases hs : ∃ s, a.shortRatio = some s ∧ s < 0
            · rw [if_pos (hsr.2 hs)]
              constructor
              · rintro ⟨d, hd⟩; cases hd
              · rintro ⟨-, -, -, -, -, h⟩
                obtain ⟨s, e, h0⟩ := hs
                exact absurd (h s e) (not_le.2 h0)
            · rw [if_neg (fun h => hs (hsr.1 h))]
              refine ⟨fun _ => ⟨trivial, h2'', h3s, h3.2, not_le.1 ht, ?_⟩, fun _ => ⟨_, rfl⟩⟩
              intro s e
              by_contra hc
              exact hs ⟨s, e, not_le.1 hc⟩
        · intro e
          split
          · rintro ⟨⟩; simp
          · split
            · rintro ⟨⟩; simp
            · intro h; cases h
  · have h1' : a.weightsIsDict = false := by simpa using h1
    simp [h1']

/-- C08, what an accepted call stores: the weights and prices as given (same tickers, same order),
the total, and the short ratio; when the ratio is left out, it is the total size of the short
positions, which is never negative.  The allocation starts empty. -/
theorem C08_stored (a : RawArgs κ K) {d : DA κ K} (h : init a = .ok d) :
    d.weights.map (fun x => (x.1, some x.2)) = a.weights ∧
    d.prices.map (fun x => (x.1, some x.2)) = a.prices ∧
    d.total = a.total ∧ d.allocation = [] ∧ 0 ≤ d.shortRatio ∧
    (∀ s, a.shortRatio = some s → d.shortRatio = s) ∧
    (a.shortRatio = none →
      d.shortRatio = (d.weights.map (fun x => |x.2| - max x.2 0)).sum) := by
  have hd : ∀ l : List (κ × Option K), (∀ x ∈ l, x.2 ≠ none) →
      (dropNan l).map (fun x => (x.1, some x.2)) = l := by
    intro l
    induction l with
    | nil => intro _; rfl
    | cons x l ih =>
      intro hl
      obtain ⟨t, v⟩ := x
      have h0 := hl (t, v) (by simp)
      cases v with
      | none => exact absurd rfl h0
      | some v =>
        have := ih (fun y hy => hl y (by simp [hy]))
        simpa [dropNan] using this
  have hs : ∀ ws : List (κ × K),
      defaultShortRatio ws = (ws.map (fun x => |x.2| - max x.2 0)).sum := by
    intro ws
    induction ws with
    | nil => rfl
    | cons x ws ih =>
      unfold defaultShortRatio at ih ⊢
      rw [List.map_cons, List.sum_cons, ← ih]
      by_cases hx : x.2 < 0
      · rw [List.filter_cons_of_pos (by simpa using hx), List.map_cons, List.sum_cons,
          abs_of_neg hx, max_eq_right hx.le, sub_zero]
      · rw [List.filter_cons_of_neg (by simpa using hx), abs_of_nonneg (not_lt.1 hx),
          max_eq_left (not_lt.1 hx), sub_self, zero_add]
  have hs0 : ∀ ws : List (κ × K), 0 ≤ defaultShortRatio ws := by
    intro ws
    unfold defaultShortRatio
    apply List.sum_nonneg
    intro y hy
    obtain ⟨x, hx, rfl⟩ := List.mem_map.1 hy
    have := (List.mem_filter.1 hx).2
    have : x.2 < 0 := by simpa using this
    linarith
  obtain ⟨-, hw, -, hp, -, hr⟩ := (C08_validation_partial a).1.1 ⟨d, h⟩
  unfold init at h
  split at h; · cases h
  split at h; · cases h
  split at h; · cases h
  split at h; · cases h
  split at h; · cases h
  cases h
  refine ⟨hd _ hw, hd _ hp, rfl, rfl, ?_, ?_, ?_⟩
  · cases e : a.shortRatio with
    | none => simpa [e] using hs0 _
    | some s => simpa [e] using hr s e
  · intro s e; simp [e]
  · intro e; simpa [e] using hs _

/-- An accepted long/short portfolio with short ratio zero. -/
def zeroShort : RawArgs ℕ ℚ where
  weightsIsDict := true
  weights := [(0, some (13/10)), (1, some (-3/10))]
  pricesIsSeries := true
  prices := [(0, some 10), (1, some 5)]
  total := 1000
  shortRatio := some 0

/-- C08's last clause is false of the code: `short_ratio=0` is accepted by the constructor, but both
allocation methods then raise ValueError (the short sub-portfolio has value 0), whatever the solver
answers for the long part. -/
theorem C08_zero_short_ratio_false :
    ∃ d, init zeroShort = .ok d ∧ (∀ fuel r, (greedy fuel r d).2 = .error .valueError) ∧
      ∀ (solver : LpSolver ℚ) r, (∃ x, solver { w := [1], p := [10], total := 1000 } = some x) →
        (lp solver r d).2 = .error .valueError := by
  refine ⟨_, rfl, ?_, ?_⟩
  · intro fuel r
    have hs : sortDesc (dropNan zeroShort.weights) = [(0, 13/10), (1, -3/10)] := by decide +kernel
    have hL : normalise (longsOf [((0 : ℕ), (13/10 : ℚ)), (1, -3/10)]) = .ok [(0, 1)] := by
      decide +kernel
    have hS : normalise (shortsOf [((0 : ℕ), (13/10 : ℚ)), (1, -3/10)]) = .ok [(1, 1)] := by
      decide +kernel
    have hg' : subGreedy fuel [((0 : ℕ), (1 : ℚ))] (dropNan zeroShort.prices) 1000 =
        .ok (some ([(0, 100)], 0)) := by
      have h1 : subPrices (dropNan zeroShort.prices) [0] = .ok [(0, 10)] := by decide +kernel
      have h2 : firstRound [((0 : ℕ), (10 : ℚ))] 1000 [(0, 1)] 1000 = .ok (0, [100], [10]) := by
        decide +kernel
      have h3 : sortDesc [((0 : ℕ), (1 : ℚ))] = [(0, 1)] := by decide +kernel
      unfold subGreedy greedyLong
      simp only [List.map_cons, List.map_nil, h1, bind, Except.bind, h3, h2]
      rw [if_neg (by norm_num), if_neg (by simp)]
      unfold secondRound
      rw [if_neg (by norm_num)]
      decide +kernel
    have hss : subGreedy fuel [((1 : ℕ), (1 : ℚ))] (dropNan zeroShort.prices) 0 =
        .error .valueError := by
      have h1 : subPrices (dropNan zeroShort.prices) [1] = .ok [(1, 5)] := by decide +kernel
      unfold subGreedy
      simp only [List.map_cons, List.map_nil, h1, bind, Except.bind]
      rw [if_pos le_rfl]
    have hl : [((0 : ℕ), (13/10 : ℚ)), (1, -3/10)].getLast? = some (1, -3/10) := rfl
    unfold greedy
    simp only [hs, hl]
    rw [if_pos (by norm_num)]
    have z1 : Option.getD zeroShort.shortRatio
        (defaultShortRatio (dropNan zeroShort.weights)) = 0 := by decide +kernel
    have z2 : zeroShort.total = 1000 := rfl
    simp only [hL, hS, bind, Except.bind, z1, z2, mul_zero, add_zero, ite_self, hg', hss]
  · intro solver r hans
    have hany : (dropNan zeroShort.weights).any (fun x => x.2 < 0) = true := by decide +kernel
    have hL : normalise (longsOf (dropNan zeroShort.weights)) = .ok [(0, 1)] := by decide +kernel
    have hS : normalise (shortsOf (dropNan zeroShort.weights)) = .ok [(1, 1)] := by decide +kernel
    have z1 : Option.getD zeroShort.shortRatio
        (defaultShortRatio (dropNan zeroShort.weights)) = 0 := by decide +kernel
    have z2 : zeroShort.total = 1000 := rfl
    have h1 : subPrices (dropNan zeroShort.prices) [0] = .ok [(0, 10)] := by decide +kernel
    have h2 : subPrices (dropNan zeroShort.prices) [1] = .ok [(1, 5)] := by decide +kernel
    have hl : ∃ p, subLp solver [((0 : ℕ), (1 : ℚ))] (dropNan zeroShort.prices) 1000 = .ok p := by
      obtain ⟨x, hx⟩ := hans
      unfold subLp lpLong
      simp only [List.map_cons, List.map_nil, h1, bind, Except.bind, hx]
      rw [if_neg (by norm_num), if_neg (by simp)]
      exact ⟨_, rfl⟩
    obtain ⟨p, hl⟩ := hl
    have hss : subLp solver [((1 : ℕ), (1 : ℚ))] (dropNan zeroShort.prices) 0 =
        .error .valueError := by
      unfold subLp
      simp only [List.map_cons, List.map_nil, h2, bind, Except.bind]
      rw [if_pos le_rfl]
    unfold lp
    simp only [hany, if_true, hL, hS, bind, Except.bind, z1, z2, mul_zero, add_zero, ite_self, hl, hss]

/-! ### Non-vacuity of C06 -/

/-- An aligned portfolio for which a sound and complete solver makes the call return. -/
def aligned : DA ℕ ℚ where
  weights := [(0, 1), (1, 0)]
  prices := [(0, 1), (1, 7)]
  total := 7
  shortRatio := 0

example (solver : LpSolver ℚ) (hsol : Sound solver) (hans : Complete solver) :
    (lp solver false aligned).2 = .ok ([(0, 7)], 0) := by
  obtain ⟨x, hx⟩ := hans { w := [1, 0], p := [1, 7], total := (7 : ℚ) } ⟨_, swapped_optimal⟩
  have hx7 := swapped_solution x (hsol _ _ hx)
  subst hx7
  have e : lpLong solver aligned.weights aligned.prices aligned.total = .ok ([(0, 7)], 0) := by
    unfold lpLong
    simp only [aligned, List.map_cons, List.map_nil, hx]
    decide +kernel
  unfold lp
  have hany : aligned.weights.any (fun x => x.2 < 0) = false := by decide +kernel
  simp only [hany, Bool.false_eq_true, if_false, e]

/-- An accepted constructor call (C08). -/
example : ∃ d, init zeroShort = .ok d := ⟨_, rfl⟩

/-- With the ratio left out, 30% of the portfolio is short. -/
example : ∃ d, init { zeroShort with shortRatio := none } = .ok d ∧ d.shortRatio = 3/10 :=
  ⟨_, rfl, by decide +kernel⟩

end Verif.Discrete
