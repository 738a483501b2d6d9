import Verif.Proof.DiscreteTop
import Mathlib.Algebra.Order.Ring.Rat
import Mathlib.Data.Rat.Floor
import Mathlib.Tactic.NormNum

/-! Property theorems C01–C05 (greedy allocation). -/

set_option linter.unusedSectionVars false

namespace Verif.Discrete
open Verif.Py

variable {κ : Type} [DecidableEq κ]
variable {K : Type} [Field K] [LinearOrder K] [IsStrictOrderedRing K] [FloorRing K]

/-- Shape of a finished long-only call. -/
theorem greedy_long_cases (d : DA κ K) (hv : Valid d) (hnn : ∀ x ∈ d.weights, 0 ≤ x.2)
    (fuel : ℕ) (reinvest : Bool) {d' : DA κ K} {al : Dict κ ℤ} {left : K}
    (h : greedy fuel reinvest d = (d', .ok (some (al, left)))) :
    LongResult d.weights d.prices d.total al left ∧ d'.allocation = al := by
  have hperm := sortDesc_perm d.weights
  unfold greedy at h
  cases hl : (sortDesc d.weights).getLast? with
  | none => simp [hl] at h
  | some x =>
    obtain ⟨t, w⟩ := x
    have hw : ¬ w < 0 := not_lt.2 (hnn _ (sortDesc_last d.weights _ hl).1)
    simp only [hl, if_neg hw] at h
    cases hg : greedyLong fuel (sortDesc d.weights) d.prices d.total with
    | error e => simp [hg] at h
    | ok r =>
      cases r with
      | none => simp [hg] at h
      | some r =>
        obtain ⟨al', left'⟩ := r
        simp only [hg, Prod.mk.injEq, Except.ok.injEq, Option.some.injEq] at h
        obtain ⟨rfl, rfl, rfl⟩ := h
        refine ⟨(greedyLong_spec fuel _ _ _ ((hperm.map _).nodup_iff.2 hv.nodup) ?_
          (fun x hx => hnn x (hperm.mem_iff.1 hx)) (fun x hx => (hv.priced x (hperm.mem_iff.1 hx)).2)
          hv.total_pos hg).perm hperm, rfl⟩
        intro e; rw [e] at hl; simp at hl

/-- C01.  Every finished long-only greedy call returns non-negative whole share counts and a
leftover `≥ 0` that together are worth exactly the total value. -/
theorem C01_greedy_books_balance (d : DA κ K) (hv : Valid d) (hnn : ∀ x ∈ d.weights, 0 ≤ x.2)
    (fuel : ℕ) (reinvest : Bool) {d' : DA κ K} {al : Dict κ ℤ} {left : K}
    (h : greedy fuel reinvest d = (d', .ok (some (al, left)))) :
    (∀ t, 0 ≤ held al t) ∧ 0 ≤ left ∧
      left + valueIn d.prices (d.weights.map Prod.fst) al = d.total ∧
      (∀ t, t ∈ al.map Prod.fst → t ∈ d.weights.map Prod.fst) ∧ d'.allocation = al := by
  obtain ⟨h, ha⟩ := greedy_long_cases d hv hnn fuel reinvest h
  exact ⟨h.nonneg, h.left_nonneg, h.balance, fun t ht => ((h.mem_iff t).1 ht).1, ha⟩

/-- C02, first half.  With positive prices every greedy call finishes, for all weights (long-only
or long/short), short ratios and totals: from some iteration bound on the outcome is fixed. -/
theorem C02_greedy_finishes (d : DA κ K) (hp : ∀ q ∈ d.prices, 0 < q.2) (reinvest : Bool) :
    ∃ d' r, Finishes d reinvest d' r := by
  have hperm := sortDesc_perm d.weights
  have hpos : ∀ x ∈ sortDesc d.weights, x.1 ∈ d.prices.map Prod.fst → 0 < priceOf d.prices x.1 := by
    intro x _ hx
    rw [priceOf_eq, pr]
    cases hg : Dict.get? d.prices x.1 with
    | none => exact absurd hx ((Dict.get?_eq_none_iff _ _).1 hg)
    | some v => exact hp _ (Dict.mem_of_get? _ hg)
  cases hl : (sortDesc d.weights).getLast? with
  | none =>
    exact ⟨_, .error .indexError, 0, fun fuel _ => by unfold greedy; simp only [hl]; rfl⟩
  | some x =>
    obtain ⟨t, w⟩ := x
    by_cases hw : w < 0
    · cases h1 : normalise (longsOf (sortDesc d.weights)) with
      | error e =>
        exact ⟨_, .error e, 0, fun fuel _ => by
          unfold greedy; simp only [hl, if_pos hw, h1, bind, Except.bind]; rfl⟩
      | ok L =>
        cases h2 : normalise (shortsOf (sortDesc d.weights)) with
        | error e =>
          exact ⟨_, .error e, 0, fun fuel _ => by
            unfold greedy; simp only [hl, if_pos hw, h1, h2, bind, Except.bind]; rfl⟩
        | ok S =>
          obtain ⟨N1, r1, hr1⟩ := subGreedy_finishes L d.prices
            (if reinvest then d.total + d.total * d.shortRatio else d.total) hp
          obtain ⟨N2, r2, hr2⟩ := subGreedy_finishes S d.prices (d.total * d.shortRatio) hp
          cases r1 with
          | error e =>
            exact ⟨_, .error e, N1, fun fuel hle => by
              unfold greedy
              simp only [hl, if_pos hw, h1, h2, bind, Except.bind, hr1 fuel hle, Except.map]; rfl⟩
          | ok r1 =>
            cases r2 with
            | error e =>
              exact ⟨_, .error e, max N1 N2, fun fuel hle => by
                unfold greedy
                simp only [hl, if_pos hw, h1, h2, bind, Except.bind, Except.map,
                  hr1 fuel (le_trans (le_max_left _ _) hle),
                  hr2 fuel (le_trans (le_max_right _ _) hle)]; rfl⟩
            | ok r2 =>
              exact ⟨_, .ok _, max N1 N2, fun fuel hle => by
                unfold greedy
                simp only [hl, if_pos hw, h1, h2, bind, Except.bind, Except.map, pure,
                  Except.pure, hr1 fuel (le_trans (le_max_left _ _) hle),
                  hr2 fuel (le_trans (le_max_right _ _) hle)]; rfl⟩
    · have hne : sortDesc d.weights ≠ [] := by intro e; rw [e] at hl; simp at hl
      obtain ⟨N, r, hr⟩ := greedyLong_finishes _ _ d.total hne hpos
      cases r with
      | error e =>
        exact ⟨_, .error e, N, fun fuel hle => by
          unfold greedy; simp only [hl, if_neg hw, hr fuel hle, Except.map]; rfl⟩
      | ok r =>
        exact ⟨_, .ok r, N, fun fuel hle => by
          unfold greedy; simp only [hl, if_neg hw, hr fuel hle, Except.map]; rfl⟩

/-- C02, second half.  For a long-only portfolio of total weight at most one the call returns
normally: in particular its "Unexpectedly insufficient funds" assertion is never raised. -/
theorem C02_greedy_no_assertion (d : DA κ K) (hv : ValidLong d) (reinvest : Bool) :
    ∃ d' al left, Finishes d reinvest d' (.ok (al, left)) := by
  have hperm := sortDesc_perm d.weights
  have hne : sortDesc d.weights ≠ [] := by
    intro e; rw [e] at hperm; exact hv.nonempty hperm.symm.eq_nil
  obtain ⟨N, al, left, hr⟩ := greedyLong_succeeds (sortDesc d.weights) d.prices d.total hne
    (fun x hx => hv.nonneg x (hperm.mem_iff.1 hx))
    (by rw [(hperm.map Prod.snd).sum_eq]; exact hv.sum_le)
    (fun x hx => hv.priced x (hperm.mem_iff.1 hx)) hv.total_pos
  cases hl : (sortDesc d.weights).getLast? with
  | none => rw [List.getLast?_eq_none_iff] at hl; exact absurd hl hne
  | some x =>
    obtain ⟨t, w⟩ := x
    have hw : ¬ w < 0 := not_lt.2 (hv.nonneg _ (sortDesc_last d.weights _ hl).1)
    exact ⟨_, al, left, N, fun fuel hle => by
      unfold greedy; simp only [hl, if_neg hw, hr fuel hle]; rfl⟩

/-- C03.  Every asset ends with at least `⌊weight·total/price⌋` shares; the returned dict lists
exactly the input tickers with a non-zero count, once each. -/
theorem C03_greedy_at_least_floor (d : DA κ K) (hv : Valid d) (hnn : ∀ x ∈ d.weights, 0 ≤ x.2)
    (fuel : ℕ) (reinvest : Bool) {d' : DA κ K} {al : Dict κ ℤ} {left : K}
    (h : greedy fuel reinvest d = (d', .ok (some (al, left)))) :
    (∀ x ∈ d.weights, ⌊x.2 * d.total / priceOf d.prices x.1⌋ ≤ held al x.1) ∧
    (al.map Prod.fst).Nodup ∧
    (∀ t, t ∈ al.map Prod.fst ↔ t ∈ d.weights.map Prod.fst ∧ held al t ≠ 0) := by
  obtain ⟨h, -⟩ := greedy_long_cases d hv hnn fuel reinvest h
  exact ⟨h.floor_le, h.keys_nodup, h.mem_iff⟩

/-- The stop condition of C04: whatever is still affordable already has at least its desired share
of the (positive) invested value. -/
def StopOk (d : DA κ K) (al : Dict κ ℤ) (left : K) : Prop :=
  ∀ x ∈ d.weights, priceOf d.prices x.1 ≤ left →
    0 < valueIn d.prices (d.weights.map Prod.fst) al ∧
    x.2 * valueIn d.prices (d.weights.map Prod.fst) al ≤
      priceOf d.prices x.1 * (held al x.1 : K)

/-- C04, partial: the stop condition holds for portfolios of at most ten assets.  Missing: larger
portfolios, for which the claim is false (`C04_stop_condition_false`) because the search for an
affordable asset gives up after ten retries. -/
theorem C04_stop_condition_partial (d : DA κ K) (hv : Valid d) (hnn : ∀ x ∈ d.weights, 0 ≤ x.2)
    (hlen : d.weights.length ≤ 10)
    (fuel : ℕ) (reinvest : Bool) {d' : DA κ K} {al : Dict κ ℤ} {left : K}
    (h : greedy fuel reinvest d = (d', .ok (some (al, left)))) : StopOk d al left := by
  obtain ⟨h, -⟩ := greedy_long_cases d hv hnn fuel reinvest h
  exact fun x hx hle => h.stop hlen x hx hle

/-- Counter-example portfolio for C04: ten expensive assets, one bought asset (ticker 10) and a
cheap affordable asset (ticker 11) that is never bought although it is under-weight. -/
def manyAssets : DA ℕ ℚ where
  weights := (10, 2/5) :: ((List.range 10).map (fun i => (i, 1/20)) ++ [(11, 1/100)])
  prices := (10, 10) :: ((List.range 10).map (fun i => (i, 1000)) ++ [(11, 2)])
  total := 100
  shortRatio := 0

theorem manyAssets_valid : ValidLong manyAssets where
  nodup := by decide
  priced := by decide +kernel
  total_pos := by decide +kernel
  nonempty := by decide
  nonneg := by decide +kernel
  sum_le := by decide +kernel

/-- C04 is false of the code for larger portfolios: here 12 assets, 60 of 100 currency units are
left, asset 11 costs 2, has weight 1/100 and no share was bought. -/
theorem C04_stop_condition_false :
    ∃ d' al left, Finishes manyAssets false d' (.ok (al, left)) ∧ ¬ StopOk manyAssets al left := by
  refine ⟨{ manyAssets with allocation := [(10, 4)] }, [(10, 4)], 60, ⟨0, ?_⟩, ?_⟩
  · intro fuel _
    have hs : sortDesc manyAssets.weights = manyAssets.weights := by decide +kernel
    have hf : firstRound manyAssets.prices manyAssets.total manyAssets.weights manyAssets.total =
        .ok (60, 4 :: List.replicate 11 0, manyAssets.prices.map Prod.snd) := by decide +kernel
    have hp : pick (manyAssets.weights.map Prod.snd) (manyAssets.prices.map Prod.snd) 60
        (4 :: List.replicate 11 0) = none := by decide +kernel
    have hsr : secondRound (manyAssets.weights.map Prod.snd) (manyAssets.prices.map Prod.snd) fuel
        60 (4 :: List.replicate 11 0) = some (60, 4 :: List.replicate 11 0) := by
      unfold secondRound; rw [if_pos (by norm_num), hp]
    have hg : greedyLong fuel manyAssets.weights manyAssets.prices manyAssets.total =
        .ok (some ([(10, 4)], 60)) := by
      unfold greedyLong
      simp only [hf, bind, Except.bind, hsr]
      decide
    have hl : manyAssets.weights.getLast? = some (11, 1/100) := by decide +kernel
    unfold greedy
    rw [hs]
    simp only [hl]
    rw [if_neg (by norm_num), hg]
    simp only [Except.map]
  · intro h
    have := h (11, 1/100) (by decide +kernel) (by decide +kernel)
    revert this
    decide +kernel

/-- C05.  Long/short greedy allocation: with at least one short and one positive long and a positive
short ratio the call returns normally; signs follow the weights; each side stays within its own
budget and the whole adds up. -/
theorem C05_greedy_long_short (d : DA κ K) (hv : Valid d) (hs : ∃ x ∈ d.weights, x.2 < 0)
    (hl : ∃ x ∈ d.weights, 0 < x.2) (hr : 0 < d.shortRatio) (reinvest : Bool) :
    ∃ d' al left, Finishes d reinvest d' (.ok (al, left)) ∧ d'.allocation = al ∧
      (al.map Prod.fst).Nodup ∧
      (∀ t, t ∈ al.map Prod.fst ↔ t ∈ d.weights.map Prod.fst ∧ held al t ≠ 0) ∧
      (∀ x ∈ d.weights, 0 ≤ x.2 → 0 ≤ held al x.1) ∧
      (∀ x ∈ d.weights, x.2 < 0 → held al x.1 ≤ 0) ∧
      (let longs := (d.weights.filter (fun x => 0 ≤ x.2)).map Prod.fst
       let shorts := (d.weights.filter (fun x => x.2 < 0)).map Prod.fst
       let shortBudget := d.total * d.shortRatio
       let longBudget := d.total + (if reinvest then shortBudget else 0)
       valueIn d.prices longs al ≤ longBudget ∧
       - valueIn d.prices shorts al ≤ shortBudget ∧
       0 ≤ left ∧
       valueIn d.prices longs al + (- valueIn d.prices shorts al) + left =
         longBudget + shortBudget) := by
  have hperm := sortDesc_perm d.weights
  set ws := sortDesc d.weights with hws
  have hmem : ∀ x, x ∈ ws ↔ x ∈ d.weights := fun x => hperm.mem_iff
  have hnd : (ws.map Prod.fst).Nodup := (hperm.map _).nodup_iff.2 hv.nodup
  -- the two sides
  obtain ⟨L, hL, hLk, hL0, hL1, hLne⟩ := normalise_spec (longsOf ws)
    (by intro x hx; simpa using (List.mem_filter.1 hx).2)
    (by obtain ⟨x, hx, h0⟩ := hl
        exact ⟨x, List.mem_filter.2 ⟨(hmem x).2 hx, by simpa using h0.le⟩, h0⟩)
  obtain ⟨S, hS, hSk, hS0, hS1, hSne⟩ := normalise_spec (shortsOf ws)
    (by intro x hx
        obtain ⟨y, hy, rfl⟩ := List.mem_map.1 hx
        have := (List.mem_filter.1 hy).2
        simp only [decide_eq_true_eq] at this
        exact (neg_pos.2 this).le)
    (by obtain ⟨x, hx, h0⟩ := hs
        exact ⟨(x.1, -x.2), List.mem_map.2 ⟨x, List.mem_filter.2 ⟨(hmem x).2 hx,
          by simpa using h0⟩, rfl⟩, neg_pos.2 h0⟩)
  have hLk' : L.map Prod.fst = (ws.filter (fun x => 0 ≤ x.2)).map Prod.fst := hLk
  have hSk' : S.map Prod.fst = (ws.filter (fun x => x.2 < 0)).map Prod.fst := by
    rw [hSk]; simp [shortsOf]
  have hLn : (L.map Prod.fst).Nodup := by
    rw [hLk']; exact hnd.sublist (List.filter_sublist.map _)
  have hSn : (S.map Prod.fst).Nodup := by
    rw [hSk']; exact hnd.sublist (List.filter_sublist.map _)
  have hLp : ∀ x ∈ L, x.1 ∈ d.prices.map Prod.fst ∧ 0 < priceOf d.prices x.1 := by
    intro x hx
    have : x.1 ∈ L.map Prod.fst := List.mem_map.2 ⟨x, hx, rfl⟩
    rw [hLk'] at this
    obtain ⟨y, hy, e⟩ := List.mem_map.1 this
    rw [← e]; exact hv.priced y ((hmem y).1 (List.mem_filter.1 hy).1)
  have hSp : ∀ x ∈ S, x.1 ∈ d.prices.map Prod.fst ∧ 0 < priceOf d.prices x.1 := by
    intro x hx
    have : x.1 ∈ S.map Prod.fst := List.mem_map.2 ⟨x, hx, rfl⟩
    rw [hSk'] at this
    obtain ⟨y, hy, e⟩ := List.mem_map.1 this
    rw [← e]; exact hv.priced y ((hmem y).1 (List.mem_filter.1 hy).1)
  have hsv : 0 < d.total * d.shortRatio := mul_pos hv.total_pos hr
  have hlv : 0 < (if reinvest then d.total + d.total * d.shortRatio else d.total) := by
    have := hv.total_pos; split <;> linarith
  obtain ⟨N1, la, ll, hla, hr1⟩ := subGreedy_succeeds L d.prices _ hLn hLne hL0 hL1 hLp hlv
  obtain ⟨N2, sa, sl, hsa, hr2⟩ := subGreedy_succeeds S d.prices _ hSn hSne hS0 hS1 hSp hsv
  -- tickers of the two sides are disjoint
  have hdisj : ∀ t, t ∈ L.map Prod.fst → t ∈ S.map Prod.fst → False := by
    intro t h1 h2
    rw [hLk'] at h1; rw [hSk'] at h2
    obtain ⟨x, hx, rfl⟩ := List.mem_map.1 h1
    obtain ⟨y, hy, e⟩ := List.mem_map.1 h2
    have hx' := List.mem_filter.1 hx
    have hy' := List.mem_filter.1 hy
    have hxy : y = x := by
      exact List.inj_on_of_nodup_map hnd hy'.1 hx'.1 e
    subst hxy
    have a1 := hx'.2; have a2 := hy'.2
    simp only [decide_eq_true_eq] at a1 a2
    exact absurd a2 (not_lt.2 a1)
  have hkn : (Dict.keys la ++ Dict.keys (sa.map (fun x => (x.1, -x.2)))).Nodup := by
    rw [List.nodup_append]
    refine ⟨hla.keys_nodup, ?_, ?_⟩
    · have : Dict.keys (sa.map (fun x => (x.1, -x.2))) = sa.map Prod.fst := by
        simp [Dict.keys, Function.comp_def]
      rw [this]; exact hsa.keys_nodup
    · intro a ha b hb e
      subst e
      have hb' : a ∈ sa.map Prod.fst := by simpa [Dict.keys, Function.comp_def] using hb
      exact hdisj a ((hla.mem_iff a).1 ha).1 ((hsa.mem_iff a).1 hb').1
  set al := removeZero (la ++ sa.map (fun x => (x.1, -x.2))) with hal
  have hkn' : (Dict.keys (la ++ sa.map (fun x => (x.1, -x.2)))).Nodup := by
    simpa [Dict.keys] using hkn
  have hheld : ∀ t, held al t = if t ∈ la.map Prod.fst then held la t else - held sa t := by
    intro t; rw [hal, held_removeZero _ hkn', held_append, held_neg]
  have hheldL : ∀ t ∈ L.map Prod.fst, held al t = held la t := by
    intro t ht
    rw [hheld]
    split
    · rfl
    · rename_i hn
      rw [held_of_notMem la t hn, held_of_notMem sa t, neg_zero]
      intro h; exact hdisj t ht ((hsa.mem_iff t).1 h).1
  have hheldS : ∀ t ∈ S.map Prod.fst, held al t = - held sa t := by
    intro t ht
    rw [hheld, if_neg]
    intro h; exact hdisj t ((hla.mem_iff t).1 h).1 ht
  have hvL : valueIn d.prices ((d.weights.filter (fun x => 0 ≤ x.2)).map Prod.fst) al =
      valueIn d.prices (L.map Prod.fst) la := by
    rw [hLk', ← valueIn_perm d.prices ((hperm.filter _).map Prod.fst) al]
    unfold valueIn
    congr 1
    apply List.map_congr_left
    intro t ht
    rw [hheldL t (by rw [hLk']; exact ht)]
  have hvS : - valueIn d.prices ((d.weights.filter (fun x => x.2 < 0)).map Prod.fst) al =
      valueIn d.prices (S.map Prod.fst) sa := by
    rw [hSk', ← valueIn_perm d.prices ((hperm.filter _).map Prod.fst) al]
    unfold valueIn
    rw [List.sum_neg, List.map_map]
    congr 1
    apply List.map_congr_left
    intro t ht
    rw [Function.comp_apply, hheldS t (by rw [hSk']; exact ht)]
    push_cast; ring
  refine ⟨{ d with weights := ws, allocation := al }, al, ll + sl, ⟨max N1 N2, ?_⟩, rfl, ?_, ?_, ?_, ?_, ?_⟩
  · intro fuel hle
    cases hlast : ws.getLast? with
    | none =>
      rw [List.getLast?_eq_none_iff] at hlast
      obtain ⟨x, hx, -⟩ := hs
      have := (hmem x).2 hx
      rw [hlast] at this; simp at this
    | some x =>
      obtain ⟨t, w⟩ := x
      have hw : w < 0 := by
        obtain ⟨y, hy, hy0⟩ := hs
        exact lt_of_le_of_lt ((sortDesc_last d.weights _ hlast).2 y hy) hy0
      unfold greedy
      simp only [← hws, hlast, if_pos hw, hL, hS, bind, Except.bind, pure, Except.pure,
        hr1 fuel (le_trans (le_max_left _ _) hle), hr2 fuel (le_trans (le_max_right _ _) hle),
        Dict.update_eq_append _ _ hkn, ← hal, Except.map]
  · exact keys_removeZero_nodup _ hkn'
  · intro t
    have hcov : t ∈ d.weights.map Prod.fst ↔ t ∈ L.map Prod.fst ∨ t ∈ S.map Prod.fst := by
      rw [hLk', hSk', ← (hperm.map Prod.fst).mem_iff]
      constructor
      · intro h
        obtain ⟨x, hx, rfl⟩ := List.mem_map.1 h
        by_cases h0 : 0 ≤ x.2
        · exact .inl (List.mem_map.2 ⟨x, List.mem_filter.2 ⟨hx, by simpa using h0⟩, rfl⟩)
        · exact .inr (List.mem_map.2 ⟨x, List.mem_filter.2 ⟨hx, by simpa using h0⟩, rfl⟩)
      · rintro (h | h)
        · exact List.Sublist.subset (List.filter_sublist.map _) h
        · exact List.Sublist.subset (List.filter_sublist.map _) h
    constructor
    · intro h
      obtain ⟨x, hx, rfl⟩ := List.mem_map.1 h
      have hx' := (mem_removeZero _ x).1 hx
      have hne : held al x.1 ≠ 0 := by
        rw [held_eq, Dict.get?_of_mem al (keys_removeZero_nodup _ hkn') (show (x.1, x.2) ∈ al from hx)]
        exact hx'.2
      refine ⟨hcov.2 ?_, hne⟩
      rcases List.mem_append.1 hx'.1 with h | h
      · exact .inl ((hla.mem_iff _).1 (List.mem_map.2 ⟨x, h, rfl⟩)).1
      · obtain ⟨y, hy, rfl⟩ := List.mem_map.1 h
        exact .inr ((hsa.mem_iff _).1 (List.mem_map.2 ⟨y, hy, rfl⟩)).1
    · rintro ⟨_, h0⟩
      by_contra hn
      exact h0 (held_of_notMem al t hn)
  · intro x hx h0
    rw [hheldL x.1 (by rw [hLk']; exact List.mem_map.2 ⟨x, List.mem_filter.2
      ⟨(hmem x).2 hx, by simpa using h0⟩, rfl⟩)]
    exact hla.nonneg _
  · intro x hx h0
    rw [hheldS x.1 (by rw [hSk']; exact List.mem_map.2 ⟨x, List.mem_filter.2
      ⟨(hmem x).2 hx, by simpa using h0⟩, rfl⟩)]
    have := hsa.nonneg x.1; omega
  · have b1 := hla.balance
    have b2 := hsa.balance
    have p1 := hla.left_nonneg
    have p2 := hsa.left_nonneg
    have e : (if reinvest then d.total + d.total * d.shortRatio else d.total) =
        d.total + (if reinvest then d.total * d.shortRatio else 0) := by split <;> simp
    rw [e] at b1
    dsimp only
    rw [hvL, hvS]
    refine ⟨by linarith, by linarith, by linarith, by linarith⟩

/-! ### Non-vacuity -/

/-- A portfolio with a short position, meeting the hypotheses of C05. -/
def longShort : DA ℕ ℚ where
  weights := [(0, 1/2), (1, 7/10), (2, -1/5)]
  prices := [(2, 4), (1, 3), (0, 10)]
  total := 100
  shortRatio := 1/5

example : Valid longShort where
  nodup := by decide
  priced := by decide +kernel
  total_pos := by decide +kernel
  nonempty := by decide

example : (∃ x ∈ longShort.weights, x.2 < 0) ∧ (∃ x ∈ longShort.weights, 0 < x.2) ∧
    0 < longShort.shortRatio := by decide +kernel

/-- Three assets; the greedy call buys in both rounds. -/
def threeAssets : DA ℕ ℚ where
  weights := [(0, 1/5), (1, 1/2), (2, 3/10)]
  prices := [(0, 7), (1, 12), (2, 9)]
  total := 100
  shortRatio := 0

example : ValidLong threeAssets where
  nodup := by decide
  priced := by decide +kernel
  total_pos := by decide +kernel
  nonempty := by decide
  nonneg := by decide +kernel
  sum_le := by decide +kernel

/-- The second round does buy (asset 0 gets a third share): the run meeting the hypotheses of
C01, C03, C04. -/
example : (greedy 20 false threeAssets).2 = .ok (some ([(1, 4), (2, 3), (0, 3)], 4)) := by
  decide +kernel

end Verif.Discrete
