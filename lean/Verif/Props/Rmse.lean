import Verif.Model.Latest
import Verif.Spec.Discrete
import Verif.Props.Discrete
import Verif.Props.DiscreteLp
import Mathlib.Analysis.SpecialFunctions.Pow.Real
import Mathlib.Tactic.Positivity

/-!
C66: the reported allocation error.
-/

noncomputable section

namespace Verif.Discrete
open Verif.Py Verif.Frames

variable {κ : Type} [DecidableEq κ]

/-- Share of `t` in the invested value (0 if nothing is invested). -/
def share (prices : List (κ × ℝ)) (ts : List κ) (al : Dict κ ℤ) (t : κ) : ℝ :=
  priceOf prices t * (held al t : ℝ) / valueIn prices ts al

theorem lookup_priced {prices : List (κ × ℝ)} {t : κ} (h : t ∈ prices.map Prod.fst) :
    lookup prices t = .ok (priceOf prices t) := by
  rw [priceOf_eq, pr, lookup]
  cases hg : Dict.get? prices t with
  | none => exact absurd h ((Dict.get?_eq_none_iff prices t).1 hg)
  | some p => simp

theorem portfolioVal_eq (prices : List (κ × ℝ)) : ∀ al : Dict κ ℤ,
    (∀ x ∈ al, x.1 ∈ prices.map Prod.fst) →
    portfolioVal prices al = .ok (al.map (fun x => priceOf prices x.1 * (x.2 : ℝ))).sum
  | [], _ => rfl
  | (t, n) :: al, h => by
    rw [portfolioVal, lookup_priced (h (t, n) (by simp)),
      portfolioVal_eq prices al (fun x hx => h x (by simp [hx]))]
    simp only [bind, Except.bind, pure, Except.pure, List.map_cons, List.sum_cons]
    rw [mul_comm]

theorem sum_filter_zero (f : κ → ℝ) (p : κ → Bool) (h : ∀ t, p t = false → f t = 0) (l : List κ) :
    (l.map f).sum = ((l.filter p).map f).sum := by
  induction l with
  | nil => rfl
  | cons t l ih =>
    cases hp : p t with
    | true => rw [List.filter_cons_of_pos hp]; simp [ih]
    | false => rw [List.filter_cons_of_neg (by simp [hp])]; simp [ih, h t hp]

/-- The value summed over the returned dict is the value of the holdings. -/
theorem value_eq (prices : List (κ × ℝ)) (ts : List κ) (al : Dict κ ℤ) (hts : ts.Nodup)
    (hk : (al.map Prod.fst).Nodup) (hm : ∀ t, t ∈ al.map Prod.fst ↔ t ∈ ts ∧ held al t ≠ 0) :
    (al.map (fun x => priceOf prices x.1 * (x.2 : ℝ))).sum = valueIn prices ts al := by
  have h1 : al.map (fun x => priceOf prices x.1 * (x.2 : ℝ)) =
      (al.map Prod.fst).map (fun t => priceOf prices t * (held al t : ℝ)) := by
    rw [List.map_map]
    apply List.map_congr_left
    intro x hx
    simp only [Function.comp]
    rw [held_eq, Dict.get?_of_mem al hk hx]
    rfl
  have hp : (al.map Prod.fst).Perm (ts.filter (fun t => decide (held al t ≠ 0))) := by
    rw [List.perm_ext_iff_of_nodup hk (hts.filter _)]
    intro t
    rw [hm]
    simp
  rw [h1, (hp.map _).sum_eq, valueIn]
  exact (sum_filter_zero _ _ (fun t ht => by simp at ht; simp [ht]) ts).symm

theorem allocationWeight_eq {prices : List (κ × ℝ)} {ts : List κ} {al : Dict κ ℤ} {t : κ}
    (hp : t ∈ prices.map Prod.fst) (hv : al ≠ [] → valueIn prices ts al ≠ 0) :
    allocationWeight prices al (valueIn prices ts al) t = .ok (some (share prices ts al t)) := by
  unfold allocationWeight share
  rw [held_eq]
  cases hg : Dict.get? al t with
  | none => simp
  | some n =>
    have hne : al ≠ [] := by rintro rfl; simp [Dict.get?] at hg
    simp only [lookup_priced hp, bind, Except.bind, pure, Except.pure, if_neg (hv hne),
      Option.getD_some]
    rw [mul_comm]

theorem sse_eq {prices : List (κ × ℝ)} {ts : List κ} {al : Dict κ ℤ}
    (hv : al ≠ [] → valueIn prices ts al ≠ 0) : ∀ ws : List (κ × ℝ),
    (∀ x ∈ ws, x.1 ∈ prices.map Prod.fst) →
    sse prices al (valueIn prices ts al) ws =
      .ok (some (ws.map (fun x => (x.2 - share prices ts al x.1) ^ 2)).sum)
  | [], _ => rfl
  | (t, w) :: ws, h => by
    rw [sse, allocationWeight_eq (h (t, w) (by simp)) hv,
      sse_eq hv ws (fun x hx => h x (by simp [hx]))]
    simp [bind, Except.bind, pure, Except.pure]

/-- What a finished long-only call leaves on the object. -/
theorem greedy_long_object (d : DA κ ℝ) (hnn : ∀ x ∈ d.weights, 0 ≤ x.2)
    (fuel : ℕ) (reinvest : Bool) {d' : DA κ ℝ} {al : Dict κ ℤ} {left : ℝ}
    (h : greedy fuel reinvest d = (d', .ok (some (al, left)))) :
    d'.weights.Perm d.weights ∧ d'.prices = d.prices := by
  have hperm := sortDesc_perm d.weights
  unfold greedy at h
  cases hl : (sortDesc d.weights).getLast? with
  | none => simp [hl] at h
  | some x =>
    obtain ⟨t, w⟩ := x
    have hw : ¬ w < 0 := not_lt.2 (hnn _ (sortDesc_last d.weights _ hl).1)
    simp only [hl, if_neg hw] at h
    cases hg : greedyLong fuel (sortDesc d.weights) d.prices d.total with
    | error e => simp [hg] at h
    | ok r =>
      cases r with
      | none => simp [hg] at h
      | some r =>
        obtain ⟨al', left'⟩ := r
        simp only [hg, Prod.mk.injEq] at h
        obtain ⟨rfl, -⟩ := h
        exact ⟨hperm, rfl⟩

theorem value_pos {prices : List (κ × ℝ)} {ts : List κ} {al : Dict κ ℤ}
    (hp : ∀ t ∈ ts, 0 < priceOf prices t) (hn : ∀ t, 0 ≤ held al t)
    (hm : ∀ t, t ∈ al.map Prod.fst ↔ t ∈ ts ∧ held al t ≠ 0) (hne : al ≠ []) :
    0 < valueIn prices ts al := by
  obtain ⟨x, l, rfl⟩ := List.exists_cons_of_ne_nil hne
  obtain ⟨h1, h2⟩ := (hm x.1).1 (by simp)
  have h0 : ∀ y ∈ ts.map (fun t => priceOf prices t * (held (x :: l) t : ℝ)), 0 ≤ y := by
    intro y hy
    obtain ⟨t, ht, rfl⟩ := List.mem_map.1 hy
    have := hn t
    exact mul_nonneg (hp t ht).le (by exact_mod_cast this)
  have h3 : 0 < priceOf prices x.1 * (held (x :: l) x.1 : ℝ) := by
    have := lt_of_le_of_ne (hn x.1) (Ne.symm h2)
    exact mul_pos (hp _ h1) (by exact_mod_cast this)
  exact h3.trans_le (List.single_le_sum h0 _ (List.mem_map_of_mem h1))

/-- The report on an object whose allocation lists the held tickers once each. -/
theorem rmse_of (d d' : DA κ ℝ) (al : Dict κ ℤ) (hv : Valid d) (hperm : d'.weights.Perm d.weights)
    (hpr : d'.prices = d.prices) (ha : d'.allocation = al) (hn : ∀ t, 0 ≤ held al t)
    (hk : (al.map Prod.fst).Nodup)
    (hm : ∀ t, t ∈ al.map Prod.fst ↔ t ∈ d.weights.map Prod.fst ∧ held al t ≠ 0) :
    ∃ e, rmse d' = .ok (some e) ∧ 0 ≤ e ∧
      e ^ 2 * d.weights.length =
        (d.weights.map (fun x => (x.2 - share d.prices (d.weights.map Prod.fst) al x.1) ^ 2)).sum := by
  have hpriced : ∀ t ∈ d.weights.map Prod.fst, t ∈ d.prices.map Prod.fst := by
    intro t ht
    obtain ⟨x, hx, rfl⟩ := List.mem_map.1 ht
    exact (hv.priced x hx).1
  have hval : portfolioVal d.prices al =
      .ok (valueIn d.prices (d.weights.map Prod.fst) al) := by
    rw [portfolioVal_eq d.prices al fun x hx => hpriced _ ((hm _).1 (List.mem_map_of_mem hx)).1,
      value_eq d.prices _ al hv.nodup hk hm]
  have hne : al ≠ [] → valueIn d.prices (d.weights.map Prod.fst) al ≠ 0 := fun hne =>
    (value_pos (fun t ht => by
      obtain ⟨x, hx, rfl⟩ := List.mem_map.1 ht
      exact (hv.priced x hx).2) hn hm hne).ne'
  have hs := sse_eq hne d'.weights fun x hx =>
    hpriced _ (List.mem_map_of_mem (hperm.mem_iff.1 hx))
  have hw : d'.weights ≠ [] := by
    intro e
    rw [e] at hperm
    exact hv.nonempty hperm.symm.eq_nil
  have hlen : (0 : ℝ) < d.weights.length := by
    exact_mod_cast List.length_pos_iff.2 hv.nonempty
  refine ⟨Real.sqrt ((d.weights.map (fun x =>
      (x.2 - share d.prices (d.weights.map Prod.fst) al x.1) ^ 2)).sum / d.weights.length),
    ?_, Real.sqrt_nonneg _, ?_⟩
  · unfold rmse
    rw [hpr, ha, hval]
    simp only [bind, Except.bind, hs, if_neg hw, Option.map_some, pure, Except.pure]
    rw [(hperm.map _).sum_eq, hperm.length_eq]
  · rw [Real.sq_sqrt, div_mul_cancel₀ _ hlen.ne']
    exact div_nonneg (List.sum_nonneg fun y hy => by
      obtain ⟨x, -, rfl⟩ := List.mem_map.1 hy
      exact sq_nonneg _) hlen.le

/-- `d'` is `d` after a long-only call that bought `al`. -/
structure Bought (d d' : DA κ ℝ) (al : Dict κ ℤ) : Prop where
  weights : d'.weights.Perm d.weights
  prices : d'.prices = d.prices
  stored : d'.allocation = al
  nonneg : ∀ t, 0 ≤ held al t
  nodup : (al.map Prod.fst).Nodup
  mem_iff : ∀ t, t ∈ al.map Prod.fst ↔ t ∈ d.weights.map Prod.fst ∧ held al t ≠ 0

theorem bought_greedy (d : DA κ ℝ) (hv : Valid d) (hnn : ∀ x ∈ d.weights, 0 ≤ x.2)
    (fuel : ℕ) (reinvest : Bool) {d' : DA κ ℝ} {al : Dict κ ℤ} {left : ℝ}
    (h : greedy fuel reinvest d = (d', .ok (some (al, left)))) : Bought d d' al := by
  obtain ⟨hr, ha⟩ := greedy_long_cases d hv hnn fuel reinvest h
  obtain ⟨hperm, hpr⟩ := greedy_long_object d hnn fuel reinvest h
  exact ⟨hperm, hpr, ha, hr.nonneg, hr.keys_nodup, hr.mem_iff⟩

theorem bought_lp (solver : LpSolver ℝ) (hsol : Sound solver) (d : DA κ ℝ) (hv : Valid d)
    (hnn : ∀ x ∈ d.weights, 0 ≤ x.2) (reinvest : Bool) {d' : DA κ ℝ} {al : Dict κ ℤ} {left : ℝ}
    (h : lp solver reinvest d = (d', .ok (al, left))) : Bought d d' al := by
  have hany : d.weights.any (fun x => x.2 < 0) = false := by
    rw [List.any_eq_false]
    intro x hx; simpa using hnn x hx
  unfold lp at h
  simp only [hany, Bool.false_eq_true, if_false] at h
  unfold lpLong at h
  simp only at h
  split at h
  case h_2 => simp at h
  next al' left' hr =>
  simp only [Prod.mk.injEq, Except.ok.injEq] at h
  obtain ⟨rfl, rfl, -⟩ := h
  split_ifs at hr with hlen
  cases hx : solver { w := d.weights.map Prod.snd, p := d.prices.map Prod.snd, total := d.total } with
  | none => rw [hx] at hr; cases hr
  | some x =>
    rw [hx] at hr
    simp only [Except.ok.injEq, Prod.mk.injEq] at hr
    obtain ⟨h1, -⟩ := hr
    obtain ⟨u, ⟨hxl, -, hint, -, -, hx0, -⟩, -⟩ := hsol _ _ hx
    simp only at hxl
    have lts : (x.map rint).length = (d.weights.map Prod.fst).length := by
      simp only [List.length_map, ne_eq, not_not] at hlen hxl ⊢
      omega
    have hkeys : Dict.keys (List.zip (d.weights.map Prod.fst) (x.map rint)) = d.weights.map Prod.fst :=
      zip_keys _ _ lts
    have hkn : (Dict.keys (List.zip (d.weights.map Prod.fst) (x.map rint))).Nodup := by
      rw [hkeys]; exact hv.nodup
    rw [Dict.ofPairs_eq _ hkn] at h1
    have hheld : ∀ t, held al' t = held (List.zip (d.weights.map Prod.fst) (x.map rint)) t := by
      intro t; rw [← h1, held_removeZero _ hkn]
    have hmsm : x.map rint = (d.weights.map Prod.fst).map (held al') := by
      rw [funext hheld]; exact eq_map_held _ _ hv.nodup lts
    refine ⟨List.Perm.refl _, rfl, rfl, ?_, ?_, ?_⟩
    · intro t
      by_cases ht : t ∈ d.weights.map Prod.fst
      · have : held al' t ∈ x.map rint := by
          rw [hmsm]; exact List.mem_map_of_mem ht
        obtain ⟨y, hy, he⟩ := List.mem_map.1 this
        obtain ⟨n, rfl⟩ := hint y hy
        rw [rint_int] at he
        rw [← he]
        exact_mod_cast hx0 _ hy
      · rw [hheld, held_of_notMem]
        have := hkeys ▸ ht
        exact this
    · rw [← h1]; exact keys_removeZero_nodup _ hkn
    · intro t
      constructor
      · intro hm
        obtain ⟨z, hz, rfl⟩ := List.mem_map.1 hm
        have hz' := hz
        rw [← h1, mem_removeZero] at hz'
        have hk : z.1 ∈ Dict.keys (List.zip (d.weights.map Prod.fst) (x.map rint)) :=
          List.mem_map.2 ⟨z, hz'.1, rfl⟩
        refine ⟨by rw [hkeys] at hk; exact hk, ?_⟩
        rw [hheld, held_eq, Dict.get?_of_mem _ hkn (show (z.1, z.2) ∈ _ from hz'.1)]
        exact hz'.2
      · rintro ⟨_, h0⟩
        by_contra hc
        exact h0 (held_of_notMem al' t hc)

theorem Bought.reported {d d' : DA κ ℝ} {al : Dict κ ℤ} (hv : Valid d) (h : Bought d d' al) :
    ∃ e, rmse d' = .ok (some e) ∧ 0 ≤ e ∧
      e ^ 2 * d.weights.length =
        (d.weights.map (fun x => (x.2 - share d.prices (d.weights.map Prod.fst) al x.1) ^ 2)).sum :=
  rmse_of d d' al hv h.weights h.prices h.stored h.nonneg h.nodup h.mem_iff

theorem Bought.zero {d d' : DA κ ℝ} {al : Dict κ ℤ} (hv : Valid d) (h : Bought d d' al) :
    rmse d' = .ok (some 0) ↔
      ∀ x ∈ d.weights, share d.prices (d.weights.map Prod.fst) al x.1 = x.2 := by
  obtain ⟨e, h1, h2, h3⟩ := h.reported hv
  have hlen : (d.weights.length : ℝ) ≠ 0 := by
    exact_mod_cast (List.length_pos_iff.2 hv.nonempty).ne'
  have hnn' : ∀ y ∈ d.weights.map (fun x =>
      (x.2 - share d.prices (d.weights.map Prod.fst) al x.1) ^ 2), 0 ≤ y := by
    intro y hy
    obtain ⟨x, -, rfl⟩ := List.mem_map.1 hy
    exact sq_nonneg _
  rw [h1]
  constructor
  · intro he x hx
    cases he
    have hle := List.single_le_sum hnn' _ (List.mem_map_of_mem hx)
    rw [← h3] at hle
    have : (x.2 - share d.prices (d.weights.map Prod.fst) al x.1) ^ 2 = 0 :=
      le_antisymm (by simpa using hle) (sq_nonneg _)
    linarith [pow_eq_zero_iff (two_ne_zero) |>.1 this]
  · intro hx
    have : (d.weights.map (fun x =>
        (x.2 - share d.prices (d.weights.map Prod.fst) al x.1) ^ 2)).sum = 0 :=
      List.sum_eq_zero fun y hy => by
        obtain ⟨x, hx', rfl⟩ := List.mem_map.1 hy
        rw [hx x hx']
        ring
    rw [this] at h3
    rcases mul_eq_zero.1 h3 with h4 | h4
    · rw [pow_eq_zero_iff two_ne_zero] at h4
      rw [h4]
    · exact absurd h4 hlen

theorem Bought.shares {d d' : DA κ ℝ} {al : Dict κ ℤ} (hv : Valid d) (h : Bought d d' al) :
    (∀ x ∈ d.weights, 0 ≤ share d.prices (d.weights.map Prod.fst) al x.1) ∧
    (al ≠ [] → (d.weights.map (fun x => share d.prices (d.weights.map Prod.fst) al x.1)).sum = 1) ∧
    (al = [] → ∀ x ∈ d.weights, share d.prices (d.weights.map Prod.fst) al x.1 = 0) := by
  have hpos : ∀ t ∈ d.weights.map Prod.fst, 0 < priceOf d.prices t := by
    intro t ht
    obtain ⟨x, hx, rfl⟩ := List.mem_map.1 ht
    exact (hv.priced x hx).2
  refine ⟨fun x hx => ?_, fun hne => ?_, ?_⟩
  · have h0 : 0 ≤ valueIn d.prices (d.weights.map Prod.fst) al := by
      refine List.sum_nonneg fun y hy => ?_
      obtain ⟨t, ht, rfl⟩ := List.mem_map.1 hy
      exact mul_nonneg (hpos t ht).le (by exact_mod_cast h.nonneg t)
    exact div_nonneg (mul_nonneg (hv.priced x hx).2.le (by exact_mod_cast h.nonneg x.1)) h0
  · have hvp := value_pos hpos h.nonneg h.mem_iff hne
    have : (d.weights.map (fun x => share d.prices (d.weights.map Prod.fst) al x.1)) =
        ((d.weights.map Prod.fst).map (fun t => priceOf d.prices t * (held al t : ℝ))).map
          (fun y => y / valueIn d.prices (d.weights.map Prod.fst) al) := by
      simp [share, Function.comp_def]
    rw [this]
    simp only [div_eq_mul_inv]
    rw [List.sum_map_mul_right, List.map_id']
    exact mul_inv_cancel₀ hvp.ne'
  · rintro rfl x -
    simp [share, held]

theorem sum_sq_le : ∀ l : List (ℝ × ℝ), (∀ x ∈ l, 0 ≤ x.1 ∧ 0 ≤ x.2) →
    (l.map (fun x => (x.1 - x.2) ^ 2)).sum ≤ (l.map Prod.fst).sum ^ 2 + (l.map Prod.snd).sum ^ 2
  | [], _ => by simp
  | x :: l, h => by
    have ih := sum_sq_le l (fun y hy => h y (by simp [hy]))
    obtain ⟨h1, h2⟩ := h x (by simp)
    have s1 : 0 ≤ (l.map Prod.fst).sum := List.sum_nonneg fun y hy => by
      obtain ⟨z, hz, rfl⟩ := List.mem_map.1 hy
      exact (h z (by simp [hz])).1
    have s2 : 0 ≤ (l.map Prod.snd).sum := List.sum_nonneg fun y hy => by
      obtain ⟨z, hz, rfl⟩ := List.mem_map.1 hy
      exact (h z (by simp [hz])).2
    simp only [List.map_cons, List.sum_cons]
    nlinarith [mul_nonneg h1 h2, mul_nonneg h1 s1, mul_nonneg h2 s2]

theorem Bought.bound {d d' : DA κ ℝ} {al : Dict κ ℤ} (hv : Valid d) (hnn : ∀ x ∈ d.weights, 0 ≤ x.2)
    (hsum : (d.weights.map Prod.snd).sum ≤ 1) (h : Bought d d' al) :
    ∃ e, rmse d' = .ok (some e) ∧ e ≤ Real.sqrt (2 / d.weights.length) := by
  obtain ⟨e, h1, h2, h3⟩ := h.reported hv
  obtain ⟨g1, g2, g3⟩ := h.shares hv
  have hlen : (0 : ℝ) < d.weights.length := by
    exact_mod_cast List.length_pos_iff.2 hv.nonempty
  refine ⟨e, h1, Real.le_sqrt_of_sq_le ?_⟩
  rw [le_div_iff₀ hlen, h3]
  have hs := sum_sq_le (d.weights.map (fun x => (x.2, share d.prices (d.weights.map Prod.fst) al x.1)))
    (by
      intro y hy
      obtain ⟨x, hx, rfl⟩ := List.mem_map.1 hy
      exact ⟨hnn x hx, g1 x hx⟩)
  simp only [List.map_map, Function.comp_def] at hs
  have a1 : (d.weights.map (fun x => x.2)).sum ≤ 1 := hsum
  have a0 : 0 ≤ (d.weights.map (fun x => x.2)).sum := List.sum_nonneg fun y hy => by
    obtain ⟨x, hx, rfl⟩ := List.mem_map.1 hy
    exact hnn x hx
  have b : (d.weights.map (fun x => share d.prices (d.weights.map Prod.fst) al x.1)).sum ^ 2 ≤ 1 := by
    by_cases hal : al = []
    · rw [List.sum_eq_zero fun y hy => by
        obtain ⟨x, hx, rfl⟩ := List.mem_map.1 hy
        exact g3 hal x hx]
      norm_num
    · rw [g2 hal]
      norm_num
  nlinarith

/-- **C66 (the reported error).**  After any finished long-only greedy call the report succeeds, and its
square is the mean squared difference between the weights and the shares of the *invested* value. -/
theorem C66_reported (d : DA κ ℝ) (hv : Valid d) (hnn : ∀ x ∈ d.weights, 0 ≤ x.2)
    (fuel : ℕ) (reinvest : Bool) {d' : DA κ ℝ} {al : Dict κ ℤ} {left : ℝ}
    (h : greedy fuel reinvest d = (d', .ok (some (al, left)))) :
    ∃ e, rmse d' = .ok (some e) ∧ 0 ≤ e ∧
      e ^ 2 * d.weights.length =
        (d.weights.map (fun x => (x.2 - share d.prices (d.weights.map Prod.fst) al x.1) ^ 2)).sum :=
  (bought_greedy d hv hnn fuel reinvest h).reported hv

/-- **C66 (the reported error, integer program).**  The same after a successful long-only `lp_portfolio`,
in whatever order the prices are listed. -/
theorem C66_reported_lp (solver : LpSolver ℝ) (hsol : Sound solver) (d : DA κ ℝ) (hv : Valid d)
    (hnn : ∀ x ∈ d.weights, 0 ≤ x.2) (reinvest : Bool) {d' : DA κ ℝ} {al : Dict κ ℤ} {left : ℝ}
    (h : lp solver reinvest d = (d', .ok (al, left))) :
    ∃ e, rmse d' = .ok (some e) ∧ 0 ≤ e ∧
      e ^ 2 * d.weights.length =
        (d.weights.map (fun x => (x.2 - share d.prices (d.weights.map Prod.fst) al x.1) ^ 2)).sum :=
  (bought_lp solver hsol d hv hnn reinvest h).reported hv

/-- **C66 (zero error).**  The reported error is 0 exactly when every asset has its weight. -/
theorem C66_zero (d : DA κ ℝ) (hv : Valid d) (hnn : ∀ x ∈ d.weights, 0 ≤ x.2)
    (fuel : ℕ) (reinvest : Bool) {d' : DA κ ℝ} {al : Dict κ ℤ} {left : ℝ}
    (h : greedy fuel reinvest d = (d', .ok (some (al, left)))) :
    rmse d' = .ok (some 0) ↔
      ∀ x ∈ d.weights, share d.prices (d.weights.map Prod.fst) al x.1 = x.2 :=
  (bought_greedy d hv hnn fuel reinvest h).zero hv

/-- **C66 (zero error, integer program).** -/
theorem C66_zero_lp (solver : LpSolver ℝ) (hsol : Sound solver) (d : DA κ ℝ) (hv : Valid d)
    (hnn : ∀ x ∈ d.weights, 0 ≤ x.2) (reinvest : Bool) {d' : DA κ ℝ} {al : Dict κ ℤ} {left : ℝ}
    (h : lp solver reinvest d = (d', .ok (al, left))) :
    rmse d' = .ok (some 0) ↔
      ∀ x ∈ d.weights, share d.prices (d.weights.map Prod.fst) al x.1 = x.2 :=
  (bought_lp solver hsol d hv hnn reinvest h).zero hv

/-- **C66 (the shares).**  Unless nothing was bought the shares are nonnegative and sum to one. -/
theorem C66_shares (d : DA κ ℝ) (hv : Valid d) (hnn : ∀ x ∈ d.weights, 0 ≤ x.2)
    (fuel : ℕ) (reinvest : Bool) {d' : DA κ ℝ} {al : Dict κ ℤ} {left : ℝ}
    (h : greedy fuel reinvest d = (d', .ok (some (al, left)))) :
    (∀ x ∈ d.weights, 0 ≤ share d.prices (d.weights.map Prod.fst) al x.1) ∧
    (al ≠ [] → (d.weights.map (fun x => share d.prices (d.weights.map Prod.fst) al x.1)).sum = 1) ∧
    (al = [] → ∀ x ∈ d.weights, share d.prices (d.weights.map Prod.fst) al x.1 = 0) :=
  (bought_greedy d hv hnn fuel reinvest h).shares hv

/-- **C66 (the shares, integer program).** -/
theorem C66_shares_lp (solver : LpSolver ℝ) (hsol : Sound solver) (d : DA κ ℝ) (hv : Valid d)
    (hnn : ∀ x ∈ d.weights, 0 ≤ x.2) (reinvest : Bool) {d' : DA κ ℝ} {al : Dict κ ℤ} {left : ℝ}
    (h : lp solver reinvest d = (d', .ok (al, left))) :
    (∀ x ∈ d.weights, 0 ≤ share d.prices (d.weights.map Prod.fst) al x.1) ∧
    (al ≠ [] → (d.weights.map (fun x => share d.prices (d.weights.map Prod.fst) al x.1)).sum = 1) ∧
    (al = [] → ∀ x ∈ d.weights, share d.prices (d.weights.map Prod.fst) al x.1 = 0) :=
  (bought_lp solver hsol d hv hnn reinvest h).shares hv

/-- **C66 (bound).**  For total weight at most one the reported error is at most `√(2/n)`. -/
theorem C66_bound (d : DA κ ℝ) (hv : ValidLong d) (fuel : ℕ) (reinvest : Bool) {d' : DA κ ℝ} {al : Dict κ ℤ} {left : ℝ}
    (h : greedy fuel reinvest d = (d', .ok (some (al, left)))) :
    ∃ e, rmse d' = .ok (some e) ∧ e ≤ Real.sqrt (2 / d.weights.length) :=
  (bought_greedy d hv.toValid hv.nonneg fuel reinvest h).bound hv.toValid hv.nonneg hv.sum_le

/-- **C66 (bound, integer program).** -/
theorem C66_bound_lp (solver : LpSolver ℝ) (hsol : Sound solver) (d : DA κ ℝ) (hv : ValidLong d)
    (reinvest : Bool) {d' : DA κ ℝ} {al : Dict κ ℤ} {left : ℝ}
    (h : lp solver reinvest d = (d', .ok (al, left))) :
    ∃ e, rmse d' = .ok (some e) ∧ e ≤ Real.sqrt (2 / d.weights.length) :=
  (bought_lp solver hsol d hv.toValid hv.nonneg reinvest h).bound hv.toValid hv.nonneg hv.sum_le

/-- Half in each of two assets. -/
def halves : DA String ℝ where
  weights := [("A", 1 / 2), ("B", 1 / 2)]
  prices := [("A", 30), ("B", 7)]
  total := 100
  shortRatio := 0

theorem halves_valid : ValidLong halves where
  nodup := by simp [halves]
  priced := by
    intro x hx
    simp only [halves, List.mem_cons, List.not_mem_nil, or_false] at hx
    rcases hx with rfl | rfl <;> simp [halves, priceOf, List.find?]
  total_pos := by norm_num [halves]
  nonempty := by simp [halves]
  nonneg := by
    intro x hx
    simp only [halves, List.mem_cons, List.not_mem_nil, or_false] at hx
    rcases hx with rfl | rfl <;> norm_num
  sum_le := by norm_num [halves]

/-- There are finished calls, and their reports are at most 1 here. -/
example : ∃ fuel d' al left e, greedy fuel false halves = (d', .ok (some (al, left))) ∧
    rmse d' = .ok (some e) ∧ e ≤ 1 := by
  obtain ⟨d', al, left, N, hN⟩ := C02_greedy_no_assertion halves halves_valid false
  obtain ⟨e, h1, h2⟩ := C66_bound halves halves_valid N false (hN N le_rfl)
  exact ⟨N, d', al, left, e, hN N le_rfl, h1, by simpa [halves] using h2⟩

/-- Half in each of two assets, affordable exactly. -/
def evens : DA String ℝ where
  weights := [("A", 1 / 2), ("B", 1 / 2)]
  prices := [("A", 10), ("B", 5)]
  total := 20
  shortRatio := 0

theorem evens_valid : ValidLong evens where
  nodup := by simp [evens]
  priced := by
    intro x hx
    simp only [evens, List.mem_cons, List.not_mem_nil, or_false] at hx
    rcases hx with rfl | rfl <;> simp [evens, priceOf, List.find?]
  total_pos := by norm_num [evens]
  nonempty := by simp [evens]
  nonneg := by
    intro x hx
    simp only [evens, List.mem_cons, List.not_mem_nil, or_false] at hx
    rcases hx with rfl | rfl <;> norm_num
  sum_le := by norm_num [evens]

theorem evens_feasible :
    LpFeasible { w := [1 / 2, 1 / 2], p := [10, 5], total := (20 : ℝ) } [1, 2] [0, 0] := by
  refine ⟨rfl, rfl, ?_, ?_, ?_, ?_, ?_⟩
  · intro y hy
    simp only [List.mem_cons, List.not_mem_nil, or_false] at hy
    rcases hy with rfl | rfl
    · exact ⟨1, by norm_num⟩
    · exact ⟨2, by norm_num⟩
  · intro i hi
    simp only [List.length_cons, List.length_nil] at hi
    rcases (by omega : i = 0 ∨ i = 1) with rfl | rfl <;> norm_num
  · intro i hi
    simp only [List.length_cons, List.length_nil] at hi
    rcases (by omega : i = 0 ∨ i = 1) with rfl | rfl <;> norm_num
  · intro y hy
    simp only [List.mem_cons, List.not_mem_nil, or_false] at hy
    rcases hy with rfl | rfl <;> norm_num
  · norm_num

theorem evens_optimal : LpOptimal { w := [1 / 2, 1 / 2], p := [10, 5], total := (20 : ℝ) } [1, 2] := by
  refine ⟨[0, 0], evens_feasible, ?_⟩
  rintro x u ⟨hxl, hul, hint, hup, hlo, hx0, hr⟩
  match x, u, hxl, hul with
  | [a, b], [c, e], _, _ =>
    have h0 := hup 0 (by simp); have h1 := hup 1 (by simp)
    have l0 := hlo 0 (by simp); have l1 := hlo 1 (by simp)
    simp [lpObjective] at h0 h1 l0 l1 hr ⊢
    linarith

theorem evens_solution (x : List ℝ)
    (h : LpOptimal { w := [1 / 2, 1 / 2], p := [10, 5], total := (20 : ℝ) } x) : x = [1, 2] := by
  obtain ⟨u, ⟨hxl, hul, hint, hup, hlo, hx0, hr⟩, hopt⟩ := h
  match x, u, hxl, hul with
  | [a, b], [c, e], _, _ =>
    have ho := hopt _ _ evens_feasible
    have h0 := hup 0 (by simp); have h1 := hup 1 (by simp)
    have l0 := hlo 0 (by simp); have l1 := hlo 1 (by simp)
    simp [lpObjective] at h0 h1 l0 l1 hr ho
    have hb : b = 2 := by linarith
    have ha : a = 1 := by linarith
    rw [ha, hb]

/-- Every exact solver allocates these weights without error, and the report says so. -/
example (solver : LpSolver ℝ) (hsol : Sound solver) (hans : Complete solver) :
    ∃ d' al left, lp solver false evens = (d', .ok (al, left)) ∧ rmse d' = .ok (some 0) := by
  obtain ⟨x, hx⟩ := hans { w := [1 / 2, 1 / 2], p := [10, 5], total := (20 : ℝ) } ⟨_, evens_optimal⟩
  have := evens_solution x (hsol _ _ hx)
  subst this
  have r1 : rint (1 : ℝ) = 1 := by simpa using rint_int (K := ℝ) 1
  have r2 : rint (2 : ℝ) = 2 := by simpa using rint_int (K := ℝ) 2
  have h : lp solver false evens =
      ({ evens with allocation := [("A", 1), ("B", 2)] }, .ok ([("A", 1), ("B", 2)], 0)) := by
    have hany : evens.weights.any (fun x => x.2 < 0) = false := by
      norm_num [evens]
    have hl : lpLong solver evens.weights evens.prices evens.total = .ok ([("A", 1), ("B", 2)], 0) := by
      unfold lpLong
      simp only [evens, List.map_cons, List.map_nil, hx, r1, r2]
      norm_num
      decide +kernel
    unfold lp
    simp only [hany, Bool.false_eq_true, if_false, hl]
  refine ⟨_, _, _, h, (C66_zero_lp solver hsol evens evens_valid.toValid evens_valid.nonneg false h).2 ?_⟩
  intro y hy
  simp only [evens, List.mem_cons, List.not_mem_nil, or_false] at hy
  rcases hy with rfl | rfl <;>
    norm_num [share, valueIn, evens, priceOf, held, List.find?, (by decide : ¬ "A" = "B"),
      (by decide : ¬ "B" = "A")]

/-- An object without weights cannot be reported on. -/
theorem C66_empty (d : DA κ ℝ) (h : d.weights = []) (ha : d.allocation = []) :
    rmse d = .error .zeroDivision := by
  simp [rmse, h, ha, portfolioVal, sse, bind, Except.bind]

end Verif.Discrete
