import Verif.Props.DiscreteLp

/-! Property theorem C94: integer-programming allocation with short positions. -/

set_option linter.unusedSectionVars false

namespace Verif.Discrete
open Verif.Py

variable {κ : Type} [DecidableEq κ]
variable {K : Type} [Field K] [LinearOrder K] [IsStrictOrderedRing K] [FloorRing K]

/-- Each position as a part of the side it is on. -/
def sideParts (ws : List (κ × K)) : List (κ × K) := ws.map (fun x => (x.1, |x.2| / (ws.map (fun x => |x.2|)).sum))

/-- No whole numbers of shares that cost at most `budget` are closer to the targets. -/
def ClosestWhole (targets prices : List (κ × K)) (budget : K) (f : κ → ℤ) : Prop :=
  ∀ g : κ → ℤ, (∀ x ∈ targets, 0 ≤ g x.1) → (targets.map (fun x => priceOf prices x.1 * (g x.1 : K))).sum ≤ budget →
    deviation targets prices budget f ≤ deviation targets prices budget g

theorem priceOf_sub (prices : List (κ × K)) (ks : List κ) (t : κ) (h : t ∈ ks) :
    priceOf (ks.map (fun k => (k, priceOf prices k))) t = priceOf prices t := by
  induction ks with
  | nil => simp at h
  | cons k ks ih =>
    by_cases e : k = t
    · subst e; simp [priceOf]
    · have := ih (by simpa [Ne.symm e] using h)
      unfold priceOf at this ⊢
      simpa [e] using this

theorem deviation_congr (ws p q : List (κ × K)) (total : K) (f g : κ → ℤ)
    (hp : ∀ x ∈ ws, priceOf p x.1 = priceOf q x.1) (hf : ∀ x ∈ ws, f x.1 = g x.1) :
    deviation ws p total f = deviation ws q total g := by
  unfold deviation
  have e1 : ws.map (fun x => |x.2 * total - (f x.1 : K) * priceOf p x.1|) =
      ws.map (fun x => |x.2 * total - (g x.1 : K) * priceOf q x.1|) :=
    List.map_congr_left fun x hx => by rw [hp x hx, hf x hx]
  have e2 : ws.map (fun x => priceOf p x.1 * (f x.1 : K)) = ws.map (fun x => priceOf q x.1 * (g x.1 : K)) :=
    List.map_congr_left fun x hx => by rw [hp x hx, hf x hx]
  rw [e1, e2]

theorem subLp_optimal (solver : LpSolver K) (hsol : Sound solver) (ws prices : List (κ × K)) (val : K)
    (hn : (ws.map Prod.fst).Nodup) {al : Dict κ ℤ} {left : K} (h : subLp solver ws prices val = .ok (al, left)) :
    (∀ t, 0 ≤ held al t) ∧ 0 ≤ left ∧ left = val - valueIn prices (ws.map Prod.fst) al ∧ (al.map Prod.fst).Nodup ∧
    (∀ t, t ∈ al.map Prod.fst ↔ t ∈ ws.map Prod.fst ∧ held al t ≠ 0) ∧ ClosestWhole ws prices val (held al) := by
  unfold subLp at h
  cases hps : subPrices prices (ws.map Prod.fst) with
  | error e => simp [hps, bind, Except.bind] at h
  | ok ps =>
    simp only [hps, bind, Except.bind] at h
    split at h
    · cases h
    · obtain ⟨rfl, -⟩ := subPrices_spec prices _ hps
      obtain ⟨h1, h2, h3, h4, h5, h6⟩ := lpLong_optimal solver hsol ws _ val hn (by simp [Function.comp_def]) h
      have hp : ∀ x ∈ ws, priceOf ((ws.map Prod.fst).map (fun k => (k, priceOf prices k))) x.1 = priceOf prices x.1 :=
        fun x hx => priceOf_sub prices _ _ (List.mem_map.2 ⟨x, hx, rfl⟩)
      refine ⟨h1, h2, h3.trans ?_, h4, h5, fun g hg hb => ?_⟩
      · unfold valueIn
        congr 2
        exact List.map_congr_left fun t ht => by rw [priceOf_sub prices _ t ht]
      · rw [← deviation_congr ws _ prices val (held al) (held al) hp (fun _ _ => rfl),
          ← deviation_congr ws _ prices val g g hp (fun _ _ => rfl)]
        refine h6 g hg ?_
        rw [List.map_congr_left (g := fun x => priceOf prices x.1 * (g x.1 : K)) (fun x hx => by rw [hp x hx])]
        exact hb

theorem normalise_long (ws L : List (κ × K)) (h : normalise (longsOf ws) = .ok L) :
    L = sideParts (ws.filter (fun x => 0 ≤ x.2)) := by
  unfold normalise longsOf at h
  dsimp only at h
  split at h
  · cases h
  · cases h
    have e : ∀ x ∈ ws.filter (fun x => 0 ≤ x.2), |x.2| = x.2 := fun x hx =>
      abs_of_nonneg (by simpa using (List.mem_filter.1 hx).2)
    unfold sideParts
    rw [List.map_congr_left e]
    exact List.map_congr_left fun x hx => by rw [e x hx]

theorem normalise_short (ws S : List (κ × K)) (h : normalise (shortsOf ws) = .ok S) :
    S = sideParts (ws.filter (fun x => x.2 < 0)) := by
  unfold normalise shortsOf at h
  dsimp only at h
  split at h
  · cases h
  · cases h
    have e : ∀ x ∈ ws.filter (fun x => x.2 < 0), |x.2| = -x.2 := fun x hx =>
      abs_of_neg (by simpa using (List.mem_filter.1 hx).2)
    unfold sideParts
    rw [List.map_congr_left e, List.map_map, List.map_map]
    exact List.map_congr_left fun x hx => by rw [e x hx]; rfl

/-- C94.  With at least one short position, and prices listed in any order: shares are long for weights `≥ 0` and short
for the others, both sides stay within their budgets, the leftover is what both leave, and neither side can be brought
closer to its targets with whole shares. -/
theorem C94_lp_long_short (solver : LpSolver K) (hsol : Sound solver) (d : DA κ K)
    (hn : (d.weights.map Prod.fst).Nodup) (hs : ∃ x ∈ d.weights, x.2 < 0) (reinvest : Bool)
    {d' : DA κ K} {al : Dict κ ℤ} {left : K} (h : lp solver reinvest d = (d', .ok (al, left))) :
    let longs := d.weights.filter (fun x => 0 ≤ x.2)
    let shorts := d.weights.filter (fun x => x.2 < 0)
    let shortBudget := d.total * d.shortRatio
    let longBudget := d.total + (if reinvest then shortBudget else 0)
    (∀ x ∈ longs, 0 ≤ held al x.1) ∧ (∀ x ∈ shorts, held al x.1 ≤ 0) ∧
    valueIn d.prices (longs.map Prod.fst) al ≤ longBudget ∧
    - valueIn d.prices (shorts.map Prod.fst) al ≤ shortBudget ∧
    valueIn d.prices (longs.map Prod.fst) al + (- valueIn d.prices (shorts.map Prod.fst) al) + left =
      longBudget + shortBudget ∧
    ClosestWhole (sideParts longs) d.prices longBudget (held al) ∧
    ClosestWhole (sideParts shorts) d.prices shortBudget (fun t => - held al t) := by
  intro longs shorts shortBudget longBudget
  have hany : d.weights.any (fun x => x.2 < 0) = true := by
    obtain ⟨x, hx, h0⟩ := hs
    exact List.any_eq_true.2 ⟨x, hx, by simpa using h0⟩
  have hlb : (if reinvest = true then d.total + d.total * d.shortRatio else d.total) = longBudget := by
    simp only [longBudget, shortBudget]; split <;> simp
  unfold lp at h
  simp only [hany, if_true, bind, Except.bind, pure, Except.pure, hlb] at h
  cases hL : normalise (longsOf d.weights) with
  | error e => simp [hL] at h
  | ok L =>
  cases hS : normalise (shortsOf d.weights) with
  | error e => simp [hL, hS] at h
  | ok S =>
  cases h1 : subLp solver L d.prices longBudget with
  | error e => simp [hL, hS, h1] at h
  | ok r1 =>
  cases h2 : subLp solver S d.prices (d.total * d.shortRatio) with
  | error e => simp [hL, hS, h1, h2] at h
  | ok r2 =>
  obtain ⟨la, ll⟩ := r1
  obtain ⟨sa, sl⟩ := r2
  simp only [hL, hS, h1, h2, Prod.mk.injEq, Except.ok.injEq] at h
  obtain ⟨-, hal, hleft⟩ := h
  have eL := normalise_long _ _ hL
  have eS := normalise_short _ _ hS
  have hLk : L.map Prod.fst = longs.map Prod.fst := by rw [eL]; simp [sideParts, longs]
  have hSk : S.map Prod.fst = shorts.map Prod.fst := by rw [eS]; simp [sideParts, shorts]
  obtain ⟨a1, a2, a3, a4, a5, a6⟩ := subLp_optimal solver hsol L d.prices _
    (by rw [hLk]; exact hn.sublist (List.filter_sublist.map _)) h1
  obtain ⟨b1, b2, b3, b4, b5, b6⟩ := subLp_optimal solver hsol S d.prices _
    (by rw [hSk]; exact hn.sublist (List.filter_sublist.map _)) h2
  have hdisj : ∀ t, t ∈ L.map Prod.fst → t ∈ S.map Prod.fst → False := by
    intro t h1 h2
    rw [hLk] at h1; rw [hSk] at h2
    obtain ⟨x, hx, rfl⟩ := List.mem_map.1 h1
    obtain ⟨y, hy, e⟩ := List.mem_map.1 h2
    have hx' := List.mem_filter.1 hx
    have hy' := List.mem_filter.1 hy
    have hxy : y = x := List.inj_on_of_nodup_map hn hy'.1 hx'.1 e
    subst hxy
    have c1 := hx'.2; have c2 := hy'.2
    simp only [decide_eq_true_eq] at c1 c2
    exact absurd c2 (not_lt.2 c1)
  have hkn : (Dict.keys la ++ Dict.keys (sa.map (fun x => (x.1, -x.2)))).Nodup := by
    have e : Dict.keys (sa.map (fun x => (x.1, -x.2))) = sa.map Prod.fst := by simp [Dict.keys, Function.comp_def]
    rw [List.nodup_append, e]
    refine ⟨a4, b4, fun a ha b hb e => ?_⟩
    subst e
    exact hdisj a ((a5 a).1 ha).1 ((b5 a).1 hb).1
  rw [Dict.update_eq_append _ _ hkn] at hal
  have hkn' : (Dict.keys (la ++ sa.map (fun x => (x.1, -x.2)))).Nodup := by simpa [Dict.keys] using hkn
  have hheld : ∀ t, held al t = if t ∈ la.map Prod.fst then held la t else - held sa t := by
    intro t; rw [← hal, held_removeZero _ hkn', held_append, held_neg]
  have hheldL : ∀ t ∈ L.map Prod.fst, held al t = held la t := by
    intro t ht
    rw [hheld]
    split
    · rfl
    · rename_i hn
      rw [held_of_notMem la t hn, held_of_notMem sa t, neg_zero]
      intro h; exact hdisj t ht ((b5 t).1 h).1
  have hheldS : ∀ t ∈ S.map Prod.fst, held al t = - held sa t := by
    intro t ht
    rw [hheld, if_neg]
    intro h; exact hdisj t ((a5 t).1 h).1 ht
  have hvL : valueIn d.prices (longs.map Prod.fst) al = valueIn d.prices (L.map Prod.fst) la := by
    rw [← hLk]
    unfold valueIn
    exact congrArg List.sum (List.map_congr_left fun t ht => by rw [hheldL t ht])
  have hvS : - valueIn d.prices (shorts.map Prod.fst) al = valueIn d.prices (S.map Prod.fst) sa := by
    rw [← hSk]
    unfold valueIn
    rw [List.sum_neg, List.map_map]
    refine congrArg List.sum (List.map_congr_left fun t ht => ?_)
    rw [Function.comp_apply, hheldS t ht]
    push_cast; ring
  refine ⟨fun x hx => ?_, fun x hx => ?_, ?_, ?_, ?_, ?_, ?_⟩
  · rw [hheldL x.1 (by rw [hLk]; exact List.mem_map.2 ⟨x, hx, rfl⟩)]; exact a1 _
  · rw [hheldS x.1 (by rw [hSk]; exact List.mem_map.2 ⟨x, hx, rfl⟩)]; exact neg_nonpos.2 (b1 _)
  · rw [hvL]; linarith
  · rw [hvS]; simp only [shortBudget]; linarith
  · rw [hvL, hvS, ← hleft]; simp only [shortBudget]; linarith
  · rw [← eL]
    intro g hg hb
    rw [deviation_congr L d.prices d.prices _ (held al) (held la) (fun _ _ => rfl)
      (fun x hx => hheldL x.1 (List.mem_map.2 ⟨x, hx, rfl⟩))]
    exact a6 g hg hb
  · rw [← eS]
    intro g hg hb
    rw [deviation_congr S d.prices d.prices _ (fun t => - held al t) (held sa) (fun _ _ => rfl)
      (fun x hx => by rw [hheldS x.1 (List.mem_map.2 ⟨x, hx, rfl⟩), neg_neg])]
    exact b6 g hg hb

/-! ### A concrete case -/

/-- Two assets held, one sold short, the prices listed backwards. -/
def backwards : DA ℕ ℚ where
  weights := [(0, 1), (1, 0), (2, -1)]
  prices := [(2, 1), (1, 7), (0, 1)]
  total := 7
  shortRatio := 1

theorem single_feasible : LpFeasible { w := [1], p := [1], total := (7 : ℚ) } [7] [0] := by
  refine ⟨rfl, rfl, ?_, ?_, ?_, ?_, ?_⟩
  · intro y hy; exact ⟨7, by simpa using hy⟩
  · intro i hi; obtain rfl : i = 0 := by simpa using hi
    norm_num
  · intro i hi; obtain rfl : i = 0 := by simpa using hi
    norm_num
  · intro y hy; obtain rfl : y = 7 := by simpa using hy
    norm_num
  · norm_num

theorem single_pos (x u : List ℚ) (h : LpFeasible { w := [1], p := [1], total := (7 : ℚ) } x u) :
    0 ≤ lpObjective { w := [1], p := [1], total := (7 : ℚ) } x u ∧
      (lpObjective { w := [1], p := [1], total := (7 : ℚ) } x u ≤ 0 → x = [7]) := by
  obtain ⟨h1, h2, -, h4, h5, -, h7⟩ := h
  obtain ⟨a, rfl⟩ := List.length_eq_one_iff.1 h1
  obtain ⟨b, rfl⟩ := List.length_eq_one_iff.1 h2
  have c1 := h4 0 (by simp)
  have c2 := h5 0 (by simp)
  simp only [List.getD_cons_zero, one_mul, mul_one] at c1 c2
  simp only [lpObjective, List.zipWith_cons_cons, List.zipWith_nil_right, List.sum_cons, List.sum_nil, one_mul, add_zero]
    at h7 ⊢
  refine ⟨by linarith, fun h => ?_⟩
  have : a = 7 := by linarith
  rw [this]

/-- With a solver that finds optima the call returns seven shares long and seven short. -/
example (solver : LpSolver ℚ) (hsol : Sound solver) (hans : Complete solver) :
    (lp solver false backwards).2 = .ok ([(0, 7), (2, -7)], 0) := by
  obtain ⟨x, hx⟩ := hans { w := [1, 0], p := [1, 7], total := (7 : ℚ) } ⟨_, swapped_optimal⟩
  have hx7 := swapped_solution x (hsol _ _ hx)
  subst hx7
  have hopt : LpOptimal { w := [1], p := [1], total := (7 : ℚ) } [7] :=
    ⟨[0], single_feasible, fun x' u' h' => le_trans (by norm_num [lpObjective]) (single_pos x' u' h').1⟩
  obtain ⟨y, hy⟩ := hans { w := [1], p := [1], total := (7 : ℚ) } ⟨_, hopt⟩
  have hy7 : y = [7] := by
    obtain ⟨u, hu, hbest⟩ := hsol _ _ hy
    exact (single_pos y u hu).2 ((hbest _ _ single_feasible).trans (by norm_num [lpObjective]))
  subst hy7
  have hL : normalise (longsOf backwards.weights) = .ok [(0, 1), (1, 0)] := by decide +kernel
  have hS : normalise (shortsOf backwards.weights) = .ok [(2, 1)] := by decide +kernel
  have p1 : subPrices backwards.prices [0, 1] = .ok [(0, 1), (1, 7)] := by decide +kernel
  have p2 : subPrices backwards.prices [2] = .ok [(2, 1)] := by decide +kernel
  have e1 : subLp solver [(0, 1), (1, 0)] backwards.prices 7 = .ok ([(0, 7)], 0) := by
    simp only [subLp, List.map_cons, List.map_nil, p1, bind, Except.bind, lpLong, hx]
    decide +kernel
  have e2 : subLp solver [(2, 1)] backwards.prices 7 = .ok ([(2, 7)], 0) := by
    simp only [subLp, List.map_cons, List.map_nil, p2, bind, Except.bind, lpLong, hy]
    decide +kernel
  have hany : backwards.weights.any (fun x => x.2 < 0) = true := by decide +kernel
  have t1 : backwards.total = 7 := rfl
  have t2 : backwards.total * backwards.shortRatio = 7 := by decide +kernel
  unfold lp
  simp only [hany, if_true, Bool.false_eq_true, if_false, bind, Except.bind, pure, Except.pure, hL, hS, t2]
  rw [t1]
  simp only [e1, e2]
  decide +kernel

end Verif.Discrete
