import Verif.Model.Py

/-!
Model of `pypfopt/discrete_allocation.py`.

Numbers are elements of a linear ordered field `K` with floor (ℚ, ℝ, …); NaN is `none`.
-/

namespace Verif.Discrete
open Verif.Py

variable {κ : Type} [DecidableEq κ]
variable {K : Type} [Field K] [LinearOrder K] [IsStrictOrderedRing K] [FloorRing K]

/-- Instance variables of `DiscreteAllocation` (discrete_allocation.py:31-50, 80-87).
`weights` is the list of items of the dict, `prices` the `pd.Series` (index label, value) in index
order (labels assumed distinct), `allocation` the result attribute. -/
structure DA (κ K : Type) where
  weights : List (κ × K)
  prices : List (κ × K)
  total : K
  shortRatio : K
  allocation : Dict κ ℤ := []

/-- Raw constructor arguments; NaN entries are `none`; the two flags are the `isinstance` tests. -/
structure RawArgs (κ K : Type) where
  weightsIsDict : Bool
  weights : Dict κ (Option K)
  pricesIsSeries : Bool
  prices : List (κ × Option K)
  total : K
  shortRatio : Option K

/-- discrete_allocation.py:84-87: default short ratio, the total of the short weights. -/
def defaultShortRatio (weights : List (κ × K)) : K :=
  ((weights.filter (fun x => x.2 < 0)).map (fun x => -x.2)).sum

/-- `self.weights = list(weights.items())`, `self.latest_prices = …`, once no entry is NaN. -/
def dropNan (l : List (κ × Option K)) : List (κ × K) :=
  l.filterMap (fun x => x.2.map (fun v => (x.1, v)))

/-- `short_ratio is not None and short_ratio < 0` (discrete_allocation.py:77). -/
def badShortRatio : Option K → Bool
  | some s => decide (s < 0)
  | none => false

/-- `DiscreteAllocation.__init__` (discrete_allocation.py:52-87), tests in source order. -/
def init (a : RawArgs κ K) : Except PyErr (DA κ K) :=
  if !a.weightsIsDict then .error .typeError
  else if a.weights.any (fun x => x.2.isNone) then .error .valueError
  else if !a.pricesIsSeries || a.prices.any (fun x => x.2.isNone) then .error .typeError
  else if a.total ≤ 0 then .error .valueError
  else if badShortRatio a.shortRatio then .error .valueError
  else
    let ws := dropNan a.weights
    .ok { weights := ws, prices := dropNan a.prices, total := a.total,
          shortRatio := a.shortRatio.getD (defaultShortRatio ws) }

/-- `self.latest_prices[ticker]` (label lookup, KeyError if absent). -/
def lookup (prices : List (κ × K)) (t : κ) : Except PyErr K :=
  match Dict.get? prices t with
  | some p => .ok p
  | none => .error .keyError

/-- `DiscreteAllocation._remove_zero_positions` (discrete_allocation.py:89-96). -/
def removeZero (a : Dict κ ℤ) : Dict κ ℤ := a.filter (fun x => x.2 ≠ 0)

/-- `self.weights.sort(key=lambda x: x[1], reverse=True)` (discrete_allocation.py:146).
Python's `reverse=True` keeps the original order of equal keys; so does this insertion sort. -/
def sortDesc (ws : List (κ × K)) : List (κ × K) :=
  ws.insertionSort (fun a b => b.2 ≤ a.2)

/-- First buying round (discrete_allocation.py:194-206).  Returns remaining funds, the share counts
and the buy prices.  A zero price makes numpy return inf/NaN, on which `int()` raises
OverflowError/ValueError. -/
def firstRound (prices : List (κ × K)) (total : K) :
    List (κ × K) → K → Except PyErr (K × List ℤ × List K)
  | [], funds => .ok (funds, [], [])
  | (t, w) :: rest, funds => do
    let price ← lookup prices t
    if price = 0 then
      .error (if w * total = 0 then .valueError else .overflow)
    else
      let n := pyInt (w * total / price)
      let cost := (n : K) * price
      if ¬ cost ≤ funds then .error .assertion
      else
        let (f, ns, ps) ← firstRound prices total rest (funds - cost)
        .ok (f, n :: ns, price :: ps)

/-- `current_weights` (discrete_allocation.py:212-213).  If the sum is zero numpy divides by zero;
with positive prices and non-negative shares all entries are then 0/0 = NaN.  (Simplification: a
zero sum with non-zero entries, impossible for positive prices, would give ±inf in numpy.) -/
def currentWeights (buyPrices : List K) (shares : List ℤ) : List (Option K) :=
  let vals := List.zipWith (fun (p : K) (n : ℤ) => p * (n : K)) buyPrices shares
  let s := vals.sum
  if s = 0 then vals.map (fun _ => none) else vals.map (fun v => some (v / s))

/-- `deficit = ideal_weights - current_weights` (discrete_allocation.py:214-215). -/
def deficits (ideal : List K) (cur : List (Option K)) : List (Option K) :=
  List.zipWith (fun w c => c.map (fun c => w - c)) ideal cur

/-- The inner search loop (discrete_allocation.py:224-236).  `rem = 10 - counter`.
Returns the modified deficits, the index and the remaining retries.  `price` of an index is its buy
price (the code looks up the same label again). -/
def innerLoop (buyPrices : List K) (funds : K) :
    ℕ → List (Option K) → ℕ → List (Option K) × ℕ × ℕ
  | rem, deficit, idx =>
    if buyPrices.getD idx 0 > funds then
      let deficit := deficit.set idx (some 0)
      let idx := npArgmax deficit
      match rem with
      | 0 => (deficit, idx, 0)
      | rem + 1 =>
        if nanLt (deficit.getD idx none) (some 0) then (deficit, idx, rem + 1)
        else innerLoop buyPrices funds rem deficit idx
    else (deficit, idx, rem)

/-- One pass of the second round (discrete_allocation.py:210-244): `none` when the code breaks out
of the loop, otherwise the index of the asset to buy. -/
def pick (ideal : List K) (buyPrices : List K) (funds : K) (shares : List ℤ) : Option ℕ :=
  let deficit := deficits ideal (currentWeights buyPrices shares)
  let idx := npArgmax deficit
  let (deficit, idx, rem) := innerLoop buyPrices funds 10 deficit idx
  if nanLe (deficit.getD idx none) (some 0) || rem == 0 then none else some idx

/-- `shares_bought[idx] += 1`. -/
def bump (shares : List ℤ) (i : ℕ) : List ℤ := shares.modify i (· + 1)

/-- The second buying round `while available_funds > 0` (discrete_allocation.py:208-244) with a
bound on the number of iterations; `none` = not finished within the bound. -/
def secondRound (ideal : List K) (buyPrices : List K) :
    ℕ → K → List ℤ → Option (K × List ℤ)
  | fuel, funds, shares =>
    if funds > 0 then
      match pick ideal buyPrices funds shares with
      | none => some (funds, shares)
      | some idx =>
        match fuel with
        | 0 => none
        | fuel + 1 =>
          secondRound ideal buyPrices fuel (funds - buyPrices.getD idx 0) (bump shares idx)
    else some (funds, shares)

/-- Long-only part of `greedy_portfolio` (discrete_allocation.py:189-253) on sorted weights:
allocation and leftover funds. -/
def greedyLong (fuel : ℕ) (weights prices : List (κ × K)) (total : K) :
    Except PyErr (Option (Dict κ ℤ × K)) := do
  let (funds, shares, bp) ← firstRound prices total weights total
  match secondRound (weights.map Prod.snd) bp fuel funds shares with
  | none => .ok none
  | some (left, shares) =>
    .ok (some (removeZero (Dict.ofPairs (List.zip (weights.map Prod.fst) shares)), left))

/-- `self.latest_prices[longs.keys()]` (discrete_allocation.py:168, 176). -/
def subPrices (prices : List (κ × K)) (ks : List κ) : Except PyErr (List (κ × K)) :=
  ks.mapM (fun k => do let p ← lookup prices k; pure (k, p))

/-- Long sub-portfolio `{t: w for t, w in weights if w >= 0}` (discrete_allocation.py:150, 271). -/
def longsOf (ws : List (κ × K)) : List (κ × K) := ws.filter (fun x => 0 ≤ x.2)

/-- Short sub-portfolio `{t: -w for t, w in weights if w < 0}` (discrete_allocation.py:151, 272). -/
def shortsOf (ws : List (κ × K)) : List (κ × K) :=
  (ws.filter (fun x => x.2 < 0)).map (fun x => (x.1, -x.2))

/-- "Make them sum to one" (discrete_allocation.py:154-157): `w / total`; with Python floats a zero
total raises ZeroDivisionError, unless there is nothing to divide. -/
def normalise (ws : List (κ × K)) : Except PyErr (List (κ × K)) :=
  let s := (ws.map Prod.snd).sum
  if s = 0 ∧ ws ≠ [] then .error .zeroDivision
  else .ok (ws.map (fun x => (x.1, x.2 / s)))

/-- A sub-object `DiscreteAllocation(ws, prices[ws.keys()], total_portfolio_value=val)` followed by
`.greedy_portfolio()` (discrete_allocation.py:167-179).  All weights of a sub-object are ≥ 0, so the
call takes the long-only branch. -/
def subGreedy (fuel : ℕ) (ws prices : List (κ × K)) (val : K) :
    Except PyErr (Option (Dict κ ℤ × K)) := do
  let ps ← subPrices prices (ws.map Prod.fst)
  if val ≤ 0 then .error .valueError
  else if ws = [] then .error .indexError
  else greedyLong fuel (sortDesc ws) ps val

/-- `greedy_portfolio(reinvest)` (discrete_allocation.py:132-253).  Returns the object afterwards
(weights sorted in place, `allocation` set) and the returned pair, or `none` when `fuel` iterations
do not suffice. -/
def greedy (fuel : ℕ) (reinvest : Bool) (d : DA κ K) :
    DA κ K × Except PyErr (Option (Dict κ ℤ × K)) :=
  let ws := sortDesc d.weights
  let d1 : DA κ K := { d with weights := ws }
  match ws.getLast? with
  | none => (d1, .error .indexError)
  | some (_, wlast) =>
    if wlast < 0 then
      let shortVal := d.total * d.shortRatio
      let longVal := if reinvest then d.total + shortVal else d.total
      let r : Except PyErr (Option (Dict κ ℤ × K)) := do
        let longs ← normalise (longsOf ws)
        let shorts ← normalise (shortsOf ws)
        let rl ← subGreedy fuel longs d.prices longVal
        let rs ← subGreedy fuel shorts d.prices shortVal
        match rl, rs with
        | some (la, ll), some (sa, sl) =>
          let sa := sa.map (fun x => (x.1, -x.2))
          pure (some (removeZero (Dict.update la sa), ll + sl))
        | _, _ => pure none
      match r with
      | .ok (some (al, l)) => ({ d1 with allocation := al }, .ok (some (al, l)))
      | r => (d1, r)
    else
      match greedyLong fuel ws d.prices d.total with
      | .ok (some (al, l)) => ({ d1 with allocation := al }, .ok (some (al, l)))
      | r => (d1, r)

/-! ### `lp_portfolio` -/

/-- The integer program handed to the solver (discrete_allocation.py:309-324): weights, prices (in
their own orders) and total. -/
structure LpProblem (K : Type) where
  w : List K
  p : List K
  total : K

/-- A solver: `none` when the status is not optimal, else the value of `x`.  The auxiliary `u` is
not read back by the code. -/
abbrev LpSolver (K : Type) := LpProblem K → Option (List K)

/-- Constraints of the integer program (discrete_allocation.py:313-321): `x` integer,
`eta <= u`, `eta >= -u`, `x >= 0`, `r >= 0` with `eta = w*total - x*p`, `r = total - p.x`. -/
def LpFeasible (q : LpProblem K) (x u : List K) : Prop :=
  x.length = q.p.length ∧ u.length = q.p.length ∧ (∀ y ∈ x, ∃ n : ℤ, y = n) ∧
  (∀ i < q.p.length, q.w.getD i 0 * q.total - x.getD i 0 * q.p.getD i 0 ≤ u.getD i 0) ∧
  (∀ i < q.p.length, -u.getD i 0 ≤ q.w.getD i 0 * q.total - x.getD i 0 * q.p.getD i 0) ∧
  (∀ y ∈ x, 0 ≤ y) ∧ 0 ≤ q.total - (List.zipWith (· * ·) q.p x).sum

/-- Objective `sum(u) + r` (discrete_allocation.py:322). -/
def lpObjective (q : LpProblem K) (x u : List K) : K :=
  u.sum + (q.total - (List.zipWith (· * ·) q.p x).sum)

/-- Contract of a solver answer with status "optimal": `x` is part of a minimiser.  (Inexact and
"optimal_inaccurate" answers are not covered.) -/
def LpOptimal (q : LpProblem K) (x : List K) : Prop :=
  ∃ u, LpFeasible q x u ∧ ∀ x' u', LpFeasible q x' u' → lpObjective q x u ≤ lpObjective q x' u'

/-- `np.rint` on one number: nearest integer, halves to even. -/
def rint (x : K) : ℤ :=
  let f := ⌊x⌋
  let d := x - f
  if d < 1 / 2 then f else if 1 / 2 < d then f + 1 else if f % 2 = 0 then f else f + 1

/-- Long-only part of `lp_portfolio` (discrete_allocation.py:309-340): note that `p` is the price
series in ITS OWN order while `w` and the tickers come from `self.weights`.  Shapes that differ make
cvxpy raise ValueError (numpy broadcasting of length-1 vectors is not modelled). -/
def lpLong (solver : LpSolver K) (weights prices : List (κ × K)) (total : K) :
    Except PyErr (Dict κ ℤ × K) :=
  let p := prices.map Prod.snd
  let w := weights.map Prod.snd
  if p.length ≠ w.length then .error .valueError
  else
    match solver { w := w, p := p, total := total } with
    | none => .error .optimization
    | some x =>
      let vals := x.map rint
      let r := total - (List.zipWith (· * ·) p x).sum
      .ok (removeZero (Dict.ofPairs (List.zip (weights.map Prod.fst) vals)), r)

/-- Sub-object construction followed by `.lp_portfolio(solver=solver)` (discrete_allocation.py:288-300). -/
def subLp (solver : LpSolver K) (ws prices : List (κ × K)) (val : K) :
    Except PyErr (Dict κ ℤ × K) := do
  let ps ← subPrices prices (ws.map Prod.fst)
  if val ≤ 0 then .error .valueError
  else lpLong solver ws ps val

/-- `lp_portfolio(reinvest)` (discrete_allocation.py:255-340). -/
def lp (solver : LpSolver K) (reinvest : Bool) (d : DA κ K) :
    DA κ K × Except PyErr (Dict κ ℤ × K) :=
  let r : Except PyErr (Dict κ ℤ × K) :=
    if d.weights.any (fun x => x.2 < 0) then do
      let longs ← normalise (longsOf d.weights)
      let shorts ← normalise (shortsOf d.weights)
      let shortVal := d.total * d.shortRatio
      let longVal := if reinvest then d.total + shortVal else d.total
      let (la, ll) ← subLp solver longs d.prices longVal
      let (sa, sl) ← subLp solver shorts d.prices shortVal
      let sa := sa.map (fun x => (x.1, -x.2))
      pure (removeZero (Dict.update la sa), ll + sl)
    else lpLong solver d.weights d.prices d.total
  match r with
  | .ok (al, l) => ({ d with allocation := al }, .ok (al, l))
  | .error e => (d, .error e)

end Verif.Discrete
