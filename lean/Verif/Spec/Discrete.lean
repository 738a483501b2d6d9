import Verif.Model.Discrete

/-! Vocabulary for the statements about discrete allocation. -/

namespace Verif.Discrete
open Verif.Py

variable {κ : Type} [DecidableEq κ]
variable {K : Type} [Field K] [LinearOrder K] [IsStrictOrderedRing K] [FloorRing K]

/-- Number of shares of `t` in a returned allocation (absent = none held). -/
def held (al : Dict κ ℤ) (t : κ) : ℤ :=
  match al.find? (fun x => x.1 = t) with
  | some x => x.2
  | none => 0

/-- Price of `t` in a price series (only used for listed tickers). -/
def priceOf (prices : List (κ × K)) (t : κ) : K :=
  match prices.find? (fun x => x.1 = t) with
  | some x => x.2
  | none => 0

/-- Money value of the holdings of `al` in the tickers `ts`. -/
def valueIn (prices : List (κ × K)) (ts : List κ) (al : Dict κ ℤ) : K :=
  (ts.map (fun t => priceOf prices t * (held al t : K))).sum

/-- Every ticker of the portfolio has a positive price, tickers are distinct (they are dict keys),
the total is positive and the portfolio is not empty. -/
structure Valid (d : DA κ K) : Prop where
  nodup : (d.weights.map Prod.fst).Nodup
  priced : ∀ x ∈ d.weights, x.1 ∈ d.prices.map Prod.fst ∧ 0 < priceOf d.prices x.1
  total_pos : 0 < d.total
  nonempty : d.weights ≠ []

/-- A valid long-only portfolio of total weight at most one. -/
structure ValidLong (d : DA κ K) : Prop extends Valid d where
  nonneg : ∀ x ∈ d.weights, 0 ≤ x.2
  sum_le : (d.weights.map Prod.snd).sum ≤ 1

/-- The call finishes, whatever (large enough) number of iterations it is allowed, with result `r`
and final object `d'`. -/
def Finishes (d : DA κ K) (reinvest : Bool) (d' : DA κ K)
    (r : Except PyErr (Dict κ ℤ × K)) : Prop :=
  ∃ N, ∀ fuel, N ≤ fuel → greedy fuel reinvest d = (d', r.map some)

end Verif.Discrete
