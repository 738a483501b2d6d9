import Verif.Model.Base
import Mathlib.Analysis.Real.Sqrt
import Mathlib.Algebra.BigOperators.Group.List.Basic
import Mathlib.Algebra.Order.Floor.Ring
import Mathlib.Algebra.Order.Archimedean.Real.Basic
import Mathlib.Data.List.Sort

/-!
Model of `HRPOpt` (hierarchical_portfolio.py).  A labelled covariance frame is a function
`cov : κ → κ → K` on tickers (`cov.loc[a, b]`); tickers are assumed distinct, as pandas needs for
label slicing to mean what the code expects.  `scipy`'s `linkage` is an oracle returning the pairs of
cluster ids merged (the first two columns of the linkage matrix); `to_tree(...).pre_order()` is
modelled.  Division by zero is totalised (`x / 0 = 0`); theorems assume positive variances.
-/

namespace Verif.Hrp
open Verif.Py Verif.Base

section Raw
variable {κ : Type} [DecidableEq κ]
variable {K : Type} [Field K] [LinearOrder K] [IsStrictOrderedRing K]

/-- `HRPOpt._get_cluster_var` (hierarchical_portfolio.py:78-93). -/
def clusterVar (cov : κ → κ → K) (items : List κ) : K :=
  let inv := items.map (fun t => 1 / cov t t)
  let weights := inv.map (fun x => x / inv.sum)
  ((items.zip weights).map (fun p =>
    p.2 * ((items.zip weights).map (fun q => cov p.1 q.1 * q.2)).sum)).sum

/-- The bisection list comprehension (hierarchical_portfolio.py:124-129). -/
def bisect (clusters : List (List κ)) : List (List κ) :=
  clusters.flatMap (fun i =>
    if 1 < i.length then [i.take (i.length / 2), i.drop (i.length / 2)] else [])

/-- `w[items] *= a` on a series with distinct labels (hierarchical_portfolio.py:138-139). -/
def scale (w : Dict κ K) (items : List κ) (a : K) : Dict κ K :=
  w.map (fun p => if p.1 ∈ items then (p.1, p.2 * a) else p)

/-- The `for` loop over pairs of clusters (hierarchical_portfolio.py:131-139).  The list has even
length, so `cluster_items[i + 1]` always exists. -/
def splitPairs (cov : κ → κ → K) : Dict κ K → List (List κ) → Dict κ K
  | w, a :: b :: rest =>
    let v1 := clusterVar cov a
    let v2 := clusterVar cov b
    let alpha := 1 - v1 / (v1 + v2)
    splitPairs cov (scale (scale w a alpha) b (1 - alpha)) rest
  | w, _ => w

/-- The `while` loop (hierarchical_portfolio.py:123-139); `none` when the fuel runs out. -/
def loop (cov : κ → κ → K) : ℕ → Dict κ K → List (List κ) → Option (Dict κ K)
  | 0, _, _ => none
  | fuel + 1, w, clusters =>
    if clusters.length > 0 then
      loop cov fuel (splitPairs cov w (bisect clusters)) (bisect clusters)
    else some w

/-- `HRPOpt._raw_hrp_allocation` (hierarchical_portfolio.py:108-140) with a fuel bound on the number
of iterations of the `while` loop. -/
def rawAllocation (fuel : ℕ) (cov : κ → κ → K) (ordered : List κ) : Option (Dict κ K) :=
  loop cov fuel (ordered.map (fun t => (t, 1))) [ordered]

end Raw

/-! ### Clustering -/

/-- A node of scipy's cluster tree. -/
inductive Tree
  | leaf (i : ℕ)
  | node (l r : Tree)

/-- `ClusterNode.pre_order()`: the leaf ids from left to right. -/
def Tree.preOrder : Tree → List ℕ
  | .leaf i => [i]
  | .node l r => l.preOrder ++ r.preOrder

/-- One row of the linkage matrix in `to_tree`: the new cluster joins two earlier ones.  A row naming
a cluster that does not exist is an error (scipy validates the matrix). -/
def grow (nodes : List Tree) : List (ℕ × ℕ) → Except PyErr (List Tree)
  | [] => .ok nodes
  | (a, b) :: rows =>
    match nodes[a]?, nodes[b]? with
    | some l, some r => grow (nodes ++ [.node l r]) rows
    | _, _ => .error .valueError

/-- `HRPOpt._get_quasi_diag` (hierarchical_portfolio.py:96-105): `to_tree(link).pre_order()` for `n`
original observations. -/
def quasiDiag (n : ℕ) (link : List (ℕ × ℕ)) : Except PyErr (List ℕ) := do
  let nodes ← grow ((List.range n).map .leaf) link
  match nodes.getLast? with
  | some t => pure t.preOrder
  | none => .error .valueError

section Optimize
noncomputable section
variable {κ : Type} [LinearOrder κ]

/-- What the constructor stored (hierarchical_portfolio.py:53-75): the tickers, and either a covariance
frame or a returns frame, of which only `.corr()` and `.cov()` are used (their computation by pandas
is not modelled here). -/
inductive Input (κ : Type)
  | cov (S : κ → κ → ℝ)
  | returns (corr cov : κ → κ → ℝ)

/-- `risk_models.cov_to_corr(cov).round(6)` (risk_models.py:320-335, hierarchical_portfolio.py:157). -/
def covToCorr (S : κ → κ → ℝ) (a b : κ) : ℝ :=
  1 / Real.sqrt (S a a) * (S a b * (1 / Real.sqrt (S b b)))

/-- The distance matrix (hierarchical_portfolio.py:165). -/
def distance (corr : κ → κ → ℝ) (a b : κ) : ℝ :=
  Real.sqrt (min (max ((1 - corr a b) / 2) 0) 1)

/-- The covariance and correlation used (hierarchical_portfolio.py:155-159). -/
def Input.covUsed : Input κ → κ → κ → ℝ
  | .cov S => S
  | .returns _ S => S

def Input.corrUsed : Input κ → κ → κ → ℝ
  | .cov S => fun a b => npRound 6 (covToCorr S a b)
  | .returns c _ => c

/-- Stable sort of a series by label, `hrp.sort_index()`. -/
def sortIndex (w : Dict κ ℝ) : Dict κ ℝ := w.insertionSort (fun p q => p.1 ≤ q.1)

/-- `HRPOpt.optimize` (hierarchical_portfolio.py:142-174).  `methodOk` says whether scipy knows the
linkage method, `linkage` is the clustering oracle on the distance matrix between tickers.  The object
state is `(tickers, weights)`; returned with the outcome.  `none` = loop did not finish in `fuel`. -/
def optimize (linkage : (κ → κ → ℝ) → Except PyErr (List (ℕ × ℕ))) (fuel : ℕ) (methodOk : Bool)
    (o : Opt κ ℝ) (inp : Input κ) : Opt κ ℝ × Option (Except PyErr (Dict κ ℝ)) :=
  if !methodOk then (o, some (.error .valueError))
  else
    match linkage (distance inp.corrUsed) with
    | .error e => (o, some (.error e))
    | .ok link =>
      match quasiDiag o.tickers.length link with
      | .error e => (o, some (.error e))
      | .ok ix =>
        match ix.mapM (fun i => o.tickers[i]?) with
        | none => (o, some (.error .indexError))
        | some ordered =>
          match rawAllocation fuel inp.covUsed ordered with
          | none => (o, none)
          | some hrp =>
            let weights := Dict.ofPairs (sortIndex hrp)
            match setWeights o weights with
            | (o', .error e) => (o', some (.error e))
            | (o', .ok _) => (o', some (.ok weights))

end
end Optimize
end Verif.Hrp
