import Verif.Model.Base
import Mathlib.Analysis.Real.Sqrt

/-!
Model of the module-level `portfolio_performance` (base_optimizer.py:515-578) together with the
numeric branch of the objective functions it calls (objective_functions.py:35-115).  Numbers are
real; a float result may also be NaN or infinite (`Flt`).  Printing (`verbose`) is not modelled.
-/

noncomputable section

namespace Verif.Perf
open Verif.Py Verif.Base

variable {κ : Type} [DecidableEq κ]

/-- The `weights` argument. -/
inductive WeightsArg (κ : Type)
  | none
  | dict (d : Dict κ ℝ)
  | array (w : List ℝ)

/-- The `expected_returns` argument: `None`, a labelled series, or an unlabelled array. -/
inductive ReturnsArg (κ : Type)
  | none
  | series (s : List (κ × ℝ))
  | array (m : List ℝ)

/-- The `cov_matrix` argument: a labelled frame or an unlabelled array, as rows. -/
inductive CovArg (κ : Type)
  | frame (cols : List κ) (rows : List (List ℝ))
  | array (rows : List (List ℝ))

def ReturnsArg.values : ReturnsArg κ → Option (List ℝ)
  | .none => Option.none
  | .series s => some (s.map Prod.snd)
  | .array m => some m

def CovArg.rows : CovArg κ → List (List ℝ)
  | .frame _ r => r
  | .array r => r

/-- `a @ b` on equally long vectors. -/
def dot (a b : List ℝ) : ℝ := (List.zipWith (· * ·) a b).sum

/-- `cp.quad_form(w, P).value` for a constant `w` (objective_functions.py:70, 112): the matrix must be
square and as wide as `w` is long, otherwise cvxpy raises. -/
def quadForm (w : List ℝ) (rows : List (List ℝ)) : Except PyErr ℝ :=
  if rows.length = w.length ∧ rows.all (fun r => r.length == w.length) then
    .ok (dot w (rows.map (fun r => dot r w)))
  else .error .valueError

/-- `w @ expected_returns` (objective_functions.py:88, 111). -/
def matmul (w m : List ℝ) : Except PyErr ℝ :=
  if w.length = m.length then .ok (dot w m) else .error .valueError

/-- `np.sqrt` on a real: NaN for negative numbers (base_optimizer.py:556; `cp.sqrt`,
objective_functions.py:112). -/
def fsqrt (x : ℝ) : Flt ℝ := if x < 0 then .nan else .fin (Real.sqrt x)

/-- numpy division of a real by a float square root. -/
def fdiv (x : ℝ) : Flt ℝ → Flt ℝ
  | .fin y =>
    if y = 0 then (if x = 0 then .nan else if 0 < x then .posInf else .negInf) else .fin (x / y)
  | .nan => .nan
  | .posInf => .fin 0
  | .negInf => .fin 0

/-- `sharpe_ratio(..., negative=False)` (objective_functions.py:92-115). -/
def sharpe (w m : List ℝ) (rows : List (List ℝ)) (rf : ℝ) : Except PyErr (Flt ℝ) := do
  let mu ← matmul w m
  let q ← quadForm w rows
  pure (fdiv (mu - rf) (fsqrt q))

/-- The tickers used to read a weights dict (base_optimizer.py:538-543).  `natKey i` is the integer
`i` as a dict key.  `len(None)` raises TypeError. -/
def tickersOf (natKey : ℕ → κ) : ReturnsArg κ → CovArg κ → Except PyErr (List κ)
  | .series s, _ => .ok (s.map Prod.fst)
  | _, .frame cols _ => .ok cols
  | .array m, .array _ => .ok ((List.range m.length).map natKey)
  | .none, .array _ => .error .typeError

/-- `new_weights` (base_optimizer.py:537-554). -/
def weightVector (natKey : ℕ → κ) (w : WeightsArg κ) (er : ReturnsArg κ) (cov : CovArg κ) :
    Except PyErr (List ℝ) :=
  match w with
  | .none => .error .valueError
  | .array w => .ok w
  | .dict d => do
    let ts ← tickersOf natKey er cov
    let nw := ts.map (fun t => (Dict.get? d t).getD 0)
    if nw.sum = 0 then .error .valueError else .ok nw

/-- `portfolio_performance` (base_optimizer.py:515-578). -/
def performance (natKey : ℕ → κ) (w : WeightsArg κ) (er : ReturnsArg κ) (cov : CovArg κ) (rf : ℝ) :
    Except PyErr (Option (Flt ℝ) × Flt ℝ × Option (Flt ℝ)) := do
  let nw ← weightVector natKey w er cov
  let q ← quadForm nw cov.rows
  match er.values with
  | none => pure (none, fsqrt q, none)
  | some m =>
    let mu ← matmul nw m
    let s ← sharpe nw m cov.rows rf
    pure (some (.fin mu), fsqrt q, some s)

end Verif.Perf
