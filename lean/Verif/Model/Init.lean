import Verif.Model.Base

/-!
Model of the constructors of `EfficientFrontier`, `EfficientCVaR`, `EfficientCDaR`,
`EfficientSemivariance` and `CLA`, as far as the data and its labels are concerned.

`V` is the type of the numbers in the data; a missing value in a frame of returns is `none`.  Arrays
have one or two dimensions.  `solver`, `verbose`, `solver_options` are stored unread and not modelled,
nor are warnings and the cvxpy variables.
-/

namespace Verif.Init
open Verif.Py Verif.Base

variable {κ V K : Type}

/-- A two-dimensional array: its rows and `shape[1]`. -/
structure Arr (V : Type) where
  width : ℕ
  rows : List (List V)

/-- Every row has `shape[1]` entries. -/
def Arr.Ok (a : Arr V) : Prop := ∀ r ∈ a.rows, r.length = a.width

/-- The `expected_returns` argument.  A list is a list of numbers. -/
inductive MuArg (κ V : Type)
  | none
  | series (s : List (κ × V))
  | list (l : List V)
  | array1 (l : List V)
  | array2 (a : Arr V)
  | other

/-- The `cov_matrix` argument. -/
inductive CovArg (κ V : Type)
  | none
  | frame (index cols : List κ) (rows : List (List V))
  | array1 (l : List V)
  | array2 (a : Arr V)
  | other

/-- An array as stored on the object. -/
inductive Stored (V : Type)
  | one (l : List V)
  | two (a : Arr V)

/-- What the constructors leave on the object. -/
structure Obj (κ V K : Type) where
  tickers : List κ
  mu : Option (List V)
  cov : Stored V
  bounds : List (Flt K) × List (Flt K)

/-- `_validate_expected_returns` (efficient_frontier.py:117-127). -/
def validMu : MuArg κ V → Except PyErr (Option (List V))
  | .none => .ok Option.none
  | .series s => .ok (some (s.map Prod.snd))
  | .list l => .ok (some l)
  | .array1 l => .ok (some l)
  | .array2 a => .ok (some a.rows.flatten)
  | .other => .error .typeError

/-- `_validate_cov_matrix` (efficient_frontier.py:130-138). -/
def validCov : CovArg κ V → Except PyErr (Stored V)
  | .none => .error .valueError
  | .frame _ cols rows => .ok (.two ⟨cols.length, rows⟩)
  | .array1 l => .ok (.one l)
  | .array2 a => .ok (.two a)
  | .other => .error .typeError

/-- `len(expected_returns)`; TypeError for `None`, and for the objects `_validate_expected_returns`
refuses, if they have no length. -/
def muLen : MuArg κ V → Except PyErr ℕ
  | .none => .error .typeError
  | .series s => .ok s.length
  | .list l => .ok l.length
  | .array1 l => .ok l.length
  | .array2 a => .ok a.rows.length
  | .other => .error .typeError

/-- `len(a)` of an array. -/
def Stored.len : Stored V → ℕ
  | .one l => l.length
  | .two a => a.rows.length

/-- `a.shape`. -/
def Stored.shape : Stored V → List ℕ
  | .one l => [l.length]
  | .two a => [a.rows.length, a.width]

/-- The labels (efficient_frontier.py:95-101).  `natKey i` is the integer `i` as a label. -/
def labels (natKey : ℕ → κ) (mu : MuArg κ V) (cov : CovArg κ V) (n : ℕ) : List κ :=
  match mu, cov with
  | .series s, _ => s.map Prod.fst
  | _, .frame _ cols _ => cols
  | _, _ => (List.range n).map natKey

/-- `num_assets` (efficient_frontier.py:90-93). -/
def numAssets (mu : MuArg κ V) (c : Stored V) (m : Option (List V)) : Except PyErr ℕ :=
  match m with
  | Option.none => .ok c.len
  | some _ => muLen mu

section
variable [Field K] [LinearOrder K]

/-- `EfficientFrontier.__init__` (efficient_frontier.py:55-115) with `BaseConvexOptimizer.__init__`
(base_optimizer.py:173-188). -/
def initEf (big : K) (natKey : ℕ → κ) (mu : MuArg κ V) (cov : CovArg κ V) (wb : BoundsArg K) :
    Except PyErr (Obj κ V K) := do
  let c ← validCov cov
  let m ← validMu mu
  let n ← numAssets mu c m
  let ts := labels natKey mu cov n
  if m.isSome ∧ c.shape ≠ [n, n] then .error .valueError
  else
    let b ← mapBounds big ts.length wb
    pure ⟨ts, m, c, b⟩

/-- The `returns` argument. -/
inductive RetArg (κ V : Type)
  | frame (cols : List κ) (rows : List (List (Option V)))
  | array1 (l : List (Option V))
  | array2 (a : Arr (Option V))
  | other

/-- `returns.shape[1]`. -/
def retWidth : RetArg κ V → Except PyErr ℕ
  | .frame cols _ => .ok cols.length
  | .array1 _ => .error .indexError
  | .array2 a => .ok a.width
  | .other => .error .attribute

/-- `pd.DataFrame(returns)`: number of columns and rows. -/
def retFrame : RetArg κ V → Except PyErr (Arr (Option V))
  | .frame cols rows => .ok ⟨cols.length, rows⟩
  | .array1 l => .ok ⟨1, l.map (fun x => [x])⟩
  | .array2 a => .ok a
  | .other => .error .typeError

/-- `dropna(axis=0, how="any")` (efficient_frontier.py:153): the rows without missing values. -/
def complete (rows : List (List (Option V))) : List (List V) := rows.filterMap (fun r => r.mapM id)

/-- `_validate_returns` (efficient_frontier.py:140-161). -/
def validReturns (mu : Option (List V)) (r : RetArg κ V) : Except PyErr (Arr V) := do
  let a ← retFrame r
  match mu with
  | Option.none => pure ⟨a.width, complete a.rows⟩
  | some m => if a.width ≠ m.length then .error .valueError else pure ⟨a.width, complete a.rows⟩

/-- `_validate_beta` (efficient_cvar.py:97-105, efficient_cdar.py:97-105). -/
def validBeta : Flt K → Except PyErr K
  | .fin b => if 0 ≤ b ∧ b < 1 then .ok b else .error .valueError
  | _ => .error .valueError

/-- The three classes built on historical returns. -/
inductive Kind
  | cvar | cdar | semi
  deriving DecidableEq

/-- The dummy covariance `np.zeros((n, n))`. -/
def zeros (zero : V) (n : ℕ) : CovArg κ V := .array2 ⟨n, List.replicate n (List.replicate n zero)⟩

/-- The size of the dummy covariance (efficient_cvar.py:81, efficient_cdar.py:80,
efficient_semivariance.py:91). -/
def dummySize (kind : Kind) (mu : MuArg κ V) (r : RetArg κ V) : Except PyErr ℕ :=
  match kind with
  | .cdar => muLen mu
  | _ => retWidth r

/-- An object of one of those classes. -/
structure TailObj (κ V K : Type) where
  base : Obj κ V K
  returns : Arr V
  beta : Option K

/-- `EfficientCVaR.__init__` (efficient_cvar.py:49-91), `EfficientCDaR.__init__`
(efficient_cdar.py:48-91), `EfficientSemivariance.__init__` (efficient_semivariance.py:50-101).  The
semivariance class has no `beta`; its benchmark and frequency are stored as given. -/
def initTail (big : K) (natKey : ℕ → κ) (zero : V) (kind : Kind) (mu : MuArg κ V) (r : RetArg κ V)
    (beta : Flt K) (wb : BoundsArg K) : Except PyErr (TailObj κ V K) := do
  let n ← dummySize kind mu r
  let o ← initEf big natKey mu (zeros zero n) wb
  let a ← validReturns o.mu r
  if kind = .semi then pure ⟨o, a, Option.none⟩
  else
    let b ← validBeta beta
    pure ⟨o, a, some b⟩

end

/-- `CLA.__init__` (cla.py:50-97) without the bounds (`Model/Cla`): `self.expected_returns`,
`self.cov_matrix`, tickers.  Reshaping an array with more than one column raises ValueError; anything
else that has a length is left out. -/
def initCla (natKey : ℕ → κ) (mu : MuArg κ V) (cov : Stored V) :
    Except PyErr (List κ × List V × Stored V) :=
  match mu with
  | .none => .error .typeError
  | .other => .error .typeError
  | .series s => .ok (s.map Prod.fst, s.map Prod.snd, cov)
  | .list l => .ok ((List.range l.length).map natKey, l, cov)
  | .array1 l => .ok ((List.range l.length).map natKey, l, cov)
  | .array2 a =>
    if a.rows.flatten.length = a.rows.length then
      .ok ((List.range a.rows.length).map natKey, a.rows.flatten, cov)
    else .error .valueError

/-- `HRPOpt.__init__` (hierarchical_portfolio.py:53-75): the tickers.  `returns` and `cov_matrix` as
the column labels of a frame (`some (some _)`), another object (`some none`) or `None`.  A covariance
without `columns` raises AttributeError. -/
def initHrp (returns cov : Option (Option (List κ))) : Except PyErr (List κ) :=
  match returns, cov with
  | Option.none, Option.none => .error .valueError
  | some Option.none, _ => .error .typeError
  | some (some cols), _ => .ok cols
  | Option.none, some (some cols) => .ok cols
  | Option.none, some Option.none => .error .attribute

end Verif.Init
