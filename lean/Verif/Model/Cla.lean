import Verif.Model.Py
import Mathlib.Algebra.BigOperators.Group.Finset.Basic
import Mathlib.Algebra.Order.Floor.Ring
import Mathlib.Data.Fintype.BigOperators
import Mathlib.Data.List.Sort
import Mathlib.Data.List.FinRange
import Mathlib.Logic.Function.Basic
import Mathlib.LinearAlgebra.Matrix.Defs
import Mathlib.Algebra.Field.Rat

/-!
Model of the critical line algorithm (`cla.py`) over a linear ordered field.  Column vectors of shape
`(n, 1)` are functions `Fin n → K`.  `np.linalg.inv` is an oracle.  Division by zero is totalised
(`x / 0 = 0`, in numpy inf/NaN); theorems that depend on divisions state the non-zero hypothesis.
-/

namespace Verif.Cla
open Verif.Py

variable {K : Type} [Field K] [LinearOrder K] [IsStrictOrderedRing K]
variable {n : ℕ}

/-- What the constructor stores (cla.py:50-97).  `store` is the conversion applied when a number is
written into an array of the dtype of `lB` (numpy keeps the dtype of `np.copy(self.lB)`, cla.py:121):
the identity for float bounds, truncation towards zero when all bounds were given as integers in a
per-asset or array spelling (cla.py:74-75, 80, 84). -/
structure Problem (n : ℕ) (K : Type) where
  mean : Fin n → K
  cov : Matrix (Fin n) (Fin n) K
  lB : Fin n → K
  uB : Fin n → K
  store : K → K := id

/-- The mutable lists `self.w`, `self.ls`, `self.g`, `self.f` (cla.py:86-89). -/
structure State (n : ℕ) (K : Type) where
  w : List (Fin n → K) := []
  ls : List (Option K) := []
  g : List (Option K) := []
  f : List (List (Fin n)) := []

/-- The oracle for `np.linalg.inv`. -/
abbrev Inv (K : Type) := (m : ℕ) → Matrix (Fin m) (Fin m) K → Except PyErr (Matrix (Fin m) (Fin m) K)

/-- Contract of `np.linalg.inv`: an answer is a two-sided inverse. -/
def Inv.Sound (inv : Inv K) : Prop :=
  ∀ m A B, inv m A = .ok B →
    (∀ i j, ∑ k, A i k * B k j = if i = j then 1 else 0) ∧
    (∀ i j, ∑ k, B i k * A k j = if i = j then 1 else 0)

/-! ### `_init_algo` -/

/-- `np.sort(a, order="mu")` on `(id, mu)` records, ties broken by id (cla.py:114-119). -/
def order (p : Problem n K) : List (Fin n) :=
  (List.finRange n).insertionSort (fun i j => p.mean i < p.mean j ∨ (p.mean i = p.mean j ∧ i ≤ j))

/-- The loop and final adjustment of `_init_algo` (cla.py:121-126).  `visits` lists `b[i][0]` for
`i = n-1, n-2, …` including the negative indices `-1, …, -n` Python accepts, `cur` is the current
`b[i][0]` (`none` for `i = n`, which is out of range). -/
def initWalk (p : Problem n K) (visits : List (Fin n)) (w : Fin n → K) (cur : Option (Fin n)) :
    Except PyErr (List (Fin n) × (Fin n → K)) :=
  if ∑ i, w i < 1 then
    match visits with
    | [] => .error .indexError
    | j :: vs => initWalk p vs (Function.update w j (p.store (p.uB j))) (some j)
  else
    match cur with
    | none => .error .indexError
    | some j => .ok ([j], Function.update w j (p.store (w j + (1 - ∑ i, w i))))

/-- `_init_algo` (cla.py:111-126). -/
def initAlgo (p : Problem n K) : Except PyErr (List (Fin n) × (Fin n → K)) :=
  initWalk p ((order p).reverse ++ (order p).reverse) p.lB none

/-! ### Sub-problem algebra -/

/-- `_get_b` (cla.py:188-189) with `_diff_lists` (cla.py:192-193): the assets not in `f`.
(A Python set of small ints iterates in increasing order.) -/
def getB (f : List (Fin n)) : List (Fin n) := (List.finRange n).filter (fun i => i ∉ f)

/-- `covarF` of `_get_matrices` (cla.py:179-186), sliced by `_reduce_matrix` (cla.py:196-208). -/
def covF (p : Problem n K) (f : List (Fin n)) : Matrix (Fin f.length) (Fin f.length) K :=
  fun a c => p.cov (f.get a) (f.get c)

/-- `np.dot(np.dot(ones.T, A), v)`. -/
def onesDot {m : ℕ} (A : Matrix (Fin m) (Fin m) K) (v : Fin m → K) : K := ∑ a, ∑ c, A a c * v c

/-- `np.dot(A, v)`. -/
def apply {m : ℕ} (A : Matrix (Fin m) (Fin m) K) (v : Fin m → K) (a : Fin m) : K := ∑ c, A a c * v c

/-- `np.dot(covarFB, wB)` with `wB` sliced from the last stored solution `wl` (cla.py:184-185). -/
def crossTerm (p : Problem n K) (f : List (Fin n)) (wl : Fin n → K) (a : Fin f.length) : K :=
  ((getB f).map (fun j => p.cov (f.get a) j * wl j)).sum

/-- `_compute_w` (cla.py:135-152): the free weights and gamma, for multiplier `l = self.ls[-1]`.
`wB is None` exactly when no asset is bound. -/
def computeW (p : Problem n K) (f : List (Fin n)) (Finv : Matrix (Fin f.length) (Fin f.length) K)
    (meanF : Fin f.length → K) (wl : Fin n → K) (l : K) : (Fin f.length → K) × K :=
  let g1 := onesDot Finv meanF
  let g2 := onesDot Finv (fun _ => 1)
  let w1 : Fin f.length → K := if getB f = [] then fun _ => 0 else apply Finv (crossTerm p f wl)
  let g3 := ((getB f).map wl).sum
  let g4 := ∑ a, w1 a
  let g : K :=
    if getB f = [] then -l * g1 / g2 + 1 / g2
    else -l * g1 / g2 + (1 - g3 + g4) / g2
  let w2 := apply Finv (fun _ => 1)
  let w3 := apply Finv meanF
  let wF : Fin f.length → K := fun a => -(w1 a) + g * w2 a + l * w3 a
  ⟨wF, g⟩

/-- The bound argument of `_compute_lambda`: a value, or the pair `[lB[i], uB[i]]`. -/
inductive BoundArg (K : Type)
  | value (x : K)
  | pair (lo up : K)

/-- `_compute_lambda` (cla.py:154-177) with `_compute_bi` (cla.py:128-133); `none` is `(None, None)`. -/
def computeLambda (p : Problem n K) (f : List (Fin n))
    (Finv : Matrix (Fin f.length) (Fin f.length) K) (meanF : Fin f.length → K) (wl : Fin n → K)
    (i : Fin f.length) (bi : BoundArg K) : Option (K × K) :=
  let c1 := onesDot Finv (fun _ => 1)
  let c2 := apply Finv meanF
  let c3 := onesDot Finv meanF
  let c4 := apply Finv (fun _ => 1)
  let c := -c1 * c2 i + c3 * c4 i
  if c = 0 then none
  else
    let b := match bi with
      | .value x => x
      | .pair lo up => if 0 < c then up else lo
    if getB f = [] then some ((c4 i - c1 * b) / c, b)
    else
      let l1 := ((getB f).map wl).sum
      let l3 := apply Finv (crossTerm p f wl)
      let l2 := ∑ a, l3 a
      some (((1 - l1 + l2) * c4 i - c1 * (b + l3 i)) / c, b)

def meanOf (p : Problem n K) (f : List (Fin n)) : Fin f.length → K := fun a => p.mean (f.get a)

/-- `_infnone(a) > _infnone(b)` (cla.py:100-109). -/
def infGt : Option K → Option K → Bool
  | none, _ => false
  | some _, none => true
  | some a, some b => decide (a > b)

/-! ### `_solve` -/

/-- Case a) (cla.py:310-322): the largest multiplier at which a free asset reaches a bound. -/
def caseA (p : Problem n K) (inv : Inv K) (f : List (Fin n)) (wl : Fin n → K) :
    Except PyErr (Option (K × Fin n × K)) :=
  if 1 < f.length then do
    let Finv ← inv f.length (covF p f)
    pure ((List.finRange f.length).foldl (fun best j =>
      match computeLambda p f Finv (meanOf p f) wl j (.pair (p.lB (f.get j)) (p.uB (f.get j))) with
      | none => best
      | some (l, b) => if infGt (some l) (best.map (·.1)) then some (l, f.get j, b) else best) none)
  else pure none

/-- Case b) (cla.py:323-341): the largest multiplier below the current one at which a bound asset
becomes free.  A `None` multiplier makes the comparison raise TypeError. -/
def caseB (p : Problem n K) (inv : Inv K) (f : List (Fin n)) (wl : Fin n → K) (last : Option K) :
    Except PyErr (Option (K × Fin n)) :=
  if f.length < n then
    (getB f).foldlM (fun best i => do
      let f' := f ++ [i]
      let Finv ← inv f'.length (covF p f')
      match computeLambda p f' Finv (meanOf p f') wl ⟨f.length, by simp [f']⟩ (.value (wl i)) with
      | none => .error .typeError
      | some (l, _) =>
        let below := match last with | none => true | some x => decide (l < x)
        pure (if below && infGt (some l) (best.map (·.1)) then some (l, i) else best)) none
  else pure none

/-- `w[f[i]] = wF[i]` for all `i` (cla.py:361-362). -/
def writeFree (p : Problem n K) (f : List (Fin n)) (wF : Fin f.length → K) (w : Fin n → K) :
    Fin n → K :=
  (List.finRange f.length).foldl (fun w a => Function.update w (f.get a) (p.store (wF a))) w

def negOrNone : Option K → Bool
  | none => true
  | some x => decide (x < 0)

/-- Step 4) (cla.py:349-356): the multiplier, the new free list and the working vector.  The caller
makes sure that one of the two candidates is present. -/
def chooseLambda (p : Problem n K) (lin : Option (K × Fin n × K)) (lout : Option (K × Fin n))
    (f : List (Fin n)) (w : Fin n → K) : K × List (Fin n) × (Fin n → K) :=
  if infGt (lin.map (·.1)) (lout.map (·.1)) then
    match lin with
    | some (l, i, b) => (l, f.erase i, Function.update w i (p.store b))
    | none => (0, f, w)
  else
    match lout with
    | some (l, i) => (l, f ++ [i], w)
    | none => (0, f, w)

/-- One iteration of the main loop (cla.py:309-367).  Local state: the free list `f`, the working
vector `w`.  `done` tells whether the loop breaks. -/
def solveStep (p : Problem n K) (inv : Inv K) (s : State n K) (f : List (Fin n)) (w : Fin n → K) :
    Except PyErr (State n K × List (Fin n) × (Fin n → K) × Bool) := do
  let wl := s.w.getLast?.getD w
  let last := s.ls.getLast?.join
  let lin ← caseA p inv f wl
  let lout ← caseB p inv f wl last
  if negOrNone (lin.map (·.1)) && negOrNone (lout.map (·.1)) then
    let Finv ← inv f.length (covF p f)
    let (wF, g) := computeW p f Finv (fun _ => 0) wl 0
    let w' := writeFree p f wF w
    pure ({ w := s.w ++ [w'], ls := s.ls ++ [some 0], g := s.g ++ [some g], f := s.f ++ [f] }, f, w', true)
  else
    let (l, f', w0) := chooseLambda p lin lout f w
    let Finv ← inv f'.length (covF p f')
    let (wF, g) := computeW p f' Finv (meanOf p f') wl l
    let w' := writeFree p f' wF w0
    pure ({ w := s.w ++ [w'], ls := s.ls ++ [some l], g := s.g ++ [some g], f := s.f ++ [f'] }, f', w',
      decide (l = 0))

/-- What is left of the lists when an iteration raises: `self.ls` may already have been extended, which
no later code path reads before `self.w`; we keep the lists of the last complete iteration
(simplification).  `none` = out of fuel. -/
def solveLoop (p : Problem n K) (inv : Inv K) : ℕ → State n K → List (Fin n) → (Fin n → K) →
    Option (State n K × Except PyErr Unit)
  | 0, _, _, _ => none
  | fuel + 1, s, f, w =>
    match solveStep p inv s f w with
    | .error e => some (s, .error e)
    | .ok (s', _, _, true) => some (s', .ok ())
    | .ok (s', f', w', false) => solveLoop p inv fuel s' f' w'

/-- `del self.w[i]; del self.ls[i]; del self.g[i]; del self.f[i]` (cla.py:228-231, 252-255). -/
def State.del (s : State n K) (i : ℕ) : State n K :=
  { w := s.w.eraseIdx i, ls := s.ls.eraseIdx i, g := s.g.eraseIdx i, f := s.f.eraseIdx i }

/-- The test of `_purge_num_err` on one turning point (cla.py:217-226). -/
def numErr (p : Problem n K) (tol : K) (w : Fin n → K) : Bool :=
  decide (|(∑ i, w i) - 1| > tol) ||
    decide (∃ j, w j - p.lB j < -tol ∨ w j - p.uB j > tol)

/-- `_purge_num_err` (cla.py:210-233) from index `i`; `none` = out of fuel. -/
def purgeNumErr (p : Problem n K) (tol : K) : ℕ → ℕ → State n K → Option (State n K)
  | 0, _, _ => none
  | fuel + 1, i, s =>
    match s.w[i]? with
    | none => some s
    | some w => if numErr p tol w then purgeNumErr p tol fuel i (s.del i)
      else purgeNumErr p tol fuel (i + 1) s

/-- `np.dot(w.T, self.mean)[0, 0]`. -/
def ret (p : Problem n K) (w : Fin n → K) : K := ∑ i, w i * p.mean i

/-- The inner loop of `_purge_excess` (cla.py:246-259): is there a later point with a larger return? -/
def laterLarger (p : Problem n K) (mu : K) (later : List (Fin n → K)) : Bool :=
  later.any (fun w => decide (mu < ret p w))

/-- `_purge_excess` (cla.py:235-259); `i` is the index after the conditional increment at the top of
the outer loop.  Reading `self.w[i]` out of range raises IndexError.  `none` = out of fuel. -/
def purgeExcess (p : Problem n K) : ℕ → ℕ → State n K → Option (State n K × Except PyErr Unit)
  | 0, _, _ => none
  | fuel + 1, i, s =>
    if i + 1 = s.w.length then some (s, .ok ())
    else
      match s.w[i]? with
      | none => some (s, .error .indexError)
      | some w =>
        if laterLarger p (ret p w) (s.w.drop (i + 1)) then purgeExcess p fuel i (s.del i)
        else purgeExcess p fuel (i + 1) s

/-- `_solve` (cla.py:302-370); `tol = 10e-10`.  `fuel` bounds the iterations of the main loop; the
purging loops get a bound that is proved sufficient. -/
def solve (p : Problem n K) (inv : Inv K) (fuel : ℕ) (s : State n K) :
    Option (State n K × Except PyErr Unit) :=
  match initAlgo p with
  | .error e => some (s, .error e)
  | .ok (f, w) =>
    let s1 : State n K := { w := s.w ++ [w], ls := s.ls ++ [none], g := s.g ++ [none], f := s.f ++ [f] }
    match solveLoop p inv fuel s1 f w with
    | none => none
    | some (s2, .error e) => some (s2, .error e)
    | some (s2, .ok _) =>
      match purgeNumErr p (1 / 10 ^ 9) (s2.w.length + 1) 0 s2 with
      | none => none
      | some s3 => purgeExcess p (s3.w.length + 1) 1 s3

/-! ### Public methods -/

/-- `if not self.w: self._solve()` (cla.py:379-380, 401-402, 421-422). -/
def ensureSolved (p : Problem n K) (inv : Inv K) (fuel : ℕ) (s : State n K) :
    Option (State n K × Except PyErr Unit) :=
  if s.w = [] then solve p inv fuel s else some (s, .ok ())

/-- `_golden_section` (cla.py:261-293) with `numIter` iterations, on the signed objective `f`. -/
def golden (r : K) (f : K → K) : ℕ → K → K → K → K → K → K → K × K
  | 0, _, _, x1, x2, f1, f2 => if f1 < f2 then (x1, f1) else (x2, f2)
  | k + 1, a, b, x1, x2, f1, f2 =>
    if f1 > f2 then
      let x2' := (1 - r) * x1 + r * b
      golden r f k x1 b x2 x2' f2 (f x2')
    else
      let x1' := r * a + (1 - r) * x2
      golden r f k a x2 x1' x1 (f x1') f1

/-- `self._golden_section(obj, 0, 1, minimum=False)`: `numIter = ⌈-2.078087 ln(1e-9)⌉ = 44`,
`r = 0.618033989`; returns the abscissa and the (unsigned) value. -/
def goldenMax (obj : K → K) : K × K :=
  let r : K := 618033989 / 1000000000
  let f : K → K := fun x => -obj x
  let x1 := r * 0 + (1 - r) * 1
  let x2 := (1 - r) * 0 + r * 1
  let (x, v) := golden r f 44 0 1 x1 x2 (f x1) (f x2)
  (x, -v)

/-- `a * w0 + (1 - a) * w1`. -/
def mix (a : K) (w0 w1 : Fin n → K) : Fin n → K := fun i => a * w0 i + (1 - a) * w1 i

/-- The candidates of `max_sharpe` (cla.py:382-389), `sharpe` being the Sharpe ratio of a portfolio. -/
def srCandidates (sharpe : (Fin n → K) → K) : List (Fin n → K) → List ((Fin n → K) × K)
  | w0 :: w1 :: rest =>
    let (a, b) := goldenMax (fun a => sharpe (mix a w0 w1))
    (mix a w0 w1, b) :: srCandidates sharpe (w1 :: rest)
  | _ => []

/-- `xs[vs.index(best)]` with `best` the best value under `better`; ValueError on an empty list. -/
def pickBest {α : Type} (better : K → K → Bool) : List (α × K) → Except PyErr α
  | [] => .error .valueError
  | c :: cs => .ok (cs.foldl (fun best c => if better c.2 best.2 then c else best) c).1

/-- `max_sharpe` (cla.py:372-392): the new state and the weights. -/
def maxSharpe (p : Problem n K) (inv : Inv K) (sharpe : (Fin n → K) → K) (fuel : ℕ) (s : State n K) :
    Option (State n K × Except PyErr (Fin n → K)) :=
  match ensureSolved p inv fuel s with
  | none => none
  | some (s', .error e) => some (s', .error e)
  | some (s', .ok _) => some (s', pickBest (fun a b => decide (a > b)) (srCandidates sharpe s'.w))

/-- `np.dot(np.dot(w.T, cov), w)`. -/
def variance (p : Problem n K) (w : Fin n → K) : K := ∑ i, ∑ j, w i * p.cov i j * w j

/-- `min_volatility` (cla.py:394-409). -/
def minVolatility (p : Problem n K) (inv : Inv K) (fuel : ℕ) (s : State n K) :
    Option (State n K × Except PyErr (Fin n → K)) :=
  match ensureSolved p inv fuel s with
  | none => none
  | some (s', .error e) => some (s', .error e)
  | some (s', .ok _) =>
    some (s', pickBest (fun a b => decide (a < b)) (s'.w.map (fun w => (w, variance p w))))

/-- `np.linspace(0, 1, k)`. -/
def linspace01 (k : ℕ) : List K :=
  (List.range k).map (fun j : ℕ => if k = 1 then 0 else (j : K) / ((k : K) - 1))

/-- The frontier points between consecutive turning points (cla.py:424-437); `k = points // len(w)`.
Returns and volatilities are computed from these weights. -/
def frontierPoints (k : ℕ) : List (Fin n → K) → List (Fin n → K)
  | w0 :: w1 :: rest =>
    let grid : List K := if rest = [] then linspace01 k else (linspace01 k).dropLast
    grid.map (fun j => fun i => w1 i * j + (1 - j) * w0 i) ++ frontierPoints k (w1 :: rest)
  | _ => []

/-- `efficient_frontier(points)` (cla.py:411-440): the list of weights. -/
def efficientFrontier (p : Problem n K) (inv : Inv K) (fuel points : ℕ) (s : State n K) :
    Option (State n K × Except PyErr (List (Fin n → K))) :=
  match ensureSolved p inv fuel s with
  | none => none
  | some (s', .error e) => some (s', .error e)
  | some (s', .ok _) =>
    if s'.w = [] then some (s', .error .zeroDivision)
    else some (s', .ok (frontierPoints (points / s'.w.length) s'.w))

end Verif.Cla
