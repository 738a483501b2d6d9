import Verif.Model.Py
import Verif.Model.Discrete

/-!
Model of `BaseOptimizer` and of `_map_bounds_to_constraints` in `pypfopt/base_optimizer.py`.
-/

namespace Verif.Base
open Verif.Py

variable {κ : Type} [DecidableEq κ]
variable {K : Type} [Field K] [LinearOrder K] [IsStrictOrderedRing K] [FloorRing K]

/-- Instance variables of `BaseOptimizer` (base_optimizer.py:40-54).  `weights = none` is `None`. -/
structure Opt (κ K : Type) where
  tickers : List κ
  weights : Option (List K)

/-- `_make_output_weights` (base_optimizer.py:56-68): `OrderedDict(zip(self.tickers, weights))`.
`float(w)` is the identity on the modelled numbers; iterating over `None` raises TypeError. -/
def makeOutput (o : Opt κ K) (ws : Option (List K)) : Except PyErr (Dict κ K) :=
  match ws.or o.weights with
  | none => .error .typeError
  | some l => .ok (Dict.ofPairs (List.zip o.tickers l))

/-- List comprehension `[input_weights[ticker] for ticker in self.tickers]`. -/
def lookupAll (d : Dict κ K) : List κ → Except PyErr (List K)
  | [] => .ok []
  | t :: ts =>
    match Dict.get? d t with
    | none => .error .keyError
    | some v => (lookupAll d ts).map (v :: ·)

/-- `set_weights` (base_optimizer.py:70-77): the object afterwards and the outcome. -/
def setWeights (o : Opt κ K) (d : Dict κ K) : Opt κ K × Except PyErr Unit :=
  match lookupAll d o.tickers with
  | .error e => (o, .error e)
  | .ok l => ({ o with weights := some l }, .ok ())

/-- The `rounding` argument of `clean_weights`. -/
inductive Rounding
  | none
  | int (n : ℤ)
  | notInt

/-- `np.round(x, n)`: scale, round half to even, scale back. -/
def npRound (n : ℕ) (x : K) : K := (Discrete.rint (x * 10 ^ n) : K) / 10 ^ n

/-- `clean_weights[np.abs(clean_weights) < cutoff] = 0` on one entry (base_optimizer.py:95). -/
def cut (cutoff x : K) : K := if |x| < cutoff then 0 else x

/-- `clean_weights` (base_optimizer.py:79-101): the object afterwards and the outcome. -/
def cleanWeights (o : Opt κ K) (cutoff : K) (rounding : Rounding) :
    Opt κ K × Except PyErr (Dict κ K) :=
  match o.weights with
  | none => (o, .error .attribute)
  | some ws =>
    let cw := ws.map (cut cutoff)
    match rounding with
    | .none => (o, makeOutput o (some cw))
    | .notInt => (o, .error .valueError)
    | .int n =>
      if n < 1 then (o, .error .valueError)
      else (o, makeOutput o (some (cw.map (npRound n.toNat))))

/-- File formats of `save_weights_to_file`. -/
inductive Format
  | csv | json | txt
  deriving DecidableEq, Repr

/-- `filename.split(".")[-1]` : the text after the last dot (the whole name if there is none). -/
def lastSegment (fn : List Char) : List Char :=
  (fn.reverse.takeWhile (· ≠ '.')).reverse

/-- `save_weights_to_file` (base_optimizer.py:103-122): outcome and the file written, if any (name,
format, content).  Default cutoff 1e-4 and rounding 5.  `str.lower` is modelled on ASCII letters. -/
def save (o : Opt κ K) (fn : List Char) :
    Except PyErr Unit × Option (List Char × Format × Dict κ K) :=
  match (cleanWeights o (1 / 10 ^ 4) (.int 5)).2 with
  | .error e => (.error e, none)
  | .ok cw =>
    let ext := (lastSegment fn).map Char.toLower
    if ext = "csv".toList then (.ok (), some (fn, .csv, cw))
    else if ext = "json".toList then (.ok (), some (fn, .json, cw))
    else if ext = "txt".toList then (.ok (), some (fn, .txt, cw))
    else (.error .notImplemented, none)

/-! ### Bounds -/

/-- A float, with NaN and infinities. -/
inductive Flt (K : Type)
  | nan
  | negInf
  | posInf
  | fin (x : K)
  deriving DecidableEq

/-- One element of the `weight_bounds` argument: `None`, a number, or a sequence (tuple, list or
array) of numbers and `None`s.  Other objects (strings, numpy integer scalars) are not modelled. -/
inductive Elt (K : Type)
  | none
  | num (x : Flt K)
  | seq (l : List (Option (Flt K)))

/-- The `weight_bounds` argument: a collection, and whether it is a tuple/list (or e.g. an array). -/
structure BoundsArg (K : Type) where
  tupleOrList : Bool
  elems : List (Elt K)

/-- `np.nan_to_num(x, nan=v)` on one float; infinities become the largest finite floats `±big`. -/
def nanToNum (big : K) (v : Flt K) : Flt K → Flt K
  | .nan => v
  | .negInf => .fin (-big)
  | .posInf => .fin big
  | .fin x => .fin x

/-- `np.array(test_bounds, dtype=float)[:, j]`: `None` becomes NaN, ragged or mixed input raises
ValueError, and a missing column or dimension IndexError. -/
def column (j : ℕ) (elems : List (Elt K)) : Except PyErr (List (Flt K)) :=
  elems.mapM (fun e =>
    match e with
    | .seq l =>
      match l[j]? with
      | some x => .ok (x.getD .nan)
      | none => .error .indexError
    | _ => .error .indexError)

/-- Do the elements form a rectangular 2-d array (or a 1-d one)? -/
def rectangular (elems : List (Elt K)) : Bool :=
  match elems with
  | [] => true
  | .seq l :: rest => rest.all (fun e => match e with | .seq m => m.length == l.length | _ => false)
  | _ :: rest => rest.all (fun e => match e with | .seq _ => false | _ => true)

def isNum : Elt K → Bool
  | .num _ => true
  | _ => false

/-- All entries of a sequence as floats, if there is no `None`. -/
def floats (l : List (Option (Flt K))) : Option (List (Flt K)) := l.mapM id

/-- `_map_bounds_to_constraints` (base_optimizer.py:203-240): the arrays `_lower_bounds`,
`_upper_bounds`.  Simplification: array pairs of length other than `n` (shape errors in cvxpy,
broadcasting aside) and `None` inside array pairs are reported as ValueError, as is a scalar lower
bound with an array upper bound; an array lower bound with a scalar upper bound is broadcast. -/
def mapBounds (big : K) (n : ℕ) (b : BoundsArg K) :
    Except PyErr (List (Flt K) × List (Flt K)) :=
  if b.elems.length = n ∧ b.elems = [] then .error .indexError
  else if b.elems.length = n ∧ (b.elems.head?.map isNum) = some false then
    if !rectangular b.elems then .error .valueError
    else do
      let lo ← column 0 b.elems
      let up ← column 1 b.elems
      pure (lo.map (nanToNum big .negInf), up.map (nanToNum big .posInf))
  else if !b.tupleOrList then .error .typeError
  else
    match b.elems with
    | [lower, upper] =>
      match lower with
      | .seq l =>
        match floats l with
        | none => .error .valueError
        | some l =>
          if l.length ≠ n then .error .valueError
          else
            match upper with
            | .seq u =>
              match floats u with
              | none => .error .valueError
              | some u =>
                if u.length ≠ n then .error .valueError
                else .ok (l.map (nanToNum big (.fin (-1))), u.map (nanToNum big (.fin 1)))
            | .num u => .ok (l.map (nanToNum big (.fin (-1))),
                List.replicate n (nanToNum big (.fin 1) u))
            | .none => .error .valueError
      | _ =>
        let lo : Flt K := match lower with | .num x => x | _ => .fin (-1)
        match upper with
        | .seq _ => .error .valueError
        | .num u => .ok (List.replicate n lo, List.replicate n u)
        | .none => .ok (List.replicate n lo, List.replicate n (.fin 1))
    | _ => .error .typeError

/-- `lo <= x` for a float bound. -/
def Flt.leNum : Flt K → K → Prop
  | .nan, _ => False
  | .negInf, _ => True
  | .posInf, _ => False
  | .fin l, x => l ≤ x

/-- `x <= up` for a float bound. -/
def Flt.numLe : K → Flt K → Prop
  | _, .nan => False
  | _, .negInf => False
  | _, .posInf => True
  | x, .fin u => x ≤ u

/-- The two constraints `w >= lower`, `w <= upper` (base_optimizer.py:239-240). -/
def admits (b : List (Flt K) × List (Flt K)) (w : List K) : Prop :=
  List.Forall₂ Flt.leNum b.1 w ∧ List.Forall₂ Flt.numLe w b.2

end Verif.Base
