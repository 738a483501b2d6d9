import Mathlib.Algebra.Order.Floor.Ring
import Mathlib.Algebra.Order.Field.Basic
import Mathlib.Data.List.Sort

/-!
Python/numpy run-time notions shared by all models: exceptions, dicts, `int()`, `np.argmax`.
-/

namespace Verif.Py

/-- Python exception classes raised by the modelled code (messages are not modelled). -/
inductive PyErr
  | typeError | valueError | keyError | indexError | zeroDivision | overflow | assertion
  | attribute | notImplemented | instantiation | optimization | linAlg | dcp
  deriving DecidableEq, Repr

/-- A Python `dict`/`OrderedDict`: association list in insertion order.  Built only through
`Dict.set`, so keys are distinct (`Dict.ofPairs_nodup`). -/
abbrev Dict (κ ν : Type) := List (κ × ν)

namespace Dict
variable {κ ν : Type} [DecidableEq κ]

/-- `d[k] = v`: overwrite in place if the key exists, else append. -/
def set : Dict κ ν → κ → ν → Dict κ ν
  | [], k, v => [(k, v)]
  | (k', v') :: d, k, v => if k' = k then (k', v) :: d else (k', v') :: set d k v

/-- `dict(pairs)` / `OrderedDict(zip(...))` / a dict comprehension: insert left to right. -/
def ofPairs (l : List (κ × ν)) : Dict κ ν := l.foldl (fun d p => set d p.1 p.2) []

/-- `d.get(k)` / `d[k]` (`none` models a missing key). -/
def get? : Dict κ ν → κ → Option ν
  | [], _ => none
  | (k', v') :: d, k => if k' = k then some v' else get? d k

/-- `d.update(e)`. -/
def update (d e : Dict κ ν) : Dict κ ν := e.foldl (fun d p => set d p.1 p.2) d

/-- `list(d.keys())`. -/
def keys (d : Dict κ ν) : List κ := d.map Prod.fst

end Dict

section
variable {K : Type} [Field K] [LinearOrder K] [IsStrictOrderedRing K]

/-- Python `int(x)` on a float: truncation towards zero. -/
def pyInt [FloorRing K] (x : K) : ℤ := if 0 ≤ x then ⌊x⌋ else ⌈x⌉

/-- `x < y` on floats where `none` is NaN: comparisons with NaN are `False`. -/
def nanLt : Option K → Option K → Bool
  | some x, some y => decide (x < y)
  | _, _ => false

/-- `x <= y` on floats where `none` is NaN. -/
def nanLe : Option K → Option K → Bool
  | some x, some y => decide (x ≤ y)
  | _, _ => false

/-- Does `y`, met later, replace the current best `x` in `np.argmax`?  NaN counts as maximal and
the first occurrence wins. -/
def npBetter : Option K → Option K → Bool
  | none, _ => false
  | some _, none => true
  | some x, some y => decide (x < y)

/-- Scan for `np.argmax`: `best` at index `bi`, next element has index `i`. -/
def npArgmaxGo : List (Option K) → ℕ → Option K → ℕ → ℕ
  | [], _, _, bi => bi
  | y :: l, i, best, bi =>
    if npBetter best y then npArgmaxGo l (i + 1) y i else npArgmaxGo l (i + 1) best bi

/-- `np.argmax(l)` (first maximal entry; the first NaN if there is one).  The empty case raises in
numpy and is not reached by the code. -/
def npArgmax : List (Option K) → ℕ
  | [] => 0
  | y :: l => npArgmaxGo l 1 y 0

end

end Verif.Py
