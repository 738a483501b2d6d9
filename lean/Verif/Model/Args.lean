import Verif.Model.Convex

/-!
Model of `_get_all_args` (base_optimizer.py:581-593) and `_flatten` (base_optimizer.py:596-602) on cvxpy expression trees.  In `Model/Convex` an
expression carries the list of its parameters; here the list is computed as the code does.

cvxpy's expressions are taken not to be `Iterable`, so `_flatten` does not go into them.
-/

namespace Verif.Convex
open Verif.Py

/-- A cvxpy expression, constraint or objective by its `args`: a parameter, a variable or constant, or an operation. -/
inductive Node
  | param (p : Par)
  | leaf
  | op (args : List Node)

/-- `expression.args`. -/
def Node.args : Node → List Node
  | .op l => l
  | _ => []

/-- Nested Python lists. -/
inductive Nest (α : Type)
  | one (a : α)
  | many (l : List (Nest α))

mutual
/-- One step of the loop of `_flatten` (base_optimizer.py:598-602). -/
def flattenOne {α : Type} : Nest α → List α
  | .one a => [a]
  | .many l => flatten l

/-- `list(_flatten(alist))` (base_optimizer.py:596-602). -/
def flatten {α : Type} : List (Nest α) → List α
  | [] => []
  | v :: vs => flattenOne v ++ flatten vs
end

/-- A list of expressions as a Python value. -/
def asNest (l : List Node) : Nest Node := .many (l.map .one)

mutual
/-- `_get_all_args` (base_optimizer.py:581-593). -/
def getAllArgs : Node → List Node
  | .param p => [.param p]
  | .leaf => [.leaf]
  | .op [] => [.op []]
  | .op (a :: l) => flatten (asNest (getAllArgs a) :: getAllArgsEach l)

/-- `[_get_all_args(arg) for arg in args]` (base_optimizer.py:593). -/
def getAllArgsEach : List Node → List (Nest Node)
  | [] => []
  | a :: l => asNest (getAllArgs a) :: getAllArgsEach l
end

/-- `isinstance(arg, cp.Parameter)`. -/
def Node.param? : Node → Option Par
  | .param p => some p
  | _ => none

/-- What `self._constraints + [self._objective]` may hold: an expression or constraint, or something without `args`, such
as a Boolean. -/
inductive Item
  | expr (e : Node)
  | other

/-- `[arg for arg in _get_all_args(expr) if isinstance(arg, cp.Parameter)]` (base_optimizer.py:250-252, 272-274). -/
def Item.params : Item → Except PyErr (List Par)
  | .expr e => .ok ((getAllArgs e).filterMap Node.param?)
  | .other => .error .attribute

end Verif.Convex
