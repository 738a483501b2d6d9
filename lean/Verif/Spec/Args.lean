import Verif.Model.Args

/-! Places in expression trees. -/

namespace Verif.Convex
open Verif.Py

/-- What stands at a place, a place being the numbers of the arguments to go to, from the top. -/
def Node.at : Node → List ℕ → Option Node
  | e, [] => some e
  | e, i :: p =>
    match e.args[i]? with
    | some a => a.at p
    | none => none

variable {n : ℕ}

/-- `items` are the expressions in the constraints of `o` and in its objective, in this order. -/
def Describes (items : List Item) (o : OState n) : Prop := items.map Item.params = leavesOf o

/-- At place `p` of expression `k` there is a parameter of that name. -/
def Occurs (items : List Item) (name : String) (k : ℕ) (p : List ℕ) (par : Par) : Prop :=
  ∃ e, items[k]? = some (.expr e) ∧ e.at p = some (.param par) ∧ par.name = name

/-- The value of a parameter. -/
def Heap.value (h : Heap n) (p : Par) : ℝ :=
  match p.ref with
  | .usr i => h.upar i
  | .lib i => h.lpar i

end Verif.Convex
