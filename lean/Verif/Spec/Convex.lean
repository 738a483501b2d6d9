import Verif.Model.History

/-!
The problems the optimisation methods document, as plain mathematics.
-/

noncomputable section

namespace Verif.Convex
open Matrix

variable {n : ℕ}

/-- What a method asks of a portfolio beyond bounds, added constraints and weight sum: a real objective
to minimise, extra requirements, and whether the weights sum to 0 instead of 1. -/
structure Ask (n : ℕ) where
  base : Asg n → ℝ
  extra : Asg n → Prop
  mn : Bool

/-- An added constraint holds. -/
def Added.holds (U : Uni n) (upar : ℕ → ℝ) : Added n → Asg n → Prop
  | .usr i, s => (U.con i).sat ⟨s.w, s.usr, upar⟩
  | .sector sec nm true b, s => (∑ i with sec i = nm, s.w i) ≤ b
  | .sector sec nm false b, s => b ≤ ∑ i with sec i = nm, s.w i

/-- The bounds in force: a market-neutral request on bounds without a negative lower bound replaces them
by (-1, 1). -/
def Within (c : Cfg n) (mn : Bool) (w : Fin n → ℝ) : Prop :=
  if mn = true ∧ ∀ i, 0 ≤ c.lb i then ∀ i, -1 ≤ w i ∧ w i ≤ 1
  else ∀ i, c.lb i ≤ (w i : EReal) ∧ (w i : EReal) ≤ c.ub i

/-- The documented problem of a request under a configuration. -/
def doc (U : Uni n) (c : Cfg n) (upar : ℕ → ℝ) (a : Ask n) : Prob n where
  obj s := (a.base s : EReal) + (c.objs.map (fun i => (U.obj i).val ⟨s.w, s.usr, upar⟩)).sum
  feas s := Within c a.mn s.w ∧ (∀ x ∈ c.cons, x.holds U upar s) ∧
    ∑ i, s.w i = (if a.mn then 0 else 1) ∧ a.extra s

/-- The problem `convex_objective` documents. -/
def docConvex (U : Uni n) (c : Cfg n) (upar : ℕ → ℝ) (i : ℕ) (sumToOne : Bool) : Prob n where
  obj s := (U.obj i).val ⟨s.w, s.usr, upar⟩ + (c.objs.map (fun i => (U.obj i).val ⟨s.w, s.usr, upar⟩)).sum
  feas s := Within c false s.w ∧ (∀ x ∈ c.cons, x.holds U upar s) ∧ (sumToOne = true → ∑ i, s.w i = 1)

/-- A user constraint in the scaled variables of `max_sharpe`: the side the code takes for the constant is
multiplied by `k`. -/
def scaledCon (k : ℝ) : ConBody ℕ (UEnv n) → UEnv n → Prop
  | .ineq _ a b, e => if a.isConst = true then ∀ i, a.val e i * (k : EReal) ≤ b.val e i
      else ∀ i, a.val e i ≤ b.val e i * (k : EReal)
  | .eq _ a b, e => ∀ i, a.val e i = b.val e i * (k : EReal)
  | _, _ => False

/-- An added constraint in the scaled variables. -/
def Added.scaled (U : Uni n) (upar : ℕ → ℝ) (k : ℝ) : Added n → Asg n → Prop
  | .usr i, s => scaledCon k (U.con i) ⟨s.w, s.usr, upar⟩
  | .sector sec nm true b, s => (∑ i with sec i = nm, s.w i) ≤ b * k
  | .sector sec nm false b, s => b * k ≤ ∑ i with sec i = nm, s.w i

/-- The problem `max_sharpe` gives to the solver, in the scaled weights `s.w` and the scale, which is
component 0 of library variable `v`. -/
def sharpeProb (U : Uni n) (c : Cfg n) (cov : Matrix (Fin n) (Fin n) ℝ) (mu : Fin n → ℝ) (rf : ℝ) (v : ℕ)
    (upar : ℕ → ℝ) : Prob n where
  obj s := ((s.w ⬝ᵥ cov *ᵥ s.w : ℝ) : EReal) + (c.objs.map (fun i => (U.obj i).val ⟨s.w, s.usr, upar⟩)).sum
  feas s := ∑ i, (mu i - rf) * s.w i = 1 ∧ ∑ i, s.w i = s.lib v 0 ∧ 0 ≤ s.lib v 0 ∧
    (∀ i, c.lb i * (s.lib v 0 : EReal) ≤ (s.w i : EReal) ∧ (s.w i : EReal) ≤ c.ub i * (s.lib v 0 : EReal)) ∧
    ∀ x ∈ c.cons, x.scaled U upar (s.lib v 0) s

/-- The problem of the largest return used by `efficient_return`: additional objectives are ignored and
the weights sum to 1. -/
def maxProb (U : Uni n) (c : Cfg n) (upar : ℕ → ℝ) (mu : Fin n → ℝ) : Prob n :=
  doc U { c with objs := [] } upar ⟨fun s => -(s.w ⬝ᵥ mu), fun _ => True, false⟩

/-- The parameter of a target method. -/
def pname (k : Kind) : Call n → Option String
  | .maxUtility _ _ => if k = .ef ∨ k = .semi then some "risk_aversion" else none
  | .efficientRisk _ _ =>
    match k with
    | .ef => some "target_variance"
    | .cvar => some "target_cvar"
    | .cdar => some "target_cdar"
    | .semi => some "target_semivariance"
  | .efficientReturn _ _ _ => some "target_return"
  | _ => none

/-- The requirements of the Rockafellar-Uryasev representation of CVaR, `alpha` and `u` being variables
0 and 1. -/
def CvarVars (D : Data n) (s : Asg n) : Prop :=
  ∀ t : Fin D.T, 0 ≤ s.lib 1 t ∧ 0 ≤ D.R t ⬝ᵥ s.w + s.lib 0 0 + s.lib 1 t

/-- The CVaR variable objective. -/
def cvarOf (D : Data n) (s : Asg n) : ℝ := s.lib 0 0 + 1 / (D.T * (1 - D.beta)) * ∑ t : Fin D.T, s.lib 1 t

/-- The requirements of the CDaR representation; `z` is variable 2. -/
def CdarVars (D : Data n) (s : Asg n) : Prop :=
  s.lib 1 0 = 0 ∧
  ∀ t : Fin D.T, s.lib 1 (t + 1) - s.lib 0 0 ≤ s.lib 2 t ∧ s.lib 1 t - D.R t ⬝ᵥ s.w ≤ s.lib 1 (t + 1) ∧
    0 ≤ s.lib 2 t ∧ 0 ≤ s.lib 1 (t + 1)

def cdarOf (D : Data n) (s : Asg n) : ℝ := s.lib 0 0 + 1 / (D.T * (1 - D.beta)) * ∑ t : Fin D.T, s.lib 2 t

/-- The requirements of the semivariance representation: variables `v` and `v + 1` are the parts above
and below. -/
def SemiVars (D : Data n) (v : ℕ) (s : Asg n) : Prop :=
  ∀ t : Fin D.T, (∑ i, (D.R t i - D.bench) / Real.sqrt D.T * s.w i) - s.lib v t + s.lib (v + 1) t = 0 ∧
    0 ≤ s.lib v t ∧ 0 ≤ s.lib (v + 1) t

def semiOf (D : Data n) (v : ℕ) (s : Asg n) : ℝ := ∑ t : Fin D.T, s.lib (v + 1) t ^ 2

/-- What a call asks for.  `v` names the variables a semivariance method creates. -/
def ask (D : Data n) (v : ℕ) : Call n → Option (Ask n)
  | .minVolatility =>
    if D.kind = .ef then some ⟨fun s => s.w ⬝ᵥ D.cov *ᵥ s.w, fun _ => True, false⟩ else none
  | .maxUtility r mn =>
    match D.kind, D.mu with
    | .ef, some mu => some ⟨fun s => -(s.w ⬝ᵥ mu - r / 2 * (s.w ⬝ᵥ D.cov *ᵥ s.w)), fun _ => True, mn⟩
    | .semi, some mu =>
      some ⟨fun s => -(s.w ⬝ᵥ mu) / D.freq + r / 2 * semiOf D v s, SemiVars D v, mn⟩
    | _, _ => none
  | .efficientRisk t mn =>
    match D.kind, D.mu with
    | .ef, some mu => some ⟨fun s => -(s.w ⬝ᵥ mu), fun s => s.w ⬝ᵥ D.cov *ᵥ s.w ≤ t ^ 2, mn⟩
    | .cvar, some mu => some ⟨fun s => -(s.w ⬝ᵥ mu), fun s => cvarOf D s ≤ t ∧ CvarVars D s, mn⟩
    | .cdar, some mu => some ⟨fun s => -(s.w ⬝ᵥ mu), fun s => cdarOf D s ≤ t ∧ CdarVars D s, mn⟩
    | .semi, some mu =>
      some ⟨fun s => -(s.w ⬝ᵥ mu), fun s => D.freq * semiOf D v s ≤ t ^ 2 ∧ SemiVars D v s, mn⟩
    | _, none => none
  | .efficientReturn _ t mn =>
    match D.kind, D.mu with
    | .ef, some mu => some ⟨fun s => s.w ⬝ᵥ D.cov *ᵥ s.w, fun s => t ≤ s.w ⬝ᵥ mu, mn⟩
    | .cvar, some mu => some ⟨cvarOf D, fun s => t ≤ s.w ⬝ᵥ mu ∧ CvarVars D s, mn⟩
    | .cdar, some mu => some ⟨cdarOf D, fun s => t ≤ s.w ⬝ᵥ mu ∧ CdarVars D s, mn⟩
    | .semi, some mu => some ⟨semiOf D v, fun s => t ≤ s.w ⬝ᵥ mu ∧ SemiVars D v s, mn⟩
    | _, none => none
  | .minCvar mn => if D.kind = .cvar then some ⟨cvarOf D, CvarVars D, mn⟩ else none
  | .minCdar mn => if D.kind = .cdar then some ⟨cdarOf D, CdarVars D, mn⟩ else none
  | .minSemi mn => if D.kind = .semi then some ⟨semiOf D v, SemiVars D v, mn⟩ else none
  | _ => none

/-- `P` is a problem the call documents, and `f` reads the weights off a solution.  With `again` the
object has been optimised before; then `convex_objective` with `weights_sum_to_one=False` may repeat an
earlier problem of the same objective that has the sum constraint. -/
inductive Documented (U : Uni n) (D : Data n) (cfg : Cfg n) (upar : ℕ → ℝ) (again : Bool) (c : Call n) :
    Prob n → (Asg n → Fin n → ℝ) → Prop
  | ask (v : ℕ) (q : Ask n) (h : ask D v c = some q) :
      Documented U D cfg upar again c (doc U cfg upar q) (fun s => s.w)
  | sharpe (rf : ℝ) (mu : Fin n → ℝ) (v : ℕ) (hc : c = .maxSharpe rf) (hk : D.kind = .ef) (hmu : D.mu = some mu) :
      Documented U D cfg upar again c (sharpeProb U cfg D.cov mu rf v upar) (fun s i => s.w i / s.lib v 0)
  | convex (i : ℕ) (b b' : Bool) (hc : c = .convex (.ok i) b) (hb : b' = b ∨ again = true ∧ b = false) :
      Documented U D cfg upar again c (docConvex U cfg upar i b') (fun s => s.w)

/-- What a call may have solved beforehand: `EfficientFrontier.efficient_return` may look for the largest
return. -/
def Pre (U : Uni n) (D : Data n) (cfg : Cfg n) (upar : ℕ → ℝ) (c : Call n) (pre : List (Prob n)) : Prop :=
  pre = [] ∨ ∃ mu f t mn, D.kind = .ef ∧ D.mu = some mu ∧ c = .efficientReturn f t mn ∧
    pre = [maxProb U cfg upar mu]

/-- The user's objects are usable: no parameter bears a name the library uses, objectives are scalar,
constraint functions return constraints.  The data are complete: `EfficientCVaR` has expected returns,
and the two tail classes have at least one row and `beta ≠ 1`. -/
structure Usable (U : Uni n) (D : Data n) : Prop where
  names : ∀ i, (U.par i).1 ∉ ["risk_aversion", "target_variance", "target_cvar", "target_cdar",
    "target_semivariance", "target_return"]
  scalar : ∀ i, (U.obj i).scalar = true
  cons : ∀ i, (∀ b, U.con i ≠ .bool b) ∧ U.con i ≠ .junk
  mu : D.kind = .cvar → D.mu.isSome
  tail : D.kind = .cvar ∨ D.kind = .cdar → (D.T : ℝ) * (1 - D.beta) ≠ 0

end Verif.Convex
