import Verif.Spec.Convex
import Verif.Spec.Solver

/-! What the user asks of a returned portfolio, in terms of weights. -/

noncomputable section

namespace Verif.Convex
open Matrix

variable {n : ℕ}

/-- What is asked of every portfolio: the bounds, the added constraints and the weight sum.  `usr` are the
values of variables the user has introduced. -/
structure Admissible (U : Uni n) (cfg : Cfg n) (upar : ℕ → ℝ) (mn : Bool) (w : Fin n → ℝ) (usr : ℕ → ℝ) : Prop where
  within : Within cfg mn w
  cons : ∀ x ∈ cfg.cons, x.holds U upar ⟨w, usr, fun _ _ => 0⟩
  sum : ∑ i, w i = if mn then 0 else 1

/-- An objective together with the objectives the user has added. -/
def total (U : Uni n) (cfg : Cfg n) (upar : ℕ → ℝ) (f : (Fin n → ℝ) → ℝ) (w : Fin n → ℝ) (usr : ℕ → ℝ) : EReal :=
  (f w : EReal) + (cfg.objs.map (fun i => (U.obj i).val ⟨w, usr, upar⟩)).sum

/-- `w` (with values `usr` of the user's variables) is admissible, meets the requirement `req`, and no other
such portfolio has a smaller objective. -/
structure Best (U : Uni n) (cfg : Cfg n) (upar : ℕ → ℝ) (mn : Bool) (req : (Fin n → ℝ) → Prop)
    (f : (Fin n → ℝ) → ℝ) (w : Fin n → ℝ) (usr : ℕ → ℝ) : Prop where
  adm : Admissible U cfg upar mn w usr
  meets : req w
  best : ∀ w' usr', Admissible U cfg upar mn w' usr' → req w' → total U cfg upar f w usr ≤ total U cfg upar f w' usr'

/-- The optima reported between two states are optima. -/
def Correct (S : Solver n) (h h' : Heap n) : Prop :=
  ∀ k P, h.log.length ≤ k → h'.log[k]? = some P → Right P (S k P)

/-- Each weight of `w` is a multiple of 10⁻¹⁶, and none is nearer to the weight of `s`. -/
def Rounded (w s : Fin n → ℝ) : Prop :=
  ∀ i, (∃ k : ℤ, w i = k / 10 ^ 16) ∧ ∀ m : ℤ, |w i - s i| ≤ |m / 10 ^ 16 - s i|

/-- The volatility of a portfolio. -/
def vol (cov : Matrix (Fin n) (Fin n) ℝ) (w : Fin n → ℝ) : ℝ := Real.sqrt (w ⬝ᵥ cov *ᵥ w)

/-- `P` is the Moore–Penrose inverse of `A`, what `np.linalg.pinv` stands for. -/
structure IsPinv (A P : Matrix (Fin n) (Fin n) ℝ) : Prop where
  apa : A * P * A = A
  pap : P * A * P = P
  symA : (A * P)ᵀ = A * P
  symP : (P * A)ᵀ = P * A

/-- Whether the user's constraints hold does not depend on parameters. -/
def ParFree (U : Uni n) (cfg : Cfg n) : Prop :=
  ∀ x ∈ cfg.cons, ∀ (p p' : ℕ → ℝ) (s : Asg n), x.holds U p s ↔ x.holds U p' s

end Verif.Convex
