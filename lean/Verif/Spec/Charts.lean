import Verif.Model.Charts

/-! What can be read off a chart. -/

namespace Verif.Charts

variable {κ K : Type}

/-- At height `p` there is a bar of length `v` with the text `t` beside it. -/
def Bars.Shows (b : Bars κ K) (p : ℕ) (t : κ) (v : K) : Prop :=
  (∃ i : ℕ, b.pos[i]? = some p ∧ b.vals[i]? = some v) ∧ ∃ j : ℕ, b.ticks[j]? = some p ∧ b.labels[j]? = some t

/-- Height `p` is further up on the page than height `q`. -/
def Bars.Above (b : Bars κ K) (p q : ℕ) : Prop := if b.inverted then p < q else q < p

/-- Correlation of two assets with covariance matrix `S`. -/
noncomputable def corr {n : ℕ} (S : Matrix (Fin n) (Fin n) ℝ) (i j : Fin n) : ℝ :=
  S i j / (Real.sqrt (S i i) * Real.sqrt (S j j))

/-- The texts below column `j` and beside row `i` name the assets the number at `i`, `j` is about. -/
def Image.Labelled {n : ℕ} (im : Image κ n) (rows cols : Fin n → κ) : Prop :=
  ∃ below beside, im.labels = some (below, beside) ∧ (∀ i, beside i = .inl (rows i)) ∧ ∀ j, below j = .inl (cols j)

/-- The calls that concern the tree of an `HRPOpt` object. -/
inductive Call (κ : Type)
  | optimize (method : String)
  | setWeights (d : Py.Dict κ ℝ)
  | plot (showTickers : Bool)

variable {ι : Type} [LinearOrder κ]

/-- The object after a sequence of calls, whatever they return. -/
noncomputable def after (linkage : Linkage κ) (fuel : ℕ) : Clustered ι κ → List (Call κ) → Clustered ι κ
  | h, [] => h
  | h, .optimize m :: cs => after linkage fuel (h.optimize linkage fuel m).1 cs
  | h, .setWeights d :: cs => after linkage fuel (h.setWeights d).1 cs
  | h, .plot b :: cs => after linkage fuel (plotDendrogram linkage fuel b h).1 cs

end Verif.Charts
