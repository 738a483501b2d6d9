import Verif.Model.Returns

/-! Vocabulary for statements about price and return frames. -/

namespace Verif.Frames

variable {ι κ : Type}

/-- The complete frame with the given numbers. -/
def full (cols : List κ) (rows : List (ι × List ℝ)) : Frame ι κ :=
  { cols := cols, rows := rows.map (fun r => (r.1, r.2.map some)) }

/-- Every row has `n` numbers, `n` at least one, each satisfying `P`. -/
def Rect (n : ℕ) (P : ℝ → Prop) (rows : List (ι × List ℝ)) : Prop :=
  0 < n ∧ ∀ r ∈ rows, r.2.length = n ∧ ∀ x ∈ r.2, P x

/-- The return over one period from the ratio of the two prices. -/
noncomputable def periodReturn (log : Bool) (q : ℝ) : ℝ := if log then Real.log q else q - 1

/-- All frames that existed before are as they were. -/
def Unchanged (h h' : Heap ι κ) : Prop := ∀ i < h.length, h'[i]? = h[i]?

/-- `x` at row `i` and column `j`. -/
def entry (rows : List (ι × List ℝ)) (i j : ℕ) : ℝ := ((rows[i]?.map Prod.snd).getD []).getD j 0

/-- Column `j` of the numbers. -/
def column (rows : List (ι × List ℝ)) (j : ℕ) : List ℝ := rows.map (fun r => r.2.getD j 0)

end Verif.Frames

namespace Verif.Returns

/-- Plain average. -/
noncomputable def avg (l : List ℝ) : ℝ := l.sum / l.length

/-- Sample covariance of two equally long lists. -/
noncomputable def sampleCov (x y : List ℝ) : ℝ :=
  (List.zipWith (fun a b => (a - avg x) * (b - avg y)) x y).sum / ((x.length : ℝ) - 1)

/-- Annual return of a series of period returns: compounded or plain. -/
noncomputable def annual (compounding : Bool) (freq : ℝ) (l : List ℝ) : ℝ :=
  if compounding then (l.map (1 + ·)).prod ^ (freq / l.length) - 1 else avg l * freq

end Verif.Returns
