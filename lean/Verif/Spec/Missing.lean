import Verif.Spec.Frame

/-! Estimates from the days on which the returns are known. -/

namespace Verif.Risk
open Verif.Frames Verif.Returns

variable {ι κ : Type}

/-- The returns of assets `i` and `j` on the days on which both are known. -/
def together (f : Frame ι κ) (i j : ℕ) : List (ℝ × ℝ) :=
  f.rows.filterMap (fun r =>
    match r.2[i]?, r.2[j]? with
    | some (some x), some (some y) => some (x, y)
    | _, _ => none)

/-- The known returns of asset `i`. -/
def known (f : Frame ι κ) (i : ℕ) : List ℝ :=
  f.rows.filterMap (fun r =>
    match r.2[i]? with
    | some (some x) => some x
    | _ => none)

/-- Sample covariance over the days known for both. -/
noncomputable def knownCov (f : Frame ι κ) (i j : ℕ) : ℝ :=
  sampleCov ((together f i j).map Prod.fst) ((together f i j).map Prod.snd)

/-- Average product of the shortfalls below `b` over the days known for both. -/
noncomputable def knownSemi (b : ℝ) (f : Frame ι κ) (i j : ℕ) : ℝ :=
  avg ((together f i j).map (fun p => min (p.1 - b) 0 * min (p.2 - b) 0))

/-- Average of the known values of a list, a value `n` places before the last weighing `q ^ n`. -/
noncomputable def fading (q : ℝ) (l : List (Option ℝ)) : ℝ :=
  (∑ s ∈ Finset.range l.length, (l[s]?.join).elim 0 (fun x => q ^ (l.length - 1 - s) * x)) /
    ∑ s ∈ Finset.range l.length, (l[s]?.join).elim 0 (fun _ => q ^ (l.length - 1 - s))

/-- Day by day, the product of the deviations of two assets from their averages, where both are
known. -/
noncomputable def deviations (f : Frame ι κ) (i j : ℕ) : List (Option ℝ) :=
  f.rows.map (fun r =>
    match r.2[i]?, r.2[j]? with
    | some (some x), some (some y) => some ((x - avg (known f i)) * (y - avg (known f j)))
    | _, _ => none)

end Verif.Risk
