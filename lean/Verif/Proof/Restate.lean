import Verif.Proof.Shrink
import Verif.Props.Risk
import Verif.Spec.Restate

/-! How the quantities of the risk models change when the returns are restated. -/

set_option linter.unusedSectionVars false

namespace Verif.Risk
open scoped Matrix
open Verif.Py Verif.Frames Verif.Returns Verif.Base Verif.Perf

variable {t n : ℕ} {X Y : Matrix (Fin t) (Fin n) ℝ} {k : ℝ} {b : Fin n → ℝ}
  {rho : Equiv.Perm (Fin t)} {e : Equiv.Perm (Fin n)}

/-- Arrays with `Y` a restatement of `X`. -/
def Re (X Y : Matrix (Fin t) (Fin n) ℝ) (k : ℝ) (b : Fin n → ℝ) (rho : Equiv.Perm (Fin t))
    (e : Equiv.Perm (Fin n)) : Prop := ∀ s j, Y s j = k * X (rho s) (e j) + b j

theorem sum_rho (rho : Equiv.Perm (Fin t)) (f : Fin t → ℝ) : ∑ s, f (rho s) = ∑ s, f s :=
  Equiv.sum_comp rho f

theorem sum_e2 (e : Equiv.Perm (Fin n)) (f : Fin n → Fin n → ℝ) :
    ∑ i, ∑ j, f (e i) (e j) = ∑ i, ∑ j, f i j := by
  rw [← Equiv.sum_comp e (fun i => ∑ j, f i j)]
  exact Finset.sum_congr rfl fun i _ => Equiv.sum_comp e (f (e i))

theorem demean_re (h : Re X Y k b rho e) (ht : t ≠ 0) (s : Fin t) (j : Fin n) :
    demean Y s j = k * demean X (rho s) (e j) := by
  have h0 : (t : ℝ) ≠ 0 := Nat.cast_ne_zero.2 ht
  unfold demean
  simp only [Matrix.of_apply, h s j]
  have : ∑ u, Y u j = k * ∑ u, X u (e j) + t * b j := by
    simp only [h _ j]
    rw [Finset.sum_add_distrib, ← Finset.mul_sum, sum_rho rho (fun u => X u (e j)), Finset.sum_const,
      Finset.card_univ, Fintype.card_fin, nsmul_eq_mul]
  rw [this]
  field_simp
  ring

theorem mktRow_re (h : Re X Y k b rho e) (ht : t ≠ 0) (s : Fin t) :
    mktRow Y s = k * mktRow X (rho s) := by
  unfold mktRow
  simp only [demean_re h ht]
  rw [← Finset.mul_sum, Equiv.sum_comp e (fun j => demean X (rho s) j), mul_div_assoc]

theorem sfSample_dem (X : Matrix (Fin t) (Fin n) ℝ) (ht : 2 ≤ t) (i j : Fin n) :
    sfSample X i j = (∑ s, demean X s i * demean X s j) / t := by
  rw [sfSample_apply X ht]
  rfl

theorem sfBeta_dem (X : Matrix (Fin t) (Fin n) ℝ) (ht : 2 ≤ t) (i : Fin n) :
    sfBeta X i = (∑ s, demean X s i * mktRow X s) / t := by
  rw [sfBeta_apply X ht]
  simp only [mktRow_apply]
  rfl

theorem sfVar_dem (X : Matrix (Fin t) (Fin n) ℝ) (ht : 2 ≤ t) :
    sfVar X = (∑ s, mktRow X s * mktRow X s) / t := by
  rw [sfVar_apply X ht]
  simp only [mktRow_apply]
  rfl

theorem sfSample_re (h : Re X Y k b rho e) (ht : 2 ≤ t) (i j : Fin n) :
    sfSample Y i j = k ^ 2 * sfSample X (e i) (e j) := by
  rw [sfSample_dem Y ht, sfSample_dem X ht]
  simp only [demean_re h (by omega)]
  rw [← sum_rho rho (fun s => demean X s (e i) * demean X s (e j)), ← mul_div_assoc, Finset.mul_sum]
  congr 1
  exact Finset.sum_congr rfl fun s _ => by ring

theorem sfBeta_re (h : Re X Y k b rho e) (ht : 2 ≤ t) (i : Fin n) :
    sfBeta Y i = k ^ 2 * sfBeta X (e i) := by
  rw [sfBeta_dem Y ht, sfBeta_dem X ht]
  simp only [demean_re h (by omega), mktRow_re h (by omega)]
  rw [← sum_rho rho (fun s => demean X s (e i) * mktRow X s), ← mul_div_assoc, Finset.mul_sum]
  congr 1
  exact Finset.sum_congr rfl fun s _ => by ring

theorem sfVar_re (h : Re X Y k b rho e) (ht : 2 ≤ t) : sfVar Y = k ^ 2 * sfVar X := by
  rw [sfVar_dem Y ht, sfVar_dem X ht]
  simp only [mktRow_re h (by omega)]
  rw [← sum_rho rho (fun s => mktRow X s * mktRow X s), ← mul_div_assoc, Finset.mul_sum]
  congr 1
  exact Finset.sum_congr rfl fun s _ => by ring

theorem npCov_re (h : Re X Y k b rho e) (ht : t ≠ 0) (i j : Fin n) :
    npCov Y i j = k ^ 2 * npCov X (e i) (e j) := by
  unfold npCov
  simp only [Matrix.of_apply, demean_re h ht]
  rw [← sum_rho rho (fun s => demean X s (e i) * demean X s (e j)), ← mul_div_assoc, Finset.mul_sum]
  congr 1
  exact Finset.sum_congr rfl fun s _ => by ring

theorem sfTarget_re (h : Re X Y k b rho e) (hk : k ≠ 0) (ht : 2 ≤ t) (i j : Fin n) :
    sfTarget Y i j = k ^ 2 * sfTarget X (e i) (e j) := by
  unfold sfTarget
  simp only [Matrix.of_apply, sfSample_re h ht, sfBeta_re h ht, sfVar_re h ht, e.injective.eq_iff]
  split
  · rfl
  · have : k ^ 2 * sfBeta X (e i) * (k ^ 2 * sfBeta X (e j)) / (k ^ 2 * sfVar X) =
        k ^ 2 * (k ^ 2 * (sfBeta X (e i) * sfBeta X (e j))) / (k ^ 2 * sfVar X) := by ring
    rw [this, mul_div_mul_left _ _ (pow_ne_zero 2 hk), mul_div_assoc]

theorem fdiv_scale {c : ℝ} (hc : 0 < c) (a y : ℝ) :
    Perf.fdiv (c * a) (.fin (c * y)) = Perf.fdiv a (.fin y) := by
  unfold Perf.fdiv
  simp only [mul_eq_zero, hc.ne', false_or, mul_pos_iff_of_pos_left hc, mul_div_mul_left _ _ hc.ne']

theorem sum_scale {m : ℕ} (c : ℝ) (f g : Fin m → ℝ) (h : ∀ i, f i = c * g i) :
    ∑ i, f i = c * ∑ i, g i := by
  rw [Finset.mul_sum]
  exact Finset.sum_congr rfl fun i _ => h i

theorem sum2_scale (c : ℝ) (e : Equiv.Perm (Fin n)) (f g : Fin n → Fin n → ℝ)
    (h : ∀ i j, f i j = c * g (e i) (e j)) : ∑ i, ∑ j, f i j = c * ∑ i, ∑ j, g i j := by
  rw [← sum_e2 e g]
  exact sum_scale c _ _ fun i => sum_scale c _ _ fun j => h i j

theorem sum1_scale (c : ℝ) (e : Equiv.Perm (Fin n)) (f g : Fin n → ℝ)
    (h : ∀ i, f i = c * g (e i)) : ∑ i, f i = c * ∑ i, g i := by
  rw [← Equiv.sum_comp e g]
  exact sum_scale c _ _ h

theorem sumr_scale (c : ℝ) (rho : Equiv.Perm (Fin t)) (f g : Fin t → ℝ)
    (h : ∀ s, f s = c * g (rho s)) : ∑ s, f s = c * ∑ s, g s := sum1_scale c rho f g h

theorem sfP_re (h : Re X Y k b rho e) (ht : 2 ≤ t) : sfP Y = k ^ 4 * sfP X := by
  have h0 : t ≠ 0 := by omega
  unfold sfP
  rw [sum2_scale (k ^ 4) e (fun i j => ∑ s, demean Y s i ^ 2 * demean Y s j ^ 2)
      (fun i j => ∑ s, demean X s i ^ 2 * demean X s j ^ 2) (fun i j =>
      sumr_scale (k ^ 4) rho (fun s => demean Y s i ^ 2 * demean Y s j ^ 2)
      (fun s => demean X s (e i) ^ 2 * demean X s (e j) ^ 2) (fun s => by
        rw [demean_re h h0, demean_re h h0]; ring)),
    sum2_scale (k ^ 4) e (fun i j => sfSample Y i j ^ 2)
      (fun i j => sfSample X i j ^ 2) (fun i j => by
      rw [sfSample_re h ht]; ring)]
  ring

theorem sfRdiag_re (h : Re X Y k b rho e) (ht : 2 ≤ t) : sfRdiag Y = k ^ 4 * sfRdiag X := by
  have h0 : t ≠ 0 := by omega
  unfold sfRdiag
  rw [sumr_scale (k ^ 4) rho (fun s => ∑ i, (demean Y s i ^ 2) ^ 2)
      (fun s => ∑ i, (demean X s i ^ 2) ^ 2) (fun s =>
      sum1_scale (k ^ 4) e (fun i => (demean Y s i ^ 2) ^ 2)
      (fun i => (demean X (rho s) i ^ 2) ^ 2) (fun i => by
        rw [demean_re h h0]; ring)),
    sum1_scale (k ^ 4) e (fun i => sfSample Y i i ^ 2)
      (fun i => sfSample X i i ^ 2) (fun i => by
      rw [sfSample_re h ht]; ring)]
  ring

theorem sfV1_re (h : Re X Y k b rho e) (ht : 2 ≤ t) (i j : Fin n) :
    sfV1 Y i j = k ^ 4 * sfV1 X (e i) (e j) := by
  have h0 : t ≠ 0 := by omega
  unfold sfV1
  rw [sumr_scale (k ^ 4) rho (fun s => demean Y s i ^ 2 * (demean Y s j * mktRow Y s))
      (fun s => demean X s (e i) ^ 2 * (demean X s (e j) * mktRow X s))
      (fun s => by rw [demean_re h h0, demean_re h h0, mktRow_re h h0]; ring),
    sfBeta_re h ht, sfSample_re h ht]
  ring

theorem sfV3_re (h : Re X Y k b rho e) (ht : 2 ≤ t) (i j : Fin n) :
    sfV3 Y i j = k ^ 4 * sfV3 X (e i) (e j) := by
  have h0 : t ≠ 0 := by omega
  unfold sfV3
  rw [sumr_scale (k ^ 4) rho (fun s => demean Y s i * mktRow Y s * (demean Y s j * mktRow Y s))
      (fun s => demean X s (e i) * mktRow X s * (demean X s (e j) * mktRow X s))
      (fun s => by rw [demean_re h h0, demean_re h h0, mktRow_re h h0]; ring),
    sfVar_re h ht, sfSample_re h ht]
  ring

theorem sfR_re (h : Re X Y k b rho e) (hk : k ≠ 0) (ht : 2 ≤ t) : sfR Y = k ^ 4 * sfR X := by
  have hk2 : k ^ 2 ≠ 0 := pow_ne_zero 2 hk
  have hk4 : k ^ 4 ≠ 0 := pow_ne_zero 4 hk
  have a1 : sfRoff1 Y = k ^ 4 * sfRoff1 X := by
    unfold sfRoff1
    rw [sum2_scale (k ^ 2 * k ^ 4) e (fun i j => sfV1 Y i j * sfBeta Y j)
      (fun i j => sfV1 X i j * sfBeta X j) (fun i j => by
        rw [sfV1_re h ht, sfBeta_re h ht]; ring),
      sum1_scale (k ^ 2 * k ^ 4) e (fun i => sfV1 Y i i * sfBeta Y i)
      (fun i => sfV1 X i i * sfBeta X i) (fun i => by
        rw [sfV1_re h ht, sfBeta_re h ht]; ring), sfVar_re h ht, mul_assoc, mul_assoc,
      mul_div_mul_left _ _ hk2, mul_div_mul_left _ _ hk2]
    ring
  have a3 : sfRoff3 Y = k ^ 4 * sfRoff3 X := by
    unfold sfRoff3
    have hv : (k ^ 2 * sfVar X) ^ 2 = k ^ 4 * sfVar X ^ 2 := by ring
    rw [sum2_scale (k ^ 4 * k ^ 4) e (fun i j => sfV3 Y i j * (sfBeta Y i * sfBeta Y j))
      (fun i j => sfV3 X i j * (sfBeta X i * sfBeta X j))
        (fun i j => by rw [sfV3_re h ht, sfBeta_re h ht, sfBeta_re h ht]; ring),
      sum1_scale (k ^ 4 * k ^ 4) e (fun i => sfV3 Y i i * sfBeta Y i ^ 2)
      (fun i => sfV3 X i i * sfBeta X i ^ 2) (fun i => by
        rw [sfV3_re h ht, sfBeta_re h ht]; ring), sfVar_re h ht, hv, mul_assoc, mul_assoc,
      mul_div_mul_left _ _ hk4, mul_div_mul_left _ _ hk4]
    ring
  unfold sfR
  rw [a1, a3, sfRdiag_re h ht]
  ring

theorem sfDelta_re (h : Re X Y k b rho e) (hk : k ≠ 0) (ht : 2 ≤ t) : sfDelta Y = sfDelta X := by
  have hk4 : 0 < k ^ 4 := by positivity
  unfold sfDelta
  rw [sum2_scale (k ^ 4) e (fun i j => (sfSample Y i j - sfTarget Y i j) ^ 2)
      (fun i j => (sfSample X i j - sfTarget X i j) ^ 2) (fun i j => by
      rw [sfSample_re h ht, sfTarget_re h hk ht]; ring),
    sfP_re h ht, sfR_re h hk ht, ← mul_sub, fdiv_scale hk4, sfVar_re h ht]
  simp only [mul_eq_zero, pow_ne_zero 2 hk, false_or]

/-! ### Constant correlation -/

variable {S T : Matrix (Fin n) (Fin n) ℝ}

theorem ccStd_re (hS : ∀ i j, T i j = k ^ 2 * S (e i) (e j)) (i : Fin n) :
    ccStd T i = |k| * ccStd S (e i) := by
  unfold ccStd
  rw [hS, Real.sqrt_mul (by positivity), Real.sqrt_sq_eq_abs]

theorem ccRbar_re (hk : k ≠ 0) (hS : ∀ i j, T i j = k ^ 2 * S (e i) (e j)) : ccRbar T = ccRbar S := by
  unfold ccRbar
  rw [sum2_scale 1 e (fun i j => T i j / (ccStd T i * ccStd T j))
      (fun i j => S i j / (ccStd S i * ccStd S j)) (fun i j => by
    rw [hS, ccStd_re hS, ccStd_re hS, mul_mul_mul_comm, abs_mul_abs_self, ← pow_two,
      mul_div_mul_left _ _ (pow_ne_zero 2 hk), one_mul]), one_mul]

theorem ccTarget_re (hk : k ≠ 0) (hS : ∀ i j, T i j = k ^ 2 * S (e i) (e j)) (i j : Fin n) :
    ccTarget T i j = k ^ 2 * ccTarget S (e i) (e j) := by
  unfold ccTarget
  simp only [Matrix.of_apply, e.injective.eq_iff]
  rw [hS, ccRbar_re hk hS, ccStd_re hS, ccStd_re hS, mul_mul_mul_comm, abs_mul_abs_self, ← pow_two]
  split <;> ring

theorem ccPi_re (h : Re X Y k b rho e) (ht : t ≠ 0) (hS : ∀ i j, T i j = k ^ 2 * S (e i) (e j))
    (i j : Fin n) : ccPi Y T i j = k ^ 4 * ccPi X S (e i) (e j) := by
  unfold ccPi
  rw [sumr_scale (k ^ 4) rho (fun s => demean Y s i ^ 2 * demean Y s j ^ 2)
      (fun s => demean X s (e i) ^ 2 * demean X s (e j) ^ 2) (fun s => by
      rw [demean_re h ht, demean_re h ht]; ring),
    sumr_scale (k ^ 2) rho (fun s => demean Y s i * demean Y s j)
      (fun s => demean X s (e i) * demean X s (e j)) (fun s => by
      rw [demean_re h ht, demean_re h ht]; ring), hS]
  ring

theorem ccTheta_re (h : Re X Y k b rho e) (ht : t ≠ 0) (hS : ∀ i j, T i j = k ^ 2 * S (e i) (e j))
    (i j : Fin n) : ccTheta Y T i j = k ^ 4 * ccTheta X S (e i) (e j) := by
  unfold ccTheta
  simp only [e.injective.eq_iff]
  rw [sumr_scale (k ^ 4) rho (fun s => demean Y s i ^ 3 * demean Y s j)
      (fun s => demean X s (e i) ^ 3 * demean X s (e j)) (fun s => by
      rw [demean_re h ht, demean_re h ht]; ring),
    sumr_scale (k ^ 2) rho (fun s => demean Y s i * demean Y s i)
      (fun s => demean X s (e i) * demean X s (e i)) (fun s => by
      rw [demean_re h ht]; ring),
    sumr_scale (k ^ 2) rho (fun s => demean Y s i * demean Y s j)
      (fun s => demean X s (e i) * demean X s (e j)) (fun s => by
      rw [demean_re h ht, demean_re h ht]; ring), hS, hS]
  split
  · ring
  · ring

theorem ccRho_re (h : Re X Y k b rho e) (hk : k ≠ 0) (ht : t ≠ 0)
    (hS : ∀ i j, T i j = k ^ 2 * S (e i) (e j)) : ccRho Y T = k ^ 4 * ccRho X S := by
  have hab : |k| ≠ 0 := abs_ne_zero.2 hk
  unfold ccRho
  rw [sum1_scale (k ^ 4) e (fun i => ccPi Y T i i)
      (fun i => ccPi X S i i) (fun i => ccPi_re h ht hS i i),
    sum2_scale (k ^ 4) e (fun i j => 1 / ccStd T i * ccStd T j * ccTheta Y T i j)
      (fun i j => 1 / ccStd S i * ccStd S j * ccTheta X S i j) (fun i j => by
      rw [ccStd_re hS, ccStd_re hS, ccTheta_re h ht hS]
      have : 1 / (|k| * ccStd S (e i)) * (|k| * ccStd S (e j)) = 1 / ccStd S (e i) * ccStd S (e j) := by
        rw [one_div_mul_eq_div, one_div_mul_eq_div, mul_div_mul_left _ _ hab]
      rw [this]
      ring), ccRbar_re hk hS]
  ring

theorem ccDefined_re (hk : k ≠ 0) (hS : ∀ i j, T i j = k ^ 2 * S (e i) (e j)) :
    ccDefined T = ccDefined S := by
  have hk2 : 0 < k ^ 2 := by positivity
  unfold ccDefined
  have : (∀ i, 0 < T i i) ↔ ∀ i, 0 < S i i := by
    simp only [hS, mul_pos_iff_of_pos_left hk2]
    exact ⟨fun h i => by simpa using h (e.symm i), fun h i => h (e i)⟩
  simp only [this]

theorem ccDelta_re (h : Re X Y k b rho e) (hk : k ≠ 0) (ht : t ≠ 0)
    (hS : ∀ i j, T i j = k ^ 2 * S (e i) (e j)) : ccDelta Y T = ccDelta X S := by
  have hk4 : 0 < k ^ 4 := by positivity
  unfold ccDelta
  rw [ccDefined_re hk hS, sum2_scale (k ^ 4) e (fun i j => (T i j - ccTarget T i j) ^ 2)
      (fun i j => (S i j - ccTarget S i j) ^ 2)
      (fun i j => by rw [hS, ccTarget_re hk hS]; ring),
    sum2_scale (k ^ 4) e (ccPi Y T)
      (ccPi X S) (fun i j => ccPi_re h ht hS i j), ccRho_re h hk ht hS, ← mul_sub,
    fdiv_scale hk4]

/-! ### Arrays of a frame -/

section frames
variable {ι κ : Type} {f : Frame ι κ}

/-- Every cell of the table is a number. -/
def Cells (f : Frame ι κ) : Prop := ∀ (s : Fin f.rows.length) (j : Fin f.cols.length),
  (f.rows[s]).2[j.1]? = some (some (filled f s j))

theorem Filled.cells (h : Filled f) : Cells f := by
  intro s j
  have hm : f.rows[s] ∈ f.rows := List.getElem_mem _
  have hj : j.1 < (f.rows[s]).2.length := by rw [h.shaped _ hm]; exact j.2
  have hc := h.complete _ hm _ (List.getElem_mem hj)
  unfold filled
  simp only [Matrix.of_apply, List.getElem?_eq_getElem hj, Option.getD_some, Option.some.injEq]
  cases hx : (f.rows[s]).2[j.1] with
  | none => exact absurd hx hc
  | some x => rfl

theorem Cells.col (h : Cells f) (j : Fin f.cols.length) :
    f.col j = (List.ofFn fun s => filled f s j).map some := by
  refine List.ext_getElem (by simp [Frame.col]) fun i h1 h2 => ?_
  have hi : i < f.rows.length := by simpa [Frame.col] using h1
  simp only [Frame.col, List.getElem_map, List.getElem_ofFn]
  have := h ⟨i, hi⟩ j
  simp only [Fin.getElem_fin] at this
  rw [this]
  rfl

theorem zipWith_ofFn {α β γ : Type} {m : ℕ} (g : α → β → γ) (a : Fin m → α) (c : Fin m → β) :
    List.zipWith g (List.ofFn a) (List.ofFn c) = List.ofFn fun s => g (a s) (c s) := by
  refine List.ext_getElem (by simp) fun i h1 h2 => ?_
  simp

theorem avg_ofFn {m : ℕ} (a : Fin m → ℝ) : avg (List.ofFn a) = (∑ s, a s) / m := by
  unfold avg
  rw [List.sum_ofFn, List.length_ofFn]

theorem Cells.covPair (h : Cells f) (h2 : 2 ≤ f.rows.length) (i j : Fin f.cols.length) :
    covPair (f.col i) (f.col j) = some (npCov (filled f) i j) := by
  rw [h.col, h.col, covPair_some _ _ (by simp) (by simpa using h2)]
  unfold sampleCov npCov demean
  rw [zipWith_ofFn, List.sum_ofFn, List.length_ofFn, avg_ofFn, avg_ofFn]
  rfl

theorem npCov_pop (X : Matrix (Fin t) (Fin n) ℝ) (ht : 2 ≤ t) (i j : Fin n) :
    npCov X i j = (t / ((t : ℝ) - 1)) * popCov (series X i) (series X j) := by
  have h0 : (t : ℝ) ≠ 0 := Nat.cast_ne_zero.2 (by omega)
  unfold npCov popCov
  simp only [Matrix.of_apply, demean_apply]
  change (∑ s, (series X i s - meanOf (series X i)) * (series X j s - meanOf (series X j))) / _ = _
  field_simp

theorem ratio_pos (ht : 2 ≤ t) : (0 : ℝ) < t / ((t : ℝ) - 1) := by
  have : (2 : ℝ) ≤ t := by exact_mod_cast ht
  exact div_pos (by linarith) (by linarith)

theorem npCov_psd (X : Matrix (Fin t) (Fin n) ℝ) (ht : 2 ≤ t) : (npCov X).PosSemidef := by
  have e : npCov X = (t / ((t : ℝ) - 1)) • (Matrix.of fun i j => popCov (series X i) (series X j)) := by
    ext i j
    rw [npCov_pop X ht]
    rfl
  rw [e]
  exact (popCov_psd X).smul (ratio_pos ht).le

/-- Exponentially weighted covariance of an array. -/
noncomputable def expArray (w : Fin t → ℝ) (X : Matrix (Fin t) (Fin n) ℝ) : Matrix (Fin n) (Fin n) ℝ :=
  Matrix.of fun i j => ∑ s, w s * (demean X s i * demean X s j)

theorem expArray_psd (w : Fin t → ℝ) (hw : ∀ s, 0 ≤ w s) (X : Matrix (Fin t) (Fin n) ℝ) :
    (expArray w X).PosSemidef := by
  have e : expArray w X = Matrix.of fun i j : Fin n => (((List.finRange t).map (fun s => (w s,
      fun i : Fin n => demean X s i))).map (fun p => p.1 * (p.2 i * p.2 j))).sum := by
    ext i j
    simp only [expArray, Matrix.of_apply, List.map_map, Function.comp_def]
    rw [← List.ofFn_eq_map, List.sum_ofFn]
  rw [e]
  apply gram_psd
  intro p hp
  obtain ⟨s, -, rfl⟩ := List.mem_map.1 hp
  exact hw s

/-- The weights depend on the span and the number of days only. -/
theorem exp_weights (span : ℝ) (hs : 1 ≤ span) (T : ℕ) (hT : 0 < T) :
    ∃ w : Fin T → ℝ, (∀ s, 0 ≤ w s) ∧ ∀ a : Fin T → ℝ,
      ewmLast span ((List.ofFn a).map some) = .ok (some (∑ s, w s * a s)) := by
  obtain ⟨w, hw1, hw2, -, -, -, hw⟩ := C31_convex_combination span hs T hT
  subst hw1
  refine ⟨fun s => w[s], fun s => hw2 _ (List.getElem_mem _), fun a => ?_⟩
  obtain ⟨m, hm1, hm2, -⟩ := hw (List.ofFn a) (by simp)
  rw [hm1, hm2]
  congr 2
  have : w = List.ofFn fun s : Fin w.length => w[s] := (List.ofFn_getElem).symm
  rw [show List.zipWith (· * ·) w (List.ofFn a) =
    List.zipWith (· * ·) (List.ofFn fun s : Fin w.length => w[s]) (List.ofFn a) by rw [← this],
    zipWith_ofFn, List.sum_ofFn]

theorem Cells.expCovariance (h : Cells f) (E : Eigh) (span freq : ℝ) (log : Bool) (fix : String)
    (hf : 0 ≤ freq) (h1 : f.rows ≠ []) (w : Fin f.rows.length → ℝ) (hw0 : ∀ s, 0 ≤ w s)
    (hw : ∀ a : Fin f.rows.length → ℝ,
      ewmLast span ((List.ofFn a).map some) = .ok (some (∑ s, w s * a s))) :
    expCovariance E f true span freq log fix =
      .ok ⟨f.cols, Matrix.of fun i j => expArray w (filled f) i j * freq⟩ := by
  have hpos : 0 < f.rows.length := List.length_pos_iff.2 h1
  have hpair : ∀ i j : Fin f.cols.length, pairExpCov span (f.col i) (f.col j) =
      .ok (some (expArray w (filled f) i j)) := by
    intro i j
    rw [h.col, h.col]
    unfold pairExpCov
    rw [covariation_some _ _ (by simp; omega) (by simp), zipWith_ofFn, hw, avg_ofFn, avg_ofFn]
    rfl
  have hsym : ∀ i j, expArray w (filled f) i j = expArray w (filled f) j i := by
    intro i j
    simp only [expArray, Matrix.of_apply]
    exact Finset.sum_congr rfl fun s _ => by ring
  obtain ⟨S', hS1, hS2⟩ := expLoop_spec span (fun i : Fin f.cols.length => f.col i)
    (fun i j => some (expArray w (filled f) i j)) (fun i j => by rw [hsym])
    (upperPairs f.cols.length) (fun p _ => hpair p.1 p.2) (fun _ _ => some 0)
  have hS : ∀ a b, S' a b = some (expArray w (filled f) a b) := by
    intro a b
    rw [hS2 a b, if_pos]
    rw [upperPairs_mem, upperPairs_mem]
    exact le_total a b
  unfold Verif.Risk.expCovariance
  have hr : returnsIn true log f = f := rfl
  rw [hr]
  dsimp only
  rw [hS1]
  simp only
  apply fixFrame_psd
  · intro i j
    rw [hS]
    rfl
  · exact scaled_psd (expArray_psd w hw0 _) hf

end frames

/-! ### Restated frames -/

section restated
variable {ι ι' κ : Type} {f : Frame ι κ} {g : Frame ι' κ} {c : Fin g.cols.length → ℝ}
  {days : Fin g.rows.length ≃ Fin f.rows.length} {assets : Fin g.cols.length ≃ Fin f.cols.length}

theorem Restated.rows (_ : Restated f g k c days assets) : g.rows.length = f.rows.length := by
  simpa using Fintype.card_congr days

theorem Restated.cols (_ : Restated f g k c days assets) : g.cols.length = f.cols.length := by
  simpa using Fintype.card_congr assets

theorem Restated.cell (h : Restated f g k c days assets) (hf : Cells f) (s : Fin g.rows.length)
    (j : Fin g.cols.length) :
    (g.rows[s]).2[j.1]? = some (some (k * filled f (days s) (assets j) + c j)) :=
  h.value s j _ (hf (days s) (assets j))

theorem Restated.filled (h : Restated f g k c days assets) (hf : Cells f) (s : Fin g.rows.length)
    (j : Fin g.cols.length) : filled g s j = k * filled f (days s) (assets j) + c j := by
  have := h.cell hf s j
  unfold Verif.Risk.filled at this ⊢
  simp only [Matrix.of_apply] at this ⊢
  rw [this]
  rfl

theorem Restated.cells (h : Restated f g k c days assets) (hf : Cells f) : Cells g := by
  intro s j
  rw [h.cell hf, h.filled hf]

end restated

/-- Restated arrays whose sizes are equal but not by definition. -/
theorem re_general {t t' n n' : ℕ} (X : Matrix (Fin t) (Fin n) ℝ) (Y : Matrix (Fin t') (Fin n') ℝ)
    (k : ℝ) (hk : k ≠ 0) (b : Fin n' → ℝ) (rho : Fin t' ≃ Fin t) (e : Fin n' ≃ Fin n) (ht : 2 ≤ t)
    (h : ∀ s j, Y s j = k * X (rho s) (e j) + b j) :
    (∀ i j, npCov Y i j = k ^ 2 * npCov X (e i) (e j)) ∧
    sfVar Y = k ^ 2 * sfVar X ∧
    (∀ i j, sfSample Y i j = k ^ 2 * sfSample X (e i) (e j)) ∧
    (∀ i j, sfTarget Y i j = k ^ 2 * sfTarget X (e i) (e j)) ∧ sfDelta Y = sfDelta X ∧
    (∀ i j, ccTarget (npCov Y) i j = k ^ 2 * ccTarget (npCov X) (e i) (e j)) ∧
    ccDelta Y (npCov Y) = ccDelta X (npCov X) ∧
    (npCov Y).trace = k ^ 2 * (npCov X).trace ∧
    ∀ w : Fin t → ℝ, ∀ i j, expArray (fun s => w (rho s)) Y i j = k ^ 2 * expArray w X (e i) (e j) := by
  obtain rfl : t' = t := by simpa using Fintype.card_congr rho
  obtain rfl : n' = n := by simpa using Fintype.card_congr e
  have hr : Re X Y k b rho e := h
  have h0 : t' ≠ 0 := by omega
  refine ⟨npCov_re hr h0, sfVar_re hr ht, sfSample_re hr ht, sfTarget_re hr hk ht, sfDelta_re hr hk ht,
    ccTarget_re hk (npCov_re hr h0), ccDelta_re hr hk h0 (npCov_re hr h0), ?_, fun w i j => ?_⟩
  · unfold Matrix.trace
    exact sum1_scale (k ^ 2) e _ (fun i => npCov X i i) fun i => npCov_re hr h0 i i
  · unfold expArray
    simp only [Matrix.of_apply]
    exact sumr_scale (k ^ 2) rho (fun s => w (rho s) * (demean Y s i * demean Y s j))
      (fun s => w s * (demean X s (e i) * demean X s (e j))) fun s => by
        rw [demean_re hr h0, demean_re hr h0]; ring

end Verif.Risk
