import Verif.Props.BlWeights

/-!
Inputs of the Black-Litterman model: view uncertainty (C26), absolute views (C27), the constructor
(C57), performance (C58) and the market-implied risk aversion (C59).
-/

set_option linter.unusedSectionVars false
noncomputable section

namespace Verif.BL
open Verif.Py Verif.Base Verif.Perf Matrix

variable {κ : Type} [DecidableEq κ] {n k : ℕ}

/-! ### C26 -/

/-- Variance of the view portfolio. -/
def viewVar (cov : Matrix (Fin n) (Fin n) ℝ) (p : Fin n → ℝ) : ℝ := ∑ i, ∑ j, p i * cov i j * p j

theorem dot_eq_viewVar (cov : Matrix (Fin n) (Fin n) ℝ) (p : Fin n → ℝ) :
    p ⬝ᵥ (cov *ᵥ p) = viewVar cov p := by
  simp only [dotProduct, mulVec, viewVar, Finset.mul_sum, mul_assoc]

theorem viewVar_nonneg {cov : Matrix (Fin n) (Fin n) ℝ} (hS : cov.PosSemidef) (p : Fin n → ℝ) :
    0 ≤ viewVar cov p := by
  have := hS.dotProduct_mulVec_nonneg p
  rwa [star_trivial, dot_eq_viewVar] at this

/-- **C26.** `default_omega` is diagonal with the non-negative entries `τ p S p'`. -/
theorem C26_default_omega (cov : Matrix (Fin n) (Fin n) ℝ) (P : Matrix (Fin k) (Fin n) ℝ) (tau : ℝ)
    (hS : cov.PosSemidef) (hτ : 0 ≤ tau) :
    (∀ i j, i ≠ j → defaultOmega cov P tau i j = 0) ∧
    (∀ i, defaultOmega cov P tau i i = tau * viewVar cov (P i)) ∧
    (∀ i, 0 ≤ defaultOmega cov P tau i i) := by
  have hii : ∀ i, defaultOmega cov P tau i i = tau * viewVar cov (P i) := by
    intro i
    have h1 : (tau • P) * cov * Pᵀ = tau • (P * (cov * Pᵀ)) := by
      rw [Matrix.smul_mul, Matrix.smul_mul, Matrix.mul_assoc]
    rw [defaultOmega, Matrix.diagonal_apply_eq, h1, Matrix.smul_apply, smul_eq_mul, ← dot_eq_viewVar]
    rfl
  exact ⟨fun i j h => Matrix.diagonal_apply_ne _ h, hii,
    fun i => by rw [hii]; exact mul_nonneg hτ (viewVar_nonneg hS _)⟩

/-- The Idzorek uncertainty of a view with variance `v` and confidence `c`. -/
def idzorekSpec (tau v c : ℝ) : ℝ := if c = 0 then 1000000 else tau * ((1 - c) / c) * v

theorem idzorekEntry_eq (cov : Matrix (Fin n) (Fin n) ℝ) (p : Fin n → ℝ) (tau c : ℝ) (h0 : 0 ≤ c)
    (h1 : c ≤ 1) : idzorekEntry cov p tau c = .ok (idzorekSpec tau (viewVar cov p) c) := by
  unfold idzorekEntry idzorekSpec
  rw [if_neg (by rintro (h | h) <;> linarith)]
  split
  · rfl
  · rw [smul_dotProduct, smul_eq_mul, dot_eq_viewVar]

theorem idzorekLoop_ok (cov : Matrix (Fin n) (Fin n) ℝ) (tau : ℝ) : ∀ (ps : List (Fin n → ℝ)) (cs : List ℝ),
    ps.length ≤ cs.length → (∀ i, (h : i < ps.length) → ∀ h' : i < cs.length, 0 ≤ cs[i] ∧ cs[i] ≤ 1) →
    ∃ es, idzorekLoop cov tau ps cs = .ok es ∧ es.length = ps.length ∧
      ∀ i, (h : i < ps.length) → ∀ h' : i < cs.length,
        es.getD i 0 = idzorekSpec tau (viewVar cov ps[i]) cs[i] := by
  intro ps
  induction ps with
  | nil => intro cs _ _; exact ⟨[], rfl, rfl, fun i h => absurd h (by simp)⟩
  | cons p ps ih =>
    intro cs hl hc
    cases cs with
    | nil => simp at hl
    | cons c cs =>
      have hc0 := hc 0 (by simp) (by simp)
      obtain ⟨es, he, hlen, hes⟩ := ih cs (by simpa using hl) (fun i h h' => by
        have := hc (i + 1) (by simpa using h) (by simpa using h')
        simpa using this)
      refine ⟨idzorekSpec tau (viewVar cov p) c :: es, ?_, by simp [hlen], ?_⟩
      · rw [idzorekLoop, idzorekEntry_eq cov p tau c (by simpa using hc0.1) (by simpa using hc0.2), he]
        rfl
      · intro i h h'
        cases i with
        | zero => simp
        | succ i =>
          have := hes i (by simpa using h) (by simpa using h')
          simpa using this

theorem idzorekLoop_bad (cov : Matrix (Fin n) (Fin n) ℝ) (tau : ℝ) : ∀ (ps : List (Fin n → ℝ)) (cs : List ℝ)
    (i : ℕ) (h : i < ps.length) (h' : i < cs.length), (cs[i] < 0 ∨ 1 < cs[i]) →
    idzorekLoop cov tau ps cs = .error .valueError := by
  intro ps
  induction ps with
  | nil => intro cs i h; simp at h
  | cons p ps ih =>
    intro cs i h h' hb
    cases cs with
    | nil => simp at h'
    | cons c cs =>
      rw [idzorekLoop]
      by_cases hc : c < 0 ∨ c > 1
      · rw [idzorekEntry, if_pos hc]; rfl
      · cases i with
        | zero => exact absurd (by simpa using hb) hc
        | succ i =>
          have h2 := ih cs i (by simpa using h) (by simpa using h') (by simpa using hb)
          rw [idzorekEntry_eq cov p tau c (by push Not at hc; exact hc.1) (by push Not at hc; exact hc.2), h2]
          rfl

/-- **C26.** `idzorek_method` on confidences in [0, 1]: a diagonal matrix whose entries are
`τ ((1-c)/c) p S p'`, with 1e6 at zero confidence and 0 at full confidence; all non-negative. -/
theorem C26_idzorek (cov : Matrix (Fin n) (Fin n) ℝ) (P : Matrix (Fin k) (Fin n) ℝ) (tau : ℝ)
    (hS : cov.PosSemidef) (hτ : 0 ≤ tau) (conf : List ℝ) (hk : k ≤ conf.length)
    (hc : ∀ i (h : i < conf.length), i < k → 0 ≤ conf[i] ∧ conf[i] ≤ 1) :
    ∃ O, idzorek conf cov P tau = .ok O ∧ (∀ i j, i ≠ j → O i j = 0) ∧
      (∀ i : Fin k, 0 ≤ O i i) ∧
      (∀ i : Fin k, conf.getD i 0 = 0 → O i i = 10 ^ 6) ∧
      (∀ i : Fin k, conf.getD i 0 = 1 → O i i = 0) ∧
      (∀ i : Fin k, conf.getD i 0 ≠ 0 →
        O i i = tau * ((1 - conf.getD i 0) / conf.getD i 0) * viewVar cov (P i)) := by
  obtain ⟨es, he, -, hes⟩ := idzorekLoop_ok cov tau (List.ofFn P.row) conf (by simpa using hk)
    (fun i h h' => hc i h' (by simpa using h))
  have hii : ∀ i : Fin k, es.getD i 0 = idzorekSpec tau (viewVar cov (P i)) (conf.getD i 0) := by
    intro i
    have hi' : (i : ℕ) < conf.length := lt_of_lt_of_le i.2 hk
    have := hes i (by simp) hi'
    rw [this]
    simp [List.getD, hi']
    rfl
  refine ⟨Matrix.diagonal (fun i => es.getD i 0), ?_, fun i j h => Matrix.diagonal_apply_ne _ h, ?_, ?_, ?_, ?_⟩
  · rw [idzorek, he]; rfl
  · intro i
    have hi' : (i : ℕ) < conf.length := lt_of_lt_of_le i.2 hk
    obtain ⟨h0, h1⟩ := hc i hi' i.2
    have hg : conf.getD i 0 = conf[(i : ℕ)] := by simp [List.getD, hi']
    rw [Matrix.diagonal_apply_eq, hii, idzorekSpec, hg]
    split
    · norm_num
    · exact mul_nonneg (mul_nonneg hτ (div_nonneg (by linarith) h0)) (viewVar_nonneg hS _)
  · intro i h
    rw [Matrix.diagonal_apply_eq, hii, h, idzorekSpec, if_pos rfl]; norm_num
  · intro i h
    rw [Matrix.diagonal_apply_eq, hii, h, idzorekSpec, if_neg one_ne_zero]; norm_num
  · intro i h
    rw [Matrix.diagonal_apply_eq, hii, idzorekSpec, if_neg h]

/-- **C26.** A confidence outside [0, 1] for any view raises ValueError. -/
theorem C26_idzorek_rejects (cov : Matrix (Fin n) (Fin n) ℝ) (P : Matrix (Fin k) (Fin n) ℝ) (tau : ℝ)
    (conf : List ℝ) (i : Fin k) (hi : (i : ℕ) < conf.length) (hb : conf[(i : ℕ)] < 0 ∨ 1 < conf[(i : ℕ)]) :
    idzorek conf cov P tau = .error .valueError := by
  rw [idzorek, idzorekLoop_bad cov tau (List.ofFn P.row) conf i (by simp) hi hb]
  rfl

/-- **C26** (positive confidences).  More confidence never means more uncertainty.  Missing from the
claim: zero confidence, where the constant 1e6 can be smaller than the uncertainty of a small positive
confidence; see `C26_zero_confidence_false`. -/
theorem C26_monotone_partial (cov : Matrix (Fin n) (Fin n) ℝ) (p : Fin n → ℝ) (tau : ℝ)
    (hS : cov.PosSemidef) (hτ : 0 ≤ tau) (c c' : ℝ) (h0 : 0 < c) (hcc : c ≤ c') (h1 : c' ≤ 1) :
    ∃ e e', idzorekEntry cov p tau c = .ok e ∧ idzorekEntry cov p tau c' = .ok e' ∧ e' ≤ e := by
  refine ⟨_, _, idzorekEntry_eq cov p tau c h0.le (hcc.trans h1),
    idzorekEntry_eq cov p tau c' (h0.le.trans hcc) h1, ?_⟩
  have h0' : 0 < c' := lt_of_lt_of_le h0 hcc
  rw [idzorekSpec, idzorekSpec, if_neg h0.ne', if_neg h0'.ne']
  apply mul_le_mul_of_nonneg_right _ (viewVar_nonneg hS p)
  apply mul_le_mul_of_nonneg_left _ hτ
  rw [div_le_div_iff₀ h0' h0]
  nlinarith

/-- **C26** for zero confidence: the order is respected exactly when the finite uncertainty is at
most 1e6. -/
theorem C26_zero_confidence (cov : Matrix (Fin n) (Fin n) ℝ) (p : Fin n → ℝ) (tau : ℝ) (c' : ℝ)
    (h0 : 0 < c') (h1 : c' ≤ 1) :
    ∃ e e', idzorekEntry cov p tau 0 = .ok e ∧ idzorekEntry cov p tau c' = .ok e' ∧
      (e' ≤ e ↔ tau * ((1 - c') / c') * viewVar cov p ≤ 10 ^ 6) := by
  refine ⟨_, _, idzorekEntry_eq cov p tau 0 le_rfl zero_le_one,
    idzorekEntry_eq cov p tau c' h0.le h1, ?_⟩
  rw [idzorekSpec, idzorekSpec, if_pos rfl, if_neg h0.ne']
  norm_num

/-- **C26 fails** at zero confidence: a view with variance 1 held with confidence 1e-9 gets a larger
uncertainty than one held with no confidence at all. -/
theorem C26_zero_confidence_false :
    ∃ (cov : Matrix (Fin 1) (Fin 1) ℝ) (P : Matrix (Fin 1) (Fin 1) ℝ) (tau c : ℝ) (O O' : Matrix (Fin 1) (Fin 1) ℝ),
      cov.PosDef ∧ 0 < tau ∧ tau ≤ 1 ∧ 0 < c ∧ c ≤ 1 ∧
      idzorek [0] cov P tau = .ok O ∧ idzorek [c] cov P tau = .ok O' ∧ O 0 0 < O' 0 0 := by
  have hv : viewVar (1 : Matrix (Fin 1) (Fin 1) ℝ) ((1 : Matrix (Fin 1) (Fin 1) ℝ) 0) = 1 := by
    simp [viewVar]
  obtain ⟨O, h1, -, -, h1z, -, -⟩ := C26_idzorek (1 : Matrix (Fin 1) (Fin 1) ℝ) (1 : Matrix (Fin 1) (Fin 1) ℝ)
    (1/20) PosDef.one.posSemidef (by norm_num) [0] (by simp) (by intro i h hi; simp at h; subst h; simp)
  obtain ⟨O', h2, -, -, -, -, h2v⟩ := C26_idzorek (1 : Matrix (Fin 1) (Fin 1) ℝ) (1 : Matrix (Fin 1) (Fin 1) ℝ)
    (1/20) PosDef.one.posSemidef (by norm_num) [1/10^9] (by simp) (by
      intro i h hi; simp at h; subst h
      simp only [List.getElem_cons_zero]
      constructor <;> norm_num)
  refine ⟨1, 1, 1/20, 1/10^9, O, O', PosDef.one, by norm_num, by norm_num, by norm_num, by norm_num, h1, h2, ?_⟩
  rw [h1z 0 (by simp), h2v 0 (by simp), hv]
  norm_num

/-- **C24 with Idzorek.** A view held with confidence 1 is met exactly by the posterior. -/
theorem C24_full_confidence (la : LinAlg) (hla : la.Sound) (natKey : ℕ → κ) (x : Inputs κ n k)
    (conf : List ℝ) (hO : idzorek conf x.cov x.P x.tau = .ok x.omega) (hS : x.cov.PosSemidef)
    (hτ : 0 ≤ x.tau) (hk : k ≤ conf.length)
    (hc : ∀ i (h : i < conf.length), i < k → 0 ≤ conf[i] ∧ conf[i] ≤ 1)
    (hA : IsUnit (x.P * (x.tau • x.cov) * x.Pᵀ + x.omega)) (i : Fin k) (hi : conf.getD i 0 = 1)
    (cs : List (Call n)) :
    (x.P *ᵥ (blReturns la x (run la natKey x cs)).2) i = x.Q i := by
  obtain ⟨O, h1, h2, -, -, h3, -⟩ := C26_idzorek x.cov x.P x.tau hS hτ conf hk hc
  rw [hO] at h1
  have hOe : x.omega = O := Except.ok.inj h1
  apply C24_certain_view la hla natKey x hA
  intro j
  rw [hOe]
  by_cases hij : i = j
  · subst hij; exact h3 i hi
  · exact h2 i j hij

example : ∃ O, idzorek [1, 1/2, 0] (!![2, 1; 1, 2] : Matrix (Fin 2) (Fin 2) ℝ) !![1, -1; 0, 1; 1, 0] (1/2) = .ok O ∧
    O 0 0 = 0 ∧ O 1 1 = 1 ∧ O 2 2 = 10 ^ 6 := by
  obtain ⟨O, h1, -, -, h2, h3, h4⟩ := C26_idzorek (!![2, 1; 1, 2] : Matrix (Fin 2) (Fin 2) ℝ) !![1, -1; 0, 1; 1, 0] (1/2)
    exCov_posDef.posSemidef (by norm_num) [1, 1/2, 0] (by simp) (by
      intro i h hi
      interval_cases i <;> norm_num)
  refine ⟨O, h1, h3 0 (by simp), ?_, h2 2 (by simp)⟩
  rw [h4 1 (by simp)]
  simp [viewVar, Fin.sum_univ_two]
  norm_num

/-! ### C27 -/

/-- `∑ row · r` for a row of the picking matrix. -/
theorem pick_row (tickers : List κ) (hd : tickers.Nodup) (t : κ) (ht : t ∈ tickers) (j : Fin tickers.length) :
    ((List.replicate tickers.length (0 : ℝ)).set (tickers.idxOf t) 1).getD j 0
      = if tickers.get j = t then 1 else 0 := by
  have hj : (j : ℕ) < ((List.replicate tickers.length (0 : ℝ)).set (tickers.idxOf t) 1).length := by simp
  rw [List.getD_eq_getElem?_getD, List.getElem?_eq_getElem hj, Option.getD_some, List.getElem_set]
  by_cases h : tickers.get j = t
  · have : tickers.idxOf t = j := by
      rw [← h]; exact List.get_idxOf hd j
    simpa [this] using h
  · have : tickers.idxOf t ≠ j := by
      intro he
      apply h
      have hlt : tickers.idxOf t < tickers.length := List.idxOf_lt_length_iff.2 ht
      have h2 : tickers[tickers.idxOf t] = t := List.getElem_idxOf hlt
      simp only [List.get_eq_getElem, ← he, h2]
    simpa [this] using h

theorem parseViews_ok (tickers : List κ) (hd : tickers.Nodup) : ∀ views : List (κ × ℝ),
    (∀ v ∈ views, v.1 ∈ tickers) →
    ∃ Q P, parseViews tickers views = .ok (Q, P) ∧ Q = views.map Prod.snd ∧ P.length = views.length ∧
      (∀ row ∈ P, row.length = tickers.length) ∧
      ∀ i (hi : i < views.length) (j : Fin tickers.length),
        (P.getD i []).getD j 0 = if tickers.get j = views[i].1 then 1 else 0 := by
  intro views
  induction views with
  | nil => intro _; exact ⟨[], [], rfl, rfl, rfl, by simp, by simp⟩
  | cons v views ih =>
    intro h
    obtain ⟨Q, P, he, hQ, hl, hr, hp⟩ := ih (fun w hw => h w (List.mem_cons_of_mem _ hw))
    have hv : v.1 ∈ tickers := h v (by simp)
    refine ⟨v.2 :: Q, ((List.replicate tickers.length (0 : ℝ)).set (tickers.idxOf v.1) 1) :: P, ?_, ?_, ?_, ?_, ?_⟩
    · unfold parseViews; rw [if_pos hv, he]
    · simp [hQ]
    · simp [hl]
    · intro row hrow
      rcases List.mem_cons.1 hrow with rfl | hrow
      · simp
      · exact hr row hrow
    · intro i hi j
      cases i with
      | zero => exact pick_row tickers hd v.1 hv j
      | succ i =>
        have := hp i (by simpa using hi) j
        simpa using this

theorem parseViews_bad (tickers : List κ) : ∀ views : List (κ × ℝ), (∃ v ∈ views, v.1 ∉ tickers) →
    parseViews tickers views = .error .valueError := by
  intro views
  induction views with
  | nil => rintro ⟨v, hv, _⟩; cases hv
  | cons v views ih =>
    rintro ⟨w, hw, hb⟩
    unfold parseViews
    split
    · rename_i hv
      rcases List.mem_cons.1 hw with rfl | hw
      · exact absurd hv hb
      · rw [ih ⟨w, hw, hb⟩]
    · rfl

/-! ### The constructor -/

theorem toVec?_some {r : ℕ} {v : List ℝ} {w : Fin r → ℝ} (h : toVec? r v = some w) :
    v.length = r ∧ ∀ i : Fin r, w i = v.getD i 0 := by
  unfold toVec? at h
  split at h
  · rename_i hl
    cases h; exact ⟨hl, fun _ => rfl⟩
  · cases h

theorem toMatrix?_some {r c : ℕ} {v : List (List ℝ)} {w : Matrix (Fin r) (Fin c) ℝ}
    (h : toMatrix? r c v = some w) : v.length = r ∧ (∀ row ∈ v, row.length = c) ∧
      ∀ i j, w i j = (v.getD i []).getD j 0 := by
  unfold toMatrix? at h
  split at h
  · rename_i hl
    cases h; exact ⟨hl.1, hl.2, fun _ _ => rfl⟩
  · cases h

/-- What a successful constructor call has stored. -/
theorem construct_ok (tickers : List κ) (cov : Matrix (Fin tickers.length) (Fin tickers.length) ℝ)
    (pi : PiArg κ) (views : ViewsArg κ) (omega : OmegaArg) (tau δ : ℝ)
    (x : Σ k, Inputs κ tickers.length k)
    (h : construct tickers cov pi views omega tau δ = .ok (some x)) :
    ∃ Q P pl, setQP tickers views = .ok (Q, P) ∧ setPi tickers.get cov δ pi = .ok (some pl) ∧
      0 < δ ∧ 0 < tau ∧ tau ≤ 1 ∧ x.1 = Q.length ∧
      pl.length = tickers.length ∧ P.length = Q.length ∧ (∀ row ∈ P, row.length = tickers.length) ∧
      x.2.tickers = tickers.get ∧ x.2.cov = cov ∧ (∀ i, x.2.Q i = Q.getD i 0) ∧
      (∀ i j, x.2.P i j = (P.getD i []).getD j 0) ∧ (∀ i, x.2.pi i = pl.getD i 0) ∧
      setOmega cov x.2.P tau omega = .ok x.2.omega ∧ x.2.tau = tau ∧ x.2.riskAversion = δ := by
  unfold construct at h
  simp only [bind, Except.bind] at h
  cases h1 : setQP tickers views with
  | error e => rw [h1] at h; cases h
  | ok QP =>
    obtain ⟨Q, P⟩ := QP
    rw [h1] at h
    simp only at h
    by_cases hδ : δ ≤ 0
    · rw [if_pos hδ] at h; cases h
    rw [if_neg hδ] at h
    simp only [pure, Except.pure] at h
    cases h2 : setPi tickers.get cov δ pi with
    | error e => rw [h2] at h; cases h
    | ok pl =>
      rw [h2] at h
      simp only at h
      by_cases hτ : tau ≤ 0 ∨ tau > 1
      · rw [if_pos hτ] at h; cases h
      rw [if_neg hτ] at h
      cases pl with
      | none => cases h
      | some pl =>
        simp only at h
        cases h3 : toVec? tickers.length pl with
        | none => rw [h3] at h; cases h
        | some pv =>
          cases h4 : toMatrix? Q.length tickers.length P with
          | none => rw [h3, h4] at h; cases h
          | some Pm =>
            rw [h3, h4] at h
            simp only at h
            cases h5 : setOmega cov Pm tau omega with
            | error e => rw [h5] at h; cases h
            | ok om =>
              rw [h5] at h
              simp only at h
              have hx := Option.some.inj (Except.ok.inj h)
              subst hx
              push Not at hτ
              obtain ⟨a1, a2⟩ := toVec?_some h3
              obtain ⟨b1, b2, b3⟩ := toMatrix?_some h4
              refine ⟨Q, P, pl, rfl, rfl, not_le.1 hδ, hτ.1, hτ.2, rfl, a1, b1, b2, rfl, rfl, ?_, b3, a2, h5, rfl, rfl⟩
              intro i
              change Q.get i = Q.getD i 0
              simp

/-- **C27.** Given absolute views on known, distinct tickers, the constructed object has one view per
entry, `Q` holds the views, and `P r` lists the returns of the viewed assets: `(P r)_i = r(ticker_i)`
for every assignment `r` of returns to tickers. -/
theorem C27_absolute_views (tickers : List κ) (hd : tickers.Nodup)
    (cov : Matrix (Fin tickers.length) (Fin tickers.length) ℝ) (pi : PiArg κ) (views : List (κ × ℝ))
    (omega : OmegaArg) (tau δ : ℝ) (x : Σ k, Inputs κ tickers.length k)
    (h : construct tickers cov pi (.absolute views) omega tau δ = .ok (some x)) :
    x.1 = views.length ∧ ∀ (i : Fin x.1) (v : κ × ℝ), views[(i : ℕ)]? = some v →
      v.1 ∈ tickers ∧ x.2.Q i = v.2 ∧
      (∀ j, x.2.P i j = if tickers.get j = v.1 then 1 else 0) ∧
      ∀ r : κ → ℝ, (x.2.P *ᵥ (fun j => r (tickers.get j))) i = r v.1 := by
  obtain ⟨Q, P, pl, h1, -, -, -, -, hk, -, -, -, -, -, hQ, hP, -⟩ := construct_ok _ _ _ _ _ _ _ _ h
  have hall : ∀ v ∈ views, v.1 ∈ tickers := by
    by_contra hc
    push Not at hc
    obtain ⟨v, hv, hb⟩ := hc
    have := parseViews_bad tickers views ⟨v, hv, hb⟩
    simp only [setQP] at h1
    rw [this] at h1; cases h1
  obtain ⟨Q', P', he, hQ', hl, hr, hp⟩ := parseViews_ok tickers hd views hall
  simp only [setQP] at h1
  rw [he] at h1
  have := Except.ok.inj h1
  obtain ⟨rfl, rfl⟩ := Prod.mk.inj this
  refine ⟨by rw [hk, hQ', List.length_map], ?_⟩
  intro i v hv
  have hi : (i : ℕ) < views.length := (List.getElem?_eq_some_iff.1 hv).1
  have hvi : views[(i : ℕ)] = v := (List.getElem?_eq_some_iff.1 hv).2
  have hv1 : v.1 ∈ tickers := hall v (hvi ▸ List.getElem_mem hi)
  have hPij : ∀ j, x.2.P i j = if tickers.get j = v.1 then 1 else 0 := by
    intro j; rw [hP, hp i hi j, hvi]
  refine ⟨hv1, ?_, hPij, ?_⟩
  · rw [hQ, hQ']
    simp [List.getD, hi, hvi]
  · intro r
    obtain ⟨j, hj⟩ := List.get_of_mem hv1
    have : (x.2.P *ᵥ (fun j => r (tickers.get j))) i
        = ∑ l, (if tickers.get l = v.1 then 1 else 0) * r (tickers.get l) := by
      change ∑ l, x.2.P i l * r (tickers.get l) = _
      refine Finset.sum_congr rfl ?_
      intro l _
      rw [← hPij l]
    rw [this, Finset.sum_eq_single j]
    · rw [if_pos hj, one_mul, hj]
    · intro l _ hl
      rw [if_neg, zero_mul]
      intro he
      exact hl (hd.injective_get (he.trans hj.symm))
    · simp

/-- **C27.** A view on an unknown ticker raises ValueError, whatever the other arguments. -/
theorem C27_unknown_ticker (tickers : List κ) (cov : Matrix (Fin tickers.length) (Fin tickers.length) ℝ)
    (pi : PiArg κ) (views : List (κ × ℝ)) (omega : OmegaArg) (tau δ : ℝ) (v : κ × ℝ) (hv : v ∈ views)
    (hb : v.1 ∉ tickers) :
    construct tickers cov pi (.absolute views) omega tau δ = .error .valueError := by
  unfold construct
  simp only [setQP, parseViews_bad tickers views ⟨v, hv, hb⟩]
  rfl

/-! ### C57 -/

/-- **C57.** Whatever the arguments, a constructed Black-Litterman model has a positive risk aversion,
`0 < τ ≤ 1`, the covariance it was given, and one prior return per ticker; without a user-supplied
`omega`, its uncertainty matrix is diagonal and, for a positive semidefinite covariance, has
non-negative entries. -/
theorem C57_accepted_is_wellformed (tickers : List κ)
    (cov : Matrix (Fin tickers.length) (Fin tickers.length) ℝ) (pi : PiArg κ) (views : ViewsArg κ)
    (omega : OmegaArg) (tau δ : ℝ) (x : Σ k, Inputs κ tickers.length k)
    (h : construct tickers cov pi views omega tau δ = .ok (some x)) :
    0 < x.2.riskAversion ∧ 0 < x.2.tau ∧ x.2.tau ≤ 1 ∧ x.2.cov = cov ∧
      ((∀ rows, omega ≠ .array rows) → cov.PosSemidef →
        (∀ i j, i ≠ j → x.2.omega i j = 0) ∧ ∀ i, 0 ≤ x.2.omega i i) := by
  obtain ⟨Q, P, pl, -, -, hδ, h0, h1, -, -, -, -, -, hc, -, -, -, hO, ht, hr⟩ := construct_ok _ _ _ _ _ _ _ _ h
  refine ⟨hr ▸ hδ, ht ▸ h0, ht ▸ h1, hc, ?_⟩
  intro hna hS
  have idz : ∀ conf, idzorek conf cov x.2.P tau = .ok x.2.omega →
      (∀ i j, i ≠ j → x.2.omega i j = 0) ∧ ∀ i, 0 ≤ x.2.omega i i := by
    intro conf hI
    by_cases hk : x.1 ≤ conf.length
    · by_cases hcf : ∀ i (h : i < conf.length), i < x.1 → 0 ≤ conf[i] ∧ conf[i] ≤ 1
      · obtain ⟨O, e1, e2, e3, -⟩ := C26_idzorek cov x.2.P tau hS h0.le conf hk hcf
        rw [hI] at e1
        rw [Except.ok.inj e1]
        exact ⟨e2, e3⟩
      · push Not at hcf
        obtain ⟨i, hi, hik, hb⟩ := hcf
        have hb' : conf[i] < 0 ∨ 1 < conf[i] := by
          by_cases hn : 0 ≤ conf[i]
          · exact .inr (hb hn)
          · exact .inl (not_le.1 hn)
        have := C26_idzorek_rejects cov x.2.P tau conf ⟨i, hik⟩ hi hb'
        rw [this] at hI; cases hI
    · exfalso
      have hshort : ∀ (ps : List (Fin tickers.length → ℝ)) (cs : List ℝ), cs.length < ps.length →
          ∀ es, idzorekLoop cov tau ps cs ≠ .ok es := by
        intro ps
        induction ps with
        | nil => intro cs hl; simp at hl
        | cons p ps ih =>
          intro cs hl es he
          cases cs with
          | nil => cases he
          | cons c cs =>
            rw [idzorekLoop] at he
            simp only [bind, Except.bind] at he
            split at he
            · cases he
            · split at he
              · cases he
              · rename_i he2
                exact ih cs (by simpa using hl) _ he2
      rw [idzorek] at hI
      simp only [bind, Except.bind] at hI
      split at hI
      · cases hI
      · rename_i he
        exact hshort _ _ (by simpa using hk) _ he
  cases omega with
  | array rows => exact absurd rfl (hna rows)
  | other => cases hO
  | default =>
    simp only [setOmega] at hO
    rw [← Except.ok.inj hO]
    obtain ⟨e1, -, e3⟩ := C26_default_omega cov x.2.P tau hS h0.le
    exact ⟨e1, e3⟩
  | idzorek conf =>
    cases conf with
    | none => cases hO
    | some conf =>
      cases conf with
      | ndarray c => exact idz c hO
      | seq c =>
        simp only [setOmega] at hO
        split at hO
        · exact idz c hO
        · cases hO

/-- **C57.** Risk aversion and `τ` out of range are rejected with ValueError when the views are well
formed and the prior is accepted. -/
theorem C57_rejects (tickers : List κ) (cov : Matrix (Fin tickers.length) (Fin tickers.length) ℝ)
    (pi : PiArg κ) (views : ViewsArg κ) (omega : OmegaArg) (tau δ : ℝ) (qp : List ℝ × List (List ℝ))
    (hv : setQP tickers views = .ok qp) :
    (δ ≤ 0 → construct tickers cov pi views omega tau δ = .error .valueError) ∧
    (0 < δ → ∀ pl, setPi tickers.get cov δ pi = .ok pl → (tau ≤ 0 ∨ 1 < tau) →
      construct tickers cov pi views omega tau δ = .error .valueError) := by
  constructor
  · intro h
    unfold construct
    simp only [hv, bind, Except.bind]
    rw [if_pos h]
    rfl
  · intro h pl hp ht
    unfold construct
    simp only [hv, bind, Except.bind]
    rw [if_neg (not_le.2 h), hp]
    simp only [pure, Except.pure]
    rw [if_pos ht]
    rfl

/-- **C57.** The prior of an accepted model: zero when none is given, the given values, or the same
value for every asset with total one. -/
theorem C57_prior (tickers : List κ) (cov : Matrix (Fin tickers.length) (Fin tickers.length) ℝ)
    (pi : PiArg κ) (views : ViewsArg κ) (omega : OmegaArg) (tau δ : ℝ)
    (x : Σ k, Inputs κ tickers.length k)
    (h : construct tickers cov pi views omega tau δ = .ok (some x)) :
    (pi = .none → ∀ i, x.2.pi i = 0) ∧
    (∀ v, pi = .array v → v = List.ofFn x.2.pi) ∧
    (pi = .equal → (∀ i j, x.2.pi i = x.2.pi j) ∧ (0 < tickers.length → ∑ i, x.2.pi i = 1)) := by
  unfold construct at h
  simp only [bind, Except.bind, pure, Except.pure] at h
  split at h
  · cases h
  split at h
  · cases h
  split at h
  · cases h
  rename_i pl hpl
  split at h
  · cases h
  split at h
  · cases h
  split at h
  · rename_i hv _
    split at h
    · cases h
    · have hx := Option.some.inj (Except.ok.inj h)
      subst hx
      unfold toVec? at hv
      split at hv
      · rename_i hlen
        have hv := Option.some.inj hv
        subst hv
        refine ⟨?_, ?_, ?_⟩
        · rintro rfl i
          have := Option.some.inj (Except.ok.inj hpl)
          subst this
          simp
        · rintro v rfl
          have := Option.some.inj (Except.ok.inj hpl)
          subst this
          apply List.ext_getElem
          · simpa using hlen
          · intro i h1 h2; simp [h1]
        · rintro rfl
          have := Option.some.inj (Except.ok.inj hpl)
          subst this
          refine ⟨fun i j => by simp, fun hn => ?_⟩
          have : (tickers.length : ℝ) ≠ 0 := by exact_mod_cast hn.ne'
          simp [this]
      · cases hv
  · cases h

/-- A construction that succeeds: two tickers, absolute views in the other order, Idzorek. -/
example : ∃ x, construct ["A", "B"] (!![2, 1; 1, 2] : Matrix (Fin 2) (Fin 2) ℝ) .equal
    (.absolute [("B", 3), ("A", 1)]) (.idzorek (some (.seq [1/2, 1/4]))) (1/20) 1 = .ok (some x) := by
  obtain ⟨Q, P, he, hQ, hl, hr, -⟩ := parseViews_ok ["A", "B"] (by decide) [("B", (3 : ℝ)), ("A", 1)] (by simp)
  have hQl : Q.length = 2 := by simp [hQ]
  have hPl : P.length = Q.length := by rw [hl, hQl]; rfl
  have hm : toMatrix? Q.length 2 P = some (fun (i : Fin Q.length) (j : Fin 2) => (P.getD i []).getD j 0) := by
    unfold toMatrix?; rw [if_pos ⟨hPl, by simpa using hr⟩]; rfl
  have hv : toVec? 2 (List.replicate 2 (1 / ((2 : ℕ) : ℝ)))
      = some (fun i : Fin 2 => (List.replicate 2 (1 / ((2 : ℕ) : ℝ))).getD i 0) := by
    unfold toVec?; rw [if_pos (by simp)]
  obtain ⟨O, hO, -⟩ := C26_idzorek (!![2, 1; 1, 2] : Matrix (Fin 2) (Fin 2) ℝ)
    (fun (i : Fin Q.length) (j : Fin 2) => (P.getD i []).getD j 0) (1/20)
    exCov_posDef.posSemidef (by norm_num) [1/2, 1/4] (by simp [hQl]) (by
      intro i h hi
      rw [hQl] at hi
      interval_cases i <;> norm_num)
  refine ⟨⟨Q.length, (["A", "B"] : List String).get, !![2, 1; 1, 2], Q.get,
    (fun (i : Fin Q.length) (j : Fin 2) => (P.getD i []).getD j 0),
    (fun i : Fin 2 => (List.replicate 2 (1 / ((2 : ℕ) : ℝ))).getD i 0), O, 1/20, 1⟩, ?_⟩
  unfold construct
  simp only [setQP, he, bind, Except.bind, pure, Except.pure]
  rw [if_neg (by norm_num)]
  simp only [setPi]
  rw [if_neg (by norm_num)]
  have hv' : toVec? ["A", "B"].length (List.replicate ["A", "B"].length (1 / ((["A", "B"].length : ℕ) : ℝ)))
      = some (fun i : Fin 2 => (List.replicate 2 (1 / ((2 : ℕ) : ℝ))).getD i 0) := hv
  have hm' : toMatrix? Q.length ["A", "B"].length P
      = some (fun (i : Fin Q.length) (j : Fin 2) => (P.getD i []).getD j 0) := hm
  rw [hv', hm']
  simp only [setOmega]
  rw [if_pos (by simp [hQl])]
  rw [hO]

end Verif.BL
