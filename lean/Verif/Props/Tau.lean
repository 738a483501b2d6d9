import Verif.Spec.Tau
import Verif.Proof.LeastSquares
import Verif.Props.BlWeights
import Verif.Props.BlInputs

/-! Property theorem C86: what `tau` matters for. -/

set_option linter.unusedSectionVars false
noncomputable section

namespace Verif.BL
open Verif.Py Verif.Base Verif.Perf Matrix

variable {κ : Type} [DecidableEq κ] {n k : ℕ}

/-! ### The same model with another `tau` -/

/-- The stored attributes with `tau` and `omega` both multiplied by `f`. -/
def rescaled (x : Inputs κ n k) (f : ℝ) : Inputs κ n k := { x with tau := f * x.tau, omega := f • x.omega }

theorem tsp_rescaled (x : Inputs κ n k) (f : ℝ) : tsp (rescaled x f) = f • tsp x := by
  simp only [tsp, rescaled, mul_smul, Matrix.smul_mul]

theorem amat_rescaled (x : Inputs κ n k) (f : ℝ) : amat (rescaled x f) = f • amat x := by
  rw [amat, amat, tsp_rescaled, smul_add, Matrix.mul_smul]
  rfl

theorem returns_rescaled (la : LinAlg) (hla : la.Sound) (natKey : ℕ → κ) (x : Inputs κ n k) {f : ℝ}
    (hf : f ≠ 0) (cs cs' : List (Call n)) :
    (blReturns la (rescaled x f) (run la natKey (rescaled x f) cs')).2 =
      (blReturns la x (run la natKey x cs)).2 := by
  rw [blReturns_eq (run_coherent la natKey _ cs'), blReturns_eq (run_coherent la natKey x cs)]
  simp only [blReturns, getA_eq (coherent_init la x), getTSP_eq (coherent_init la x),
    getA_eq (coherent_init la (rescaled x f)), getTSP_eq (coherent_init la (rescaled x f))]
  rw [tsp_rescaled, amat_rescaled, solveOr_smul hla _ _ hf, Matrix.smul_mul, Matrix.mul_smul, smul_smul,
    mul_inv_cancel₀ hf, one_smul]
  rfl

theorem cov_rescaled (la : LinAlg) (hla : la.Sound) (natKey : ℕ → κ) (x : Inputs κ n k) {f : ℝ}
    (hf : f ≠ 0) (cs cs' : List (Call n)) :
    (blCov la (rescaled x f) (run la natKey (rescaled x f) cs')).2 - x.cov =
      f • ((blCov la x (run la natKey x cs)).2 - x.cov) := by
  rw [blCov_eq (run_coherent la natKey _ cs'), blCov_eq (run_coherent la natKey x cs)]
  simp only [blCov, getA_eq (coherent_init la x), getTSP_eq (coherent_init la x),
    getA_eq (coherent_init la (rescaled x f)), getTSP_eq (coherent_init la (rescaled x f))]
  rw [tsp_rescaled, amat_rescaled, solveOr_smul hla _ _ hf, transpose_smul, solveOr_rhs hla, smul_smul,
    inv_mul_cancel₀ hf, one_smul, Matrix.smul_mul]
  simp only [rescaled, mul_smul]
  rw [add_sub_cancel_left, add_sub_cancel_left, smul_sub]

theorem weightSolution_rescaled (la : LinAlg) (hla : la.Sound) (x : Inputs κ n k) {f : ℝ} (hf : f ≠ 0)
    (A' : Matrix (Fin k) (Fin k) ℝ) (δ : ℝ) (post : Fin n → ℝ) :
    weightSolution la (rescaled x f) (f • A') δ post = weightSolution la x A' δ post ∨
    ∃ raw, weightSolution la x A' δ post = .ok raw ∧
      weightSolution la (rescaled x f) (f • A') δ post = .ok (f⁻¹ • raw) := by
  unfold weightSolution
  have hc : (rescaled x f).cov = x.cov := rfl
  rw [hc]
  cases la.solve n 1 (δ • x.cov) (col post) with
  | some w => exact .inl rfl
  | none =>
    by_cases h : k = n
    · simp only [dif_pos h]
      refine .inr ⟨_, rfl, ?_⟩
      exact congrArg Except.ok (funext fun i => congrFun (congrFun (lstsq_smul hla A' _ hf) _) 0)
    · exact .inl (by simp only [dif_neg h])

theorem weights_rescaled (la : LinAlg) (hla : la.Sound) (natKey : ℕ → κ) (x : Inputs κ n k) {f : ℝ}
    (hf : 0 < f) (cs cs' : List (Call n)) (ra : Option ℝ) :
    (blWeights la (rescaled x f) (run la natKey (rescaled x f) cs') ra).2 =
      (blWeights la x (run la natKey x cs) ra).2 := by
  have hr := returns_rescaled la hla natKey x hf.ne' cs cs'
  have ha : (rescaled x f).riskAversion = x.riskAversion := rfl
  unfold blWeights
  simp only [hr, ha, getA_eq (run_coherent la natKey _ _), amat_rescaled]
  rcases weightSolution_rescaled la hla x hf.ne' (amat x) (ra.getD x.riskAversion)
    (blReturns la x (run la natKey x cs)).2 with h | ⟨raw, h1, h2⟩
  · rw [h]
    cases weightSolution la x (amat x) (ra.getD x.riskAversion) (blReturns la x (run la natKey x cs)).2 <;> rfl
  · rw [h1, h2]
    simp only
    refine congrArg Except.ok (funext fun i => ?_)
    have hs : ∑ j, (f⁻¹ • raw) j = f⁻¹ * ∑ j, raw j := by
      rw [Finset.mul_sum]; rfl
    rw [hs]
    exact fdiv_scale (inv_pos.2 hf) _ _

/-! ### The constructor -/

theorem idzorekLoop_tau (S : Matrix (Fin n) (Fin n) ℝ) (t t' : ℝ) (ht : t ≠ 0) (ps : List (Fin n → ℝ))
    (cs : List ℝ) (hc : ∀ q ∈ cs, q ≠ 0) (es : List ℝ) (h : idzorekLoop S t ps cs = .ok es) :
    idzorekLoop S t' ps cs = .ok (es.map (t' / t * ·)) := by
  induction ps generalizing cs es with
  | nil =>
    unfold idzorekLoop at h ⊢
    cases h
    rfl
  | cons p ps ih =>
    cases cs with
    | nil => unfold idzorekLoop at h; cases h
    | cons q cs =>
      unfold idzorekLoop at h ⊢
      have hq := hc q (List.mem_cons_self ..)
      unfold idzorekEntry at h ⊢
      by_cases hb : q < 0 ∨ q > 1
      · rw [if_pos hb] at h; cases h
      rw [if_neg hb, if_neg hq] at h ⊢
      cases hl : idzorekLoop S t ps cs with
      | error e => rw [hl] at h; cases h
      | ok es' =>
        rw [hl] at h
        have he : _ :: es' = es := Except.ok.inj h
        rw [ih cs (fun q hq => hc q (List.mem_cons_of_mem _ hq)) es' hl]
        subst he
        refine congrArg Except.ok ?_
        rw [List.map_cons]
        congr 1
        simp only [smul_dotProduct, smul_eq_mul]
        field_simp

theorem idzorek_tau (S : Matrix (Fin n) (Fin n) ℝ) (P : Matrix (Fin k) (Fin n) ℝ) (t t' : ℝ) (ht : t ≠ 0)
    (cs : List ℝ) (hc : ∀ q ∈ cs, q ≠ 0) (o : Matrix (Fin k) (Fin k) ℝ) (h : idzorek cs S P t = .ok o) :
    idzorek cs S P t' = .ok ((t' / t) • o) := by
  unfold idzorek at h ⊢
  cases hl : idzorekLoop S t (List.ofFn P.row) cs with
  | error e => rw [hl] at h; cases h
  | ok es =>
    rw [hl] at h
    have he : diagonal (fun i : Fin k => es.getD i 0) = o := Except.ok.inj h
    rw [idzorekLoop_tau S t t' ht _ cs hc es hl, ← he]
    refine congrArg Except.ok ?_
    rw [smul_eq_diagonal_mul, diagonal_mul_diagonal]
    congr 1
    funext i
    rw [List.getD_eq_getElem?_getD, List.getD_eq_getElem?_getD, List.getElem?_map]
    cases es[(i : ℕ)]? <;> simp

theorem setOmega_tau (S : Matrix (Fin n) (Fin n) ℝ) (P : Matrix (Fin k) (Fin n) ℝ) (t t' : ℝ) (ht : t ≠ 0)
    (omega : OmegaArg) (hr : Relative omega) (o : Matrix (Fin k) (Fin k) ℝ)
    (h : setOmega S P t omega = .ok o) : setOmega S P t' omega = .ok ((t' / t) • o) := by
  unfold setOmega at h ⊢
  cases omega with
  | array rows => exact hr.elim
  | other => exact hr.elim
  | default =>
    cases h
    refine congrArg Except.ok ?_
    unfold defaultOmega
    rw [← diagonal_smul]
    congr 1
    funext i
    simp only [Pi.smul_apply, Matrix.smul_mul, Matrix.smul_apply, smul_eq_mul]
    field_simp
  | idzorek conf =>
    cases conf with
    | none => exact hr.elim
    | some conf =>
      cases conf with
      | ndarray c => exact idzorek_tau S P t t' ht c hr o h
      | seq c =>
        simp only at h ⊢
        by_cases hl : c.length = k
        · rw [if_pos hl] at h ⊢; exact idzorek_tau S P t t' ht c hr o h
        · rw [if_neg hl] at h; cases h

theorem construct_tau (tickers : List κ) (cov : Matrix (Fin tickers.length) (Fin tickers.length) ℝ)
    (pi : PiArg κ) (views : ViewsArg κ) (omega : OmegaArg) (hr : Relative omega) (t t' δ : ℝ)
    (x : Σ k, Inputs κ tickers.length k) (h : construct tickers cov pi views omega t δ = .ok (some x))
    (h0 : 0 < t') (h1 : t' ≤ 1) :
    construct tickers cov pi views omega t' δ = .ok (some ⟨x.1, rescaled x.2 (t' / t)⟩) := by
  have ht : 0 < t := (construct_ok tickers cov pi views omega t δ x h).elim
    fun _ ⟨_, _, _, _, _, ht, _⟩ => ht
  unfold construct at h ⊢
  simp only [bind, Except.bind] at h ⊢
  cases h1 : setQP tickers views with
  | error e => rw [h1] at h; cases h
  | ok QP =>
    obtain ⟨Q, P⟩ := QP
    rw [h1] at h
    simp only at h ⊢
    by_cases hδ : δ ≤ 0
    · rw [if_pos hδ] at h; cases h
    rw [if_neg hδ] at h ⊢
    simp only [pure, Except.pure] at h ⊢
    cases h2 : setPi tickers.get cov δ pi with
    | error e => rw [h2] at h; cases h
    | ok pl =>
      rw [h2] at h
      simp only at h ⊢
      by_cases hτ : t ≤ 0 ∨ t > 1
      · rw [if_pos hτ] at h; cases h
      rw [if_neg hτ] at h
      rw [if_neg (by rintro (hc | hc) <;> linarith)]
      cases pl with
      | none => cases h
      | some pl =>
        simp only at h ⊢
        cases h3 : toVec? tickers.length pl with
        | none => rw [h3] at h; cases h
        | some pv =>
          cases h4 : toMatrix? Q.length tickers.length P with
          | none => rw [h3, h4] at h; cases h
          | some Pm =>
            rw [h3, h4] at h
            simp only at h ⊢
            cases h5 : setOmega cov Pm t omega with
            | error e => rw [h5] at h; cases h
            | ok om =>
              rw [h5] at h
              rw [setOmega_tau cov Pm t t' ht.ne' omega hr om h5]
              have hx := Option.some.inj (Except.ok.inj h)
              subst hx
              simp only [rescaled]
              rw [div_mul_cancel₀ _ ht.ne']

/-! ### C86 -/

/-- C86: with the default uncertainty or Idzorek's, a model that is accepted with one `tau` is
accepted with every other legal one; it has the same posterior returns and the same weights (or the
same exception), whatever was called before on either, and whether or not the linear systems are
singular.  Missing from the claim: zero confidences and the posterior covariance, see the `_false`
theorems. -/
theorem C86_tau_partial (la : LinAlg) (hla : la.Sound) (natKey : ℕ → κ) (tickers : List κ)
    (cov : Matrix (Fin tickers.length) (Fin tickers.length) ℝ) (pi : PiArg κ) (views : ViewsArg κ)
    (omega : OmegaArg) (hr : Relative omega) (t t' δ : ℝ) (x : Σ k, Inputs κ tickers.length k)
    (h : construct tickers cov pi views omega t δ = .ok (some x)) (h0 : 0 < t') (h1 : t' ≤ 1) :
    ∃ y, construct tickers cov pi views omega t' δ = .ok (some y) ∧ ∀ cs cs' : List (Call tickers.length),
      (blReturns la y.2 (run la natKey y.2 cs')).2 = (blReturns la x.2 (run la natKey x.2 cs)).2 ∧
      ∀ ra, (blWeights la y.2 (run la natKey y.2 cs') ra).2 =
        (blWeights la x.2 (run la natKey x.2 cs) ra).2 := by
  have ht : 0 < t := (construct_ok tickers cov pi views omega t δ x h).elim
    fun _ ⟨_, _, _, _, _, ht, _⟩ => ht
  have hf : 0 < t' / t := div_pos h0 ht
  exact ⟨_, construct_tau tickers cov pi views omega hr t t' δ x h h0 h1, fun cs cs' =>
    ⟨returns_rescaled la hla natKey x.2 hf.ne' cs cs', weights_rescaled la hla natKey x.2 hf cs cs'⟩⟩

/-- C86: the posterior covariance exceeds the covariance by an amount proportional to `tau`. -/
theorem C86_cov (la : LinAlg) (hla : la.Sound) (natKey : ℕ → κ) (tickers : List κ)
    (cov : Matrix (Fin tickers.length) (Fin tickers.length) ℝ) (pi : PiArg κ) (views : ViewsArg κ)
    (omega : OmegaArg) (hr : Relative omega) (t t' δ : ℝ) (x y : Σ k, Inputs κ tickers.length k)
    (hx : construct tickers cov pi views omega t δ = .ok (some x))
    (hy : construct tickers cov pi views omega t' δ = .ok (some y)) (cs cs' : List (Call tickers.length)) :
    (blCov la y.2 (run la natKey y.2 cs')).2 - cov =
      (t' / t) • ((blCov la x.2 (run la natKey x.2 cs)).2 - cov) := by
  obtain ⟨_, _, _, _, _, _, ht, _, _, _, _, _, _, hc, _⟩ := construct_ok tickers cov pi views omega t δ x hx
  obtain ⟨_, _, _, _, _, _, ht', ht1, _⟩ := construct_ok tickers cov pi views omega t' δ y hy
  have := construct_tau tickers cov pi views omega hr t t' δ x hx ht' ht1
  rw [hy] at this
  have he := Option.some.inj (Except.ok.inj this)
  subst he
  have hcov := cov_rescaled la hla natKey x.2 (div_pos ht' ht).ne' cs cs'
  rw [hc] at hcov
  exact hcov

/-! ### What does depend on `tau` -/

/-- One asset of variance 1 and prior 0, and the view that it returns `q`, of uncertainty `o`. -/
def one (q o t : ℝ) : Inputs ℕ 1 1 := ⟨fun _ => 0, !![1], fun _ => q, !![1], ![0], !![o], t, 1⟩

theorem construct_one (q o t : ℝ) (omega : OmegaArg) (h0 : 0 < t) (h1 : t ≤ 1)
    (ho : setOmega (!![1] : Matrix (Fin 1) (Fin 1) ℝ) (!![1] : Matrix (Fin 1) (Fin 1) ℝ) t omega = .ok !![o]) :
    construct [0] (!![1] : Matrix (Fin 1) (Fin 1) ℝ) .none (.qp (some [q]) (some [[1]])) omega t 1 =
      .ok (some ⟨1, one q o t⟩) := by
  have hm : toMatrix? 1 1 [[1]] = some (!![1] : Matrix (Fin 1) (Fin 1) ℝ) := by
    unfold toMatrix?
    rw [if_pos (by simp)]
    refine congrArg some ?_
    ext i j
    fin_cases i; fin_cases j
    rfl
  have hv : toVec? 1 (List.replicate 1 (0 : ℝ)) = some (![0] : Fin 1 → ℝ) := by
    unfold toVec?
    rw [if_pos (by simp)]
    refine congrArg some ?_
    funext i
    fin_cases i
    rfl
  unfold construct
  simp only [setQP, setPi, bind, Except.bind, pure, Except.pure, List.length_singleton]
  rw [if_neg (by norm_num), if_neg (by rintro (h | h) <;> linarith)]
  simp only [hm, hv, ho]
  refine congrArg (fun z => Except.ok (some z)) ?_
  refine congrArg (fun z : Inputs ℕ 1 1 => (⟨1, z⟩ : Σ k, Inputs ℕ 1 k)) ?_
  unfold one
  congr
  · funext i; fin_cases i; rfl
  · funext i; fin_cases i; rfl

theorem one_tsp (q o t : ℝ) : tsp (one q o t) = !![t] := by
  ext i j
  fin_cases i; fin_cases j
  unfold tsp
  rw [Matrix.mul_apply, Fin.sum_univ_one]
  simp [one]

theorem one_amat (q o t : ℝ) : amat (one q o t) = !![t + o] := by
  ext i j
  fin_cases i; fin_cases j
  unfold amat
  rw [one_tsp, Matrix.add_apply, Matrix.mul_apply, Fin.sum_univ_one]
  simp [one]

theorem one_solve (la : LinAlg) (hla : la.Sound) (q o t : ℝ) (h : t + o ≠ 0) (b : Matrix (Fin 1) (Fin 1) ℝ) :
    solveOr la (amat (one q o t)) b = !![b 0 0 / (t + o)] := by
  have hu : IsUnit (amat (one q o t)) := by
    rw [isUnit_iff_isUnit_det, one_amat]
    simpa using h
  have h1 : amat (one q o t) * !![b 0 0 / (t + o)] = b := by
    ext i j
    fin_cases i; fin_cases j
    rw [one_amat, Matrix.mul_apply, Fin.sum_univ_one]
    simp only [of_apply, cons_val', cons_val_fin_one, Fin.zero_eta]
    field_simp
  rw [solveOr_isUnit hla _ _ hu]
  conv_lhs => rw [← h1]
  rw [← Matrix.mul_assoc, unit_inv_mul hu, Matrix.one_mul]

theorem one_returns (la : LinAlg) (hla : la.Sound) (natKey : ℕ → ℕ) (q o t : ℝ) (h : t + o ≠ 0)
    (cs : List (Call 1)) :
    (blReturns la (one q o t) (run la natKey (one q o t) cs)).2 0 = t / (t + o) * q := by
  rw [blReturns_eq (run_coherent la natKey _ cs)]
  simp only [blReturns, getA_eq (coherent_init la (one q o t)), getTSP_eq (coherent_init la (one q o t))]
  rw [one_solve la hla q o t h, one_tsp, Matrix.mul_apply, Fin.sum_univ_one]
  simp [one, col, mulVec, dotProduct]
  ring

theorem one_cov (la : LinAlg) (hla : la.Sound) (natKey : ℕ → ℕ) (q o t : ℝ) (h : t + o ≠ 0)
    (cs : List (Call 1)) :
    (blCov la (one q o t) (run la natKey (one q o t) cs)).2 0 0 = 1 + (t - t * (t / (t + o))) := by
  rw [blCov_eq (run_coherent la natKey _ cs)]
  simp only [blCov, getA_eq (coherent_init la (one q o t)), getTSP_eq (coherent_init la (one q o t))]
  rw [one_solve la hla q o t h, one_tsp, Matrix.add_apply, Matrix.sub_apply, Matrix.mul_apply, Fin.sum_univ_one]
  simp [one]

/-- C86 fails of the posterior covariance: with the default uncertainty the posterior variance of the
asset is `1 + tau / 2`. -/
theorem C86_cov_false (la : LinAlg) (hla : la.Sound) (natKey : ℕ → ℕ) (t : ℝ) (h0 : 0 < t) (h1 : t ≤ 1)
    (cs : List (Call 1)) :
    ∃ x : Inputs ℕ 1 1, construct [0] (!![1] : Matrix (Fin 1) (Fin 1) ℝ) .none
        (.qp (some [3]) (some [[1]])) .default t 1 = .ok (some ⟨1, x⟩) ∧
      (blReturns la x (run la natKey x cs)).2 0 = 3 / 2 ∧
      (blCov la x (run la natKey x cs)).2 0 0 = 1 + t / 2 := by
  refine ⟨one 3 t t, construct_one 3 t t .default h0 h1 ?_, ?_, ?_⟩
  · refine congrArg Except.ok ?_
    ext i j
    fin_cases i; fin_cases j
    simp [defaultOmega, Matrix.mul_apply]
  · rw [one_returns la hla natKey 3 t t (by linarith)]
    field_simp
    norm_num
  · rw [one_cov la hla natKey 3 t t (by linarith)]
    field_simp
    ring

/-- C86 fails for a view of zero confidence, whose uncertainty is 1000000 for every `tau`. -/
theorem C86_zero_confidence_false (la : LinAlg) (hla : la.Sound) (natKey : ℕ → ℕ) (t : ℝ) (h0 : 0 < t)
    (h1 : t ≤ 1) (cs : List (Call 1)) :
    ∃ x : Inputs ℕ 1 1, construct [0] (!![1] : Matrix (Fin 1) (Fin 1) ℝ) .none
        (.qp (some [3]) (some [[1]])) (.idzorek (some (.seq [0]))) t 1 = .ok (some ⟨1, x⟩) ∧
      (blReturns la x (run la natKey x cs)).2 0 = t / (t + 1000000) * 3 := by
  refine ⟨one 3 1000000 t, construct_one 3 1000000 t _ h0 h1 ?_,
    one_returns la hla natKey 3 1000000 t (by linarith) cs⟩
  have he : ∀ p : Fin 1 → ℝ, idzorekEntry (!![1] : Matrix (Fin 1) (Fin 1) ℝ) p t 0 = .ok 1000000 := by
    intro p
    unfold idzorekEntry
    rw [if_neg (by norm_num), if_pos rfl]
  simp only [setOmega, List.length_singleton, if_true]
  unfold idzorek
  rw [List.ofFn_succ, List.ofFn_zero]
  unfold idzorekLoop
  rw [he]
  unfold idzorekLoop
  refine congrArg Except.ok ?_
  ext i j
  fin_cases i; fin_cases j
  rfl

/-- Two `tau`s, the same returns: the model above with the default uncertainty. -/
example : ∃ x y, construct [0] (!![1] : Matrix (Fin 1) (Fin 1) ℝ) .none (.qp (some [3]) (some [[1]]))
      .default (1 / 20) 1 = .ok (some x) ∧
    construct [0] (!![1] : Matrix (Fin 1) (Fin 1) ℝ) .none (.qp (some [3]) (some [[1]]))
      .default 1 1 = .ok (some y) ∧
    (blReturns exactLA y.2 (run exactLA id y.2 [])).2 = (blReturns exactLA x.2 (run exactLA id x.2 [.cov])).2 := by
  obtain ⟨x, hx, -⟩ := C86_cov_false exactLA exactLA_sound id (1 / 20) (by norm_num) (by norm_num) []
  obtain ⟨y, hy, h⟩ := C86_tau_partial exactLA exactLA_sound id [0] (!![1] : Matrix (Fin 1) (Fin 1) ℝ) .none
    (.qp (some [3]) (some [[1]])) .default trivial (1 / 20) 1 1 _ hx (by norm_num) le_rfl
  exact ⟨_, y, hx, hy, (h [.cov] []).1⟩

end Verif.BL
