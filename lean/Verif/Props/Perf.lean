import Verif.Model.Perf
import Verif.Proof.Py
import Verif.Props.DiscreteLp
import Mathlib.Algebra.BigOperators.Fin
import Mathlib.Tactic.NormNum
import Mathlib.Tactic.FinCases
import Mathlib.Data.Fin.VecNotation

/-! Property theorems C13: portfolio performance. -/

set_option linter.unusedSectionVars false

noncomputable section

namespace Verif.Perf
open Verif.Py Verif.Base

variable {κ : Type} [DecidableEq κ] {n : ℕ}

/-- Specification: expected return, variance of weights `w`. -/
def specReturn (w m : Fin n → ℝ) : ℝ := ∑ i, w i * m i
def specVariance (w : Fin n → ℝ) (S : Fin n → Fin n → ℝ) : ℝ := ∑ i, ∑ j, w i * S i j * w j

/-- The documented triple, for a positive variance. -/
def Documented (w m : Fin n → ℝ) (S : Fin n → Fin n → ℝ) (rf : ℝ)
    (r : Option (Flt ℝ) × Flt ℝ × Option (Flt ℝ)) : Prop :=
  r.1 = some (.fin (specReturn w m)) ∧
  (0 ≤ specVariance w S → r.2.1 = .fin (Real.sqrt (specVariance w S))) ∧
  (specVariance w S < 0 → r.2.1 = .nan) ∧
  (0 < specVariance w S →
    r.2.2 = some (.fin ((specReturn w m - rf) / Real.sqrt (specVariance w S)))) ∧
  (specVariance w S ≤ 0 → ∀ x, r.2.2 ≠ some (.fin x))

theorem dot_ofFn (a b : Fin n → ℝ) : dot (List.ofFn a) (List.ofFn b) = ∑ i, a i * b i := by
  unfold dot
  have : List.zipWith (· * ·) (List.ofFn a) (List.ofFn b) = List.ofFn (fun i => a i * b i) := by
    apply List.ext_getElem <;> simp
  rw [this, List.sum_ofFn]

theorem quadForm_ofFn (w : Fin n → ℝ) (S : Fin n → Fin n → ℝ) :
    quadForm (List.ofFn w) (List.ofFn (fun i => List.ofFn (S i))) = .ok (specVariance w S) := by
  unfold quadForm
  rw [if_pos (by simp)]
  have : (List.ofFn (fun i => List.ofFn (S i))).map (fun r => dot r (List.ofFn w)) =
      List.ofFn (fun i => ∑ j, S i j * w j) := by
    rw [List.map_ofFn]; congr 1; funext i; simp [dot_ofFn]
  rw [this, dot_ofFn]
  simp only [specVariance, Finset.mul_sum, mul_assoc]

theorem matmul_ofFn (w m : Fin n → ℝ) :
    matmul (List.ofFn w) (List.ofFn m) = .ok (specReturn w m) := by
  simp [matmul, dot_ofFn, specReturn]

theorem documented_of (w m : Fin n → ℝ) (S : Fin n → Fin n → ℝ) (rf : ℝ) :
    Documented w m S rf (some (.fin (specReturn w m)), fsqrt (specVariance w S),
      some (fdiv (specReturn w m - rf) (fsqrt (specVariance w S)))) := by
  refine ⟨rfl, ?_, ?_, ?_, ?_⟩
  · intro h; simp [fsqrt, not_lt.2 h]
  · intro h; simp [fsqrt, h]
  · intro h
    simp [fsqrt, not_lt.2 h.le, fdiv, Real.sqrt_ne_zero'.2 h]
  · intro h x
    rcases lt_or_eq_of_le h with h | h
    · simp [fsqrt, h, fdiv]
    · simp only [h, fsqrt, lt_irrefl, if_false, Real.sqrt_zero, fdiv, if_true]
      split_ifs <;> simp

/-- C13 for array (or list) weights, whatever the container of the other inputs. -/
theorem C13_performance_array (natKey : ℕ → κ) (w m : Fin n → ℝ) (S : Fin n → Fin n → ℝ) (rf : ℝ)
    (er : ReturnsArg κ) (cov : CovArg κ) (hm : er.values = some (List.ofFn m))
    (hS : cov.rows = List.ofFn (fun i => List.ofFn (S i))) :
    ∃ r, performance natKey (.array (List.ofFn w)) er cov rf = .ok r ∧ Documented w m S rf r := by
  refine ⟨_, ?_, documented_of w m S rf⟩
  simp only [performance, weightVector, hm, hS, sharpe, bind, Except.bind, quadForm_ofFn, matmul_ofFn]
  rfl

/-- What a weights dict says about a ticker: its value, zero when missing. -/
def SaysWeight (d : Dict κ ℝ) (t : κ) (x : ℝ) : Prop := (t, x) ∈ d ∨ t ∉ Dict.keys d ∧ x = 0

/-- Which tickers label the portfolio: those of the returns series, else the covariance columns, else
0, 1, 2, … -/
def Labels (natKey : ℕ → κ) (er : ReturnsArg κ) (cov : CovArg κ) (t : Fin n → κ) : Prop :=
  (∃ m : Fin n → ℝ, er = .series (List.ofFn (fun i => (t i, m i)))) ∨
  ((∀ s, er ≠ .series s) ∧ ∃ rows, cov = .frame (List.ofFn t) rows) ∨
  ((∃ m : Fin n → ℝ, er = .array (List.ofFn m)) ∧ (∃ rows, cov = .array rows) ∧ ∀ i, t i = natKey i)

theorem weightVector_dict (natKey : ℕ → κ) (d : Dict κ ℝ) (hd : (Dict.keys d).Nodup)
    (er : ReturnsArg κ) (cov : CovArg κ) (t : Fin n → κ) (hl : Labels natKey er cov t)
    (w : Fin n → ℝ) (hw : ∀ i, SaysWeight d (t i) (w i)) :
    weightVector natKey (.dict d) er cov =
      if ∑ i, w i = 0 then .error .valueError else .ok (List.ofFn w) := by
  have ht : tickersOf natKey er cov = .ok (List.ofFn t) := by
    rcases hl with ⟨m, rfl⟩ | ⟨h, rows, rfl⟩ | ⟨⟨m, rfl⟩, ⟨rows, rfl⟩, h⟩
    · cases cov <;> simp [tickersOf, List.map_ofFn, Function.comp_def]
    · cases er with
      | series s => exact absurd rfl (h s)
      | none => rfl
      | array m => rfl
    · simp only [tickersOf, List.length_ofFn]
      congr 1
      apply List.ext_getElem
      · simp
      · intro i h1 h2
        simp only [List.length_ofFn] at h2
        simp [h ⟨i, h2⟩]
  have e : (List.ofFn t).map (fun t => (Dict.get? d t).getD 0) = List.ofFn w := by
    rw [List.map_ofFn]
    congr 1
    funext i
    rcases hw i with h | ⟨h, h0⟩
    · simp [Dict.get?_of_mem d hd h]
    · simp [(Dict.get?_eq_none_iff d (t i)).2 h, h0]
  simp only [weightVector, ht, bind, Except.bind, e, List.sum_ofFn]

/-- C13 for dict weights: missing tickers count as zero, unknown tickers are ignored, and the result is
the documented triple whenever the weights do not sum to zero; otherwise ValueError. -/
theorem C13_performance_dict (natKey : ℕ → κ) (d : Dict κ ℝ) (hd : (Dict.keys d).Nodup)
    (t : Fin n → κ) (w m : Fin n → ℝ) (S : Fin n → Fin n → ℝ) (rf : ℝ)
    (er : ReturnsArg κ) (cov : CovArg κ) (hl : Labels natKey er cov t)
    (hw : ∀ i, SaysWeight d (t i) (w i)) (hm : er.values = some (List.ofFn m))
    (hS : cov.rows = List.ofFn (fun i => List.ofFn (S i))) :
    (∑ i, w i ≠ 0 →
      ∃ r, performance natKey (.dict d) er cov rf = .ok r ∧ Documented w m S rf r) ∧
    (∑ i, w i = 0 → performance natKey (.dict d) er cov rf = .error .valueError) := by
  have hv := weightVector_dict natKey d hd er cov t hl w hw
  constructor
  · intro h0
    refine ⟨_, ?_, documented_of w m S rf⟩
    rw [if_neg h0] at hv
    simp only [performance, hv, hm, hS, sharpe, bind, Except.bind, quadForm_ofFn, matmul_ofFn]
    rfl
  · intro h0
    rw [if_pos h0] at hv
    simp only [performance, hv]
    rfl

/-- C13, without expected returns: only the volatility is reported. -/
theorem C13_performance_no_returns (natKey : ℕ → κ) (w : Fin n → ℝ) (S : Fin n → Fin n → ℝ)
    (rf : ℝ) (cov : CovArg κ) (hS : cov.rows = List.ofFn (fun i => List.ofFn (S i))) :
    ∃ σ, performance natKey (.array (List.ofFn w)) .none cov rf = .ok (none, σ, none) ∧
      (0 ≤ specVariance w S → σ = .fin (Real.sqrt (specVariance w S))) := by
  refine ⟨fsqrt (specVariance w S), ?_, fun h => by simp [fsqrt, not_lt.2 h]⟩
  simp only [performance, weightVector, ReturnsArg.values, hS, bind, Except.bind, quadForm_ofFn]
  rfl

/-- C13, order independence: reordering the weights dict never changes the outcome, error or not. -/
theorem C13_performance_dict_order (natKey : ℕ → κ) (d d' : Dict κ ℝ) (hd : (Dict.keys d).Nodup)
    (hp : d.Perm d') (er : ReturnsArg κ) (cov : CovArg κ) (rf : ℝ) :
    performance natKey (.dict d) er cov rf = performance natKey (.dict d') er cov rf := by
  have : ∀ t, Dict.get? d t = Dict.get? d' t := fun t => Verif.Discrete.get?_perm hp hd t
  simp only [performance, weightVector, this]

/-- C13: no weights at all raises ValueError. -/
theorem C13_performance_none (natKey : ℕ → κ) (er : ReturnsArg κ) (cov : CovArg κ) (rf : ℝ) :
    performance natKey .none er cov rf = .error .valueError := rfl

/-- Non-vacuity: a dict with a missing and an unknown ticker. -/
example : ∃ r, performance (κ := ℕ) id (.dict [(7, 1/2), (2, 5), (3, 1/2)])
    (.series [(3, 1/10), (7, 1/5), (9, 1)]) (.array [[1, 0, 0], [0, 4, 0], [0, 0, 9]]) 0 = .ok r ∧
    r.1 = some (.fin (3/20)) := by
  have h := (C13_performance_dict (κ := ℕ) (n := 3) id [(7, 1/2), (2, 5), (3, 1/2)] (by decide)
    ![3, 7, 9] ![1/2, 1/2, 0] ![1/10, 1/5, 1] ![![1, 0, 0], ![0, 4, 0], ![0, 0, 9]] 0
    (.series [(3, 1/10), (7, 1/5), (9, 1)]) (.array [[1, 0, 0], [0, 4, 0], [0, 0, 9]])
    (.inl ⟨![1/10, 1/5, 1], by simp⟩)
    (by
      intro i
      fin_cases i
      · left; simp
      · left; simp
      · right; simp [Dict.keys])
    (by simp [ReturnsArg.values]) (by simp [CovArg.rows])).1
      (by simp [Fin.sum_univ_succ]; try norm_num)
  obtain ⟨r, h1, h2, -⟩ := h
  refine ⟨r, h1, ?_⟩
  rw [h2]
  congr 2
  simp [specReturn, Fin.sum_univ_succ]; norm_num

end Verif.Perf
