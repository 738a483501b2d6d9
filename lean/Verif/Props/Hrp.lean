import Verif.Proof.Hrp
import Verif.Proof.Linkage
import Verif.Props.Base
import Mathlib.Tactic.FinCases

/-! Property theorems C14–C16: hierarchical risk parity. -/

set_option linter.unusedSectionVars false

namespace Verif.Hrp
open Verif.Py Verif.Base

section Raw
variable {κ : Type} [DecidableEq κ]
variable {K : Type} [Field K] [LinearOrder K] [IsStrictOrderedRing K]

/-- Long-only and fully invested over exactly the given tickers; with two or more tickers every weight
is strictly below one. -/
structure FullyInvested (ts : List κ) (w : Dict κ K) : Prop where
  keys : (Dict.keys w).Perm ts
  pos : ∀ p ∈ w, 0 < p.2
  lt_one : 2 ≤ ts.length → ∀ p ∈ w, p.2 < 1
  total : (w.map Prod.snd).sum = 1

theorem lt_one_of_sum {l : List K} (h : ∀ x ∈ l, 0 < x) (hs : l.sum = 1) (hl : 2 ≤ l.length) :
    ∀ x ∈ l, x < 1 := by
  intro x hx
  obtain ⟨a, b, rfl⟩ := List.append_of_mem hx
  simp only [List.sum_append, List.sum_cons] at hs
  have ha : 0 ≤ a.sum := List.sum_nonneg (fun y hy => (h y (by simp [hy])).le)
  have hb : 0 ≤ b.sum := List.sum_nonneg (fun y hy => (h y (by simp [hy])).le)
  rcases a with _ | ⟨y, a⟩
  · rcases b with _ | ⟨z, b⟩
    · simp at hl
    · have h1 := h z (by simp)
      have h2 : 0 ≤ b.sum := List.sum_nonneg (fun y hy => (h y (by simp [hy])).le)
      simp only [List.sum_cons, List.sum_nil] at hs
      linarith
  · have h1 := h y (by simp)
    have h2 : 0 ≤ a.sum := List.sum_nonneg (fun y hy => (h y (by simp [hy])).le)
    simp only [List.sum_cons] at hs
    linarith

/-- C14 for the allocation step, whatever the leaf order: the loop finishes with a long-only, fully
invested portfolio, provided the inverse-variance portfolio of every bisected cluster has positive
variance. -/
theorem C14_raw_allocation (cov : κ → κ → K) (ordered : List κ) (hn : ordered.Nodup)
    (hne : ordered ≠ []) (hv : ∀ c, Node ordered c → 0 < ivpVariance cov c) (fuel : ℕ)
    (hf : ordered.length + 2 ≤ fuel) :
    ∃ w, rawAllocation fuel cov ordered = some w ∧ FullyInvested ordered w := by
  refine ⟨_, rawAllocation_eq cov ordered hn fuel hf, ?_, ?_, ?_, ?_⟩
  · simp [Dict.keys, List.map_map, Function.comp_def]
  · intro p hp
    obtain ⟨t, ht, rfl⟩ := List.mem_map.1 hp
    exact share_pos cov _ ordered rfl hn (fun c hc => by rw [clusterVar_eq]; exact hv c hc) t ht
  · intro hl p hp
    obtain ⟨t, ht, rfl⟩ := List.mem_map.1 hp
    refine lt_one_of_sum (l := ordered.map (share cov ordered)) ?_ (sum_share cov _ ordered rfl hn hne)
      (by simpa using hl) _ (List.mem_map.2 ⟨t, ht, rfl⟩)
    intro x hx
    obtain ⟨s, hs, rfl⟩ := List.mem_map.1 hx
    exact share_pos cov _ ordered rfl hn (fun c hc => by rw [clusterVar_eq]; exact hv c hc) s hs
  · simp only [List.map_map, Function.comp_def]
    exact sum_share cov _ ordered rfl hn hne

/-- C14, single ticker: the allocation step gives it weight one. -/
theorem C14_single (cov : κ → κ → K) (t : κ) : rawAllocation 3 cov [t] = some [(t, 1)] := by
  rw [rawAllocation_eq cov [t] (by simp) 3 (by simp)]
  simp [share_small cov (l := [t]) (by simp)]

/-- Total weight of the tickers of `c` in the portfolio `w`. -/
def weightOf (w : Dict κ K) (c : List κ) : K := (c.map (fun t => (Dict.get? w t).getD 0)).sum

/-- C15.  At every bisection of the leaf order the two halves carry total weights inversely
proportional to the variances of their inverse-variance portfolios. -/
theorem C15_split_balance (cov : κ → κ → K) (ordered : List κ) (hn : ordered.Nodup) (fuel : ℕ)
    (hf : ordered.length + 2 ≤ fuel) (c : List κ) (hc : Node ordered c) (hl : 1 < c.length)
    (hv : 0 < ivpVariance cov (c.take (c.length / 2)) + ivpVariance cov (c.drop (c.length / 2))) :
    ∃ w, rawAllocation fuel cov ordered = some w ∧
      weightOf w (c.take (c.length / 2)) * ivpVariance cov (c.take (c.length / 2)) =
      weightOf w (c.drop (c.length / 2)) * ivpVariance cov (c.drop (c.length / 2)) := by
  refine ⟨_, rawAllocation_eq cov ordered hn fuel hf, ?_⟩
  have hw : ∀ d, d ⊆ ordered → weightOf (ordered.map (fun t => (t, share cov ordered t))) d =
      (d.map (share cov ordered)).sum := by
    intro d hd
    unfold weightOf
    congr 1
    apply List.map_congr_left
    intro t ht
    rw [Dict.get?_of_mem _ (v := share cov ordered t)]
    · rfl
    · simpa [Dict.keys, List.map_map, Function.comp_def] using hn
    · exact List.mem_map.2 ⟨t, hd ht, rfl⟩
  rw [hw _ (fun t h => hc.sublist.subset (List.take_subset _ _ h)),
    hw _ (fun t h => hc.sublist.subset (List.drop_subset _ _ h))]
  simp only [← clusterVar_eq] at hv ⊢
  exact share_split cov hc hn hl hv.ne'

theorem splitPairs_smul (cov : κ → κ → K) {a : K} (ha : a ≠ 0) :
    ∀ (cs : List (List κ)) (w : Dict κ K),
      splitPairs (fun s t => a * cov s t) w cs = splitPairs cov w cs
  | [], _ => by simp [splitPairs]
  | [_], _ => by simp [splitPairs]
  | c :: d :: rest, w => by
    simp only [splitPairs]
    rw [splitPairs_smul cov ha rest]
    simp only [clusterVar_eq, ivpVariance_smul cov _ ha]
    rw [← mul_add, mul_div_mul_left _ _ ha]

theorem loop_smul (cov : κ → κ → K) {a : K} (ha : a ≠ 0) (fuel : ℕ) :
    ∀ (w : Dict κ K) (cs : List (List κ)),
      loop (fun s t => a * cov s t) fuel w cs = loop cov fuel w cs := by
  induction fuel with
  | zero => intros; rfl
  | succ n ih =>
    intro w cs
    rw [loop, loop, splitPairs_smul cov ha, ih]

/-- A positive definite covariance meets the variance hypotheses of C14 and C15. -/
theorem posDef_nodes {cov : κ → κ → K} {ts root : List κ} (h : PosDefOn cov ts) (hn : ts.Nodup)
    (hne : ts ≠ []) (hp : root.Perm ts) : ∀ c, Node root c → 0 < ivpVariance cov c := by
  intro c hc
  have hpd : PosDefOn cov root :=
    h.sub hn (hp.nodup_iff.2 hn) (fun t ht => hp.mem_iff.1 ht)
  rw [← clusterVar_eq]
  exact hpd.clusterVar_pos (hp.nodup_iff.2 hn) hc.sublist
    (hc.ne_nil (by rintro rfl; exact hne (List.nil_perm.1 hp)))

/-- Non-vacuity: the covariance diag(1, 4, 4) is positive definite, and the loop gives weights
2/3, 1/6, 1/6. -/
example : rawAllocation (K := ℚ) 5 (fun s t : Fin 3 => if s = t then (if s = 0 then 1 else 4) else 0)
    [0, 1, 2] = some [(0, 2/3), (1, 1/6), (2, 1/6)] := by decide +kernel

example : PosDefOn (K := ℚ) (fun s t : Fin 3 => if s = t then (if s = 0 then 1 else 4) else 0) [0, 1, 2] := by
  rintro x ⟨t, -, ht⟩
  have h0 := mul_self_nonneg (x 0)
  have h1 := mul_self_nonneg (x 1)
  have h2 := mul_self_nonneg (x 2)
  have ht := mul_self_pos.2 ht
  have hall : 0 < x 0 * x 0 + x 1 * x 1 + x 2 * x 2 := by 
    fin_cases t
    · exact add_pos_of_pos_of_nonneg (add_pos_of_pos_of_nonneg ht h1) h2
    · exact add_pos_of_pos_of_nonneg (add_pos_of_nonneg_of_pos h0 ht) h2
    · exact add_pos_of_nonneg_of_pos (add_nonneg h0 h1) ht
  simp
  nlinarith

end Raw

section Optimize
noncomputable section
variable {κ : Type} [LinearOrder κ]

theorem sortIndex_perm (w : Dict κ ℝ) : (sortIndex w).Perm w := List.perm_insertionSort _ _

/-- C14 for the whole `optimize` call: with a recognised method and any valid linkage of the (two or
more) tickers, it returns a long-only fully invested dict over exactly the tickers, sorted by ticker,
and stores the same weights. -/
theorem C14_optimize (linkage : (κ → κ → ℝ) → Except PyErr (List (ℕ × ℕ))) (o : Opt κ ℝ)
    (inp : Input κ) (hn : o.tickers.Nodup) (link : List (ℕ × ℕ))
    (hlink : linkage (distance inp.corrUsed) = .ok link)
    (hvalid : ValidLinkage o.tickers.length link) (hpd : PosDefOn inp.covUsed o.tickers)
    (fuel : ℕ) (hf : o.tickers.length + 2 ≤ fuel) :
    ∃ o' w, optimize linkage fuel true o inp = (o', some (.ok w)) ∧ FullyInvested o.tickers w ∧
      (Dict.keys w).Pairwise (· ≤ ·) ∧ o'.tickers = o.tickers ∧
      o'.weights = some (o.tickers.map (fun t => (Dict.get? w t).getD 0)) := by
  obtain ⟨ix, hix, hperm⟩ := quasiDiag_perm hvalid
  have h2 := hvalid.two
  have hm : ix.mapM (fun i => o.tickers[i]?) = some (ix.map (fun i => o.tickers.getD i (o.tickers.head (by
      intro h; rw [h] at h2; simp at h2)))) := by
    have hlt : ∀ i ∈ ix, i < o.tickers.length := fun i hi => List.mem_range.1 (hperm.mem_iff.1 hi)
    clear hix hperm
    induction ix with
    | nil => rfl
    | cons i ix ih =>
      have hi := hlt i (by simp)
      rw [List.mapM_cons, ih (fun j hj => hlt j (by simp [hj]))]
      simp [List.getElem?_eq_getElem hi]
  set d := o.tickers.head (by intro h; rw [h] at h2; simp at h2) with hd
  set ordered := ix.map (fun i => o.tickers.getD i d) with hord
  have hop : ordered.Perm o.tickers := by
    have h1 : ordered.Perm ((List.range o.tickers.length).map (fun i => o.tickers.getD i d)) :=
      hperm.map _
    have h3 : (List.range o.tickers.length).map (fun i => o.tickers.getD i d) = o.tickers := by
      apply List.ext_getElem
      · simp
      · intro i h1 h2; simp [List.getD_eq_getElem?_getD, h2]
    rwa [h3] at h1
  have hne : o.tickers ≠ [] := by intro h; rw [h] at h2; simp at h2
  have hon : ordered.Nodup := hop.nodup_iff.2 hn
  obtain ⟨hrp, hraw, hfi⟩ := C14_raw_allocation inp.covUsed ordered hon
    (by intro h; rw [h] at hop; exact hne (List.nil_perm.1 hop))
    (posDef_nodes hpd hn hne hop) fuel (by rw [hop.length_eq]; exact hf)
  have hsp := sortIndex_perm hrp
  have hkn : (Dict.keys (sortIndex hrp)).Nodup :=
    ((hsp.map Prod.fst).trans hfi.keys).nodup_iff.2 hon
  have hof : Dict.ofPairs (sortIndex hrp) = sortIndex hrp := Dict.ofPairs_eq _ hkn
  have hkeys : (Dict.keys (sortIndex hrp)).Perm o.tickers :=
    ((hsp.map Prod.fst).trans hfi.keys).trans hop
  have hlook : lookupAll (sortIndex hrp) o.tickers =
      .ok (o.tickers.map (fun t => (Dict.get? (sortIndex hrp) t).getD 0)) := by
    apply lookupAll_ok
    intro t ht
    have : t ∈ Dict.keys (sortIndex hrp) := hkeys.mem_iff.2 ht
    cases hg : Dict.get? (sortIndex hrp) t with
    | none => exact absurd this ((Dict.get?_eq_none_iff _ t).1 hg)
    | some v => rfl
  refine ⟨{ o with weights := some (o.tickers.map (fun t => (Dict.get? (sortIndex hrp) t).getD 0)) },
    sortIndex hrp, ?_, ⟨hkeys, ?_, ?_, ?_⟩, ?_, rfl, rfl⟩
  · unfold optimize
    simp only [Bool.not_true, Bool.false_eq_true, if_false, hlink, hix, hm, hraw, hof, setWeights,
      hlook]
  · intro p hp; exact hfi.pos p (hsp.mem_iff.1 hp)
  · intro hl p hp; exact hfi.lt_one (by rw [hop.length_eq]; exact hl) p (hsp.mem_iff.1 hp)
  · rw [(hsp.map Prod.snd).sum_eq]; exact hfi.total
  · unfold Dict.keys
    rw [List.pairwise_map]
    have hle : Std.Total (fun p q : κ × ℝ => p.1 ≤ q.1) := ⟨fun p q => le_total p.1 q.1⟩
    have htr : IsTrans (κ × ℝ) (fun p q => p.1 ≤ q.1) := ⟨fun _ _ _ h1 h2 => le_trans h1 h2⟩
    exact List.pairwise_insertionSort (fun p q : κ × ℝ => p.1 ≤ q.1) hrp

/-- C14, error branches: an unrecognised linkage method raises ValueError, a failure inside the
clustering propagates, and in both cases the object is unchanged. -/
theorem C14_optimize_errors (linkage : (κ → κ → ℝ) → Except PyErr (List (ℕ × ℕ))) (o : Opt κ ℝ)
    (inp : Input κ) (fuel : ℕ) :
    optimize linkage fuel false o inp = (o, some (.error .valueError)) ∧
    ∀ e, linkage (distance inp.corrUsed) = .error e →
      optimize linkage fuel true o inp = (o, some (.error e)) := by
  constructor
  · rfl
  · intro e he; simp [optimize, he]

theorem covToCorr_smul (S : κ → κ → ℝ) {a : ℝ} (ha : 0 < a) (s t : κ) :
    covToCorr (fun s t => a * S s t) s t = covToCorr S s t := by
  unfold covToCorr
  have hs : Real.sqrt a ≠ 0 := (Real.sqrt_pos.2 ha).ne'
  have hsa : Real.sqrt a * Real.sqrt a = a := Real.mul_self_sqrt ha.le
  rw [Real.sqrt_mul ha.le, Real.sqrt_mul ha.le]
  simp only [one_div, mul_inv]
  calc _ = (Real.sqrt a * Real.sqrt a)⁻¹ * a * ((Real.sqrt (S s s))⁻¹ * (S s t * (Real.sqrt (S t t))⁻¹)) := by
        rw [mul_inv]; ring
    _ = _ := by rw [hsa, inv_mul_cancel₀ ha.ne', one_mul]

/-- C16.  Scaling the covariance by any positive constant changes nothing about the call: same
outcome, same stored weights (the clustering sees the same correlations). -/
theorem C16_scale_invariant (linkage : (κ → κ → ℝ) → Except PyErr (List (ℕ × ℕ))) (fuel : ℕ)
    (methodOk : Bool) (o : Opt κ ℝ) (S : κ → κ → ℝ) (a : ℝ) (ha : 0 < a) :
    optimize linkage fuel methodOk o (.cov (fun s t => a * S s t)) =
      optimize linkage fuel methodOk o (.cov S) := by
  have hc : (Input.cov (fun s t => a * S s t)).corrUsed = (Input.cov S).corrUsed := by
    funext s t
    simp only [Input.corrUsed, covToCorr_smul S ha]
  unfold optimize
  simp only [hc, Input.covUsed, rawAllocation]
  have : ∀ l : List κ, loop (fun s t => a * S s t) fuel (l.map (fun t => (t, 1))) [l] =
      loop S fuel (l.map (fun t => (t, 1))) [l] := fun l => loop_smul S ha.ne' fuel _ _
  simp only [this]

/-- C16 when historical returns were given: scaling their covariance (correlations being unit free)
changes nothing. -/
theorem C16_scale_invariant_returns (linkage : (κ → κ → ℝ) → Except PyErr (List (ℕ × ℕ)))
    (fuel : ℕ) (methodOk : Bool) (o : Opt κ ℝ) (corr S : κ → κ → ℝ) (a : ℝ) (ha : 0 < a) :
    optimize linkage fuel methodOk o (.returns corr (fun s t => a * S s t)) =
      optimize linkage fuel methodOk o (.returns corr S) := by
  unfold optimize
  simp only [Input.corrUsed, Input.covUsed, rawAllocation]
  have : ∀ l : List κ, loop (fun s t => a * S s t) fuel (l.map (fun t => (t, 1))) [l] =
      loop S fuel (l.map (fun t => (t, 1))) [l] := fun l => loop_smul S ha.ne' fuel _ _
  simp only [this]

/-- Non-vacuity: a valid linkage of three observations, whose leaf order is 2, 0, 1. -/
example : ValidLinkage 3 [(0, 1), (2, 3)] :=
  ⟨by decide, rfl, by decide, by decide⟩
example : quasiDiag 3 [(0, 1), (2, 3)] = .ok [2, 0, 1] := rfl

end
end Optimize
end Verif.Hrp
