import Verif.Model.Base
import Verif.Proof.Py
import Verif.Proof.Rint
import Mathlib.Algebra.Order.Ring.Rat
import Mathlib.Data.Rat.Floor
import Mathlib.Data.List.TakeWhile

/-! Property theorems C09–C11 (weights dict, cleaning, saving). -/

set_option linter.unusedSectionVars false

namespace Verif.Base
open Verif.Py Verif.Discrete

variable {κ : Type} [DecidableEq κ]
variable {K : Type} [Field K] [LinearOrder K] [IsStrictOrderedRing K] [FloorRing K]

theorem lookupAll_ok (d : Dict κ K) (f : κ → K) (ts : List κ)
    (h : ∀ t ∈ ts, Dict.get? d t = some (f t)) : lookupAll d ts = .ok (ts.map f) := by
  induction ts with
  | nil => rfl
  | cons t ts ih =>
    rw [lookupAll, h t (by simp)]
    simp only
    rw [ih (fun s hs => h s (by simp [hs]))]
    rfl

theorem lookupAll_err (d : Dict κ K) (ts : List κ) (h : ∃ t ∈ ts, Dict.get? d t = none) :
    lookupAll d ts = .error .keyError := by
  induction ts with
  | nil => simp at h
  | cons t ts ih =>
    rw [lookupAll]
    cases hg : Dict.get? d t with
    | none => rfl
    | some v =>
      simp only
      rw [ih]
      · rfl
      · obtain ⟨s, hs, hn⟩ := h
        rcases List.mem_cons.1 hs with rfl | hs
        · rw [hg] at hn; cases hn
        · exact ⟨s, hs, hn⟩

/-- C09.  `f` is what the input dict says about each ticker.  Setting the weights and reading them
back as a dict gives exactly the tickers in order, each with its weight (keys of the input that are
not tickers play no role). -/
theorem C09_round_trip (o : Opt κ K) (hn : o.tickers.Nodup) (d : Dict κ K) (f : κ → K)
    (hd : ∀ t ∈ o.tickers, Dict.get? d t = some (f t)) :
    ∃ o', setWeights o d = (o', .ok ()) ∧ o'.tickers = o.tickers ∧
      makeOutput o' none = .ok (o.tickers.map (fun t => (t, f t))) := by
  refine ⟨{ o with weights := some (o.tickers.map f) }, ?_, rfl, ?_⟩
  · unfold setWeights; rw [lookupAll_ok d f _ hd]
  · have e : List.zip o.tickers (o.tickers.map f) = o.tickers.map (fun t => (t, f t)) := by
      induction o.tickers with
      | nil => rfl
      | cons t ts ih => simp [ih]
    simp only [makeOutput, Option.none_or, e]
    rw [Dict.ofPairs_eq]
    simpa [Function.comp_def] using hn

/-- C09, error branch.  A missing ticker raises KeyError and leaves the object unchanged. -/
theorem C09_missing_ticker (o : Opt κ K) (d : Dict κ K) (t : κ) (ht : t ∈ o.tickers)
    (hd : t ∉ Dict.keys d) : setWeights o d = (o, .error .keyError) := by
  unfold setWeights
  rw [lookupAll_err d _ ⟨t, ht, (Dict.get?_eq_none_iff d t).2 hd⟩]

example : (setWeights ({ tickers := [3, 1], weights := none } : Opt ℕ ℚ)
    [(1, 1/4), (7, 9), (3, 3/4)]).1.weights = some [3/4, 1/4] := by decide +kernel

/-! ### C10 -/

theorem npRound_zero (n : ℕ) : npRound n (0 : K) = 0 := by
  simp [npRound, rint_zero]

theorem pow10_pos (n : ℕ) : (0 : K) < 10 ^ n := by positivity

theorem npRound_error (n : ℕ) (x : K) : |npRound n x - x| ≤ 1 / 2 / 10 ^ n := by
  have h := abs_rint_sub_le (x * 10 ^ n)
  have hp := pow10_pos (K := K) n
  have e : npRound n x - x = ((rint (x * 10 ^ n) : K) - x * 10 ^ n) / 10 ^ n := by
    unfold npRound; field_simp
  rw [e, abs_div, abs_of_pos hp]
  gcongr

/-- What `clean_weights` is documented to do with one weight: zero below the cutoff, otherwise a
closest multiple of `10^-r`. -/
def CleanOf (cutoff : K) (r : ℕ) (w c : K) : Prop :=
  (|w| < cutoff → c = 0) ∧
  (cutoff ≤ |w| → (∃ m : ℤ, c = m / 10 ^ r) ∧ (∀ m : ℤ, |c - w| ≤ |m / 10 ^ r - w|) ∧
    |c - w| ≤ 1 / 2 / 10 ^ r) ∧
  (0 ≤ w → 0 ≤ c) ∧ (w ≤ 0 → c ≤ 0)

theorem npRound_nonneg (n : ℕ) {x : K} (h : 0 ≤ x) : 0 ≤ npRound n x := by
  have : rint (0 : K) ≤ rint (x * 10 ^ n) := rint_mono (by positivity)
  rw [rint_zero] at this
  have h2 : (0 : K) ≤ rint (x * 10 ^ n) := by exact_mod_cast this
  unfold npRound; positivity

theorem npRound_nonpos (n : ℕ) {x : K} (h : x ≤ 0) : npRound n x ≤ 0 := by
  have hp := pow10_pos (K := K) n
  have : rint (x * 10 ^ n) ≤ rint (0 : K) := rint_mono (by nlinarith)
  rw [rint_zero] at this
  have h2 : (rint (x * 10 ^ n) : K) ≤ 0 := by exact_mod_cast this
  unfold npRound; exact div_nonpos_of_nonpos_of_nonneg h2 hp.le

theorem npRound_closest (n : ℕ) (x : K) (m : ℤ) : |npRound n x - x| ≤ |m / 10 ^ n - x| := by
  have hp := pow10_pos (K := K) n
  have h := rint_closest (x * 10 ^ n) m
  have e : npRound n x - x = ((rint (x * 10 ^ n) : K) - x * 10 ^ n) / 10 ^ n := by
    unfold npRound; field_simp
  have e2 : (m : K) / 10 ^ n - x = (m - x * 10 ^ n) / 10 ^ n := by field_simp
  rw [e, e2, abs_div, abs_div, abs_of_pos hp]
  gcongr

theorem cleanOf_model (cutoff : K) (r : ℕ) (w : K) :
    CleanOf cutoff r w (npRound r (cut cutoff w)) := by
  refine ⟨?_, ?_, ?_, ?_⟩
  · intro h; simp [cut, h, npRound_zero]
  · intro h
    have e : cut cutoff w = w := by simp [cut, not_lt.2 h]
    rw [e]
    exact ⟨⟨_, rfl⟩, npRound_closest r w, npRound_error r w⟩
  · intro h
    apply npRound_nonneg
    unfold cut; split <;> [exact le_rfl; exact h]
  · intro h
    apply npRound_nonpos
    unfold cut; split <;> [exact le_rfl; exact h]

/-- C10.  With weights stored for distinct tickers, `clean_weights(cutoff, rounding=r ≥ 1)` leaves
the object unchanged and returns the tickers in order, each weight replaced by its cleaned value. -/
theorem C10_clean_rounds_and_zeroes (o : Opt κ K) (hn : o.tickers.Nodup) (ws : List K)
    (hw : o.weights = some ws) (hlen : ws.length = o.tickers.length) (cutoff : K) (r : ℤ)
    (hr : 1 ≤ r) :
    ∃ cs : List K, cleanWeights o cutoff (.int r) = (o, .ok (List.zip o.tickers cs)) ∧
      List.Forall₂ (CleanOf cutoff r.toNat) ws cs := by
  refine ⟨(ws.map (cut cutoff)).map (npRound r.toNat), ?_, ?_⟩
  · unfold cleanWeights
    simp only [hw, if_neg (not_lt.2 hr), makeOutput, Option.some_or]
    rw [Dict.ofPairs_eq]
    rw [List.map_fst_zip (by simp [hlen])]
    exact hn
  · rw [List.forall₂_map_right_iff, List.forall₂_map_right_iff]
    exact List.forall₂_same.2 (fun w _ => cleanOf_model cutoff r.toNat w)

/-- C10, no rounding: weights below the cutoff become 0, the others are returned exactly. -/
theorem C10_clean_no_rounding (o : Opt κ K) (hn : o.tickers.Nodup) (ws : List K)
    (hw : o.weights = some ws) (hlen : ws.length = o.tickers.length) (cutoff : K) :
    ∃ cs : List K, cleanWeights o cutoff .none = (o, .ok (List.zip o.tickers cs)) ∧
      List.Forall₂ (fun w c => (|w| < cutoff → c = 0) ∧ (cutoff ≤ |w| → c = w)) ws cs := by
  refine ⟨ws.map (cut cutoff), ?_, ?_⟩
  · unfold cleanWeights
    simp only [hw, makeOutput, Option.some_or]
    rw [Dict.ofPairs_eq]
    rw [List.map_fst_zip (by simp [hlen])]
    exact hn
  · rw [List.forall₂_map_right_iff]
    refine List.forall₂_same.2 (fun w _ => ⟨fun h => by simp [cut, h], fun h => ?_⟩)
    simp [cut, not_lt.2 h]

/-- C10, error branches: no weights yet → AttributeError; bad rounding → ValueError; the object is
unchanged in every case. -/
theorem C10_clean_errors (o : Opt κ K) (cutoff : K) (r : Rounding) :
    (cleanWeights o cutoff r).1 = o ∧
    (o.weights = none → (cleanWeights o cutoff r).2 = .error .attribute) ∧
    (o.weights ≠ none → (r = .notInt ∨ ∃ n < 1, r = .int n) →
      (cleanWeights o cutoff r).2 = .error .valueError) := by
  unfold cleanWeights
  cases hw : o.weights with
  | none => simp
  | some ws =>
    refine ⟨?_, by simp, ?_⟩
    · cases r <;> simp only
      split <;> rfl
    · rintro - (rfl | ⟨n, hn, rfl⟩)
      · rfl
      · simp [hn]

theorem npRound_idem (n : ℕ) (m : ℤ) : npRound n ((m : K) / 10 ^ n) = m / 10 ^ n := by
  have hp := pow10_pos (K := K) n
  unfold npRound
  rw [div_mul_cancel₀ _ hp.ne', rint_intCast]

/-- Cleaning the cleaned value changes nothing when the cutoff is a multiple of `10^-r`. -/
theorem clean_idem (k : ℤ) (r : ℕ) (w : K) :
    npRound r (cut ((k : K) / 10 ^ r) (npRound r (cut ((k : K) / 10 ^ r) w))) =
      npRound r (cut ((k : K) / 10 ^ r) w) := by
  have hp := pow10_pos (K := K) r
  by_cases h : |w| < (k : K) / 10 ^ r
  · have : cut ((k : K) / 10 ^ r) w = 0 := by simp [cut, h]
    rw [this, npRound_zero]
    simp [cut, npRound_zero]
  · have e : cut ((k : K) / 10 ^ r) w = w := by simp [cut, h]
    rw [e]
    have hge : ¬ |npRound r w| < (k : K) / 10 ^ r := by
      rw [not_lt] at h ⊢
      rw [div_le_iff₀ hp] at h
      unfold npRound
      rw [abs_div, abs_of_pos hp]
      gcongr
      rcases le_total 0 w with h0 | h0
      · rw [abs_of_nonneg h0] at h
        have := rint_mono h
        rw [rint_intCast] at this
        have : (k : K) ≤ rint (w * 10 ^ r) := by exact_mod_cast this
        exact this.trans (le_abs_self _)
      · rw [abs_of_nonpos h0] at h
        have h' : w * 10 ^ r ≤ ((-k : ℤ) : K) := by push_cast; linarith
        have := rint_mono h'
        rw [rint_intCast] at this
        have : (rint (w * 10 ^ r) : K) ≤ -k := by exact_mod_cast this
        have h3 := neg_abs_le (rint (w * 10 ^ r) : K)
        linarith
    have e2 : cut ((k : K) / 10 ^ r) (npRound r w) = npRound r w := by simp [cut, hge]
    rw [e2]
    exact npRound_idem r _

/-- C10, idempotence: storing the cleaned weights and cleaning again with the same arguments returns
the same dict, whenever the cutoff is a multiple of `10^-rounding` (as with the defaults). -/
theorem C10_clean_idempotent (o : Opt κ K) (hn : o.tickers.Nodup) (ws : List K)
    (hw : o.weights = some ws) (hlen : ws.length = o.tickers.length) (r : ℤ) (hr : 1 ≤ r)
    (k : ℤ) (d : Dict κ K) (h : (cleanWeights o ((k : K) / 10 ^ r.toNat) (.int r)).2 = .ok d) :
    ∃ o', setWeights o d = (o', .ok ()) ∧
      (cleanWeights o' ((k : K) / 10 ^ r.toNat) (.int r)).2 = .ok d := by
  set c := fun w => npRound r.toNat (cut ((k : K) / 10 ^ r.toNat) w) with hc
  have hk : (List.map Prod.fst (List.zip o.tickers (ws.map c))) = o.tickers := by
    rw [List.map_fst_zip (by simp [hlen])]
  have hd : d = List.zip o.tickers (ws.map c) := by
    unfold cleanWeights at h
    simp only [hw, if_neg (not_lt.2 hr), makeOutput, Option.some_or, Except.ok.injEq,
      List.map_map] at h
    rw [← h]
    exact Dict.ofPairs_eq _ (by rw [show npRound r.toNat ∘ cut ((k : K) / 10 ^ r.toNat) = c from rfl, hk]; exact hn)
  have hs : lookupAll d o.tickers = .ok (ws.map c) := by
    have : ∀ (ts : List κ) (vs : List K) (pre : Dict κ K), vs.length = ts.length →
        (Dict.keys pre ++ ts).Nodup →
        lookupAll (pre ++ List.zip ts vs) ts = .ok vs := by
      intro ts
      induction ts with
      | nil => intro vs pre hl _; rw [List.length_eq_zero_iff.1 hl]; rfl
      | cons t ts ih =>
        intro vs pre hl hnd
        cases vs with
        | nil => simp at hl
        | cons v vs =>
          have hg : Dict.get? (pre ++ List.zip (t :: ts) (v :: vs)) t = some v := by
            apply Dict.get?_of_mem
            · have e : Dict.keys (pre ++ List.zip (t :: ts) (v :: vs)) = Dict.keys pre ++ (t :: ts) := by
                simp only [Dict.keys, List.map_append]
                rw [List.map_fst_zip (by omega)]
              rw [e]; exact hnd
            · simp
          rw [lookupAll, hg]
          simp only
          have := ih vs (pre ++ [(t, v)]) (by simpa using hl) (by simpa [Dict.keys] using hnd)
          simp only [List.append_assoc, List.singleton_append] at this
          simp only [List.zip_cons_cons]
          rw [this]; rfl
    have := this o.tickers (ws.map c) [] (by simp [hlen]) (by simpa [Dict.keys] using hn)
    rw [hd]; simpa using this
  refine ⟨{ o with weights := some (ws.map c) }, by unfold setWeights; rw [hs], ?_⟩
  unfold cleanWeights
  simp only [if_neg (not_lt.2 hr), makeOutput, Option.some_or]
  have hcc : ((ws.map c).map (cut ((k : K) / 10 ^ r.toNat))).map (npRound r.toNat) = ws.map c := by
    rw [List.map_map, List.map_map]
    apply List.map_congr_left
    intro w _
    exact clean_idem k r.toNat w
  rw [hcc, hd, Dict.ofPairs_eq _ (by rw [hk]; exact hn)]

/-- The condition on the cutoff is needed: cutoff 0.12, rounding 1, weight 0.13 cleans to 0.1 and
then to 0. -/
theorem C10_idempotence_needs_multiple :
    let o : Opt ℕ ℚ := { tickers := [0], weights := some [13/100] }
    (cleanWeights o (12/100) (.int 1)).2 = .ok [(0, 1/10)] ∧
    (cleanWeights (setWeights o [(0, 1/10)]).1 (12/100) (.int 1)).2 = .ok [(0, 0)] := by
  decide +kernel

/-- Non-vacuity with the default arguments (cutoff 1e-4 = 10·10^-5, rounding 5). -/
example : (cleanWeights ({ tickers := [0, 1, 2], weights := some [1/3, -2/3, 1/30000] } : Opt ℕ ℚ)
    ((10 : ℤ) / 10 ^ (5 : ℤ).toNat) (.int 5)).2 =
    .ok [(0, 33333/100000), (1, -66667/100000), (2, 0)] := by decide +kernel

/-! ### C11 -/

/-- `fn` ends in the extension `e`, letter case ignored: the part after its last dot (or the whole
name when there is no dot) reads `e` in lower case. -/
def HasExt (fn : List Char) (e : String) : Prop :=
  ∃ suf : List Char, '.' ∉ suf ∧ (fn = suf ∨ ∃ pre, fn = pre ++ '.' :: suf) ∧
    suf.map Char.toLower = e.toList

theorem lastSegment_of (fn suf : List Char) (h1 : '.' ∉ suf)
    (h2 : fn = suf ∨ ∃ pre, fn = pre ++ '.' :: suf) : lastSegment fn = suf := by
  have hall : ∀ c ∈ suf.reverse, decide (c ≠ '.') = true := by
    intro c hc
    simp only [List.mem_reverse] at hc
    simp only [ne_eq, decide_eq_true_eq]
    rintro rfl; exact h1 hc
  unfold lastSegment
  rcases h2 with rfl | ⟨pre, rfl⟩
  · rw [List.takeWhile_eq_self_iff.2 hall, List.reverse_reverse]
  · rw [List.reverse_append, List.reverse_cons, List.append_assoc,
      List.takeWhile_append_of_pos hall]
    simp

theorem lastSegment_decomp (fn : List Char) : '.' ∉ lastSegment fn ∧
    (fn = lastSegment fn ∨ ∃ pre, fn = pre ++ '.' :: lastSegment fn) := by
  constructor
  · unfold lastSegment
    intro h
    rw [List.mem_reverse] at h
    have := List.mem_takeWhile_imp h
    simp at this
  · have h := List.takeWhile_append_dropWhile (p := fun c : Char => decide (c ≠ '.')) (l := fn.reverse)
    have e : fn = (fn.reverse.dropWhile (fun c => decide (c ≠ '.'))).reverse ++ lastSegment fn := by
      unfold lastSegment
      rw [← List.reverse_append, h, List.reverse_reverse]
    cases hd : fn.reverse.dropWhile (fun c => decide (c ≠ '.')) with
    | nil => left; rw [hd] at e; simpa using e
    | cons c l =>
      right
      have hc : c = '.' := by
        have key : ∀ l : List Char, ∀ c t, l.dropWhile (fun c => decide (c ≠ '.')) = c :: t → c = '.' := by
          intro l
          induction l with
          | nil => intro c t h; simp at h
          | cons a l ih =>
            intro c t h
            rw [List.dropWhile_cons] at h
            split at h
            · exact ih c t h
            · rename_i hne
              simp only [List.cons.injEq] at h
              rw [← h.1]
              simpa using hne
        exact key _ _ _ hd
      rw [hd, hc] at e
      exact ⟨l.reverse, by simpa using e⟩

theorem hasExt_iff (fn : List Char) (e : String) :
    HasExt fn e ↔ (lastSegment fn).map Char.toLower = e.toList := by
  constructor
  · rintro ⟨suf, h1, h2, h3⟩
    rw [lastSegment_of fn suf h1 h2, h3]
  · intro h
    obtain ⟨h1, h2⟩ := lastSegment_decomp fn
    exact ⟨_, h1, h2, h⟩

/-- The extension text of each format. -/
def Format.text : Format → String
  | .csv => "csv"
  | .json => "json"
  | .txt => "txt"

/-- C11.  When weights exist, exactly one file is written, under the given name, in the format of
the extension and with the cleaned weights; for any other extension NotImplementedError is raised
and nothing is written; when cleaning fails nothing is written either. -/
theorem C11_save_all_or_nothing (o : Opt κ K) (fn : List Char) :
    (∀ cw, (cleanWeights o (1 / 10 ^ 4) (.int 5)).2 = .ok cw →
      (∀ f : Format, HasExt fn f.text → save o fn = (.ok (), some (fn, f, cw))) ∧
      ((∀ f : Format, ¬ HasExt fn f.text) → save o fn = (.error .notImplemented, none))) ∧
    (∀ e, (cleanWeights o (1 / 10 ^ 4) (.int 5)).2 = .error e → save o fn = (.error e, none)) := by
  refine ⟨?_, ?_⟩
  · intro cw hcw
    refine ⟨?_, ?_⟩
    · intro f hf
      rw [hasExt_iff] at hf
      unfold save
      simp only [hcw]
      cases f <;> simp only [Format.text] at hf <;> rw [hf] <;> simp
    · intro h
      have h1 := h .csv; have h2 := h .json; have h3 := h .txt
      rw [hasExt_iff] at h1 h2 h3
      simp only [Format.text] at h1 h2 h3
      unfold save
      simp only [hcw, if_neg h1, if_neg h2, if_neg h3]
  · intro e he
    unfold save
    simp only [he]

example : HasExt "my.weights.CSV".toList "csv" := (hasExt_iff _ _).2 (by decide)
example : ∀ f : Format, ¬ HasExt "weights.csv.bak".toList f.text := by
  intro f; rw [hasExt_iff]; cases f <;> decide

end Verif.Base
