import Verif.Spec.Init

/-!
C62, C63: what `EfficientFrontier(...)` accepts, and which numbers belong to which ticker.
-/

namespace Verif.Init
open Verif.Py Verif.Base

variable {κ V K : Type}
variable [Field K]

theorem except_bind {α β : Type} {x : Except PyErr α} {f : α → Except PyErr β} {b : β}
    (h : (x >>= f) = .ok b) : ∃ a, x = .ok a ∧ f a = .ok b := by
  cases x with
  | error e => cases h
  | ok a => exact ⟨a, rfl, h⟩

theorem mapM_length {α β : Type} (f : α → Except PyErr β) :
    ∀ (l : List α) (r : List β), l.mapM f = .ok r → r.length = l.length
  | [], r, h => by
    rw [List.mapM_nil] at h
    cases h
    rfl
  | a :: l, r, h => by
    rw [List.mapM_cons] at h
    obtain ⟨b, -, h⟩ := except_bind h
    obtain ⟨bs, hb, h⟩ := except_bind h
    cases h
    simp [mapM_length f l bs hb]

/-- Accepted bounds are arrays of one entry per asset. -/
theorem mapBounds_length (big : K) (n : ℕ) (wb : BoundsArg K) {b : List (Flt K) × List (Flt K)}
    (h : mapBounds big n wb = .ok b) : b.1.length = n ∧ b.2.length = n := by
  unfold mapBounds at h
  split at h
  · cases h
  split at h
  · rename_i hc
    split at h
    · cases h
    · obtain ⟨lo, h1, h⟩ := except_bind h
      obtain ⟨up, h2, h⟩ := except_bind h
      cases h
      have e1 := mapM_length _ _ _ h1
      have e2 := mapM_length _ _ _ h2
      simp [e1, e2, hc.1]
  split at h
  · cases h
  split at h
  · split at h
    · split at h
      · cases h
      · split at h
        · cases h
        · rename_i hl
          split at h
          · split at h
            · cases h
            · split at h
              · cases h
              · rename_i hu
                cases h
                simpa using ⟨not_not.1 hl, not_not.1 hu⟩
          · cases h
            simpa using not_not.1 hl
          · cases h
    · dsimp only at h
      split at h
      · cases h
      · cases h
        simp
      · cases h
        simp
  · cases h

/-- The object an accepted call produces. -/
theorem initEf_ok {big : K} {natKey : ℕ → κ} {mu : MuArg κ V} {cov : CovArg κ V} {wb : BoundsArg K}
    {o : Obj κ V K} (h : initEf big natKey mu cov wb = .ok o) :
    ∃ c m n, validCov cov = .ok c ∧ validMu mu = .ok m ∧
      numAssets mu c m = .ok n ∧
      (m.isSome → c.shape = [n, n]) ∧ o.tickers = labels natKey mu cov n ∧ o.mu = m ∧ o.cov = c ∧
      mapBounds big o.tickers.length wb = .ok o.bounds := by
  unfold initEf at h
  obtain ⟨c, hc, h⟩ := except_bind h
  obtain ⟨m, hm, h⟩ := except_bind h
  obtain ⟨n, hn, h⟩ := except_bind h
  dsimp only at h
  split at h
  · cases h
  · rename_i hs
    obtain ⟨b, hb, h⟩ := except_bind h
    cases h
    exact ⟨c, m, n, hc, hm, hn, fun hi => by_contra fun hne => hs ⟨hi, hne⟩, rfl, rfl, rfl, hb⟩

theorem Means.validMu {mu : MuArg κ V} {n : ℕ} {m : List V} (h : Means mu n m) :
    validMu mu = .ok (some m) := by
  cases h with
  | series s => rfl
  | list l => rfl
  | array1 l => rfl
  | column l =>
    have : (m.map (fun x => [x])).flatten = m := by simp [List.flatten_eq_flatMap, List.flatMap_map]
    show Except.ok (some (m.map (fun x => [x])).flatten) = _
    rw [this]

theorem Means.muLen {mu : MuArg κ V} {n : ℕ} {m : List V} (h : Means mu n m) : muLen mu = .ok n := by
  cases h <;> simp [Init.muLen]

theorem Means.length {mu : MuArg κ V} {n : ℕ} {m : List V} (h : Means mu n m) : m.length = n := by
  cases h <;> simp

theorem Mat.validCov {cov : CovArg κ V} {r k : ℕ} {rows : List (List V)} (h : Mat cov r k rows) :
    validCov cov = .ok (.two ⟨k, rows⟩) := by
  cases h <;> rfl

theorem Mat.rows {cov : CovArg κ V} {r k : ℕ} {rows : List (List V)} (h : Mat cov r k rows) :
    rows.length = r ∧ ∀ x ∈ rows, x.length = k := by
  cases h with
  | frame _ _ _ _ w => exact ⟨rfl, w⟩
  | array _ w => exact ⟨rfl, w⟩

theorem labels_length (natKey : ℕ → κ) {mu : MuArg κ V} {cov : CovArg κ V} {n : ℕ}
    (hm : ∀ s, mu = .series s → s.length = n) (hc : ∀ i c r, cov = .frame i c r → c.length = n) :
    (labels natKey mu cov n).length = n := by
  unfold labels
  split
  · rename_i s
    simpa using hm s rfl
  · exact hc _ _ _ rfl
  · simp

theorem Mat.width {cov : CovArg κ V} {r k : ℕ} {rows : List (List V)} (h : Mat cov r k rows)
    (i c : List κ) (x : List (List V)) (e : cov = .frame i c x) : c.length = k := by
  subst e
  cases h
  rfl

theorem Means.series_length {mu : MuArg κ V} {n : ℕ} {m : List V} (h : Means mu n m) (s : List (κ × V))
    (hs : mu = .series s) : s.length = n := by
  subst hs
  cases h
  rfl

/-- **C62 (sizes must agree).**  With one expected return per asset, a matrix of any other size is
refused. -/
theorem C62_refuses (big : K) (natKey : ℕ → κ) {mu : MuArg κ V} {cov : CovArg κ V} (wb : BoundsArg K)
    {n r k : ℕ} {m : List V} {rows : List (List V)} (hm : Means mu n m) (hc : Mat cov r k rows)
    (h : ¬(r = n ∧ k = n)) : initEf big natKey mu cov wb = .error .valueError := by
  have : (Stored.two ⟨k, rows⟩ : Stored V).shape ≠ [n, n] := by
    simp only [Stored.shape, hc.rows.1, ne_eq, List.cons.injEq, and_true]
    exact h
  unfold initEf
  rw [hc.validCov, hm.validMu]
  simp only [bind, Except.bind, numAssets, hm.muLen, Option.isSome_some, true_and, if_pos this]

/-- **C62 (agreeing sizes are accepted).**  With matching sizes and valid bounds the constructor
succeeds, the object holds the numbers as given, and the tickers are the labels of the series, else
those of the matrix, else 0, …, n−1. -/
theorem C62_accepts (big : K) (natKey : ℕ → κ) {mu : MuArg κ V} {cov : CovArg κ V} (wb : BoundsArg K)
    {n : ℕ} {m : List V} {rows : List (List V)} (hm : Means mu n m) (hc : Mat cov n n rows)
    {b : List (Flt K) × List (Flt K)} (hb : mapBounds big n wb = .ok b) :
    ∃ o, initEf big natKey mu cov wb = .ok o ∧ WellSized n o ∧ o.mu = some m ∧
      o.cov = .two ⟨n, rows⟩ ∧ o.bounds = b ∧
      (∀ s, mu = .series s → o.tickers = s.map Prod.fst) ∧
      ((∀ s, mu ≠ .series s) → ∀ i c r, cov = .frame i c r → o.tickers = c) ∧
      ((∀ s, mu ≠ .series s) → (∀ i c r, cov ≠ .frame i c r) →
        o.tickers = (List.range n).map natKey) := by
  have hl := labels_length natKey hm.series_length hc.width
  have hs : (Stored.two ⟨n, rows⟩ : Stored V).shape = [n, n] := by
    simp [Stored.shape, hc.rows.1]
  refine ⟨⟨labels natKey mu cov n, some m, .two ⟨n, rows⟩, b⟩, ?_, ?_, rfl, rfl, rfl, ?_, ?_, ?_⟩
  · unfold initEf
    rw [hc.validCov, hm.validMu]
    simp only [bind, Except.bind, numAssets, hm.muLen, Option.isSome_some, true_and, hs, if_false, ne_eq, not_true, hl, hb, pure, Except.pure]
  · have hb' := mapBounds_length big n wb hb
    exact ⟨hl, fun m' e => by cases e; exact hm.length,
      ⟨_, rfl, rfl, hc.rows.1, hc.rows.2⟩, hb'⟩
  · rintro s rfl
    rfl
  · intro hn i c r e
    subst e
    cases mu <;> first | rfl | exact absurd rfl (hn _)
  · intro hn hf
    cases mu with
    | series s => exact absurd rfl (hn s)
    | _ =>
      cases cov with
      | frame i c r => exact absurd rfl (hf i c r)
      | _ => rfl

/-- **C62 (no expected returns).**  A square matrix alone is accepted. -/
theorem C62_covariance_only (big : K) (natKey : ℕ → κ) {cov : CovArg κ V} (wb : BoundsArg K)
    {n : ℕ} {rows : List (List V)} (hc : Mat cov n n rows)
    {b : List (Flt K) × List (Flt K)} (hb : mapBounds big n wb = .ok b) :
    ∃ o, initEf big natKey .none cov wb = .ok o ∧ WellSized n o ∧ o.mu = Option.none ∧
      o.cov = .two ⟨n, rows⟩ ∧ o.bounds = b := by
  have hl := labels_length (V := V) natKey (mu := .none) (fun s e => nomatch e) hc.width
  refine ⟨⟨labels natKey .none cov n, Option.none, .two ⟨n, rows⟩, b⟩, ?_, ?_, rfl, rfl, rfl⟩
  · unfold initEf
    rw [hc.validCov]
    simp only [validMu, bind, Except.bind, numAssets, Stored.len, hc.rows.1, pure,
      Except.pure, Option.isSome_none, Bool.false_eq_true, false_and, if_false, hl, hb]
  · exact ⟨hl, nofun, ⟨_, rfl, rfl, hc.rows.1, hc.rows.2⟩, mapBounds_length big n wb hb⟩

/-- **C62 (types).**  A missing covariance is a ValueError; other objects are TypeErrors. -/
theorem C62_types (big : K) (natKey : ℕ → κ) (wb : BoundsArg K) :
    (∀ mu : MuArg κ V, initEf big natKey mu .none wb = .error .valueError) ∧
    (∀ mu : MuArg κ V, initEf big natKey mu .other wb = .error .typeError) ∧
    (∀ cov : CovArg κ V, cov ≠ .none → initEf big natKey .other cov wb = .error .typeError) := by
  refine ⟨fun _ => rfl, fun _ => rfl, fun cov hc => ?_⟩
  cases cov <;> first | rfl | exact absurd rfl hc

/-- **C62, partial.**  Whatever is accepted is well sized, except for expected returns given as an
array with several columns, and for matrices that are not square given without expected returns. -/
theorem C62_sizes_partial {big : K} {natKey : ℕ → κ} {mu : MuArg κ V} {cov : CovArg κ V}
    {wb : BoundsArg K} {o : Obj κ V K} (h : initEf big natKey mu cov wb = .ok o)
    (hm : ∀ a, mu = .array2 a → a.width = 1 ∧ a.Ok)
    (hc : ∀ i c r, cov = .frame i c r → ∀ x ∈ r, x.length = c.length)
    (ha : ∀ a, cov = .array2 a → a.Ok)
    (hn : mu = .none → ∃ k rows, Mat cov k k rows) : WellSized o.tickers.length o := by
  obtain ⟨c, m, n, h1, h2, h3, h4, h5, h6, h7, h8⟩ := initEf_ok h
  have hb := mapBounds_length _ _ _ h8
  -- the matrix is `n` by `n`
  have hmat : ∃ a, c = .two a ∧ a.width = n ∧ a.rows.length = n ∧ (∀ x ∈ a.rows, x.length = n) ∧
      ∀ i cs r, cov = .frame i cs r → cs.length = n := by
    by_cases hmu : mu = .none
    · subst hmu
      obtain ⟨k, rows, hk⟩ := hn rfl
      have e := hk.validCov
      rw [h1] at e
      cases e
      cases h2
      have : n = k := by
        cases h3
        exact hk.rows.1
      subst this
      exact ⟨_, rfl, rfl, hk.rows.1, hk.rows.2, hk.width⟩
    · have hsome : m.isSome := by
        cases mu with
        | none => exact absurd rfl hmu
        | other => cases h2
        | _ => cases h2; rfl
      have hs := h4 hsome
      cases cov with
      | none => cases h1
      | other => cases h1
      | array1 l =>
        cases h1
        simp [Stored.shape] at hs
      | array2 a =>
        cases h1
        simp only [Stored.shape, List.cons.injEq, and_true] at hs
        exact ⟨a, rfl, hs.2, hs.1, fun x hx => (ha a rfl x hx).trans hs.2, nofun⟩
      | frame i cs r =>
        cases h1
        simp only [Stored.shape, List.cons.injEq, and_true] at hs
        exact ⟨_, rfl, hs.2, hs.1, fun x hx => (hc i cs r rfl x hx).trans hs.2,
          fun _ _ _ e => by cases e; exact hs.2⟩
  obtain ⟨a, hc1, hc2, hc3, hc4, hc5⟩ := hmat
  have hmu : (∀ s, mu = .series s → s.length = n) ∧ ∀ l, m = some l → l.length = n := by
    cases mu with
    | none =>
      cases h2
      exact ⟨nofun, nofun⟩
    | other => cases h2
    | array2 b =>
      cases h2
      cases h3
      refine ⟨nofun, fun l e => ?_⟩
      cases e
      obtain ⟨hw, hr⟩ := hm b rfl
      have : b.rows.map List.length = b.rows.map (fun _ => 1) :=
        List.map_congr_left fun r hx => (hr r hx).trans hw
      rw [List.length_flatten, this]
      simp
    | _ =>
      cases h2
      cases h3
      refine ⟨?_, ?_⟩
      · intro s e
        cases e
        try rfl
      · intro l e
        cases e
        simp
  have hl : o.tickers.length = n := by
    rw [h5]
    exact labels_length natKey hmu.1 hc5
  rw [hl] at hb ⊢
  exact ⟨hl, fun l e => hmu.2 l (h6 ▸ e), ⟨a, h7.trans hc1, hc2, hc3, hc4⟩, hb⟩

/-- The usual bounds `(0, 1)`. -/
def unit (K : Type) [Field K] : BoundsArg K := ⟨true, [.num (.fin 0), .num (.fin 1)]⟩

theorem mapBounds_unit (big : K) (n : ℕ) :
    mapBounds big n (unit K) = .ok (List.replicate n (.fin 0), List.replicate n (.fin 1)) := by
  simp [mapBounds, unit, isNum]

/-- **C62 is false of the code for a table of expected returns.**  Two rows and two columns of
expected returns are accepted with a 2×2 covariance: four expected returns for two tickers. -/
theorem C62_wide_false (big : K) :
    ∃ o : Obj ℕ ℚ K, initEf big id (.array2 ⟨2, [[1, 2], [3, 4]]⟩) (.array2 ⟨2, [[1, 0], [0, 1]]⟩)
      (unit K) = .ok o ∧ o.tickers = [0, 1] ∧ o.mu = some [1, 2, 3, 4] ∧
      ∀ n, ¬WellSized n o := by
  refine ⟨⟨[0, 1], some [1, 2, 3, 4], .two ⟨2, [[1, 0], [0, 1]]⟩,
    (List.replicate 2 (.fin 0), List.replicate 2 (.fin 1))⟩, ?_, rfl, rfl, ?_⟩
  · have := mapBounds_unit (K := K) big 2
    simp only [initEf, validCov, validMu, numAssets, muLen, bind, Except.bind, Stored.shape, labels, pure,
      Except.pure]
    simp [List.range_succ, this]
  · intro n h
    have h1 := h.tickers
    have h2 := h.mu _ rfl
    simp at h1 h2
    omega

/-- **C62 is false of the code without expected returns.**  A table of one row and two columns is
accepted as a covariance matrix. -/
theorem C62_none_false (big : K) :
    ∃ o : Obj ℕ ℚ K, initEf big id .none (.frame [0] [0, 1] [[1, 0]]) (unit K) = .ok o ∧
      o.tickers = [0, 1] ∧ ∀ n, ¬WellSized n o := by
  refine ⟨⟨[0, 1], Option.none, .two ⟨2, [[1, 0]]⟩,
    (List.replicate 2 (.fin 0), List.replicate 2 (.fin 1))⟩, ?_, rfl, ?_⟩
  · have := mapBounds_unit (K := K) big 2
    simp only [initEf, validCov, validMu, numAssets, bind, Except.bind, Stored.shape, labels, pure,
      Except.pure]
    simp [this]
  · intro n h
    obtain ⟨a, e, h1, h2, -⟩ := h.cov
    cases e
    simp at h1 h2
    omega

/-- **C62 is false of `CLA`**, which does not compare the sizes: one expected return with a 2×2
covariance, and two with a 1×1 one. -/
theorem C62_cla_false :
    (∃ c, initCla id (.list [(1 : ℚ)]) (.two ⟨2, [[1, 0], [0, 1]]⟩) = .ok ([0], [1], c) ∧
      c.shape = [2, 2]) ∧
    ∃ c, initCla id (.list [(1 : ℚ), 2]) (.two ⟨1, [[1]]⟩) = .ok ([0, 1], [1, 2], c) ∧
      c.shape = [1, 1] :=
  ⟨⟨_, rfl, rfl⟩, ⟨_, rfl, rfl⟩⟩

/-- **C62** for the expected returns of `CLA`: an array with one column is its column, an array with another number of
columns is refused with ValueError, and so is nothing else that has a length; no expected returns are a TypeError. -/
theorem C62_cla_columns (natKey : ℕ → κ) (cov : Stored V) :
    (∀ col : List V, initCla natKey (.array2 ⟨1, col.map fun v => [v]⟩) cov =
      .ok ((List.range col.length).map natKey, col, cov)) ∧
    (∀ a : Arr V, a.Ok → a.rows ≠ [] → a.width ≠ 1 → initCla natKey (.array2 a) cov = .error .valueError) ∧
    (∀ mu : MuArg κ V, initCla natKey mu cov = .error .valueError → ∃ a, mu = .array2 a) ∧
    initCla natKey .none cov = .error .typeError := by
  refine ⟨fun col => ?_, fun a ha hr hw => ?_, fun mu h => ?_, rfl⟩
  · have hf : (col.map fun v => [v]).flatten = col := by
      induction col with
      | nil => rfl
      | cons v l ih => rw [List.map_cons, List.flatten_cons, ih]; rfl
    simp only [initCla, hf, List.length_map, if_true]
  · have hl : ∀ rows : List (List V), (∀ r ∈ rows, r.length = a.width) →
        rows.flatten.length = rows.length * a.width := by
      intro rows
      induction rows with
      | nil => simp
      | cons r l ih =>
        intro h
        rw [List.flatten_cons, List.length_append, ih fun r hr => h r (List.mem_cons_of_mem _ hr),
          h r List.mem_cons_self, List.length_cons, Nat.succ_mul, Nat.add_comm]
    have hpos : 0 < a.rows.length := List.length_pos_of_ne_nil hr
    have hn : a.rows.flatten.length ≠ a.rows.length := by
      rw [hl _ ha]
      intro h
      exact hw (Nat.eq_of_mul_eq_mul_left hpos (h.trans (Nat.mul_one _).symm))
    simp only [initCla, if_neg hn]
  · cases mu with
    | array2 a => exact ⟨a, rfl⟩
    | _ => cases h

example : initCla (κ := ℕ) id (.array2 ⟨2, [[1, 2], [3, (4 : ℚ)]]⟩) (.two ⟨2, [[1, 0], [0, 1]]⟩) = .error .valueError :=
  (C62_cla_columns id _).2.1 _ (by simp [Arr.Ok]) (by simp) (by simp)

example (big : ℚ) : ∃ o : Obj String ℚ ℚ, initEf big (fun _ => "") (.series [("A", 1), ("B", 2)])
    (.frame ["A", "B"] ["A", "B"] [[4, 1], [1, 9]]) (unit ℚ) = .ok o ∧ WellSized 2 o ∧
      o.tickers = ["A", "B"] := by
  obtain ⟨o, h, h1, -, -, -, h2, -⟩ := C62_accepts big (fun _ => "") (unit _)
    (Means.series [("A", (1 : ℚ)), ("B", 2)])
    (Mat.frame ["A", "B"] ["A", "B"] [[(4 : ℚ), 1], [1, 9]] rfl (by simp)) (mapBounds_unit big 2)
  exact ⟨o, h, h1, h2 _ rfl⟩

example (big : ℚ) : initEf big (fun _ => "") (.list [(1 : ℚ), 2, 3])
    (.frame ["A", "B"] ["A", "B"] [[4, 1], [1, 9]]) (unit ℚ) = .error .valueError :=
  C62_refuses big _ _ (Means.list _) (Mat.frame _ _ _ rfl (by simp)) (by simp)

/-! ### Labels -/

section labels
variable [DecidableEq κ]

/-- **C63, partial (aligned labels).**  When the series, the rows and the columns of the covariance
carry the same labels in the same order, the object holds for each ticker what was given for it. -/
theorem C63_labels_partial {big : K} {natKey : ℕ → κ} {wb : BoundsArg K} {s : List (κ × V)}
    {rows : List (List V)} {o : Obj κ V K}
    (h : initEf big natKey (.series s) (.frame (s.map Prod.fst) (s.map Prod.fst) rows) wb = .ok o)
    (t u : κ) :
    muOf o t = lookup s t ∧
      covOf o t u = entry (s.map Prod.fst) (s.map Prod.fst) rows t u := by
  obtain ⟨c, m, n, h1, h2, h3, h4, h5, h6, h7, h8⟩ := initEf_ok h
  cases h1
  cases h2
  have e : o.tickers = s.map Prod.fst := h5
  refine ⟨?_, ?_⟩
  · rw [muOf, h6, e]
    show lookup ((s.map Prod.fst).zip (s.map Prod.snd)) t = _
    congr 1
    rw [List.zip_map', List.map_id'' fun _ => rfl]
  · rw [covOf, h7, e]

/-- **C63, partial (one labelled argument).**  When only the covariance carries labels, rows and columns
alike, each ticker gets its own covariances. -/
theorem C63_covariance_partial {big : K} {natKey : ℕ → κ} {wb : BoundsArg K} {mu : MuArg κ V}
    {cols : List κ} {rows : List (List V)} {o : Obj κ V K}
    (h : initEf big natKey mu (.frame cols cols rows) wb = .ok o) (hs : ∀ s, mu ≠ .series s) (t u : κ) :
    o.tickers = cols ∧ covOf o t u = entry cols cols rows t u := by
  obtain ⟨c, m, n, h1, h2, h3, h4, h5, h6, h7, h8⟩ := initEf_ok h
  cases h1
  have e : o.tickers = cols := by
    rw [h5]
    cases mu with
    | series s => exact absurd rfl (hs s)
    | _ => rfl
  exact ⟨e, by rw [covOf, h7, e]⟩

omit [DecidableEq κ] in
/-- **C63 (why it fails).**  With a series of expected returns the labels of the covariance are never
looked at: other labels give the same object. -/
theorem C63_positional (big : K) (natKey : ℕ → κ) (wb : BoundsArg K) (s : List (κ × V))
    (rows : List (List V)) (i c i' c' : List κ) (h : c.length = c'.length) :
    initEf big natKey (.series s) (.frame i c rows) wb =
      initEf big natKey (.series s) (.frame i' c' rows) wb := by
  simp only [initEf, validCov, h, labels]

/-- **C63 is false of the code.**  Expected returns of A, B with a covariance frame labelled B, A:
accepted, and A is given the variance of B. -/
theorem C63_order_false (big : K) :
    ∃ o : Obj String ℚ K, initEf big (fun _ => "") (.series [("A", 1), ("B", 2)])
      (.frame ["B", "A"] ["B", "A"] [[9, 1], [1, 4]]) (unit K) = .ok o ∧
      covOf o "A" "A" = some 9 ∧
      entry ["B", "A"] ["B", "A"] [[(9 : ℚ), 1], [1, 4]] "A" "A" = some 4 := by
  obtain ⟨o, h, -, -, h3, -, h2, -⟩ := C62_accepts big (fun _ => "") (unit _)
    (Means.series [("A", (1 : ℚ)), ("B", 2)])
    (Mat.frame ["B", "A"] ["B", "A"] [[(9 : ℚ), 1], [1, 4]] rfl (by simp)) (mapBounds_unit big 2)
  refine ⟨o, h, ?_, by decide +kernel⟩
  rw [covOf, h3, h2 _ rfl]
  decide +kernel

example (big : ℚ) : ∃ o : Obj String ℚ ℚ, initEf big (fun _ => "") (.series [("A", 1), ("B", 2)])
    (.frame ["A", "B"] ["A", "B"] [[4, 1], [1, 9]]) (unit ℚ) = .ok o ∧ muOf o "B" = some 2 ∧
      covOf o "B" "B" = some 9 := by
  obtain ⟨o, h, -⟩ := C62_accepts big (fun _ => "") (unit _)
    (Means.series [("A", (1 : ℚ)), ("B", 2)])
    (Mat.frame ["A", "B"] ["A", "B"] [[(4 : ℚ), 1], [1, 9]] rfl (by simp)) (mapBounds_unit big 2)
  obtain ⟨h1, h2⟩ := C63_labels_partial (s := [("A", (1 : ℚ)), ("B", 2)]) h "B" "B"
  exact ⟨o, h, h1.trans (by decide +kernel), h2.trans (by decide +kernel)⟩

omit [DecidableEq κ] in
/-- **C63** for `CLA`: labelled expected returns keep their labels, in order; other ones are numbered. -/
theorem C63_cla {natKey : ℕ → κ} {mu : MuArg κ V} {cov c : Stored V} {t : List κ} {m : List V}
    (h : initCla natKey mu cov = .ok (t, m, c)) :
    c = cov ∧ t.length = m.length ∧
    (∀ s, mu = .series s → ∀ (i : ℕ) (k : κ) (v : V), s[i]? = some (k, v) ↔ t[i]? = some k ∧ m[i]? = some v) ∧
    ((∀ s, mu ≠ .series s) → ∀ i < t.length, t[i]? = some (natKey i)) := by
  have hr : ∀ (n i : ℕ), i < ((List.range n).map natKey).length → ((List.range n).map natKey)[i]? = some (natKey i) := by
    intro n i hi
    rw [List.length_map, List.length_range] at hi
    rw [List.getElem?_map, List.getElem?_range hi]
    rfl
  cases mu with
  | none => cases h
  | other => cases h
  | series s =>
    cases h
    refine ⟨rfl, by simp, fun s' e => ?_, fun e => absurd rfl (e s)⟩
    cases e
    intro i k v
    rw [List.getElem?_map, List.getElem?_map]
    cases s[i]? with
    | none => simp
    | some x => obtain ⟨a, b⟩ := x; simp
  | list l => cases h; exact ⟨rfl, by simp, nofun, fun _ => hr _⟩
  | array1 l => cases h; exact ⟨rfl, by simp, nofun, fun _ => hr _⟩
  | array2 a =>
    unfold initCla at h
    dsimp only at h
    split at h
    · rename_i he
      cases h
      exact ⟨rfl, by simp [he], nofun, fun _ => hr _⟩
    · cases h

example : ∃ t m c, initCla (fun _ => "") (.series [("A", (1 : ℚ)), ("B", 2)]) (.two ⟨2, [[1, 0], [0, 1]]⟩) = .ok (t, m, c) ∧
    t[1]? = some "B" ∧ m[1]? = some 2 :=
  ⟨_, _, _, rfl, rfl, rfl⟩

omit [DecidableEq κ] in
/-- **C63** for `HRPOpt`: the tickers are the columns of the returns, and those of the covariance exactly when no returns
are given; with both, the covariance has no say in the tickers.  Without either, ValueError. -/
theorem C63_hrp (returns cov : Option (Option (List κ))) (t : List κ) :
    (initHrp returns cov = .ok t ↔
      returns = some (some t) ∨ returns = Option.none ∧ cov = some (some t)) ∧
    (initHrp returns cov = .error .valueError ↔ returns = Option.none ∧ cov = Option.none) ∧
    (initHrp returns cov = .error .typeError ↔ returns = some Option.none) := by
  rcases returns with _ | _ | r <;> rcases cov with _ | _ | c <;> simp [initHrp]

example : initHrp (some (some ["A", "B"])) (some (some ["B", "A"])) = .ok ["A", "B"] :=
  (C63_hrp _ _ _).1.2 (.inl rfl)

end labels

end Verif.Init
