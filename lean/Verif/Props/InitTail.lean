import Verif.Props.Init
import Mathlib.Tactic.NormNum

/-!
C64: what `EfficientCVaR(...)`, `EfficientCDaR(...)` and `EfficientSemivariance(...)` accept and keep.
-/

namespace Verif.Init
open Verif.Py Verif.Base

variable {κ V K : Type}
variable [Field K] [LinearOrder K]

/-- An argument holding a table of returns with `k` columns. -/
inductive Table : RetArg κ V → ℕ → List (List (Option V)) → Prop
  | frame (cols : List κ) (rows : List (List (Option V))) (w : ∀ r ∈ rows, r.length = cols.length) :
      Table (.frame cols rows) cols.length rows
  | array (a : Arr (Option V)) (w : ∀ r ∈ a.rows, r.length = a.width) : Table (.array2 a) a.width a.rows

omit [Field K] [LinearOrder K] in
theorem mapM_id_some : ∀ (r : List (Option V)) (x : List V), r.mapM id = some x ↔ r = x.map some
  | [], x => by
    rw [List.mapM_nil]
    constructor
    · intro h
      cases h
      rfl
    · intro h
      cases x with
      | nil => rfl
      | cons a x => cases h
  | a :: r, x => by
    rw [List.mapM_cons]
    cases a with
    | none =>
      constructor
      · intro h
        cases h
      · intro h
        cases x <;> cases h
    | some a =>
      constructor
      · intro h
        cases hr : r.mapM id with
        | none => simp [hr] at h
        | some y =>
          simp [hr] at h
          subst h
          simp [(mapM_id_some r y).1 hr]
      · intro h
        cases x with
        | nil => cases h
        | cons b x =>
          simp only [List.map_cons, List.cons.injEq, Option.some.injEq] at h
          obtain ⟨rfl, h⟩ := h
          simp [(mapM_id_some r x).2 h]

omit [Field K] [LinearOrder K] in
/-- `dropna` keeps the rows without a missing value, in their order. -/
theorem complete_eq (rows : List (List (Option V))) :
    (complete rows).map (List.map some) = rows.filter (fun r => r.all Option.isSome) := by
  induction rows with
  | nil => rfl
  | cons r rows ih =>
    unfold complete at ih ⊢
    by_cases h : r.all Option.isSome
    · have : ∃ x : List V, r = x.map some := by
        clear ih
        induction r with
        | nil => exact ⟨[], rfl⟩
        | cons a r ih =>
          simp only [List.all_cons, Bool.and_eq_true] at h
          obtain ⟨x, rfl⟩ := ih h.2
          obtain ⟨a, rfl⟩ := Option.isSome_iff_exists.1 h.1
          exact ⟨a :: x, rfl⟩
      obtain ⟨x, rfl⟩ := this
      rw [List.filterMap_cons_some ((mapM_id_some _ x).2 rfl), List.filter_cons_of_pos (p := fun r : List (Option V) => r.all Option.isSome) h,
        List.map_cons, ih]
    · have : r.mapM id = Option.none := by
        by_contra hne
        obtain ⟨x, hx⟩ := Option.ne_none_iff_exists'.1 hne
        rw [(mapM_id_some r x).1 hx] at h
        exact h (by simp)
      rw [List.filterMap_cons_none this, List.filter_cons_of_neg (p := fun r : List (Option V) => r.all Option.isSome) h, ih]

omit [Field K] [LinearOrder K] in
theorem complete_mem {rows : List (List (Option V))} {x : List V} (h : x ∈ complete rows) :
    x.map some ∈ rows := by
  have : x.map some ∈ (complete rows).map (List.map some) := List.mem_map_of_mem h
  rw [complete_eq] at this
  exact (List.mem_filter.1 this).1

omit [Field K] [LinearOrder K] in
theorem Table.retFrame {r : RetArg κ V} {k : ℕ} {rows : List (List (Option V))} (h : Table r k rows) :
    retFrame r = .ok ⟨k, rows⟩ := by
  cases h <;> rfl

omit [Field K] [LinearOrder K] in
theorem Table.retWidth {r : RetArg κ V} {k : ℕ} {rows : List (List (Option V))} (h : Table r k rows) :
    retWidth r = .ok k := by
  cases h <;> rfl

omit [Field K] [LinearOrder K] in
theorem Table.rows {r : RetArg κ V} {k : ℕ} {rows : List (List (Option V))} (h : Table r k rows) :
    ∀ x ∈ rows, x.length = k := by
  cases h with
  | frame _ _ w => exact w
  | array _ w => exact w

/-- The object an accepted call produces. -/
theorem initTail_ok {big : K} {natKey : ℕ → κ} {zero : V} {kind : Kind} {mu : MuArg κ V}
    {r : RetArg κ V} {beta : Flt K} {wb : BoundsArg K} {o : TailObj κ V K}
    (h : initTail big natKey zero kind mu r beta wb = .ok o) :
    ∃ n, dummySize kind mu r = .ok n ∧ initEf big natKey mu (zeros zero n) wb = .ok o.base ∧
      validReturns o.base.mu r = .ok o.returns ∧
      if kind = .semi then o.beta = Option.none
      else ∃ b, validBeta beta = .ok b ∧ o.beta = some b := by
  unfold initTail at h
  obtain ⟨n, hn, h⟩ := except_bind h
  obtain ⟨b, hb, h⟩ := except_bind h
  obtain ⟨a, ha, h⟩ := except_bind h
  split at h
  · rename_i hk
    cases h
    exact ⟨n, hn, hb, ha, by rw [if_pos hk]⟩
  · rename_i hk
    obtain ⟨bt, hbt, h⟩ := except_bind h
    cases h
    exact ⟨n, hn, hb, ha, by rw [if_neg hk]; exact ⟨bt, hbt, rfl⟩⟩

omit [Field K] [LinearOrder K] in
theorem validReturns_ok {mu : Option (List V)} {r : RetArg κ V} {a : Arr V}
    (h : validReturns mu r = .ok a) : ∃ f, retFrame r = .ok f ∧ a = ⟨f.width, complete f.rows⟩ ∧
      ∀ m, mu = some m → f.width = m.length := by
  unfold validReturns at h
  obtain ⟨f, hf, h⟩ := except_bind h
  refine ⟨f, hf, ?_⟩
  cases mu with
  | none =>
    cases h
    exact ⟨rfl, nofun⟩
  | some m =>
    simp only at h
    split at h
    · cases h
    · rename_i hw
      cases h
      exact ⟨rfl, fun m' e => by cases e; exact not_not.1 hw⟩

/-- **C64 (which days count).**  The object keeps exactly the days without a missing return, in their
order. -/
theorem C64_days {big : K} {natKey : ℕ → κ} {zero : V} {kind : Kind} {mu : MuArg κ V}
    {r : RetArg κ V} {beta : Flt K} {wb : BoundsArg K} {o : TailObj κ V K} {k : ℕ}
    {rows : List (List (Option V))} (ht : Table r k rows)
    (h : initTail big natKey zero kind mu r beta wb = .ok o) :
    o.returns.rows.map (List.map some) = rows.filter (fun x => x.all Option.isSome) := by
  obtain ⟨n, -, -, h2, -⟩ := initTail_ok h
  obtain ⟨f, hf, e, -⟩ := validReturns_ok h2
  rw [ht.retFrame] at hf
  cases hf
  rw [e]
  exact complete_eq rows

theorem zeros_mat (zero : V) (n : ℕ) :
    Mat (zeros zero n : CovArg κ V) n n (List.replicate n (List.replicate n zero)) := by
  have := Mat.array (κ := κ) ⟨n, List.replicate n (List.replicate n zero)⟩ (by
    intro r hr
    rw [List.eq_of_mem_replicate hr]
    simp)
  simpa [zeros] using this

/-- **C64 (sizes).**  Whatever `EfficientCVaR` and `EfficientSemivariance` accept is about one set of
assets: as many tickers, bounds and expected returns as columns of returns. -/
theorem C64_sizes {big : K} {natKey : ℕ → κ} {zero : V} {kind : Kind} (hk : kind ≠ .cdar)
    {mu : MuArg κ V} {r : RetArg κ V} {beta : Flt K} {wb : BoundsArg K} {o : TailObj κ V K} {k : ℕ}
    {rows : List (List (Option V))} (ht : Table r k rows)
    (h : initTail big natKey zero kind mu r beta wb = .ok o) :
    WellSized k o.base ∧ ∀ x ∈ o.returns.rows, x.length = k := by
  obtain ⟨n, hn, h1, h2, -⟩ := initTail_ok h
  have e : n = k := by
    cases kind with
    | cdar => exact absurd rfl hk
    | _ =>
      have := hn.symm.trans ht.retWidth
      cases this
      rfl
  subst e
  obtain ⟨f, hf, e, hw⟩ := validReturns_ok h2
  rw [ht.retFrame] at hf
  cases hf
  refine ⟨?_, ?_⟩
  · obtain ⟨c, m, n', g1, g2, g3, g4, g5, g6, g7, g8⟩ := initEf_ok h1
    cases g1
    have hlen : n' = n := by
      cases m with
      | none =>
        cases g3
        simp [Stored.len]
      | some m =>
        have := g4 rfl
        simp [Stored.shape] at this
        exact this.symm
    subst hlen
    have hser : ∀ s, mu = .series s → s.length = n' := by
      rintro s rfl
      cases g2
      cases g3
      rfl
    have hl : o.base.tickers.length = n' := by
      rw [g5]
      exact labels_length natKey hser nofun
    have hb := mapBounds_length _ _ _ g8
    rw [hl] at hb
    refine ⟨hl, fun m' e' => ?_, ⟨_, g7, rfl, by simp, ?_⟩, hb⟩
    · exact (hw m' e').symm
    · intro x hx
      rw [List.eq_of_mem_replicate hx]
      simp
  · intro x hx
    rw [e] at hx
    have := ht.rows _ (complete_mem hx)
    simpa using this

/-- **C64, partial (sizes, CDaR).**  The same for `EfficientCDaR`, unless the expected returns are an
array with several columns. -/
theorem C64_sizes_cdar_partial {big : K} {natKey : ℕ → κ} {zero : V} {n : ℕ} {m : List V}
    {mu : MuArg κ V} {r : RetArg κ V} {beta : Flt K} {wb : BoundsArg K} {o : TailObj κ V K} {k : ℕ}
    {rows : List (List (Option V))} (ht : Table r k rows) (hm : Means mu n m)
    (h : initTail big natKey zero .cdar mu r beta wb = .ok o) :
    n = k ∧ WellSized k o.base ∧ ∀ x ∈ o.returns.rows, x.length = k := by
  obtain ⟨n', hn, h1, h2, -⟩ := initTail_ok h
  have e : n' = n := by
    have := hn.symm.trans hm.muLen
    cases this
    rfl
  subst e
  obtain ⟨f, hf, e, hw⟩ := validReturns_ok h2
  rw [ht.retFrame] at hf
  cases hf
  obtain ⟨c, m', x, -, -, -, -, -, -, -, g8⟩ := initEf_ok h1
  have hl := mapBounds_length _ _ _ g8
  have hts : o.base.tickers.length = n' := by
    obtain ⟨c, m', x, -, g2, g3, -, g5, -, -, -⟩ := initEf_ok h1
    rw [hm.validMu] at g2
    cases g2
    have := g3.symm.trans hm.muLen
    cases this
    rw [g5]
    exact labels_length natKey hm.series_length nofun
  rw [hts] at g8
  obtain ⟨o', ho, w, hmu, -⟩ := C62_accepts big natKey wb hm (zeros_mat (κ := κ) zero n') g8
  rw [h1] at ho
  cases ho
  have hk : n' = k := by
    rw [← hm.length]
    exact (hw m hmu).symm
  subst hk
  refine ⟨rfl, w, fun x hx => ?_⟩
  rw [e] at hx
  have := ht.rows _ (complete_mem hx)
  simpa using this

/-- **C64 (the three classes agree).**  With one expected return per asset, each of the classes accepts
exactly when the numbers of assets agree, the bounds are valid and the confidence level is in [0, 1)
(the semivariance class has none). -/
theorem C64_agree (big : K) (natKey : ℕ → κ) (zero : V) (kind : Kind) {n k : ℕ} {m : List V}
    {mu : MuArg κ V} {r : RetArg κ V} {rows : List (List (Option V))} (hm : Means mu n m)
    (ht : Table r k rows) (beta : Flt K) (wb : BoundsArg K) :
    (∃ o, initTail big natKey zero kind mu r beta wb = .ok o) ↔
      n = k ∧ (∃ b, mapBounds big n wb = .ok b) ∧
        (kind ≠ .semi → ∃ b : K, beta = .fin b ∧ 0 ≤ b ∧ b < 1) := by
  constructor
  · rintro ⟨o, h⟩
    obtain ⟨n', hn, h1, h2, h3⟩ := initTail_ok h
    have hk : n = k := by
      obtain ⟨f, hf, e, hw⟩ := validReturns_ok h2
      rw [ht.retFrame] at hf
      cases hf
      obtain ⟨c, m', x, -, g2, -, -, -, g6, -, -⟩ := initEf_ok h1
      rw [hm.validMu] at g2
      cases g2
      have := hw m g6
      rw [← hm.length]
      exact this.symm
    have hn' : n' = n := by
      cases kind with
      | cdar =>
        have := hn.symm.trans hm.muLen
        cases this
        rfl
      | _ =>
        have := hn.symm.trans ht.retWidth
        cases this
        exact hk.symm
    subst hn'
    obtain ⟨c, m', x, -, g2, g3, -, g5, -, -, g8⟩ := initEf_ok h1
    rw [hm.validMu] at g2
    cases g2
    have := g3.symm.trans hm.muLen
    cases this
    have hts : o.base.tickers.length = n' := by
      rw [g5]
      exact labels_length natKey hm.series_length nofun
    rw [hts] at g8
    refine ⟨hk, ⟨_, g8⟩, fun hs => ?_⟩
    rw [if_neg hs] at h3
    obtain ⟨b, hb, -⟩ := h3
    cases beta with
    | fin x =>
      simp only [validBeta] at hb
      split at hb
      · rename_i hx
        exact ⟨x, rfl, hx⟩
      · cases hb
    | _ => cases hb
  · rintro ⟨rfl, ⟨b, hb⟩, hbeta⟩
    obtain ⟨o, ho, -, hmu, -⟩ := C62_accepts big natKey wb hm (zeros_mat (κ := κ) zero n) hb
    have hd : dummySize kind mu r = .ok n := by
      cases kind with
      | cdar => exact hm.muLen
      | _ => exact ht.retWidth
    have hr : validReturns o.mu r = .ok ⟨n, complete rows⟩ := by
      simp only [validReturns, ht.retFrame, bind, Except.bind, hmu, hm.length, ne_eq, not_true, if_false,
        pure, Except.pure]
    by_cases hs : kind = .semi
    · refine ⟨⟨o, ⟨n, complete rows⟩, Option.none⟩, ?_⟩
      simp only [initTail, hd, ho, hr, bind, Except.bind, if_pos hs, pure, Except.pure]
    · obtain ⟨x, rfl, hx⟩ := hbeta hs
      refine ⟨⟨o, ⟨n, complete rows⟩, some x⟩, ?_⟩
      simp only [initTail, hd, ho, hr, bind, Except.bind, if_neg hs, validBeta, if_pos hx, pure,
        Except.pure]

/-- **C64 is false of `EfficientCDaR` without expected returns**: always a TypeError, although `None`
is documented, and the other two classes accept it. -/
theorem C64_none_false (big : K) (natKey : ℕ → κ) (zero : V) {r : RetArg κ V} {k : ℕ}
    {rows : List (List (Option V))} (ht : Table r k rows) (beta : Flt K) :
    (∀ wb, initTail big natKey zero .cdar .none r beta wb = .error .typeError) ∧
    (∃ o, initTail big natKey zero .semi .none r beta (unit K) = .ok o) ∧
    ((∃ b : K, beta = .fin b ∧ 0 ≤ b ∧ b < 1) →
      ∃ o, initTail big natKey zero .cvar .none r beta (unit K) = .ok o) := by
  obtain ⟨o, ho, -, hmu, -⟩ := C62_covariance_only big natKey (unit K) (zeros_mat (κ := κ) zero k)
    (mapBounds_unit big k)
  have hr : validReturns o.mu r = .ok ⟨k, complete rows⟩ := by
    simp only [validReturns, ht.retFrame, bind, Except.bind, hmu, pure, Except.pure]
  refine ⟨fun _ => rfl, ⟨⟨o, ⟨k, complete rows⟩, Option.none⟩, ?_⟩, ?_⟩
  · simp only [initTail, dummySize, ht.retWidth, ho, hr, bind, Except.bind, if_true, pure, Except.pure]
  · rintro ⟨x, rfl, hx⟩
    refine ⟨⟨o, ⟨k, complete rows⟩, some x⟩, ?_⟩
    simp only [initTail, dummySize, ht.retWidth, ho, hr, bind, Except.bind, reduceCtorEq, if_false,
      validBeta, if_pos hx, pure, Except.pure]

/-- **C64 (why names fail).**  The column names of the returns are never used: a frame with other names,
or the same names in another order, gives the same object. -/
theorem C64_positional (big : K) (natKey : ℕ → κ) (zero : V) (kind : Kind) (mu : MuArg κ V)
    (cols cols' : List κ) (rows : List (List (Option V))) (h : cols.length = cols'.length)
    (beta : Flt K) (wb : BoundsArg K) :
    initTail big natKey zero kind mu (.frame cols rows) beta wb =
      initTail big natKey zero kind mu (.frame cols' rows) beta wb := by
  cases kind <;> simp only [initTail, dummySize, retWidth, validReturns, retFrame, h]

/-- **C64 is false of the names.**  Returns of A and B without expected returns: the tickers are 0 and 1.
Returns of B and A with expected returns of A and B: accepted, and A is given the returns of B. -/
theorem C64_names_false (big : K) :
    (∃ o : TailObj String ℚ K, initTail big toString 0 .semi .none
      (.frame ["A", "B"] [[some 1, some 2]]) .nan (unit K) = .ok o ∧ o.base.tickers = ["0", "1"]) ∧
    ∃ o : TailObj String ℚ K, initTail big toString 0 .semi (.series [("A", 1), ("B", 2)])
      (.frame ["B", "A"] [[some 5, some 7]]) .nan (unit K) = .ok o ∧ o.base.tickers = ["A", "B"] ∧
      o.returns.rows.map (fun r => lookup (o.base.tickers.zip r) "A") = [some 5] := by
  have := mapBounds_unit (K := K) big 2
  refine ⟨⟨⟨⟨["0", "1"], Option.none, .two ⟨2, [[0, 0], [0, 0]]⟩,
    (List.replicate 2 (.fin 0), List.replicate 2 (.fin 1))⟩, ⟨2, [[1, 2]]⟩, Option.none⟩, ?_, rfl⟩,
    ⟨⟨⟨["A", "B"], some [1, 2], .two ⟨2, [[0, 0], [0, 0]]⟩,
    (List.replicate 2 (.fin 0), List.replicate 2 (.fin 1))⟩, ⟨2, [[5, 7]]⟩, Option.none⟩, ?_, rfl,
    (by decide +kernel : [[(5 : ℚ), 7]].map (fun r => lookup (["A", "B"].zip r) "A") = [some 5])⟩⟩
  · have hc : complete [[some (1 : ℚ), some 2]] = [[1, 2]] := rfl
    have h0 : toString (0 : ℕ) = "0" := by decide +kernel
    have h1 : toString (1 : ℕ) = "1" := by decide +kernel
    simp only [initTail, dummySize, zeros, initEf, validCov, validMu, numAssets, validReturns,
      retFrame, retWidth, bind, Except.bind, Stored.shape, labels, pure, Except.pure]
    simp [List.range_succ, this, hc, List.replicate, Stored.len, h0, h1]
  · have hc : complete [[some (5 : ℚ), some 7]] = [[5, 7]] := rfl
    simp only [initTail, dummySize, muLen, zeros, initEf, validCov, validMu, numAssets, validReturns,
      retFrame, retWidth, bind, Except.bind, Stored.shape, labels, pure, Except.pure]
    simp [this, hc, List.replicate]

/-- **C64 is false of `EfficientCDaR` for a table of expected returns.**  Two by two expected returns
and four columns of returns give an object with two tickers. -/
theorem C64_wide_false (big : K) [IsStrictOrderedRing K] :
    ∃ o : TailObj ℕ ℚ K, initTail big id 0 .cdar (.array2 ⟨2, [[1, 2], [3, 4]]⟩)
      (.array2 ⟨4, [[some 1, some 2, some 3, some 4]]⟩) (.fin 0) (unit K) = .ok o ∧
      o.base.tickers = [0, 1] ∧ o.returns.rows = [[1, 2, 3, 4]] := by
  refine ⟨⟨⟨[0, 1], some [1, 2, 3, 4], .two ⟨2, [[0, 0], [0, 0]]⟩,
    (List.replicate 2 (.fin 0), List.replicate 2 (.fin 1))⟩, ⟨4, [[1, 2, 3, 4]]⟩, some 0⟩, ?_, rfl, rfl⟩
  have := mapBounds_unit (K := K) big 2
  have hc : complete [[some (1 : ℚ), some 2, some 3, some 4]] = [[1, 2, 3, 4]] := rfl
  have h01 : (0 : K) < 1 := zero_lt_one
  simp only [initTail, dummySize, muLen, zeros, initEf, validCov, validMu, numAssets, validReturns, retFrame,
    validBeta, bind, Except.bind, Stored.shape, labels, pure, Except.pure]
  simp [List.range_succ, this, hc, h01, List.replicate]

example (big : ℚ) : ∃ o : TailObj String ℚ ℚ, initTail big (fun _ => "") 0 .cvar
    (.series [("A", 1), ("B", 2)])
    (.frame ["A", "B"] [[some 1, some 2], [Option.none, some 3], [some 4, some 5]]) (.fin (19 / 20))
    (unit ℚ) = .ok o ∧ WellSized 2 o.base ∧ o.returns.rows = [[1, 2], [4, 5]] := by
  have ht : Table (κ := String) (.frame ["A", "B"] [[some (1 : ℚ), some 2], [Option.none, some 3],
      [some 4, some 5]]) 2 _ := Table.frame _ _ (by simp)
  obtain ⟨o, h⟩ := (C64_agree big (fun _ => "") (0 : ℚ) .cvar (Means.series [("A", (1 : ℚ)), ("B", 2)])
    ht (.fin (19 / 20)) (unit ℚ)).2 ⟨rfl, ⟨_, mapBounds_unit big 2⟩, fun _ => ⟨_, rfl, by norm_num⟩⟩
  refine ⟨o, h, (C64_sizes (by decide) ht h).1, ?_⟩
  have := C64_days ht h
  have hi : Function.Injective (List.map (some : ℚ → Option ℚ)) :=
    List.map_injective_iff.2 (Option.some_injective _)
  exact List.map_injective_iff.2 hi (this.trans (by decide +kernel))

end Verif.Init
