import Verif.Model.Base
import Verif.Proof.Py
import Mathlib.Tactic.Linarith
import Mathlib.Algebra.Order.Ring.Rat
import Mathlib.Data.Rat.Floor
import Mathlib.Algebra.Order.AbsoluteValue.Basic
import Mathlib.Data.List.Forall2

/-! Property theorems C12: the spellings of `weight_bounds`. -/

set_option linter.unusedSectionVars false

namespace Verif.Base
open Verif.Py

variable {K : Type} [Field K] [LinearOrder K] [IsStrictOrderedRing K] [FloorRing K]

/-- Specification: each weight lies within its own pair of (possibly infinite) bounds. -/
def Within (pairs : List (Flt K × Flt K)) (w : List K) : Prop :=
  List.Forall₂ (fun p x => Flt.leNum p.1 x ∧ Flt.numLe x p.2) pairs w

/-- One `(low, high)` pair of numbers. -/
def scalarPair (p : Flt K × Flt K) : BoundsArg K :=
  { tupleOrList := true, elems := [.num p.1, .num p.2] }

/-- A list/tuple/array of `(low, high)` pairs of numbers. -/
def perAsset (isTupleOrList : Bool) (pairs : List (Flt K × Flt K)) : BoundsArg K :=
  { tupleOrList := isTupleOrList
    elems := pairs.map (fun p => .seq [some p.1, some p.2]) }

/-- A pair of arrays. -/
def arrayPair (pairs : List (Flt K × Flt K)) : BoundsArg K :=
  { tupleOrList := true
    elems := [.seq (pairs.map (fun p => some p.1)), .seq (pairs.map (fun p => some p.2))] }

theorem leNum_nanToNum {big : K} {v b : Flt K} {x : K} (hb : b ≠ .nan) (hx : |x| < big) :
    Flt.leNum (nanToNum big v b) x ↔ Flt.leNum b x := by
  have := abs_lt.1 hx
  cases b <;> simp_all [nanToNum, Flt.leNum]
  linarith

theorem numLe_nanToNum {big : K} {v b : Flt K} {x : K} (hb : b ≠ .nan) (hx : |x| < big) :
    Flt.numLe x (nanToNum big v b) ↔ Flt.numLe x b := by
  have := abs_lt.1 hx
  cases b <;> simp_all [nanToNum, Flt.numLe]
  linarith

theorem admits_map {big : K} {v v' : Flt K} (pairs : List (Flt K × Flt K))
    (hnan : ∀ p ∈ pairs, p.1 ≠ .nan ∧ p.2 ≠ .nan) (w : List K) (hw : ∀ x ∈ w, |x| < big) :
    admits (pairs.map (fun p => nanToNum big v p.1), pairs.map (fun p => nanToNum big v' p.2)) w ↔
      Within pairs w := by
  unfold admits Within
  rw [List.forall₂_map_left_iff, List.forall₂_map_right_iff]
  induction pairs generalizing w with
  | nil => cases w <;> simp
  | cons p ps ih =>
    cases w with
    | nil => simp
    | cons x w =>
      simp only [List.forall₂_cons]
      have ih' := ih (fun q hq => hnan q (by simp [hq])) w (fun y hy => hw y (by simp [hy]))
      have hp := hnan p (by simp)
      have hx := hw x (by simp)
      rw [← ih', leNum_nanToNum hp.1 hx, numLe_nanToNum hp.2 hx]
      tauto

theorem admits_replicate (n : ℕ) (p : Flt K × Flt K) (w : List K) :
    admits (List.replicate n p.1, List.replicate n p.2) w ↔ Within (List.replicate n p) w := by
  unfold admits Within
  induction n generalizing w with
  | zero => cases w <;> simp
  | succ n ih =>
    cases w with
    | nil => simp [List.replicate_succ]
    | cons x w =>
      simp only [List.replicate_succ, List.forall₂_cons]
      rw [← ih]; tauto

theorem column_map (j : ℕ) (f : Flt K × Flt K → List (Option (Flt K)))
    (g : Flt K × Flt K → Flt K) (pairs : List (Flt K × Flt K))
    (h : ∀ p ∈ pairs, (f p)[j]? = some (some (g p)) ∨ (f p)[j]? = some none ∧ g p = .nan) :
    column j (pairs.map (fun p => .seq (f p))) = .ok (pairs.map g) := by
  unfold column
  induction pairs with
  | nil => rfl
  | cons p ps ih =>
    have := ih (fun q hq => h q (by simp [hq]))
    simp only [List.map_cons, List.mapM_cons] at this ⊢
    rw [this]
    rcases h p (by simp) with e | ⟨e, e2⟩
    · rw [e]; rfl
    · rw [e, e2]; rfl

/-- A per-asset entry: a pair in which either side may be `None`. -/
def Entry (K : Type) := Option (Flt K) × Option (Flt K)

theorem mapBounds_entries (big : K) (b : Bool) (es : List (Option (Flt K) × Option (Flt K)))
    (hne : es ≠ []) :
    mapBounds big es.length { tupleOrList := b, elems := es.map (fun p => .seq [p.1, p.2]) } =
      .ok (es.map (fun p => nanToNum big .negInf (p.1.getD .nan)),
        es.map (fun p => nanToNum big .posInf (p.2.getD .nan))) := by
  have hcol : ∀ j, j = 0 ∨ j = 1 → column j (es.map (fun p => Elt.seq [p.1, p.2])) =
      .ok (es.map (fun p => ((if j = 0 then p.1 else p.2).getD .nan : Flt K))) := by
    intro j hj
    unfold column
    clear hne
    induction es with
    | nil => rfl
    | cons p ps ih =>
      simp only [List.map_cons, List.mapM_cons]
      rw [ih]
      rcases hj with rfl | rfl <;> rfl
  have h0 := hcol 0 (.inl rfl)
  have h1 := hcol 1 (.inr rfl)
  simp only [↓reduceIte, one_ne_zero] at h0 h1
  have hrect : rectangular (es.map (fun p => Elt.seq [p.1, p.2])) = true := by
    cases es with
    | nil => rfl
    | cons p ps => simp [rectangular]
  unfold mapBounds
  rw [if_neg (by simpa using hne), if_pos]
  · simp only [hrect, Bool.not_true, Bool.false_eq_true, if_false]
    rw [h0, h1]
    show Except.ok (_, _) = _
    simp only [List.map_map]
    rfl
  · refine ⟨by simp, ?_⟩
    cases es with
    | nil => exact absurd rfl hne
    | cons p ps => simp [isNum]

/-- C12, per-asset spelling: for any number of assets, and whatever the collection type. -/
theorem C12_per_asset_partial (big : K) (isTL : Bool) (pairs : List (Flt K × Flt K)) (hne : pairs ≠ [])
    (hnan : ∀ p ∈ pairs, p.1 ≠ .nan ∧ p.2 ≠ .nan) :
    ∃ b, mapBounds big pairs.length (perAsset isTL pairs) = .ok b ∧
      ∀ w : List K, (∀ x ∈ w, |x| < big) → (admits b w ↔ Within pairs w) := by
  have := mapBounds_entries big isTL (pairs.map (fun p => (some p.1, some p.2))) (by simpa using hne)
  simp only [List.length_map, List.map_map, Function.comp_def, Option.getD_some] at this
  exact ⟨_, this, fun w hw => admits_map pairs hnan w hw⟩

/-- C12, single pair: for any number of assets. -/
theorem C12_single_pair_partial (big : K) (n : ℕ) (p : Flt K × Flt K) :
    ∃ b, mapBounds big n (scalarPair p) = .ok b ∧
      ∀ w : List K, admits b w ↔ Within (List.replicate n p) w := by
  refine ⟨(List.replicate n p.1, List.replicate n p.2), ?_, admits_replicate n p⟩
  simp [mapBounds, scalarPair, isNum]

theorem floats_map_some (l : List (Flt K)) : floats (l.map some) = some l := by
  unfold floats
  induction l with
  | nil => rfl
  | cons a l ih => simp only [List.map_cons, List.mapM_cons, ih]; rfl

/-- C12, pair of arrays: for any number of assets other than two. -/
theorem C12_array_pair_partial (big : K) (pairs : List (Flt K × Flt K)) (hn : pairs.length ≠ 2)
    (hnan : ∀ p ∈ pairs, p.1 ≠ .nan ∧ p.2 ≠ .nan) :
    ∃ b, mapBounds big pairs.length (arrayPair pairs) = .ok b ∧
      ∀ w : List K, (∀ x ∈ w, |x| < big) → (admits b w ↔ Within pairs w) := by
  refine ⟨(pairs.map (fun p => nanToNum big (.fin (-1)) p.1),
    pairs.map (fun p => nanToNum big (.fin 1) p.2)), ?_, fun w hw => admits_map pairs hnan w hw⟩
  have e1 := floats_map_some (pairs.map Prod.fst)
  have e2 := floats_map_some (pairs.map Prod.snd)
  simp only [List.map_map, Function.comp_def] at e1 e2
  have hn' : ¬ (2 = pairs.length) := fun h => hn h.symm
  simp [mapBounds, arrayPair, hn', e1, e2, Function.comp_def]

/-- C12, `None` in the per-asset spelling means "unbounded" (for weights of ordinary size). -/
theorem C12_none_per_asset_partial (big : K) (isTL : Bool) (es : List (Option (Flt K) × Option (Flt K)))
    (hne : es ≠ []) (hnan : ∀ p ∈ es, p.1 ≠ some .nan ∧ p.2 ≠ some .nan) :
    ∃ b, mapBounds big es.length { tupleOrList := isTL, elems := es.map (fun p => .seq [p.1, p.2]) } = .ok b ∧
      ∀ w : List K, (∀ x ∈ w, |x| < big) →
        (admits b w ↔ Within (es.map (fun p => (p.1.getD .negInf, p.2.getD .posInf))) w) := by
  refine ⟨_, mapBounds_entries big isTL es hne, ?_⟩
  intro w hw
  rw [← admits_map (big := big) (v := .negInf) (v' := .posInf) _ _ w hw]
  · unfold admits
    simp only [List.map_map, Function.comp_def, List.forall₂_map_left_iff,
      List.forall₂_map_right_iff]
    have hl : ∀ o : Option (Flt K), ∀ x : K, |x| < big →
        (Flt.leNum (nanToNum big .negInf (o.getD .nan)) x ↔
         Flt.leNum (nanToNum big .negInf (o.getD .negInf)) x) := by
      intro o x hx
      have := abs_lt.1 hx
      cases o <;> simp [nanToNum, Flt.leNum]
      linarith
    have hu : ∀ o : Option (Flt K), ∀ x : K, |x| < big →
        (Flt.numLe x (nanToNum big .posInf (o.getD .nan)) ↔
         Flt.numLe x (nanToNum big .posInf (o.getD .posInf))) := by
      intro o x hx
      have := abs_lt.1 hx
      cases o <;> simp [nanToNum, Flt.numLe]
      linarith
    clear hnan hne
    induction es generalizing w with
    | nil => simp
    | cons e es ih =>
      cases w with
      | nil => simp
      | cons x w =>
        simp only [List.forall₂_cons]
        have ih' := ih w (fun y hy => hw y (by simp [hy]))
        rw [hl _ x (hw x (by simp)), hu _ x (hw x (by simp))]
        tauto
  · simp only [List.mem_map]
    rintro p ⟨e, he, rfl⟩
    have := hnan e he
    rcases e with ⟨a, b⟩
    cases a <;> cases b <;> simp_all

/-- C12, `None` in the single-pair spelling means -1 below and 1 above (documented as ±1), for any
number of assets other than two. -/
theorem C12_none_single_pair_partial (big : K) (n : ℕ) (hn : n ≠ 2) (lo hi : Option (Flt K)) :
    ∃ b, mapBounds big n { tupleOrList := true, elems := [lo.elim .none .num, hi.elim .none .num] } = .ok b ∧
      ∀ w : List K, admits b w ↔
        Within (List.replicate n (lo.getD (.fin (-1)), hi.getD (.fin 1))) w := by
  refine ⟨(List.replicate n (lo.getD (.fin (-1))), List.replicate n (hi.getD (.fin 1))), ?_,
    fun w => admits_replicate n (_, _) w⟩
  have hn' : ¬ (2 = n) := fun h => hn h.symm
  cases lo <;> cases hi <;> simp [mapBounds, hn']

/-- C12, malformed bounds: a collection that is neither one entry per asset nor a two-element
tuple/list raises TypeError. -/
theorem C12_malformed_type_error (big : K) (n : ℕ) (b : BoundsArg K) (hn : b.elems.length ≠ n)
    (h : b.elems.length ≠ 2 ∨ b.tupleOrList = false) : mapBounds big n b = .error .typeError := by
  unfold mapBounds
  rw [if_neg (by tauto), if_neg (by tauto)]
  rcases h with h | h
  · cases ht : b.tupleOrList
    · simp
    · simp only [Bool.not_true, Bool.false_eq_true, if_false]
      rcases hb : b.elems with _ | ⟨a, _ | ⟨c, _ | ⟨d, l⟩⟩⟩ <;> simp_all
  · simp [h]

/-! The full statement is false.  -/

instance (b : Flt ℚ) (x : ℚ) : Decidable (Flt.leNum b x) := by cases b <;> unfold Flt.leNum <;> infer_instance
instance (b : Flt ℚ) (x : ℚ) : Decidable (Flt.numLe x b) := by cases b <;> unfold Flt.numLe <;> infer_instance

/-- With two assets a pair of arrays (lower (0, 0.3), upper (0.5, 1)) is read as per-asset pairs
(0, 0.3) and (0.5, 1): the meaning silently changes. -/
theorem C12_two_assets_arrays_false (big : ℚ) (hbig : 1 ≤ big) :
    ∃ (pairs : List (Flt ℚ × Flt ℚ)) (w : List ℚ) (b : _),
      mapBounds big pairs.length (arrayPair pairs) = .ok b ∧
      (∀ p ∈ pairs, p.1 ≠ .nan ∧ p.2 ≠ .nan) ∧ (∀ x ∈ w, |x| < big) ∧
      Within pairs w ∧ ¬ admits b w := by
  refine ⟨[(.fin 0, .fin (1/2)), (.fin (3/10), .fin 1)], [1/2, 1/2],
    ([.fin 0, .fin (1/2)], [.fin (3/10), .fin 1]), rfl, by simp, ?_, ?_, ?_⟩
  · simp only [List.mem_cons, List.not_mem_nil, or_false, or_self]
    rintro x rfl
    rw [abs_of_pos (by norm_num)]; linarith
  · simp [Within, Flt.leNum, Flt.numLe]; norm_num
  · simp [admits, Flt.leNum, Flt.numLe]; norm_num

/-- With two assets, `(None, 1)` raises IndexError although the same tuple is accepted for any other
number of assets. -/
theorem C12_two_assets_none_false (big : K) :
    mapBounds big 2 { tupleOrList := true, elems := [.none, .num (.fin 1)] } =
      .error .indexError := rfl

/-- `None` means -1 in the single-pair spelling but "unbounded" in the per-asset spelling: with three
assets the weights (-2, 2, 1) are admitted by one and rejected by the other. -/
theorem C12_none_spellings_differ_false (big : ℚ) :
    ∃ b₁ b₂, mapBounds big 3 { tupleOrList := true, elems := [.none, .none] } = .ok b₁ ∧
      mapBounds big 3 { tupleOrList := true, elems := List.replicate 3 (.seq [none, none]) } = .ok b₂ ∧
      ¬ admits b₁ [-2, 2, 1] ∧ admits b₂ [-2, 2, 1] := by
  refine ⟨_, _, rfl, rfl, ?_, ?_⟩
  · simp [admits, Flt.leNum, Flt.numLe]
  · simp [admits, Flt.leNum, Flt.numLe, nanToNum]

/-- Non-vacuity of the positive theorems: three assets, all three spellings of the same bounds. -/
example :
    mapBounds (2 ^ 1024 : ℚ) 3 (scalarPair (.fin 0, .fin (1/2))) =
      .ok (List.replicate 3 (.fin 0), List.replicate 3 (.fin (1/2))) ∧
    mapBounds (2 ^ 1024 : ℚ) 3 (perAsset true (List.replicate 3 (.fin 0, .fin (1/2)))) =
      .ok (List.replicate 3 (.fin 0), List.replicate 3 (.fin (1/2))) ∧
    mapBounds (2 ^ 1024 : ℚ) 3 (arrayPair (List.replicate 3 (.fin 0, .fin (1/2)))) =
      .ok (List.replicate 3 (.fin 0), List.replicate 3 (.fin (1/2))) := ⟨rfl, rfl, rfl⟩

end Verif.Base
