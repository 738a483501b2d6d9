import Verif.Model.Cla
import Mathlib.Algebra.Order.Field.Basic
import Mathlib.Algebra.BigOperators.Ring.Finset
import Mathlib.Algebra.BigOperators.RingEquiv
import Mathlib.Tactic.FieldSimp
import Mathlib.Tactic.Ring

/-! Two CLA problems whose data differ by the unit of returns, the unit of covariance and the field the numbers are taken
from: all steps of the algorithm correspond. -/

set_option linter.unusedSectionVars false

namespace Verif.Cla
open Verif.Py

variable {K L : Type} [Field K] [LinearOrder K] [IsStrictOrderedRing K] [Field L] [LinearOrder L] [IsStrictOrderedRing L]
variable {n : ℕ} {φ : K →+* L} {a c : L}

/-- `p'` is `p` read through `φ`, returns multiplied by `a` and covariances by `c`. -/
structure Rel (φ : K →+* L) (a c : L) (p : Problem n K) (p' : Problem n L) : Prop where
  mono : StrictMono φ
  apos : 0 < a
  cpos : 0 < c
  mean : ∀ i, p'.mean i = a * φ (p.mean i)
  cov : ∀ i j, p'.cov i j = c * φ (p.cov i j)
  lB : ∀ i, p'.lB i = φ (p.lB i)
  uB : ∀ i, p'.uB i = φ (p.uB i)
  store : ∀ x, p'.store (φ x) = φ (p.store x)

def lift (φ : K →+* L) (w : Fin n → K) : Fin n → L := fun i => φ (w i)

/-- A matrix multiplied by a number. -/
def times {m : ℕ} (φ : K →+* L) (x : L) (A : Matrix (Fin m) (Fin m) K) : Matrix (Fin m) (Fin m) L := fun i j => x * φ (A i j)

/-- The two inversion routines answer alike. -/
def InvRel (φ : K →+* L) (c : L) (inv : Inv K) (inv' : Inv L) : Prop :=
  ∀ m A, inv' m (times φ c A) = (inv m A).map (times φ c⁻¹)

section steps
variable {p : Problem n K} {p' : Problem n L} (R : Rel φ a c p p')
include R

theorem Rel.lt (x y : K) : φ x < φ y ↔ x < y := R.mono.lt_iff_lt
theorem Rel.le (x y : K) : φ x ≤ φ y ↔ x ≤ y := R.mono.le_iff_le
theorem Rel.inj (x y : K) : φ x = φ y ↔ x = y := R.mono.injective.eq_iff

theorem order_rel : order p' = order p := by
  have h1 : ∀ i j, p'.mean i < p'.mean j ↔ p.mean i < p.mean j := fun i j => by
    rw [R.mean, R.mean, mul_lt_mul_iff_right₀ R.apos, R.lt]
  have h2 : ∀ i j, p'.mean i = p'.mean j ↔ p.mean i = p.mean j := fun i j => by
    rw [R.mean, R.mean, mul_right_inj' R.apos.ne', R.inj]
  unfold order
  congr! 2
  funext j
  rw [h1, h2]

theorem sum_lift (w : Fin n → K) : ∑ i, lift φ w i = φ (∑ i, w i) := by
  rw [map_sum]; rfl

omit R in
theorem lift_update (w : Fin n → K) (j : Fin n) (x : K) :
    Function.update (lift φ w) j (φ x) = lift φ (Function.update w j x) := by
  funext i
  by_cases h : i = j
  · subst h; simp [lift]
  · simp [lift, h]

theorem initWalk_rel (vs : List (Fin n)) (w : Fin n → K) (cur : Option (Fin n)) :
    initWalk p' vs (lift φ w) cur = (initWalk p vs w cur).map (fun r => (r.1, lift φ r.2)) := by
  induction vs generalizing w cur with
  | nil =>
    unfold initWalk
    rw [sum_lift R]
    have : (φ (∑ i, w i) < 1) ↔ ∑ i, w i < 1 := by rw [← map_one φ, R.lt]
    by_cases h : ∑ i, w i < 1
    · rw [if_pos (this.2 h), if_pos h]; rfl
    · rw [if_neg (fun x => h (this.1 x)), if_neg h]
      cases cur with
      | none => rfl
      | some j =>
        simp only [Except.map]
        rw [← lift_update, ← R.store]
        simp [lift]
  | cons v vs ih =>
    unfold initWalk
    rw [sum_lift R]
    have : (φ (∑ i, w i) < 1) ↔ ∑ i, w i < 1 := by rw [← map_one φ, R.lt]
    by_cases h : ∑ i, w i < 1
    · rw [if_pos (this.2 h), if_pos h, ← ih, ← lift_update, ← R.store, ← R.uB]
    · rw [if_neg (fun x => h (this.1 x)), if_neg h]
      cases cur with
      | none => rfl
      | some j =>
        simp only [Except.map]
        rw [← lift_update, ← R.store]
        simp [lift]

theorem initAlgo_rel : initAlgo p' = (initAlgo p).map (fun r => (r.1, lift φ r.2)) := by
  unfold initAlgo
  rw [order_rel R, ← initWalk_rel R]
  congr 1
  funext i
  exact R.lB i

theorem covF_rel (f : List (Fin n)) : covF p' f = times φ c (covF p f) := by
  funext i j; exact R.cov _ _

omit R in
theorem apply_rel {m : ℕ} (x y : L) (A : Matrix (Fin m) (Fin m) K) (v : Fin m → K) (i : Fin m) :
    apply (times φ x A) (fun j => y * φ (v j)) i = x * y * φ (apply A v i) := by
  unfold apply times
  rw [map_sum, Finset.mul_sum]
  refine Finset.sum_congr rfl fun j _ => ?_
  rw [map_mul]; ring

omit R in
theorem onesDot_rel {m : ℕ} (x y : L) (A : Matrix (Fin m) (Fin m) K) (v : Fin m → K) :
    onesDot (times φ x A) (fun j => y * φ (v j)) = x * y * φ (onesDot A v) := by
  unfold onesDot times
  rw [map_sum, Finset.mul_sum]
  refine Finset.sum_congr rfl fun i _ => ?_
  rw [map_sum, Finset.mul_sum]
  refine Finset.sum_congr rfl fun j _ => ?_
  rw [map_mul]; ring

omit R in
theorem apply_one {m : ℕ} (x : L) (A : Matrix (Fin m) (Fin m) K) (i : Fin m) :
    apply (times φ x A) (fun _ => 1) i = x * φ (apply A (fun _ => 1) i) := by
  have := apply_rel (φ := φ) x 1 A (fun _ => 1) i
  simpa using this

omit R in
theorem onesDot_one {m : ℕ} (x : L) (A : Matrix (Fin m) (Fin m) K) :
    onesDot (times φ x A) (fun _ => 1) = x * φ (onesDot A (fun _ => 1)) := by
  have := onesDot_rel (φ := φ) x 1 A (fun _ => 1)
  simpa using this

omit R in
theorem map_list_sum' (l : List (Fin n)) (g : Fin n → K) (y : L) :
    (l.map (fun j => y * φ (g j))).sum = y * φ ((l.map g).sum) := by
  induction l with
  | nil => simp
  | cons x l ih => simp only [List.map_cons, List.sum_cons, ih, map_add]; ring

theorem crossTerm_rel (f : List (Fin n)) (wl : Fin n → K) (i : Fin f.length) :
    crossTerm p' f (lift φ wl) i = c * φ (crossTerm p f wl i) := by
  unfold crossTerm
  rw [← map_list_sum']
  congr 2
  funext j
  rw [R.cov, map_mul]
  unfold lift
  ring

omit R in
theorem boundSum_rel (f : List (Fin n)) (wl : Fin n → K) : ((getB f).map (lift φ wl)).sum = φ (((getB f).map wl).sum) := by
  have := map_list_sum' (φ := φ) (getB f) wl 1
  change ((getB f).map (fun j => φ (wl j))).sum = _
  simpa using this

theorem meanOf_rel (f : List (Fin n)) : meanOf p' f = fun i => a * φ (meanOf p f i) := by
  funext i; exact R.mean _

theorem computeW_rel (f : List (Fin n)) (F : Matrix (Fin f.length) (Fin f.length) K) (m : Fin f.length → K)
    (wl : Fin n → K) (l : K) :
    computeW p' f (times φ c⁻¹ F) (fun i => a * φ (m i)) (lift φ wl) (c / a * φ l) =
      ((fun i => φ ((computeW p f F m wl l).1 i)), c * φ (computeW p f F m wl l).2) := by
  have hc := R.cpos.ne'
  have ha := R.apos.ne'
  have hct : crossTerm p' f (lift φ wl) = fun i => c * φ (crossTerm p f wl i) := funext (crossTerm_rel R f wl)
  have hw1 : (if getB f = [] then fun _ => 0 else apply (times φ c⁻¹ F) (crossTerm p' f (lift φ wl))) =
      fun i => φ ((if getB f = [] then fun _ => 0 else apply F (crossTerm p f wl)) i) := by
    split
    · simp
    · funext i; rw [hct, apply_rel, inv_mul_cancel₀ hc, one_mul]
  have hg : (if getB f = [] then -(c / a * φ l) * onesDot (times φ c⁻¹ F) (fun i => a * φ (m i)) /
          onesDot (times φ c⁻¹ F) (fun _ => 1) + 1 / onesDot (times φ c⁻¹ F) (fun _ => 1)
      else -(c / a * φ l) * onesDot (times φ c⁻¹ F) (fun i => a * φ (m i)) / onesDot (times φ c⁻¹ F) (fun _ => 1) +
        (1 - ((getB f).map (lift φ wl)).sum + ∑ i, (if getB f = [] then fun _ => 0
          else apply (times φ c⁻¹ F) (crossTerm p' f (lift φ wl))) i) / onesDot (times φ c⁻¹ F) (fun _ => 1)) =
      c * φ (computeW p f F m wl l).2 := by
    rw [hw1, boundSum_rel, onesDot_rel, onesDot_one, ← map_sum]
    unfold computeW
    dsimp only
    split
    · simp only [map_add, map_div₀, map_mul, map_neg, map_one]
      by_cases h0 : φ (onesDot F fun _ => 1) = 0
      · simp [h0]
      · field_simp
    · simp only [map_add, map_div₀, map_mul, map_neg, map_one, map_sub]
      by_cases h0 : φ (onesDot F fun _ => 1) = 0
      · simp [h0]
      · field_simp
  refine Prod.ext ?_ hg
  funext i
  have e : (computeW p' f (times φ c⁻¹ F) (fun i => a * φ (m i)) (lift φ wl) (c / a * φ l)).1 i =
      -((if getB f = [] then fun _ => 0 else apply (times φ c⁻¹ F) (crossTerm p' f (lift φ wl))) i) +
        c * φ (computeW p f F m wl l).2 * apply (times φ c⁻¹ F) (fun _ => 1) i +
        c / a * φ l * apply (times φ c⁻¹ F) (fun i => a * φ (m i)) i := by rw [← hg]; rfl
  rw [e, hw1, apply_rel, apply_one]
  have e2 : (computeW p f F m wl l).1 i = -((if getB f = [] then fun _ => 0 else apply F (crossTerm p f wl)) i) +
      (computeW p f F m wl l).2 * apply F (fun _ => 1) i + l * apply F m i := rfl
  dsimp only
  rw [e2]
  simp only [map_add, map_mul, map_neg]
  field_simp

/-- A bound argument read through `φ`. -/
def BoundArg.map (φ : K →+* L) : BoundArg K → BoundArg L
  | .value x => .value (φ x)
  | .pair x y => .pair (φ x) (φ y)

theorem computeLambda_rel (f : List (Fin n)) (F : Matrix (Fin f.length) (Fin f.length) K) (m : Fin f.length → K)
    (wl : Fin n → K) (i : Fin f.length) (bi : BoundArg K) :
    computeLambda p' f (times φ c⁻¹ F) (fun i => a * φ (m i)) (lift φ wl) i (bi.map φ) =
      (computeLambda p f F m wl i bi).map (fun r => (c / a * φ r.1, φ r.2)) := by
  have hc := R.cpos.ne'
  have ha := R.apos.ne'
  have hct : crossTerm p' f (lift φ wl) = fun i => c * φ (crossTerm p f wl i) := funext (crossTerm_rel R f wl)
  have hl3 : apply (times φ c⁻¹ F) (crossTerm p' f (lift φ wl)) = fun i => φ (apply F (crossTerm p f wl) i) := by
    funext i; rw [hct, apply_rel, inv_mul_cancel₀ hc, one_mul]
  unfold computeLambda
  simp only [onesDot_one, onesDot_rel, apply_rel, apply_one, hl3, boundSum_rel, ← map_sum]
  set C : K := -onesDot F (fun _ => 1) * apply F m i + onesDot F m * apply F (fun _ => 1) i with hC
  have hC' : -(c⁻¹ * φ (onesDot F fun _ => 1)) * (c⁻¹ * a * φ (apply F m i)) +
      c⁻¹ * a * φ (onesDot F m) * (c⁻¹ * φ (apply F (fun _ => 1) i)) = a / c ^ 2 * φ C := by
    rw [hC]; simp only [map_add, map_mul, map_neg]; field_simp
  rw [hC']
  have hpos : 0 < a / c ^ 2 := div_pos R.apos (pow_pos R.cpos 2)
  have h0 : a / c ^ 2 * φ C = 0 ↔ C = 0 := by
    rw [mul_eq_zero, or_iff_right hpos.ne', map_eq_zero]
  by_cases hz : C = 0
  · rw [if_pos (h0.2 hz), if_pos hz]; rfl
  rw [if_neg (fun h => hz (h0.1 h)), if_neg hz]
  have hzφ : φ C ≠ 0 := fun h => hz ((map_eq_zero φ).1 h)
  have fin : ∀ b : K, (if getB f = [] then
        some ((c⁻¹ * φ (apply F (fun _ => 1) i) - c⁻¹ * φ (onesDot F fun _ => 1) * φ b) / (a / c ^ 2 * φ C), φ b)
      else some (((1 - φ ((getB f).map wl).sum + φ (∑ x, apply F (crossTerm p f wl) x)) * (c⁻¹ * φ (apply F (fun _ => 1) i)) -
          c⁻¹ * φ (onesDot F fun _ => 1) * (φ b + φ (apply F (crossTerm p f wl) i))) / (a / c ^ 2 * φ C), φ b)) =
      (if getB f = [] then some ((apply F (fun _ => 1) i - onesDot F (fun _ => 1) * b) / C, b)
      else some (((1 - ((getB f).map wl).sum + ∑ x, apply F (crossTerm p f wl) x) * apply F (fun _ => 1) i -
          onesDot F (fun _ => 1) * (b + apply F (crossTerm p f wl) i)) / C, b)).map fun r => (c / a * φ r.1, φ r.2) := by
    intro b
    split
    · simp only [Option.map_some, map_div₀, map_sub, map_mul]
      refine congrArg some (Prod.ext ?_ rfl)
      dsimp only
      field_simp
    · simp only [Option.map_some, map_div₀, map_sub, map_mul, map_add, map_one]
      refine congrArg some (Prod.ext ?_ rfl)
      dsimp only
      field_simp
  cases bi with
  | value x => exact fin x
  | pair lo up =>
    have hlt : 0 < a / c ^ 2 * φ C ↔ 0 < C := by rw [mul_pos_iff_of_pos_left hpos, ← map_zero φ, R.lt]
    simp only [BoundArg.map, hlt]
    have := fin (if 0 < C then up else lo)
    rw [apply_ite φ] at this
    exact this

theorem Rel.scale_lt (x y : K) : c / a * φ x < c / a * φ y ↔ x < y := by
  rw [mul_lt_mul_iff_right₀ (div_pos R.cpos R.apos), R.lt]

theorem infGt_rel (x y : Option K) :
    infGt (x.map fun l => c / a * φ l) (y.map fun l => c / a * φ l) = infGt x y := by
  cases x <;> cases y <;> simp [infGt, R.scale_lt]

theorem negOrNone_rel (x : Option K) : negOrNone (x.map fun l => c / a * φ l) = negOrNone x := by
  cases x with
  | none => rfl
  | some x =>
    simp only [Option.map_some, negOrNone, decide_eq_decide]
    have := R.scale_lt x 0
    simpa using this

theorem caseA_rel {inv : Inv K} {inv' : Inv L} (hi : InvRel φ c inv inv') (f : List (Fin n)) (wl : Fin n → K) :
    caseA p' inv' f (lift φ wl) =
      (caseA p inv f wl).map (Option.map fun r => (c / a * φ r.1, r.2.1, φ r.2.2)) := by
  unfold caseA
  split
  · rw [covF_rel R, hi]
    cases inv f.length (covF p f) with
    | error e => rfl
    | ok F =>
      simp only [Except.map, bind, Except.bind, pure, Except.pure]
      refine congrArg Except.ok ?_
      have key : ∀ (js : List (Fin f.length)) (best : Option (K × Fin n × K)),
          js.foldl (fun best j =>
            match computeLambda p' f (times φ c⁻¹ F) (meanOf p' f) (lift φ wl) j (.pair (p'.lB (f.get j)) (p'.uB (f.get j))) with
            | none => best
            | some (l, b) => if infGt (some l) (best.map (·.1)) then some (l, f.get j, b) else best)
            (best.map fun r => (c / a * φ r.1, r.2.1, φ r.2.2)) =
          (js.foldl (fun best j =>
            match computeLambda p f F (meanOf p f) wl j (.pair (p.lB (f.get j)) (p.uB (f.get j))) with
            | none => best
            | some (l, b) => if infGt (some l) (best.map (·.1)) then some (l, f.get j, b) else best) best).map
            fun r => (c / a * φ r.1, r.2.1, φ r.2.2) := by
        intro js
        induction js with
        | nil => intro _; rfl
        | cons j js ih =>
          intro best
          simp only [List.foldl_cons]
          rw [← ih]
          congr 1
          have e := computeLambda_rel R f F (meanOf p f) wl j (.pair (p.lB (f.get j)) (p.uB (f.get j)))
          have e2 : meanOf p' f = fun i => a * φ (meanOf p f i) := meanOf_rel R f
          rw [e2, R.lB, R.uB]
          rw [show BoundArg.pair (φ (p.lB (f.get j))) (φ (p.uB (f.get j))) =
            (BoundArg.pair (p.lB (f.get j)) (p.uB (f.get j))).map φ from rfl, e]
          cases computeLambda p f F (meanOf p f) wl j (.pair (p.lB (f.get j)) (p.uB (f.get j))) with
          | none => rfl
          | some r =>
            obtain ⟨l, b⟩ := r
            simp only [Option.map_some]
            have := infGt_rel R (some l) (best.map (·.1))
            simp only [Option.map_some, Option.map_map] at this
            simp only [Option.map_map, Function.comp_def] at this ⊢
            rw [this]
            split <;> rfl
      exact key _ none
  · rfl

theorem caseB_rel {inv : Inv K} {inv' : Inv L} (hi : InvRel φ c inv inv') (f : List (Fin n)) (wl : Fin n → K)
    (last : Option K) : caseB p' inv' f (lift φ wl) (last.map fun l => c / a * φ l) =
      (caseB p inv f wl last).map (Option.map fun r => (c / a * φ r.1, r.2)) := by
  unfold caseB
  split
  · have key : ∀ (js : List (Fin n)) (best : Option (K × Fin n)),
        js.foldlM (fun (best : Option (L × Fin n)) i => do
            let f' := f ++ [i]
            let Finv ← inv' f'.length (covF p' f')
            match computeLambda p' f' Finv (meanOf p' f') (lift φ wl) ⟨f.length, by simp [f']⟩ (.value (lift φ wl i)) with
            | none => (.error .typeError : Except PyErr _)
            | some (l, _) =>
              let below := match (last.map fun l => c / a * φ l) with | none => true | some x => decide (l < x)
              pure (if below && infGt (some l) (best.map Prod.fst) then some (l, i) else best))
            (best.map fun r => (c / a * φ r.1, r.2)) =
          (js.foldlM (fun (best : Option (K × Fin n)) i => do
            let f' := f ++ [i]
            let Finv ← inv f'.length (covF p f')
            match computeLambda p f' Finv (meanOf p f') wl ⟨f.length, by simp [f']⟩ (.value (wl i)) with
            | none => (.error .typeError : Except PyErr _)
            | some (l, _) =>
              let below := match last with | none => true | some x => decide (l < x)
              pure (if below && infGt (some l) (best.map Prod.fst) then some (l, i) else best)) best).map
            (Option.map fun r : K × Fin n => (c / a * φ r.1, r.2)) := by
      intro js
      induction js with
      | nil => intro _; rfl
      | cons i js ih =>
        intro best
        simp only [List.foldlM_cons]
        rw [covF_rel R, hi]
        cases inv (f ++ [i]).length (covF p (f ++ [i])) with
        | error e => rfl
        | ok F =>
          simp only [Except.map, bind, Except.bind, pure, Except.pure] at ih ⊢
          rw [meanOf_rel R, show (BoundArg.value (lift φ wl i)) = (BoundArg.value (wl i)).map φ from rfl,
            computeLambda_rel R]
          cases computeLambda p (f ++ [i]) F (meanOf p (f ++ [i])) wl ⟨f.length, by simp⟩ (.value (wl i)) with
          | none => rfl
          | some r =>
            obtain ⟨l, b⟩ := r
            simp only [Option.map_some]
            rw [← ih]
            congr 1
            have h1 := infGt_rel R (some l) (best.map (·.1))
            simp only [Option.map_some, Option.map_map, Function.comp_def] at h1 ⊢
            rw [h1]
            clear ih
            cases last with
            | none => simp only [Option.map_none]; rw [apply_ite (Option.map fun r : K × Fin n => (c / a * φ r.1, r.2))]; rfl
            | some x =>
              simp only [Option.map_some, R.scale_lt]
              rw [apply_ite (Option.map fun r : K × Fin n => (c / a * φ r.1, r.2))]
              rfl
    exact key _ none
  · rfl

theorem writeFree_rel (f : List (Fin n)) (wF : Fin f.length → K) (w : Fin n → K) :
    writeFree p' f (fun i => φ (wF i)) (lift φ w) = lift φ (writeFree p f wF w) := by
  unfold writeFree
  generalize List.finRange f.length = js
  induction js generalizing w with
  | nil => rfl
  | cons j js ih => simp only [List.foldl_cons]; rw [R.store, lift_update, ih]

theorem chooseLambda_rel (lin : Option (K × Fin n × K)) (lout : Option (K × Fin n)) (f : List (Fin n)) (w : Fin n → K) :
    chooseLambda p' (lin.map fun r => (c / a * φ r.1, r.2.1, φ r.2.2)) (lout.map fun r => (c / a * φ r.1, r.2)) f (lift φ w) =
      (c / a * φ (chooseLambda p lin lout f w).1, (chooseLambda p lin lout f w).2.1,
        lift φ (chooseLambda p lin lout f w).2.2) := by
  unfold chooseLambda
  have h1 := infGt_rel R (lin.map (·.1)) (lout.map (·.1))
  simp only [Option.map_map, Function.comp_def] at h1 ⊢
  rw [h1]
  split
  · cases lin with
    | none => simp
    | some r => obtain ⟨l, i, b⟩ := r; simp only [Option.map_some]; rw [R.store, lift_update]
  · cases lout with
    | none => simp
    | some r => rfl

/-- The result lists read through `φ`. -/
def State.lift (φ : K →+* L) (a c : L) (s : State n K) : State n L :=
  { w := s.w.map (Cla.lift φ), ls := s.ls.map (Option.map fun l => c / a * φ l),
    g := s.g.map (Option.map fun g => c * φ g), f := s.f }

theorem solveStep_rel {inv : Inv K} {inv' : Inv L} (hi : InvRel φ c inv inv') (s : State n K) (f : List (Fin n))
    (w : Fin n → K) : solveStep p' inv' (s.lift φ a c) f (lift φ w) =
      (solveStep p inv s f w).map fun r => (r.1.lift φ a c, r.2.1, lift φ r.2.2.1, r.2.2.2) := by
  unfold solveStep
  have hwl : (s.lift φ a c).w.getLast?.getD (lift φ w) = lift φ (s.w.getLast?.getD w) := by
    simp only [State.lift, List.getLast?_map]
    cases s.w.getLast? <;> rfl
  have hlast : (s.lift φ a c).ls.getLast?.join = (s.ls.getLast?.join).map fun l => c / a * φ l := by
    simp only [State.lift, List.getLast?_map]
    cases s.ls.getLast? <;> rfl
  simp only [hwl, hlast, caseA_rel R hi, caseB_rel R hi]
  cases caseA p inv f (s.w.getLast?.getD w) with
  | error e => rfl
  | ok lin =>
    cases caseB p inv f (s.w.getLast?.getD w) s.ls.getLast?.join with
    | error e => rfl
    | ok lout =>
      simp only [Except.map, bind, Except.bind]
      have h1 := negOrNone_rel R (lin.map (·.1))
      have h2 := negOrNone_rel R (lout.map (·.1))
      simp only [Option.map_map, Function.comp_def] at h1 h2 ⊢
      rw [h1, h2]
      split
      · rw [covF_rel R, hi]
        cases inv f.length (covF p f) with
        | error e => rfl
        | ok F =>
          simp only [Except.map, pure, Except.pure]
          have hw := computeW_rel R f F (fun _ => 0) (s.w.getLast?.getD w) 0
          simp only [map_zero, mul_zero] at hw
          rw [hw]
          simp only [writeFree_rel R]
          simp [State.lift]
      · rw [chooseLambda_rel R]
        obtain ⟨l, f', w0⟩ := chooseLambda p lin lout f w
        simp only
        rw [covF_rel R, hi]
        cases inv f'.length (covF p f') with
        | error e => rfl
        | ok F =>
          simp only [Except.map, pure, Except.pure]
          rw [meanOf_rel R, computeW_rel R]
          simp only [writeFree_rel R]
          have hz : (c / a * φ l = 0) ↔ l = 0 := by
            rw [mul_eq_zero, or_iff_right (div_pos R.cpos R.apos).ne', map_eq_zero]
          simp [State.lift, hz]

theorem solveLoop_rel {inv : Inv K} {inv' : Inv L} (hi : InvRel φ c inv inv') (fuel : ℕ) (s : State n K)
    (f : List (Fin n)) (w : Fin n → K) : solveLoop p' inv' fuel (s.lift φ a c) f (lift φ w) =
      (solveLoop p inv fuel s f w).map fun r => (r.1.lift φ a c, r.2) := by
  induction fuel generalizing s f w with
  | zero => rfl
  | succ k ih =>
    unfold solveLoop
    rw [solveStep_rel R hi]
    cases solveStep p inv s f w with
    | error e => rfl
    | ok r =>
      obtain ⟨s', f', w', d⟩ := r
      cases d with
      | true => rfl
      | false => exact ih s' f' w'

omit R in
theorem del_lift (s : State n K) (i : ℕ) : (s.lift φ a c).del i = (s.del i).lift φ a c := by
  simp [State.lift, State.del, List.eraseIdx_map]

theorem numErr_rel (tol : K) (w : Fin n → K) : numErr p' (φ tol) (lift φ w) = numErr p tol w := by
  have habs : ∀ x : K, |φ x| = φ |x| := fun x => by
    rcases le_total 0 x with h | h
    · rw [abs_of_nonneg h, abs_of_nonneg (by rw [← map_zero φ]; exact (R.le _ _).2 h)]
    · rw [abs_of_nonpos h, abs_of_nonpos (by rw [← map_zero φ]; exact (R.le _ _).2 h), map_neg]
  unfold numErr
  rw [sum_lift R, show φ (∑ i, w i) - 1 = φ (∑ i, w i - 1) by rw [map_sub, map_one], habs]
  congr 1
  · rw [decide_eq_decide]; exact R.lt _ _
  · rw [decide_eq_decide]
    refine exists_congr fun j => or_congr ?_ ?_
    · rw [R.lB, show lift φ w j - φ (p.lB j) = φ (w j - p.lB j) by rw [map_sub]; rfl, ← map_neg]; exact R.lt _ _
    · rw [R.uB, show lift φ w j - φ (p.uB j) = φ (w j - p.uB j) by rw [map_sub]; rfl]; exact R.lt _ _

theorem purgeNumErr_rel (tol : K) (fuel i : ℕ) (s : State n K) :
    purgeNumErr p' (φ tol) fuel i (s.lift φ a c) = (purgeNumErr p tol fuel i s).map (State.lift φ a c) := by
  induction fuel generalizing i s with
  | zero => rfl
  | succ k ih =>
    unfold purgeNumErr
    rw [show (s.lift φ a c).w[i]? = (s.w[i]?).map (lift φ) by simp [State.lift]]
    cases s.w[i]? with
    | none => rfl
    | some w =>
      simp only [Option.map_some]
      rw [numErr_rel R, del_lift, ih, ih]
      split <;> rfl

theorem ret_rel (w : Fin n → K) : ret p' (lift φ w) = a * φ (ret p w) := by
  unfold ret
  rw [map_sum, Finset.mul_sum]
  refine Finset.sum_congr rfl fun i _ => ?_
  rw [R.mean, map_mul]; unfold lift; ring

theorem variance_rel (w : Fin n → K) : variance p' (lift φ w) = c * φ (variance p w) := by
  unfold variance
  rw [map_sum, Finset.mul_sum]
  refine Finset.sum_congr rfl fun i _ => ?_
  rw [map_sum, Finset.mul_sum]
  refine Finset.sum_congr rfl fun j _ => ?_
  rw [R.cov, map_mul, map_mul]; unfold lift; ring

theorem purgeExcess_rel (fuel i : ℕ) (s : State n K) :
    purgeExcess p' fuel i (s.lift φ a c) = (purgeExcess p fuel i s).map fun r => (r.1.lift φ a c, r.2) := by
  induction fuel generalizing i s with
  | zero => rfl
  | succ k ih =>
    unfold purgeExcess
    rw [show (s.lift φ a c).w.length = s.w.length by simp [State.lift],
      show (s.lift φ a c).w[i]? = (s.w[i]?).map (lift φ) by simp [State.lift]]
    split
    · rfl
    cases s.w[i]? with
    | none => rfl
    | some w =>
      simp only [Option.map_some]
      have hl : laterLarger p' (ret p' (lift φ w)) ((s.lift φ a c).w.drop (i + 1)) =
          laterLarger p (ret p w) (s.w.drop (i + 1)) := by
        unfold laterLarger
        rw [show (s.lift φ a c).w.drop (i + 1) = (s.w.drop (i + 1)).map (lift φ) by simp [State.lift],
          List.any_map]
        congr 1
        funext x
        simp only [Function.comp, ret_rel R, decide_eq_decide]
        rw [mul_lt_mul_iff_right₀ R.apos, R.lt]
      rw [hl, del_lift, ih, ih]
      split <;> rfl

theorem solve_rel {inv : Inv K} {inv' : Inv L} (hi : InvRel φ c inv inv') (fuel : ℕ) (s : State n K) :
    solve p' inv' fuel (s.lift φ a c) = (solve p inv fuel s).map fun r => (r.1.lift φ a c, r.2) := by
  unfold solve
  rw [initAlgo_rel R]
  cases initAlgo p with
  | error e => rfl
  | ok r =>
    obtain ⟨f, w⟩ := r
    simp only [Except.map]
    have e : (⟨(s.lift φ a c).w ++ [lift φ w], (s.lift φ a c).ls ++ [none], (s.lift φ a c).g ++ [none],
        (s.lift φ a c).f ++ [f]⟩ : State n L) =
        State.lift φ a c ⟨s.w ++ [w], s.ls ++ [none], s.g ++ [none], s.f ++ [f]⟩ := by simp [State.lift]
    rw [e, solveLoop_rel R hi]
    cases solveLoop p inv fuel ⟨s.w ++ [w], s.ls ++ [none], s.g ++ [none], s.f ++ [f]⟩ f w with
    | none => rfl
    | some r =>
      obtain ⟨s2, r⟩ := r
      cases r with
      | error e => rfl
      | ok _ =>
        simp only [Option.map_some]
        rw [show (1 / 10 ^ 9 : L) = φ (1 / 10 ^ 9) by simp [map_ofNat], show (s2.lift φ a c).w.length = s2.w.length by simp [State.lift],
          purgeNumErr_rel R]
        cases purgeNumErr p (1 / 10 ^ 9) (s2.w.length + 1) 0 s2 with
        | none => rfl
        | some s3 =>
          simp only [Option.map_some]
          rw [show (s3.lift φ a c).w.length = s3.w.length by simp [State.lift], purgeExcess_rel R]

theorem ensureSolved_rel {inv : Inv K} {inv' : Inv L} (hi : InvRel φ c inv inv') (fuel : ℕ) (s : State n K) :
    ensureSolved p' inv' fuel (s.lift φ a c) = (ensureSolved p inv fuel s).map fun r => (r.1.lift φ a c, r.2) := by
  unfold ensureSolved
  rw [solve_rel R hi]
  simp only [show (s.lift φ a c).w = [] ↔ s.w = [] by simp [State.lift]]
  split <;> rfl

omit R in
/-- Picking the best commutes with a change of unit. -/
theorem pickBest_map {α β : Type} {better : K → K → Bool} {better' : L → L → Bool} {g : α → β} {u : K → L}
    (h : ∀ x y, better' (u x) (u y) = better x y) (l : List (α × K)) :
    pickBest better' (l.map fun r => (g r.1, u r.2)) = (pickBest better l).map g := by
  cases l with
  | nil => rfl
  | cons x l =>
    simp only [List.map_cons, pickBest, Except.map]
    refine congrArg Except.ok ?_
    induction l generalizing x with
    | nil => rfl
    | cons y l ih =>
      simp only [List.map_cons, List.foldl_cons]
      rw [h]
      cases better y.2 x.2
      · exact ih x
      · exact ih y

theorem minVolatility_rel {inv : Inv K} {inv' : Inv L} (hi : InvRel φ c inv inv') (fuel : ℕ) (s : State n K) :
    minVolatility p' inv' fuel (s.lift φ a c) =
      (minVolatility p inv fuel s).map fun r => (r.1.lift φ a c, r.2.map (lift φ)) := by
  unfold minVolatility
  rw [ensureSolved_rel R hi]
  cases ensureSolved p inv fuel s with
  | none => rfl
  | some r =>
    obtain ⟨s', r⟩ := r
    cases r with
    | error e => rfl
    | ok _ =>
      simp only [Option.map_some]
      refine congrArg some (Prod.ext rfl ?_)
      dsimp only
      rw [← pickBest_map (better' := fun a b : L => decide (a < b)) (u := fun x => c * φ x) (g := lift φ)]
      · congr 1
        simp [State.lift, variance_rel R, Function.comp_def]
      · intro x y
        rw [decide_eq_decide, mul_lt_mul_iff_right₀ R.cpos, R.lt]

theorem linspace_rel (k : ℕ) : (linspace01 k : List L) = (linspace01 k : List K).map φ := by
  unfold linspace01
  rw [List.map_map]
  refine List.map_congr_left fun j _ => ?_
  simp only [Function.comp]
  split <;> simp

theorem frontierPoints_rel (k : ℕ) (ws : List (Fin n → K)) :
    frontierPoints k (ws.map (lift φ)) = (frontierPoints k ws).map (lift φ) := by
  induction ws with
  | nil => rfl
  | cons w0 ws ih =>
    cases ws with
    | nil => rfl
    | cons w1 rest =>
      simp only [List.map_cons, frontierPoints] at ih ⊢
      rw [ih, List.map_append, List.map_map]
      have hg : (if rest.map (lift φ) = [] then linspace01 k else (linspace01 k).dropLast : List L) =
          (if rest = [] then linspace01 k else (linspace01 k).dropLast : List K).map φ := by
        rw [linspace_rel R]
        simp only [show rest.map (lift φ) = [] ↔ rest = [] by simp]
        split <;> simp [List.map_dropLast]
      rw [hg, List.map_map]
      congr 1
      refine List.map_congr_left fun j _ => ?_
      funext i
      simp [lift]

theorem efficientFrontier_rel {inv : Inv K} {inv' : Inv L} (hi : InvRel φ c inv inv') (fuel points : ℕ) (s : State n K) :
    efficientFrontier p' inv' fuel points (s.lift φ a c) =
      (efficientFrontier p inv fuel points s).map fun r => (r.1.lift φ a c, r.2.map (List.map (lift φ))) := by
  unfold efficientFrontier
  rw [ensureSolved_rel R hi]
  cases ensureSolved p inv fuel s with
  | none => rfl
  | some r =>
    obtain ⟨s', r⟩ := r
    cases r with
    | error e => rfl
    | ok _ =>
      simp only [Option.map_some, show (s'.lift φ a c).w = [] ↔ s'.w = [] by simp [State.lift]]
      split
      · rfl
      · refine congrArg some (Prod.ext rfl ?_)
        dsimp only
        rw [show (s'.lift φ a c).w = s'.w.map (lift φ) from rfl, List.length_map, frontierPoints_rel R]
        rfl

omit R in
theorem golden_rel (hm : StrictMono φ) {k : L} (hk : 0 < k) {f : K → K} {f' : L → L} (hf : ∀ x, f' (φ x) = k * φ (f x))
    (r : K) (m : ℕ) (x y x1 x2 f1 f2 : K) :
    golden (φ r) f' m (φ x) (φ y) (φ x1) (φ x2) (k * φ f1) (k * φ f2) =
      (φ (golden r f m x y x1 x2 f1 f2).1, k * φ (golden r f m x y x1 x2 f1 f2).2) := by
  have hlt : ∀ u v : K, k * φ u < k * φ v ↔ u < v := fun u v => by
    rw [mul_lt_mul_iff_right₀ hk, hm.lt_iff_lt]
  induction m generalizing x y x1 x2 f1 f2 with
  | zero =>
    unfold golden
    simp only [hlt]
    split <;> rfl
  | succ m ih =>
    unfold golden
    simp only [gt_iff_lt, hlt]
    have e1 : (1 - φ r) * φ x1 + φ r * φ y = φ ((1 - r) * x1 + r * y) := by simp
    have e2 : φ r * φ x + (1 - φ r) * φ x2 = φ (r * x + (1 - r) * x2) := by simp
    rw [e1, e2, hf, hf, ih, ih]
    split <;> rfl

omit R in
theorem goldenMax_rel (hm : StrictMono φ) {k : L} (hk : 0 < k) {f : K → K} {f' : L → L} (hf : ∀ x, f' (φ x) = k * φ (f x)) :
    goldenMax f' = (φ (goldenMax f).1, k * φ (goldenMax f).2) := by
  have hneg : ∀ x, (fun x => -f' x) (φ x) = k * φ ((fun x => -f x) x) := fun x => by
    simp only [hf, map_neg, mul_neg]
  have hr : (618033989 / 1000000000 : L) = φ (618033989 / 1000000000) := by simp [map_ofNat]
  have key := golden_rel (f := fun x => -f x) (f' := fun x => -f' x) hm hk hneg (618033989 / 1000000000) 44 0 1 (618033989 / 1000000000 * 0 + (1 - 618033989 / 1000000000) * 1)
    ((1 - 618033989 / 1000000000) * 0 + 618033989 / 1000000000 * 1)
    (-f (618033989 / 1000000000 * 0 + (1 - 618033989 / 1000000000) * 1))
    (-f ((1 - 618033989 / 1000000000) * 0 + 618033989 / 1000000000 * 1))
  have e1 : (618033989 / 1000000000 * 0 + (1 - 618033989 / 1000000000) * 1 : L) =
      φ (618033989 / 1000000000 * 0 + (1 - 618033989 / 1000000000) * 1) := by simp [map_ofNat]
  have e2 : ((1 - 618033989 / 1000000000) * 0 + 618033989 / 1000000000 * 1 : L) =
      φ ((1 - 618033989 / 1000000000) * 0 + 618033989 / 1000000000 * 1) := by simp [map_ofNat]
  unfold goldenMax
  simp only
  rw [e1, e2, hf, hf, hr]
  simp only [map_zero, map_one, map_neg, mul_neg] at key
  rw [key]
  simp

omit R in
theorem lift_mix (x : K) (w0 w1 : Fin n → K) : mix (φ x) (lift φ w0) (lift φ w1) = lift φ (mix x w0 w1) := by
  funext i; simp [mix, lift]

omit R in
theorem srCandidates_rel (hm : StrictMono φ) {k : L} (hk : 0 < k) {sharpe : (Fin n → K) → K} {sharpe' : (Fin n → L) → L}
    (hs : ∀ w, sharpe' (lift φ w) = k * φ (sharpe w)) (ws : List (Fin n → K)) :
    srCandidates sharpe' (ws.map (lift φ)) = (srCandidates sharpe ws).map fun r => (lift φ r.1, k * φ r.2) := by
  induction ws with
  | nil => rfl
  | cons w0 ws ih =>
    cases ws with
    | nil => rfl
    | cons w1 rest =>
      simp only [List.map_cons, srCandidates] at ih ⊢
      rw [ih, goldenMax_rel hm hk (f := fun x => sharpe (mix x w0 w1)) (fun x => by rw [lift_mix, hs])]
      simp [lift_mix]

theorem maxSharpe_rel {inv : Inv K} {inv' : Inv L} (hi : InvRel φ c inv inv') {k : L} (hk : 0 < k)
    {sharpe : (Fin n → K) → K} {sharpe' : (Fin n → L) → L} (hs : ∀ w, sharpe' (lift φ w) = k * φ (sharpe w))
    (fuel : ℕ) (s : State n K) : maxSharpe p' inv' sharpe' fuel (s.lift φ a c) =
      (maxSharpe p inv sharpe fuel s).map fun r => (r.1.lift φ a c, r.2.map (lift φ)) := by
  unfold maxSharpe
  rw [ensureSolved_rel R hi]
  cases ensureSolved p inv fuel s with
  | none => rfl
  | some r =>
    obtain ⟨s', r⟩ := r
    cases r with
    | error e => rfl
    | ok _ =>
      simp only [Option.map_some]
      refine congrArg some (Prod.ext rfl ?_)
      dsimp only
      rw [show (s'.lift φ a c).w = s'.w.map (lift φ) from rfl, srCandidates_rel R.mono hk hs]
      refine pickBest_map (better := fun a b : K => decide (a > b)) (better' := fun a b : L => decide (a > b))
        (u := fun x => k * φ x) (g := lift φ) (fun x y => ?_) _
      rw [decide_eq_decide, gt_iff_lt, mul_lt_mul_iff_right₀ hk, R.lt]

end steps

end Verif.Cla
