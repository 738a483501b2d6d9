import Verif.Props.TailMethods
import Verif.Props.SolutionCases

/-! Cases for C46 to C48 and C61, and cases in which the reported risk is not the one optimised. -/

noncomputable section

namespace Verif.Convex
open Verif.Py Verif.Base Matrix

/-! ### Solutions exist -/

section exist
variable {n : ℕ} {U : Uni n} {S : Solver n} {D : Data n} {cfg : Cfg n}

/-- A best portfolio gives an optimum of the problem with variables. -/
theorem opt_of_rep {q : Ask n} {upar : ℕ → ℝ} {R : Asg n → Prop} {ρ : Asg n → ℝ} {f : (Fin n → ℝ) → ℝ} (hR : Rep R ρ f)
    {B : (Fin n → ℝ) → ℝ → ℝ} {Q : (Fin n → ℝ) → ℝ → Prop}
    (hb : ∀ s, q.base s = B s.w (ρ s)) (he : ∀ s, q.extra s ↔ Q s.w (ρ s) ∧ R s)
    (hB : ∀ w, Monotone (B w)) (hQ : ∀ w a b, a ≤ b → Q w b → Q w a) (hc : cfg.objs = [])
    {w : Fin n → ℝ} {usr : ℕ → ℝ}
    (h : Best U cfg upar q.mn (fun w => Q w (f w)) (fun w => B w (f w)) w usr) :
    ∃ s v, IsOpt (doc U cfg upar q) s v := by
  obtain ⟨lib, hl, e⟩ := hR.eq w usr
  have ob : ∀ s, (doc U cfg upar q).obj s = ((B s.w (ρ s) : ℝ) : EReal) := by
    intro s
    simp only [doc, hb, hc, List.map_nil, List.sum_nil, add_zero]
  refine ⟨⟨w, usr, lib⟩, B w (f w), ⟨h.adm.within, fun a ha => (holds_lib a _ _ _ _).1 (h.adm.cons a ha), h.adm.sum,
    (he _).2 ⟨by rw [e]; exact h.meets, hl⟩⟩, by rw [ob, e], fun s hs => ?_⟩
  obtain ⟨h1, h2, h3, h4⟩ := hs
  obtain ⟨hq, hr⟩ := (he s).1 h4
  have hle := hR.le s hr
  have := h.best s.w s.usr ⟨h1, fun a ha => (holds_lib a _ _ _ _).1 (h2 a ha), h3⟩ (hQ _ _ _ hle hq)
  simp only [total, hc, List.map_nil, List.sum_nil, add_zero, EReal.coe_le_coe_iff] at this
  rw [ob, ob, EReal.coe_le_coe_iff, e]
  exact this.trans (hB _ hle)

/-- If the documented problem has an optimum, an exact solver makes the call succeed. -/
theorem Passes.ok {c : Call n} {h : Heap n} {r : Except PyErr (Option (Fin n → ℝ)) × OState n × Heap n}
    (p : Passes U S D cfg c h r) (hS : Exact S)
    (ho : ∀ v q, ask D v c = some q → ∃ s x, IsOpt (doc U cfg h.upar q) s x) : ∃ w, r.1 = .ok (some w) := by
  obtain ⟨v, q, h1, h2, -⟩ := p
  obtain ⟨s, x, hx⟩ := ho v q h1
  obtain ⟨s', e, -⟩ := hS.sol h.log.length hx
  exact ⟨_, by rw [h2, e]; rfl⟩

end exist

/-! ### An example -/

variable {S : Solver 2}

/-- The returns of the example. -/
def tR : Fin 2 → Fin 2 → ℝ := ![![0.02, 0.01], ![-0.03, -0.01]]

/-- Two days, the first of gains of 2 and 1 percent, the second of losses of 3 and 1 percent; confidence level 1/2;
expected returns of 10 and 5 percent. -/
def tD (k : Kind) (b : ℝ) : Data 2 :=
  { kind := k, mu := some ![0.1, 0.05], cov := 0, symOk := true, pinv := 0, T := 2,
    R := tR, beta := 1 / 2, freq := 252, bench := b }

theorem tD_usable (k : Kind) (b : ℝ) : Usable exU (tD k b) where
  names _ := by simp [exU]
  scalar _ := rfl
  cons _ := ⟨nofun, nofun⟩
  mu _ := rfl
  tail _ := by norm_num [tD]

theorem ex_adm {n : ℕ} {upar : ℕ → ℝ} {w : Fin n → ℝ} {u : ℕ → ℝ} : Admissible exU exCfg upar false w u ↔
    (∀ i, 0 ≤ w i ∧ w i ≤ 1) ∧ ∑ i, w i = 1 :=
  ⟨fun h => ⟨exWithin.1 h.within, h.sum⟩, fun h => ⟨exWithin.2 h.1, by simp [exCfg], h.2⟩⟩

variable {b : ℝ} {w : Fin 2 → ℝ}

/-- The losses of a portfolio with share `a` in the first asset. -/
theorem tD_daily (hw : w 0 + w 1 = 1) : daily tR w = ![0.01 + 0.01 * w 0, -(0.01 + 0.02 * w 0)] := by
  have e : w 1 = 1 - w 0 := by linarith
  funext t
  fin_cases t <;> simp [daily, tR, dotProduct, Fin.sum_univ_two, e] <;> ring

theorem tailMean_two (L : Fin 2 → ℝ) (h : L 0 ≤ L 1) : tailMean ((1 - 1 / 2) * (2 : ℕ)) L = L 1 := by
  have hq : (0 : ℝ) < (1 - 1 / 2) * (2 : ℕ) := by norm_num
  have hT : (1 - 1 / 2 : ℝ) * (2 : ℕ) ≤ (2 : ℕ) := by norm_num
  refine le_antisymm ?_ ((tailMean_isGreatest hq hT).2 ⟨![0, 1], fun t => ?_, ?_, ?_⟩)
  · have := tailMean_le (L := L) hq hT (L 1) (u := fun _ => 0) (fun _ => le_rfl) (fun t => by
      fin_cases t <;> simp [h])
    simpa using this
  · fin_cases t <;> simp
  · norm_num
  · norm_num [Fin.sum_univ_two]

theorem tD_cvar (hw : w 0 + w 1 = 1) (h0 : 0 ≤ w 0) : portCvar (1 / 2) tR w = 0.01 + 0.02 * w 0 := by
  unfold portCvar
  rw [tD_daily hw]
  have := tailMean_two (fun t => -(![0.01 + 0.01 * w 0, -(0.01 + 0.02 * w 0)] : Fin 2 → ℝ) t) (by simp; linarith)
  refine this.trans ?_
  simp

theorem cum_two (r : Fin 2 → ℝ) : cum r 0 = 0 ∧ cum r 1 = r 0 ∧ cum r 2 = r 0 + r 1 := by
  have h1 := cum_succ (r := r) 0
  have h2 := cum_succ (r := r) 1
  refine ⟨cum_zero, ?_, ?_⟩
  · simpa [cum_zero] using h1
  · have : cum r 1 = r 0 := by simpa [cum_zero] using h1
    simpa [this] using h2

theorem tD_cdar (hw : w 0 + w 1 = 1) (h0 : 0 ≤ w 0) : portCdar (1 / 2) tR w = 0.01 + 0.02 * w 0 := by
  unfold portCdar
  have d1 : drawdown (daily tR w) 1 = 0 := by
    have := drawdown_succ (r := daily tR w) (0 : Fin 2)
    refine this.trans ?_
    show max 0 (drawdown _ 0 - _) = 0
    rw [drawdown_zero, tD_daily hw]
    simp
    linarith
  have d2 : drawdown (daily tR w) 2 = 0.01 + 0.02 * w 0 := by
    have := drawdown_succ (r := daily tR w) (1 : Fin 2)
    refine this.trans ?_
    show max 0 (drawdown _ 1 - _) = _
    rw [d1, tD_daily hw]
    simp
    linarith
  have := tailMean_two (fun t : Fin 2 => drawdown (daily tR w) (t + 1)) (by
    show drawdown _ 1 ≤ drawdown _ 2
    rw [d1, d2]; linarith)
  exact this.trans d2

theorem tD_semi (hw : w 0 + w 1 = 1) (h0 : 0 ≤ w 0) (hb : 0 ≤ b) (hb' : b ≤ 0.01) :
    semivar b (daily tR w) = (0.01 + 0.02 * w 0 + b) ^ 2 / 2 := by
  have e : semivar b (daily tR w) = (∑ t : Fin 2, min (daily tR w t - b) 0 ^ 2) / (2 : ℕ) := rfl
  rw [e, tD_daily hw, Fin.sum_univ_two]
  have e1 : min ((![0.01 + 0.01 * w 0, -(0.01 + 0.02 * w 0)] : Fin 2 → ℝ) 0 - b) 0 = 0 :=
    min_eq_right (by simp; linarith)
  have e2 : min ((![0.01 + 0.01 * w 0, -(0.01 + 0.02 * w 0)] : Fin 2 → ℝ) 1 - b) 0 = -(0.01 + 0.02 * w 0 + b) := by
    rw [min_eq_left (by simp; linarith)]; simp; ring
  rw [e1, e2]
  push_cast
  ring

/-- Best portfolios in the example for a risk `f` and target `t`. -/
def TBest (f : (Fin 2 → ℝ) → ℝ) (t : ℝ) (upar : ℕ → ℝ) : Prop :=
  Best exU exCfg upar false (fun _ => True) f ![0, 1] (fun _ => 0) ∧
  Best exU exCfg upar false (fun w => 0.075 ≤ w ⬝ᵥ ![0.1, 0.05]) f ![1 / 2, 1 / 2] (fun _ => 0) ∧
  Best exU exCfg upar false (fun w => f w ≤ t) (fun w => -(w ⬝ᵥ ![0.1, 0.05])) ![1 / 2, 1 / 2] (fun _ => 0)

/-- They are best if the risk increases with the share of the first asset. -/
theorem tD_best {f : (Fin 2 → ℝ) → ℝ} {g : ℝ → ℝ} (hg : ∀ x y, 0 ≤ x → x ≤ y → g x ≤ g y)
    (hf : ∀ w : Fin 2 → ℝ, w 0 + w 1 = 1 → 0 ≤ w 0 → f w = g (w 0)) (hs : ∀ x, 0 ≤ x → g x ≤ g (1 / 2) → x ≤ 1 / 2)
    (upar : ℕ → ℝ) : TBest f (g (1 / 2)) upar := by
  have tot : ∀ (f : (Fin 2 → ℝ) → ℝ) w usr, total exU exCfg upar f w usr = (f w : EReal) := by
    intro f w usr
    simp [total, exCfg]
  have a1 : Admissible exU exCfg upar false ![0, 1] (fun _ => 0) :=
    ex_adm.2 ⟨fun i => by fin_cases i <;> norm_num, by norm_num [Fin.sum_univ_two]⟩
  have a2 : Admissible exU exCfg upar false ![1 / 2, 1 / 2] (fun _ => 0) :=
    ex_adm.2 ⟨fun i => by fin_cases i <;> norm_num, by norm_num [Fin.sum_univ_two]⟩
  refine ⟨⟨a1, trivial, fun w' usr' ha _ => ?_⟩, ⟨a2, ?_, fun w' usr' ha hm => ?_⟩, ⟨a2, ?_, fun w' usr' ha hm => ?_⟩⟩
  · obtain ⟨h1, h2⟩ := ex_adm.1 ha
    rw [Fin.sum_univ_two] at h2
    rw [tot, tot, EReal.coe_le_coe_iff, hf _ (by norm_num) (by norm_num), hf w' h2 (h1 0).1]
    exact hg _ _ (by norm_num) (by simpa using (h1 0).1)
  · rw [ret_two]; norm_num
  · obtain ⟨h1, h2⟩ := ex_adm.1 ha
    rw [Fin.sum_univ_two] at h2
    rw [tot, tot, EReal.coe_le_coe_iff, hf _ (by norm_num) (by norm_num), hf w' h2 (h1 0).1]
    refine hg _ _ (by norm_num) ?_
    rw [ret_two] at hm
    norm_num at hm ⊢
    linarith
  · show f _ ≤ _
    rw [hf _ (by norm_num) (by norm_num)]
    simp
  · obtain ⟨h1, h2⟩ := ex_adm.1 ha
    rw [Fin.sum_univ_two] at h2
    rw [hf w' h2 (h1 0).1] at hm
    have := hs _ (h1 0).1 hm
    rw [tot, tot, EReal.coe_le_coe_iff, ret_two, ret_two]
    norm_num
    linarith

section runs
variable {W : World 2} {j : ℕ} {o : OState 2}

theorem tD_cvar_best (upar : ℕ → ℝ) : TBest (portCvar (1 / 2) tR) (0.01 + 0.02 * (1 / 2)) upar :=
  tD_best (f := portCvar (1 / 2) tR) (g := fun x => 0.01 + 0.02 * x)
  (fun x y _ h => by linarith) (fun w h h0 => tD_cvar h h0) (fun x _ h => by linarith) upar

theorem tD_cdar_best (upar : ℕ → ℝ) : TBest (portCdar (1 / 2) tR) (0.01 + 0.02 * (1 / 2)) upar :=
  tD_best (f := portCdar (1 / 2) tR) (g := fun x => 0.01 + 0.02 * x)
  (fun x y _ h => by linarith) (fun w h h0 => tD_cdar h h0) (fun x _ h => by linarith) upar

theorem tD_semi_best (hb : 0 ≤ b) (hb' : b ≤ 0.01) (upar : ℕ → ℝ) :
    TBest (fun w => semivar b (daily tR w)) ((0.01 + 0.02 * (1 / 2) + b) ^ 2 / 2) upar :=
  tD_best (f := fun w => semivar b (daily tR w)) (g := fun x => (0.01 + 0.02 * x + b) ^ 2 / 2)
  (fun x y h0 h => by
    have : (0.01 + 0.02 * x + b) ^ 2 ≤ (0.01 + 0.02 * y + b) ^ 2 :=
      pow_le_pow_left₀ (by linarith) (by linarith) 2
    linarith)
  (fun w h h0 => tD_semi h h0 hb hb')
  (fun x h0 h => by
    have h1 : (0.01 + 0.02 * x + b) ^ 2 ≤ (0.01 + 0.02 * (1 / 2) + b) ^ 2 := by linarith
    have := (pow_le_pow_iff_left₀ (by linarith) (by linarith) two_ne_zero).1 h1
    linarith) upar

theorem tD_min_cvar_runs (hS : Exact S) (hW : Reachable exU S (tD .cvar 0) W) (hj : W.objs[j]? = some (exCfg, o))
    (ho : o.opt = none) : ∃ w, (run exU S (tD .cvar 0) (.minCvar false) o W.heap).1 = .ok (some w) := by
  refine (C39_first_call_reaches (tD_usable _ _) hW hj ho (c := .minCvar false) rfl trivial nofun).ok hS
    fun v q hq => ?_
  cases hq
  exact opt_of_rep (rep_cvar (by norm_num [tD]) (by norm_num [tD]) (by norm_num [tD])) (B := fun _ r => r)
    (Q := fun _ _ => True) (fun _ => rfl) (fun s => ⟨fun h => ⟨trivial, h⟩, And.right⟩) (fun _ _ _ h => h)
    (fun _ _ _ _ _ => trivial) rfl (tD_cvar_best W.heap.upar).1

theorem tD_return_cvar_runs (hS : Exact S) (hW : Reachable exU S (tD .cvar 0) W) (hj : W.objs[j]? = some (exCfg, o))
    (ho : o.opt = none) :
    ∃ w, (run exU S (tD .cvar 0) (.efficientReturn true 0.075 false) o W.heap).1 = .ok (some w) := by
  refine (C39_first_call_reaches (tD_usable _ _) hW hj ho (c := .efficientReturn true 0.075 false) ⟨nofun, rfl⟩ trivial
    nofun).ok hS fun v q hq => ?_
  cases hq
  exact opt_of_rep (rep_cvar (by norm_num [tD]) (by norm_num [tD]) (by norm_num [tD])) (B := fun _ r => r)
    (Q := fun w _ => 0.075 ≤ w ⬝ᵥ ![0.1, 0.05]) (fun _ => rfl) (fun s => Iff.rfl) (fun _ _ _ h => h)
    (fun _ _ _ _ h => h) rfl (tD_cvar_best W.heap.upar).2.1

theorem tD_risk_cvar_runs (hS : Exact S) (hW : Reachable exU S (tD .cvar 0) W) (hj : W.objs[j]? = some (exCfg, o))
    (ho : o.opt = none) :
    ∃ w, (run exU S (tD .cvar 0) (.efficientRisk (0.01 + 0.02 * (1 / 2)) false) o W.heap).1 = .ok (some w) := by
  refine (C39_first_call_reaches (tD_usable _ _) hW hj ho (c := .efficientRisk (0.01 + 0.02 * (1 / 2)) false)
    ⟨nofun, rfl⟩ (by show (0 : ℝ) ≤ _; norm_num) nofun).ok hS fun v q hq => ?_
  cases hq
  exact opt_of_rep (rep_cvar (by norm_num [tD]) (by norm_num [tD]) (by norm_num [tD]))
    (B := fun w _ => -(w ⬝ᵥ ![0.1, 0.05])) (Q := fun _ r => r ≤ 0.01 + 0.02 * (1 / 2)) (fun _ => rfl)
    (fun s => Iff.rfl) (fun _ _ _ _ => le_rfl) (fun _ _ _ h h' => h.trans h') rfl (tD_cvar_best W.heap.upar).2.2

/-- C46 for `efficient_risk` in the example. -/
example (hS : Exact S) : ∃ w mu s usr r, (tD .cvar 0).mu = some mu ∧ Rounded w s ∧
    Best exU exCfg (exW : World 2).heap.upar false (fun w => portCvar (1 / 2) tR w ≤ 0.01 + 0.02 * (1 / 2))
      (fun w => -(w ⬝ᵥ mu)) s usr ∧ portCvar (1 / 2) tR s ≤ r ∧ r ≤ 0.01 + 0.02 * (1 / 2) := by
  obtain ⟨w, hw⟩ := tD_risk_cvar_runs hS exW_reachable exW_get exO_opt
  obtain ⟨mu, s, usr, r, h1, h2, h3, -, h4, h5⟩ := C46_efficient_risk_partial (tD_usable _ _) rfl (by norm_num [tD])
    (by norm_num [tD]) exW_reachable exW_get hw (hS.correct _ _)
  exact ⟨w, mu, s, usr, r, h1, h2, h3, h4, h5⟩

theorem tD_min_cdar_runs (hS : Exact S) (hW : Reachable exU S (tD .cdar 0) W) (hj : W.objs[j]? = some (exCfg, o))
    (ho : o.opt = none) : ∃ w, (run exU S (tD .cdar 0) (.minCdar false) o W.heap).1 = .ok (some w) := by
  refine (C39_first_call_reaches (tD_usable _ _) hW hj ho (c := .minCdar false) rfl trivial nofun).ok hS
    fun v q hq => ?_
  cases hq
  exact opt_of_rep (rep_cdar (by norm_num [tD]) (by norm_num [tD]) (by norm_num [tD])) (B := fun _ r => r)
    (Q := fun _ _ => True) (fun _ => rfl) (fun s => ⟨fun h => ⟨trivial, h⟩, And.right⟩) (fun _ _ _ h => h)
    (fun _ _ _ _ _ => trivial) rfl (tD_cdar_best W.heap.upar).1

/-- C47 for `min_cdar` in the example: the reported drawdown is 1 percent. -/
example (hS : Exact S) : ∃ w o' h',
    run exU S (tD .cdar 0) (.minCdar false) exO (exW : World 2).heap = (.ok (some w), o', h') ∧
    ∃ m, cdarPerformance (tD .cdar 0) o' h' = .ok (m, some 0.01) := by
  obtain ⟨w, hw⟩ := tD_min_cdar_runs hS exW_reachable exW_get exO_opt
  obtain ⟨s, usr, -, h3, h4⟩ := C47_min_cdar_partial (tD_usable _ _) rfl (by norm_num [tD])
    (by norm_num [tD]) rfl exW_reachable exW_get hw (hS.correct _ _)
  rcases hr : run exU S (tD .cdar 0) (.minCdar false) exO (exW : World 2).heap with ⟨r, o', h'⟩
  rw [hr] at hw h4
  cases hw
  refine ⟨w, o', h', rfl, w ⬝ᵥ ![0.1, 0.05], h4.trans ?_⟩
  obtain ⟨k1, k2⟩ := ex_adm.1 h3.adm
  rw [Fin.sum_univ_two] at k2
  have e : portCdar (tD .cdar 0).beta (tD .cdar 0).R s = 0.01 + 0.02 * s 0 := tD_cdar k2 (k1 0).1
  have := h3.best _ _ (tD_cdar_best (exW : World 2).heap.upar).1.adm trivial
  simp only [total, exCfg, List.map_nil, List.sum_nil, add_zero, EReal.coe_le_coe_iff] at this
  rw [e, show portCdar (tD .cdar 0).beta (tD .cdar 0).R ![0, 1] = _ from tD_cdar (by norm_num) (by norm_num)] at this
  rw [e]
  have h0 : s 0 = 0 := le_antisymm (by norm_num at this; linarith) (k1 0).1
  rw [h0]
  norm_num

theorem tD_min_semi_runs (hS : Exact S) (hb : 0 ≤ b) (hb' : b ≤ 0.01) (hW : Reachable exU S (tD .semi b) W)
    (hj : W.objs[j]? = some (exCfg, o)) (ho : o.opt = none) :
    ∃ w, (run exU S (tD .semi b) (.minSemi false) o W.heap).1 = .ok (some w) := by
  refine (C39_first_call_reaches (tD_usable _ _) hW hj ho (c := .minSemi false) rfl trivial nofun).ok hS
    fun v q hq => ?_
  cases hq
  exact opt_of_rep (rep_semi (D := tD .semi b) (by norm_num [tD]) v) (B := fun _ r => r)
    (Q := fun _ _ => True) (fun _ => rfl) (fun s => ⟨fun h => ⟨trivial, h⟩, And.right⟩) (fun _ _ _ h => h)
    (fun _ _ _ _ _ => trivial) rfl ((tD_semi_best hb hb' W.heap.upar).1.congr (fun _ _ => Iff.rfl) fun w hw =>
      (semi_same (D := tD .semi b) (mn := false) (.inl rfl) w hw).symm)

/-- C48 for `min_semivariance` in the example. -/
example (hS : Exact S) : ∃ w s usr, Rounded w s ∧
    Best exU exCfg (exW : World 2).heap.upar false (fun _ => True) (fun w => semidev 252 0.001 (daily tR w)) s usr := by
  obtain ⟨w, hw⟩ := tD_min_semi_runs (b := 0.001) hS (by norm_num) (by norm_num) exW_reachable exW_get exO_opt
  obtain ⟨s, usr, h1, -, h2, -⟩ := C48_min_semivariance_partial (tD_usable _ _) rfl (by norm_num [tD])
    exW_reachable exW_get (.inl rfl) hw (hS.correct _ _)
  exact ⟨w, s, usr, h1, h2 (by norm_num [tD]) rfl⟩

end runs

/-! ### Copies -/

theorem perf_mix {n : ℕ} {D : Data n} {o o' : OState n} {h h' : Heap n} {a a' : ℝ} {r r' : Option ℝ}
    (e : cvarPerformance D o h = .ok (a, r)) (e' : cvarPerformance D o' h' = .ok (a', r')) :
    cvarPerformance D o h' = .ok (a, r') := by
  unfold cvarPerformance at *
  cases h1 : perfReturn D o with
  | error x => rw [h1] at e; cases e
  | ok x =>
    cases h2 : perfReturn D o' with
    | error x => rw [h2] at e'; cases e'
    | ok x' =>
      cases h3 : perfCoef D with
      | error x => rw [h1, h3] at e; cases e
      | ok c =>
        rw [h1, h3] at e
        rw [h2, h3] at e'
        cases e
        cases e'
        rfl

/-- The example object with a copy. -/
def copyW : World 2 := ⟨[(exCfg, exO), (exCfg, deepcopy exO)], (exW : World 2).heap⟩

theorem copy_step {D : Data 2} : Step exU S D exW copyW := .copy (j := 0) exW_get

/-- **C61 is false of the code**: copies share the variables of the tail representation.  An object and its copy; the
object is optimised for least CVaR and reports 1 percent, then the copy for a higher return; now the first object
reports 2 percent although nothing has been done to it and its weights are the same. -/
theorem C61_copy_false (hS : Exact S) : ∃ w o₁ h₁ w' o₂ h₂,
    run exU S (tD .cvar 0) (.minCvar false) exO copyW.heap = (.ok (some w), o₁, h₁) ∧
    run exU S (tD .cvar 0) (.efficientReturn true 0.075 false) (deepcopy exO) h₁ = (.ok (some w'), o₂, h₂) ∧
    ∃ m, cvarPerformance (tD .cvar 0) o₁ h₁ = .ok (m, some 0.01) ∧
      cvarPerformance (tD .cvar 0) o₁ h₂ = .ok (m, some 0.02) := by
  have hW₁ : Reachable exU S (tD .cvar 0) copyW := exW_reachable.step copy_step
  obtain ⟨w, hw⟩ := tD_min_cvar_runs hS hW₁ (j := 0) (o := exO) rfl rfl
  obtain ⟨mu, s, usr, -, -, h3, h4⟩ := C46_min_cvar_partial (tD_usable _ _) rfl (by norm_num [tD])
    (by norm_num [tD]) hW₁ (j := 0) rfl hw (hS.correct _ _)
  have hW₂ := hW₁.step (Step.call (j := 0) rfl (.minCvar false))
  rcases hr : run exU S (tD .cvar 0) (.minCvar false) exO copyW.heap with ⟨r, o₁, h₁⟩
  rw [hr] at hw h4 hW₂
  cases hw
  obtain ⟨w', hw'⟩ := tD_return_cvar_runs hS hW₂ (j := 1) (o := deepcopy exO) rfl rfl
  obtain ⟨mu', s', usr', k1, -, k3, k4⟩ := C46_efficient_return_partial (tD_usable _ _) rfl (by norm_num [tD])
    (by norm_num [tD]) hW₂ (j := 1) rfl hw' (hS.correct _ _)
  cases k1
  rcases hq : run exU S (tD .cvar 0) (.efficientReturn true 0.075 false) (deepcopy exO) h₁ with ⟨r', o₂, h₂⟩
  dsimp only at hw' k3 k4 h4
  rw [hq] at hw' k4
  cases hw'
  dsimp only at k4
  refine ⟨w, o₁, h₁, w', o₂, h₂, rfl, hq, w ⬝ᵥ mu, h4.trans ?_, (perf_mix h4 k4).trans ?_⟩
  · obtain ⟨a1, a2⟩ := ex_adm.1 h3.adm
    rw [Fin.sum_univ_two] at a2
    have e : portCvar (tD .cvar 0).beta (tD .cvar 0).R s = 0.01 + 0.02 * s 0 := tD_cvar a2 (a1 0).1
    have := h3.best _ _ (tD_cvar_best copyW.heap.upar).1.adm trivial
    simp only [total, exCfg, List.map_nil, List.sum_nil, add_zero, EReal.coe_le_coe_iff] at this
    rw [e, show portCvar (tD .cvar 0).beta (tD .cvar 0).R ![0, 1] = _ from tD_cvar (by norm_num) (by norm_num)] at this
    have h0 : s 0 = 0 := le_antisymm (by norm_num at this; linarith) (a1 0).1
    rw [e, h0]
    norm_num
  · obtain ⟨a1, a2⟩ := ex_adm.1 k3.adm
    rw [Fin.sum_univ_two] at a2
    have e : portCvar (tD .cvar 0).beta (tD .cvar 0).R s' = 0.01 + 0.02 * s' 0 := tD_cvar a2 (a1 0).1
    have b2 := (tD_cvar_best h₁.upar).2.1
    have := k3.best _ _ b2.adm b2.meets
    simp only [total, exCfg, List.map_nil, List.sum_nil, add_zero, EReal.coe_le_coe_iff] at this
    rw [e, show portCvar (tD .cvar 0).beta (tD .cvar 0).R ![1 / 2, 1 / 2] = _ from
      tD_cvar (by norm_num) (by norm_num)] at this
    have m := k3.meets
    rw [ret_two] at m
    have h0 : s' 0 = 1 / 2 := by
      norm_num at this m
      refine le_antisymm ?_ ?_ <;> linarith
    rw [e, h0]
    norm_num

/-! ### Reported and optimised risk differ -/

/-- Without expected returns, which `EfficientCVaR` allows for `min_cvar`, `portfolio_performance` raises. -/
theorem C46_no_returns_false (hS : Exact S) : ∃ w o' h',
    run exU S { tD .cvar 0 with mu := none } (.minCvar false) exO (exW : World 2).heap = (.ok (some w), o', h') ∧
    cvarPerformance { tD .cvar 0 with mu := none } o' h' = .error .valueError := by
  obtain ⟨w, hw⟩ := tD_min_cvar_runs hS exW_reachable exW_get exO_opt
  have e : run exU S { tD .cvar 0 with mu := none } (.minCvar false) exO (exW : World 2).heap =
    run exU S (tD .cvar 0) (.minCvar false) exO (exW : World 2).heap := rfl
  obtain ⟨-, -, -, -, -, -, -, k⟩ := run_ends (c := .minCvar false) nofun nofun exO (exW : World 2).heap w hw
  rcases hr : run exU S (tD .cvar 0) (.minCvar false) exO (exW : World 2).heap with ⟨r, o', h'⟩
  rw [hr] at hw k
  cases hw
  refine ⟨w, o', h', by rw [e, hr], ?_⟩
  dsimp only at k
  simp only [cvarPerformance, perfReturn, k]
  rfl

/-- Data of a market-neutral example with benchmark 0.001: one day, both assets gain 1 percent. -/
def nD : Data 2 :=
  { kind := .semi, mu := some ![0.1, 0.05], cov := 0, symOk := true, pinv := 0, T := 1,
    R := fun _ _ => 0.01, beta := 0, freq := 252, bench := 0.001 }

theorem semi_usable {D : Data 2} (hk : D.kind = .semi) : Usable exU D where
  names _ := by simp [exU]
  scalar _ := rfl
  cons _ := ⟨nofun, nofun⟩
  mu h := by rw [hk] at h; cases h
  tail h := by rw [hk] at h; rcases h with h | h <;> cases h

theorem ex_neutral_adm {n : ℕ} {upar : ℕ → ℝ} {w : Fin n → ℝ} {u : ℕ → ℝ} : Admissible exU exCfg upar true w u ↔
    (∀ i, -1 ≤ w i ∧ w i ≤ 1) ∧ ∑ i, w i = 0 := by
  have hw : Within exCfg true w ↔ ∀ i, -1 ≤ w i ∧ w i ≤ 1 := by
    simp [Within, exCfg]
  exact ⟨fun h => ⟨hw.1 h.within, h.sum⟩, fun h => ⟨hw.2 h.1, by simp [exCfg], h.2⟩⟩

theorem Rounded.exact {n : ℕ} {w s : Fin n → ℝ} (h : Rounded w s) {k : Fin n → ℤ} (hk : ∀ i, (k i : ℝ) / 10 ^ 16 = s i) :
    w = s := by
  funext i
  have := (h i).2 (k i)
  rw [hk, sub_self, abs_zero] at this
  exact sub_eq_zero.1 (abs_nonpos_iff.1 this)

theorem nD_daily {w : Fin 2 → ℝ} (hw : ∑ i, w i = 0) : daily nD.R w = fun _ => 0 := by
  funext t
  rw [Fin.sum_univ_two] at hw
  simp [daily, nD, dotProduct, Fin.sum_univ_two]
  linarith

theorem nD_zero {w : Fin 2 → ℝ} (hw : ∑ i, w i = 0) : semivar (nD.bench * ∑ i, w i) (daily nD.R w) = 0 := by
  rw [nD_daily hw, hw]
  simp [semivar]

theorem nD_semidev {w : Fin 2 → ℝ} (hw : ∑ i, w i = 0) : 0.015 < semidev 252 0.001 (daily nD.R w) := by
  rw [nD_daily hw]
  have e : semivar (0.001 : ℝ) (fun _ : Fin 1 => (0 : ℝ)) = 0.001 ^ 2 := by
    simp only [semivar, Fin.sum_univ_one]
    rw [min_eq_left (by norm_num)]
    norm_num
  have e' : semidev 252 0.001 (fun _ : Fin 1 => (0 : ℝ)) = Real.sqrt (252 * 0.001 ^ 2) := by rw [semidev, e]
  refine lt_of_lt_of_eq ?_ e'.symm
  refine Real.lt_sqrt_of_sq_lt ?_
  norm_num

theorem nD_best (upar : ℕ → ℝ) :
    Best exU exCfg upar true (fun w => nD.freq * semivar (nD.bench * ∑ i, w i) (daily nD.R w) ≤ 0.01 ^ 2)
      (fun w => -(w ⬝ᵥ ![0.1, 0.05])) ![1, -1] (fun _ => 0) := by
  have a : Admissible exU exCfg upar true ![1, -1] (fun _ => 0) :=
    ex_neutral_adm.2 ⟨fun i => by fin_cases i <;> norm_num, by norm_num [Fin.sum_univ_two]⟩
  refine ⟨a, ?_, fun w' usr' ha _ => ?_⟩
  · rw [nD_zero a.sum]; norm_num
  · obtain ⟨h1, h2⟩ := ex_neutral_adm.1 ha
    rw [Fin.sum_univ_two] at h2
    have := (h1 0).2
    simp only [total, exCfg, List.map_nil, List.sum_nil, add_zero, EReal.coe_le_coe_iff]
    rw [ret_two, ret_two]
    norm_num
    linarith

/-- **C48 is false of the code** for market-neutral portfolios with a benchmark: `efficient_risk` returns a portfolio
although every market-neutral portfolio has a larger semideviation than the target, and `portfolio_performance`
reports a semideviation above the target. -/
theorem C48_neutral_risk_false (hS : Exact S) : ∃ w o' h',
    run exU S nD (.efficientRisk 0.01 true) exO (exW : World 2).heap = (.ok (some w), o', h') ∧
    (∀ w' usr, Admissible exU exCfg (exW : World 2).heap.upar true w' usr → 0.015 < semidev 252 0.001 (daily nD.R w')) ∧
    ∃ m x q, semiPerformance nD 0 o' = .ok (m, .fin x, q) ∧ 0.015 < x := by
  have hU : Usable exU nD := semi_usable rfl
  obtain ⟨w, hw⟩ := (C39_first_call_reaches hU (exW_reachable (S := S)) exW_get exO_opt (c := .efficientRisk 0.01 true)
    ⟨nofun, rfl⟩ trivial nofun).ok hS fun v q hq => by
      cases hq
      exact opt_of_rep (rep_semi (D := nD) one_ne_zero v) (B := fun w _ => -(w ⬝ᵥ ![0.1, 0.05]))
        (Q := fun _ r => nD.freq * r ≤ 0.01 ^ 2) (fun _ => rfl) (fun s => Iff.rfl) (fun _ _ _ _ => le_rfl)
        (fun _ _ _ h h' => (mul_le_mul_of_nonneg_left h (by norm_num [nD])).trans h') rfl (nD_best _)
  obtain ⟨v, q, s, x, hq, hr, ho, -, e2⟩ := solved_vals hU exW_reachable exW_get (c := .efficientRisk 0.01 true)
    nofun nofun nofun hw (hS.correct _ _)
  cases hq
  obtain ⟨k1, -, -, -⟩ := best_of_rep ho (rep_semi (D := nD) one_ne_zero v) (B := fun w _ => -(w ⬝ᵥ ![0.1, 0.05]))
    (Q := fun _ r => nD.freq * r ≤ 0.01 ^ 2) (fun _ => rfl) (fun s => Iff.rfl) (fun _ _ _ _ => le_rfl)
    (fun _ _ _ h h' => (mul_le_mul_of_nonneg_left h (by norm_num [nD])).trans h')
  have hb := nD_best (exW : World 2).heap.upar
  have h1 := k1.best _ _ hb.adm hb.meets
  simp only [total, exCfg, List.map_nil, List.sum_nil, add_zero, EReal.coe_le_coe_iff] at h1
  rw [ret_two, ret_two] at h1
  obtain ⟨a1, a2⟩ := ex_neutral_adm.1 k1.adm
  rw [Fin.sum_univ_two] at a2
  have s0 : s.w 0 = 1 := le_antisymm (a1 0).2 (by norm_num at h1; linarith)
  have s1 : s.w 1 = -1 := by linarith
  have hws : w = s.w := by
    rw [hr]
    refine (round16_rounded s.w).exact (k := ![10 ^ 16, -10 ^ 16]) fun i => ?_
    fin_cases i
    · norm_num [s0]
    · norm_num [s1]
  rcases hrun : run exU S nD (.efficientRisk 0.01 true) exO (exW : World 2).heap with ⟨r, o', h'⟩
  rw [hrun] at hw e2
  cases hw
  refine ⟨w, o', h', rfl, fun w' usr ha => nD_semidev ha.sum, _, _, _,
    semiPerf_eq (D := nD) (mu := ![0.1, 0.05]) one_ne_zero (by norm_num [nD]) rfl e2 0, ?_⟩
  refine nD_semidev ?_
  rw [hws, Fin.sum_univ_two]
  exact a2

/-- Data of a second market-neutral example: the first asset gains 2 percent, then loses 1; the other stays. -/
def mD : Data 2 :=
  { kind := .semi, mu := some ![0.1, 0.05], cov := 0, symOk := true, pinv := 0, T := 2,
    R := ![![0.02, 0], ![-0.01, 0]], beta := 0, freq := 252, bench := 0.001 }

theorem mD_daily (w : Fin 2 → ℝ) : daily mD.R w = ![0.02 * w 0, -(0.01 * w 0)] := by
  funext t
  fin_cases t <;> simp [daily, mD, dotProduct, Fin.sum_univ_two]

theorem mD_zero {w : Fin 2 → ℝ} (hw : ∑ i, w i = 0) :
    semivar (mD.bench * ∑ i, w i) (daily mD.R w) = (min (0.02 * w 0) 0 ^ 2 + min (-(0.01 * w 0)) 0 ^ 2) / 2 := by
  rw [hw, mul_zero, mD_daily]
  have e : ∀ r : Fin 2 → ℝ, semivar 0 r = (min (r 0) 0 ^ 2 + min (r 1) 0 ^ 2) / 2 := by
    intro r
    simp [semivar, Fin.sum_univ_two]
  exact e _

theorem mD_semidev (w : Fin 2 → ℝ) : semidev 252 0.001 (daily mD.R w) =
    Real.sqrt (252 * ((min (0.02 * w 0 - 0.001) 0 ^ 2 + min (-(0.01 * w 0) - 0.001) 0 ^ 2) / 2)) := by
  have e : ∀ r : Fin 2 → ℝ, semivar 0.001 r = (min (r 0 - 0.001) 0 ^ 2 + min (r 1 - 0.001) 0 ^ 2) / 2 := by
    intro r
    simp [semivar, Fin.sum_univ_two]
  have e' : ∀ r : Fin 2 → ℝ, semidev 252 0.001 r =
      Real.sqrt (252 * ((min (r 0 - 0.001) 0 ^ 2 + min (r 1 - 0.001) 0 ^ 2) / 2)) := fun r => by rw [semidev, e]
  rw [mD_daily]
  exact e' _

theorem mD_best (upar : ℕ → ℝ) :
    Best exU exCfg upar true (fun _ => True) (fun w => semivar (mD.bench * ∑ i, w i) (daily mD.R w)) ![0, 0]
      (fun _ => 0) := by
  have a : Admissible exU exCfg upar true ![0, 0] (fun _ => 0) :=
    ex_neutral_adm.2 ⟨fun i => by fin_cases i <;> norm_num, by norm_num [Fin.sum_univ_two]⟩
  refine ⟨a, trivial, fun w' usr' ha _ => ?_⟩
  simp only [total, exCfg, List.map_nil, List.sum_nil, add_zero, EReal.coe_le_coe_iff]
  rw [mD_zero a.sum, mD_zero ha.sum]
  simp
  positivity

/-- **C48 is false of the code** for market-neutral portfolios with a benchmark: `min_semivariance` returns the empty
portfolio, and another admissible portfolio has a smaller semideviation than the one reported. -/
theorem C48_neutral_min_false (hS : Exact S) : ∃ w o' h',
    run exU S mD (.minSemi true) exO (exW : World 2).heap = (.ok (some w), o', h') ∧
    Admissible exU exCfg (exW : World 2).heap.upar true ![0.02, -0.02] (fun _ => 0) ∧
    ∃ m x q, semiPerformance mD 0 o' = .ok (m, .fin x, q) ∧ semidev 252 0.001 (daily mD.R ![0.02, -0.02]) < x := by
  have hU : Usable exU mD := semi_usable rfl
  obtain ⟨w, hw⟩ := (C39_first_call_reaches hU (exW_reachable (S := S)) exW_get exO_opt (c := .minSemi true)
    rfl trivial nofun).ok hS fun v q hq => by
      cases hq
      exact opt_of_rep (rep_semi (D := mD) two_ne_zero v) (B := fun _ r => r)
        (Q := fun _ _ => True) (fun _ => rfl) (fun s => ⟨fun h => ⟨trivial, h⟩, And.right⟩) (fun _ _ _ h => h)
        (fun _ _ _ _ _ => trivial) rfl (mD_best _)
  obtain ⟨v, q, s, x, hq, hr, ho, -, e2⟩ := solved_vals hU exW_reachable exW_get (c := .minSemi true)
    nofun nofun nofun hw (hS.correct _ _)
  cases hq
  obtain ⟨k1, -, -, -⟩ := best_of_rep ho (rep_semi (D := mD) two_ne_zero v) (B := fun _ r => r)
    (Q := fun _ _ => True) (fun _ => rfl) (fun s => ⟨fun h => ⟨trivial, h⟩, And.right⟩) (fun _ _ _ h => h)
    (fun _ _ _ _ _ => trivial)
  have hb := mD_best (exW : World 2).heap.upar
  have h1 := k1.best _ _ hb.adm hb.meets
  simp only [total, exCfg, List.map_nil, List.sum_nil, add_zero, EReal.coe_le_coe_iff] at h1
  rw [mD_zero hb.adm.sum, mD_zero k1.adm.sum] at h1
  obtain ⟨a1, a2⟩ := ex_neutral_adm.1 k1.adm
  rw [Fin.sum_univ_two] at a2
  have s0 : s.w 0 = 0 := by
    by_contra hne
    have : 0 < (min (0.02 * s.w 0) 0 ^ 2 + min (-(0.01 * s.w 0)) 0 ^ 2) / 2 := by
      rcases lt_or_gt_of_ne hne with h | h
      · rw [min_eq_left (by linarith)]
        have := pow_pos (neg_pos.2 h) 2
        nlinarith [sq_nonneg (min (-(0.01 * s.w 0)) 0)]
      · rw [min_eq_left (b := (0 : ℝ)) (a := -(0.01 * s.w 0)) (by linarith)]
        have := pow_pos h 2
        nlinarith [sq_nonneg (min (0.02 * s.w 0) 0)]
    simp at h1 this
    linarith
  have s1 : s.w 1 = 0 := by linarith
  have hws : w = s.w := by
    rw [hr]
    refine (round16_rounded s.w).exact (k := ![0, 0]) fun i => ?_
    fin_cases i
    · simp [s0]
    · simp [s1]
  rcases hrun : run exU S mD (.minSemi true) exO (exW : World 2).heap with ⟨r, o', h'⟩
  rw [hrun] at hw e2
  cases hw
  refine ⟨w, o', h', rfl, ex_neutral_adm.2 ⟨fun i => by fin_cases i <;> norm_num, by norm_num [Fin.sum_univ_two]⟩, _, _, _,
    semiPerf_eq (D := mD) (mu := ![0.1, 0.05]) two_ne_zero (by norm_num [mD]) rfl e2 0, ?_⟩
  show semidev 252 0.001 (daily mD.R ![0.02, -0.02]) < semidev 252 0.001 (daily mD.R w)
  rw [mD_semidev, mD_semidev, hws, s0]
  refine Real.sqrt_lt_sqrt (by positivity) ?_
  have e1 : min (0.02 * (![0.02, -0.02] : Fin 2 → ℝ) 0 - 0.001) 0 = -0.0006 := by
    rw [min_eq_left] <;> norm_num
  have e2 : min (-(0.01 * (![0.02, -0.02] : Fin 2 → ℝ) 0) - 0.001) 0 = -0.0012 := by
    rw [min_eq_left] <;> norm_num
  have e3 : min (0.02 * (0 : ℝ) - 0.001) 0 = -0.001 := by rw [min_eq_left] <;> norm_num
  have e4 : min (-(0.01 * (0 : ℝ)) - 0.001) 0 = -0.001 := by rw [min_eq_left] <;> norm_num
  rw [e1, e2, e3, e4]
  norm_num

end Verif.Convex
