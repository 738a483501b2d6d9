import Verif.Proof.ConvexTriple

/-! Each optimisation method, on any object satisfying the invariant. -/

noncomputable section

namespace Verif.Convex
open Verif.Py Verif.Base Matrix

variable {n : ℕ} {U : Uni n} {S : Solver n} {D : Data n} {cfg : Cfg n} {o : OState n} {h : Heap n}

theorem massoc {α β γ : Type} (x : M n α) (f : α → M n β) (k : β → M n γ) :
    x >>= f >>= k = x >>= fun a => f a >>= k := by
  funext o h
  simp only [bind_run]
  rcases x o h with ⟨r, o', h'⟩
  cases r <;> rfl

theorem err_post (g : Good U D cfg o h) (c : Call n) (e : PyErr) : MPost U S D cfg c o h (.error e, o, h) :=
  ⟨g, le_rfl, .inl ⟨e, rfl, rfl⟩, fun _ hl => absurd rfl hl, fun ho _ => ho⟩

/-- A method that does not look for a parameter. -/
theorem once_post (g : Good U D cfg o h) (c : Call n) {build : M n Unit} (hq : Quiet build)
    (hr : Raises build)
    (ht : Tri U cfg h (Mid U cfg h (ix₀ h)) build (fun _ => Fit U D cfg h c)) :
    MPost U S D cfg c o h ((build >>= fun _ => solve S) o h) := by
  rcases g with ⟨b, hob⟩ | ⟨p, s⟩
  · exact build_post ht (mid₀ b hob)
  · have ho : o.opt ≠ none := by rw [s.opt]; exact nofun
    have e := hq o h ho
    obtain ⟨e', he'⟩ := hr o h ho
    rcases hb : build o h with ⟨r, o', h'⟩
    rw [hb] at e he'
    dsimp only at he'
    subst he'
    rw [bind_err hb]
    exact ⟨.inr ⟨p, s.same e⟩, e.nextId, .inl ⟨e', rfl, e.log⟩, fun _ hl => absurd e.log hl, fun hn => absurd hn ho⟩

/-- A target method. -/
theorem target_post (hU : Usable U D) (g : Good U D cfg o h) {c : Call n} {nm : String}
    (hc : pname D.kind c = some nm) {mn : Bool} (hm : mn = mnOf c) {v : ℝ} (hv : v = parVal D c)
    {build : M n Unit} (hq : Quiet build) (hr : Raises build)
    (ht : Tri U cfg h (Mid U cfg h (ix₀ h)) build (fun _ => Fit U D cfg h c)) :
    MPost U S D cfg c o h (withParameter S nm mn v build o h) := by
  subst hm hv
  rcases g with ⟨b, hob⟩ | ⟨p, s⟩
  · rw [withParameter_clean hU b hob (pname_mem hc)]
    exact build_post ht (mid₀ b hob)
  · exact withParameter_solved s hc hq hr

theorem obClean_none : obClean (n := n) none := nofun

theorem obClean_some (b : Bool) (f : Env n → EReal) : obClean (some (b, [], f)) := by
  rintro x ⟨⟩; rfl

theorem libPars_par (nm : String) (nn : Bool) (a : ℕ) (h : nm ∈ libNames) :
    libPars [⟨nm, nn, .lib a⟩] = [⟨nm, nn, .lib a⟩] := by
  unfold libPars
  simp [h]

theorem pieceSat_cons (x : Piece n) (l : List (Piece n)) (e : Env n) :
    pieceSat (x :: l) e ↔ (x.1.sat e ∧ x.2 e) ∧ pieceSat l e := by
  simp [pieceSat]

theorem pieceSat_nil (e : Env n) : pieceSat [] e ↔ True := by simp [pieceSat]

theorem ret_false (w mu : Fin n → ℝ) : Obj.ret w mu false = w ⬝ᵥ mu := by simp [Obj.ret, Obj.sign]

theorem ret_true (w mu : Fin n → ℝ) : Obj.ret w mu true = -(w ⬝ᵥ mu) := by simp [Obj.ret, Obj.sign]

theorem variance_eq (w : Fin n → ℝ) (c : Matrix (Fin n) (Fin n) ℝ) : Obj.variance w c = w ⬝ᵥ c *ᵥ w := rfl

theorem scalar_sat (f g : Asg n → ℝ) (e : Env n) :
    (ConBody.ineq 1 (scalar f) (scalar g)).sat e ↔ f e.asg ≤ g e.asg := by
  simp [ConBody.sat, scalar, real]

theorem scalar_par_sat (f : Asg n → ℝ) (nm : String) (nn : Bool) (a : ℕ) (e : Env n) :
    (ConBody.ineq 1 (scalar f) (ofPar ⟨nm, nn, .lib a⟩)).sat e ↔ f e.asg ≤ e.lpar a := by
  simp [ConBody.sat, scalar, real, ofPar, Env.get]

theorem par_scalar_sat (f : Asg n → ℝ) (nm : String) (nn : Bool) (a : ℕ) (e : Env n) :
    (ConBody.ineq 1 (ofPar ⟨nm, nn, .lib a⟩) (scalar f)).sat e ↔ e.lpar a ≤ f e.asg := by
  simp [ConBody.sat, scalar, real, ofPar, Env.get]

theorem real_real_sat {m : ℕ} (f g : Asg n → Fin m → ℝ) (e : Env n) :
    (ConBody.ineq m (real f) (real g)).sat e ↔ ∀ t, f e.asg t ≤ g e.asg t := by
  simp [ConBody.sat, real]

theorem zero_real_sat {m : ℕ} (g : Asg n → Fin m → ℝ) (e : Env n) :
    (ConBody.ineq m (const (fun _ => 0)) (real g)).sat e ↔ ∀ t, 0 ≤ g e.asg t := by
  simp [ConBody.sat, real, const]

theorem real_zero_sat {m : ℕ} (g : Asg n → Fin m → ℝ) (e : Env n) :
    (ConBody.eq m (real g) (const (fun _ => 0))).sat e ↔ ∀ t, g e.asg t = 0 := by
  simp [ConBody.sat, real, const]

/-- `min_volatility` without the final solve. -/
def buildMinVol (D : Data n) : M n Unit := do
  let v ← varianceExpr D
  setObjective [] (fun e => (v e.asg : EReal))
  addAll
  addLib (sumCon 1)

theorem minVolatility_post (hU : Usable U D) (hk : D.kind = .ef) (g : Good U D cfg o h) :
    MPost U S D cfg .minVolatility o h (minVolatility S D o h) := by
  have e : minVolatility S D = (buildMinVol D >>= fun _ => solve S) := by
    unfold minVolatility buildMinVol; simp only [massoc]
  rw [e]
  refine once_post g _ ?_ ?_ ?_
  · exact .bind .varianceExpr fun _ => .bind (.setObjective _ _) fun _ => .bind .addAll fun _ => .addLib _ _
  · exact .right .varianceExpr fun _ => .right (.setObjective _ _) fun _ => .right .addAll fun _ => .addLib _ _
  · refine .bind (tri_variance rfl obClean_none) fun v hv => ?_
    subst hv
    refine .seq (tri_setObjective _ _) (.seq (tri_addAll hU rfl) ?_)
    refine tri_weaken (tri_sumOne hU rfl (by simp [ix₀])) fun _ o' h' d => ⟨_, _, _, _, _, _, ?_, d⟩
    refine ⟨fun _ => ⟨fun s => s.w ⬝ᵥ D.cov *ᵥ s.w, fun _ => True, false⟩,
      fun e => ⟨rfl, by simp [pieceSat, ix₀], rfl⟩, .inl ⟨rfl, rfl, 0, fun _ => ?_⟩⟩
    simp [ask, hk]

theorem maxUtility_post (hU : Usable U D) (hk : D.kind = .ef) (g : Good U D cfg o h) (r : ℝ) (mn : Bool) :
    MPost U S D cfg (.maxUtility r mn) o h (maxUtility S D r mn o h) := by
  unfold maxUtility
  by_cases hr : r ≤ 0
  · rw [if_pos hr]; exact err_post g _ _
  rw [if_neg hr]
  refine target_post (c := .maxUtility r mn) hU g (by simp [pname, hk]) rfl rfl ?_ ?_ ?_
  · exact .bind (.returnExpr _) fun _ => .bind .varianceExpr fun _ => .bind (.newPar _ _ _) fun _ =>
      .bind (.setObjective _ _) fun _ => .bind .addAll fun _ => .makeWeightSum _
  · exact .right (.returnExpr _) fun _ => .right .varianceExpr fun _ => .right (.newPar _ _ _) fun _ =>
      .right (.setObjective _ _) fun _ => .right .addAll fun _ => .makeWeightSum _
  · refine .bind (tri_return _ rfl obClean_none) fun r' hr' => ?_
    obtain ⟨mu, hmu, rfl⟩ := hr'
    refine .bind (tri_variance rfl obClean_none) fun v hv => ?_
    subst hv
    refine .bind (tri_newPar _ _ _ (.inl ⟨rfl, obClean_none⟩)) fun p hp => ?_
    subst hp
    refine .seq (tri_setObjective _ _) (.seq (tri_addAll hU rfl) ?_)
    refine tri_weaken (tri_mws hU rfl (by simp [ix₀]) mn) fun _ o' h' d => ⟨_, _, _, _, _, _, ?_, d⟩
    refine ⟨fun l => ⟨fun s => -(s.w ⬝ᵥ mu - l h.nextPar / 2 * (s.w ⬝ᵥ D.cov *ᵥ s.w)), fun _ => True, mn⟩,
      fun e => ⟨congrArg Real.toEReal ?_, by simp [pieceSat, ix₀], rfl⟩,
      .inr ⟨0, "risk_aversion", true, h.nextPar, by simp [pname, hk], rfl, rfl, ?_, ?_, ?_⟩⟩
    · show -(Obj.ret e.asg.w mu false - 0.5 * e.lpar h.nextPar * Obj.variance e.asg.w D.cov) =
        -(e.asg.w ⬝ᵥ mu - e.lpar h.nextPar / 2 * _)
      rw [ret_false, variance_eq]
      ring
    · exact libPars_par "risk_aversion" _ _ (by decide)
    · exact Function.update_self _ _ _
    · intro l
      simp [fam, ask, hk, hmu]

theorem efficientRisk_post (hU : Usable U D) (hk : D.kind = .ef) (g : Good U D cfg o h) (t : ℝ) (mn : Bool) :
    MPost U S D cfg (.efficientRisk t mn) o h (efficientRisk S D t mn o h) := by
  unfold efficientRisk
  by_cases ht : t < 0
  · rw [if_pos ht]; exact err_post g _ _
  rw [if_neg ht]
  by_cases hg : numLt t (globalMinVol D)
  · simp only [if_pos hg]; exact err_post g _ _
  simp only [if_neg hg]
  refine target_post (c := .efficientRisk t mn) hU g (by simp [pname, hk]) rfl (by simp [parVal, hk]) ?_ ?_ ?_
  · exact .bind (.returnExpr _) fun _ => .bind (.setObjective _ _) fun _ => .bind .varianceExpr fun _ =>
      .bind .addAll fun _ => .bind (.newPar _ _ _) fun _ => .bind (.addLib _ _) fun _ => .makeWeightSum _
  · exact .right (.returnExpr _) fun _ => .right (.setObjective _ _) fun _ => .right .varianceExpr fun _ =>
      .right .addAll fun _ => .right (.newPar _ _ _) fun _ => .left (.addLib _ _)
  · refine .bind (tri_return _ rfl obClean_none) fun r' hr' => ?_
    obtain ⟨mu, hmu, rfl⟩ := hr'
    refine .seq (tri_setObjective _ _) ?_
    refine .bind (tri_variance rfl (obClean_some _ _)) fun v hv => ?_
    subst hv
    refine .seq (tri_addAll hU rfl) ?_
    refine .bind (tri_newPar _ _ _ (.inl ⟨rfl, obClean_some _ _⟩)) fun p hp => ?_
    subst hp
    refine .seq (tri_addLib _ _) ?_
    refine tri_weaken (tri_mws hU rfl (by simp [ix₀, proper_ineq]) mn) fun _ o' h' d => ⟨_, _, _, _, _, _, ?_, d⟩
    refine ⟨fun l => ⟨fun s => -(s.w ⬝ᵥ mu), fun s => s.w ⬝ᵥ D.cov *ᵥ s.w ≤ l h.nextPar, mn⟩,
      fun e => ⟨congrArg Real.toEReal (ret_true _ _), ?_, rfl⟩,
      .inr ⟨0, "target_variance", true, h.nextPar, by simp [pname, hk], rfl, rfl, ?_, ?_, ?_⟩⟩
    · simp only [ix₀, List.nil_append, pieceSat_cons, pieceSat_nil, scalar_par_sat, variance_eq, and_true]
    · exact libPars_par "target_variance" _ _ (by decide)
    · simp [ix₀, parVal, hk]
    · intro l
      simp [fam, hk, hmu]

/-! ### Tail classes -/

theorem tri_cvarCons {x : Ix n} {h₀ : Heap n} :
    Tri U cfg h₀ (Mid U cfg h₀ x) (cvarCons D) (fun _ => Mid U cfg h₀ { x with ex := x.ex ++
      [(.ineq D.T (const (fun _ => 0)) (real (fun s t => s.lib 1 t)), always)] ++
      [(.ineq D.T (const (fun _ => 0)) (real (fun s t => D.R t ⬝ᵥ s.w + s.lib 0 0 + s.lib 1 t)), always)] }) :=
  .seq (tri_addLib _ _) (tri_addLib _ _)

theorem cvarVars_iff (e : Env n) (q : List (Piece n)) :
    pieceSat ((.ineq D.T (const (fun _ => 0)) (real (fun s t => s.lib 1 t)), always) ::
      (.ineq D.T (const (fun _ => 0)) (real (fun s t => D.R t ⬝ᵥ s.w + s.lib 0 0 + s.lib 1 t)), always) :: q) e ↔
      CvarVars D e.asg ∧ pieceSat q e := by
  simp only [pieceSat_cons, zero_real_sat, always, and_true, CvarVars, forall_and, and_assoc]

theorem tri_cdarCons {x : Ix n} {h₀ : Heap n} :
    Tri U cfg h₀ (Mid U cfg h₀ x) (cdarCons D) (fun _ => Mid U cfg h₀ { x with ex := x.ex ++
      [(.ineq D.T (real (fun s t => s.lib 1 (t + 1) - s.lib 0 0)) (real (fun s t => s.lib 2 t)), always)] ++
      [(.ineq D.T (real (fun s t => s.lib 1 t - D.R t ⬝ᵥ s.w)) (real (fun s t => s.lib 1 (t + 1))), always)] ++
      [(.eq 1 (real (fun s _ => s.lib 1 0)) (const (fun _ => 0)), always)] ++
      [(.ineq D.T (const (fun _ => 0)) (real (fun s t => s.lib 2 t)), always)] ++
      [(.ineq D.T (const (fun _ => 0)) (real (fun s t => s.lib 1 (t + 1))), always)] }) :=
  .seq (tri_addLib _ _) (.seq (tri_addLib _ _) (.seq (tri_addLib _ _) (.seq (tri_addLib _ _) (tri_addLib _ _))))

theorem cdarVars_iff (e : Env n) (q : List (Piece n)) :
    pieceSat ((.ineq D.T (real (fun s t => s.lib 1 (t + 1) - s.lib 0 0)) (real (fun s t => s.lib 2 t)), always) ::
      (.ineq D.T (real (fun s t => s.lib 1 t - D.R t ⬝ᵥ s.w)) (real (fun s t => s.lib 1 (t + 1))), always) ::
      (.eq 1 (real (fun s _ => s.lib 1 0)) (const (fun _ => 0)), always) ::
      (.ineq D.T (const (fun _ => 0)) (real (fun s t => s.lib 2 t)), always) ::
      (.ineq D.T (const (fun _ => 0)) (real (fun s t => s.lib 1 (t + 1))), always) :: q) e ↔
      CdarVars D e.asg ∧ pieceSat q e := by
  simp only [pieceSat_cons, zero_real_sat, real_real_sat, real_zero_sat, always, and_true, CdarVars, forall_and,
    Fin.forall_fin_one]
  tauto

theorem properCvar : ∀ y ∈ ([(.ineq D.T (const (fun _ => 0)) (real (fun s t => s.lib 1 t)), always),
      (.ineq D.T (const (fun _ => 0)) (real (fun s t => D.R t ⬝ᵥ s.w + s.lib 0 0 + s.lib 1 t)), always)] :
      List (Piece n)), Proper y.1 := by
  simp [proper_ineq]

/-- `min_cvar` without the final solve. -/
def buildCvar (D : Data n) (mn : Bool) : M n Unit := do
  let v ← cvarExpr D
  setObjective [] (fun e => (v e.asg : EReal))
  addAll
  cvarCons D
  makeWeightSum mn

theorem minCvar_post (hU : Usable U D) (hk : D.kind = .cvar) (g : Good U D cfg o h) (mn : Bool) :
    MPost U S D cfg (.minCvar mn) o h (minCvar S D mn o h) := by
  have e : minCvar S D mn = (buildCvar D mn >>= fun _ => solve S) := by
    unfold minCvar buildCvar; simp only [massoc]
  rw [e]
  refine once_post g _ ?_ ?_ ?_
  · exact .bind .cvarExpr fun _ => .bind (.setObjective _ _) fun _ => .bind .addAll fun _ =>
      .bind .cvarCons fun _ => .makeWeightSum _
  · exact .right .cvarExpr fun _ => .right (.setObjective _ _) fun _ => .right .addAll fun _ => .left .cvarCons
  · refine .bind (tri_cvarExpr (hU.tail (.inl hk))) fun v hv => ?_
    subst hv
    refine .seq (tri_setObjective _ _) (.seq (tri_addAll hU rfl) (.seq tri_cvarCons ?_))
    refine tri_weaken (tri_mws hU rfl (by simp [ix₀, proper_ineq]) mn) fun _ o' h' d => ⟨_, _, _, _, _, _, ?_, d⟩
    refine ⟨fun _ => ⟨cvarOf D, CvarVars D, mn⟩, fun e => ⟨rfl, ?_, rfl⟩, .inl ⟨rfl, rfl, 0, fun _ => ?_⟩⟩
    · simp only [ix₀, List.nil_append, List.cons_append, cvarVars_iff, pieceSat_nil, and_true]
    · simp [ask, hk]

theorem cvarReturn_post (hU : Usable U D) (hk : D.kind = .cvar) (g : Good U D cfg o h) (f : Bool) (t : ℝ)
    (mn : Bool) : MPost U S D cfg (.efficientReturn f t mn) o h (cvarReturn S D t mn o h) := by
  unfold cvarReturn
  refine target_post (c := .efficientReturn f t mn) hU g (by simp [pname]) rfl rfl ?_ ?_ ?_
  · exact .bind .cvarExpr fun _ => .bind (.setObjective _ _) fun _ => .bind .addAll fun _ =>
      .bind .cvarCons fun _ => .bind .muTimesW fun _ => .bind (.newPar _ _ _) fun _ => .bind (.addLib _ _) fun _ =>
      .makeWeightSum _
  · exact .right .cvarExpr fun _ => .right (.setObjective _ _) fun _ => .right .addAll fun _ => .left .cvarCons
  · refine .bind (tri_cvarExpr (hU.tail (.inl hk))) fun v hv => ?_
    subst hv
    refine .seq (tri_setObjective _ _) (.seq (tri_addAll hU rfl) (.seq tri_cvarCons ?_))
    refine .bind (tri_muTimesW (.inr (hU.mu hk))) fun r hr => ?_
    obtain ⟨mu, hmu, rfl⟩ := hr
    refine .bind (tri_newPar _ _ _ (.inr (.inl rfl))) fun p hp => ?_
    subst hp
    refine .seq (tri_addLib _ _) ?_
    refine tri_weaken (tri_mws hU rfl (by simp [ix₀, proper_ineq]) mn) fun _ o' h' d => ⟨_, _, _, _, _, _, ?_, d⟩
    refine ⟨fun l => ⟨cvarOf D, fun s => l h.nextPar ≤ s.w ⬝ᵥ mu ∧ CvarVars D s, mn⟩, fun e => ⟨rfl, ?_, rfl⟩,
      .inr ⟨0, "target_return", false, h.nextPar, by simp [pname], by simp [nnOf, hk], rfl, ?_, ?_, ?_⟩⟩
    · simp only [ix₀, List.nil_append, List.cons_append, cvarVars_iff, pieceSat_cons (_, fun _ => True), pieceSat_nil,
        and_true, par_scalar_sat, dotProduct_comm mu]
      exact and_comm
    · exact libPars_par "target_return" _ _ (by decide)
    · simp [ix₀, parVal]
    · intro l
      simp [fam, ask, hk, hmu]

theorem cvarRisk_post (hU : Usable U D) (hk : D.kind = .cvar) (g : Good U D cfg o h) (t : ℝ)
    (mn : Bool) : MPost U S D cfg (.efficientRisk t mn) o h (cvarRisk S D t mn o h) := by
  unfold cvarRisk
  refine target_post (c := .efficientRisk t mn) hU g (by simp [pname, hk]) rfl (by simp [parVal, hk]) ?_ ?_ ?_
  · exact .bind (.returnExpr _) fun _ => .bind (.setObjective _ _) fun _ => .bind .addAll fun _ =>
      .bind .cvarExpr fun _ => .bind (.newPar _ _ _) fun _ => .bind (.addLib _ _) fun _ => .bind .cvarCons fun _ =>
      .makeWeightSum _
  · exact .right (.returnExpr _) fun _ => .right (.setObjective _ _) fun _ => .right .addAll fun _ =>
      .right .cvarExpr fun _ => .right (.newPar _ _ _) fun _ => .left (.addLib _ _)
  · refine .bind (tri_return _ rfl obClean_none) fun r' hr' => ?_
    obtain ⟨mu, hmu, rfl⟩ := hr'
    refine .seq (tri_setObjective _ _) (.seq (tri_addAll hU rfl) ?_)
    refine .bind (tri_cvarExpr (hU.tail (.inl hk))) fun v hv => ?_
    subst hv
    refine .bind (tri_newPar _ _ _ (.inl ⟨rfl, obClean_some _ _⟩)) fun p hp => ?_
    subst hp
    refine .seq (tri_addLib _ _) (.seq tri_cvarCons ?_)
    refine tri_weaken (tri_mws hU rfl (by simp [ix₀, proper_ineq]) mn) fun _ o' h' d => ⟨_, _, _, _, _, _, ?_, d⟩
    refine ⟨fun l => ⟨fun s => -(s.w ⬝ᵥ mu), fun s => cvarOf D s ≤ l h.nextPar ∧ CvarVars D s, mn⟩,
      fun e => ⟨congrArg Real.toEReal (ret_true _ _), ?_, rfl⟩,
      .inr ⟨0, "target_cvar", true, h.nextPar, by simp [pname, hk], rfl, rfl, ?_, ?_, ?_⟩⟩
    · simp only [ix₀, List.nil_append, List.cons_append, pieceSat_cons (_, fun _ => True), cvarVars_iff, pieceSat_nil,
        and_true, scalar_par_sat]
    · exact libPars_par "target_cvar" _ _ (by decide)
    · simp [ix₀, parVal, hk]
    · intro l
      simp [fam, ask, hk, hmu]

theorem minCdar_post (hU : Usable U D) (hk : D.kind = .cdar) (g : Good U D cfg o h) (mn : Bool) :
    MPost U S D cfg (.minCdar mn) o h (minCdar S D mn o h) := by
  unfold minCdar
  refine once_post g _ ?_ ?_ ?_
  · exact .bind .cdarExpr fun _ => .bind (.setObjective _ _) fun _ => .bind .addAll fun _ =>
      .bind .cdarCons fun _ => .makeWeightSum _
  · exact .right .cdarExpr fun _ => .right (.setObjective _ _) fun _ => .right .addAll fun _ => .left .cdarCons
  · refine .bind (tri_cdarExpr (hU.tail (.inr hk))) fun v hv => ?_
    subst hv
    refine .seq (tri_setObjective _ _) (.seq (tri_addAll hU rfl) (.seq tri_cdarCons ?_))
    refine tri_weaken (tri_mws hU rfl (by simp [ix₀, proper_ineq, proper_eq]) mn)
      fun _ o' h' d => ⟨_, _, _, _, _, _, ?_, d⟩
    refine ⟨fun _ => ⟨cdarOf D, CdarVars D, mn⟩, fun e => ⟨rfl, ?_, rfl⟩, .inl ⟨rfl, rfl, 0, fun _ => ?_⟩⟩
    · simp only [ix₀, List.nil_append, List.cons_append, cdarVars_iff, pieceSat_nil, and_true]
    · simp [ask, hk]

theorem cdarReturn_post (hU : Usable U D) (hk : D.kind = .cdar) (g : Good U D cfg o h) (f : Bool) (t : ℝ)
    (mn : Bool) : MPost U S D cfg (.efficientReturn f t mn) o h (cdarReturn S D t mn o h) := by
  unfold cdarReturn
  refine target_post (c := .efficientReturn f t mn) hU g (by simp [pname]) rfl rfl ?_ ?_ ?_
  · exact .bind .muTimesW fun _ => .bind (.newPar _ _ _) fun _ => .bind (.addLib _ _) fun _ =>
      .bind .cdarExpr fun _ => .bind (.setObjective _ _) fun _ => .bind .addAll fun _ =>
      .bind .cdarCons fun _ => .makeWeightSum _
  · exact .right .muTimesW fun _ => .right (.newPar _ _ _) fun _ => .left (.addLib _ _)
  · refine .bind (tri_muTimesW (.inl ⟨rfl, obClean_none⟩)) fun r hr => ?_
    obtain ⟨mu, hmu, rfl⟩ := hr
    refine .bind (tri_newPar _ _ _ (.inl ⟨rfl, obClean_none⟩)) fun p hp => ?_
    subst hp
    refine .seq (tri_addLib _ _) ?_
    refine .bind (tri_cdarExpr (hU.tail (.inr hk))) fun v hv => ?_
    subst hv
    refine .seq (tri_setObjective _ _) (.seq (tri_addAll hU rfl) (.seq tri_cdarCons ?_))
    refine tri_weaken (tri_mws hU rfl (by simp [ix₀, proper_ineq, proper_eq]) mn)
      fun _ o' h' d => ⟨_, _, _, _, _, _, ?_, d⟩
    refine ⟨fun l => ⟨cdarOf D, fun s => l h.nextPar ≤ s.w ⬝ᵥ mu ∧ CdarVars D s, mn⟩, fun e => ⟨rfl, ?_, rfl⟩,
      .inr ⟨0, "target_return", true, h.nextPar, by simp [pname], by simp [nnOf, hk], rfl, ?_, ?_, ?_⟩⟩
    · simp only [ix₀, List.nil_append, List.cons_append, pieceSat_cons (_, fun _ => True), cdarVars_iff,
        pieceSat_nil, and_true, par_scalar_sat, dotProduct_comm mu]
    · exact libPars_par "target_return" _ _ (by decide)
    · simp [ix₀, parVal]
    · intro l
      simp [fam, ask, hk, hmu]

theorem cdarRisk_post (hU : Usable U D) (hk : D.kind = .cdar) (g : Good U D cfg o h) (t : ℝ)
    (mn : Bool) : MPost U S D cfg (.efficientRisk t mn) o h (cdarRisk S D t mn o h) := by
  unfold cdarRisk
  refine target_post (c := .efficientRisk t mn) hU g (by simp [pname, hk]) rfl (by simp [parVal, hk]) ?_ ?_ ?_
  · exact .bind (.returnExpr _) fun _ => .bind (.setObjective _ _) fun _ => .bind .addAll fun _ =>
      .bind .cdarExpr fun _ => .bind (.newPar _ _ _) fun _ => .bind (.addLib _ _) fun _ => .bind .cdarCons fun _ =>
      .makeWeightSum _
  · exact .right (.returnExpr _) fun _ => .right (.setObjective _ _) fun _ => .right .addAll fun _ =>
      .right .cdarExpr fun _ => .right (.newPar _ _ _) fun _ => .left (.addLib _ _)
  · refine .bind (tri_return _ rfl obClean_none) fun r' hr' => ?_
    obtain ⟨mu, hmu, rfl⟩ := hr'
    refine .seq (tri_setObjective _ _) (.seq (tri_addAll hU rfl) ?_)
    refine .bind (tri_cdarExpr (hU.tail (.inr hk))) fun v hv => ?_
    subst hv
    refine .bind (tri_newPar _ _ _ (.inl ⟨rfl, obClean_some _ _⟩)) fun p hp => ?_
    subst hp
    refine .seq (tri_addLib _ _) (.seq tri_cdarCons ?_)
    refine tri_weaken (tri_mws hU rfl (by simp [ix₀, proper_ineq, proper_eq]) mn)
      fun _ o' h' d => ⟨_, _, _, _, _, _, ?_, d⟩
    refine ⟨fun l => ⟨fun s => -(s.w ⬝ᵥ mu), fun s => cdarOf D s ≤ l h.nextPar ∧ CdarVars D s, mn⟩,
      fun e => ⟨congrArg Real.toEReal (ret_true _ _), ?_, rfl⟩,
      .inr ⟨0, "target_cdar", true, h.nextPar, by simp [pname, hk], rfl, rfl, ?_, ?_, ?_⟩⟩
    · simp only [ix₀, List.nil_append, List.cons_append, pieceSat_cons (_, fun _ => True), cdarVars_iff, pieceSat_nil,
        and_true, scalar_par_sat]
    · exact libPars_par "target_cdar" _ _ (by decide)
    · simp [ix₀, parVal, hk]
    · intro l
      simp [fam, ask, hk, hmu]

/-! ### Semivariance -/

theorem semiVars_iff (v : ℕ) (e : Env n) (q : List (Piece n)) :
    pieceSat ((.eq D.T
      (real (fun s t => (∑ i, (D.R t i - D.bench) / Real.sqrt D.T * s.w i) - s.lib v t + s.lib (v + 1) t))
      (const (fun _ => 0)), fun e => ∀ t : Fin D.T, 0 ≤ e.asg.lib v t ∧ 0 ≤ e.asg.lib (v + 1) t) :: q) e ↔
      SemiVars D v e.asg ∧ pieceSat q e := by
  simp only [pieceSat_cons, real_zero_sat, SemiVars, forall_and]

theorem tri_semiCon {x : Ix n} {h₀ : Heap n} (v : ℕ) :
    Tri U cfg h₀ (Mid U cfg h₀ x) (semiCon D v (v + 1)) (fun _ => Mid U cfg h₀ { x with ex := x.ex ++
      [(.eq D.T
      (real (fun s t => (∑ i, (D.R t i - D.bench) / Real.sqrt D.T * s.w i) - s.lib v t + s.lib (v + 1) t))
      (const (fun _ => 0)), fun e => ∀ t : Fin D.T, 0 ≤ e.asg.lib v t ∧ 0 ≤ e.asg.lib (v + 1) t)] }) :=
  tri_addLib _ _

/-- `min_semivariance` without the final solve. -/
def buildSemi (D : Data n) (mn : Bool) : M n Unit := do
  let p ← freshVar
  let q ← freshVar
  setObjective [] (fun e => (sumSquares D q e.asg : EReal))
  addAll
  semiCon D p q
  makeWeightSum mn

theorem minSemi_post (hU : Usable U D) (hk : D.kind = .semi) (g : Good U D cfg o h) (mn : Bool) :
    MPost U S D cfg (.minSemi mn) o h (minSemi S D mn o h) := by
  have e : minSemi S D mn = (buildSemi D mn >>= fun _ => solve S) := by
    unfold minSemi buildSemi; simp only [massoc]
  rw [e]
  refine once_post g _ ?_ ?_ ?_
  · exact .bind .freshVar fun _ => .bind .freshVar fun _ => .bind (.setObjective _ _) fun _ => .bind .addAll fun _ =>
      .bind (.semiCon _ _) fun _ => .makeWeightSum _
  · exact .right .freshVar fun _ => .right .freshVar fun _ => .right (.setObjective _ _) fun _ =>
      .right .addAll fun _ => .left (.semiCon _ _)
  · refine .bind tri_freshVar fun p hp => ?_
    subst hp
    refine .bind tri_freshVar fun q hq => ?_
    subst hq
    refine .seq (tri_setObjective _ _) (.seq (tri_addAll hU rfl) (.seq (tri_semiCon _) ?_))
    refine tri_weaken (tri_mws hU rfl (by simp [ix₀, proper_eq]) mn) fun _ o' h' d => ⟨_, _, _, _, _, _, ?_, d⟩
    refine ⟨fun _ => ⟨semiOf D h.nextVar, SemiVars D h.nextVar, mn⟩, fun e => ⟨rfl, ?_, rfl⟩,
      .inl ⟨rfl, rfl, h.nextVar, fun _ => ?_⟩⟩
    · simp only [ix₀, List.nil_append, semiVars_iff, pieceSat_nil, and_true]
    · simp [ask, hk]

theorem semiUtility_post (hU : Usable U D) (hk : D.kind = .semi) (g : Good U D cfg o h) (r : ℝ) (mn : Bool) :
    MPost U S D cfg (.maxUtility r mn) o h (semiUtility S D r mn o h) := by
  unfold semiUtility
  by_cases hr : r ≤ 0
  · rw [if_pos hr]; exact err_post g _ _
  rw [if_neg hr]
  refine target_post (c := .maxUtility r mn) hU g (by simp [pname, hk]) rfl rfl ?_ ?_ ?_
  · exact .bind .freshVar fun _ => .bind .freshVar fun _ => .bind (.returnExpr _) fun _ =>
      .bind (.newPar _ _ _) fun _ => .bind (.setObjective _ _) fun _ => .bind .addAll fun _ =>
      .bind (.semiCon _ _) fun _ => .makeWeightSum _
  · exact .right .freshVar fun _ => .right .freshVar fun _ => .right (.returnExpr _) fun _ =>
      .right (.newPar _ _ _) fun _ => .right (.setObjective _ _) fun _ => .right .addAll fun _ => .left (.semiCon _ _)
  · refine .bind tri_freshVar fun p hp => ?_
    subst hp
    refine .bind tri_freshVar fun q hq => ?_
    subst hq
    refine .bind (tri_return _ rfl obClean_none) fun r' hr' => ?_
    obtain ⟨mu, hmu, rfl⟩ := hr'
    refine .bind (tri_newPar _ _ _ (.inl ⟨rfl, obClean_none⟩)) fun p hp => ?_
    subst hp
    refine .seq (tri_setObjective _ _) (.seq (tri_addAll hU rfl) (.seq (tri_semiCon _) ?_))
    refine tri_weaken (tri_mws hU rfl (by simp [ix₀, proper_eq]) mn) fun _ o' h' d => ⟨_, _, _, _, _, _, ?_, d⟩
    refine ⟨fun l => ⟨fun s => -(s.w ⬝ᵥ mu) / D.freq + l h.nextPar / 2 * semiOf D h.nextVar s,
        SemiVars D h.nextVar, mn⟩,
      fun e => ⟨congrArg Real.toEReal ?_, ?_, rfl⟩,
      .inr ⟨h.nextVar, "risk_aversion", true, h.nextPar, by simp [pname, hk], rfl, rfl, ?_, ?_, ?_⟩⟩
    · show Obj.ret e.asg.w mu true / D.freq + 0.5 * e.lpar h.nextPar * semiOf D h.nextVar e.asg =
        -(e.asg.w ⬝ᵥ mu) / D.freq + e.lpar h.nextPar / 2 * semiOf D h.nextVar e.asg
      rw [ret_true]
      ring
    · simp only [ix₀, List.nil_append, semiVars_iff, pieceSat_nil, and_true]
    · exact libPars_par "risk_aversion" _ _ (by decide)
    · exact Function.update_self _ _ _
    · intro l
      simp [fam, ask, hk, hmu]

theorem semiRisk_post (hU : Usable U D) (hk : D.kind = .semi) (g : Good U D cfg o h) (t : ℝ)
    (mn : Bool) : MPost U S D cfg (.efficientRisk t mn) o h (semiRisk S D t mn o h) := by
  unfold semiRisk
  refine target_post (c := .efficientRisk t mn) hU g (by simp [pname, hk]) rfl (by simp [parVal, hk]) ?_ ?_ ?_
  · exact .bind (.returnExpr _) fun _ => .bind (.setObjective _ _) fun _ => .bind .addAll fun _ =>
      .bind .freshVar fun _ => .bind .freshVar fun _ => .bind (.newPar _ _ _) fun _ => .bind (.addLib _ _) fun _ =>
      .bind (.semiCon _ _) fun _ => .makeWeightSum _
  · exact .right (.returnExpr _) fun _ => .right (.setObjective _ _) fun _ => .right .addAll fun _ =>
      .right .freshVar fun _ => .right .freshVar fun _ => .right (.newPar _ _ _) fun _ => .left (.addLib _ _)
  · refine .bind (tri_return _ rfl obClean_none) fun r' hr' => ?_
    obtain ⟨mu, hmu, rfl⟩ := hr'
    refine .seq (tri_setObjective _ _) (.seq (tri_addAll hU rfl) ?_)
    refine .bind tri_freshVar fun p hp => ?_
    subst hp
    refine .bind tri_freshVar fun q hq => ?_
    subst hq
    refine .bind (tri_newPar _ _ _ (.inl ⟨rfl, obClean_some _ _⟩)) fun p hp => ?_
    subst hp
    refine .seq (tri_addLib _ _) (.seq (tri_semiCon _) ?_)
    refine tri_weaken (tri_mws hU rfl (by simp [ix₀, proper_ineq, proper_eq]) mn)
      fun _ o' h' d => ⟨_, _, _, _, _, _, ?_, d⟩
    refine ⟨fun l => ⟨fun s => -(s.w ⬝ᵥ mu), fun s => D.freq * semiOf D h.nextVar s ≤ l h.nextPar ∧
        SemiVars D h.nextVar s, mn⟩,
      fun e => ⟨congrArg Real.toEReal (ret_true _ _), ?_, rfl⟩,
      .inr ⟨h.nextVar, "target_semivariance", true, h.nextPar, by simp [pname, hk], rfl, rfl, ?_, ?_, ?_⟩⟩
    · simp only [ix₀, List.nil_append, List.cons_append, pieceSat_cons (_, fun _ => True), semiVars_iff, pieceSat_nil,
        and_true, scalar_par_sat]
      rfl
    · exact libPars_par "target_semivariance" _ _ (by decide)
    · simp [ix₀, parVal, hk]
    · intro l
      simp [fam, hk, hmu]

theorem semiReturn_post (hU : Usable U D) (hk : D.kind = .semi) (g : Good U D cfg o h) (f : Bool) (t : ℝ)
    (mn : Bool) : MPost U S D cfg (.efficientReturn f t mn) o h (semiReturn S D f t mn o h) := by
  unfold semiReturn
  by_cases h1 : (!f) = true ∨ t < 0
  · rw [if_pos h1]; exact err_post g _ _
  rw [if_neg h1]
  cases hmu : D.mu with
  | none => exact err_post g _ _
  | some mu =>
  dsimp only
  by_cases h2 : ∀ i, |mu i| < t
  · simp only [if_pos h2]; exact err_post g _ _
  simp only [if_neg h2]
  refine target_post (c := .efficientReturn f t mn) hU g (by simp [pname]) rfl rfl ?_ ?_ ?_
  · exact .bind .freshVar fun _ => .bind .freshVar fun _ => .bind (.setObjective _ _) fun _ => .bind .addAll fun _ =>
      .bind (.newPar _ _ _) fun _ => .bind (.addLib _ _) fun _ => .bind (.semiCon _ _) fun _ => .makeWeightSum _
  · exact .right .freshVar fun _ => .right .freshVar fun _ => .right (.setObjective _ _) fun _ =>
      .right .addAll fun _ => .right (.newPar _ _ _) fun _ => .left (.addLib _ _)
  · refine .bind tri_freshVar fun p hp => ?_
    subst hp
    refine .bind tri_freshVar fun q hq => ?_
    subst hq
    refine .seq (tri_setObjective _ _) (.seq (tri_addAll hU rfl) ?_)
    refine .bind (tri_newPar _ _ _ (.inr (.inl rfl))) fun p hp => ?_
    subst hp
    refine .seq (tri_addLib _ _) (.seq (tri_semiCon _) ?_)
    refine tri_weaken (tri_mws hU rfl (by simp [ix₀, proper_ineq, proper_eq]) mn)
      fun _ o' h' d => ⟨_, _, _, _, _, _, ?_, d⟩
    refine ⟨fun l => ⟨semiOf D h.nextVar, fun s => l h.nextPar ≤ s.w ⬝ᵥ mu ∧ SemiVars D h.nextVar s, mn⟩,
      fun e => ⟨rfl, ?_, rfl⟩,
      .inr ⟨h.nextVar, "target_return", false, h.nextPar, by simp [pname], by simp [nnOf, hk], rfl, ?_, ?_, ?_⟩⟩
    · simp only [ix₀, List.nil_append, List.cons_append, pieceSat_cons (_, fun _ => True), semiVars_iff, pieceSat_nil,
        and_true, par_scalar_sat]
    · exact libPars_par "target_return" _ _ (by decide)
    · simp [ix₀, parVal]
    · intro l
      simp [fam, ask, hk, hmu]

/-! ### Target return -/

theorem efTarget_post (hU : Usable U D) (hk : D.kind = .ef) (g : Good U D cfg o h) (f : Bool) (t : ℝ)
    (mn : Bool) : MPost U S D cfg (.efficientReturn f t mn) o h
      (withParameter S "target_return" mn t (do
        let v ← varianceExpr D
        setObjective [] (fun e => (v e.asg : EReal))
        let r ← returnExpr D false
        addAll
        let p ← newPar "target_return" t false
        addLib (.ineq 1 (ofPar p) (scalar r))
        makeWeightSum mn) o h) := by
  refine target_post (c := .efficientReturn f t mn) hU g (by simp [pname]) rfl rfl ?_ ?_ ?_
  · exact .bind .varianceExpr fun _ => .bind (.setObjective _ _) fun _ => .bind (.returnExpr _) fun _ =>
      .bind .addAll fun _ => .bind (.newPar _ _ _) fun _ => .bind (.addLib _ _) fun _ => .makeWeightSum _
  · exact .right .varianceExpr fun _ => .right (.setObjective _ _) fun _ => .right (.returnExpr _) fun _ =>
      .right .addAll fun _ => .right (.newPar _ _ _) fun _ => .left (.addLib _ _)
  · refine .bind (tri_variance rfl obClean_none) fun v hv => ?_
    subst hv
    refine .seq (tri_setObjective _ _) ?_
    refine .bind (tri_return _ rfl (obClean_some _ _)) fun r' hr' => ?_
    obtain ⟨mu, hmu, rfl⟩ := hr'
    refine .seq (tri_addAll hU rfl) ?_
    refine .bind (tri_newPar _ _ _ (.inr (.inl rfl))) fun p hp => ?_
    subst hp
    refine .seq (tri_addLib _ _) ?_
    refine tri_weaken (tri_mws hU rfl (by simp [ix₀, proper_ineq]) mn) fun _ o' h' d => ⟨_, _, _, _, _, _, ?_, d⟩
    refine ⟨fun l => ⟨fun s => s.w ⬝ᵥ D.cov *ᵥ s.w, fun s => l h.nextPar ≤ s.w ⬝ᵥ mu, mn⟩,
      fun e => ⟨rfl, ?_, rfl⟩,
      .inr ⟨0, "target_return", false, h.nextPar, by simp [pname], by simp [nnOf, hk], rfl, ?_, ?_, ?_⟩⟩
    · simp only [ix₀, List.nil_append, pieceSat_cons, pieceSat_nil, par_scalar_sat, ret_false, and_true]
    · exact libPars_par "target_return" _ _ (by decide)
    · simp [ix₀, parVal]
    · intro l
      simp [fam, ask, hk, hmu]

end Verif.Convex
