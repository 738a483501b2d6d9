import Verif.Spec.Args
import Verif.Proof.Convex
import Mathlib.Data.List.Lex

/-! C90: a parameter is found wherever it stands, once. -/

namespace Verif.Convex
open Verif.Py

/-! ### The leaves of a tree -/

theorem flatten_one {α : Type} : ∀ l : List α, flatten (l.map .one) = l
  | [] => by rw [List.map_nil, flatten]
  | a :: l => by rw [List.map_cons, flatten, flattenOne, flatten_one l]; rfl

theorem flatten_each : ∀ l : List Node, flatten (getAllArgsEach l) = (l.map getAllArgs).flatten
  | [] => by rw [getAllArgsEach, flatten]; rfl
  | a :: l => by
    rw [getAllArgsEach, flatten, asNest, flattenOne, flatten_one, flatten_each l]
    rfl

theorem getAllArgs_op (a : Node) (l : List Node) :
    getAllArgs (.op (a :: l)) = ((a :: l).map getAllArgs).flatten := by
  rw [getAllArgs, ← flatten_each, getAllArgsEach]

mutual
/-- The places of the leaves. -/
def places : Node → List (List ℕ)
  | .param _ => [[]]
  | .leaf => [[]]
  | .op [] => [[]]
  | .op (a :: l) => (places a).map (0 :: ·) ++ placesFrom 1 l

/-- The places of the leaves below the arguments from number `k` on. -/
def placesFrom : ℕ → List Node → List (List ℕ)
  | _, [] => []
  | k, a :: l => (places a).map (k :: ·) ++ placesFrom (k + 1) l
end

theorem places_op (a : Node) (l : List Node) : places (.op (a :: l)) = placesFrom 0 (a :: l) := by
  rw [places, placesFrom]

theorem at_op (l : List Node) (i : ℕ) (p : List ℕ) : (Node.op l).at (i :: p) = (l[i]?).bind fun a => a.at p := by
  rw [Node.at]
  show (match l[i]? with | some a => a.at p | none => none) = _
  cases l[i]? <;> rfl

mutual
theorem places_val : ∀ e : Node, (getAllArgs e).map some = (places e).map e.at
  | .param _ => by rw [getAllArgs, places]; rfl
  | .leaf => by rw [getAllArgs, places]; rfl
  | .op [] => by rw [getAllArgs, places]; rfl
  | .op (a :: l) => by
    rw [getAllArgs_op, places_op]
    exact placesFrom_val (a :: l) []

theorem placesFrom_val : ∀ (l pre : List Node),
    ((l.map getAllArgs).flatten).map some = (placesFrom pre.length l).map (Node.op (pre ++ l)).at
  | [], _ => by rw [placesFrom]; rfl
  | a :: l, pre => by
    have ih := placesFrom_val l (pre ++ [a])
    rw [List.append_assoc, List.singleton_append, List.length_append, List.length_singleton] at ih
    rw [List.map_cons, List.flatten_cons, List.map_append, ih, placesFrom, List.map_append, List.map_map,
      places_val a]
    congr 1
    refine List.map_congr_left fun p _ => ?_
    simp [at_op]
end

mutual
theorem places_mem : ∀ (e : Node) (p : List ℕ), p ∈ places e ↔ ∃ x, e.at p = some x ∧ x.args = []
  | .param q, p => by
    rw [places, List.mem_singleton]
    cases p with
    | nil => exact ⟨fun _ => ⟨_, rfl, rfl⟩, fun _ => rfl⟩
    | cons i p => simp [Node.at, Node.args]
  | .leaf, p => by
    rw [places, List.mem_singleton]
    cases p with
    | nil => exact ⟨fun _ => ⟨_, rfl, rfl⟩, fun _ => rfl⟩
    | cons i p => simp [Node.at, Node.args]
  | .op [], p => by
    rw [places, List.mem_singleton]
    cases p with
    | nil => exact ⟨fun _ => ⟨_, rfl, rfl⟩, fun _ => rfl⟩
    | cons i p => simp [Node.at, Node.args]
  | .op (a :: l), p => by
    rw [places_op, placesFrom_mem (a :: l) 0 p]
    cases p with
    | nil => simp [Node.at, Node.args]
    | cons i p =>
      simp only [Nat.zero_add, List.cons.injEq, at_op, Option.bind_eq_some_iff]
      constructor
      · rintro ⟨j, q, b, x, ⟨rfl, rfl⟩, h1, h2, h3⟩
        exact ⟨x, ⟨b, h1, h2⟩, h3⟩
      · rintro ⟨x, ⟨b, h1, h2⟩, h3⟩
        exact ⟨i, p, b, x, ⟨rfl, rfl⟩, h1, h2, h3⟩

theorem placesFrom_mem : ∀ (l : List Node) (k : ℕ) (p : List ℕ),
    p ∈ placesFrom k l ↔ ∃ i q a x, p = (k + i) :: q ∧ l[i]? = some a ∧ a.at q = some x ∧ x.args = []
  | [], k, p => by simp [placesFrom]
  | a :: l, k, p => by
    rw [placesFrom, List.mem_append, List.mem_map, placesFrom_mem l (k + 1) p]
    constructor
    · rintro (⟨q, hq, rfl⟩ | ⟨i, q, b, x, rfl, h1, h2, h3⟩)
      · obtain ⟨x, h1, h2⟩ := (places_mem a q).1 hq
        exact ⟨0, q, a, x, rfl, rfl, h1, h2⟩
      · exact ⟨i + 1, q, b, x, by rw [Nat.add_assoc, Nat.add_comm 1], by simpa using h1, h2, h3⟩
    · rintro ⟨i, q, b, x, rfl, h1, h2, h3⟩
      cases i with
      | zero =>
        simp only [List.getElem?_cons_zero, Option.some.injEq] at h1
        subst h1
        exact .inl ⟨q, (places_mem a q).2 ⟨x, h2, h3⟩, rfl⟩
      | succ i =>
        exact .inr ⟨i, q, b, x, by rw [Nat.add_assoc, Nat.add_comm 1], by simpa using h1, h2, h3⟩
end

mutual
theorem places_lex : ∀ e : Node, (places e).Pairwise (List.Lex (· < ·))
  | .param _ => by rw [places]; exact List.pairwise_singleton _ _
  | .leaf => by rw [places]; exact List.pairwise_singleton _ _
  | .op [] => by rw [places]; exact List.pairwise_singleton _ _
  | .op (a :: l) => by rw [places_op]; exact placesFrom_lex (a :: l) 0

theorem placesFrom_lex : ∀ (l : List Node) (k : ℕ), (placesFrom k l).Pairwise (List.Lex (· < ·))
  | [], _ => by rw [placesFrom]; exact List.Pairwise.nil
  | a :: l, k => by
    rw [placesFrom, List.pairwise_append]
    refine ⟨List.pairwise_map.2 ((places_lex a).imp fun h => List.Lex.cons h), placesFrom_lex l (k + 1), ?_⟩
    intro p hp q hq
    obtain ⟨p, -, rfl⟩ := List.mem_map.1 hp
    obtain ⟨i, q, -, -, rfl, -⟩ := (placesFrom_mem l (k + 1) q).1 hq
    exact List.Lex.rel (by omega)
end

theorem lex_irrefl : ∀ p : List ℕ, ¬ List.Lex (· < ·) p p
  | [], h => by cases h
  | a :: p, h => by
    cases h with
    | rel h => exact lt_irrefl a h
    | cons h => exact lex_irrefl p h

theorem places_nodup (e : Node) : (places e).Nodup :=
  (places_lex e).imp fun {a b} h => by
    rintro rfl
    exact lex_irrefl a h

/-- **C90 (leaves).**  `_get_all_args` lists what stands at the leaves of the tree, each leaf once, from left to right. -/
theorem C90_leaves (e : Node) : ∃ ps : List (List ℕ), (∀ p, p ∈ ps ↔ ∃ x, e.at p = some x ∧ x.args = []) ∧
    ps.Nodup ∧ ps.Pairwise (List.Lex (· < ·)) ∧ (getAllArgs e).map some = ps.map e.at :=
  ⟨places e, places_mem e, places_nodup e, places_lex e, places_val e⟩

/-! ### Names -/

/-- The parameters of a tree with their places. -/
def found (e : Node) : List (List ℕ × Par) :=
  (places e).filterMap fun p => ((e.at p).bind Node.param?).map fun q => (p, q)

theorem param_iff (x : Node) (q : Par) : x.param? = some q ↔ x = .param q := by
  cases x <;> simp [Node.param?]

theorem found_snd (e : Node) : (found e).map Prod.snd = (getAllArgs e).filterMap Node.param? := by
  have h : (getAllArgs e).filterMap Node.param? = ((getAllArgs e).map some).filterMap fun x => x.bind Node.param? := by
    rw [List.filterMap_map]
    rfl
  rw [h, places_val, List.filterMap_map, found, List.map_filterMap]
  refine List.filterMap_congr fun p _ => ?_
  simp only [Function.comp_apply, Option.map_map]
  cases (e.at p).bind Node.param? <;> rfl

theorem found_mem (e : Node) (p : List ℕ) (q : Par) : (p, q) ∈ found e ↔ e.at p = some (.param q) := by
  unfold found
  rw [List.mem_filterMap]
  constructor
  · rintro ⟨p', -, h⟩
    rw [Option.map_eq_some_iff] at h
    obtain ⟨q', h1, h2⟩ := h
    rw [Prod.mk.injEq] at h2
    obtain ⟨rfl, rfl⟩ := h2
    obtain ⟨x, h2, h3⟩ := Option.bind_eq_some_iff.1 h1
    rw [h2, (param_iff x q').1 h3]
  · intro h
    exact ⟨p, (places_mem e p).2 ⟨_, h, rfl⟩, by rw [h]; rfl⟩

theorem found_nodup (e : Node) : ((found e).map Prod.fst).Nodup := by
  have : ((found e).map Prod.fst).Sublist (places e) := by
    unfold found
    generalize places e = ps
    induction ps with
    | nil => exact List.Sublist.refl _
    | cons p ps ih =>
      cases h : (e.at p).bind Node.param? with
      | none =>
        rw [List.filterMap_cons_none (by rw [h]; rfl)]
        exact ih.cons p
      | some q =>
        rw [List.filterMap_cons_some (b := (p, q)) (by rw [h]; rfl), List.map_cons]
        exact ih.cons_cons p
  exact this.nodup (places_nodup e)

/-- The parameters of that name in a list of expressions, with their places. -/
def foundIn (name : String) : ℕ → List Item → List ((ℕ × List ℕ) × Par)
  | _, [] => []
  | k, .expr e :: l =>
    ((found e).filter fun x => x.2.name = name).map (fun x => ((k, x.1), x.2)) ++ foundIn name (k + 1) l
  | k, .other :: l => foundIn name (k + 1) l

theorem foundIn_mem (name : String) : ∀ (l : List Item) (k k' : ℕ) (p : List ℕ) (q : Par),
    ((k', p), q) ∈ foundIn name k l ↔ ∃ i, k' = k + i ∧ Occurs l name i p q
  | [], k, k', p, q => by simp [foundIn, Occurs]
  | it :: l, k, k', p, q => by
    have ih := foundIn_mem name l (k + 1) k' p q
    have step : (∃ i, k' = k + i ∧ Occurs (it :: l) name i p q) ↔
        (k' = k ∧ Occurs (it :: l) name 0 p q) ∨ ∃ i, k' = k + 1 + i ∧ Occurs l name i p q := by
      constructor
      · rintro ⟨i, rfl, h⟩
        cases i with
        | zero => exact .inl ⟨rfl, h⟩
        | succ i => exact .inr ⟨i, by omega, by simpa [Occurs] using h⟩
      · rintro (⟨rfl, h⟩ | ⟨i, rfl, h⟩)
        · exact ⟨0, rfl, h⟩
        · exact ⟨i + 1, by omega, by simpa [Occurs] using h⟩
    rw [step, ← ih]
    cases it with
    | other => simp [foundIn, Occurs]
    | expr e =>
      rw [foundIn, List.mem_append]
      refine or_congr ?_ Iff.rfl
      simp only [List.mem_map, List.mem_filter, Prod.mk.injEq, decide_eq_true_eq, Prod.exists, Occurs,
        List.getElem?_cons_zero, Option.some.injEq, Item.expr.injEq]
      constructor
      · rintro ⟨p', q', ⟨h1, h2⟩, ⟨rfl, rfl⟩, rfl⟩
        exact ⟨rfl, e, rfl, (found_mem e p' q').1 h1, h2⟩
      · rintro ⟨rfl, e', rfl, h1, h2⟩
        exact ⟨p, q, ⟨(found_mem e p q).2 h1, h2⟩, ⟨rfl, rfl⟩, rfl⟩

theorem foundIn_nodup (name : String) : ∀ (l : List Item) (k : ℕ), ((foundIn name k l).map Prod.fst).Nodup
  | [], k => by simp [foundIn]
  | .other :: l, k => by rw [foundIn]; exact foundIn_nodup name l (k + 1)
  | .expr e :: l, k => by
    rw [foundIn, List.map_append, List.nodup_append]
    refine ⟨?_, foundIn_nodup name l (k + 1), ?_⟩
    · rw [List.map_map]
      have : (List.filter (fun x => decide (x.2.name = name)) (found e)).map
          (Prod.fst ∘ fun x : List ℕ × Par => ((k, x.1), x.2)) =
          ((List.filter (fun x => decide (x.2.name = name)) (found e)).map Prod.fst).map fun p => (k, p) := by
        rw [List.map_map]; rfl
      rw [this]
      exact (((List.filter_sublist).map Prod.fst).nodup (found_nodup e)).map fun a b h => (Prod.mk.injEq _ _ _ _ ▸ h).2
    · rintro ⟨a, p⟩ ha b hb rfl
      obtain ⟨⟨⟨a', p'⟩, q⟩, h1, h2⟩ := List.mem_map.1 ha
      obtain ⟨x, -, hx⟩ := List.mem_map.1 h1
      simp only [Prod.mk.injEq] at hx h2
      obtain ⟨⟨⟨a'', p''⟩, q'⟩, h3, h4⟩ := List.mem_map.1 hb
      simp only [Prod.mk.injEq] at h4
      obtain ⟨i, h5, -⟩ := (foundIn_mem name l (k + 1) a'' p'' q').1 h3
      omega

theorem scan_ok (name : String) (ps : List Par) (rest : List (Except PyErr (List Par))) (b : Bool) :
    scan name (.ok ps :: rest) b = match (ps.filter fun p => p.name = name).length, b with
      | 0, f => scan name rest f
      | 1, false => scan name rest true
      | _, _ => .error .instantiation := by
  rw [scan.eq_def]
  rfl

theorem scan_spec (name : String) : ∀ (l : List Item) (k : ℕ) (b : Bool), (∀ it ∈ l, it ≠ .other) →
    scan name (l.map Item.params) b = match (foundIn name k l).length, b with
      | 0, b => .ok b
      | 1, false => .ok true
      | _, _ => .error .instantiation
  | [], k, b, _ => by simp [scan, foundIn]
  | .other :: l, k, b, h => absurd rfl (h _ (List.mem_cons_self))
  | .expr e :: l, k, b, h => by
    have hl : ∀ it ∈ l, it ≠ .other := fun it hi => h it (List.mem_cons_of_mem _ hi)
    have hc : (((getAllArgs e).filterMap Node.param?).filter fun p => p.name = name).length =
        ((found e).filter fun x => x.2.name = name).length := by
      rw [← found_snd, List.filter_map, List.length_map]
      rfl
    rw [List.map_cons, Item.params, scan_ok, hc, foundIn, List.length_append, List.length_map]
    generalize ((found e).filter fun x => x.2.name = name).length = c
    rcases c with _ | _ | c
    · rw [Nat.zero_add, ← scan_spec name l (k + 1) b hl]
      cases b <;> rfl
    · cases b with
      | false =>
        show scan name (l.map Item.params) true = _
        rw [scan_spec name l (k + 1) true hl]
        rcases (foundIn name (k + 1) l).length with _ | _ | m
        · rfl
        · rfl
        · rw [show 0 + 1 + (m + 1 + 1) = m + 1 + 1 + 1 by omega]
          rfl
      | true =>
        rw [show 0 + 1 + (foundIn name (k + 1) l).length = (foundIn name (k + 1) l).length + 1 by omega]
        rcases (foundIn name (k + 1) l).length with _ | m <;> rfl
    · rw [show c + 1 + 1 + (foundIn name (k + 1) l).length = c + (foundIn name (k + 1) l).length + 1 + 1 by omega]
      cases b <;> rfl

variable {n : ℕ}

/-- **C90 (defined).**  For an object whose constraints are cvxpy constraints, `is_parameter_defined` returns True if a
parameter of that name stands at exactly one place, however deep, of exactly one of the constraints and the objective;
False if at none; and raises InstantiationError otherwise. -/
theorem C90_defined (items : List Item) (o : OState n) (h : Heap n) (hd : Describes items o)
    (hi : ∀ it ∈ items, it ≠ .other) (name : String) :
    ∃ r, isDefined name o h = (r, o, h) ∧
      (r = .ok true ↔ ∃ k p q, Occurs items name k p q ∧ ∀ k' p' q', Occurs items name k' p' q' → k' = k ∧ p' = p) ∧
      (r = .ok false ↔ ∀ k p q, ¬ Occurs items name k p q) ∧
      (r = .error .instantiation ↔ ∃ k p q k' p' q', Occurs items name k p q ∧ Occurs items name k' p' q' ∧
        (k, p) ≠ (k', p')) := by
  refine ⟨_, rfl, ?_⟩
  rw [← hd, scan_spec name items 0 false hi]
  have hm : ∀ k p q, ((k, p), q) ∈ foundIn name 0 items ↔ Occurs items name k p q := fun k p q => by
    rw [foundIn_mem]
    constructor
    · rintro ⟨i, rfl, h⟩; rwa [Nat.zero_add]
    · intro h; exact ⟨k, by omega, h⟩
  have hn := foundIn_nodup name items 0
  revert hm hn
  generalize foundIn name 0 items = L
  intro hm hn
  match L, hm, hn with
  | [], hm, _ =>
    have h0 : ∀ k p q, ¬ Occurs items name k p q := fun k p q h => by simpa using (hm k p q).2 h
    refine ⟨?_, ?_, ?_⟩
    · simp only [List.length_nil, Except.ok.injEq, Bool.false_eq_true, false_iff]
      rintro ⟨k, p, q, h, -⟩
      exact h0 k p q h
    · simpa using h0
    · simp only [List.length_nil, reduceCtorEq, false_iff]
      rintro ⟨k, p, q, -, -, -, h, -⟩
      exact h0 k p q h
  | [((k, p), q)], hm, _ =>
    have h1 : Occurs items name k p q := (hm k p q).1 (by simp)
    have h2 : ∀ k' p' q', Occurs items name k' p' q' → k' = k ∧ p' = p := fun k' p' q' h => by
      have := (hm k' p' q').2 h
      simp only [List.mem_singleton, Prod.mk.injEq] at this
      exact this.1
    refine ⟨?_, ?_, ?_⟩
    · simpa using ⟨k, p, ⟨q, h1⟩, h2⟩
    · simp only [List.length_singleton, Except.ok.injEq, Bool.true_eq_false, false_iff]
      exact fun h => h k p q h1
    · simp only [List.length_singleton, reduceCtorEq, false_iff]
      rintro ⟨a, b, c, a', b', c', g, g', hne⟩
      have e := h2 _ _ _ g
      have e' := h2 _ _ _ g'
      exact hne (by rw [e.1, e.2, e'.1, e'.2])
  | ((k, p), q) :: ((k', p'), q') :: L, hm, hn =>
    have h1 : Occurs items name k p q := (hm k p q).1 (by simp)
    have h2 : Occurs items name k' p' q' := (hm k' p' q').1 (by simp)
    have hne : (k, p) ≠ (k', p') := by
      simp only [List.map_cons, List.nodup_cons, List.mem_cons, not_or] at hn
      exact hn.1.1
    refine ⟨?_, ?_, ?_⟩
    · simp only [List.length_cons, reduceCtorEq, false_iff]
      rintro ⟨a, b, c, -, h⟩
      have e := h _ _ _ h1
      have e' := h _ _ _ h2
      exact hne (by rw [e.1, e.2, e'.1, e'.2])
    · simp only [List.length_cons, reduceCtorEq, false_iff]
      exact fun h => h k p q h1
    · simpa using ⟨k, p, ⟨q, h1⟩, k', p', ⟨q', h2⟩, fun e => by simpa [e] using hne⟩

/-- A search that comes to an end has met nothing without `args`. -/
theorem scan_all (name : String) : ∀ (l : List Item) (b c : Bool), scan name (l.map Item.params) b = .ok c →
    ∀ it ∈ l, it ≠ .other
  | [], _, _, _ => by simp
  | .other :: l, b, c, h => by simp [Item.params, scan] at h
  | .expr e :: l, b, c, h => by
    rw [List.map_cons, Item.params, scan_ok] at h
    have : ∃ b', scan name (l.map Item.params) b' = .ok c := by
      revert h
      generalize (List.filter (fun p => decide (p.name = name)) (List.filterMap Node.param? (getAllArgs e))).length = m
      rcases m with _ | _ | m <;> cases b <;> intro h
      · exact ⟨_, h⟩
      · exact ⟨_, h⟩
      · exact ⟨_, h⟩
      · cases h
      · cases h
      · cases h
    obtain ⟨b', h'⟩ := this
    intro it hi
    rcases List.mem_cons.1 hi with rfl | hi
    · simp
    · exact scan_all name l b' c h' it hi

theorem named_found {items : List Item} {o : OState n} (hd : Describes items o) (hi : ∀ it ∈ items, it ≠ .other)
    (name : String) : ∀ k, named name o = (foundIn name k items).map Prod.snd := by
  unfold named
  rw [← hd]
  clear hd
  induction items with
  | nil => intro k; simp [foundIn]
  | cons it items ih =>
    intro k
    cases it with
    | other => exact absurd rfl (hi _ List.mem_cons_self)
    | expr e =>
      have ih := ih (fun it h => hi it (List.mem_cons_of_mem _ h)) (k + 1)
      rw [List.map_cons, Item.params, List.filterMap_cons_some (f := Except.toOption) (b := (getAllArgs e).filterMap Node.param?) rfl,
        List.flatten_cons, List.filter_append, ih, foundIn, List.map_append, List.map_map, ← found_snd, List.filter_map]
      rfl

theorem value_set (h : Heap n) (p q : Par) (v : ℝ) :
    (h.setPar p v).value p = v ∧ (q.ref ≠ p.ref → (h.setPar p v).value q = h.value q) := by
  unfold Heap.setPar Heap.value
  constructor
  · cases p.ref <;> simp
  · intro hne
    cases hp : p.ref <;> cases hq : q.ref <;> rw [hp, hq] at hne <;> simp only [ne_eq]
    all_goals
      first
      | rfl
      | exact Function.update_of_ne (fun e => hne (by rw [e])) _ _

/-- What follows the search. -/
noncomputable def finish (name : String) (v : ℝ) (o : OState n) (h : Heap n) :
    Except PyErr Bool → Except PyErr Unit × OState n × Heap n
  | .error e => (.error e, o, h)
  | .ok true => setPars v (named name o) o h
  | .ok false => (.error .instantiation, o, h)

theorem updatePar_run {name : String} {v : ℝ} {o : OState n} {h : Heap n} {r : Except PyErr Bool}
    (hr : isDefined name o h = (r, o, h)) : updatePar name v o h = finish name v o h r := by
  unfold updatePar
  cases r with
  | error e => rw [bind_err hr]; rfl
  | ok b => rw [bind_ok hr]; cases b <;> rfl

theorem setPars_one (v : ℝ) (q : Par) (o : OState n) (h : Heap n) :
    setPars v [q] o h = if q.nonneg ∧ v < 0 then (.error .valueError, o, h) else (.ok (), o, h.setPar q v) := rfl

/-- **C90 (update).**  `update_parameter_value` succeeds exactly if a parameter of that name stands at one place only and
takes the value; then the parameter has this value, and no other one has changed.  Otherwise it raises, and changes
nothing: InstantiationError unless there is one place only, ValueError for a negative value of a parameter declared
nonnegative. -/
theorem C90_update (items : List Item) (o : OState n) (h : Heap n) (hd : Describes items o)
    (hi : ∀ it ∈ items, it ≠ .other) (name : String) (v : ℝ) :
    (∃ k p q, Occurs items name k p q ∧ (∀ k' p' q', Occurs items name k' p' q' → k' = k ∧ p' = p) ∧
      if q.nonneg ∧ v < 0 then updatePar name v o h = (.error .valueError, o, h)
      else ∃ h', updatePar name v o h = (.ok (), o, h') ∧ h'.value q = v ∧
        ∀ x : Par, x.ref ≠ q.ref → h'.value x = h.value x) ∨
    ((¬∃ k p q, Occurs items name k p q ∧ ∀ k' p' q', Occurs items name k' p' q' → k' = k ∧ p' = p) ∧
      updatePar name v o h = (.error .instantiation, o, h)) := by
  obtain ⟨r, hr, h1, h2, h3⟩ := C90_defined items o h hd hi name
  have hrun := updatePar_run (v := v) hr
  by_cases hone : ∃ k p q, Occurs items name k p q ∧ ∀ k' p' q', Occurs items name k' p' q' → k' = k ∧ p' = p
  · have hrt := h1.2 hone
    subst hrt
    left
    obtain ⟨k, p, q, ho, hu⟩ := hone
    refine ⟨k, p, q, ho, hu, ?_⟩
    have hn : named name o = [q] := by
      rw [named_found hd hi name 0]
      have hs := scan_spec name items 0 false hi
      have hscan : scan name (items.map Item.params) false = .ok true := by
        have := congrArg Prod.fst hr
        rwa [hd]
      rw [hscan] at hs
      have hmem : ((k, p), q) ∈ foundIn name 0 items := (foundIn_mem name items 0 k p q).2 ⟨k, by omega, ho⟩
      revert hs hmem
      generalize foundIn name 0 items = L
      intro hs hmem
      match L with
      | [] => simp at hmem
      | [x] =>
        rw [List.mem_singleton] at hmem
        rw [← hmem]; rfl
      | _ :: _ :: _ => simp at hs
    rw [hrun]
    show if q.nonneg ∧ v < 0 then setPars v (named name o) o h = _ else ∃ h', setPars v (named name o) o h = _ ∧ _
    rw [hn, setPars_one]
    by_cases hv : q.nonneg ∧ v < 0
    · rw [if_pos hv, if_pos hv]
    · rw [if_neg hv, if_neg hv]
      exact ⟨_, rfl, (value_set h q q v).1, fun x hx => (value_set h q x v).2 hx⟩
  · right
    refine ⟨hone, ?_⟩
    have hr1 : r ≠ .ok true := fun e => hone (h1.1 e)
    rw [hrun]
    match r, hr1, h2, h3 with
    | .ok true, h, _, _ => exact absurd rfl h
    | .ok false, _, _, _ => rfl
    | .error e, _, h2, h3 =>
      have : (Except.error e : Except PyErr Bool) = .error .instantiation := by
        rw [h3]
        by_contra hc
        have h0 : ¬ ∀ k p q, ¬ Occurs items name k p q := fun h => by simpa using h2.2 h
        push Not at h0
        obtain ⟨k, p, q, hoc⟩ := h0
        refine hone ⟨k, p, q, hoc, fun k' p' q' hoc' => ?_⟩
        by_contra hne
        refine hc ⟨k, p, q, k', p', q', hoc, hoc', fun e => hne ?_⟩
        rw [Prod.mk.injEq] at e
        exact ⟨e.1.symm, e.2.symm⟩
      cases this
      rfl

/-- **C90 (Booleans, false).**  A constraint that is a Boolean, which `add_constraint` accepts, makes
`is_parameter_defined` raise AttributeError for every name that does not occur before it, also for names that occur
after it. -/
theorem C90_boolean_false (pre post : List Item) (o : OState n) (h : Heap n) (hd : Describes (pre ++ .other :: post) o)
    (hi : ∀ it ∈ pre, it ≠ .other) (name : String) (hn : ∀ k p q, ¬ Occurs pre name k p q) :
    isDefined name o h = (.error .attribute, o, h) := by
  have h0 : foundIn name 0 pre = [] := by
    rw [List.eq_nil_iff_forall_not_mem]
    rintro ⟨⟨k, p⟩, q⟩ hm
    obtain ⟨i, -, ho⟩ := (foundIn_mem name pre 0 k p q).1 hm
    exact hn i p q ho
  have key : ∀ (l : List Item) (k : ℕ) (b : Bool), (∀ it ∈ l, it ≠ .other) → foundIn name k l = [] →
      scan name ((l ++ .other :: post).map Item.params) b = .error .attribute := by
    intro l
    induction l with
    | nil => intro k b _ _; rfl
    | cons it l ih =>
      intro k b hi hf
      cases it with
      | other => exact absurd rfl (hi _ List.mem_cons_self)
      | expr e =>
        rw [foundIn, List.append_eq_nil_iff, List.map_eq_nil_iff] at hf
        have hc : (((getAllArgs e).filterMap Node.param?).filter fun p => p.name = name).length = 0 := by
          rw [← found_snd, List.filter_map, List.length_map, List.length_eq_zero_iff]
          exact hf.1
        rw [List.cons_append, List.map_cons, Item.params, scan_ok, hc]
        have := ih (k + 1) b (fun it h => hi it (List.mem_cons_of_mem _ h)) hf.2
        cases b <;> exact this
  show (scan name (leavesOf o) false, o, h) = _
  rw [← hd, key pre 0 false hi h0]

/-! ### Cases -/

/-- A user's parameter `gamma`. -/
def gamma : Par := ⟨"gamma", true, .usr 0⟩

/-- `cp.norm(gamma * w + 1, 2) <= 3`, three levels deep. -/
def deepItem : Item := .expr (.op [.op [.op [.op [.param gamma, .leaf], .leaf]], .leaf])

/-- The parameter is found, at one place. -/
example : ∃ k p q, Occurs [.expr .leaf, deepItem] "gamma" k p q ∧
    ∀ k' p' q', Occurs [.expr .leaf, deepItem] "gamma" k' p' q' → k' = k ∧ p' = p := by
  have hf : foundIn "gamma" 0 [.expr .leaf, deepItem] = [((1, [0, 0, 0, 0]), gamma)] := by
    simp [foundIn, found, deepItem, places, placesFrom, Node.at, Node.args, Node.param?, gamma]
  refine ⟨1, [0, 0, 0, 0], gamma, ?_, fun k' p' q' h => ?_⟩
  · have := (foundIn_mem "gamma" [.expr .leaf, deepItem] 0 1 [0, 0, 0, 0] gamma).1 (by rw [hf]; simp)
    obtain ⟨i, hi, ho⟩ := this
    obtain rfl : i = 1 := by omega
    exact ho
  · have := (foundIn_mem "gamma" [.expr .leaf, deepItem] 0 k' p' q').2 ⟨k', by omega, h⟩
    rw [hf] at this
    simp only [List.mem_singleton, Prod.mk.injEq] at this
    exact this.1

/-- An object with one such constraint, described by its tree. -/
example (h : Heap 1) : ∃ o : OState 1, Describes [deepItem] o ∧ ∃ h', updatePar "gamma" 2 o h = (.ok (), o, h') ∧
    h'.value gamma = 2 := by
  let o : OState 1 := { (blank : OState 1) with cons := [⟨.usr 0, .other [gamma] fun _ => True, fun _ => True⟩] }
  have hd : Describes [deepItem] o := by
    simp [Describes, o, leavesOf, blank, ConBody.leaves, Item.params, deepItem, getAllArgs, getAllArgsEach, flatten,
      flattenOne, asNest, Node.param?]
  have hf : foundIn "gamma" 0 [deepItem] = [((0, [0, 0, 0, 0]), gamma)] := by
    simp [foundIn, found, deepItem, places, placesFrom, Node.at, Node.args, Node.param?, gamma]
  refine ⟨o, hd, ?_⟩
  rcases C90_update [deepItem] o h hd (by simp [deepItem]) "gamma" 2 with ⟨k, p, q, ho, -, hs⟩ | ⟨hno, -⟩
  · have := (foundIn_mem "gamma" [deepItem] 0 k p q).2 ⟨k, by omega, ho⟩
    rw [hf] at this
    simp only [List.mem_singleton, Prod.mk.injEq] at this
    obtain ⟨-, rfl⟩ := this
    rw [if_neg (by norm_num)] at hs
    obtain ⟨h', h1, h2, -⟩ := hs
    exact ⟨h', h1, h2⟩
  · refine absurd ⟨0, [0, 0, 0, 0], gamma, ?_, fun k' p' q' h => ?_⟩ hno
    · obtain ⟨i, hi, ho⟩ := (foundIn_mem "gamma" [deepItem] 0 0 [0, 0, 0, 0] gamma).1 (by rw [hf]; simp)
      obtain rfl : i = 0 := by omega
      exact ho
    · have := (foundIn_mem "gamma" [deepItem] 0 k' p' q').2 ⟨k', by omega, h⟩
      rw [hf] at this
      simp only [List.mem_singleton, Prod.mk.injEq] at this
      exact this.1

end Verif.Convex
