import Verif.Lemmas.TaskWorld

/- Checking by computation that a concrete task without axioms is well-formed, and that a
heuristic of a concrete task is consistent. -/
namespace Verif.Search

/-- `ValidFact`, by computation -/
def factOK (t : Task) (f : Fact) : Bool := match t.vars[f.var]? with | some d => decide (f.val < d.domain) | none => false

theorem factOK_spec {t : Task} {f : Fact} (h : factOK t f = true) : t.ValidFact f := by
  unfold factOK at h
  cases hd : t.vars[f.var]? with
  | none => simp [hd] at h
  | some d => exact ⟨d, hd, by simpa [hd] using h⟩

/-- `ValidState`, by computation -/
def stateOK (t : Task) (s : State) : Bool := s.length == t.vars.length && (s.zip t.vars).all (fun p => decide (p.1 < p.2.domain))

theorem stateOK_spec {t : Task} {s : State} (h : stateOK t s = true) : t.ValidState s := by
  unfold stateOK at h
  simp only [Bool.and_eq_true, beq_iff_eq, List.all_eq_true, decide_eq_true_iff] at h
  refine ⟨h.1, fun v x d hx hd => ?_⟩
  refine h.2 (x, d) ?_
  rw [List.mem_iff_getElem?]
  exact ⟨v, by rw [List.getElem?_zip_eq_some]; exact ⟨hx, hd⟩⟩

/-- a well-formed task without axioms, by computation -/
def taskOK (t : Task) : Bool :=
  t.axioms.isEmpty && t.vars.all (fun d => d.layer.isNone && decide (1 ≤ d.domain) && decide (d.domain < 2 ^ 31)) && stateOK t t.init &&
    t.ops.all (fun o => o.pre.all (factOK t) && o.effects.all (fun e => factOK t e.fact && e.conds.all (factOK t))) && t.goal.all (factOK t)

theorem taskOK_wf {t : Task} (h : taskOK t = true) : t.WF := by
  unfold taskOK at h
  simp only [Bool.and_eq_true, List.isEmpty_iff, List.all_eq_true, decide_eq_true_iff, Option.isNone_iff_eq_none] at h
  obtain ⟨⟨⟨⟨h1, h2⟩, h3⟩, h4⟩, h5⟩ := h
  have hr : t.rules = [] := by simp [Task.rules, h1]
  have hl : ∀ v, t.layerOf v = none := by
    intro v
    unfold Task.layerOf
    cases hv : t.vars[v]? with
    | none => simp
    | some d => simpa using (h2 d (List.mem_of_getElem? hv)).1.1
  refine ⟨⟨by simp [h1], by simp [hr], by simp [hr], by simp [hr], by simp [hr], by simp [hr], fun _ => hl, ?_, by simp [hr], by simp [hr]⟩, ?_, stateOK_spec h3, ?_, ?_, ?_, ?_⟩
  · intro v d hv hd
    exact absurd (h2 d (List.mem_of_getElem? hv)).1.1 hd
  · intro d hd; exact ⟨(h2 d hd).1.2, (h2 d hd).2⟩
  · intro o ho e he; exact factOK_spec ((h4 o ho).2 e he).1
  · intro o ho e he c hc; exact factOK_spec (((h4 o ho).2 e he).2 c hc)
  · intro o ho c hc; exact factOK_spec ((h4 o ho).1 c hc)
  · intro f hf; exact factOK_spec (h5 f hf)

/-- a consistent heuristic is admissible -/
theorem admissible_of_consistent {t : Task} (hwf : t.WF) {c : Nat → Nat} {h : State → Int} (hg : ∀ s, t.ValidState s → allHold t.goal s → h s ≤ 0)
    (hc : ∀ s i o s', t.ValidState s → t.ops[i]? = some o → o.applicable s → t.SuccRel o s s' → h s ≤ c i + h s') {s : State} (hs : t.ValidState s) {π : List Nat}
    (hπ : t.SolvesFrom s π) : h s ≤ (π.map c).sum := by
  obtain ⟨u, h1, h2⟩ := hπ
  induction h1 with
  | nil s => exact hg s hs h2
  | cons s i o s' π u k1 k2 k3 k4 ih =>
    have hs' : t.ValidState s' := exec_valid hwf hs (.cons s i o s' [] s' k1 k2 k3 (.nil s'))
    have := ih hs' h2
    have := hc s i o s' hs k1 k2 k3
    simp only [List.map_cons, List.sum_cons]
    push_cast
    omega

/-- consistency, by computation over all states -/
def consistentOK (t : Task) (c : Nat → Nat) (h : State → Int) : Bool :=
  (Task.states t).all (fun s =>
    (!decide (allHold t.goal s) || decide (h s ≤ 0)) &&
    (t.ops.zipIdx.all (fun p => !decide (p.1.applicable s) ||
      match Registry.unregisteredSuccessor t s p.1 with
      | some s' => decide (h s ≤ c p.2 + h s')
      | none => false)))

theorem consistentOK_spec {t : Task} (hwf : t.WF) {c : Nat → Nat} {h : State → Int} (hok : consistentOK t c h = true) {s : State} (hs : t.ValidState s) {π : List Nat}
    (hπ : t.SolvesFrom s π) : h s ≤ (π.map c).sum := by
  unfold consistentOK at hok
  simp only [List.all_eq_true, Bool.and_eq_true, Bool.or_eq_true, Bool.not_eq_true', decide_eq_false_iff_not, decide_eq_true_iff] at hok
  refine admissible_of_consistent hwf (c := c) ?_ ?_ hs hπ
  · intro s hs hg
    rcases (hok s (mem_states.mpr hs)).1 with h | h
    · exact absurd hg h
    · exact h
  · intro s i o s' hs hi ha hr
    rcases (hok s (mem_states.mpr hs)).2 (o, i) (by
      rw [List.mem_iff_getElem?]
      exact ⟨i, by simp [List.getElem?_zipIdx, hi]⟩) with h | h
    · exact absurd ha h
    · obtain ⟨s'', k1, k2, k3⟩ := Registry.unregistered_spec hwf (List.mem_of_getElem? hi) hs
      have := Registry.succRel_unique hwf hs hr k3
      subst this
      simp only [k1, decide_eq_true_iff] at h
      exact h

/-- the states visited by a sequence of operators, by computation -/
def execOK (t : Task) : State → List Nat → Bool
  | s, [] => decide (allHold t.goal s)
  | s, i :: π =>
    match t.ops[i]? with
    | none => false
    | some o => decide (o.applicable s) &&
      match Registry.unregisteredSuccessor t s o with
      | none => false
      | some s' => execOK t s' π

theorem execOK_spec {t : Task} (hwf : t.WF) : ∀ (π : List Nat) (s : State), t.ValidState s → execOK t s π = true → t.SolvesFrom s π
  | [], s, _, h => ⟨s, .nil s, by simpa [execOK] using h⟩
  | i :: π, s, hs, h => by
    unfold execOK at h
    cases ho : t.ops[i]? with
    | none => simp [ho] at h
    | some o =>
      simp only [ho, Bool.and_eq_true, decide_eq_true_iff] at h
      obtain ⟨s'', k1, k2, k3⟩ := Registry.unregistered_spec hwf (List.mem_of_getElem? ho) hs
      simp only [k1] at h
      obtain ⟨u, e1, e2⟩ := execOK_spec hwf π s'' k2 h.2
      exact ⟨u, .cons s i o s'' π u ho h.1 k3 e1, e2⟩

end Verif.Search
