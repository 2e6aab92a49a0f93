import Verif.Lemmas.SasRoundTrip
import Verif.Lemmas.SasTruncated
import Verif.Props.Axioms

/-
C55: the search component reads what the translator writes, and accepts only well-formed tasks.
-/
namespace Verif.SasFile
open Verif.PlanFiles (digits)

/-! ### Well-formed tasks -/

theorem task_get {r : Root} {i : Nat} {d : Variable} (h : r.task.vars[i]? = some d) : ∃ v, r.vars[i]? = some v ∧ d = ⟨v.domain, v.layer, v.default⟩ := by
  simp only [Root.task, List.getElem?_map, Option.map_eq_some_iff] at h
  obtain ⟨v, h1, h2⟩ := h
  exact ⟨v, h1, h2.symm⟩

theorem get_task {r : Root} {i : Nat} {v : ExplicitVariable} (h : r.vars[i]? = some v) : r.task.vars[i]? = some ⟨v.domain, v.layer, v.default⟩ := by
  simp only [Root.task, List.getElem?_map, h, Option.map_some]

theorem layerOf_root {r : Root} {i : Nat} {v : ExplicitVariable} (h : r.vars[i]? = some v) : r.task.layerOf i = v.layer := by
  simp only [Task.layerOf, get_task h, Option.bind_some]

theorem defaultOf_root {r : Root} {i : Nat} {v : ExplicitVariable} (h : r.vars[i]? = some v) : r.task.defaultOf i = v.default := by
  simp only [Task.defaultOf, get_task h, Option.map_some, Option.getD_some]

theorem validFact_root {r : Root} {f : Fact} (h : VFact r.vars f) : r.task.ValidFact f := by
  obtain ⟨v, h1, h2⟩ := h
  exact ⟨_, get_task h1, h2⟩

theorem rule_root {r : Root} (hr : RootOk r) {u : Rule} (hu : u ∈ r.task.rules) :
    ∃ (v : ExplicitVariable) (l : Nat), r.vars[u.head.var]? = some v ∧ v.layer = some l ∧ u.head.val < v.domain ∧ v.default < v.domain ∧ u.head.val ≠ v.default ∧
      ∀ c ∈ u.body, ∃ vc, r.vars[c.var]? = some vc ∧ c.val < vc.domain ∧ ∀ lc, vc.layer = some lc → lc ≤ l ∧ (lc = l → c.val ≠ vc.default) := by
  simp only [Task.rules, Root.task, List.mem_flatMap, List.mem_map] at hu
  obtain ⟨_, ⟨o, ho, rfl⟩, e, he, rfl⟩ := hu
  obtain ⟨v, l, var, post, conds, h1, h2, h3, h4, h5, h6, h7, h8, h9⟩ := hr.axioms o ho
  simp only [h7, List.mem_singleton] at he
  subst he
  exact ⟨v, l, h1, h2, h3, h4, h5, h9⟩

theorem wfAxioms_root {r : Root} (hr : RootOk r) (hsome : r.task.axioms = [] → ∀ v, r.task.layerOf v = none) : r.task.WFAxioms where
  single := by
    intro a ha
    simp only [Root.task, List.mem_map] at ha
    obtain ⟨o, ho, rfl⟩ := ha
    obtain ⟨v, l, var, post, conds, h1, h2, h3, h4, h5, h6, h7, h8, h9⟩ := hr.axioms o ho
    exact ⟨_, h7⟩
  headDerived := by
    intro u hu
    obtain ⟨v, l, h1, h2, _⟩ := rule_root hr hu
    rw [layerOf_root h1, h2]
    simp
  headNonDefault := by
    intro u hu
    obtain ⟨v, l, h1, h2, h3, h4, h5, _⟩ := rule_root hr hu
    rw [defaultOf_root h1]
    exact h5
  oneValue := by
    intro u hu u' hu' e
    obtain ⟨v, l, h1, h2, h3, h4, h5, _⟩ := rule_root hr hu
    obtain ⟨v', l', h1', h2', h3', h4', h5', _⟩ := rule_root hr hu'
    rw [← e, h1] at h1'
    simp only [Option.some.injEq] at h1'
    subst h1'
    have := (hr.vars v (List.mem_of_getElem? h1)).2.2.1 (by rw [h2]; simp)
    omega
  validHead := by
    intro u hu
    obtain ⟨v, l, h1, h2, h3, _⟩ := rule_root hr hu
    exact validFact_root ⟨v, h1, h3⟩
  validBody := by
    intro u hu c hc
    obtain ⟨v, l, h1, h2, h3, h4, h5, h6⟩ := rule_root hr hu
    obtain ⟨vc, e1, e2, _⟩ := h6 c hc
    exact validFact_root ⟨vc, e1, e2⟩
  someAxioms := hsome
  validDefault := by
    intro i d hd _
    obtain ⟨v, h1, rfl⟩ := task_get hd
    obtain ⟨w, h2, h3⟩ := hr.init.2 i _ (hr.default i v h1)
    simp only at h2
    rw [h1] at h2
    simp only [Option.some.injEq] at h2
    subst h2
    exact h3
  stratPos := by
    intro u hu c hc lc lh h1 h2
    obtain ⟨v, l, g1, g2, _, _, _, g6⟩ := rule_root hr hu
    obtain ⟨vc, e1, _, e3⟩ := g6 c hc
    rw [layerOf_root e1] at h1
    rw [layerOf_root g1, g2] at h2
    simp only [Option.some.injEq] at h2
    subst h2
    exact (e3 lc h1).1
  stratNeg := by
    intro u hu c hc lc lh h1 h2 hv
    obtain ⟨v, l, g1, g2, _, _, _, g6⟩ := rule_root hr hu
    obtain ⟨vc, e1, _, e3⟩ := g6 c hc
    rw [layerOf_root e1] at h1
    rw [layerOf_root g1, g2] at h2
    simp only [Option.some.injEq] at h2
    subst h2
    rw [defaultOf_root e1] at hv
    have := e3 lc h1
    rcases Nat.lt_or_ge lc l with h | h
    · exact h
    · exact absurd hv (this.2 (by omega))

theorem validInit_root {r : Root} (hr : RootOk r) : r.task.ValidState r.init := by
  refine ⟨by simp [Root.task, hr.init.1], fun v x d hx hd => ?_⟩
  obtain ⟨w, h1, rfl⟩ := task_get hd
  obtain ⟨w', h2, h3⟩ := hr.init.2 v x hx
  simp only at h2
  rw [h1] at h2
  simp only [Option.some.injEq] at h2
  subst h2
  exact h3

theorem wf_root {r : Root} (hr : RootOk r) (hax : r.task.WFAxioms) : r.task.WF where
  ax := hax
  domains := by
    intro d hd
    simp only [Root.task, List.mem_map] at hd
    obtain ⟨v, hv, rfl⟩ := hd
    have := hr.vars v hv
    unfold VarOk IntMax at this
    simp only
    omega
  init := validInit_root hr
  effFact := by
    intro o ho e he
    simp only [Root.task, List.mem_map] at ho
    obtain ⟨o, ho, rfl⟩ := ho
    exact validFact_root ((hr.ops o ho).effect e he).1
  effCond := by
    intro o ho e he c hc
    simp only [Root.task, List.mem_map] at ho
    obtain ⟨o, ho, rfl⟩ := ho
    exact validFact_root (((hr.ops o ho).effect e he).2.1 c hc)
  pre := by
    intro o ho c hc
    simp only [Root.task, List.mem_map] at ho
    obtain ⟨o, ho, rfl⟩ := ho
    exact validFact_root ((hr.ops o ho).pre c hc)
  goalFacts := fun f hf => validFact_root (hr.goal.2.2 f hf)

/-- the derived variables of a task without axioms are treated like other variables -/
def plain (t : Task) : Task := { t with vars := t.vars.map (fun d => { d with layer := none }) }

/-- What the reader guarantees: a well-formed task (if there are no axioms: when variables are not seen as derived), at least one variable and one goal, at most one goal for a variable,
operators with at least one effect, without effects on derived variables, and with costs that are ints; an initial state in which the derived variables have the values
that follow from the axioms; a symmetric relation between facts that exclude each other. -/
structure Guaranteed (r : Root) : Prop where
  wf : r.task.axioms ≠ [] ∨ (∀ v, r.task.layerOf v = none) → r.task.WF
  wfPlain : r.task.axioms = [] → (plain r.task).WF
  vars : r.task.vars ≠ []
  binary : ∀ d ∈ r.task.vars, d.layer ≠ none → d.domain = 2
  goal : r.task.goal ≠ [] ∧ (r.task.goal.map (·.var)).Nodup
  effects : ∀ o ∈ r.task.ops, o.effects ≠ [] ∧ ∀ e ∈ o.effects, r.task.layerOf e.fact.var = none
  costs : ∀ o ∈ r.task.ops, o.cost ≤ 2147483647
  init : r.task.axioms ≠ [] → ∃ s, r.task.ValidState s ∧ (∀ (v x : Nat), s[v]? = some x → r.task.defaultOf v = x) ∧ StableModel r.task s r.task.init
  initPlain : r.task.axioms = [] → ∀ (v x : Nat), r.task.init[v]? = some x → r.task.defaultOf v = x
  mutex : ∀ f g, r.factsMutex f g = r.factsMutex g f

theorem plain_wf {r : Root} (hr : RootOk r) (h : r.task.axioms = []) : (plain r.task).WF := by
  have hl : ∀ v, (plain r.task).layerOf v = none := by
    intro v
    simp only [Task.layerOf, plain, List.getElem?_map]
    cases r.task.vars[v]? <;> rfl
  have hrules : (plain r.task).rules = [] := by
    show List.flatMap _ r.task.axioms = []
    rw [h]
    rfl
  have hvf : ∀ f, VFact r.vars f → (plain r.task).ValidFact f := by
    intro f hf
    obtain ⟨d, h1, h2⟩ := validFact_root hf
    refine ⟨{ d with layer := none }, ?_, h2⟩
    simp only [plain, List.getElem?_map, h1, Option.map_some]
  refine ⟨⟨?_, ?_, ?_, ?_, ?_, ?_, ?_, ?_, ?_, ?_⟩, ?_, ?_, ?_, ?_, ?_, ?_⟩
  · intro a ha
    have : a ∈ r.task.axioms := ha
    rw [h] at this
    simp at this
  · intro u hu; rw [hrules] at hu; simp at hu
  · intro u hu; rw [hrules] at hu; simp at hu
  · intro u hu; rw [hrules] at hu; simp at hu
  · intro u hu; rw [hrules] at hu; simp at hu
  · intro u hu; rw [hrules] at hu; simp at hu
  · exact fun _ => hl
  · intro v d hd hne
    have := hl v
    simp only [Task.layerOf, hd, Option.bind_some] at this
    exact absurd this hne
  · intro u hu; rw [hrules] at hu; simp at hu
  · intro u hu; rw [hrules] at hu; simp at hu
  · intro d hd
    simp only [plain, Root.task, List.map_map, List.mem_map, Function.comp] at hd
    obtain ⟨v, hv, rfl⟩ := hd
    have := hr.vars v hv
    unfold VarOk IntMax at this
    simp only
    omega
  · obtain ⟨h1, h2⟩ := validInit_root hr
    refine ⟨(h1.trans (List.length_map _).symm : r.init.length = (r.task.vars.map (fun d => ({ d with layer := none } : Variable))).length), fun v x d hx hd => ?_⟩
    simp only [plain, List.getElem?_map, Option.map_eq_some_iff] at hd
    obtain ⟨d', hd', rfl⟩ := hd
    exact h2 v x d' hx hd'
  · intro o ho e he
    simp only [plain, Root.task, List.mem_map] at ho
    obtain ⟨o, ho, rfl⟩ := ho
    exact hvf _ ((hr.ops o ho).effect e he).1
  · intro o ho e he c hc
    simp only [plain, Root.task, List.mem_map] at ho
    obtain ⟨o, ho, rfl⟩ := ho
    exact hvf _ (((hr.ops o ho).effect e he).2.1 c hc)
  · intro o ho c hc
    simp only [plain, Root.task, List.mem_map] at ho
    obtain ⟨o, ho, rfl⟩ := ho
    exact hvf _ ((hr.ops o ho).pre c hc)
  · exact fun f hf => hvf _ (hr.goal.2.2 f hf)

theorem default_init {r : Root} (hr : RootOk r) {v x : Nat} (h : r.init[v]? = some x) : r.task.defaultOf v = x := by
  obtain ⟨w, h1, _⟩ := hr.init.2 v x h
  simp only at h1
  rw [defaultOf_root h1]
  have := hr.default v w h1
  rw [h] at this
  simpa using this.symm

theorem wf_init {t : Task} (h : t.WF) {s : State} (hs : t.ValidState s) : ({ t with init := s } : Task).WF :=
  ⟨⟨h.ax.single, h.ax.headDerived, h.ax.headNonDefault, h.ax.oneValue, h.ax.validHead, h.ax.validBody, h.ax.someAxioms, h.ax.validDefault, h.ax.stratPos, h.ax.stratNeg⟩,
    h.domains, hs, h.effFact, h.effCond, h.pre, h.goalFacts⟩

theorem stable_init {t : Task} {i : State} {s s' : State} (h : StableModel t s s') : StableModel { t with init := i } s s' := by
  have hd : ∀ neg f, Derives t s neg f ↔ Derives { t with init := i } s neg f := by
    intro neg f
    constructor
    · intro h
      induction h with
      | rule r hr hb hn _ ih => exact .rule r hr hb hn ih
    · intro h
      induction h with
      | rule r hr hb hn _ ih => exact .rule r hr hb hn ih
  refine ⟨h.length, h.base, fun f h1 h2 => (h.pos f h1 h2).trans (hd _ _), fun v hv => ?_⟩
  refine Iff.trans ?_ (h.neg v hv)
  exact forall_congr' fun x => imp_congr_right fun _ => not_congr (hd _ _).symm

theorem mutex_sym {r : Root} (hr : RootOk r) {s : State} (f g : Fact) : ({ r with init := s } : Root).factsMutex f g = ({ r with init := s } : Root).factsMutex g f := by
  unfold Root.factsMutex
  by_cases h : f.var = g.var
  · rw [if_pos h, if_pos h.symm]
    simp only [ne_comm]
  · rw [if_neg h, if_neg (fun e => h e.symm)]
    exact decide_eq_decide.mpr ⟨hr.sym f g, hr.sym g f⟩

theorem guaranteed_of {r : Root} (hr : RootOk r) : ∃ s, Axioms.evaluate r.task r.init = some s ∧ Guaranteed { r with init := s } ∧
    (r.axioms = [] → s = r.init) ∧ (r.axioms ≠ [] → StableModel r.task r.init s ∧ ∀ s', StableModel r.task r.init s' → s' = s) := by
  have hcases : r.task.axioms = [] ↔ r.axioms = [] := by simp [Root.task]
  by_cases hax : r.axioms = []
  · have he : Axioms.evaluate r.task r.init = some r.init := by
      unfold Axioms.evaluate
      rw [hcases.mpr hax]
      rfl
    refine ⟨r.init, he, ⟨?_, ?_, ?_, ?_, ?_, ?_, ?_, ?_, ?_, mutex_sym hr⟩, fun _ => rfl, fun h => absurd hax h⟩
    · intro h
      rcases h with h | h
      · exact absurd (hcases.mpr hax) h
      · exact wf_root hr (wfAxioms_root hr (fun _ => h))
    · intro h
      exact plain_wf hr h
    · simpa [Root.task] using hr.nonempty
    · intro d hd hl
      simp only [Root.task, List.mem_map] at hd
      obtain ⟨v, hv, rfl⟩ := hd
      exact (hr.vars v hv).2.2.1 hl
    · exact ⟨hr.goal.1, hr.goal.2.1⟩
    · intro o ho
      simp only [Root.task, List.mem_map] at ho
      obtain ⟨o, ho, rfl⟩ := ho
      refine ⟨(hr.ops o ho).nonempty, fun e he => ?_⟩
      obtain ⟨v, h1, h2⟩ := ((hr.ops o ho).effect e he).2.2
      show r.task.layerOf _ = none
      rw [layerOf_root h1, h2]
    · intro o ho
      simp only [Root.task, List.mem_map] at ho
      obtain ⟨o, ho, rfl⟩ := ho
      exact (hr.ops o ho).cost
    · intro h; exact absurd (hcases.mpr hax) h
    · intro _ v x h
      exact default_init hr h
  · have hwa := wfAxioms_root hr (fun h => absurd (hcases.mp h) hax)
    have hwf := wf_root hr hwa
    obtain ⟨s, h1, h2, h3, h4, _⟩ := Axioms.C09_axiom_evaluation hwa (validInit_root hr)
    refine ⟨s, h1, ⟨?_, ?_, ?_, ?_, ?_, ?_, ?_, ?_, ?_, mutex_sym hr⟩, fun h => absurd h hax, fun _ => ⟨h3, h4⟩⟩
    · intro _
      exact wf_init hwf h2
    · intro h
      exact absurd (hcases.mp h) hax
    · simpa [Root.task] using hr.nonempty
    · intro d hd hl
      simp only [Root.task, List.mem_map] at hd
      obtain ⟨v, hv, rfl⟩ := hd
      exact (hr.vars v hv).2.2.1 hl
    · exact ⟨hr.goal.1, hr.goal.2.1⟩
    · intro o ho
      simp only [Root.task, List.mem_map] at ho
      obtain ⟨o, ho, rfl⟩ := ho
      refine ⟨(hr.ops o ho).nonempty, fun e he => ?_⟩
      obtain ⟨v, h1, h2⟩ := ((hr.ops o ho).effect e he).2.2
      show r.task.layerOf _ = none
      rw [layerOf_root h1, h2]
    · intro o ho
      simp only [Root.task, List.mem_map] at ho
      obtain ⟨o, ho, rfl⟩ := ho
      exact (hr.ops o ho).cost
    · intro _
      exact ⟨r.init, validInit_root hr, fun v x h => default_init hr h, stable_init (i := s) h3⟩
    · intro h; exact absurd (hcases.mp h) hax

/-- **C55** (every file): the reader ends with a task for which everything in `Guaranteed` holds, or with an input error; it never aborts, and the only access outside of a
vector is that for the variable of an effect or axiom whose number is too large. -/
theorem C55_accepted_partial (file : List Char) :
    (∃ r, readTask file = .ok r ∧ Guaranteed r) ∨ readTask file = .err ∨ ∃ var num, readTask file = .badVariable var num ∧ num ≤ var := by
  have h := safe_sections ⟨some file, none⟩ rfl
  unfold readTask
  cases hr : readSections ⟨some file, none⟩ with
  | ok p =>
    obtain ⟨r, l⟩ := p
    rw [hr] at h
    obtain ⟨s, h1, h2, _⟩ := guaranteed_of h.2
    left
    refine ⟨{ r with init := s }, ?_, h2⟩
    simp only [evaluateInit, h1]
  | err => exact Or.inr (Or.inl rfl)
  | abort => rw [hr] at h; exact absurd h (by simp [Good])
  | badVariable v n => rw [hr] at h; exact Or.inr (Or.inr ⟨v, n, rfl, h⟩)
  | ub => rw [hr] at h; exact absurd h (by simp [Good])

/-! ### Round trip -/

theorem defaults_zip : ∀ (vs : List SasVariable) (init : List Nat) (k : Nat), (setDefaults ((vs.zipIdx k).map (fun v => variableOf v.1 v.2)) init).map
    (fun v => (⟨v.domain, v.layer, v.default⟩ : Variable)) = (vs.zip init).map (fun v => ⟨v.1.valueNames.length, v.1.layer, v.2⟩)
  | [], _, _ => rfl
  | _ :: _, [], _ => rfl
  | v :: vs, x :: init, k => congrArg (_ :: ·) (defaults_zip vs init (k + 1))

theorem defaults_names : ∀ (vs : List SasVariable) (init : List Nat) (k : Nat), init.length = vs.length →
    (setDefaults ((vs.zipIdx k).map (fun v => variableOf v.1 v.2)) init).map (·.factNames) = vs.map (·.valueNames)
  | [], _, _, _ => rfl
  | _ :: _, [], _, h => by simp at h
  | v :: vs, x :: init, k, h => congrArg (_ :: ·) (defaults_names vs init (k + 1) (by simpa using h))

theorem rootOf_task {T : SasTask} : (rootOf T).task = T.task := by
  have h1 : (rootOf T).task.vars = T.task.vars := defaults_zip _ _ _
  have h2 : (rootOf T).task.ops = T.task.ops := by
    simp only [Root.task, SasTask.task, rootOf, List.map_map]
    rfl
  have h3 : (rootOf T).task.axioms = T.task.axioms := by
    simp only [Root.task, SasTask.task, rootOf, List.map_map]
    rfl
  show Task.mk (rootOf T).task.vars (rootOf T).task.ops (rootOf T).task.axioms _ _ = _
  rw [h1, h2, h3]
  rfl

theorem rootOf_names {T : SasTask} (hT : T.Valid) : (rootOf T).vars.map (·.factNames) = T.variables.map (·.valueNames) :=
  defaults_names _ _ _ hT.init

theorem rootOf_mutex {T : SasTask} {s : State} (f g : Fact) : ({ rootOf T with init := s } : Root).factsMutex f g = true ↔ T.Mutex f g := by
  unfold Root.factsMutex SasTask.Mutex rootOf
  by_cases h : f.var = g.var
  · simp [h]
  · rw [if_neg h]
    simp only [decide_eq_true_eq, List.mem_flatMap, mutexPairs, List.mem_map, List.mem_filter, Prod.mk.injEq, h, false_and, false_or, not_false_eq_true, true_and, ne_eq, decide_not, Bool.not_eq_true', decide_eq_false_iff_not]
    constructor
    · rintro ⟨m, hm, a, ha, b, ⟨hb, _⟩, rfl, rfl⟩
      exact ⟨m, hm, ha, hb⟩
    · rintro ⟨m, hm, h1, h2⟩
      exact ⟨m, hm, f, h1, g, ⟨h2, h⟩, rfl, rfl⟩

/-- **C55** (every valid task of the translator): what the translator writes is read as the task that is meant, with the same names of operators and facts and the same pairs of
facts that exclude each other; the initial values of derived variables are those that follow from the axioms. -/
theorem C55_round_trip {T : SasTask} (hT : T.Valid) : ∃ r, readTask (output T) = .ok r ∧ r.task = { T.task with init := r.init } ∧
    (T.axioms = [] → r.init = T.init) ∧ (T.axioms ≠ [] → StableModel T.task T.init r.init ∧ ∀ s, StableModel T.task T.init s → s = r.init) ∧
    r.ops.map (·.name) = T.operators.map (·.name) ∧ r.vars.map (·.factNames) = T.variables.map (·.valueNames) ∧
    ∀ f g, r.factsMutex f g = true ↔ T.Mutex f g := by
  have hread := readSections_ok hT
  have hok := safe_sections (at' (output T)) rfl
  rw [hread] at hok
  obtain ⟨s, h1, _, h3, h4⟩ := guaranteed_of hok.2
  rw [rootOf_task] at h1 h4
  have hax : (rootOf T).axioms = [] ↔ T.axioms = [] := by simp [rootOf]
  refine ⟨{ rootOf T with init := s }, ?_, ?_, fun h => h3 (hax.mpr h), fun h => h4 (fun e => h (hax.mp e)), ?_, rootOf_names hT, rootOf_mutex⟩
  · have : readSections ⟨some (output T), none⟩ = _ := hread
    unfold readTask
    rw [this]
    simp only [evaluateInit, rootOf_task, h1]
  · rw [← rootOf_task]
    rfl
  · simp only [rootOf, List.map_map]
    rfl

/-! ### Files that are not complete -/

/-- **C55** (every valid task, every point at which the translator may have been stopped): a file from which the end is missing is not accepted, unless only white space is
missing. -/
theorem C55_truncated {T : SasTask} (hT : T.Valid) {p q : List Char} (h : output T = p ++ q) (hq : ∃ c ∈ q, isSpace c = false) (r : Root) : readTask p ≠ .ok r := by
  have hq : blank q = false := by
    obtain ⟨c, hc, hs⟩ := hq
    simp only [blank, List.all_eq_false]
    exact ⟨c, hc, by simp [hs]⟩
  unfold readTask
  cases hr : readSections ⟨some p, none⟩ with
  | ok x => exact absurd hr (cut_sections hT h hq)
  | err => simp
  | abort => simp
  | badVariable v n => simp
  | ub => simp

/-- **C55**: more text at the end, or another version of the format, is an input error. -/
theorem C55_rejected {T : SasTask} (hT : T.Valid) : (∀ q, (∃ c ∈ q, isSpace c = false) → readTask (output T ++ q) = .err) ∧
    ∀ v rest, v ≠ 3 → v ≤ 2147483647 → readTask (line "begin_version".toList ++ (line (digits v) ++ rest)) = .err := by
  constructor
  · rintro q ⟨c, hc, hs⟩
    have hq : blank q = false := by
      simp only [blank, List.all_eq_false]
      exact ⟨c, hc, by simp [hs]⟩
    unfold readTask
    rw [show readSections ⟨some (output T ++ q), none⟩ = .err from trailing_sections hT hq]
  · intro v rest hv hi
    unfold readTask
    rw [show readSections ⟨some _, none⟩ = .err from other_version hv hi rest]

/-! ### The unchecked number of a variable -/

theorem bind_bad {α β : Type} {p : Read α} {f : α → Read β} {l : Lexer} {var num : Nat} (h : p l = .badVariable var num) : (p >>= f) l = .badVariable var num := by
  show Read.bind p f l = _
  unfold Read.bind
  rw [h]

/-- an operator with one effect, on a variable with this number -/
def strayOperator (var : Nat) : SasOperator := ⟨"stray".toList, [], [⟨var, none, 0, []⟩], 1⟩

theorem stray_effect {vars : List ExplicitVariable} {var : Nat} (hv : vars.length ≤ var) (hi : var ≤ IntMax) (rest : List Char) :
    readConditionalEffect vars (at' (outPrePost ⟨var, none, 0, []⟩ ++ rest)) = .badVariable var vars.length := by
  have hout : outPrePost ⟨var, none, 0, []⟩ ++ rest = line (digits 0 ++ ' ' :: (digits var ++ ' ' :: (optDigits none ++ ' ' :: digits 0))) ++ rest := by
    simp only [outPrePost, line, List.map_nil, List.flatten_nil, List.nil_append, List.length_nil, List.append_assoc, List.cons_append]
  have hwords : words (digits 0 ++ ' ' :: (digits var ++ ' ' :: (optDigits none ++ ' ' :: digits 0))) = [digits 0, digits var, optDigits none, digits 0] := by
    rw [words_cons (word_digits _), words_cons (word_digits _), words_cons (word_opt _), words_single (word_digits _)]
  have hname : NameOk (digits 0 ++ ' ' :: (digits var ++ ' ' :: (optDigits none ++ ' ' :: digits 0))) := by
    apply nameOk_append (word_digits _)
    have h1 := digits_newline var
    have h2 := opt_newline none
    have h3 := digits_newline 0
    simp [h1, h2, h3]
  have h1 : readFacts true vars (at' (line (digits 0 ++ ' ' :: (digits var ++ ' ' :: (optDigits none ++ ' ' :: digits 0))) ++ rest)) = .ok ([], ⟨some rest, some [digits var, optDigits none, digits 0]⟩) := by
    unfold readFacts
    exact (bind_ok (readNat_ok (read_first hname hwords rest) (by decide))).trans ((bind_ok (show eolUnless true _ = _ from pure_ok () _)).trans rfl)
  rw [hout]
  unfold readConditionalEffect
  refine (bind_ok h1).trans ((bind_ok (readNat_ok (read_next _) hi)).trans (bind_bad ?_))
  unfold variableAt
  rw [List.getElem?_eq_none hv]

theorem stray_operator {vars : List ExplicitVariable} {var : Nat} (hv : vars.length ≤ var) (hi : var ≤ IntMax) (metric : Bool) (rest : List Char) :
    readOperator metric vars (at' (outOperator (strayOperator var) ++ rest)) = .badVariable var vars.length := by
  unfold readOperator outOperator
  simp only [List.append_assoc, strayOperator]
  have h1 : ∀ rest, readFacts false vars (at' (line (digits 0) ++ rest)) = .ok ([], at' rest) := by
    intro rest
    unfold readFacts
    exact (bind_ok (readNat_line (by decide) _)).trans ((bind_ok (eolUnless_ok _)).trans rfl)
  refine (bind_ok (magic_ok ⟨by decide, by decide⟩ _)).trans ((bind_ok (readLine_line ⟨by decide, by decide⟩ _)).trans ((bind_ok (h1 _)).trans ((bind_ok (readNat_line (n := 1) (by decide) _)).trans
    ((bind_ok (require_ok (by decide) _)).trans ((bind_ok (eol_ok _)).trans (bind_bad ?_))))))
  refine bind_bad ?_
  have := stray_effect hv hi (line (digits 1) ++ (line "end_operator".toList ++ rest))
  simpa only [List.map_cons, List.map_nil, List.flatten_cons, List.flatten_nil, List.append_nil] using this

/-- **C55** fails for files with an effect on a variable that does not exist: instead of reporting an input error, the reader accesses `variables` outside of its bounds.
(Every valid task becomes an example when such an operator is added.) -/
theorem C55_unchecked_variable {T : SasTask} (hT : T.Valid) {var : Nat} (hv : T.variables.length ≤ var) (hi : var ≤ 2147483647) :
    readTask (output { T with operators := [strayOperator var] }) = .badVariable var T.variables.length := by
  have hs := same_variables (T := T)
  obtain ⟨hs', hd⟩ := same_defaults hs hT.init
  have hlen := hs'.1
  have h : readSections ⟨some (output { T with operators := [strayOperator var] }), none⟩ = .badVariable var T.variables.length := by
    rw [readSections_eq, output_eq]
    refine (bind_ok (readVersion_ok _)).trans ((bind_ok (readMetric_ok _ _)).trans ((bind_ok (readVariables_ok hT _)).trans ?_))
    unfold sectionsAfter outAfter
    refine (bind_ok (readMutexes_ok hT hs _)).trans ((bind_ok (readInit_ok hT hs _)).trans ((bind_ok (readGoal_ok hT hs' _)).trans (bind_bad ?_)))
    unfold readActions
    refine (bind_ok (readNat_line (n := 1) (by decide) _)).trans ((bind_ok (eol_ok _)).trans ?_)
    refine bind_bad ?_
    have := stray_operator (vars := setDefaults (T.variables.zipIdx.map (fun v => variableOf v.1 v.2)) T.init) (by omega) hi T.metric
      (line (digits T.axioms.length) ++ ((T.axioms.map outAxiom).flatten ++ []))
    rw [hlen] at this
    simpa only [List.map_cons, List.map_nil, List.flatten_cons, List.flatten_nil, List.append_nil] using this
  unfold readTask
  rw [h]

/-! ### A task -/

/-- Two switches and a derived variable "both off"; the operators turn one switch (the second one only if the first one is off); they exclude each other being on. -/
def switches : SasTask where
  «variables» := [⟨none, ["Atom on(a)".toList, "Atom off(a)".toList]⟩, ⟨none, ["Atom on(b)".toList, "Atom off(b)".toList]⟩, ⟨some 0, ["Atom dark()".toList, "NegatedAtom dark()".toList]⟩]
  mutexes := [[⟨0, 0⟩, ⟨1, 0⟩]]
  init := [0, 1, 1]
  goal := [⟨2, 0⟩]
  operators := [⟨"turn a".toList, [], [⟨0, some 0, 1, []⟩], 3⟩, ⟨"turn b".toList, [⟨0, 1⟩], [⟨1, none, 0, [⟨1, 1⟩]⟩, ⟨1, none, 1, [⟨1, 0⟩]⟩], 1⟩]
  axioms := [⟨[⟨0, 1⟩, ⟨1, 1⟩], ⟨2, 0⟩⟩]
  metric := true

theorem factOk_dec {T : SasTask} {f : Fact} (h : (match T.variables[f.var]? with | none => false | some v => decide (f.val < v.valueNames.length)) = true) : FactOk T f := by
  split at h
  · cases h
  · rename_i v hv
    exact ⟨v, hv, of_decide_eq_true h⟩

theorem switches_valid : switches.Valid where
  someVariable := by decide
  names := by
    have h : ∀ v ∈ switches.variables, ∀ n ∈ v.valueNames, ('\n' ∉ n ∧ ∃ c ∈ n, isSpace c = false) := by decide
    exact h
  domain := by decide
  derived := by decide
  layers := by
    intro v hv l hl
    simp only [switches, List.mem_cons, List.not_mem_nil, or_false] at hv
    rcases hv with rfl | rfl | rfl <;> cases hl
    decide
  fewVariables := by decide
  mutexes := by
    intro m hm
    simp only [switches, List.mem_singleton] at hm
    subst hm
    refine ⟨fun f hf => ?_, by decide⟩
    simp only [List.mem_cons, List.not_mem_nil, or_false] at hf
    rcases hf with rfl | rfl <;> exact factOk_dec rfl
  fewMutexes := by decide
  init := rfl
  initOk := by
    intro v x h
    match v, h with
    | 0, h => cases h; exact factOk_dec rfl
    | 1, h => cases h; exact factOk_dec rfl
    | 2, h => cases h; exact factOk_dec rfl
  goal := by
    refine ⟨fun f hf => ?_, by decide⟩
    simp only [switches, List.mem_singleton] at hf
    subst hf
    exact factOk_dec rfl
  someGoal := by decide
  goalOnce := by decide
  operators := by
    intro o ho
    simp only [switches, List.mem_cons, List.not_mem_nil, or_false] at ho
    rcases ho with rfl | rfl
    · refine ⟨⟨by decide, by decide⟩, ⟨by simp, by decide⟩, by simp, by decide, ?_, ?_, ?_, ?_, by decide⟩ <;> intro e he <;> simp only [List.mem_singleton] at he <;> subst he
      · intro x hx; cases hx; exact factOk_dec rfl
      · exact factOk_dec rfl
      · exact ⟨by simp, by decide⟩
      · rfl
    · refine ⟨⟨by decide, by decide⟩, ⟨?_, by decide⟩, by simp, by decide, ?_, ?_, ?_, ?_, by decide⟩
      · intro f hf
        simp only [List.mem_singleton] at hf
        subst hf
        exact factOk_dec rfl
      all_goals
        intro e he
        simp only [List.mem_cons, List.not_mem_nil, or_false] at he
      · rcases he with rfl | rfl <;> intro x hx <;> cases hx
      · rcases he with rfl | rfl <;> exact factOk_dec rfl
      · rcases he with rfl | rfl
        · refine ⟨fun f hf => ?_, by decide⟩
          simp only [List.mem_singleton] at hf
          subst hf
          exact factOk_dec rfl
        · refine ⟨fun f hf => ?_, by decide⟩
          simp only [List.mem_singleton] at hf
          subst hf
          exact factOk_dec rfl
      · rcases he with rfl | rfl <;> rfl
  fewOperators := by decide
  axioms := by
    intro a ha
    simp only [switches, List.mem_singleton] at ha
    subst ha
    refine ⟨⟨fun f hf => ?_, by decide⟩, factOk_dec rfl, ⟨0, rfl, fun c hc lc hlc => ?_⟩, by decide⟩
    · simp only [List.mem_cons, List.not_mem_nil, or_false] at hf
      rcases hf with rfl | rfl <;> exact factOk_dec rfl
    · simp only [List.mem_cons, List.not_mem_nil, or_false] at hc
      rcases hc with rfl | rfl <;> cases hlc
  fewAxioms := by decide

/-- the file of this task is read; the operators have their costs and preconditions, `dark` is false initially, and the switches exclude each other -/
example : ∃ r, readTask (output switches) = .ok r ∧ r.task.ops.map (·.cost) = [3, 1] ∧ r.task.ops.map (·.pre) = [[⟨0, 0⟩], [⟨0, 1⟩]] ∧ r.init = [0, 1, 1] ∧
    r.factsMutex ⟨1, 0⟩ ⟨0, 0⟩ = true ∧ r.factsMutex ⟨1, 0⟩ ⟨0, 1⟩ = false := by
  obtain ⟨r, h1, h2, _, h4, _, _, h7⟩ := C55_round_trip switches_valid
  refine ⟨r, h1, by rw [h2]; rfl, by rw [h2]; rfl, ?_, (h7 _ _).mpr (Or.inr ⟨by decide, ⟨_, List.mem_singleton.mpr rfl, by decide, by decide⟩⟩), ?_⟩
  · obtain ⟨_, h5⟩ := h4 (by decide)
    have hr : RootOk (rootOf switches) := by
      have hok := safe_sections (at' (output switches)) rfl
      rw [readSections_ok switches_valid] at hok
      exact hok.2
    obtain ⟨s, e1, _, _, e4⟩ := guaranteed_of hr
    have e5 := (e4 (by decide)).1
    rw [rootOf_task] at e1 e5
    have e6 : Axioms.evaluate switches.task switches.init = some [0, 1, 1] := by decide +kernel
    rw [← h5 s e5]
    exact Option.some.inj (e1.symm.trans e6)
  · rw [Bool.eq_false_iff]
    intro h
    rcases (h7 _ _).mp h with h | ⟨_, m, hm, h1, h2⟩
    · exact absurd h.1 (by decide)
    · simp only [switches, List.mem_singleton] at hm
      subst hm
      exact absurd h2 (by decide)

/-- such a file with a stray effect -/
example : readTask (output { switches with operators := [strayOperator 7] }) = .badVariable 7 3 := C55_unchecked_variable switches_valid (by decide) (by decide)

/-- the file without its last character but one, and with a line too many -/
example : (∀ r, readTask (output switches).dropLast.dropLast ≠ .ok r) ∧ readTask (output switches ++ "begin_operator".toList) = .err :=
  ⟨fun r => C55_truncated switches_valid (q := "e\n".toList) (by decide +kernel) ⟨'e', by decide, by decide⟩ r, (C55_rejected switches_valid).1 _ ⟨'b', by decide, by decide⟩⟩

end Verif.SasFile
