import Verif.Lemmas.InstantiatePlans
import Verif.Lemmas.StripsRename
import Verif.Props.AxiomRules

/-
C77: The instantiation of a normalised task (relaxed exploration, grounding) keeps its plans.
-/
namespace Verif.Instantiate
open Verif.Datalog Verif.Lifted
open Verif.Strips (Literal)
variable {P V O T F : Type} [DecidableEq P] [DecidableEq V] [DecidableEq O] [DecidableEq T] [DecidableEq F]

/-- the result of the exploration, once it is given enough time -/
def Explores (e : PrologProgram.Env (DPred P T F) V O) (keepNoOps : Bool) (L : LTask P V O T F) (G : Grounded P O) : Prop := ∃ n, ∀ m, n ≤ m → explore m e keepNoOps L = some G

variable {L : LTask P V O T F} {e : PrologProgram.Env (DPred P T F) V O} {ar : P → Nat} {fnAr : F → Nat} {keep : Bool} {G : Grounded P O}

theorem Explores.unique {G' : Grounded P O} (h : Explores e keep L G) (h' : Explores e keep L G') : G = G' := by
  obtain ⟨n, hn⟩ := h
  obtain ⟨n', hn'⟩ := h'
  have h1 := hn (max n n') (le_max_left _ _)
  rw [hn' (max n n') (le_max_right _ _)] at h1
  exact (Option.some.inj h1).symm

theorem explores_grounding [Nonempty O] (hL : L.Ok ar fnAr) (he : Names e L) (keep : Bool) : ∃ G out, Explores e keep L G ∧ Model L out ∧ Grounding keep L out G := by
  obtain ⟨prog, n, out, h1, h2, hM⟩ := explored hL he
  obtain ⟨G, hG, h3⟩ := instantiate_ok hL hM keep
  refine ⟨G, out, ⟨n, fun m hm => ?_⟩, hM, h3⟩
  unfold explore
  rw [h1]
  simp only []
  rw [h2 m hm]
  exact hG

theorem Explores.grounding [Nonempty O] (hL : L.Ok ar fnAr) (he : Names e L) (h : Explores e keep L G) : ∃ out, Model L out ∧ Grounding keep L out G := by
  obtain ⟨G', out, h1, h2, h3⟩ := explores_grounding hL he keep
  obtain rfl := h.unique h1
  exact ⟨out, h2, h3⟩

/-- **C77.** For every normalised task the exploration and the instantiation end without a failed assertion. -/
theorem C77_defined [Nonempty O] (hL : L.Ok ar fnAr) (he : Names e L) (keep : Bool) : ∃ G, Explores e keep L G := by
  obtain ⟨G, _, h, _⟩ := explores_grounding hL he keep
  exact ⟨G, h⟩

/-- **C77.** If the goal is not relaxed reachable or impossible, then the task has no plan: `translate.py` writes an unsolvable task. -/
theorem C77_unsolvable [Nonempty O] (hL : L.Ok ar fnAr) (he : Names e L) (h : Explores e keep L G) (hu : G.relaxedReachable = false ∨ G.goal = none) (p : List (List Char × Nat)) : ¬ L.HasPlan p := by
  obtain ⟨out, hM, hG⟩ := h.grounding hL he
  rintro ⟨s, u, hi, hr, hg⟩
  have hu' := run_base (goal := []) hL hM hG hr (initial_base hL hM hG hi)
  rcases hu with hu | hu
  · obtain ⟨o⟩ := ‹Nonempty O›
    have : G.relaxedReachable = true := hG.reachable.mpr ⟨[], hM.goal (fun hf => hg _ hf fun _ => o) fun a ha σ => hu'.found _ (hg _ ha σ)⟩
    rw [hu] at this
    simp at this
  · exact hG.noGoal hu u hu'.toInv hg

/-- **C77.** Every plan of the grounded task is a plan of the task, with the same names and costs.  Every plan of the task is a plan of the grounded task, up to actions without effects, which are left out unless they are to be kept. -/
theorem C77_plans [Nonempty O] (hL : L.Ok ar fnAr) (he : Names e L) (h : Explores e keep L G) {goal : List (Literal (GAtom P O))} (hgoal : G.goal = some goal) :
    (∀ p, (task L G goal).HasPlan p → L.HasPlan p) ∧ (L.Stratifiable → ∀ p, L.HasPlan p → ∃ p', p'.Sublist p ∧ (task L G goal).HasPlan p' ∧ (keep = true → p' = p)) := by
  obtain ⟨out, hM, hG⟩ := h.grounding hL he
  obtain ⟨hg, _⟩ := hG.goal goal hgoal
  constructor
  · rintro p ⟨s, as, u, hi, hr, hgo, rfl⟩
    have hi' := (initial_iff hL hM hG).mpr hi
    obtain ⟨h1, h2⟩ := run_up hL hM hG hr (initial_base hL hM hG hi')
    exact ⟨s, u, hi', h1, fun c hc σ => (hg σ u (h2.rel hM)).mp hgo c hc⟩
  · rintro hst p ⟨s, u, hi, hr, hgo⟩
    obtain ⟨h1, as, h2, h3, h4⟩ := run_down hL hM hG hst hr (initial_base (goal := goal) hL hM hG hi) ⟨_, hi⟩
    obtain ⟨o⟩ := ‹Nonempty O›
    exact ⟨_, h3, ⟨s, as, u, (initial_iff hL hM hG).mp hi, h2, (hg (fun _ => o) u (h1.rel hM)).mpr fun c hc => hgo c hc _, rfl⟩, h4⟩

/-- **C77.** Both tasks have the same reachable states, and the atoms that are not listed as fluent have the same value in all of them. -/
theorem C77_states [Nonempty O] (hL : L.Ok ar fnAr) (he : Names e L) (h : Explores e keep L G) (goal : List (Literal (GAtom P O))) :
    (∀ s, (task L G goal).Reachable s → L.Reachable s) ∧ (L.Stratifiable → ∀ s, L.Reachable s → (task L G goal).Reachable s) ∧ ∀ s, L.Reachable s → ∀ p, p ∉ G.fluent → (s p ↔ p ∈ L.init) := by
  obtain ⟨out, hM, hG⟩ := h.grounding hL he
  refine ⟨?_, ?_, ?_⟩
  · rintro s ⟨s0, as, hi, hr⟩
    have hi' := (initial_iff hL hM hG).mpr hi
    exact ⟨s0, _, hi', (run_up hL hM hG hr (initial_base hL hM hG hi')).1⟩
  · rintro hst s ⟨s0, p, hi, hr⟩
    obtain ⟨_, as, h2, _⟩ := run_down hL hM hG hst hr (initial_base (goal := goal) hL hM hG hi) ⟨_, hi⟩
    exact ⟨s0, as, (initial_iff hL hM hG).mp hi, h2⟩
  · rintro s ⟨s0, p, hi, hr⟩ q hq
    rw [hG.fluent] at hq
    exact (run_base (goal := goal) hL hM hG hr (initial_base hL hM hG hi)).rel hM q hq

/-- **C77.** The lists of reachable parameters: for each action there is one, and it has the parameters of all instances that can be applied in a reachable state.  All its elements have the right types. -/
theorem C77_params [Nonempty O] (hL : L.Ok ar fnAr) (he : Names e L) (h : Explores e keep L G) : G.params.length = L.actions.length ∧ ∀ (i : Nat) (A : LAction P V O T F) (r : List (List O)), L.actions[i]? = some A → G.params[i]? = some r →
    (∀ s, L.Reachable s → ∀ σ, L.Typed A.params σ → (∃ n, L.CostValue σ n A.cost) → (∀ c ∈ A.pre, c.holds σ s) → A.params.map (fun p => σ p.1) ∈ r) ∧ ∀ os ∈ r, ∃ σ, os = A.params.map (fun p => σ p.1) ∧ L.Typed A.params σ := by
  obtain ⟨out, hM, hG⟩ := h.grounding hL he
  rw [hG.params]
  refine ⟨by simp [reachableParams], fun i A r hA hr => ?_⟩
  have hr' : r = out.filterMap (actionArgs i A.params.length) := by
    simpa [reachableParams, hA, eq_comm] using hr
  subst hr'
  constructor
  · rintro s ⟨s0, p, hi, hrun⟩ σ ht hc hpre
    have hb := run_base (goal := []) hL hM hG hrun (initial_base hL hM hG hi)
    exact List.mem_filterMap.mpr ⟨⟨.action i, A.params.map (fun p => σ p.1)⟩, hM.act i A σ hA ht (fun hf => hpre _ hf) (fun a ha => hb.found _ (hpre _ ha)) hc, by simp [actionArgs]⟩
  · intro os hos
    obtain ⟨⟨q, args⟩, ha, h1⟩ := List.mem_filterMap.mp hos
    cases q <;> simp [actionArgs] at h1
    obtain ⟨rfl, rfl⟩ := h1
    obtain ⟨A', σ, hA', rfl, ht, _⟩ := hM.typedAct _ _ ha
    rw [hA] at hA'
    cases hA'
    exact ⟨σ, by rw [List.take_of_length_le (by simp)], ht⟩

/-- **C77.** The grounded task has what the next steps of the translation need: all its atoms are listed as fluent, actions do not change derived atoms, and its axioms are stratifiable if those of the task are. -/
theorem C77_grounded [Nonempty O] (hL : L.Ok ar fnAr) (he : Names e L) (h : Explores e keep L G) {goal : List (Literal (GAtom P O))} (hgoal : G.goal = some goal) :
    (∀ p, (task L G goal).Mentions p → p ∈ G.fluent) ∧ (task L G goal).DerivedOnly ∧ (task L G goal).fromHeads = task L G goal ∧ (L.Stratifiable → (task L G goal).Stratifiable) := by
  obtain ⟨out, hM, hG⟩ := h.grounding hL he
  have hhead : ∀ p, (task L G goal).Head p → L.Derived p ∧ up p ∈ out := fun p hp => derived_of (goal := goal) hG (task_derived.mpr hp)
  refine ⟨?_, ⟨?_, ?_⟩, rfl, ?_⟩
  · rw [hG.fluent]
    rintro p (⟨l, hl, rfl⟩ | ⟨a, ha, h⟩ | ⟨r, hr, h⟩)
    · exact (hG.goal goal hgoal).2 l hl
    · obtain ⟨i, A, σ, _, _, _, _, hi⟩ := hG.acts a ha
      rcases h with ⟨l, hl, rfl⟩ | ⟨x, hx, rfl | ⟨l, hl, rfl⟩⟩
      · exact hi.atoms.1 l hl
      · exact (hi.atoms.2 x hx).1
      · exact (hi.atoms.2 x hx).2 l hl
    · rcases h with rfl | ⟨l, hl, rfl⟩
      · obtain ⟨h1, h2⟩ := hhead _ ⟨r, hr, rfl⟩
        exact derived_fluent h1 h2
      · obtain ⟨x, σ, _, _, h1, _⟩ := hG.axs r hr
        obtain ⟨_, _, _, h2⟩ := (h1.body l).mp hl
        exact h2
  · intro a ha x hx hh
    obtain ⟨i, A, σ, hA, _, _, _, hi⟩ := hG.acts a ha
    obtain ⟨ef, hef, h1⟩ := hi.effects x hx
    obtain ⟨y, hy, h2⟩ := (hhead _ hh).1
    exact hL.derivedEffect A (List.mem_of_getElem? hA) ef hef y hy (h2.trans h1)
  · exact fun p hp hh => hL.derivedInit p hp (hhead p hh).1
  · rintro ⟨layer, hl⟩
    refine ⟨layer, fun r hr _ l hl' hh => ?_⟩
    obtain ⟨x, σ, hx, ht, h1, _⟩ := hG.axs r hr
    obtain ⟨a, ha, h2, _⟩ := (h1.body l).mp hl'
    have hd := (hhead _ hh).1
    rw [← h2] at hd ⊢
    rw [h1.head]
    exact hl x hx σ ht l.negated a ha hd

/-- atoms of tasks whose predicates and objects are strings -/
def stringAtom : GAtom (List Char) (List Char) ≃ FactGroups.Atom where
  toFun a := ⟨a.pred, a.args⟩
  invFun a := ⟨a.predicate, a.args⟩
  left_inv _ := rfl
  right_inv _ := rfl

/-- **C77**, with C72 to C76: what happens to a normalised task (exploration, instantiation, treatment of axioms, choice of groups, introduction of finite-domain variables), for any invariants that are correct.  Every plan of the resulting task
is a plan of the given one; every plan of the given task is one of the resulting task, up to actions that can be left out. -/
theorem C77_pipeline {V T F : Type} [DecidableEq V] [DecidableEq T] [DecidableEq F] {L : LTask (List Char) V (List Char) T F} {e : PrologProgram.Env (DPred (List Char) T F) V (List Char)} {ar : List Char → Nat} {fnAr : F → Nat}
    (hL : L.Ok ar fnAr) (he : Names e L) (hst : L.Stratifiable) {o : StripsToSas.Options} {G : Grounded (List Char) (List Char)} (h : Explores e o.keepNoOps L G) {goal : List (Literal (GAtom (List Char) (List Char)))} (hgoal : G.goal = some goal)
    {objects : List (List Char)} {invariants : List (List FactGroups.Atom)} (hI : FactGroups.InvariantsOf ((task L G goal).rename stringAtom) objects invariants) {atoms : List FactGroups.Atom} (ha : atoms.Nodup) (hat : ∀ p ∈ G.fluent, stringAtom p ∈ atoms) (max : Bool) :
    ∃ ax ls groups mutexGroups names S, AxiomRules.handleAxioms max ((task L G goal).rename stringAtom) = .ok ax ls ∧
      FactGroups.computeGroups o.partialEncoding objects invariants atoms (FactGroups.negativeInGoal ((task L G goal).rename stringAtom).goal) = some (groups, mutexGroups, names) ∧
      StripsToSas.translateTask o groups mutexGroups names { (task L G goal).rename stringAtom with axioms := ax, layers := ls } = some S ∧ (∀ p, S.HasPlan p → L.HasPlan p) ∧
      ∀ p, L.HasPlan p → ∃ p', p'.Sublist p ∧ S.HasPlan p' ∧ (o.keepNoOps = true → goal ≠ [] → p' = p) := by
  obtain ⟨h1, h2, h3, h4⟩ := C77_grounded hL he h hgoal
  obtain ⟨h5, h6⟩ := C77_plans hL he h hgoal
  have hfrom := Strips.fromHeads_rename stringAtom h3
  obtain ⟨ax, ls, groups, mutexGroups, names, S, h7, h8, h9, h10, h11⟩ := AxiomRules.C74_pipeline (Strips.stratifiable_rename stringAtom (h4 hst)) (Strips.derivedOnly_rename stringAtom h2) ha (by
    intro q hq
    obtain ⟨p, hp, rfl⟩ := Strips.mentions_rename stringAtom hq
    exact hat p (h1 p hp)) (hfrom.symm ▸ hI) max o
  refine ⟨ax, ls, groups, mutexGroups, names, S, h7, h8, h9, fun p hp => h5 p ?_, fun p hp => ?_⟩
  · have := h10 p hp
    rw [hfrom] at this
    exact (Strips.hasPlan_rename_iff stringAtom).mp this
  · obtain ⟨p', h12, h13, h14⟩ := h6 hst p hp
    obtain ⟨p'', h15, h16, h17⟩ := h11 p' (by rw [hfrom]; exact Strips.hasPlan_rename stringAtom h13)
    refine ⟨p'', h15.trans h12, h16, fun hk hg => ?_⟩
    rw [h17 hk (fun hn => hg (by simpa [Strips.StripsTask.rename, task] using hn)), h14 hk]

/-! Example: a truck drives on roads.  Predicates: 0 is "=", 1 is at(truck, place), 2 is road(place, place), 3 is visited(place), 4 is the derived predicate open(place): a road leads to a place that was not visited.
Variables, objects, types and functions are numbers. -/
namespace C77Example

/-- drive(10, 11, 12), with a conditional effect for all places: the place where the truck is was visited -/
def drive : LAction Nat Nat Nat Nat Nat where
  name := "drive".toList
  params := [(10, 2), (11, 1), (12, 1)]
  external := 3
  pre := [.lit false ⟨1, [.var 10, .var 11]⟩, .lit false ⟨2, [.var 11, .var 12]⟩, .lit true ⟨0, [.var 11, .var 12]⟩]
  effects := [⟨[], [], true, ⟨1, [.var 10, .var 11]⟩⟩, ⟨[], [], false, ⟨1, [.var 10, .var 12]⟩⟩, ⟨[(13, 1)], [.lit false ⟨1, [.var 10, .var 13]⟩], false, ⟨3, [.var 13]⟩⟩]
  cost := .fn 0 [.var 11, .var 12]

/-- places 1, 2 and 3, and the truck 4; types: 1 is place, 2 is truck, 0 is object -/
def ex : LTask Nat Nat Nat Nat Nat where
  eq := 0
  objectName := fun o => (toString o).toList
  supertypes := fun t => if t = 0 then [] else [0]
  objects := [(1, 1), (2, 1), (3, 1), (4, 2)]
  init := [⟨1, [4, 1]⟩, ⟨2, [1, 2]⟩, ⟨2, [2, 1]⟩, ⟨2, [3, 1]⟩, ⟨2, [1, 1]⟩, ⟨0, [1, 1]⟩, ⟨0, [2, 2]⟩, ⟨0, [3, 3]⟩, ⟨0, [4, 4]⟩]
  values := [((0, [1, 2]), 5), ((0, [2, 1]), 7), ((0, [1, 1]), 2), ((0, [3, 1]), 1)]
  goal := [.lit false ⟨3, [.const 1]⟩, .lit true ⟨4, [.const 2]⟩]
  actions := [drive]
  axioms := [⟨4, [(20, 1), (21, 1)], 1, [.lit false ⟨2, [.var 20, .var 21]⟩, .lit true ⟨3, [.var 21]⟩]⟩]
  metric := true

/-- arities -/
def exAr (p : Nat) : Nat := if p = 3 ∨ p = 4 then 1 else 2

theorem ex_ok : ex.Ok exAr (fun _ => 2) where
  initArity := by decide
  valueArity := by decide
  goalArity := by simp [condArity, ex, exAr]
  preArity := by simp [condArity, ex, drive, exAr]
  costArity := by simp +contextual [ex, drive]
  effectArity := by simp [condArity, ex, drive, exAr]
  axiomArity := by simp [condArity, ex, exAr]
  eqArity := rfl
  eqSame := by decide
  eqOnly := by simp [ex]
  eqEffect := by simp [ex, drive]
  eqAxiom := by simp [ex]
  initObjects := by simp [ex]
  valueObjects := by simp [ex]
  effectObjects := by simp [ex, drive]
  preVars := by decide
  costVars := by
    intro A hA f args h
    obtain rfl : A = drive := by simpa [ex] using hA
    simp only [drive, CostExpr.fn.injEq] at h
    obtain ⟨rfl, rfl⟩ := h
    decide
  effectVars := by
    intro A hA e he v hv
    obtain rfl : A = drive := by simpa [ex] using hA
    simp only [drive, List.mem_cons, List.not_mem_nil, or_false] at he
    rcases he with rfl | rfl | rfl <;> simp [condVars, SymAtom.vars, Term.var?, drive] at hv ⊢ <;> omega
  axiomVars := by decide
  goalVars := rfl
  actionParams := by decide
  axiomParams := by decide
  effectParams := by decide
  derivedInit := by simp [ex, LTask.Derived]
  derivedEffect := by decide
  functional := by
    intro k n m hn hm
    have : ∀ x ∈ ex.values, ∀ y ∈ ex.values, x.1 = y.1 → x.2 = y.2 := by decide
    exact this _ hn _ hm rfl

/-- lists in their given order, and new variables from 100 on -/
def env : PrologProgram.Env (DPred Nat Nat Nat) Nat Nat := ⟨.pred 0, .object, .new, fun _ i => 100 + i, id, id, id⟩

theorem names : Names env ex where
  ok := ⟨fun _ => .refl _, fun _ => .refl _, fun _ => .refl _, fun i j h => by simpa [env] using h, fun _ _ i j h => by simpa [env] using h⟩
  eq := rfl
  object := rfl
  name _ := rfl
  fresh v i h := by
    have : ∀ w ∈ ex.vars, w < 100 := by decide
    have := this _ h
    simp only [env] at this
    omega

theorem stratifiable : ex.Stratifiable := by
  refine ⟨fun _ => 0, fun x hx σ _ n a ha hd => ?_⟩
  obtain ⟨y, hy, h⟩ := hd
  simp only [ex, List.mem_singleton] at hx hy
  subst hx hy
  simp only [List.mem_cons, Part.lit.injEq, List.not_mem_nil, or_false] at ha
  rcases ha with ⟨_, rfl⟩ | ⟨_, rfl⟩ <;> simp [SymAtom.inst] at h

/-- the hypotheses are met -/
example : ∃ G, Explores env false ex G ∧ ∀ goal, G.goal = some goal → (∀ p, (task ex G goal).HasPlan p → ex.HasPlan p) ∧ ∀ p, ex.HasPlan p → ∃ p', p'.Sublist p ∧ (task ex G goal).HasPlan p' := by
  obtain ⟨G, h⟩ := C77_defined ex_ok names false
  refine ⟨G, h, fun goal hg => ?_⟩
  obtain ⟨h1, h2⟩ := C77_plans ex_ok names h hg
  refine ⟨h1, fun p hp => ?_⟩
  obtain ⟨p', h3, h4, _⟩ := h2 stratifiable p hp
  exact ⟨p', h3, h4⟩

/-- the truck can drive from 1 to 2 and back; it cannot get to 3, and does not drive from 1 to 1; open(3) is possible because of the road from 3 -/
example : (explore 300 env false ex).map (fun G => (G.relaxedReachable, G.actions.map (fun a => (String.ofList a.name, a.cost)), G.axioms.map (·.head))) =
    some (true, [("drive 4 1 2", 5), ("drive 4 2 1", 7)], [⟨4, [1]⟩, ⟨4, [2]⟩, ⟨4, [3]⟩, ⟨4, [1]⟩]) := by decide +kernel

/-- the cost of "visit" for a place x is the value of the function for (x, x), which is only defined for (1, 2) -/
def loopCost : LTask Nat Nat Nat Nat Nat where
  eq := 0
  objectName := fun o => (toString o).toList
  supertypes := fun t => if t = 0 then [] else [0]
  objects := [(1, 1), (2, 1)]
  init := [⟨0, [1, 1]⟩, ⟨0, [2, 2]⟩]
  values := [((0, [1, 2]), 5)]
  goal := [.lit false ⟨1, [.const 1]⟩]
  actions := [⟨"visit".toList, [(10, 1)], 1, [], [⟨[], [], false, ⟨1, [.var 10]⟩⟩], .fn 0 [.var 10, .var 10]⟩]
  axioms := []
  metric := true

/-- **C77**, why no variable may occur twice in the cost of an action: no instance of the action has a cost, so that the task has no plan and none of the actions may be instantiated.  But the exploration finds the instance for 1 (see C76_duplicates_fail),
and the instantiation then fails with the assertion "Could not find instantiation for PNE!". -/
theorem C77_cost_fails : (∀ A ∈ loopCost.actions, ∀ σ n, ¬ loopCost.CostValue σ n A.cost) ∧
    (∃ prog out, PrologProgram.translate env (facts loopCost) (rules loopCost) = some prog ∧ BuildModel.computeModel 300 prog.1 prog.2 = .ok out ∧ ⟨.action 0, [1]⟩ ∈ out ∧ instantiate false loopCost out = none) := by
  constructor
  · intro A hA σ n h
    simp only [loopCost, List.mem_singleton] at hA
    subst hA
    simp only [LTask.CostValue, loopCost, List.map_cons, List.map_nil, Term.value, List.mem_singleton, Prod.mk.injEq, List.cons.injEq] at h
    omega
  · have hd : (match PrologProgram.translate env (facts loopCost) (rules loopCost) with
        | none => false
        | some prog => match BuildModel.computeModel 300 prog.1 prog.2 with
          | .ok out => decide ((⟨.action 0, [1]⟩ : GAtom (DPred Nat Nat Nat) Nat) ∈ out) && (instantiate false loopCost out).isNone
          | _ => false) = true := by decide +kernel
    split at hd
    · simp at hd
    · rename_i prog hp
      split at hd
      · rename_i out ho
        simp only [Bool.and_eq_true, decide_eq_true_eq, Option.isNone_iff_eq_none] at hd
        exact ⟨prog, out, hp, ho, hd⟩
      · simp at hd

end C77Example

end Verif.Instantiate
