import Verif.Lemmas.LandmarkFactories
import Verif.Props.Landmarks

/-
C61: the landmark factories of Zhu and Givan and of exhaustive search.
-/
namespace Verif.Landmarks
variable {t : Task}

/-- The relaxed exploration is defined, ends, and reaches exactly the facts that can be reached in the delete relaxation without the
excluded facts (for tasks with axioms and conditional effects, too). -/
theorem C61_exploration (hf : t.FactsValid) (hs : t.ValidState t.init) {X : List Fact} (hX : ∀ f ∈ X, t.ValidFact f) (unary : Bool) :
    ∃ reached, computeRelaxedReachability t X unary = some reached ∧ ∀ f, f ∈ reached ↔ t.ReachAvoiding X unary f := by
  obtain ⟨r, h1, h2, _⟩ := reachability_spec (unary := unary) hf hs hX
  exact ⟨r, h1, h2⟩

/-- The achievers that are computed for a graph with atomic and disjunctive landmarks are complete: whenever a landmark becomes true
(for the first time) on a plan, the operator is one of the possible (first) achievers. -/
theorem C61_achievers (hwf : t.WF) (hax : t.axioms = []) (hun : t.UnconditionalEffectsHold) {g : Graph} (hg : g.Valid t)
    (hsimple : ∀ n ∈ g, n.landmark.type = .disjunctive ∨ ∃ f, n.landmark.atoms = [f]) (hder : ∀ n ∈ g, n.landmark.isDerived = false) :
    ∃ g', calcAchievers t g = some g' ∧ g'.Valid t ∧ g'.AchieversComplete t ∧ g'.WithoutAxioms t.ops.length ∧
      g'.map (fun n => (n.landmark.atoms, n.landmark.type, n.landmark.isTrueInGoal, n.parents, n.children)) = g.map (fun n => (n.landmark.atoms, n.landmark.type, n.landmark.isTrueInGoal, n.parents, n.children)) := by
  obtain ⟨g', h1, h2, h3, h4, h5⟩ := calcAchievers_valid hwf hax hun hg hsimple hder
  refine ⟨g', h1, h3, h4, h5, ?_⟩
  clear h1 h3 h4 h5 hg hsimple hder
  induction h2 with
  | nil => rfl
  | cons h _ ih => rw [List.map_cons, List.map_cons, ih, h.atoms, h.type, h.goal, h.parents, h.children]

/-- The computed achievers, also for tasks with axioms and for conjunctive landmarks: possible achievers are the operators and axioms with
an effect on an atom of the landmark; first achievers are those of them whose conditions can be reached in the delete relaxation
without the atoms of the landmark. -/
theorem C61_achievers_exact (hf : t.FactsValid) (hs : t.ValidState t.init) (g : Graph) (hg : ∀ n ∈ g, ∀ f ∈ n.landmark.atoms, t.ValidFact f) :
    ∃ g', calcAchievers t g = some g' ∧ List.Forall₂ (fun n n' : Node =>
      (∀ id, id ∈ n'.landmark.possibleAchievers ↔ ∃ o, getOperatorOrAxiom t id = some o ∧ ∃ e ∈ o.effects, e.fact ∈ n.landmark.atoms) ∧
      (∀ id, id ∈ n'.landmark.firstAchievers ↔ ∃ o, getOperatorOrAxiom t id = some o ∧ (∀ q ∈ o.pre, t.ReachAvoiding n.landmark.atoms false q) ∧
        ∃ e ∈ o.effects, e.fact ∈ n.landmark.atoms ∧ ∀ q ∈ e.conds, t.ReachAvoiding n.landmark.atoms false q) ∧
      (n'.landmark.isDerived = true ↔ n.landmark.isDerived = true ∨ ∃ f ∈ n.landmark.atoms, t.derived f.var)) g g' := by
  obtain ⟨g', h1, h2⟩ := calcAchievers_spec hf hs g hg
  refine ⟨g', h1, h2.imp fun n n' h => ⟨fun id => ?_, fun id => ?_, h.derived⟩⟩
  · simp only [getOperatorOrAxiom_iff]
    exact h.possible id
  · simp only [getOperatorOrAxiom_iff]
    exact h.first id

/-- what the graph of a factory for atomic landmarks contains: the landmarks `N`, and natural orderings `O` -/
theorem graph_statement {G N : Fact → Prop} {O : Fact → Fact → Prop} {g g' : Graph} (h : ZInv G N O g) (hf : List.Forall₂ (AchieversOf t) g g') :
    (∀ n ∈ g', n.landmark.type = .atomic ∧ ∃ f, n.landmark.atoms = [f]) ∧ (∀ f, (∃ n ∈ g', n.landmark.atoms = [f]) ↔ N f) ∧
    (∀ n ∈ g', n.landmark.isTrueInGoal = true ↔ ∃ f, n.landmark.atoms = [f] ∧ G f) ∧
    (∀ (i j : Nat) (a b : Node) (x y : Fact), g'[i]? = some a → g'[j]? = some b → a.landmark.atoms = [x] → b.landmark.atoms = [y] →
      ∀ ty, ((j, ty) ∈ a.children ↔ ty = .natural ∧ O x y) ∧ ((i, ty) ∈ b.parents ↔ ty = .natural ∧ O x y)) := by
  have hrev : ∀ {i : Nat} {n' : Node}, g'[i]? = some n' → ∃ n, g[i]? = some n ∧ AchieversOf t n n' := by
    intro i n' hn
    have hlt := (List.getElem?_eq_some_iff.mp hn).1
    rw [← hf.length_eq] at hlt
    obtain ⟨b, hb, hr⟩ := forall₂_getElem hf (List.getElem?_eq_getElem hlt)
    rw [hn] at hb
    cases hb
    exact ⟨_, List.getElem?_eq_getElem hlt, hr⟩
  refine ⟨fun n' hn' => ?_, fun f => ⟨?_, fun hN => ?_⟩, fun n' hn' => ?_, fun i j a b x y ha hb hx hy ty => ?_⟩
  · obtain ⟨n, hn, hr⟩ := forall₂_mem_right hf hn'
    obtain ⟨f, c, h1, _, _⟩ := h.node n hn
    rw [hr.type, hr.atoms, h1]
    exact ⟨rfl, f, rfl⟩
  · rintro ⟨n', hn', hat⟩
    obtain ⟨n, hn, hr⟩ := forall₂_mem_right hf hn'
    obtain ⟨x, c, h1, h2, _⟩ := h.node n hn
    rw [hr.atoms, h1] at hat
    simp only [atomicLandmark, List.cons.injEq, and_true] at hat
    rwa [← hat]
  · obtain ⟨i, n, hn, hat⟩ := h.has f hN
    obtain ⟨n', hn', hr⟩ := forall₂_getElem hf hn
    exact ⟨n', List.mem_of_getElem? hn', by rw [hr.atoms, hat]⟩
  · obtain ⟨n, hn, hr⟩ := forall₂_mem_right hf hn'
    obtain ⟨f, c, h1, _, h3⟩ := h.node n hn
    rw [hr.goal, hr.atoms, h1]
    simp only [atomicLandmark, List.cons.injEq, and_true, exists_eq_left']
    exact h3
  · obtain ⟨a0, ha0, hra⟩ := hrev ha
    obtain ⟨b0, hb0, hrb⟩ := hrev hb
    rw [hra.atoms] at hx
    rw [hrb.atoms] at hy
    rw [hra.children, hrb.parents, h.ch i a0 x ha0 hx j ty, h.pa j b0 y hb0 hy i ty]
    constructor
    · refine and_congr Iff.rfl ⟨?_, fun ho => ⟨y, ⟨b0, hb0, hy⟩, ho⟩⟩
      rintro ⟨z, hz, ho⟩
      rwa [hz.inj ⟨b0, hb0, hy⟩] at ho
    · refine and_congr Iff.rfl ⟨?_, fun ho => ⟨x, ⟨a0, ha0, hx⟩, ho⟩⟩
      rintro ⟨z, hz, ho⟩
      rwa [hz.inj ⟨a0, ha0, hx⟩] at ho

/-- The factory of Zhu and Givan is defined for all tasks and all orders in which hash sets are visited, and its propagation of labels
ends.  If the goals can be reached in the delete relaxation, the landmarks are exactly the facts without which some goal cannot be
reached in the delete relaxation, and the orderings are exactly the natural orderings between such facts and the goal. -/
theorem C61_zhu_givan (hf : t.FactsValid) (hpre : ∀ o ∈ t.ops ++ t.axioms, ∀ q ∈ o.pre, t.ValidFact q) (hs : t.ValidState t.init) {ord : HashOrder} (hord : ord.Complete) (useOrders : Bool) :
    ∃ g, zhuGivan t ord useOrders = some g ∧ (∀ n ∈ g, n.landmark.type = .atomic ∧ ∃ f, n.landmark.atoms = [f]) ∧ (t.IsRelaxedPlan (fun _ => True) t.init →
      (∀ f, (∃ n ∈ g, n.landmark.atoms = [f]) ↔ ∃ y ∈ t.goal, ¬t.ReachAvoiding [f] true y) ∧
      (∀ n ∈ g, n.landmark.isTrueInGoal = true ↔ ∃ f, n.landmark.atoms = [f] ∧ f ∈ t.goal) ∧
      (∀ (i j : Nat) (a b : Node) (x y : Fact), g[i]? = some a → g[j]? = some b → a.landmark.atoms = [x] → b.landmark.atoms = [y] →
        ∀ ty, ((j, ty) ∈ a.children ↔ ty = .natural ∧ useOrders = true ∧ y ∈ t.goal ∧ ¬t.ReachAvoiding [x] true y ∧ x ≠ y) ∧
          ((i, ty) ∈ b.parents ↔ ty = .natural ∧ useOrders = true ∧ y ∈ t.goal ∧ ¬t.ReachAvoiding [x] true y ∧ x ≠ y))) := by
  obtain ⟨l, g, h1, h2, h3⟩ := zhuGivan_graph hf hpre hs hord useOrders
  unfold zhuGivan
  rw [h1]
  simp only [h2]
  rcases h3 with ⟨hr, hz⟩ | ⟨y, hy, hr, rfl⟩
  · obtain ⟨g', k1, k2⟩ := calcAchievers_spec hf hs g (by
      intro n hn f hfm
      obtain ⟨x, b, h3, ⟨y, hy, h4⟩, _⟩ := hz.node n hn
      rw [h3] at hfm
      simp only [atomicLandmark, List.mem_singleton] at hfm
      rw [hfm]
      exact valid_of_avoid hf hs (hr y hy) h4)
    obtain ⟨l1, l2, l3, l4⟩ := graph_statement hz k2
    exact ⟨g', k1, l1, fun _ => ⟨l2, l3, l4⟩⟩
  · obtain ⟨g', k1, k2⟩ := calcAchievers_spec hf hs [⟨atomicLandmark y true, [], []⟩] (by
      intro n hn f hfm
      rw [List.mem_singleton] at hn
      subst hn
      simp only [atomicLandmark, List.mem_singleton] at hfm
      rw [hfm]
      exact hf.goal y hy)
    refine ⟨g', k1, fun n' hn' => ?_, fun hrp => absurd (hrp y hy) hr⟩
    obtain ⟨n, hn, h⟩ := forall₂_mem_right k2 hn'
    rw [List.mem_singleton] at hn
    subst hn
    rw [h.type, h.atoms]
    exact ⟨rfl, y, rfl⟩

/-- The graph of Zhu and Givan only contains true statements about the plans of the task, and its achievers are complete. -/
theorem C61_zhu_givan_valid (hwf : t.WF) (hax : t.axioms = []) (hun : t.UnconditionalEffectsHold) {ord : HashOrder} (hord : ord.Complete) (useOrders : Bool) :
    ∃ g, zhuGivan t ord useOrders = some g ∧ g.Valid t ∧ g.AchieversComplete t ∧ g.WithoutAxioms t.ops.length := by
  have hf := factsValid hwf hax
  obtain ⟨l, g, h1, h2, h3⟩ := zhuGivan_graph hf (by rw [hax, List.append_nil]; exact hwf.pre) hwf.init hord useOrders
  unfold zhuGivan
  rw [h1]
  simp only [h2]
  have hz : g.Valid t ∧ (∀ n ∈ g, n.landmark.Simple) ∧ ∀ n ∈ g, n.landmark.isDerived = false := by
    rcases h3 with ⟨hr, hz⟩ | ⟨y, hy, hr, rfl⟩
    · refine hz.valid (fun f hN => ?_) (fun f hf => hf) (fun x y ho => natural_of_avoid hwf hax ho.2.2.2 ho.2.2.1)
      obtain ⟨y, hy, hn⟩ := hN
      exact ⟨valid_of_avoid hf hwf.init (hr y hy) hn, landmark_of_avoid hwf hax (Or.inl rfl) hy hn⟩
    · have h0 : ZInv (· = y) (fun _ => False) (fun _ _ => False) [] := ZInv.empty.congr (fun _ h => h.elim) (fun _ => Iff.rfl) (fun _ _ => Iff.rfl)
      obtain ⟨g', k1, k2, _⟩ := h0.addLandmark (f := y) (by simp) true (by simp)
      have hg' : g' = [⟨atomicLandmark y true, [], []⟩] := by
        unfold Graph.addLandmark at k1
        split at k1
        · simpa using k1.symm
        · cases k1
      subst hg'
      refine k2.valid (fun f hN => ?_) (fun f hf => by rw [hf]; exact hy) (fun x y ho => ho.elim)
      rcases hN with hN | rfl
      · exact hN.elim
      · refine ⟨hf.goal f hy, landmark_of_avoid hwf hax (unary := true) (Or.inl rfl) hy (fun h => ?_)⟩
        cases h with
        | init _ _ h => exact h (by simp)
        | effect _ _ _ _ _ h => exact h (by simp)
  obtain ⟨g', k1, _, k3, k4, k5⟩ := calcAchievers_valid hwf hax hun hz.1 hz.2.1 hz.2.2
  exact ⟨g', k1, k3, k4, k5⟩

/-- The landmarks that are found by exhaustive search are exactly the facts without which some goal cannot be reached in the delete
relaxation. -/
theorem C61_exhaust (hf : t.FactsValid) (hs : t.ValidState t.init) (hnd : t.goal.Nodup) (unary : Bool) :
    ∃ g, exhaust t unary = some g ∧ (∀ n ∈ g, n.landmark.type = .atomic ∧ n.parents = [] ∧ n.children = []) ∧
      (∀ f, (∃ n ∈ g, n.landmark.atoms = [f]) ↔ t.ValidFact f ∧ ∃ y ∈ t.goal, ¬t.ReachAvoiding [f] unary y) ∧
      (∀ n ∈ g, n.landmark.isTrueInGoal = true ↔ ∃ f, n.landmark.atoms = [f] ∧ f ∈ t.goal) := by
  obtain ⟨g0, g, h1, h2, hz⟩ := exhaust_graph hf hs hnd unary
  unfold exhaust
  rw [h1]
  simp only [h2]
  obtain ⟨g', k1, k2⟩ := calcAchievers_spec hf hs g (by
    intro n hn f hfm
    obtain ⟨x, b, h3, ⟨hv, _⟩, _⟩ := hz.node n hn
    rw [h3] at hfm
    simp only [atomicLandmark, List.mem_singleton] at hfm
    rw [hfm]
    exact hv)
  obtain ⟨l1, l2, l3, _⟩ := graph_statement hz k2
  refine ⟨g', k1, fun n' hn' => ⟨(l1 n' hn').1, ?_⟩, l2, l3⟩
  obtain ⟨n, hn, hr⟩ := forall₂_mem_right k2 hn'
  obtain ⟨i, hi⟩ := List.mem_iff_getElem?.mp hn
  obtain ⟨f, hfa, _⟩ := hz.atom hi
  rw [hr.parents, hr.children]
  constructor
  · refine List.eq_nil_iff_forall_not_mem.mpr (fun x hx => ?_)
    obtain ⟨_, _, _, ho⟩ := (hz.pa i n f hi hfa x.1 x.2).mp hx
    exact ho
  · refine List.eq_nil_iff_forall_not_mem.mpr (fun x hx => ?_)
    obtain ⟨_, _, _, ho⟩ := (hz.ch i n f hi hfa x.1 x.2).mp hx
    exact ho

/-- The graph of exhaustive search only contains true statements about the plans of the task, and its achievers are complete. -/
theorem C61_exhaust_valid (hwf : t.WF) (hax : t.axioms = []) (hun : t.UnconditionalEffectsHold) (hnd : t.goal.Nodup) (unary : Bool) :
    ∃ g, exhaust t unary = some g ∧ g.Valid t ∧ g.AchieversComplete t ∧ g.WithoutAxioms t.ops.length := by
  have hf := factsValid hwf hax
  obtain ⟨g0, g, h1, h2, hz⟩ := exhaust_graph hf hwf.init hnd unary
  unfold exhaust
  rw [h1]
  simp only [h2]
  obtain ⟨v1, v2, v3⟩ := hz.valid (t := t) (fun f hN => by
    obtain ⟨hv, y, hy, hn⟩ := hN
    exact ⟨hv, landmark_of_avoid hwf hax (Or.inr hun) hy hn⟩) (fun f hf => hf) (fun x y ho => ho.elim)
  obtain ⟨g', k1, _, k3, k4, k5⟩ := calcAchievers_valid hwf hax hun v1 v2 v3
  exact ⟨g', k1, k3, k4, k5⟩

/-- Both factories find the same landmarks if the exhaustive search treats each effect as an operator of its own. -/
theorem C61_same_landmarks (hf : t.FactsValid) (hpre : ∀ o ∈ t.ops ++ t.axioms, ∀ q ∈ o.pre, t.ValidFact q) (hs : t.ValidState t.init) (hnd : t.goal.Nodup) {ord : HashOrder} (hord : ord.Complete)
    (useOrders : Bool) (hrp : t.IsRelaxedPlan (fun _ => True) t.init) :
    ∃ g g', zhuGivan t ord useOrders = some g ∧ exhaust t true = some g' ∧ ∀ f, (∃ n ∈ g, n.landmark.atoms = [f]) ↔ ∃ n ∈ g', n.landmark.atoms = [f] := by
  obtain ⟨g, h1, _, h2⟩ := C61_zhu_givan hf hpre hs hord useOrders
  obtain ⟨g', k1, _, k2, _⟩ := C61_exhaust hf hs hnd true
  refine ⟨g, g', h1, k1, fun f => ?_⟩
  rw [(h2 hrp).1 f, k2 f]
  refine ⟨fun ⟨y, hy, hn⟩ => ⟨valid_of_avoid hf hs (hrp y hy) hn, y, hy, hn⟩, fun h => h.2⟩

/-- The heuristic with uniform cost partitioning over the landmarks of Zhu and Givan is admissible in all reachable states, whatever
the search has reported before. -/
theorem C61_admissible (hwf : t.WF) (hax : t.axioms = []) (hun : t.UnconditionalEffectsHold) {ord : HashOrder} (hord : ord.Complete) (useOrders progGoals progGn progR useAlm : Bool)
    (es : List Event) (hle : ∀ e ∈ es, e.Legal t) :
    ∃ g, zhuGivan t ord useOrders = some g ∧ ∃ st, observe t.init (Manager.new g progGoals progGn progR) es = some st ∧ ∀ s, t.Reachable s →
      ((uniformHeuristic g (t.ops.map (·.cost)) useAlm st s = some .deadEnd ∧ ∀ π, ¬t.SolvesFrom s π) ∨
        ∃ h, uniformHeuristic g (t.ops.map (·.cost)) useAlm st s = some (.value h) ∧ 0 ≤ h ∧ h ≤ (t.ops.map (·.cost)).sum ∧ ∀ π, t.SolvesFrom s π → h ≤ t.planCost π) := by
  obtain ⟨g, h1, h2, h3, h4⟩ := C61_zhu_givan_valid hwf hax hun hord useOrders
  exact ⟨g, h1, C42_uniform_admissible hwf h2 h3 h4 progGoals progGn progR useAlm es hle⟩

/-! ### Examples -/

/-- hash sets are visited in the order of their insertion -/
def plainOrder : HashOrder := ⟨id, id⟩

theorem plainOrder_complete : plainOrder.Complete := ⟨fun _ => .refl _, fun _ => .refl _⟩

/-- A package (second variable) is loaded and the truck (first variable) drives before the package is unloaded. -/
def exTruck : Task where
  vars := [⟨2, none, 0⟩, ⟨3, none, 0⟩]
  ops := [⟨[⟨1, 0⟩], [⟨[], ⟨1, 2⟩⟩], 1⟩, ⟨[⟨0, 0⟩], [⟨[], ⟨0, 1⟩⟩], 2⟩, ⟨[⟨1, 2⟩, ⟨0, 1⟩], [⟨[], ⟨1, 1⟩⟩], 3⟩]
  axioms := []
  init := [0, 0]
  goal := [⟨1, 1⟩]

theorem exTruck_wf : exTruck.WF := Search.taskOK_wf (by decide)

theorem exTruck_unconditional : exTruck.UnconditionalEffectsHold := by unfold Task.UnconditionalEffectsHold; decide

/-- all facts are landmarks, with natural orderings to the goal -/
example : (zhuGivan exTruck plainOrder true).map (fun g => g.map (fun n => (n.landmark.atoms, n.landmark.firstAchievers))) =
    some [([⟨1, 1⟩], [2]), ([⟨1, 0⟩], []), ([⟨1, 2⟩], [0]), ([⟨0, 0⟩], []), ([⟨0, 1⟩], [1])] := by decide +kernel

example : (zhuGivan exTruck plainOrder true).map (fun g => g.map (fun n => (n.parents, n.children))) =
    some [([(1, .natural), (2, .natural), (3, .natural), (4, .natural)], []), ([], [(0, .natural)]), ([], [(0, .natural)]), ([], [(0, .natural)]), ([], [(0, .natural)])] := by decide +kernel

example := C61_zhu_givan_valid exTruck_wf rfl exTruck_unconditional plainOrder_complete true

example := C61_exhaust_valid exTruck_wf rfl exTruck_unconditional (by decide) false

example (es : List Event) (hle : ∀ e ∈ es, e.Legal exTruck) := C61_admissible exTruck_wf rfl exTruck_unconditional plainOrder_complete true true true true true es hle

/-- An operator whose first effect is overridden by its second effect, and an operator that really achieves the goal afterwards. -/
def exOverride : Task where
  vars := [⟨3, none, 0⟩, ⟨2, none, 0⟩]
  ops := [⟨[], [⟨[], ⟨0, 1⟩⟩, ⟨[], ⟨0, 2⟩⟩, ⟨[], ⟨1, 1⟩⟩], 5⟩, ⟨[⟨1, 1⟩], [⟨[], ⟨0, 1⟩⟩], 1⟩]
  axioms := []
  init := [0, 0]
  goal := [⟨0, 1⟩]

theorem exOverride_wf : exOverride.WF := Search.taskOK_wf (by decide)

theorem exOverride_step {o : Operator} {i x y x' y' : Nat} (ho : exOverride.ops[i]? = some o) (ha : o.applicable [x, y]) (hs : exOverride.ValidState [x, y])
    (hx : (o.assigned [x, y] 0).getD x = x') (hy : (o.assigned [x, y] 1).getD y = y') : exOverride.Step [x, y] i [x', y'] := by
  obtain ⟨s', _, hsu⟩ := exists_succ exOverride_wf hs (List.mem_of_getElem? ho)
  have h0 := Mas.succ_value exOverride_wf rfl hsu (v := 0) (x := x) rfl
  have h1 := Mas.succ_value exOverride_wf rfl hsu (v := 1) (x := y) rfl
  have hl : s'.length = 2 := by
    obtain ⟨m, k1, k2⟩ := hsu
    exact k2.length.trans k1.1
  obtain ⟨a, b, rfl⟩ := List.length_eq_two.mp hl
  simp only [List.getElem?_cons_zero, List.getElem?_cons_succ, Option.some.injEq] at h0 h1
  rw [h0, h1, hx, hy] at hsu
  exact ⟨o, ho, ha, hsu⟩

theorem exOverride_valid {x y : Nat} (hx : x < 3) (hy : y < 2) : exOverride.ValidState [x, y] := by
  refine ⟨rfl, fun v z d hz hd => ?_⟩
  match v with
  | 0 => simp [exOverride] at hz hd; subst hz; subst hd; exact hx
  | 1 => simp [exOverride] at hz hd; subst hz; subst hd; exact hy
  | _ + 2 => simp at hz

theorem exOverride_first : exOverride.Step [0, 0] 0 [2, 1] :=
  exOverride_step rfl (by decide) (exOverride_valid (by omega) (by omega)) (by decide) (by decide)

theorem exOverride_second : exOverride.Step [2, 1] 1 [1, 1] :=
  exOverride_step rfl (by decide) (exOverride_valid (by omega) (by omega)) (by decide) (by decide)

/-- The condition on effects is necessary: if a later effect of an operator overrides an earlier one, the first achievers that are
computed are not complete, and the heuristic overestimates the cost of a plan (5 instead of 1). -/
theorem C61_overridden_effects_fail : ∃ t : Task, t.WF ∧ t.axioms = [] ∧ ∃ (ord : HashOrder) (g : Graph), ord.Complete ∧ zhuGivan t ord true = some g ∧ ¬g.AchieversComplete t ∧
    ∃ (es : List Event) (st : Status) (s : State) (π : List Nat), (∀ e ∈ es, e.Legal t) ∧ observe t.init (Manager.new g true true true) es = some st ∧ t.SolvesFrom s π ∧
      uniformHeuristic g (t.ops.map (·.cost)) false st s = some (.value 5) ∧ t.planCost π = 1 := by
  refine ⟨exOverride, exOverride_wf, rfl, plainOrder, [⟨⟨[⟨0, 1⟩], .atomic, true, false, [0], [0, 1]⟩, [], []⟩], plainOrder_complete, by decide +kernel, fun h => ?_, ?_⟩
  · have hrun : exOverride.Run exOverride.init [(0, [2, 1]), (1, [1, 1])] [1, 1] := .cons _ _ _ _ _ exOverride_first (.cons _ _ _ _ _ exOverride_second (.nil _))
    have := h.first _ (List.mem_singleton.mpr rfl) rfl _ ⟨_, hrun, by decide⟩ 1 1 [1, 1] rfl ⟨⟨[1, 1], rfl, (holds_atom rfl rfl _).mpr (by decide)⟩, ?_⟩
    · simp at this
    · intro j hj hh
      obtain ⟨s, hs, hl⟩ := hh
      rw [holds_atom rfl rfl] at hl
      match j, hj with
      | 0, _ => simp [runStates, exOverride] at hs; subst hs; exact absurd hl (by decide)
      | 1, _ => simp [runStates, exOverride] at hs; subst hs; exact absurd hl (by decide)
  · obtain ⟨st, hst⟩ : ∃ st, observe exOverride.init (Manager.new [⟨⟨[⟨0, 1⟩], .atomic, true, false, [0], [0, 1]⟩, [], []⟩] true true true) [.initial, .transition [0, 0] 0 [2, 1]] = some st :=
      Option.isSome_iff_exists.mp (by decide +kernel)
    refine ⟨[.initial, .transition [0, 0] 0 [2, 1]], st, [2, 1], [1], ?_, hst, ?_, ?_, rfl⟩
    · intro e he
      simp only [List.mem_cons, List.not_mem_nil, or_false] at he
      rcases he with rfl | rfl
      · trivial
      · exact ⟨exOverride_valid (by omega) (by omega), exOverride_valid (by omega) (by omega), exOverride_first⟩
    · obtain ⟨o, h1, h2, h3⟩ := exOverride_second
      exact ⟨[1, 1], .cons _ _ _ _ _ _ h1 h2 h3 (.nil _), by decide⟩
    · have : (observe exOverride.init (Manager.new [⟨⟨[⟨0, 1⟩], .atomic, true, false, [0], [0, 1]⟩, [], []⟩] true true true) [.initial, .transition [0, 0] 0 [2, 1]]).map (fun st =>
        uniformHeuristic [⟨⟨[⟨0, 1⟩], .atomic, true, false, [0], [0, 1]⟩, [], []⟩] (exOverride.ops.map (·.cost)) false st [2, 1]) = some (some (.value 5)) := by decide +kernel
      rw [hst] at this
      exact Option.some.inj this

end Verif.Landmarks
