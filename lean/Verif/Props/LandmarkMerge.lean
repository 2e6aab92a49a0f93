import Verif.Lemmas.LandmarkMerge
import Verif.Props.LandmarkFactories

/-
C62: merging landmark graphs.
-/
namespace Verif.Landmarks
variable {t : Task}

/-- Merging graphs with atomic and disjunctive landmarks is defined.  The landmarks of the merged graph are landmarks of the given graphs,
no two of them have a common atom, and each of the given landmarks has a common atom with one of them.  For each atom, the atomic
landmark is the one of the first graph that has one.  There is an ordering between two landmarks if and only if one of the graphs has
an ordering between landmarks they stand for, and it has the strongest type of these orderings. -/
theorem C62_merged (gs : List Graph) (hform : ∀ old ∈ gs, ∀ n ∈ old, n.landmark.AtomicOrDisjunctive) (hr : ∀ old ∈ gs, ∀ n ∈ old, ∀ c ∈ n.children, c.1 < old.length) :
    ∃ g, mergeGraphs gs = .graph g ∧ (∀ n ∈ g, ∃ old ∈ gs, ∃ m ∈ old, n.landmark = m.landmark) ∧
      (∀ (i j : Nat) (a b : Node) (f : Fact), g[i]? = some a → g[j]? = some b → f ∈ a.landmark.atoms → f ∈ b.landmark.atoms → i = j) ∧
      (∀ old ∈ gs, ∀ m ∈ old, ∃ n ∈ g, ∃ f ∈ m.landmark.atoms, f ∈ n.landmark.atoms) ∧
      (∀ f, (g.map (·.landmark)).find? (fun l => l.type == .atomic && l.atoms == [f]) = (gs.flatten.map (·.landmark)).find? (fun l => l.type == .atomic && l.atoms == [f])) ∧
      (∀ (i j : Nat) (a b : Node) (ty : OrderingType), g[i]? = some a → g[j]? = some b →
        ((j, ty) ∈ a.children ↔ HasOrdering gs a.landmark b.landmark ty ∧ ∀ ty', HasOrdering gs a.landmark b.landmark ty' → ty'.rank ≤ ty.rank) ∧
        ((i, ty) ∈ b.parents ↔ (j, ty) ∈ a.children)) := by
  obtain ⟨g, h1, h2, h3, h4, h5⟩ := merge_spec gs hform hr
  refine ⟨g, h1, h2, h5.nodes.disj, h4, h3, fun i j a b ty hi hj => ?_⟩
  have e1 : Edge g i j ty ↔ (j, ty) ∈ a.children := by
    unfold Edge
    rw [hi]
    simp
  have e2 : EdgeP g i j ty ↔ (i, ty) ∈ b.parents := by
    unfold EdgeP
    rw [hj]
    simp
  rw [← e1, ← e2, h5.edges.sym]
  refine ⟨?_, Iff.rfl⟩
  rw [← h5.edges.sym, h5.best]
  unfold Best
  simp only [List.getElem?_map, hi, hj, Option.map_some, Option.some.injEq, exists_eq_left', exists_and_left]

/-- Graphs with conjunctive landmarks are rejected. -/
theorem C62_unsupported (gs : List Graph) (hform : ∀ old ∈ gs, ∀ n ∈ old, n.landmark.AtomicOrDisjunctive ∨ n.landmark.type = .conjunctive) (hc : ∃ old ∈ gs, ∃ n ∈ old, n.landmark.type = .conjunctive) :
    mergeGraphs gs = .unsupported := by
  unfold mergeGraphs
  rw [addAtomic_unsupported gs.flatten [] _ _ ⟨by simp, by intro i j a b f hi; simp at hi⟩]
  · intro n hn
    obtain ⟨o, ho, hno⟩ := List.mem_flatten.mp hn
    exact hform o ho n hno
  · obtain ⟨o, ho, n, hn, h⟩ := hc
    exact ⟨n, List.mem_flatten.mpr ⟨o, ho, hn⟩, h⟩

/-- an ordering stays true if its first landmark is replaced by a weaker one -/
theorem ordering_weaken {A A' B : State → Prop} (hA : ∀ s, A s → A' s) (hl : IsLandmark t A) {ty : OrderingType} (h : Ordering.Valid t A B ty) : Ordering.Valid t A' B ty := by
  have hat : ∀ {ss k}, HoldsAt A ss k → HoldsAt A' ss k := fun ⟨s, h1, h2⟩ => ⟨s, h1, hA s h2⟩
  cases ty with
  | natural =>
    intro r hr k hk
    obtain ⟨j, hj, hh⟩ := h r hr k hk
    exact ⟨j, hj, hat hh⟩
  | greedyNecessary =>
    intro r hr k hk
    obtain ⟨j, hj, hh⟩ := h r hr k hk
    exact ⟨j, hj, hat hh⟩
  | necessary =>
    intro r hr k hk
    obtain ⟨j, hj, hh⟩ := h r hr k hk
    exact ⟨j, hj, hat hh⟩
  | reasonable =>
    intro r hr i j hi hj hij
    classical
    have hex := hl r hr
    have hfirst : FirstAt A (runStates t.init r) (Nat.find hex) := ⟨Nat.find_spec hex, fun k hk => Nat.find_min hex hk⟩
    have hle : j ≤ Nat.find hex := by
      by_contra hc
      exact hj.2 _ (by omega) (hat hfirst.1)
    obtain ⟨k, hk, hh⟩ := h r hr i _ hi hfirst (by omega)
    exact ⟨k, by omega, hh⟩

theorem covered_holds {l m : Landmark} (hl : l.AtomicOrDisjunctive) (hm : m.AtomicOrDisjunctive) (h : l.CoveredBy m) (s : State) (hs : l.Holds s) : m.Holds s := by
  unfold Landmark.Holds at hs ⊢
  rcases hl with ⟨ht, f, hf⟩ | ⟨ht, _⟩
  · have ht' := h.1
    rw [ht] at hs ht'
    rcases hm with ⟨h1, f', hf'⟩ | ⟨h1, _⟩
    · rw [h1]
      have := h.2 f (by rw [hf]; simp)
      rw [hf', List.mem_singleton] at this
      subst this
      simp only [hf, hf'] at hs ⊢
      exact hs
    · rw [h1] at ht'
      cases ht'
  · have ht' := h.1
    rw [ht] at hs ht'
    rw [← ht']
    obtain ⟨f, hf, hh⟩ := hs
    exact ⟨f, h.2 f hf, hh⟩

theorem ordering_congr {A B B' : State → Prop} (hB : ∀ s, B s ↔ B' s) {ty : OrderingType} (h : Ordering.Valid t A B ty) : Ordering.Valid t A B' ty := by
  have : B = B' := funext fun s => propext (hB s)
  rwa [← this]

/-- Merged graphs only contain true statements about the plans of the task, and their achievers are complete, if this holds for the
given graphs, and no ordering leads to a disjunctive landmark that is a proper subset of another one. -/
theorem C62_valid_partial (gs : List Graph) (hform : ∀ old ∈ gs, ∀ n ∈ old, n.landmark.AtomicOrDisjunctive) (hv : ∀ old ∈ gs, old.Valid t) (hc : ∀ old ∈ gs, old.AchieversComplete t)
    (hw : ∀ old ∈ gs, old.WithoutAxioms t.ops.length)
    (hhead : ∀ old ∈ gs, ∀ x ∈ old, ∀ (k : Nat) (ty : OrderingType) (y : Node), (k, ty) ∈ x.children → old[k]? = some y → ∀ old' ∈ gs, ∀ m ∈ old', y.landmark.CoveredBy m.landmark → m.landmark.CoveredBy y.landmark) :
    ∃ g, mergeGraphs gs = .graph g ∧ g.Valid t ∧ g.AchieversComplete t ∧ g.WithoutAxioms t.ops.length := by
  have hr : ∀ old ∈ gs, ∀ n ∈ old, ∀ c ∈ n.children, c.1 < old.length := by
    intro old ho n hn c hcm
    obtain ⟨b, hb, _⟩ := (hv old ho).children n hn c.1 c.2 hcm
    exact (List.getElem?_eq_some_iff.mp hb).1
  obtain ⟨g, h1, h2, _, _, h5⟩ := merge_spec gs hform hr
  have hedge : ∀ i j ty, Edge g i j ty → ∃ a b, g[i]? = some a ∧ g[j]? = some b ∧ Ordering.Valid t a.landmark.Holds b.landmark.Holds ty := by
    intro i j ty he
    obtain ⟨⟨la, lb, ha, hb, old, ho, x, hx, k, y, hk, hy, hca, hcb⟩, _⟩ := (h5.best i j ty).mp he
    rw [List.getElem?_map, Option.map_eq_some_iff] at ha hb
    obtain ⟨a, ha, rfl⟩ := ha
    obtain ⟨b, hb, rfl⟩ := hb
    refine ⟨a, b, ha, hb, ?_⟩
    obtain ⟨y', hy', hval⟩ := (hv old ho).children x hx k ty hk
    rw [hy] at hy'
    cases hy'
    have hfa := h5.nodes.form a (List.mem_of_getElem? ha)
    have hfb := h5.nodes.form b (List.mem_of_getElem? hb)
    have hfy := hform old ho y (List.mem_of_getElem? hy)
    obtain ⟨old', ho', m, hm, hbm⟩ := h2 b (List.mem_of_getElem? hb)
    have hback := hhead old ho x hx k ty y hk hy old' ho' m hm (hbm ▸ hcb)
    rw [← hbm] at hback
    refine ordering_congr (fun s => ⟨covered_holds hfy hfb hcb s, covered_holds hfb hfy hback s⟩) ?_
    exact ordering_weaken (covered_holds (hform old ho x hx) hfa hca) ((hv old ho).landmark x hx) hval
  refine ⟨g, h1, ⟨fun n hn => ?_, fun n hn => ?_, fun n hn => ?_, fun b hb A ty hm => ?_, fun a ha B ty hm => ?_⟩, ⟨fun n hn => ?_, fun n hn => ?_⟩, ⟨fun n hn => ?_, fun n hn => ?_, fun n hn => ?_⟩⟩
  · obtain ⟨o, ho, m, hm, he⟩ := h2 n hn
    rw [he]
    exact (hv o ho).atoms m hm
  · obtain ⟨o, ho, m, hm, he⟩ := h2 n hn
    rw [he]
    exact (hv o ho).landmark m hm
  · obtain ⟨o, ho, m, hm, he⟩ := h2 n hn
    rw [he]
    exact (hv o ho).goal m hm
  · obtain ⟨j, hj⟩ := List.mem_iff_getElem?.mp hb
    obtain ⟨a, b', ha, hb', hval⟩ := hedge A j ty ((h5.edges.sym _ _ _).mpr ⟨b, hj, hm⟩)
    rw [hj] at hb'
    cases hb'
    exact ⟨a, ha, hval⟩
  · obtain ⟨i, hi⟩ := List.mem_iff_getElem?.mp ha
    obtain ⟨a', b, ha', hb, hval⟩ := hedge i B ty ⟨a, hi, hm⟩
    rw [hi] at ha'
    cases ha'
    exact ⟨b, hb, hval⟩
  · obtain ⟨o, ho, m, hm, he⟩ := h2 n hn
    rw [he]
    exact (hc o ho).first m hm
  · obtain ⟨o, ho, m, hm, he⟩ := h2 n hn
    rw [he]
    exact (hc o ho).possible m hm
  · obtain ⟨o, ho, m, hm, he⟩ := h2 n hn
    rw [he]
    exact (hw o ho).derived m hm
  · obtain ⟨o, ho, m, hm, he⟩ := h2 n hn
    rw [he]
    exact (hw o ho).first m hm
  · obtain ⟨o, ho, m, hm, he⟩ := h2 n hn
    rw [he]
    exact (hw o ho).possible m hm

/-- merging the landmarks of Zhu and Givan with those of exhaustive search gives an admissible heuristic -/
theorem C62_admissible (hwf : t.WF) (hax : t.axioms = []) (hun : t.UnconditionalEffectsHold) (hnd : t.goal.Nodup) {ord : HashOrder} (hord : ord.Complete) (useOrders unary progGoals progGn progR useAlm : Bool)
    (es : List Event) (hle : ∀ e ∈ es, e.Legal t) :
    ∃ g1 g2 g, zhuGivan t ord useOrders = some g1 ∧ exhaust t unary = some g2 ∧ mergeGraphs [g1, g2] = .graph g ∧
      (∀ n ∈ g1 ++ g2, ∃ m ∈ g, m.landmark.atoms = n.landmark.atoms) ∧
      ∃ st, observe t.init (Manager.new g progGoals progGn progR) es = some st ∧ ∀ s, t.Reachable s →
      ((uniformHeuristic g (t.ops.map (·.cost)) useAlm st s = some .deadEnd ∧ ∀ π, ¬t.SolvesFrom s π) ∨
        ∃ h, uniformHeuristic g (t.ops.map (·.cost)) useAlm st s = some (.value h) ∧ 0 ≤ h ∧ h ≤ (t.ops.map (·.cost)).sum ∧ ∀ π, t.SolvesFrom s π → h ≤ t.planCost π) := by
  have hf := factsValid hwf hax
  obtain ⟨g1, a1, a2, a3, a4⟩ := C61_zhu_givan_valid hwf hax hun hord useOrders
  obtain ⟨g1', a1', a5, _⟩ := C61_zhu_givan hf (by rw [hax, List.append_nil]; exact hwf.pre) hwf.init hord useOrders
  rw [a1] at a1'
  cases a1'
  obtain ⟨g2, b1, b2, b3, b4⟩ := C61_exhaust_valid hwf hax hun hnd unary
  obtain ⟨g0, g2z, z1, z2, hz⟩ := exhaust_graph hf hwf.init hnd unary
  have b5 : ∀ n ∈ g2, n.landmark.type = .atomic ∧ ∃ f, n.landmark.atoms = [f] := by
    obtain ⟨v1, v2, v3⟩ := hz.valid (t := t) (fun f hN => by
      obtain ⟨hv, y, hy, hn⟩ := hN
      exact ⟨hv, landmark_of_avoid hwf hax (Or.inr hun) hy hn⟩) (fun f hf => hf) (fun x y ho => ho.elim)
    obtain ⟨g', k1, k2, _⟩ := calcAchievers_valid hwf hax hun v1 v2 v3
    have : exhaust t unary = some g' := by
      unfold exhaust
      rw [z1]
      simp only [z2]
      exact k1
    rw [b1] at this
    cases this
    exact (graph_statement hz k2).1
  have hat : ∀ old ∈ [g1, g2], ∀ n ∈ old, n.landmark.type = .atomic ∧ ∃ f, n.landmark.atoms = [f] := by
    intro old ho n hn
    simp only [List.mem_cons, List.not_mem_nil, or_false] at ho
    rcases ho with rfl | rfl
    · exact a5 n hn
    · exact b5 n hn
  have hall : ∀ {P : Graph → Prop}, P g1 → P g2 → ∀ old ∈ [g1, g2], P old := by
    intro P h1 h2 old ho
    simp only [List.mem_cons, List.not_mem_nil, or_false] at ho
    rcases ho with rfl | rfl
    · exact h1
    · exact h2
  obtain ⟨g, c1, c2, c3, c4⟩ := C62_valid_partial [g1, g2] (fun old ho n hn => Or.inl (hat old ho n hn)) (hall a2 b2) (hall a3 b3) (hall a4 b4) (by
    intro old ho x hx k ty y hk hy old' ho' m hm hcov
    obtain ⟨h1, f, h2⟩ := hat old ho y (List.mem_of_getElem? hy)
    obtain ⟨h3, f', h4⟩ := hat old' ho' m hm
    have := hcov.2 f (by rw [h2]; simp)
    rw [h4, List.mem_singleton] at this
    subst this
    exact ⟨by rw [h1, h3], by rw [h2, h4]; exact fun _ h => h⟩)
  refine ⟨g1, g2, g, a1, b1, c1, fun n hn => ?_, C42_uniform_admissible hwf c2 c3 c4 progGoals progGn progR useAlm es hle⟩
  obtain ⟨g', d1, d2, _, d3, _⟩ := C62_merged [g1, g2] (fun old ho n hn => Or.inl (hat old ho n hn)) (fun old ho n hn c hcm => by
    obtain ⟨b, hb, _⟩ := (hall (P := fun g => g.Valid t) a2 b2 old ho).children n hn c.1 c.2 hcm
    exact (List.getElem?_eq_some_iff.mp hb).1)
  rw [c1] at d1
  cases d1
  have hn' : ∃ old ∈ [g1, g2], n ∈ old := by
    rcases List.mem_append.mp hn with h | h
    · exact ⟨g1, by simp, h⟩
    · exact ⟨g2, by simp, h⟩
  obtain ⟨old, ho, hno⟩ := hn'
  obtain ⟨m, hm, f, h1, h2⟩ := d3 old ho n hno
  obtain ⟨old', ho', m', hm', he⟩ := d2 m hm
  refine ⟨m, hm, ?_⟩
  obtain ⟨_, x, hx⟩ := hat old ho n hno
  obtain ⟨_, y, hy⟩ := hat old' ho' m' hm'
  rw [he] at h2 ⊢
  rw [hx, List.mem_singleton] at h1
  rw [hy, List.mem_singleton] at h2
  rw [hx, hy, ← h1, ← h2]

/-! ### Examples -/

example (es : List Event) (hle : ∀ e ∈ es, e.Legal exTruck) := C62_admissible exTruck_wf rfl exTruck_unconditional (by decide) plainOrder_complete true false true true true true es hle

/-- a task with one variable that has to be changed twice -/
def exChain : Task where
  vars := [⟨4, none, 0⟩]
  ops := [⟨[⟨0, 0⟩], [⟨[], ⟨0, 1⟩⟩], 1⟩, ⟨[⟨0, 1⟩], [⟨[], ⟨0, 2⟩⟩], 1⟩]
  axioms := []
  init := [0]
  goal := [⟨0, 2⟩]

theorem exChain_wf : exChain.WF := Search.taskOK_wf (by decide)

theorem exChain_step {x i : Nat} {s : State} (h : exChain.Step [x] i s) : (x = 0 ∧ i = 0 ∧ s = [1]) ∨ (x = 1 ∧ i = 1 ∧ s = [2]) := by
  obtain ⟨o, ho, ha, hsu⟩ := h
  have hv := Mas.succ_value exChain_wf rfl hsu (v := 0) (x := x) (by simp)
  have hl : s.length = 1 := by
    obtain ⟨m, h1, h2⟩ := hsu
    exact h2.length.trans h1.1
  obtain ⟨y, rfl⟩ : ∃ y, s = [y] := by
    match s, hl with
    | [y], _ => exact ⟨y, rfl⟩
  match i, ho with
  | 0, ho =>
    cases ho
    have h0 : x = 0 := by simpa [Operator.applicable, allHold, Fact.holds] using ha
    refine Or.inl ⟨h0, rfl, ?_⟩
    subst h0
    simpa [Operator.assigned, Effect.fires, allHold] using hv
  | 1, ho =>
    cases ho
    have h0 : x = 1 := by simpa [Operator.applicable, allHold, Fact.holds] using ha
    refine Or.inr ⟨h0, rfl, ?_⟩
    subst h0
    simpa [Operator.assigned, Effect.fires, allHold] using hv
  | i + 2, ho => simp [exChain] at ho

theorem exChain_runs {r : List (Nat × State)} (h : exChain.GoalRun exChain.init r) : r = [(0, [1]), (1, [2])] := by
  obtain ⟨u, hr, hu⟩ := h
  have h2 : ∀ {r u}, exChain.Run [2] r u → r = [] := by
    intro r u h
    cases h with
    | nil => rfl
    | cons _ i s' r u hst _ => rcases exChain_step hst with ⟨h, _⟩ | ⟨h, _⟩ <;> omega
  cases hr with
  | nil => simp [allHold, exChain, Fact.holds] at hu
  | cons _ i s' r u hst hr =>
    rcases exChain_step hst with ⟨_, rfl, rfl⟩ | ⟨h, _⟩
    · cases hr with
      | nil => simp [allHold, exChain, Fact.holds] at hu
      | cons _ i s' r u hst hr =>
        rcases exChain_step hst with ⟨h, _⟩ | ⟨_, rfl, rfl⟩
        · omega
        · rw [h2 hr]
    · omega

theorem exChain_plan : exChain.IsPlan [0, 1] := by
  obtain ⟨s1, v1, h1⟩ := exists_succ exChain_wf exChain_wf.init (o := exChain.ops[0]) (List.getElem_mem _)
  have st1 : exChain.Step [0] 0 s1 := ⟨_, rfl, by decide, h1⟩
  rcases exChain_step st1 with ⟨_, _, rfl⟩ | ⟨h, _⟩
  · obtain ⟨s2, v2, h2⟩ := exists_succ exChain_wf v1 (o := exChain.ops[1]) (List.getElem_mem _)
    have st2 : exChain.Step [1] 1 s2 := ⟨_, rfl, by decide, h2⟩
    rcases exChain_step st2 with ⟨h, _⟩ | ⟨_, _, rfl⟩
    · omega
    · exact ⟨[2], .cons _ _ _ _ _ _ rfl (by decide) h1 (.cons _ _ _ _ _ _ rfl (by decide) h2 (.nil _)), by decide⟩
  · omega

/-- the second value has to be reached -/
def lmA : Landmark := ⟨[⟨0, 1⟩], .atomic, false, false, [0], [0]⟩
/-- a disjunctive landmark that holds in the beginning -/
def lmD : Landmark := ⟨[⟨0, 0⟩, ⟨0, 2⟩, ⟨0, 3⟩], .disjunctive, false, false, [], [1]⟩
/-- a disjunctive landmark that only holds in the end -/
def lmE : Landmark := ⟨[⟨0, 2⟩, ⟨0, 3⟩], .disjunctive, false, false, [1], [1]⟩

/-- `D` is ordered before `A` -/
def graphDA : Graph := [⟨lmD, [], [(1, .natural)]⟩, ⟨lmA, [(0, .natural)], []⟩]
/-- `A` is ordered before `E` -/
def graphAE : Graph := [⟨lmA, [], [(1, .natural)]⟩, ⟨lmE, [(0, .natural)], []⟩]

theorem lm_holds (s : State) : (lmA.Holds s ↔ s[0]? = some 1) ∧ (lmD.Holds s ↔ s[0]? = some 0 ∨ s[0]? = some 2 ∨ s[0]? = some 3) ∧ (lmE.Holds s ↔ s[0]? = some 2 ∨ s[0]? = some 3) := by
  refine ⟨?_, ?_, ?_⟩
  · rw [holds_atom rfl rfl]
    rfl
  · simp [Landmark.Holds, lmD, Fact.holds]
  · simp [Landmark.Holds, lmE, Fact.holds]

theorem chain_holdsAt (k : Nat) : (HoldsAt lmA.Holds (runStates exChain.init [(0, [1]), (1, [2])]) k ↔ k = 1) ∧
    (HoldsAt lmD.Holds (runStates exChain.init [(0, [1]), (1, [2])]) k ↔ k = 0 ∨ k = 2) ∧ (HoldsAt lmE.Holds (runStates exChain.init [(0, [1]), (1, [2])]) k ↔ k = 2) := by
  unfold HoldsAt
  simp only [(lm_holds _).1, (lm_holds _).2.1, (lm_holds _).2.2]
  match k with
  | 0 => simp [runStates, exChain]
  | 1 => simp [runStates, exChain]
  | 2 => simp [runStates, exChain]
  | k + 3 => simp [runStates, exChain]

theorem chain_atoms {g : Graph} (h : ∀ n ∈ g, n.landmark = lmA ∨ n.landmark = lmD ∨ n.landmark = lmE) : ∀ n ∈ g, ∀ f ∈ n.landmark.atoms, exChain.ValidFact f := by
  intro n hn f hf
  rcases h n hn with h | h | h <;> rw [h] at hf <;> simp only [lmA, lmD, lmE, List.mem_cons, List.not_mem_nil, or_false] at hf
  · subst hf
    exact Search.factOK_spec (by decide)
  · rcases hf with rfl | rfl | rfl <;> exact Search.factOK_spec (by decide)
  · rcases hf with rfl | rfl <;> exact Search.factOK_spec (by decide)

theorem chain_landmark : IsLandmark exChain lmA.Holds ∧ IsLandmark exChain lmD.Holds ∧ IsLandmark exChain lmE.Holds := by
  refine ⟨fun r hr => ?_, fun r hr => ?_, fun r hr => ?_⟩ <;> rw [exChain_runs hr]
  · exact ⟨1, (chain_holdsAt 1).1.mpr rfl⟩
  · exact ⟨0, (chain_holdsAt 0).2.1.mpr (Or.inl rfl)⟩
  · exact ⟨2, (chain_holdsAt 2).2.2.mpr rfl⟩

theorem chain_DA : Ordering.Valid exChain lmD.Holds lmA.Holds .natural := by
  intro r hr k hk
  rw [exChain_runs hr] at hk ⊢
  have := (chain_holdsAt k).1.mp hk.1
  exact ⟨0, by omega, (chain_holdsAt 0).2.1.mpr (Or.inl rfl)⟩

theorem chain_AE : Ordering.Valid exChain lmA.Holds lmE.Holds .natural := by
  intro r hr k hk
  rw [exChain_runs hr] at hk ⊢
  have := (chain_holdsAt k).2.2.mp hk.1
  exact ⟨1, by omega, (chain_holdsAt 1).1.mpr rfl⟩

theorem graphDA_valid : graphDA.Valid exChain where
  atoms := chain_atoms (by simp [graphDA])
  landmark := by
    intro n hn
    simp only [graphDA, List.mem_cons, List.not_mem_nil, or_false] at hn
    rcases hn with rfl | rfl
    · exact chain_landmark.2.1
    · exact chain_landmark.1
  goal := by
    intro n hn h
    simp only [graphDA, List.mem_cons, List.not_mem_nil, or_false] at hn
    rcases hn with rfl | rfl <;> cases h
  parents := by
    intro n hn A ty h
    simp only [graphDA, List.mem_cons, List.not_mem_nil, or_false] at hn
    rcases hn with rfl | rfl
    · cases h
    · simp only [List.mem_singleton, Prod.mk.injEq] at h
      obtain ⟨rfl, rfl⟩ := h
      exact ⟨_, rfl, chain_DA⟩
  children := by
    intro n hn A ty h
    simp only [graphDA, List.mem_cons, List.not_mem_nil, or_false] at hn
    rcases hn with rfl | rfl
    · simp only [List.mem_singleton, Prod.mk.injEq] at h
      obtain ⟨rfl, rfl⟩ := h
      exact ⟨_, rfl, chain_DA⟩
    · cases h

theorem graphAE_valid : graphAE.Valid exChain where
  atoms := chain_atoms (by simp [graphAE])
  landmark := by
    intro n hn
    simp only [graphAE, List.mem_cons, List.not_mem_nil, or_false] at hn
    rcases hn with rfl | rfl
    · exact chain_landmark.1
    · exact chain_landmark.2.2
  goal := by
    intro n hn h
    simp only [graphAE, List.mem_cons, List.not_mem_nil, or_false] at hn
    rcases hn with rfl | rfl <;> cases h
  parents := by
    intro n hn A ty h
    simp only [graphAE, List.mem_cons, List.not_mem_nil, or_false] at hn
    rcases hn with rfl | rfl
    · cases h
    · simp only [List.mem_singleton, Prod.mk.injEq] at h
      obtain ⟨rfl, rfl⟩ := h
      exact ⟨_, rfl, chain_AE⟩
  children := by
    intro n hn A ty h
    simp only [graphAE, List.mem_cons, List.not_mem_nil, or_false] at hn
    rcases hn with rfl | rfl
    · simp only [List.mem_singleton, Prod.mk.injEq] at h
      obtain ⟨rfl, rfl⟩ := h
      exact ⟨_, rfl, chain_AE⟩
    · cases h

/-- The condition on the ends of orderings is necessary: the code lets the larger disjunctive landmark stand for the smaller one, also at
the end of an ordering.  Merging two graphs that only contain true statements can give a graph with a wrong ordering, and a cycle, so that the
heuristic reports the initial state of a solvable task as a dead end. -/
theorem C62_superset_fails : ∃ (t : Task) (gs : List Graph) (g : Graph), t.WF ∧ t.axioms = [] ∧ (∀ old ∈ gs, old.Valid t ∧ ∀ n ∈ old, n.landmark.AtomicOrDisjunctive) ∧
    mergeGraphs gs = .graph g ∧ ¬g.Valid t ∧ hasCycleOfNaturalOrderings g = some true ∧ ∃ π, t.IsPlan π ∧
      ∀ useAlm st, uniformHeuristic g (t.ops.map (·.cost)) useAlm st t.init = some .deadEnd := by
  refine ⟨exChain, [graphDA, graphAE], [⟨lmA, [(1, .natural)], [(1, .natural)]⟩, ⟨lmD, [(0, .natural)], [(0, .natural)]⟩], exChain_wf, rfl, ?_, by decide +kernel, fun h => ?_, by decide +kernel, [0, 1], exChain_plan, fun useAlm st => ?_⟩
  · intro old ho
    simp only [List.mem_cons, List.not_mem_nil, or_false] at ho
    rcases ho with rfl | rfl
    · refine ⟨graphDA_valid, fun n hn => ?_⟩
      simp only [graphDA, List.mem_cons, List.not_mem_nil, or_false] at hn
      rcases hn with rfl | rfl
      · exact Or.inr ⟨rfl, by decide⟩
      · exact Or.inl ⟨rfl, _, rfl⟩
    · refine ⟨graphAE_valid, fun n hn => ?_⟩
      simp only [graphAE, List.mem_cons, List.not_mem_nil, or_false] at hn
      rcases hn with rfl | rfl
      · exact Or.inl ⟨rfl, _, rfl⟩
      · exact Or.inr ⟨rfl, by decide⟩
  · obtain ⟨_, h1, h2⟩ := C42_cycles h
    exact h2.2 (by rw [show hasCycleOfNaturalOrderings _ = some true from by decide +kernel] at h1; exact (Option.some.inj h1).symm) [0, 1] exChain_plan
  · unfold uniformHeuristic
    rw [show hasCycleOfNaturalOrderings _ = some true from by decide +kernel]

end Verif.Landmarks
