import Verif.Lemmas.CegarFlaw
import Verif.Lemmas.CegarPb

/-
The refinement loop.
-/
namespace Verif.Cart
open Verif.AdaptiveQueue

variable {t : Task} {K : Nat → Nat → Prop}

/-- The facts to which the refinement of a task with a single goal fact is restricted: the goal fact and the facts that can be reached in the delete relaxation without achieving it.  All
facts if there is not exactly one goal fact. -/
def Core (t : Task) (v x : Nat) : Prop := ∀ g, t.goal = [g] → ((⟨v, x⟩ : Fact) = g ∨ t.RelReach (NotAchieving t g) t.init ⟨v, x⟩)

theorem core_init : SIn (Core t) t.init := fun _ _ hx _ _ => Or.inr (.state _ hx)

theorem core_closed (ht : CartesianTask t) : CoreClosed t (Core t) := by
  intro s op s' hs hK hng hstep
  by_cases hgoal : ∃ g, t.goal = [g]
  · obtain ⟨g, hg⟩ := hgoal
    obtain ⟨o, ho, happ, hsucc⟩ := id hstep
    obtain ⟨v0, v1, v2, v3⟩ := step_values ht hs hstep
    by_cases hach : ∃ e ∈ o.effects, e.fact = g
    · obtain ⟨e, he, rfl⟩ := hach
      left
      rw [hg]
      intro f hf
      simp at hf; subst hf
      exact v2 _ _ ((postValue_iff ht ho).mpr (Or.inl ⟨e, he, rfl⟩))
    · push Not at hach
      right
      intro v y hy g' hg'
      have : g' = g := by rw [hg] at hg'; simpa using hg'.symm
      subst this
      cases hp : postValue t op v with
      | none => exact hK v y (by rw [← v3 v hp]; exact hy) g' hg
      | some y' =>
        have hyy := v2 v y' hp
        rw [hy] at hyy; simp at hyy; subst hyy
        rcases (postValue_iff ht ho).mp hp with ⟨e, k1, k2⟩ | ⟨_, k⟩
        · right
          rw [← k2]
          refine .effect (some op) _ _ _ (.op op o e ho k1) (fun j hj => ?_) (fun q hq => ?_)
          · simp at hj; subst hj
            intro o' ho'
            rw [ho] at ho'; simp at ho'; subst ho'
            exact hach
          · rw [ht.unconditional o (List.mem_of_getElem? ho) e k1, List.append_nil] at hq
            have hh : s[q.var]? = some q.val := happ q hq
            rcases hK q.var q.val hh g' hg with k | k
            · exfalso
              apply hng
              rw [hg]
              intro f hf
              simp at hf
              rw [hf, ← k]
              exact hh
            · exact k
        · have := happ _ k
          exact hK v y this g' hg
  · exact Or.inr (fun v x _ g hg => absurd ⟨g, hg⟩ hgoal)

theorem goalsK_trivial (ht : CartesianTask t) (hK : ∀ v x, K v x) : GoalsK t K (Abs.trivial t) := by
  constructor
  · intro i
    simp only [Abs.trivial, List.mem_singleton]
    constructor
    · rintro rfl
      refine ⟨_, rfl, fun _ => ?_⟩
      rw [includesFacts_iff]
      intro f hf
      exact full_iff.mpr (ht.wf.goalFacts f hf)
    · rintro ⟨st, h, _⟩
      rcases List.getElem?_eq_some_iff.mp h with ⟨hl, _⟩
      simpa using hl
  · exact fun _ _ _ => Or.inl (fun v x _ => hK v x)

theorem Inv.markAll {a : Abs} (h : Inv t a) : Inv t a.markAll := ⟨h.ts, h.within, h.leaf, h.leads, h.unique, h.step, h.init⟩

theorem Tight.markAll {a : Abs} (h : Tight t a) : Tight t a.markAll := ⟨h.nonempty, h.edge, h.loop⟩

/-- the abstract states are disjoint and not empty -/
theorem size_le (ht : CartesianTask t) {a : Abs} (hi : Inv t a) (hx : Tight t a) : a.states.length ≤ t.numStates := by
  have hch : ∀ i, ∃ s, i < a.states.length → t.ValidState s ∧ In a i s := by
    intro i
    by_cases h : i < a.states.length
    · obtain ⟨s, hs⟩ := hx.member hi h
      exact ⟨s, fun _ => hs⟩
    · exact ⟨[], fun k => absurd k h⟩
  choose f hf using hch
  have hn : ((List.range a.states.length).map f).Nodup := by
    refine List.Nodup.map_on (fun i hi' j hj he => ?_) List.nodup_range
    have h1 := hf i (List.mem_range.mp hi')
    have h2 := hf j (List.mem_range.mp hj)
    rw [← he] at h2
    exact hi.unique _ h1.1 i j h1.2 h2.2
  have hsub : (List.range a.states.length).map f ⊆ Search.Task.states t := by
    intro s hs
    obtain ⟨i, h1, rfl⟩ := List.mem_map.mp hs
    exact Search.mem_states.mpr (hf i (List.mem_range.mp h1)).1
  have h := (List.subperm_of_subset hn hsub).length_le
  have h3 : (Search.Task.states t).length = t.numStates := Search.length_allStates _
  simp only [List.length_map, List.length_range] at h
  omega

/-! ### Separating unreachable facts -/

/-- the abstract initial state consists of the given facts, for the variables that are not in `vs`; all other abstract states lie outside -/
structure SepInv (t : Task) (facts : List Fact) (vs : List Nat) (a : Abs) : Prop where
  inv : Inv t a
  tight : Tight t a
  core : ∃ st : AState, a.states[a.init]? = some st ∧ ∀ v x, st.set v x = true ↔ CSet.full (domainSizes t) v x = true ∧ (v ∉ vs → (⟨v, x⟩ : Fact) ∈ facts)
  others : ∀ (i : Nat) (st : AState), i ≠ a.init → a.states[i]? = some st → ∃ v, v < t.vars.length ∧ ∀ x, st.set v x = true → (⟨v, x⟩ : Fact) ∉ facts

theorem mem_unreachable {facts : List Fact} {v x : Nat} : x ∈ unreachableValues t facts v ↔ CSet.full (domainSizes t) v x = true ∧ (⟨v, x⟩ : Fact) ∉ facts := by
  unfold unreachableValues CSet.full
  rw [List.mem_filter, List.mem_range]
  cases (domainSizes t)[v]? <;> simp

theorem separateLoop_spec (ht : CartesianTask t) {maxStates : Nat} {facts : List Fact} (hinit : ∀ v x : Nat, t.init[v]? = some x → (⟨v, x⟩ : Fact) ∈ facts) :
    ∀ (vs : List Nat) (limit : Nat) (a : Abs), SepInv t facts vs a → vs.Nodup → (∀ v ∈ vs, v < t.vars.length) → a.states.length ≤ max 1 maxStates →
    ∃ a' b, separateLoop t maxStates facts limit vs a = some (a', b) ∧ Inv t a' ∧ a'.states.length ≤ max 1 maxStates ∧ (b = true → SepInv t facts [] a') ∧ (t.numStates < maxStates → vs.length ≤ limit → b = true) := by
  intro vs
  induction vs with
  | nil =>
    intro limit a h _ _ hl
    exact ⟨a, true, by cases limit <;> rfl, h.inv, hl, fun _ => h, fun _ _ => rfl⟩
  | cons v vs ih =>
    intro limit a h hn hv hl
    cases limit with
    | zero => exact ⟨a, false, rfl, h.inv, hl, fun e => (by simp at e), fun _ k => by simp at k⟩
    | succ limit =>
      unfold separateLoop
      by_cases hm : a.states.length ≥ maxStates
      · rw [if_pos hm]; exact ⟨a, false, rfl, h.inv, hl, fun e => (by simp at e), fun k _ => by have := size_le ht h.inv h.tight; omega⟩
      · rw [if_neg hm]
        rw [List.nodup_cons] at hn
        obtain ⟨st, c1, c2⟩ := h.core
        by_cases hu : unreachableValues t facts v = []
        · rw [if_pos hu]
          have hS : SepInv t facts vs a := by
            refine ⟨h.inv, h.tight, ⟨st, c1, fun u x => ?_⟩, h.others⟩
            rw [c2]
            refine and_congr_right (fun hf => ⟨fun k hk => ?_, fun k hk => k (fun m => hk (List.mem_cons_of_mem _ m))⟩)
            by_cases he : u = v
            · subst he
              by_contra hc
              have := mem_unreachable.mpr ⟨hf, hc⟩
              rw [hu] at this; simp at this
            · exact k (by simp [he, hk])
          obtain ⟨a', b, z1, z2, z3, z4, z5⟩ := ih limit a hS hn.2 (fun u hu => hv u (by simp [hu])) hl
          exact ⟨a', b, z1, z2, z3, z4, fun m1 m2 => z5 m1 (by simpa using m2)⟩
        · rw [if_neg hu]
          have hvl := hv v (by simp)
          have hw : ∀ st' : AState, a.states[a.init]? = some st' → ∀ x ∈ unreachableValues t facts v, st'.set v x = true := by
            intro st' k x hx
            rw [c1] at k; simp at k; subst k
            exact (c2 v x).mpr ⟨(mem_unreachable.mp hx).1, fun k => absurd (by simp) k⟩
          obtain ⟨a', k1, k2, k3⟩ := refine_inv ht h.inv (List.getElem?_eq_some_iff.mp c1).1 hvl hw
          rw [k1]
          simp only
          obtain ⟨y, hy⟩ := state_value ht.wf.init hvl
          have hyn : y ∉ unreachableValues t facts v := fun hm => (mem_unreachable.mp hm).2 (hinit v y hy)
          have hinit' : a'.init = a.init := by
            refine k2.unique t.init ht.wf.init _ _ k2.init ?_
            exact (k3.in_iff hw hy a.init).mpr (Or.inr (Or.inl ⟨rfl, h.inv.init, hyn⟩))
          obtain ⟨st', st1, st2, p1, p2, p3, p4, p5⟩ := k3.parts
          rw [c1] at p1; simp at p1; subst p1
          have hlt := (List.getElem?_eq_some_iff.mp c1).1
          have hS : SepInv t facts vs a' := by
            refine ⟨k2, ?_, ⟨st1, by rw [hinit']; exact p2, fun u x => ?_⟩, fun i u hi hu' => ?_⟩
            · refine refine_tight ht h.inv h.tight c1 hvl ⟨y, ?_, hyn⟩ hu k3
              obtain ⟨st', l1, l2⟩ := h.inv.init
              rw [c1] at l1; simp at l1; subst l1
              exact includesState_iff.mp l2 v y hy
            · rw [p4, split_fst, c2]
              constructor
              · rintro ⟨⟨l1, l2⟩, l3⟩
                refine ⟨l1, fun hnu => ?_⟩
                by_cases he : u = v
                · subst he
                  by_contra hc
                  exact l3 ⟨rfl, mem_unreachable.mpr ⟨l1, hc⟩⟩
                · exact l2 (by simp [he, hnu])
              · rintro ⟨l1, l2⟩
                refine ⟨⟨l1, fun hnu => l2 (fun m => hnu (List.mem_cons_of_mem _ m))⟩, ?_⟩
                rintro ⟨rfl, hx⟩
                exact (mem_unreachable.mp hx).2 (l2 hn.1)
            · rw [hinit'] at hi
              by_cases hin : i = a.states.length
              · subst hin
                rw [p3] at hu'; simp at hu'; subst hu'
                refine ⟨v, hvl, fun x hx => ?_⟩
                rw [p5, split_snd] at hx
                rcases hx with ⟨k, _⟩ | ⟨_, k⟩
                · exact absurd rfl k
                · exact (mem_unreachable.mp k).2
              · have hl' : i < a.states.length := by
                  have := (List.getElem?_eq_some_iff.mp hu').1
                  rw [k3.length] at this; omega
                obtain ⟨w, w', q1, q2, q3⟩ := k3.old i hi hl'
                rw [hu'] at q2; simp at q2; subst q2
                rw [q3]
                exact h.others i w hi q1
          obtain ⟨a'', b, z1, z2, z3, z4, z5⟩ := ih limit a' hS hn.2 (fun u hu => hv u (by simp [hu])) (by rw [k3.length]; omega)
          exact ⟨a'', b, z1, z2, z3, z4, fun m1 m2 => z5 m1 (by simpa using m2)⟩

/-- the abstraction after the separation, if it is completed, or not -/
theorem separate_spec (ht : CartesianTask t) {maxStates limit : Nat} {g : Fact} (hg : t.goal = [g]) :
    ∃ a b, separate t maxStates limit g = some (a, b) ∧ Inv t a ∧ a.states.length ≤ max 1 maxStates ∧ (∀ i, i ∈ a.goals ↔ i < a.states.length) ∧ (b = true → Tight t a ∧ GoalsK t (Core t) a) ∧ (t.numStates < maxStates → t.vars.length ≤ limit → b = true) := by
  obtain ⟨fs, f1, f2, f3⟩ := relaxedPossibleBefore_spec ht (last := g)
  unfold separate
  rw [f1]
  simp only
  have hcore : ∀ v x, (⟨v, x⟩ : Fact) ∈ fs ↔ Core t v x := by
    intro v x
    rw [f2]
    constructor
    · intro h g' hg'
      have : g' = g := by rw [hg] at hg'; simpa using hg'.symm
      subst this
      exact h
    · exact fun h => h g hg
  have hinit : ∀ v x : Nat, t.init[v]? = some x → (⟨v, x⟩ : Fact) ∈ fs := fun v x hx => (hcore v x).mpr (core_init v x hx)
  have hsep : SepInv t fs (List.range t.vars.length) (Abs.trivial t) := by
    refine ⟨Inv.trivial ht, Tight.trivial ht, ⟨⟨0, CSet.full (domainSizes t)⟩, rfl, fun v x => ?_⟩, fun i st hi hst => ?_⟩
    · simp only [List.mem_range]
      constructor
      · intro h
        refine ⟨h, fun k => ?_⟩
        obtain ⟨d, h1, _⟩ := full_iff.mp h
        exact absurd (List.getElem?_eq_some_iff.mp h1).1 k
      · exact fun h => h.1
    · exfalso
      have := (List.getElem?_eq_some_iff.mp hst).1
      simp only [Abs.trivial, List.length_singleton] at this hi
      omega
  obtain ⟨a, b, k1, k2, k3, k4, k5⟩ := separateLoop_spec ht (maxStates := maxStates) hinit (List.range t.vars.length) limit (Abs.trivial t) hsep List.nodup_range (fun v hv => List.mem_range.mp hv) (by simp [Abs.trivial])
  rw [k1]
  refine ⟨a.markAll, b, rfl, k2.markAll, k3, by simp [Abs.markAll], fun hb => ⟨(k4 hb).tight.markAll, ?_⟩, fun m1 m2 => k5 m1 (by simpa using m2)⟩
  have h := k4 hb
  obtain ⟨st0, c1, c2⟩ := h.core
  have hout : ∀ (i : Nat) (st : AState), i ≠ a.init → a.states[i]? = some st → ∃ v, v < t.vars.length ∧ ∀ x, st.set v x = true → ¬Core t v x := by
    intro i st hi hst
    obtain ⟨v, hv, k⟩ := h.others i st hi hst
    exact ⟨v, hv, fun x hx hc => k x hx ((hcore v x).mpr hc)⟩
  constructor
  · intro i
    simp only [Abs.markAll, List.mem_range]
    constructor
    · intro hi
      refine ⟨_, List.getElem?_eq_getElem hi, fun hin => ?_⟩
      have hst := List.getElem?_eq_getElem hi
      generalize a.states[i] = st at hst hin
      by_cases he : i = a.init
      · subst he
        rw [c1] at hst; simp at hst; subst hst
        rw [includesFacts_iff]
        intro f hf
        have hf' : f = g := by rw [hg] at hf; simpa using hf
        subst hf'
        exact (c2 _ _).mpr ⟨full_iff.mpr (ht.wf.goalFacts f hf), fun _ => (f2 f).mpr (Or.inl rfl)⟩
      · obtain ⟨v, hv, k⟩ := hout i st he hst
        obtain ⟨x, hx⟩ := h.tight.nonempty i st v hst hv
        exact absurd (hin v x hx) (k x hx)
    · rintro ⟨st, hst, _⟩
      exact (List.getElem?_eq_some_iff.mp hst).1
  · intro i st hst
    by_cases he : i = a.init
    · subst he
      left
      simp only [Abs.markAll] at hst
      rw [c1] at hst; simp at hst; subst hst
      exact fun v x hx => (hcore v x).mp (((c2 v x).mp hx).2 (by simp))
    · exact Or.inr (hout i st he hst)

/-! ### The loop -/

/-- the sum of the operator costs -/
def seqCost (costs : List Nat) (π : List Nat) : Nat := (π.map (costAt costs)).sum

/-- plans correspond to abstract solutions -/
theorem plan_FGoal (ht : CartesianTask t) {a : Abs} (hi : Inv t a) {costs : List Nat} (hgoal : ∀ s i, allHold t.goal s → In a i s → i ∈ a.goals) {s u : State} {π : List Nat} (he : t.Exec s π u) (hu : allHold t.goal u) :
    ∀ i, t.ValidState s → In a i s → (∀ op ∈ π, costAt costs op < infinite) → ∃ k, k ≤ seqCost costs π ∧ FGoal a.ts.outgoing costs a.goals i k := by
  induction he with
  | nil s => exact fun i hs hin _ => ⟨0, Nat.zero_le _, .goal i (hgoal s i hu hin)⟩
  | cons s op o s' π u h1 h2 h3 _ ih =>
    intro i hs hin hfin
    have hstep : t.Step s op s' := ⟨o, h1, h2, h3⟩
    have hs' := (step_values ht hs hstep).1
    obtain ⟨j, hj⟩ := hi.exists_in hs'
    obtain ⟨k, k1, k2⟩ := ih hu j hs' hj (fun op' h => hfin op' (by simp [h]))
    have hsum : seqCost costs (op :: π) = costAt costs op + seqCost costs π := by simp [seqCost]
    by_cases hij : i = j
    · subst hij; exact ⟨k, by omega, k2⟩
    · exact ⟨costAt costs op + k, by omega, .step i op j k ⟨(hi.step s s' op i j hs hstep hin hj).1 hij, hfin op (by simp)⟩ k2⟩

/-- what holds when the loop ends -/
structure LoopResult (t : Task) (costs : List Nat) (maxStates : Nat) (a : Abs) (o : Outcome) : Prop where
  inv : Inv t a
  size : a.states.length ≤ max 1 maxStates
  range : ∀ i ∈ a.goals, i < a.states.length
  cover : ∀ s i, In a i s → (allHold t.goal s ∨ ¬SIn (Core t) s) → i ∈ a.goals
  solved : ∀ π, o = .solved π → t.IsPlan π ∧ (∀ op ∈ π, costAt costs op < infinite) ∧ ∀ π', t.IsPlan π' → (∀ op ∈ π', costAt costs op < infinite) → seqCost costs π ≤ seqCost costs π'
  unsolvable : o = .unsolvable → ∀ π', t.IsPlan π' → ∃ op ∈ π', costAt costs op = infinite
  solvedAbs : ∀ π, o = .solved π → FGoal a.ts.outgoing costs a.goals a.init (seqCost costs π) ∧ ∀ k, FGoal a.ts.outgoing costs a.goals a.init k → seqCost costs π ≤ k
  unsolvableAbs : o = .unsolvable → ∀ k, ¬FGoal a.ts.outgoing costs a.goals a.init k

theorem trace_finite {out : Nat → List Trans} {costs goals : List Nat} {i j : Nat} {sol : List Trans} (h : Trace out costs goals i sol j) : ∀ op ∈ sol.map (·.op), costAt costs op < infinite := by
  induction h with
  | nil => simp
  | cons i tr l j _ _ h3 _ ih =>
    intro op hop
    simp only [List.map_cons, List.mem_cons] at hop
    rcases hop with rfl | hop
    · exact h3
    · exact ih op hop

variable {costs : List Nat} {C maxStates : Nat}

theorem refinementLoop_spec (H : StdHeap Nat) (ht : CartesianTask t) (hlen : costs.length = t.ops.length) (hle : ∀ c ∈ costs, c ≤ infinite) (hb : Bounded costs C) (hN : 2 * max 1 maxStates * C < infinite) :
    ∀ (steps : List (Option Nat × Nat)) (a : Abs) (h : Nat → Nat) (q : Queue Nat), Inv t a → Tight t a → GoalsK t (Core t) a → a.states.length ≤ max 1 maxStates → HAdm a.ts.outgoing costs a.goals h → (∀ i, h i ≤ max 1 maxStates * C) → (∃ bag, Rep q bag) →
    ∃ a' o, refinementLoop H t costs maxStates steps a h q = some (a', o) ∧ LoopResult t costs maxStates a' o ∧
      ((∀ p ∈ steps, p.1 = none) → t.numStates < maxStates → t.numStates < a.states.length + steps.length → o ≠ .limit) := by
  intro steps
  induction steps with
  | nil =>
    intro a h q hi hx hg hl hh hhb hq
    exact ⟨a, .limit, rfl, ⟨hi, hl, fun i h => hg.lt h, fun s i h1 h2 => hg.cover h1 h2, fun π e => by simp at e, fun e => by simp at e, fun π e => by simp at e, fun e => by simp at e⟩, fun _ _ k => by have := size_le ht hi hx; simp at k; omega⟩
  | cons p steps ih =>
    intro a h q hi hx hg hl hh hhb hq
    obtain ⟨cut, choice⟩ := p
    have hres : LoopResult t costs maxStates a .limit := ⟨hi, hl, fun i h => hg.lt h, fun s i h1 h2 => hg.cover h1 h2, fun π e => by simp at e, fun e => by simp at e, fun π e => by simp at e, fun e => by simp at e⟩
    unfold refinementLoop
    have hsz := size_le ht hi hx
    by_cases hm : a.states.length ≥ maxStates
    · rw [if_pos hm]
      exact ⟨a, .limit, rfl, hres, fun _ hms _ => by omega⟩
    · rw [if_neg hm]
      have hG : GOk a.states.length a.ts.outgoing costs a.goals a.init C := by
        refine ⟨fun i op j hm => ?_, fun i h => hg.lt h, hi.init.lt, hle, hb⟩
        obtain ⟨r1, r2, _, r4⟩ := hi.ts.range i op j hm
        exact ⟨r1, r2, by rw [hlen]; exact r4⟩
      have hnC : a.states.length * C ≤ max 1 maxStates * C := Nat.mul_le_mul_right _ hl
      have hB : a.states.length * C + max 1 maxStates * C < infinite := by
        have : 2 * max 1 maxStates * C = max 1 maxStates * C + max 1 maxStates * C := by rw [Nat.mul_assoc, Nat.two_mul]
        omega
      obtain ⟨r, h', q', e1, e2, e3, e4⟩ := findSolution_spec H hG hhb hB hq
      rw [e1]
      have hgoal : ∀ s i, allHold t.goal s → In a i s → i ∈ a.goals := fun s i k1 k2 => hg.cover k2 (Or.inl k1)
      cases r with
      | none =>
        simp only
        refine ⟨a, .unsolvable, rfl, ⟨hi, hl, fun i h => hg.lt h, fun s i h1 h2 => hg.cover h1 h2, fun π e => by simp at e, fun _ π' hp => ?_, fun π e => by simp at e, fun _ => e3 rfl⟩, fun _ _ _ => by simp⟩
        by_contra hno
        push Not at hno
        obtain ⟨u, he, hu⟩ := hp
        have hfin : ∀ op ∈ π', costAt costs op < infinite := by
          intro op hop
          have h1 := hno op hop
          have h2 : costAt costs op ≤ infinite := by
            unfold costAt
            cases hc : costs[op]? with
            | none => simp
            | some c => exact hle c (List.mem_of_getElem? hc)
          omega
        obtain ⟨k, _, hk⟩ := plan_FGoal ht hi hgoal he hu a.init ht.wf.init hi.init hfin
        exact e3 rfl k hk
      | some sol =>
        simp only
        obtain ⟨⟨j, hj, htr⟩, e5, e6⟩ := e4 sol rfl
        obtain ⟨e7, e8⟩ := e6 hh
        obtain ⟨r, f1, f2, f3⟩ := findFlaw_spec ht hi hx hg (core_closed ht) hj sol cut a.init t.init [] htr ht.wf.init hi.init (.nil _) (Or.inr core_init)
        rw [f1]
        cases r with
        | plan π =>
          simp only
          refine ⟨a, .solved π, rfl, ⟨hi, hl, fun i h => hg.lt h, fun s i h1 h2 => hg.cover h1 h2, fun π' e => ?_, fun e => by simp at e, fun π' e => ?_, fun e => by simp at e⟩, fun _ _ _ => by simp⟩
          all_goals
            simp at e; subst e
            obtain ⟨rfl, hp⟩ := f2 π rfl
            have hsum : seqCost costs ([] ++ sol.map (·.op)) = traceCost costs sol := by simp [seqCost, traceCost, Function.comp_def]
          on_goal 2 => exact ⟨by rw [hsum]; exact htr.goal hj, fun k hk => by rw [hsum]; exact e7 k hk⟩
          refine ⟨hp, trace_finite htr, fun π' hp' hfin => ?_⟩
          obtain ⟨u, he, hu⟩ := hp'
          obtain ⟨k, k1, hk⟩ := plan_FGoal ht hi hgoal he hu a.init ht.wf.init hi.init hfin
          have := e7 k hk
          omega
        | flaw f =>
          simp only
          obtain ⟨a', var, wanted, g1, g2, g3, g4, g5, g6, g7⟩ := applyFlaw_spec ht hi hx hg (f3 f rfl) choice
          rw [g1]
          simp only
          have hl' : a'.states.length ≤ max 1 maxStates := by rw [g4.length]; omega
          cases cut with
          | some k =>
            simp only [Option.isSome_some, if_true]
            exact ⟨a', .limit, rfl, ⟨g2, hl', fun i h => g3.lt h, fun s i h1 h2 => g3.cover h1 h2, fun π e => by simp at e, fun e => by simp at e, fun π e => by simp at e, fun e => by simp at e⟩, fun hc _ _ => by simpa using hc _ (List.mem_cons_self)⟩
          | none =>
            simp only [Option.isSome_none, Bool.false_eq_true, if_false]
            have hh' := HAdm.refine ht hi g2 (g7 rfl) hg g4 g5 g6 e8
            have hhb' : ∀ i, copyH h' f.current a.states.length i ≤ max 1 maxStates * C := by
              intro i
              have h1 := e5 f.current
              have h2 := e5 i
              unfold copyH Relax.upd
              split <;> omega
            obtain ⟨a'', o, k1, k2, k3⟩ := ih a' _ q' g2 (g7 rfl) g3 hl' hh' hhb' e2
            refine ⟨a'', o, k1, k2, fun hc hms hsz2 => ?_⟩
            have hsz' := size_le ht g2 (g7 rfl)
            rw [g4.length] at hsz' k3
            simp only [List.length_cons] at hsz2
            refine k3 (fun p hp => hc p (List.mem_cons_of_mem _ hp)) hms (by omega)

theorem cegar_spec (H : StdHeap Nat) (ht : CartesianTask t) (hlen : costs.length = t.ops.length) (hle : ∀ c ∈ costs, c ≤ infinite) (hb : Bounded costs C) (hN : 2 * max 1 maxStates * C < infinite) (sched : Schedule) :
    ∃ a o, cegar H t maxStates sched costs = some (a, o) ∧ LoopResult t costs maxStates a o ∧
      ((∀ p ∈ sched.steps, p.1 = none) → t.numStates < maxStates → t.vars.length ≤ sched.separate → t.numStates ≤ sched.steps.length → o ≠ .limit) := by
  have hloop : ∀ a : Abs, Inv t a → Tight t a → GoalsK t (Core t) a → a.states.length ≤ max 1 maxStates → ∃ a' o, refinementLoop H t costs maxStates sched.steps a (fun _ => 0) Queue.new = some (a', o) ∧ LoopResult t costs maxStates a' o ∧
      ((∀ p ∈ sched.steps, p.1 = none) → t.numStates < maxStates → t.vars.length ≤ sched.separate → t.numStates ≤ sched.steps.length → o ≠ .limit) := by
    intro a hi hx hg hl
    obtain ⟨a', o, h1, h2, h3⟩ := refinementLoop_spec H ht hlen hle hb hN sched.steps a (fun _ => 0) Queue.new hi hx hg hl (fun _ _ _ => Nat.zero_le _) (fun _ => Nat.zero_le _) ⟨[], Rep.new⟩
    refine ⟨a', o, h1, h2, fun k1 k2 _ k4 => h3 k1 k2 ?_⟩
    have := hi.init.lt
    omega
  unfold cegar
  split
  · rename_i g hg
    obtain ⟨a, b, k1, k2, k3, k4, k5, k6⟩ := separate_spec ht (maxStates := maxStates) (limit := sched.separate) hg
    rw [k1]
    cases b with
    | false =>
      simp only
      refine ⟨a, .limit, rfl, ⟨k2, k3, fun i h => (k4 i).mp h, fun s i h _ => (k4 i).mpr h.lt, fun π e => by simp at e, fun e => by simp at e, fun π e => by simp at e, fun e => by simp at e⟩, fun _ hms hsep _ => ?_⟩
      exact absurd (k6 hms hsep) (by simp)
    | true =>
      simp only
      exact hloop a k2 (k5 rfl).1 (k5 rfl).2 k3
  · rename_i hno
    exact hloop _ (Inv.trivial ht) (Tight.trivial ht) (goalsK_trivial ht (fun v x g hg => absurd hg (hno g))) (by simp [Abs.trivial])

end Verif.Cart
