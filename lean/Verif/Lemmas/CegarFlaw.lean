import Verif.Lemmas.CegarSearch
import Verif.Lemmas.CartExact
import Verif.Lemmas.Saturation
import Verif.Props.Registry

/-
Flaws of abstract solutions, and the splits that remove them.
-/
namespace Verif.Cart

variable {t : Task} {K : Nat → Nat → Prop}

/-! ### Desired sets -/

theorem foldl_setSingle {l : List Fact} : ∀ {c : CSet}, (l.map (·.var)).Nodup → ∀ v x, (l.foldl (fun c f => c.setSingle f.var f.val) c) v x = true ↔ (⟨v, x⟩ ∈ l ∨ ((∀ f ∈ l, f.var ≠ v) ∧ c v x = true)) := by
  induction l with
  | nil => intro c _ v x; simp
  | cons f l ih =>
    intro c hn v x
    rw [List.map_cons, List.nodup_cons] at hn
    rw [List.foldl_cons, ih hn.2]
    have hs : (c.setSingle f.var f.val) v x = true ↔ (v = f.var ∧ x = f.val) ∨ (v ≠ f.var ∧ c v x = true) := by
      unfold CSet.setSingle CSet.add CSet.removeAll
      by_cases h1 : v = f.var
      · subst h1; by_cases h2 : x = f.val <;> simp [h2]
      · simp [h1]
    rw [hs]
    constructor
    · rintro (h | ⟨h1, ⟨rfl, rfl⟩ | ⟨h2, h3⟩⟩)
      · exact Or.inl (List.mem_cons_of_mem _ h)
      · exact Or.inl (by simp)
      · refine Or.inr ⟨fun g hg => ?_, h3⟩
        rcases List.mem_cons.mp hg with rfl | hg
        · exact Ne.symm h2
        · exact h1 g hg
    · rintro (h | ⟨h1, h2⟩)
      · rcases List.mem_cons.mp h with h | h
        · refine Or.inr ⟨fun g hg he => hn.1 ?_, Or.inl ?_⟩
          · rw [← h]; exact List.mem_map.mpr ⟨g, hg, he⟩
          · rw [← h]; exact ⟨rfl, rfl⟩
        · exact Or.inl h
      · exact Or.inr ⟨fun g hg => h1 g (List.mem_cons_of_mem _ hg), Or.inr ⟨Ne.symm (h1 f (by simp)), h2⟩⟩

theorem ofConds_iff {fs : List Fact} (hn : (fs.map (·.var)).Nodup) {v x : Nat} : CSet.ofConds (domainSizes t) fs v x = true ↔ (⟨v, x⟩ ∈ fs ∨ ((∀ f ∈ fs, f.var ≠ v) ∧ CSet.full (domainSizes t) v x = true)) :=
  foldl_setSingle hn v x

theorem foldl_addAll {dom : List Nat} {l : List Effect} : ∀ {c : CSet} (v x : Nat), (l.foldl (fun c e => c.addAll dom e.fact.var) c) v x = true ↔ (((∃ e ∈ l, e.fact.var = v) ∧ CSet.full dom v x = true) ∨ ((∀ e ∈ l, e.fact.var ≠ v) ∧ c v x = true)) := by
  induction l with
  | nil => intro c v x; simp
  | cons e l ih =>
    intro c v x
    rw [List.foldl_cons, ih]
    have hs : (c.addAll dom e.fact.var) v x = true ↔ (v = e.fact.var ∧ CSet.full dom v x = true) ∨ (v ≠ e.fact.var ∧ c v x = true) := by
      unfold CSet.addAll
      by_cases h1 : v = e.fact.var <;> simp [h1]
    rw [hs]
    simp only [List.mem_cons, exists_eq_or_imp, forall_eq_or_imp]
    constructor
    · rintro (⟨h1, h2⟩ | ⟨h1, ⟨rfl, h2⟩ | ⟨h2, h3⟩⟩)
      · exact Or.inl ⟨Or.inr h1, h2⟩
      · exact Or.inl ⟨Or.inl rfl, h2⟩
      · exact Or.inr ⟨⟨Ne.symm h2, h1⟩, h3⟩
    · rintro (⟨h1 | h1, h2⟩ | ⟨⟨h1, h2⟩, h3⟩)
      · by_cases hl : ∃ e' ∈ l, e'.fact.var = v
        · exact Or.inl ⟨hl, h2⟩
        · push Not at hl
          exact Or.inr ⟨hl, Or.inl ⟨h1.symm, h2⟩⟩
      · exact Or.inl ⟨h1, h2⟩
      · exact Or.inr ⟨h2, Or.inr ⟨Ne.symm h1, h3⟩⟩

theorem regress_iff {c : CSet} {o : Operator} (hn : (o.pre.map (·.var)).Nodup) {v x : Nat} :
    c.regress (domainSizes t) o v x = true ↔ (⟨v, x⟩ ∈ o.pre ∨ ((∀ f ∈ o.pre, f.var ≠ v) ∧ (((∃ e ∈ o.effects, e.fact.var = v) ∧ CSet.full (domainSizes t) v x = true) ∨ ((∀ e ∈ o.effects, e.fact.var ≠ v) ∧ c v x = true)))) := by
  unfold CSet.regress
  rw [foldl_setSingle hn, foldl_addAll]

/-- some conditions are not satisfied -/
theorem ofConds_split {fs : List Fact} (hn : (fs.map (·.var)).Nodup) (hv : ∀ f ∈ fs, t.ValidFact f) {s : State} (hs : t.ValidState s) (h : ¬allHold fs s) : ∃ v x, s[v]? = some x ∧ CSet.ofConds (domainSizes t) fs v x = false := by
  unfold allHold at h
  push Not at h
  obtain ⟨f, hf, hn2⟩ := h
  obtain ⟨d, hd, _⟩ := hv f hf
  obtain ⟨x, hx⟩ := state_value hs (List.getElem?_eq_some_iff.mp hd).1
  refine ⟨f.var, x, hx, ?_⟩
  rw [Bool.eq_false_iff]
  intro hc
  rcases (ofConds_iff hn).mp hc with k | ⟨k, _⟩
  · have : f = ⟨f.var, x⟩ := List.inj_on_of_nodup_map hn hf k rfl
    apply hn2
    unfold Fact.holds
    rw [this]
    exact hx
  · exact k f hf rfl

theorem ofConds_proper {fs : List Fact} (hn : (fs.map (·.var)).Nodup) {s : State} (hs : t.ValidState s) {v x : Nat} (hx : s[v]? = some x) (h : CSet.ofConds (domainSizes t) fs v x = false) : ∃ y, ⟨v, y⟩ ∈ fs ∧ CSet.ofConds (domainSizes t) fs v y = true := by
  by_cases hf : ∃ f ∈ fs, f.var = v
  · obtain ⟨f, hf, rfl⟩ := hf
    exact ⟨f.val, hf, (ofConds_iff hn).mpr (Or.inl hf)⟩
  · push Not at hf
    rw [(ofConds_iff hn).mpr (Or.inr ⟨hf, includesState_iff.mp (full_state hs) v x hx⟩)] at h
    simp at h

/-! ### The core -/

/-- the set lies in the core -/
def Inside (K : Nat → Nat → Prop) (c : CSet) : Prop := ∀ v x, c v x = true → K v x

/-- every abstract state lies in the core or outside; the goals are those that contain the goal facts and those outside the core -/
structure GoalsK (t : Task) (K : Nat → Nat → Prop) (a : Abs) : Prop where
  iff : ∀ i : Nat, i ∈ a.goals ↔ ∃ st : AState, a.states[i]? = some st ∧ (Inside K st.set → st.set.includesFacts t.goal = true)
  sep : ∀ (i : Nat) (st : AState), a.states[i]? = some st → Inside K st.set ∨ ∃ v, v < t.vars.length ∧ ∀ x, st.set v x = true → ¬K v x

/-- all values of the state belong to the core -/
def SIn (K : Nat → Nat → Prop) (s : State) : Prop := ∀ v x : Nat, s[v]? = some x → K v x

/-- the core is closed under operators that do not reach a goal state -/
def CoreClosed (t : Task) (K : Nat → Nat → Prop) : Prop := ∀ s op s', t.ValidState s → SIn K s → ¬allHold t.goal s → t.Step s op s' → allHold t.goal s' ∨ SIn K s'

theorem GoalsK.lt {a : Abs} (h : GoalsK t K a) {i : Nat} (hi : i ∈ a.goals) : i < a.states.length := by
  obtain ⟨st, k, _⟩ := (h.iff i).mp hi
  exact (List.getElem?_eq_some_iff.mp k).1

theorem GoalsK.inside {a : Abs} (h : GoalsK t K a) {i : Nat} {st : AState} (hst : a.states[i]? = some st) (hi : i ∉ a.goals) : Inside K st.set := by
  by_contra hn
  exact hi ((h.iff i).mpr ⟨st, hst, fun k => absurd k hn⟩)

theorem GoalsK.inside_of {a : Abs} (h : GoalsK t K a) {i : Nat} {st : AState} (hst : a.states[i]? = some st) {s : State} (hs : t.ValidState s) (hin : st.set.includesState s = true) (hK : SIn K s) : Inside K st.set := by
  rcases h.sep i st hst with k | ⟨v, hv, k⟩
  · exact k
  · obtain ⟨x, hx⟩ := state_value hs hv
    exact absurd (hK v x hx) (k x (includesState_iff.mp hin v x hx))

/-- goal states, and states outside the core, belong to goals -/
theorem GoalsK.cover {a : Abs} (h : GoalsK t K a) {i : Nat} {s : State} (hin : In a i s) (hg : allHold t.goal s ∨ ¬SIn K s) : i ∈ a.goals := by
  obtain ⟨st, h1, h2⟩ := hin
  rw [includesState_iff] at h2
  refine (h.iff i).mpr ⟨st, h1, fun hk => ?_⟩
  rcases hg with hg | hg
  · rw [includesFacts_iff]
    exact fun f hf => h2 f.var f.val (hg f hf)
  · exact absurd (fun v x hx => hk v x (h2 v x hx)) hg

theorem mem_newGoals {a : Abs} {v : Nat} {s1 s2 : CSet} {i : Nat} :
    i ∈ newGoals t a v a.states.length s1 s2 ↔ (i = a.states.length ∧ v ∈ a.goals ∧ s2.includesFacts t.goal = true) ∨ (i = v ∧ v ∈ a.goals ∧ s1.includesFacts t.goal = true) ∨ (i ≠ v ∧ i ∈ a.goals) := by
  unfold newGoals
  by_cases hg : v ∈ a.goals
  · rw [if_pos hg]
    simp only [List.mem_append, List.mem_filter, decide_eq_true_eq, hg, true_and]
    refine or_congr ?_ (or_congr ?_ and_comm)
    · by_cases h : s2.includesFacts t.goal = true <;> simp [h]
    · by_cases h : s1.includesFacts t.goal = true <;> simp [h]
  · rw [if_neg hg]
    simp only [hg, false_and, and_false, false_or]
    constructor
    · exact fun h => ⟨fun e => hg (e ▸ h), h⟩
    · exact fun h => h.2

theorem goalsK_refine {a a' : Abs} {v var : Nat} {wanted : List Nat} (h : GoalsK t K a) (hw : ∀ st : AState, a.states[v]? = some st → ∀ x ∈ wanted, st.set var x = true) (hr : Refined t a v var wanted a')
    (hin : ∀ st : AState, a.states[v]? = some st → Inside K st.set) : GoalsK t K a' := by
  obtain ⟨st, st1, st2, p1, p2, p3, p4, p5⟩ := hr.parts
  obtain ⟨_, q1, q2⟩ := hr.goals
  rw [p1] at q1; simp at q1; subst q1
  have hvl := (List.getElem?_eq_some_iff.mp p1).1
  have hsub1 : ∀ u x, (st.set.split var wanted).1 u x = true → st.set u x = true := fun u x k => ((split_fst _ _ _ _ _).mp k).1
  have hsub2 : ∀ u x, (st.set.split var wanted).2 u x = true → st.set u x = true := by
    intro u x k
    rcases (split_snd _ _ _ _ _).mp k with ⟨_, k⟩ | ⟨k1, k2⟩
    · exact k
    · rw [k1]; exact hw st p1 _ k2
  have hmono : ∀ c : CSet, (∀ u x, c u x = true → st.set u x = true) → c.includesFacts t.goal = true → v ∈ a.goals := by
    intro c hc hi
    rw [includesFacts_iff] at hi
    exact (h.iff v).mpr ⟨st, p1, fun _ => includesFacts_iff.mpr (fun f hf => hc _ _ (hi f hf))⟩
  have hI1 : Inside K st1.set := by rw [p4]; exact fun u x k => hin st p1 u x (hsub1 u x k)
  have hI2 : Inside K st2.set := by rw [p5]; exact fun u x k => hin st p1 u x (hsub2 u x k)
  constructor
  · intro i
    rw [q2, mem_newGoals]
    by_cases hiv : i = v
    · subst hiv
      have hne : i ≠ a.states.length := by omega
      simp only [hne, false_and, ne_eq, not_true_eq_false, or_false, true_and, false_or, p2, Option.some.injEq, exists_eq_left']
      rw [p4]
      constructor
      · exact fun k _ => k.2
      · intro k
        have := k (p4 ▸ hI1)
        exact ⟨hmono _ hsub1 this, this⟩
    · by_cases hin2 : i = a.states.length
      · subst hin2
        have hnm : a.states.length ∉ a.goals := fun hm => by have := h.lt hm; omega
        simp only [hiv, false_and, hnm, and_false, or_false, true_and, p3, Option.some.injEq, exists_eq_left']
        rw [p5]
        constructor
        · exact fun k _ => k.2
        · intro k
          have := k (p5 ▸ hI2)
          exact ⟨hmono _ hsub2 this, this⟩
      · simp only [hin2, hiv, false_and, ne_eq, not_false_eq_true, true_and, false_or]
        rw [h.iff i]
        by_cases hl : i < a.states.length
        · obtain ⟨u, u', k1, k2, k3⟩ := hr.old i hiv hl
          rw [k1, k2]
          simp [k3]
        · rw [List.getElem?_eq_none (l := a'.states) (by rw [hr.length]; omega), List.getElem?_eq_none (l := a.states) (by omega)]
  · intro i u hu
    by_cases hiv : i = v
    · subst hiv; rw [p2] at hu; simp at hu; subst hu; exact Or.inl hI1
    · by_cases hin2 : i = a.states.length
      · subst hin2; rw [p3] at hu; simp at hu; subst hu; exact Or.inl hI2
      · have hl : i < a.states.length := by
          have := (List.getElem?_eq_some_iff.mp hu).1
          rw [hr.length] at this; omega
        obtain ⟨w, w', k1, k2, k3⟩ := hr.old i hiv hl
        rw [hu] at k2; simp at k2; subst k2
        rw [k3]
        exact h.sep i w k1

/-! ### Finding flaws -/

/-- the flaw can be repaired by a split of an abstract state in the core -/
structure FlawOk (t : Task) (K : Nat → Nat → Prop) (a : Abs) (cut : Option Nat) (f : Flaw) : Prop where
  valid : t.ValidState f.concrete
  mem : In a f.current f.concrete
  inside : ∀ st : AState, a.states[f.current]? = some st → Inside K st.set
  split : ∃ v x, f.concrete[v]? = some x ∧ f.desired v x = false
  proper : cut = none → ∀ st : AState, a.states[f.current]? = some st → ∀ v x : Nat, f.concrete[v]? = some x → f.desired v x = false → ∃ y, st.set v y = true ∧ f.desired v y = true

theorem finalCheck_spec (ht : CartesianTask t) {a : Abs} (hg : GoalsK t K a) {cur : Nat} {s : State} {π : List Nat} {cut : Option Nat} (hs : t.ValidState s) (hin : In a cur s) (hK : allHold t.goal s ∨ SIn K s) (hc : cut = none → cur ∈ a.goals) :
    ∃ r, finalCheck t cur s π = some r ∧ (∀ π', r = .plan π' → π' = π ∧ allHold t.goal s) ∧ ∀ f, r = .flaw f → FlawOk t K a cut f := by
  unfold finalCheck
  rw [Search.isGoalState_spec hs t.goal (fun f hf => ht.wf.goalFacts f hf)]
  by_cases h : allHold t.goal s
  · rw [decide_eq_true h]
    exact ⟨_, rfl, fun π' e => by cases e; exact ⟨rfl, h⟩, fun f e => by cases e⟩
  · rw [decide_eq_false h]
    refine ⟨_, rfl, fun π' e => (by cases e), fun f e => ?_⟩
    cases e
    have hin2 : ∀ st : AState, a.states[cur]? = some st → Inside K st.set := by
      intro st hst
      obtain ⟨st', k1, k2⟩ := hin
      rw [hst] at k1; simp at k1; subst k1
      exact hg.inside_of hst hs k2 (hK.resolve_left h)
    refine ⟨hs, hin, hin2, ofConds_split ht.goal (fun f hf => ht.wf.goalFacts f hf) hs h, fun hcut st hst v x hx hd => ?_⟩
    obtain ⟨y, k1, k2⟩ := ofConds_proper ht.goal hs hx hd
    refine ⟨y, ?_, k2⟩
    obtain ⟨st', l1, l2⟩ := (hg.iff cur).mp (hc hcut)
    rw [hst] at l1; simp at l1; subst l1
    exact includesFacts_iff.mp (l2 (hin2 st hst)) _ k1

theorem findFlaw_spec (ht : CartesianTask t) {a : Abs} (hi : Inv t a) (hx : Tight t a) (hg : GoalsK t K a) (hcl : CoreClosed t K) {costs : List Nat} {j : Nat} (hj : j ∈ a.goals) :
    ∀ (sol : List Trans) (cut : Option Nat) (cur : Nat) (s : State) (π : List Nat), Trace a.ts.outgoing costs a.goals cur sol j → t.ValidState s → In a cur s → t.Exec t.init π s → (allHold t.goal s ∨ SIn K s) →
    ∃ r, findFlaw t a cut sol cur s π = some r ∧ (∀ π', r = .plan π' → π' = π ++ sol.map (·.op) ∧ t.IsPlan π') ∧ ∀ f, r = .flaw f → FlawOk t K a cut f := by
  intro sol
  induction sol with
  | nil =>
    intro cut cur s π htr hs hin he hK
    cases htr
    obtain ⟨r, h1, h2, h3⟩ := finalCheck_spec ht hg (π := π) (cut := cut) hs hin hK (fun _ => hj)
    refine ⟨r, by cases cut <;> exact h1, fun π' e => ?_, h3⟩
    obtain ⟨rfl, k⟩ := h2 π' e
    exact ⟨by simp, s, he, k⟩
  | cons step sol ih =>
    intro cut cur s π htr hs hin he hK
    cases htr with
    | cons _ _ _ _ hm hng hfin htr =>
    obtain ⟨st, hst, hinc⟩ := id hin
    have hins := hg.inside hst hng
    have hSK : SIn K s := fun v x hx => hins v x (includesState_iff.mp hinc v x hx)
    by_cases hc0 : cut = some 0
    · subst hc0
      obtain ⟨r, h1, h2, h3⟩ := finalCheck_spec ht hg (π := π) (cut := some 0) hs hin hK (fun k => by simp at k)
      refine ⟨r, h1, fun π' e => ?_, h3⟩
      obtain ⟨rfl, k⟩ := h2 π' e
      exact absurd (hg.cover hin (Or.inl k)) hng
    · obtain ⟨op, target⟩ := step
      obtain ⟨r1, r2, r3, r4⟩ := hi.ts.range cur op target hm
      have ho := List.getElem?_eq_getElem r4
      have hn := List.getElem?_eq_getElem r2
      generalize t.ops[op] = o at ho
      generalize a.states[target] = next at hn
      have hom := List.mem_of_getElem? ho
      have hcompat := hx.edge cur op target st next hm hst hn
      have hunf : findFlaw t a cut (⟨op, target⟩ :: sol) cur s π =
          (match Search.isGoalState s o.pre with
          | none => none
          | some false => some (.flaw ⟨s, cur, CSet.ofConds (domainSizes t) o.pre⟩)
          | some true =>
            match Registry.unregisteredSuccessor t s o with
            | none => none
            | some s' =>
              if next.set.includesState s' then findFlaw t a (cut.map (· - 1)) sol target s' (π ++ [op])
              else some (.flaw ⟨s, cur, next.set.regress (domainSizes t) o⟩)) := by
        rcases cut with _ | _ | k
        · rw [findFlaw]
          · simp only [ho, hn]
            rfl
          · simp
        · exact absurd rfl hc0
        · rw [findFlaw]
          · simp only [ho, hn]
            rfl
          · simp
      rw [hunf, Search.isGoalState_spec hs o.pre (fun f hf => ht.wf.pre o hom f hf)]
      by_cases happ : allHold o.pre s
      · rw [decide_eq_true happ]
        simp only
        obtain ⟨s', u1, u2, u3⟩ := Registry.unregistered_spec ht.wf hom hs
        have hstep : t.Step s op s' := ⟨o, ho, happ, u3⟩
        obtain ⟨_, v1, v2, v3⟩ := step_values ht hs hstep
        simp only [u1]
        by_cases hinc2 : next.set.includesState s' = true
        · simp only [hinc2, if_true]
          obtain ⟨r, h1, h2, h3⟩ := ih (cut.map (· - 1)) target s' (π ++ [op]) htr u2 ⟨next, hn, hinc2⟩ (exec_snoc he hstep) (hcl s op s' hs hSK (fun k => hng (hg.cover hin (Or.inl k))) hstep)
          refine ⟨r, h1, fun π' e => ?_, fun f e => ?_⟩
          · obtain ⟨k1, k2⟩ := h2 π' e
            exact ⟨by rw [k1]; simp, k2⟩
          · obtain ⟨k1, k2, k3, k4, k5⟩ := h3 f e
            exact ⟨k1, k2, k3, k4, fun hc => k5 (by rw [hc]; rfl)⟩
        · simp only [hinc2, Bool.false_eq_true, if_false]
          refine ⟨_, rfl, fun π' e => (by cases e), fun f e => ?_⟩
          cases e
          have hpn := ht.pre o hom
          refine ⟨hs, hin, fun st' k => by rw [hst] at k; simp at k; subst k; exact hins, ?_, fun _ st' k v x hvx hd => ?_⟩
          · rw [includesState_iff] at hinc2
            push Not at hinc2
            obtain ⟨v, y, hy, hny⟩ := hinc2
            have hv : v < t.vars.length := by rw [← u2.1]; exact (List.getElem?_eq_some_iff.mp hy).1
            have hpost : postValue t op v = none := by
              cases hp : postValue t op v with
              | none => rfl
              | some y' =>
                have := v2 v y' hp
                rw [hy] at this; simp at this; subst this
                exact absurd ((hcompat v hv).2.1 y hp) hny
            refine ⟨v, y, by rw [← v3 v hpost]; exact hy, ?_⟩
            rw [Bool.eq_false_iff]
            intro hd
            rcases (regress_iff hpn).mp hd with k | ⟨_, ⟨⟨e, he1, he2⟩, _⟩ | ⟨_, k⟩⟩
            · have := (preValue_iff ht ho).mpr k
              rw [pre_none ht hpost] at this
              simp at this
            · have : postValue t op v = some e.fact.val := (postValue_iff ht ho).mpr (Or.inl ⟨e, he1, by rw [← he2]⟩)
              rw [hpost] at this; simp at this
            · exact hny k
          · rw [hst] at k; simp at k; subst k
            simp only at hvx hd
            have hv : v < t.vars.length := by rw [← hs.1]; exact (List.getElem?_eq_some_iff.mp hvx).1
            have hnpre : ∀ f ∈ o.pre, f.var ≠ v := by
              rintro f hf rfl
              have hh : s[f.var]? = some f.val := happ f hf
              rw [hvx] at hh; simp at hh; subst hh
              rw [(regress_iff hpn).mpr (Or.inl hf)] at hd
              simp at hd
            have hneff : ∀ e ∈ o.effects, e.fact.var ≠ v := by
              intro e he' hev
              rw [(regress_iff hpn).mpr (Or.inr ⟨hnpre, Or.inl ⟨⟨e, he', hev⟩, includesState_iff.mp (full_state hs) v x hvx⟩⟩)] at hd
              simp at hd
            have hpost : postValue t op v = none := by
              cases hp : postValue t op v with
              | none => rfl
              | some y' =>
                rcases (postValue_iff ht ho).mp hp with ⟨e, k1, k2⟩ | ⟨_, k⟩
                · exact absurd (by rw [k2]) (hneff e k1)
                · exact absurd rfl (hnpre _ k)
            obtain ⟨y, k1, k2⟩ := (hcompat v hv).2.2 hpost
            exact ⟨y, k1, (regress_iff hpn).mpr (Or.inr ⟨hnpre, Or.inr ⟨hneff, k2⟩⟩)⟩
      · rw [decide_eq_false happ]
        simp only
        refine ⟨_, rfl, fun π' e => (by cases e), fun f e => ?_⟩
        cases e
        refine ⟨hs, hin, fun st' k => by rw [hst] at k; simp at k; subst k; exact hins, ofConds_split (ht.pre o hom) (fun f hf => ht.wf.pre o hom f hf) hs happ, fun _ st' k v x hvx hd => ?_⟩
        rw [hst] at k; simp at k; subst k
        obtain ⟨y, k1, k2⟩ := ofConds_proper (ht.pre o hom) hs hvx hd
        have hv : v < t.vars.length := by rw [← hs.1]; exact (List.getElem?_eq_some_iff.mp hvx).1
        exact ⟨y, (hcompat v hv).1 y ((preValue_iff ht ho).mpr k1), k2⟩

/-! ### Splits -/

theorem applyFlaw_spec (ht : CartesianTask t) {a : Abs} (hi : Inv t a) (hx : Tight t a) (hg : GoalsK t K a) {cut : Option Nat} {f : Flaw} (hf : FlawOk t K a cut f) (choice : Nat) :
    ∃ a' var wanted, applyFlaw t a f choice = some a' ∧ Inv t a' ∧ GoalsK t K a' ∧ Refined t a f.current var wanted a' ∧ var < t.vars.length ∧ (∀ st : AState, a.states[f.current]? = some st → ∀ x ∈ wanted, st.set var x = true) ∧ (cut = none → Tight t a') := by
  obtain ⟨st, hst, hinc⟩ := id hf.mem
  obtain ⟨v0, x0, k1, k2⟩ := hf.split
  unfold applyFlaw
  rw [hst]
  simp only
  have hne : possibleSplits t f.concrete st.set f.desired ≠ [] := by
    unfold possibleSplits
    intro h
    rw [List.map_eq_nil_iff, List.filter_eq_nil_iff] at h
    have := h (x0, v0) (List.mem_zipIdx_iff_getElem?.mpr k1)
    simp [k2] at this
  have hpos : 0 < (possibleSplits t f.concrete st.set f.desired).length := List.length_pos_iff.mpr hne
  have hlt := Nat.mod_lt choice hpos
  unfold pickSplit
  rw [List.getElem?_eq_getElem hlt]
  have hmem := List.getElem_mem hlt
  generalize (possibleSplits t f.concrete st.set f.desired)[choice % (possibleSplits t f.concrete st.set f.desired).length] = p at hmem
  obtain ⟨var, wanted⟩ := p
  simp only
  unfold possibleSplits at hmem
  rw [List.mem_map] at hmem
  obtain ⟨⟨x, v⟩, hm, he⟩ := hmem
  simp only [Prod.mk.injEq] at he
  obtain ⟨rfl, rfl⟩ := he
  rw [List.mem_filter] at hm
  obtain ⟨hm1, hm2⟩ := hm
  have hvx : f.concrete[v]? = some x := List.mem_zipIdx_iff_getElem?.mp hm1
  have hd : f.desired v x = false := by simpa using hm2
  have hv : v < t.vars.length := by rw [← hf.valid.1]; exact (List.getElem?_eq_some_iff.mp hvx).1
  have hw : ∀ st' : AState, a.states[f.current]? = some st' → ∀ y ∈ (List.range (((domainSizes t)[v]?).getD 0)).filter (fun x => st.set v x && f.desired v x), st'.set v y = true := by
    intro st' k y hy
    rw [hst] at k; simp at k; subst k
    rw [List.mem_filter] at hy
    simp at hy
    exact hy.2.1
  obtain ⟨a', h1, h2, h3⟩ := refine_inv ht hi (List.getElem?_eq_some_iff.mp hst).1 hv hw
  refine ⟨a', v, _, h1, h2, goalsK_refine hg hw h3 hf.inside, h3, hv, (fun st' k => hw st' (by rw [hst]; exact k)), fun hc => ?_⟩
  obtain ⟨y, l1, l2⟩ := hf.proper hc st hst v x hvx hd
  refine refine_tight ht hi hx hst hv ⟨x, includesState_iff.mp hinc v x hvx, ?_⟩ ?_ h3
  · rw [List.mem_filter]; simp [hd]
  · intro hnil
    rw [List.filter_eq_nil_iff] at hnil
    obtain ⟨d, e1, e2⟩ := hi.within _ _ hst v y l1
    have := hnil y (by rw [List.mem_range, domainSizes, List.getElem?_map, e1]; exact e2)
    simp [l1, l2] at this

/-- the h values remain lower bounds -/
theorem HAdm.refine (ht : CartesianTask t) {a a' : Abs} (hi : Inv t a) (hi' : Inv t a') (hx' : Tight t a') (hg : GoalsK t K a) {v var : Nat} {wanted : List Nat} (hr : Refined t a v var wanted a') (hvar : var < t.vars.length)
    (hw : ∀ st : AState, a.states[v]? = some st → ∀ x ∈ wanted, st.set var x = true) {costs : List Nat} {h : Nat → Nat} (hh : HAdm a.ts.outgoing costs a.goals h) :
    HAdm a'.ts.outgoing costs a'.goals (copyH h v a.states.length) := by
  obtain ⟨st, st1, st2, p1, _⟩ := hr.parts
  have hvl := (List.getElem?_eq_some_iff.mp p1).1
  obtain ⟨_, _, hq⟩ := hr.goals
  have key : ∀ i k, FGoal a'.ts.outgoing costs a'.goals i k → ∃ k', k' ≤ k ∧ FGoal a.ts.outgoing costs a.goals (if i = a.states.length then v else i) k' := by
    intro i k hk
    induction hk with
    | goal i h1 =>
      refine ⟨0, Nat.le_refl _, .goal _ ?_⟩
      rw [hq, mem_newGoals] at h1
      rcases h1 with ⟨rfl, k, _⟩ | ⟨rfl, k, _⟩ | ⟨_, k⟩
      · rw [if_pos rfl]; exact k
      · rw [if_neg (by omega)]; exact k
      · rw [if_neg (by have := hg.lt k; omega)]; exact k
    | step i op j k hout _ ih =>
      obtain ⟨k', l1, l2⟩ := ih
      obtain ⟨hm, hfin⟩ := hout
      obtain ⟨r1, r2, r3, r4⟩ := hi'.ts.range i op j hm
      have e1 := List.getElem?_eq_getElem r1
      have e2 := List.getElem?_eq_getElem r2
      obtain ⟨s, s', k1, k2, k3, k4⟩ := compat_step ht r4 (hi'.within i _ e1) (fun v hv => hx'.nonempty i _ v e1 hv) (hx'.edge i op j _ _ hm e1 e2)
      have hback : ∀ u i, t.ValidState u → In a' i u → In a (if i = a.states.length then v else i) u := by
        intro u i hu hin
        obtain ⟨y, hy⟩ := state_value hu hvar
        rcases (hr.in_iff hw hy i).mp hin with ⟨c1, c2⟩ | ⟨rfl, c2, _⟩ | ⟨rfl, c2, _⟩
        · rw [if_neg (by have := c2.lt; omega)]; exact c2
        · rw [if_neg (by omega)]; exact c2
        · rw [if_pos rfl]; exact c2
      have b1 := hback s i k1 ⟨_, e1, k3⟩
      have b2 := hback s' j (step_values ht k1 k2).1 ⟨_, e2, k4⟩
      by_cases hne : (if i = a.states.length then v else i) = (if j = a.states.length then v else j)
      · rw [hne]; exact ⟨k', by omega, l2⟩
      · exact ⟨costAt costs op + k', by omega, .step _ op _ _ ⟨(hi.step s s' op _ _ k1 k2 b1 b2).1 hne, hfin⟩ l2⟩
  intro i k hk
  obtain ⟨k', l1, l2⟩ := key i k hk
  have := hh _ _ l2
  unfold copyH Relax.upd
  split
  · rename_i e; rw [if_pos e] at this; omega
  · rename_i e; rw [if_neg e] at this; omega

end Verif.Cart
