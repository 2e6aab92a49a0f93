import Verif.Lemmas.CartRewire

/-
The invariant of Cartesian abstractions and its preservation by splits.
-/
namespace Verif.Cart

variable {t : Task}

/-- `s` belongs to the abstract state with number `i` -/
def In (a : Abs) (i : Nat) (s : State) : Prop := ∃ st : AState, a.states[i]? = some st ∧ st.set.includesState s = true

/-- the abstract states partition the states, lookups find them, and every transition is represented -/
structure Inv (t : Task) (a : Abs) : Prop where
  ts : TSOk a.ts a.states.length t.ops.length
  within : ∀ (i : Nat) (st : AState), a.states[i]? = some st → Within t st.set
  leaf : ∀ (i : Nat) (st : AState), a.states[i]? = some st → a.nodes[st.node]? = some (Node.leaf i)
  leads : ∀ s, t.ValidState s → ∃ (i : Nat) (st : AState), a.states[i]? = some st ∧ st.set.includesState s = true ∧ Leads a.nodes s 0 st.node
  unique : ∀ s, t.ValidState s → ∀ i j, In a i s → In a j s → i = j
  step : ∀ (s s' : State) (op i j : Nat), t.ValidState s → t.Step s op s' → In a i s → In a j s' → (i ≠ j → ⟨op, j⟩ ∈ a.ts.outgoing i) ∧ (i = j → op ∈ a.ts.loops i)
  init : In a a.init t.init

theorem In.lt {a : Abs} {i : Nat} {s : State} (h : In a i s) : i < a.states.length := by
  obtain ⟨st, h1, _⟩ := h
  exact (List.getElem?_eq_some_iff.mp h1).1

theorem Inv.exists_in {a : Abs} (h : Inv t a) {s : State} (hs : t.ValidState s) : ∃ i, In a i s := by
  obtain ⟨i, st, h1, h2, _⟩ := h.leads s hs
  exact ⟨i, st, h1, h2⟩

theorem Inv.stateOf_iff {a : Abs} (h : Inv t a) {s : State} (hs : t.ValidState s) {i : Nat} : a.stateOf s = some i ↔ In a i s := by
  obtain ⟨j, st, h1, h2, h3⟩ := h.leads s hs
  have hl : a.stateOf s = some j := h3.lookup (h.leaf j st h1)
  rw [hl]
  simp only [Option.some.injEq]
  constructor
  · rintro rfl; exact ⟨st, h1, h2⟩
  · intro hi; exact h.unique s hs j i ⟨st, h1, h2⟩ hi

theorem state_value {s : State} (hs : t.ValidState s) {v : Nat} (hv : v < t.vars.length) : ∃ x, s[v]? = some x := ⟨s[v]'(by rw [hs.1]; exact hv), List.getElem?_eq_getElem _⟩

theorem Inv.trivial (ht : CartesianTask t) : Inv t (Abs.trivial t) where
  ts := {
    sym := by intro i op j; simp [Abs.trivial, TS.trivial]
    range := by intro i op j; simp [Abs.trivial, TS.trivial]
    lrange := by
      intro i op h
      simp only [Abs.trivial, TS.trivial] at h
      by_cases hi : i = 0 <;> simp [hi] at h
      simp [Abs.trivial, hi, h] }
  within := by
    intro i st h v x hx
    simp only [Abs.trivial] at h
    rcases List.getElem?_eq_some_iff.mp h with ⟨hl, h⟩
    simp at hl
    subst hl
    simp at h
    subst h
    exact full_iff.mp hx
  leaf := by
    intro i st h
    simp only [Abs.trivial] at h ⊢
    rcases List.getElem?_eq_some_iff.mp h with ⟨hl, h⟩
    simp at hl
    subst hl
    simp at h
    subst h
    rfl
  leads := fun s hs => ⟨0, _, rfl, full_state hs, .leaf _ 0 rfl⟩
  unique := by
    intro s hs i j hi hj
    have h1 := hi.lt
    have h2 := hj.lt
    simp [Abs.trivial] at h1 h2
    omega
  step := by
    intro s s' op i j hs hst hi hj
    have h1 := hi.lt
    have h2 := hj.lt
    simp [Abs.trivial] at h1 h2
    subst h1 h2
    refine ⟨fun h => absurd rfl h, fun _ => ?_⟩
    simp [Abs.trivial, TS.trivial, step_op hst]
  init := ⟨_, rfl, full_state (by exact ht.wf.init)⟩

/-- what a split changes -/
structure Refined (t : Task) (a : Abs) (v var : Nat) (wanted : List Nat) (a' : Abs) : Prop where
  length : a'.states.length = a.states.length + 1
  old : ∀ i : Nat, i ≠ v → i < a.states.length → ∃ st st' : AState, a.states[i]? = some st ∧ a'.states[i]? = some st' ∧ st'.set = st.set
  parts : ∃ st st1 st2 : AState, a.states[v]? = some st ∧ a'.states[v]? = some st1 ∧ a'.states[a.states.length]? = some st2 ∧ st1.set = (st.set.split var wanted).1 ∧ st2.set = (st.set.split var wanted).2
  goals : ∃ st : AState, a.states[v]? = some st ∧ a'.goals = newGoals t a v a.states.length (st.set.split var wanted).1 (st.set.split var wanted).2
  out : ∃ st : AState, a.states[v]? = some st ∧ ∀ y op x, (⟨op, x⟩ : Trans) ∈ a'.ts.outgoing y ↔ (y ≠ v ∧ x ≠ v ∧ ⟨op, x⟩ ∈ a.ts.outgoing y) ∨ (y ≠ x ∧ NewEdge t a.ts a.states v (st.set.split var wanted).1 (st.set.split var wanted).2 v a.states.length var ⟨y, op, x⟩)
  loops : ∃ st : AState, a.states[v]? = some st ∧ ∀ y op, op ∈ a'.ts.loops y ↔ (y ≠ v ∧ op ∈ a.ts.loops y) ∨ NewEdge t a.ts a.states v (st.set.split var wanted).1 (st.set.split var wanted).2 v a.states.length var ⟨y, op, y⟩

theorem includes_split {c : CSet} {var : Nat} {w : List Nat} (hw : ∀ x ∈ w, c var x = true) {s : State} {y : Nat} (hy : s[var]? = some y) :
    ((c.split var w).1.includesState s = true ↔ c.includesState s = true ∧ y ∉ w) ∧ ((c.split var w).2.includesState s = true ↔ c.includesState s = true ∧ y ∈ w) := by
  simp only [includesState_iff, split_fst, split_snd]
  constructor
  · constructor
    · intro h
      exact ⟨fun v x hx => (h v x hx).1, fun hm => (h var y hy).2 ⟨rfl, hm⟩⟩
    · rintro ⟨h1, h2⟩ v x hx
      refine ⟨h1 v x hx, ?_⟩
      rintro ⟨rfl, h⟩
      rw [hy] at hx; simp at hx; subst hx; exact h2 h
  · constructor
    · intro h
      refine ⟨fun v x hx => ?_, ?_⟩
      · rcases h v x hx with ⟨_, h1⟩ | ⟨rfl, h1⟩
        · exact h1
        · exact hw x h1
      · rcases h var y hy with ⟨h1, _⟩ | ⟨_, h1⟩
        · exact absurd rfl h1
        · exact h1
    · rintro ⟨h1, h2⟩ v x hx
      by_cases hv : v = var
      · subst hv
        rw [hy] at hx; simp at hx; subst hx
        exact Or.inr ⟨rfl, h2⟩
      · exact Or.inl ⟨hv, h1 v x hx⟩

/-- the members of the states after a split -/
theorem Refined.in_iff {a a' : Abs} {v var : Nat} {wanted : List Nat} (hr : Refined t a v var wanted a') (hw : ∀ st : AState, a.states[v]? = some st → ∀ x ∈ wanted, st.set var x = true) {s : State} {y : Nat} (hy : s[var]? = some y) (i : Nat) :
    In a' i s ↔ (i ≠ v ∧ In a i s) ∨ (i = v ∧ In a v s ∧ y ∉ wanted) ∨ (i = a.states.length ∧ In a v s ∧ y ∈ wanted) := by
  obtain ⟨st, st1, st2, h1, h2, h3, h4, h5⟩ := hr.parts
  have hvl := (List.getElem?_eq_some_iff.mp h1).1
  obtain ⟨k1, k2⟩ := includes_split (hw st h1) hy
  rw [← h4] at k1
  rw [← h5] at k2
  have hinv : In a v s ↔ st.set.includesState s = true := by
    constructor
    · rintro ⟨st', e, h⟩; rw [h1] at e; simp at e; subst e; exact h
    · exact fun h => ⟨st, h1, h⟩
  rw [hinv]
  by_cases hi : i = v
  · subst hi
    have : In a' i s ↔ st1.set.includesState s = true := by
      constructor
      · rintro ⟨st', e, h⟩; rw [h2] at e; simp at e; subst e; exact h
      · exact fun h => ⟨st1, h2, h⟩
    rw [this, k1]
    have : i ≠ a.states.length := by omega
    simp [this]
  · by_cases hi' : i = a.states.length
    · subst hi'
      have h0 : ¬In a a.states.length s := fun h => absurd h.lt (by omega)
      have : In a' a.states.length s ↔ st2.set.includesState s = true := by
        constructor
        · rintro ⟨st', e, h⟩; rw [h3] at e; simp at e; subst e; exact h
        · exact fun h => ⟨st2, h3, h⟩
      rw [this, k2]
      simp [hi, h0]
    · have : In a' i s ↔ In a i s := by
        by_cases hl : i < a.states.length
        · obtain ⟨u, u', e1, e2, e3⟩ := hr.old i hi hl
          constructor
          · rintro ⟨w, e, h⟩; rw [e2] at e; simp at e; subst e; exact ⟨u, e1, by rw [← e3]; exact h⟩
          · rintro ⟨w, e, h⟩; rw [e1] at e; simp at e; subst e; exact ⟨u', e2, by rw [e3]; exact h⟩
        · constructor
          · intro h; have := h.lt; rw [hr.length] at this; omega
          · intro h; exact absurd h.lt hl
      rw [this]
      simp [hi, hi']

/-- a split is defined -/
theorem refine_defined (ht : CartesianTask t) {a : Abs} (h : Inv t a) {v var : Nat} {wanted : List Nat} (hv : v < a.states.length) :
    ∃ (a' : Abs) (st : AState) (n1 n2 : Nat), a.refine t v var wanted = some a' ∧ a.states[v]? = some st ∧ a'.states = a.states.set v ⟨n1, (st.set.split var wanted).1⟩ ++ [⟨n2, (st.set.split var wanted).2⟩] ∧
      a'.init = newInit t a v a.states.length (st.set.split var wanted).1 ∧ TSOk a'.ts (a.states.length + 1) t.ops.length ∧
      (∀ j : Nat, j ≠ st.node → j < a.nodes.length → a'.nodes[j]? = a.nodes[j]?) ∧ a'.nodes[n1]? = some (.leaf v) ∧ a'.nodes[n2]? = some (.leaf a.states.length) ∧
      (∀ (s : State) y, s[var]? = some y → (y ∈ wanted → Leads a'.nodes s st.node n2) ∧ (y ∉ wanted → Leads a'.nodes s st.node n1)) ∧ Refined t a v var wanted a' := by
  have hst := List.getElem?_eq_getElem hv
  generalize a.states[v] = st at hst
  obtain ⟨nodes, n1, n2, k1, k2, k3, k4, k5, k6, k7, k8⟩ := splitNode_spec (var := var) (values := wanted) (rightState := a.states.length) (h.leaf v st hst)
  obtain ⟨ts, m1, m2, m3, m4⟩ := rewire_spec ht (s1 := (st.set.split var wanted).1) (s2 := (st.set.split var wanted).2) (var := var) h.ts hv
  refine ⟨⟨ts, a.states.set v ⟨n1, (st.set.split var wanted).1⟩ ++ [⟨n2, (st.set.split var wanted).2⟩], newInit t a v a.states.length (st.set.split var wanted).1,
    newGoals t a v a.states.length (st.set.split var wanted).1 (st.set.split var wanted).2, nodes⟩, st, n1, n2, ?_, hst, rfl, rfl, m4, k2, k3, k4, k8, ?_⟩
  · unfold Abs.refine
    rw [hst]
    simp only [k1, m1]
  · refine ⟨by simp, fun i hi hl => ?_, ?_, ⟨st, hst, rfl⟩, ⟨st, hst, m2⟩, ⟨st, hst, m3⟩⟩
    · refine ⟨a.states[i], a.states[i], List.getElem?_eq_getElem hl, ?_, rfl⟩
      simp only
      rw [List.getElem?_append_left (by simpa using hl), List.getElem?_set_ne (fun e => hi e.symm), List.getElem?_eq_getElem hl]
    · refine ⟨st, ⟨n1, (st.set.split var wanted).1⟩, ⟨n2, (st.set.split var wanted).2⟩, hst, ?_, ?_, rfl, rfl⟩
      · simp only
        rw [List.getElem?_append_left (by simpa using hv), List.getElem?_set_self hv]
      · simp only
        rw [List.getElem?_append_right (by simp)]
        simp

/-- the transitions of a state that is split -/
theorem newEdge_complete (ht : CartesianTask t) {a : Abs} (h : Inv t a) {v var : Nat} {wanted : List Nat} {st : AState} (hst : a.states[v]? = some st) (hvar : var < t.vars.length) (hw : ∀ x ∈ wanted, st.set var x = true)
    {s s' : State} {op i j : Nat} (hs : t.ValidState s) (hstep : t.Step s op s') (hi : In a i s) (hj : In a j s') (hij : i = v ∨ j = v) {y y' : Nat} (hy : s[var]? = some y) (hy' : s'[var]? = some y') :
    NewEdge t a.ts a.states v (st.set.split var wanted).1 (st.set.split var wanted).2 v a.states.length var
      ⟨if i = v then (if y ∈ wanted then a.states.length else v) else i, op, if j = v then (if y' ∈ wanted then a.states.length else v) else j⟩ := by
  obtain ⟨hs', hpre, hpost, hsame⟩ := step_values ht hs hstep
  obtain ⟨g1, g2⟩ := h.step s s' op i j hs hstep hi hj
  have hwith := h.within v st hst
  obtain ⟨w1, w2⟩ := hwith.split hw
  obtain ⟨ui, hui, hci⟩ := id hi
  obtain ⟨uj, huj, hcj⟩ := id hj
  rw [includesState_iff] at hci hcj
  by_cases hiv : i = v
  · subst hiv
    rw [hst] at hui; simp at hui; subst hui
    by_cases hjv : j = i
    · -- a loop
      subst hjv
      rw [if_pos rfl, if_pos rfl]
      have hl := g2 rfl
      have hc := hci var y hy
      rw [hst] at huj; simp at huj; subst huj
      have hc' := hcj var y' hy'
      have q1 : ∀ z, st.set var z = true → ((st.set.split var wanted).1 var z = true ↔ z ∉ wanted) := fun z hz => by rw [split_fst]; simp [hz]
      have q2 : ∀ z, (st.set.split var wanted).2 var z = true ↔ z ∈ wanted := fun z => by rw [split_snd]; simp
      cases hp : preValue t op var with
      | none =>
        cases hq : postValue t op var with
        | none =>
          have e : y' = y := by have := hsame var hq; rw [hy, hy'] at this; simpa using this
          subst e
          refine .loop op [⟨j, op, j⟩, ⟨a.states.length, op, a.states.length⟩] hl (by unfold loopEdges; rw [hp, hq]) ?_
          by_cases hm : y' ∈ wanted <;> simp [hm]
        | some q =>
          have e := hpost var q hq
          rw [hy'] at e; simp at e; subst e
          by_cases hm' : y' ∈ wanted
          · refine .loop op [⟨j, op, a.states.length⟩, ⟨a.states.length, op, a.states.length⟩] hl (by unfold loopEdges; rw [hp, hq]; simp [(q2 y').mpr hm']) ?_
            by_cases hm : y ∈ wanted <;> simp [hm, hm']
          · refine .loop op [⟨j, op, j⟩, ⟨a.states.length, op, j⟩] hl (by unfold loopEdges; rw [hp, hq]; simp only; rw [if_neg (fun h => hm' ((q2 y').mp h))]) ?_
            by_cases hm : y ∈ wanted <;> simp [hm, hm']
      | some p =>
        have e := hpre var p hp
        rw [hy] at e; simp at e; subst e
        obtain ⟨q, hq⟩ := post_of_pre ht hp
        have e := hpost var q hq
        rw [hy'] at e; simp at e; subst e
        have k1 := q1 y hc
        have k2 := q1 y' hc'
        refine .loop op [⟨if y ∈ wanted then a.states.length else j, op, if y' ∈ wanted then a.states.length else j⟩] hl ?_ (by simp)
        unfold loopEdges
        rw [hp, hq]
        simp only
        by_cases hm : y ∈ wanted
        · rw [if_neg (fun h => k1.mp h hm)]
          by_cases hm' : y' ∈ wanted
          · rw [if_neg (fun h => k2.mp h hm')]; simp [hm, hm']
          · rw [if_pos (k2.mpr hm')]; simp [hm, hm']
        · rw [if_pos (k1.mpr hm)]
          by_cases hm' : y' ∈ wanted
          · rw [if_neg (fun h => k2.mp h hm')]; simp [hm, hm']
          · rw [if_pos (k2.mpr hm')]; simp [hm, hm']
    · -- an outgoing transition
      rw [if_pos rfl, if_neg hjv]
      refine .out j op uj (g1 (fun e => hjv e.symm)) huj ?_
      have hc := hci var y hy
      unfold outgoingEdges
      cases hq : postValue t op var with
      | none =>
        simp only
        have e : y' = y := by have := hsame var hq; rw [hy, hy'] at this; simpa using this
        subst e
        have hu := hcj var y' hy'
        have hint : ∀ c : CSet, c.intersects (domainSizes t) uj.set var = true ↔ ∃ x, c var x = true ∧ uj.set var x = true := fun c => intersects_within (Or.inr (h.within j uj huj))
        by_cases hm : y' ∈ wanted
        · rw [if_pos hm]
          have h2 : (st.set.split var wanted).2.intersects (domainSizes t) uj.set var = true := (hint _).mpr ⟨y', (split_snd _ _ _ _ _).mpr (Or.inr ⟨rfl, hm⟩), hu⟩
          simp only [h2, if_true]
          split <;> simp
        · rw [if_neg hm]
          have h2 : (st.set.split var wanted).1.intersects (domainSizes t) uj.set var = true := (hint _).mpr ⟨y', (split_fst _ _ _ _ _).mpr ⟨hc, fun h => hm h.2⟩, hu⟩
          simp only [h2, if_true]
          split <;> simp
      | some q =>
        cases hp : preValue t op var with
        | none =>
          simp only
          by_cases hm : y ∈ wanted <;> simp [hm]
        | some p =>
          simp only
          have := hpre var p hp
          rw [hy] at this; simp at this; subst this
          by_cases hm : y ∈ wanted
          · have : ¬(st.set.split var wanted).1 var y = true := fun h => ((split_fst _ _ _ _ _).mp h).2 ⟨rfl, hm⟩
            simp [hm, this]
          · have : (st.set.split var wanted).1 var y = true := (split_fst _ _ _ _ _).mpr ⟨hc, fun h => hm h.2⟩
            simp [hm, this]
  · have hjv : j = v := by tauto
    subst hjv
    rw [if_neg hiv, if_pos rfl]
    rw [hst] at huj; simp at huj; subst huj
    refine .inc i op ui ((h.ts.sym _ _ _).mp (g1 hiv)) hui ?_
    have hc := hcj var y' hy'
    unfold incomingEdges
    cases hq : postValue t op var with
    | none =>
      simp only
      have e : y' = y := by have := hsame var hq; rw [hy, hy'] at this; simpa using this
      subst e
      have hu := hci var y' hy
      have hint : ∀ c : CSet, ui.set.intersects (domainSizes t) c var = true ↔ ∃ x, ui.set var x = true ∧ c var x = true := fun c => intersects_within (Or.inl (h.within i ui hui))
      by_cases hm : y' ∈ wanted
      · rw [if_pos hm]
        have h2 : ui.set.intersects (domainSizes t) (st.set.split var wanted).2 var = true := (hint _).mpr ⟨y', hu, (split_snd _ _ _ _ _).mpr (Or.inr ⟨rfl, hm⟩)⟩
        simp only [h2, if_true]
        split <;> simp
      · rw [if_neg hm]
        have h2 : ui.set.intersects (domainSizes t) (st.set.split var wanted).1 var = true := (hint _).mpr ⟨y', hu, (split_fst _ _ _ _ _).mpr ⟨hc, fun h => hm h.2⟩⟩
        simp only [h2, if_true]
        split <;> simp
    | some q =>
      simp only
      have := hpost var q hq
      rw [hy'] at this; simp at this; subst this
      by_cases hm : y' ∈ wanted
      · have : ¬(st.set.split var wanted).1 var y' = true := fun h => ((split_fst _ _ _ _ _).mp h).2 ⟨rfl, hm⟩
        simp [hm, this]
      · have : (st.set.split var wanted).1 var y' = true := (split_fst _ _ _ _ _).mpr ⟨hc, fun h => hm h.2⟩
        simp [hm, this]

/-- a split preserves the invariant -/
theorem refine_inv (ht : CartesianTask t) {a : Abs} (h : Inv t a) {v var : Nat} {wanted : List Nat} (hv : v < a.states.length) (hvar : var < t.vars.length) (hw : ∀ st : AState, a.states[v]? = some st → ∀ x ∈ wanted, st.set var x = true) :
    ∃ a', a.refine t v var wanted = some a' ∧ Inv t a' ∧ Refined t a v var wanted a' := by
  obtain ⟨a', st, n1, n2, h1, hst, h2, h3, h4, h5, h6, h7, h8, hr⟩ := refine_defined ht h (var := var) (wanted := wanted) hv
  have hin : ∀ s, t.ValidState s → ∃ y, s[var]? = some y ∧ ∀ i, In a' i s ↔ (i ≠ v ∧ In a i s) ∨ (i = v ∧ In a v s ∧ y ∉ wanted) ∨ (i = a.states.length ∧ In a v s ∧ y ∈ wanted) := by
    intro s hs
    obtain ⟨y, hy⟩ := state_value hs hvar
    exact ⟨y, hy, hr.in_iff hw hy⟩
  have hstates : ∀ (i : Nat) (u : AState), a'.states[i]? = some u → (i ≠ v ∧ i < a.states.length ∧ a.states[i]? = some u) ∨ (i = v ∧ u = ⟨n1, (st.set.split var wanted).1⟩) ∨ (i = a.states.length ∧ u = ⟨n2, (st.set.split var wanted).2⟩) := by
    intro i u hu
    rw [h2] at hu
    by_cases hil : i < a.states.length
    · rw [List.getElem?_append_left (by simpa using hil)] at hu
      by_cases hiv : i = v
      · subst hiv
        rw [List.getElem?_set_self hil] at hu
        simp at hu
        exact Or.inr (Or.inl ⟨rfl, hu.symm⟩)
      · rw [List.getElem?_set_ne (fun e => hiv e.symm)] at hu
        exact Or.inl ⟨hiv, hil, hu⟩
    · have := (List.getElem?_eq_some_iff.mp hu).1
      simp at this
      have e : i = a.states.length := by omega
      subst e
      rw [List.getElem?_append_right (by simp)] at hu
      simp at hu
      exact Or.inr (Or.inr ⟨rfl, hu.symm⟩)
  have hv' : a'.states[v]? = some ⟨n1, (st.set.split var wanted).1⟩ := by
    rw [h2, List.getElem?_append_left (by simpa using hv), List.getElem?_set_self hv]
  have hn' : a'.states[a.states.length]? = some ⟨n2, (st.set.split var wanted).2⟩ := by
    rw [h2, List.getElem?_append_right (by simp)]; simp
  have hold : ∀ i : Nat, i ≠ v → i < a.states.length → a'.states[i]? = a.states[i]? := by
    intro i hi hl
    rw [h2, List.getElem?_append_left (by simpa using hl), List.getElem?_set_ne (fun e => hi e.symm)]
  have hnode : ∀ (i : Nat) (u : AState), i ≠ v → a.states[i]? = some u → u.node ≠ st.node := by
    intro i u hi hu e
    have e1 := h.leaf i u hu
    rw [e, h.leaf v st hst] at e1
    simp at e1
    exact hi e1.symm
  refine ⟨a', h1, ?_, hr⟩
  refine ⟨?_, ?_, ?_, ?_, ?_, ?_, ?_⟩
  · rw [hr.length]; exact h4
  · intro i u hu
    obtain ⟨w1, w2⟩ := (h.within v st hst).split (hw st hst)
    rcases hstates i u hu with ⟨_, _, hu⟩ | ⟨_, rfl⟩ | ⟨_, rfl⟩
    · exact h.within i u hu
    · exact w1
    · exact w2
  · intro i u hu
    rcases hstates i u hu with ⟨k1, k2, hu⟩ | ⟨rfl, rfl⟩ | ⟨rfl, rfl⟩
    · have := h.leaf i u hu
      rw [h5 u.node (hnode i u k1 hu) (List.getElem?_eq_some_iff.mp this).1, this]
    · exact h6
    · exact h7
  · intro s hs
    obtain ⟨i, u, k1, k2, k3⟩ := h.leads s hs
    obtain ⟨e1, e2⟩ := k3.extend h5 (h.leaf v st hst)
    obtain ⟨y, hy⟩ := state_value hs hvar
    by_cases hiv : i = v
    · subst hiv
      rw [hst] at k1; simp at k1; subst k1
      obtain ⟨m1, m2⟩ := includes_split (hw st hst) hy
      by_cases hm : y ∈ wanted
      · exact ⟨_, _, hn', m2.mpr ⟨k2, hm⟩, e2 rfl _ ((h8 s y hy).1 hm)⟩
      · exact ⟨_, _, hv', m1.mpr ⟨k2, hm⟩, e2 rfl _ ((h8 s y hy).2 hm)⟩
    · exact ⟨i, u, by rw [hold i hiv (List.getElem?_eq_some_iff.mp k1).1]; exact k1, k2, e1 (hnode i u hiv k1)⟩
  · intro s hs i j hi hj
    obtain ⟨y, hy, hiff⟩ := hin s hs
    have hlt : ∀ i, In a i s → i ≠ a.states.length := fun i h => by have := h.lt; omega
    rcases (hiff i).mp hi with ⟨a1, a2⟩ | ⟨a1, a2, a3⟩ | ⟨a1, a2, a3⟩ <;> rcases (hiff j).mp hj with ⟨b1, b2⟩ | ⟨b1, b2, b3⟩ | ⟨b1, b2, b3⟩
    · exact h.unique s hs i j a2 b2
    · exact absurd (h.unique s hs i v a2 b2) a1
    · exact absurd (h.unique s hs i v a2 b2) a1
    · exact absurd (h.unique s hs j v b2 a2) b1
    · rw [a1, b1]
    · exact absurd b3 a3
    · exact absurd (h.unique s hs j v b2 a2) b1
    · exact absurd a3 b3
    · rw [a1, b1]
  · intro s s' op i j hs hstep hi hj
    have hs' := (step_values ht hs hstep).1
    obtain ⟨y, hy, hiff⟩ := hin s hs
    obtain ⟨y', hy', hiff'⟩ := hin s' hs'
    obtain ⟨_, hst1, hout⟩ := hr.out
    obtain ⟨_, hst2, hloops⟩ := hr.loops
    rw [hst] at hst1 hst2
    simp at hst1 hst2
    subst hst1 hst2
    have hsrc : ∃ i0, In a i0 s ∧ i = (if i0 = v then (if y ∈ wanted then a.states.length else v) else i0) := by
      rcases (hiff i).mp hi with ⟨a1, a2⟩ | ⟨a1, a2, a3⟩ | ⟨a1, a2, a3⟩
      · exact ⟨i, a2, by rw [if_neg a1]⟩
      · exact ⟨v, a2, by simp [a3, a1]⟩
      · exact ⟨v, a2, by simp [a3, a1]⟩
    have htgt : ∃ j0, In a j0 s' ∧ j = (if j0 = v then (if y' ∈ wanted then a.states.length else v) else j0) := by
      rcases (hiff' j).mp hj with ⟨a1, a2⟩ | ⟨a1, a2, a3⟩ | ⟨a1, a2, a3⟩
      · exact ⟨j, a2, by rw [if_neg a1]⟩
      · exact ⟨v, a2, by simp [a3, a1]⟩
      · exact ⟨v, a2, by simp [a3, a1]⟩
    obtain ⟨i0, hi0, ei⟩ := hsrc
    obtain ⟨j0, hj0, ej⟩ := htgt
    by_cases hij : i0 = v ∨ j0 = v
    · have hne := newEdge_complete ht h hst hvar (hw st hst) hs hstep hi0 hj0 hij hy hy'
      rw [← ei, ← ej] at hne
      refine ⟨fun hd => (hout i op j).mpr (Or.inr ⟨hd, hne⟩), fun he => ?_⟩
      subst he
      exact (hloops i op).mpr (Or.inr hne)
    · push Not at hij
      rw [if_neg hij.1] at ei
      rw [if_neg hij.2] at ej
      subst ei ej
      obtain ⟨g1, g2⟩ := h.step s s' op i j hs hstep hi0 hj0
      exact ⟨fun hd => (hout i op j).mpr (Or.inl ⟨hij.1, hij.2, g1 hd⟩), fun he => (hloops i op).mpr (Or.inl ⟨hij.1, g2 he⟩)⟩
  · rw [h3]
    obtain ⟨y, hy, hiff⟩ := hin t.init ht.wf.init
    have hi := h.init
    rw [hiff]
    unfold newInit
    by_cases hv0 : v = a.init
    · rw [if_pos hv0]
      rw [← hv0] at hi
      obtain ⟨_, k, hi'⟩ := id hi
      rw [hst] at k; simp at k; subst k
      obtain ⟨m1, m2⟩ := includes_split (hw st hst) hy
      by_cases hm : y ∈ wanted
      · rw [if_neg (fun h => (m1.mp h).2 hm)]
        exact Or.inr (Or.inr ⟨rfl, hi, hm⟩)
      · rw [if_pos (m1.mpr ⟨hi', hm⟩)]
        exact Or.inr (Or.inl ⟨rfl, hi, hm⟩)
    · rw [if_neg hv0]
      exact Or.inl ⟨fun e => hv0 e.symm, hi⟩

end Verif.Cart
