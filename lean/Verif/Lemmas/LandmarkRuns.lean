import Verif.Spec.LandmarkFactory
import Verif.Lemmas.LandmarkStatus
import Verif.Lemmas.MasAtomic
import Mathlib.Data.List.Induction

/-
What reachability in the delete relaxation says about the runs of a task.
-/
namespace Verif.Landmarks
variable {t : Task}

theorem assigned_effect {o : Operator} {s : State} {v x : Nat} (h : o.assigned s v = some x) : ∃ e ∈ o.effects, e.fact = ⟨v, x⟩ ∧ allHold e.conds s := by
  unfold Operator.assigned at h
  rw [Option.map_eq_some_iff] at h
  obtain ⟨e, he, hx⟩ := h
  have hm := List.mem_of_mem_getLast? he
  rw [List.mem_filter] at hm
  have h2 := hm.2
  rw [Bool.and_eq_true, decide_eq_true_eq, beq_iff_eq] at h2
  refine ⟨e, hm.1, ?_, h2.1⟩
  cases hf : e.fact
  rw [hf] at h2 hx
  simp only at h2 hx
  rw [h2.2, hx]

/-- a fact that holds after a step held before, or an effect has made it true -/
theorem step_fact (hwf : t.WF) (hax : t.axioms = []) {s s' : State} {i : Nat} (hs : t.ValidState s) (h : t.Step s i s') {f : Fact} (hf : f.holds s') :
    f.holds s ∨ ∃ o, t.ops[i]? = some o ∧ o.applicable s ∧ ∃ e ∈ o.effects, e.fact = f ∧ allHold e.conds s := by
  obtain ⟨o, ho, happ, hsu⟩ := h
  have hlen : s'.length = s.length := by
    obtain ⟨m, h1, h2⟩ := hsu
    exact h2.length.trans h1.1
  have hlt : f.var < s.length := by
    rw [← hlen]
    exact (List.getElem?_eq_some_iff.mp hf).1
  have hx : s[f.var]? = some s[f.var] := List.getElem?_eq_getElem hlt
  have hv := Mas.succ_value hwf hax hsu hx
  unfold Fact.holds at hf
  rw [hf] at hv
  cases ha : o.assigned s f.var with
  | none =>
    rw [ha] at hv
    left
    unfold Fact.holds
    rw [hx]
    simpa using hv.symm
  | some x =>
    right
    rw [ha] at hv
    simp only [Option.getD_some, Option.some.injEq] at hv
    rw [← hv] at ha
    exact ⟨o, ho, happ, assigned_effect ha⟩

/-- an effect without conditions that is not overridden makes its fact true -/
theorem step_unconditional (hwf : t.WF) (hax : t.axioms = []) (hun : t.UnconditionalEffectsHold) {s s' : State} {i : Nat} {o : Operator} (hs : t.ValidState s) (ho : t.ops[i]? = some o)
    (h : t.Step s i s') {f : Fact} (hf : o.Unconditional f) : f.holds s' := by
  obtain ⟨o', ho', happ, hsu⟩ := h
  rw [ho] at ho'
  cases ho'
  obtain ⟨e, he, hc, rfl⟩ := hf
  have hmo := List.mem_of_getElem? ho
  obtain ⟨d, hd, _⟩ := hwf.effFact o hmo e he
  have hlt : e.fact.var < s.length := by
    rw [hs.1]
    exact (List.getElem?_eq_some_iff.mp hd).1
  have hv := Mas.succ_value hwf hax hsu (List.getElem?_eq_getElem hlt)
  unfold Fact.holds
  rw [hv]
  cases ha : o.assigned s e.fact.var with
  | some x =>
    obtain ⟨e', he', hf', _⟩ := assigned_effect ha
    have := hun o hmo e he e' he' hc (by rw [hf'])
    rw [hf'] at this
    simp only [Option.getD_some, Option.some.injEq]
    exact congrArg Fact.val this
  | none =>
    exfalso
    unfold Operator.assigned at ha
    rw [Option.map_eq_none_iff, List.getLast?_eq_none_iff, List.filter_eq_nil_iff] at ha
    have := ha e he
    rw [Bool.and_eq_true, decide_eq_true_eq, beq_iff_eq] at this
    exact this ⟨(by unfold Effect.fires; rw [hc]; exact List.forall_mem_nil _), rfl⟩

/-- the facts of the states of a run can be reached without the facts that do not occur in it -/
theorem run_reach (hwf : t.WF) (hax : t.axioms = []) {X : List Fact} {unary : Bool} (hun : unary = true ∨ t.UnconditionalEffectsHold) :
    ∀ {r : List (Nat × State)} {u : State}, t.Run t.init r u → (∀ s ∈ runStates t.init r, ∀ x ∈ X, ¬x.holds s) → ∀ f, f.holds u → t.ReachAvoiding X unary f := by
  intro r
  induction r using List.reverseRecOn with
  | nil =>
    intro u hr hX f hf
    cases hr
    refine .init f hf (fun hm => hX t.init (by simp [runStates]) f hm hf)
  | append_singleton r x ih =>
    intro u hr hX f hf
    obtain ⟨p, hp, hst, rfl⟩ := run_snoc_inv hr
    have hpv : t.ValidState p := (run_valid hwf hwf.init hp).1
    have hX' : ∀ s ∈ runStates t.init r, ∀ x ∈ X, ¬x.holds s := by
      intro s hs
      refine hX s ?_
      simp only [runStates, List.map_append, List.mem_cons, List.mem_append] at hs ⊢
      tauto
    have hlast : x.2 ∈ runStates t.init (r ++ [x]) := by simp [runStates]
    rcases step_fact hwf hax hpv hst hf with h | ⟨o, ho, happ, e, he, rfl, hc⟩
    · exact ih hp hX' f h
    · refine .effect (some x.1) _ _ _ (.op x.1 o e ho he) (fun hm => hX _ hlast _ hm hf) ?_ ?_
      · intro hu j o' hj ho' y hy huc
        cases hj
        rcases hun with h | h
        · rw [h] at hu; cases hu
        · exact hX _ hlast y hy (step_unconditional hwf hax h hpv ho' hst huc)
      · intro q hq
        refine ih hp hX' q ?_
        rcases List.mem_append.mp hq with hq | hq
        · exact happ q hq
        · exact hc q hq

theorem mem_runStates {s : State} {r : List (Nat × State)} {u : State} (h : u ∈ runStates s r) : ∃ k : Nat, (runStates s r)[k]? = some u := List.mem_iff_getElem?.mp h

/-- the part of a run that leads to the state with number `k` -/
theorem run_take {s u : State} {r : List (Nat × State)} (h : t.Run s r u) {k : Nat} {p : State} (hk : (runStates s r)[k]? = some p) :
    t.Run s (r.take k) p ∧ ∀ q ∈ runStates s (r.take k), ∃ j ≤ k, (runStates s r)[j]? = some q := by
  induction h generalizing k with
  | nil s =>
    cases k with
    | zero =>
      simp [runStates] at hk
      subst hk
      exact ⟨.nil _, fun q hq => ⟨0, by omega, by simpa [runStates, eq_comm] using hq⟩⟩
    | succ k => simp [runStates] at hk
  | cons s i s' r u hst hr ih =>
    cases k with
    | zero =>
      simp [runStates] at hk
      subst hk
      exact ⟨.nil _, fun q hq => ⟨0, by omega, by simpa [runStates, eq_comm] using hq⟩⟩
    | succ k =>
      obtain ⟨h1, h2⟩ := ih (k := k) (by simpa [runStates] using hk)
      refine ⟨.cons _ _ _ _ _ hst h1, fun q hq => ?_⟩
      simp only [List.take_succ_cons, runStates, List.map_cons, List.mem_cons] at hq
      rcases hq with rfl | hq
      · exact ⟨0, by omega, rfl⟩
      · obtain ⟨j, hj, hq⟩ := h2 q (by simpa [runStates] using hq)
        exact ⟨j + 1, by omega, by simpa [runStates] using hq⟩

/-- step number `k` of a run -/
theorem run_step {s u : State} {r : List (Nat × State)} (h : t.Run s r u) {k i : Nat} {p' : State} (hk : r[k]? = some (i, p')) :
    ∃ p, (runStates s r)[k]? = some p ∧ (runStates s r)[k + 1]? = some p' ∧ t.Step p i p' := by
  induction h generalizing k with
  | nil s => simp at hk
  | cons s j s' r u hst hr ih =>
    cases k with
    | zero =>
      simp only [List.getElem?_cons_zero, Option.some.injEq, Prod.mk.injEq] at hk
      obtain ⟨rfl, rfl⟩ := hk
      exact ⟨s, rfl, rfl, hst⟩
    | succ k =>
      obtain ⟨p, h1, h2, h3⟩ := ih (k := k) (by simpa using hk)
      exact ⟨p, by simpa [runStates] using h1, by simpa [runStates] using h2, h3⟩

/-- a fact of the state with number `k` can be reached without facts that do not hold before or in this state -/
theorem holdsAt_reach (hwf : t.WF) (hax : t.axioms = []) {X : List Fact} {unary : Bool} (hun : unary = true ∨ t.UnconditionalEffectsHold) {r : List (Nat × State)} {u : State}
    (hr : t.Run t.init r u) {k : Nat} (hX : ∀ j ≤ k, ∀ x ∈ X, ¬HoldsAt x.holds (runStates t.init r) j) {f : Fact} (hf : HoldsAt f.holds (runStates t.init r) k) : t.ReachAvoiding X unary f := by
  obtain ⟨p, hp, hf⟩ := hf
  obtain ⟨h1, h2⟩ := run_take hr hp
  refine run_reach hwf hax hun h1 (fun s hs x hx hxs => ?_) f hf
  obtain ⟨j, hj, hq⟩ := h2 s hs
  exact hX j hj x hx ⟨s, hq, hxs⟩

/-- a fact that is needed to reach the goal in the delete relaxation is a landmark -/
theorem landmark_of_avoid (hwf : t.WF) (hax : t.axioms = []) {x : Fact} {unary : Bool} (hun : unary = true ∨ t.UnconditionalEffectsHold) {g : Fact} (hg : g ∈ t.goal)
    (h : ¬t.ReachAvoiding [x] unary g) : IsLandmark t x.holds := by
  intro r hr
  obtain ⟨u, hu, hgoal⟩ := hr
  by_contra hn
  refine h (run_reach hwf hax hun hu (fun s hs y hy hys => ?_) g (hgoal g hg))
  rw [List.mem_singleton] at hy
  subst hy
  obtain ⟨k, hk⟩ := mem_runStates hs
  exact hn ⟨k, s, hk, hys⟩

/-- the natural ordering between a fact that is needed for another fact and this fact -/
theorem natural_of_avoid (hwf : t.WF) (hax : t.axioms = []) {x f : Fact} (hne : x ≠ f) (h : ¬t.ReachAvoiding [x] true f) : Ordering.Valid t x.holds f.holds .natural := by
  intro r hr k hk
  obtain ⟨u, hu, _⟩ := hr
  by_contra hn
  have hX : ∀ j < k, ∀ y ∈ [x], ¬HoldsAt y.holds (runStates t.init r) j := by
    intro j hj y hy hys
    rw [List.mem_singleton] at hy
    subst hy
    exact hn ⟨j, hj, hys⟩
  obtain ⟨p, hp, hf⟩ := hk.1
  cases k with
  | zero =>
    have hp' : t.init = p := by simpa [runStates] using hp
    subst hp'
    exact h (.init f hf (by simpa using fun e => hne e.symm))
  | succ k =>
    have hlt : k < r.length := by
      have := (List.getElem?_eq_some_iff.mp hp).1
      rw [runStates_length] at this
      omega
    obtain ⟨q, h1, h2, hst⟩ := run_step hu (k := k) (i := r[k].1) (p' := r[k].2) (List.getElem?_eq_getElem hlt)
    rw [hp] at h2
    have hqv : t.ValidState q := (run_valid hwf hwf.init (run_take hu h1).1).1
    rw [← Option.some.inj h2] at hst
    rcases step_fact hwf hax hqv hst hf with hh | ⟨o, ho, happ, e, he, rfl, hc⟩
    · exact hk.2 k (by omega) ⟨q, h1, hh⟩
    · refine h (.effect _ _ _ _ (.op _ o e ho he) (by simpa using fun e => hne e.symm) (fun hh => by cases hh) ?_)
      intro c hcm
      refine holdsAt_reach hwf hax (Or.inl rfl) hu (k := k) (fun j hj => hX j (by omega)) ⟨q, h1, ?_⟩
      rcases List.mem_append.mp hcm with hcm | hcm
      · exact happ c hcm
      · exact hc c hcm

end Verif.Landmarks
