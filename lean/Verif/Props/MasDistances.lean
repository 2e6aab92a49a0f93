import Verif.Spec.Mas
import Verif.Lemmas.MasDistances
import Verif.Lemmas.EagerProbe

/-
C39: distances of merge-and-shrink factors.
-/
namespace Verif.Mas
open Verif.AdaptiveQueue Verif.Dijkstra

theorem mem_arcs {T : TS} {a b c : Nat} : (a, b, c) ∈ T.arcs ↔ T.Arc a b c := by
  unfold TS.arcs TS.Arc LocalLabel.active
  simp only [List.mem_flatMap, List.mem_filter, List.mem_map, Bool.not_eq_true', Prod.mk.injEq, Prod.exists]
  constructor
  · rintro ⟨i, ⟨h1, h2⟩, x, y, h3, rfl, rfl, rfl⟩
    exact ⟨i, h1, by simpa [List.isEmpty_iff] using h2, h3, rfl⟩
  · rintro ⟨i, h1, h2, h3, rfl⟩
    exact ⟨i, ⟨h1, by simpa [List.isEmpty_iff] using h2⟩, a, b, h3, rfl, rfl, rfl⟩

theorem mem_forward {T : TS} {v : Nat} {p : Int} {c : Nat} : (p, c) ∈ forward T.arcs v ↔ ∃ P : Nat, p = P ∧ T.Arc v P c := by
  unfold forward
  simp only [List.mem_map, List.mem_filter, decide_eq_true_eq, Prod.mk.injEq, Prod.exists]
  constructor
  · rintro ⟨a, b, d, ⟨h1, rfl⟩, rfl, rfl⟩
    exact ⟨b, rfl, mem_arcs.mp h1⟩
  · rintro ⟨P, rfl, h⟩
    exact ⟨v, P, c, ⟨mem_arcs.mpr h, rfl⟩, rfl, rfl⟩

theorem mem_backward {T : TS} {v : Nat} {p : Int} {c : Nat} : (p, c) ∈ backward T.arcs v ↔ ∃ P : Nat, p = P ∧ T.Arc P v c := by
  unfold backward
  simp only [List.mem_map, List.mem_filter, decide_eq_true_eq, Prod.mk.injEq, Prod.exists]
  constructor
  · rintro ⟨a, b, d, ⟨h1, rfl⟩, rfl, rfl⟩
    exact ⟨a, rfl, mem_arcs.mp h1⟩
  · rintro ⟨P, rfl, h⟩
    exact ⟨P, v, c, ⟨mem_arcs.mpr h, rfl⟩, rfl, rfl⟩

theorem TS.Path.snoc {T : TS} {a b u k c : Nat} (h : T.Path a b k) (hc : T.Arc b u c) : T.Path a u (k + c) := by
  induction h with
  | nil a => have := TS.Path.cons a u u c 0 hc (.nil u); simpa using this
  | cons a x y d k hd _ ih =>
    have := TS.Path.cons a x u d (k + c) hd (ih hc)
    rwa [← Nat.add_assoc] at this

/-- costs in the forward graph are costs of paths from the initial state -/
theorem cost_forward {T : TS} {i v k : Nat} : Cost (fun x => x ∈ [i]) (forward T.arcs) v k ↔ T.Path i v k := by
  constructor
  · intro h
    induction h with
    | src v hv => simp only [List.mem_singleton] at hv; subst hv; exact .nil _
    | edge v k p c _ hin ih =>
      obtain ⟨P, e, ha⟩ := mem_forward.mp hin
      have : p = P := by omega
      subst this
      exact ih.snoc ha
  · intro h
    have key : ∀ a u k, T.Path a u k → ∀ j, Cost (fun x => x ∈ [i]) (forward T.arcs) a j → Cost (fun x => x ∈ [i]) (forward T.arcs) u (j + k) := by
      intro a u k hp
      induction hp with
      | nil a => intro j hj; simpa using hj
      | cons a b u c k ha _ ih =>
        intro j hj
        have := ih (j + c) (.edge a j b c hj (mem_forward.mpr ⟨b, rfl, ha⟩))
        rwa [Nat.add_assoc] at this
    have := key i v k h 0 (.src i (by simp))
    simpa using this

/-- costs in the backward graph are costs of paths to goal states -/
theorem cost_backward {T : TS} {l : List Nat} {v k : Nat} : Cost (fun x => x ∈ l) (backward T.arcs) v k ↔ ∃ g ∈ l, T.Path v g k := by
  constructor
  · intro h
    induction h with
    | src v hv => exact ⟨v, hv, .nil v⟩
    | edge v k p c _ hin ih =>
      obtain ⟨P, e, ha⟩ := mem_backward.mp hin
      have : p = P := by omega
      subst this
      obtain ⟨g, hg, hp⟩ := ih
      have := TS.Path.cons p v g c k ha hp
      exact ⟨g, hg, by rwa [Nat.add_comm]⟩
  · rintro ⟨g, hg, hp⟩
    induction hp with
    | nil a => exact .src a hg
    | cons a b u c k ha _ ih =>
      have := Cost.edge b k a c (ih hg) (mem_backward.mpr ⟨a, rfl, ha⟩)
      rwa [Nat.add_comm] at this

theorem arc_range {T : TS} (hT : T.InRange) {a b c : Nat} (h : T.Arc a b c) : a < T.size ∧ b < T.size := by
  obtain ⟨i, h1, _, h2, _⟩ := h
  exact hT.trans i h1 _ h2

theorem ranged_forward {T : TS} (hT : T.InRange) {i : Nat} (hi : T.init = some i) : Ranged T.size (fun x => x ∈ [i]) (forward T.arcs) := by
  refine ⟨fun v hv => ?_, fun v p c _ h => ?_⟩
  · simp only [List.mem_singleton] at hv; subst hv; exact hT.init _ hi
  · obtain ⟨P, rfl, ha⟩ := mem_forward.mp h
    have := arc_range hT ha
    omega

theorem mem_goalStates {T : TS} {v : Nat} : v ∈ (List.range T.size).filter (fun s => T.goals[s]? = some true) ↔ T.goals[v]? = some true := by
  simp only [List.mem_filter, List.mem_range, decide_eq_true_eq]
  exact ⟨fun h => h.2, fun h => ⟨(List.getElem?_eq_some_iff.mp h).1, h⟩⟩

theorem ranged_backward {T : TS} (hT : T.InRange) : Ranged T.size (fun x => x ∈ (List.range T.size).filter (fun s => T.goals[s]? = some true)) (backward T.arcs) := by
  refine ⟨fun v hv => by have := (List.mem_filter.mp hv).1; simpa using this, fun v p c _ h => ?_⟩
  obtain ⟨P, rfl, ha⟩ := mem_backward.mp h
  have := arc_range hT ha
  omega

theorem unit_arc {T : TS} (h : T.isUnitCost = true) {a b c : Nat} (ha : T.Arc a b c) : c = 1 := by
  obtain ⟨i, h1, h2, _, rfl⟩ := ha
  have := List.all_eq_true.mp h i (List.mem_filter.mpr ⟨h1, by simpa [LocalLabel.active, List.isEmpty_iff] using h2⟩)
  simpa using this

theorem leastBelow_of {n : Nat} {Src : Nat → Prop} {E : Nat → List (Int × Nat)} {dist : Nat → Nat} (h : Capped n Src E dist) {s : Nat} (hs : s < n) {P : Nat → Prop} (hP : ∀ k, Cost Src E s k ↔ P k) : LeastBelow P (dist s) := by
  by_cases hf : dist s < Dijkstra.inf
  · exact Or.inl ⟨(hP _).mp (h.sound s hs hf), hf, fun k hk => h.low s k ((hP k).mpr hk)⟩
  · have := h.le s
    have e : dist s = infinity := by show dist s = Dijkstra.inf; omega
    exact Or.inr ⟨e, fun k hk => by rw [← e]; exact h.low s k ((hP k).mpr hk)⟩

/-- a path of bounded cost exists if there is any path -/
theorem short_cost {n C : Nat} {Src : Nat → Prop} {E : Nat → List (Int × Nat)} (H : StdHeap Nat) {l : List Nat} (hl : ∀ v, v ∈ l ↔ Src v) (hG : GraphOk n Src E C) {v k : Nat} (h : Cost Src E v k) : ∃ k', Cost Src E v k' ∧ k' < Dijkstra.inf := by
  have hG' : Ranged n Src E := ⟨hG.src, hG.range⟩
  obtain ⟨st, bag, h1, h2, h3, h4, _⟩ := pushSources_spec (n := n) H l ⟨fun _ => inf, Queue.new⟩ [] (fun v hv => hG.src v ((hl v).mp hv)) ⟨Rep.new, by simp⟩
  have hle : ∀ v, st.dist v ≤ Dijkstra.inf := by
    intro v
    by_cases hv : v ∈ l
    · rw [(h3 v hv).1]; omega
    · rw [h4 v hv]; exact Nat.le_refl _
  have hfin : ∀ v, st.dist v < Dijkstra.inf → v ∈ l := by
    intro v hf
    by_contra hv
    rw [h4 v hv] at hf
    exact absurd hf (Nat.lt_irrefl _)
  obtain ⟨st', _, h6⟩ := loop_spec H hG (edges := fun s => some (E s)) (fun v _ => rfl) _ 0 bag st rfl
    ⟨h2.rep, h2.entry, fun v hv => (h3 v ((hl v).mpr hv)).1, hle, fun v _ hf => ⟨[], by rw [(h3 v (hfin v hf)).1]; exact .src v ((hl v).mp (hfin v hf)) (Nat.le_of_eq (h3 v (hfin v hf)).1)⟩, fun v _ hf => Or.inl (by rw [(h3 v (hfin v hf)).1]; exact (h3 v (hfin v hf)).2)⟩
  have := h6.low v k h
  exact ⟨_, h6.sound v (h.lt hG') this.2, this.2⟩

theorem least_of_below {P : Nat → Prop} {d : Nat} (h : LeastBelow P d) (hs : ∀ k, P k → ∃ k', P k' ∧ k' < infinity) : Least P d := by
  rcases h with h | ⟨h1, h2⟩
  · exact Or.inl h
  · refine Or.inr ⟨h1, fun k hk => ?_⟩
    obtain ⟨k', h3, h4⟩ := hs k hk
    have := h2 k' h3
    omega

/-- C39: whenever the distances from the initial state are computed (by the unit-cost or the general-cost algorithm), there is one for each state, and it is the least
cost of a path from the initial state, as long as it is less than infinity. -/
theorem C39_init_below (H : StdHeap Nat) {T : TS} (hT : T.InRange) {ds : List Nat} (h : T.initDistances H = some ds) :
    ds.length = T.size ∧ ∀ s d, ds[s]? = some d → LeastBelow (T.FromInit s) d := by
  unfold TS.initDistances at h
  cases hi : T.init with
  | none => rw [hi] at h; simp at h
  | some i =>
    rw [hi] at h
    obtain ⟨dist, rfl, h2⟩ := searchFrom_partial H (ranged_forward hT hi) (fun hu v p c hpc => by
      obtain ⟨P, _, ha⟩ := mem_forward.mp hpc
      exact unit_arc hu ha) h
    refine ⟨by simp, fun s d hd => ?_⟩
    simp only [List.getElem?_map, Option.map_eq_some_iff] at hd
    obtain ⟨s', hs', rfl⟩ := hd
    have hs : s < T.size := by have := (List.getElem?_eq_some_iff.mp hs').1; simpa using this
    have e : s' = s := by have := (List.getElem?_eq_some_iff.mp hs').2; simpa using this.symm
    subst e
    refine leastBelow_of h2 hs (fun k => ?_)
    rw [cost_forward]
    exact ⟨fun hp => ⟨i, hi, hp⟩, fun ⟨j, hj, hp⟩ => by rw [hi] at hj; simp only [Option.some.injEq] at hj; subst hj; exact hp⟩

/-- C39: the same for the distances to goal states. -/
theorem C39_goal_below (H : StdHeap Nat) {T : TS} (hT : T.InRange) {ds : List Nat} (h : T.goalDistances H = some ds) :
    ds.length = T.size ∧ ∀ s d, ds[s]? = some d → LeastBelow (T.ToGoal s) d := by
  unfold TS.goalDistances at h
  obtain ⟨dist, rfl, h2⟩ := searchFrom_partial H (ranged_backward hT) (fun hu v p c hpc => by
    obtain ⟨P, _, ha⟩ := mem_backward.mp hpc
    exact unit_arc hu ha) h
  refine ⟨by simp, fun s d hd => ?_⟩
  simp only [List.getElem?_map, Option.map_eq_some_iff] at hd
  obtain ⟨s', hs', rfl⟩ := hd
  have hs : s < T.size := by have := (List.getElem?_eq_some_iff.mp hs').1; simpa using this
  have e : s' = s := by have := (List.getElem?_eq_some_iff.mp hs').2; simpa using this.symm
  subst e
  refine leastBelow_of h2 hs (fun k => ?_)
  rw [cost_backward]
  simp only [mem_goalStates]
  exact Iff.rfl

/-- C39: if not even a path through all states has a cost that exceeds the int range, the distances from the initial state are computed, and they are exact: the least cost of a path, or
infinity if and only if the state is unreachable. -/
theorem C39_init_exact (H : StdHeap Nat) {T : TS} (hT : T.InRange) (hi : T.init ≠ none) {C : Nat} (hC : ∀ i ∈ T.infos, i.labels ≠ [] → i.cost ≤ C) (hb : T.size * C < infinity) :
    ∃ ds, T.initDistances H = some ds ∧ ds.length = T.size ∧ ∀ s d, ds[s]? = some d → Least (T.FromInit s) d := by
  obtain ⟨i, hi⟩ := Option.ne_none_iff_exists'.mp hi
  have hcost : ∀ v p c, (p, c) ∈ forward T.arcs v → c ≤ C := fun v p c h => by
    obtain ⟨P, _, j, h1, h2, _, rfl⟩ := mem_forward.mp h
    exact hC j h1 h2
  obtain ⟨ds, hds⟩ := searchFrom_defined H (ranged_forward hT hi) (unit := T.isUnitCost) (fun hu v p c hpc => by
      obtain ⟨P, _, ha⟩ := mem_forward.mp hpc
      exact unit_arc hu ha) (fun _ => ⟨C, hcost, hb⟩)
  have hall : (T.arcs.all (fun a => decide (a.1 < T.size))) = true := by
    rw [List.all_eq_true]
    rintro ⟨a, b, c⟩ ha
    simpa using (arc_range hT (mem_arcs.mp ha)).1
  have h1 : T.initDistances H = some ds := by
    unfold TS.initDistances
    rw [hi]
    simp only
    rw [hall]
    exact hds
  obtain ⟨h2, h3⟩ := C39_init_below H hT h1
  refine ⟨ds, h1, h2, fun s d hd => least_of_below (h3 s d hd) ?_⟩
  rintro k ⟨j, hj, hp⟩
  rw [hi] at hj
  simp only [Option.some.injEq] at hj
  subst hj
  have hr := ranged_forward hT hi
  obtain ⟨k', h4, h5⟩ := short_cost H (l := [i]) (fun v => Iff.rfl) ⟨hr.src, hr.range, hcost, hb⟩ (cost_forward.mpr hp)
  exact ⟨k', ⟨i, hi, cost_forward.mp h4⟩, h5⟩

/-- C39: the same for the distances to goal states. -/
theorem C39_goal_exact (H : StdHeap Nat) {T : TS} (hT : T.InRange) {C : Nat} (hC : ∀ i ∈ T.infos, i.labels ≠ [] → i.cost ≤ C) (hb : T.size * C < infinity) :
    ∃ ds, T.goalDistances H = some ds ∧ ds.length = T.size ∧ ∀ s d, ds[s]? = some d → Least (T.ToGoal s) d := by
  have hcost : ∀ v p c, (p, c) ∈ backward T.arcs v → c ≤ C := fun v p c h => by
    obtain ⟨P, _, j, h1, h2, _, rfl⟩ := mem_backward.mp h
    exact hC j h1 h2
  obtain ⟨ds, hds⟩ := searchFrom_defined H (ranged_backward hT) (unit := T.isUnitCost) (fun hu v p c hpc => by
      obtain ⟨P, _, ha⟩ := mem_backward.mp hpc
      exact unit_arc hu ha) (fun _ => ⟨C, hcost, hb⟩)
  have hall : (T.arcs.all (fun a => decide (a.2.1 < T.size))) = true := by
    rw [List.all_eq_true]
    rintro ⟨a, b, c⟩ ha
    simpa using (arc_range hT (mem_arcs.mp ha)).2
  have h1 : T.goalDistances H = some ds := by
    unfold TS.goalDistances
    rw [hall]
    exact hds
  obtain ⟨h2, h3⟩ := C39_goal_below H hT h1
  refine ⟨ds, h1, h2, fun s d hd => least_of_below (h3 s d hd) ?_⟩
  rintro k ⟨g, hg, hp⟩
  have hr := ranged_backward hT
  obtain ⟨k', h4, h5⟩ := short_cost H (fun v => Iff.rfl) ⟨hr.src, hr.range, hcost, hb⟩ (cost_backward.mpr ⟨g, mem_goalStates.mpr hg, hp⟩)
  obtain ⟨g', h6, h7⟩ := cost_backward.mp h4
  exact ⟨k', ⟨g', mem_goalStates.mp h6, h7⟩, h5⟩

/-- a transition system with four states, two of them on a cycle, one unreachable and one dead end -/
def probe : TS := ⟨[some 0, some 1], [⟨[0], [(0, 1), (1, 2), (3, 2)], 5⟩, ⟨[1], [(0, 2), (2, 0)], 7⟩], [false, true, false, false], some 0⟩

example : probe.InRange := ⟨by decide, by decide⟩
example : probe.isUnitCost = false ∧ probe.size * 7 < infinity := by decide
example : probe.FromInit 2 7 := ⟨0, rfl, .cons 0 2 2 7 0 ⟨⟨[1], [(0, 2), (2, 0)], 7⟩, by decide, by decide, by decide, rfl⟩ (.nil 2)⟩

end Verif.Mas
