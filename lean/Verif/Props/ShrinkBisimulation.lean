import Verif.Lemmas.ShrinkClasses

/-
C66: shrinking by bisimulation.
-/
namespace Verif.Mas
open Verif.AdaptiveQueue

theorem Shrinkable.zero {greedy : Bool} {T : TS} {ds : List Nat} (h : Shrinkable greedy T ds) (s : Nat) (hs : T.goals[s]? = some true) : ds[s]? = some 0 := by
  have hlt : s < ds.length := by rw [h.length]; exact (List.getElem?_eq_some_iff.mp hs).1
  have e := List.getElem?_eq_getElem hlt
  have hp : T.ToGoal s 0 := ⟨s, hs, .nil s⟩
  rcases h.dist s _ e with ⟨_, _, h3⟩ | ⟨h2, h3⟩
  · rw [e]
    have := h3 0 hp
    congr 1
    omega
  · have := h3 0 hp
    simp [infinity] at this

theorem Shrinkable.ok {greedy : Bool} {T : TS} {ds : List Nat} (h : Shrinkable greedy T ds) : ShrinkOk greedy T ds where
  range := h.range
  goals := rfl
  length := h.length
  zero := h.zero
  goal := h.goal
  bounded := fun hg i hi hne t ht b hb hbi => by
    have := h.bounded hg t.1 t.2 i.cost b ⟨i, hi, hne, ht, rfl⟩ hb hbi
    simp only [infinity] at this
    omega

/-- `shrink_bisimulation` ends, for all options and all bounds on the number of states, with a partition of the states.  Its number of classes is at most the bound, or the number of combinations of
goal status and goal distance that occur if that is larger.  States of the same class agree in both. -/
theorem C66_classes {greedy : Bool} {T : TS} {ds : List Nat} (h : Shrinkable greedy T ds) (atLimit : AtLimit) (di : Option (List Nat)) (target : Nat) :
    ∃ rel, shrinkBisimulation greedy atLimit T ⟨di, some ds⟩ target = some rel ∧ IsPartition T.size rel ∧
      rel.length ≤ max target ((List.range T.size).map (fun s => (T.goals[s]?, ds[s]?))).dedup.length ∧
      ∀ a b, SameClass rel a b → T.goals[a]? = T.goals[b]? ∧ ds[a]? = ds[b]? := by
  obtain ⟨rel, g, num, h1, h2, h3, h4, h5, h6, _⟩ := h.ok.result (d := ⟨di, some ds⟩) rfl atLimit target
  refine ⟨rel, h1, h5, by rw [h3]; exact h4, fun a b hab => ?_⟩
  obtain ⟨k, ha, hb⟩ := (h6 a b).mp hab
  have hla : a < T.size := by rw [← h2.length]; exact (List.getElem?_eq_some_iff.mp ha).1
  obtain ⟨x, hx⟩ := h.ok.sigH_some hla
  have hy := hx
  rw [h2.same a b k ha hb] at hy
  exact sigH_inj hx hy (fun e => h.below _ (List.mem_of_getElem? e) rfl) (fun e => h.below _ (List.mem_of_getElem? e) rfl)

/-- Shrinking does not change goal distances: the cheapest path of classes to the class of a goal state costs as much as the cheapest path of states. -/
theorem C66_preserves_distances {greedy : Bool} {T : TS} {ds : List Nat} (h : Shrinkable greedy T ds) {atLimit : AtLimit} {di : Option (List Nat)} {target : Nat} {rel : List (List Nat)}
    (hr : shrinkBisimulation greedy atLimit T ⟨di, some ds⟩ target = some rel) {s d : Nat} (hs : ds[s]? = some d) : LeastBelow (T.ClassToGoal (SameClass rel) s) d := by
  obtain ⟨rel', h1, h2, _, h4⟩ := C66_classes h atLimit di target
  rw [hr] at h1
  simp only [Option.some.injEq] at h1
  subst h1
  have hlow : ∀ s k, T.ClassToGoal (SameClass rel) s k → ∀ d, ds[s]? = some d → d ≤ k := by
    intro s k hk
    induction hk with
    | goal s s' hss hg =>
      intro d hd
      rw [(h4 s s' hss).2, h.zero s' hg] at hd
      simp only [Option.some.injEq] at hd
      omega
    | step s s' b c k hss ha _ ih =>
      intro d hd
      rw [(h4 s s' hss).2] at hd
      obtain ⟨i, hi, hne, ht, rfl⟩ := id ha
      have hlt : b < ds.length := by rw [h.length]; exact (h.range.trans i hi _ ht).2
      have e := List.getElem?_eq_getElem hlt
      have hb := ih _ e
      have hdinf : d ≤ infinity := by rcases h.dist s' d hd with ⟨_, h5, _⟩ | ⟨h5, _⟩ <;> omega
      rcases h.dist b _ e with ⟨⟨g, hg, hp⟩, h6, _⟩ | ⟨h6, _⟩
      · have hp' : T.ToGoal s' (i.cost + ds[b]) := ⟨g, hg, .cons s' b g _ _ ha hp⟩
        rcases h.dist s' d hd with ⟨_, _, h7⟩ | ⟨h7, h8⟩
        · have := h7 _ hp'; omega
        · have := h8 _ hp'; omega
      · omega
  have hself : ∀ s, s < T.size → SameClass rel s s := fun s hs => by
    obtain ⟨c, h5, h6⟩ := h2.covers s hs
    exact ⟨c, h5, h6, h6⟩
  rcases h.dist s d hs with ⟨⟨g, hg, hp⟩, h5, hmin⟩ | ⟨h5, _⟩
  · left
    refine ⟨?_, h5, fun k hk => hlow s k hk d hs⟩
    clear hs h5 hmin
    induction hp with
    | nil a => exact .goal a a (hself a (List.getElem?_eq_some_iff.mp hg).1) hg
    | cons a b u c k ha _ ih =>
      obtain ⟨i, hi, _, ht, _⟩ := id ha
      exact .step a a b c k (hself a (h.range.trans i hi _ ht).1) ha (ih hg)
  · exact Or.inr ⟨h5, fun k hk => h5 ▸ hlow s k hk d hs⟩

/-- If there may be as many classes as states, then the result is a bisimulation: for all transitions, or for those on cheapest paths if `greedy` is set. -/
theorem C66_bisimulation {greedy : Bool} {T : TS} {ds : List Nat} (h : Shrinkable greedy T ds) {atLimit : AtLimit} {di : Option (List Nat)} {target : Nat} (hsize : T.size ≤ target) {rel : List (List Nat)}
    (hr : shrinkBisimulation greedy atLimit T ⟨di, some ds⟩ target = some rel) : T.IsBisimulation (if greedy then T.CheapestArc ds else T.LabelArc) (SameClass rel) := by
  obtain ⟨rel', h1, h2, _, h4⟩ := C66_classes h atLimit di target
  obtain ⟨rel'', g, num, e1, e2, _, _, _, e6, e7⟩ := h.ok.result (d := ⟨di, some ds⟩) rfl atLimit target
  rw [hr] at h1 e1
  simp only [Option.some.injEq] at h1 e1
  subst h1 e1
  -- one step, for transitions that count
  have main : ∀ i ∈ T.infos, ∀ l ∈ i.labels, ∀ a b a', SameClass rel a b → (a, a') ∈ i.transitions → Counts greedy ds i.cost a a' → ∃ b', (b, b') ∈ i.transitions ∧ Counts greedy ds i.cost b b' ∧ SameClass rel a' b' := by
    intro i hi l hl a b a' hab ht hc
    obtain ⟨k, ha, hb⟩ := (e6 a b).mp hab
    have hact : i ∈ T.infos.filter (·.active) := List.mem_filter.mpr ⟨hi, by
      simp only [LocalLabel.active, Bool.not_eq_true', List.isEmpty_eq_false_iff]
      exact List.ne_nil_of_mem hl⟩
    obtain ⟨n, hn⟩ := List.getElem?_of_mem hact
    obtain ⟨la, hla⟩ := h.ok.succSig_some e2.length a
    have hlb := hla
    rw [e7 hsize a b k ha hb] at hlb
    have hlt : a' < g.length := by rw [e2.length]; exact (h.range.trans i hi _ ht).2
    have hga := List.getElem?_eq_getElem hlt
    have hm := (mem_succSig hla n _).mpr ⟨i, hn, a', ht, hga, hc⟩
    obtain ⟨j, hj, b', h5, h6, h7⟩ := (mem_succSig hlb n _).mp hm
    rw [hn] at hj
    simp only [Option.some.injEq] at hj
    subst hj
    exact ⟨b', h5, h7, (e6 a' b').mpr ⟨_, hga, h6⟩⟩
  refine ⟨fun a b ⟨c, h5, h6, h7⟩ => ⟨c, h5, h7, h6⟩, fun a b hab => (h4 a b hab).1, fun l a b a' hab ha => ?_⟩
  cases greedy with
  | false =>
    simp only [Bool.false_eq_true, if_false] at ha ⊢
    obtain ⟨i, hi, hl, ht⟩ := ha
    obtain ⟨b', h5, _, h7⟩ := main i hi l hl a b a' hab ht (by simp [Counts])
    exact ⟨b', ⟨i, hi, hl, h5⟩, h7⟩
  | true =>
    simp only [if_true] at ha ⊢
    obtain ⟨i, hi, hl, ht, y, h5, h6, h7⟩ := ha
    obtain ⟨b', h8, h9, h10⟩ := main i hi l hl a b a' hab ht (fun _ => ⟨_, y, h6, h5, by simp only [infinity] at h7; simp only [inf, Dijkstra.inf]; omega, by simp only [infinity] at h7; simp only [inf, Dijkstra.inf]; omega, rfl⟩)
    obtain ⟨x', y', k1, k2, k3, k4, rfl⟩ := h9 rfl
    refine ⟨b', ⟨i, hi, hl, h8, y', k2, k1, ?_⟩, h10⟩
    rw [← (h4 a b hab).2, h6] at k1
    simp only [Option.some.injEq] at k1
    omega

/-! ### examples -/

/-- a way to check goal distances -/
theorem leastBelow_check {T : TS} {ds : List Nat} (h0 : ∀ s, s < T.size → T.goals[s]? = some true → ds[s]? = some 0)
    (h1 : ∀ i ∈ T.infos, i.labels ≠ [] → ∀ t ∈ i.transitions, ∀ x ∈ ds[t.1]?, ∀ y ∈ ds[t.2]?, x ≤ i.cost + y) (h2 : ∀ i ∈ T.infos, ∀ t ∈ i.transitions, t.1 < ds.length ∧ t.2 < ds.length)
    (h3 : ∀ s, s < ds.length → ∀ d ∈ ds[s]?, T.goals[s]? = some true ∨ d = infinity ∨ d < infinity ∧ ∃ i ∈ T.infos, i.labels ≠ [] ∧ 0 < i.cost ∧ ∃ t ∈ i.transitions, t.1 = s ∧ ∃ y ∈ ds[t.2]?, d = i.cost + y)
    (s d : Nat) (h : ds[s]? = some d) : LeastBelow (T.ToGoal s) d := by
  have hlow : ∀ a g k, T.Path a g k → T.goals[g]? = some true → ∀ d, ds[a]? = some d → d ≤ k := by
    intro a g k hp
    induction hp with
    | nil a =>
      intro hg d hd
      rw [h0 a (List.getElem?_eq_some_iff.mp hg).1 hg] at hd
      simp only [Option.some.injEq] at hd
      omega
    | cons a b u c k ha _ ih =>
      intro hg d hd
      obtain ⟨i, hi, hne, ht, rfl⟩ := ha
      have e := List.getElem?_eq_getElem (h2 i hi _ ht).2
      have := h1 i hi hne _ ht d hd _ e
      have := ih hg _ e
      omega
  have hup : ∀ d s, ds[s]? = some d → d < infinity → T.ToGoal s d := by
    intro d
    induction d using Nat.strong_induction_on with
    | _ d ih =>
      intro s h hd
      rcases h3 s (List.getElem?_eq_some_iff.mp h).1 d h with hg | rfl | ⟨_, i, hi, hne, hpos, ⟨a, b⟩, ht, rfl, y, hy, rfl⟩
      · rw [h0 s (List.getElem?_eq_some_iff.mp hg).1 hg] at h
        simp only [Option.some.injEq] at h
        subst h
        exact ⟨s, hg, .nil s⟩
      · omega
      · obtain ⟨g, hg, hp⟩ := ih y (by omega) b hy (by omega)
        exact ⟨g, hg, .cons _ b g _ _ ⟨i, hi, hne, ht, rfl⟩ hp⟩
  by_cases hd : d < infinity
  · exact Or.inl ⟨hup d s h hd, hd, fun k ⟨g, hg, hp⟩ => hlow s g k hp hg d h⟩
  · have : d = infinity := by
      rcases h3 s (List.getElem?_eq_some_iff.mp h).1 d h with hg | h | h
      · rw [h0 s (List.getElem?_eq_some_iff.mp hg).1 hg] at h
        simp only [Option.some.injEq] at h
        simp only [infinity] at hd
        omega
      · exact h
      · omega
    exact Or.inr ⟨this, fun k ⟨g, hg, hp⟩ => this ▸ hlow s g k hp hg d h⟩

namespace ShrinkExample

/-- states 0 and 1 can reach 2 and 3 with label 0, these the goal state 4 with label 1; there is an expensive shortcut from 1 to 4; no goal state is reachable from 5 -/
def T : TS := ⟨[some 0, some 1, some 2], [⟨[0], [(0, 2), (1, 3)], 1⟩, ⟨[1], [(2, 4), (3, 4)], 1⟩, ⟨[2], [(1, 4)], 7⟩], [false, false, false, false, true, false], some 0⟩

def ds : List Nat := [2, 2, 1, 1, 0, infinity]

theorem shrinkable (greedy : Bool) : Shrinkable greedy T ds where
  range := ⟨by decide, by decide⟩
  length := rfl
  dist := leastBelow_check (by decide) (by decide) (by decide) (by decide)
  goal := ⟨4, rfl⟩
  below := by decide
  bounded := by
    rintro _ a b c d ⟨i, hi, hne, ht, rfl⟩ hd hinf
    exact (show ∀ i ∈ T.infos, i.labels ≠ [] → ∀ t ∈ i.transitions, ∀ d ∈ ds[t.2]?, d ≠ infinity → d + i.cost ≤ infinity by decide) i hi hne _ ht d hd hinf

/-- the shortcut distinguishes 0 and 1 unless only cheapest paths count; with a bound of five states, `return` stops before the split -/
example : shrinkBisimulation false .return T ⟨none, some ds⟩ 6 = some [[4], [0], [3, 2], [5], [1]] := by decide +kernel
example : shrinkBisimulation true .return T ⟨none, some ds⟩ 6 = some [[4], [1, 0], [3, 2], [5]] := by decide +kernel
example : shrinkBisimulation false .return T ⟨none, some ds⟩ 4 = some [[4], [1, 0], [3, 2], [5]] := by decide +kernel

/-- a state whose distance is the largest int but one is put into the class of states from which no goal state is reachable -/
def Tbig : TS := ⟨[some 0], [⟨[0], [(0, 1)], 2147483646⟩], [false, true, false], some 0⟩

/-- the sum of a distance and a cost is not an int -/
def Tover : TS := ⟨[some 0, some 1], [⟨[0], [(0, 1)], 1⟩, ⟨[1], [(0, 0)], 2147483647⟩], [false, true], some 0⟩

end ShrinkExample

/-- The condition that no distance is the largest int but one is needed: this value is also used for states from which no goal state is reachable. -/
theorem C66_irrelevant_collision : ∃ T : TS, ∃ ds rel, T.InRange ∧ (∀ s d : Nat, ds[s]? = some d → LeastBelow (T.ToGoal s) d) ∧ shrinkBisimulation false .return T ⟨none, some ds⟩ 2 = some rel ∧
    SameClass rel 0 2 ∧ ds[0]? = some (infinity - 1) ∧ ds[2]? = some infinity :=
  ⟨ShrinkExample.Tbig, [2147483646, 0, 2147483647], [[1], [2, 0]], ⟨by decide, by decide⟩, leastBelow_check (by decide) (by decide) (by decide) (by decide), by decide +kernel, ⟨[2, 0], by decide, by decide, by decide⟩, rfl, rfl⟩

/-- The condition on sums is needed for `greedy`: otherwise there is a signed overflow. -/
theorem C66_greedy_overflow : ∃ T : TS, ∃ ds, T.InRange ∧ (∀ s d : Nat, ds[s]? = some d → LeastBelow (T.ToGoal s) d) ∧ (∀ d ∈ ds, d < infinity - 1) ∧ shrinkBisimulation true .return T ⟨none, some ds⟩ 9 = none :=
  ⟨ShrinkExample.Tover, [1, 0], ⟨by decide, by decide⟩, leastBelow_check (by decide) (by decide) (by decide) (by decide), by decide, by decide +kernel⟩

end Verif.Mas
