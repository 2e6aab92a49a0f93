import Verif.Lemmas.VariableOrderTask
import Verif.Props.Simplify

/-
C68: the causal graph order and the removal of irrelevant variables (src/translate/variable_order.py) keep the plans of a task.
-/
namespace Verif.VarOrder
open Verif.SasFile
open Verif.Simplify (labels_back labels_fwd base_stable rooms rooms_valid)
open Relation (ReflTransGen)

theorem range_newVar {n v : Nat} (h : v < n) : (List.range n)[v]? = some v := List.getElem?_range h

theorem findAndApply_cases {T : SasTask} (hT : T.Valid) (reorder filter keep : Bool) : (reorder = false ∧ filter = false ∧ findAndApply reorder filter keep T = some T) ∨
    ∃ order T', findAndApply reorder filter keep T = some T' ∧ OrderOk T reorder filter order ∧ NewTask T order keep T' := by
  unfold findAndApply
  split
  · obtain ⟨order, h1, h2⟩ := findOrder_spec hT reorder filter
    obtain ⟨T', h3, h4⟩ := applyOrder_spec hT (h2.closed hT) keep
    exact Or.inr ⟨order, T', by simp only [h1, h3], h2, h4⟩
  · rename_i h
    simp only [Bool.or_eq_true, not_or, Bool.not_eq_true] at h
    exact Or.inl ⟨h.1, h.2, rfl⟩

/-- **C68**: For every valid task, `find_and_apply_variable_order` succeeds.  The variables of the new task are variables of the given one, each at most once, with their values, layers, names and initial values;
these are all variables, or, if irrelevant ones are removed, exactly those from which a goal variable can be reached in the causal graph.  If the variables are reordered, a variable is followed by
one that has influence on it only if both are on a common cycle of the causal graph; otherwise the order remains.  The goal and the mutexes say the same about all facts that exist in the new task. -/
theorem C68_variables {T : SasTask} (hT : T.Valid) (reorder filter keep : Bool) : ∃ (T' : SasTask) (order : List Nat), findAndApply reorder filter keep T = some T' ∧ order.Nodup ∧
    (∀ v, v ∈ order ↔ v < T.variables.length ∧ (filter = true → T.Relevant v)) ∧
    T'.variables.map some = order.map (fun v => T.variables[v]?) ∧ T'.init.map some = order.map (fun v => T.init[v]?) ∧
    (reorder = true → order.Pairwise (fun u v => T.Influences v u → ReflTransGen T.Influences u v)) ∧
    (reorder = false → order.Pairwise (· < ·)) ∧
    (∀ k v x : Nat, order[k]? = some v → ((⟨k, x⟩ : Fact) ∈ T'.goal ↔ (⟨v, x⟩ : Fact) ∈ T.goal)) ∧
    ∀ k v x l w y : Nat, order[k]? = some v → order[l]? = some w → (T'.Mutex ⟨k, x⟩ ⟨l, y⟩ ↔ T.Mutex ⟨v, x⟩ ⟨w, y⟩) := by
  rcases findAndApply_cases hT reorder filter keep with ⟨rfl, rfl, h⟩ | ⟨order, T', h, hO, hN⟩
  · have hget : ∀ {k v : Nat}, (List.range T.variables.length)[k]? = some v → k = v := by
      intro k v h
      obtain ⟨_, h2⟩ := List.getElem?_eq_some_iff.mp h
      simpa using h2
    have hself : ∀ {α : Type} (l : List α), l.map some = (List.range l.length).map (fun v => l[v]?) := by
      intro α l
      refine List.ext_getElem? (fun i => ?_)
      rw [List.getElem?_map, List.getElem?_map]
      by_cases hi : i < l.length
      · rw [List.getElem?_range hi, List.getElem?_eq_getElem hi]
        simp [List.getElem?_eq_getElem hi]
      · rw [List.getElem?_eq_none (by omega), List.getElem?_eq_none (by simpa using hi)]
        rfl
    refine ⟨T, List.range T.variables.length, h, List.nodup_range, fun v => by simp, hself _, by rw [← hT.init]; exact hself _, fun h => by (cases h), fun _ => List.pairwise_lt_range, ?_, ?_⟩
    · intro k v x hk
      rw [hget hk]
    · intro k v x l w y hk hl
      rw [hget hk, hget hl]
  · have hC := hO.closed hT
    have himg : ∀ {k v x : Nat}, order[k]? = some v → (emb T order).img ⟨v, x⟩ = some ⟨k, x⟩ := fun h => by
      simp only [Emb.img, (idx_iff hC).mpr h, Option.map_some]
      rfl
    refine ⟨T', order, h, hO.nodup, hO.mem, hN.vars, hN.init, hO.causal, hO.sorted, ?_, ?_⟩
    · intro k v x hk
      rw [hN.goal.mem_iff, newFacts_eq T, List.mem_filterMap]
      constructor
      · rintro ⟨g, hg, hi⟩
        obtain ⟨h1, h2⟩ := img_some hi
        have := (idx_iff hC).mp h1
        simp only at this h2
        rw [hk, Option.some.injEq] at this
        rw [this, h2]
        exact hg
      · exact fun hg => ⟨_, hg, himg hk⟩
    · intro k v x l w y hk hl
      exact hN.mutex hC (himg hk) (himg hl)

/-- **C68**: The new task is a valid task of the translator again (with --keep-no-ops, operators may have no effects). -/
theorem C68_valid {T T' : SasTask} (hT : T.Valid) (reorder filter : Bool) (h : findAndApply reorder filter false T = some T') : T'.Valid := by
  rcases findAndApply_cases hT reorder filter false with ⟨_, _, h'⟩ | ⟨order, T2, h', hO, hN⟩
  · rw [h, Option.some.injEq] at h'
    rw [h']
    exact hT
  · rw [h, Option.some.injEq] at h'
    subst h'
    exact hN.valid hT (hO.closed hT)

/-- **C68**: The new task has the same plans: from each plan of the given task a plan of the new one results by leaving out operators that affect removed variables only, and each plan of the new task is,
with names and costs, a plan of the given one.  With --keep-no-ops, nothing is left out in the first case, but the operators that have lost all effects have to be left out in the second one. -/
theorem C68_plans {T T' : SasTask} (hT : T.Valid) (reorder filter keep : Bool) (h : findAndApply reorder filter keep T = some T') :
    (∀ p, T.HasPlan p → ∃ p', p'.Sublist p ∧ T'.HasPlan p' ∧ (keep = true → p' = p)) ∧ ∀ p, T'.HasPlan p → ∃ p', p'.Sublist p ∧ T.HasPlan p' ∧ (keep = false → p' = p) := by
  rcases findAndApply_cases hT reorder filter keep with ⟨_, _, h'⟩ | ⟨order, T2, h', hO, hN⟩
  · rw [h, Option.some.injEq] at h'
    subst h'
    exact ⟨fun p hp => ⟨p, .refl _, hp, fun _ => rfl⟩, fun p hp => ⟨p, .refl _, hp, fun _ => rfl⟩⟩
  · rw [h, Option.some.injEq] at h'
    subst h'
    have hC := hO.closed hT
    constructor
    · rintro p ⟨s, π, hs, hp, hl⟩
      obtain ⟨s', h1, h2, h3⟩ := (hN.fwd hT hC).plan hs hp
      obtain ⟨p', h4, h5, h6⟩ := labels_fwd hN.label hl
      exact ⟨p', h4, ⟨s', _, h1, h2, h5⟩, fun hk => h6 (h3 (by simp [hk]))⟩
    · rintro p ⟨s', π', hs', hp, hl⟩
      obtain ⟨s, π, π'', h1, h2, h3, h4, h5⟩ := (hN.bwd hT hC).plan hs' hp
      have h6 := labels_back hN.label h5
      obtain ⟨p', hp', h7⟩ : ∃ p' : List (List Char × Nat), p'.Sublist p ∧ p'.map some = π''.map T'.label := by
        have hsub : (π''.map T'.label).Sublist (p.map some) := by rw [← hl]; exact h3.map _
        obtain ⟨p', e1, e2⟩ := List.sublist_map_iff.mp hsub
        exact ⟨p', e1, e2.symm⟩
      refine ⟨p', hp', ⟨s, π, h1, h2, h6.trans h7.symm⟩, fun hk => ?_⟩
      have := h4 (by simp [hk])
      rw [this, hl] at h7
      exact List.map_injective_iff.mpr (Option.some_injective _) h7

/-! ### A task -/

/-- the task of the rooms without the lamp: robot and door have influence on each other, and both on the alarm -/
def roomsOrdered : SasTask where
  «variables» := [⟨none, ["Atom at(r1)".toList, "Atom at(r3)".toList, "Atom at(r2)".toList]⟩, ⟨none, ["Atom open()".toList, "NegatedAtom open()".toList]⟩,
    ⟨some 0, ["Atom alarm()".toList, "NegatedAtom alarm()".toList]⟩]
  mutexes := []
  init := [0, 0, 1]
  goal := [⟨1, 0⟩, ⟨2, 0⟩]
  operators := [⟨"go r1 r2".toList, [⟨1, 0⟩], [⟨0, some 0, 2, []⟩], 4⟩, ⟨"push".toList, [⟨0, 2⟩], [⟨1, none, 0, []⟩], 1⟩, ⟨"fly".toList, [], [⟨0, some 1, 2, []⟩], 1⟩]
  axioms := [⟨[⟨0, 2⟩, ⟨1, 0⟩], ⟨2, 0⟩⟩]
  metric := true

theorem rooms_ordered : findAndApply true true false rooms = some roomsOrdered := by decide +kernel

example : roomsOrdered.Valid ∧ ∀ p, roomsOrdered.HasPlan p → rooms.HasPlan p := by
  refine ⟨C68_valid rooms_valid true true rooms_ordered, fun p hp => ?_⟩
  obtain ⟨p', _, h2, h3⟩ := (C68_plans rooms_valid true true false rooms_ordered).2 p hp
  rwa [h3 rfl] at h2

/-- the alarm, numbered first, comes after the variables it depends on -/
def alarmFirst : SasTask where
  «variables» := [⟨some 0, ["Atom alarm()".toList, "NegatedAtom alarm()".toList]⟩, ⟨none, ["Atom a()".toList, "NegatedAtom a()".toList]⟩, ⟨none, ["Atom b()".toList, "NegatedAtom b()".toList]⟩]
  mutexes := [[⟨0, 0⟩, ⟨2, 1⟩], [⟨1, 0⟩, ⟨1, 1⟩]]
  init := [1, 1, 1]
  goal := [⟨0, 0⟩]
  operators := [⟨"a".toList, [⟨2, 0⟩], [⟨1, some 1, 0, []⟩], 1⟩, ⟨"b".toList, [], [⟨2, none, 0, []⟩], 1⟩]
  axioms := [⟨[⟨1, 0⟩], ⟨0, 0⟩⟩]
  metric := false

def alarmLast : SasTask where
  «variables» := [⟨none, ["Atom b()".toList, "NegatedAtom b()".toList]⟩, ⟨none, ["Atom a()".toList, "NegatedAtom a()".toList]⟩, ⟨some 0, ["Atom alarm()".toList, "NegatedAtom alarm()".toList]⟩]
  mutexes := [[⟨2, 0⟩, ⟨0, 1⟩]]
  init := [1, 1, 1]
  goal := [⟨2, 0⟩]
  operators := [⟨"a".toList, [⟨0, 0⟩], [⟨1, some 1, 0, []⟩], 1⟩, ⟨"b".toList, [], [⟨0, none, 0, []⟩], 1⟩]
  axioms := [⟨[⟨1, 0⟩], ⟨2, 0⟩⟩]
  metric := false

example : alarmFirst.Valid ∧ findOrder true true alarmFirst = some [2, 1, 0] ∧ findAndApply true true false alarmFirst = some alarmLast :=
  ⟨taskCheck_valid (by decide +kernel), by decide +kernel, by decide +kernel⟩

/-! ### Operators without effects -/

/-- `switch` can be applied once, and has no influence on the goal -/
def twoSwitches : SasTask where
  «variables» := [⟨none, ["Atom p()".toList, "NegatedAtom p()".toList]⟩, ⟨none, ["Atom q()".toList, "NegatedAtom q()".toList]⟩]
  mutexes := []
  init := [1, 1]
  goal := [⟨0, 0⟩]
  operators := [⟨"switch".toList, [], [⟨1, some 1, 0, []⟩], 1⟩, ⟨"go".toList, [], [⟨0, none, 0, []⟩], 1⟩]
  axioms := []
  metric := false

def oneSwitch : SasTask where
  «variables» := [⟨none, ["Atom p()".toList, "NegatedAtom p()".toList]⟩]
  mutexes := []
  init := [1]
  goal := [⟨0, 0⟩]
  operators := [⟨"switch".toList, [], [], 1⟩, ⟨"go".toList, [], [⟨0, none, 0, []⟩], 1⟩]
  axioms := []
  metric := false

/-- **C68**: With --keep-no-ops, a plan of the new task need not be one of the given task: `switch` can be applied twice, as the precondition on the removed variable is lost. -/
theorem C68_keep_no_ops : twoSwitches.Valid ∧ findAndApply true true true twoSwitches = some oneSwitch ∧
    oneSwitch.HasPlan [("switch".toList, 1), ("switch".toList, 1), ("go".toList, 1)] ∧ ¬ twoSwitches.HasPlan [("switch".toList, 1), ("switch".toList, 1), ("go".toList, 1)] := by
  refine ⟨taskCheck_valid (by decide +kernel), by decide +kernel, ?_, ?_⟩
  · have hlay : ∀ v, oneSwitch.task.layerOf v = none := fun v => match v with | 0 => rfl | v + 1 => rfl
    have hwf : oneSwitch.task.WF := Search.taskOK_wf (by decide)
    exact ⟨oneSwitch.init, [0, 0, 1], (base_stable hlay).mpr rfl, Search.execOK_spec hwf _ _ hwf.init (by decide), rfl⟩
  · have hlay : ∀ v, twoSwitches.task.layerOf v = none := fun v => match v with | 0 => rfl | 1 => rfl | v + 2 => rfl
    have hlab : ∀ i, twoSwitches.label i = some ("switch".toList, 1) → i = 0 := fun i => match i with
      | 0 => fun _ => rfl
      | 1 => fun h => absurd h (by decide)
      | i + 2 => fun h => absurd h (by simp [SasTask.label, twoSwitches])
    rintro ⟨s, π, hs, ⟨u, hu, _⟩, hl⟩
    rw [base_stable hlay] at hs
    subst hs
    match π, hu, hl with
    | [], _, hl => cases hl
    | [i], _, hl => simp at hl
    | i :: j :: π, hu, hl =>
      simp only [List.map_cons, List.cons.injEq] at hl
      have hi := hlab i hl.1
      have hj := hlab j hl.2.1
      subst hi hj
      cases hu with
      | cons _ _ o s2 _ _ ho ha hs2 hu =>
        cases ho
        obtain ⟨m, h1, h2⟩ := hs2
        rw [base_stable hlay] at h2
        subst h2
        rw [Registry.effectResult_unique h1 (Registry.applyEffs_result _ _)] at hu
        cases hu with
        | cons _ _ o s3 _ _ ho ha hs3 hu =>
          cases ho
          revert ha
          decide

end Verif.VarOrder
