import Verif.Props.Mas
import Verif.Props.Pdb

/-
Examples for C38: a task with a conditional effect for which merge-and-shrink is run inside the kernel, and a task which shows that the assumption on effect conditions is needed.
-/
namespace Verif.Mas
open Verif.AdaptiveQueue
open Verif.Search (taskOK_wf execOK_spec)

/-- the main loop with a limit on the number of iterations -/
def mainFuel (O : HashOrder) (H : StdHeap Nat) (c : Config) (n : Nat) : Nat → Nat → FTS → Option FTS
  | 0, _, _ => none
  | fuel + 1, k, F =>
    if 1 < F.numActive then
      match iteration O H c n k F with
      | none => none
      | some (F, false) => some F
      | some (F, true) => mainFuel O H c n fuel (k + 1) F
    else some F

theorem mainFuel_sound {O : HashOrder} {H : StdHeap Nat} {c : Config} {n : Nat} : ∀ {fuel k : Nat} {F F' : FTS}, mainFuel O H c n fuel k F = some F' → mainLoop O H c n k F = some F'
  | 0, k, F, F', h => by simp [mainFuel] at h
  | fuel + 1, k, F, F', h => by
    rw [mainLoop]
    simp only [mainFuel] at h
    split at h
    · rename_i hn
      rw [if_pos hn]
      split at h
      · simp at h
      · rename_i F1 hi
        rw [hi]
        exact h
      · rename_i F1 hi
        rw [hi]
        exact mainFuel_sound h
    · rename_i hn
      rw [if_neg hn]
      exact h

/-- goal distances of a system with general costs, with a limit on the number of iterations -/
def goalFuel (H : StdHeap Nat) (fuel : Nat) (T : TS) : Option (List Nat) :=
  if T.size = 0 ∨ T.isUnitCost = true then none
  else if T.arcs.all (fun a => decide (a.2.1 < T.size)) then
    match pushSources T.size H ((List.range T.size).filter (fun s => T.goals[s]? = some true)) ⟨fun _ => inf, Queue.new⟩ with
    | none => none
    | some st =>
      match Pdb.loopFuel H T.size (fun s => some (backward T.arcs s)) fuel st with
      | none => none
      | some st => some ((List.range T.size).map st.dist)
  else none

theorem goalFuel_sound {H : StdHeap Nat} {fuel : Nat} {T : TS} {ds : List Nat} (h : goalFuel H fuel T = some ds) : T.size ≠ 0 ∧ T.goalDistances H = some ds := by
  unfold goalFuel at h
  split at h
  · simp at h
  · rename_i hn
    push Not at hn
    refine ⟨hn.1, ?_⟩
    split at h
    · rename_i ha
      unfold TS.goalDistances searchFrom
      rw [ha, if_pos rfl, if_neg hn.2]
      split at h
      · simp at h
      · rename_i st hst
        rw [hst]
        split at h
        · simp at h
        · rename_i st' hst'
          simp only [Pdb.loopFuel_sound hst']
          exact h
    · simp at h

def extractFuel (H : StdHeap Nat) (fuel : Nat) (f : Factor) : Option Repr :=
  match f.dist.goal, goalFuel H fuel f.ts with
  | none, some ds => f.repr.setDistances ds
  | _, _ => none

theorem extractFuel_sound {H : StdHeap Nat} {fuel : Nat} {f : Factor} {r : Repr} (h : extractFuel H fuel f = some r) : extractFactor H f = some r := by
  unfold extractFuel at h
  split at h
  · rename_i ds hn hd
    obtain ⟨h1, h2⟩ := goalFuel_sound hd
    unfold extractFactor
    rw [hn]
    simp only [computeDistances, if_neg h1, computeIf, h2]
    simpa using h
  · simp at h

/-- the values of the heuristic for the states `ss`, computed with at most `fuel` iterations of the loops -/
def masProbe (O : HashOrder) (H : StdHeap Nat) (c : Config) (t : Task) (fuel : Nat) : Option (List Repr) :=
  if t.axioms.isEmpty then
    match createFts H t c.ci c.cg with
    | none => none
    | some F =>
      match pruneAtomic H c (List.range F.factors.length) F with
      | some (F, false) =>
        if c.timed then
          match mainFuel O H c t.vars.length fuel 0 F with
          | none => none
          | some F =>
            match unsolvableFactor (F.factors.filterMap id) with
            | some none => mapAll (extractFuel H fuel) ((F.factors.filterMap id).filter (fun f => !f.trivial))
            | _ => none
        else none
      | _ => none
  else none

theorem mapAll_mono {α β : Type} {f g : α → Option β} (hfg : ∀ a b, f a = some b → g a = some b) : ∀ {l : List α} {r : List β}, mapAll f l = some r → mapAll g l = some r
  | [], r, h => h
  | a :: l, r, h => by
    simp only [mapAll] at h ⊢
    cases ha : f a with
    | none => rw [ha] at h; simp at h
    | some b =>
      rw [ha] at h
      cases hl : mapAll f l with
      | none => rw [hl] at h; simp at h
      | some bs =>
        rw [hl] at h
        rw [hfg a b ha, mapAll_mono hfg hl]
        exact h

theorem masProbe_sound {O : HashOrder} {H : StdHeap Nat} {c : Config} {t : Task} {fuel : Nat} {rs : List Repr} (h : masProbe O H c t fuel = some rs) : construct O H c t = some rs := by
  unfold masProbe at h
  split at h
  · rename_i hax
    split at h
    · simp at h
    · rename_i F hF
      split at h
      · rename_i F1 hp
        split at h
        · rename_i ht
          split at h
          · simp at h
          · rename_i F2 hm
            have hb : build O H c t = some F2 := by
              unfold build
              rw [if_pos hax, hF]
              simp only [hp, ht]
              exact mainFuel_sound hm
            unfold construct
            rw [hb]
            simp only [extract]
            split at h
            · rename_i hu
              rw [hu]
              exact mapAll_mono (fun _ _ => extractFuel_sound) h
            · simp at h
        · simp at h
      · simp at h
  · simp at h

/-- three variables; the third operator has a conditional effect -/
def exTask : Task where
  vars := [⟨3, none, 0⟩, ⟨2, none, 0⟩, ⟨2, none, 0⟩]
  ops := [⟨[⟨0, 0⟩], [⟨[], ⟨0, 1⟩⟩], 2⟩, ⟨[⟨0, 1⟩], [⟨[], ⟨0, 2⟩⟩], 2⟩, ⟨[⟨1, 0⟩], [⟨[], ⟨1, 1⟩⟩, ⟨[⟨0, 2⟩], ⟨2, 1⟩⟩], 3⟩, ⟨[], [⟨[], ⟨1, 0⟩⟩], 1⟩]
  axioms := []
  init := [0, 0, 0]
  goal := [⟨2, 1⟩]

def exOrder : HashOrder := ⟨id, fun _ => .refl _⟩

/-- label reduction before shrinking and merging; the first factor is shrunk, combining its last two states, the second one is not; first the atomic factors 0 and 1 are merged, then 2 and 3 -/
def exConfig : Config where
  needsInit := false
  needsGoal := false
  unreachable := false
  irrelevant := false
  reduction := some ⟨true, true, .fixpoint, .regular⟩
  maxStates := 100
  before := 100
  threshold := 3
  timed := true
  pair k _ := if k = 0 then (0, 1) else (2, 3)
  shrink1 _ T _ _ := some (if T.size < 2 then (List.range T.size).map (fun s => [s]) else [T.size - 2, T.size - 1] :: (List.range (T.size - 2)).map (fun s => [s]))
  shrink2 _ T _ _ := some ((List.range T.size).map (fun s => [s]))
  expired _ _ := false

theorem covers_singletons (n : Nat) : Covers n ((List.range n).map (fun s => [s])) :=
  ⟨fun c hc => by obtain ⟨s, _, rfl⟩ := List.mem_map.mp hc; simp, fun s hs => ⟨[s], List.mem_map.mpr ⟨s, List.mem_range.mpr hs, rfl⟩, by simp⟩⟩

theorem exConfig_shrinks : exConfig.ShrinksAll := by
  intro k T d n rel
  refine ⟨fun h => ?_, fun h => ?_⟩
  · simp only [exConfig, Option.some.injEq] at h
    subst h
    split
    · exact covers_singletons _
    · refine ⟨fun c hc => ?_, fun s hs => ?_⟩
      · rcases List.mem_cons.mp hc with rfl | hc
        · simp
        · obtain ⟨s, _, rfl⟩ := List.mem_map.mp hc; simp
      · by_cases h2 : s < T.size - 2
        · exact ⟨[s], List.mem_cons_of_mem _ (List.mem_map.mpr ⟨s, List.mem_range.mpr h2, rfl⟩), by simp⟩
        · exact ⟨[T.size - 2, T.size - 1], List.mem_cons_self, by simp; omega⟩
  · simp only [exConfig, Option.some.injEq] at h
    subst h
    exact covers_singletons _

theorem exTask_mas : MasTask exTask := ⟨taskOK_wf (by decide), by decide, by decide⟩

/-- the heuristic is constructed, and its value for the initial state is less than the cost 7 of the plan, because of shrinking -/
example : ∃ rs, construct exOrder (insertHeap Nat) exConfig exTask = some rs ∧ heuristic rs [0, 0, 0] = some (some 3) ∧ heuristic rs [2, 1, 0] = some (some 4) ∧ exTask.SolvesFrom [0, 0, 0] [0, 1, 2] := by
  have h : (masProbe exOrder (insertHeap Nat) exConfig exTask 50).map (fun rs => [[0, 0, 0], [2, 1, 0]].map (heuristic rs)) = some [some (some 3), some (some 4)] := by decide +kernel
  obtain ⟨rs, h1, h2⟩ := Option.map_eq_some_iff.mp h
  simp only [List.map_cons, List.map_nil, List.cons.injEq, and_true] at h2
  exact ⟨rs, masProbe_sound h1, h2.1, h2.2, execOK_spec exTask_mas.wf _ _ exTask_mas.wf.init (by decide)⟩

/-- one variable and one operator with an effect whose conditions contradict each other -/
def contraTask : Task where
  vars := [⟨2, none, 0⟩]
  ops := [⟨[], [⟨[⟨0, 0⟩, ⟨0, 1⟩], ⟨0, 0⟩⟩], 1⟩]
  axioms := []
  init := [1]
  goal := [⟨0, 0⟩]

/-- C38 needs that effect conditions mention no variable twice: in the atomic factor of the variable the last condition is used, so that the operator, which never changes anything, has no transition
from value 1 to itself, and one from 1 to the goal. -/
theorem C38_duplicate_conditions_fail : contraTask.WF ∧ ∃ F f, createFts (insertHeap Nat) contraTask false false = some F ∧ F.factor 0 = some f ∧ ¬ IsAbstraction contraTask false f.ts f.repr.value := by
  have hwf : contraTask.WF := taskOK_wf (by decide)
  refine ⟨hwf, ?_⟩
  have h : ((createFts (insertHeap Nat) contraTask false false).bind (fun F => F.factor 0)).map (fun f => (f.ts.arcs, f.repr.value [1])) = some ([(0, 0, 1), (1, 0, 1)], some (some 1)) := by decide +kernel
  obtain ⟨f, hf, h2⟩ := Option.map_eq_some_iff.mp h
  obtain ⟨F, hF, hf⟩ := Option.bind_eq_some_iff.mp hf
  refine ⟨F, f, hF, hf, fun ha => ?_⟩
  simp only [Prod.mk.injEq] at h2
  obtain ⟨s'', k1, k2, k3⟩ := Registry.unregistered_spec hwf (o := ⟨[], [⟨[⟨0, 0⟩, ⟨0, 1⟩], ⟨0, 0⟩⟩], 1⟩) (by decide) hwf.init
  have e : s'' = [1] := by
    have : Registry.unregisteredSuccessor contraTask contraTask.init ⟨[], [⟨[⟨0, 0⟩, ⟨0, 1⟩], ⟨0, 0⟩⟩], 1⟩ = some [1] := by decide +kernel
    rw [this] at k1
    exact (Option.some.inj k1).symm
  subst e
  obtain ⟨c, h3, _⟩ := ha.transition 0 _ [1] [1] 1 1 hwf.init rfl (by decide) k3 h2.2 h2.2
  have := mem_arcs.mpr h3
  rw [h2.1] at this
  simp at this

end Verif.Mas
