import Verif.Lemmas.MasExact
import Verif.Props.MasExamples

/-
C66: merge-and-shrink with exact bisimulation computes the perfect heuristic.
-/
namespace Verif.Mas
open Verif.AdaptiveQueue
open Verif.Search (taskOK_wf execOK_spec)

/-- both choices of the shrink strategy are those of `shrink_bisimulation` without the option `greedy` -/
def Config.Bisimulates (c : Config) (lim : AtLimit) : Prop :=
  ∀ k T d n, c.shrink1 k T d n = shrinkBisimulation false lim T d n ∧ c.shrink2 k T d n = shrinkBisimulation false lim T d n

/-- C66: For all merge strategies, all kinds of label reduction, both kinds of pruning and all thresholds: if the shrink strategy is bisimulation and the limits on sizes are not less than the number of states of the task, whose operators
have no conditional effects, then when the heuristic has been constructed without reaching the time limit, its value is the cost of a cheapest plan of the state, or DEAD_END if there is no plan.
(If unreachable states are pruned, then the first part is about states which are reachable.) -/
theorem C66_perfect (O : HashOrder) (H : StdHeap Nat) (c : Config) {lim : AtLimit} (hbis : c.Bisimulates lim) {t : Task} (ht : MasTask t) (hp : PlainTask t) (hsol : Solvable t c.unreachable t.init)
    (hm : numStates t ≤ c.maxStates) (hb : numStates t ≤ c.before) (htimed : c.timed = true) (hexp : ∀ k p, c.expired k p = false) {rs : List Repr} (h : construct O H c t = some rs) {s : State} (hs : t.ValidState s) :
    (Solvable t c.unreachable s → ∃ n π, heuristic rs s = some (some n) ∧ Cheapest t s π ∧ t.planCost π = n) ∧ ((∀ π, ¬ t.SolvesFrom s π) → heuristic rs s = some none) := by
  have hlive : Live t c.unreachable t.init := ⟨ht.wf.init, hsol⟩
  unfold construct at h
  split at h
  · simp at h
  · rename_i F hF
    obtain ⟨h1, h2, h3, h4⟩ := build_exact ht hp hlive (fun k T d n => (hbis k T d n).1) (fun k T d n => (hbis k T d n).2) hm hb htimed hexp hF
    have hgood := extract_good h1 h
    have hexact : ∀ n, heuristic rs s = some (some n) → ∃ π, t.SolvesFrom s π ∧ t.planCost π ≤ n := fun n hn => extract_exact ht.wf hlive h1 h2 h3 h4 h hs hn
    obtain ⟨v, hv⟩ := heuristicLoop_defined (s := s) (h := 0) (fun r hr => (hgood r hr).defined hs)
    have hv' : heuristic rs s = some v := hv
    refine ⟨fun hso => ?_, fun hno => ?_⟩
    · have hadm : ∀ π, LiveVia t c.unreachable s π → ∃ n, heuristic rs s = some (some n) ∧ n ≤ t.planCost π := by
        intro π hπ
        have hall : ∀ rs : List Repr, (∀ r ∈ rs, Good t c.unreachable r) → ∀ h0, h0 ≤ t.planCost π → ∃ n, heuristicLoop s rs h0 = some (some n) ∧ n ≤ t.planCost π := by
          intro rs
          induction rs with
          | nil => intro _ h0 hle; exact ⟨h0, rfl, hle⟩
          | cons r rs ih =>
            intro hg h0 hle
            obtain ⟨n, h1, h2, h3⟩ := (hg r (by simp)).admissible ht.wf hπ
            simp only [heuristicLoop, h1]
            rw [if_neg (by omega)]
            exact ih (fun r hr => hg r (by simp [hr])) _ (by omega)
        exact hall rs hgood 0 (by omega)
      obtain ⟨π, g1, g2, g3⟩ := hso
      obtain ⟨n, g4, g5⟩ := hadm π ⟨hs, g1, g2, g3⟩
      obtain ⟨π0, g6, g7⟩ := hexact n g4
      have hmin : ∀ π', t.SolvesFrom s π' → n ≤ t.planCost π' := by
        intro π' hπ'
        by_cases hle : t.planCost π' ≤ t.planCost π
        · obtain ⟨n', k1, k2⟩ := hadm π' ⟨hs, hπ', Nat.lt_of_le_of_lt hle g2, fun hU => by
            obtain ⟨ρ, k3, k4⟩ := g3 hU
            exact ⟨ρ, k3, by show _ < infinity; omega⟩⟩
          rw [g4] at k1
          simp only [Option.some.injEq] at k1
          omega
        · omega
      have heq : t.planCost π0 = n := Nat.le_antisymm g7 (hmin π0 g6)
      exact ⟨n, π0, g4, ⟨g6, fun π' hπ' => heq ▸ hmin π' hπ'⟩, heq⟩
    · cases v with
      | none => exact hv'
      | some n =>
        obtain ⟨π, g1, _⟩ := hexact n hv'
        exact absurd g1 (hno π)

/-! ### an example that is run inside the kernel -/

/-- the initial distances are not computed, the goal distances are, with general costs and a limit on the number of iterations -/
def bothFuel (H : StdHeap Nat) (fuel : Nat) (T : TS) (ci cg : Bool) : Option Distances :=
  if ci = false ∧ cg = true then
    match goalFuel H fuel T with
    | none => none
    | some ds => some ⟨none, some ds⟩
  else none

theorem bothFuel_sound {H : StdHeap Nat} {fuel : Nat} {T : TS} {ci cg : Bool} {d : Distances} (h : bothFuel H fuel T ci cg = some d) : computeBoth H T ci cg = some d := by
  unfold bothFuel at h
  split at h
  · rename_i hc
    obtain ⟨rfl, rfl⟩ := hc
    split at h
    · simp at h
    · rename_i ds hds
      obtain ⟨h1, h2⟩ := goalFuel_sound hds
      simp only [computeBoth, Bool.or_true, if_true, computeDistances, if_neg h1, computeIf, h2, Bool.false_eq_true, if_false, Option.map_some]
      exact h
  · simp at h

section
variable (O : HashOrder) (H : StdHeap Nat) (fuel : Nat)

def atomicFuel (t : Task) (ci cg : Bool) (v : Nat) : Option (Option Factor) :=
  match t.vars[v]?, atomic t v with
  | some d, some T =>
    match bothFuel H fuel T ci cg with
    | none => none
    | some dist => some (some ⟨T, Repr.newLeaf v d.domain, dist⟩)
  | _, _ => none

def createFuel (t : Task) (ci cg : Bool) : Option FTS :=
  match mapAll (atomicFuel H fuel t ci cg) (List.range t.vars.length) with
  | none => none
  | some fs => some ⟨createLabels t, fs, ci, cg⟩

def mergeFuel (F : FTS) (i j : Nat) : Option FTS :=
  if i = j then none
  else
    match F.factor i, F.factor j with
    | some f, some g =>
      match f.ts.merge O F.labels g.ts with
      | none => none
      | some T =>
        match bothFuel H fuel T F.ci F.cg with
        | none => none
        | some d => some { F with factors := ((F.factors.set i none).set j none) ++ [some ⟨T, f.repr.newMerge g.repr, d⟩] }
    | _, _ => none

/-- distances are kept -/
def abstractKeep (rel : List (List Nat)) (ci cg : Bool) (d : Distances) : Option Distances :=
  match newIf ci d.init rel, newIf cg d.goal rel with
  | some (some i), some (some g) => some ⟨if ci then some i else none, if cg then some g else none⟩
  | _, _ => none

def factorKeep (f : Factor) (rel : List (List Nat)) (ci cg : Bool) : Option Factor :=
  if rel.length = f.ts.size then some f
  else
    match abstractionMapping f.ts.size rel with
    | none => none
    | some m =>
      match f.ts.applyAbstraction rel m with
      | none => none
      | some T =>
        match abstractKeep rel ci cg f.dist, f.repr.applyAbstraction m with
        | some d, some r => some ⟨T, r, d⟩
        | _, _ => none

def shrinkKeep (S : TS → Distances → Nat → Option (List (List Nat))) (F : FTS) (i newSize threshold : Nat) : Option FTS :=
  match F.factor i with
  | none => none
  | some f =>
    if f.ts.size > min newSize threshold then
      match S f.ts f.dist newSize with
      | none => none
      | some rel =>
        match factorKeep f rel F.ci F.cg with
        | none => none
        | some f => some { F with factors := F.factors.set i (some f) }
    else some F

def stepKeep (S1 S2 : TS → Distances → Nat → Option (List (List Nat))) (maxStates before threshold : Nat) (F : FTS) (i j : Nat) : Option FTS :=
  match F.factor i, F.factor j with
  | some f, some g =>
    match shrinkSizes f.ts.size g.ts.size before maxStates with
    | none => none
    | some (n1, n2) =>
      match shrinkKeep S1 F i n1 threshold with
      | none => none
      | some F => shrinkKeep S2 F j n2 threshold
  | _, _ => none

/-- iterations without pruning -/
def iterFuel (c : Config) (n k : Nat) (F : FTS) : Option (FTS × Bool) :=
  if (c.unreachable || c.irrelevant) = false ∧ ∀ p ∈ [0, 1, 2, 3, 4, 5], c.expired k p = false then
    match reduceIf O c (·.beforeShrinking) n (c.pair k F) F with
    | none => none
    | some F1 =>
      match stepKeep (c.shrink1 k) (c.shrink2 k) c.maxStates c.before c.threshold F1 (c.pair k F).1 (c.pair k F).2 with
      | none => none
      | some F2 =>
        match reduceIf O c (·.beforeMerging) n (c.pair k F) F2 with
        | none => none
        | some F3 =>
          match mergeFuel O H fuel F3 (c.pair k F).1 (c.pair k F).2 with
          | none => none
          | some F4 =>
            match F4.solvable F3.factors.length with
            | some true => some (F4, true)
            | _ => none
  else none

def loopFuel (c : Config) (n : Nat) : Nat → Nat → FTS → Option FTS
  | 0, _, _ => none
  | steps + 1, k, F =>
    if 1 < F.numActive then
      match iterFuel O H fuel c n k F with
      | some (F, true) => loopFuel c n steps (k + 1) F
      | _ => none
    else some F

def perfectProbe (c : Config) (t : Task) : Option (List Repr) :=
  if t.axioms.isEmpty && c.timed && !(c.unreachable || c.irrelevant) then
    match createFuel H fuel t c.ci c.cg with
    | none => none
    | some F =>
      if (List.range F.factors.length).all (fun i => F.solvable i == some true) then
        match loopFuel O H fuel c t.vars.length fuel 0 F with
        | none => none
        | some F =>
          match unsolvableFactor (F.factors.filterMap id) with
          | some none => mapAll (fun f => match f.dist.goal with | some ds => f.repr.setDistances ds | none => none) ((F.factors.filterMap id).filter (fun f => !f.trivial))
          | _ => none
      else none
  else none

end

section
variable {O : HashOrder} {H : StdHeap Nat} {fuel : Nat}

theorem createFuel_sound {t : Task} {ci cg : Bool} {F : FTS} (h : createFuel H fuel t ci cg = some F) : createFts H t ci cg = some F := by
  unfold createFuel at h
  split at h
  · simp at h
  · rename_i fs hfs
    unfold createFts
    rw [mapAll_mono (g := atomicFactor H t ci cg) (fun v o ho => ?_) hfs]
    · exact h
    · unfold atomicFuel at ho
      unfold atomicFactor
      split at ho
      · rename_i d T hd hT
        rw [hd, hT]
        split at ho
        · simp at ho
        · rename_i dist hdist
          simp only [bothFuel_sound hdist]
          exact ho
      · simp at ho

theorem mergeFuel_sound {F F' : FTS} {i j : Nat} (h : mergeFuel O H fuel F i j = some F') : F.merge O H i j = some F' := by
  unfold mergeFuel at h
  unfold FTS.merge
  split at h
  · simp at h
  · rename_i hij
    rw [if_neg hij]
    split at h
    · rename_i f g hf hg
      rw [hf, hg]
      split at h
      · simp at h
      · rename_i T hT
        split at h
        · simp at h
        · rename_i d hd
          simp only [mergeFactors, hT, bothFuel_sound hd]
          exact h
    · simp at h

theorem shrinkKeep_sound {S : TS → Distances → Nat → Option (List (List Nat))} {F F' : FTS} {i n thr : Nat} (hflag : F.cg = true) (h : shrinkKeep S F i n thr = some F') : F.shrinkFactor H S i n thr = some F' ∧ F'.cg = true := by
  unfold shrinkKeep at h
  unfold FTS.shrinkFactor
  split at h
  · simp at h
  · rename_i f hf
    rw [hf]
    simp only
    split at h
    · rename_i hsz
      rw [if_pos hsz]
      split at h
      · simp at h
      · rename_i rel hrel
        rw [hrel]
        simp only [FTS.applyAbstraction, hf]
        split at h
        · simp at h
        · rename_i f' hf'
          have : f.applyAbstraction H rel F.ci F.cg = some f' := by
            unfold factorKeep at hf'
            unfold Factor.applyAbstraction
            split at hf'
            · rename_i hl
              rw [if_pos hl]
              exact hf'
            · rename_i hl
              rw [if_neg hl]
              split at hf'
              · simp at hf'
              · rename_i m hm
                rw [hm]
                simp only
                split at hf'
                · simp at hf'
                · rename_i T hT
                  rw [hT]
                  simp only
                  split at hf'
                  · rename_i d r hd hr
                    rw [hr]
                    have : abstractDistances H T rel F.ci F.cg f.dist = some d := by
                      unfold abstractDistances
                      rw [if_pos (by simp [hflag])]
                      unfold Distances.applyAbstraction
                      unfold abstractKeep at hd
                      split at hd
                      · rename_i i g h1 h2
                        rw [h1, h2]
                        exact hd
                      · simp at hd
                    rw [this]
                    exact hf'
                  · simp at hf'
          rw [this]
          simp only [Option.some.injEq] at h ⊢
          exact ⟨h, by rw [← h]; exact hflag⟩
    · rename_i hsz
      rw [if_neg hsz]
      simp only [Option.some.injEq] at h
      exact ⟨by rw [h], by rw [← h]; exact hflag⟩

theorem stepKeep_sound {S1 S2 : TS → Distances → Nat → Option (List (List Nat))} {F F' : FTS} {m b thr i j : Nat} (hflag : F.cg = true) (h : stepKeep S1 S2 m b thr F i j = some F') : F.shrinkStep H S1 S2 m b thr i j = some F' := by
  unfold stepKeep at h
  unfold FTS.shrinkStep
  split at h
  · rename_i f g hf hg
    rw [hf, hg]
    simp only
    split at h
    · simp at h
    · rename_i n1 n2 hn
      rw [hn]
      simp only
      split at h
      · simp at h
      · rename_i F1 h1
        obtain ⟨h2, h3⟩ := shrinkKeep_sound (H := H) hflag h1
        rw [h2]
        exact (shrinkKeep_sound h3 h).1
  · simp at h

/-- the flag does not change -/
theorem reduceAt_cg {F F' : FTS} {i : Nat} {b : Bool} (h : F.reduceAt O i = some (F', b)) : F'.cg = F.cg := by
  unfold FTS.reduceAt at h
  split at h
  · simp at h
  · split at h
    · simp at h
    · simp only [Option.some.injEq, Prod.mk.injEq] at h
      rw [h.1]
    · simp only [Option.map_eq_some_iff, Prod.mk.injEq] at h
      obtain ⟨F1, h1, rfl, _⟩ := h
      unfold FTS.applyLabelMapping at h1
      split at h1
      · simp at h1
      · split at h1
        · simp at h1
        · simp only [Option.some.injEq] at h1
          rw [← h1]

theorem reduceIf_cg {c : Config} {b : Reduction → Bool} {n : Nat} {pair : Nat × Nat} {F F' : FTS} (hF : F.cg = true) (h : reduceIf O c b n pair F = some F') : F'.cg = true := by
  unfold reduceIf at h
  split at h
  · simp only [Option.some.injEq] at h
    exact h ▸ hF
  · split at h
    · exact reduce_closed (P := fun F => F.cg = true) (fun {F F' i b} hP hr => by rw [reduceAt_cg hr]; exact hP) hF h
    · simp only [Option.some.injEq] at h
      exact h ▸ hF

theorem mergeFuel_cg {F F' : FTS} {i j : Nat} (h : mergeFuel O H fuel F i j = some F') : F'.cg = true := by
  unfold mergeFuel at h
  split at h
  · simp at h
  · split at h
    · split at h
      · simp at h
      · split at h
        · simp at h
        · rename_i d hd
          unfold bothFuel at hd
          split at hd
          · rename_i hc
            simp only [Option.some.injEq] at h
            rw [← h]
            exact hc.2
          · simp at hd
    · simp at h

theorem iterFuel_sound {c : Config} {n k : Nat} {F F' : FTS} {b : Bool} (hF : F.cg = true) (h : iterFuel O H fuel c n k F = some (F', b)) : iteration O H c n k F = some (F', b) ∧ F'.cg = true := by
  unfold iterFuel at h
  split at h
  · rename_i hc
    obtain ⟨h0, hexp⟩ := hc
    split at h
    · simp at h
    · rename_i F1 h1
      split at h
      · simp at h
      · rename_i F2 h2
        split at h
        · simp at h
        · rename_i F3 h3
          split at h
          · simp at h
          · rename_i F4 h4
            split at h
            · rename_i h5
              simp only [Option.some.injEq, Prod.mk.injEq] at h
              obtain ⟨rfl, rfl⟩ := h
              have hcg := reduceIf_cg hF h1
              refine ⟨?_, mergeFuel_cg h4⟩
              unfold iteration
              rw [if_neg (by simp [hexp 0 (by simp)]), h1]
              simp only [shrinkMerge]
              rw [if_neg (by simp [hexp 1 (by simp)]), stepKeep_sound hcg h2]
              simp only [reduceMerge]
              rw [if_neg (by simp [hexp 2 (by simp)]), h3]
              simp only [mergeStep]
              rw [if_neg (by simp [hexp 3 (by simp)]), mergeFuel_sound h4]
              simp only [afterMerge]
              rw [if_neg (by simp [hexp 4 (by simp)])]
              simp only [pruneIf, h0, Bool.false_eq_true, if_false, h5, hexp 5 (by simp), Bool.not_false]
            · simp at h
  · simp at h

theorem loopFuel_sound {c : Config} {n : Nat} : ∀ {steps k : Nat} {F F' : FTS}, F.cg = true → loopFuel O H fuel c n steps k F = some F' → mainLoop O H c n k F = some F'
  | 0, k, F, F', _, h => by simp [loopFuel] at h
  | steps + 1, k, F, F', hF, h => by
    rw [mainLoop]
    simp only [loopFuel] at h
    split at h
    · rename_i hn
      rw [if_pos hn]
      split at h
      · rename_i F1 hi
        obtain ⟨h1, h2⟩ := iterFuel_sound hF hi
        rw [h1]
        exact loopFuel_sound h2 h
      · simp at h
    · rename_i hn
      rw [if_neg hn]
      exact h

theorem perfectProbe_sound {c : Config} {t : Task} (hcg : c.cg = true) {rs : List Repr} (h : perfectProbe O H fuel c t = some rs) : construct O H c t = some rs := by
  unfold perfectProbe at h
  split at h
  · rename_i hc
    simp only [Bool.and_eq_true, Bool.not_eq_true'] at hc
    obtain ⟨⟨hax, ht⟩, hpr⟩ := hc
    split at h
    · simp at h
    · rename_i F hF
      split at h
      · rename_i hall
        split at h
        · simp at h
        · rename_i F2 hm
          have hFcg : F.cg = true := by
            unfold createFuel at hF
            split at hF
            · simp at hF
            · simp only [Option.some.injEq] at hF
              rw [← hF]
              exact hcg
          have hprune : ∀ is : List Nat, (∀ i ∈ is, F.solvable i = some true) → pruneAtomic H c is F = some (F, false) := by
            intro is
            induction is with
            | nil => intro _; rfl
            | cons i is ih =>
              intro hi
              simp only [pruneAtomic, pruneIf, hpr, Bool.false_eq_true, if_false, hi i (by simp)]
              exact ih (fun j hj => hi j (by simp [hj]))
          have hb : build O H c t = some F2 := by
            unfold build
            rw [if_pos hax, createFuel_sound hF]
            simp only [hprune (List.range F.factors.length) (fun i hi => by simpa using List.all_eq_true.mp hall i hi), ht]
            exact loopFuel_sound hFcg hm
          unfold construct
          rw [hb]
          simp only [extract]
          split at h
          · rename_i hu
            rw [hu]
            refine mapAll_mono (fun f r hr => ?_) h
            unfold extractFactor
            split at hr
            · rename_i ds hds
              rw [hds]
              exact hr
            · simp at hr
          · simp at h
      · simp at h
  · simp at h

end

namespace PerfectExample

/-- three variables without conditional effects: two packages, either of which can be carried to the goal, and a counter -/
def task : Task where
  vars := [⟨3, none, 0⟩, ⟨2, none, 0⟩, ⟨2, none, 0⟩]
  ops := [⟨[⟨0, 0⟩], [⟨[], ⟨0, 1⟩⟩], 2⟩, ⟨[⟨0, 0⟩], [⟨[], ⟨0, 2⟩⟩], 2⟩, ⟨[⟨0, 1⟩, ⟨1, 0⟩], [⟨[], ⟨1, 1⟩⟩], 3⟩, ⟨[⟨0, 2⟩, ⟨1, 0⟩], [⟨[], ⟨1, 1⟩⟩], 3⟩, ⟨[⟨1, 1⟩], [⟨[], ⟨2, 1⟩⟩, ⟨[], ⟨1, 0⟩⟩], 4⟩]
  axioms := []
  init := [0, 0, 0]
  goal := [⟨2, 1⟩, ⟨1, 1⟩]

def config : Config where
  needsInit := false
  needsGoal := true
  unreachable := false
  irrelevant := false
  reduction := some ⟨true, true, .fixpoint, .regular⟩
  maxStates := 100
  before := 100
  threshold := 1
  timed := true
  pair k _ := if k = 0 then (0, 1) else (2, 3)
  shrink1 _ T d n := shrinkBisimulation false .return T d n
  shrink2 _ T d n := shrinkBisimulation false .return T d n
  expired _ _ := false

theorem mas : MasTask task := ⟨taskOK_wf (by decide), by decide, by decide⟩
theorem plain : PlainTask task := ⟨by decide, by decide, by decide, by decide⟩
theorem solves : task.SolvesFrom [0, 0, 0] [0, 2, 4, 2] := execOK_spec mas.wf _ _ mas.wf.init (by decide)

/-- the hypotheses of C66_perfect are met, and shrinking takes place: values 1 and 2 of the first variable are combined -/
example : config.Bisimulates .return ∧ Solvable task false task.init ∧ numStates task ≤ 100 ∧
    ∃ rs, construct exOrder (insertHeap Nat) config task = some rs ∧ heuristic rs [0, 0, 0] = some (some 12) ∧ heuristic rs [2, 1, 0] = some (some 7) := by
  refine ⟨fun _ _ _ _ => ⟨rfl, rfl⟩, ⟨_, solves, by decide, by simp⟩, by decide, ?_⟩
  have h : (perfectProbe exOrder (insertHeap Nat) 50 config task).map (fun rs => [[0, 0, 0], [2, 1, 0]].map (heuristic rs)) = some [some (some 12), some (some 7)] := by decide +kernel
  obtain ⟨rs, h1, h2⟩ := Option.map_eq_some_iff.mp h
  simp only [List.map_cons, List.map_nil, List.cons.injEq, and_true] at h2
  exact ⟨rs, perfectProbe_sound rfl h1, h2.1, h2.2⟩

end PerfectExample

end Verif.Mas
