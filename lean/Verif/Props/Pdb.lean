import Verif.Lemmas.PdbTask
import Verif.Lemmas.ProjectTask
import Verif.Lemmas.AstarHeuristic
import Verif.Lemmas.SimpleTask

/-
C34, C35: pattern databases.
-/
namespace Verif.Pdb
open Verif.AdaptiveQueue Verif.Search

/-- C34: abstract states are numbered without gaps and collisions: there are as many numbers as assignments to the variables of the pattern; all
states get a number in this range; the values of the pattern can be read off the number; two states get the same number exactly if they agree on
the pattern; and every number is the number of a state. -/
theorem C34_ranking {t : Task} (hwf : t.WF) {P : List Nat} (hP : t.IsPattern P) {p : Proj} (h : project t P = .ok p) :
    p.n = t.numAbstractStates P ∧
    (∀ s, t.ValidState s → ∃ i, p.rank s = some i ∧ i < p.n ∧ ∀ j v, P[j]? = some v → p.unrank i j = s[v]?) ∧
    (∀ s s', t.ValidState s → t.ValidState s' → (p.rank s = p.rank s' ↔ ∀ v ∈ P, s[v]? = s'[v]?)) ∧
    (∀ i, i < p.n → ∃ s, t.ValidState s ∧ p.rank s = some i) := by
  have hax : t.axioms = [] := by
    by_contra hc
    simp [project, hc] at h
  have hcd : ∀ o ∈ t.ops, ∀ e ∈ o.effects, e.conds = [] := by
    by_contra hc
    have h2 : (t.ops.any (fun o => o.effects.any (fun e => decide (e.conds ≠ [])))) = true := by
      push Not at hc
      obtain ⟨o, ho, e, he, hne⟩ := hc
      exact List.any_eq_true.mpr ⟨o, ho, List.any_eq_true.mpr ⟨e, he, by simpa using hne⟩⟩
    unfold project at h
    rw [if_neg (by simp [hax]), if_pos h2] at h
    simp at h
  have hspec := project_spec (fun d hd => (hwf.domains d hd).1) hax hcd hP.range
  have hp : ProjOk t P p := by
    split at hspec
    · obtain ⟨p', h1, h2⟩ := hspec
      rw [h] at h1
      simp only [Build.ok.injEq] at h1
      rw [h1]; exact h2
    · rw [h] at hspec; simp at hspec
  have hrank := fun s hs => rank_eq hp hP.range (s := s) hs
  refine ⟨hp.n, ?_, ?_, ?_⟩
  · intro s hs
    have hv := vals_valid hP.range hs
    refine ⟨_, hrank s hs, enc_lt_n hp hv, fun j v hj => ?_⟩
    rw [unrank_eq hp, digits_enc hv, vals_getElem? hP.range hs hj]
  · intro s s' hs hs'
    rw [hrank s hs, hrank s' hs']
    simp only [Option.some.injEq]
    constructor
    · intro e v hv
      obtain ⟨j, hj⟩ := List.getElem?_of_mem hv
      have : vals P s = vals P s' := by rw [← digits_enc (vals_valid hP.range hs), e, digits_enc (vals_valid hP.range hs')]
      rw [← vals_getElem? hP.range hs hj, this, vals_getElem? hP.range hs' hj]
    · intro e
      have : vals P s = vals P s' := List.map_congr_left (fun v hv => by rw [e v hv])
      rw [this]
  · intro i hi
    rw [hp.n] at hi
    obtain ⟨s, h1, h2, _⟩ := exists_vals hwf hP (digits_valid hi) t.init hwf.init
    exact ⟨s, h1, by rw [hrank s h1, h2, enc_digits hi]⟩

/-- C34: overflows are detected: for a task without axioms and conditional effects, the construction fails with the message "Given pattern is too large!" if
the number of abstract states exceeds the int range, and succeeds otherwise (there is no undefined behaviour in between). -/
theorem C34_overflow {t : Task} (hwf : t.WF) (hax : t.axioms = []) (hc : ∀ o ∈ t.ops, ∀ e ∈ o.effects, e.conds = []) {P : List Nat} (hP : ∀ v ∈ P, v < t.vars.length) :
    if t.numAbstractStates P ≤ 2147483647 then ∃ p, project t P = .ok p else project t P = .tooLarge := by
  have hspec := project_spec (fun d hd => (hwf.domains d hd).1) hax hc hP
  split at hspec
  · rw [if_pos (by omega)]
    obtain ⟨p, h, _⟩ := hspec
    exact ⟨p, h⟩
  · rw [if_neg (by omega)]
    exact hspec

/-- everything about a pattern database -/
theorem pdb_spec (H : AdaptiveQueue.StdHeap Nat) {t : Task} (ht : t.PdbOk) {P : List Nat} (hP : t.IsPattern P) {costs : List Nat} (hcosts : costs = [] ∨ costs.length = t.ops.length) {C : Nat}
    (hC : ∀ i, t.costWith costs i ≤ C) (hsize : t.numAbstractStates P < 2 ^ 31) (hb : t.numAbstractStates P * C < 2 ^ 31 - 1) :
    ∃ db, computePdb H t P costs = .ok db ∧ (∀ s, t.ValidState s → ∃ v, db.heuristic s = some v ∧ (t.project P).PerfectValue (t.costWith costs) s v ∧ ∀ n, v = some n → n ≤ t.numAbstractStates P * C) ∧
      ∀ s s', t.ValidState s → t.ValidState s' → Agree P s s' → db.heuristic s = db.heuristic s' := by
  have hspec := project_spec (fun d hd => (ht.wf.domains d hd).1) ht.axioms ht.conds hP.range
  rw [if_pos hsize] at hspec
  obtain ⟨p, h1, hp⟩ := hspec
  have hn : p.n = t.numAbstractStates P := hp.n
  obtain ⟨ops, tree, dist, h2, h3, h4, h5⟩ := distances_spec H ht hP hp hcosts hC (by rw [hn]; exact hb)
  have hval : ∀ s, t.ValidState s → (⟨p, dist⟩ : Db).value s = some (dist (enc (P.map t.domain) (vals P s))) := by
    intro s hs
    have := enc_lt_n hp (vals_valid hP.range hs)
    simp only [Db.value, rank_eq hp hP.range hs, if_pos this]
  refine ⟨⟨p, dist⟩, by simp only [computePdb, h1, h2, h3, h4], ?_, ?_⟩
  · intro s hs
    obtain ⟨k1, k2⟩ := h5 s hs
    refine ⟨_, ?_, k1, ?_⟩
    · simp only [Db.heuristic, hval s hs]
      split <;> rfl
    · intro n hn'
      split at hn'
      · simp at hn'
      · rename_i hne
        simp only [Option.some.injEq] at hn'
        rw [← hn', ← hn]
        exact k2 hne
  · intro s s' hs hs' hag
    have : vals P s = vals P s' := List.map_congr_left (fun v hv => by rw [hag v hv])
    simp only [Db.heuristic, hval s hs, hval s' hs', this]

/-- C35: the value of a pattern database for a state is exactly the cost of a cheapest plan in the projection to the pattern ("dead end" if there is none),
for the costs of the task or any given operator costs. -/
theorem C35_value (H : AdaptiveQueue.StdHeap Nat) {t : Task} (ht : t.PdbOk) {P : List Nat} (hP : t.IsPattern P) {costs : List Nat} (hcosts : costs = [] ∨ costs.length = t.ops.length) {C : Nat}
    (hC : ∀ i, t.costWith costs i ≤ C) (hsize : t.numAbstractStates P < 2 ^ 31) (hb : t.numAbstractStates P * C < 2 ^ 31 - 1) :
    ∃ db, computePdb H t P costs = .ok db ∧ ∀ s, t.ValidState s → ∃ v, db.heuristic s = some v ∧ (t.project P).PerfectValue (t.costWith costs) s v := by
  obtain ⟨db, h1, h2, _⟩ := pdb_spec H ht hP hcosts hC hsize hb
  exact ⟨db, h1, fun s hs => by
    obtain ⟨v, k1, k2, _⟩ := h2 s hs
    exact ⟨v, k1, k2⟩⟩

/-- C35: the pattern database heuristic is goal-aware, consistent and admissible, and recognises only unsolvable states as dead ends. -/
theorem C35_heuristic (H : AdaptiveQueue.StdHeap Nat) {t : Task} (ht : t.PdbOk) {P : List Nat} (hP : t.IsPattern P) {costs : List Nat} (hcosts : costs = [] ∨ costs.length = t.ops.length) {C : Nat}
    (hC : ∀ i, t.costWith costs i ≤ C) (hsize : t.numAbstractStates P < 2 ^ 31) (hb : t.numAbstractStates P * C < 2 ^ 31 - 1) :
    ∃ db, computePdb H t P costs = .ok db ∧
      (∀ s, t.ValidState s → allHold t.goal s → db.heuristic s = some (some 0)) ∧
      (∀ s s' i o n, t.ValidState s → t.ops[i]? = some o → o.applicable s → t.SuccRel o s s' → db.heuristic s' = some (some n) → ∃ m, db.heuristic s = some (some m) ∧ m ≤ t.costWith costs i + n) ∧
      (∀ s π, t.ValidState s → t.SolvesFrom s π → ∃ n, db.heuristic s = some (some n) ∧ n ≤ (π.map (t.costWith costs)).sum) := by
  obtain ⟨db, h1, h2, h3⟩ := pdb_spec H ht hP hcosts hC hsize hb
  have hadm : ∀ s π, t.ValidState s → (t.project P).SolvesFrom s π → ∃ n, db.heuristic s = some (some n) ∧ n ≤ (π.map (t.costWith costs)).sum := by
    intro s π hs hπ
    obtain ⟨v, k1, k2, _⟩ := h2 s hs
    cases v with
    | none => exact absurd hπ (k2 π)
    | some n => exact ⟨n, k1, k2.2 π hπ⟩
  refine ⟨db, h1, ?_, ?_, ?_⟩
  · intro s hs hg
    obtain ⟨n, k1, k2⟩ := hadm s [] hs ⟨s, .nil s, fun f hf => hg f (List.mem_of_mem_filter hf)⟩
    simp only [List.map_nil, List.sum_nil, Nat.le_zero] at k2
    rw [k1, k2]
  · intro s s' i o n hs ho ha hsucc hn
    have hs' := succ_valid ht.wf hs ho ha hsucc
    obtain ⟨j1, s'', j2, j3, j4⟩ := proj_step ht.wf ht.axioms ht.conds ht.eff (P := P) (List.mem_of_getElem? ho) hs hs ha hsucc (fun _ _ => rfl)
    rw [h3 s' s'' hs' j2 j4] at hn
    obtain ⟨v, k1, k2, _⟩ := h2 s'' j2
    rw [hn] at k1
    simp only [Option.some.injEq] at k1
    subst k1
    obtain ⟨⟨π, ⟨u, k3, k4⟩, k5⟩, _⟩ := k2
    obtain ⟨m, k6, k7⟩ := hadm s (i :: π) hs ⟨u, .cons s i (o.project P) s'' π u (by rw [project_ops, ho]; rfl) j1 j3 k3, k4⟩
    refine ⟨m, k6, ?_⟩
    simp only [List.map_cons, List.sum_cons] at k7
    omega
  · intro s π hs hπ
    exact hadm s π hs (proj_solves_all ht.wf ht.axioms ht.conds ht.eff hs hs (fun _ _ => rfl) hπ)

theorem costWith_nil (t : Task) : t.costWith [] = t.opCost := by funext i; simp [Task.costWith]

theorem pdb_object {t : Task} (ht : t.PdbOk) {P : List Nat} {C : Nat} (hC : ∀ i, t.opCost i ≤ C) (hb : t.numAbstractStates P * C < 2 ^ 30) {db : Db}
    (hdb : ∀ s, t.ValidState s → ∃ v, db.heuristic s = some v ∧ (t.project P).PerfectValue (t.costWith []) s v ∧ ∀ n, v = some n → n ≤ t.numAbstractStates P * C) :
    AdmissibleObject t (fun _ : Unit => True) (fun s m => (db.heuristic s).map (fun v => (v, m))) := by
  intro s m hs _
  obtain ⟨v, h1, h2, h3⟩ := hdb s hs
  refine ⟨v, m, by simp [h1], trivial, fun n hn => ?_, fun π hπ => ?_⟩
  · have := h3 n hn
    omega
  · have hπ' := proj_solves_all ht.wf ht.axioms ht.conds ht.eff (P := P) hs hs (fun _ _ => rfl) hπ
    cases v with
    | none => exact absurd hπ' (h2 π)
    | some n => exact ⟨n, rfl, by have h4 := h2.2 π hπ'; rw [costWith_nil] at h4; exact h4⟩

/-- C35 and C23: A* with a pattern database heuristic, on a task whose costs fit into the C++ types, ends; it returns a plan of minimal cost if there is a plan, and fails
otherwise. -/
theorem C35_astar_pdb {t : Task} (ht : t.PdbOk) {P : List Nat} (hP : t.IsPattern P) {C : Nat} (hC : ∀ i, t.opCost i ≤ C) (hC' : C < 2 ^ 29) (hsize : t.numAbstractStates P < 2 ^ 31) (hb : t.numAbstractStates P * C < 2 ^ 30)
    (hfit : t.FitsTypes .normal) (H : AdaptiveQueue.StdHeap Nat) :
    ∃ db, computePdb H t P [] = .ok db ∧ ∃ hobj : AdmissibleObject t (fun _ : Unit => True) (fun s m => (db.heuristic s).map (fun v => (v, m))),
      ∀ (u : Nat → Nat → Bool) (H' : OpenList.StdHeap State) (rel : Nat → Bool) (rng : OpenList.Rng) (σ : { _m : Unit // True }),
        ∃ n, OptimalResult t (Eager.search (World.ofTask t u .normal) (objEnv hobj) H' rel ⟨true, 2147483647⟩ (.tiebreaking false false [1, 0]) rng σ n) := by
  obtain ⟨db, h1, h2, _⟩ := pdb_spec H ht hP (costs := []) (Or.inl rfl) (C := C) (fun i => by simpa [Task.costWith] using hC i) hsize (by omega)
  refine ⟨db, h1, pdb_object ht hC hb h2, fun u H' rel rng σ => ?_⟩
  exact astar_object (pdb_object ht hC hb h2) ht.wf hfit (fun i => Nat.lt_of_le_of_lt (hC i) hC') u H' rel rng σ

/-- `Dijkstra.loop` with a bound on the number of iterations, for examples -/
def loopFuel (H : AdaptiveQueue.StdHeap Nat) (n : Nat) (edges : Nat → Option (List (Int × Nat))) : Nat → Dijkstra.DSt → Option Dijkstra.DSt
  | 0, _ => none
  | k + 1, st =>
    if st.queue.empty then some st
    else
      match st.queue.pop H with
      | none => none
      | some (q, d, s) =>
        if d > st.dist s then loopFuel H n edges k { st with queue := q }
        else
          match edges s with
          | none => none
          | some es =>
            match Dijkstra.relax H n s es { st with queue := q } with
            | none => none
            | some st => loopFuel H n edges k st

theorem loopFuel_sound {H : AdaptiveQueue.StdHeap Nat} {n : Nat} {edges : Nat → Option (List (Int × Nat))} : ∀ {k : Nat} {st r : Dijkstra.DSt}, loopFuel H n edges k st = some r → Dijkstra.loop H n edges st = some r
  | 0, _, _, h => by simp [loopFuel] at h
  | k + 1, st, r, h => by
    unfold loopFuel at h
    rw [Dijkstra.loop]
    split at h
    · rename_i he; rw [if_pos he]; exact h
    · rename_i he
      rw [if_neg he]
      split at h
      · simp at h
      · rename_i q d s hpop
        rw [hpop]
        simp only
        split at h
        · rename_i hd; rw [if_pos hd]; exact loopFuel_sound h
        · rename_i hd
          rw [if_neg hd]
          split at h
          · simp at h
          · rename_i es hes
            rw [hes]
            simp only
            split at h
            · simp at h
            · rename_i st' hst
              rw [hst]
              exact loopFuel_sound h

/-- the heuristic value computed with at most `k` iterations, for examples -/
def probe (H : AdaptiveQueue.StdHeap Nat) (t : Task) (P costs : List Nat) (s : State) (k : Nat) : Option (Option Nat) :=
  match project t P with
  | .ok p =>
    match abstractOperators t p (toIndex P) costs with
    | none => none
    | some ops =>
      match matchTree t p ops with
      | none => none
      | some tree =>
        match initLoop H p (abstractGoals t (toIndex P)) (List.range p.n) ⟨fun _ => Dijkstra.inf, Queue.new⟩ with
        | none => none
        | some st =>
          match loopFuel H p.n (regress p ops tree) k st with
          | none => none
          | some st => (⟨p, st.dist⟩ : Db).heuristic s
  | _ => none

theorem probe_sound {H : AdaptiveQueue.StdHeap Nat} {t : Task} {P costs : List Nat} {s : State} {k : Nat} {v : Option Nat} (h : probe H t P costs s k = some v) :
    ∃ db, computePdb H t P costs = .ok db ∧ db.heuristic s = some v := by
  unfold probe at h
  split at h
  · rename_i p hp
    split at h
    · simp at h
    · rename_i ops hops
      split at h
      · simp at h
      · rename_i tree htree
        split at h
        · simp at h
        · rename_i st hst
          split at h
          · simp at h
          · rename_i st' hl
            exact ⟨⟨p, st'.dist⟩, by simp only [computePdb, hp, hops, htree, computeDistances, hst, loopFuel_sound hl], h⟩
  · simp at h

/-- Two variables with three values.  The first operator has a precondition and an effect on both variables, the second one has an effect without precondition, and changes
only the second variable. -/
def pdbTask : Task where
  vars := [⟨3, none, 0⟩, ⟨3, none, 0⟩, ⟨2, none, 0⟩]
  ops := [⟨[⟨0, 0⟩, ⟨1, 0⟩], [⟨[], ⟨0, 1⟩⟩, ⟨[], ⟨1, 2⟩⟩, ⟨[], ⟨2, 1⟩⟩], 5⟩, ⟨[⟨0, 1⟩], [⟨[], ⟨1, 1⟩⟩], 3⟩]
  axioms := []
  init := [0, 0, 0]
  goal := [⟨0, 1⟩, ⟨1, 1⟩, ⟨2, 1⟩]

theorem pdbTask_ok : pdbTask.PdbOk := by
  refine ⟨taskOK_wf (by decide), rfl, ?_, ?_, ?_, ?_⟩ <;> decide

theorem pdbTask_cost (i : Nat) : pdbTask.opCost i ≤ 5 := by
  match i with
  | 0 | 1 => decide
  | n + 2 => simp [Task.opCost, pdbTask]

/-- the hypotheses are met -/
example : pdbTask.IsPattern [0, 1] ∧ pdbTask.numAbstractStates [0, 1] = 9 ∧ pdbTask.FitsTypes .normal :=
  ⟨⟨by decide, by decide⟩, by decide, ⟨5, fun i => ⟨pdbTask_cost i, pdbTask_cost i⟩, by decide⟩⟩

/-- the values of the initial state and of a state after the first operator -/
example : ∃ db, computePdb (AdaptiveQueue.insertHeap Nat) pdbTask [0, 1] [] = .ok db ∧ db.heuristic [0, 0, 0] = some (some 8) := probe_sound (k := 20) (by decide +kernel)
example : ∃ db, computePdb (AdaptiveQueue.insertHeap Nat) pdbTask [0, 1] [] = .ok db ∧ db.heuristic [1, 2, 0] = some (some 3) := probe_sound (k := 20) (by decide +kernel)
/-- a dead end -/
example : ∃ db, computePdb (AdaptiveQueue.insertHeap Nat) pdbTask [0, 1] [] = .ok db ∧ db.heuristic [2, 2, 0] = some none := probe_sound (k := 20) (by decide +kernel)
/-- other costs -/
example : ∃ db, computePdb (AdaptiveQueue.insertHeap Nat) pdbTask [0, 1] [0, 1] = .ok db ∧ db.heuristic [0, 0, 0] = some (some 1) := probe_sound (k := 20) (by decide +kernel)

/-- an operator whose preconditions (second variable first) and effects are not in the same order, as it is read from an input file with a prevail condition and an effect
without precondition on the second variable -/
def misalignedTask : Task where
  vars := [⟨3, none, 0⟩, ⟨3, none, 0⟩]
  ops := [⟨[⟨1, 0⟩, ⟨0, 0⟩], [⟨[], ⟨0, 1⟩⟩, ⟨[], ⟨1, 2⟩⟩], 1⟩]
  axioms := []
  init := [0, 0]
  goal := [⟨0, 1⟩, ⟨1, 2⟩]

/-- C35 needs that preconditions and effects are mentioned in the same order (which the code only asserts): for a well-formed task without this property the initial state is
reported to be a dead end although there is a plan with one operator. -/
theorem C35_misaligned_fails : misalignedTask.WF ∧ (∀ o ∈ misalignedTask.ops, (o.pre.map (·.var)).Nodup ∧ (o.effects.map (·.fact.var)).Nodup) ∧ misalignedTask.IsPlan [0] ∧
    ∃ db, computePdb (AdaptiveQueue.insertHeap Nat) misalignedTask [0, 1] [] = .ok db ∧ db.heuristic misalignedTask.init = some none := by
  have hwf : misalignedTask.WF := taskOK_wf (by decide)
  exact ⟨hwf, by decide, execOK_spec hwf [0] _ hwf.init (by decide), probe_sound (k := 20) (by decide +kernel)⟩

end Verif.Pdb
