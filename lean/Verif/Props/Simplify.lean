import Verif.Lemmas.SimplifyValid
import Verif.Lemmas.SasCheck
import Verif.Lemmas.SimpleTask
import Verif.Lemmas.AxiomTask
import Verif.Lemmas.RegistryOps

/-
C67: simplification of translator output (src/translate/simplify.py) keeps the plans of a task.
-/
namespace Verif.Simplify
open Verif.SasFile

/-- **C67**: For every task of the translator, `filter_unreachable_propositions` raises no exception other than those for tasks that are unsolvable or already solved:
it reports that the task is impossible only if it has no plan, and that it is trivially solvable only if the empty plan solves it.  Otherwise the new task has the same plans:
each of its plans is, with names and costs, a plan of the given task, and from each plan of the given task a plan of the new one results by leaving out operators that have no effect.
With --keep-no-ops nothing is left out. -/
theorem C67_plans {T : SasTask} (hT : T.Valid) (hC : T.Canonical) (hK : T.NoKeepingEffects) (keep : Bool) :
    match filterUnreachable keep T with
    | .error => False
    | .impossible => ∀ p, ¬ T.HasPlan p
    | .trivial => T.HasPlan []
    | .simplified T' => (∀ p, T'.HasPlan p → T.HasPlan p) ∧ ∀ p, T.HasPlan p → ∃ p', p'.Sublist p ∧ T'.HasPlan p' ∧ (keep = true → p' = p) := by
  obtain ⟨R, hG, ⟨⟨g, hg, hgr⟩, h⟩ | ⟨hg, h⟩ | ⟨T', h, hN⟩⟩ := filterUnreachable_cases hT hC keep
  · simp only [h]
    rintro p ⟨s, π, hs, ⟨u, hu, hgoal⟩, _⟩
    have hw := within_exec hT hC hu (within_stable hT (within_init hT) hs)
    exact hgr (hw.2 _ _ (hgoal g hg))
  · simp only [h]
    have hvs : T.task.ValidState T.init := by
      refine ⟨by simp [SasTask.task, hT.init], fun v x d hx hd => ?_⟩
      obtain ⟨y, hy, hlt⟩ := hT.initOk v x hx
      obtain ⟨w, i, h1, _, rfl⟩ := task_var.mp hd
      rw [hy, Option.some.injEq] at h1
      rw [← h1]
      exact hlt
    obtain ⟨s, hs⟩ := exists_stable hT T.init hvs
    have hw := within_stable hT (within_init hT) hs
    refine ⟨s, [], hs, ⟨s, .nil s, fun g hgm => ?_⟩, rfl⟩
    obtain ⟨h1, h2⟩ := hg g hgm
    obtain ⟨x, hx, _⟩ := hT.goal.1 g hgm
    obtain ⟨y, hy⟩ := removed hG hx h2
    have e0 := List.getElem?_eq_getElem (show g.var < s.length by rw [hw.1]; exact (List.getElem?_eq_some_iff.mp hx).1)
    have e1 := (hy _).mp (hw.2 _ _ e0)
    have e2 := (hy _).mp h1
    show s[g.var]? = some g.val
    rw [e0, e1, e2]
  · simp only [h]
    have hsim := hN.sim hT hC hK hG
    refine ⟨?_, ?_⟩
    · rintro p ⟨s', π', hs', hp, hl⟩
      obtain ⟨s, π, h1, h2, h3⟩ := hsim.plan_back hs' hp
      exact ⟨s, π, h1, h2, (labels_back (hN.label hT hC hG) h3).trans hl⟩
    · rintro p ⟨s, π, hs, hp, hl⟩
      obtain ⟨s', h1, h2, h3⟩ := hsim.plan hs hp
      obtain ⟨p', h4, h5, h6⟩ := labels_fwd (hN.label hT hC hG) hl
      exact ⟨p', h4, ⟨s', _, h1, h2, h5⟩, fun hk => h6 (h3 (by simp [hk]))⟩

/-- **C67**: The new task is a valid task of the translator again (with --keep-no-ops, operators may have no effects), sorted as the given one. -/
theorem C67_valid {T T' : SasTask} (hT : T.Valid) (hC : T.Canonical) (keep : Bool) (h : filterUnreachable keep T = .simplified T') :
    T'.Canonical ∧ T'.NoKeepingEffects ∧ (keep = false → T'.Valid) := by
  obtain ⟨R, hG, ⟨_, h'⟩ | ⟨_, h'⟩ | ⟨T2, h', hN⟩⟩ := filterUnreachable_cases hT hC keep
  · rw [h] at h'; cases h'
  · rw [h] at h'; cases h'
  · rw [h, Outcome.simplified.injEq] at h'
    subst h'
    refine ⟨hN.canonical hT hC hG, hN.noKeeping hT hC hG, ?_⟩
    rintro rfl
    exact hN.valid hT hC hG

open Classical in
/-- the names of the values of a variable that can be reached -/
noncomputable def reachedNames (T : SasTask) (v : Nat) (x : SasVariable) : List (List Char) := (x.valueNames.zipIdx.filter (fun n => decide (T.Reached v n.2))).map (·.1)

/-- **C67**: The variables of the new task are those with at least two values that can be reached, in the old order and with the old layers; their values are the ones that can be reached, in the old order. -/
theorem C67_variables {T T' : SasTask} (hT : T.Valid) (hC : T.Canonical) (keep : Bool) (h : filterUnreachable keep T = .simplified T') :
    T'.variables = (T.variables.zipIdx.map (fun x => (⟨x.1.layer, reachedNames T x.2 x.1⟩ : SasVariable))).filter (fun y => decide (2 ≤ y.valueNames.length)) := by
  classical
  obtain ⟨R, hG, ⟨_, h'⟩ | ⟨_, h'⟩ | ⟨T2, h', hN⟩⟩ := filterUnreachable_cases hT hC keep
  · rw [h] at h'; cases h'
  · rw [h] at h'; cases h'
  · rw [h, Outcome.simplified.injEq] at h'
    subst h'
    rw [hN.vars, newVariables, List.filter_map, ← List.filterMap_eq_filter, List.map_filterMap]
    refine List.filterMap_congr (fun p hp => ?_)
    obtain ⟨x, v⟩ := p
    have hx := List.mem_zipIdx_iff_getElem?.mp hp
    simp only at hx
    obtain ⟨r, h1, hr⟩ := hG.row v x hx
    simp only [h1]
    cases hi : r.1 with
    | none =>
      obtain ⟨y, hy⟩ := removed hG hx (by simp [emb, h1, hi])
      have hle : (reachedNames T v x).length ≤ 1 := by
        unfold reachedNames
        rw [List.length_map]
        exact filter_unique_le (P := fun n => decide (T.Reached v n)) (y := y) (fun i h => (hy i).mp (of_decide_eq_true h)) _ _
      have : ¬ 2 ≤ (reachedNames T v x).length := by omega
      simp [newVariable, hi, Option.guard, this]
    | some k =>
      have hv : (emb T R).idx v = some k := by simp [emb, h1, hi]
      obtain ⟨x2, r2, g1, g2, g3, g4, g5⟩ := isValue_iff hG hv
      rw [hx, Option.some.injEq] at g1
      rw [h1, Option.some.injEq] at g2
      subst g1 g2
      have hnames : reachedNames T v x = ((x.valueNames.zip r.2).filter (fun p => isValue p.2)).map (·.1) := by
        unfold reachedNames
        refine (zip_filter_names (p := isValue) (P := fun n => decide (T.Reached v n)) g4 (fun i b hb => ?_)).symm
        simp only [Nat.zero_add]
        rw [Bool.eq_iff_iff, decide_eq_true_eq]
        exact g5 i b hb
      have h2 : 2 ≤ (reachedNames T v x).length := by
        have hget := newVariables_get hG hx h1 hi
        have := (newVariables_two hG (List.mem_of_getElem? hget)).1
        rw [hnames]
        exact this
      rw [hnames] at h2
      simp only [List.length_map] at h2
      simp [newVariable, hi, Option.guard, h2, hnames]

/-- **C67**: Every fact of the new task is a fact of the old one, with the same name: different facts are different facts, the initial state and the goal say the same about them,
and the same pairs of them are mutex. -/
theorem C67_facts {T T' : SasTask} (hT : T.Valid) (hC : T.Canonical) (keep : Bool) (h : filterUnreachable keep T = .simplified T') :
    ∃ old : Fact → Fact, (∀ f, FactOk T' f → FactOk T (old f) ∧ T.Reached (old f).var (old f).val ∧
        (T'.variables[f.var]?).bind (fun x => x.valueNames[f.val]?) = (T.variables[(old f).var]?).bind (fun x => x.valueNames[(old f).val]?)) ∧
      (∀ f g, FactOk T' f → FactOk T' g → old f = old g → f = g) ∧
      (∀ f, FactOk T' f → (T'.init[f.var]? = some f.val ↔ T.init[(old f).var]? = some (old f).val)) ∧
      (∀ f, FactOk T' f → (f ∈ T'.goal ↔ old f ∈ T.goal)) ∧
      ∀ f g, FactOk T' f → FactOk T' g → (T'.Mutex f g ↔ T.Mutex (old f) (old g)) := by
  classical
  obtain ⟨R, hG, ⟨_, h'⟩ | ⟨_, h'⟩ | ⟨T2, h', hN⟩⟩ := filterUnreachable_cases hT hC keep
  · rw [h] at h'; cases h'
  · rw [h] at h'; cases h'
  · rw [h, Outcome.simplified.injEq] at h'
    subst h'
    have hE := hN.ok hT hG
    refine ⟨fun f => if hf : FactOk T' f then (old_fact hG hN hf).choose else f, ?_, ?_, ?_, ?_, ?_⟩
    · intro f hf
      simp only [hf, dif_pos]
      obtain ⟨h1, h2, _, h4⟩ := (old_fact hG hN hf).choose_spec
      exact ⟨h1, h2, h4⟩
    · intro f g hf hg he
      simp only [hf, hg, dif_pos] at he
      obtain ⟨_, _, h3, _⟩ := (old_fact hG hN hf).choose_spec
      obtain ⟨_, _, h4, _⟩ := (old_fact hG hN hg).choose_spec
      rw [he, h4] at h3
      exact (Option.some.inj h3).symm
    · intro f hf
      simp only [hf, dif_pos]
      obtain ⟨h1, h2, h3, _⟩ := (old_fact hG hN hf).choose_spec
      generalize (old_fact hG hN hf).choose = a at *
      obtain ⟨x, hx, _⟩ := h1
      obtain ⟨d1, d2⟩ := Emb.img_some h3
      have e0 := List.getElem?_eq_getElem (show a.var < T.init.length by rw [hT.init]; exact (List.getElem?_eq_some_iff.mp hx).1)
      rw [hN.init _ _ _ d1 e0, d2, e0, Option.some.injEq, Option.some.injEq]
      exact ⟨fun h => rank_inj hG d1 (.init _ e0) h2 h, fun h => by rw [h]⟩
    · intro f hf
      simp only [hf, dif_pos]
      obtain ⟨h1, h2, h3, _⟩ := (old_fact hG hN hf).choose_spec
      generalize (old_fact hG hN hf).choose = a at *
      rw [hN.goal, List.mem_filterMap]
      constructor
      · rintro ⟨b, hb, hi⟩
        rw [hE.img_inj h2 (hN.goalD b hb) h3 hi]
        exact hb
      · exact fun ha => ⟨a, ha, h3⟩
    · intro f g hf hg
      simp only [hf, hg, dif_pos]
      obtain ⟨a1, a2, a3, _⟩ := (old_fact hG hN hf).choose_spec
      obtain ⟨b1, b2, b3, _⟩ := (old_fact hG hN hg).choose_spec
      generalize (old_fact hG hN hf).choose = a at *
      generalize (old_fact hG hN hg).choose = b at *
      obtain ⟨c1, c2⟩ := Emb.img_some a3
      obtain ⟨d1, d2⟩ := Emb.img_some b3
      have hvar : f.var = g.var ↔ a.var = b.var := by
        constructor
        · intro h
          rw [h] at c1
          exact idx_inj hG c1 d1
        · intro h
          rw [h, d1, Option.some.injEq] at c1
          exact c1.symm
      unfold SasTask.Mutex
      refine or_congr ?_ ?_
      · rw [hvar]
        refine and_congr_right (fun h => not_congr ?_)
        rw [c2, d2, ← h]
        rw [← h] at b2
        exact ⟨fun e => rank_inj hG c1 a2 b2 e, fun e => by rw [e]⟩
      · constructor
        · rintro ⟨hne, m', hm', h1, h2⟩
          obtain ⟨_, m, hm, _, h3⟩ := mem_newMutexes hT hG hN hm'
          obtain ⟨x, x1, x2, x3⟩ := (h3 f).mp h1
          obtain ⟨y, y1, y2, y3⟩ := (h3 g).mp h2
          rw [← hE.img_inj a2 x2 a3 x3] at x1
          rw [← hE.img_inj b2 y2 b3 y3] at y1
          exact ⟨fun h => hne (hvar.mpr h), m, hm, x1, y1⟩
        · rintro ⟨hne, m, hm, h1, h2⟩
          have hin : ∀ c c' : Fact, c ∈ m → T.Reached c.var c.val → (emb T R).img c = some c' → c' ∈ m.filterMap (fun f => (mutexFact R f).getD none) := by
            intro c c' hc hr hi
            refine List.mem_filterMap.mpr ⟨c, hc, ?_⟩
            rcases mutexFact_spec hG ((hT.mutexes m hm).1 c hc) with ⟨_, h⟩ | ⟨h, _⟩
            · rw [h]; exact hi
            · exact absurd hr h
          have hne' : f.var ≠ g.var := fun h => hne (hvar.mp h)
          have hf' := hin a f h1 a2 a3
          have hg' := hin b g h2 b2 b3
          refine ⟨hne', _, ?_, hf', hg'⟩
          rw [hN.mutexes, List.mem_filter]
          refine ⟨List.mem_map.mpr ⟨m, hm, rfl⟩, ?_⟩
          rw [decide_eq_true_eq]
          by_contra hlt
          have hsub : [f, g] ⊆ m.filterMap (fun f => (mutexFact R f).getD none) := by
            intro z hz
            simp only [List.mem_cons, List.not_mem_nil, or_false] at hz
            rcases hz with rfl | rfl
            · exact hf'
            · exact hg'
          have hnd : [f, g].Nodup := by
            simp only [List.nodup_cons, List.mem_singleton, List.not_mem_nil, not_false_eq_true, List.nodup_nil, and_true]
            exact fun h => hne' (by rw [h])
          have := (List.Nodup.subperm hnd hsub).length_le
          simp only [List.length_cons, List.length_nil] at this
          omega

/-! ### A task -/

/-- A robot in one of three rooms; the third one cannot be reached.  A door is open and remains so, and an alarm follows from the robot being in the second room.
`push` does nothing as the door is open, and `fly` starts in the third room. -/
def rooms : SasTask where
  «variables» := [⟨none, ["Atom at(r1)".toList, "Atom at(r3)".toList, "Atom at(r2)".toList]⟩, ⟨none, ["Atom open()".toList, "NegatedAtom open()".toList]⟩,
    ⟨some 0, ["Atom alarm()".toList, "NegatedAtom alarm()".toList]⟩, ⟨none, ["Atom lamp()".toList, "NegatedAtom lamp()".toList]⟩]
  mutexes := [[⟨0, 0⟩, ⟨0, 1⟩, ⟨3, 1⟩], [⟨0, 1⟩, ⟨3, 0⟩]]
  init := [0, 0, 1, 1]
  goal := [⟨1, 0⟩, ⟨2, 0⟩]
  operators := [⟨"go r1 r2".toList, [⟨1, 0⟩], [⟨0, some 0, 2, []⟩], 4⟩, ⟨"push".toList, [⟨0, 2⟩], [⟨1, none, 0, []⟩], 1⟩,
    ⟨"fly".toList, [], [⟨0, some 1, 2, []⟩], 1⟩, ⟨"lamp".toList, [], [⟨3, none, 0, [⟨0, 0⟩, ⟨1, 0⟩]⟩], 2⟩]
  axioms := [⟨[⟨0, 2⟩, ⟨1, 0⟩], ⟨2, 0⟩⟩]
  metric := true

theorem rooms_valid : rooms.Valid := taskCheck_valid (by decide +kernel)
theorem rooms_canonical : rooms.Canonical := canonicalCheck_canonical (by decide +kernel)
theorem rooms_noKeeping : rooms.NoKeepingEffects := by decide +kernel

def roomsSmall : SasTask where
  «variables» := [⟨none, ["Atom at(r1)".toList, "Atom at(r2)".toList]⟩,
    ⟨some 0, ["Atom alarm()".toList, "NegatedAtom alarm()".toList]⟩, ⟨none, ["Atom lamp()".toList, "NegatedAtom lamp()".toList]⟩]
  mutexes := [[⟨0, 0⟩, ⟨2, 1⟩]]
  init := [0, 1, 1]
  goal := [⟨1, 0⟩]
  operators := [⟨"go r1 r2".toList, [], [⟨0, some 0, 1, []⟩], 4⟩, ⟨"lamp".toList, [], [⟨2, none, 0, [⟨0, 0⟩]⟩], 2⟩]
  axioms := [⟨[⟨0, 1⟩], ⟨1, 0⟩⟩]
  metric := true

def Outcome.isSimplified (o : Outcome) (T : SasTask) : Bool := match o with | .simplified T' => decide (T' = T) | _ => false

def Outcome.code (o : Outcome) : Nat := match o with | .error => 0 | .impossible => 1 | .trivial => 2 | .simplified _ => 3
theorem code_one {o : Outcome} (h : o.code = 1) : o = .impossible := by cases o <;> simp_all [Outcome.code]
theorem code_two {o : Outcome} (h : o.code = 2) : o = .trivial := by cases o <;> simp_all [Outcome.code]

theorem rooms_simplified : filterUnreachable false rooms = .simplified roomsSmall := by
  have h : (filterUnreachable false rooms).isSimplified roomsSmall = true := by decide +kernel
  unfold Outcome.isSimplified at h
  split at h
  · rename_i T' hT'
    rw [hT', of_decide_eq_true h]
  · cases h

/-- the theorems apply, so the plans with the robot going to the second room correspond -/
example : (∀ p, roomsSmall.HasPlan p → rooms.HasPlan p) ∧ roomsSmall.Valid ∧ roomsSmall.Canonical := by
  have h := C67_plans rooms_valid rooms_canonical rooms_noKeeping false
  rw [rooms_simplified] at h
  obtain ⟨h1, _, h3⟩ := C67_valid rooms_valid rooms_canonical false rooms_simplified
  exact ⟨h.1, h3 rfl, h1⟩

/-- the robot goes to the second room, and this is a plan of the given task, too -/
example : roomsSmall.HasPlan [("go r1 r2".toList, 4)] ∧ rooms.HasPlan [("go r1 r2".toList, 4)] := by
  have h := C67_plans rooms_valid rooms_canonical rooms_noKeeping false
  rw [rooms_simplified] at h
  have hwf : roomsSmall.task.WF := Search.axiomTaskOK_wf (by decide)
  obtain ⟨s, h1, h2, h3, _⟩ := Axioms.C09_axiom_evaluation hwf.ax hwf.init
  have h4 : Axioms.evaluate roomsSmall.task roomsSmall.task.init = some [0, 1, 1] := by decide +kernel
  rw [h4, Option.some.injEq] at h1
  subst h1
  have : roomsSmall.HasPlan [("go r1 r2".toList, 4)] := ⟨_, [0], h3, Search.execOK_spec hwf _ _ h2 (by decide +kernel), rfl⟩
  exact ⟨this, h.1 _ this⟩

/-- without the operator that leads to the second room there is no plan, and the simplification says so; if only the open door is needed, there is nothing to do -/
example : filterUnreachable false { rooms with operators := rooms.operators.drop 1, goal := [⟨0, 2⟩] } = .impossible ∧ filterUnreachable false { rooms with goal := [⟨1, 0⟩] } = .trivial := by
  have h : ((filterUnreachable false { rooms with operators := rooms.operators.drop 1, goal := [⟨0, 2⟩] }).code = 1 ∧ (filterUnreachable false { rooms with goal := [⟨1, 0⟩] }).code = 2) := by decide +kernel
  exact ⟨code_one h.1, code_two h.2⟩

/-! ### Effects that keep a value -/

/-- An operator with the precondition v=1 and two effects on v with the same condition: v=0, and v=1, which wins as it comes last. -/
def clash : SasTask where
  «variables» := [⟨none, ["Atom p()".toList, "NegatedAtom p()".toList]⟩, ⟨none, ["Atom q()".toList, "NegatedAtom q()".toList]⟩]
  mutexes := []
  init := [1, 0]
  goal := [⟨0, 0⟩]
  operators := [⟨"op".toList, [], [⟨0, some 1, 0, [⟨1, 0⟩]⟩, ⟨0, some 1, 1, [⟨1, 0⟩]⟩], 1⟩, ⟨"flip".toList, [], [⟨1, none, 1, []⟩], 1⟩]
  axioms := []
  metric := false

def clashSmall : SasTask := { clash with operators := [⟨"op".toList, [], [⟨0, some 1, 0, [⟨1, 0⟩]⟩], 1⟩, ⟨"flip".toList, [], [⟨1, none, 1, []⟩], 1⟩] }

theorem base_stable {T : SasTask} {s s' : State} (h : ∀ v, T.task.layerOf v = none) : StableModel T.task s s' ↔ s' = s := by
  constructor
  · intro hs
    exact List.ext_getElem? (fun v => hs.base v (h v))
  · rintro rfl
    exact ⟨rfl, fun _ _ => rfl, fun f hf => absurd (h f.var) hf, fun v hv => absurd (h v) hv⟩

theorem clash_layers (v : Nat) : clash.task.layerOf v = none := by
  match v with
  | 0 => rfl
  | 1 => rfl
  | v + 2 => rfl

theorem clash_invariant {s u : State} {π : List Nat} (h : clash.task.Exec s π u) : (∃ b, s = [1, b]) → ∃ b, u = [1, b] := by
  induction h with
  | nil s => exact id
  | cons s i o s' π u ho ha hs _ ih =>
    rintro ⟨b, rfl⟩
    obtain ⟨m, h1, h2⟩ := hs
    rw [base_stable clash_layers] at h2
    subst h2
    refine ih ?_
    match i, ho with
    | 0, ho =>
      cases ho
      rw [Registry.effectResult_unique h1 (Registry.applyEffs_result _ _)]
      match b with
      | 0 => exact ⟨0, by decide⟩
      | b + 1 => exact ⟨b + 1, rfl⟩
    | 1, ho =>
      cases ho
      rw [Registry.effectResult_unique h1 (Registry.applyEffs_result _ _)]
      exact ⟨1, rfl⟩

/-- **C67** needs the condition on effects that keep a value: for this valid task, which has no plan, the simplified task has one. -/
theorem C67_keeping_effects : clash.Valid ∧ clash.Canonical ∧ filterUnreachable false clash = .simplified clashSmall ∧ (∀ p, ¬ clash.HasPlan p) ∧ clashSmall.HasPlan [("op".toList, 1)] := by
  refine ⟨taskCheck_valid (by decide +kernel), canonicalCheck_canonical (by decide +kernel), ?_, ?_, ?_⟩
  · have h : (filterUnreachable false clash).isSimplified clashSmall = true := by decide +kernel
    unfold Outcome.isSimplified at h
    split at h
    · rename_i T' hT'
      rw [hT', of_decide_eq_true h]
    · cases h
  · rintro p ⟨s, π, hs, ⟨u, hu, hg⟩, _⟩
    rw [base_stable clash_layers] at hs
    subst hs
    obtain ⟨b, rfl⟩ := clash_invariant hu ⟨0, rfl⟩
    have : Fact.holds ⟨0, 0⟩ [1, b] := hg _ (by decide)
    cases this
  · have hwf : clashSmall.task.WF := Search.taskOK_wf (by decide)
    refine ⟨clash.init, [0], (base_stable (T := clashSmall) clash_layers).mpr rfl, Search.execOK_spec hwf _ _ ?_ (by decide), rfl⟩
    exact hwf.init

end Verif.Simplify
