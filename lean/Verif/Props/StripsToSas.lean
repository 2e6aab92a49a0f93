import Verif.Lemmas.StripsValid
import Verif.Props.Simplify
import Verif.Props.VariableOrder

/-
C73: introducing finite-domain variables keeps the plans of a grounded task.
-/
namespace Verif.StripsToSas
open Verif.SasFile
open Verif.Strips

section
variable {α : Type} [DecidableEq α] {t : StripsTask α} {groups mutexGroups : List (List α)} {names : List (List (List Char))} {o : Options}

theorem trivial_layers (b : Bool) (v : Nat) : (trivialTask b).task.layerOf v = none := by
  unfold Task.layerOf
  cases v with
  | zero => rfl
  | succ v => rfl

theorem trivial_base (b : Bool) {m s : State} (h : StableModel (trivialTask b).task m s) : s = m := by
  refine List.ext_getElem? (fun v => h.base v (trivial_layers b v))

theorem trivial_exec (b : Bool) {s u : State} {π : List Nat} (h : (trivialTask b).task.Exec s π u) : π = [] ∧ u = s := by
  cases h with
  | nil => exact ⟨rfl, rfl⟩
  | cons _ _ _ _ _ _ h => simp [SasTask.task, trivialTask] at h

theorem trivial_plan (b : Bool) (p : List (List Char × Nat)) : (trivialTask b).HasPlan p ↔ b = true ∧ p = [] := by
  constructor
  · rintro ⟨s, π, hs, ⟨u, hu, hg⟩, hl⟩
    obtain ⟨rfl, rfl⟩ := trivial_exec b hu
    have hb := trivial_base b hs
    subst hb
    have hp : p = [] := by
      cases p with
      | nil => rfl
      | cons a p => simp at hl
    refine ⟨?_, hp⟩
    have := hg ⟨0, if b then 0 else 1⟩ (by simp [SasTask.task, trivialTask])
    unfold Fact.holds at this
    cases b with
    | true => rfl
    | false => simp [trivialTask] at this
  · rintro ⟨rfl, rfl⟩
    refine ⟨[0], [], ⟨rfl, fun _ _ => rfl, fun f hf => absurd (trivial_layers true f.var) hf, fun v hv => absurd (trivial_layers true v) hv⟩, ⟨[0], .nil _, ?_⟩, rfl⟩
    intro f hf
    simp only [SasTask.task, trivialTask, List.mem_singleton] at hf
    subst hf
    rfl

/-- **C73**: For a grounded task with layered axioms and for mutex groups that cover it, the translator produces a task with finite-domain variables.  Its plans are, with names and costs, plans of the grounded task; and
from each plan of the grounded task a plan of the new one results by leaving out actions, and none is left out with --keep-no-ops, unless the goal is empty. -/
theorem C73_plans (hs : t.Stratified) (hg : t.Groups groups mutexGroups) (hp : o.partialEncoding = true → Partition groups mutexGroups) (hn : Named groups names) :
    ∃ T, translateTask o groups mutexGroups names t = some T ∧ (∀ p, T.HasPlan p → t.HasPlan p) ∧
      ∀ p, t.HasPlan p → ∃ p', p'.Sublist p ∧ T.HasPlan p' ∧ (o.keepNoOps = true → t.goal ≠ [] → p' = p) := by
  obtain ⟨T, hT, ⟨rfl, hno⟩ | ⟨rfl, hgoal⟩ | hF⟩ := translateTask_cases (names := names) hs hg hp hn
  · refine ⟨_, hT, fun p hp => ?_, fun p hp => ?_⟩
    · obtain ⟨h, _⟩ := (trivial_plan false p).mp hp
      cases h
    · obtain ⟨s, as, u, hi, hrun, hgu, _⟩ := hp
      exact absurd hgu (hno u ⟨s, as, hi, hrun⟩)
  · refine ⟨_, hT, fun p hp => ?_, fun p _ => ⟨[], by simp, (trivial_plan true []).mpr ⟨rfl, rfl⟩, fun _ h => absurd hgoal h⟩⟩
    obtain ⟨_, rfl⟩ := (trivial_plan true p).mp hp
    exact ⟨_, [], _, completes hs _, .nil _, by simp [hgoal], rfl⟩
  · refine ⟨T, hT, fun p hp => hF.plan_sound hs hg hp, fun p hp => ?_⟩
    obtain ⟨p', h1, h2, h3⟩ := hF.plan_complete hs hg hp
    exact ⟨p', h2, h1, fun hk _ => h3 hk⟩

/-- **C73**: Facts that exclude each other according to the mutex groups of the new task are never true together in a state that can be reached by its operators. -/
theorem C73_mutexes (hs : t.Stratified) (hg : t.Groups groups mutexGroups) (hp : o.partialEncoding = true → Partition groups mutexGroups) (hn : Named groups names) {T : SasTask}
    (hT : translateTask o groups mutexGroups names t = some T) {x u : State} {π : List Nat} (hx : StableModel T.task T.init x) (hu : T.task.Exec x π u) {f g : Fact} (hm : T.Mutex f g) : ¬ (f.holds u ∧ g.holds u) := by
  rintro ⟨h1, h2⟩
  rcases hm with ⟨hv, hne⟩ | ⟨_, m, hmm, hf, hgm⟩
  · unfold Fact.holds at h1 h2
    rw [hv, h2, Option.some.injEq] at h1
    exact hne h1.symm
  · obtain ⟨T', hT', h⟩ := translateTask_cases (names := names) hs hg hp hn
    rw [hT, Option.some.injEq] at hT'
    subst hT'
    rcases h with ⟨rfl, _⟩ | ⟨rfl, _⟩ | hF
    · cases hmm
    · cases hmm
    · obtain ⟨s, hi, rfl⟩ := hF.init_unique hs hg hx
      obtain ⟨as, s', hrun, rfl, hr', _⟩ := hF.run_sound hs hg ⟨_, [], hi, .nil _⟩ hu
      obtain ⟨ms, hms, hall⟩ := mutexes_spec (o := o) (groups_nodup hg) hp
      have h0 := hF.mutexesEq
      rw [hms, Option.some.injEq] at h0
      subst h0
      obtain ⟨gr, hgr, r, hr, hmem, rfl⟩ := hall m hmm
      have hpair : ∀ {q : α} {f : Fact}, dictionary groups q = some [f] → f ∈ pairs groups q := by
        intro q f h
        unfold dictionary at h
        split at h
        · cases h
        · rw [Option.some.injEq] at h
          rw [h]
          simp
      obtain ⟨p, hpg, hpd⟩ := (hmem f).mp (mem_sortFacts.mp hf)
      obtain ⟨q, hqg, hqd⟩ := (hmem g).mp (mem_sortFacts.mp hgm)
      have hsp := ((rep hg hr').fact (hpair hpd)).mp h1
      have hsq := ((rep hg hr').fact (hpair hqd)).mp h2
      have := reachable_consistent' hg hr' gr hgr p hpg q hqg hsp hsq
      subst this
      rw [hpd, Option.some.injEq, List.cons.injEq] at hqd
      obtain ⟨rfl, _⟩ := hqd
      contradiction

/-- **C73**: The new task is valid, in the canonical form (without --add-implied-preconditions), and no effect leaves the variable at a value it has by a precondition. -/
theorem C73_valid (hs : t.Stratified) (hg : t.Groups groups mutexGroups) (hp : o.partialEncoding = true → Partition groups mutexGroups) (hn : Named groups names) {T : SasTask}
    (hT : translateTask o groups mutexGroups names t = some T) : T.NoKeepingEffects ∧ (o.addImplied = false → T.Canonical) ∧
      (o.keepNoOps = false → (∀ vs ∈ names, ∀ n ∈ vs, NameOk n) → (∀ a ∈ t.actions, NameOk a.name) → T.Fits → T.Valid) := by
  obtain ⟨T', hT', h⟩ := translateTask_cases (names := names) hs hg hp hn
  rw [hT, Option.some.injEq] at hT'
  subst hT'
  rcases h with ⟨rfl, _⟩ | ⟨rfl, _⟩ | hF
  · exact ⟨by simp [SasTask.NoKeepingEffects, trivialTask], fun _ => canonicalCheck_canonical (by decide +kernel), fun _ _ _ _ => taskCheck_valid (by decide +kernel)⟩
  · exact ⟨by simp [SasTask.NoKeepingEffects, trivialTask], fun _ => canonicalCheck_canonical (by decide +kernel), fun _ _ _ _ => taskCheck_valid (by decide +kernel)⟩
  · exact ⟨hF.noKeeping, fun ho => hF.canonical hs hg ho (hF.mutexes_sorted hg hp), fun ho h1 h2 h3 => hF.valid hs hg hp hn ho h1 h2 h3⟩

/-- **C73**: From the grounded task to the output: finite-domain variables are introduced, unreachable values are removed, and variables are ordered and filtered.  The plans stay the same, up to actions that can be left out. -/
theorem C73_pipeline (hs : t.Stratified) (hg : t.Groups groups mutexGroups) (hp : o.partialEncoding = true → Partition groups mutexGroups) (hn : Named groups names) (ho : o.addImplied = false) (hk : o.keepNoOps = false)
    (hnames : ∀ vs ∈ names, ∀ n ∈ vs, NameOk n) (hact : ∀ a ∈ t.actions, NameOk a.name) {T : SasTask} (hT : translateTask o groups mutexGroups names t = some T) (hfit : T.Fits) (reorder filter : Bool) :
    match Simplify.filterUnreachable false T with
    | .error => False
    | .impossible => ∀ p, ¬ t.HasPlan p
    | .trivial => t.HasPlan []
    | .simplified T' => ∃ T'', VarOrder.findAndApply reorder filter false T' = some T'' ∧ T''.Valid ∧ (∀ p, T''.HasPlan p → t.HasPlan p) ∧ ∀ p, t.HasPlan p → ∃ p', p'.Sublist p ∧ T''.HasPlan p' := by
  obtain ⟨h1, h2, h3⟩ := C73_valid hs hg hp hn hT
  have hV := h3 hk hnames hact hfit
  have hC := h2 ho
  obtain ⟨T0, hT0, hsound, hcomp⟩ := C73_plans (names := names) hs hg hp hn
  rw [hT, Option.some.injEq] at hT0
  subst hT0
  have h := Simplify.C67_plans hV hC h1 false
  cases hf : Simplify.filterUnreachable false T with
  | error => rw [hf] at h; exact h
  | impossible =>
    rw [hf] at h
    intro p hp
    obtain ⟨p', _, hp', _⟩ := hcomp p hp
    exact h p' hp'
  | trivial => rw [hf] at h; exact hsound _ h
  | simplified T' =>
    rw [hf] at h
    have hV' := (Simplify.C67_valid hV hC false hf).2.2 rfl
    obtain ⟨T'', _, hT'', _⟩ := VarOrder.C68_variables hV' reorder filter false
    obtain ⟨a1, a2⟩ := VarOrder.C68_plans hV' reorder filter false hT''
    refine ⟨T'', hT'', VarOrder.C68_valid hV' reorder filter hT'', fun p hp => ?_, fun p hp => ?_⟩
    · obtain ⟨p', _, h5, h6⟩ := a2 p hp
      rw [h6 rfl] at h5
      exact hsound _ (h.1 p h5)
    · obtain ⟨p1, b1, b2, _⟩ := hcomp p hp
      obtain ⟨p2, c1, c2, _⟩ := h.2 p1 b2
      obtain ⟨p3, d1, d2, _⟩ := a1 p2 c2
      exact ⟨p3, (d1.trans c1).trans b1, d2⟩

end

/-! ## A concrete task -/

/-- atoms 0 and 1 exclude each other; atom 4 is derived from 1; the action makes 1 true only if 2 is -/
def ex : StripsTask Nat where
  init := [0, 2]
  goal := [⟨false, 4⟩]
  actions := [⟨"go".toList, [⟨false, 0⟩], [([], ⟨true, 0⟩), ([⟨false, 2⟩], ⟨false, 1⟩), ([⟨true, 2⟩], ⟨true, 1⟩)], 3⟩, ⟨"lose".toList, [], [([], ⟨true, 2⟩)], 1⟩]
  axioms := [⟨[⟨false, 1⟩], 4⟩]
  layers := [(4, 0)]
  metric := true

theorem ex_derived (p : Nat) : ex.Derived p ↔ p = 4 := by simp [StripsTask.Derived, ex]

theorem ex_stratified : ex.Stratified where
  once := by decide
  heads := by
    intro r hr
    rw [ex_derived]
    simp only [ex, List.mem_singleton] at hr
    rw [hr]
  layered := by
    intro r hr l hl n m h1 h2
    simp only [ex, List.mem_singleton] at hr
    subst hr
    simp only [List.mem_singleton] at hl
    subst hl
    simp [ex] at h1
  effects := by
    intro a ha e he
    rw [ex_derived]
    simp only [ex, List.mem_cons, List.not_mem_nil, or_false] at ha
    rcases ha with rfl | rfl <;> simp only [List.mem_cons, List.not_mem_nil, or_false] at he
    · rcases he with rfl | rfl | rfl <;> decide
    · rw [he]
      decide
  init := by
    intro p hp
    rw [ex_derived]
    simp only [ex, List.mem_cons, List.not_mem_nil, or_false] at hp
    omega

/-- 0 and 1 are never true together -/
theorem ex_mutex {s : Nat → Prop} (h : ex.Reachable s) : ¬ (s 0 ∧ s 1) := by
  obtain ⟨s0, as, h0, hr⟩ := h
  have h1 : ¬ (s0 0 ∧ s0 1) := by
    rintro ⟨_, h⟩
    have := (h0.base 1 (by simp [ex_derived])).mp h
    simp [ex] at this
  have key : ∀ s as u, ex.Run s as u → ¬ (s 0 ∧ s 1) → ¬ (u 0 ∧ u 1) := by
    intro s as u hr
    induction hr with
    | nil s => exact id
    | cons s a s' as u hst _ ih =>
      intro hs
      apply ih
      rintro ⟨h2, h3⟩
      have e0 := (hst.2.2.base 0 (by simp [ex_derived])).mp h2
      have e1 := (hst.2.2.base 1 (by simp [ex_derived])).mp h3
      have ha := hst.1
      simp only [ex, List.mem_cons, List.not_mem_nil, or_false] at ha
      rcases ha with rfl | rfl
      · rcases e0 with ⟨e, he, hl, _⟩ | ⟨_, hd⟩
        · simp only [List.mem_cons, List.not_mem_nil, or_false] at he
          rcases he with rfl | rfl | rfl <;> simp at hl
        · exact hd ⟨([], ⟨true, 0⟩), by simp, rfl, by simp⟩
      · have keep : ∀ p : Nat, Action.result ⟨"lose".toList, [], [([], ⟨true, 2⟩)], 1⟩ s p → s p := by
          rintro p (⟨e, he, hl, _⟩ | ⟨h, _⟩)
          · simp only [List.mem_cons, List.not_mem_nil, or_false] at he
            rw [he] at hl
            simp at hl
          · exact h
        exact hs ⟨keep 0 e0, keep 1 e1⟩
  exact key _ _ _ hr h1

theorem ex_mutexGroup {g : List Nat} (h : g = [0, 1] ∨ ∃ p, g = [p]) : ex.MutexGroup g := by
  intro s hs p hp q hq h1 h2
  rcases h with rfl | ⟨r, rfl⟩
  · have := ex_mutex hs
    simp only [List.mem_cons, List.not_mem_nil, or_false] at hp hq
    rcases hp with rfl | rfl <;> rcases hq with rfl | rfl
    · rfl
    · exact absurd ⟨h1, h2⟩ this
    · exact absurd ⟨h2, h1⟩ this
    · rfl
  · rw [List.mem_singleton.mp hp, List.mem_singleton.mp hq]

theorem ex_mentions {p : Nat} (h : ex.Mentions p) : p = 0 ∨ p = 1 ∨ p = 2 ∨ p = 4 := by
  rcases h with ⟨l, hl, rfl⟩ | ⟨a, ha, h⟩ | ⟨r, hr, h⟩
  · simp only [ex, List.mem_singleton] at hl
    simp [hl]
  · simp only [ex, List.mem_cons, List.not_mem_nil, or_false] at ha
    rcases ha with rfl | rfl
    · rcases h with ⟨l, hl, rfl⟩ | ⟨e, he, h⟩
      · simp only [List.mem_singleton] at hl
        simp [hl]
      · simp only [List.mem_cons, List.not_mem_nil, or_false] at he
        rcases he with rfl | rfl | rfl <;> simp at h <;> omega
    · rcases h with ⟨l, hl, rfl⟩ | ⟨e, he, h⟩
      · simp at hl
      · simp only [List.mem_cons, List.not_mem_nil, or_false] at he
        subst he
        simp at h
        omega
  · simp only [ex, List.mem_singleton] at hr
    subst hr
    simp at h
    omega

/-- one variable for 0 and 1 -/
theorem ex_groups : ex.Groups [[0, 1], [2], [4]] [[0, 1], [2], [4]] where
  nodup := by decide
  mutex := by
    intro g hg
    apply ex_mutexGroup
    simp only [List.cons_append, List.nil_append, List.mem_cons, List.not_mem_nil, or_false] at hg
    rcases hg with rfl | rfl | rfl | rfl | rfl | rfl <;> simp
  covered := by
    intro p hp
    rcases ex_mentions hp with rfl | rfl | rfl | rfl <;> decide
  derived := by
    intro p hp
    rw [ex_derived] at hp
    subst hp
    refine ⟨2, rfl, fun w g hg h => ?_⟩
    match w with
    | 0 => simp at hg; subst hg; simp at h
    | 1 => simp at hg; subst hg; simp at h
    | 2 => rfl
    | w + 3 => simp at hg
  negativeGoals := by simp [ex]

/-- a variable for each atom; 0 and 1 are still known to exclude each other -/
theorem ex_groups_single : ex.Groups [[0], [1], [2], [4]] [[0, 1], [2], [4]] where
  nodup := by decide
  mutex := by
    intro g hg
    apply ex_mutexGroup
    simp only [List.cons_append, List.nil_append, List.mem_cons, List.not_mem_nil, or_false] at hg
    rcases hg with rfl | rfl | rfl | rfl | rfl | rfl | rfl <;> simp
  covered := by
    intro p hp
    rcases ex_mentions hp with rfl | rfl | rfl | rfl <;> decide
  derived := by
    intro p hp
    rw [ex_derived] at hp
    subst hp
    refine ⟨3, rfl, fun w g hg h => ?_⟩
    match w with
    | 0 => simp at hg; subst hg; simp at h
    | 1 => simp at hg; subst hg; simp at h
    | 2 => simp at hg; subst hg; simp at h
    | 3 => rfl
    | w + 4 => simp at hg
  negativeGoals := by simp [ex]

theorem ex_partition : Partition [[0, 1], [2], [4]] [[0, 1], [2], [4]] := by
  rintro p ⟨g, hg, hp⟩
  have hc : p = 0 ∨ p = 1 ∨ p = 2 ∨ p = 4 := by
    simp only [List.cons_append, List.nil_append, List.mem_cons, List.not_mem_nil, or_false] at hg
    rcases hg with rfl | rfl | rfl | rfl | rfl | rfl <;> simp at hp <;> omega
  have hv : ∃ (v : Nat) (g : List Nat), ([[0, 1], [2], [4]] : List (List Nat))[v]? = some g ∧ p ∈ g := by
    rcases hc with rfl | rfl | rfl | rfl
    · exact ⟨0, _, rfl, by simp⟩
    · exact ⟨0, _, rfl, by simp⟩
    · exact ⟨1, _, rfl, by simp⟩
    · exact ⟨2, _, rfl, by simp⟩
  obtain ⟨v, g, hv, hp⟩ := hv
  refine ⟨v, g, hv, hp, fun w g' hw hp' => ?_⟩
  match v, w with
  | 0, 0 => rfl
  | 1, 1 => rfl
  | 2, 2 => rfl
  | 0, 1 | 0, 2 | 1, 0 | 1, 2 | 2, 0 | 2, 1 =>
    simp at hv hw
    subst hv hw
    simp at hp hp'
    omega
  | v + 3, _ => simp at hv
  | 0, w + 3 | 1, w + 3 | 2, w + 3 => simp at hw

def exNames : List (List (List Char)) := [["a".toList, "b".toList, "none".toList], ["c".toList, "not c".toList], ["d".toList, "not d".toList]]

/-- the plan of the grounded task -/
theorem ex_plan : ex.HasPlan [("go".toList, 3)] := by
  have hi := completes ex_stratified (fun p => p ∈ ex.init)
  have h0 : completion ex (fun p => p ∈ ex.init) 0 := (hi.base 0 (by simp [ex_derived])).mpr (by simp [ex])
  have h2 : completion ex (fun p => p ∈ ex.init) 2 := (hi.base 2 (by simp [ex_derived])).mpr (by simp [ex])
  have hres := completes ex_stratified (Action.result ⟨"go".toList, [⟨false, 0⟩], [([], ⟨true, 0⟩), ([⟨false, 2⟩], ⟨false, 1⟩), ([⟨true, 2⟩], ⟨true, 1⟩)], 3⟩ (completion ex (fun p => p ∈ ex.init)))
  refine ⟨_, [⟨"go".toList, [⟨false, 0⟩], [([], ⟨true, 0⟩), ([⟨false, 2⟩], ⟨false, 1⟩), ([⟨true, 2⟩], ⟨true, 1⟩)], 3⟩], _, hi, .cons _ _ _ _ _ ⟨by simp [ex], by simpa [Literal.holds] using h0, hres⟩ (.nil _), ?_, rfl⟩
  have h1 := (hres.base 1 (by simp [ex_derived])).mpr (Or.inl ⟨([⟨false, 2⟩], ⟨false, 1⟩), by simp, rfl, by simpa [Literal.holds] using h2⟩)
  have h4 := (hres.derived 4 (by simp [ex_derived])).mpr (.rule ⟨[⟨false, 1⟩], 4⟩ (by simp [ex]) (by simp) (fun l hl _ _ => by rw [List.mem_singleton.mp hl]; exact h1) (fun l hl _ hd => by
    rw [List.mem_singleton.mp hl, ex_derived] at hd
    cases hd))
  simpa [ex, Literal.holds] using h4

/-- the output has a plan too -/
example : ∃ T, translateTask ⟨true, false, true⟩ [[0, 1], [2], [4]] [[0, 1], [2], [4]] exNames ex = some T ∧ T.HasPlan [("go".toList, 3)] := by
  obtain ⟨T, hT, _, h⟩ := C73_plans (o := ⟨true, false, true⟩) (names := exNames) ex_stratified ex_groups (fun _ => ex_partition) (by simp [Named, exNames])
  obtain ⟨p', _, hp, he⟩ := h _ ex_plan
  rw [he rfl (by simp [ex])] at hp
  exact ⟨T, hT, hp⟩

/-- the output: "go" moves the first variable from 0 to 1 if 2 is true, and to "none of those" otherwise -/
example : (translateTask ⟨true, false, false⟩ [[0, 1], [2], [4]] [[0, 1], [2], [4]] exNames ex).map (fun T => T.operators.map (·.prePost)) =
    some [[⟨0, some 0, 1, [⟨1, 0⟩]⟩, ⟨0, some 0, 2, [⟨1, 1⟩]⟩], [⟨1, none, 1, []⟩]] := by decide +kernel

example : (translateTask ⟨true, false, false⟩ [[0, 1], [2], [4]] [[0, 1], [2], [4]] exNames ex).map (fun T => (T.init, T.goal)) = some ([0, 0, 1], [⟨2, 0⟩]) := by decide +kernel

example : (translateTask ⟨true, false, false⟩ [[0, 1], [2], [4]] [[0, 1], [2], [4]] exNames ex).map (fun T => T.axioms.map (fun a => (a.conds, a.effect))) = some [([⟨0, 1⟩], ⟨2, 0⟩)] := by decide +kernel

/-- the output with a variable for each atom has a mutex group of facts of different variables -/
example : (translateTask ⟨true, false, false⟩ [[0], [1], [2], [4]] [[0, 1], [2], [4]] exNames ex).map (·.mutexes) = some [[⟨0, 0⟩, ⟨1, 0⟩], [⟨2, 0⟩], [⟨3, 0⟩]] := by decide +kernel

def exOutput : SasTask :=
  ⟨[⟨none, ["a".toList, "b".toList, "none".toList]⟩, ⟨none, ["c".toList, "not c".toList]⟩, ⟨some 0, ["d".toList, "not d".toList]⟩], [], [0, 0, 1], [⟨2, 0⟩],
   [⟨"go".toList, [], [⟨0, some 0, 1, [⟨1, 0⟩]⟩, ⟨0, some 0, 2, [⟨1, 1⟩]⟩], 3⟩, ⟨"lose".toList, [], [⟨1, none, 1, []⟩], 1⟩], [⟨[⟨0, 1⟩], ⟨2, 0⟩⟩], true⟩

theorem ex_output : translateTask ⟨false, false, false⟩ [[0, 1], [2], [4]] [[0, 1], [2], [4]] exNames ex = some exOutput := by decide +kernel

/-- the hypotheses of C73_pipeline are met -/
example (reorder filter : Bool) :
    match Simplify.filterUnreachable false exOutput with
    | .error => False
    | .impossible => ∀ p, ¬ ex.HasPlan p
    | .trivial => ex.HasPlan []
    | .simplified T' => ∃ T'', VarOrder.findAndApply reorder filter false T' = some T'' ∧ T''.Valid ∧ (∀ p, T''.HasPlan p → ex.HasPlan p) ∧ ∀ p, ex.HasPlan p → ∃ p', p'.Sublist p ∧ T''.HasPlan p' :=
  C73_pipeline ex_stratified ex_groups (fun _ => ex_partition) (by simp [Named, exNames]) rfl rfl (by simp [exNames, NameOk, isSpace]) (by simp [ex, NameOk, isSpace]) ex_output
    (by constructor <;> simp [exOutput, IntMax]) reorder filter

/-- **C73**: With --add-implied-preconditions, effects on the same variable can have different values before: the output is not valid in the sense of sas_tasks.py. -/
theorem C73_implied_not_canonical : ex.Stratified ∧ ex.Groups [[0], [1], [2], [4]] [[0, 1], [2], [4]] ∧
    ∃ T, translateTask ⟨false, true, false⟩ [[0], [1], [2], [4]] [[0, 1], [2], [4]] [["a".toList, "not a".toList], ["b".toList, "not b".toList], ["c".toList, "not c".toList], ["d".toList, "not d".toList]] ex = some T ∧ ¬ T.Canonical := by
  refine ⟨ex_stratified, ex_groups_single, ?_⟩
  have h : (translateTask ⟨false, true, false⟩ [[0], [1], [2], [4]] [[0, 1], [2], [4]] [["a".toList, "not a".toList], ["b".toList, "not b".toList], ["c".toList, "not c".toList], ["d".toList, "not d".toList]] ex).map
      (fun T => T.operators.map (·.prePost)) = some [[⟨0, some 0, 1, []⟩, ⟨1, none, 1, [⟨1, 0⟩, ⟨2, 1⟩]⟩, ⟨1, some 1, 0, [⟨2, 0⟩]⟩], [⟨2, none, 1, []⟩]] := by decide +kernel
  obtain ⟨T, hT, hops⟩ := Option.map_eq_some_iff.mp h
  refine ⟨T, hT, fun hC => ?_⟩
  have h0 : (⟨0, some 0, 1, []⟩ :: ⟨1, none, 1, [⟨1, 0⟩, ⟨2, 1⟩]⟩ :: [⟨1, some 1, 0, [⟨2, 0⟩]⟩] : List PrePost) ∈ T.operators.map (·.prePost) := by rw [hops]; simp
  obtain ⟨op, hop, he⟩ := List.mem_map.mp h0
  have := (hC.operators op hop).samePre ⟨1, none, 1, [⟨1, 0⟩, ⟨2, 1⟩]⟩ (by rw [he]; simp) ⟨1, some 1, 0, [⟨2, 0⟩]⟩ (by rw [he]; simp) rfl
  cases this

end Verif.StripsToSas
