import Verif.Props.TranslateTask
import Verif.Props.TaskReader

/-
C82, with C55, C67, C68 and C72 to C81: the plans of the task that the search component reads are the plans of the PDDL task.
-/
namespace Verif.SasFile

/-- `p` are the names and costs of the operators of a plan, as the search component sees them: the operators are applicable one after the other in the initial state, and the goals hold at the end -/
def Root.HasPlan (r : Root) (p : List (List Char × Nat)) : Prop := ∃ π, r.task.IsPlan π ∧ π.map (fun i => (r.ops[i]?).map (fun o => (o.name, o.cost))) = p.map some

theorem derives_withInit {t : Task} {x : State} {s : State} {neg : Fact → Prop} {f : Fact} : Derives { t with init := x } s neg f ↔ Derives t s neg f := by
  constructor
  · intro h
    induction h with
    | rule r hr h1 h2 _ ih => exact .rule r hr h1 h2 ih
  · intro h
    induction h with
    | rule r hr h1 h2 _ ih => exact .rule (t := { t with init := x }) r hr h1 h2 ih

theorem stable_withInit {t : Task} {x s s' : State} : StableModel { t with init := x } s s' ↔ StableModel t s s' := by
  constructor
  · rintro ⟨h1, h2, h3, h4⟩
    exact ⟨h1, h2, fun f a b => (h3 f a b).trans derives_withInit, fun v a => Iff.trans ⟨fun h x hx hd => h x hx (derives_withInit.mp hd), fun h x hx hd => h x hx (derives_withInit.mpr hd)⟩ (h4 v a)⟩
  · rintro ⟨h1, h2, h3, h4⟩
    exact ⟨h1, h2, fun f a b => (h3 f a b).trans derives_withInit.symm, fun v a => Iff.trans ⟨fun h x hx hd => h x hx (derives_withInit.mpr hd), fun h x hx hd => h x hx (derives_withInit.mp hd)⟩ (h4 v a)⟩

theorem exec_withInit {t : Task} {x s u : State} {π : List Nat} : Task.Exec { t with init := x } s π u ↔ t.Exec s π u := by
  constructor
  · intro h
    induction h with
    | nil s => exact .nil s
    | cons s i o s' π u ho ha hs _ ih =>
      obtain ⟨m, h1, h2⟩ := hs
      exact .cons s i o s' π u ho ha ⟨m, h1, stable_withInit.mp h2⟩ ih
  · intro h
    induction h with
    | nil s => exact .nil s
    | cons s i o s' π u ho ha hs _ ih =>
      obtain ⟨m, h1, h2⟩ := hs
      exact .cons s i o s' π u ho ha ⟨m, h1, stable_withInit.mpr h2⟩ ih

/-- without axioms, the initial state is as given -/
theorem stable_noAxioms {T : SasTask} (hT : T.Valid) (h : T.axioms = []) {s : State} : StableModel T.task T.init s ↔ s = T.init := by
  have hno : ∀ (s : State) (neg : Fact → Prop) f, ¬ Derives T.task s neg f := by
    rintro s neg f ⟨r, hr, _⟩
    simp [Task.rules, SasTask.task, h] at hr
  have hdef : ∀ v : Nat, v < T.init.length → T.init[v]? = some (T.task.defaultOf v) := by
    intro v hv
    have hv' : v < T.variables.length := hT.init ▸ hv
    simp only [Task.defaultOf, SasTask.task, List.getElem?_map]
    rw [List.getElem?_eq_getElem (l := T.variables.zip T.init) (by simp; omega), List.getElem?_eq_getElem hv]
    simp
  have hlayer : ∀ v, T.task.layerOf v ≠ none → v < T.init.length := by
    intro v hv
    by_contra hlt
    apply hv
    have : (T.variables.zip T.init)[v]? = none := List.getElem?_eq_none (by simp; omega)
    simp [Task.layerOf, SasTask.task, this]
  constructor
  · rintro ⟨h1, h2, h3, h4⟩
    refine List.ext_getElem? fun v => ?_
    by_cases hv : T.task.layerOf v = none
    · exact h2 v hv
    · rw [(h4 v hv).mp (fun _ _ => hno _ _ _), hdef v (hlayer v hv)]
  · rintro rfl
    refine ⟨rfl, fun _ _ => rfl, fun f a b => ⟨fun hf => ?_, fun hf => absurd hf (hno _ _ _)⟩, fun v a => ⟨fun _ => hdef v (hlayer v a), fun _ _ _ => hno _ _ _⟩⟩
    have := hdef f.var (hlayer _ a)
    unfold Fact.holds at hf
    rw [hf, Option.some.injEq] at this
    exact absurd this b

/-- **C82**, what the search component reads: the plans of the task that is read are those of the task that was written; operators cost 1 if there is no metric. -/
theorem C82_read {T : SasTask} (hT : T.Valid) : ∃ r, readTask (output T) = .ok r ∧ ∀ p, r.HasPlan p ↔ ∃ q, T.HasPlan q ∧ p = q.map (fun x => (x.1, if T.metric then x.2 else 1)) := by
  obtain ⟨r, h1, h2, h3, h4, h5, _⟩ := C55_round_trip hT
  have hinit : ∀ s, StableModel T.task T.init s ↔ s = r.init := by
    intro s
    by_cases ha : T.axioms = []
    · rw [stable_noAxioms hT ha, h3 ha]
    · exact ⟨(h4 ha).2 s, fun h => h ▸ (h4 ha).1⟩
  have hcost : ∀ i : Nat, (r.ops[i]?).map (fun o => (o.name, o.cost)) = (T.label i).map (fun x => (x.1, if T.metric then x.2 else 1)) := by
    intro i
    have e1 := congrArg (fun l : List (List Char) => l[i]?) h5
    have e2 := congrArg (fun l : List Operator => (l[i]?).map (·.cost)) (congrArg Task.ops h2)
    simp only [Root.task, SasTask.task, List.getElem?_map, Option.map_map, SasTask.label] at e1 e2 ⊢
    cases hr : r.ops[i]? with
    | none =>
      cases ho : T.operators[i]? with
      | none => rfl
      | some o => simp [hr, ho] at e1
    | some a =>
      cases ho : T.operators[i]? with
      | none => simp [hr, ho] at e1
      | some o =>
        simp only [hr, ho, Option.map_some, Option.some.injEq, Function.comp_apply] at e1 e2 ⊢
        rw [e1, e2]
  have hplan : ∀ π, r.task.IsPlan π ↔ T.task.SolvesFrom r.init π := by
    intro π
    unfold Task.IsPlan Task.SolvesFrom
    rw [h2]
    simp only [exec_withInit]
  refine ⟨r, h1, fun p => ⟨?_, ?_⟩⟩
  · rintro ⟨π, a, b⟩
    have hs := (hinit r.init).mpr rfl
    have hq : ∃ q : List (List Char × Nat), π.map T.label = q.map some := by
      have : ∀ i ∈ π, ∃ x, T.label i = some x := by
        intro i hi
        have hm := List.mem_map_of_mem (f := fun i : Nat => (r.ops[i]?).map (fun o => (o.name, o.cost))) hi
        rw [b] at hm
        obtain ⟨x, _, hx⟩ := List.mem_map.mp hm
        have hx' := hx.trans (hcost i)
        cases hl : T.label i with
        | none => simp [hl] at hx'
        | some y => exact ⟨y, rfl⟩
      clear a b
      induction π with
      | nil => exact ⟨[], rfl⟩
      | cons i π ih =>
        obtain ⟨x, hx⟩ := this i (by simp)
        obtain ⟨q, hq⟩ := ih fun j hj => this j (List.mem_cons_of_mem _ hj)
        exact ⟨x :: q, by simp [hx, hq]⟩
    obtain ⟨q, hq⟩ := hq
    refine ⟨q, ⟨r.init, π, hs, (hplan π).mp a, hq⟩, ?_⟩
    have : p.map some = (q.map (fun x => (x.1, if T.metric then x.2 else 1))).map some := by
      rw [← b, List.map_congr_left (fun i _ => hcost i)]
      have := congrArg (List.map (Option.map (fun x : List Char × Nat => (x.1, if T.metric then x.2 else 1)))) hq
      simpa [List.map_map, Function.comp_def] using this
    exact List.map_injective_iff.mpr (Option.some_injective _) this
  · rintro ⟨q, ⟨s, π, a, b, c⟩, rfl⟩
    obtain rfl := (hinit s).mp a
    refine ⟨π, (hplan π).mpr b, ?_⟩
    rw [List.map_congr_left (fun i _ => hcost i)]
    have := congrArg (List.map (Option.map (fun x : List Char × Nat => (x.1, if T.metric then x.2 else 1)))) c
    simpa [List.map_map, Function.comp_def] using this

end Verif.SasFile

namespace Verif.AxiomRules
open Verif.Strips

/-- the groups and layers that are chosen (see C74_pipeline) are as needed by the translation to finite-domain variables -/
theorem prepared {t : StripsTask FactGroups.Atom} {objects : List (List Char)} {invariants : List (List FactGroups.Atom)} {atoms : List FactGroups.Atom} (hst : t.Stratifiable) (hd : t.DerivedOnly) (ha : atoms.Nodup)
    (hm : ∀ p, t.Mentions p → p ∈ atoms) (hI : FactGroups.InvariantsOf t.fromHeads objects invariants) {max part : Bool} {ax : List (Strips.Rule FactGroups.Atom)} {ls : List (FactGroups.Atom × Nat)} (h : handleAxioms max t = .ok ax ls)
    {groups mutexGroups : List (List FactGroups.Atom)} {names : List (List (List Char))} (hg : FactGroups.computeGroups part objects invariants atoms (FactGroups.negativeInGoal t.goal) = some (groups, mutexGroups, names)) :
    ({ t with axioms := ax, layers := ls } : StripsTask FactGroups.Atom).Stratified ∧ ({ t with axioms := ax, layers := ls } : StripsTask FactGroups.Atom).Groups groups mutexGroups ∧
      (part = true → Partition groups mutexGroups) ∧ Named groups names := by
  have out := handleAxioms_out h
  have hI' : FactGroups.InvariantsOf ({ t with axioms := ax, layers := ls } : StripsTask FactGroups.Atom) objects invariants := by
    refine ⟨hI.names, hI.once, hI.predicates, ?_, ?_⟩
    · intro inv hinv s' hs' p q hp hq hsp hsq
      obtain ⟨s, hs, hag⟩ := reachable_in out hst hd hs'
      have hnh : ∀ p, FactGroups.Instance objects inv p → (t.Head p → t.Needed p) := fun p hp hh => absurd (fromHeads_derived.mpr hh) (hI.derived inv hinv p hp)
      exact hI.mutex inv hinv s hs p q hp hq ((hag p (hnh p hp)).mpr hsp) ((hag q (hnh q hq)).mpr hsq)
    · intro inv hinv p hp hdp
      exact hI.derived inv hinv p hp (fromHeads_derived.mpr (needed_head ((out.layers p).mp hdp)))
  have hhead : ∀ p, t.Head p → p ∈ atoms := fun p ⟨r, hr, hh⟩ => hm p (.inr (.inr ⟨r, hr, .inl hh⟩))
  refine ⟨C74_stratified hd h, FactGroups.C72_task (t := { t with axioms := ax, layers := ls }) ha ?_ hI' hg⟩
  rintro p ((hp | hp | ⟨r, hr, hp⟩) | hp)
  · exact hm p (.inl hp)
  · exact hm p (.inr (.inl hp))
  · obtain ⟨_, r0, hr0, e1, e2⟩ := out.mem r hr
    refine hm p (.inr (.inr ⟨r0, hr0, ?_⟩))
    rcases hp with rfl | ⟨l, hl, rfl⟩
    · exact .inl e1.symm
    · exact .inr ⟨l, (e2 l).mp hl, rfl⟩
  · exact hhead p (needed_head ((out.layers p).mp hp))

end Verif.AxiomRules

namespace Verif.Invariants
open Verif.Datalog Verif.Lifted Verif.Strips Verif.Pddl Verif.SasFile

/-- names can be written to a file and read again: there are no line breaks, and names of actions are not only white space -/
structure Printable {V T F : Type} (L : LTask (List Char) V (List Char) T F) (atoms : List FactGroups.Atom) : Prop where
  actions : ∀ A ∈ L.actions, NameOk A.name
  objects : ∀ x ∈ L.objects, '\n' ∉ L.objectName x.1
  atoms : ∀ p ∈ atoms, '\n' ∉ p.predicate ∧ ∀ a ∈ p.args, '\n' ∉ a

section
variable {V T F : Type} [DecidableEq V] [DecidableEq T] [DecidableEq F] {L : LTask (List Char) V (List Char) T F} {e : PrologProgram.Env (Instantiate.DPred (List Char) T F) V (List Char)} {ar : List Char → Nat} {fnAr : F → Nat}

theorem instName_ok {atoms : List FactGroups.Atom} (hn : Printable L atoms) {A : LAction (List Char) V (List Char) T F} (hA : A ∈ L.actions) {σ : V → List Char} (ht : L.Typed A.params σ) : NameOk (L.instName A σ) := by
  obtain ⟨h1, c, hc, hs⟩ := hn.actions A hA
  refine ⟨?_, c, by simp [LTask.instName, hc], hs⟩
  have key : ∀ l : List (List Char), (∀ x ∈ l, '\n' ∉ x) → '\n' ∉ [' '].intercalate l := by
    intro l
    induction l with
    | nil => simp [List.intercalate]
    | cons x l ih =>
      intro h
      cases l with
      | nil => simpa [List.intercalate] using h
      | cons y l =>
        have := ih fun z hz => h z (List.mem_cons_of_mem _ hz)
        have hx := h x (by simp)
        simp only [List.intercalate, List.intersperse_cons₂, List.flatten_cons, List.mem_append, not_or] at this ⊢
        exact ⟨hx, by decide, this⟩
  simp only [LTask.instName, List.mem_append, List.mem_cons, not_or]
  refine ⟨h1, by decide, key _ ?_⟩
  intro x hx
  obtain ⟨q, hq, rfl⟩ := List.mem_map.mp hx
  obtain ⟨u, hu, _⟩ := ht q (List.mem_of_mem_take hq)
  exact hn.objects _ hu

theorem run_costs (hm : L.metric = false) {s u : GAtom (List Char) (List Char) → Prop} {p : List (List Char × Nat)} (h : L.Run s p u) : ∀ x ∈ p, x.2 = 1 := by
  induction h with
  | nil s => simp
  | cons s A σ n s' p u _ hc _ ih =>
    simp only [LTask.CostIs, hm, Bool.false_eq_true, if_false] at hc
    simpa [hc] using ih

/-- **C82**, from the normalised task to the task that the search component reads: the steps of C81, then unreachable values are removed, variables are ordered and filtered, the task is written and read.  If the task is not found to be unsolvable or trivial, the plans of the task that is read
are plans of the given one, with the same names and costs; every plan of the given task is one of the task that is read, up to actions that can be left out.  The numbers have to fit into the types of the search component (`Fits`). -/
theorem C82_file (hL : L.Ok ar fnAr) (he : Instantiate.Names e L) (hst : L.Stratifiable) {o : StripsToSas.Options} (ho : o.addImplied = false) (hk : o.keepNoOps = false) {G : Instantiate.Grounded (List Char) (List Char)} (h : Instantiate.Explores e o.keepNoOps L G)
    {goal : List (Literal (GAtom (List Char) (List Char)))} (hgoal : G.goal = some goal) (hO : L.ConditionObjects) (hU : L.UntypedDeletes) (hP : L.PossibleDeletes) (hnames : (L.objects.map (·.1)).Nodup) (hX : FactGroups.counted ∉ L.objects.map (·.1))
    {preds : List (List Char × Nat)} (hpreds : ∀ x ∈ preds, x.2 = ar x.1) (limit : Nat) {orders : List (List (LAction (List Char) V (List Char) T F × Option (List (List (List Char)))))} (horders : ∀ acts ∈ orders, acts.Perm (L.actions.zip (G.params.map some)))
    (hN : ∀ invs, findInvariants L.eq limit preds L.actions orders = some invs → ∀ inv ∈ invs, ∀ θ, L.NoReadding inv θ) {atoms : List FactGroups.Atom} (ha : atoms.Nodup) (hat : ∀ p ∈ G.fluent, Instantiate.stringAtom p ∈ atoms) (hprint : Printable L atoms) (max reorder filter : Bool) :
    ∃ invGroups, getGroups L.eq limit preds L.actions orders L.init = some invGroups ∧ ∀ invariants : List (List FactGroups.Atom), List.Forall₂ (fun inv g => inv.Perm (groupAtoms g)) invariants invGroups →
    ∃ ax ls groups mutexGroups names S, AxiomRules.handleAxioms max ((Instantiate.task L G goal).rename Instantiate.stringAtom) = .ok ax ls ∧
      FactGroups.computeGroups o.partialEncoding (L.objects.map (·.1)) invariants atoms (FactGroups.negativeInGoal ((Instantiate.task L G goal).rename Instantiate.stringAtom).goal) = some (groups, mutexGroups, names) ∧
      StripsToSas.translateTask o groups mutexGroups names { (Instantiate.task L G goal).rename Instantiate.stringAtom with axioms := ax, layers := ls } = some S ∧
      (S.Fits → match Simplify.filterUnreachable false S with
        | .error => False
        | .impossible => ∀ p, ¬ L.HasPlan p
        | .trivial => L.HasPlan []
        | .simplified S' => ∃ S'' r, VarOrder.findAndApply reorder filter false S' = some S'' ∧ readTask (output S'') = .ok r ∧
          (∀ p, r.HasPlan p → L.HasPlan p) ∧ ∀ p, L.HasPlan p → ∃ p', p'.Sublist p ∧ r.HasPlan p') := by
  obtain ⟨invGroups, k1, k2⟩ := C80_invariants hL he h goal hO hU hP hnames hX hpreds limit horders hN
  refine ⟨invGroups, k1, fun invariants hi => ?_⟩
  have hI := k2 invariants hi
  obtain ⟨ax, ls, groups, mutexGroups, names, S, k3, k4, k5, k6, k7⟩ := Instantiate.C77_pipeline hL he hst h hgoal hI ha hat max
  refine ⟨ax, ls, groups, mutexGroups, names, S, k3, k4, k5, fun hfit => ?_⟩
  obtain ⟨g1, g2, g3, g4⟩ := Instantiate.C77_grounded hL he h hgoal
  have hfrom := Strips.fromHeads_rename Instantiate.stringAtom g3
  obtain ⟨p1, p2, p3, p4⟩ := AxiomRules.prepared (Strips.stratifiable_rename Instantiate.stringAtom (g4 hst)) (Strips.derivedOnly_rename Instantiate.stringAtom g2) ha (by
    intro q hq
    obtain ⟨p, hp, rfl⟩ := Strips.mentions_rename Instantiate.stringAtom hq
    exact hat p (g1 p hp)) (hfrom.symm ▸ hI) k3 k4
  have hvals := FactGroups.C72_nameOk hI.once k4 hprint.atoms
  obtain ⟨out, hM, hG⟩ := h.grounding hL he
  have hacts : ∀ a ∈ ({ (Instantiate.task L G goal).rename Instantiate.stringAtom with axioms := ax, layers := ls } : StripsTask FactGroups.Atom).actions, NameOk a.name := by
    intro a ha'
    obtain ⟨b, hb, rfl⟩ := List.mem_map.mp ha'
    obtain ⟨i, A, σ, hA, ht, _, _, hins⟩ := hG.acts b hb
    show NameOk b.name
    rw [hins.name]
    exact instName_ok hprint (List.mem_of_getElem? hA) ht
  obtain ⟨v1, v2, v3⟩ := StripsToSas.C73_valid p1 p2 p3 p4 k5
  have hV := v3 hk hvals hacts hfit
  have hC := v2 ho
  have hmetric : S.metric = false → L.metric = false := by
    intro hf
    obtain ⟨S0, e0, hcase⟩ := StripsToSas.translateTask_cases (names := names) p1 p2 p3 p4
    rw [k5, Option.some.injEq] at e0
    subst e0
    rcases hcase with ⟨rfl, _⟩ | ⟨rfl, _⟩ | hF
    · simp [StripsToSas.trivialTask] at hf
    · simp [StripsToSas.trivialTask] at hf
    · rw [hF.metric] at hf
      exact hf
  have hsimp := Simplify.C67_plans hV hC v1 false
  cases hf : Simplify.filterUnreachable false S with
  | error => rw [hf] at hsimp; exact hsimp
  | impossible =>
    rw [hf] at hsimp
    intro p hp
    obtain ⟨p', _, hp', _⟩ := k7 p hp
    exact hsimp p' hp'
  | trivial => rw [hf] at hsimp; exact k6 _ hsimp
  | simplified S' =>
    rw [hf] at hsimp
    have hV' := (Simplify.C67_valid hV hC false hf).2.2 rfl
    obtain ⟨S'', _, hS'', _⟩ := VarOrder.C68_variables hV' reorder filter false
    obtain ⟨a1, a2⟩ := VarOrder.C68_plans hV' reorder filter false hS''
    obtain ⟨r, r1, r2⟩ := C82_read (VarOrder.C68_valid hV' reorder filter hS'')
    have hm1 : S'.metric = S.metric := by
      obtain ⟨R, _, hcase⟩ := Simplify.filterUnreachable_cases hV hC false
      rcases hcase with ⟨_, hx⟩ | ⟨_, hx⟩ | ⟨_, hx, hN'⟩
      · rw [hf] at hx; cases hx
      · rw [hf] at hx; cases hx
      · rw [hf] at hx; cases hx; exact hN'.metric
    have hm2 : S''.metric = S'.metric := by
      rcases VarOrder.findAndApply_cases hV' reorder filter false with ⟨_, _, hx⟩ | ⟨_, _, hx, _, hN'⟩
      · rw [hS'', Option.some.injEq] at hx; rw [hx]
      · rw [hS'', Option.some.injEq] at hx; rw [hx]; exact hN'.metric
    have sound : ∀ q, S''.HasPlan q → L.HasPlan q := by
      intro q hq
      obtain ⟨p', _, h5, h6⟩ := a2 q hq
      rw [h6 rfl] at h5
      exact k6 _ (hsimp.1 q h5)
    have costs : ∀ q, S''.HasPlan q → q.map (fun x : List Char × Nat => (x.1, if S''.metric then x.2 else 1)) = q := by
      intro q hq
      cases hmm : S''.metric with
      | true => simp
      | false =>
        obtain ⟨s, u, _, hrun, _⟩ := sound q hq
        have h1 := run_costs (hmetric (by rw [← hm1, ← hm2, hmm])) hrun
        conv_rhs => rw [← List.map_id q]
        refine List.map_congr_left fun x hx => ?_
        have := h1 x hx
        obtain ⟨x1, x2⟩ := x
        simp only at this
        simp [this]
    refine ⟨S'', r, hS'', r1, fun p hp => ?_, fun p hp => ?_⟩
    · obtain ⟨q, hq, rfl⟩ := (r2 p).mp hp
      rw [costs q hq]
      exact sound q hq
    · obtain ⟨q1, b1, b2, _⟩ := k7 p hp
      obtain ⟨q2, c1, c2, _⟩ := hsimp.2 q1 b2
      obtain ⟨q3, d1, d2, _⟩ := a1 q2 c2
      exact ⟨q3, (d1.trans c1).trans b1, (r2 q3).mpr ⟨q3, d2, (costs q3 d2).symm⟩⟩

/-- **C82**, from the task as it is parsed to the task that the search component reads. -/
theorem C82_translate {num : V → Nat → V} (hnum : ∀ v i j, num v i = num v j → i = j) {Q : PTask (List Char) V (List Char) T F} {n : Normalize.Env (List Char) V} (hQ : Q.Basic ar fnAr) (hD : Q.Distinct) (hF : Normalize.Fresh n Q) (hst : Q.Stratifiable) (hd : Q.DerivedOk) :
    ∃ Q' L ar', Uniquify.uniqTask num Q = some Q' ∧ Normalize.normalize n Q' = .ok L ∧ L.Ok ar' fnAr ∧ ∀ {e : PrologProgram.Env (Instantiate.DPred (List Char) T F) V (List Char)}, Instantiate.Names e L → ∀ o : StripsToSas.Options, o.addImplied = false → o.keepNoOps = false →
      ∃ G, Instantiate.Explores e o.keepNoOps L G ∧ ((G.relaxedReachable = false ∨ G.goal = none) → ∀ p, ¬ Q.HasPlan p) ∧
      ∀ goal : List (Literal (GAtom (List Char) (List Char))), G.goal = some goal → L.ConditionObjects → L.UntypedDeletes → L.PossibleDeletes → (L.objects.map (·.1)).Nodup → FactGroups.counted ∉ L.objects.map (·.1) →
      ∀ preds : List (List Char × Nat), (∀ x ∈ preds, x.2 = ar' x.1) → ∀ (limit : Nat) (orders : List (List (LAction (List Char) V (List Char) T F × Option (List (List (List Char)))))), (∀ acts ∈ orders, acts.Perm (L.actions.zip (G.params.map some))) →
      (∀ invs, findInvariants L.eq limit preds L.actions orders = some invs → ∀ inv ∈ invs, ∀ θ, L.NoReadding inv θ) → ∀ atoms : List FactGroups.Atom, atoms.Nodup → (∀ p ∈ G.fluent, Instantiate.stringAtom p ∈ atoms) → Printable L atoms → ∀ max reorder filter : Bool,
      ∃ invGroups, getGroups L.eq limit preds L.actions orders L.init = some invGroups ∧ ∀ invariants : List (List FactGroups.Atom), List.Forall₂ (fun inv g => inv.Perm (groupAtoms g)) invariants invGroups →
      ∃ ax ls groups mutexGroups names S, AxiomRules.handleAxioms max ((Instantiate.task L G goal).rename Instantiate.stringAtom) = .ok ax ls ∧
        FactGroups.computeGroups o.partialEncoding (L.objects.map (·.1)) invariants atoms (FactGroups.negativeInGoal ((Instantiate.task L G goal).rename Instantiate.stringAtom).goal) = some (groups, mutexGroups, names) ∧
        StripsToSas.translateTask o groups mutexGroups names { (Instantiate.task L G goal).rename Instantiate.stringAtom with axioms := ax, layers := ls } = some S ∧
        (S.Fits → match Simplify.filterUnreachable false S with
          | .error => False
          | .impossible => ∀ p, ¬ Q.HasPlan p
          | .trivial => Q.HasPlan []
          | .simplified S' => ∃ S'' r, VarOrder.findAndApply reorder filter false S' = some S'' ∧ readTask (output S'') = .ok r ∧
            (∀ p, r.HasPlan p → Q.HasPlan p) ∧ ∀ p, Q.HasPlan p → ∃ p', p'.Sublist p ∧ r.HasPlan p') := by
  obtain ⟨Q', L, h1, h2, ⟨ar', h3⟩, h4, h5⟩ := Uniquify.C79_normalize hnum hQ hD hF hst hd
  refine ⟨Q', L, ar', h1, h2, h3, fun he o ho hk => ?_⟩
  obtain ⟨G, h6⟩ := Instantiate.C77_defined h3 he o.keepNoOps
  refine ⟨G, h6, fun hu p hp => Instantiate.C77_unsolvable h3 he h6 hu p ((h5 p).mpr hp), ?_⟩
  intro goal hg hO hU hP hnames hX preds hpreds limit orders horders hN atoms ha hat hprint max reorder filter
  obtain ⟨invGroups, h7, h8⟩ := C82_file h3 he h4 ho hk h6 hg hO hU hP hnames hX hpreds limit horders hN ha hat hprint max reorder filter
  refine ⟨invGroups, h7, fun invariants hi => ?_⟩
  obtain ⟨ax, ls, groups, mutexGroups, names, S, k1, k2, k3, k4⟩ := h8 invariants hi
  refine ⟨ax, ls, groups, mutexGroups, names, S, k1, k2, k3, fun hfit => ?_⟩
  have k5 := k4 hfit
  cases hf : Simplify.filterUnreachable false S with
  | error => rw [hf] at k5; exact k5
  | impossible => rw [hf] at k5; exact fun p hp => k5 p ((h5 p).mpr hp)
  | trivial => rw [hf] at k5; exact (h5 _).mp k5
  | simplified S' =>
    rw [hf] at k5
    obtain ⟨S'', r, a, b, c, d⟩ := k5
    exact ⟨S'', r, a, b, fun p hp => (h5 p).mp (c p hp), fun p hp => d p ((h5 p).mpr hp)⟩

end

/-! Example: trucks and packages, as in C80Names. -/
namespace C80Names

/-- the hypotheses are met -/
example : ∃ G, Instantiate.Explores env false ex G ∧ ∀ goal, G.goal = some goal → ∀ atoms : List FactGroups.Atom, atoms.Nodup → (∀ p ∈ G.fluent, Instantiate.stringAtom p ∈ atoms) → (∀ p ∈ atoms, '\n' ∉ p.predicate ∧ ∀ a ∈ p.args, '\n' ∉ a) →
    ∃ invGroups, getGroups ['='] 100 preds ex.actions (List.replicate 30 (ex.actions.zip (G.params.map some))) ex.init = some invGroups ∧ ∃ ax ls groups mutexGroups names S,
      AxiomRules.handleAxioms true ((Instantiate.task ex G goal).rename Instantiate.stringAtom) = .ok ax ls ∧
      FactGroups.computeGroups true (ex.objects.map (·.1)) (invGroups.map groupAtoms) atoms (FactGroups.negativeInGoal ((Instantiate.task ex G goal).rename Instantiate.stringAtom).goal) = some (groups, mutexGroups, names) ∧
      StripsToSas.translateTask ⟨true, false, false⟩ groups mutexGroups names { (Instantiate.task ex G goal).rename Instantiate.stringAtom with axioms := ax, layers := ls } = some S ∧
      (S.Fits → ∀ S', Simplify.filterUnreachable false S = .simplified S' → ∃ S'' r, VarOrder.findAndApply true true false S' = some S'' ∧ readTask (output S'') = .ok r ∧ (∀ p, r.HasPlan p → ex.HasPlan p) ∧ ∀ p, ex.HasPlan p → ∃ p', p'.Sublist p ∧ r.HasPlan p') := by
  obtain ⟨G, h⟩ := Instantiate.C77_defined ex_ok names false
  refine ⟨G, h, fun goal hg atoms ha hat hp => ?_⟩
  obtain ⟨invGroups, h1, h2⟩ := C82_file (o := ⟨true, false, false⟩) ex_ok names ⟨fun _ => 0, by simp [ex]⟩ rfl rfl h hg (by simp [LTask.ConditionObjects, ex, drive, load, unload]) ⟨by simp [ex], by simp [ex, drive, load, unload]⟩ (by simp [LTask.PossibleDeletes, ex, drive, load, unload])
    (by decide) (by decide) (preds := preds) (by decide) 100 (orders := List.replicate 30 (ex.actions.zip (G.params.map some))) (fun acts h => by rw [(List.mem_replicate.mp h).2]) (fun _ _ inv _ θ => ex_readding inv θ) ha hat
    ⟨by unfold NameOk; decide, by decide, hp⟩ true true true
  obtain ⟨ax, ls, groups, mutexGroups, names, S, k1, k2, k3, k4⟩ := h2 _ (List.forall₂_map_left_iff.mpr (List.forall₂_same.mpr fun _ _ => .refl _))
  refine ⟨invGroups, h1, ax, ls, groups, mutexGroups, names, S, k1, k2, k3, fun hfit S' hS => ?_⟩
  have := k4 hfit
  rw [hS] at this
  exact this

/-- all steps, up to the task that is written -/
def written : Option SasTask :=
  (Instantiate.explore 300 env false ex).bind fun G => G.goal.bind fun goal =>
  (getGroups ['='] 100 preds ex.actions (List.replicate 30 (ex.actions.zip (G.params.map some))) ex.init).bind fun invGroups =>
  match AxiomRules.handleAxioms true ((Instantiate.task ex G goal).rename Instantiate.stringAtom) with
  | .ok ax ls =>
    (FactGroups.computeGroups true (ex.objects.map (·.1)) (invGroups.map groupAtoms) (G.fluent.map Instantiate.stringAtom) (FactGroups.negativeInGoal ((Instantiate.task ex G goal).rename Instantiate.stringAtom).goal)).bind fun g =>
    (StripsToSas.translateTask ⟨true, false, false⟩ g.1 g.2.1 g.2.2 { (Instantiate.task ex G goal).rename Instantiate.stringAtom with axioms := ax, layers := ls }).bind fun S =>
    match Simplify.filterUnreachable false S with
    | .simplified S' => VarOrder.findAndApply true true false S'
    | _ => none
  | _ => none

/-- the truck is at x or y; the package is at x, at y, or in the truck -/
example : written.map (fun S => (S.variables.map (fun v => v.valueNames.map String.ofList), S.init, S.goal.map (fun f => (f.var, f.val)))) =
    some ([["Atom a(t, x)", "Atom a(t, y)"], ["Atom a(p, x)", "Atom a(p, y)", "Atom i(p, t)"]], [0, 1], [(1, 0)]) := by decide +kernel

/-- the file is read, with these operators -/
example : (written.bind fun S => match readTask (output S) with | .ok r => some (r.ops.map (fun o => (String.ofList o.name, o.cost)), r.init) | _ => none) =
    some ([("drive t x y", 1), ("drive t y x", 1), ("load p t x", 1), ("load p t y", 1), ("unload p t x", 1), ("unload p t y", 1)], [0, 1]) := by decide +kernel

end C80Names

end Verif.Invariants
