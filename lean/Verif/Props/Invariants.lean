import Verif.Lemmas.InvariantCandidates

/-
C80: the groups of atoms that the synthesis of invariants finds have at most one true atom in every reachable state.
-/
namespace Verif.Invariants
open Verif.Datalog Verif.Lifted

variable {P V O T F : Type} [DecidableEq P] [DecidableEq V] [DecidableEq O]

/-- **C80**: If an invariant passes the balance check and at most one of the atoms that it covers (for given values of its parameters) is true initially, then this is true in all reachable states. -/
theorem C80_invariant {L : LTask P V O T F} {ar : P → Nat} {fnAr : F → Nat} {inv : List (IPart P)} {n : Nat} {θ : Nat → O} {acts : List (LAction P V O T F × Option (List (List O)))}
    (hL : L.Ok ar fnAr) (hO : L.ConditionObjects) (hU : L.UntypedDeletes) (hP : L.PossibleDeletes) (hwf : WellFormed ar n inv) (hB : L.BasicParts inv) (hacts : (acts.map (·.1)).Perm L.actions) (hR : L.ReachLists acts)
    (hN : L.NoReadding inv θ) (hc : checkBalance L.eq inv acts = some true) (h0 : AtMostOne inv θ (· ∈ L.init)) : ∀ s, L.Reachable s → AtMostOne inv θ s :=
  fun _ hr => balanced_reachable hL hO hU hP hwf hB (fun _ hA => hacts.mem_iff.mpr hA) hR hN hc h0 hr

/-- **C80**: The synthesis of invariants is defined, and all invariants that it finds are well-formed and have only basic predicates. -/
theorem C80_find {L : LTask P V O T F} {ar : P → Nat} {fnAr : F → Nat} (hL : L.Ok ar fnAr) {preds : List (P × Nat)} (hpreds : ∀ x ∈ preds, x.2 = ar x.1) (limit : Nat) {orders : List (List (LAction P V O T F × Option (List (List O))))}
    (horders : ∀ acts ∈ orders, (acts.map (·.1)).Perm L.actions) : ∃ invs, findInvariants L.eq limit preds L.actions orders = some invs ∧ ∀ inv ∈ invs, (∃ n, WellFormed ar n inv) ∧ L.BasicParts inv := by
  obtain ⟨invs, h1, h2⟩ := findLoop_spec hL (limit := limit) (seen := (initialInvariants preds L.actions).take limit) (fun acts ha x hx => (horders acts ha).mem_iff.mp (List.mem_map.mpr ⟨x, hx, rfl⟩))
    (fun c hc => initial_candidate hL hpreds (List.mem_of_mem_take hc))
  exact ⟨invs, h1, fun inv hinv => ⟨(h2 inv hinv).1.wf, (h2 inv hinv).1.basic⟩⟩

/-- **C80**: The groups are defined.  In the initial state, exactly one of the atoms of each group is true, and in each reachable state, at most one is.  The candidates are checked with the actions in any orders, and there may be a limit for their number and for the time. -/
theorem C80_groups {L : LTask P V O T F} {ar : P → Nat} {fnAr : F → Nat} (hL : L.Ok ar fnAr) (hO : L.ConditionObjects) (hU : L.UntypedDeletes) (hP : L.PossibleDeletes) {preds : List (P × Nat)} (hpreds : ∀ x ∈ preds, x.2 = ar x.1) (limit : Nat)
    {orders : List (List (LAction P V O T F × Option (List (List O))))} (horders : ∀ acts ∈ orders, (acts.map (·.1)).Perm L.actions ∧ L.ReachLists acts)
    (hN : ∀ invs, findInvariants L.eq limit preds L.actions orders = some invs → ∀ inv ∈ invs, ∀ θ, L.NoReadding inv θ) :
    ∃ groups, getGroups L.eq limit preds L.actions orders L.init = some groups ∧ ∀ g ∈ groups, (∀ s, L.Initial s → ∃ p, GroupCovers g p ∧ s p) ∧
      ∀ s, L.Reachable s → ∀ p q, GroupCovers g p → GroupCovers g q → s p → s q → p = q := by
  obtain ⟨invs, h1, h2⟩ := findLoop_spec hL (limit := limit) (seen := (initialInvariants preds L.actions).take limit) (fun acts ha x hx => (horders acts ha).1.mem_iff.mp (List.mem_map.mpr ⟨x, hx, rfl⟩))
    (fun c hc => initial_candidate hL hpreds (List.mem_of_mem_take hc))
  obtain ⟨groups, h3⟩ := usefulGroups_defined (fun inv hinv => (h2 inv hinv).1.wf) hL.initArity
  refine ⟨groups, by rw [getGroups, findInvariants, h1]; exact h3, fun g hg => ?_⟩
  obtain ⟨inv, hinv, os, h4, h5⟩ := usefulGroups_spec (fun inv hinv => (h2 inv hinv).1.wf) hL.initArity h3 hg
  obtain ⟨hcand, acts, hacts, hbal⟩ := h2 inv hinv
  obtain ⟨n, hwf⟩ := hcand.wf
  obtain ⟨o0, _⟩ := List.exists_mem_of_ne_nil _ hU.1
  have hθ : ∀ (k : Nat) (o : O), os[k]? = some o → (fun k : Nat => (os[k]?).getD o0.1) k = o := fun k o h => by simp [h]
  obtain ⟨⟨p0, hp0, hc0⟩, h6⟩ := h5 _ hθ
  refine ⟨fun s hs => ⟨p0, (group_covers hθ h4).mpr hc0, (hs.base p0 (covered_basic hcand.basic hc0)).mpr hp0⟩, fun s hr p q hp hq hsp hsq => ?_⟩
  exact C80_invariant hL hO hU hP hwf hcand.basic (horders acts hacts).1 (horders acts hacts).2 (hN invs h1 inv hinv _) hbal h6 s hr p q ((group_covers hθ h4).mp hp) ((group_covers hθ h4).mp hq) hsp hsq

omit [DecidableEq V] in
theorem instantiatePart_spec {os : List O} {part : IPart P} {x : P × List (Option O)} (h : instantiatePart os part = some x) : x.1 = part.pred ∧ x.2.length = part.args.length ∧ x.2.count none = part.args.count none ∧ ∀ o, some o ∈ x.2 → o ∈ os := by
  obtain ⟨xs, h1, rfl⟩ := Option.map_eq_some_iff.mp h
  have h2 := Mas.mapAll_iff.mp h1
  refine ⟨rfl, h2.length_eq.symm, ?_, fun o ho => ?_⟩
  · show xs.count none = part.args.count none
    generalize part.args = l at h2
    clear h1 h
    induction h2 with
    | nil => rfl
    | @cons a b l xs hab _ ih =>
      cases a with
      | none =>
        cases hab
        simp [ih]
      | some k =>
        obtain ⟨o, _, rfl⟩ := Option.map_eq_some_iff.mp hab
        simp [ih]
  · obtain ⟨a, ha, hab⟩ := Mas.mapAll_mem h1 ho
    cases a with
    | none => cases hab
    | some k =>
      obtain ⟨o', ho', h3⟩ := Option.map_eq_some_iff.mp hab
      cases h3
      exact List.mem_of_getElem? ho'

/-- **C80**: The form of the groups: their atoms have different predicates, which are not derived, the right number of arguments with at most one counted one, and only declared objects. -/
theorem C80_form {L : LTask P V O T F} {ar : P → Nat} {fnAr : F → Nat} (hL : L.Ok ar fnAr) {preds : List (P × Nat)} (hpreds : ∀ x ∈ preds, x.2 = ar x.1) {limit : Nat} {orders : List (List (LAction P V O T F × Option (List (List O))))}
    (horders : ∀ acts ∈ orders, (acts.map (·.1)).Perm L.actions) {groups : List (List (P × List (Option O)))} (h : getGroups L.eq limit preds L.actions orders L.init = some groups) :
    ∀ g ∈ groups, (g.map (·.1)).Nodup ∧ ∀ x ∈ g, x.2.length = ar x.1 ∧ x.2.count none ≤ 1 ∧ (∀ y ∈ L.axioms, y.pred ≠ x.1) ∧ ∀ o, some o ∈ x.2 → ∃ t, (o, t) ∈ L.objects := by
  intro g hg
  obtain ⟨invs, h1, h2⟩ := C80_find hL hpreds limit horders
  rw [getGroups, h1, Option.bind_some] at h
  obtain ⟨keys, hk, h⟩ := Option.bind_eq_some_iff.mp h
  obtain ⟨⟨inv, os⟩, hkey, hmap⟩ := Mas.mapAll_mem h hg
  obtain ⟨⟨inv', a⟩, hx, hf⟩ := Mas.mapAll_mem hk (List.mem_filter.mp hkey).1
  obtain ⟨part, hpart, hf⟩ := Option.bind_eq_some_iff.mp hf
  obtain ⟨os', hos, hf⟩ := Option.map_eq_some_iff.mp hf
  injection hf with hf1 hf2
  have hf1' : inv' = inv := hf1
  subst hf1' hf2
  obtain ⟨a', ha, hx⟩ := List.mem_flatMap.mp hx
  obtain ⟨inv'', hinv, hx⟩ := List.mem_map.mp hx
  injection hx with hx1 hx2
  subst hx1 hx2
  obtain ⟨⟨n, hw⟩, hb⟩ := h2 _ (List.mem_filter.mp hinv).1
  constructor
  · have key : ∀ {l : List (IPart P)} {g : List (P × List (Option O))}, List.Forall₂ (fun q x => instantiatePart os' q = some x) l g → g.map (·.1) = l.map (·.pred) := by
      intro l g h
      induction h with
      | nil => rfl
      | cons hab _ ih => rw [List.map_cons, List.map_cons, (instantiatePart_spec hab).1, ih]
    rw [key (Mas.mapAll_iff.mp hmap)]
    exact hw.preds
  · intro x hx
    obtain ⟨q, hq, hqx⟩ := Mas.mapAll_mem hmap hx
    obtain ⟨e1, e2, e3, e4⟩ := instantiatePart_spec hqx
    refine ⟨by rw [e2, e1, hw.length q hq], by rw [e3]; exact hw.once q hq, by rw [e1]; exact hb q hq, fun o ho => ?_⟩
    obtain ⟨k, _, hk'⟩ := Mas.mapAll_mem hos (e4 o ho)
    obtain ⟨y, hy, rfl⟩ := Option.map_eq_some_iff.mp hk'
    exact hL.initObjects a' ha _ (List.of_mem_zip (List.mem_of_find?_eq_some hy)).2

/-! Example: trucks and packages.  Predicates: 0 is "=", 1 is at(thing, place), 2 is in(package, truck), 3 is road(place, place).  Variables, objects and types are numbers. -/
namespace C80Example

/-- drive(10, 11, 12) -/
def drive : LAction Nat Nat Nat Nat Nat where
  name := "drive".toList
  params := [(10, 2), (11, 1), (12, 1)]
  external := 3
  pre := [.lit false ⟨1, [.var 10, .var 11]⟩, .lit false ⟨3, [.var 11, .var 12]⟩]
  effects := [⟨[], [], true, ⟨1, [.var 10, .var 11]⟩⟩, ⟨[], [], false, ⟨1, [.var 10, .var 12]⟩⟩]
  cost := .none

/-- load(10, 11, 12): a package, a truck and a place -/
def load : LAction Nat Nat Nat Nat Nat where
  name := "load".toList
  params := [(10, 3), (11, 2), (12, 1)]
  external := 3
  pre := [.lit false ⟨1, [.var 10, .var 12]⟩, .lit false ⟨1, [.var 11, .var 12]⟩]
  effects := [⟨[], [], true, ⟨1, [.var 10, .var 12]⟩⟩, ⟨[], [], false, ⟨2, [.var 10, .var 11]⟩⟩]
  cost := .none

/-- unload(10, 11, 12) -/
def unload : LAction Nat Nat Nat Nat Nat where
  name := "unload".toList
  params := [(10, 3), (11, 2), (12, 1)]
  external := 3
  pre := [.lit false ⟨2, [.var 10, .var 11]⟩, .lit false ⟨1, [.var 11, .var 12]⟩]
  effects := [⟨[], [], true, ⟨2, [.var 10, .var 11]⟩⟩, ⟨[], [], false, ⟨1, [.var 10, .var 12]⟩⟩]
  cost := .none

/-- places 1 and 2, the truck 5 and the package 6; types: 1 is place, 2 is truck, 3 is package, 0 is object -/
def ex : LTask Nat Nat Nat Nat Nat where
  eq := 0
  objectName := fun o => (toString o).toList
  supertypes := fun t => if t = 0 then [] else [0]
  objects := [(1, 1), (2, 1), (5, 2), (6, 3)]
  init := [⟨1, [5, 1]⟩, ⟨1, [6, 2]⟩, ⟨3, [1, 2]⟩, ⟨3, [2, 1]⟩, ⟨0, [1, 1]⟩, ⟨0, [2, 2]⟩, ⟨0, [5, 5]⟩, ⟨0, [6, 6]⟩]
  values := []
  goal := [.lit false ⟨1, [.const 6, .const 1]⟩]
  actions := [drive, load, unload]
  axioms := []
  metric := false

/-- predicates with their numbers of arguments -/
def preds : List (Nat × Nat) := [(0, 2), (1, 2), (2, 2), (3, 2)]

theorem ex_ok : ex.Ok (fun _ => 2) (fun _ => 2) where
  initArity := by decide
  valueArity := by decide
  goalArity := by simp [condArity, ex]
  preArity := by simp [condArity, ex, drive, load, unload]
  costArity := by simp +contextual [ex, drive, load, unload]
  effectArity := by simp [condArity, ex, drive, load, unload]
  axiomArity := by simp [condArity, ex]
  eqArity := rfl
  eqSame := by decide
  eqOnly := by simp [ex]
  eqEffect := by simp [ex, drive, load, unload]
  eqAxiom := by simp [ex]
  initObjects := by simp [ex]
  valueObjects := by simp [ex]
  effectObjects := by simp [ex, drive, load, unload]
  preVars := by decide
  costVars := by simp [ex, drive, load, unload]
  effectVars := by
    have h : ∀ A ∈ ex.actions, ∀ e ∈ A.effects, ∀ v ∈ condVars e.cond ++ e.atom.vars, v ∈ A.params.map (·.1) := by decide
    exact fun A hA e he v hv => .inl (h A hA e he v (List.mem_append.mpr hv))
  axiomVars := by decide
  goalVars := rfl
  actionParams := by decide
  axiomParams := by decide
  effectParams := by decide
  derivedInit := by simp [ex, LTask.Derived]
  derivedEffect := by decide
  functional := by simp [ex]

/-- driving from a place to itself adds the deleted atom again, but no other atom -/
theorem ex_readding (inv : List (IPart Nat)) (θ : Nat → Nat) : ex.NoReadding inv θ := by
  rintro s _ A σ ⟨hA, _⟩ p q _ _ hq ⟨e, he, τ, hx, hn, rfl, _⟩ ⟨e', he', τ', hx', hn', heq, _⟩ hp ⟨e'', he'', τ'', hx'', hn'', rfl, _⟩
  have v : ∀ (f : LEffect Nat Nat Nat Nat) ρ, f.params = [] → ex.Extends f σ ρ → ρ = σ := fun f ρ hf h => funext fun v => h.1 v (by simp [hf])
  simp only [ex, List.mem_cons, List.not_mem_nil, or_false] at hA
  rcases hA with rfl | rfl | rfl <;> simp only [drive, load, unload, List.mem_cons, List.not_mem_nil, or_false] at he he' he'' <;> rcases he with rfl | rfl <;> rcases he' with rfl | rfl <;> rcases he'' with rfl | rfl <;>
    simp only [Bool.false_eq_true, Bool.true_eq_false] at hn hn' hn'' <;> obtain rfl := v _ τ rfl hx <;> obtain rfl := v _ τ' rfl hx' <;> obtain rfl := v _ τ'' rfl hx'' <;> simp [SymAtom.inst, Term.value] at heq hq hp
  exact hp (heq ▸ hq)

/-- the orders of the actions: as in the task -/
def orders : List (List (LAction Nat Nat Nat Nat Nat × Option (List (List Nat)))) := List.replicate 30 (ex.actions.map (·, none))

/-- the hypotheses are met -/
example : ∃ groups, getGroups 0 100 preds ex.actions orders ex.init = some groups ∧ ∀ g ∈ groups, (∀ s, ex.Initial s → ∃ p, GroupCovers g p ∧ s p) ∧ ∀ s, ex.Reachable s → ∀ p q, GroupCovers g p → GroupCovers g q → s p → s q → p = q :=
  C80_groups ex_ok (by simp [LTask.ConditionObjects, ex, drive, load, unload]) ⟨by simp [ex], by simp [ex, drive, load, unload]⟩ (by simp [LTask.PossibleDeletes, ex, drive, load, unload]) (by decide) 100
    (fun acts h => by
      obtain rfl := (List.mem_replicate.mp h).2
      exact ⟨.refl _, fun A r hr => by simp [ex] at hr⟩)
    fun _ _ inv _ θ => ex_readding inv θ

/-- the invariant: a thing is at one place or in one truck -/
example : findInvariants 0 100 preds ex.actions orders = some [[⟨1, [some 0, none]⟩, ⟨2, [some 0, none]⟩]] := by decide +kernel

/-- the groups: for the truck (which is never in a truck) and for the package -/
example : getGroups 0 100 preds ex.actions orders ex.init = some [[(1, [some 5, none]), (2, [some 5, none])], [(1, [some 6, none]), (2, [some 6, none])]] := by decide +kernel

end C80Example

/-! Where the check is wrong: examples with places 1 and 2 and the predicates 0 ("=") and 1 (at(place)), with one action `move`. -/
namespace C80Counter

/-- the task with the given action, and a type for each place -/
def task (t : Nat) (A : LAction Nat Nat Nat Nat Nat) : LTask Nat Nat Nat Nat Nat where
  eq := 0
  objectName := fun o => (toString o).toList
  supertypes := fun t => if t = 0 then [] else [0]
  objects := [(1, 1), (2, t)]
  init := [⟨1, [1]⟩, ⟨0, [1, 1]⟩, ⟨0, [2, 2]⟩]
  values := []
  goal := []
  actions := [A]
  axioms := []
  metric := false

theorem initial (t : Nat) (A : LAction Nat Nat Nat Nat Nat) : (task t A).Initial (· ∈ (task t A).init) := ⟨fun _ _ => Iff.rfl, fun p ⟨x, hx, _⟩ => by simp [task] at hx⟩

theorem reachable (t : Nat) (A : LAction Nat Nat Nat Nat Nat) (hc : A.cost = .none) (σ : Nat → Nat) (ht : (task t A).Typed A.params σ) (hp : ∀ c ∈ A.pre, c.holds σ (· ∈ (task t A).init)) :
    (task t A).Reachable ((task t A).result A σ (· ∈ (task t A).init)) :=
  ⟨_, _, initial t A, .cons _ A σ 1 _ _ _ ⟨by simp [task], ht, ⟨0, by rw [hc]; rfl⟩, hp, fun _ _ => Iff.rfl, fun p ⟨x, hx, _⟩ => by simp [task] at hx⟩ rfl (.nil _)⟩

/-- arities -/
def ar (p : Nat) : Nat := if p = 0 then 2 else 1

/-- the found group, and two of its atoms that are true together -/
def Wrong (t : Nat) (A : LAction Nat Nat Nat Nat Nat) : Prop := getGroups 0 100 [(0, 2), (1, 1)] [A] (List.replicate 30 [(A, none)]) (task t A).init = some [[(1, [none])]] ∧
  ∃ s, (task t A).Reachable s ∧ GroupCovers [(1, [none])] (⟨1, [1]⟩ : GAtom Nat Nat) ∧ GroupCovers [(1, [none])] (⟨1, [2]⟩ : GAtom Nat Nat) ∧ s ⟨1, [1]⟩ ∧ s ⟨1, [2]⟩

/-- move(10, 11, 12) from 10 to 11, where 12 is 10; it also adds at(12) -/
def readd : LAction Nat Nat Nat Nat Nat where
  name := "move".toList
  params := [(10, 0), (11, 0), (12, 0)]
  external := 3
  pre := [.lit false ⟨1, [.var 10]⟩, .lit false ⟨0, [.var 12, .var 10]⟩]
  effects := [⟨[], [], true, ⟨1, [.var 10]⟩⟩, ⟨[], [], false, ⟨1, [.var 11]⟩⟩, ⟨[], [], false, ⟨1, [.var 12]⟩⟩]
  cost := .none

/-- move(10, 11) from 10 to 11, with a delete effect for all places of type 2 -/
def typed : LAction Nat Nat Nat Nat Nat where
  name := "move".toList
  params := [(10, 0), (11, 0)]
  external := 2
  pre := [.lit false ⟨1, [.var 10]⟩]
  effects := [⟨[(12, 2)], [], true, ⟨1, [.var 12]⟩⟩, ⟨[], [], false, ⟨1, [.var 11]⟩⟩]
  cost := .none

/-- move(10, 11) from 10 to 11, with a delete effect that never happens -/
def never : LAction Nat Nat Nat Nat Nat where
  name := "move".toList
  params := [(10, 0), (11, 0)]
  external := 2
  pre := [.lit false ⟨1, [.var 10]⟩]
  effects := [⟨[], [.falsity], true, ⟨1, [.var 10]⟩⟩, ⟨[], [], false, ⟨1, [.var 11]⟩⟩]
  cost := .none

theorem readd_ok : (task 1 readd).Ok ar (fun _ => 0) where
  initArity := by decide
  valueArity := by decide
  goalArity := by simp [condArity, task]
  preArity := by simp [condArity, task, readd, ar]
  costArity := by simp +contextual [task, readd]
  effectArity := by simp [condArity, task, readd, ar]
  axiomArity := by simp [task]
  eqArity := rfl
  eqSame := by decide
  eqOnly := by simp [task]
  eqEffect := by simp [task, readd]
  eqAxiom := by simp [task]
  initObjects := by simp [task]
  valueObjects := by simp [task]
  effectObjects := by simp [task, readd]
  preVars := by decide
  costVars := by simp [task, readd]
  effectVars := by simp [task, readd, condVars, SymAtom.vars, Term.var?]
  axiomVars := by decide
  goalVars := rfl
  actionParams := by decide
  axiomParams := by decide
  effectParams := by decide
  derivedInit := by simp [task, LTask.Derived]
  derivedEffect := by decide
  functional := by simp [task]

theorem typed_ok : (task 2 typed).Ok ar (fun _ => 0) where
  initArity := by decide
  valueArity := by decide
  goalArity := by simp [condArity, task]
  preArity := by simp [condArity, task, typed, ar]
  costArity := by simp +contextual [task, typed]
  effectArity := by simp [condArity, task, typed, ar]
  axiomArity := by simp [task]
  eqArity := rfl
  eqSame := by decide
  eqOnly := by simp [task]
  eqEffect := by simp [task, typed]
  eqAxiom := by simp [task]
  initObjects := by simp [task]
  valueObjects := by simp [task]
  effectObjects := by simp [task, typed]
  preVars := by decide
  costVars := by simp [task, typed]
  effectVars := by simp [task, typed, condVars, SymAtom.vars, Term.var?]
  axiomVars := by decide
  goalVars := rfl
  actionParams := by decide
  axiomParams := by decide
  effectParams := by decide
  derivedInit := by simp [task, LTask.Derived]
  derivedEffect := by decide
  functional := by simp [task]

theorem never_ok : (task 1 never).Ok ar (fun _ => 0) where
  initArity := by decide
  valueArity := by decide
  goalArity := by simp [condArity, task]
  preArity := by simp [condArity, task, never, ar]
  costArity := by simp +contextual [task, never]
  effectArity := by simp [condArity, task, never, ar]
  axiomArity := by simp [task]
  eqArity := rfl
  eqSame := by decide
  eqOnly := by simp [task]
  eqEffect := by simp [task, never]
  eqAxiom := by simp [task]
  initObjects := by simp [task]
  valueObjects := by simp [task]
  effectObjects := by simp [task, never]
  preVars := by decide
  costVars := by simp [task, never]
  effectVars := by simp [task, never, condVars, SymAtom.vars, Term.var?]
  axiomVars := by decide
  goalVars := rfl
  actionParams := by decide
  axiomParams := by decide
  effectParams := by decide
  derivedInit := by simp [task, LTask.Derived]
  derivedEffect := by decide
  functional := by simp [task]

/-- the values of the variables: from 1 to 2 -/
def val (v : Nat) : Nat := if v = 11 then 2 else 1

/-- an atom that the action deletes and adds again is counted as deleted: all other conditions are met, but two atoms of a group are true -/
theorem C80_readding_fails : (task 1 readd).Ok ar (fun _ => 0) ∧ (task 1 readd).ConditionObjects ∧ (task 1 readd).UntypedDeletes ∧ (task 1 readd).PossibleDeletes ∧ Wrong 1 readd := by
  refine ⟨readd_ok, by simp [LTask.ConditionObjects, task, readd], ⟨by simp [task], by simp [task, readd]⟩, by simp [LTask.PossibleDeletes, task, readd], by decide +kernel, _,
    reachable 1 readd rfl val (by simp [LTask.Typed, LTask.HasType, task, readd, val]) (by simp [readd, Part.holds, SymAtom.inst, Term.value, val, task]), ⟨_, List.mem_singleton_self _, rfl, by simp⟩, ⟨_, List.mem_singleton_self _, rfl, by simp⟩,
    .inl ⟨⟨[], [], false, ⟨1, [.var 12]⟩⟩, by simp [readd], val, ⟨fun _ _ => rfl, by simp [LTask.Typed]⟩, rfl, rfl, by simp⟩, .inl ⟨⟨[], [], false, ⟨1, [.var 11]⟩⟩, by simp [readd], val, ⟨fun _ _ => rfl, by simp [LTask.Typed]⟩, rfl, rfl, by simp⟩⟩

/-- the types of variables of delete effects are not considered -/
theorem C80_types_fail : (task 2 typed).Ok ar (fun _ => 0) ∧ (task 2 typed).ConditionObjects ∧ (∀ inv θ, (task 2 typed).NoReadding inv θ) ∧ (task 2 typed).PossibleDeletes ∧ Wrong 2 typed := by
  refine ⟨typed_ok, by simp [LTask.ConditionObjects, task, typed], ?_, by simp [LTask.PossibleDeletes, task, typed], by decide +kernel, _,
    reachable 2 typed rfl val (by simp [LTask.Typed, LTask.HasType, task, typed, val]) (by simp [typed, Part.holds, SymAtom.inst, Term.value, val, task]), ⟨_, List.mem_singleton_self _, rfl, by simp⟩, ⟨_, List.mem_singleton_self _, rfl, by simp⟩,
    .inr ⟨by simp [task], ?_⟩, .inl ⟨⟨[], [], false, ⟨1, [.var 11]⟩⟩, by simp [typed], val, ⟨fun _ _ => rfl, by simp [LTask.Typed]⟩, rfl, rfl, by simp⟩⟩
  · rintro inv θ s _ A σ ⟨hA, _⟩ p q _ _ hq _ ⟨e, he, τ, hx, hn, rfl, _⟩ hp ⟨e', he', τ', hx', hn', rfl, _⟩
    obtain rfl : A = typed := by simpa [task] using hA
    have v : ∀ (f : LEffect Nat Nat Nat Nat) ρ, f.params = [] → (task 2 typed).Extends f σ ρ → ρ = σ := fun f ρ hf h => funext fun v => h.1 v (by simp [hf])
    simp only [typed, List.mem_cons, List.not_mem_nil, or_false] at he he'
    rcases he with rfl | rfl <;> rcases he' with rfl | rfl <;> simp only [Bool.true_eq_false] at hn hn'
    obtain rfl := v _ τ rfl hx
    obtain rfl := v _ τ' rfl hx'
    exact hp hq
  · rintro ⟨e, he, τ, hx, hn, heq, _⟩
    simp only [typed, List.mem_cons, List.not_mem_nil, or_false] at he
    rcases he with rfl | rfl
    · have h1 := hx.2 (12, 2) (by simp)
      simp [LTask.HasType, task] at h1
      simp [SymAtom.inst, Term.value] at heq
      omega
    · simp at hn

/-- a delete effect whose condition is false is counted like one without condition -/
theorem C80_falsity_fails : (task 1 never).Ok ar (fun _ => 0) ∧ (task 1 never).ConditionObjects ∧ (task 1 never).UntypedDeletes ∧ (∀ inv θ, (task 1 never).NoReadding inv θ) ∧ Wrong 1 never := by
  have hno : ∀ σ s q, ¬ (task 1 never).Changes true never σ s q := by
    rintro σ s q ⟨e, he, τ, hx, hn, _, hc⟩
    simp only [never, List.mem_cons, List.not_mem_nil, or_false] at he
    rcases he with rfl | rfl
    · exact hc .falsity (by simp)
    · simp at hn
  refine ⟨never_ok, by simp [LTask.ConditionObjects, task, never], ⟨by simp [task], by simp [task, never]⟩, ?_, by decide +kernel, _,
    reachable 1 never rfl val (by simp [LTask.Typed, LTask.HasType, task, never, val]) (by simp [never, Part.holds, SymAtom.inst, Term.value, val, task]), ⟨_, List.mem_singleton_self _, rfl, by simp⟩, ⟨_, List.mem_singleton_self _, rfl, by simp⟩,
    .inr ⟨by simp [task], hno _ _ _⟩, .inl ⟨⟨[], [], false, ⟨1, [.var 11]⟩⟩, by simp [never], val, ⟨fun _ _ => rfl, by simp [LTask.Typed]⟩, rfl, rfl, by simp⟩⟩
  rintro inv θ s _ A σ ⟨hA, _⟩ p q _ _ _ hd
  obtain rfl : A = never := by simpa [task] using hA
  exact (hno _ _ _ hd).elim

end C80Counter

end Verif.Invariants
