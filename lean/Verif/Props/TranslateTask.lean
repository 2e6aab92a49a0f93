import Verif.Model.TranslateGroups
import Verif.Props.Invariants
import Verif.Props.Uniquify

/-
C80 and C81, with C72 to C79: the whole translation, with the invariants that the code finds.
-/
namespace Verif.Invariants
open Verif.Datalog Verif.Lifted Verif.Strips Verif.Pddl

section
variable {V T F : Type} [DecidableEq V] [DecidableEq T] [DecidableEq F] {L : LTask (List Char) V (List Char) T F} {e : PrologProgram.Env (Instantiate.DPred (List Char) T F) V (List Char)} {ar : List Char → Nat} {fnAr : F → Nat}

/-- the actions with their lists of reachable parameters are known to the synthesis of invariants -/
theorem reach_lists (hL : L.Ok ar fnAr) (he : Instantiate.Names e L) {keep : Bool} {G : Instantiate.Grounded (List Char) (List Char)} (h : Instantiate.Explores e keep L G) {acts : List (LAction (List Char) V (List Char) T F × Option (List (List (List Char))))}
    (hacts : acts.Perm (L.actions.zip (G.params.map some))) : (acts.map (·.1)).Perm L.actions ∧ L.ReachLists acts := by
  obtain ⟨h1, h2⟩ := Instantiate.C77_params hL he h
  constructor
  · have := hacts.map (·.1)
    rwa [List.map_fst_zip (by simp [h1])] at this
  · intro A r hA s hs σ hσ
    obtain ⟨i, hi⟩ := List.getElem?_of_mem (hacts.mem_iff.mp hA)
    rw [List.getElem?_zip_eq_some, List.getElem?_map, Option.map_eq_some_iff] at hi
    obtain ⟨hi1, r', hi2, hr⟩ := hi
    cases hr
    exact (h2 i A r hi1 hi2).1 s hs σ hσ.2.1 hσ.2.2.1 hσ.2.2.2

theorem count_counted : ∀ {l : List (Option (List Char))}, (∀ o, some o ∈ l → o ≠ FactGroups.counted) → (l.map (fun a => a.getD FactGroups.counted)).count FactGroups.counted = @List.count _ (@Option.instBEq _ instBEqOfDecidableEq) none l
  | [], _ => rfl
  | a :: l, h => by
    have ih := count_counted (l := l) fun o ho => h o (List.mem_cons_of_mem _ ho)
    cases a with
    | none => simp [ih]
    | some o =>
      have := h o List.mem_cons_self
      simp [ih, this]

theorem groupCovers_of_instance {g : List (List Char × List (Option (List Char)))} (hg : ∀ x ∈ g, ∀ o, some o ∈ x.2 → o ≠ FactGroups.counted) {objects : List (List Char)} {inv : List FactGroups.Atom} (hinv : inv.Perm (groupAtoms g)) {p : FactGroups.Atom}
    (h : FactGroups.Instance objects inv p) : GroupCovers g (Instantiate.stringAtom.symm p) := by
  obtain ⟨fact, hf, h⟩ := h
  obtain ⟨x, hx, rfl⟩ := List.mem_map.mp (hinv.mem_iff.mp hf)
  rcases h with ⟨_, rfl⟩ | ⟨_, o, _, rfl⟩
  · refine ⟨x, hx, rfl, ?_⟩
    show List.Forall₂ _ x.2 (x.2.map _)
    rw [List.forall₂_map_right_iff, List.forall₂_same]
    rintro a _ b rfl
    rfl
  · refine ⟨x, hx, rfl, ?_⟩
    show List.Forall₂ _ x.2 ((x.2.map _).map _)
    rw [List.map_map, List.forall₂_map_right_iff, List.forall₂_same]
    rintro a ha b rfl
    simp [FactGroups.substitute, hg x hx b ha]

/-- **C80**: The groups that the synthesis of invariants returns for a normalised task, with the reachable parameters of the instantiation, are invariants of the grounded task as the choice of groups (C72) needs them. -/
theorem C80_invariants (hL : L.Ok ar fnAr) (he : Instantiate.Names e L) {keep : Bool} {G : Instantiate.Grounded (List Char) (List Char)} (h : Instantiate.Explores e keep L G) (goal : List (Literal (GAtom (List Char) (List Char))))
    (hO : L.ConditionObjects) (hU : L.UntypedDeletes) (hP : L.PossibleDeletes) (hnames : (L.objects.map (·.1)).Nodup) (hX : FactGroups.counted ∉ L.objects.map (·.1)) {preds : List (List Char × Nat)} (hpreds : ∀ x ∈ preds, x.2 = ar x.1) (limit : Nat)
    {orders : List (List (LAction (List Char) V (List Char) T F × Option (List (List (List Char)))))} (horders : ∀ acts ∈ orders, acts.Perm (L.actions.zip (G.params.map some)))
    (hN : ∀ invs, findInvariants L.eq limit preds L.actions orders = some invs → ∀ inv ∈ invs, ∀ θ, L.NoReadding inv θ) :
    ∃ groups, getGroups L.eq limit preds L.actions orders L.init = some groups ∧ ∀ invariants : List (List FactGroups.Atom), List.Forall₂ (fun inv g => inv.Perm (groupAtoms g)) invariants groups →
      FactGroups.InvariantsOf ((Instantiate.task L G goal).rename Instantiate.stringAtom) (L.objects.map (·.1)) invariants := by
  have horders' := fun acts ha => reach_lists hL he h (horders acts ha)
  obtain ⟨groups, h1, h2⟩ := C80_groups hL hO hU hP hpreds limit horders' hN
  have h3 := C80_form hL hpreds (fun acts ha => (horders' acts ha).1) h1
  refine ⟨groups, h1, fun invariants hi => ?_⟩
  have hgroup : ∀ inv ∈ invariants, ∃ g ∈ groups, inv.Perm (groupAtoms g) := fun inv hinv => Normalize.forall₂_left hi inv hinv
  have hfree : ∀ g ∈ groups, ∀ x ∈ g, ∀ o, some o ∈ x.2 → o ≠ FactGroups.counted := by
    rintro g hg x hx o ho rfl
    obtain ⟨t, ht⟩ := ((h3 g hg).2 x hx).2.2.2 _ ho
    exact hX (List.mem_map.mpr ⟨_, ht, rfl⟩)
  refine ⟨hnames, ?_, ?_, ?_, ?_⟩
  · intro inv hinv fact hf
    obtain ⟨g, hg, hp⟩ := hgroup inv hinv
    obtain ⟨x, hx, rfl⟩ := List.mem_map.mp (hp.mem_iff.mp hf)
    show (x.2.map _).count _ ≤ 1
    rw [count_counted (hfree g hg x hx)]
    exact ((h3 g hg).2 x hx).2.1
  · intro inv hinv
    obtain ⟨g, hg, hp⟩ := hgroup inv hinv
    rw [(hp.map _).nodup_iff, groupAtoms, List.map_map]
    exact (h3 g hg).1
  · intro inv hinv s hs p q hp hq hsp hsq
    obtain ⟨g, hg, hperm⟩ := hgroup inv hinv
    have hs' : (Instantiate.task L G goal).Reachable (s ∘ Instantiate.stringAtom) := by
      obtain ⟨s0, as, h4, h5⟩ := hs
      have h6 := Strips.initial_rename Instantiate.stringAtom.symm h4
      have h7 := Strips.run_rename Instantiate.stringAtom.symm h5
      rw [StripsTask.rename_back] at h6 h7
      exact ⟨_, _, h6, h7⟩
    have := (h2 g hg).2 _ ((Instantiate.C77_states hL he h goal).1 _ hs') _ _ (groupCovers_of_instance (hfree g hg) hperm hp) (groupCovers_of_instance (hfree g hg) hperm hq) hsp hsq
    exact Instantiate.stringAtom.symm.injective this
  · intro inv hinv p hp hd
    obtain ⟨g, hg, hperm⟩ := hgroup inv hinv
    obtain ⟨x, hx, h4, _⟩ := groupCovers_of_instance (hfree g hg) hperm hp
    have hd' := (Strips.derived_rename_iff Instantiate.stringAtom (t := Instantiate.task L G goal) (p := Instantiate.stringAtom.symm p)).mp (by rwa [Equiv.apply_symm_apply])
    obtain ⟨out, _, hG⟩ := h.grounding hL he
    obtain ⟨y, hy, h5⟩ := (Instantiate.derived_of hG hd').1
    exact ((h3 g hg).2 x hx).2.2.1 y hy (h5.trans h4.symm)

/-- **C81**, with C72 to C77 and C80: what happens to a normalised task (exploration, instantiation, synthesis of invariants, treatment of axioms, choice of groups, introduction of finite-domain variables).  Every plan of the resulting task is a plan of the given one;
every plan of the given task is one of the resulting task, up to actions that can be left out.  The parts of invariants can be sorted in any way. -/
theorem C81_pipeline (hL : L.Ok ar fnAr) (he : Instantiate.Names e L) (hst : L.Stratifiable) {o : StripsToSas.Options} {G : Instantiate.Grounded (List Char) (List Char)} (h : Instantiate.Explores e o.keepNoOps L G)
    {goal : List (Literal (GAtom (List Char) (List Char)))} (hgoal : G.goal = some goal) (hO : L.ConditionObjects) (hU : L.UntypedDeletes) (hP : L.PossibleDeletes) (hnames : (L.objects.map (·.1)).Nodup) (hX : FactGroups.counted ∉ L.objects.map (·.1))
    {preds : List (List Char × Nat)} (hpreds : ∀ x ∈ preds, x.2 = ar x.1) (limit : Nat) {orders : List (List (LAction (List Char) V (List Char) T F × Option (List (List (List Char)))))} (horders : ∀ acts ∈ orders, acts.Perm (L.actions.zip (G.params.map some)))
    (hN : ∀ invs, findInvariants L.eq limit preds L.actions orders = some invs → ∀ inv ∈ invs, ∀ θ, L.NoReadding inv θ) {atoms : List FactGroups.Atom} (ha : atoms.Nodup) (hat : ∀ p ∈ G.fluent, Instantiate.stringAtom p ∈ atoms) (max : Bool) :
    ∃ invGroups, getGroups L.eq limit preds L.actions orders L.init = some invGroups ∧ ∀ invariants : List (List FactGroups.Atom), List.Forall₂ (fun inv g => inv.Perm (groupAtoms g)) invariants invGroups →
    ∃ ax ls groups mutexGroups names S, AxiomRules.handleAxioms max ((Instantiate.task L G goal).rename Instantiate.stringAtom) = .ok ax ls ∧
      FactGroups.computeGroups o.partialEncoding (L.objects.map (·.1)) invariants atoms (FactGroups.negativeInGoal ((Instantiate.task L G goal).rename Instantiate.stringAtom).goal) = some (groups, mutexGroups, names) ∧
      StripsToSas.translateTask o groups mutexGroups names { (Instantiate.task L G goal).rename Instantiate.stringAtom with axioms := ax, layers := ls } = some S ∧ (∀ p, S.HasPlan p → L.HasPlan p) ∧
      ∀ p, L.HasPlan p → ∃ p', p'.Sublist p ∧ S.HasPlan p' ∧ (o.keepNoOps = true → goal ≠ [] → p' = p) := by
  obtain ⟨groups, h1, h2⟩ := C80_invariants hL he h goal hO hU hP hnames hX hpreds limit horders hN
  exact ⟨groups, h1, fun invariants hi => Instantiate.C77_pipeline hL he hst h hgoal (h2 invariants hi) ha hat max⟩

/-- **C81**, with C72 to C80: the same for a task as it is parsed: its variables are renamed and it is normalised first. -/
theorem C81_translate {num : V → Nat → V} (hnum : ∀ v i j, num v i = num v j → i = j) {Q : PTask (List Char) V (List Char) T F} {n : Normalize.Env (List Char) V} (hQ : Q.Basic ar fnAr) (hD : Q.Distinct) (hF : Normalize.Fresh n Q) (hst : Q.Stratifiable) (hd : Q.DerivedOk) :
    ∃ Q' L ar', Uniquify.uniqTask num Q = some Q' ∧ Normalize.normalize n Q' = .ok L ∧ L.Ok ar' fnAr ∧ ∀ {e : PrologProgram.Env (Instantiate.DPred (List Char) T F) V (List Char)}, Instantiate.Names e L → ∀ o : StripsToSas.Options, ∃ G, Instantiate.Explores e o.keepNoOps L G ∧
      ((G.relaxedReachable = false ∨ G.goal = none) → ∀ p, ¬ Q.HasPlan p) ∧
      ∀ goal : List (Literal (GAtom (List Char) (List Char))), G.goal = some goal → L.ConditionObjects → L.UntypedDeletes → L.PossibleDeletes → (L.objects.map (·.1)).Nodup → FactGroups.counted ∉ L.objects.map (·.1) →
      ∀ preds : List (List Char × Nat), (∀ x ∈ preds, x.2 = ar' x.1) → ∀ (limit : Nat) (orders : List (List (LAction (List Char) V (List Char) T F × Option (List (List (List Char)))))), (∀ acts ∈ orders, acts.Perm (L.actions.zip (G.params.map some))) →
      (∀ invs, findInvariants L.eq limit preds L.actions orders = some invs → ∀ inv ∈ invs, ∀ θ, L.NoReadding inv θ) → ∀ atoms : List FactGroups.Atom, atoms.Nodup → (∀ p ∈ G.fluent, Instantiate.stringAtom p ∈ atoms) → ∀ max : Bool,
      ∃ invGroups, getGroups L.eq limit preds L.actions orders L.init = some invGroups ∧ ∀ invariants : List (List FactGroups.Atom), List.Forall₂ (fun inv g => inv.Perm (groupAtoms g)) invariants invGroups →
      ∃ ax ls groups mutexGroups names S, AxiomRules.handleAxioms max ((Instantiate.task L G goal).rename Instantiate.stringAtom) = .ok ax ls ∧
        FactGroups.computeGroups o.partialEncoding (L.objects.map (·.1)) invariants atoms (FactGroups.negativeInGoal ((Instantiate.task L G goal).rename Instantiate.stringAtom).goal) = some (groups, mutexGroups, names) ∧
        StripsToSas.translateTask o groups mutexGroups names { (Instantiate.task L G goal).rename Instantiate.stringAtom with axioms := ax, layers := ls } = some S ∧ (∀ p, S.HasPlan p → Q.HasPlan p) ∧
        ∀ p, Q.HasPlan p → ∃ p', p'.Sublist p ∧ S.HasPlan p' ∧ (o.keepNoOps = true → goal ≠ [] → p' = p) := by
  obtain ⟨Q', L, h1, h2, ⟨ar', h3⟩, h4, h5⟩ := Uniquify.C79_normalize hnum hQ hD hF hst hd
  refine ⟨Q', L, ar', h1, h2, h3, fun he o => ?_⟩
  obtain ⟨G, h6⟩ := Instantiate.C77_defined h3 he o.keepNoOps
  refine ⟨G, h6, fun hu p hp => Instantiate.C77_unsolvable h3 he h6 hu p ((h5 p).mpr hp), ?_⟩
  intro goal hg hO hU hP hnames hX preds hpreds limit orders horders hN atoms ha hat max
  obtain ⟨invGroups, h7, h8⟩ := C81_pipeline h3 he h4 h6 hg hO hU hP hnames hX hpreds limit horders hN ha hat max
  refine ⟨invGroups, h7, fun invariants hi => ?_⟩
  obtain ⟨ax, ls, groups, mutexGroups, names, S, k1, k2, k3, k4, k5⟩ := h8 invariants hi
  exact ⟨ax, ls, groups, mutexGroups, names, S, k1, k2, k3, fun p hp => (h5 p).mp (k4 p hp), fun p hp => k5 p ((h5 p).mpr hp)⟩

end
/-! Example: trucks and packages, as in C80Example, with names that are strings.  Predicates: "a" is at(thing, place), "i" is in(package, truck), "r" is road(place, place).  Variables and types are numbers. -/
namespace C80Names

/-- drive(10, 11, 12) -/
def drive : LAction (List Char) Nat (List Char) Nat Nat where
  name := "drive".toList
  params := [(10, 2), (11, 1), (12, 1)]
  external := 3
  pre := [.lit false ⟨['a'], [.var 10, .var 11]⟩, .lit false ⟨['r'], [.var 11, .var 12]⟩]
  effects := [⟨[], [], true, ⟨['a'], [.var 10, .var 11]⟩⟩, ⟨[], [], false, ⟨['a'], [.var 10, .var 12]⟩⟩]
  cost := .none

/-- load(10, 11, 12): a package, a truck and a place -/
def load : LAction (List Char) Nat (List Char) Nat Nat where
  name := "load".toList
  params := [(10, 3), (11, 2), (12, 1)]
  external := 3
  pre := [.lit false ⟨['a'], [.var 10, .var 12]⟩, .lit false ⟨['a'], [.var 11, .var 12]⟩]
  effects := [⟨[], [], true, ⟨['a'], [.var 10, .var 12]⟩⟩, ⟨[], [], false, ⟨['i'], [.var 10, .var 11]⟩⟩]
  cost := .none

/-- unload(10, 11, 12) -/
def unload : LAction (List Char) Nat (List Char) Nat Nat where
  name := "unload".toList
  params := [(10, 3), (11, 2), (12, 1)]
  external := 3
  pre := [.lit false ⟨['i'], [.var 10, .var 11]⟩, .lit false ⟨['a'], [.var 11, .var 12]⟩]
  effects := [⟨[], [], true, ⟨['i'], [.var 10, .var 11]⟩⟩, ⟨[], [], false, ⟨['a'], [.var 10, .var 12]⟩⟩]
  cost := .none

/-- places x and y, the truck t and the package p; types: 1 is place, 2 is truck, 3 is package, 0 is object -/
def ex : LTask (List Char) Nat (List Char) Nat Nat where
  eq := ['=']
  objectName := id
  supertypes := fun t => if t = 0 then [] else [0]
  objects := [(['x'], 1), (['y'], 1), (['t'], 2), (['p'], 3)]
  init := [⟨['a'], [['t'], ['x']]⟩, ⟨['a'], [['p'], ['y']]⟩, ⟨['r'], [['x'], ['y']]⟩, ⟨['r'], [['y'], ['x']]⟩, ⟨['='], [['x'], ['x']]⟩, ⟨['='], [['y'], ['y']]⟩, ⟨['='], [['t'], ['t']]⟩, ⟨['='], [['p'], ['p']]⟩]
  values := []
  goal := [.lit false ⟨['a'], [.const ['p'], .const ['x']]⟩]
  actions := [drive, load, unload]
  axioms := []
  metric := false

/-- predicates with their numbers of arguments -/
def preds : List (List Char × Nat) := [(['='], 2), (['a'], 2), (['i'], 2), (['r'], 2)]

theorem ex_ok : ex.Ok (fun _ => 2) (fun _ => 2) where
  initArity := by decide
  valueArity := by decide
  goalArity := by simp [condArity, ex]
  preArity := by simp [condArity, ex, drive, load, unload]
  costArity := by simp +contextual [ex, drive, load, unload]
  effectArity := by simp [condArity, ex, drive, load, unload]
  axiomArity := by simp [condArity, ex]
  eqArity := rfl
  eqSame := by decide
  eqOnly := by simp [ex]
  eqEffect := by simp [ex, drive, load, unload]
  eqAxiom := by simp [ex]
  initObjects := by simp [ex]
  valueObjects := by simp [ex]
  effectObjects := by simp [ex, drive, load, unload]
  preVars := by decide
  costVars := by simp [ex, drive, load, unload]
  effectVars := by
    have h : ∀ A ∈ ex.actions, ∀ e ∈ A.effects, ∀ v ∈ condVars e.cond ++ e.atom.vars, v ∈ A.params.map (·.1) := by decide
    exact fun A hA e he v hv => .inl (h A hA e he v (List.mem_append.mpr hv))
  axiomVars := by decide
  goalVars := rfl
  actionParams := by decide
  axiomParams := by decide
  effectParams := by decide
  derivedInit := by simp [ex, LTask.Derived]
  derivedEffect := by decide
  functional := by simp [ex]

theorem ex_readding (inv : List (IPart (List Char))) (θ : Nat → List Char) : ex.NoReadding inv θ := by
  rintro s _ A σ ⟨hA, _⟩ p q _ _ hq ⟨e, he, τ, hx, hn, rfl, _⟩ ⟨e', he', τ', hx', hn', heq, _⟩ hp ⟨e'', he'', τ'', hx'', hn'', rfl, _⟩
  have v : ∀ (f : LEffect (List Char) Nat (List Char) Nat) ρ, f.params = [] → ex.Extends f σ ρ → ρ = σ := fun f ρ hf h => funext fun v => h.1 v (by simp [hf])
  simp only [ex, List.mem_cons, List.not_mem_nil, or_false] at hA
  rcases hA with rfl | rfl | rfl <;> simp only [drive, load, unload, List.mem_cons, List.not_mem_nil, or_false] at he he' he'' <;> rcases he with rfl | rfl <;> rcases he' with rfl | rfl <;> rcases he'' with rfl | rfl <;>
    simp only [Bool.false_eq_true, Bool.true_eq_false] at hn hn' hn'' <;> obtain rfl := v _ τ rfl hx <;> obtain rfl := v _ τ' rfl hx' <;> obtain rfl := v _ τ'' rfl hx'' <;> simp [SymAtom.inst, Term.value] at heq hq hp
  exact hp (heq ▸ hq)

/-- lists in their given order, and new variables from 100 on -/
def env : PrologProgram.Env (Instantiate.DPred (List Char) Nat Nat) Nat (List Char) := ⟨.pred ['='], .object, .new, fun _ i => 100 + i, id, id, id⟩

theorem names : Instantiate.Names env ex where
  ok := ⟨fun _ => .refl _, fun _ => .refl _, fun _ => .refl _, fun i j h => by simpa [env] using h, fun _ _ i j h => by simpa [env] using h⟩
  eq := rfl
  object := rfl
  name _ := rfl
  fresh v i h := by
    have : ∀ w ∈ ex.vars, w < 100 := by decide
    have := this _ h
    simp only [env] at this
    omega

/-- the hypotheses are met -/
example (o : StripsToSas.Options) : ∃ G, Instantiate.Explores env o.keepNoOps ex G ∧ ∀ goal, G.goal = some goal → ∀ atoms : List FactGroups.Atom, atoms.Nodup → (∀ p ∈ G.fluent, Instantiate.stringAtom p ∈ atoms) →
    ∃ invGroups, getGroups ['='] 100 preds ex.actions (List.replicate 30 (ex.actions.zip (G.params.map some))) ex.init = some invGroups ∧ ∃ ax ls groups mutexGroups names S,
      AxiomRules.handleAxioms true ((Instantiate.task ex G goal).rename Instantiate.stringAtom) = .ok ax ls ∧
      FactGroups.computeGroups o.partialEncoding (ex.objects.map (·.1)) (invGroups.map groupAtoms) atoms (FactGroups.negativeInGoal ((Instantiate.task ex G goal).rename Instantiate.stringAtom).goal) = some (groups, mutexGroups, names) ∧
      StripsToSas.translateTask o groups mutexGroups names { (Instantiate.task ex G goal).rename Instantiate.stringAtom with axioms := ax, layers := ls } = some S ∧ (∀ p, S.HasPlan p → ex.HasPlan p) ∧
      ∀ p, ex.HasPlan p → ∃ p', p'.Sublist p ∧ S.HasPlan p' ∧ (o.keepNoOps = true → goal ≠ [] → p' = p) := by
  obtain ⟨G, h⟩ := Instantiate.C77_defined ex_ok names o.keepNoOps
  refine ⟨G, h, fun goal hg atoms ha hat => ?_⟩
  obtain ⟨invGroups, h1, h2⟩ := C81_pipeline ex_ok names ⟨fun _ => 0, by simp [ex]⟩ h hg (by simp [LTask.ConditionObjects, ex, drive, load, unload]) ⟨by simp [ex], by simp [ex, drive, load, unload]⟩ (by simp [LTask.PossibleDeletes, ex, drive, load, unload])
    (by decide) (by decide) (preds := preds) (by decide) 100 (orders := List.replicate 30 (ex.actions.zip (G.params.map some))) (fun acts h => by rw [(List.mem_replicate.mp h).2]) (fun _ _ inv _ θ => ex_readding inv θ) ha hat true
  exact ⟨invGroups, h1, h2 _ (List.forall₂_map_left_iff.mpr (List.forall₂_same.mpr fun _ _ => .refl _))⟩

/-- the reachable parameters -/
example : (Instantiate.explore 300 env false ex).map (fun G => (G.goal.isSome, G.params)) =
    some (true, [[[['t'], ['x'], ['y']], [['t'], ['y'], ['x']]], [[['p'], ['t'], ['y']], [['p'], ['t'], ['x']]], [[['p'], ['t'], ['x']], [['p'], ['t'], ['y']]]]) := by decide +kernel

/-- the groups for the truck (which is never in a truck) and for the package -/
example : (Instantiate.explore 300 env false ex).bind (fun G => getGroups ['='] 100 preds ex.actions (List.replicate 30 (ex.actions.zip (G.params.map some))) ex.init) =
    some [[(['a'], [some ['t'], none]), (['i'], [some ['t'], none])], [(['a'], [some ['p'], none]), (['i'], [some ['p'], none])]] := by decide +kernel

end C80Names

end Verif.Invariants
