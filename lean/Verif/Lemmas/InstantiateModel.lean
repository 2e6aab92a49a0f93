import Verif.Model.Instantiate
import Verif.Props.PrologProgram

/-
What the exploration finds for the Datalog program of a task.
-/
namespace Verif.Instantiate
open Verif.Datalog Verif.Lifted Verif.BuildModel
variable {P V O T F : Type}

/-- properties of the atoms that are found -/
structure Model (L : LTask P V O T F) (out : List (GAtom (DPred P T F) O)) : Prop where
  init : ∀ a ∈ L.init, up a ∈ out
  act : ∀ (i : Nat) (A : LAction P V O T F) (σ : V → O), L.actions[i]? = some A → L.Typed A.params σ → .falsity ∉ A.pre → (∀ a, .lit false a ∈ A.pre → up (a.inst σ) ∈ out) → (∃ n, L.CostValue σ n A.cost) →
    ⟨.action i, A.params.map (fun p => σ p.1)⟩ ∈ out
  eff : ∀ (i : Nat) (A : LAction P V O T F) (σ τ : V → O) (e : LEffect P V O T), L.actions[i]? = some A → ⟨.action i, A.params.map (fun p => σ p.1)⟩ ∈ out → e ∈ A.effects → e.negated = false → L.Extends e σ τ → .falsity ∉ e.cond →
    (∀ a, .lit false a ∈ e.cond → up (a.inst τ) ∈ out) → up (e.atom.inst τ) ∈ out
  ax : ∀ (j : Nat) (x : LAxiom P V O T) (σ : V → O), L.axioms[j]? = some x → L.Typed x.params σ → .falsity ∉ x.cond → (∀ a, .lit false a ∈ x.cond → up (a.inst σ) ∈ out) → ⟨.axiom j, x.params.map (fun p => σ p.1)⟩ ∈ out
  head : ∀ (j : Nat) (x : LAxiom P V O T) (σ : V → O), L.axioms[j]? = some x → ⟨.axiom j, x.params.map (fun p => σ p.1)⟩ ∈ out → up (x.head σ) ∈ out
  goal : .falsity ∉ L.goal → (∀ a, .lit false a ∈ L.goal → ∀ σ, up (a.inst σ) ∈ out) → ⟨.goal, []⟩ ∈ out
  typedAct : ∀ (i : Nat) (args : List O), ⟨.action i, args⟩ ∈ out → ∃ A σ, L.actions[i]? = some A ∧ args = A.params.map (fun p => σ p.1) ∧ L.Typed A.params σ ∧ ∃ n, L.CostValue σ n A.cost
  typedAx : ∀ (i : Nat) (args : List O), ⟨.axiom i, args⟩ ∈ out → ∃ x σ, L.axioms[i]? = some x ∧ args = x.params.map (fun p => σ p.1) ∧ L.Typed x.params σ

variable {L : LTask P V O T F}

/-- the kinds of rules -/
theorem mem_rules {r : Clause (DPred P T F) V O} : r ∈ rules L ↔
    (∃ i A, L.actions[i]? = some A ∧ (r = ⟨actionAtom i A, ruleBody A.params A.pre (pneAtoms A.cost)⟩ ∨ ∃ e ∈ A.effects, e.negated = false ∧ r = ⟨lift e.atom, actionAtom i A :: ruleBody [] e.cond []⟩)) ∨
    (∃ j x, L.axioms[j]? = some x ∧ (r = ⟨axiomAtom j x, ruleBody x.params x.cond []⟩ ∨ r = ⟨⟨.pred x.pred, (x.params.take x.external).map (fun p => .var p.1)⟩, [axiomAtom j x]⟩)) ∨
    r = ⟨⟨.goal, []⟩, ruleBody [] L.goal []⟩ := by
  unfold rules actionRules axiomRules effectRule
  simp only [List.mem_append, List.mem_flatMap, List.mem_singleton, List.mem_cons, Prod.exists, List.mem_zipIdx_iff_getElem?, List.not_mem_nil, or_false, or_assoc]
  constructor
  · rintro (⟨A, i, h, h' | ⟨e, he, h'⟩⟩ | ⟨x, j, h, h'⟩ | h)
    · exact .inl ⟨i, A, h, .inl h'⟩
    · cases hn : e.negated with
      | true => simp [hn] at h'
      | false => simp [hn] at h'; exact .inl ⟨i, A, h, .inr ⟨e, he, hn, h'⟩⟩
    · exact .inr (.inl ⟨j, x, h, h'⟩)
    · exact .inr (.inr h)
  · rintro (⟨i, A, h, h' | ⟨e, he, hn, h'⟩⟩ | ⟨j, x, h, h'⟩ | h)
    · exact .inl ⟨A, i, h, .inl h'⟩
    · exact .inl ⟨A, i, h, .inr ⟨e, he, by simp [hn, h']⟩⟩
    · exact .inr (.inl ⟨x, j, h, h'⟩)
    · exact .inr (.inr h)

theorem mem_facts {a : GAtom (DPred P T F) O} : a ∈ facts L ↔ (∃ t o, a = ⟨.type t, [o]⟩ ∧ L.HasType t o) ∨ (∃ b ∈ L.init, a = up b) ∨ ∃ x ∈ L.values, a = ⟨.fn x.1.1, x.1.2⟩ := by
  unfold facts LTask.HasType
  simp only [List.mem_append, List.mem_flatMap, List.mem_map, List.mem_cons, Prod.exists, or_assoc]
  constructor
  · rintro (⟨o, u, h, t, ht, rfl⟩ | ⟨b, hb, rfl⟩ | ⟨f, os, n, h, rfl⟩)
    · exact .inl ⟨t, o, rfl, u, h, ht⟩
    · exact .inr (.inl ⟨b, hb, rfl⟩)
    · exact .inr (.inr ⟨f, os, n, h, rfl⟩)
  · rintro (⟨t, o, rfl, u, h, ht⟩ | ⟨b, hb, rfl⟩ | ⟨f, os, n, h, rfl⟩)
    · exact .inl ⟨o, u, h, t, ht, rfl⟩
    · exact .inr (.inl ⟨b, hb, rfl⟩)
    · exact .inr (.inr ⟨f, os, n, h, rfl⟩)

theorem falsity_iff {cs : List (Part P V O)} : cs.any isFalsity = true ↔ .falsity ∈ cs := by
  rw [List.any_eq_true]
  constructor
  · rintro ⟨c, hc, h⟩
    cases c with
    | lit n a => simp [isFalsity] at h
    | falsity => exact hc
  · exact fun h => ⟨_, h, rfl⟩

/-- the atoms of a rule body -/
theorem mem_ruleBody {ps : List (V × T)} {cs : List (Part P V O)} {pne : List (SymAtom (DPred P T F) V O)} {c : SymAtom (DPred P T F) V O} (h : .falsity ∉ cs) :
    c ∈ ruleBody ps cs pne ↔ (∃ p ∈ ps, c = typeAtom p) ∨ (∃ a, .lit false a ∈ cs ∧ c = lift a) ∨ c ∈ pne := by
  unfold ruleBody
  rw [if_neg (fun h' => h (falsity_iff.mp h'))]
  simp only [List.mem_append, List.mem_map, List.mem_filterMap, or_assoc]
  constructor
  · rintro (⟨p, hp, rfl⟩ | ⟨q, hq, h'⟩ | h')
    · exact .inl ⟨p, hp, rfl⟩
    · match q, hq, h' with
      | .lit false a, hq, h' => simp [positive] at h'; exact .inr (.inl ⟨a, hq, h'.symm⟩)
    · exact .inr (.inr h')
  · rintro (⟨p, hp, rfl⟩ | ⟨a, ha, rfl⟩ | h')
    · exact .inl ⟨p, hp, rfl⟩
    · exact .inr (.inl ⟨_, ha, rfl⟩)
    · exact .inr (.inr h')

theorem ruleBody_falsity {ps : List (V × T)} {cs : List (Part P V O)} {pne : List (SymAtom (DPred P T F) V O)} (h : .falsity ∈ cs) : ruleBody ps cs pne = [⟨.never, []⟩] := by
  unfold ruleBody
  rw [if_pos (falsity_iff.mpr h)]

theorem mem_ruleBody' {ps : List (V × T)} {cs : List (Part P V O)} {pne : List (SymAtom (DPred P T F) V O)} {c : SymAtom (DPred P T F) V O} (h : c ∈ ruleBody ps cs pne) :
    c = ⟨.never, []⟩ ∨ (∃ p ∈ ps, c = typeAtom p) ∨ (∃ a, .lit false a ∈ cs ∧ c = lift a) ∨ c ∈ pne := by
  classical
  by_cases hf : Part.falsity ∈ cs
  · rw [ruleBody_falsity hf] at h
    exact .inl (by simpa using h)
  · exact .inr ((mem_ruleBody hf).mp h)

theorem hasType_object {t : T} {o : O} (h : L.HasType t o) : o ∈ objects (facts L) :=
  List.mem_flatMap.mpr ⟨⟨.type t, [o]⟩, mem_facts.mpr (.inl ⟨t, o, rfl, h⟩), by simp⟩

theorem declared_object {t : T} {o : O} (h : (o, t) ∈ L.objects) : o ∈ objects (facts L) := hasType_object ⟨t, h, .inl rfl⟩

theorem mem_pneAtoms {c : CostExpr V O F} {a : SymAtom (DPred P T F) V O} : a ∈ pneAtoms c ↔ ∃ f args, c = .fn f args ∧ a = ⟨.fn f, args⟩ := by
  cases c <;> simp [pneAtoms]

theorem lit_vars {cs : List (Part P V O)} {n : Bool} {a : SymAtom P V O} (h : .lit n a ∈ cs) {v : V} (hv : v ∈ a.vars) : v ∈ condVars cs := List.mem_flatMap.mpr ⟨_, h, hv⟩

/-- the objects are those that are declared -/
theorem mem_objects {ar : P → Nat} {fnAr : F → Nat} (hL : L.Ok ar fnAr) {o : O} (h : o ∈ objects (facts L)) : ∃ t, (o, t) ∈ L.objects := by
  obtain ⟨a, ha, ho⟩ := List.mem_flatMap.mp h
  rcases mem_facts.mp ha with ⟨t, o', rfl, u, hu, _⟩ | ⟨b, hb, rfl⟩ | ⟨x, hx, rfl⟩
  · simp only [List.mem_singleton] at ho
    exact ⟨u, ho ▸ hu⟩
  · exact hL.initObjects b hb o ho
  · exact hL.valueObjects x hx o ho

theorem equality {ar : P → Nat} {fnAr : F → Nat} (hL : L.Ok ar fnAr) : Equality (.pred L.eq) (facts L) (rules L) where
  same o ho := by
    obtain ⟨t, ht⟩ := mem_objects hL ho
    exact mem_facts.mpr (.inr (.inl ⟨_, hL.eqSame _ ht, rfl⟩))
  only a ha h := by
    rcases mem_facts.mp ha with ⟨t, o, rfl, _⟩ | ⟨b, hb, rfl⟩ | ⟨x, _, rfl⟩
    · simp at h
    · exact hL.eqOnly b hb (by simpa [up] using h)
    · simp at h
  effects r hr h := by
    rcases mem_rules.mp hr with ⟨i, A, hA, rfl | ⟨e, he, _, rfl⟩⟩ | ⟨j, x, hx, rfl | rfl⟩ | rfl
    · simp [actionAtom] at h
    · exact hL.eqEffect A (List.mem_of_getElem? hA) e he (by simpa [lift] using h)
    · simp [axiomAtom] at h
    · exact hL.eqAxiom x (List.mem_of_getElem? hx) (by simpa using h)
    · simp at h
  consts r hr o ho := by
    rcases mem_rules.mp hr with ⟨i, A, hA, rfl | ⟨e, he, _, rfl⟩⟩ | ⟨j, x, hx, rfl | rfl⟩ | rfl
    · simp [actionAtom] at ho
    · obtain ⟨t, ht⟩ := hL.effectObjects A (List.mem_of_getElem? hA) e he o ho
      exact declared_object ht
    · simp [axiomAtom] at ho
    · obtain ⟨p, _, h⟩ := List.mem_map.mp ho
      simp at h
    · simp at ho

/-- numbers of arguments -/
noncomputable def arity (L : LTask P V O T F) (ar : P → Nat) (fnAr : F → Nat) : DPred P T F → Nat
  | .pred p => ar p
  | .type _ => 1
  | .fn f => fnAr f
  | .action i => (L.actions[i]?.map (fun A => A.params.length)).getD 0
  | .axiom i => (L.axioms[i]?.map (fun A => A.params.length)).getD 0
  | _ => 0

theorem body_arity {ar : P → Nat} {fnAr : F → Nat} {ps : List (V × T)} {cs : List (Part P V O)} {pne : List (SymAtom (DPred P T F) V O)} (h : condArity ar cs) (hp : ∀ c ∈ pne, c.args.length = arity L ar fnAr c.pred)
    {c : SymAtom (DPred P T F) V O} (hc : c ∈ ruleBody ps cs pne) : c.args.length = arity L ar fnAr c.pred := by
  rcases mem_ruleBody' hc with rfl | ⟨p, _, rfl⟩ | ⟨a, ha, rfl⟩ | hc
  · rfl
  · rfl
  · exact h _ a ha
  · exact hp c hc

theorem clauseArity {ar : P → Nat} {fnAr : F → Nat} (hL : L.Ok ar fnAr) : ClauseArity (arity L ar fnAr) (facts L) (rules L) := by
  refine ⟨fun a ha => ?_, fun r hr => ?_⟩
  · rcases mem_facts.mp ha with ⟨t, o, rfl, _⟩ | ⟨b, hb, rfl⟩ | ⟨x, hx, rfl⟩
    · rfl
    · exact hL.initArity b hb
    · exact hL.valueArity x hx
  · rcases mem_rules.mp hr with ⟨i, A, hA, rfl | ⟨e, he, _, rfl⟩⟩ | ⟨j, x, hx, rfl | rfl⟩ | rfl
    · refine ⟨by simp [actionAtom, arity, hA], fun c hc => body_arity (hL.preArity A (List.mem_of_getElem? hA)) (fun c hc => ?_) hc⟩
      obtain ⟨f, args, hf, rfl⟩ := mem_pneAtoms.mp hc
      exact hL.costArity A (List.mem_of_getElem? hA) f args hf
    · refine ⟨(hL.effectArity A (List.mem_of_getElem? hA) e he).2, fun c hc => ?_⟩
      rcases List.mem_cons.mp hc with rfl | hc
      · simp [actionAtom, arity, hA]
      · exact body_arity (hL.effectArity A (List.mem_of_getElem? hA) e he).1 (by simp) hc
    · exact ⟨by simp [axiomAtom, arity, hx], fun c hc => body_arity (hL.axiomArity x (List.mem_of_getElem? hx)).1 (by simp) hc⟩
    · obtain ⟨_, h2, h3⟩ := hL.axiomArity x (List.mem_of_getElem? hx)
      refine ⟨?_, fun c hc => ?_⟩
      · simp only [arity, List.length_map, List.length_take]
        omega
      · obtain rfl : c = _ := by simpa using hc
        simp [axiomAtom, arity, hx]
    · exact ⟨rfl, fun c hc => body_arity hL.goalArity (by simp) hc⟩

theorem action_vars {i : Nat} {A : LAction P V O T F} {v : V} : v ∈ (actionAtom i A : SymAtom (DPred P T F) V O).vars ↔ v ∈ A.params.map (·.1) := by
  rw [mem_vars]
  simp [actionAtom]

theorem axiom_vars {i : Nat} {x : LAxiom P V O T} {v : V} : v ∈ (axiomAtom i x : SymAtom (DPred P T F) V O).vars ↔ v ∈ x.params.map (·.1) := by
  rw [mem_vars]
  simp [axiomAtom]

theorem body_vars {ps : List (V × T)} {cs : List (Part P V O)} {pne : List (SymAtom (DPred P T F) V O)} {c : SymAtom (DPred P T F) V O} (hc : c ∈ ruleBody ps cs pne) {v : V} (hv : v ∈ c.vars) :
    v ∈ ps.map (·.1) ∨ v ∈ condVars cs ∨ ∃ c ∈ pne, v ∈ c.vars := by
  rcases mem_ruleBody' hc with rfl | ⟨p, hp, rfl⟩ | ⟨a, ha, rfl⟩ | hc
  · simp [SymAtom.vars] at hv
  · rw [mem_vars] at hv
    simp only [typeAtom, List.mem_singleton, Term.var.injEq] at hv
    exact .inl (hv ▸ List.mem_map.mpr ⟨p, hp, rfl⟩)
  · exact .inr (.inl (lit_vars ha hv))
  · exact .inr (.inr ⟨c, hc, hv⟩)

theorem rule_vars {ar : P → Nat} {fnAr : F → Nat} (hL : L.Ok ar fnAr) {r : Clause (DPred P T F) V O} (hr : r ∈ rules L) {v : V} (hv : v ∈ r.vars) : v ∈ L.vars := by
  have hact : ∀ {A : LAction P V O T F}, A ∈ L.actions → v ∈ A.params.map (·.1) → v ∈ L.vars := fun {A} hA h => List.mem_append_left _ (List.mem_flatMap.mpr ⟨A, hA, List.mem_append_left _ h⟩)
  have heff : ∀ {A : LAction P V O T F} {e : LEffect P V O T}, A ∈ L.actions → e ∈ A.effects → v ∈ A.params.map (·.1) ∨ v ∈ e.params.map (·.1) → v ∈ L.vars := by
    rintro A e hA he (h | h)
    · exact hact hA h
    · exact List.mem_append_left _ (List.mem_flatMap.mpr ⟨A, hA, List.mem_append_right _ (List.mem_flatMap.mpr ⟨e, he, h⟩)⟩)
  have hax : ∀ {x : LAxiom P V O T}, x ∈ L.axioms → v ∈ x.params.map (·.1) → v ∈ L.vars := fun {x} hx h => List.mem_append_right _ (List.mem_flatMap.mpr ⟨x, hx, h⟩)
  unfold Clause.vars at hv
  rw [List.mem_append, List.mem_flatMap] at hv
  rcases mem_rules.mp hr with ⟨i, A, hA, rfl | ⟨e, he, _, rfl⟩⟩ | ⟨j, x, hx, rfl | rfl⟩ | rfl
  · have hA' := List.mem_of_getElem? hA
    rcases hv with hv | ⟨c, hc, hv⟩
    · exact hact hA' (action_vars.mp hv)
    · rcases body_vars hc hv with h | h | ⟨c, hc, h⟩
      · exact hact hA' h
      · exact hact hA' (hL.preVars A hA' v h)
      · obtain ⟨f, args, hf, rfl⟩ := mem_pneAtoms.mp hc
        exact hact hA' ((hL.costVars A hA' f args hf).2 v h)
  · have hA' := List.mem_of_getElem? hA
    rcases hv with hv | ⟨c, hc, hv⟩
    · exact heff hA' he (hL.effectVars A hA' e he v (.inr hv))
    · rcases List.mem_cons.mp hc with rfl | hc
      · exact hact hA' (action_vars.mp hv)
      · rcases body_vars hc hv with h | h | ⟨c, hc, h⟩
        · simp at h
        · exact heff hA' he (hL.effectVars A hA' e he v (.inl h))
        · simp at hc
  · have hx' := List.mem_of_getElem? hx
    rcases hv with hv | ⟨c, hc, hv⟩
    · exact hax hx' (axiom_vars.mp hv)
    · rcases body_vars hc hv with h | h | ⟨c, hc, h⟩
      · exact hax hx' h
      · exact hax hx' (hL.axiomVars x hx' v h)
      · simp at hc
  · have hx' := List.mem_of_getElem? hx
    rcases hv with hv | ⟨c, hc, hv⟩
    · rw [mem_vars] at hv
      obtain ⟨p, hp, h⟩ := List.mem_map.mp hv
      exact hax hx' (List.mem_map.mpr ⟨p, List.mem_of_mem_take hp, by simpa using h⟩)
    · obtain rfl : c = _ := by simpa using hc
      exact hax hx' (axiom_vars.mp hv)
  · rcases hv with hv | ⟨c, hc, hv⟩
    · simp [SymAtom.vars] at hv
    · rcases body_vars hc hv with h | h | ⟨c, hc, h⟩
      · simp at h
      · rw [hL.goalVars] at h
        simp at h
      · simp at hc

theorem body_pred {ps : List (V × T)} {cs : List (Part P V O)} {pne : List (SymAtom (DPred P T F) V O)} (hp : ∀ c ∈ pne, ∃ f, c.pred = .fn f) {c : SymAtom (DPred P T F) V O} (hc : c ∈ ruleBody ps cs pne) :
    c.pred ≠ .object ∧ ∀ i, c.pred ≠ .new i := by
  rcases mem_ruleBody' hc with rfl | ⟨p, _, rfl⟩ | ⟨a, ha, rfl⟩ | hc
  · simp
  · simp [typeAtom]
  · simp [lift]
  · obtain ⟨f, hf⟩ := hp c hc
    simp [hf]

theorem rule_pred {r : Clause (DPred P T F) V O} (hr : r ∈ rules L) {p : DPred P T F} (hp : p ∈ r.preds) : p ≠ .object ∧ ∀ i, p ≠ .new i := by
  unfold Clause.preds at hp
  rcases mem_rules.mp hr with ⟨i, A, hA, rfl | ⟨e, he, _, rfl⟩⟩ | ⟨j, x, hx, rfl | rfl⟩ | rfl <;> rcases List.mem_cons.mp hp with rfl | hp
  · simp [actionAtom]
  · obtain ⟨c, hc, rfl⟩ := List.mem_map.mp hp
    refine body_pred (fun c hc => ?_) hc
    obtain ⟨f, args, _, rfl⟩ := mem_pneAtoms.mp hc
    exact ⟨f, rfl⟩
  · simp [lift]
  · obtain ⟨c, hc, rfl⟩ := List.mem_map.mp hp
    rcases List.mem_cons.mp hc with rfl | hc
    · simp [actionAtom]
    · exact body_pred (by simp) hc
  · simp [axiomAtom]
  · obtain ⟨c, hc, rfl⟩ := List.mem_map.mp hp
    exact body_pred (by simp) hc
  · simp
  · obtain rfl : p = _ := by simpa using hp
    simp [axiomAtom]
  · simp
  · obtain ⟨c, hc, rfl⟩ := List.mem_map.mp hp
    exact body_pred (by simp) hc

theorem fits {e : PrologProgram.Env (DPred P T F) V O} {ar : P → Nat} {fnAr : F → Nat} (hL : L.Ok ar fnAr) (he : Names e L) : e.Fits (facts L) (rules L) := by
  have hfact : ∀ a ∈ facts L, a.pred ≠ .object ∧ ∀ i, a.pred ≠ .new i := by
    intro a ha
    rcases mem_facts.mp ha with ⟨t, o, rfl, _⟩ | ⟨b, hb, rfl⟩ | ⟨x, hx, rfl⟩ <;> simp [up]
  constructor
  · rw [he.object]; exact fun a ha => (hfact a ha).1
  · rw [he.object]; exact fun r hr p hp => (rule_pred hr hp).1
  · rw [he.object, he.eq]; simp
  · intro a ha i; rw [he.name]; exact (hfact a ha).2 i
  · intro r hr p hp i; rw [he.name]; exact (rule_pred hr hp).2 i
  · intro i; rw [he.name, he.eq]; simp
  · intro i; rw [he.name, he.object]; simp
  · exact fun r hr v _ i h => he.fresh v i (rule_vars hL hr h)

/-- predicates of types and functions occur in facts only -/
theorem loosely_fact {a : GAtom (DPred P T F) O} (h : DerivableLoosely (facts L) (rules L) a) (hp : (∃ t, a.pred = .type t) ∨ (∃ f, a.pred = .fn f) ∨ a.pred = .never) : a ∈ facts L := by
  cases h with
  | fact _ ha => exact ha
  | rule r hr σ τ hτ hf hc =>
    exfalso
    rcases mem_rules.mp hr with ⟨i, A, hA, rfl | ⟨e, he, _, rfl⟩⟩ | ⟨j, x, hx, rfl | rfl⟩ | rfl <;> simp [SymAtom.inst, actionAtom, axiomAtom, lift] at hp

theorem loosely_never {args : List O} : ¬ DerivableLoosely (facts L) (rules L) ⟨.never, args⟩ := by
  intro h
  rcases mem_facts.mp (loosely_fact h (.inr (.inr rfl))) with ⟨t, o, h, _⟩ | ⟨b, _, h⟩ | ⟨x, _, h⟩ <;> simp [up] at h

theorem loosely_type {t : T} {o : O} (h : DerivableLoosely (facts L) (rules L) ⟨.type t, [o]⟩) : L.HasType t o := by
  rcases mem_facts.mp (loosely_fact h (.inl ⟨t, rfl⟩)) with ⟨t, o, h, h'⟩ | ⟨b, _, h⟩ | ⟨x, _, h⟩
  · simp only [GAtom.mk.injEq, DPred.type.injEq, List.cons.injEq, and_true] at h
    rw [h.1, h.2]
    exact h'
  · simp [up] at h
  · simp at h

theorem loosely_fn {f : F} {os : List O} (h : DerivableLoosely (facts L) (rules L) ⟨.fn f, os⟩) : ∃ n, ((f, os), n) ∈ L.values := by
  rcases mem_facts.mp (loosely_fact h (.inr (.inl ⟨f, rfl⟩))) with ⟨t, o, h, h'⟩ | ⟨b, _, h⟩ | ⟨x, hx, h⟩
  · simp at h
  · simp [up] at h
  · simp only [GAtom.mk.injEq, DPred.fn.injEq] at h
    refine ⟨x.2, ?_⟩
    rw [h.1, h.2]
    exact hx

/-- the parameters have the right types if the body of a rule was found -/
theorem loosely_typed {σ : V → O} {τ : SymAtom (DPred P T F) V O → V → O} {eff : SymAtom (DPred P T F) V O} {ps : List (V × T)} {cs : List (Part P V O)} {pne : List (SymAtom (DPred P T F) V O)} (he : ∀ v, v ∈ ps.map (·.1) → v ∈ eff.vars)
    (hτ : ∀ c ∈ ruleBody ps cs pne, ∀ v ∈ c.vars, v ∈ eff.vars → τ c v = σ v) (hc : ∀ c ∈ ruleBody ps cs pne, c.vars.Nodup → DerivableLoosely (facts L) (rules L) (c.inst (τ c))) :
    .falsity ∉ cs ∧ L.Typed ps σ := by
  have hf : .falsity ∉ cs := by
    intro hf
    rw [ruleBody_falsity hf] at hc
    exact loosely_never (hc _ (List.mem_singleton.mpr rfl) (by simp [SymAtom.vars]))
  refine ⟨hf, fun p hp => ?_⟩
  have hm : typeAtom p ∈ ruleBody ps cs pne := (mem_ruleBody hf).mpr (.inl ⟨p, hp, rfl⟩)
  have h := hc _ hm (by simp [SymAtom.vars, typeAtom, Term.var?])
  have hv : τ (typeAtom p) p.1 = σ p.1 := hτ _ hm p.1 (by rw [mem_vars]; simp [typeAtom]) (he _ (List.mem_map.mpr ⟨p, hp, rfl⟩))
  simp only [SymAtom.inst, typeAtom, List.map_cons, List.map_nil, Term.value] at h hv
  rw [hv] at h
  exact loosely_type h

variable [DecidableEq P] [DecidableEq V] [DecidableEq O] [DecidableEq T] [DecidableEq F]

theorem inst_action (i : Nat) (A : LAction P V O T F) (σ : V → O) : (actionAtom i A : SymAtom (DPred P T F) V O).inst σ = ⟨.action i, A.params.map (fun p => σ p.1)⟩ := by
  simp [SymAtom.inst, actionAtom, Function.comp_def, Term.value]

theorem inst_axiom (i : Nat) (A : LAxiom P V O T) (σ : V → O) : (axiomAtom i A : SymAtom (DPred P T F) V O).inst σ = ⟨.axiom i, A.params.map (fun p => σ p.1)⟩ := by
  simp [SymAtom.inst, axiomAtom, Function.comp_def, Term.value]

theorem inst_lift (a : SymAtom P V O) (σ : V → O) : (lift a : SymAtom (DPred P T F) V O).inst σ = up (a.inst σ) := rfl

/-- the exploration ends, with atoms that have the properties above -/
theorem explored [Nonempty O] {e : PrologProgram.Env (DPred P T F) V O} {ar : P → Nat} {fnAr : F → Nat} (hL : L.Ok ar fnAr) (he : Names e L) :
    ∃ prog n out, PrologProgram.translate e (facts L) (rules L) = some prog ∧ (∀ m, n ≤ m → BuildModel.computeModel m prog.1 prog.2 = .ok out) ∧ Model L out := by
  obtain ⟨facts', rules', n, out, h1, h2, h3, h4, h5⟩ := PrologProgram.C76_bounds he.ok (fits hL he) (he.eq ▸ equality hL) (clauseArity hL) (by rw [he.eq]; exact hL.eqArity)
  refine ⟨(facts', rules'), n, out, h1, h2, ?_⟩
  have htype : ∀ {t : T} {o : O}, L.HasType t o → ⟨.type t, [o]⟩ ∈ out := fun {t o} h => h3 _ (mem_facts.mpr (.inl ⟨t, o, rfl, h⟩))
  have hpar : ∀ {ps : List (V × T)} {σ : V → O}, L.Typed ps σ → ∀ v ∈ ps.map (·.1), σ v ∈ objects (facts L) := by
    intro ps σ h v hv
    obtain ⟨p, hp, rfl⟩ := List.mem_map.mp hv
    exact hasType_object (h p hp)
  have hbody : ∀ {ps : List (V × T)} {cs : List (Part P V O)} {pne : List (SymAtom (DPred P T F) V O)} {σ : V → O}, L.Typed ps σ → .falsity ∉ cs → (∀ a, .lit false a ∈ cs → up (a.inst σ) ∈ out) → (∀ c ∈ pne, c.inst σ ∈ out) →
      ∀ c ∈ ruleBody ps cs pne, c.inst σ ∈ out := by
    intro ps cs pne σ ht hf hc hp c hmem
    rcases (mem_ruleBody hf).mp hmem with ⟨p, hp', rfl⟩ | ⟨a, ha, rfl⟩ | h
    · exact htype (ht p hp')
    · exact hc a ha
    · exact hp c h
  have hloose : ∀ a ∈ out, a.pred ≠ .object → (∀ i, a.pred ≠ .new i) → DerivableLoosely (facts L) (rules L) a := by
    intro a ha ho hn
    exact h5 a ha (he.object ▸ ho) (fun i => (he.name i) ▸ hn i)
  refine ⟨?_, ?_, ?_, ?_, ?_, ?_, ?_, ?_⟩
  · exact fun a ha => h3 _ (mem_facts.mpr (.inr (.inl ⟨a, ha, rfl⟩)))
  · intro i A σ hA ht hf hc ⟨n, hn⟩
    rw [← inst_action]
    refine h4 _ (mem_rules.mpr (.inl ⟨i, A, hA, .inl rfl⟩)) σ (fun v hv _ => hpar ht v (action_vars.mp hv)) (hbody ht hf hc fun c hc' => ?_)
    obtain ⟨f, args, hf', rfl⟩ := mem_pneAtoms.mp hc'
    rw [hf'] at hn
    exact h3 _ (mem_facts.mpr (.inr (.inr ⟨_, hn, rfl⟩)))
  · intro i A σ τ ef hA hout hef hneg hext hf hc
    have hA' := List.mem_of_getElem? hA
    rw [← inst_lift]
    refine h4 _ (mem_rules.mpr (.inl ⟨i, A, hA, .inr ⟨ef, hef, hneg, rfl⟩⟩)) τ (fun v hv hfree => ?_) fun c hc' => ?_
    · rcases hL.effectVars A hA' ef hef v (.inr hv) with h | h
      · exact absurd (action_vars.mpr h) (hfree (actionAtom i A) (by simp))
      · exact hpar hext.2 v h
    · rcases List.mem_cons.mp hc' with rfl | hc'
      · rw [inst_action]
        convert hout using 2
        refine List.map_congr_left fun p hp => hext.1 p.1 fun h => (hL.effectParams A hA' ef hef).2 _ h (List.mem_map.mpr ⟨p, hp, rfl⟩)
      · exact hbody (ps := []) (pne := []) (fun p hp => by simp at hp) hf hc (by simp) c hc'
  · intro j x σ hx ht hf hc
    rw [← inst_axiom]
    exact h4 _ (mem_rules.mpr (.inr (.inl ⟨j, x, hx, .inl rfl⟩))) σ (fun v hv _ => hpar ht v (axiom_vars.mp hv)) (hbody ht hf hc (by simp))
  · intro j x σ hx hout
    have hh : (⟨.pred x.pred, (x.params.take x.external).map (fun p => .var p.1)⟩ : SymAtom (DPred P T F) V O).inst σ = up (x.head σ) := by
      simp [SymAtom.inst, up, LAxiom.head, Function.comp_def, Term.value]
    rw [← hh]
    refine h4 _ (mem_rules.mpr (.inr (.inl ⟨j, x, hx, .inr rfl⟩))) σ (fun v hv hfree => ?_) fun c hc => ?_
    · rw [mem_vars] at hv
      obtain ⟨p, hp, h⟩ := List.mem_map.mp hv
      exact absurd (axiom_vars.mpr (List.mem_map.mpr ⟨p, List.mem_of_mem_take hp, by simpa using h⟩)) (hfree (axiomAtom j x) (by simp))
    · obtain rfl : c = _ := by simpa using hc
      rw [inst_axiom]
      exact hout
  · intro hf hc
    obtain ⟨o⟩ := ‹Nonempty O›
    exact h4 _ (mem_rules.mpr (.inr (.inr rfl))) (fun _ => o) (fun v hv => by simp [SymAtom.vars] at hv) (hbody (ps := []) (pne := []) (fun p hp => by simp at hp) hf (fun a ha => hc a ha _) (by simp))
  · intro i args h
    have hl := hloose _ h (by simp) (by simp)
    generalize ha : (⟨.action i, args⟩ : GAtom (DPred P T F) O) = a at hl
    cases hl with
    | fact _ hf =>
      subst ha
      rcases mem_facts.mp hf with ⟨t, o, h, _⟩ | ⟨b, _, h⟩ | ⟨x, _, h⟩ <;> simp [up] at h
    | rule r hr σ τ hτ _ hc =>
      rcases mem_rules.mp hr with ⟨k, A, hA, rfl | ⟨e, he, _, rfl⟩⟩ | ⟨j, x, hx, rfl | rfl⟩ | rfl
      · rw [inst_action] at ha
        simp only [GAtom.mk.injEq, DPred.action.injEq] at ha
        obtain ⟨rfl, rfl⟩ := ha
        obtain ⟨hf, ht⟩ := loosely_typed (fun v hv => action_vars.mpr hv) hτ hc
        refine ⟨A, σ, hA, rfl, ht, ?_⟩
        cases hcost : A.cost with
        | none => exact ⟨0, rfl⟩
        | const n => exact ⟨n, rfl⟩
        | fn f args =>
          obtain ⟨hnd, hvars⟩ := hL.costVars A (List.mem_of_getElem? hA) f args hcost
          have hm : (⟨.fn f, args⟩ : SymAtom (DPred P T F) V O) ∈ ruleBody A.params A.pre (pneAtoms A.cost) := (mem_ruleBody hf).mpr (.inr (.inr (mem_pneAtoms.mpr ⟨f, args, hcost, rfl⟩)))
          have h := hc _ hm hnd
          rw [inst_congr (fun v hv => hτ _ hm v hv (action_vars.mpr (hvars v hv)))] at h
          exact loosely_fn h
      all_goals simp [SymAtom.inst, lift, axiomAtom] at ha
  · intro i args h
    have hl := hloose _ h (by simp) (by simp)
    generalize ha : (⟨.axiom i, args⟩ : GAtom (DPred P T F) O) = a at hl
    cases hl with
    | fact _ hf =>
      subst ha
      rcases mem_facts.mp hf with ⟨t, o, h, _⟩ | ⟨b, _, h⟩ | ⟨x, _, h⟩ <;> simp [up] at h
    | rule r hr σ τ hτ _ hc =>
      rcases mem_rules.mp hr with ⟨k, A, hA, rfl | ⟨e, he, _, rfl⟩⟩ | ⟨j, x, hx, rfl | rfl⟩ | rfl
      · simp [SymAtom.inst, actionAtom] at ha
      · simp [SymAtom.inst, lift] at ha
      · rw [inst_axiom] at ha
        simp only [GAtom.mk.injEq, DPred.axiom.injEq] at ha
        obtain ⟨rfl, rfl⟩ := ha
        obtain ⟨hf, ht⟩ := loosely_typed (fun v hv => axiom_vars.mpr hv) hτ hc
        exact ⟨x, σ, hx, rfl, ht⟩
      all_goals simp [SymAtom.inst] at ha

end Verif.Instantiate
