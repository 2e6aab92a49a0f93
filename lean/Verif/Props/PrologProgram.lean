import Verif.Lemmas.ProgramNormalize
import Verif.Props.BuildModel

/-
C76: The program that is explored means the same as the facts and rules it was made from.
-/
namespace Verif.PrologProgram
open Verif.Datalog Verif.BuildModel
variable {P V O : Type} [DecidableEq P] [DecidableEq V] [DecidableEq O]

/-- common part of the theorems -/
theorem translate_ok [Nonempty O] {e : Env P V O} (he : e.Ok) {ar : P → Nat} {facts : List (GAtom P O)} {rules : List (Clause P V O)} (hf : e.Fits facts rules) (hq : Equality e.eq facts rules) (har : ClauseArity ar facts rules) (h2 : ar e.eq = 2) :
    ∃ facts' rules', translate e facts rules = some (facts', rules') ∧ (∀ r ∈ rules', r.Normal) ∧ (∃ ar', Arity ar' facts' rules') ∧
      (∀ a : GAtom P O, a.pred ≠ e.object → (∀ i, a.pred ≠ e.name i) → (Follows facts' rules' a ↔ Derivable facts rules a)) ∧
      ((∀ r ∈ rules, ∀ c ∈ r.conditions, c.vars.Nodup ∧ ∀ v ∈ c.vars, v ∈ r.effect.vars) → ∀ r ∈ rules', r.Joined) ∧
      (∀ a : GAtom P O, a.pred ≠ e.object → (∀ i, a.pred ≠ e.name i) → FollowsLoosely facts' rules' a → DerivableLoosely facts rules a) ∧
      ∀ Q : GAtom P O → Prop, (∀ a ∈ facts', Q a) → (∀ r ∈ rules', Closed Q r.effect r.conditions) → (∀ a ∈ facts, Q a) ∧ ∀ r ∈ rules, ∀ σ : V → O,
        (∀ v ∈ r.effect.vars, (∀ c ∈ r.conditions, v ∉ c.vars) → σ v ∈ objects facts) → (∀ c ∈ r.conditions, ∀ v ∈ c.vars, σ v ∈ objects facts) → (∀ c ∈ r.conditions, Q (c.inst σ)) → Q (r.effect.inst σ) := by
  classical
  obtain ⟨facts', clauses, hnorm, hcl, hname, hcomplete, hlfacts, hlclosed, hmean, hmeanr, harity, hjoin⟩ := normalize_ok he hf hq
  obtain ⟨rules', hsplit, himpl⟩ := splitRules_ok he clauses 0 hcl
  refine ⟨facts', rules', by unfold translate; rw [hnorm]; simp only []; rw [hsplit]; rfl, himpl.normal, ?_, fun a ho hn => ⟨fun h => ?_, fun h => ?_⟩, fun h => himpl.joined (hjoin h), fun a ho hn h => ?_, fun Q hQ hQr => hcomplete Q hQ (himpl.complete Q hQr)⟩
  · obtain ⟨m, hm⟩ := himpl.atoms
    have har1 : ClauseArity (fun p => if p = e.object then 1 else ar p) facts rules := by
      refine ⟨fun a ha => ?_, fun r hr => ⟨?_, fun c hc => ?_⟩⟩
      · beta_reduce
        rw [if_neg (hf.factObject a ha)]
        exact har.1 a ha
      · beta_reduce
        rw [if_neg (hf.ruleObject r hr r.effect.pred (by simp [Clause.preds]))]
        exact (har.2 r hr).1
      · beta_reduce
        rw [if_neg (hf.ruleObject r hr c.pred (List.mem_cons_of_mem _ (List.mem_map.mpr ⟨c, hc, rfl⟩)))]
        exact (har.2 r hr).2 c hc
    obtain ⟨hF, hR⟩ := harity _ har1 (by beta_reduce; rw [if_neg hf.eqObject]; exact h2) (by beta_reduce; rw [if_pos rfl])
    refine ⟨fun p => if h : ∃ i, p = e.name i then m h.choose else if p = e.object then 1 else ar p, fun a ha => ?_, ?_⟩
    · beta_reduce
      rw [dif_neg (fun ⟨i, hi⟩ => hname a ha i hi)]
      exact hF a ha
    · have hall : ∀ x ∈ rules', ∀ b ∈ x.effect :: x.conditions, b.args.length = if h : ∃ i, b.pred = e.name i then m h.choose else if b.pred = e.object then 1 else ar b.pred := by
        intro x hx b hb
        rcases hm x hx b hb with ⟨i, _, hi, hl⟩ | ⟨r, hr, hbr⟩
        · have hex : ∃ i, b.pred = e.name i := ⟨i, hi⟩
          rw [dif_pos hex, he.name _ i (hex.choose_spec.symm.trans hi)]
          exact hl
        · rw [dif_neg (fun ⟨i, hi⟩ => (hcl r hr).2.2 b hbr i hi)]
          exact hR r hr b hbr
      exact fun x hx => ⟨hall x hx x.effect (by simp), fun c hc => hall x hx c (by simp [hc])⟩
  · obtain ⟨Q, hQ, hQc⟩ := himpl.sound _ hmeanr
    have hQa : Q a := by
      clear ho hn
      induction h with
      | fact a ha => exact (hQ a fun i _ => hname a ha i).mpr (hmean a ha)
      | rule r hr σ _ ih => exact hQc r hr σ ih
    rcases (hQ a fun i _ => hn i).mp hQa with h | ⟨h, _⟩
    · exact h
    · exact absurd h ho
  · obtain ⟨h1, h2⟩ := hcomplete (Follows facts' rules') (fun a ha => .fact a ha) (himpl.complete _ fun x hx σ hc => .rule x hx σ hc)
    clear ho hn
    induction h with
    | fact a ha => exact h1 a ha
    | rule r hr σ hfree hc ih => exact h2 r hr σ hfree (fun c hc' v hv => derivable_objects hq (hc c hc') _ (List.mem_map.mpr ⟨.var v, mem_vars.mp hv, rfl⟩)) ih
  · obtain ⟨Q, hQ, hQc⟩ := himpl.loose _ hlclosed
    have hQa : Q a := by
      clear ho hn
      induction h with
      | fact a ha => exact (hQ a fun i _ => hname a ha i).mpr (hlfacts a ha)
      | rule r hr σ τ hτ _ ih => exact hQc r hr σ fun c hc => ⟨τ c, hτ c hc, ih c hc⟩
    rcases (hQ a fun i _ => hn i).mp hQa with h | ⟨h, _⟩
    · exact h
    · exact absurd h ho

/-- **C76.** For every program with an equality predicate the translation is defined (no assertion fails), its rules are in the normal form that the exploration expects, with one arity per predicate, and for the predicates of the original program
exactly the same atoms follow as from the original facts and rules. -/
theorem C76_translation [Nonempty O] {e : Env P V O} (he : e.Ok) {ar : P → Nat} {facts : List (GAtom P O)} {rules : List (Clause P V O)} (hf : e.Fits facts rules) (hq : Equality e.eq facts rules) (har : ClauseArity ar facts rules) (h2 : ar e.eq = 2) :
    ∃ facts' rules', translate e facts rules = some (facts', rules') ∧ (∀ r ∈ rules', r.Normal) ∧ (∃ ar', Arity ar' facts' rules') ∧
      ∀ a : GAtom P O, a.pred ≠ e.object → (∀ i, a.pred ≠ e.name i) → (Follows facts' rules' a ↔ Derivable facts rules a) := by
  obtain ⟨facts', rules', h1, h3, h4, h5, _⟩ := translate_ok he hf hq har h2
  exact ⟨facts', rules', h1, h3, h4, h5⟩

/-- Together with the exploration: it ends without an error, and finds every atom that can be derived from the original program. -/
theorem C76_explored [Nonempty O] {e : Env P V O} (he : e.Ok) {ar : P → Nat} {facts : List (GAtom P O)} {rules : List (Clause P V O)} (hf : e.Fits facts rules) (hq : Equality e.eq facts rules) (har : ClauseArity ar facts rules) (h2 : ar e.eq = 2) :
    ∃ facts' rules' n out, translate e facts rules = some (facts', rules') ∧ (∀ m, n ≤ m → computeModel m facts' rules' = .ok out) ∧ ∀ a, Derivable facts rules a → a ∈ out := by
  obtain ⟨facts', rules', h1, h3, ⟨ar', h4⟩, h5, _⟩ := translate_ok he hf hq har h2
  obtain ⟨n, out, h6, h7⟩ := C75_complete h4 h3
  refine ⟨facts', rules', n, out, h1, h6, fun a ha => h7 a ((h5 a ?_ ?_).mpr ha)⟩
  · rcases derivable_pred ha with h | ⟨r, hr, h⟩
    · exact hf.factObject a h
    · rw [h]
      exact hf.ruleObject r hr _ (by simp [Clause.preds])
  · intro i
    rcases derivable_pred ha with h | ⟨r, hr, h⟩
    · exact hf.factName a h i
    · rw [h]
      exact hf.ruleName r hr _ (by simp [Clause.preds]) i

/-- What the exploration finds contains the facts, is closed under the rules, and has no other atoms than those that can be derived if conditions of a rule need to agree on the variables of its effect only (where conditions in which a variable
occurs twice are ignored). -/
theorem C76_bounds [Nonempty O] {e : Env P V O} (he : e.Ok) {ar : P → Nat} {facts : List (GAtom P O)} {rules : List (Clause P V O)} (hf : e.Fits facts rules) (hq : Equality e.eq facts rules) (har : ClauseArity ar facts rules) (h2 : ar e.eq = 2) :
    ∃ facts' rules' n out, translate e facts rules = some (facts', rules') ∧ (∀ m, n ≤ m → computeModel m facts' rules' = .ok out) ∧ (∀ a ∈ facts, a ∈ out) ∧
      (∀ r ∈ rules, ∀ σ : V → O, (∀ v ∈ r.effect.vars, (∀ c ∈ r.conditions, v ∉ c.vars) → σ v ∈ objects facts) → (∀ c ∈ r.conditions, c.inst σ ∈ out) → r.effect.inst σ ∈ out) ∧
      ∀ a ∈ out, a.pred ≠ e.object → (∀ i, a.pred ≠ e.name i) → DerivableLoosely facts rules a := by
  obtain ⟨facts', rules', h1, h3, ⟨ar', h4⟩, _, _, h5, h6⟩ := translate_ok he hf hq har h2
  obtain ⟨n, out, h7, h8, _⟩ := C75_exploration h4 h3
  obtain ⟨h9, h10⟩ := h6 (· ∈ out) (fun a ha => (h8 a).mpr (.fact a ha)) (fun r hr σ hc => (h8 _).mpr (.rule r hr σ (fun _ => σ) (fun _ _ _ _ _ => rfl) fun c hc' => (h8 _).mp (hc c hc')))
  have h11 : ∀ a ∈ out, a.pred ≠ e.object → (∀ i, a.pred ≠ e.name i) → DerivableLoosely facts rules a := fun a ha ho hn => h5 a ho hn ((h8 a).mp ha)
  refine ⟨facts', rules', n, out, h1, h7, h9, fun r hr σ hfree hc => h10 r hr σ hfree (fun c hc' v hv => ?_) hc, h11⟩
  have hp : c.pred ∈ r.preds := List.mem_cons_of_mem _ (List.mem_map.mpr ⟨c, hc', rfl⟩)
  exact loosely_objects hq (h11 _ (hc c hc') (hf.ruleObject r hr _ hp) (hf.ruleName r hr _ hp)) _ (List.mem_map.mpr ⟨.var v, mem_vars.mp hv, rfl⟩)

/-- If every variable of a rule occurs in its effect, and no variable occurs twice in a condition, then the exploration finds exactly what can be derived. -/
theorem C76_exact [Nonempty O] {e : Env P V O} (he : e.Ok) {ar : P → Nat} {facts : List (GAtom P O)} {rules : List (Clause P V O)} (hf : e.Fits facts rules) (hq : Equality e.eq facts rules) (har : ClauseArity ar facts rules) (h2 : ar e.eq = 2)
    (hj : ∀ r ∈ rules, ∀ c ∈ r.conditions, c.vars.Nodup ∧ ∀ v ∈ c.vars, v ∈ r.effect.vars) :
    ∃ facts' rules' n out, translate e facts rules = some (facts', rules') ∧ (∀ m, n ≤ m → computeModel m facts' rules' = .ok out) ∧
      ∀ a : GAtom P O, a.pred ≠ e.object → (∀ i, a.pred ≠ e.name i) → (a ∈ out ↔ Derivable facts rules a) := by
  obtain ⟨facts', rules', h1, h3, ⟨ar', h4⟩, h5, h6, _⟩ := translate_ok he hf hq har h2
  obtain ⟨n, out, h7, h8, _⟩ := C75_exact h4 h3 (h6 hj)
  exact ⟨facts', rules', n, out, h1, h7, fun a ho hn => (h8 a).trans (h5 a ho hn)⟩

/-! Examples: predicates are numbers (0 is "=", 1 is "@object", 100, 101, … are new), variables and objects are numbers. -/
namespace C76Example

/-- names, with lists in their given order -/
def env : Env Nat Nat Nat := ⟨0, 1, fun i => 100 + i, fun _ i => 100 + i, id, id, id⟩

theorem ok : env.Ok := ⟨fun _ => .refl _, fun _ => .refl _, fun _ => .refl _, fun i j h => by simpa [env] using h, fun _ _ i j h => by simpa [env] using h⟩

/-- edges of a graph (predicate 2), and equality -/
def facts : List (GAtom Nat Nat) := [⟨2, [1, 2]⟩, ⟨2, [2, 3]⟩, ⟨2, [3, 4]⟩, ⟨2, [4, 4]⟩, ⟨0, [1, 1]⟩, ⟨0, [2, 2]⟩, ⟨0, [3, 3]⟩, ⟨0, [4, 4]⟩]

/-- paths of length three; loops; a free variable in the effect; a rule without conditions; conditions in several parts -/
def rules : List (Clause Nat Nat Nat) :=
  [⟨⟨3, [.var 10, .var 13]⟩, [⟨2, [.var 10, .var 11]⟩, ⟨2, [.var 11, .var 12]⟩, ⟨2, [.var 12, .var 13]⟩]⟩,
   ⟨⟨4, [.var 10, .var 10]⟩, [⟨2, [.var 10, .var 10]⟩]⟩,
   ⟨⟨5, [.var 10, .var 11]⟩, [⟨4, [.var 10, .var 10]⟩]⟩,
   ⟨⟨6, [.const 3]⟩, []⟩,
   ⟨⟨7, [.var 10, .var 11]⟩, [⟨2, [.var 10, .const 2]⟩, ⟨2, [.const 3, .var 11]⟩, ⟨6, [.const 3]⟩]⟩]

/-- arities -/
def ar (p : Nat) : Nat := if p = 6 then 1 else 2

theorem fits : env.Fits facts rules := by
  refine ⟨by decide, by decide, by decide, ?_, ?_, ?_, ?_, ?_⟩
  · intro a ha i
    have : ∀ a ∈ facts, a.pred < 100 := by decide
    have := this a ha
    simp only [env]
    omega
  · intro r hr p hp i
    have : ∀ r ∈ rules, ∀ p ∈ r.preds, p < 100 := by decide
    have := this r hr p hp
    simp only [env]
    omega
  · intro i
    simp only [env]
    omega
  · intro i
    simp only [env]
    omega
  · intro r hr v _ i hv
    have : ∀ r ∈ rules, ∀ p ∈ r.vars, p < 100 := by decide
    have := this r hr _ hv
    simp only [env] at this
    omega

theorem equality : Equality env.eq facts rules := by
  refine ⟨by decide, ?_, by decide, ?_⟩
  · intro a ha h
    have : ∀ a ∈ facts, a.pred = 0 → a.args = [a.args.headD 0, a.args.headD 0] := by decide
    exact ⟨_, this a ha h⟩
  · intro r hr o ho
    have : ∀ r ∈ rules, ∀ t ∈ r.effect.args, ∀ o, t = .const o → o = 3 := by
      simp [rules]
    rw [this r hr _ ho o rfl]
    decide

theorem arity : ClauseArity ar facts rules := by
  refine ⟨by decide, by decide⟩

/-- the hypotheses are met -/
example : ∃ facts' rules', translate env facts rules = some (facts', rules') ∧ (∀ r ∈ rules', r.Normal) ∧ (∃ ar', Arity ar' facts' rules') ∧
    ∀ a : GAtom Nat Nat, a.pred ≠ 1 → (∀ i, a.pred ≠ 100 + i) → (Follows facts' rules' a ↔ Derivable facts rules a) := C76_translation ok fits equality arity rfl

/-- what the exploration finds -/
def found : Option (List (GAtom Nat Nat)) :=
  match translate env facts rules with
  | none => none
  | some s =>
    match computeModel 200 s.1 s.2 with
    | .ok out => some (out.filter (fun a => decide (3 ≤ a.pred ∧ a.pred < 100)))
    | _ => none

/-- it finds the only path of length three from 1 to 4, pairs of the loop and any object, the fact of the rule without conditions, and the rule with two parts -/
example : ∃ out, found = some out ∧ ⟨3, [1, 4]⟩ ∈ out ∧ ⟨4, [4, 4]⟩ ∈ out ∧ ⟨5, [4, 1]⟩ ∈ out ∧ ⟨6, [3]⟩ ∈ out ∧ ⟨7, [1, 4]⟩ ∈ out := by
  cases h : found with
  | none => exact absurd (show found.isSome = true by decide +kernel) (by rw [h]; decide)
  | some out =>
    have hm : ∀ a, (found.map (·.contains a)) = some true → a ∈ out := by
      intro a ha
      rw [h] at ha
      simpa using ha
    exact ⟨out, rfl, hm _ (by decide +kernel), hm _ (by decide +kernel), hm _ (by decide +kernel), hm _ (by decide +kernel), hm _ (by decide +kernel)⟩

/-- all variables in the effect, and no variable twice in a condition: paths of length two with their middle -/
def simple : List (Clause Nat Nat Nat) := [⟨⟨3, [.var 10, .var 11, .var 12, .var 10]⟩, [⟨2, [.var 10, .var 11]⟩, ⟨2, [.var 11, .var 12]⟩]⟩]

theorem simple_fits : env.Fits facts simple := by
  refine ⟨by decide, by decide, by decide, fits.factName, ?_, fits.eqName, fits.objectName, ?_⟩
  · intro r hr p hp i
    have : ∀ r ∈ simple, ∀ p ∈ r.preds, p < 100 := by decide
    have := this r hr p hp
    simp only [env]
    omega
  · intro r hr v _ i hv
    have : ∀ r ∈ simple, ∀ p ∈ r.vars, p < 100 := by decide
    have := this r hr _ hv
    simp only [env] at this
    omega

theorem simple_equality : Equality env.eq facts simple := ⟨equality.same, equality.only, by decide, fun r hr o ho => by simp [simple] at hr; subst hr; simp at ho⟩

/-- the hypotheses of the theorem about exactness are met -/
example : ∃ facts' rules' n out, translate env facts simple = some (facts', rules') ∧ (∀ m, n ≤ m → computeModel m facts' rules' = .ok out) ∧
    ∀ a : GAtom Nat Nat, a.pred ≠ 1 → (∀ i, a.pred ≠ 100 + i) → (a ∈ out ↔ Derivable facts simple a) :=
  C76_exact (ar := fun p => if p = 3 then 4 else 2) ok simple_fits simple_equality ⟨by decide, by decide⟩ rfl (by decide)

end C76Example

/-! Variables that occur twice in a condition: q(x) ← p(x, x), with the fact p(5, 6). -/
namespace C76Twice

/-- p(5, 6), and equality -/
def facts : List (GAtom Nat Nat) := [⟨2, [5, 6]⟩, ⟨0, [5, 5]⟩, ⟨0, [6, 6]⟩]

/-- q(x) ← p(x, x) -/
def rules : List (Clause Nat Nat Nat) := [⟨⟨3, [.var 10]⟩, [⟨2, [.var 10, .var 10]⟩]⟩]

end C76Twice

/-- The second condition is needed: from p(5, 6) and q(x) ← p(x, x), the exploration concludes q(5), although it cannot be derived.  The rule becomes q(x) ← p(x, x'), x = x', and the exploration joins both conditions on x only, because x' is not in
the effect. -/
theorem C76_duplicates_fail : (∃ facts' rules' out, translate C76Example.env C76Twice.facts C76Twice.rules = some (facts', rules') ∧ computeModel 9 facts' rules' = .ok out ∧ (⟨3, [5]⟩ : GAtom Nat Nat) ∈ out) ∧ ¬ Derivable C76Twice.facts C76Twice.rules ⟨3, [5]⟩ := by
  refine ⟨⟨C76Twice.facts, [⟨.join, ⟨3, [.var 10]⟩, [⟨0, [.var 10, .var 100]⟩, ⟨2, [.var 10, .var 100]⟩]⟩], [⟨2, [5, 6]⟩, ⟨0, [5, 5]⟩, ⟨0, [6, 6]⟩, ⟨3, [5]⟩], by decide +kernel, by decide +kernel, by decide⟩, fun h => ?_⟩
  have hall : ∀ a : GAtom Nat Nat, Derivable C76Twice.facts C76Twice.rules a → a ∈ C76Twice.facts := by
    intro a h
    induction h with
    | fact a ha => exact ha
    | rule r hr σ hf hc ih =>
      exfalso
      simp only [C76Twice.rules, List.mem_singleton] at hr
      subst hr
      have := ih ⟨2, [.var 10, .var 10]⟩ (by simp)
      simp only [C76Twice.facts, SymAtom.inst, List.map_cons, List.map_nil, Term.value, List.mem_cons, GAtom.mk.injEq, List.cons.injEq, and_true, List.not_mem_nil, or_false] at this
      omega
  exact absurd (hall _ h) (by decide)

end Verif.PrologProgram
