import Verif.Model.TaskReader
import Verif.Lemmas.Axioms

/-
What the reader guarantees about the tasks it returns.
-/
namespace Verif.SasFile

/-! ### Lexer -/

theorem blank_nil : blank [] = true := rfl

theorem nextLine_not_blank : ∀ (s : Option (List Char)), (nextLine s).1 = [] ∨ blank (nextLine s).1 = false := by
  intro s
  induction hn : (s.map (fun cs => cs.length + 1)).getD 0 using Nat.strongRecOn generalizing s with
  | ind n ih =>
    rw [nextLine.eq_def]
    cases s with
    | none => exact Or.inl rfl
    | some cs =>
      simp only
      split
      · apply ih _ _ _ rfl
        subst hn
        cases h : (getline cs).2 with
        | none => simp
        | some r =>
          have := getline_shorter h
          simp only [Option.map_some, Option.getD_some]
          omega
      · rename_i h
        exact Or.inr (by simpa using h)

theorem wordsAux_ne : ∀ {s cur : List Char}, cur ≠ [] ∨ blank s = false → wordsAux s cur ≠ []
  | [], cur, h => by
    rcases h with h | h
    · simp [wordsAux, h]
    · simp [blank] at h
  | c :: cs, cur, h => by
    simp only [wordsAux]
    split
    · rename_i hc
      split
      · rename_i hcur
        apply wordsAux_ne
        right
        rcases h with h | h
        · exact absurd hcur h
        · simpa [blank, hc] using h
      · simp
    · apply wordsAux_ne
      left
      simp

theorem words_ne {s : List Char} (h : blank s = false) : words s ≠ [] := wordsAux_ne (Or.inr h)

/-! ### Rules -/

/-- the result is of a kind and the lexer is in a mode, or there is an input error; accesses outside of vectors are only those
with a variable number that is too large -/
def Good {α : Type} (m' : Bool) (Q : α → Prop) : Res (α × Lexer) → Prop
  | .ok (a, l') => l'.tokens.isSome = m' ∧ Q a
  | .err => True
  | .abort => False
  | .badVariable v n => n ≤ v
  | .ub => False

/-- the function, called in a mode, ends well -/
def Safe {α : Type} (p : Read α) (m m' : Bool) (Q : α → Prop) : Prop := ∀ l : Lexer, l.tokens.isSome = m → Good m' Q (p l)

variable {α β : Type} {m m' m'' : Bool}

theorem safe_pure {a : α} {Q : α → Prop} (h : Q a) : Safe (pure a) m m Q := fun _ hl => ⟨hl, h⟩

theorem safe_fail {Q : α → Prop} : Safe (fail : Read α) m m' Q := fun _ _ => trivial

theorem safe_mono {p : Read α} {Q R : α → Prop} (h : Safe p m m' Q) (hQR : ∀ a, Q a → R a) : Safe p m m' R := by
  intro l hl
  have := h l hl
  cases hp : p l with
  | ok r => obtain ⟨a, l'⟩ := r; rw [hp] at this; exact ⟨this.1, hQR a this.2⟩
  | err => trivial
  | abort => rw [hp] at this; exact this
  | badVariable v n => rw [hp] at this; exact this
  | ub => rw [hp] at this; exact this

theorem safe_bind {p : Read α} {f : α → Read β} {Q : α → Prop} {R : β → Prop} (hp : Safe p m m' Q) (hf : ∀ a, Q a → Safe (f a) m' m'' R) : Safe (p >>= f) m m'' R := by
  intro l hl
  have h1 := hp l hl
  show Good m'' R (Read.bind p f l)
  unfold Read.bind
  cases h : p l with
  | ok r =>
    obtain ⟨a, l'⟩ := r
    rw [h] at h1
    exact hf a h1.2 l' h1.1
  | err => trivial
  | abort => rw [h] at h1; exact h1
  | badVariable v n => rw [h] at h1; exact h1
  | ub => rw [h] at h1; exact h1

theorem safe_require {b : Bool} : Safe (require b) m m (fun _ => b = true) := by
  unfold require
  split
  · rename_i h; exact safe_pure h
  · exact safe_fail

theorem safe_many {p : Nat → Read α} {Q : Nat → α → Prop} (h : ∀ i, Safe (p i) m m (Q i)) : ∀ (n i : Nat),
    Safe (many n i p) m m (fun as => as.length = n ∧ ∀ (k : Nat) (a : α), as[k]? = some a → Q (i + k) a)
  | 0, i => safe_pure ⟨rfl, by simp⟩
  | n + 1, i => by
    refine safe_bind (h i) fun a ha => safe_bind (safe_many h n (i + 1)) fun as has => safe_pure ⟨by simp [has.1], ?_⟩
    intro k x hk
    cases k with
    | zero => simp only [List.getElem?_cons_zero, Option.some.injEq] at hk; subst hk; exact ha
    | succ k =>
      simp only [List.getElem?_cons_succ] at hk
      have := has.2 k x hk
      rw [show i + (k + 1) = i + 1 + k by omega]
      exact this

theorem safe_many_all {p : Read α} {Q : α → Prop} (h : Safe p m m Q) (n i : Nat) : Safe (many n i (fun _ => p)) m m (fun as => as.length = n ∧ ∀ a ∈ as, Q a) := by
  refine safe_mono (safe_many (Q := fun _ => Q) (fun _ => h) n i) fun as has => ⟨has.1, fun a ha => ?_⟩
  obtain ⟨k, hk⟩ := List.mem_iff_getElem?.mp ha
  exact has.2 k a hk

theorem safe_read : Safe read m true (fun _ => True) := by
  intro l hl
  unfold read
  split
  · trivial
  · exact ⟨rfl, trivial⟩
  · split
    · trivial
    · rename_i hne
      have hb := (nextLine_not_blank l.stream).resolve_left hne
      split
      · rename_i hw; exact words_ne hb hw
      · exact ⟨rfl, trivial⟩

theorem safe_readLine : Safe readLine false false (fun _ => True) := by
  intro l hl
  unfold readLine
  split
  · rename_i h; rw [h] at hl; simp at hl
  · split
    · trivial
    · exact ⟨rfl, trivial⟩

theorem safe_eol : Safe confirmEol true false (fun _ => True) := by
  intro l hl
  unfold confirmEol
  split
  · rename_i h; rw [h] at hl; simp at hl
  · exact ⟨rfl, trivial⟩
  · trivial

theorem safe_end : Safe confirmEnd false false (fun _ => True) := by
  intro l hl
  unfold confirmEnd
  split
  · rename_i h; rw [h] at hl; simp at hl
  · split
    · exact ⟨rfl, trivial⟩
    · trivial

theorem safe_magic {s : List Char} : Safe (readMagic s) false false (fun _ => True) :=
  safe_bind safe_readLine fun _ _ => safe_mono safe_require fun _ _ => trivial

theorem parseInt_range {t : List Char} {n : Int} (h : parseInt t = some n) : -2147483648 ≤ n ∧ n ≤ 2147483647 := by
  unfold parseInt at h
  split at h
  all_goals
    split at h
    · rename_i hc
      simp only [Option.some.injEq] at h
      have := hc.2.2
      omega
    · simp at h

theorem safe_int : Safe readInt m true (fun n => -2147483648 ≤ n ∧ n ≤ 2147483647) := by
  refine safe_bind safe_read fun t _ => ?_
  unfold parse
  split
  · exact safe_fail
  · rename_i h; exact safe_pure (parseInt_range h)

theorem safe_checkNat {n : Int} (h : n ≤ 2147483647) : Safe (checkNat n) m m (fun k => k ≤ IntMax ∧ n = k) := by
  unfold checkNat
  split
  · rename_i h0
    refine safe_pure ⟨?_, ?_⟩
    · unfold IntMax; omega
    · omega
  · exact safe_fail

theorem safe_nat : Safe readNat m true (fun n => n ≤ IntMax) :=
  safe_bind safe_int fun _ hn => safe_mono (safe_checkNat hn.2) fun _ h => h.1

/-- the fact exists -/
def VFact (vars : List ExplicitVariable) (f : Fact) : Prop := ∃ v, vars[f.var]? = some v ∧ f.val < v.domain

theorem safe_checkFact {vars : List ExplicitVariable} {f : Fact} : Safe (checkFact vars f) m m (fun _ => VFact vars f) := by
  unfold checkFact
  split
  · exact safe_fail
  · rename_i v hv
    exact safe_mono safe_require fun _ h => ⟨v, hv, by simpa using h⟩

theorem safe_eolUnless {single : Bool} : Safe (eolUnless single) true single (fun _ => True) := by
  unfold eolUnless
  cases single with
  | true => exact safe_pure trivial
  | false => exact safe_eol

theorem safe_fact {single : Bool} {vars : List ExplicitVariable} : Safe (readFact single vars) m single (VFact vars) :=
  safe_bind safe_nat fun _ _ => safe_bind safe_nat fun _ _ => safe_bind safe_checkFact fun _ h => safe_bind safe_eolUnless fun _ _ => safe_pure h

theorem safe_facts {single : Bool} {vars : List ExplicitVariable} : Safe (readFacts single vars) m single (fun fs => ∀ f ∈ fs, VFact vars f) :=
  safe_bind safe_nat fun _ _ => safe_bind safe_eolUnless fun _ _ => safe_mono (safe_many_all safe_fact _ _) fun _ h => h.2

/-! ### Sections -/

theorem safe_version : Safe readVersion false false (fun _ => True) :=
  safe_bind safe_magic fun _ _ => safe_bind safe_nat fun _ _ => safe_bind safe_require fun _ _ => safe_bind safe_eol fun _ _ => safe_magic

theorem safe_metric : Safe readMetric false false (fun _ => True) := by
  refine safe_bind safe_magic fun _ _ => safe_bind safe_int fun n _ => safe_bind (m' := true) (Q := fun _ => True) ?_ fun _ _ => safe_bind safe_eol fun _ _ => safe_bind safe_magic fun _ _ => safe_pure trivial
  unfold metricOf
  split
  · exact safe_pure trivial
  · split
    · exact safe_fail
    · exact safe_pure trivial

/-- what is checked for a variable -/
def VarOk (v : ExplicitVariable) : Prop := 1 ≤ v.domain ∧ v.domain ≤ IntMax ∧ (v.layer ≠ none → v.domain = 2) ∧ v.factNames.length = v.domain

theorem safe_variable : Safe readVariable false false VarOk := by
  refine safe_bind safe_magic fun _ _ => safe_bind safe_readLine fun _ _ => safe_bind safe_int fun n _ => safe_bind (m' := true) (Q := fun _ => True) ?_ fun layer _ => safe_bind safe_eol fun _ _ =>
    safe_bind safe_nat fun d hd => safe_bind safe_require fun _ h1 => safe_bind safe_require fun _ h2 => safe_bind safe_eol fun _ _ =>
    safe_bind (safe_many_all safe_readLine _ _) fun ns hns => safe_bind safe_magic fun _ _ => safe_pure ⟨by simpa using h1, hd, ?_, hns.1⟩
  · unfold layerOfInt
    split
    · exact safe_fail
    · split
      · exact safe_pure trivial
      · exact safe_pure trivial
  · intro hl
    simp only at hl ⊢
    cases layer with
    | none => exact absurd rfl hl
    | some l => simpa using h2

theorem safe_variables : Safe readVariables false false (fun vs => vs ≠ [] ∧ ∀ v ∈ vs, VarOk v) := by
  refine safe_bind safe_nat fun n hn => safe_bind safe_require fun _ h1 => safe_bind safe_eol fun _ _ => safe_mono (safe_many_all safe_variable _ _) fun vs h => ⟨?_, h.2⟩
  intro e
  subst e
  have h2 := h.1
  simp only [List.length_nil] at h2
  subst h2
  simp at h1

theorem mutexPairs_sym {gs : List (List Fact)} {f g : Fact} (h : (f, g) ∈ gs.flatMap mutexPairs) : (g, f) ∈ gs.flatMap mutexPairs := by
  simp only [List.mem_flatMap, mutexPairs, List.mem_map, List.mem_filter, Prod.mk.injEq, decide_eq_true_eq] at h ⊢
  obtain ⟨m, hm, a, ha, b, ⟨hb, hne⟩, rfl, rfl⟩ := h
  exact ⟨m, hm, b, hb, a, ⟨ha, fun e => hne e.symm⟩, rfl, rfl⟩

theorem safe_mutexes {vars : List ExplicitVariable} : Safe (readMutexes vars) false false (fun m => ∀ f g, (f, g) ∈ m → (g, f) ∈ m) :=
  safe_bind safe_nat fun _ _ => safe_bind safe_eol fun _ _ => safe_bind (safe_many_all (Q := fun _ => True)
    (safe_bind safe_magic fun _ _ => safe_bind safe_nat fun _ _ => safe_bind safe_eol fun _ _ => safe_bind (safe_many_all safe_fact _ _) fun _ _ => safe_bind safe_magic fun _ _ => safe_pure trivial) _ _)
    fun _ _ => safe_pure fun _ _ h => mutexPairs_sym h

theorem safe_init {vars : List ExplicitVariable} : Safe (readInit vars) false false (fun xs => xs.length = vars.length ∧ ∀ (v x : Nat), xs[v]? = some x → VFact vars ⟨v, x⟩) := by
  refine safe_bind safe_magic fun _ _ => safe_bind (safe_many (Q := fun i x => VFact vars ⟨i, x⟩) (fun i => ?_) _ _) fun xs h => safe_bind safe_magic fun _ _ => safe_pure ⟨h.1, fun v x hx => ?_⟩
  · exact safe_bind safe_nat fun x _ => safe_bind safe_eol fun _ _ => safe_bind safe_checkFact fun _ h => safe_pure h
  · have := h.2 v x hx
    simpa using this

theorem safe_goal {vars : List ExplicitVariable} : Safe (readGoal vars) false false (fun g => g ≠ [] ∧ (g.map (·.var)).Nodup ∧ ∀ f ∈ g, VFact vars f) :=
  safe_bind safe_magic fun _ _ => safe_bind safe_facts fun g hg => safe_bind safe_magic fun _ _ => safe_bind safe_require fun _ h1 => safe_bind safe_require fun _ h2 =>
    safe_pure ⟨by intro e; subst e; simp at h1, by simpa using h2, hg⟩

theorem safe_variableAt {vars : List ExplicitVariable} {var : Nat} : Safe (variableAt vars var) m m (fun v => vars[var]? = some v) := by
  intro l hl
  unfold variableAt
  cases h : vars[var]? with
  | none =>
    show vars.length ≤ var
    simpa using h
  | some v => exact ⟨hl, rfl⟩

/-- what is checked for an operator -/
structure OpOk (vars : List ExplicitVariable) (o : ExplicitOperator) : Prop where
  pre : ∀ f ∈ o.pre, VFact vars f
  nonempty : o.effects ≠ []
  effect : ∀ e ∈ o.effects, VFact vars e.fact ∧ (∀ f ∈ e.conds, VFact vars f) ∧ ∃ v, vars[e.fact.var]? = some v ∧ v.layer = none
  cost : o.cost ≤ IntMax

theorem safe_effect {vars : List ExplicitVariable} : Safe (readConditionalEffect vars) m false
    (fun r => (∀ f ∈ r.1, VFact vars f) ∧ VFact vars r.2.fact ∧ (∀ f ∈ r.2.conds, VFact vars f) ∧ ∃ v, vars[r.2.fact.var]? = some v ∧ v.layer = none) := by
  refine safe_bind safe_facts fun conds hc => safe_bind safe_nat fun var _ => safe_bind safe_variableAt fun v hv => safe_bind safe_require fun _ hl => safe_bind safe_int fun n _ =>
    safe_bind (m' := true) (Q := fun (fs : List Fact) => ∀ f ∈ fs, VFact vars f) ?_ fun pre hpre => safe_bind safe_nat fun post _ => safe_bind safe_checkFact fun _ hpost => safe_bind safe_eol fun _ _ =>
    safe_pure ⟨hpre, hpost, hc, v, hv, by simpa using hl⟩
  unfold checkPre
  split
  · exact safe_fail
  · split
    · refine safe_bind safe_checkFact fun _ h => safe_pure ?_
      intro f hf
      simp only [List.mem_singleton] at hf
      subst hf
      exact h
    · exact safe_pure (by simp)

theorem safe_operator {metric : Bool} {vars : List ExplicitVariable} : Safe (readOperator metric vars) false false (OpOk vars) := by
  refine safe_bind safe_magic fun _ _ => safe_bind safe_readLine fun name _ => safe_bind safe_facts fun pre hpre => safe_bind safe_nat fun n _ => safe_bind safe_require fun _ h1 =>
    safe_bind safe_eol fun _ _ => safe_bind (safe_many_all safe_effect _ _) fun es hes => safe_bind safe_int fun c hc => safe_bind (m' := true) (Q := fun k => k ≤ IntMax) ?_ fun cost hcost =>
    safe_bind safe_eol fun _ _ => safe_bind safe_magic fun _ _ => safe_pure ⟨?_, ?_, ?_, hcost⟩
  · unfold operatorCost
    split
    · exact safe_mono (safe_checkNat hc.2) fun _ h => h.1
    · exact safe_pure (by simp [IntMax])
  · intro f hf
    simp only [List.mem_append, List.mem_flatMap] at hf
    rcases hf with hf | ⟨e, he, hf⟩
    · exact hpre f hf
    · exact (hes.2 e he).1 f hf
  · intro e
    simp only [List.map_eq_nil_iff] at e
    subst e
    have h2 := hes.1
    simp only [List.length_nil] at h2
    subst h2
    simp at h1
  · intro e he
    simp only [List.mem_map] at he
    obtain ⟨r, hr, rfl⟩ := he
    exact (hes.2 r hr).2

/-- what is checked for an axiom -/
def AxOk (vars : List ExplicitVariable) (o : ExplicitOperator) : Prop :=
  ∃ (v : ExplicitVariable) (l var post : Nat) (conds : List Fact), vars[var]? = some v ∧ v.layer = some l ∧ post < v.domain ∧ v.default < v.domain ∧ post ≠ v.default ∧
    o.pre = [⟨var, v.default⟩] ∧ o.effects = [⟨conds, ⟨var, post⟩⟩] ∧ o.cost = 0 ∧
    ∀ c ∈ conds, ∃ vc, vars[c.var]? = some vc ∧ c.val < vc.domain ∧ ∀ lc, vc.layer = some lc → lc ≤ l ∧ (lc = l → c.val ≠ vc.default)

theorem safe_layering {vars : List ExplicitVariable} {head : Nat} : ∀ {conds : List Fact}, Safe (checkLayering head conds vars) m m
    (fun _ => ∀ c ∈ conds, ∃ vc, vars[c.var]? = some vc ∧ ∀ lc, vc.layer = some lc → lc ≤ head ∧ (lc = head → c.val ≠ vc.default))
  | [] => safe_pure (by simp)
  | f :: fs => by
    unfold checkLayering
    refine safe_bind safe_variableAt fun v hv => safe_bind safe_require fun _ h => safe_mono safe_layering fun _ ih => ?_
    intro c hc
    rcases List.mem_cons.mp hc with rfl | hc
    · refine ⟨v, hv, fun lc hlc => ?_⟩
      unfold layerAllowed at h
      rw [hlc] at h
      simp only [Bool.and_eq_true, decide_eq_true_eq, Bool.not_eq_true', Bool.and_eq_false_iff, decide_eq_false_iff_not] at h
      exact ⟨h.1, fun e => h.2.resolve_left (not_not_intro e)⟩
    · exact ih c hc

theorem safe_axiom {vars : List ExplicitVariable} : Safe (readAxiom vars) false false (AxOk vars) := by
  refine safe_bind safe_magic fun _ _ => safe_bind safe_facts fun conds hc => safe_bind safe_nat fun var _ => safe_bind safe_variableAt fun v hv =>
    safe_bind (m' := true) (Q := fun l => v.layer = some l) ?_ fun l hl => safe_bind safe_int fun n _ => safe_bind (m' := true) (Q := fun x => VFact vars ⟨var, x⟩) ?_ fun pre hpre => safe_bind safe_nat fun post _ =>
    safe_bind safe_checkFact fun _ hpost => safe_bind safe_require fun _ h1 => safe_bind safe_require fun _ h2 => safe_bind safe_layering fun _ h3 => safe_bind safe_eol fun _ _ =>
    safe_bind safe_magic fun _ _ => safe_pure ?_
  · unfold headLayer
    split
    · exact safe_fail
    · rename_i h; exact safe_pure h
  · unfold checkAxiomPre
    split
    · exact safe_fail
    · exact safe_bind safe_checkFact fun _ h => safe_pure h
  · simp only [decide_eq_true_eq] at h1 h2
    obtain ⟨w, hw, hw2⟩ := hpost
    obtain ⟨w', hw', hw2'⟩ := hpre
    simp only at hw hw'
    rw [hv] at hw hw'
    simp only [Option.some.injEq] at hw hw'
    subst hw hw'
    subst h1
    refine ⟨v, l, var, post, conds, hv, hl, hw2, hw2', h2, rfl, rfl, rfl, fun c hcm => ?_⟩
    obtain ⟨vc, e1, e2⟩ := h3 c hcm
    obtain ⟨vc', e3, e4⟩ := hc c hcm
    rw [e1] at e3
    simp only [Option.some.injEq] at e3
    subst e3
    exact ⟨vc, e1, e4, e2⟩

theorem safe_actions {p : Read ExplicitOperator} {Q : ExplicitOperator → Prop} (h : Safe p false false Q) : Safe (readActions p) false false (fun os => ∀ o ∈ os, Q o) :=
  safe_bind safe_nat fun _ _ => safe_bind safe_eol fun _ _ => safe_mono (safe_many_all h _ _) fun _ h => h.2

/-- what is checked for a task, before the axioms are evaluated -/
structure RootOk (r : Root) : Prop where
  nonempty : r.vars ≠ []
  vars : ∀ v ∈ r.vars, VarOk v
  init : r.init.length = r.vars.length ∧ ∀ (v x : Nat), r.init[v]? = some x → VFact r.vars ⟨v, x⟩
  default : ∀ (i : Nat) (v : ExplicitVariable), r.vars[i]? = some v → r.init[i]? = some v.default
  goal : r.goal ≠ [] ∧ (r.goal.map (·.var)).Nodup ∧ ∀ f ∈ r.goal, VFact r.vars f
  ops : ∀ o ∈ r.ops, OpOk r.vars o
  axioms : ∀ o ∈ r.axioms, AxOk r.vars o
  sym : ∀ f g, (f, g) ∈ r.mutexes → (g, f) ∈ r.mutexes

theorem setDefaults_get {vars : List ExplicitVariable} {init : List Nat} {i : Nat} {v : ExplicitVariable} (h : (setDefaults vars init)[i]? = some v) :
    ∃ w, vars[i]? = some w ∧ init[i]? = some v.default ∧ v = { w with default := v.default } := by
  unfold setDefaults at h
  rw [List.getElem?_map, Option.map_eq_some_iff] at h
  obtain ⟨⟨w, x⟩, h1, rfl⟩ := h
  rw [List.getElem?_zip_eq_some] at h1
  exact ⟨w, h1.1, h1.2, rfl⟩

theorem setDefaults_some {vars : List ExplicitVariable} {init : List Nat} (hlen : init.length = vars.length) {i : Nat} {w : ExplicitVariable} (h : vars[i]? = some w) :
    ∃ x, init[i]? = some x ∧ (setDefaults vars init)[i]? = some { w with default := x } := by
  have hi : i < init.length := by rw [hlen]; exact (List.getElem?_eq_some_iff.mp h).1
  refine ⟨init[i], List.getElem?_eq_getElem hi, ?_⟩
  unfold setDefaults
  rw [List.getElem?_map, Option.map_eq_some_iff]
  exact ⟨(w, init[i]), List.getElem?_zip_eq_some.mpr ⟨h, List.getElem?_eq_getElem hi⟩, rfl⟩

theorem safe_sections : Safe readSections false false RootOk := by
  refine safe_bind safe_version fun _ _ => safe_bind safe_metric fun metric _ => safe_bind safe_variables fun vars hv => safe_bind safe_mutexes fun mutexes hm =>
    safe_bind safe_init fun init hi => safe_bind safe_goal fun goal hg => safe_bind (safe_actions safe_operator) fun ops hops => safe_bind (safe_actions safe_axiom) fun axioms hax =>
    safe_bind safe_end fun _ _ => safe_pure ⟨?_, ?_, ?_, ?_, hg, hops, hax, hm⟩
  · intro e
    cases vars with
    | nil => exact hv.1 rfl
    | cons w vars =>
      obtain ⟨x, _, hx⟩ := setDefaults_some hi.1 (i := 0) (w := w) rfl
      simp only at e
      rw [e] at hx
      simp at hx
  · intro v hvm
    obtain ⟨i, hi'⟩ := List.mem_iff_getElem?.mp hvm
    obtain ⟨w, h1, h2, h3⟩ := setDefaults_get hi'
    have := hv.2 w (List.mem_of_getElem? h1)
    rw [h3]
    exact this
  · refine ⟨by simp [setDefaults, hi.1], fun v x hx => ?_⟩
    obtain ⟨w, h1, h2⟩ := hi.2 v x hx
    obtain ⟨y, h3, h4⟩ := setDefaults_some hi.1 h1
    exact ⟨_, h4, h2⟩
  · intro i v h
    exact (setDefaults_get h).elim fun w hw => hw.2.1

end Verif.SasFile
