import Verif.Lemmas.SasRoundTrip

/-
The reader on a file that has been cut off: what has been read before the end is also read from the complete file, and after the end no line can be read.
-/
namespace Verif.SasFile
open Verif.PlanFiles (digits isDigit toInt)

variable {α β : Type}

/-- at the end of the file, the function stays there; before the end, it does not notice what follows after the file -/
structure Ext (q : List Char) (P : Read α) : Prop where
  stay : ∀ (t : Option (List (List Char))) (a : α) (m : Lexer), P ⟨none, t⟩ = .ok (a, m) → m.stream = none
  ext : ∀ (p p' : List Char) (t t' : Option (List (List Char))) (a : α), P ⟨some p, t⟩ = .ok (a, ⟨some p', t'⟩) → P ⟨some (p ++ q), t⟩ = .ok (a, ⟨some (p' ++ q), t'⟩)

/-- the function reads a line -/
def Needs (P : Read α) : Prop := ∀ (t : Option (List (List Char))) (a : α) (m : Lexer), P ⟨none, t⟩ ≠ .ok (a, m)

theorem bind_inv {P : Read α} {f : α → Read β} {l m : Lexer} {b : β} (h : (P >>= f) l = .ok (b, m)) : ∃ a l', P l = .ok (a, l') ∧ f a l' = .ok (b, m) := by
  have h : Read.bind P f l = .ok (b, m) := h
  unfold Read.bind at h
  cases hp : P l with
  | ok r =>
    obtain ⟨a, l'⟩ := r
    rw [hp] at h
    exact ⟨a, l', rfl, h⟩
  | err => rw [hp] at h; cases h
  | abort => rw [hp] at h; cases h
  | badVariable v n => rw [hp] at h; cases h
  | ub => rw [hp] at h; cases h

variable {q : List Char}

theorem ext_pure {a : α} : Ext q (pure a : Read α) := by
  constructor
  · intro t b m h
    cases h
    rfl
  · intro p p' t t' b h
    cases h
    rfl

theorem ext_fail : Ext q (fail : Read α) := by
  constructor
  · intro t b m h; cases h
  · intro p p' t t' b h; cases h

theorem ext_bind {P : Read α} {f : α → Read β} (hP : Ext q P) (hf : ∀ a, Ext q (f a)) : Ext q (P >>= f) := by
  constructor
  · intro t b m h
    obtain ⟨a, l', h1, h2⟩ := bind_inv h
    have h3 := hP.stay t a l' h1
    obtain ⟨st, t'⟩ := l'
    simp only at h3
    subst h3
    exact (hf a).stay t' b m h2
  · intro p p' t t' b h
    obtain ⟨a, ⟨st, t1⟩, h1, h2⟩ := bind_inv h
    cases st with
    | none => have := (hf a).stay _ _ _ h2; simp at this
    | some p1 => exact (bind_ok (hP.ext _ _ _ _ _ h1)).trans ((hf a).ext _ _ _ _ _ h2)

theorem needs_bind_left {P : Read α} {f : α → Read β} (h : Needs P) : Needs (P >>= f) := by
  intro t b m h'
  obtain ⟨a, l', h1, _⟩ := bind_inv h'
  exact h t a l' h1

theorem needs_bind_right {P : Read α} {f : α → Read β} (hP : Ext q P) (h : ∀ a, Needs (f a)) : Needs (P >>= f) := by
  intro t b m h'
  obtain ⟨a, l', h1, h2⟩ := bind_inv h'
  have h3 := hP.stay t a l' h1
  obtain ⟨st, t'⟩ := l'
  simp only at h3
  subst h3
  exact h a t' b m h2

theorem ext_require {b : Bool} : Ext q (require b) := by
  unfold require
  split
  · exact ext_pure
  · exact ext_fail

theorem getline_ext : ∀ {p x p' : List Char}, getline p = (x, some p') → getline (p ++ q) = (x, some (p' ++ q))
  | [], x, p', h => by simp [getline] at h
  | c :: p, x, p', h => by
    simp only [getline, List.cons_append] at h ⊢
    split at h
    · rename_i hc
      simp only [Prod.mk.injEq, Option.some.injEq] at h
      rw [if_pos hc, ← h.1, ← h.2]
    · rename_i hc
      simp only [Prod.mk.injEq] at h
      have := getline_ext (p := p) (x := (getline p).1) (p' := p') (by rw [← h.2])
      rw [if_neg hc, this, ← h.1]

theorem nextLine_ext : ∀ (p : List Char) {x p' : List Char}, nextLine (some p) = (x, some p') → nextLine (some (p ++ q)) = (x, some (p' ++ q)) := by
  intro p
  induction hn : p.length using Nat.strongRecOn generalizing p with
  | ind n ih =>
    intro x p' h
    rw [nextLine.eq_def] at h ⊢
    simp only at h ⊢
    cases hg : (getline p).2 with
    | none =>
      split at h
      · rw [hg, nextLine.eq_def] at h
        simp at h
      · rw [h] at hg; simp at hg
    | some r =>
      have h1 : getline (p ++ q) = ((getline p).1, some (r ++ q)) := getline_ext (by rw [← hg])
      rw [h1]
      split at h
      · rename_i hb
        simp only [hb, if_true]
        rw [hg] at h
        exact ih r.length (by rw [← hn]; exact getline_shorter hg) r rfl h
      · rename_i hb
        simp only [hb]
        rw [h] at hg ⊢
        simp only [Option.some.injEq] at hg
        subst hg
        rfl

theorem nextLine_none : nextLine none = ([], none) := by
  rw [nextLine.eq_def]

theorem ext_read : Ext q read := by
  constructor
  · intro t a m h
    unfold read at h
    match t, h with
    | some [], h => cases h
    | some (_ :: _), h => cases h; rfl
    | none, h =>
      simp only [nextLine_none] at h
      cases h
  · intro p p' t t' a h
    unfold read at h ⊢
    match t, h with
    | some [], h => cases h
    | some (_ :: _), h => cases h; rfl
    | none, h =>
      simp only at h ⊢
      split at h
      · cases h
      · rename_i hne
        cases hn : nextLine (some p) with
        | mk x r =>
          rw [hn] at h hne
          simp only at h hne
          cases hw : words x with
          | nil => rw [hw] at h; cases h
          | cons w ws =>
            rw [hw] at h
            simp only [Res.ok.injEq, Prod.mk.injEq, Lexer.mk.injEq] at h
            obtain ⟨rfl, rfl, rfl⟩ := h
            rw [nextLine_ext p hn]
            simp only [hne, if_false, hw]

theorem ext_readLine : Ext q readLine := by
  constructor
  · intro t a m h
    unfold readLine at h
    match t, h with
    | some _, h => cases h
    | none, h =>
      simp only [nextLine_none] at h
      cases h
  · intro p p' t t' a h
    unfold readLine at h ⊢
    match t, h with
    | some _, h => cases h
    | none, h =>
      simp only at h ⊢
      split at h
      · cases h
      · rename_i hne
        cases hn : nextLine (some p) with
        | mk x r =>
          rw [hn] at h hne
          simp only [Res.ok.injEq, Prod.mk.injEq, Lexer.mk.injEq] at h hne
          obtain ⟨rfl, rfl, rfl⟩ := h
          rw [nextLine_ext p hn]
          simp only [hne, if_false]

theorem ext_eol : Ext q confirmEol := by
  constructor
  · intro t a m h
    unfold confirmEol at h
    match t, h with
    | none, h => cases h
    | some [], h => cases h; rfl
    | some (_ :: _), h => cases h
  · intro p p' t t' a h
    unfold confirmEol at h ⊢
    match t, h with
    | none, h => cases h
    | some [], h => cases h; rfl
    | some (_ :: _), h => cases h

theorem needs_readLine : Needs readLine := by
  intro t a m h
  unfold readLine at h
  match t, h with
  | some _, h => cases h
  | none, h =>
    simp only [nextLine_none] at h
    cases h

theorem ext_many {p : Nat → Read α} (h : ∀ i, Ext q (p i)) : ∀ n i, Ext q (many n i p)
  | 0, _ => ext_pure
  | n + 1, i => ext_bind (h i) fun _ => ext_bind (ext_many h n (i + 1)) fun _ => ext_pure

theorem ext_int : Ext q readInt := ext_bind ext_read fun t => by
  unfold parse
  split
  · exact ext_fail
  · exact ext_pure

theorem ext_checkNat {n : Int} : Ext q (checkNat n) := by
  unfold checkNat
  split
  · exact ext_pure
  · exact ext_fail

theorem ext_nat : Ext q readNat := ext_bind ext_int fun _ => ext_checkNat

theorem ext_magic {s : List Char} : Ext q (readMagic s) := ext_bind ext_readLine fun _ => ext_require

theorem needs_magic {s : List Char} : Needs (readMagic s) := needs_bind_left needs_readLine

theorem ext_checkFact {vars : List ExplicitVariable} {f : Fact} : Ext q (checkFact vars f) := by
  unfold checkFact
  split
  · exact ext_fail
  · exact ext_require

theorem ext_eolUnless {b : Bool} : Ext q (eolUnless b) := by
  unfold eolUnless
  split
  · exact ext_pure
  · exact ext_eol

theorem ext_fact {b : Bool} {vars : List ExplicitVariable} : Ext q (readFact b vars) :=
  ext_bind ext_nat fun _ => ext_bind ext_nat fun _ => ext_bind ext_checkFact fun _ => ext_bind ext_eolUnless fun _ => ext_pure

theorem ext_facts {b : Bool} {vars : List ExplicitVariable} : Ext q (readFacts b vars) :=
  ext_bind ext_nat fun _ => ext_bind ext_eolUnless fun _ => ext_many (fun _ => ext_fact) _ _

theorem ext_version : Ext q readVersion :=
  ext_bind ext_magic fun _ => ext_bind ext_nat fun _ => ext_bind ext_require fun _ => ext_bind ext_eol fun _ => ext_magic

theorem ext_metric : Ext q readMetric := by
  refine ext_bind ext_magic fun _ => ext_bind ext_int fun n => ext_bind ?_ fun _ => ext_bind ext_eol fun _ => ext_bind ext_magic fun _ => ext_pure
  unfold metricOf
  split
  · exact ext_pure
  · split
    · exact ext_fail
    · exact ext_pure

theorem ext_variable : Ext q readVariable := by
  refine ext_bind ext_magic fun _ => ext_bind ext_readLine fun _ => ext_bind ext_int fun n => ext_bind ?_ fun _ => ext_bind ext_eol fun _ => ext_bind ext_nat fun _ => ext_bind ext_require fun _ =>
    ext_bind ext_require fun _ => ext_bind ext_eol fun _ => ext_bind (ext_many (fun _ => ext_readLine) _ _) fun _ => ext_bind ext_magic fun _ => ext_pure
  unfold layerOfInt
  split
  · exact ext_fail
  · split
    · exact ext_pure
    · exact ext_pure

theorem ext_variables : Ext q readVariables :=
  ext_bind ext_nat fun _ => ext_bind ext_require fun _ => ext_bind ext_eol fun _ => ext_many (fun _ => ext_variable) _ _

theorem ext_mutexes {vars : List ExplicitVariable} : Ext q (readMutexes vars) :=
  ext_bind ext_nat fun _ => ext_bind ext_eol fun _ => ext_bind (ext_many (fun _ => ext_bind ext_magic fun _ => ext_bind ext_nat fun _ => ext_bind ext_eol fun _ =>
    ext_bind (ext_many (fun _ => ext_fact) _ _) fun _ => ext_bind ext_magic fun _ => ext_pure) _ _) fun _ => ext_pure

theorem ext_init {vars : List ExplicitVariable} : Ext q (readInit vars) :=
  ext_bind ext_magic fun _ => ext_bind (ext_many (fun _ => ext_bind ext_nat fun _ => ext_bind ext_eol fun _ => ext_bind ext_checkFact fun _ => ext_pure) _ _) fun _ =>
    ext_bind ext_magic fun _ => ext_pure

theorem ext_goal {vars : List ExplicitVariable} : Ext q (readGoal vars) :=
  ext_bind ext_magic fun _ => ext_bind ext_facts fun _ => ext_bind ext_magic fun _ => ext_bind ext_require fun _ => ext_bind ext_require fun _ => ext_pure

theorem ext_variableAt {vars : List ExplicitVariable} {var : Nat} : Ext q (variableAt vars var) := by
  unfold variableAt
  constructor
  · intro t a m h
    split at h <;> cases h
    rfl
  · intro p p' t t' a h
    split at h <;> cases h
    rfl

theorem ext_effect {vars : List ExplicitVariable} : Ext q (readConditionalEffect vars) := by
  refine ext_bind ext_facts fun _ => ext_bind ext_nat fun var => ext_bind ext_variableAt fun _ => ext_bind ext_require fun _ => ext_bind ext_int fun n => ext_bind ?_ fun _ => ext_bind ext_nat fun _ =>
    ext_bind ext_checkFact fun _ => ext_bind ext_eol fun _ => ext_pure
  unfold checkPre
  split
  · exact ext_fail
  · split
    · exact ext_bind ext_checkFact fun _ => ext_pure
    · exact ext_pure

theorem ext_operator {metric : Bool} {vars : List ExplicitVariable} : Ext q (readOperator metric vars) := by
  refine ext_bind ext_magic fun _ => ext_bind ext_readLine fun _ => ext_bind ext_facts fun _ => ext_bind ext_nat fun _ => ext_bind ext_require fun _ => ext_bind ext_eol fun _ =>
    ext_bind (ext_many (fun _ => ext_effect) _ _) fun _ => ext_bind ext_int fun n => ext_bind ?_ fun _ => ext_bind ext_eol fun _ => ext_bind ext_magic fun _ => ext_pure
  unfold operatorCost
  split
  · exact ext_checkNat
  · exact ext_pure

theorem ext_actions {P : Read ExplicitOperator} (h : Ext q P) : Ext q (readActions P) :=
  ext_bind ext_nat fun _ => ext_bind ext_eol fun _ => ext_many (fun _ => h) _ _

theorem ext_layering {head : Nat} {vars : List ExplicitVariable} : ∀ conds : List Fact, Ext q (checkLayering head conds vars)
  | [] => ext_pure
  | f :: fs => by
    unfold checkLayering
    exact ext_bind ext_variableAt fun _ => ext_bind ext_require fun _ => ext_layering fs

theorem ext_headLayer {v : ExplicitVariable} : Ext q (headLayer v) := by
  unfold headLayer
  split
  · exact ext_fail
  · exact ext_pure

theorem ext_axiomPre {vars : List ExplicitVariable} {var : Nat} {n : Int} : Ext q (checkAxiomPre vars var n) := by
  unfold checkAxiomPre
  split
  · exact ext_fail
  · exact ext_bind ext_checkFact fun _ => ext_pure

theorem ext_axiom {vars : List ExplicitVariable} : Ext q (readAxiom vars) :=
  ext_bind ext_magic fun _ => ext_bind ext_facts fun _ => ext_bind ext_nat fun _ => ext_bind ext_variableAt fun _ => ext_bind ext_headLayer fun _ => ext_bind ext_int fun _ => ext_bind ext_axiomPre fun _ =>
    ext_bind ext_nat fun _ => ext_bind ext_checkFact fun _ => ext_bind ext_require fun _ => ext_bind ext_require fun _ => ext_bind (ext_layering _) fun _ => ext_bind ext_eol fun _ => ext_bind ext_magic fun _ => ext_pure

/-! ### The end of a complete file -/

/-- a step of two runs, on the cut file and on the complete one -/
theorem step {P : Read α} {f : α → Read β} (hP : Ext q P) (hf : ∀ a, Needs (f a)) {p : List Char} {t : Option (List (List Char))} {b : β} {m : Lexer}
    (h : (P >>= f) ⟨some p, t⟩ = .ok (b, m)) : ∃ a p' t', P ⟨some (p ++ q), t⟩ = .ok (a, ⟨some (p' ++ q), t'⟩) ∧ f a ⟨some p', t'⟩ = .ok (b, m) := by
  obtain ⟨a, ⟨st, t1⟩, h1, h2⟩ := bind_inv h
  cases st with
  | none => exact absurd h2 (hf a t1 b m)
  | some p1 => exact ⟨a, p1, t1, hP.ext _ _ _ _ _ h1, h2⟩

theorem step' {P : Read α} {f : α → Read β} (hP : Ext q P) (hf : ∀ a, Needs (f a)) {p : List Char} {t : Option (List (List Char))} {b c : β} {m m' : Lexer}
    (h : (P >>= f) ⟨some p, t⟩ = .ok (b, m)) (h' : (P >>= f) ⟨some (p ++ q), t⟩ = .ok (c, m')) :
    ∃ a p' t', f a ⟨some p', t'⟩ = .ok (b, m) ∧ f a ⟨some (p' ++ q), t'⟩ = .ok (c, m') := by
  obtain ⟨a, p', t', h1, h2⟩ := step hP hf h
  refine ⟨a, p', t', h2, ?_⟩
  rw [bind_ok h1] at h'
  exact h'

theorem getline_none : ∀ {p : List Char}, (getline p).2 = none → getline p = (p, none) ∧ '\n' ∉ p
  | [], _ => ⟨rfl, by simp⟩
  | c :: p, h => by
    simp only [getline] at h ⊢
    split at h
    · cases h
    · rename_i hc
      have := getline_none h
      rw [if_neg hc, this.1]
      exact ⟨rfl, by simp [Ne.symm hc, this.2]⟩

theorem getline_append : ∀ {p : List Char} (_ : '\n' ∉ p), getline (p ++ q) = (p ++ (getline q).1, (getline q).2)
  | [], _ => rfl
  | c :: p, h => by
    have hc : c ≠ '\n' := fun e => h (by simp [e])
    have := getline_append (p := p) (fun h' => h (by simp [h']))
    simp only [List.cons_append, getline, if_neg hc, this]

theorem getline_nil_some : ∀ {q : List Char}, getline q = ([], some []) → q = ['\n']
  | [], h => by simp [getline] at h
  | c :: q, h => by
    simp only [getline] at h
    split at h
    · rename_i hc
      simp only [Prod.mk.injEq, Option.some.injEq, true_and] at h
      rw [hc, h]
    · simp at h

/-- the last line of the complete file is in the cut file -/
theorem last_line : ∀ (p : List Char) {x : List Char} {r : Option (List Char)}, nextLine (some p) = (x, r) → x ≠ [] → nextLine (some (p ++ q)) = (x, some []) → blank q = true := by
  intro p
  induction hn : p.length using Nat.strongRecOn generalizing p with
  | ind n ih =>
    intro x r h hx h'
    cases r with
    | some p' =>
      have := nextLine_ext (q := q) p h
      rw [h'] at this
      simp only [Prod.mk.injEq, Option.some.injEq, true_and, List.nil_eq, List.append_eq_nil_iff] at this
      rw [this.2]
      rfl
    | none =>
      rw [nextLine.eq_def] at h h'
      simp only at h h'
      cases hg : (getline p).2 with
      | none =>
        have hp := getline_none hg
        rw [hp.1] at h
        rw [getline_append hp.2] at h'
        simp only at h h'
        split at h
        · rw [nextLine_none] at h
          simp only [Prod.mk.injEq, and_true] at h
          exact absurd h.symm hx
        · rename_i hb
          simp only [Prod.mk.injEq, and_true] at h
          subst h
          have hb2 : blank (p ++ (getline q).1) = false := by
            simp only [blank, List.all_append, Bool.not_eq_true] at hb ⊢
            rw [hb]
            rfl
          rw [hb2] at h'
          simp only [Bool.false_eq_true, if_false, Prod.mk.injEq, List.append_right_eq_self] at h'
          have := getline_nil_some (q := q) (Prod.ext h'.1 h'.2)
          rw [this]
          rfl
      | some r =>
        have h1 : getline (p ++ q) = ((getline p).1, some (r ++ q)) := getline_ext (by rw [← hg])
        rw [h1] at h'
        simp only at h'
        split at h
        · rename_i hb
          rw [hb] at h'
          rw [hg] at h
          exact ih r.length (by rw [← hn]; exact getline_shorter hg) r rfl h hx h'
        · rename_i hb
          rw [h] at hg
          simp at hg

theorem end_rule {p : List Char} {t : Option (List (List Char))} {r r' r'' : ExplicitOperator} {m : Lexer}
    (h : (readMagic "end_rule".toList >>= fun _ => (pure r : Read ExplicitOperator)) ⟨some p, t⟩ = .ok (r'', m))
    (h' : (readMagic "end_rule".toList >>= fun _ => (pure r : Read ExplicitOperator)) ⟨some (p ++ q), t⟩ = .ok (r', at' [])) : blank q = true := by
  have key : ∀ (s : List Char) (m : Lexer) (r' : ExplicitOperator), (readMagic "end_rule".toList >>= fun _ => (pure r : Read ExplicitOperator)) ⟨some s, t⟩ = .ok (r', m) →
      ∃ x, nextLine (some s) = ("end_rule".toList, x) ∧ m.stream = x := by
    intro s m r' h
    obtain ⟨_, l1, h1, h2⟩ := bind_inv h
    cases h2
    obtain ⟨x, l2, h3, h4⟩ := bind_inv h1
    unfold require at h4
    split at h4
    · rename_i hx
      cases h4
      unfold readLine at h3
      split at h3
      · cases h3
      · split at h3
        · cases h3
        · simp only [Res.ok.injEq, Prod.mk.injEq] at h3
          obtain ⟨h5, h6⟩ := h3
          refine ⟨(nextLine (some s)).2, ?_, by rw [← h6]⟩
          have hx := of_decide_eq_true hx
          rw [← hx, ← h5]
    · cases h4
  obtain ⟨x, h1, _⟩ := key p m _ h
  obtain ⟨y, h2, h3⟩ := key (p ++ q) _ _ h'
  simp only at h3
  subst h3
  exact last_line p h1 (by decide) h2

/-- steps that may be followed by a line -/
macro "needs" : tactic => `(tactic| (repeat first
  | exact needs_bind_left needs_magic
  | refine needs_bind_right (q := []) ext_facts fun _ => ?_
  | refine needs_bind_right (q := []) ext_nat fun _ => ?_
  | refine needs_bind_right (q := []) ext_int fun _ => ?_
  | refine needs_bind_right (q := []) ext_variableAt fun _ => ?_
  | refine needs_bind_right (q := []) ext_headLayer fun _ => ?_
  | refine needs_bind_right (q := []) ext_axiomPre fun _ => ?_
  | refine needs_bind_right (q := []) ext_checkFact fun _ => ?_
  | refine needs_bind_right (q := []) ext_require fun _ => ?_
  | refine needs_bind_right (q := []) (ext_layering _) fun _ => ?_
  | refine needs_bind_right (q := []) ext_eol fun _ => ?_))

theorem cut_axiom {vars : List ExplicitVariable} {p : List Char} {t : Option (List (List Char))} {r r' : ExplicitOperator} {m : Lexer}
    (h : readAxiom vars ⟨some p, t⟩ = .ok (r, m)) (h' : readAxiom vars ⟨some (p ++ q), t⟩ = .ok (r', at' [])) : blank q = true := by
  unfold readAxiom at h h'
  obtain ⟨_, _, _, h, h'⟩ := step' ext_magic (fun _ => by needs) h h'
  obtain ⟨_, _, _, h, h'⟩ := step' ext_facts (fun _ => by needs) h h'
  obtain ⟨_, _, _, h, h'⟩ := step' ext_nat (fun _ => by needs) h h'
  obtain ⟨_, _, _, h, h'⟩ := step' ext_variableAt (fun _ => by needs) h h'
  obtain ⟨_, _, _, h, h'⟩ := step' ext_headLayer (fun _ => by needs) h h'
  obtain ⟨_, _, _, h, h'⟩ := step' ext_int (fun _ => by needs) h h'
  obtain ⟨_, _, _, h, h'⟩ := step' ext_axiomPre (fun _ => by needs) h h'
  obtain ⟨_, _, _, h, h'⟩ := step' ext_nat (fun _ => by needs) h h'
  obtain ⟨_, _, _, h, h'⟩ := step' ext_checkFact (fun _ => by needs) h h'
  obtain ⟨_, _, _, h, h'⟩ := step' ext_require (fun _ => by needs) h h'
  obtain ⟨_, _, _, h, h'⟩ := step' ext_require (fun _ => by needs) h h'
  obtain ⟨_, _, _, h, h'⟩ := step' (ext_layering _) (fun _ => by needs) h h'
  obtain ⟨_, _, _, h, h'⟩ := step' ext_eol (fun _ => by needs) h h'
  exact end_rule h h'

theorem needs_axiom {vars : List ExplicitVariable} : Needs (readAxiom vars) := needs_bind_left needs_magic

theorem needs_many {P : Nat → Read α} (h : ∀ i, Needs (P i)) {n : Nat} (hn : 1 ≤ n) (i : Nat) : Needs (many n i P) := by
  cases n with
  | zero => omega
  | succ n => exact needs_bind_left (h i)

/-- the axioms of a cut file -/
theorem cut_axioms {vars : List ExplicitVariable} (hq : blank q = false) : ∀ (n i : Nat) (p : List Char) {as as' : List ExplicitOperator} {m : Lexer},
    many n i (fun _ => readAxiom vars) (at' p) = .ok (as, m) → many n i (fun _ => readAxiom vars) (at' (p ++ q)) = .ok (as', at' []) → False
  | 0, i, p, as, as', m, _, h' => by
    have h' : Res.ok (([] : List ExplicitOperator), at' (p ++ q)) = .ok (as', at' []) := h'
    simp only [Res.ok.injEq, Prod.mk.injEq, Lexer.mk.injEq, Option.some.injEq, List.append_eq_nil_iff] at h'
    rw [h'.2.1.2] at hq
    cases hq
  | n + 1, i, p, as, as', m, h, h' => by
    unfold many at h h'
    rcases Nat.eq_zero_or_pos n with hn | hn
    · subst hn
      obtain ⟨a, l1, h1, _⟩ := bind_inv h
      obtain ⟨a', l2, h2, h3⟩ := bind_inv h'
      have : l2 = at' [] := by
        obtain ⟨_, l3, h4, h5⟩ := bind_inv h3
        cases h4
        cases h5
        rfl
      subst this
      have := cut_axiom h1 h2
      rw [this] at hq
      cases hq
    · obtain ⟨a, p1, t1, h1, h2⟩ := step ext_axiom (fun _ => needs_bind_left (needs_many (fun _ => needs_axiom) hn _)) h
      obtain ⟨_, l2, h3, _⟩ := bind_inv h2
      rw [bind_ok h1] at h'
      obtain ⟨_, l4, h5, h6⟩ := bind_inv h'
      cases h6
      have ht : t1 = none := by
        have := safe_axiom (vars := vars) (at' (p ++ q)) rfl
        rw [h1] at this
        simpa using this.1
      subst ht
      exact cut_axioms hq n (i + 1) p1 h3 h5

theorem toInt_digits_small {n : Nat} (hn : n < 10) : toInt [PlanFiles.digit n] = n := by
  have := PlanFiles.toInt_digits n
  rw [digits, if_pos hn] at this
  exact this

theorem digits_ne_nil {n : Nat} : ¬ digits n = [] := PlanFiles.digits_ne n

theorem bind_err {P : Read α} {f : α → Read β} {l : Lexer} (h : P l = .err) : (P >>= f) l = .err := by
  show Read.bind P f l = _
  unfold Read.bind
  rw [h]

theorem nextLine_ne : ∀ {q : List Char}, blank q = false → (nextLine (some q)).1 ≠ [] := by
  intro q
  induction hn : q.length using Nat.strongRecOn generalizing q with
  | ind n ih =>
    intro hq
    rw [nextLine.eq_def]
    simp only
    split
    · rename_i hb
      cases hg : (getline q).2 with
      | none =>
        have := (getline_none hg).1
        rw [this] at hb
        simp only at hb
        rw [hb] at hq
        cases hq
      | some r =>
        refine ih r.length (by rw [← hn]; exact getline_shorter hg) rfl ?_
        have hsplit : ∀ {q r : List Char}, (getline q).2 = some r → q = (getline q).1 ++ '\n' :: r := by
          intro q
          induction q with
          | nil => intro r h; simp [getline] at h
          | cons c q ih =>
            intro r h
            simp only [getline] at h ⊢
            split at h
            · rename_i hc
              simp only [Option.some.injEq] at h
              simp [hc, h]
            · rename_i hc
              rw [if_neg hc]
              simp only [List.cons_append, List.cons.injEq, true_and]
              exact ih h
        rw [hsplit hg] at hq
        have hb' : blank (getline q).1 = true := hb
        simp only [blank, List.all_append, List.all_cons] at hq hb'
        rw [hb'] at hq
        simpa [isSpace, blank] using hq
    · rename_i hb
      intro e
      rw [e] at hb
      exact hb rfl

theorem digits_prefix : ∀ (n : Nat) {p s : List Char}, p ++ s = digits n → p ≠ [] → toInt p = 0 → n = 0 ∧ s = [] := by
  intro n
  induction n using Nat.strongRecOn with
  | ind n ih =>
    intro p s h hp h0
    rw [digits] at h
    split at h
    · rename_i hn
      have hlen := congrArg List.length h
      simp only [List.length_append, List.length_singleton] at hlen
      have : 0 < p.length := List.length_pos_iff.mpr hp
      have hs : s = [] := List.length_eq_zero_iff.mp (by omega)
      subst hs
      rw [List.append_nil] at h
      subst h
      rw [toInt_digits_small hn] at h0
      exact ⟨h0, rfl⟩
    · rename_i hn
      rcases List.eq_nil_or_concat s with hs | ⟨s', c, hs⟩
      · have h1 := PlanFiles.toInt_digits n
        rw [digits, if_neg hn, ← h, hs, List.append_nil, h0] at h1
        omega
      · rw [hs, List.concat_eq_append, ← List.append_assoc] at h
        have h1 := List.append_inj_left' h rfl
        have := ih (n / 10) (by omega) h1 hp h0
        omega

/-- the function reads a line if it is called between two lines -/
def Needs0 (P : Read α) : Prop := ∀ (a : α) (m : Lexer), P ⟨none, none⟩ ≠ .ok (a, m)

theorem needs0_bind {P : Read α} {f : α → Read β} (h : Needs0 P) : Needs0 (P >>= f) := by
  intro b m h'
  obtain ⟨a, l', h1, _⟩ := bind_inv h'
  exact h a l' h1

theorem needs0_nat : Needs0 readNat := by
  refine needs0_bind (needs0_bind ?_)
  intro a m h
  unfold read at h
  simp only [nextLine_none] at h
  cases h

theorem needs0_magic {s : List Char} : Needs0 (readMagic s) := fun a m => needs_magic none a m

/-- a step between two lines, when the result for the complete file is known -/
theorem step0 {P : Read α} {f : α → Read β} {Q : α → Prop} (hP : Ext q P) (hs : Safe P false false Q) (hf : ∀ a, Needs0 (f a)) {p rest : List Char} {a : α} {b : β} {m : Lexer}
    (h' : P (at' (p ++ q)) = .ok (a, at' rest)) (h : (P >>= f) (at' p) = .ok (b, m)) : ∃ p', rest = p' ++ q ∧ f a (at' p') = .ok (b, m) := by
  obtain ⟨a', ⟨st, t1⟩, h1, h2⟩ := bind_inv h
  have ht : t1 = none := by
    have := hs (at' p) rfl
    rw [h1] at this
    simpa using this.1
  subst ht
  cases st with
  | none => exact absurd h2 (hf a' b m)
  | some p1 =>
    have := hP.ext _ _ _ _ _ h1
    rw [h'] at this
    simp only [Res.ok.injEq, Prod.mk.injEq, Lexer.mk.injEq, Option.some.injEq, and_true] at this
    exact ⟨p1, this.2, by rw [this.1]; exact h2⟩

variable {T : SasTask}

theorem getline_cut : ∀ {s p : List Char} {rest : List Char} (_ : '\n' ∉ s), p ++ q = line s ++ rest → (getline p).2 = none → ∃ s', p ++ s' = s ∧ q = s' ++ '\n' :: rest
  | s, [], rest, _, h, _ => ⟨s, rfl, by simpa [line] using h⟩
  | [], c :: p, rest, _, h, hg => by
    simp only [line, List.nil_append, List.cons_append, List.cons.injEq] at h
    simp [getline, h.1] at hg
  | d :: s, c :: p, rest, hs, h, hg => by
    simp only [line, List.cons_append, List.cons.injEq] at h
    obtain ⟨rfl, h⟩ := h
    have hc : c ≠ '\n' := fun e => hs (by simp [e])
    simp only [getline, if_neg hc] at hg
    obtain ⟨s', h1, h2⟩ := getline_cut (s := s) (rest := rest) (fun h' => hs (by simp [h'])) (by simpa [line] using h) hg
    exact ⟨s', by simp [h1], h2⟩

theorem parse_stream {w : List Char} {x : Int} {l m : Lexer} (h : parse w l = .ok (x, m)) : m = l := by
  unfold parse at h
  cases hz : parseInt w with
  | none => rw [hz] at h; cases h
  | some z => rw [hz] at h; cases h; rfl

theorem checkNat_stream {n : Int} {x : Nat} {l m : Lexer} (h : checkNat n l = .ok (x, m)) : m = l := by
  unfold checkNat at h
  by_cases hn : 0 ≤ n
  · rw [if_pos hn] at h; cases h; rfl
  · rw [if_neg hn] at h; cases h

theorem needs0_after {metric : Bool} {vars : List ExplicitVariable} : Needs0 (sectionsAfter metric vars) := needs0_bind (needs0_bind needs0_nat)

/-- the number of axioms in a cut file -/
theorem cut_count {n : Nat} {p rest : List Char} (hn : n ≤ IntMax) (hp : p ++ q = line (digits n) ++ rest) (hrest : n = 0 → rest = []) (hq : blank q = false) {k : Nat} {m : Lexer}
    (h : readNat (at' p) = .ok (k, m)) : (∃ p', rest = p' ++ q ∧ k = n ∧ m = ⟨some p', some []⟩) ∨ (m.stream = none ∧ 1 ≤ k) := by
  obtain ⟨st, t⟩ := m
  cases st with
  | some p' =>
    left
    have h1 := (ext_nat (q := q)).ext _ _ _ _ _ h
    have h2 := readNat_line hn rest
    have h3 : readNat ⟨some (p ++ q), none⟩ = _ := h1
    rw [hp] at h3
    rw [h2] at h3
    simp only [Res.ok.injEq, Prod.mk.injEq, Lexer.mk.injEq, Option.some.injEq] at h3
    exact ⟨p', h3.2.1, h3.1.symm, by rw [← h3.2.2]⟩
  | none =>
    right
    refine ⟨rfl, ?_⟩
    have hg : (getline p).2 = none := by
      cases hg : (getline p).2 with
      | none => rfl
      | some r =>
        exfalso
        have h1 : getline (p ++ q) = ((getline p).1, some (r ++ q)) := getline_ext (by rw [← hg])
        rw [hp, getline_line (digits_newline n)] at h1
        simp only [Prod.mk.injEq, Option.some.injEq] at h1
        have hnext : nextLine (some p) = (digits n, some r) := by
          rw [nextLine.eq_def]
          simp only
          rw [← h1.1, nameOk_blank (nameOk_word (word_digits n))]
          simp only [Bool.false_eq_true, if_false]
          exact Prod.ext h1.1.symm hg
        obtain ⟨x, l1, h2, h3⟩ := bind_inv h
        obtain ⟨w, l2, h4, h5⟩ := bind_inv h2
        unfold read at h4
        simp only [hnext, digits_ne_nil, if_false, words_single (word_digits n)] at h4
        cases h4
        have h6 := parse_stream h5
        have h7 := checkNat_stream h3
        rw [h6] at h7
        cases h7
    obtain ⟨s', h1, h2⟩ := getline_cut (digits_newline n) hp hg
    obtain ⟨x, l1, h3, h4⟩ := bind_inv h
    obtain ⟨w, l2, h5, h6⟩ := bind_inv h3
    have hpn : p ≠ [] := by
      intro e
      subst e
      unfold read at h5
      simp only [nextLine_nil, if_true] at h5
      cases h5
    have hword : Word p := ⟨hpn, fun c hc => (word_digits n).2 c (by rw [← h1]; simp [hc])⟩
    have hnext : nextLine (some p) = (p, none) := by
      rw [nextLine.eq_def]
      simp only [(getline_none hg).1, nameOk_blank (nameOk_word hword)]
      rfl
    have hw : w = p := by
      unfold read at h5
      simp only [hnext, hpn, if_false, words_single hword] at h5
      cases h5
      rfl
    subst hw
    have hdig : ∀ c ∈ w, isDigit c = true := fun c hc => PlanFiles.digits_isDigit n c (by rw [← h1]; simp [hc])
    have hval : ∀ z, parseInt w = some z → z = (toInt w : Int) := by
      intro z hz
      match w, hpn, hdig, hz with
      | c :: ds, _, hd, hz =>
        have hc := hd c (by simp)
        unfold parseInt at hz
        split at hz
        · rename_i e
          simp only [List.cons.injEq] at e
          rw [e.1] at hc
          exact absurd hc (by decide)
        · rename_i e
          simp only [List.cons.injEq] at e
          rw [e.1] at hc
          exact absurd hc (by decide)
        · split at hz
          · simpa using hz.symm
          · cases hz
    have hk : k = toInt w := by
      unfold parse at h6
      cases hz : parseInt w with
      | none => rw [hz] at h6; cases h6
      | some z =>
        rw [hz] at h6
        cases h6
        rw [hval _ hz] at h4
        unfold checkNat at h4
        rw [if_pos (Int.natCast_nonneg _)] at h4
        cases h4
        simp
    rcases Nat.eq_zero_or_pos k with h0 | h0
    · exfalso
      obtain ⟨e1, e2⟩ := digits_prefix n h1 hpn (by omega)
      rw [h2, e2, hrest e1] at hq
      cases hq
    · exact h0

/-- a file that has been cut off is not accepted -/
theorem cut_sections (hT : T.Valid) {p : List Char} (hp : output T = p ++ q) (hq : blank q = false) {r : Root} {m : Lexer} : readSections (at' p) ≠ .ok (r, m) := by
  intro h
  rw [readSections_eq] at h
  rw [output_eq] at hp
  have hs := same_variables (T := T)
  obtain ⟨hs', hd⟩ := same_defaults hs hT.init
  obtain ⟨p, hp, h⟩ := step0 ext_version safe_version (fun _ => needs0_bind (needs0_bind needs0_magic)) (by rw [← hp]; exact readVersion_ok _) h
  obtain ⟨p, hp, h⟩ := step0 ext_metric safe_metric (fun _ => needs0_bind (needs0_bind needs0_nat)) (by rw [← hp]; exact readMetric_ok _ _) h
  obtain ⟨p, hp, h⟩ := step0 ext_variables safe_variables (fun _ => needs0_after) (by rw [← hp]; exact readVariables_ok hT _) h
  unfold sectionsAfter at h
  unfold outAfter at hp
  obtain ⟨p, hp, h⟩ := step0 ext_mutexes safe_mutexes (fun _ => needs0_bind (needs0_bind needs0_magic)) (by rw [← hp]; exact readMutexes_ok hT hs _) h
  obtain ⟨p, hp, h⟩ := step0 ext_init safe_init (fun _ => needs0_bind (needs0_bind needs0_magic)) (by rw [← hp]; exact readInit_ok hT hs _) h
  obtain ⟨p, hp, h⟩ := step0 ext_goal safe_goal (fun _ => needs0_bind (needs0_bind needs0_nat)) (by rw [← hp]; exact readGoal_ok hT hs' _) h
  obtain ⟨p, hp, h⟩ := step0 (ext_actions ext_operator) (safe_actions safe_operator) (fun _ => needs0_bind (needs0_bind needs0_nat))
    (by rw [← hp]; exact readActions_ok T.operators hT.fewOperators (fun o ho rest => readOperator_ok hT hs' (hT.operators o ho) _ rest) _) h
  obtain ⟨as, l1, h, _⟩ := bind_inv h
  obtain ⟨k, l2, h1, h⟩ := bind_inv h
  rcases cut_count hT.fewAxioms hp.symm (fun e => by rw [List.length_eq_zero_iff.mp e]; rfl) hq h1 with ⟨p', h2, h3, h4⟩ | ⟨h2, h3⟩
  · subst h4
    obtain ⟨_, l3, h5, h⟩ := bind_inv h
    cases h5
    subst h3
    have hfull := many_ok' (p := readAxiom _) T.axioms 0 (fun a ha rest => readAxiom_ok hT hs' hd (hT.axioms a ha) rest) []
    rw [h2] at hfull
    exact cut_axioms hq _ _ _ h hfull
  · obtain ⟨st, t⟩ := l2
    simp only at h2
    subst h2
    exact needs_bind_right (q := []) ext_eol (fun _ => needs_many (fun _ => needs_axiom) h3 0) _ _ _ h

/-- more text after the last section -/
theorem trailing_sections (hT : T.Valid) (hq : blank q = false) : readSections (at' (output T ++ q)) = .err := by
  have hs := same_variables (T := T)
  obtain ⟨hs', hd⟩ := same_defaults hs hT.init
  have hend : confirmEnd (at' q) = .err := by
    unfold confirmEnd
    simp only
    rw [if_neg]
    exact nextLine_ne hq
  have h : sectionsAfter T.metric (T.variables.zipIdx.map (fun v => variableOf v.1 v.2)) (at' (line (digits T.mutexes.length) ++ ((T.mutexes.map outMutex).flatten ++ (outInit T.init ++
      (outGoal T.goal ++ (line (digits T.operators.length) ++ ((T.operators.map outOperator).flatten ++ (line (digits T.axioms.length) ++
        ((T.axioms.map outAxiom).flatten ++ q))))))))) = .err := by
    unfold sectionsAfter
    exact (bind_ok (readMutexes_ok hT hs _)).trans ((bind_ok (readInit_ok hT hs _)).trans ((bind_ok (readGoal_ok hT hs' _)).trans
      ((bind_ok (readActions_ok T.operators hT.fewOperators (fun o ho rest => readOperator_ok hT hs' (hT.operators o ho) _ rest) _)).trans
        ((bind_ok (readActions_ok T.axioms hT.fewAxioms (fun a ha rest => readAxiom_ok hT hs' hd (hT.axioms a ha) rest) _)).trans (bind_err hend)))))
  have hout : output T ++ q = line "begin_version".toList ++ (line (digits 3) ++ (line "end_version".toList ++ (line "begin_metric".toList ++
      (line (digits (if T.metric then 1 else 0)) ++ (line "end_metric".toList ++ (outVariables T.variables ++ (line (digits T.mutexes.length) ++ ((T.mutexes.map outMutex).flatten ++ (outInit T.init ++
      (outGoal T.goal ++ (line (digits T.operators.length) ++ ((T.operators.map outOperator).flatten ++ (line (digits T.axioms.length) ++
        ((T.axioms.map outAxiom).flatten ++ q)))))))))))))) := by
    unfold output
    simp only [List.append_assoc]
  rw [hout, readSections_eq]
  exact (bind_ok (readVersion_ok _)).trans ((bind_ok (readMetric_ok _ _)).trans ((bind_ok (readVariables_ok hT _)).trans h))

theorem other_version {v : Nat} (hv : v ≠ 3) (hi : v ≤ IntMax) (rest : List Char) : readSections (at' (line "begin_version".toList ++ (line (digits v) ++ rest))) = .err := by
  rw [readSections_eq]
  apply bind_err
  unfold readVersion
  refine (bind_ok (magic_ok ⟨by decide, by decide⟩ _)).trans ((bind_ok (readNat_line hi _)).trans (bind_err ?_))
  unfold require
  rw [if_neg (by simpa using hv)]
  rfl

end Verif.SasFile
