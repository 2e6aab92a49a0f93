import Verif.Spec.StubbornSets
import Verif.Lemmas.SimpleSucc

/-
The theory behind stubborn sets: a plan can be reordered such that it begins with an operator of the stubborn set.
-/
namespace Verif
open Verif.Search

/-- `o` makes `f` true -/
def Operator.Achieves (o : Operator) (f : Fact) : Prop := ∃ e ∈ o.effects, e.fact = f

/-- an effect of `o` contradicts a precondition of `o'` -/
def Operator.Disables (o o' : Operator) : Prop := ∃ e ∈ o.effects, ∃ f ∈ o'.pre, e.fact.var = f.var ∧ e.fact.val ≠ f.val

/-- effects of `o` and `o'` contradict each other -/
def Operator.Conflicts (o o' : Operator) : Prop := ∃ e ∈ o.effects, ∃ e' ∈ o'.effects, e.fact.var = e'.fact.var ∧ e.fact.val ≠ e'.fact.val

/-- the operators `T` contain all operators (among those in `A`) that make some fact of `fs` true which does not hold -/
def Task.Enables (t : Task) (s : State) (A T : Nat → Prop) (fs : List Fact) : Prop :=
  ∃ f ∈ fs, ¬ f.holds s ∧ ∀ (i : Nat) (o : Operator), t.ops[i]? = some o → o.Achieves f → A i → T i

/-- strong stubborn sets; `A` contains the operators that can occur in plans -/
structure Task.Stubborn (t : Task) (s : State) (A T : Nat → Prop) : Prop where
  goal : t.Enables s A T t.goal
  inapplicable : ∀ (i : Nat) (o : Operator), T i → t.ops[i]? = some o → ¬ o.applicable s → t.Enables s A T o.pre
  applicable : ∀ (i j : Nat) (o o' : Operator), T i → t.ops[i]? = some o → o.applicable s → t.ops[j]? = some o' → A j → j ≠ i →
    (o.Conflicts o' ∨ o'.Disables o → T j) ∧ (o.Disables o' → T j ∨ t.Enables s A T o'.pre)

variable {t : Task} (ht : StubbornTask t)
include ht

theorem holds_succ {o : Operator} (ho : o ∈ t.ops) {s s' : State} (hs : t.ValidState s) (h : t.SuccRel o s s') (f : Fact) :
    f.holds s' ↔ o.Achieves f ∨ (∀ e ∈ o.effects, e.fact.var ≠ f.var) ∧ f.holds s := by
  obtain ⟨h1, h2, h3⟩ := succ_simple ht.wf ht.noAxioms (ht.unconditional o ho) (ht.eff o ho) h
  by_cases he : ∃ e ∈ o.effects, e.fact.var = f.var
  · obtain ⟨e, he, hv⟩ := he
    have hlt : e.fact.var < s.length := by
      obtain ⟨d, hd, _⟩ := ht.wf.effFact o ho e he
      rw [hs.1]; exact (List.getElem?_eq_some_iff.mp hd).1
    have h4 := h2 e he hlt
    unfold Fact.holds
    rw [← hv, h4]
    constructor
    · intro h5
      simp only [Option.some.injEq] at h5
      refine Or.inl ⟨e, he, ?_⟩
      cases hf : e.fact; cases f
      rw [hf] at hv h5
      simp_all
    · rintro (⟨e', he', rfl⟩ | ⟨h5, _⟩)
      · have : e = e' := List.inj_on_of_nodup_map (ht.eff o ho) he he' hv
        rw [this]
      · exact absurd rfl (h5 e he)
  · push Not at he
    unfold Fact.holds
    rw [h3 f.var he]
    constructor
    · exact fun h => Or.inr ⟨he, h⟩
    · rintro (⟨e', he', rfl⟩ | h)
      · exact absurd rfl (he e' he')
      · exact h.2

theorem exec_unachieved {s u : State} {π : List Nat} (h : t.Exec s π u) {f : Fact} (hs : t.ValidState s) (hf : ¬ f.holds s) (hn : ∀ i ∈ π, ∀ o : Operator, t.ops[i]? = some o → ¬ o.Achieves f) : ¬ f.holds u := by
  induction h with
  | nil s => exact hf
  | cons s i o s' π u ho ha hsucc hex ih =>
    refine ih (succ_valid ht.wf hs ho ha hsucc) ?_ (fun j hj => hn j (by simp [hj]))
    rw [holds_succ ht (List.mem_of_getElem? ho) hs hsucc]
    rintro (h | h)
    · exact hn i (by simp) o ho h
    · exact hf h.2

theorem applicable_succ {o o' : Operator} (ho : o ∈ t.ops) {s s' : State} (hs : t.ValidState s) (h : t.SuccRel o s s') (ha : o'.applicable s) (hd : ¬ o.Disables o') : o'.applicable s' := by
  intro f hf
  rw [holds_succ ht ho hs h]
  by_cases he : ∃ e ∈ o.effects, e.fact.var = f.var
  · obtain ⟨e, he, hv⟩ := he
    left
    refine ⟨e, he, ?_⟩
    by_contra hne
    refine hd ⟨e, he, f, hf, hv, ?_⟩
    intro hval
    apply hne
    clear hf
    generalize e.fact = a at *
    cases a; cases f; simp_all
  · push Not at he
    exact Or.inr ⟨he, ha f hf⟩

/-- operators without conflicts commute -/
theorem succ_commute {o o' : Operator} (ho : o ∈ t.ops) (ho' : o' ∈ t.ops) {s s1 s1' s2 s2' : State} (hs : t.ValidState s) (hv1 : t.ValidState s1) (hv1' : t.ValidState s1') (h1 : t.SuccRel o s s1) (h2 : t.SuccRel o' s1 s2) (h1' : t.SuccRel o' s s1') (h2' : t.SuccRel o s1' s2')
    (hc : ¬ o.Conflicts o') : s2 = s2' := by
  have l1 := (succ_simple ht.wf ht.noAxioms (ht.unconditional o ho) (ht.eff o ho) h1).1
  have l2 := (succ_simple ht.wf ht.noAxioms (ht.unconditional o' ho') (ht.eff o' ho') h2).1
  have l1' := (succ_simple ht.wf ht.noAxioms (ht.unconditional o' ho') (ht.eff o' ho') h1').1
  have l2' := (succ_simple ht.wf ht.noAxioms (ht.unconditional o ho) (ht.eff o ho) h2').1
  have key : ∀ f : Fact, f.holds s2 ↔ f.holds s2' := by
    intro f
    rw [holds_succ ht ho' hv1 h2, holds_succ ht ho hs h1, holds_succ ht ho hv1' h2', holds_succ ht ho' hs h1']
    constructor
    · rintro (⟨e', he', rfl⟩ | ⟨h3, ⟨e, he, rfl⟩ | h4⟩)
      · by_cases hex : ∃ e ∈ o.effects, e.fact.var = e'.fact.var
        · obtain ⟨e, he, hv⟩ := hex
          left
          refine ⟨e, he, ?_⟩
          by_contra hne
          refine hc ⟨e, he, e', he', hv, fun hval => hne ?_⟩
          generalize e.fact = a at *; generalize e'.fact = b at *
          cases a; cases b; simp_all
        · push Not at hex
          exact Or.inr ⟨hex, Or.inl ⟨e', he', rfl⟩⟩
      · exact Or.inl ⟨e, he, rfl⟩
      · exact Or.inr ⟨h4.1, Or.inr ⟨h3, h4.2⟩⟩
    · rintro (⟨e', he', rfl⟩ | ⟨h3, ⟨e, he, rfl⟩ | h4⟩)
      · by_cases hex : ∃ e ∈ o'.effects, e.fact.var = e'.fact.var
        · obtain ⟨e, he, hv⟩ := hex
          left
          refine ⟨e, he, ?_⟩
          by_contra hne
          refine hc ⟨e', he', e, he, hv.symm, fun hval => hne ?_⟩
          generalize e.fact = a at *; generalize e'.fact = b at *
          cases a; cases b; simp_all
        · push Not at hex
          exact Or.inr ⟨hex, Or.inl ⟨e', he', rfl⟩⟩
      · exact Or.inl ⟨e, he, rfl⟩
      · exact Or.inr ⟨h4.1, Or.inr ⟨h3, h4.2⟩⟩
  apply List.ext_getElem?
  intro v
  by_cases hv : v < s2.length
  · have := (key ⟨v, s2[v]⟩).mp (List.getElem?_eq_getElem hv)
    unfold Fact.holds at this
    rw [this]
    exact List.getElem?_eq_getElem hv
  · rw [List.getElem?_eq_none (by omega), List.getElem?_eq_none (by omega)]

/-- an operator that interferes with none of the operators before it can be moved to the front -/
theorem exec_move {i : Nat} {o : Operator} (ho : t.ops[i]? = some o) {s u u' : State} {α : List Nat} (h : t.Exec s α u) (hs : t.ValidState s) (ha : o.applicable s)
    (hn : ∀ j ∈ α, ∀ o' : Operator, t.ops[j]? = some o' → ¬ o.Conflicts o' ∧ ¬ o'.Disables o ∧ ¬ o.Disables o') (hu : t.SuccRel o u u') : t.Exec s (i :: α) u' := by
  induction h with
  | nil s => exact .cons s i o u' [] u' ho ha hu (.nil u')
  | cons s j o' s1 α u hj haj hsucc hex ih =>
    have hom := List.mem_of_getElem? ho
    have hjm := List.mem_of_getElem? hj
    obtain ⟨n1, n2, n3⟩ := hn j (by simp) o' hj
    have hv1 := succ_valid ht.wf hs hj haj hsucc
    have h1 := ih hv1 (applicable_succ ht hjm hs hsucc ha n2) (fun k hk => hn k (by simp [hk])) hu
    cases h1 with
    | cons _ _ o2 s2 _ _ ho2 ha2 hsucc2 hex2 =>
      rw [ho] at ho2
      simp only [Option.some.injEq] at ho2
      subst ho2
      obtain ⟨s1', v1', hs1'⟩ := exists_succ ht.wf hs hom
      have happ := applicable_succ ht hom hs hs1' haj n3
      obtain ⟨s2', v2', hs2'⟩ := exists_succ ht.wf v1' hjm
      have e := succ_commute ht hom hjm hs v1' hv1 hs1' hs2' hsucc hsucc2 n1
      subst e
      exact .cons s i o s1' _ _ ho ha hs1' (.cons s1' j o' s2' α _ hj happ hs2' hex2)

theorem exec_append {s u : State} {α β : List Nat} : t.Exec s (α ++ β) u ↔ ∃ m, t.Exec s α m ∧ t.Exec m β u := by
  clear ht
  induction α generalizing s with
  | nil =>
    constructor
    · exact fun h => ⟨s, .nil s, h⟩
    · rintro ⟨m, h1, h2⟩
      cases h1
      exact h2
  | cons i α ih =>
    constructor
    · intro h
      cases h with
      | cons _ _ o s' _ _ h1 h2 h3 h4 =>
        obtain ⟨m, k1, k2⟩ := ih.mp h4
        exact ⟨m, .cons s i o s' α m h1 h2 h3 k1, k2⟩
    · rintro ⟨m, h1, h2⟩
      cases h1 with
      | cons _ _ o s' _ _ h1 h2' h3 h4 => exact .cons s i o s' _ _ h1 h2' h3 (ih.mpr ⟨m, h4, h2⟩)

theorem Task.Enables.before {s u : State} {A T : Nat → Prop} {fs : List Fact} (h : t.Enables s A T fs) (hs : t.ValidState s) {α : List Nat} (hex : t.Exec s α u) (hA : ∀ i ∈ α, A i) (hT : ∀ i ∈ α, ¬ T i) : ¬ allHold fs u := by
  obtain ⟨f, h1, h2, h3⟩ := h
  intro hall
  exact exec_unachieved ht hex hs h2 (fun i hi o ho hach => hT i hi (h3 i o ho hach (hA i hi))) (hall f h1)

/-- every plan contains an operator of the stubborn set, the first of them can be moved to the front -/
theorem Task.Stubborn.reorder {s : State} {A T : Nat → Prop} (h : t.Stubborn s A T) (hs : t.ValidState s) {π : List Nat} (hπ : t.SolvesFrom s π) (hA : ∀ i ∈ π, A i) :
    ∃ i ρ, T i ∧ (∃ o : Operator, t.ops[i]? = some o ∧ o.applicable s) ∧ (i :: ρ).Perm π ∧ t.SolvesFrom s (i :: ρ) := by
  classical
  obtain ⟨u, hex, hg⟩ := hπ
  have hex1 : ∃ i ∈ π, T i := by
    by_contra hno
    push Not at hno
    exact h.goal.before ht hs hex hA hno hg
  -- split at the first operator of the set
  have hsplit : ∀ l : List Nat, (∃ i ∈ l, T i) → ∃ α i β, l = α ++ i :: β ∧ T i ∧ ∀ j ∈ α, ¬ T j := by
    intro l
    induction l with
    | nil => simp
    | cons x l ih =>
      intro hx
      by_cases hTx : T x
      · exact ⟨[], x, l, rfl, hTx, by simp⟩
      · obtain ⟨α, i, β, h1, h2, h3⟩ := ih (by
          obtain ⟨i, hi, hTi⟩ := hx
          rcases List.mem_cons.mp hi with rfl | hi
          · exact absurd hTi hTx
          · exact ⟨i, hi, hTi⟩)
        exact ⟨x :: α, i, β, by simp [h1], h2, by simpa [hTx] using h3⟩
  obtain ⟨α, i, β, rfl, hTi, hα⟩ := hsplit π hex1
  obtain ⟨m, e1, e2⟩ := (exec_append ht).mp hex
  cases e2 with
  | cons _ _ o m' _ _ ho ham hsucc e3 =>
    have hAα : ∀ j ∈ α, A j := fun j hj => hA j (by simp [hj])
    have hap : o.applicable s := by
      by_contra hna
      exact (h.inapplicable i o hTi ho hna).before ht hs e1 hAα hα ham
    have hn : ∀ j ∈ α, ∀ o' : Operator, t.ops[j]? = some o' → ¬ o.Conflicts o' ∧ ¬ o'.Disables o ∧ ¬ o.Disables o' := by
      intro j hj o' ho'
      have hji : j ≠ i := fun e => hα j hj (e ▸ hTi)
      obtain ⟨k1, k2⟩ := h.applicable i j o o' hTi ho hap ho' (hAα j hj) hji
      refine ⟨fun hc => hα j hj (k1 (Or.inl hc)), fun hd => hα j hj (k1 (Or.inr hd)), fun hd => ?_⟩
      rcases k2 hd with hTj | hE
      · exact hα j hj hTj
      · obtain ⟨α1, α2, rfl⟩ := List.append_of_mem hj
        obtain ⟨m1, f1, f2⟩ := (exec_append ht).mp e1
        cases f2 with
        | cons _ _ o2 _ _ _ ho2 ha2 _ _ =>
          rw [ho'] at ho2
          simp only [Option.some.injEq] at ho2
          subst ho2
          exact hE.before ht hs f1 (fun k hk => hAα k (by simp [hk])) (fun k hk => hα k (by simp [hk])) ha2
    refine ⟨i, α ++ β, hTi, ⟨o, ho, hap⟩, List.perm_middle.symm, u, ?_, hg⟩
    have := exec_move ht ho e1 hs hap hn hsucc
    rw [← List.cons_append]
    exact (exec_append ht).mpr ⟨m', this, e3⟩

end Verif
