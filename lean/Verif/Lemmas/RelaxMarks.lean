import Verif.Lemmas.RelaxTask

/-
Collecting the relaxed plan from the supporters of propositions.
-/
namespace Verif.Relax

variable {R : RTask} {S : Nat → Prop} {D : List Nat} {st : RSt}

/-- every proposition in `D` is true or has a supporter whose preconditions come later in `D` -/
def Supports (R : RTask) (S : Nat → Prop) (D : List Nat) (st : RSt) : Prop :=
  ∀ q D1 D2, D = D1 ++ q :: D2 → q < R.numProps ∧ ((st.reached q = none ∧ S q) ∨ ∃ i o, st.reached q = some i ∧ R.ops[i]? = some o ∧ o.eff = q ∧ ∀ r ∈ o.pre, r ∈ D2)

theorem XInv.supports {K : Kind} {F : List Nat} {p d : Nat} {rem : List Nat} {bag : List (AdaptiveQueue.Entry Nat)} (h : XInv K R S R.ops.length F D p rem d bag st) : Supports R S D st := by
  intro q D1 D2 e
  have hq : q ∈ D := by rw [e]; simp
  obtain ⟨c, hc, _⟩ := h.core.done q hq
  refine ⟨h.core.range q c hc, ?_⟩
  rcases h.origin q c hc with ⟨a1, a2, a3⟩ | ⟨i, o, a1, a2, a3, a4, a5⟩
  · exact Or.inl ⟨a3, a1⟩
  · exact Or.inr ⟨i, o, a1, a2, a3, fun r hr => (a4 r hr).2 D1 D2 e⟩

/-- the supporter of `q` has been used and its preconditions are marked -/
def Closed (R : RTask) (st : RSt) (m : Marks) (q : Nat) : Prop :=
  ∀ i o, st.reached q = some i → R.ops[i]? = some o → (∀ r ∈ o.pre, m.marked r = true) ∧ ∀ no, o.opNo = some no → m.plan no = true

structure MInv (R : RTask) (S : Nat → Prop) (D : List Nat) (st : RSt) (P : List Nat) (m : Marks) : Prop where
  mem : ∀ q, m.marked q = true → q ∈ D
  closed : ∀ q, m.marked q = true → q ∉ P → Closed R st m q
  pref : ∀ no ∈ m.preferred, ∃ o ∈ R.ops, o.opNo = some no ∧ ∀ r ∈ o.pre, S r
  plan : ∀ no, m.plan no = true → ∃ o ∈ R.ops, o.opNo = some no

structure Ext (m m' : Marks) : Prop where
  marked : ∀ q, m.marked q = true → m'.marked q = true
  plan : ∀ q, m.plan q = true → m'.plan q = true

theorem Ext.refl (m : Marks) : Ext m m := ⟨fun _ h => h, fun _ h => h⟩
theorem Ext.trans {a b c : Marks} (h : Ext a b) (h' : Ext b c) : Ext a c := ⟨fun q hq => h'.marked q (h.marked q hq), fun q hq => h'.plan q (h.plan q hq)⟩

theorem Closed.ext {m m' : Marks} (h : Ext m m') {q : Nat} (hc : Closed R st m q) : Closed R st m' q := by
  intro i o h1 h2
  obtain ⟨h3, h4⟩ := hc i o h1 h2
  exact ⟨fun r hr => h.marked r (h3 r hr), fun no hn => h.plan no (h4 no hn)⟩

theorem useOp_ext (m : Marks) (no : Option Nat) (b : Bool) : Ext m (m.useOp no b) := by
  unfold Marks.useOp
  cases no with
  | none => exact Ext.refl m
  | some no =>
    refine ⟨fun q h => h, fun q h => ?_⟩
    simp only [upd]
    split
    · rfl
    · exact h

theorem useOp_marked (m : Marks) (no : Option Nat) (b : Bool) : (m.useOp no b).marked = m.marked := by
  unfold Marks.useOp
  cases no <;> rfl

/-- what marking a proposition guarantees -/
def MarkOk (R : RTask) (S : Nat → Prop) (D : List Nat) (st : RSt) (p : Nat) : Prop :=
  ∀ P m, MInv R S D st P m → ∃ m', markProp R st p m = some m' ∧ MInv R S D st P m' ∧ Ext m m' ∧ m'.marked p = true

theorem markPre_spec : ∀ (ps : List Nat), (∀ p ∈ ps, MarkOk R S D st p) → ∀ (P : List Nat) (b : Bool) (m : Marks), MInv R S D st P m →
    ∃ b' m', markPre R st ps b m = some (b', m') ∧ MInv R S D st P m' ∧ Ext m m' ∧ (∀ p ∈ ps, m'.marked p = true) ∧ (b' = true → b = true ∧ ∀ p ∈ ps, st.reached p = none)
  | [], _, P, b, m, h => ⟨b, m, by rw [markPre], h, Ext.refl m, by simp, by simp⟩
  | p :: ps, hp, P, b, m, h => by
    obtain ⟨m1, h1, h2, h3, h4⟩ := hp p (by simp) P m h
    obtain ⟨b', m2, k1, k2, k3, k4, k5⟩ := markPre_spec ps (fun q hq => hp q (by simp [hq])) P (if (st.reached p).isSome then false else b) m1 h2
    refine ⟨b', m2, ?_, k2, h3.trans k3, ?_, ?_⟩
    · rw [markPre, h1]
      exact k1
    · intro q hq
      rcases List.mem_cons.mp hq with e | e
      · rw [e]; exact k3.marked p h4
      · exact k4 q e
    · intro hb
      obtain ⟨j1, j2⟩ := k5 hb
      split at j1
      · simp at j1
      · rename_i hr
        refine ⟨j1, fun q hq => ?_⟩
        rcases List.mem_cons.mp hq with e | e
        · rw [e]; simpa using hr
        · exact j2 q e

theorem markProp_spec (hsup : Supports R S D st) : ∀ (n : Nat) (D1 D2 : List Nat), D = D1 ++ D2 → D2.length = n → ∀ p ∈ D2, MarkOk R S D st p := by
  intro n
  induction n using Nat.strong_induction_on with
  | _ n ih =>
    intro D1 D2 e hl p hp P m hm
    obtain ⟨D3, D4, rfl⟩ := mem_split hp
    obtain ⟨hlt, hs⟩ := hsup p (D1 ++ D3) D4 (by rw [e]; simp)
    have hpD : p ∈ D := by rw [e]; simp
    rw [markProp, if_pos hlt]
    by_cases hmk : m.marked p = true
    · rw [if_pos hmk]
      exact ⟨m, rfl, hm, Ext.refl m, hmk⟩
    · rw [if_neg hmk]
      have hext : Ext m { m with marked := upd m.marked p true } := ⟨fun q h => by simp only [upd]; split <;> simp [h], fun q h => h⟩
      have hmem : ∀ q, upd m.marked p true q = true → q ∈ D := by
        intro q hq
        simp only [upd] at hq
        split at hq
        · rename_i e; rw [e]; exact hpD
        · exact hm.mem q hq
      rcases hs with ⟨h1, h2⟩ | ⟨i, o, h1, h2, h3, h4⟩
      · rw [h1]
        refine ⟨_, rfl, ⟨hmem, ?_, hm.pref, hm.plan⟩, hext, by simp [upd]⟩
        intro q hq hP
        by_cases hqp : q = p
        · subst hqp
          intro i o h3
          rw [h1] at h3; simp at h3
        · simp only [upd, if_neg hqp] at hq
          exact (hm.closed q hq hP).ext hext
      · rw [h1]
        simp only [h2]
        have hm1 : MInv R S D st (p :: P) { m with marked := upd m.marked p true } := by
          refine ⟨hmem, ?_, hm.pref, hm.plan⟩
          intro q hq hP
          simp only [List.mem_cons, not_or] at hP
          simp only [upd, if_neg hP.1] at hq
          exact (hm.closed q hq hP.2).ext hext
        simp only [List.length_append, List.length_cons] at hl
        obtain ⟨b, m2, k1, k2, k3, k4, k5⟩ := markPre_spec o.pre (fun r hr => ih D4.length (by omega) (D1 ++ D3 ++ [p]) D4 (by rw [e]; simp) rfl r (h4 r hr)) (p :: P) true _ hm1
        rw [k1]
        refine ⟨_, rfl, ⟨?_, ?_, ?_, ?_⟩, (hext.trans k3).trans (useOp_ext _ _ _), ?_⟩
        · intro q hq
          rw [useOp_marked] at hq
          exact k2.mem q hq
        · intro q hq hP
          rw [useOp_marked] at hq
          by_cases hqp : q = p
          · subst hqp
            intro i' o' h5 h6
            rw [h1] at h5
            simp only [Option.some.injEq] at h5
            subst h5
            rw [h2] at h6
            simp only [Option.some.injEq] at h6
            subst h6
            refine ⟨fun r hr => by rw [useOp_marked]; exact k4 r hr, fun no hn => ?_⟩
            simp [Marks.useOp, hn, upd]
          · exact (k2.closed q hq (by simp [hqp, hP])).ext (useOp_ext _ _ _)
        · intro no hno
          unfold Marks.useOp at hno
          cases hop : o.opNo with
          | none => rw [hop] at hno; exact k2.pref no hno
          | some no' =>
            rw [hop] at hno
            simp only at hno
            split at hno
            · rename_i hb
              rcases List.mem_append.mp hno with hno | hno
              · exact k2.pref no hno
              · simp only [List.mem_singleton] at hno
                subst hno
                refine ⟨o, List.mem_of_getElem? h2, hop, fun r hr => ?_⟩
                have hr' := (k5 hb).2 r hr
                obtain ⟨D5, D6, e2⟩ := mem_split (h4 r hr)
                rcases (hsup r (D1 ++ D3 ++ p :: D5) D6 (by rw [e, e2]; simp)).2 with ⟨_, j⟩ | ⟨i2, o2, j, _⟩
                · exact j
                · rw [hr'] at j; simp at j
            · exact k2.pref no hno
        · intro no hno
          unfold Marks.useOp at hno
          cases hop : o.opNo with
          | none => rw [hop] at hno; exact k2.plan no hno
          | some no' =>
            rw [hop] at hno
            simp only [upd] at hno
            split at hno
            · rename_i e'
              rw [e']
              exact ⟨o, List.mem_of_getElem? h2, hop⟩
            · exact k2.plan no hno
        · rw [useOp_marked]
          exact k3.marked p (by simp [upd])

theorem markGoals_spec (hsup : Supports R S D st) : ∀ (gs : List Nat), (∀ g ∈ gs, g ∈ D) → ∀ m, MInv R S D st [] m →
    ∃ m', markGoals R st gs m = some m' ∧ MInv R S D st [] m' ∧ Ext m m' ∧ ∀ g ∈ gs, m'.marked g = true
  | [], _, m, h => ⟨m, rfl, h, Ext.refl m, by simp⟩
  | g :: gs, hg, m, h => by
    obtain ⟨m1, h1, h2, h3, h4⟩ := markProp_spec hsup D.length [] D rfl rfl g (hg g (by simp)) [] m h
    obtain ⟨m2, k1, k2, k3, k4⟩ := markGoals_spec hsup gs (fun g' hg' => hg g' (by simp [hg'])) m1 h2
    refine ⟨m2, ?_, k2, h3.trans k3, ?_⟩
    · unfold markGoals
      rw [h1]
      exact k1
    · intro g' hg'
      rcases List.mem_cons.mp hg' with e | e
      · rw [e]; exact k3.marked g h4
      · exact k4 g' e

/-- marked propositions can be reached with the operators of the relaxed plan -/
theorem marked_reach {t : Task} (hv : t.FactsValid) {s : State} (hs : t.ValidState s) {m : Marks} (hsup : Supports (RTask.ofTask t) (· ∈ factsOf t s) D st)
    (hm : MInv (RTask.ofTask t) (· ∈ factsOf t s) D st [] m) : ∀ (n : Nat) (D1 D2 : List Nat), D = D1 ++ D2 → D2.length = n →
    ∀ p ∈ D2, m.marked p = true → ∀ f, t.ValidFact f → propId t f = p → t.RelReach (fun i => m.plan i = true) s f := by
  intro n
  induction n using Nat.strong_induction_on with
  | _ n ih =>
    intro D1 D2 e hl p hp hmk f hf hpf
    obtain ⟨D3, D4, rfl⟩ := mem_split hp
    simp only [List.length_append, List.length_cons] at hl
    rcases (hsup p (D1 ++ D3) D4 (by rw [e]; simp)).2 with ⟨_, h2⟩ | ⟨i, o, h1, h2, h3, h4⟩
    · obtain ⟨f', k1, k2⟩ := mem_factsOf.mp h2
      rw [← hpf] at k2
      rw [← propId_inj (valid_of_holds hs k1) hf k2]
      exact .state f' k1
    · obtain ⟨c1, c2⟩ := hm.closed p hmk (by simp) i o h1 h2
      obtain ⟨no, cs, f', c, r1, rfl⟩ := mem_allUnary.mp (simplify_subset _ _ (List.mem_of_getElem? h2))
      obtain ⟨r2, r3⟩ := hv.effect _ _ _ _ r1
      have hff : f' = f := propId_inj r2 hf (by rw [hpf]; exact h3)
      subst hff
      refine .effect no cs f' c r1 (fun j hj => c2 j hj) ?_
      intro q hq
      have hin : propId t q ∈ sortUnique (cs.map (propId t)) := mem_sortUnique.mpr (List.mem_map_of_mem hq)
      exact ih D4.length (by omega) (D1 ++ D3 ++ [p]) D4 (by rw [e]; simp) rfl _ (h4 _ hin) (c1 _ hin) q (r3 q hq) rfl

/-- preferred operators are applicable -/
theorem pref_applicable {t : Task} (hv : t.FactsValid) {s : State} (hs : t.ValidState s) {m : Marks} {P : List Nat} (hm : MInv (RTask.ofTask t) (· ∈ factsOf t s) D st P m) :
    ∀ i ∈ m.preferred, ∃ o, t.ops[i]? = some o ∧ o.applicable s := by
  intro i hi
  obtain ⟨o, h1, h2, h3⟩ := hm.pref i hi
  obtain ⟨no, cs, f, c, r1, rfl⟩ := mem_allUnary.mp (simplify_subset _ _ h1)
  simp only at h2
  subst h2
  have r2 := (hv.effect _ _ _ _ r1).2
  have hall : ∀ q ∈ cs, q.holds s := by
    intro q hq
    have hin : propId t q ∈ sortUnique (cs.map (propId t)) := mem_sortUnique.mpr (List.mem_map_of_mem hq)
    obtain ⟨f', k1, k2⟩ := mem_factsOf.mp (h3 _ hin)
    rw [← propId_inj (valid_of_holds hs k1) (r2 q hq) k2]
    exact k1
  cases r1 with
  | op i op e k1 k2 => exact ⟨op, k1, fun q hq => hall q (List.mem_append_left _ hq)⟩

theorem plan_ops {t : Task} {m : Marks} {P : List Nat} {S : Nat → Prop} (hm : MInv (RTask.ofTask t) S D st P m) : ∀ i, m.plan i = true → i < t.ops.length := by
  intro i hi
  obtain ⟨o, h1, h2⟩ := hm.plan i hi
  obtain ⟨no, cs, f, c, r1, rfl⟩ := mem_allUnary.mp (simplify_subset _ _ h1)
  simp only at h2
  subst h2
  cases r1 with
  | op i op e k1 k2 => exact (List.getElem?_eq_some_iff.mp k1).1

theorem sumPlan_spec (plan : Nat → Bool) (f : Nat → Nat) : ∀ (cs : List Nat) (i h v : Nat), (∀ j c, cs[j]? = some c → f (i + j) = c) → sumPlan plan cs i h = some v →
    v = h + (((List.range' i cs.length).filter plan).map f).sum
  | [], i, h, v, _, e => by simp only [sumPlan, Option.some.injEq] at e; simp [e]
  | c :: cs, i, h, v, hf, e => by
    have h0 := hf 0 c (by simp)
    have hf' : ∀ j c', cs[j]? = some c' → f (i + 1 + j) = c' := by
      intro j c' hj
      have := hf (j + 1) c' (by simpa using hj)
      rw [← this]
      congr 1
      omega
    unfold sumPlan at e
    rw [List.length_cons, List.range'_succ, List.filter_cons]
    split at e
    · rename_i hp
      split at e
      · have := sumPlan_spec plan f cs (i + 1) (h + c) v hf' e
        rw [if_pos hp, List.map_cons, List.sum_cons]
        simp only [Nat.add_zero] at h0
        omega
      · simp at e
    · rename_i hp
      have := sumPlan_spec plan f cs (i + 1) h v hf' e
      rw [if_neg hp]
      exact this

theorem sumPlan_defined (plan : Nat → Bool) : ∀ (cs : List Nat) (i h : Nat), h + cs.sum < 2 ^ 31 → sumPlan plan cs i h ≠ none
  | [], i, h, _ => by simp [sumPlan]
  | c :: cs, i, h, e => by
    simp only [List.sum_cons] at e
    unfold sumPlan
    split
    · rw [if_pos (by omega)]
      exact sumPlan_defined plan cs (i + 1) (h + c) (by omega)
    · exact sumPlan_defined plan cs (i + 1) h (by omega)

/-- all goals have been processed when they all have been reached -/
theorem goals_done {K : Kind} {F : List Nat} (h : Finished K R S F st) (hg : ∀ g ∈ R.goals, st.cost g ≠ none) :
    ∃ D p rem d bag, XInv K R S R.ops.length F D p rem d bag st ∧ ∀ g ∈ R.goals, g ∈ D := by
  obtain ⟨D, p, rem, d, bag, hx, hfin⟩ := h
  refine ⟨D, p, rem, d, bag, hx, ?_⟩
  rcases hfin with ⟨hb, _⟩ | hb
  · intro g hgg
    by_contra hD
    cases hc : st.cost g with
    | none => exact hg g hgg hc
    | some c =>
      have := hx.core.fresh g c hc hD
      rw [hb] at this; simp at this
  · exact hb

theorem MInv.empty : MInv R S D st [] ⟨fun _ => false, fun _ => false, []⟩ := ⟨by simp, by simp, by simp, by simp⟩

end Verif.Relax
