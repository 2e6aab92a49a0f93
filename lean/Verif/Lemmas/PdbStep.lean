import Verif.Lemmas.PdbOps

/-
Abstract operators are regressions of the operators.
-/
namespace Verif.Pdb
open Verif.Relax

theorem toIndexLoop_ne : ∀ (vs : List Nat) (i : Nat) (f : Nat → Option Nat) (v : Nat), v ∉ vs → toIndexLoop vs i f v = f v
  | [], _, _, _, _ => rfl
  | w :: vs, i, f, v, h => by
    simp only [List.mem_cons, not_or] at h
    simp only [toIndexLoop]
    rw [toIndexLoop_ne vs _ _ v h.2]
    simp [upd, h.1]

theorem toIndexLoop_iff : ∀ (vs : List Nat) (i : Nat) (f : Nat → Option Nat) (v j : Nat), vs.Nodup → v ∈ vs → (toIndexLoop vs i f v = some j ↔ ∃ k, j = i + k ∧ vs[k]? = some v)
  | w :: vs, i, f, v, j, hn, h => by
    rw [List.nodup_cons] at hn
    simp only [toIndexLoop]
    by_cases e : v = w
    · subst e
      rw [toIndexLoop_ne vs _ _ v hn.1]
      simp only [upd, if_true, Option.some.injEq]
      constructor
      · rintro rfl; exact ⟨0, rfl, rfl⟩
      · rintro ⟨k, rfl, hk⟩
        cases k with
        | zero => rfl
        | succ k => exact absurd (List.mem_of_getElem? (by simpa using hk)) hn.1
    · have hv : v ∈ vs := by simpa [e] using h
      rw [toIndexLoop_iff vs (i + 1) _ v j hn.2 hv]
      constructor
      · rintro ⟨k, rfl, hk⟩; exact ⟨k + 1, by omega, by simpa using hk⟩
      · rintro ⟨k, rfl, hk⟩
        cases k with
        | zero => simp at hk; exact absurd hk.symm e
        | succ k => exact ⟨k, by omega, by simpa using hk⟩

theorem toIndex_iff {P : List Nat} (hn : P.Nodup) {v j : Nat} : toIndex P v = some j ↔ P[j]? = some v := by
  unfold toIndex
  by_cases hv : v ∈ P
  · rw [toIndexLoop_iff P 0 _ v j hn hv]
    constructor
    · rintro ⟨k, rfl, hk⟩; simpa using hk
    · intro h; exact ⟨j, by omega, h⟩
  · rw [toIndexLoop_ne P 0 _ v hv]
    simp only [reduceCtorEq, false_iff]
    intro h
    exact hv (List.mem_of_getElem? h)

theorem hasPre_iff {o : Operator} {v : Nat} : hasPre o v = true ↔ v ∈ o.pre.map (·.var) := by
  simp [hasPre, List.any_eq_true]

theorem hasPreAndEff_iff {o : Operator} {v : Nat} : hasPreAndEff o v = true ↔ v ∈ o.pre.map (·.var) ∧ v ∈ o.effects.map (·.fact.var) := by
  unfold hasPreAndEff
  rw [Bool.and_eq_true, hasPre_iff]
  simp [List.any_eq_true]

section
variable {P : List Nat} (hn : P.Nodup) {o : Operator}
include hn

theorem mem_effPairs {j x : Nat} : (j, x) ∈ effPairs (toIndex P) o ↔ ∃ e ∈ o.effects, P[j]? = some e.fact.var ∧ e.fact.val = x ∧ e.fact.var ∈ o.pre.map (·.var) := by
  simp only [effPairs, List.mem_filterMap]
  constructor
  · rintro ⟨e, he, h⟩
    split at h
    · rename_i hp
      obtain ⟨k, hk, hk'⟩ := Option.map_eq_some_iff.mp h
      simp only [Prod.mk.injEq] at hk'
      obtain ⟨rfl, rfl⟩ := hk'
      exact ⟨e, he, (toIndex_iff hn).mp hk, rfl, hasPre_iff.mp hp⟩
    · simp at h
  · rintro ⟨e, he, h1, rfl, h2⟩
    refine ⟨e, he, ?_⟩
    rw [if_pos (hasPre_iff.mpr h2), (toIndex_iff hn).mpr h1]
    rfl

theorem mem_effsWithoutPre {j x : Nat} : (j, x) ∈ effsWithoutPre (toIndex P) o ↔ ∃ e ∈ o.effects, P[j]? = some e.fact.var ∧ e.fact.val = x ∧ e.fact.var ∉ o.pre.map (·.var) := by
  simp only [effsWithoutPre, List.mem_filterMap]
  constructor
  · rintro ⟨e, he, h⟩
    split at h
    · simp at h
    · rename_i hp
      obtain ⟨k, hk, hk'⟩ := Option.map_eq_some_iff.mp h
      simp only [Prod.mk.injEq] at hk'
      obtain ⟨rfl, rfl⟩ := hk'
      exact ⟨e, he, (toIndex_iff hn).mp hk, rfl, fun hc => hp (hasPre_iff.mpr hc)⟩
  · rintro ⟨e, he, h1, rfl, h2⟩
    refine ⟨e, he, ?_⟩
    rw [if_neg (fun hc => h2 (hasPre_iff.mp hc)), (toIndex_iff hn).mpr h1]
    rfl

theorem mem_prePairs {j x : Nat} : (j, x) ∈ prePairs (toIndex P) o ↔ ∃ f ∈ o.pre, P[j]? = some f.var ∧ f.val = x ∧ f.var ∈ o.effects.map (·.fact.var) := by
  simp only [prePairs, List.mem_filterMap]
  constructor
  · rintro ⟨e, he, h⟩
    split at h
    · rename_i hp
      obtain ⟨k, hk, hk'⟩ := Option.map_eq_some_iff.mp h
      simp only [Prod.mk.injEq] at hk'
      obtain ⟨rfl, rfl⟩ := hk'
      exact ⟨e, he, (toIndex_iff hn).mp hk, rfl, (hasPreAndEff_iff.mp hp).2⟩
    · simp at h
  · rintro ⟨e, he, h1, rfl, h2⟩
    refine ⟨e, he, ?_⟩
    rw [if_pos (hasPreAndEff_iff.mpr ⟨List.mem_map.mpr ⟨e, he, rfl⟩, h2⟩), (toIndex_iff hn).mpr h1]
    rfl

theorem mem_prevPairs {j x : Nat} : (j, x) ∈ prevPairs (toIndex P) o ↔ ∃ f ∈ o.pre, P[j]? = some f.var ∧ f.val = x ∧ f.var ∉ o.effects.map (·.fact.var) := by
  simp only [prevPairs, List.mem_filterMap]
  constructor
  · rintro ⟨e, he, h⟩
    split at h
    · simp at h
    · rename_i hp
      obtain ⟨k, hk, hk'⟩ := Option.map_eq_some_iff.mp h
      simp only [Prod.mk.injEq] at hk'
      obtain ⟨rfl, rfl⟩ := hk'
      exact ⟨e, he, (toIndex_iff hn).mp hk, rfl, fun hc => hp (hasPreAndEff_iff.mpr ⟨List.mem_map.mpr ⟨e, he, rfl⟩, hc⟩)⟩
  · rintro ⟨e, he, h1, rfl, h2⟩
    refine ⟨e, he, ?_⟩
    rw [if_neg (fun hc => h2 (hasPreAndEff_iff.mp hc).2), (toIndex_iff hn).mpr h1]
    rfl

omit hn in
theorem map_filterMap_idx {α : Type} (idx : Nat → Option Nat) (var val : α → Nat) (q : Nat → Bool) (l : List α) :
    (l.filterMap (fun e => if q (var e) then (idx (var e)).map (fun k => (k, val e)) else none)).map (·.1) = ((l.map var).filter q).filterMap idx := by
  induction l with
  | nil => rfl
  | cons a l ih =>
    simp only [List.filterMap_cons, List.map_cons, List.filter_cons]
    by_cases hq : q (var a) = true
    · rw [if_pos hq, if_pos hq]
      cases h : idx (var a) with
      | none => simp [h, ih]
      | some k => simp [h, ih]
    · rw [if_neg hq, if_neg hq]
      exact ih

omit hn in
theorem map_filterMap_idx' {α : Type} (idx : Nat → Option Nat) (var val : α → Nat) (q : Nat → Bool) (l : List α) :
    (l.filterMap (fun e => if q (var e) then none else (idx (var e)).map (fun k => (k, val e)))).map (·.1) = ((l.map var).filter (fun v => !q v)).filterMap idx := by
  rw [← map_filterMap_idx idx var val]
  congr 1
  refine congrArg₂ _ ?_ rfl
  funext e
  cases q (var e) <;> simp

omit hn in
theorem pairs_aligned (idx : Nat → Option Nat) (h : common (o.pre.map (·.var)) (o.effects.map (·.fact.var)) = common (o.effects.map (·.fact.var)) (o.pre.map (·.var))) :
    (prePairs idx o).map (·.1) = (effPairs idx o).map (·.1) := by
  unfold prePairs effPairs
  rw [map_filterMap_idx idx (fun f : Fact => f.var) (fun f => f.val) (hasPreAndEff o), map_filterMap_idx idx (fun e : Effect => e.fact.var) (fun e => e.fact.val) (hasPre o)]
  congr 1
  unfold common at h
  rw [show (o.effects.map (fun e => e.fact.var)).filter (hasPre o) = (o.effects.map (fun e => e.fact.var)).filter (fun v => decide (v ∈ o.pre.map (·.var))) from
    List.filter_congr (fun v _ => by rw [Bool.eq_iff_iff, hasPre_iff]; simp), ← h]
  refine List.filter_congr (fun v hv => ?_)
  rw [Bool.eq_iff_iff, hasPreAndEff_iff]
  simp only [decide_eq_true_eq, and_iff_right_iff_imp]
  exact fun _ => hv

theorem nodup_filterMap_idx {l : List Nat} (hl : l.Nodup) : (l.filterMap (toIndex P)).Nodup := by
  refine List.Nodup.filterMap ?_ hl
  intro a a' b hb hb'
  rw [Option.mem_def, toIndex_iff hn] at hb hb'
  rw [hb] at hb'
  simpa using hb'

theorem pairs_nodup (hp : (o.pre.map (·.var)).Nodup) (he : (o.effects.map (·.fact.var)).Nodup) :
    ((prevPairs (toIndex P) o ++ effPairs (toIndex P) o ++ effsWithoutPre (toIndex P) o).map (·.1)).Nodup := by
  have e1 : (prevPairs (toIndex P) o).map (·.1) = ((o.pre.map (·.var)).filter (fun v => !hasPreAndEff o v)).filterMap (toIndex P) :=
    map_filterMap_idx' (toIndex P) (fun f : Fact => f.var) (fun f => f.val) (hasPreAndEff o) o.pre
  have e2 : (effPairs (toIndex P) o).map (·.1) = ((o.effects.map (·.fact.var)).filter (hasPre o)).filterMap (toIndex P) :=
    map_filterMap_idx (toIndex P) (fun e : Effect => e.fact.var) (fun e => e.fact.val) (hasPre o) o.effects
  have e3 : (effsWithoutPre (toIndex P) o).map (·.1) = ((o.effects.map (·.fact.var)).filter (fun v => !hasPre o v)).filterMap (toIndex P) :=
    map_filterMap_idx' (toIndex P) (fun e : Effect => e.fact.var) (fun e => e.fact.val) (hasPre o) o.effects
  simp only [List.map_append]
  rw [e1, e2, e3, ← List.filterMap_append, ← List.filterMap_append]
  apply nodup_filterMap_idx hn
  rw [List.nodup_append, List.nodup_append]
  refine ⟨⟨hp.filter _, he.filter _, ?_⟩, he.filter _, ?_⟩
  · intro a ha b hb e
    subst e
    simp only [List.mem_filter, Bool.not_eq_true', ← Bool.not_eq_true, hasPreAndEff_iff, hasPre_iff] at ha hb
    exact ha.2 ⟨ha.1, hb.1⟩
  · intro a ha b hb e
    subst e
    simp only [List.mem_append, List.mem_filter, Bool.not_eq_true', ← Bool.not_eq_true, hasPreAndEff_iff, hasPre_iff] at ha hb
    rcases ha with ha | ha
    · exact hb.2 ha.1
    · exact hb.2 ha.2

end

/-- the operator, projected, leads from the values `a` of the pattern to `b` -/
structure AStep (P : List Nat) (o : Operator) (a b : List Nat) : Prop where
  pre : ∀ f ∈ o.pre, ∀ j : Nat, P[j]? = some f.var → a[j]? = some f.val
  eff : ∀ e ∈ o.effects, ∀ j : Nat, P[j]? = some e.fact.var → b[j]? = some e.fact.val
  frame : ∀ j : Nat, (∀ e ∈ o.effects, P[j]? ≠ some e.fact.var) → b[j]? = a[j]?

/-- operators without repeated variables -/
structure OpOk (t : Task) (o : Operator) : Prop where
  pre : (o.pre.map (·.var)).Nodup
  eff : (o.effects.map (·.fact.var)).Nodup
  aligned : common (o.pre.map (·.var)) (o.effects.map (·.fact.var)) = common (o.effects.map (·.fact.var)) (o.pre.map (·.var))
  preFact : ∀ f ∈ o.pre, t.ValidFact f
  effFact : ∀ e ∈ o.effects, t.ValidFact e.fact

section
variable {t : Task} {P : List Nat} {p : Proj} (hp : ProjOk t P p) (hP : t.IsPattern P) {o : Operator} (ho : OpOk t o)
include hp hP

theorem domOf_eq (j : Nat) : domOf t p j = (P.map t.domain)[j]? := by
  unfold domOf
  rw [hp.pattern]
  simp only [List.getElem?_map]
  cases h : P[j]? with
  | none => simp
  | some v =>
    have hv := hP.range v (List.mem_of_getElem? h)
    simp [Task.domain, List.getElem?_eq_getElem hv]

omit hp hP in
theorem valid_dom {f : Fact} (hf : t.ValidFact f) : f.val < t.domain f.var := by
  obtain ⟨d, h1, h2⟩ := hf
  simpa [Task.domain, h1] using h2

/-- the choices made for an operator -/
abbrev OpChoice (t : Task) (P : List Nat) (p : Proj) (o : Operator) (prev' pre' eff' : List (Nat × Nat)) : Prop :=
  Choice (domOf t p) (effsWithoutPre (toIndex P) o) (prevPairs (toIndex P) o) (prePairs (toIndex P) o) (effPairs (toIndex P) o) prev' pre' eff'

include ho

theorem fact_dom {j x : Nat} {f : Fact} (hj : P[j]? = some f.var) (hx : f.val = x) (hf : t.ValidFact f) : j < P.length ∧ ∀ d, (P.map t.domain)[j]? = some d → x < d := by
  refine ⟨(List.getElem?_eq_some_iff.mp hj).1, fun d hd => ?_⟩
  simp only [List.getElem?_map, hj, Option.map_some, Option.some.injEq] at hd
  subst hd hx
  exact valid_dom hf

/-- facts about the pairs after a choice -/
theorem choice_facts {prev' pre' eff' : List (Nat × Nat)} (hc : OpChoice t P p o prev' pre' eff') :
    pre'.map (·.1) = eff'.map (·.1) ∧ ((prev' ++ eff').map (·.1)).Nodup ∧
    (∀ f ∈ pre', f.1 < P.length ∧ ∀ d, (P.map t.domain)[f.1]? = some d → f.2 < d) ∧ (∀ f ∈ prev' ++ eff', f.1 < P.length ∧ ∀ d, (P.map t.domain)[f.1]? = some d → f.2 < d) := by
  have hn := hP.nodup
  have hk := hc.ok
  refine ⟨hk.aligned (pairs_aligned _ ho.aligned), hk.perm.nodup_iff.mpr (pairs_nodup hn ho.pre ho.eff), ?_, ?_⟩
  · rintro ⟨j, x⟩ hf
    rcases hk.preMem _ hf with a | ⟨⟨y, a1, _⟩, d, hd, hx⟩
    · obtain ⟨f, h1, h2, h3, _⟩ := (mem_prePairs hn).mp a
      exact fact_dom hp hP ho h2 h3 (ho.preFact f h1)
    · obtain ⟨e, h1, h2, h3, _⟩ := (mem_effsWithoutPre hn).mp a1
      refine ⟨(List.getElem?_eq_some_iff.mp h2).1, fun d' hd' => ?_⟩
      rw [domOf_eq hp hP] at hd
      simp only at hd hd' hx ⊢
      rw [hd] at hd'
      simp only [Option.some.injEq] at hd'
      omega
  · rintro ⟨j, x⟩ hf
    have key : ∃ f : Fact, t.ValidFact f ∧ P[j]? = some f.var ∧ f.val = x := by
      rcases List.mem_append.mp hf with a | a
      · rcases hk.prevMem _ a with b | b
        · obtain ⟨f, h1, h2, h3, _⟩ := (mem_prevPairs hn).mp b
          exact ⟨f, ho.preFact f h1, h2, h3⟩
        · obtain ⟨e, h1, h2, h3, _⟩ := (mem_effsWithoutPre hn).mp b
          exact ⟨e.fact, ho.effFact e h1, h2, h3⟩
      · rcases hk.effMem _ a with b | b
        · obtain ⟨e, h1, h2, h3, _⟩ := (mem_effPairs hn).mp b
          exact ⟨e.fact, ho.effFact e h1, h2, h3⟩
        · obtain ⟨e, h1, h2, h3, _⟩ := (mem_effsWithoutPre hn).mp b
          exact ⟨e.fact, ho.effFact e h1, h2, h3⟩
    obtain ⟨f, h1, h2, h3⟩ := key
    exact fact_dom hp hP ho h2 h3 h1

/-- building the abstract operator succeeds -/
theorem build_spec {opId cost : Nat} {prev' pre' eff' : List (Nat × Nat)} (hc : OpChoice t P p o prev' pre' eff') :
    ∃ A, buildAbstractOperator p opId cost prev' pre' eff' = some A ∧ A.opId = opId ∧ A.cost = cost ∧ A.pre.Perm (prev' ++ eff') ∧
      ∀ b, Valid (P.map t.domain) b → (∀ f ∈ eff', b[f.1]? = some f.2) → (enc (P.map t.domain) b : Int) + A.effect = enc (P.map t.domain) (sets b pre') := by
  obtain ⟨h1, h2, h3, h4⟩ := choice_facts hp hP ho hc
  have hnd : (eff'.map (·.1)).Nodup := by
    simp only [List.map_append] at h2
    exact (List.nodup_append.mp h2).2.1
  have hash : ∀ b, Valid (P.map t.domain) b → (∀ f ∈ eff', b[f.1]? = some f.2) → hashEffect p pre' eff' 0 = some ((enc (P.map t.domain) (sets b pre') : Int) - enc (P.map t.domain) b) := by
    intro b hb he
    have := hashEffect_spec hp pre' eff' b b hb hb h1 hnd (fun f hf => (h3 f hf).1) (fun f hf => (h3 f hf).2) he
    rwa [Int.sub_self] at this
  -- some values with the effects
  have hz : Valid (P.map t.domain) (digits (P.map t.domain) 0) := by
    have := prod_pos_of hp.pos
    exact digits_valid (by omega)
  have hb0 : Valid (P.map t.domain) (sets (digits (P.map t.domain) 0) eff') := sets_valid eff' _ hz (fun f hf => (h4 f (by simp [hf])).2)
  have he0 : ∀ f ∈ eff', (sets (digits (P.map t.domain) 0) eff')[f.1]? = some f.2 := by
    rintro ⟨v, x⟩ hf
    refine sets_getElem?_mem eff' _ v x hnd hf ?_
    rw [← hz.length]
    simpa using (h4 (v, x) (by simp [hf])).1
  have hh := hash _ hb0 he0
  refine ⟨⟨opId, cost, (prev' ++ eff').insertionSort factLe, _⟩, by simp only [buildAbstractOperator, hh]; rfl, rfl, rfl, List.perm_insertionSort _ _, ?_⟩
  intro b hb he
  have := hash b hb he
  rw [hh] at this
  simp only [Option.some.injEq] at this
  simp only
  omega

/-- all abstract operators of an operator -/
theorem buildForOp_spec (opId cost : Nat) : ∃ r, buildForOp t p (toIndex P) opId o cost = some r ∧
    ∀ A, A ∈ r ↔ ∃ prev' pre' eff', OpChoice t P p o prev' pre' eff' ∧ eff' ≠ [] ∧ buildAbstractOperator p opId cost prev' pre' eff' = some A := by
  refine multiplyOut_spec _ _ _ _ ?_ ?_
  · rintro ⟨j, x⟩ hf
    obtain ⟨e, h1, h2, h3, _⟩ := (mem_effsWithoutPre hP.nodup).mp hf
    exact ⟨t.domain e.fact.var, by rw [domOf_eq hp hP]; simp [h2]⟩
  · intro prev' pre' eff' hc
    obtain ⟨A, hA, _⟩ := build_spec (opId := opId) (cost := cost) hp hP ho hc
    exact ⟨A, hA⟩

/-- every abstract operator regresses a step of the operator -/
theorem absop_sound {opId cost : Nat} {r : List AbsOp} (hr : buildForOp t p (toIndex P) opId o cost = some r) {A : AbsOp} (hA : A ∈ r) :
    A.opId = opId ∧ A.cost = cost ∧ (∀ f ∈ A.pre, f.1 < P.length ∧ ∀ d, (P.map t.domain)[f.1]? = some d → f.2 < d) ∧
    ∀ b, Valid (P.map t.domain) b → Holds (fun j => b[j]?) A.pre → ∃ a, Valid (P.map t.domain) a ∧ (enc (P.map t.domain) b : Int) + A.effect = enc (P.map t.domain) a ∧ AStep P o a b := by
  obtain ⟨r', h1, h2⟩ := buildForOp_spec hp hP ho opId cost
  rw [hr] at h1
  simp only [Option.some.injEq] at h1
  subst h1
  obtain ⟨prev', pre', eff', hc, hne, hb⟩ := (h2 A).mp hA
  obtain ⟨A', k1, k2, k3, k4, k5⟩ := build_spec (opId := opId) (cost := cost) hp hP ho hc
  rw [hb] at k1
  simp only [Option.some.injEq] at k1
  subst k1
  obtain ⟨g1, g2, g3, g4⟩ := choice_facts hp hP ho hc
  have hn := hP.nodup
  have hk := hc.ok
  refine ⟨k2, k3, fun f hf => g4 f (k4.subset hf), ?_⟩
  intro b hbv hh
  have hprev : ∀ f ∈ prev', b[f.1]? = some f.2 := fun f hf => hh f (k4.symm.subset (by simp [hf]))
  have heff : ∀ f ∈ eff', b[f.1]? = some f.2 := fun f hf => hh f (k4.symm.subset (by simp [hf]))
  have hlen : b.length = P.length := by have := hbv.length; simpa using this.symm
  simp only [List.map_append] at g2
  obtain ⟨n1, n2, n3⟩ := List.nodup_append.mp g2
  -- positions that are not changed
  have hkeep : ∀ j : Nat, (∀ e ∈ o.effects, P[j]? ≠ some e.fact.var) → (sets b pre')[j]? = b[j]? := by
    intro j hj
    refine sets_getElem?_ne pre' b j ?_
    rw [g1]
    intro hc'
    obtain ⟨⟨j', x⟩, hf, rfl⟩ := List.mem_map.mp hc'
    rcases hk.effMem _ hf with a | a
    · obtain ⟨e, h3, h4, _⟩ := (mem_effPairs hn).mp a
      exact hj e h3 h4
    · obtain ⟨e, h3, h4, _⟩ := (mem_effsWithoutPre hn).mp a
      exact hj e h3 h4
  refine ⟨sets b pre', sets_valid pre' b hbv (fun f hf => (g3 f hf).2), k5 b hbv heff, ?_, ?_, fun j hj => (hkeep j hj).symm⟩
  · intro f hf j hj
    by_cases he : f.var ∈ o.effects.map (·.fact.var)
    · have h5 : (j, f.val) ∈ pre' := hk.preSub _ ((mem_prePairs hn).mpr ⟨f, hf, hj, rfl, he⟩)
      refine sets_getElem?_mem pre' b j f.val (by rw [g1]; exact n2) h5 ?_
      rw [hlen]
      exact (g3 _ h5).1
    · rw [hkeep j]
      · exact hprev (j, f.val) (hk.prevSub _ ((mem_prevPairs hn).mpr ⟨f, hf, hj, rfl, he⟩))
      · intro e h3 h4
        rw [hj] at h4
        simp only [Option.some.injEq] at h4
        exact he (h4 ▸ List.mem_map.mpr ⟨e, h3, rfl⟩)
  · intro e he j hj
    by_cases hpre : e.fact.var ∈ o.pre.map (·.var)
    · exact heff (j, e.fact.val) (hk.effSub _ ((mem_effPairs hn).mpr ⟨e, he, hj, rfl, hpre⟩))
    · rcases hk.restSub (j, e.fact.val) ((mem_effsWithoutPre hn).mpr ⟨e, he, hj, rfl, hpre⟩) with a | a
      · exact hprev _ a
      · exact heff _ a

/-- every step of the operator that changes the values is regressed by an abstract operator -/
theorem absop_complete {opId cost : Nat} {r : List AbsOp} (hr : buildForOp t p (toIndex P) opId o cost = some r) {a b : List Nat} (ha : Valid (P.map t.domain) a) (hb : Valid (P.map t.domain) b)
    (hstep : AStep P o a b) : a = b ∨ ∃ A ∈ r, Holds (fun j => b[j]?) A.pre ∧ (enc (P.map t.domain) b : Int) + A.effect = enc (P.map t.domain) a := by
  obtain ⟨r', h1, h2⟩ := buildForOp_spec hp hP ho opId cost
  rw [hr] at h1
  simp only [Option.some.injEq] at h1
  subst h1
  have hn := hP.nodup
  have hla : a.length = P.length := by have := ha.length; simpa using this.symm
  have hlb : b.length = P.length := by have := hb.length; simpa using this.symm
  obtain ⟨prev', pre', eff', hc, hpre, hprev⟩ := exists_choice (dom := domOf t p) a (effsWithoutPre (toIndex P) o) (prevPairs (toIndex P) o) (prePairs (toIndex P) o) (effPairs (toIndex P) o) (by
    rintro ⟨j, x⟩ hf
    obtain ⟨e, h3, h4, _⟩ := (mem_effsWithoutPre hn).mp hf
    have hj : j < a.length := by rw [hla]; exact (List.getElem?_eq_some_iff.mp h4).1
    have hd : (P.map t.domain)[j]? = some (t.domain e.fact.var) := by simp [h4]
    exact ⟨_, a[j], by rw [domOf_eq hp hP]; exact hd, List.getElem?_eq_getElem hj, (valid_iff.mp ha).2 j _ _ hd (List.getElem?_eq_getElem hj)⟩)
  obtain ⟨g1, g2, g3, g4⟩ := choice_facts hp hP ho hc
  have hk := hc.ok
  -- the values before
  have hprea : ∀ f ∈ pre', a[f.1]? = some f.2 := by
    rintro ⟨j, x⟩ hf
    rcases hpre _ hf with c | c
    · obtain ⟨f, h3, h4, h5, _⟩ := (mem_prePairs hn).mp c
      rw [← h5]
      exact hstep.pre f h3 j h4
    · exact c
  -- the values after
  have heffb : ∀ f ∈ eff', b[f.1]? = some f.2 := by
    rintro ⟨j, x⟩ hf
    rcases hk.effMem _ hf with c | c
    · obtain ⟨e, h3, h4, h5, _⟩ := (mem_effPairs hn).mp c
      rw [← h5]; exact hstep.eff e h3 j h4
    · obtain ⟨e, h3, h4, h5, _⟩ := (mem_effsWithoutPre hn).mp c
      rw [← h5]; exact hstep.eff e h3 j h4
  have hprevb : ∀ f ∈ prev', b[f.1]? = some f.2 := by
    rintro ⟨j, x⟩ hf
    rcases hk.prevMem _ hf with c | c
    · obtain ⟨f, h3, h4, h5, h6⟩ := (mem_prevPairs hn).mp c
      simp only
      rw [hstep.frame j, ← h5]
      · exact hstep.pre f h3 j h4
      · intro e h7 h8
        rw [h4] at h8
        simp only [Option.some.injEq] at h8
        exact h6 (h8 ▸ List.mem_map.mpr ⟨e, h7, rfl⟩)
    · obtain ⟨e, h3, h4, h5, _⟩ := (mem_effsWithoutPre hn).mp c
      rw [← h5]; exact hstep.eff e h3 j h4
  simp only [List.map_append] at g2
  obtain ⟨n1, n2, n3⟩ := List.nodup_append.mp g2
  -- a results from b by the regression
  have hsets : sets b pre' = a := by
    apply List.ext_getElem?
    intro j
    by_cases hj : j ∈ pre'.map (·.1)
    · obtain ⟨⟨j', x⟩, hf, rfl⟩ := List.mem_map.mp hj
      rw [hprea _ hf]
      exact sets_getElem?_mem pre' b j' x (by rw [g1]; exact n2) hf (by rw [hlb]; exact (g3 _ hf).1)
    · rw [sets_getElem?_ne pre' b j hj]
      by_cases hex : ∃ e ∈ o.effects, P[j]? = some e.fact.var
      · obtain ⟨e, h3, h4⟩ := hex
        have hbj := hstep.eff e h3 j h4
        rw [g1] at hj
        have hnp : e.fact.var ∉ o.pre.map (·.var) := fun hc' => hj (List.mem_map.mpr ⟨_, hk.effSub _ ((mem_effPairs hn).mpr ⟨e, h3, h4, rfl, hc'⟩), rfl⟩)
        rcases hk.restSub (j, e.fact.val) ((mem_effsWithoutPre hn).mpr ⟨e, h3, h4, rfl, hnp⟩) with c | c
        · rcases hprev _ c with d | d
          · obtain ⟨f, _, h5, _, h6⟩ := (mem_prevPairs hn).mp d
            rw [h4] at h5
            simp only [Option.some.injEq] at h5
            exact absurd (List.mem_map.mpr ⟨e, h3, h5⟩) h6
          · rw [hbj]; exact d.symm
        · exact absurd (List.mem_map.mpr ⟨_, c, rfl⟩) hj
      · exact hstep.frame j (fun e h3 h4 => hex ⟨e, h3, h4⟩)
  by_cases hne : eff' = []
  · left
    have : pre' = [] := by
      have := congrArg List.length g1
      simpa [hne] using this
    rw [this] at hsets
    exact hsets.symm
  · right
    obtain ⟨A, k1, k2, k3, k4, k5⟩ := build_spec (opId := opId) (cost := cost) hp hP ho hc
    refine ⟨A, (h2 A).mpr ⟨prev', pre', eff', hc, hne, k1⟩, ?_, ?_⟩
    · intro f hf
      rcases List.mem_append.mp (k4.subset hf) with c | c
      · exact hprevb f c
      · exact heffb f c
    · rw [k5 b hb heffb, hsets]

end
end Verif.Pdb
