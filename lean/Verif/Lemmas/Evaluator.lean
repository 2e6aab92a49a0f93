import Verif.Spec.Evaluator
import Mathlib.Algebra.Order.Group.Nat

namespace Verif.Evaluators
open Verif.OpenList (infty)

variable {S : Type} [DecidableEq S] {comp : Nat → S → Int × List Nat} {c : Context S}

/-- the per-state caches are right -/
def HInv (comp : Nat → S → Int × List Nat) (hc : Nat → S → HEntry) : Prop :=
  ∀ i s, (hc i s).h = noValue ∨ (hc i s).dirty = true ∨ (hc i s).h = (comp i s).1

/-- the cache of the context is right for the evaluators in `U` -/
def CInv (comp : Nat → S → Int × List Nat) (c : Context S) (U : List Ev) (st : St S) : Prop :=
  ∀ e ∈ U, (st.cache e.id).isUninitialized = false → Spec.ResultOK comp c e (st.cache e.id)

/-- every evaluator computed so far is cached or one of those being computed (`P`) -/
def LInv (P : List Ev) (st : St S) : Prop :=
  st.log.Nodup ∧ ∀ i ∈ st.log, (st.cache i).isUninitialized = false ∨ ∃ e ∈ P, e.id = i

structure EInv (comp : Nat → S → Int × List Nat) (c : Context S) (U P : List Ev) (st : St S) : Prop where
  h : HInv comp st.hcache
  cache : CInv comp c U st
  log : LInv P st

theorem wrap31_eq {x : Int} (h1 : -1 ≤ x) (h2 : x < 2 ^ 30) : wrap31 x = x := by unfold wrap31; omega

theorem sumValues_eq : ∀ (vs : List Int) (acc v : Int), sumValues vs acc = some v → v = acc + vs.sum
  | [], acc, v, h => by simp [sumValues] at h; simp [h]
  | x :: vs, acc, v, h => by
    simp only [sumValues] at h
    split at h
    · have := sumValues_eq vs _ v h
      simp only [List.sum_cons]; omega
    · simp at h

theorem maxValues_eq : ∀ (vs : List Int) (acc v : Int), maxValues vs acc = some v → v = vs.foldl Max.max acc
  | [], acc, v, h => by simp [maxValues] at h; simp [h]
  | x :: vs, acc, v, h => by
    simp only [maxValues] at h
    split at h
    · have := maxValues_eq vs _ v h
      rw [this, List.foldl_cons]
      congr 1
      split <;> omega
    · simp at h

theorem value_nonneg_aux (hcomp : Spec.Estimates comp) (hg : ∀ g, c.g = some g → 0 ≤ g) :
    (∀ e, Spec.NonNeg [e] → 0 ≤ Spec.value comp c e) ∧ (∀ es, Spec.NonNeg es → ∀ v ∈ Spec.values comp c es, 0 ≤ v) := by
  have nn : ∀ (e : Ev) (es : List Ev), Spec.NonNeg (e :: es) → Spec.NonNeg [e] ∧ Spec.NonNeg es := by
    intro e es h
    exact ⟨fun a ha => h a (by simp only [List.flatMap_cons, List.flatMap_nil, List.append_nil, List.mem_append] at ha ⊢; exact Or.inl ha),
      fun a ha => h a (by simp only [List.flatMap_cons, List.mem_append]; exact Or.inr ha)⟩
  have hfold : ∀ (vs : List Int) (a : Int), 0 ≤ a → 0 ≤ vs.foldl Max.max a := by
    intro vs
    induction vs with
    | nil => intro a h; exact h
    | cons v vs ih => intro a h; rw [List.foldl_cons]; exact ih _ (by omega)
  have hsum : ∀ (vs : List Int), (∀ v ∈ vs, 0 ≤ v) → 0 ≤ vs.sum := by
    intro vs
    induction vs with
    | nil => simp
    | cons v vs ih =>
      intro h
      have h1 := h v (by simp)
      have h2 := ih (fun v hv => h v (by simp [hv]))
      simp only [List.sum_cons]; omega
  have hi : 0 ≤ infty := by decide
  have key : ∀ (n : Nat), (∀ e, sizeOf e < n → Spec.NonNeg [e] → 0 ≤ Spec.value comp c e) ∧
      (∀ es : List Ev, sizeOf es < n → Spec.NonNeg es → ∀ v ∈ Spec.values comp c es, 0 ≤ v) := by
    intro n
    induction n with
    | zero => exact ⟨fun e h => absurd h (by omega), fun e h => absurd h (by omega)⟩
    | succ n ih =>
      refine ⟨?_, ?_⟩
      · intro e he hnn
        cases e with
        | heuristic i b =>
          simp only [Spec.value]
          have := hcomp i c.state
          split <;> omega
        | g i =>
          simp only [Spec.value]
          cases h : c.g with
          | none => simp
          | some g => simpa using hg g h
        | const i v => exact (hnn (.const i v) (by simp [Ev.subs])).1 i v rfl
        | pref i => simp only [Spec.value]; split <;> omega
        | weighted i e w =>
          simp only [Spec.value]
          have h1 := ih.1 e (by simp only [Ev.weighted.sizeOf_spec] at he; omega) (fun a ha => hnn a (by simp only [List.flatMap_cons, List.flatMap_nil, List.append_nil, Ev.subs, List.mem_cons] at ha ⊢; exact Or.inr ha))
          have h2 := (hnn (.weighted i e w) (by simp [Ev.subs])).2 i e w rfl
          split
          · exact hi
          · exact Int.mul_nonneg h1 h2
        | sum i es =>
          simp only [Spec.value]
          split
          · exact hi
          · exact hsum _ (ih.2 es (by simp only [Ev.sum.sizeOf_spec] at he; omega) (fun a ha => hnn a (by
              simp only [List.flatMap_cons, List.flatMap_nil, List.append_nil, Ev.subs, List.mem_cons]; exact Or.inr ha)))
        | max i es =>
          simp only [Spec.value]
          split
          · exact hi
          · exact hfold _ _ (le_refl _)
      · intro es he hnn
        cases es with
        | nil => simp [Spec.values]
        | cons e es =>
          simp only [Spec.values, List.mem_cons]
          simp only [List.cons.sizeOf_spec] at he
          rintro v (rfl | hv)
          · exact ih.1 e (by omega) (nn e es hnn).1
          · exact ih.2 es (by omega) (nn e es hnn).2 v hv
  exact ⟨fun e => (key (sizeOf e + 1)).1 e (by omega), fun es => (key (sizeOf es + 1)).2 es (by omega)⟩

/-- evaluators of one context -/
structure Universe (comp : Nat → S → Int × List Nat) (c : Context S) (U : List Ev) : Prop where
  nonneg : ∀ e ∈ U, 0 ≤ Spec.value comp c e
  closed : ∀ e ∈ U, e.subs ⊆ U
  addr : ∀ a ∈ U, ∀ b ∈ U, a.id = b.id → a = b

theorem mem_subs_self (e : Ev) : e ∈ e.subs := by cases e <;> simp [Ev.subs]

theorem Universe.sub_weighted {U : List Ev} (hU : Universe comp c U) {i e w} (h : Ev.weighted i e w ∈ U) : e ∈ U :=
  hU.closed _ h (by simp only [Ev.subs, List.mem_cons]; exact Or.inr (mem_subs_self e))
theorem Universe.sub_sum {U : List Ev} (hU : Universe comp c U) {i es} (h : Ev.sum i es ∈ U) : ∀ e ∈ es, e ∈ U :=
  fun e he => hU.closed _ h (by simp only [Ev.subs, List.mem_cons, List.mem_flatMap]; exact Or.inr ⟨e, he, mem_subs_self e⟩)
theorem Universe.sub_max {U : List Ev} (hU : Universe comp c U) {i es} (h : Ev.max i es ∈ U) : ∀ e ∈ es, e ∈ U :=
  fun e he => hU.closed _ h (by simp only [Ev.subs, List.mem_cons, List.mem_flatMap]; exact Or.inr ⟨e, he, mem_subs_self e⟩)

/-- an evaluator starts being computed -/
theorem EInv.start {U P : List Ev} (hU : Universe comp c U) {e : Ev} (he : e ∈ U) {st : St S} (h : EInv comp c U P st)
    (hP : ∀ a ∈ P, a ∈ U ∧ sizeOf e < sizeOf a) (hnew : (st.cache e.id).isUninitialized = true) : EInv comp c U (e :: P) { st with log := st.log ++ [e.id] } := by
  refine ⟨h.h, h.cache, ?_, ?_⟩
  · refine List.nodup_append.mpr ⟨h.log.1, by simp, ?_⟩
    intro i hi j hj
    simp only [List.mem_singleton] at hj
    subst hj
    rintro rfl
    rcases h.log.2 _ hi with h1 | ⟨a, ha, hid⟩
    · rw [hnew] at h1; simp at h1
    · have := hU.addr a (hP a ha).1 e he hid
      have := (hP a ha).2
      subst a
      omega
  · intro i hi
    rcases List.mem_append.mp hi with hi | hi
    · rcases h.log.2 i hi with h1 | ⟨a, ha, hid⟩
      · exact Or.inl h1
      · exact Or.inr ⟨a, by simp [ha], hid⟩
    · simp only [List.mem_singleton] at hi
      exact Or.inr ⟨e, by simp, hi.symm⟩

/-- its result is stored -/
theorem EInv.finish {U P : List Ev} (hU : Universe comp c U) {e : Ev} (he : e ∈ U) {st : St S} (h : EInv comp c U (e :: P) st) {r : Result}
    (hr : Spec.ResultOK comp c e r) (n : Nat) : EInv comp c U P { st with cache := fun j => if j = e.id then r else st.cache j, evaluations := n } := by
  have hinit : r.isUninitialized = false := by
    unfold Result.isUninitialized uninitialized
    have := hU.nonneg e he
    rw [hr.value]
    simp only [beq_eq_false_iff_ne, ne_eq]
    omega
  refine ⟨h.h, ?_, h.log.1, ?_⟩
  · intro e' he' hi
    by_cases hid : e'.id = e.id
    · have := hU.addr e' he' e he hid
      subst this
      simpa using hr
    · simp only [hid, if_false] at hi ⊢
      exact h.cache e' he' hi
  · intro i hi
    by_cases hid : i = e.id
    · left; simp [hid, hinit]
    · rcases h.log.2 i hi with h1 | ⟨a, ha, hid'⟩
      · left; simpa [hid] using h1
      · rcases List.mem_cons.mp ha with rfl | ha
        · exact absurd hid'.symm hid
        · exact Or.inr ⟨a, ha, hid'⟩

theorem heuristic_ok {U P : List Ev} (hcomp : Spec.Estimates comp) {id : Nat} {b : Bool} {st st' : St S} {r : Result} (h : EInv comp c U P st)
    (hr : computeHeuristic comp c id b st = some (r, st')) : Spec.ResultOK comp c (.heuristic id b) r ∧ EInv comp c U P st' := by
  unfold computeHeuristic at hr
  have hv : (heuristicValue comp c id b st).1 = (comp id c.state).1 ∧ EInv comp c U P (heuristicValue comp c id b st).2.2.2 ∧
      (c.calculatePreferred = true → (heuristicValue comp c id b st).2.1 = (comp id c.state).2) := by
    unfold heuristicValue
    split
    · rename_i hc
      simp only [Bool.and_eq_true, Bool.not_eq_true', bne_iff_ne, ne_eq] at hc
      refine ⟨?_, h, fun h' => ?_⟩
      · rcases h.h id c.state with h1 | h1 | h1
        · exact absurd h1 hc.1.2
        · rw [h1] at hc; simp at hc
        · exact h1
      · rw [h'] at hc; simp at hc
    · refine ⟨rfl, ?_, fun _ => rfl⟩
      split
      · refine ⟨?_, h.cache, h.log⟩
        intro i s
        simp only [setH]
        split
        · rename_i hi
          right; right
          rw [hi.1, hi.2]
          exact wrap31_eq (hcomp _ _).1 (hcomp _ _).2
        · exact h.h i s
      · exact h
  obtain ⟨v1, v2, v3⟩ := hv
  simp only [v1] at hr
  have hbig := hcomp id c.state
  split at hr
  · rename_i hd
    simp only [Option.some.injEq, Prod.mk.injEq] at hr
    obtain ⟨rfl, rfl⟩ := hr
    refine ⟨⟨?_, ?_, fun _ => rfl⟩, v2⟩
    · simp only [Spec.value]; exact (if_pos hd).symm
    · intro id' b' _ h' _; exact absurd rfl h'
  · rename_i hd
    split at hr
    · simp only [Option.some.injEq, Prod.mk.injEq] at hr
      obtain ⟨rfl, rfl⟩ := hr
      refine ⟨⟨?_, ?_, ?_⟩, v2⟩
      · simp only [Spec.value]; exact (if_neg hd).symm
      · intro id' b' he _ hc
        simp only [Ev.heuristic.injEq] at he
        rw [← he.1]
        exact v3 hc
      · intro h'
        simp only [infty] at h'
        omega
    · simp at hr

theorem combine_ok {f : List Int → Int → Option Int} {vals : Option (List Int)} {st st' : St S} {r : Result} (hr : combine f vals st = some (r, st')) :
    st' = st ∧ r.preferred = [] ∧ (vals = none → r.value = infty) ∧ (∀ vs, vals = some vs → f vs 0 = some r.value) := by
  unfold combine at hr
  cases vals with
  | none =>
    simp only [Option.some.injEq, Prod.mk.injEq] at hr
    obtain ⟨rfl, rfl⟩ := hr
    exact ⟨rfl, rfl, fun _ => rfl, by simp⟩
  | some vs =>
    simp only [Option.map_eq_some_iff] at hr
    obtain ⟨v, h1, h2⟩ := hr
    simp only [Prod.mk.injEq] at h2
    obtain ⟨rfl, rfl⟩ := h2
    refine ⟨rfl, rfl, by simp, ?_⟩
    rintro _ ⟨⟩
    exact h1

/-- what collecting the values of the subevaluators yields -/
def CollectOK (comp : Nat → S → Int × List Nat) (c : Context S) (es : List Ev) (vals : Option (List Int)) : Prop :=
  (vals = none ∧ infty ∈ Spec.values comp c es) ∨ (vals = some (Spec.values comp c es) ∧ infty ∉ Spec.values comp c es)

theorem compute_ok {U : List Ev} (hcomp : Spec.Estimates comp) (hU : Universe comp c U) : ∀ (n : Nat),
    (∀ e, sizeOf e < n → e ∈ U → ∀ (P : List Ev) (st st' : St S) (r : Result), (∀ a ∈ P, a ∈ U ∧ sizeOf e < sizeOf a) → EInv comp c U P st →
      getResult comp c e st = some (r, st') → Spec.ResultOK comp c e r ∧ EInv comp c U P st') ∧
    (∀ es : List Ev, sizeOf es < n → (∀ e ∈ es, e ∈ U) → ∀ (P : List Ev) (st st' : St S) (vals : Option (List Int)), (∀ a ∈ P, a ∈ U ∧ sizeOf es < sizeOf a) →
      EInv comp c U P st → collect comp c es st = some (vals, st') → CollectOK comp c es vals ∧ EInv comp c U P st') := by
  intro n
  induction n with
  | zero => exact ⟨fun e h => absurd h (by omega), fun e h => absurd h (by omega)⟩
  | succ n ih =>
    refine ⟨?_, ?_⟩
    · intro e hsz he P st st' r hP hi hr
      unfold getResult memo at hr
      split at hr
      case isFalse hc =>
        simp only [Option.some.injEq, Prod.mk.injEq] at hr
        obtain ⟨rfl, rfl⟩ := hr
        exact ⟨hi.cache e he (by simpa using hc), hi⟩
      rename_i hc
      have hs := hi.start hU he hP hc
      cases hcomp' : compute comp c e st with
      | none => rw [hcomp'] at hr; simp at hr
      | some x =>
        obtain ⟨r', st1⟩ := x
        rw [hcomp'] at hr
        simp only [Option.some.injEq, Prod.mk.injEq] at hr
        obtain ⟨rfl, rfl⟩ := hr
        have key : Spec.ResultOK comp c e r' ∧ EInv comp c U (e :: P) st1 := by
          cases e with
          | heuristic id b =>
            simp only [compute] at hcomp'
            exact heuristic_ok hcomp hs hcomp'
          | g id =>
            simp only [compute, Option.map_eq_some_iff] at hcomp'
            obtain ⟨g, h1, h2⟩ := hcomp'
            simp only [Prod.mk.injEq] at h2
            obtain ⟨rfl, rfl⟩ := h2
            exact ⟨⟨by simp [Spec.value, h1], by simp, fun _ => rfl⟩, hs⟩
          | const id v =>
            simp only [compute, Option.some.injEq, Prod.mk.injEq] at hcomp'
            obtain ⟨rfl, rfl⟩ := hcomp'
            exact ⟨⟨by simp [Spec.value], by simp, fun _ => rfl⟩, hs⟩
          | pref id =>
            simp only [compute, Option.map_eq_some_iff] at hcomp'
            obtain ⟨g, h1, h2⟩ := hcomp'
            simp only [Prod.mk.injEq] at h2
            obtain ⟨rfl, rfl⟩ := h2
            exact ⟨⟨by simp [Spec.value], by simp, fun _ => rfl⟩, hs⟩
          | weighted id e w =>
            simp only [compute] at hcomp'
            cases hm : memo e.id e.counts (compute comp c e) { st with log := st.log ++ [id] } with
            | none => rw [hm] at hcomp'; simp at hcomp'
            | some x =>
              obtain ⟨r1, st2⟩ := x
              rw [hm] at hcomp'
              simp only at hcomp'
              have hlt : sizeOf e < sizeOf (Ev.weighted id e w) := by simp only [Ev.weighted.sizeOf_spec]; omega
              obtain ⟨k1, k2⟩ := ih.1 e (by omega) (hU.sub_weighted he) (Ev.weighted id e w :: P) { st with log := st.log ++ [id] } st2 r1 (by
                intro a ha
                rcases List.mem_cons.mp ha with rfl | ha
                · exact ⟨he, hlt⟩
                · exact ⟨(hP a ha).1, by have := (hP a ha).2; omega⟩) hs hm
              have hval : Spec.value comp c (.weighted id e w) = if r1.value = infty then infty else r1.value * w := by
                simp only [Spec.value]; rw [k1.value]
              split at hcomp'
              · rename_i hinf
                simp only [Option.some.injEq, Prod.mk.injEq] at hcomp'
                obtain ⟨rfl, rfl⟩ := hcomp'
                exact ⟨⟨by rw [hval, if_pos hinf], by simp, fun _ => rfl⟩, k2⟩
              · rename_i hinf
                split at hcomp'
                · simp only [Option.some.injEq, Prod.mk.injEq] at hcomp'
                  obtain ⟨rfl, rfl⟩ := hcomp'
                  exact ⟨⟨by rw [hval, if_neg hinf], by simp, fun _ => rfl⟩, k2⟩
                · simp at hcomp'
          | sum id es =>
            simp only [compute] at hcomp'
            cases hm : collect comp c es { st with log := st.log ++ [id] } with
            | none => rw [hm] at hcomp'; simp at hcomp'
            | some x =>
              obtain ⟨vals, st2⟩ := x
              rw [hm] at hcomp'
              simp only at hcomp'
              have hlt : sizeOf es < sizeOf (Ev.sum id es) := by simp only [Ev.sum.sizeOf_spec]; omega
              obtain ⟨k1, k2⟩ := ih.2 es (by omega) (hU.sub_sum he) (Ev.sum id es :: P) { st with log := st.log ++ [id] } st2 vals (by
                intro a ha
                rcases List.mem_cons.mp ha with rfl | ha
                · exact ⟨he, hlt⟩
                · exact ⟨(hP a ha).1, by have := (hP a ha).2; omega⟩) hs hm
              obtain ⟨rfl, q1, q2, q3⟩ := combine_ok hcomp'
              refine ⟨⟨?_, by simp, fun _ => q1⟩, k2⟩
              simp only [Spec.value]
              rcases k1 with ⟨k1, k3⟩ | ⟨k1, k3⟩
              · rw [if_pos k3]; exact q2 k1
              · rw [if_neg k3]
                simpa using sumValues_eq _ _ _ (q3 _ k1)
          | max id es =>
            simp only [compute] at hcomp'
            cases hm : collect comp c es { st with log := st.log ++ [id] } with
            | none => rw [hm] at hcomp'; simp at hcomp'
            | some x =>
              obtain ⟨vals, st2⟩ := x
              rw [hm] at hcomp'
              simp only at hcomp'
              have hlt : sizeOf es < sizeOf (Ev.max id es) := by simp only [Ev.max.sizeOf_spec]; omega
              obtain ⟨k1, k2⟩ := ih.2 es (by omega) (hU.sub_max he) (Ev.max id es :: P) { st with log := st.log ++ [id] } st2 vals (by
                intro a ha
                rcases List.mem_cons.mp ha with rfl | ha
                · exact ⟨he, hlt⟩
                · exact ⟨(hP a ha).1, by have := (hP a ha).2; omega⟩) hs hm
              obtain ⟨rfl, q1, q2, q3⟩ := combine_ok hcomp'
              refine ⟨⟨?_, by simp, fun _ => q1⟩, k2⟩
              simp only [Spec.value]
              rcases k1 with ⟨k1, k3⟩ | ⟨k1, k3⟩
              · rw [if_pos k3]; exact q2 k1
              · rw [if_neg k3]
                exact maxValues_eq _ _ _ (q3 _ k1)
        exact ⟨key.1, key.2.finish hU he key.1 _⟩
    · intro es hsz hes P st st' vals hP hi hr
      cases es with
      | nil =>
        simp only [collect, Option.some.injEq, Prod.mk.injEq] at hr
        obtain ⟨rfl, rfl⟩ := hr
        exact ⟨Or.inr ⟨rfl, by simp [Spec.values]⟩, hi⟩
      | cons e es =>
        simp only [List.cons.sizeOf_spec] at hsz hP
        simp only [collect] at hr
        cases hm : memo e.id e.counts (compute comp c e) st with
        | none => rw [hm] at hr; simp at hr
        | some x =>
          obtain ⟨r1, st1⟩ := x
          rw [hm] at hr
          simp only at hr
          obtain ⟨k1, k2⟩ := ih.1 e (by omega) (hes e (by simp)) P st st1 r1 (fun a ha => ⟨(hP a ha).1, by have := (hP a ha).2; omega⟩) hi hm
          split at hr
          · rename_i hinf
            simp only [Option.some.injEq, Prod.mk.injEq] at hr
            obtain ⟨rfl, rfl⟩ := hr
            exact ⟨Or.inl ⟨rfl, by simp only [Spec.values, List.mem_cons]; left; rw [← k1.value, hinf]⟩, k2⟩
          · rename_i hinf
            cases hm2 : collect comp c es st1 with
            | none => rw [hm2] at hr; simp at hr
            | some y =>
              obtain ⟨vs, st2⟩ := y
              rw [hm2] at hr
              simp only [Option.some.injEq, Prod.mk.injEq] at hr
              obtain ⟨rfl, rfl⟩ := hr
              obtain ⟨q1, q2⟩ := ih.2 es (by omega) (fun e he => hes e (by simp [he])) P st1 st2 vs (fun a ha => ⟨(hP a ha).1, by have := (hP a ha).2; omega⟩) k2 hm2
              refine ⟨?_, q2⟩
              rcases q1 with ⟨rfl, q⟩ | ⟨rfl, q⟩
              · exact Or.inl ⟨rfl, by simp [Spec.values, q]⟩
              · refine Or.inr ⟨by simp [Spec.values, k1.value], ?_⟩
                simp only [Spec.values, List.mem_cons, not_or]
                exact ⟨by rw [← k1.value]; exact fun h => hinf h.symm, q⟩

theorem askAll_ok {U : List Ev} (hcomp : Spec.Estimates comp) (hU : Universe comp c U) : ∀ (evs : List Ev), (∀ e ∈ evs, e ∈ U) → ∀ (st st' : St S) (rs : List Result),
    EInv comp c U [] st → askAll comp c evs st = some (rs, st') → List.Forall₂ (Spec.ResultOK comp c) evs rs ∧ EInv comp c U [] st'
  | [], _, st, st', rs, hi, h => by
    simp only [askAll, Option.some.injEq, Prod.mk.injEq] at h
    obtain ⟨rfl, rfl⟩ := h
    exact ⟨.nil, hi⟩
  | e :: evs, hev, st, st', rs, hi, h => by
    simp only [askAll] at h
    cases h1 : getResult comp c e st with
    | none => rw [h1] at h; simp at h
    | some x =>
      obtain ⟨r, st1⟩ := x
      rw [h1] at h
      simp only at h
      cases h2 : askAll comp c evs st1 with
      | none => rw [h2] at h; simp at h
      | some y =>
        obtain ⟨rs', st2⟩ := y
        rw [h2] at h
        simp only [Option.some.injEq, Prod.mk.injEq] at h
        obtain ⟨rfl, rfl⟩ := h
        obtain ⟨k1, k2⟩ := (compute_ok hcomp hU (sizeOf e + 1)).1 e (by omega) (hev e (by simp)) [] st st1 r (by simp) hi h1
        obtain ⟨q1, q2⟩ := askAll_ok hcomp hU evs (fun e he => hev e (by simp [he])) st1 st2 rs' k2 h2
        exact ⟨.cons k1 q1, q2⟩

theorem subs_closed : ∀ (n : Nat) (e : Ev), sizeOf e < n → ∀ a ∈ e.subs, a.subs ⊆ e.subs := by
  intro n
  induction n with
  | zero => intro e h; omega
  | succ n ih =>
    intro e hsz a ha
    have hlist : ∀ es : List Ev, (∀ e ∈ es, sizeOf e < n) → a ∈ es.flatMap Ev.subs → a.subs ⊆ es.flatMap Ev.subs := by
      intro es hes hin x hx
      obtain ⟨e', he', hae⟩ := List.mem_flatMap.mp hin
      exact List.mem_flatMap.mpr ⟨e', he', ih e' (hes e' he') a hae hx⟩
    cases e with
    | weighted i e w =>
      have hlt : sizeOf e < n := by simp only [Ev.weighted.sizeOf_spec] at hsz; omega
      simp only [Ev.subs, List.mem_cons] at ha
      rcases ha with rfl | ha
      · simp
      · intro x hx; simp only [Ev.subs, List.mem_cons]; exact Or.inr (ih e hlt a ha hx)
    | sum i es =>
      simp only [Ev.subs, List.mem_cons] at ha
      rcases ha with rfl | ha
      · simp
      · intro x hx
        simp only [Ev.subs, List.mem_cons]
        refine Or.inr (hlist es (fun e he => ?_) ha hx)
        have := List.sizeOf_lt_of_mem he
        simp only [Ev.sum.sizeOf_spec] at hsz; omega
    | max i es =>
      simp only [Ev.subs, List.mem_cons] at ha
      rcases ha with rfl | ha
      · simp
      · intro x hx
        simp only [Ev.subs, List.mem_cons]
        refine Or.inr (hlist es (fun e he => ?_) ha hx)
        have := List.sizeOf_lt_of_mem he
        simp only [Ev.max.sizeOf_spec] at hsz; omega
    | _ => simp only [Ev.subs, List.mem_singleton] at ha; subst ha; simp [Ev.subs]

theorem universe_of (hcomp : Spec.Estimates comp) (hg : ∀ g, c.g = some g → 0 ≤ g) {evs : List Ev} (ha : Spec.Addresses evs) (hn : Spec.NonNeg evs) :
    Universe comp c (evs.flatMap Ev.subs) := by
  have hcl : ∀ e ∈ evs.flatMap Ev.subs, e.subs ⊆ evs.flatMap Ev.subs := by
    intro e he x hx
    obtain ⟨e', h1, h2⟩ := List.mem_flatMap.mp he
    exact List.mem_flatMap.mpr ⟨e', h1, subs_closed (sizeOf e' + 1) e' (by omega) e h2 hx⟩
  refine ⟨fun e he => (value_nonneg_aux hcomp hg).1 e (fun a ha' => hn a (hcl e he (by simpa using ha'))), hcl, ha⟩

theorem run_ok : ∀ (qs : List (Req S)) (comp : Nat → S → Int × List Nat) (st st' : St S) (outs : List (List Result × List Nat)), Spec.Estimates comp →
    HInv comp st.hcache → Spec.Legal qs → run comp qs st = some (outs, st') → Spec.Correct comp qs outs
  | [], comp, st, st', outs, _, _, _, h => by
    simp only [run, Option.some.injEq, Prod.mk.injEq] at h
    obtain ⟨rfl, rfl⟩ := h
    exact trivial
  | .context c evs :: qs, comp, st, st', outs, hc, hi, hl, h => by
    obtain ⟨l1, l2, l3, l4⟩ := hl
    simp only [run] at h
    cases h1 : askAll comp c evs (newContext st) with
    | none => rw [h1] at h; simp at h
    | some x =>
      obtain ⟨rs, st1⟩ := x
      rw [h1] at h
      simp only at h
      cases h2 : run comp qs st1 with
      | none => rw [h2] at h; simp at h
      | some y =>
        obtain ⟨outs', st2⟩ := y
        rw [h2] at h
        simp only [Option.some.injEq, Prod.mk.injEq] at h
        obtain ⟨rfl, rfl⟩ := h
        have hU := universe_of hc l1 l2 l3
        obtain ⟨k1, k2⟩ := askAll_ok hc hU evs (fun e he => List.mem_flatMap.mpr ⟨e, he, mem_subs_self e⟩) (newContext st) st1 rs
          ⟨hi, fun e _ h => by simp [newContext, Result.new, Result.isUninitialized] at h, by simp [newContext, LInv]⟩ h1
        exact ⟨k1, k2.log.1, run_ok qs comp st1 st2 outs' hc k2.h l4 h2⟩
  | .change i s new :: qs, comp, st, st', outs, hc, hi, hl, h => by
    obtain ⟨l1, l2, l3⟩ := hl
    simp only [run] at h
    cases h2 : run (setComp comp i s new) qs { st with hcache := setH st.hcache i s ⟨(st.hcache i s).h, true⟩ } with
    | none => rw [h2] at h; simp at h
    | some y =>
      obtain ⟨outs', st2⟩ := y
      rw [h2] at h
      simp only [Option.some.injEq, Prod.mk.injEq] at h
      obtain ⟨rfl, rfl⟩ := h
      refine run_ok qs _ _ _ _ ?_ ?_ l3 h2
      · intro j x
        unfold setComp
        split
        · exact ⟨l1, l2⟩
        · exact hc j x
      · intro j x
        simp only [setH, setComp]
        split
        · right; left; rfl
        · exact hi j x

end Verif.Evaluators
