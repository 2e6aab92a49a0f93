import Verif.Lemmas.AxiomsLoop

/-
C09: axiom evaluation computes the unique stable model of the (stratified) axioms.
-/
namespace Verif.Axioms

/-- the axioms are stratified -/
structure Stratified (t : Task) : Prop where
  pos : ∀ r ∈ t.rules, ∀ c ∈ r.body, ∀ ℓc ℓh, t.layerOf c.var = some ℓc → t.layerOf r.head.var = some ℓh → ℓc ≤ ℓh
  neg : ∀ r ∈ t.rules, ∀ c ∈ r.body, ∀ ℓc ℓh, t.layerOf c.var = some ℓc → t.layerOf r.head.var = some ℓh → c.val = t.defaultOf c.var → ℓc < ℓh

theorem derives_transfer {t : Task} (hwf : Stratified t) {s a b : State} {ℓ : Nat}
    (hag : ∀ v m, t.layerOf v = some m → m < ℓ → a[v]? = b[v]?) {f : Fact}
    (d : Derives t s (fun c => c.holds a) f) :
    ∀ m, t.layerOf f.var = some m → m ≤ ℓ → Derives t s (fun c => c.holds b) f := by
  induction d with
  | rule r hr hb hn _ ih =>
    intro m hm hle
    refine Derives.rule r hr hb ?_ ?_
    · intro c hc h1 h2
      have := hn c hc h1 h2
      obtain ⟨mc, hmc⟩ := Option.ne_none_iff_exists'.mp h1
      have hlt := hwf.neg r hr c hc mc m hmc hm h2
      unfold Fact.holds at this ⊢
      rw [← hag c.var mc hmc (by omega)]; exact this
    · intro c hc h1 h2
      obtain ⟨mc, hmc⟩ := Option.ne_none_iff_exists'.mp h1
      have := hwf.pos r hr c hc mc m hmc hm
      exact ih c hc h1 h2 mc hmc (by omega)

/-- Stratified axioms have at most one stable model, and it only depends on the values of
the non-derived variables. -/
theorem stable_unique_of {t : Task} (hwf : Stratified t) {s₁ s₂ a b : State}
    (hl : s₁.length = s₂.length) (hbase : ∀ v, t.layerOf v = none → s₁[v]? = s₂[v]?)
    (hlen : s₁.length = t.vars.length)
    (ha : StableModel t s₁ a) (hb : StableModel t s₂ b) : a = b := by
  have hder : ∀ (neg : Fact → Prop) f, Derives t s₁ neg f ↔ Derives t s₂ neg f := by
    intro neg f
    constructor
    · intro d
      induction d with
      | rule r hr h1 h2 _ ih =>
        exact Derives.rule r hr (fun c hc hn => by
          have := h1 c hc hn
          unfold Fact.holds at this ⊢; rw [← hbase _ hn]; exact this) h2 ih
    · intro d
      induction d with
      | rule r hr h1 h2 _ ih =>
        exact Derives.rule r hr (fun c hc hn => by
          have := h1 c hc hn
          unfold Fact.holds at this ⊢; rw [hbase _ hn]; exact this) h2 ih
  have key : ∀ ℓ v, t.layerOf v = some ℓ → a[v]? = b[v]? := by
    intro ℓ
    induction ℓ using Nat.strongRecOn with
    | _ ℓ ih =>
      intro v hv
      have hag : ∀ v m, t.layerOf v = some m → m < ℓ → a[v]? = b[v]? := fun v m h1 h2 => ih m h2 v h1
      have hag' : ∀ v m, t.layerOf v = some m → m < ℓ → b[v]? = a[v]? := fun v m h1 h2 => (ih m h2 v h1).symm
      have hne : t.layerOf v ≠ none := by rw [hv]; simp
      have hvl : v < t.vars.length := by
        rcases Nat.lt_or_ge v t.vars.length with h | h
        · exact h
        · rw [layerOf_none_of_ge h] at hv; cases hv
      have hal : v < a.length := by rw [ha.length, hlen]; exact hvl
      have hx := List.getElem?_eq_getElem hal
      generalize a[v] = x at hx
      rw [hx]
      by_cases hxd : x = t.defaultOf v
      · symm; rw [hxd]
        refine (hb.neg v hne).mp ?_
        intro y hy hd
        have hd' := derives_transfer hwf hag' ((hder _ _).mpr hd) ℓ hv (Nat.le_refl _)
        exact (ha.neg v hne).mpr (by rw [hx, hxd]) y hy hd'
      · have hd := (ha.pos ⟨v, x⟩ hne hxd).mp hx
        have hd' := derives_transfer hwf hag hd ℓ hv (Nat.le_refl _)
        exact ((hb.pos ⟨v, x⟩ hne hxd).mpr ((hder _ _).mp hd')).symm
  apply List.ext_getElem?
  intro v
  cases hv : t.layerOf v with
  | none => rw [ha.base v hv, hb.base v hv, hbase v hv]
  | some ℓ => exact key ℓ v hv

theorem stable_unique {t : Task} (hwf : t.WFAxioms) {s₁ s₂ a b : State}
    (hl : s₁.length = s₂.length) (hbase : ∀ v, t.layerOf v = none → s₁[v]? = s₂[v]?)
    (hlen : s₁.length = t.vars.length)
    (ha : StableModel t s₁ a) (hb : StableModel t s₂ b) : a = b := stable_unique_of ⟨hwf.stratPos, hwf.stratNeg⟩ hl hbase hlen ha hb

/-- **C09**: for every well-formed stratified task and every valid state, evaluation ends
without an invalid access, leaves the non-derived variables alone, and yields the unique
stable model of the axioms; the previous values of derived variables do not matter. -/
theorem C09_axiom_evaluation {t : Task} (hwf : t.WFAxioms) {s : State} (hs : t.ValidState s) :
    ∃ s', evaluate t s = some s' ∧ t.ValidState s' ∧ StableModel t s s' ∧
      (∀ m, StableModel t s m → m = s') ∧
      (∀ s₂, t.ValidState s₂ → (∀ v, t.layerOf v = none → s₂[v]? = s[v]?) → evaluate t s₂ = some s') ∧
      evaluate t s' = some s' := by
  obtain ⟨s', e, hv, hm⟩ := evaluate_spec hwf hs
  have hind : ∀ s₂, t.ValidState s₂ → (∀ v, t.layerOf v = none → s₂[v]? = s[v]?) → evaluate t s₂ = some s' := by
    intro s₂ hs₂ hag
    obtain ⟨s₂', e₂, _, hm₂⟩ := evaluate_spec hwf hs₂
    rw [e₂]
    congr 1
    exact stable_unique hwf (by rw [hs₂.1, hs.1]) hag hs₂.1 hm₂ hm
  refine ⟨s', e, hv, hm, fun m h => stable_unique hwf rfl (fun _ _ => rfl) hs.1 h hm, hind, ?_⟩
  exact hind s' hv (fun v h => hm.base v h)

/-- A task with two layers: `d1` (variable 1) is true if `x` (variable 0) is 1;
`d2` (variable 2) is true if `d1` is false. -/
def exTask : Task where
  vars := [⟨2, none, 0⟩, ⟨2, some 0, 0⟩, ⟨2, some 1, 0⟩]
  ops := []
  axioms := [⟨[], [⟨[⟨0, 1⟩], ⟨1, 1⟩⟩], 0⟩, ⟨[], [⟨[⟨1, 0⟩], ⟨2, 1⟩⟩], 0⟩]
  init := [0, 0, 0]
  goal := []

example : exTask.WFAxioms := by
  have hr : exTask.rules = [⟨[⟨0, 1⟩], ⟨1, 1⟩⟩, ⟨[⟨1, 0⟩], ⟨2, 1⟩⟩] := rfl
  constructor
  · intro a ha
    simp [exTask] at ha
    rcases ha with h | h <;> subst h <;> simp
  · rw [hr]; simp [Task.layerOf, exTask]
  · rw [hr]; simp [Task.defaultOf, exTask]
  · rw [hr]; simp
  · rw [hr]; simp [Task.ValidFact, exTask]
  · rw [hr]; simp [Task.ValidFact, exTask]
  · simp [exTask]
  · intro v d hv _
    match v with
    | 0 => simp [exTask] at hv; subst hv; simp
    | 1 => simp [exTask] at hv; subst hv; simp
    | 2 => simp [exTask] at hv; subst hv; simp
    | n + 3 => simp [exTask] at hv
  · rw [hr]; simp [Task.layerOf, exTask]
  · rw [hr]; simp [Task.layerOf, Task.defaultOf, exTask]

example : evaluate exTask [0, 1, 0] = some [0, 0, 1] := by decide
example : evaluate exTask [1, 0, 1] = some [1, 1, 0] := by decide

end Verif.Axioms
