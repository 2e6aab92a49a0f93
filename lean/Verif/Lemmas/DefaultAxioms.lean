import Verif.Lemmas.HittingSets
import Verif.Spec.DefaultAxioms
import Verif.Lemmas.Axioms
import Verif.Props.Sccs
import Mathlib.Data.List.Perm.Subperm

/- The task with axioms for default values: dependencies, needed values, new axioms. -/
namespace Verif.DefaultAxioms
open Verif.Axioms (layerOf_eq defaultOf_eq)

theorem kind_spec {t : Task} {f : Fact} (h : t.ValidFact f) :
    (kind t f = some .base ∧ t.layerOf f.var = none) ∨ (kind t f = some .default ∧ t.DefaultFact f) ∨ (kind t f = some .nondefault ∧ t.TrueFact f) := by
  obtain ⟨d, hd, _⟩ := h
  unfold kind Task.DefaultFact Task.TrueFact
  rw [hd, layerOf_eq hd, defaultOf_eq hd]
  by_cases h1 : d.layer = none
  · left; simp [h1]
  · right
    by_cases h2 : f.val = d.default
    · left; simp [h1, h2]
    · right; simp [h1, h2]

theorem not_both {t : Task} {f : Fact} (h1 : t.DefaultFact f) (h2 : t.TrueFact f) : False := h2.2 h1.2

def entries (l : List (List Nat)) (v : Nat) : List Nat := (l[v]?).getD []

theorem pushAt_spec {l : List (List Nat)} {i : Nat} (x : Nat) (h : i < l.length) :
    ∃ l', pushAt l i x = some l' ∧ l'.length = l.length ∧ ∀ v w, w ∈ entries l' v ↔ w ∈ entries l v ∨ (v = i ∧ w = x) := by
  unfold pushAt
  rw [List.getElem?_eq_getElem h]
  refine ⟨_, rfl, by simp, ?_⟩
  intro v w
  unfold entries
  rw [List.getElem?_set]
  by_cases hv : i = v
  · subst hv
    simp [h]
  · rw [if_neg hv]
    constructor
    · exact Or.inl
    · rintro (h' | ⟨h', _⟩)
      · exact h'
      · exact absurd h'.symm hv

theorem addConds_spec {t : Task} {head : Nat} : ∀ {cs : List Fact} {d : Deps}, head < d.nondefault.length → head < d.default.length → (∀ c ∈ cs, t.ValidFact c) →
    ∃ d', addConds t head cs d = some d' ∧ d'.nondefault.length = d.nondefault.length ∧ d'.default.length = d.default.length ∧ d'.ids = d.ids ∧
      (∀ v w, w ∈ entries d'.nondefault v ↔ w ∈ entries d.nondefault v ∨ (v = head ∧ ∃ c ∈ cs, t.TrueFact c ∧ c.var = w)) ∧
      (∀ v w, w ∈ entries d'.default v ↔ w ∈ entries d.default v ∨ (v = head ∧ ∃ c ∈ cs, t.DefaultFact c ∧ c.var = w))
  | [], d, _, _, _ => ⟨d, rfl, rfl, rfl, rfl, by simp, by simp⟩
  | c :: cs, d, h1, h2, h3 => by
    have h3' : ∀ c ∈ cs, t.ValidFact c := fun c hc => h3 c (by simp [hc])
    unfold addConds
    rcases kind_spec (h3 c (by simp)) with ⟨h, hk⟩ | ⟨h, hk⟩ | ⟨h, hk⟩
    · rw [h]
      obtain ⟨d', k1, k2, k3, k4, k5, k6⟩ := addConds_spec h1 h2 h3'
      refine ⟨d', k1, k2, k3, k4, ?_, ?_⟩
      · intro v w
        rw [k5]
        have : ¬t.TrueFact c := fun h => h.1 hk
        simp [this]
      · intro v w
        rw [k6]
        have : ¬t.DefaultFact c := fun h => h.1 hk
        simp [this]
    · rw [h]
      obtain ⟨l, p1, p2, p3⟩ := pushAt_spec (l := d.default) c.var h2
      simp only [p1]
      obtain ⟨d', k1, k2, k3, k4, k5, k6⟩ := addConds_spec (d := { d with default := l }) h1 (by rw [p2]; exact h2) h3'
      refine ⟨d', k1, k2, by rw [k3, p2], k4, ?_, ?_⟩
      · intro v w
        rw [k5]
        have : ¬t.TrueFact c := fun h => not_both hk h
        simp [this]
      · intro v w
        rw [k6, p3]
        simp only [List.mem_cons, exists_eq_or_imp, hk, true_and]
        constructor
        · rintro ((h | ⟨rfl, rfl⟩) | ⟨rfl, h⟩)
          · exact Or.inl h
          · exact Or.inr ⟨rfl, Or.inl rfl⟩
          · exact Or.inr ⟨rfl, Or.inr h⟩
        · rintro (h | ⟨rfl, rfl | h⟩)
          · exact Or.inl (Or.inl h)
          · exact Or.inl (Or.inr ⟨rfl, rfl⟩)
          · exact Or.inr ⟨rfl, h⟩
    · rw [h]
      obtain ⟨l, p1, p2, p3⟩ := pushAt_spec (l := d.nondefault) c.var h1
      simp only [p1]
      obtain ⟨d', k1, k2, k3, k4, k5, k6⟩ := addConds_spec (d := { d with nondefault := l }) (by rw [p2]; exact h1) h2 h3'
      refine ⟨d', k1, by rw [k2, p2], k3, k4, ?_, ?_⟩
      · intro v w
        rw [k5, p3]
        simp only [List.mem_cons, exists_eq_or_imp, hk, true_and]
        constructor
        · rintro ((h | ⟨rfl, rfl⟩) | ⟨rfl, h⟩)
          · exact Or.inl h
          · exact Or.inr ⟨rfl, Or.inl rfl⟩
          · exact Or.inr ⟨rfl, Or.inr h⟩
        · rintro (h | ⟨rfl, rfl | h⟩)
          · exact Or.inl (Or.inl h)
          · exact Or.inl (Or.inr ⟨rfl, rfl⟩)
          · exact Or.inr ⟨rfl, h⟩
      · intro v w
        rw [k6]
        have : ¬t.DefaultFact c := fun h => not_both h hk
        simp [this]

theorem addAxioms_spec {t : Task} : ∀ {as : List Operator} {i : Nat} {d : Deps},
    (∀ a ∈ as, ∃ e, a.effects = [e] ∧ e.fact.var < t.vars.length ∧ ∀ c ∈ e.conds, t.ValidFact c) →
    d.nondefault.length = t.vars.length → d.default.length = t.vars.length → d.ids.length = t.vars.length →
    ∃ d', addAxioms t as i d = some d' ∧ d'.nondefault.length = t.vars.length ∧ d'.default.length = t.vars.length ∧ d'.ids.length = t.vars.length ∧
      (∀ v w, w ∈ entries d'.nondefault v ↔ w ∈ entries d.nondefault v ∨ ∃ a ∈ as, ∃ e ∈ a.effects, e.fact.var = v ∧ ∃ c ∈ e.conds, t.TrueFact c ∧ c.var = w) ∧
      (∀ v w, w ∈ entries d'.default v ↔ w ∈ entries d.default v ∨ ∃ a ∈ as, ∃ e ∈ a.effects, e.fact.var = v ∧ ∃ c ∈ e.conds, t.DefaultFact c ∧ c.var = w) ∧
      (∀ v j, j ∈ entries d'.ids v ↔ j ∈ entries d.ids v ∨ ∃ (k : Nat) (a : Operator), as[k]? = some a ∧ j = i + k ∧ ∃ e ∈ a.effects, e.fact.var = v)
  | [], i, d, _, h1, h2, h3 => ⟨d, rfl, h1, h2, h3, by simp, by simp, by simp⟩
  | a :: as, i, d, h, h1, h2, h3 => by
    obtain ⟨e, he, hv, hc⟩ := h a (by simp)
    obtain ⟨l, p1, p2, p3⟩ := pushAt_spec (l := d.ids) i (by rw [h3]; exact hv)
    obtain ⟨d1, q1, q2, q3, q4, q5, q6⟩ := addConds_spec (d := { d with ids := l }) (by simpa [h1] using hv) (by simpa [h2] using hv) hc
    obtain ⟨d', k1, k2, k3, k4, k5, k6, k7⟩ := addAxioms_spec (as := as) (i := i + 1) (d := d1) (fun a ha => h a (by simp [ha])) (by rw [q2]; exact h1) (by rw [q3]; exact h2) (by rw [q4]; simpa [p2] using h3)
    unfold addAxioms
    rw [he]
    simp only [p1, q1]
    refine ⟨d', k1, k2, k3, k4, ?_, ?_, ?_⟩
    · intro v w
      rw [k5, q5]
      simp only [List.mem_cons, exists_eq_or_imp, he, List.not_mem_nil, false_and, exists_false, or_false]
      constructor
      · rintro ((h | ⟨rfl, h⟩) | h)
        · exact Or.inl h
        · exact Or.inr (Or.inl ⟨e, rfl, rfl, h⟩)
        · exact Or.inr (Or.inr h)
      · rintro (h | ⟨_, rfl, rfl, h⟩ | h)
        · exact Or.inl (Or.inl h)
        · exact Or.inl (Or.inr ⟨rfl, h⟩)
        · exact Or.inr h
    · intro v w
      rw [k6, q6]
      simp only [List.mem_cons, exists_eq_or_imp, he, List.not_mem_nil, false_and, exists_false, or_false]
      constructor
      · rintro ((h | ⟨rfl, h⟩) | h)
        · exact Or.inl h
        · exact Or.inr (Or.inl ⟨e, rfl, rfl, h⟩)
        · exact Or.inr (Or.inr h)
      · rintro (h | ⟨_, rfl, rfl, h⟩ | h)
        · exact Or.inl (Or.inl h)
        · exact Or.inl (Or.inr ⟨rfl, h⟩)
        · exact Or.inr h
    · intro v j
      rw [k7, q4]
      show (j ∈ entries l v ∨ _) ↔ _
      rw [p3]
      constructor
      · rintro ((h | ⟨rfl, rfl⟩) | ⟨k, a', h4, rfl, h6⟩)
        · exact Or.inl h
        · exact Or.inr ⟨0, a, rfl, rfl, e, by simp [he], rfl⟩
        · exact Or.inr ⟨k + 1, a', by simpa using h4, by omega, h6⟩
      · rintro (h | ⟨k, a', h4, rfl, e', h5, h6⟩)
        · exact Or.inl (Or.inl h)
        · cases k with
          | zero =>
            simp only [List.getElem?_cons_zero, Option.some.injEq] at h4
            subst h4
            rw [he, List.mem_singleton] at h5
            subst h5
            exact Or.inl (Or.inr ⟨h6.symm, rfl⟩)
          | succ k => exact Or.inr ⟨k, a', by simpa using h4, by omega, e', h5, h6⟩

theorem mem_rules {t : Task} {r : Rule} : r ∈ t.rules ↔ ∃ a ∈ t.axioms, ∃ e ∈ a.effects, r = ⟨e.conds, e.fact⟩ := by
  unfold Task.rules
  simp only [List.mem_flatMap, List.mem_map]
  constructor
  · rintro ⟨a, h1, e, h2, rfl⟩; exact ⟨a, h1, e, h2, rfl⟩
  · rintro ⟨a, h1, e, h2, rfl⟩; exact ⟨a, h1, e, h2, rfl⟩

theorem valid_var {t : Task} {f : Fact} (h : t.ValidFact f) : f.var < t.vars.length := by
  obtain ⟨d, hd, _⟩ := h
  exact (List.getElem?_eq_some_iff.mp hd).1

/-- an axiom for `v` has the derived variable `w` with its default value in its body -/
def NegDep (t : Task) (v w : Nat) : Prop := ∃ r ∈ t.rules, r.head.var = v ∧ ∃ c ∈ r.body, t.DefaultFact c ∧ c.var = w

structure DepsOk (t : Task) (d : Deps) : Prop where
  len1 : d.nondefault.length = t.vars.length
  len2 : d.default.length = t.vars.length
  len3 : d.ids.length = t.vars.length
  pos : ∀ v w, w ∈ entries d.nondefault v ↔ t.PosDep v w
  neg : ∀ v w, w ∈ entries d.default v ↔ NegDep t v w
  ids : ∀ v j, j ∈ entries d.ids v ↔ ∃ a e, t.axioms[j]? = some a ∧ e ∈ a.effects ∧ e.fact.var = v

theorem deps_ok {t : Task} (hwf : t.WFAxioms) : ∃ d, dependencies t = some d ∧ DepsOk t d := by
  have hempty : ∀ v w, w ∉ entries (t.vars.map (fun _ => ([] : List Nat))) v := by
    intro v w h
    unfold entries at h
    rw [List.getElem?_map] at h
    cases hx : t.vars[v]? <;> rw [hx] at h <;> simp at h
  obtain ⟨d, h1, h2, h3, h4, h5, h6, h7⟩ := addAxioms_spec (t := t) (as := t.axioms) (i := 0) (d := ⟨t.vars.map (fun _ => []), t.vars.map (fun _ => []), t.vars.map (fun _ => [])⟩) (by
    intro a ha
    obtain ⟨e, he⟩ := hwf.single a ha
    have hr : (⟨e.conds, e.fact⟩ : Rule) ∈ t.rules := mem_rules.mpr ⟨a, ha, e, by simp [he], rfl⟩
    exact ⟨e, he, valid_var (hwf.validHead _ hr), hwf.validBody _ hr⟩) (by simp) (by simp) (by simp)
  refine ⟨d, h1, h2, h3, h4, ?_, ?_, ?_⟩
  · intro v w
    rw [h5]
    unfold Task.PosDep
    simp only [hempty, false_or, mem_rules]
    constructor
    · rintro ⟨a, k1, e, k2, k3, k4⟩; exact ⟨_, ⟨a, k1, e, k2, rfl⟩, k3, k4⟩
    · rintro ⟨r, ⟨a, k1, e, k2, rfl⟩, k3, k4⟩; exact ⟨a, k1, e, k2, k3, k4⟩
  · intro v w
    rw [h6]
    unfold NegDep
    simp only [hempty, false_or, mem_rules]
    constructor
    · rintro ⟨a, k1, e, k2, k3, k4⟩; exact ⟨_, ⟨a, k1, e, k2, rfl⟩, k3, k4⟩
    · rintro ⟨r, ⟨a, k1, e, k2, rfl⟩, k3, k4⟩; exact ⟨a, k1, e, k2, k3, k4⟩
  · intro v j
    rw [h7]
    simp only [hempty, false_or]
    constructor
    · rintro ⟨k, a, k1, rfl, e, k2, k3⟩; exact ⟨a, e, by simpa using k1, k2, k3⟩
    · rintro ⟨a, e, k1, k2, k3⟩; exact ⟨j, a, k1, by omega, e, k2, k3⟩

/-! ### Components -/

/-- the default value of the variable is assumed to be reached unconditionally -/
def Approx (t : Task) (h : Handling) (v : Nat) : Prop := h = .approximateNegative ∨ t.OnCycle v

theorem posDep_derived {t : Task} (hwf : t.WFAxioms) {v w : Nat} (h : t.PosDep v w) : v < t.vars.length ∧ w < t.vars.length ∧ t.layerOf v ≠ none ∧ t.layerOf w ≠ none := by
  obtain ⟨r, h1, rfl, c, h2, h3, rfl⟩ := h
  exact ⟨valid_var (hwf.validHead r h1), valid_var (hwf.validBody r h1 c h2), hwf.headDerived r h1, h3.1⟩

structure CompOk (t : Task) (h : Handling) (sccs : List (List Nat)) : Prop where
  approx : ∀ v < t.vars.length, ∃ b, approximated h sccs v = some b ∧ (b = true ↔ Approx t h v)
  /-- variables on which exactly treated ones depend come later -/
  order : h = .approximateNegativeCycles → ∃ rank : Nat → Nat, ∀ v w, ¬t.OnCycle v → t.PosDep v w → w ≠ v → rank w < rank v

theorem edge_iff {t : Task} {d : Deps} (hd : DepsOk t d) {v w : Nat} : Sccs.Edge d.nondefault v w ↔ t.PosDep v w := by
  rw [← hd.pos]
  unfold Sccs.Edge entries
  constructor
  · rintro ⟨succs, h1, h2⟩
    rw [h1]
    exact h2
  · intro h
    cases hv : d.nondefault[v]? with
    | none => rw [hv] at h; simp at h
    | some succs => rw [hv] at h; exact ⟨succs, rfl, h⟩

theorem reach_iff {t : Task} {d : Deps} (hd : DepsOk t d) {v w : Nat} : Sccs.Reach d.nondefault v w ↔ Relation.ReflTransGen t.PosDep v w := by
  have : Sccs.Edge d.nondefault = t.PosDep := by
    funext v w
    exact propext (edge_iff hd)
  unfold Sccs.Reach
  rw [this]

theorem comp_ok {t : Task} (hwf : t.WFAxioms) (h : Handling) {d : Deps} (hd : DepsOk t d) : ∃ sccs, components h d = some sccs ∧ CompOk t h sccs := by
  cases h with
  | approximateNegative => exact ⟨[], rfl, fun v _ => ⟨true, rfl, by simp [Approx]⟩, fun h => by cases h⟩
  | approximateNegativeCycles =>
    obtain ⟨out, h1, h2, h3, h4, h5, h6⟩ := Sccs.C13_sccs d.nondefault (by
      intro succs hs w hw
      obtain ⟨v, hv⟩ := List.mem_iff_getElem?.mp hs
      rw [hd.len1]
      exact (posDep_derived hwf ((edge_iff hd).mp ⟨succs, hv, hw⟩)).2.1)
    have hfind : ∀ v < t.vars.length, ∃ c, out.find? (fun c => decide (v ∈ c)) = some c ∧ c ∈ out ∧ v ∈ c := by
      intro v hv
      have hm := (h4 v).mpr (by rw [hd.len1]; exact hv)
      obtain ⟨c, k1, k2⟩ := List.mem_flatten.mp hm
      cases hf : out.find? (fun c => decide (v ∈ c)) with
      | none =>
        rw [List.find?_eq_none] at hf
        exact absurd (by simpa using k2) (hf c k1)
      | some c' =>
        exact ⟨c', rfl, List.mem_of_find?_eq_some hf, by simpa using List.find?_some hf⟩
    have hnd : ∀ c ∈ out, c.Nodup := fun c hc => (List.nodup_flatten.mp h3).1 c hc
    have hcyc : ∀ c ∈ out, ∀ v ∈ c, (1 < c.length ↔ t.OnCycle v) := by
      intro c hc v hv
      constructor
      · intro hlen
        have : ∃ w ∈ c, w ≠ v := by
          by_contra hne
          push Not at hne
          match c, hnd c hc, hlen with
          | [], _, h => simp at h
          | [a], _, h => simp at h
          | a :: b :: l, hn, _ =>
            have ha := hne a (by simp)
            have hb := hne b (by simp)
            rw [ha, hb] at hn
            simp at hn
        obtain ⟨w, k1, k2⟩ := this
        have := (h5 c hc v hv w).mp k1
        exact ⟨w, k2, (reach_iff hd).mp this.1, (reach_iff hd).mp this.2⟩
      · rintro ⟨w, k1, k2, k3⟩
        have hw : w ∈ c := (h5 c hc v hv w).mpr ⟨(reach_iff hd).mpr k2, (reach_iff hd).mpr k3⟩
        match c, hv, hw with
        | [a], hv, hw =>
          rw [List.mem_singleton] at hv hw
          exact absurd (hw.trans hv.symm) k1
        | a :: b :: l, _, _ => simp
    refine ⟨out, h1, ?_, ?_⟩
    · intro v hv
      obtain ⟨c, k1, k2, k3⟩ := hfind v hv
      refine ⟨decide (1 < c.length), by simp [approximated, k1], ?_⟩
      rw [decide_eq_true_eq, hcyc c k2 v k3]
      simp [Approx]
    · intro _
      refine ⟨fun v => out.length - out.findIdx (fun c => decide (v ∈ c)), ?_⟩
      intro v w hnc hdep hne
      obtain ⟨hv, hw, _, _⟩ := posDep_derived hwf hdep
      have hidx : ∀ v < t.vars.length, ∃ c, out[out.findIdx (fun c => decide (v ∈ c))]? = some c ∧ v ∈ c := by
        intro v hv
        obtain ⟨c, k1, k2, k3⟩ := hfind v hv
        have hlt : out.findIdx (fun c => decide (v ∈ c)) < out.length := List.findIdx_lt_length_of_exists ⟨c, k2, by simpa using k3⟩
        exact ⟨_, List.getElem?_eq_getElem hlt, by simpa using List.findIdx_getElem (w := hlt)⟩
      obtain ⟨c, i1, i2⟩ := hidx v hv
      obtain ⟨c', j1, j2⟩ := hidx w hw
      have hlt := (List.getElem?_eq_some_iff.mp i1).1
      have hlt' := (List.getElem?_eq_some_iff.mp j1).1
      have hne' : out.findIdx (fun c => decide (v ∈ c)) ≠ out.findIdx (fun c => decide (w ∈ c)) := by
        intro e
        rw [e, j1] at i1
        simp only [Option.some.injEq] at i1
        subst i1
        have hc := List.mem_of_getElem? j1
        have := (h5 c' hc v i2 w).mp j2
        exact hnc ⟨w, hne, (reach_iff hd).mp this.1, (reach_iff hd).mp this.2⟩
      have hnlt : ¬out.findIdx (fun c => decide (w ∈ c)) < out.findIdx (fun c => decide (v ∈ c)) := by
        intro hl
        have := List.pairwise_iff_getElem.mp h6 _ _ hlt' hlt hl
        have e1 := (List.getElem?_eq_some_iff.mp i1).2
        have e2 := (List.getElem?_eq_some_iff.mp j1).2
        rw [e1, e2] at this
        exact this v i2 w j2 ((edge_iff hd).mpr hdep)
      show out.length - _ < out.length - _
      omega

/-! ### Needed values -/

theorem mem_insertNeeded {x y : Nat × Bool} {l : List (Nat × Bool)} : y ∈ insertNeeded x l ↔ y = x ∨ y ∈ l := by
  unfold insertNeeded
  split
  · rename_i h
    constructor
    · exact Or.inr
    · rintro (rfl | h')
      · exact h
      · exact h'
  · simp; tauto

theorem nodup_insertNeeded {x : Nat × Bool} {l : List (Nat × Bool)} (h : l.Nodup) : (insertNeeded x l).Nodup := by
  unfold insertNeeded
  split
  · exact h
  · rename_i hx
    rw [List.nodup_append]
    refine ⟨h, by simp, ?_⟩
    intro a ha b hb
    rw [List.mem_singleton] at hb
    subst hb
    rintro rfl
    exact hx ha

theorem collectNeeded_spec {t : Task} : ∀ {fs : List Fact} {l : List (Nat × Bool)}, l.Nodup → (∀ f ∈ fs, t.ValidFact f) →
    ∃ l', collectNeeded t fs l = some l' ∧ l'.Nodup ∧
      ∀ x, x ∈ l' ↔ x ∈ l ∨ ∃ f ∈ fs, t.layerOf f.var ≠ none ∧ x = (f.var, decide (f.val = t.defaultOf f.var))
  | [], l, hn, _ => ⟨l, rfl, hn, by simp⟩
  | f :: fs, l, hn, h => by
    have h' : ∀ f ∈ fs, t.ValidFact f := fun f hf => h f (by simp [hf])
    unfold collectNeeded
    rcases kind_spec (h f (by simp)) with ⟨hk, hf⟩ | ⟨hk, hf⟩ | ⟨hk, hf⟩
    · rw [hk]
      obtain ⟨l', h1, h2, h3⟩ := collectNeeded_spec hn h'
      refine ⟨l', h1, h2, fun x => ?_⟩
      rw [h3]
      simp [hf]
    · rw [hk]
      obtain ⟨l', h1, h2, h3⟩ := collectNeeded_spec (nodup_insertNeeded (x := (f.var, true)) hn) h'
      refine ⟨l', h1, h2, fun x => ?_⟩
      rw [h3, mem_insertNeeded]
      simp only [List.mem_cons, exists_eq_or_imp]
      have e : (f.var, decide (f.val = t.defaultOf f.var)) = (f.var, true) := by simp [hf.2]
      rw [e]
      have := hf.1
      tauto
    · rw [hk]
      obtain ⟨l', h1, h2, h3⟩ := collectNeeded_spec (nodup_insertNeeded (x := (f.var, false)) hn) h'
      refine ⟨l', h1, h2, fun x => ?_⟩
      rw [h3, mem_insertNeeded]
      simp only [List.mem_cons, exists_eq_or_imp]
      have e : (f.var, decide (f.val = t.defaultOf f.var)) = (f.var, false) := by simp [hf.2]
      rw [e]
      have := hf.1
      tauto

theorem addPairs_spec : ∀ (xs q n : List (Nat × Bool)), n.Nodup →
    (addPairs xs q n).2.Nodup ∧ (addPairs xs q n).1.length + n.length = q.length + (addPairs xs q n).2.length ∧
    (∀ x, x ∈ (addPairs xs q n).2 ↔ x ∈ n ∨ x ∈ xs) ∧ (∀ x ∈ q, x ∈ (addPairs xs q n).1) ∧ (∀ x ∈ (addPairs xs q n).2, x ∈ n ∨ x ∈ (addPairs xs q n).1) ∧
    (∀ x ∈ (addPairs xs q n).1, x ∈ q ∨ x ∈ xs)
  | [], q, n, hn => by
    unfold addPairs
    exact ⟨hn, rfl, by simp, fun _ h => h, fun _ h => Or.inl h, fun _ h => Or.inl h⟩
  | x :: xs, q, n, hn => by
    unfold addPairs
    split
    · rename_i hx
      obtain ⟨h1, h2, h3, h4, h5, h6⟩ := addPairs_spec xs q n hn
      refine ⟨h1, h2, ?_, h4, h5, ?_⟩
      · intro y
        rw [h3]
        simp only [List.mem_cons]
        constructor
        · rintro (h | h)
          · exact Or.inl h
          · exact Or.inr (Or.inr h)
        · rintro (h | rfl | h)
          · exact Or.inl h
          · exact Or.inl hx
          · exact Or.inr h
      · intro y hy
        rcases h6 y hy with h | h
        · exact Or.inl h
        · exact Or.inr (by simp [h])
    · rename_i hx
      have hn' : (n ++ [x]).Nodup := by
        rw [List.nodup_append]
        refine ⟨hn, by simp, ?_⟩
        intro a ha b hb
        rw [List.mem_singleton] at hb
        subst hb
        rintro rfl
        exact hx ha
      obtain ⟨h1, h2, h3, h4, h5, h6⟩ := addPairs_spec xs (q ++ [x]) (n ++ [x]) hn'
      refine ⟨h1, ?_, ?_, ?_, ?_, ?_⟩
      · simp only [List.length_append, List.length_singleton] at h2
        omega
      · intro y
        rw [h3]
        simp only [List.mem_append, List.mem_singleton, List.mem_cons, List.not_mem_nil, or_false]
        tauto
      · intro y hy
        exact h4 y (by simp [hy])
      · intro y hy
        rcases h5 y hy with h | h
        · rcases List.mem_append.mp h with h | h
          · exact Or.inl h
          · rw [List.mem_singleton] at h
            subst h
            exact Or.inr (h4 y (by simp))
        · exact Or.inr h
      · intro y hy
        rcases h6 y hy with h | h
        · rcases List.mem_append.mp h with h | h
          · exact Or.inl h
          · rw [List.mem_singleton] at h
            exact Or.inr (by simp [h])
        · exact Or.inr (by simp [h])

/-- the values on which a value depends -/
def DepOf (t : Task) (x y : Nat × Bool) : Prop := (t.PosDep x.1 y.1 ∧ y.2 = x.2) ∨ (NegDep t x.1 y.1 ∧ y.2 = !x.2)

theorem process_spec {t : Task} {h : Handling} {sccs : List (List Nat)} {d : Deps} (hwf : t.WFAxioms) (hd : DepsOk t d) (hc : CompOk t h sccs) {I : Nat × Bool → Prop} :
    ∀ (fuel : Nat) (queue needed : List (Nat × Bool)), needed.Nodup → (∀ x ∈ needed, x.1 < t.vars.length ∧ I x) → (∀ x ∈ queue, x ∈ needed) →
    (∀ x y, I x → ¬(x.2 = true ∧ Approx t h x.1) → DepOf t x y → I y) →
    (∀ x ∈ needed, x ∈ queue ∨ (x.2 = true ∧ Approx t h x.1) ∨ ∀ y, DepOf t x y → y ∈ needed) →
    queue.length + 2 * t.vars.length ≤ fuel + needed.length →
    ∃ all, process h sccs d fuel queue needed = some all ∧ (∀ x ∈ needed, x ∈ all) ∧ (∀ x ∈ all, x.1 < t.vars.length ∧ I x) ∧
      ∀ x ∈ all, (x.2 = true ∧ Approx t h x.1) ∨ ∀ y, DepOf t x y → y ∈ all
  | fuel, [], needed, h1, h2, h3, h4, h5, h6 => by
    refine ⟨needed, by unfold process; rfl, fun _ hx => hx, h2, ?_⟩
    intro x hx
    rcases h5 x hx with h | h
    · simp at h
    · exact h
  | 0, x :: queue, needed, h1, h2, h3, h4, h5, h6 => by
    exfalso
    have hlen : needed.length ≤ 2 * t.vars.length := by
      have : needed.Subperm ((List.range t.vars.length).flatMap (fun v => [(v, true), (v, false)])) := by
        apply List.subperm_of_subset h1
        rintro ⟨v, b⟩ hx
        have := (h2 _ hx).1
        simp only [List.mem_flatMap, List.mem_range, List.mem_cons, Prod.mk.injEq, List.not_mem_nil, or_false]
        refine ⟨v, this, ?_⟩
        cases b <;> simp
      have hl := this.length_le
      have : ∀ n, ((List.range n).flatMap (fun v => [(v, true), (v, false)])).length = 2 * n := by
        intro n
        simp [List.length_flatMap]
        omega
      rw [this] at hl
      exact hl
    simp only [List.length_cons] at h6
    omega
  | fuel + 1, (v, b) :: queue, needed, h1, h2, h3, h4, h5, h6 => by
    have hx := h3 (v, b) (by simp)
    have hv := (h2 _ hx).1
    have hI := (h2 _ hx).2
    have h3' : ∀ x ∈ queue, x ∈ needed := fun x hx => h3 x (by simp [hx])
    have hskip : ∃ b', skips h sccs v b = some b' ∧ (b' = true ↔ (b = true ∧ Approx t h v)) := by
      unfold skips
      cases b with
      | true =>
        obtain ⟨b', k1, k2⟩ := hc.approx v hv
        exact ⟨b', by simpa using k1, by simpa using k2⟩
      | false => exact ⟨false, rfl, by simp⟩
    obtain ⟨b', k1, k2⟩ := hskip
    simp only [List.length_cons] at h6
    unfold process
    rw [k1]
    cases b' with
    | true =>
      have hap := k2.mp rfl
      refine process_spec hwf hd hc fuel queue needed h1 h2 h3' h4 ?_ (by omega)
      intro x hx
      rcases h5 x hx with h | h
      · rcases List.mem_cons.mp h with rfl | h
        · exact Or.inr (Or.inl hap)
        · exact Or.inl h
      · exact Or.inr h
    | false =>
      have hnap : ¬(b = true ∧ Approx t h v) := fun h => by simpa using k2.mpr h
      have e1 : d.nondefault[v]? = some (entries d.nondefault v) := by
        unfold entries
        rw [List.getElem?_eq_getElem (by rw [hd.len1]; exact hv)]
        rfl
      have e2 : d.default[v]? = some (entries d.default v) := by
        unfold entries
        rw [List.getElem?_eq_getElem (by rw [hd.len2]; exact hv)]
        rfl
      simp only [e1, e2]
      obtain ⟨a1, a2, a3, a4, a5, a6⟩ := addPairs_spec ((entries d.nondefault v).map (fun w => (w, b))) queue needed h1
      obtain ⟨b1, b2, b3, b4, b5, b6⟩ := addPairs_spec ((entries d.default v).map (fun w => (w, !b))) (addPairs ((entries d.nondefault v).map (fun w => (w, b))) queue needed).1 _ a1
      have hdep : ∀ y, DepOf t (v, b) y ↔ y ∈ (entries d.nondefault v).map (fun w => (w, b)) ∨ y ∈ (entries d.default v).map (fun w => (w, !b)) := by
        rintro ⟨w, b''⟩
        unfold DepOf
        simp only [List.mem_map, hd.pos, hd.neg, Prod.mk.injEq]
        constructor
        · rintro (⟨p, rfl⟩ | ⟨p, rfl⟩)
          · exact Or.inl ⟨w, p, rfl, rfl⟩
          · exact Or.inr ⟨w, p, rfl, rfl⟩
        · rintro (⟨w', p, rfl, rfl⟩ | ⟨w', p, rfl, rfl⟩)
          · exact Or.inl ⟨p, rfl⟩
          · exact Or.inr ⟨p, rfl⟩
      have hmem : ∀ y, y ∈ (addPairs ((entries d.default v).map (fun w => (w, !b))) (addPairs ((entries d.nondefault v).map (fun w => (w, b))) queue needed).1 (addPairs ((entries d.nondefault v).map (fun w => (w, b))) queue needed).2).2 ↔ y ∈ needed ∨ DepOf t (v, b) y := by
        intro y
        rw [b3, a3, hdep]
        tauto
      obtain ⟨all, r1, r2, r3, r4⟩ := process_spec hwf hd hc (I := I) fuel _ _ b1 (by
        intro y hy
        rcases (hmem y).mp hy with h | h
        · exact h2 y h
        · refine ⟨?_, h4 _ _ hI hnap h⟩
          rcases h with ⟨h, _⟩ | ⟨⟨r, p1, _, c, p2, _, p3⟩, _⟩
          · exact (posDep_derived hwf h).2.1
          · rw [← p3]; exact valid_var (hwf.validBody r p1 c p2)) (by
        intro y hy
        rw [hmem, hdep]
        rcases b6 y hy with h | h
        · rcases a6 y h with h | h
          · exact Or.inl (h3' y h)
          · exact Or.inr (Or.inl h)
        · exact Or.inr (Or.inr h)) h4 (by
        intro y hy
        rcases b5 y hy with h | h
        · rcases a5 y h with h' | h'
          · rcases h5 y h' with hq | hq | hq
            · rcases List.mem_cons.mp hq with rfl | hq
              · refine Or.inr (Or.inr ?_)
                intro z hz
                exact (hmem z).mpr (Or.inr hz)
              · exact Or.inl (b4 y (a4 y hq))
            · exact Or.inr (Or.inl hq)
            · refine Or.inr (Or.inr ?_)
              intro z hz
              exact (hmem z).mpr (Or.inl (hq z hz))
          · exact Or.inl (b4 y h')
        · exact Or.inl h) (by omega)
      exact ⟨all, r1, fun y hy => r2 y ((hmem y).mpr (Or.inl hy)), r3, r4⟩

theorem mem_conditions {t : Task} {f : Fact} : f ∈ conditions t ↔ f ∈ t.goal ∨ ∃ o ∈ t.ops, f ∈ o.pre ∨ ∃ e ∈ o.effects, f ∈ e.conds := by
  simp [conditions]

/-- the values that are found are those that are needed -/
theorem relevant_ok {t : Task} (hwf : t.WF) {h : Handling} {o : HashOrders} (ho : o.Legal) {sccs : List (List Nat)} {d : Deps} (hd : DepsOk t d) (hc : CompOk t h sccs) :
    ∃ vs, relevantVars t h o sccs d = some vs ∧ ∀ v, v ∈ vs ↔ t.Needed (Approx t h) v true := by
  have hvalid : ∀ f ∈ conditions t, t.ValidFact f := by
    intro f hf
    rcases mem_conditions.mp hf with h | ⟨o, h1, h2 | ⟨e, h2, h3⟩⟩
    · exact hwf.goalFacts f h
    · exact hwf.pre o h1 f h2
    · exact hwf.effCond o h1 e h2 f h3
  obtain ⟨l, h1, h2, h3⟩ := collectNeeded_spec (t := t) (l := []) (by simp) hvalid
  have hperm := ho.needed l
  have hI : ∀ x ∈ l, x.1 < t.vars.length ∧ t.Needed (Approx t h) x.1 x.2 := by
    intro x hx
    rcases (h3 x).mp hx with h | ⟨f, h4, h5, rfl⟩
    · simp at h
    · refine ⟨valid_var (hvalid f h4), ?_⟩
      rcases mem_conditions.mp h4 with h | ⟨o, k1, k2 | ⟨e, k2, k3⟩⟩
      · exact .goal f h h5
      · exact .pre o f k1 k2 h5
      · exact .cond o e f k1 k2 k3 h5
  obtain ⟨all, k1, k2, k3, k4⟩ := process_spec hwf.ax hd hc (I := fun x => t.Needed (Approx t h) x.1 x.2) (2 * t.vars.length) (o.needed l) l h2 hI (fun x hx => hperm.mem_iff.mp hx) (by
    rintro x y hx hn (⟨⟨r, p1, p2, c, p3, p4, p5⟩, p6⟩ | ⟨⟨r, p1, p2, c, p3, p4, p5⟩, p6⟩)
    · rw [← p5, p6]
      exact .same _ r c (p2 ▸ hx) (p2 ▸ hn) p1 p3 p4
    · rw [← p5, p6]
      exact .other _ r c (p2 ▸ hx) (p2 ▸ hn) p1 p3 p4) (fun x hx => Or.inl (hperm.mem_iff.mpr hx)) (by rw [hperm.length_eq]; omega)
  have hcomplete : ∀ v b, t.Needed (Approx t h) v b → (v, b) ∈ all := by
    intro v b hv
    induction hv with
    | goal f p1 p2 => exact k2 _ ((h3 _).mpr (Or.inr ⟨f, mem_conditions.mpr (Or.inl p1), p2, rfl⟩))
    | pre o f p0 p1 p2 => exact k2 _ ((h3 _).mpr (Or.inr ⟨f, mem_conditions.mpr (Or.inr ⟨o, p0, Or.inl p1⟩), p2, rfl⟩))
    | cond o e f p0 p1 p2 p3 => exact k2 _ ((h3 _).mpr (Or.inr ⟨f, mem_conditions.mpr (Or.inr ⟨o, p0, Or.inr ⟨e, p1, p2⟩⟩), p3, rfl⟩))
    | same b r c _ hn p1 p2 p3 ih =>
      rcases k4 _ ih with h | h
      · exact absurd h hn
      · exact h _ (Or.inl ⟨⟨r, p1, rfl, c, p2, p3, rfl⟩, rfl⟩)
    | other b r c _ hn p1 p2 p3 ih =>
      rcases k4 _ ih with h | h
      · exact absurd h hn
      · exact h _ (Or.inr ⟨⟨r, p1, rfl, c, p2, p3, rfl⟩, rfl⟩)
  unfold relevantVars
  simp only [h1, k1]
  refine ⟨_, rfl, fun v => ?_⟩
  rw [(ho.vars _).mem_iff]
  simp only [List.mem_map, List.mem_filter]
  constructor
  · rintro ⟨⟨v', b⟩, ⟨p1, p2⟩, rfl⟩
    have := (k3 _ p1).2
    simp only at p2
    subst p2
    exact this
  · intro hv
    exact ⟨(v, true), ⟨hcomplete v true hv, rfl⟩, rfl⟩

/-! ### The new axioms -/

theorem clauses_spec {t : Task} (hwf : t.WFAxioms) : ∀ {ids : List Nat}, (∀ j ∈ ids, ∃ a, t.axioms[j]? = some a) →
    ∃ cnf, clauses t ids = some cnf ∧ (∀ c ∈ cnf, c.Nodup ∧ ∃ j ∈ ids, ∃ a e, t.axioms[j]? = some a ∧ e ∈ a.effects ∧ ∀ x, x ∈ c ↔ ∃ f ∈ e.conds, x.var = f.var ∧ x.val ≠ f.val ∧ t.ValidFact x) ∧
      ∀ j ∈ ids, ∀ a e, t.axioms[j]? = some a → e ∈ a.effects → ∃ c ∈ cnf, ∀ x, x ∈ c ↔ ∃ f ∈ e.conds, x.var = f.var ∧ x.val ≠ f.val ∧ t.ValidFact x
  | [], _ => ⟨[], rfl, by simp, by simp⟩
  | j :: ids, h => by
    obtain ⟨a, ha⟩ := h j (by simp)
    have ham := List.mem_of_getElem? ha
    obtain ⟨e, he⟩ := hwf.single a ham
    have hr : (⟨e.conds, e.fact⟩ : Rule) ∈ t.rules := mem_rules.mpr ⟨a, ham, e, by simp [he], rfl⟩
    obtain ⟨c, hc⟩ := clause_defined (t := t) (l := []) (hwf.validBody _ hr)
    obtain ⟨h1, h2⟩ := clause_spec (by simp [Sorted]) hc
    obtain ⟨cnf, k1, k2, k3⟩ := clauses_spec hwf (ids := ids) (fun j hj => h j (by simp [hj]))
    unfold clauses
    rw [ha]
    simp only [he]
    have hc' : clause t e.conds [] = some c := hc
    rw [hc', k1]
    have h2' : ∀ x, x ∈ c ↔ ∃ f ∈ e.conds, x.var = f.var ∧ x.val ≠ f.val ∧ t.ValidFact x := fun x => by rw [h2]; simp
    refine ⟨c :: cnf, rfl, ?_, ?_⟩
    · intro c' hc'
      rcases List.mem_cons.mp hc' with rfl | hc'
      · exact ⟨h1.nodup, j, by simp, a, e, ha, by simp [he], h2'⟩
      · obtain ⟨p1, j', p2, p3⟩ := k2 c' hc'
        exact ⟨p1, j', by simp [p2], p3⟩
    · intro j' hj' a' e' p1 p2
      rcases List.mem_cons.mp hj' with rfl | hj'
      · rw [ha] at p1
        simp only [Option.some.injEq] at p1
        subst p1
        rw [he, List.mem_singleton] at p2
        subst p2
        exact ⟨c, by simp, h2'⟩
      · obtain ⟨c', p3, p4⟩ := k3 j' hj' a' e' p1 p2
        exact ⟨c', by simp [p3], p4⟩

/-- no axiom for the variable has a body that holds -/
def NoRule (t : Task) (v : Nat) (s : State) : Prop := ∀ r ∈ t.rules, r.head.var = v → ¬allHold r.body s

structure BodiesOk (t : Task) (v : Nat) (bs : List (List Fact)) : Prop where
  exact : ∀ s, t.ValidState s → ((∃ b ∈ bs, allHold b s) ↔ NoRule t v s)
  facts : ∀ b ∈ bs, ∀ f ∈ b, t.ValidFact f ∧ ∃ r ∈ t.rules, r.head.var = v ∧ ∃ c ∈ r.body, f.var = c.var ∧ f.val ≠ c.val

theorem bodiesFor_ok {t : Task} (hwf : t.WFAxioms) {d : Deps} (hd : DepsOk t d) {v : Nat} : ∃ bs, bodiesFor t (entries d.ids v) = some bs ∧ BodiesOk t v bs := by
  have hrule : ∀ r ∈ t.rules, r.head.var = v → ∃ j ∈ entries d.ids v, ∃ a e, t.axioms[j]? = some a ∧ e ∈ a.effects ∧ r = ⟨e.conds, e.fact⟩ := by
    intro r hr hv
    obtain ⟨a, h1, e, h2, rfl⟩ := mem_rules.mp hr
    obtain ⟨j, hj⟩ := List.mem_iff_getElem?.mp h1
    exact ⟨j, (hd.ids v j).mpr ⟨a, e, hj, h2, hv⟩, a, e, hj, h2, rfl⟩
  cases hids : entries d.ids v with
  | nil =>
    refine ⟨[[]], rfl, ?_, by simp⟩
    intro s hs
    constructor
    · rintro _ r hr hv
      obtain ⟨j, hj, _⟩ := hrule r hr hv
      rw [hids] at hj
      simp at hj
    · intro _
      exact ⟨[], by simp, by simp [allHold]⟩
  | cons i is =>
    rw [← hids]
    obtain ⟨cnf, k1, k2, k3⟩ := clauses_spec hwf (ids := entries d.ids v) (by
      intro j hj
      obtain ⟨a, e, h, _⟩ := (hd.ids v j).mp hj
      exact ⟨a, h⟩)
    have e : bodiesFor t (entries d.ids v) = some (collect cnf cnf [] []) := by
      unfold bodiesFor
      rw [hids] at k1 ⊢
      simp only [k1]
    refine ⟨_, e, ?_, ?_⟩
    · intro s hs
      rw [collect_exact (fun c hc => (k2 c hc).1)]
      constructor
      · intro h r hr hv hb
        obtain ⟨j, hj, a, e, h1, h2, rfl⟩ := hrule r hr hv
        obtain ⟨c, h3, h4⟩ := k3 j hj a e h1 h2
        obtain ⟨x, h5, h6⟩ := h c h3
        obtain ⟨f, h7, h8, h9, _⟩ := (h4 x).mp h5
        have := hb f h7
        unfold Fact.holds at this h6
        rw [h8, this] at h6
        simp only [Option.some.injEq] at h6
        exact h9 h6.symm
      · intro h c hc
        obtain ⟨_, j, hj, a, e, h1, h2, h3⟩ := k2 c hc
        obtain ⟨a', e', p1, p2, p3⟩ := (hd.ids v j).mp hj
        rw [h1] at p1
        simp only [Option.some.injEq] at p1
        subst p1
        have he : e = e' := by
          obtain ⟨e0, he0⟩ := hwf.single a (List.mem_of_getElem? h1)
          rw [he0, List.mem_singleton] at h2 p2
          rw [h2, p2]
        subst he
        have hr : (⟨e.conds, e.fact⟩ : Rule) ∈ t.rules := mem_rules.mpr ⟨a, List.mem_of_getElem? h1, e, h2, rfl⟩
        have hnot := h _ hr p3
        have : ∃ f ∈ e.conds, ¬f.holds s := by
          by_contra hne
          push Not at hne
          exact hnot hne
        obtain ⟨f, h4, h5⟩ := this
        obtain ⟨dv, q1, q2⟩ := hwf.validBody _ hr f h4
        have hlt : f.var < s.length := by rw [hs.1]; exact (List.getElem?_eq_some_iff.mp q1).1
        refine ⟨⟨f.var, s[f.var]⟩, (h3 _).mpr ⟨f, h4, rfl, ?_, dv, q1, hs.2 f.var _ dv (List.getElem?_eq_getElem hlt) q1⟩, List.getElem?_eq_getElem hlt⟩
        intro e'
        apply h5
        unfold Fact.holds
        rw [List.getElem?_eq_getElem hlt, ← e']
    · intro b hb f hf
      rcases collect_sound cnf cnf [] [] (fun c hc => Or.inl hc) (fun c hc => hc) (by simp) hb with h | ⟨_, h⟩
      · simp at h
      · obtain ⟨c, h1, h2⟩ := h f hf
        obtain ⟨_, j, hj, a, e, h3, h4, h5⟩ := k2 c h1
        obtain ⟨g, h6, h7, h8, h9⟩ := (h5 f).mp h2
        obtain ⟨a', e', p1, p2, p3⟩ := (hd.ids v j).mp hj
        rw [h3] at p1
        simp only [Option.some.injEq] at p1
        subst p1
        have he : e = e' := by
          obtain ⟨e0, he0⟩ := hwf.single a (List.mem_of_getElem? h3)
          rw [he0, List.mem_singleton] at h4 p2
          rw [h4, p2]
        subst he
        exact ⟨h9, ⟨e.conds, e.fact⟩, mem_rules.mpr ⟨a, List.mem_of_getElem? h3, e, h4, rfl⟩, p3, g, h6, h7, h8⟩

theorem bodies_ok {t : Task} (hwf : t.WFAxioms) {h : Handling} {sccs : List (List Nat)} {d : Deps} (hd : DepsOk t d) (hc : CompOk t h sccs) {v : Nat} (hv : v < t.vars.length) :
    ∃ bs, bodies t h sccs d v = some bs ∧ (Approx t h v → bs = [[]]) ∧ (¬Approx t h v → BodiesOk t v bs) := by
  obtain ⟨b, h1, h2⟩ := hc.approx v hv
  unfold bodies
  rw [h1]
  cases b with
  | true => exact ⟨[[]], rfl, fun _ => rfl, fun h => absurd (h2.mp rfl) h⟩
  | false =>
    have hn : ¬Approx t h v := fun h => by simpa using h2.mpr h
    obtain ⟨bs, k1, k2⟩ := bodiesFor_ok hwf hd (v := v)
    have e : d.ids[v]? = some (entries d.ids v) := by
      unfold entries
      rw [List.getElem?_eq_getElem (by rw [hd.len3]; exact hv)]
      rfl
    simp only [e, k1]
    exact ⟨bs, rfl, fun h => absurd h hn, fun _ => k2⟩

theorem newAxioms_spec {t : Task} (hwf : t.WFAxioms) {h : Handling} {sccs : List (List Nat)} {d : Deps} (hd : DepsOk t d) (hc : CompOk t h sccs) : ∀ {vs : List Nat}, (∀ v ∈ vs, v < t.vars.length) →
    ∃ as, newAxioms t h sccs d vs = some as ∧ ∀ a, a ∈ as ↔ ∃ v ∈ vs, ∃ bs, bodies t h sccs d v = some bs ∧ ∃ b ∈ bs, a = defaultAxiom v (t.defaultOf v) b
  | [], _ => ⟨[], rfl, by simp⟩
  | v :: vs, hv => by
    obtain ⟨as, h1, h2⟩ := newAxioms_spec hwf hd hc (vs := vs) (fun v h => hv v (by simp [h]))
    obtain ⟨bs, h3, _⟩ := bodies_ok hwf hd hc (hv v (by simp))
    have hx : t.vars[v]? = some (t.vars[v]'(hv v (by simp))) := List.getElem?_eq_getElem _
    unfold newAxioms
    rw [hx, h3, h1]
    refine ⟨_, rfl, fun a => ?_⟩
    rw [List.mem_append, h2, defaultOf_eq hx |>.symm]
    simp only [List.mem_map, List.mem_cons, exists_eq_or_imp, h3, Option.some.injEq, exists_eq_left']
    constructor
    · rintro (⟨b, k1, rfl⟩ | k)
      · exact Or.inl ⟨b, k1, rfl⟩
      · exact Or.inr k
    · rintro (⟨b, k1, rfl⟩ | k)
      · exact Or.inl ⟨b, k1, rfl⟩
      · exact Or.inr k

end Verif.DefaultAxioms
