import Verif.Model.VariableOrderFinder
import Verif.Spec.SearchCausalGraph

namespace Verif.OrderFinder

/-- the pairs a builder contains: `A` holds of the arcs handled so far, `E` of the edges -/
structure Holds (b : Builder) (A E : Nat → Nat → Prop) : Prop where
  preEff : ∀ u v, (u, v) ∈ b.preEff ↔ A u v
  effPre : ∀ u v, (u, v) ∈ b.effPre ↔ A v u
  effEff : ∀ u v, (u, v) ∈ b.effEff ↔ E u v ∨ E v u
  succ : ∀ u v, (u, v) ∈ b.succ ↔ A u v ∨ E u v ∨ E v u
  pred : ∀ u v, (u, v) ∈ b.pred ↔ A v u ∨ E u v ∨ E v u

theorem holds_arc {b : Builder} {A E : Nat → Nat → Prop} (h : Holds b A E) (a : Nat × Nat) :
    Holds (handlePreEffArc b a) (fun u v => A u v ∨ (u, v) = a) E := by
  obtain ⟨x, y⟩ := a
  obtain ⟨h1, h2, h3, h4, h5⟩ := h
  constructor <;> intro u v <;> simp only [handlePreEffArc, List.mem_append, h1, h2, h3, h4, h5, List.mem_singleton, Prod.mk.injEq] <;> grind

theorem holds_edge {b : Builder} {A E : Nat → Nat → Prop} (h : Holds b A E) (a : Nat × Nat) :
    Holds (handleEffEffEdge b a) A (fun u v => E u v ∨ (u, v) = a) := by
  obtain ⟨x, y⟩ := a
  obtain ⟨h1, h2, h3, h4, h5⟩ := h
  constructor <;> intro u v <;> simp only [handleEffEffEdge, List.mem_append, h1, h2, h3, h4, h5, List.mem_cons, List.not_mem_nil, Prod.mk.injEq] <;> grind

theorem Holds.congr {b : Builder} {A E A' E' : Nat → Nat → Prop} (h : Holds b A E) (hA : ∀ u v, A u v ↔ A' u v) (hE : ∀ u v, E u v ↔ E' u v) :
    Holds b A' E' := by
  have eA : A = A' := by funext u v; exact propext (hA u v)
  have eE : E = E' := by funext u v; exact propext (hE u v)
  rw [← eA, ← eE]; exact h

theorem holds_arcs (l : List (Nat × Nat)) : ∀ {b : Builder} {A E : Nat → Nat → Prop}, Holds b A E →
    Holds (l.foldl handlePreEffArc b) (fun u v => A u v ∨ (u, v) ∈ l) E := by
  induction l with
  | nil => intro b A E h; exact h.congr (fun u v => by simp) (fun _ _ => Iff.rfl)
  | cons a l ih =>
    intro b A E h
    exact (ih (holds_arc h a)).congr (fun u v => by simp only [List.mem_cons]; grind) (fun _ _ => Iff.rfl)

theorem holds_edges (l : List (Nat × Nat)) : ∀ {b : Builder} {A E : Nat → Nat → Prop}, Holds b A E →
    Holds (l.foldl handleEffEffEdge b) A (fun u v => E u v ∨ (u, v) ∈ l) := by
  induction l with
  | nil => intro b A E h; exact h.congr (fun _ _ => Iff.rfl) (fun u v => by simp)
  | cons a l ih =>
    intro b A E h
    exact (ih (holds_edge h a)).congr (fun _ _ => Iff.rfl) (fun u v => by simp only [List.mem_cons]; grind)

theorem holds_operator {b : Builder} {A E : Nat → Nat → Prop} (h : Holds b A E) (o : Operator) :
    Holds (handleOperator b o) (fun u v => A u v ∨ (u, v) ∈ preArcs o ∨ (u, v) ∈ condArcs o) (fun u v => E u v ∨ (u, v) ∈ effEdges o.effects) :=
  (holds_edges _ (holds_arcs _ (holds_arcs _ h))).congr (fun u v => by grind) (fun _ _ => Iff.rfl)

theorem holds_operators (l : List Operator) : ∀ {b : Builder} {A E : Nat → Nat → Prop}, Holds b A E →
    Holds (l.foldl handleOperator b) (fun u v => A u v ∨ ∃ o ∈ l, (u, v) ∈ preArcs o ∨ (u, v) ∈ condArcs o)
      (fun u v => E u v ∨ ∃ o ∈ l, (u, v) ∈ effEdges o.effects) := by
  induction l with
  | nil => intro b A E h; exact h.congr (fun u v => by simp) (fun u v => by simp)
  | cons a l ih =>
    intro b A E h
    exact (ih (holds_operator h a)).congr (fun u v => by simp only [List.mem_cons, exists_eq_or_imp]; grind)
      (fun u v => by simp only [List.mem_cons, exists_eq_or_imp]; grind)

theorem mem_preArcs {o : Operator} {u v : Nat} : (u, v) ∈ preArcs o ↔ u ≠ v ∧ (∃ p ∈ o.pre, p.var = u) ∧ ∃ e ∈ o.effects, e.fact.var = v := by
  unfold preArcs
  simp only [List.mem_flatMap, List.mem_map, List.mem_filter, decide_eq_true_eq, Prod.mk.injEq]
  constructor
  · rintro ⟨p, hp, e, ⟨he, hne⟩, e1, e2⟩
    exact ⟨by rw [← e1, ← e2]; exact hne, ⟨p, hp, e1⟩, e, he, e2⟩
  · rintro ⟨hne, ⟨p, hp, e1⟩, e, he, e2⟩
    exact ⟨p, hp, e, ⟨he, by rw [e1, e2]; exact hne⟩, e1, e2⟩

theorem mem_condArcs {o : Operator} {u v : Nat} : (u, v) ∈ condArcs o ↔ u ≠ v ∧ ∃ e ∈ o.effects, e.fact.var = v ∧ ∃ c ∈ e.conds, c.var = u := by
  unfold condArcs
  simp only [List.mem_flatMap, List.mem_map, List.mem_filter, decide_eq_true_eq, Prod.mk.injEq]
  constructor
  · rintro ⟨e, he, c, ⟨hc, hne⟩, e1, e2⟩
    exact ⟨by rw [← e1, ← e2]; exact hne, e, he, e2, c, hc, e1⟩
  · rintro ⟨hne, e, he, e2, c, hc, e1⟩
    exact ⟨e, he, c, ⟨hc, by rw [e1, e2]; exact hne⟩, e1, e2⟩

theorem mem_effEdges (es : List Effect) (u v : Nat) :
    ((u, v) ∈ effEdges es ∨ (v, u) ∈ effEdges es) ↔ u ≠ v ∧ (∃ e ∈ es, e.fact.var = u) ∧ ∃ e ∈ es, e.fact.var = v := by
  induction es with
  | nil => simp [effEdges]
  | cons e es ih =>
    have key : ∀ x y : Nat, (x, y) ∈ (es.filter (fun e' => e.fact.var ≠ e'.fact.var)).map (fun e' => (e.fact.var, e'.fact.var)) ↔
        x ≠ y ∧ e.fact.var = x ∧ ∃ e' ∈ es, e'.fact.var = y := by
      intro x y
      simp only [List.mem_map, List.mem_filter, decide_eq_true_eq, Prod.mk.injEq]
      constructor
      · rintro ⟨e', ⟨he, hne⟩, e1, e2⟩
        exact ⟨by rw [← e1, ← e2]; exact hne, e1, e', he, e2⟩
      · rintro ⟨hne, e1, e', he, e2⟩
        exact ⟨e', ⟨he, by rw [e1, e2]; exact hne⟩, e1, e2⟩
    simp only [effEdges, List.mem_append, key, List.mem_cons, exists_eq_or_imp]
    grind

theorem holds_task (t : Task) : ∃ b, t.axioms.foldl handleOperator (t.ops.foldl handleOperator ⟨[], [], [], [], []⟩) = b ∧
    (∀ u v, (u, v) ∈ b.preEff ↔ t.PreEff u v) ∧ (∀ u v, (u, v) ∈ b.effPre ↔ t.PreEff v u) ∧ (∀ u v, (u, v) ∈ b.effEff ↔ t.EffEff u v)
    ∧ (∀ u v, (u, v) ∈ b.succ ↔ t.PreEff u v ∨ t.EffEff u v) ∧ ∀ u v, (u, v) ∈ b.pred ↔ t.PreEff v u ∨ t.EffEff v u := by
  have h0 : Holds ⟨[], [], [], [], []⟩ (fun _ _ => False) (fun _ _ => False) := by constructor <;> intro u v <;> simp
  have h := holds_operators t.axioms (holds_operators t.ops h0)
  refine ⟨_, rfl, ?_⟩
  generalize t.axioms.foldl handleOperator (t.ops.foldl handleOperator ⟨[], [], [], [], []⟩) = b at h
  have hA : ∀ u v, ((False ∨ ∃ o ∈ t.ops, (u, v) ∈ preArcs o ∨ (u, v) ∈ condArcs o) ∨ ∃ o ∈ t.axioms, (u, v) ∈ preArcs o ∨ (u, v) ∈ condArcs o)
      ↔ t.PreEff u v := by
    intro u v
    simp only [mem_preArcs, mem_condArcs, false_or]
    unfold Task.PreEff
    constructor
    · rintro (⟨o, ho, ⟨hne, hp, e, he, e1⟩ | ⟨hne, e, he, e1, hc⟩⟩ | ⟨o, ho, ⟨hne, hp, e, he, e1⟩ | ⟨hne, e, he, e1, hc⟩⟩)
      · exact ⟨hne, o, List.mem_append_left _ ho, e, he, e1, .inl hp⟩
      · exact ⟨hne, o, List.mem_append_left _ ho, e, he, e1, .inr hc⟩
      · exact ⟨hne, o, List.mem_append_right _ ho, e, he, e1, .inl hp⟩
      · exact ⟨hne, o, List.mem_append_right _ ho, e, he, e1, .inr hc⟩
    · rintro ⟨hne, o, ho, e, he, e1, hp | hc⟩ <;> rcases List.mem_append.mp ho with ho | ho
      · exact .inl ⟨o, ho, .inl ⟨hne, hp, e, he, e1⟩⟩
      · exact .inr ⟨o, ho, .inl ⟨hne, hp, e, he, e1⟩⟩
      · exact .inl ⟨o, ho, .inr ⟨hne, e, he, e1, hc⟩⟩
      · exact .inr ⟨o, ho, .inr ⟨hne, e, he, e1, hc⟩⟩
  have hE : ∀ u v, (((False ∨ ∃ o ∈ t.ops, (u, v) ∈ effEdges o.effects) ∨ ∃ o ∈ t.axioms, (u, v) ∈ effEdges o.effects)
      ∨ ((False ∨ ∃ o ∈ t.ops, (v, u) ∈ effEdges o.effects) ∨ ∃ o ∈ t.axioms, (v, u) ∈ effEdges o.effects)) ↔ t.EffEff u v := by
    intro u v
    unfold Task.EffEff
    constructor
    · rintro (((h | ⟨o, ho, hm⟩) | ⟨o, ho, hm⟩) | ((h | ⟨o, ho, hm⟩) | ⟨o, ho, hm⟩))
      · exact h.elim
      · obtain ⟨hne, h1, h2⟩ := (mem_effEdges o.effects u v).mp (.inl hm)
        exact ⟨hne, o, List.mem_append_left _ ho, h1, h2⟩
      · obtain ⟨hne, h1, h2⟩ := (mem_effEdges o.effects u v).mp (.inl hm)
        exact ⟨hne, o, List.mem_append_right _ ho, h1, h2⟩
      · exact h.elim
      · obtain ⟨hne, h1, h2⟩ := (mem_effEdges o.effects u v).mp (.inr hm)
        exact ⟨hne, o, List.mem_append_left _ ho, h1, h2⟩
      · obtain ⟨hne, h1, h2⟩ := (mem_effEdges o.effects u v).mp (.inr hm)
        exact ⟨hne, o, List.mem_append_right _ ho, h1, h2⟩
    · rintro ⟨hne, o, ho, h1, h2⟩
      rcases (mem_effEdges o.effects u v).mpr ⟨hne, h1, h2⟩ with hm | hm <;> rcases List.mem_append.mp ho with ho | ho
      · exact .inl (.inl (.inr ⟨o, ho, hm⟩))
      · exact .inl (.inr ⟨o, ho, hm⟩)
      · exact .inr (.inl (.inr ⟨o, ho, hm⟩))
      · exact .inr (.inr ⟨o, ho, hm⟩)
  refine ⟨fun u v => (h.preEff u v).trans (hA u v), fun u v => (h.effPre u v).trans (hA v u), fun u v => (h.effEff u v).trans (hE u v),
    fun u v => (h.succ u v).trans (or_congr (hA u v) (hE u v)), fun u v => (h.pred u v).trans (or_congr (hA v u) ?_)⟩
  exact (or_comm).trans (hE v u)

theorem PreEff_range {t : Task} (hr : t.InRange) {u v : Nat} (h : t.PreEff u v) : u < t.vars.length ∧ v < t.vars.length := by
  obtain ⟨_, o, ho, e, he, e1, h2⟩ := h
  refine ⟨?_, e1 ▸ hr.eff o ho e he⟩
  rcases h2 with ⟨p, hp, e2⟩ | ⟨c, hc, e2⟩
  · exact e2 ▸ hr.pre o ho p hp
  · exact e2 ▸ hr.cond o ho e he c hc

theorem EffEff_range {t : Task} (hr : t.InRange) {u v : Nat} (h : t.EffEff u v) : u < t.vars.length ∧ v < t.vars.length := by
  obtain ⟨_, o, ho, ⟨e, he, e1⟩, ⟨e', he', e2⟩⟩ := h
  exact ⟨e1 ▸ hr.eff o ho e he, e2 ▸ hr.eff o ho e' he'⟩

theorem computeRelation_spec {n : Nat} {pairs : List (Nat × Nat)} {R : Nat → Nat → Prop} (h : ∀ u v, (u, v) ∈ pairs ↔ R u v)
    (hR : ∀ u v, R u v → u < n ∧ v < n) : ∃ table, computeRelation n pairs = some table ∧ Lists n table R := by
  have hall : pairs.all (fun a => decide (a.1 < n) && decide (a.2 < n)) = true := by
    rw [List.all_eq_true]
    rintro ⟨u, v⟩ hm
    obtain ⟨h1, h2⟩ := hR u v ((h u v).mp hm)
    simp [h1, h2]
  refine ⟨_, by unfold computeRelation; rw [if_pos hall], by simp, ?_, hR⟩
  intro u row hrow
  rw [List.getElem?_map, Option.map_eq_some_iff] at hrow
  obtain ⟨i, hi, rfl⟩ := hrow
  have e : i = u := by
    rw [List.getElem?_range] at hi
    · exact (Option.some.inj hi).symm
    · rcases Nat.lt_or_ge u n with hu | hu
      · exact hu
      · rw [List.getElem?_eq_none (by simpa using hu)] at hi
        exact absurd hi (by simp)
  subst e
  have hperm := List.perm_insertionSort (· ≤ ·) ((pairs.filter (fun a => a.1 == i)).map (·.2)).dedup
  refine ⟨?_, fun v => ?_⟩
  · have hs := List.pairwise_insertionSort (· ≤ ·) ((pairs.filter (fun a => a.1 == i)).map (·.2)).dedup
    have hn := hperm.nodup_iff.mpr (List.nodup_dedup _)
    exact (hs.and hn).imp (fun hab => lt_of_le_of_ne hab.1 hab.2)
  · rw [hperm.mem_iff, List.mem_dedup, List.mem_map]
    constructor
    · rintro ⟨⟨x, y⟩, hm, rfl⟩
      rw [List.mem_filter] at hm
      have e : x = i := by simpa using hm.2
      exact (h i y).mp (e ▸ hm.1)
    · intro hv
      exact ⟨(i, v), List.mem_filter.mpr ⟨(h i v).mpr hv, by simp⟩, rfl⟩

theorem causalGraph_spec {t : Task} (hr : t.InRange) : ∃ G, causalGraph t = some G ∧ Lists t.vars.length G.preToEff t.PreEff
    ∧ Lists t.vars.length G.effToPre (fun u v => t.PreEff v u) ∧ Lists t.vars.length G.effToEff t.EffEff
    ∧ Lists t.vars.length G.successors (fun u v => t.PreEff u v ∨ t.EffEff u v)
    ∧ Lists t.vars.length G.predecessors (fun u v => t.PreEff v u ∨ t.EffEff v u) := by
  obtain ⟨b, hb, h1, h2, h3, h4, h5⟩ := holds_task t
  obtain ⟨t1, e1, l1⟩ := computeRelation_spec h1 (fun u v => PreEff_range hr)
  obtain ⟨t2, e2, l2⟩ := computeRelation_spec h2 (fun u v h => (PreEff_range hr h).symm)
  obtain ⟨t3, e3, l3⟩ := computeRelation_spec h3 (fun u v => EffEff_range hr)
  obtain ⟨t4, e4, l4⟩ := computeRelation_spec h4 (fun u v h => h.elim (PreEff_range hr) (EffEff_range hr))
  obtain ⟨t5, e5, l5⟩ := computeRelation_spec h5 (fun u v h => (h.elim (PreEff_range hr) (EffEff_range hr)).symm)
  refine ⟨⟨t1, t2, t3, t4, t5⟩, ?_, l1, l2, l3, l4, l5⟩
  unfold causalGraph finish
  rw [hb, e1, e2, e3, e4, e5]

end Verif.OrderFinder
