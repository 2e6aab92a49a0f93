import Verif.Model.DeleteRelaxationRR
import Verif.Lemmas.DeleteRelaxationIF
import Mathlib.Logic.Relation
import Mathlib.Order.WellFounded
import Mathlib.Data.Fintype.Order
import Mathlib.Data.Set.Finite.List

/-
Vertex elimination: the graph that is computed, and assignments of its edges that are acyclic.
-/
namespace Verif.CountingRR
open Verif.LP Verif.CountingIF
open Verif.Counting hiding Gen

variable {t : Task}

theorem mem_addEdge {es : List (Fact × Fact)} {e x : Fact × Fact} : x ∈ addEdge es e ↔ x ∈ es ∨ x = e := by
  unfold addEdge
  split
  · constructor
    · exact .inl
    · rintro (h | rfl)
      · exact h
      · assumption
  · simp

theorem addEdge_nodup {es : List (Fact × Fact)} {e : Fact × Fact} (h : es.Nodup) : (addEdge es e).Nodup := by
  unfold addEdge
  split
  · exact h
  · rename_i hn
    refine List.nodup_append.mpr ⟨h, by simp, fun a ha b hb => ?_⟩
    rintro rfl
    exact hn (List.mem_singleton.mp hb ▸ ha)

theorem mem_foldl_addEdge {x : Fact × Fact} : ∀ {l es : List (Fact × Fact)}, x ∈ l.foldl addEdge es ↔ x ∈ es ∨ x ∈ l
  | [], es => by simp
  | e :: l, es => by
    rw [List.foldl_cons, mem_foldl_addEdge, mem_addEdge, List.mem_cons, or_assoc]

theorem foldl_addEdge_nodup : ∀ {l es : List (Fact × Fact)}, es.Nodup → (l.foldl addEdge es).Nodup
  | [], _, h => h
  | e :: l, es, h => foldl_addEdge_nodup (l := l) (es := addEdge es e) (addEdge_nodup h)

theorem mem_preds {g : VE} {a f : Fact} : a ∈ g.preds f ↔ (a, f) ∈ g.edges := by
  unfold VE.preds
  simp only [List.mem_map, List.mem_filter, decide_eq_true_eq]
  constructor
  · rintro ⟨⟨x, y⟩, ⟨h, rfl⟩, rfl⟩
    exact h
  · exact fun h => ⟨(a, f), ⟨h, rfl⟩, rfl⟩

theorem mem_succs {g : VE} {a f : Fact} : a ∈ g.succs f ↔ (f, a) ∈ g.edges := by
  unfold VE.succs
  simp only [List.mem_map, List.mem_filter, decide_eq_true_eq]
  constructor
  · rintro ⟨⟨x, y⟩, ⟨h, rfl⟩, rfl⟩
    exact h
  · exact fun h => ⟨(f, a), ⟨h, rfl⟩, rfl⟩

theorem mem_shortcuts {g : VE} {f i j k : Fact} : (i, j, k) ∈ g.shortcuts f ↔ j = f ∧ (i, f) ∈ g.edges ∧ i ∉ g.elim ∧ (f, k) ∈ g.edges ∧ k ∉ g.elim ∧ i ≠ k := by
  unfold VE.shortcuts
  simp only [List.mem_flatMap, List.mem_map, List.mem_filter, decide_eq_true_eq, Prod.mk.injEq, mem_preds, mem_succs]
  constructor
  · rintro ⟨p, ⟨h1, h2⟩, q, ⟨h3, h4, h5⟩, rfl, rfl, rfl⟩
    exact ⟨rfl, h1, h2, h3, h4, h5⟩
  · rintro ⟨rfl, h1, h2, h3, h4, h5⟩
    exact ⟨i, ⟨h1, h2⟩, k, ⟨h3, h4, h5⟩, rfl, rfl, rfl⟩

theorem mem_addShortcuts_edges {x : Fact × Fact} : ∀ {l : List (Fact × Fact × Fact)} {g : VE}, x ∈ (l.foldl VE.addShortcut g).edges ↔ x ∈ g.edges ∨ ∃ j, (x.1, j, x.2) ∈ l
  | [], g => by simp
  | c :: l, g => by
    rw [List.foldl_cons, mem_addShortcuts_edges]
    simp only [VE.addShortcut, mem_addEdge, List.mem_cons, or_assoc]
    constructor
    · rintro (h | h | ⟨j, h⟩)
      · exact .inl h
      · exact .inr ⟨c.2.1, .inl (by rw [h])⟩
      · exact .inr ⟨j, .inr h⟩
    · rintro (h | ⟨j, h | h⟩)
      · exact .inl h
      · exact .inr (.inl (by rw [← h]))
      · exact .inr (.inr ⟨j, h⟩)

theorem mem_addShortcuts_delta {x : Fact × Fact × Fact} : ∀ {l : List (Fact × Fact × Fact)} {g : VE}, x ∈ (l.foldl VE.addShortcut g).delta ↔ x ∈ g.delta ∨ x ∈ l
  | [], g => by simp
  | c :: l, g => by
    rw [List.foldl_cons, mem_addShortcuts_delta]
    simp only [VE.addShortcut, List.mem_cons]
    split
    · rename_i hc
      constructor
      · rintro (h | h)
        · exact .inl h
        · exact .inr (.inr h)
      · rintro (h | rfl | h)
        · exact .inl h
        · exact .inl hc
        · exact .inr h
    · simp [or_assoc]

theorem addShortcuts_nodup : ∀ {l : List (Fact × Fact × Fact)} {g : VE}, g.edges.Nodup → (l.foldl VE.addShortcut g).edges.Nodup
  | [], _, h => h
  | c :: l, g, h => addShortcuts_nodup (l := l) (g := g.addShortcut c) (addEdge_nodup h)

theorem addShortcuts_queue : ∀ {l : List (Fact × Fact × Fact)} {g : VE}, (l.foldl VE.addShortcut g).queue = g.queue ∧ (l.foldl VE.addShortcut g).degree = g.degree
  | [], _ => ⟨rfl, rfl⟩
  | c :: l, g => addShortcuts_queue (l := l) (g := g.addShortcut c)

/-- the graph, after some facts have been eliminated -/
structure GInv (t : Task) (es : List (Fact × Fact)) (ds : List (Fact × Fact × Fact)) (elim : List Fact) : Prop where
  valid : ∀ a b, (a, b) ∈ es → a ≠ b ∧ a ∈ facts t ∧ b ∈ facts t
  nodup : es.Nodup
  closed : ∀ i j k, (i, j, k) ∈ ds → (i, j) ∈ es ∧ (j, k) ∈ es ∧ (i, k) ∈ es
  complete : ∀ l1 j l2, elim = l1 ++ j :: l2 → ∀ i k, (i, j) ∈ es → (j, k) ∈ es → i ∉ l2 → k ∉ l2 → i ≠ k → (i, j, k) ∈ ds
  task : ∀ e ∈ taskEdges t, e ∈ es

/-- the queue contains a current entry for each fact that is not eliminated -/
structure QInv (t : Task) (elim : List Fact) (degree : Fact → Nat) (queue : List (Nat × Fact)) : Prop where
  queued : ∀ f ∈ facts t, f ∉ elim → (degree f, f) ∈ queue
  facts : ∀ e ∈ queue, e.2 ∈ facts t

theorem push_graph (g : VE) (f : Fact) : (g.push f).edges = g.edges ∧ (g.push f).delta = g.delta ∧ (g.push f).elim = g.elim := by
  unfold VE.push; split <;> exact ⟨rfl, rfl, rfl⟩

theorem foldl_push_graph (l : List Fact) : ∀ g : VE, (l.foldl VE.push g).edges = g.edges ∧ (l.foldl VE.push g).delta = g.delta ∧ (l.foldl VE.push g).elim = g.elim := by
  induction l with
  | nil => exact fun _ => ⟨rfl, rfl, rfl⟩
  | cons f l ih =>
    intro g
    obtain ⟨h1, h2, h3⟩ := push_graph g f
    obtain ⟨k1, k2, k3⟩ := ih (g.push f)
    exact ⟨k1.trans h1, k2.trans h2, k3.trans h3⟩

theorem mem_push_queue {g : VE} {f : Fact} {e : Nat × Fact} (h : e ∈ (g.push f).queue) : e ∈ g.queue ∨ e.2 = f := by
  unfold VE.push at h
  split at h
  · exact .inl h
  · simp only [List.mem_append, List.mem_singleton] at h
    rcases h with h | rfl
    · exact .inl h
    · exact .inr rfl

/-- facts that have a current entry keep one, and the fact that is pushed has one -/
theorem push_current {g : VE} {f h : Fact} (hn : h ∉ g.elim) (hc : (g.degree h, h) ∈ g.queue ∨ h = f) : ((g.push f).degree h, h) ∈ (g.push f).queue := by
  unfold VE.push
  split
  · rename_i hf
    rcases hc with hc | rfl
    · exact hc
    · exact absurd hf hn
  · simp only [List.mem_append, List.mem_singleton]
    by_cases he : h = f
    · subst he
      right
      simp
    · left
      rcases hc with hc | hc
      · simpa [he] using hc
      · exact absurd hc he

theorem foldl_push_current {h : Fact} : ∀ {l : List Fact} {g : VE}, h ∉ g.elim → ((g.degree h, h) ∈ g.queue ∨ h ∈ l) → ((l.foldl VE.push g).degree h, h) ∈ (l.foldl VE.push g).queue
  | [], g, _, hc => by simpa using hc
  | f :: l, g, hn, hc => by
    rw [List.foldl_cons]
    refine foldl_push_current (by rw [(push_graph g f).2.2]; exact hn) ?_
    rcases hc with hc | hc
    · exact .inl (push_current hn (.inl hc))
    · rcases List.mem_cons.mp hc with rfl | hc
      · exact .inl (push_current hn (.inr rfl))
      · exact .inr hc

theorem mem_foldl_push_queue {e : Nat × Fact} : ∀ {l : List Fact} {g : VE}, e ∈ (l.foldl VE.push g).queue → e ∈ g.queue ∨ e.2 ∈ l
  | [], _, h => .inl h
  | f :: l, g, h => by
    rcases mem_foldl_push_queue (l := l) (g := g.push f) h with h | h
    · rcases mem_push_queue h with h | h
      · exact .inl h
      · exact .inr (by simp [h])
    · exact .inr (by simp [h])

theorem mem_taskEdges {a b : Fact} : (a, b) ∈ taskEdges t ↔ a ≠ b ∧ ∃ o ∈ t.ops, a ∈ o.pre ∧ ∃ e ∈ o.effects, e.fact = b := by
  unfold taskEdges
  simp only [List.mem_flatMap, List.mem_map, List.mem_filter, decide_eq_true_eq, Prod.mk.injEq]
  constructor
  · rintro ⟨o, ho, p, hp, e, ⟨he, hne⟩, rfl, rfl⟩
    exact ⟨hne, o, ho, hp, e, he, rfl⟩
  · rintro ⟨hne, o, ho, hp, e, he, rfl⟩
    exact ⟨o, ho, a, hp, e, ⟨he, hne⟩, rfl, rfl⟩

theorem start_inv (hwf : t.WF) : GInv t (VE.start t).edges (VE.start t).delta (VE.start t).elim ∧ QInv t (VE.start t).elim (VE.start t).degree (VE.start t).queue := by
  obtain ⟨h1, h2, h3⟩ := foldl_push_graph (facts t) ⟨(taskEdges t).foldl addEdge [], [], [], fun _ => 0, []⟩
  constructor
  · unfold VE.start
    rw [h1, h2, h3]
    refine ⟨fun a b h => ?_, foldl_addEdge_nodup List.nodup_nil, by simp, by simp, fun e he => mem_foldl_addEdge.mpr (.inr he)⟩
    simp only [mem_foldl_addEdge, List.not_mem_nil, false_or] at h
    obtain ⟨hne, o, ho, hp, e, he, rfl⟩ := mem_taskEdges.mp h
    exact ⟨hne, mem_facts.mpr (hwf.pre o ho a hp), mem_facts.mpr (hwf.effFact o ho e he)⟩
  · refine ⟨fun f hf _ => foldl_push_current (by simp) (.inr hf), fun e he => ?_⟩
    rcases mem_foldl_push_queue he with h | h
    · cases h
    · exact h

theorem eliminate_inv {g : VE} {f : Fact} (hf : f ∉ g.elim) (hG : GInv t g.edges g.delta g.elim) (hq : ∀ h ∈ facts t, h ∉ g.elim → h ≠ f → (g.degree h, h) ∈ g.queue) (hqf : ∀ e ∈ g.queue, e.2 ∈ facts t) :
    GInv t (g.eliminate f).edges (g.eliminate f).delta (g.eliminate f).elim ∧ QInv t (g.eliminate f).elim (g.eliminate f).degree (g.eliminate f).queue := by
  let g1 := (g.shortcuts f).foldl VE.addShortcut { g with elim := f :: g.elim }
  have hg1 : g.eliminate f = (g1.succs f).foldl VE.push g1 := rfl
  obtain ⟨h1, h2, h3⟩ := foldl_push_graph (g1.succs f) g1
  have hel : g1.elim = f :: g.elim := foldl_shortcut_elim _ _
  have hedge : ∀ a b, (a, b) ∈ g1.edges ↔ (a, b) ∈ g.edges ∨ ((a, f) ∈ g.edges ∧ a ∉ g.elim ∧ (f, b) ∈ g.edges ∧ b ∉ g.elim ∧ a ≠ b) := by
    intro a b
    rw [mem_addShortcuts_edges]
    refine or_congr Iff.rfl ?_
    constructor
    · rintro ⟨j, hj⟩
      exact (mem_shortcuts.mp hj).2
    · exact fun h => ⟨f, mem_shortcuts.mpr ⟨rfl, h⟩⟩
  have hdelta : ∀ c, c ∈ g1.delta ↔ c ∈ g.delta ∨ c ∈ g.shortcuts f := fun c => mem_addShortcuts_delta
  obtain ⟨hqu, hde⟩ := addShortcuts_queue (l := g.shortcuts f) (g := { g with elim := f :: g.elim })
  have hqu : g1.queue = g.queue := hqu
  have hde : g1.degree = g.degree := hde
  rw [hg1]
  constructor
  · rw [h1, h2, h3, hel]
    refine ⟨fun a b h => ?_, addShortcuts_nodup (l := g.shortcuts f) (g := { g with elim := f :: g.elim }) hG.nodup, fun i j k h => ?_, fun l1 j l2 hl i k h4 h5 hi hk hne => ?_, fun e he => ?_⟩
    · rcases (hedge a b).mp h with h | ⟨h4, _, h5, _, h6⟩
      · exact hG.valid a b h
      · exact ⟨h6, (hG.valid _ _ h4).2.1, (hG.valid _ _ h5).2.2⟩
    · rcases (hdelta _).mp h with h | h
      · obtain ⟨k1, k2, k3⟩ := hG.closed i j k h
        exact ⟨(hedge _ _).mpr (.inl k1), (hedge _ _).mpr (.inl k2), (hedge _ _).mpr (.inl k3)⟩
      · obtain ⟨rfl, k⟩ := mem_shortcuts.mp h
        exact ⟨(hedge _ _).mpr (.inl k.1), (hedge _ _).mpr (.inl k.2.2.1), (hedge _ _).mpr (.inr k)⟩
    · rw [hdelta]
      cases l1 with
      | nil =>
        simp only [List.nil_append, List.cons.injEq] at hl
        obtain ⟨rfl, rfl⟩ := hl
        right
        have k4 : (i, f) ∈ g.edges := by
          rcases (hedge _ _).mp h4 with h | h
          · exact h
          · exact h.1
        have k5 : (f, k) ∈ g.edges := by
          rcases (hedge _ _).mp h5 with h | h
          · exact h
          · exact h.2.2.1
        exact mem_shortcuts.mpr ⟨rfl, k4, hi, k5, hk, hne⟩
      | cons x l1 =>
        simp only [List.cons_append, List.cons.injEq] at hl
        obtain ⟨rfl, hl⟩ := hl
        have hj : j ∈ g.elim := by rw [hl]; simp
        left
        refine hG.complete l1 j l2 hl i k ?_ ?_ hi hk hne
        · rcases (hedge _ _).mp h4 with h | h
          · exact h
          · exact absurd hj h.2.2.2.1
        · rcases (hedge _ _).mp h5 with h | h
          · exact h
          · exact absurd hj h.2.1
    · exact (hedge e.1 e.2).mpr (.inl (hG.task e he))
  · rw [h3, hel]
    refine ⟨fun h hh hn => foldl_push_current (by rw [hel]; exact hn) (.inl ?_), fun e he => ?_⟩
    · rw [hqu, hde]
      simp only [List.mem_cons, not_or] at hn
      exact hq h hh hn.2 hn.1
    · rcases mem_foldl_push_queue he with h | h
      · exact hqf e (hqu ▸ h)
      · rcases (hedge _ _).mp (mem_succs.mp h) with h | h
        · exact (hG.valid _ _ h).2.2
        · exact (hG.valid _ _ h.2.2.1).2.2

/-- the elimination ends, and all facts have been eliminated -/
theorem eliminateAll_spec (pick : List (Nat × Fact) → Nat) (g : VE) (hG : GInv t g.edges g.delta g.elim) (hQ : QInv t g.elim g.degree g.queue) :
    ∃ g', eliminateAll t pick g = some g' ∧ GInv t g'.edges g'.delta g'.elim ∧ ∀ f ∈ facts t, f ∈ g'.elim := by
  induction g using eliminateAll.induct (t := t) (pick := pick) with
  | case1 g hq =>
    refine ⟨g, by rw [eliminateAll.eq_def]; split <;> simp_all, hG, fun f hf => ?_⟩
    by_contra hn
    have := hQ.queued f hf hn
    rw [hq] at this
    cases this
  | case2 g e0 q0 hq i e g1 hc hf ih =>
    have hlt : i < g.queue.length := by rw [hq]; simp only [i, hq, List.length_cons]; omega
    have he : e = g.queue[i] := by simp [e, List.getElem?_eq_getElem hlt]
    have hmem : ∀ h ∈ facts t, h ∉ g.elim → h ≠ e.2 → (g.degree h, h) ∈ g.queue.eraseIdx i := by
      intro h hh hn hne
      have h1 := hQ.queued h hh hn
      obtain ⟨j, hj, hj'⟩ := List.getElem_of_mem h1
      refine List.mem_eraseIdx_iff_getElem.mpr ⟨j, hj, ?_, hj'⟩
      rintro rfl
      exact hne (by rw [he, hj'])
    obtain ⟨k1, k2⟩ := eliminate_inv (t := t) (g := g1) (f := e.2) hc.2 hG hmem (fun x hx => hQ.facts x (List.mem_of_mem_eraseIdx hx))
    obtain ⟨g', h1, h2⟩ := ih k1 k2
    refine ⟨g', ?_, h2⟩
    rw [eliminateAll.eq_def]
    split
    · simp_all
    · rename_i e0' q0' hq'
      rw [hq] at hq'
      simp only [List.cons.injEq] at hq'
      obtain ⟨rfl, rfl⟩ := hq'
      simp only
      rw [if_pos hc, if_pos hf]
      exact h1
  | case3 g e0 q0 hq i e hc hf =>
    have hlt : i < g.queue.length := by rw [hq]; simp only [i, hq, List.length_cons]; omega
    have he : e = g.queue[i] := by simp [e, List.getElem?_eq_getElem hlt]
    exact absurd (hQ.facts e (he ▸ List.getElem_mem hlt)) hf
  | case4 g e0 q0 hq i e g1 hc ih =>
    have hlt : i < g.queue.length := by rw [hq]; simp only [i, hq, List.length_cons]; omega
    have he : e = g.queue[i] := by simp [e, List.getElem?_eq_getElem hlt]
    have hmem : ∀ h ∈ facts t, h ∉ g.elim → (g.degree h, h) ∈ g.queue.eraseIdx i := by
      intro h hh hn
      have h1 := hQ.queued h hh hn
      obtain ⟨j, hj, hj'⟩ := List.getElem_of_mem h1
      refine List.mem_eraseIdx_iff_getElem.mpr ⟨j, hj, ?_, hj'⟩
      rintro rfl
      rw [hj'] at he
      apply hc
      rw [he]
      exact ⟨rfl, hn⟩
    obtain ⟨g', h1, h2⟩ := ih hG ⟨hmem, fun x hx => hQ.facts x (List.mem_of_mem_eraseIdx hx)⟩
    refine ⟨g', ?_, h2⟩
    rw [eliminateAll.eq_def]
    split
    · simp_all
    · rename_i e0' q0' hq'
      rw [hq] at hq'
      simp only [List.cons.injEq] at hq'
      obtain ⟨rfl, rfl⟩ := hq'
      simp only
      rw [if_neg hc]
      exact h1

theorem veGraph_spec (hwf : t.WF) (pick : List (Nat × Fact) → Nat) : ∃ g, veGraph t pick = some g ∧ GInv t g.edges g.delta g.elim ∧ ∀ f ∈ facts t, f ∈ g.elim :=
  eliminateAll_spec pick _ (start_inv hwf).1 (start_inv hwf).2

/-! ### Acyclic assignments -/

open Relation

/-- edges that are selected such that there is no cycle of two edges, and together with two edges of a triangle its shortcut, have no cycles -/
theorem acyclic_of {es : List (Fact × Fact)} {ds : List (Fact × Fact × Fact)} {elim : List Fact} (hG : GInv t es ds elim) (hall : ∀ f ∈ facts t, f ∈ elim) {T : Fact → Fact → Prop} (hT : ∀ a b, T a b → (a, b) ∈ es) (hanti : ∀ a b, T a b → ¬T b a)
    (hshort : ∀ i j k, (i, j, k) ∈ ds → T i j → T j k → T i k) : ∀ a, ¬TransGen T a a := by
  have key : ∀ l1 l2, elim = l1 ++ l2 → ∀ a, ¬TransGen (fun a b => T a b ∧ a ∉ l2 ∧ b ∉ l2) a a := by
    intro l1
    induction l1 using List.reverseRecOn with
    | nil =>
      intro l2 hl a h
      simp only [List.nil_append] at hl
      subst hl
      obtain ⟨b, hb, _⟩ := (TransGen.head'_iff).mp h
      exact hb.2.1 (hall a (hG.valid _ _ (hT _ _ hb.1)).2.1)
    | append_singleton l1 j ih =>
      intro l2 hl a h
      have hl' : elim = l1 ++ j :: l2 := by rw [hl]; simp
      have ih := ih (j :: l2) hl'
      have path : ∀ a c, a ≠ j → TransGen (fun a b => T a b ∧ a ∉ l2 ∧ b ∉ l2) a c →
          (c ≠ j → TransGen (fun a b => T a b ∧ a ∉ j :: l2 ∧ b ∉ j :: l2) a c) ∧ (c = j → ∃ b, ReflTransGen (fun a b => T a b ∧ a ∉ j :: l2 ∧ b ∉ j :: l2) a b ∧ b ≠ j ∧ b ∉ l2 ∧ T b j) := by
        intro a c ha hp
        induction hp with
        | single hb => exact ⟨fun hne => .single ⟨hb.1, by simp [ha, hb.2.1], by simp [hne, hb.2.2]⟩, fun he => ⟨a, .refl, ha, hb.2.1, he ▸ hb.1⟩⟩
        | tail hab hbc ihp =>
          rename_i b c
          by_cases hbj : b = j
          · obtain ⟨d, hd, hdj, hdl, hTd⟩ := ihp.2 hbj
            subst hbj
            have hcj : c ≠ b := fun h => (hG.valid _ _ (hT _ _ hbc.1)).1 h.symm
            refine ⟨fun _ => ?_, fun h => absurd h hcj⟩
            have hdc : d ≠ c := by
              rintro rfl
              exact hanti _ _ hTd hbc.1
            have := hshort d b c (hG.complete l1 b l2 hl' d c (hT _ _ hTd) (hT _ _ hbc.1) hdl hbc.2.2 hdc) hTd hbc.1
            exact TransGen.tail' hd ⟨this, by simp [hdj, hdl], by simp [hcj, hbc.2.2]⟩
          · have h1 := ihp.1 hbj
            exact ⟨fun hcj => h1.tail ⟨hbc.1, by simp [hbj, hbc.2.1], by simp [hcj, hbc.2.2]⟩, fun hcj => ⟨b, h1.to_reflTransGen, hbj, hbc.2.1, hcj ▸ hbc.1⟩⟩
      by_cases haj : a = j
      · subst haj
        obtain ⟨d, hd, hda⟩ := (TransGen.head'_iff).mp h
        have hdj : d ≠ a := fun h => (hG.valid _ _ (hT _ _ hd.1)).1 h.symm
        exact ih d ((path d d hdj (TransGen.tail' hda hd)).1 hdj)
      · exact ih a ((path a a haj h).1 haj)
  intro a h
  refine key elim [] (by simp) a ?_
  exact TransGen.mono (fun a b hab => ⟨hab, by simp, by simp⟩) a a h

theorem wellFounded_of {es : List (Fact × Fact)} {ds : List (Fact × Fact × Fact)} {elim : List Fact} (hG : GInv t es ds elim) {T : Fact → Fact → Prop} (hT : ∀ a b, T a b → (a, b) ∈ es) (hac : ∀ a, ¬TransGen T a a) : WellFounded T := by
  have hfin : Finite { f // f ∈ facts t } := (List.finite_toSet (facts t)).to_subtype
  let T' : { f // f ∈ facts t } → { f // f ∈ facts t } → Prop := fun a b => TransGen T a.1 b.1
  have : IsTrans _ T' := ⟨fun _ _ _ h1 h2 => TransGen.trans h1 h2⟩
  have : Std.Irrefl T' := ⟨fun a h => hac a.1 h⟩
  have hwf : WellFounded T' := Finite.wellFounded_of_trans_of_irrefl T'
  refine ⟨fun a => ⟨_, fun b hb => ?_⟩⟩
  have hbf := (hG.valid _ _ (hT _ _ hb)).2.1
  have : ∀ x : { f // f ∈ facts t }, Acc T x.1 := by
    intro x
    induction x using hwf.induction with
    | _ x ih =>
      refine ⟨_, fun y hy => ?_⟩
      exact ih ⟨y, (hG.valid _ _ (hT _ _ hy)).2.1⟩ (.single hy)
  exact this ⟨b, hbf⟩

end Verif.CountingRR
