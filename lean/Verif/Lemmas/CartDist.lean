import Verif.Model.CostSaturation
import Verif.Lemmas.MasDistances
import Verif.Lemmas.CartInv

/-
Distances in Cartesian abstractions.
-/
namespace Verif.Cart
open Verif.AdaptiveQueue Verif.Dijkstra

/-- the edges of finite cost -/
def edgesOf (trans : Nat → List Trans) (costs : List Nat) (s : Nat) : List (Int × Nat) := ((trans s).map (fun tr => ((tr.target : Int), (costs[tr.op]?).getD 0))).filter (fun e => decide (e.2 ≠ infinite))

theorem mem_edgesOf {trans : Nat → List Trans} {costs : List Nat} {s p c : Nat} : ((p : Int), c) ∈ edgesOf trans costs s ↔ ∃ op, (⟨op, p⟩ : Trans) ∈ trans s ∧ c = (costs[op]?).getD 0 ∧ c ≠ infinite := by
  unfold edgesOf
  rw [List.mem_filter]
  simp only [List.mem_map, Prod.mk.injEq, decide_eq_true_eq]
  constructor
  · rintro ⟨⟨⟨op, q⟩, h1, h2, h3⟩, h4⟩
    simp only [Nat.cast_inj] at h2
    subst h2
    exact ⟨op, h1, h3.symm, h4⟩
  · rintro ⟨op, h1, h2, h3⟩
    exact ⟨⟨⟨op, p⟩, h1, rfl, h2.symm⟩, h3⟩

theorem weighted_eq {trans : Nat → List Trans} {costs : List Nat} {s : Nat} (h : ∀ tr ∈ trans s, tr.op < costs.length) : weighted trans costs s = some (edgesOf trans costs s) := by
  unfold weighted edgesOf
  have : ∀ l : List Trans, (∀ tr ∈ l, tr.op < costs.length) → l.mapM (fun tr => (costs[tr.op]?).map (fun c => ((tr.target : Int), c))) = some (l.map (fun tr => ((tr.target : Int), (costs[tr.op]?).getD 0))) := by
    intro l
    induction l with
    | nil => intro _; rfl
    | cons tr l ih =>
      intro h
      rw [List.mapM_cons, ih (fun x hx => h x (by simp [hx])), List.getElem?_eq_getElem (h tr (by simp))]
      simp [List.getElem?_eq_getElem (h tr (by simp))]
  rw [this _ h]
  rfl

/-- the finite costs are at most `C` -/
def Bounded (costs : List Nat) (C : Nat) : Prop := ∀ c ∈ costs, c < infinite → c ≤ C

/-- the distances are computed, and they are the least costs of paths -/
theorem computeDistances_spec (H : StdHeap Nat) {n C : Nat} {trans : Nat → List Trans} {costs sources : List Nat} (hs : ∀ s ∈ sources, s < n) (htr : ∀ v, v < n → ∀ tr ∈ trans v, tr.target < n ∧ tr.op < costs.length) (hout : ∀ v, ¬v < n → trans v = [])
    (hle : ∀ c ∈ costs, c ≤ infinite) (hC : Bounded costs C) (hb : n * C < infinite) :
    ∃ dist, computeDistances H n trans costs sources = some ((List.range n).map dist) ∧ Exact n C (fun v => v ∈ sources) (edgesOf trans costs) dist := by
  have hG : GraphOk n (fun v => v ∈ sources) (edgesOf trans costs) C := by
    refine ⟨hs, fun v p c hv h => ?_, fun v p c h => ?_, hb⟩
    · unfold edgesOf at h
      obtain ⟨tr, h1, h2⟩ := List.mem_map.mp (List.mem_filter.mp h).1
      simp only [Prod.mk.injEq] at h2
      have := htr v hv tr h1
      omega
    · unfold edgesOf at h
      obtain ⟨h0, h3⟩ := List.mem_filter.mp h
      obtain ⟨tr, h1, h2⟩ := List.mem_map.mp h0
      simp only [Prod.mk.injEq] at h2
      have hv : v < n := by
        by_contra hv
        rw [hout v hv] at h1; simp at h1
      have ho := (htr v hv tr h1).2
      rw [List.getElem?_eq_getElem ho] at h2
      simp only [Option.getD_some] at h2
      have hm := List.getElem_mem ho
      rw [h2.2] at hm
      simp only [decide_eq_true_eq] at h3
      exact hC c hm (Nat.lt_of_le_of_ne (hle c hm) h3)
  obtain ⟨st, bag, h1, h2, h3, h4, _⟩ := Mas.pushSources_spec (n := n) H sources ⟨fun _ => inf, Queue.new⟩ [] hs ⟨Rep.new, by simp⟩
  have hle : ∀ v, st.dist v ≤ Dijkstra.inf := by
    intro v
    by_cases hv : v ∈ sources
    · rw [(h3 v hv).1]; omega
    · rw [h4 v hv]
  have hfin : ∀ v, st.dist v < Dijkstra.inf → v ∈ sources := by
    intro v hf
    by_contra hv
    rw [h4 v hv] at hf
    exact absurd hf (Nat.lt_irrefl _)
  obtain ⟨st', h5, h6⟩ := loop_spec H hG (edges := weighted trans costs) (fun v hv => weighted_eq (fun tr h => (htr v hv tr h).2)) _ 0 bag st rfl
    ⟨h2.rep, h2.entry, fun v hv => (h3 v hv).1, hle, fun v _ hf => ⟨[], by rw [(h3 v (hfin v hf)).1]; exact .src v (hfin v hf) (Nat.le_of_eq (h3 v (hfin v hf)).1)⟩, fun v _ hf => Or.inl (by rw [(h3 v (hfin v hf)).1]; exact (h3 v (hfin v hf)).2)⟩
  refine ⟨st'.dist, ?_, h6⟩
  unfold computeDistances
  rw [h1]
  simp only
  rw [h5]

/-- the cost of an operator in a list of costs -/
def costAt (costs : List Nat) (op : Nat) : Nat := (costs[op]?).getD 0

/-- distances from the initial state and to the goals -/
structure Dists (a : Abs) (costs : List Nat) (C : Nat) (g h : Nat → Nat) : Prop where
  init : g a.init < infinite
  gstep : ∀ i op j, (⟨op, j⟩ : Trans) ∈ a.ts.outgoing i → costAt costs op < infinite → g i < infinite → g j < infinite
  goal : ∀ i, i ∈ a.goals → h i = 0
  hle : ∀ i, h i ≤ infinite
  hstep : ∀ i op j, (⟨op, j⟩ : Trans) ∈ a.ts.outgoing i → costAt costs op < infinite → h j < infinite → h i < infinite ∧ h i ≤ costAt costs op + h j
  bound : ∀ i, i < a.states.length → h i < infinite → h i ≤ a.states.length * C

theorem distances_spec (H : StdHeap Nat) {a : Abs} {nops C : Nat} {costs : List Nat} (hts : TSOk a.ts a.states.length nops) (hlen : costs.length = nops) (hinit : a.init < a.states.length) (hgoals : ∀ i ∈ a.goals, i < a.states.length)
    (hle : ∀ c ∈ costs, c ≤ infinite) (hC : Bounded costs C) (hb : a.states.length * C < infinite) :
    ∃ g h, computeDistances H a.states.length a.ts.outgoing costs [a.init] = some ((List.range a.states.length).map g) ∧ computeDistances H a.states.length a.ts.incoming costs a.goals = some ((List.range a.states.length).map h) ∧
      Dists a costs C g h := by
  obtain ⟨g, hg1, hg2⟩ := computeDistances_spec H (n := a.states.length) (trans := a.ts.outgoing) (sources := [a.init]) (by simpa using hinit)
    (fun v _ tr htr => by have := hts.range v tr.op tr.target htr; omega) (fun v hv => List.eq_nil_iff_forall_not_mem.mpr (fun tr htr => hv (hts.range v tr.op tr.target htr).1)) hle hC hb
  obtain ⟨h, hh1, hh2⟩ := computeDistances_spec H (n := a.states.length) (trans := a.ts.incoming) (sources := a.goals) hgoals
    (fun v _ tr htr => by have := hts.range tr.target tr.op v ((hts.sym _ _ _).mpr htr); omega) (fun v hv => List.eq_nil_iff_forall_not_mem.mpr (fun tr htr => hv (hts.range tr.target tr.op v ((hts.sym _ _ _).mpr htr)).2.1)) hle hC hb
  refine ⟨g, h, hg1, hh1, ⟨?_, ?_, ?_, hh2.le, ?_, hh2.bound⟩⟩
  · exact (hg2.low a.init 0 (.src _ (by simp))).2
  · intro i op j he hc hi
    have hr := hts.range i op j he
    have := hg2.sound i hr.1 hi
    exact (hg2.low j _ (.edge i _ j (costAt costs op) this (mem_edgesOf.mpr ⟨op, he, rfl, Nat.ne_of_lt hc⟩))).2
  · intro i hi
    exact Nat.le_zero.mp (hh2.low i 0 (.src _ hi)).1
  · intro i op j he hc hj
    have hr := hts.range i op j he
    have := hh2.sound j hr.2.1 hj
    obtain ⟨k1, k2⟩ := hh2.low i _ (.edge j _ i (costAt costs op) this (mem_edgesOf.mpr ⟨op, (hts.sym _ _ _).mp he, rfl, Nat.ne_of_lt hc⟩))
    exact ⟨k2, by omega⟩

end Verif.Cart
