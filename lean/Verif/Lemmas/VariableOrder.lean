import Verif.Lemmas.MaxDag
import Verif.Lemmas.SimplifyReach
import Verif.Props.PySccs
import Verif.Spec.CausalGraph

/-
The order of variables and the relevant variables computed by src/translate/variable_order.py.
-/
namespace Verif.VarOrder
open Verif.SasFile
open Verif.Mas (mapAll)
open Verif.Simplify (mapAll_some)
open Relation (ReflTransGen)

theorem rtg_mono {r p : Nat → Nat → Prop} (h : ∀ a b, r a b → p a b) {u v : Nat} (hr : ReflTransGen r u v) : ReflTransGen p u v := by
  induction hr with
  | refl => exact .refl
  | tail _ he ih => exact ih.tail (h _ _ he)

theorem mem_edges {T : SasTask} {u v : Nat} : (u, v) ∈ edges T ↔ T.Influences u v := by
  unfold edges SasTask.Influences
  rw [List.mem_append, List.mem_flatMap, List.mem_flatMap]
  constructor
  · rintro (⟨o, ho, h⟩ | ⟨a, ha, h⟩)
    · rw [operatorEdges, List.mem_flatMap] at h
      obtain ⟨e, he, h⟩ := h
      rw [effectEdges, List.mem_map] at h
      obtain ⟨x, hx, h⟩ := h
      simp only [Prod.mk.injEq] at h
      obtain ⟨rfl, rfl⟩ := h
      rw [List.mem_filter, decide_eq_true_eq, List.mem_append, sourceVars, List.mem_append] at hx
      refine ⟨hx.2, Or.inl ⟨o, ho, e, he, rfl, ?_⟩⟩
      rcases hx.1 with (h | h) | h
      · obtain ⟨f, hf, rfl⟩ := List.mem_map.mp h
        exact Or.inl ⟨f, hf, rfl⟩
      · obtain ⟨e', he', rfl⟩ := List.mem_map.mp h
        rw [List.mem_filter] at he'
        exact Or.inr (Or.inl ⟨e', he'.1, rfl, by rw [← Option.isSome_iff_ne_none]; exact he'.2⟩)
      · obtain ⟨c, hc, rfl⟩ := List.mem_map.mp h
        exact Or.inr (Or.inr ⟨c, hc, rfl⟩)
    · rw [axiomEdges, List.mem_map] at h
      obtain ⟨x, hx, h⟩ := h
      simp only [Prod.mk.injEq] at h
      obtain ⟨rfl, rfl⟩ := h
      rw [List.mem_filter, decide_eq_true_eq] at hx
      obtain ⟨c, hc, rfl⟩ := List.mem_map.mp hx.1
      exact ⟨hx.2, Or.inr ⟨a, ha, rfl, c, hc, rfl⟩⟩
  · rintro ⟨hne, ⟨o, ho, e, he, rfl, h⟩ | ⟨a, ha, rfl, c, hc, rfl⟩⟩
    · refine Or.inl ⟨o, ho, ?_⟩
      rw [operatorEdges, List.mem_flatMap]
      refine ⟨e, he, ?_⟩
      rw [effectEdges, List.mem_map]
      refine ⟨u, ?_, rfl⟩
      rw [List.mem_filter, decide_eq_true_eq, List.mem_append, sourceVars, List.mem_append]
      refine ⟨?_, hne⟩
      rcases h with ⟨f, hf, rfl⟩ | ⟨e', he', rfl, h⟩ | ⟨c, hc, rfl⟩
      · exact Or.inl (Or.inl (List.mem_map_of_mem hf))
      · exact Or.inl (Or.inr (List.mem_map.mpr ⟨e', List.mem_filter.mpr ⟨he', by rw [Option.isSome_iff_ne_none]; exact h⟩, rfl⟩))
      · exact Or.inr (List.mem_map.mpr ⟨c, hc, rfl⟩)
    · refine Or.inr ⟨a, ha, ?_⟩
      rw [axiomEdges, List.mem_map]
      refine ⟨c.var, ?_, rfl⟩
      rw [List.mem_filter, decide_eq_true_eq]
      exact ⟨List.mem_map_of_mem hc, hne⟩

theorem factOk_lt {T : SasTask} {f : Fact} (h : FactOk T f) : f.var < T.variables.length := by
  obtain ⟨x, hx, _⟩ := h
  exact (List.getElem?_eq_some_iff.mp hx).1

theorem influences_lt {T : SasTask} (hT : T.Valid) {u v : Nat} (h : T.Influences u v) : u < T.variables.length ∧ v < T.variables.length := by
  obtain ⟨_, ⟨o, ho, e, he, rfl, h⟩ | ⟨a, ha, rfl, c, hc, rfl⟩⟩ := h
  · have hv := hT.operators o ho
    refine ⟨?_, factOk_lt (hv.post e he)⟩
    rcases h with ⟨f, hf, rfl⟩ | ⟨e', he', rfl, _⟩ | ⟨c, hc, rfl⟩
    · exact factOk_lt (hv.prevail.1 f hf)
    · exact factOk_lt (hv.post e' he')
    · exact factOk_lt ((hv.conds e he).1 c hc)
  · have hv := hT.axioms a ha
    exact ⟨factOk_lt (hv.conds.1 c hc), factOk_lt hv.effect⟩

theorem mem_targets {es : List (Nat × Nat)} {u v : Nat} : v ∈ targets es u ↔ (u, v) ∈ es := by
  unfold targets
  rw [(List.perm_insertionSort _ _).mem_iff, List.mem_dedup, List.mem_map]
  constructor
  · rintro ⟨⟨a, b⟩, h, rfl⟩
    rw [List.mem_filter] at h
    obtain ⟨h1, h2⟩ := h
    simp only [beq_iff_eq] at h2
    subst h2
    exact h1
  · intro h
    exact ⟨(u, v), List.mem_filter.mpr ⟨h, by simp⟩, rfl⟩

section
variable {n : Nat} {es : List (Nat × Nat)}

theorem edge_iff (hes : ∀ e ∈ es, e.1 < n ∧ e.2 < n) {u v : Nat} : Sccs.Edge ((List.range n).map (targets es)) u v ↔ (u, v) ∈ es := by
  unfold Sccs.Edge
  constructor
  · rintro ⟨succs, h1, h2⟩
    rw [List.getElem?_map, Option.map_eq_some_iff] at h1
    obtain ⟨u', h3, rfl⟩ := h1
    obtain ⟨_, h4⟩ := List.getElem?_eq_some_iff.mp h3
    rw [List.getElem_range] at h4
    subst h4
    exact mem_targets.mp h2
  · intro h
    refine ⟨targets es u, ?_, mem_targets.mpr h⟩
    rw [List.getElem?_map, List.getElem?_range (hes _ h).1]
    rfl

theorem components_spec (hes : ∀ e ∈ es, e.1 < n ∧ e.2 < n) : ∃ out, components n es = some out ∧ (∀ c ∈ out, c ≠ []) ∧ out.flatten.Nodup ∧ (∀ v, v ∈ out.flatten ↔ v < n) ∧
    (∀ c ∈ out, ∀ v ∈ c, ∀ w ∈ c, ReflTransGen (fun a b => (a, b) ∈ es) v w) ∧ out.Pairwise (fun c d => ∀ v ∈ d, ∀ w ∈ c, (v, w) ∉ es) := by
  have hg : ∀ succs ∈ (List.range n).map (targets es), ∀ w ∈ succs, w < ((List.range n).map (targets es)).length := by
    intro succs hs w hw
    obtain ⟨u, _, rfl⟩ := List.mem_map.mp hs
    rw [List.length_map, List.length_range]
    exact (hes _ (mem_targets.mp hw)).2
  obtain ⟨out, h1, _, h2, h3, h4, h5, h6⟩ := PySccs.C13_python_sccs _ hg
  refine ⟨out, ?_, h2, h3, fun v => by rw [h4, List.length_map, List.length_range], fun c hc v hv w hw => ?_, ?_⟩
  · unfold components
    rw [if_pos (by rw [List.all_eq_true]; exact fun e he => decide_eq_true (hes e he).1)]
    exact h1
  · exact rtg_mono (fun a b h => (edge_iff hes).mp h) ((h5 c hc v hv w).mp hw).1
  · refine h6.imp (fun {c d} h v hv w hw he => h v hv w hw ((edge_iff hes).mpr he))

theorem orderComponent_spec {goals scc : List Nat} (hne : scc ≠ []) (hn : scc.Nodup) : ∃ r, orderComponent es goals scc = some r ∧ r.Perm scc := by
  unfold orderComponent
  split
  · exact absurd rfl hne
  · exact ⟨_, rfl, .refl _⟩
  · refine maxDag_spec hn (fun x hx e he => ?_)
    unfold subgraph at he
    obtain ⟨v, _, hv⟩ := List.mem_flatMap.mp he
    unfold subEdges at hv
    split at hv
    · rename_i hm
      have : e.1 = v := by
        split at hv
        · simp only [List.mem_cons, List.not_mem_nil, or_false] at hv
          rcases hv with rfl | rfl <;> rfl
        · rw [List.mem_singleton] at hv
          rw [hv]
      rw [this]
      exact hm
    · simp at hv

theorem mapAll_perm {f : List Nat → Option (List Nat)} : ∀ {cs : List (List Nat)}, (∀ c ∈ cs, ∃ r, f c = some r ∧ r.Perm c) → ∃ rs, mapAll f cs = some rs ∧ List.Forall₂ (fun r c => r.Perm c) rs cs
  | [], _ => ⟨[], rfl, .nil⟩
  | c :: cs, h => by
    obtain ⟨r, h1, h2⟩ := h c (by simp)
    obtain ⟨rs, h3, h4⟩ := mapAll_perm (f := f) (cs := cs) (fun c' hc' => h c' (List.mem_cons_of_mem _ hc'))
    exact ⟨r :: rs, by rw [mapAll, h1]; simp only [h3], .cons h2 h4⟩

theorem flatten_perm {rs cs : List (List Nat)} (h : List.Forall₂ (fun r c => r.Perm c) rs cs) : rs.flatten.Perm cs.flatten := by
  induction h with
  | nil => exact .refl _
  | cons h _ ih => exact h.append ih

theorem flatten_pairwise {R : Nat → Nat → Prop} {rs cs : List (List Nat)} (h : List.Forall₂ (fun r c => r.Perm c) rs cs) (h1 : ∀ c ∈ cs, ∀ v ∈ c, ∀ w ∈ c, R v w) (h2 : cs.Pairwise (fun c d => ∀ v ∈ c, ∀ w ∈ d, R v w)) :
    rs.flatten.Pairwise R := by
  induction h with
  | nil => simp
  | @cons r c rs cs hrc hf ih =>
    rw [List.pairwise_cons] at h2
    rw [List.flatten_cons, List.pairwise_append]
    refine ⟨?_, ih (fun c' hc' => h1 c' (List.mem_cons_of_mem _ hc')) h2.2, fun v hv w hw => ?_⟩
    · exact List.pairwise_of_forall_mem_list (fun v hv w hw => h1 c (List.mem_cons_self ..) v (hrc.mem_iff.mp hv) w (hrc.mem_iff.mp hw))
    · have := (flatten_perm hf).mem_iff.mp hw
      obtain ⟨d, hd, hwd⟩ := List.mem_flatten.mp this
      exact h2.1 d hd v (hrc.mem_iff.mp hv) w hwd

/-- the order contains each variable once; an edge against the order is part of a cycle -/
theorem getOrdering_spec (hes : ∀ e ∈ es, e.1 < n ∧ e.2 < n) (goals : List Nat) : ∃ order, getOrdering n es goals = some order ∧ order.Nodup ∧ (∀ v, v ∈ order ↔ v < n) ∧
    order.Pairwise (fun u v => (v, u) ∈ es → ReflTransGen (fun a b => (a, b) ∈ es) u v) := by
  obtain ⟨out, h1, h2, h3, h4, h5, h6⟩ := components_spec hes
  obtain ⟨rs, h7, h8⟩ := mapAll_perm (f := orderComponent es goals) (cs := out) (fun c hc => orderComponent_spec (h2 c hc) ((List.nodup_flatten.mp h3).1 c hc))
  have hp := flatten_perm h8
  refine ⟨rs.flatten, ?_, hp.nodup_iff.mpr h3, fun v => by rw [hp.mem_iff, h4], ?_⟩
  · unfold getOrdering
    rw [h1]
    simp only [h7, Option.map_some]
  · exact flatten_pairwise h8 (fun c hc v hv w hw _ => h5 c hc v hv w hw) (h6.imp (fun {c d} h v hv w hw he => absurd he (h w hw v hv)))

/-! ### relevant variables -/

theorem mem_preds {u v : Nat} : u ∈ preds es v ↔ (u, v) ∈ es := by
  unfold preds
  rw [List.mem_dedup, List.mem_map]
  constructor
  · rintro ⟨⟨a, b⟩, h, rfl⟩
    rw [List.mem_filter] at h
    obtain ⟨h1, h2⟩ := h
    simp only [beq_iff_eq] at h2
    subst h2
    exact h1
  · intro h
    exact ⟨(u, v), List.mem_filter.mpr ⟨h, by simp⟩, rfl⟩

/-- edges to variables that have not been found -/
def leftEdges (es : List (Nat × Nat)) (nec : List Nat) : Nat := (es.filter (fun e => decide (e.2 ∉ nec))).length

theorem leftEdges_add (es : List (Nat × Nat)) {nec : List Nat} {v : Nat} (h : v ∉ nec) : leftEdges es (v :: nec) + (preds es v).length ≤ leftEdges es nec := by
  have h1 : (preds es v).length ≤ (es.filter (fun e => e.2 == v)).length := by
    unfold preds
    exact (List.dedup_sublist _).length_le.trans (by rw [List.length_map])
  refine (Nat.add_le_add_left h1 _).trans ?_
  unfold leftEdges
  induction es with
  | nil => simp
  | cons e es ih =>
    have ih := ih (by
      unfold preds
      exact (List.dedup_sublist _).length_le.trans (by rw [List.length_map]))
    by_cases hv : e.2 = v
    · rw [List.filter_cons_of_neg (by simp [hv]), List.filter_cons_of_pos (by simp [hv]), List.filter_cons_of_pos (by simp [hv, h])]
      simp only [List.length_cons]
      omega
    · by_cases hn : e.2 ∈ nec
      · rw [List.filter_cons_of_neg (by simp [hn]), List.filter_cons_of_neg (by simp [hv]), List.filter_cons_of_neg (by simp [hn])]
        exact ih
      · rw [List.filter_cons_of_pos (by simp [hn, hv]), List.filter_cons_of_neg (by simp [hv]), List.filter_cons_of_pos (by simp [hn])]
        simp only [List.length_cons]
        omega

/-- all found variables reach `A`; predecessors are found or on the stack -/
structure DfsInv (es : List (Nat × Nat)) (A : Nat → Prop) (stack nec : List Nat) : Prop where
  sound : ∀ v, v ∈ nec ∨ v ∈ stack → ∃ g, A g ∧ ReflTransGen (fun a b => (a, b) ∈ es) v g
  closed : ∀ u v, (u, v) ∈ es → v ∈ nec → u ∈ nec ∨ u ∈ stack

theorem dfsLoop_spec {A : Nat → Prop} : ∀ (fuel : Nat) (stack nec : List Nat), DfsInv es A stack nec → stack.length + leftEdges es nec ≤ fuel →
    ∃ nec', dfsLoop es fuel stack nec = some nec' ∧ nec ⊆ nec' ∧ DfsInv es A [] nec'
  | fuel, [], nec, h, _ => ⟨nec, by cases fuel <;> rfl, List.Subset.refl _, h⟩
  | 0, _ :: _, _, _, hf => by simp at hf
  | fuel + 1, v :: stack, nec, h, hf => by
    rw [dfsLoop]
    simp only [List.length_cons] at hf
    split
    · rename_i hv
      refine dfsLoop_spec fuel stack nec ⟨fun w hw => h.sound w (hw.imp_right (List.mem_cons_of_mem _)), fun u w he hw => ?_⟩ (by omega)
      rcases h.closed u w he hw with h1 | h1
      · exact Or.inl h1
      · rcases List.mem_cons.mp h1 with rfl | h1
        · exact Or.inl hv
        · exact Or.inr h1
    · rename_i hv
      have hle := leftEdges_add es hv
      have hinv : DfsInv es A (preds es v ++ stack) (v :: nec) := ⟨?_, ?_⟩
      · obtain ⟨nec', h1, h2, h3⟩ := dfsLoop_spec (A := A) fuel (preds es v ++ stack) (v :: nec) hinv (by rw [List.length_append]; omega)
        exact ⟨nec', h1, fun x hx => h2 (List.mem_cons_of_mem _ hx), h3⟩
      · intro w hw
        rcases hw with hw | hw
        · rcases List.mem_cons.mp hw with rfl | hw
          · exact h.sound _ (Or.inr (List.mem_cons_self ..))
          · exact h.sound _ (Or.inl hw)
        · rcases List.mem_append.mp hw with hw | hw
          · obtain ⟨g, h1, h2⟩ := h.sound v (Or.inr (List.mem_cons_self ..))
            exact ⟨g, h1, .head (mem_preds.mp hw) h2⟩
          · exact h.sound _ (Or.inr (List.mem_cons_of_mem _ hw))
      · intro u w he hw
        rcases List.mem_cons.mp hw with rfl | hw
        · exact Or.inr (List.mem_append_left _ (mem_preds.mpr he))
        · rcases h.closed u w he hw with h1 | h1
          · exact Or.inl (List.mem_cons_of_mem _ h1)
          · rcases List.mem_cons.mp h1 with rfl | h1
            · exact Or.inl (List.mem_cons_self ..)
            · exact Or.inr (List.mem_append_right _ h1)

theorem important_spec {A : Nat → Prop} : ∀ (fs : List Fact) (nec : List Nat), (∀ f ∈ fs, A f.var) → DfsInv es A [] nec →
    ∃ nec', important es fs nec = some nec' ∧ nec ⊆ nec' ∧ DfsInv es A [] nec' ∧ ∀ f ∈ fs, f.var ∈ nec'
  | [], nec, _, h => ⟨nec, rfl, List.Subset.refl _, h, by simp⟩
  | f :: fs, nec, hA, h => by
    rw [important]
    split
    · rename_i hf
      obtain ⟨nec', h1, h2, h3, h4⟩ := important_spec fs nec (fun f' hf' => hA f' (by simp [hf'])) h
      refine ⟨nec', h1, h2, h3, fun f' hf' => ?_⟩
      rcases List.mem_cons.mp hf' with rfl | hf'
      · exact h2 hf
      · exact h4 f' hf'
    · rename_i hf
      have hle := leftEdges_add es hf
      have hle2 : leftEdges es nec ≤ es.length := List.length_filter_le _ _
      have hinv : DfsInv es A (preds es f.var) (f.var :: nec) := ⟨?_, ?_⟩
      · obtain ⟨nec1, h1, h2, h3⟩ := dfsLoop_spec (A := A) es.length (preds es f.var) (f.var :: nec) hinv (by omega)
        obtain ⟨nec', h4, h5, h6, h7⟩ := important_spec fs nec1 (fun f' hf' => hA f' (by simp [hf'])) h3
        simp only [h1]
        refine ⟨nec', h4, fun x hx => h5 (h2 (List.mem_cons_of_mem _ hx)), h6, fun f' hf' => ?_⟩
        rcases List.mem_cons.mp hf' with rfl | hf'
        · exact h5 (h2 (List.mem_cons_self ..))
        · exact h7 f' hf'
      · intro w hw
        rcases hw with hw | hw
        · rcases List.mem_cons.mp hw with rfl | hw
          · exact ⟨_, hA f (by simp), .refl⟩
          · exact h.sound _ (Or.inl hw)
        · exact ⟨_, hA f (by simp), .single (mem_preds.mp hw)⟩
      · intro u w he hw
        rcases List.mem_cons.mp hw with rfl | hw
        · exact Or.inr (mem_preds.mpr he)
        · rcases h.closed u w he hw with h1 | h1
          · exact Or.inl (List.mem_cons_of_mem _ h1)
          · simp at h1

end

theorem important_iff (T : SasTask) : ∃ nec, important (edges T) T.goal [] = some nec ∧ ∀ v, v ∈ nec ↔ T.Relevant v := by
  obtain ⟨nec, h1, _, h2, h3⟩ := important_spec (es := edges T) (A := fun v => ∃ g ∈ T.goal, g.var = v) T.goal [] (fun f hf => ⟨f, hf, rfl⟩) ⟨by simp, by simp⟩
  have hmono : ∀ u v, ReflTransGen (fun a b => (a, b) ∈ edges T) u v ↔ ReflTransGen T.Influences u v := fun u v =>
    ⟨rtg_mono (fun a b h => mem_edges.mp h), rtg_mono (fun a b h => mem_edges.mpr h)⟩
  refine ⟨nec, h1, fun v => ⟨fun hv => ?_, ?_⟩⟩
  · obtain ⟨_, ⟨g, hg, rfl⟩, h4⟩ := h2.sound v (Or.inl hv)
    exact ⟨g, hg, (hmono _ _).mp h4⟩
  · rintro ⟨g, hg, h4⟩
    replace h4 := (hmono _ _).mpr h4
    induction h4 using ReflTransGen.head_induction_on with
    | refl => exact h3 g hg
    | head he _ ih => exact (h2.closed _ _ he ih).resolve_right (by simp)

/-- what is known about the order -/
structure OrderOk (T : SasTask) (reorder filter : Bool) (order : List Nat) : Prop where
  nodup : order.Nodup
  mem : ∀ v, v ∈ order ↔ v < T.variables.length ∧ (filter = true → T.Relevant v)
  sorted : reorder = false → order.Pairwise (· < ·)
  causal : reorder = true → order.Pairwise (fun u v => T.Influences v u → ReflTransGen T.Influences u v)

theorem findOrder_spec {T : SasTask} (hT : T.Valid) (reorder filter : Bool) : ∃ order, findOrder reorder filter T = some order ∧ OrderOk T reorder filter order := by
  have hes : ∀ e ∈ edges T, e.1 < T.variables.length ∧ e.2 < T.variables.length := fun e he => influences_lt hT (mem_edges.mp he)
  have hbase : ∃ order, (if reorder then getOrdering T.variables.length (edges T) (T.goal.map (·.var)) else some (List.range T.variables.length)) = some order ∧ order.Nodup ∧
      (∀ v, v ∈ order ↔ v < T.variables.length) ∧ (reorder = false → order.Pairwise (· < ·)) ∧ (reorder = true → order.Pairwise (fun u v => T.Influences v u → ReflTransGen T.Influences u v)) := by
    cases reorder with
    | false => exact ⟨_, rfl, List.nodup_range, fun v => List.mem_range, fun _ => List.pairwise_lt_range, fun h => by cases h⟩
    | true =>
      obtain ⟨order, h1, h2, h3, h4⟩ := getOrdering_spec hes (T.goal.map (·.var))
      exact ⟨order, h1, h2, h3, fun h => (by cases h), fun _ => h4.imp (fun h he => rtg_mono (fun a b h => mem_edges.mp h) (h (mem_edges.mpr he)))⟩
  obtain ⟨order, h1, h2, h3, h4, h5⟩ := hbase
  unfold findOrder
  simp only [h1]
  cases filter with
  | false => exact ⟨order, rfl, h2, fun v => by simp [h3], h4, h5⟩
  | true =>
    obtain ⟨nec, h6, h7⟩ := important_iff T
    simp only [h6, if_true]
    refine ⟨_, rfl, h2.sublist List.filter_sublist, fun v => ?_, fun h => (h4 h).sublist List.filter_sublist, fun h => (h5 h).sublist List.filter_sublist⟩
    rw [List.mem_filter, h3, decide_eq_true_eq, h7]
    simp

end Verif.VarOrder
