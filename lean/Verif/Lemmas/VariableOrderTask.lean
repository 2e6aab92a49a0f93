import Verif.Lemmas.VariableOrder
import Verif.Lemmas.SimplifyValid

/-
The task with the variables of an order (src/translate/variable_order.py `VariableOrder`).
-/
namespace Verif.VarOrder
open Verif.SasFile
open Verif.Mas (mapAll)
open Verif.Simplify (mapAll_map taskOp mem_taskOp_pre task_ops keepIdx keepIdx_get keepIdx_none keepIdx_surj)
open Relation (ReflTransGen)

theorem newVar_some : ∀ {order : List Nat} {v k : Nat}, order.Nodup → (newVar order v = some k ↔ order[k]? = some v)
  | [], v, k, _ => by simp [newVar]
  | a :: order, v, k, h => by
    rw [List.nodup_cons] at h
    have ih := fun k => newVar_some (v := v) (k := k) h.2
    unfold newVar at ih ⊢
    rw [List.idxOf?_cons]
    by_cases hav : a = v
    · subst hav
      rw [if_pos (by simp)]
      cases k with
      | zero => simp
      | succ k =>
        simp only [Option.some.injEq, List.getElem?_cons_succ]
        constructor
        · intro h; omega
        · intro hk; exact absurd (List.mem_of_getElem? hk) h.1
    · rw [if_neg (by simpa using hav)]
      cases k with
      | zero =>
        simp only [Option.map_eq_some_iff, List.getElem?_cons_zero, Option.some.injEq]
        constructor
        · rintro ⟨_, _, h⟩; omega
        · intro h; exact absurd h hav
      | succ k =>
        rw [List.getElem?_cons_succ, ← ih k, Option.map_eq_some_iff]
        constructor
        · rintro ⟨x, h1, h2⟩
          have : x = k := by omega
          rw [h1, this]
        · intro h; exact ⟨k, h, rfl⟩

theorem newVar_none {order : List Nat} {v : Nat} : newVar order v = none ↔ v ∉ order := by
  unfold newVar
  exact List.idxOf?_eq_none_iff

/-- the new numbers of variables -/
def emb (T : SasTask) (order : List Nat) : Emb := ⟨newVar order, fun _ x => x, fun v x => FactOk T ⟨v, x⟩⟩

theorem newFacts_eq (T : SasTask) (order : List Nat) (fs : List Fact) : newFacts order fs = fs.filterMap (emb T order).img := rfl

/-- the parts of the new task -/
structure NewTask (T : SasTask) (order : List Nat) (keep : Bool) (T' : SasTask) : Prop where
  vars : T'.variables.map some = order.map (fun v => T.variables[v]?)
  init : T'.init.map some = order.map (fun v => T.init[v]?)
  goal : T'.goal.Perm (newFacts order T.goal)
  mutexes : T'.mutexes = (T.mutexes.map (newFacts order)).filter (fun m => decide (1 < ((m.map (·.var)).dedup).length))
  ops : T'.operators = T.operators.filterMap (newOperator order keep)
  axioms : T'.axioms = T.axioms.filterMap (newAxiom order)
  metric : T'.metric = T.metric

/-- an order for a part of the variables on which no other variables have influence -/
structure Closed (T : SasTask) (order : List Nat) : Prop where
  nodup : order.Nodup
  lt : ∀ v ∈ order, v < T.variables.length
  closed : ∀ u v, T.Influences u v → v ∈ order → u ∈ order
  goal : ∀ g ∈ T.goal, g.var ∈ order

theorem OrderOk.closed {T : SasTask} (hT : T.Valid) {reorder filter : Bool} {order : List Nat} (h : OrderOk T reorder filter order) : Closed T order where
  nodup := h.nodup
  lt := fun v hv => ((h.mem v).mp hv).1
  closed := fun u v hi hv => by
    refine (h.mem u).mpr ⟨(influences_lt hT hi).1, fun hf => ?_⟩
    obtain ⟨g, hg, hr⟩ := ((h.mem v).mp hv).2 hf
    exact ⟨g, hg, .head hi hr⟩
  goal := fun g hg => (h.mem g.var).mpr ⟨factOk_lt (hT.goal.1 g hg), fun _ => ⟨g, hg, .refl⟩⟩

theorem mapAll_getElem {α : Type} {l : List α} : ∀ {order : List Nat}, (∀ v ∈ order, v < l.length) → ∃ r : List α, mapAll (fun v => l[v]?) order = some r ∧ r.map some = order.map (fun v => l[v]?)
  | [], _ => ⟨[], rfl, rfl⟩
  | v :: order, h => by
    obtain ⟨r, h1, h2⟩ := mapAll_getElem (l := l) (fun w hw => h w (List.mem_cons_of_mem v hw))
    have e := List.getElem?_eq_getElem (h v (List.mem_cons_self ..))
    exact ⟨l[v]'(h v (List.mem_cons_self ..)) :: r, by simp only [mapAll, e, h1], by simp only [List.map_cons, e, h2]⟩

section
variable {T T' : SasTask} {order : List Nat} {keep : Bool}

theorem applyOrder_spec (hT : T.Valid) (hC : Closed T order) (keep : Bool) : ∃ T', applyOrder order keep T = some T' ∧ NewTask T order keep T' := by
  obtain ⟨vars, h1, h2⟩ := mapAll_getElem (l := T.variables) hC.lt
  obtain ⟨init, h3, h4⟩ := mapAll_getElem (l := T.init) (fun v hv => by rw [hT.init]; exact hC.lt v hv)
  unfold applyOrder
  simp only [h1, h3]
  exact ⟨_, rfl, h2, h4, List.perm_insertionSort _ _, rfl, rfl, rfl, rfl⟩

theorem idx_iff (hC : Closed T order) {v k : Nat} : (emb T order).idx v = some k ↔ order[k]? = some v := newVar_some hC.nodup

theorem idx_mem (hC : Closed T order) {v : Nat} (h : v ∈ order) : ∃ k, (emb T order).idx v = some k := by
  obtain ⟨k, hk⟩ := List.mem_iff_getElem?.mp h
  exact ⟨k, (idx_iff hC).mpr hk⟩

theorem NewTask.var (hC : Closed T order) (hN : NewTask T order keep T') {v k : Nat} (h : (emb T order).idx v = some k) : T'.variables[k]? = T.variables[v]? := by
  have h1 := congrArg (fun l : List (Option SasVariable) => l[k]?) hN.vars
  simp only [List.getElem?_map, (idx_iff hC).mp h, Option.map_some] at h1
  cases hx : T'.variables[k]? with
  | none => rw [hx] at h1; simp at h1
  | some x =>
    rw [hx] at h1
    simpa using h1

theorem NewTask.initVal (hC : Closed T order) (hN : NewTask T order keep T') {v k : Nat} (h : (emb T order).idx v = some k) : T'.init[k]? = T.init[v]? := by
  have h1 := congrArg (fun l : List (Option Nat) => l[k]?) hN.init
  simp only [List.getElem?_map, (idx_iff hC).mp h, Option.map_some] at h1
  cases hx : T'.init[k]? with
  | none => rw [hx] at h1; simp at h1
  | some x =>
    rw [hx] at h1
    simpa using h1

theorem NewTask.varsLength (hN : NewTask T order keep T') : T'.variables.length = order.length := by
  have := congrArg List.length hN.vars
  simpa using this

theorem NewTask.initLength (hN : NewTask T order keep T') : T'.init.length = T'.variables.length := by
  have := congrArg List.length hN.init
  rw [hN.varsLength]
  simpa using this

theorem NewTask.layer (hC : Closed T order) (hN : NewTask T order keep T') {v k : Nat} (h : (emb T order).idx v = some k) : layerOf T' k = layerOf T v := by
  unfold layerOf
  rw [hN.var hC h]

theorem idx_surj (hC : Closed T order) (hN : NewTask T order keep T') {k : Nat} (hk : k < T'.variables.length) : ∃ v, (emb T order).idx v = some k := by
  rw [hN.varsLength] at hk
  exact ⟨_, (idx_iff hC).mpr (List.getElem?_eq_getElem hk)⟩

theorem img_some {f f' : Fact} (h : (emb T order).img f = some f') : (emb T order).idx f.var = some f'.var ∧ f'.val = f.val := Emb.img_some h

theorem factOk_img (hC : Closed T order) (hN : NewTask T order keep T') {f f' : Fact} (hi : (emb T order).img f = some f') : FactOk T' f' ↔ FactOk T f := by
  obtain ⟨h1, h2⟩ := img_some hi
  unfold FactOk
  rw [hN.var hC h1, h2]

theorem NewTask.mem_axioms (hN : NewTask T order keep T') {a' : SasAxiom} : a' ∈ T'.axioms ↔ ∃ a ∈ T.axioms, ∃ h', (emb T order).img a.effect = some h' ∧ a' = ⟨a.conds.filterMap (emb T order).img, h'⟩ := by
  rw [hN.axioms, List.mem_filterMap]
  constructor
  · rintro ⟨a, ha, h⟩
    unfold newAxiom at h
    obtain ⟨v, hv, rfl⟩ := Option.map_eq_some_iff.mp h
    exact ⟨a, ha, ⟨v, a.effect.val⟩, by simp [Emb.img, emb, hv], rfl⟩
  · rintro ⟨a, ha, h', hi, rfl⟩
    obtain ⟨h1, h2⟩ := img_some hi
    refine ⟨a, ha, ?_⟩
    unfold newAxiom
    rw [show newVar order a.effect.var = some h'.var from h1, Option.map_some]
    rw [← h2]
    rfl

/-- the condition of an axiom for a variable of the order is on such variables -/
theorem axiom_closed (hC : Closed T order) {a : SasAxiom} (ha : a ∈ T.axioms) (hv : a.effect.var ∈ order) {c : Fact} (hc : c ∈ a.conds) : c.var ∈ order := by
  by_cases h : c.var = a.effect.var
  · rw [h]; exact hv
  · exact hC.closed _ _ ⟨h, Or.inr ⟨a, ha, rfl, c, hc, rfl⟩⟩ hv

theorem idx_mem' (hC : Closed T order) {v k : Nat} (h : (emb T order).idx v = some k) : v ∈ order := List.mem_of_getElem? ((idx_iff hC).mp h)

theorem NewTask.ok (hT : T.Valid) (hC : Closed T order) (hN : NewTask T order keep T') : (emb T order).OK T.task T'.task := by
  have hlen : T.task.vars.length = T.variables.length := by simp [SasTask.task, hT.init]
  have hlen' : T'.task.vars.length = T'.variables.length := by simp [SasTask.task, hN.initLength]
  have hinit : ∀ v, v < T.variables.length → ∃ i, T.init[v]? = some i := fun v hv => ⟨_, List.getElem?_eq_getElem (by rw [hT.init]; exact hv)⟩
  have hder : ∀ v, T.task.layerOf v ≠ none → v < T.variables.length := by
    intro v hv
    by_contra hn
    rw [Task.layerOf, List.getElem?_eq_none (by omega)] at hv
    simp at hv
  exact {
    inj := fun v w k h1 h2 => by
      have h1 := (idx_iff hC).mp h1
      have h2 := (idx_iff hC).mp h2
      rw [h1] at h2
      exact Option.some.inj h2
    surj := fun k hk => idx_surj hC hN (by omega)
    range := fun v k hi => by
      refine ⟨by rw [hlen]; exact hC.lt v (idx_mem' hC hi), ?_⟩
      rw [hlen', hN.varsLength]
      exact (List.getElem?_eq_some_iff.mp ((idx_iff hC).mp hi)).1
    rankInj := fun v k x y hi hx hy h => h
    domD := fun v x d hd hx => by
      obtain ⟨w, i, h1, _, rfl⟩ := task_var.mp hd
      obtain ⟨w', h2, h3⟩ := hx
      rw [h1, Option.some.injEq] at h2
      subst h2
      exact h3
    layer := fun v k hi => by rw [task_layer hN.initLength, task_layer hT.init, hN.layer hC hi]
    default := fun v k hi hl => by
      obtain ⟨i, h⟩ := hinit v (hder v hl)
      rw [task_default hT.init h, task_default hN.initLength ((hN.initVal hC hi).trans h)]
      rfl
    defaultD := fun v hl => by
      obtain ⟨i, h⟩ := hinit v (hder v hl)
      rw [task_default hT.init h]
      exact hT.initOk v i h
    ruleD := fun r hr _ => by
      obtain ⟨a, ha, rfl⟩ := mem_task_rules.mp hr
      exact (hT.axioms a ha).effect
    rule := fun r hr hD h' hi => by
      obtain ⟨a, ha, rfl⟩ := mem_task_rules.mp hr
      exact mem_task_rules.mpr ⟨_, hN.mem_axioms.mpr ⟨a, ha, h', hi, rfl⟩, rfl⟩
    rule' := fun r' hr' => by
      obtain ⟨a', ha', rfl⟩ := mem_task_rules.mp hr'
      obtain ⟨a, ha, h', h2, rfl⟩ := hN.mem_axioms.mp ha'
      refine ⟨⟨a.conds, a.effect⟩, mem_task_rules.mpr ⟨a, ha, rfl⟩, rfl, h2, (hT.axioms a ha).effect, fun c hc => ⟨(hT.axioms a ha).conds.1 c hc, fun hi => ?_⟩⟩
      obtain ⟨k, hk⟩ := idx_mem hC (axiom_closed hC ha (idx_mem' hC (img_some h2).1) hc)
      rw [hk] at hi
      cases hi }

/-! ### operators -/

theorem newEffect_some {e e' : PrePost} (h : newEffect order e = some e') : newVar order e.var = some e'.var ∧ e'.pre = e.pre ∧ e'.post = e.post ∧ e'.conds = newFacts order e.conds := by
  unfold newEffect at h
  obtain ⟨v, hv, rfl⟩ := Option.map_eq_some_iff.mp h
  exact ⟨hv, rfl, rfl, rfl⟩

theorem newEffect_none {e : PrePost} : newEffect order e = none ↔ e.var ∉ order := by
  unfold newEffect
  rw [Option.map_eq_none_iff, newVar_none]

theorem mem_new_pre {o o' : SasOperator} {b b' : Bool} (h1 : o'.prevail = newFacts order o.prevail) (h2 : o'.prePost = o.prePost.filterMap (newEffect order)) {f' : Fact} :
    f' ∈ (taskOp b' o').pre ↔ ∃ f ∈ (taskOp b o).pre, (emb T order).img f = some f' := by
  rw [mem_taskOp_pre, h1, h2, newFacts_eq T, List.mem_filterMap]
  constructor
  · rintro (⟨f, hf, hi⟩ | ⟨e', he', hv, hp⟩)
    · exact ⟨f, mem_taskOp_pre.mpr (Or.inl hf), hi⟩
    · obtain ⟨e, he, hne⟩ := List.mem_filterMap.mp he'
      obtain ⟨g1, g2, _, _⟩ := newEffect_some hne
      refine ⟨⟨e.var, f'.val⟩, mem_taskOp_pre.mpr (Or.inr ⟨e, he, rfl, by rw [← g2, hp]⟩), ?_⟩
      simp only [Emb.img, emb, g1, Option.map_some, hv]
  · rintro ⟨f, hf, hi⟩
    obtain ⟨i1, i2⟩ := img_some hi
    rcases mem_taskOp_pre.mp hf with hf | ⟨e, he, hv, hp⟩
    · exact Or.inl ⟨f, hf, hi⟩
    · refine Or.inr ⟨⟨f'.var, e.pre, e.post, newFacts order e.conds⟩, List.mem_filterMap.mpr ⟨e, he, ?_⟩, rfl, by rw [i2]; exact hp⟩
      unfold newEffect
      rw [hv, show newVar order f.var = some f'.var from i1]
      rfl

theorem pre_ok (hT : T.Valid) {o : SasOperator} (ho : o ∈ T.operators) {b : Bool} {f : Fact} (hf : f ∈ (taskOp b o).pre) : FactOk T f := by
  have hv := hT.operators o ho
  rcases mem_taskOp_pre.mp hf with hf | ⟨e, he, h1, h2⟩
  · exact hv.prevail.1 f hf
  · have := hv.pre e he f.val h2
    rwa [h1] at this

/-- the conditions of an operator with an effect on a variable of the order are on such variables -/
theorem pre_closed (hC : Closed T order) {o : SasOperator} (ho : o ∈ T.operators) {e : PrePost} (he : e ∈ o.prePost) (hv : e.var ∈ order) {b : Bool} {f : Fact} (hf : f ∈ (taskOp b o).pre) : f.var ∈ order := by
  by_cases h : f.var = e.var
  · rw [h]; exact hv
  · refine hC.closed _ _ ⟨h, Or.inl ⟨o, ho, e, he, rfl, ?_⟩⟩ hv
    rcases mem_taskOp_pre.mp hf with hf | ⟨e', he', h1, h2⟩
    · exact Or.inl ⟨f, hf, rfl⟩
    · exact Or.inr (Or.inl ⟨e', he', h1, by rw [h2]; simp⟩)

theorem cond_closed (hC : Closed T order) {o : SasOperator} (ho : o ∈ T.operators) {e : PrePost} (he : e ∈ o.prePost) (hv : e.var ∈ order) {f : Fact} (hf : f ∈ e.conds) : f.var ∈ order := by
  by_cases h : f.var = e.var
  · rw [h]; exact hv
  · exact hC.closed _ _ ⟨h, Or.inl ⟨o, ho, e, he, rfl, Or.inr (Or.inr ⟨f, hf, rfl⟩)⟩⟩ hv

variable {s s' m : State}

theorem applicable_fwd (hT : T.Valid) (hE : (emb T order).OK T.task T'.task) (hr : (emb T order).Rel T.task T'.task s s') {o o' : SasOperator} (ho : o ∈ T.operators) {b b' : Bool}
    (h1 : o'.prevail = newFacts order o.prevail) (h2 : o'.prePost = o.prePost.filterMap (newEffect order)) (ha : (taskOp b o).applicable s) : (taskOp b' o').applicable s' := by
  intro f' hf'
  obtain ⟨f, hf, hi⟩ := (mem_new_pre (T := T) (b := b) h1 h2).mp hf'
  exact (hr.holds hE (pre_ok hT ho hf) hi).mp (ha f hf)

theorem applicable_bwd (hT : T.Valid) (hC : Closed T order) (hE : (emb T order).OK T.task T'.task) (hr : (emb T order).Rel T.task T'.task s s') {o o' : SasOperator} (ho : o ∈ T.operators) {b b' : Bool}
    (h1 : o'.prevail = newFacts order o.prevail) (h2 : o'.prePost = o.prePost.filterMap (newEffect order)) {e : PrePost} (he : e ∈ o.prePost) (hv : e.var ∈ order)
    (ha : (taskOp b' o').applicable s') : (taskOp b o).applicable s := by
  intro f hf
  obtain ⟨k, hk⟩ := idx_mem hC (pre_closed hC ho he hv hf)
  have hi : (emb T order).img f = some ⟨k, f.val⟩ := by simp only [Emb.img, hk, Option.map_some]; rfl
  exact (hr.holds hE (pre_ok hT ho hf) hi).mpr (ha _ ((mem_new_pre (T := T) (b := b) h1 h2).mpr ⟨f, hf, hi⟩))

theorem assigned_eq (o : SasOperator) (b : Bool) (s : State) (v : Nat) : (taskOp b o).assigned s v = ((o.prePost.filter (fun e => decide (allHold e.conds s) && e.var == v)).map (·.post)).getLast? := by
  have hfil : (taskOp b o).effects.filter (fun e => decide (e.fires s) && e.fact.var == v) =
      (o.prePost.filter (fun e => decide (allHold e.conds s) && e.var == v)).map (fun e => (⟨e.conds, ⟨e.var, e.post⟩⟩ : Effect)) := by
    simp only [taskOp, List.filter_map]
    rfl
  unfold Operator.assigned
  rw [hfil, List.getLast?_map, List.getLast?_map, Option.map_map]
  rfl

theorem assigned_new (hT : T.Valid) (hC : Closed T order) (hE : (emb T order).OK T.task T'.task) (hr : (emb T order).Rel T.task T'.task s s') {o o' : SasOperator} (ho : o ∈ T.operators) {b b' : Bool}
    (h2 : o'.prePost = o.prePost.filterMap (newEffect order)) {v k : Nat} (hi : (emb T order).idx v = some k) : (taskOp b' o').assigned s' k = (taskOp b o).assigned s v := by
  rw [assigned_eq, assigned_eq, h2]
  congr 1
  have : ∀ es : List PrePost, (∀ e ∈ es, e ∈ o.prePost) → ((es.filterMap (newEffect order)).filter (fun e => decide (allHold e.conds s') && e.var == k)).map (·.post) =
      (es.filter (fun e => decide (allHold e.conds s) && e.var == v)).map (·.post) := by
    intro es
    induction es with
    | nil => intro _; rfl
    | cons e es ih =>
      intro hes
      have he := hes e (List.mem_cons_self ..)
      have ih := ih (fun x hx => hes x (List.mem_cons_of_mem _ hx))
      cases hn : newEffect order e with
      | none =>
        have hv : e.var ≠ v := fun h => newEffect_none.mp hn (by rw [h]; exact idx_mem' hC hi)
        rw [List.filterMap_cons, hn, List.filter_cons_of_neg (by simp [hv])]
        exact ih
      | some e' =>
        obtain ⟨g1, _, g3, g4⟩ := newEffect_some hn
        have hp : (decide (allHold e'.conds s') && e'.var == k) = (decide (allHold e.conds s) && e.var == v) := by
          by_cases hv : e.var = v
          · have hk : e'.var = k := by
              rw [hv] at g1
              exact Option.some.inj (g1.symm.trans hi)
            have := hr.allHold hE (fs := e.conds) (fun f hf => ((hT.operators o ho).conds e he).1 f hf) (fun f hf hnone => by
              obtain ⟨l, hl⟩ := idx_mem hC (cond_closed hC ho he (by rw [hv]; exact idx_mem' hC hi) hf)
              rw [hl] at hnone
              cases hnone)
            rw [g4, newFacts_eq T]
            simp only [hv, hk, beq_self_eq_true, Bool.and_true, this]
          · have hk : e'.var ≠ k := fun h => hv (hE.inj _ _ _ (by rw [← h]; exact g1) hi)
            rw [beq_false_of_ne hk, beq_false_of_ne hv, Bool.and_false, Bool.and_false]
        rw [List.filterMap_cons, hn]
        simp only [List.filter_cons, hp]
        split
        · simp only [List.map_cons, g3, ih]
        · exact ih
  exact this o.prePost (fun _ h => h)

theorem dom_result (hT : T.Valid) {o : SasOperator} (ho : o ∈ T.operators) {b : Bool} (hd : ∀ v x : Nat, s[v]? = some x → FactOk T ⟨v, x⟩) (hm : (taskOp b o).EffectResult s m) :
    ∀ v x : Nat, m[v]? = some x → FactOk T ⟨v, x⟩ := by
  intro v x hx
  have hlt : v < s.length := by rw [← hm.1]; exact (List.getElem?_eq_some_iff.mp hx).1
  have e0 := List.getElem?_eq_getElem hlt
  rw [hm.2 v _ e0, Option.some.injEq] at hx
  cases ha : (taskOp b o).assigned s v with
  | none =>
    rw [ha, Option.getD_none] at hx
    rw [← hx]
    exact hd v _ e0
  | some y =>
    rw [ha, Option.getD_some] at hx
    subst hx
    rw [assigned_eq] at ha
    obtain ⟨e, he, rfl⟩ := List.mem_map.mp (List.mem_of_getLast? ha)
    rw [List.mem_filter, Bool.and_eq_true, beq_iff_eq] at he
    rw [← he.2.2]
    exact (hT.operators o ho).post e he.1

theorem result_new (hT : T.Valid) (hC : Closed T order) (hE : (emb T order).OK T.task T'.task) (hr : (emb T order).Rel T.task T'.task s s') {o o' : SasOperator} (ho : o ∈ T.operators) {b b' : Bool}
    (h2 : o'.prePost = o.prePost.filterMap (newEffect order)) (hm : (taskOp b o).EffectResult s m) : ∃ m', (taskOp b' o').EffectResult s' m' ∧ (emb T order).Rel T.task T'.task m m' := by
  have hres := Verif.Registry.applyEffs_result (taskOp b' o') s'
  refine ⟨_, hres, hm.1.trans hr.length, hres.1.trans hr.length', dom_result hT ho hr.dom hm, fun v k hi => ?_⟩
  obtain ⟨x, hx, hx'⟩ := hr.val v k hi
  refine ⟨_, hm.2 v x hx, ?_⟩
  rw [hres.2 k _ hx', assigned_new (b := b) hT hC hE hr ho h2 hi]
  rfl

theorem result_dropped (hT : T.Valid) (hC : Closed T order) (hE : (emb T order).OK T.task T'.task) (hr : (emb T order).Rel T.task T'.task s s') {o : SasOperator} (ho : o ∈ T.operators) {b : Bool}
    (h2 : o.prePost.filterMap (newEffect order) = []) (hm : (taskOp b o).EffectResult s m) : (emb T order).Rel T.task T'.task m s' := by
  refine ⟨hm.1.trans hr.length, hr.length', dom_result hT ho hr.dom hm, fun v k hi => ?_⟩
  obtain ⟨x, hx, hx'⟩ := hr.val v k hi
  refine ⟨x, ?_, hx'⟩
  have := assigned_new (o' := ⟨[], [], [], 0⟩) (b := b) (b' := true) hT hC hE hr ho h2.symm hi
  rw [hm.2 v x hx, ← this, assigned_eq]
  rfl

/-- the operators that are kept -/
def keptOp (T : SasTask) (order : List Nat) (keep : Bool) : Nat → Option Nat := keepIdx (newOperator order keep) T.operators

theorem newOperator_some {o o' : SasOperator} (h : newOperator order keep o = some o') :
    o' = ⟨o.name, newFacts order o.prevail, o.prePost.filterMap (newEffect order), o.cost⟩ ∧ (o.prePost.filterMap (newEffect order) = [] → keep = true) := by
  unfold newOperator at h
  split at h
  · cases h
  · rename_i hn
    simp only [Option.some.injEq] at h
    exact ⟨h.symm, fun h => by cases keep with | true => rfl | false => exact absurd ⟨h, rfl⟩ hn⟩

theorem newOperator_none {o : SasOperator} (h : newOperator order keep o = none) : o.prePost.filterMap (newEffect order) = [] ∧ keep = false := by
  unfold newOperator at h
  split at h
  · assumption
  · cases h

theorem NewTask.relInit (hT : T.Valid) (hC : Closed T order) (hN : NewTask T order keep T') : (emb T order).Rel T.task T'.task T.task.init T'.task.init := by
  refine ⟨by simp [SasTask.task, hT.init], by simp [SasTask.task, hN.initLength], fun v x hx => hT.initOk v x hx, fun v k hi => ?_⟩
  have e0 := List.getElem?_eq_getElem (show v < T.init.length by rw [hT.init]; exact hC.lt v (idx_mem' hC hi))
  exact ⟨_, e0, (hN.initVal hC hi).trans e0⟩

theorem NewTask.goalIff (hT : T.Valid) (hC : Closed T order) (hN : NewTask T order keep T') (hr : (emb T order).Rel T.task T'.task s s') : allHold T.task.goal s ↔ allHold T'.task.goal s' := by
  have h1 : allHold T'.task.goal s' ↔ allHold (T.goal.filterMap (emb T order).img) s' := by
    show (∀ f ∈ T'.goal, f.holds s') ↔ ∀ f ∈ newFacts order T.goal, f.holds s'
    simp only [hN.goal.mem_iff]
  rw [h1]
  refine hr.allHold (hN.ok hT hC) (fs := T.goal) hT.goal.1 (fun f hf hnone => ?_)
  obtain ⟨l, hl⟩ := idx_mem hC (hC.goal f hf)
  rw [hl] at hnone
  cases hnone

theorem NewTask.fwd (hT : T.Valid) (hC : Closed T order) (hN : NewTask T order keep T') : (emb T order).Fwd T.task T'.task (keptOp T order keep) (keep = false) := by
  have hE := hN.ok hT hC
  refine ⟨hE, hE.stratified (task_stratified hT), ?_, ?_, fun s s' hr => (hN.goalIff hT hC hr).mp, hN.relInit hT hC⟩
  · intro i j o ho hk
    obtain ⟨a, b, h1, h2, h3⟩ := keepIdx_get _ hk
    rw [task_ops, List.getElem?_map, h1, Option.map_some, Option.some.injEq] at ho
    subst ho
    have ha := List.mem_of_getElem? h1
    rw [← hN.ops] at h3
    obtain ⟨h4, _⟩ := newOperator_some h2
    refine ⟨taskOp T'.metric b, by rw [task_ops, List.getElem?_map, h3]; rfl, fun s s' hr happ => ⟨?_, fun m hm => ?_⟩⟩
    · exact applicable_fwd hT hE hr ha (by rw [h4]) (by rw [h4]) happ
    · exact result_new hT hC hE hr ha (by rw [h4]) hm
  · intro i o ho hk s s' hr happ m hm
    rw [task_ops, List.getElem?_map, Option.map_eq_some_iff] at ho
    obtain ⟨a, h1, rfl⟩ := ho
    obtain ⟨h2, h3⟩ := newOperator_none (keepIdx_none _ hk h1)
    exact ⟨result_dropped hT hC hE hr (List.mem_of_getElem? h1) h2 hm, h3⟩

theorem NewTask.bwd (hT : T.Valid) (hC : Closed T order) (hN : NewTask T order keep T') : (emb T order).Bwd T.task T'.task (keptOp T order keep) (keep = true) := by
  have hE := hN.ok hT hC
  refine ⟨hE, hE.stratified (task_stratified hT), exists_stable hT, ?_, fun s s' hr => (hN.goalIff hT hC hr).mpr, hN.relInit hT hC⟩
  intro j o' ho'
  rw [task_ops, List.getElem?_map, Option.map_eq_some_iff] at ho'
  obtain ⟨b, h1, rfl⟩ := ho'
  rw [hN.ops] at h1
  obtain ⟨i, a, h2, h3, h4⟩ := keepIdx_surj _ h1
  obtain ⟨h5, h6⟩ := newOperator_some h3
  have ha := List.mem_of_getElem? h2
  cases hp : a.prePost.filterMap (newEffect order) with
  | nil =>
    refine Or.inl ⟨h6 hp, fun s' m' hm => ?_⟩
    refine List.ext_getElem? (fun v => ?_)
    cases hx : s'[v]? with
    | none => exact List.getElem?_eq_none (by rw [hm.1]; exact List.getElem?_eq_none_iff.mp hx)
    | some x =>
      rw [hm.2 v x hx, assigned_eq, h5, hp]
      rfl
  | cons e' es =>
    have he' : e' ∈ a.prePost.filterMap (newEffect order) := by rw [hp]; exact List.mem_cons_self ..
    obtain ⟨e, he, hne⟩ := List.mem_filterMap.mp he'
    have hv : e.var ∈ order := by
      by_contra hn
      rw [newEffect_none.mpr hn] at hne
      cases hne
    refine Or.inr ⟨i, taskOp T.metric a, by rw [task_ops, List.getElem?_map, h2]; rfl, h4, fun s s' hr happ => ⟨?_, fun m hm => ?_⟩⟩
    · exact applicable_bwd hT hC hE hr ha (by rw [h5]) (by rw [h5]) he hv happ
    · exact result_new hT hC hE hr ha (by rw [h5]) hm

theorem NewTask.label (hN : NewTask T order keep T') (i j : Nat) (h : keptOp T order keep i = some j) : T'.label j = T.label i := by
  obtain ⟨a, b, h1, h2, h3⟩ := keepIdx_get _ h
  obtain ⟨rfl, _⟩ := newOperator_some h2
  unfold SasTask.label
  rw [hN.ops, h3, h1]
  rfl

/-! ### validity -/

theorem condOk_img (hC : Closed T order) (hN : NewTask T order keep T') {fs : List Fact} (h : CondOk T fs) : CondOk T' (newFacts order fs) := by
  refine ⟨fun f' hf' => ?_, (List.length_filterMap_le _ _).trans h.2⟩
  obtain ⟨f, hf, hi⟩ := List.mem_filterMap.mp hf'
  exact (factOk_img (T := T) hC hN hi).mpr (h.1 f hf)

theorem mem_vars (hC : Closed T order) (hN : NewTask T order keep T') {x : SasVariable} (hx : x ∈ T'.variables) : x ∈ T.variables := by
  obtain ⟨k, hk⟩ := List.mem_iff_getElem?.mp hx
  obtain ⟨v, hv⟩ := idx_surj hC hN (List.getElem?_eq_some_iff.mp hk).1
  rw [hN.var hC hv] at hk
  exact List.mem_of_getElem? hk

theorem NewTask.valid (hT : T.Valid) (hC : Closed T order) (hN : NewTask T order false T') : T'.Valid := by
  have hE := hN.ok hT hC
  have hinj : ∀ v w k, (emb T order).idx v = some k → (emb T order).idx w = some k → v = w := hE.inj
  exact {
    someVariable := by
      intro h
      have h1 := hN.varsLength
      rw [h] at h1
      obtain ⟨g, hg⟩ := List.exists_mem_of_ne_nil _ hT.someGoal
      have h2 := hC.goal g hg
      rw [List.eq_nil_of_length_eq_zero h1.symm] at h2
      simp at h2
    names := fun v hv => hT.names v (mem_vars hC hN hv)
    domain := fun v hv => hT.domain v (mem_vars hC hN hv)
    derived := fun v hv => hT.derived v (mem_vars hC hN hv)
    layers := fun v hv => hT.layers v (mem_vars hC hN hv)
    fewVariables := by
      rw [hN.varsLength]
      refine le_trans ?_ hT.fewVariables
      have h1 : order.Subperm (List.range T.variables.length) := List.subperm_of_subset hC.nodup (fun v hv => List.mem_range.mpr (hC.lt v hv))
      simpa using h1.length_le
    mutexes := fun m hm => by
      rw [hN.mutexes, List.mem_filter] at hm
      obtain ⟨m0, hm0, rfl⟩ := List.mem_map.mp hm.1
      exact condOk_img hC hN (hT.mutexes m0 hm0)
    fewMutexes := by
      rw [hN.mutexes]
      refine (List.length_filter_le _ _).trans ?_
      rw [List.length_map]
      exact hT.fewMutexes
    init := hN.initLength
    initOk := fun k x hx => by
      have hk := (List.getElem?_eq_some_iff.mp hx).1
      rw [hN.initLength] at hk
      obtain ⟨v, hv⟩ := idx_surj hC hN hk
      rw [hN.initVal hC hv] at hx
      exact (factOk_img (T := T) (f := ⟨v, x⟩) hC hN (by simp only [Emb.img, hv, Option.map_some]; rfl)).mpr (hT.initOk v x hx)
    goal := by
      have h1 := condOk_img hC hN hT.goal
      exact ⟨fun f hf => h1.1 f (hN.goal.mem_iff.mp hf), by rw [hN.goal.length_eq]; exact h1.2⟩
    someGoal := by
      intro h
      obtain ⟨g, hg⟩ := List.exists_mem_of_ne_nil _ hT.someGoal
      obtain ⟨k, hk⟩ := idx_mem hC (hC.goal g hg)
      have : (⟨k, g.val⟩ : Fact) ∈ T'.goal := hN.goal.mem_iff.mpr (List.mem_filterMap.mpr ⟨g, hg, by
        rw [show newVar order g.var = some k from hk]
        rfl⟩)
      rw [h] at this
      simp at this
    goalOnce := by
      rw [(hN.goal.map _).nodup_iff, newFacts_eq T, List.map_filterMap]
      have h1 := hT.goalOnce
      unfold List.Nodup at h1 ⊢
      rw [List.pairwise_map] at h1
      refine List.Pairwise.filterMap _ (fun a a' hne b hb b' hb' => ?_) h1
      simp only [Option.map_eq_some_iff] at hb hb'
      obtain ⟨f, hf, rfl⟩ := hb
      obtain ⟨g, hg, rfl⟩ := hb'
      intro he
      have e1 := (img_some hf).1
      rw [he] at e1
      exact hne (hinj _ _ _ e1 (img_some hg).1)
    operators := fun o' ho' => by
      rw [hN.ops] at ho'
      obtain ⟨o, ho, h⟩ := List.mem_filterMap.mp ho'
      obtain ⟨rfl, hne⟩ := newOperator_some h
      have hv := hT.operators o ho
      have heff : ∀ e' ∈ o.prePost.filterMap (newEffect order), ∃ e ∈ o.prePost, (emb T order).idx e.var = some e'.var ∧ e'.pre = e.pre ∧ e'.post = e.post ∧ e'.conds = newFacts order e.conds := by
        intro e' he'
        obtain ⟨e, he, h1⟩ := List.mem_filterMap.mp he'
        exact ⟨e, he, newEffect_some h1⟩
      have himg : ∀ {v k x : Nat}, (emb T order).idx v = some k → (emb T order).img ⟨v, x⟩ = some ⟨k, x⟩ := fun h => by simp only [Emb.img, h, Option.map_some]; rfl
      exact {
        name := hv.name
        prevail := condOk_img hC hN hv.prevail
        someEffect := fun h => by cases hne h
        fewEffects := (List.length_filterMap_le _ _).trans hv.fewEffects
        pre := fun e' he' x hx => by
          obtain ⟨e, he, h1, h2, _⟩ := heff e' he'
          exact (factOk_img hC hN (himg h1)).mpr (hv.pre e he x (by rw [← h2]; exact hx))
        post := fun e' he' => by
          obtain ⟨e, he, h1, _, h3, _⟩ := heff e' he'
          rw [h3]
          exact (factOk_img hC hN (himg h1)).mpr (hv.post e he)
        conds := fun e' he' => by
          obtain ⟨e, he, _, _, _, h4⟩ := heff e' he'
          rw [h4]
          exact condOk_img hC hN (hv.conds e he)
        basic := fun e' he' => by
          obtain ⟨e, he, h1, _⟩ := heff e' he'
          rw [hN.layer hC h1]
          exact hv.basic e he
        cost := hv.cost }
    fewOperators := by
      rw [hN.ops]
      exact (List.length_filterMap_le _ _).trans hT.fewOperators
    axioms := fun a' ha' => by
      obtain ⟨a, ha, h', hi, rfl⟩ := hN.mem_axioms.mp ha'
      have hv := hT.axioms a ha
      obtain ⟨i1, i2⟩ := img_some hi
      obtain ⟨l, hl, hb⟩ := hv.derived
      exact {
        conds := condOk_img hC hN hv.conds
        effect := (factOk_img hC hN hi).mpr hv.effect
        derived := ⟨l, by rw [hN.layer hC i1, hl], fun c' hc' lc hlc => by
          obtain ⟨c, hc, hci⟩ := List.mem_filterMap.mp hc'
          obtain ⟨c1, c2⟩ := img_some hci
          rw [hN.layer hC c1] at hlc
          rw [hN.initVal hC c1, c2]
          exact hb c hc lc hlc⟩
        nonInit := by
          show T'.init[h'.var]? ≠ some h'.val
          rw [hN.initVal hC i1, i2]
          exact hv.nonInit }
    fewAxioms := by
      rw [hN.axioms]
      exact (List.length_filterMap_le _ _).trans hT.fewAxioms }

theorem NewTask.mutex (hC : Closed T order) (hN : NewTask T order keep T') {f g f' g' : Fact} (hf : (emb T order).img f = some f') (hg : (emb T order).img g = some g') : T'.Mutex f' g' ↔ T.Mutex f g := by
  obtain ⟨f1, f2⟩ := img_some hf
  obtain ⟨g1, g2⟩ := img_some hg
  have hinj : ∀ {v w k : Nat}, (emb T order).idx v = some k → (emb T order).idx w = some k → v = w := fun h1 h2 => by
    have h1 := (idx_iff hC).mp h1
    rw [(idx_iff hC).mp h2] at h1
    exact (Option.some.inj h1).symm
  have hv : f'.var = g'.var ↔ f.var = g.var := ⟨fun h => hinj (by rw [← h]; exact f1) g1, fun h => by
    rw [h] at f1
    exact Option.some.inj (f1.symm.trans g1)⟩
  have hmem : ∀ {a a' : Fact} (m : List Fact), (emb T order).img a = some a' → (a' ∈ newFacts order m ↔ a ∈ m) := by
    intro a a' m ha
    rw [newFacts_eq T, List.mem_filterMap]
    constructor
    · rintro ⟨b, hb, hb'⟩
      obtain ⟨a1, a2⟩ := img_some ha
      obtain ⟨b1, b2⟩ := img_some hb'
      have h1 := hinj a1 b1
      have h2 := a2.symm.trans b2
      obtain ⟨_, _⟩ := a
      obtain ⟨_, _⟩ := b
      simp only at h1 h2
      rw [h1, h2]
      exact hb
    · intro h
      exact ⟨a, h, ha⟩
  unfold SasTask.Mutex
  rw [ne_eq f'.var, ne_eq f.var, hv, f2, g2]
  refine or_congr Iff.rfl (and_congr_right (fun hne => ?_))
  constructor
  · rintro ⟨m', hm', h1, h2⟩
    rw [hN.mutexes, List.mem_filter] at hm'
    obtain ⟨m, hm, rfl⟩ := List.mem_map.mp hm'.1
    exact ⟨m, hm, (hmem m hf).mp h1, (hmem m hg).mp h2⟩
  · rintro ⟨m, hm, h1, h2⟩
    have h3 := (hmem m hf).mpr h1
    have h4 := (hmem m hg).mpr h2
    refine ⟨newFacts order m, ?_, h3, h4⟩
    rw [hN.mutexes, List.mem_filter, decide_eq_true_eq]
    refine ⟨List.mem_map_of_mem hm, ?_⟩
    by_contra hle
    have h5 : f'.var ∈ ((newFacts order m).map (·.var)).dedup := List.mem_dedup.mpr (List.mem_map_of_mem h3)
    have h6 : g'.var ∈ ((newFacts order m).map (·.var)).dedup := List.mem_dedup.mpr (List.mem_map_of_mem h4)
    refine hne (hv.mp ?_)
    generalize ((newFacts order m).map (·.var)).dedup = l at hle h5 h6
    match l, hle, h5, h6 with
    | [], _, h5, _ => simp at h5
    | [x], _, h5, h6 =>
      rw [List.mem_singleton] at h5 h6
      rw [h5, h6]
    | _ :: _ :: _, hle, _, _ => simp at hle

end

end Verif.VarOrder
