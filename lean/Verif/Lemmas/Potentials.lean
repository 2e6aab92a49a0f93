import Verif.Model.Potentials
import Verif.Spec.Potentials
import Verif.Lemmas.SimpleSucc
import Mathlib.Tactic.Linarith
import Mathlib.Tactic.Ring
import Mathlib.Algebra.BigOperators.Group.Finset.Basic
import Mathlib.Algebra.Order.BigOperators.Group.List

/- Lemmas on the linear program of potential heuristics. -/
namespace Verif.Potentials
open Verif.LP

theorem mapM_of_all {α β : Type} {f : α → Option β} {g : α → β} : ∀ {l : List α}, (∀ a ∈ l, f a = some (g a)) → l.mapM f = some (l.map g)
  | [], _ => rfl
  | a :: l, h => by
    rw [List.mapM_cons, h a (by simp), mapM_of_all (fun b hb => h b (by simp [hb]))]
    rfl

theorem mapM_exists {α β : Type} {f : α → Option β} {P : α → β → Prop} : ∀ {l : List α}, (∀ a ∈ l, ∃ b, f a = some b ∧ P a b) → ∃ bs, l.mapM f = some bs ∧ List.Forall₂ P l bs
  | [], _ => ⟨[], rfl, .nil⟩
  | a :: l, h => by
    obtain ⟨b, h1, h2⟩ := h a (by simp)
    obtain ⟨bs, h3, h4⟩ := mapM_exists (l := l) (fun b hb => h b (by simp [hb]))
    refine ⟨b :: bs, ?_, .cons h2 h4⟩
    rw [List.mapM_cons, h1, h3]
    rfl

/-- the number of the first LP variable of variable `v` -/
def offL (ds : List Variable) (v : Nat) : Nat := ((ds.take v).map (fun d => d.domain + 1)).sum
def off (t : Task) (v : Nat) : Nat := offL t.vars v

theorem lpVarIds_get : ∀ (ds : List Variable) (n v : Nat), (lpVarIds ds n)[v]? = (ds[v]?).map (fun d => List.range' (n + offL ds v) (d.domain + 1))
  | [], n, v => by simp [lpVarIds]
  | d :: ds, n, 0 => by simp [lpVarIds, offL]
  | d :: ds, n, v + 1 => by
    simp only [lpVarIds, List.getElem?_cons_succ]
    rw [lpVarIds_get ds _ v]
    simp only [offL, List.take_succ_cons, List.map_cons, List.sum_cons, Nat.add_assoc]

theorem offL_lt : ∀ {ds : List Variable} {v a : Nat} {d : Variable}, ds[v]? = some d → a ≤ d.domain → offL ds v + a < (ds.map (fun d => d.domain + 1)).sum
  | [], v, a, d, h, _ => by simp at h
  | d' :: ds, 0, a, d, h, ha => by
    simp only [List.getElem?_cons_zero, Option.some.injEq] at h
    subst h
    simp [offL]; omega
  | d' :: ds, v + 1, a, d, h, ha => by
    have := offL_lt (ds := ds) (v := v) (by simpa using h) ha
    simp only [offL, List.take_succ_cons, List.map_cons, List.sum_cons] at this ⊢
    omega

theorem offL_inj : ∀ {ds : List Variable} {v v' a a' : Nat} {d d' : Variable}, ds[v]? = some d → ds[v']? = some d' → a ≤ d.domain → a' ≤ d'.domain →
    offL ds v + a = offL ds v' + a' → v = v' ∧ a = a'
  | [], v, _, _, _, d, _, h, _, _, _, _ => by simp at h
  | _ :: ds, 0, 0, a, a', d, d', _, _, _, _, h => by simp [offL] at h; exact ⟨rfl, h⟩
  | e :: ds, 0, v' + 1, a, a', d, d', h1, h2, h3, h4, h => by
    simp only [List.getElem?_cons_zero, Option.some.injEq] at h1
    subst h1
    simp [offL] at h; omega
  | e :: ds, v + 1, 0, a, a', d, d', h1, h2, h3, h4, h => by
    simp only [List.getElem?_cons_zero, Option.some.injEq] at h2
    subst h2
    simp [offL] at h; omega
  | e :: ds, v + 1, v' + 1, a, a', d, d', h1, h2, h3, h4, h => by
    have := offL_inj (ds := ds) (v := v) (v' := v') (by simpa using h1) (by simpa using h2) h3 h4 (by
      simp only [offL, List.take_succ_cons, List.map_cons, List.sum_cons] at h ⊢
      omega)
    exact ⟨by omega, this.2⟩

theorem lpVar_eq {t : Task} {v a : Nat} {d : Variable} (hd : t.vars[v]? = some d) (ha : a ≤ d.domain) : lpVar t v a = some (off t v + a) := by
  unfold lpVar
  rw [lpVarIds_get, hd]
  simp only [Option.map_some, Option.bind_some, Nat.zero_add]
  rw [List.getElem?_range' (by omega)]
  simp [off]

theorem off_lt {t : Task} {v a : Nat} {d : Variable} (hd : t.vars[v]? = some d) (ha : a ≤ d.domain) : off t v + a < numLpVars t := offL_lt hd ha

theorem off_inj {t : Task} {v v' a a' : Nat} {d d' : Variable} (h1 : t.vars[v]? = some d) (h2 : t.vars[v']? = some d') (h3 : a ≤ d.domain) (h4 : a' ≤ d'.domain)
    (h : off t v + a = off t v' + a') : v = v' ∧ a = a' := offL_inj h1 h2 h3 h4 h

/-- the value of the precondition on a variable, `dom` if there is none -/
def preV (t : Task) (o : Operator) (v : Nat) : Nat := (preValue t o v).getD 0
def goalV (t : Task) (v : Nat) : Nat := (goalValue t v).getD 0

/-- what `x` says about facts -/
def weight (t : Task) (x : Nat → Rat) (v a : Nat) : Rat := x (off t v + a)

theorem lastFact_spec {t : Task} {fs : List Fact} (hf : ∀ f ∈ fs, t.ValidFact f) {v : Nat} {d : Variable} (hd : t.vars[v]? = some d) :
    (∃ f ∈ fs, f.var = v ∧ (fs.filter (fun f => f.var == v)).getLast? = some f ∧ f.val < d.domain) ∨ ((∀ f ∈ fs, f.var ≠ v) ∧ (fs.filter (fun f => f.var == v)).getLast? = none) := by
  cases h : (fs.filter (fun f => f.var == v)).getLast? with
  | none =>
    refine .inr ⟨fun f hf' e => ?_, rfl⟩
    rw [List.getLast?_eq_none_iff, List.filter_eq_nil_iff] at h
    exact h f hf' (by simp [e])
  | some f =>
    have hm := List.mem_of_getLast? h
    simp only [List.mem_filter, beq_iff_eq] at hm
    obtain ⟨d', h1, h2⟩ := hf f hm.1
    rw [hm.2, hd] at h1
    cases h1
    exact .inl ⟨f, hm.1, hm.2, rfl, h2⟩

theorem preValue_spec {t : Task} {o : Operator} (hf : ∀ f ∈ o.pre, t.ValidFact f) {v : Nat} {d : Variable} (hd : t.vars[v]? = some d) :
    preValue t o v = some (preV t o v) ∧ preV t o v ≤ d.domain ∧ ((∃ f ∈ o.pre, f.var = v ∧ f.val = preV t o v ∧ preV t o v < d.domain) ∨ ((∀ f ∈ o.pre, f.var ≠ v) ∧ preV t o v = d.domain)) := by
  rcases lastFact_spec hf hd with ⟨f, h1, h2, h3, h4⟩ | ⟨h1, h3⟩
  · have : preValue t o v = some f.val := by simp [preValue, h3]
    simp only [preV, this, Option.getD_some]
    exact ⟨trivial, by omega, .inl ⟨f, h1, h2, rfl, h4⟩⟩
  · have : preValue t o v = some d.domain := by simp [preValue, h3, undefinedValue, hd]
    simp only [preV, this, Option.getD_some]
    exact ⟨trivial, le_refl _, .inr ⟨h1, trivial⟩⟩

theorem goalValue_spec {t : Task} (hf : ∀ f ∈ t.goal, t.ValidFact f) {v : Nat} {d : Variable} (hd : t.vars[v]? = some d) :
    goalValue t v = some (goalV t v) ∧ goalV t v ≤ d.domain ∧ ((∃ f ∈ t.goal, f.var = v ∧ f.val = goalV t v ∧ goalV t v < d.domain) ∨ ((∀ f ∈ t.goal, f.var ≠ v) ∧ goalV t v = d.domain)) := by
  rcases lastFact_spec hf hd with ⟨f, h1, h2, h3, h4⟩ | ⟨h1, h3⟩
  · have : goalValue t v = some f.val := by simp [goalValue, h3]
    simp only [goalV, this, Option.getD_some]
    exact ⟨trivial, by omega, .inl ⟨f, h1, h2, rfl, h4⟩⟩
  · have : goalValue t v = some d.domain := by simp [goalValue, h3, undefinedValue, hd]
    simp only [goalV, this, Option.getD_some]
    exact ⟨trivial, le_refl _, .inr ⟨h1, trivial⟩⟩

/-- the coefficients of an effect -/
def effCoefs (t : Task) (o : Operator) (e : Effect) : List (Nat × Int) :=
  if off t e.fact.var + preV t o e.fact.var ≠ off t e.fact.var + e.fact.val then
    [(off t e.fact.var + preV t o e.fact.var, 1), (off t e.fact.var + e.fact.val, -1)] else []

theorem effectCoefficients_eq {t : Task} {o : Operator} (hf : ∀ f ∈ o.pre, t.ValidFact f) {e : Effect} (he : t.ValidFact e.fact) :
    effectCoefficients t o e = some (effCoefs t o e) := by
  obtain ⟨d, h1, h2⟩ := he
  obtain ⟨h3, h4, _⟩ := preValue_spec hf h1
  simp only [effectCoefficients, h3, lpVar_eq h1 h4, lpVar_eq h1 (Nat.le_of_lt h2), effCoefs]

/-- the constraint of an operator -/
def opRow (t : Task) (o : Operator) : Row :=
  ⟨none, some (o.cost : Rat), (((o.effects.map (effCoefs t o)).flatten.mergeSort pairLe).map (fun c => (c.1, (c.2 : Rat))))⟩

theorem operatorRow_eq {t : Task} {o : Operator} (hf : ∀ f ∈ o.pre, t.ValidFact f) (he : ∀ e ∈ o.effects, t.ValidFact e.fact) :
    operatorRow t o = some (opRow t o) := by
  unfold operatorRow
  rw [mapM_of_all (g := effCoefs t o) (fun e h => effectCoefficients_eq hf (he e h))]
  rfl

theorem opRow_value {t : Task} {o : Operator} (x : Nat → Rat) :
    (opRow t o).value x = (o.effects.map (fun e => weight t x e.fact.var (preV t o e.fact.var) - weight t x e.fact.var e.fact.val)).sum := by
  unfold opRow Row.value
  simp only [List.map_map]
  have hp := (List.mergeSort_perm (o.effects.map (effCoefs t o)).flatten pairLe).map ((fun e : Nat × Rat => e.2 * x e.1) ∘ fun c : Nat × Int => (c.1, (c.2 : Rat)))
  rw [hp.sum_eq]
  induction o.effects with
  | nil => rfl
  | cons e es ih =>
    simp only [List.map_cons, List.flatten_cons, List.map_append, List.sum_append, List.sum_cons]
    rw [ih]
    congr 1
    unfold effCoefs weight
    split
    · simp; ring
    · rename_i h
      have : off t e.fact.var + preV t o e.fact.var = off t e.fact.var + e.fact.val := not_not.mp h
      simp [this]

theorem effCoefs_mem {t : Task} {o : Operator} (hf : ∀ f ∈ o.pre, t.ValidFact f) {e : Effect} (he : t.ValidFact e.fact) {c : Nat × Int} (hc : c ∈ effCoefs t o e) :
    ∃ d a, t.vars[e.fact.var]? = some d ∧ a ≤ d.domain ∧ c.1 = off t e.fact.var + a := by
  obtain ⟨d, h1, h2⟩ := he
  obtain ⟨h3, h4, _⟩ := preValue_spec hf h1
  unfold effCoefs at hc
  split at hc
  · simp only [List.mem_cons, List.not_mem_nil, or_false] at hc
    rcases hc with rfl | rfl
    · exact ⟨d, _, h1, h4, rfl⟩
    · exact ⟨d, _, h1, Nat.le_of_lt h2, rfl⟩
  · simp at hc

theorem effCoefs_nodup {t : Task} {o : Operator} : ∀ {es : List Effect}, (∀ f ∈ o.pre, t.ValidFact f) → (∀ e ∈ es, t.ValidFact e.fact) → (es.map (·.fact.var)).Nodup →
    (((es.map (effCoefs t o)).flatten).map (·.1)).Nodup
  | [], _, _, _ => by simp
  | e :: es, hf, he, hn => by
    simp only [List.map_cons, List.nodup_cons] at hn
    simp only [List.map_cons, List.flatten_cons, List.map_append]
    rw [List.nodup_append]
    refine ⟨?_, effCoefs_nodup hf (fun e h => he e (by simp [h])) hn.2, ?_⟩
    · unfold effCoefs
      split
      · rename_i h; simpa using h
      · simp
    · intro a ha b hb hab
      subst hab
      obtain ⟨c, hc, rfl⟩ := List.mem_map.mp ha
      obtain ⟨c', hc', e1⟩ := List.mem_map.mp hb
      obtain ⟨l, hl, hc'⟩ := List.mem_flatten.mp hc'
      obtain ⟨e', he', rfl⟩ := List.mem_map.mp hl
      obtain ⟨d, a, h1, h2, h3⟩ := effCoefs_mem hf (he e (by simp)) hc
      obtain ⟨d', a', h1', h2', h3'⟩ := effCoefs_mem hf (he e' (by simp [he'])) hc'
      have := (off_inj h1 h1' h2 h2' (by rw [← h3, ← h3', e1])).1
      exact hn.1 (List.mem_map.mpr ⟨e', he', this.symm⟩)

theorem opRow_wf {t : Task} {o : Operator} (hf : ∀ f ∈ o.pre, t.ValidFact f) (he : ∀ e ∈ o.effects, t.ValidFact e.fact) (hn : (o.effects.map (·.fact.var)).Nodup) :
    ((opRow t o).entries.map (·.1)).Nodup ∧ ∀ e ∈ (opRow t o).entries, e.1 < numLpVars t := by
  have hp := List.mergeSort_perm (o.effects.map (effCoefs t o)).flatten pairLe
  constructor
  · simp only [opRow, List.map_map]
    exact (hp.map _).nodup_iff.mpr (effCoefs_nodup hf he hn)
  · intro c hc
    simp only [opRow, List.mem_map] at hc
    obtain ⟨c, hc, rfl⟩ := hc
    rw [hp.mem_iff] at hc
    obtain ⟨l, hl, hc⟩ := List.mem_flatten.mp hc
    obtain ⟨e, he', rfl⟩ := List.mem_map.mp hl
    obtain ⟨d, a, h1, h2, h3⟩ := effCoefs_mem hf (he e he') hc
    simp only [h3]
    exact off_lt h1 h2

/-- the constraints for undefined values -/
def undefRow (t : Task) (v val dom : Nat) : Row := ⟨none, some 0, [(off t v + val, 1), (off t v + dom, -1)]⟩

theorem undefinedRows_eq {t : Task} {v : Nat} {d : Variable} (hd : t.vars[v]? = some d) :
    undefinedRows t v d = some ((List.range d.domain).map (fun val => undefRow t v val d.domain)) := by
  unfold undefinedRows
  rw [lpVar_eq hd (le_refl _)]
  simp only
  refine mapM_of_all (fun a ha => ?_)
  rw [lpVar_eq hd (Nat.le_of_lt (List.mem_range.mp ha))]
  rfl

theorem undefRow_value {t : Task} {v val dom : Nat} (x : Nat → Rat) : (undefRow t v val dom).value x = weight t x v val - weight t x v dom := by
  simp [undefRow, Row.value, weight]; ring

/-- the bounds for goals -/
theorem fixGoals {t : Task} (hg : ∀ f ∈ t.goal, t.ValidFact f) : ∀ (vs : List Nat) (cols : List Column), (∀ v ∈ vs, v < t.vars.length) → cols.length = numLpVars t →
    ∃ cols', vs.foldlM (fixGoal t) cols = some cols' ∧ cols'.length = cols.length ∧
      ∀ i c, cols[i]? = some c → cols'[i]? = some (if ∃ v ∈ vs, i = off t v + goalV t v then { c with lower := some 0, upper := some 0 } else c)
  | [], cols, _, _ => ⟨cols, rfl, rfl, fun i c h => by simpa using h⟩
  | v :: vs, cols, hvs, hl => by
    have hd := List.getElem?_eq_getElem (hvs v (by simp))
    obtain ⟨h1, h2, _⟩ := goalValue_spec hg hd
    have hlt := off_lt hd h2
    rw [← hl] at hlt
    have hc := List.getElem?_eq_getElem hlt
    have e1 : fixGoal t cols v = some (cols.set (off t v + goalV t v) { cols[off t v + goalV t v] with lower := some 0, upper := some 0 }) := by
      simp only [fixGoal, h1, lpVar_eq hd h2, hc]
    obtain ⟨cols', k1, k2, k3⟩ := fixGoals hg vs (cols.set (off t v + goalV t v) { cols[off t v + goalV t v] with lower := some 0, upper := some 0 }) (fun u hu => hvs u (by simp [hu])) (by simpa using hl)
    refine ⟨cols', by rw [List.foldlM_cons, e1]; exact k1, by simpa using k2, fun i c hi => ?_⟩
    by_cases hiv : i = off t v + goalV t v
    · subst hiv
      rw [hc] at hi
      have := k3 (off t v + goalV t v) { c with lower := some 0, upper := some 0 } (by rw [List.getElem?_set_self hlt]; cases hi; rfl)
      rw [this, if_pos (⟨v, by simp, rfl⟩ : ∃ u ∈ v :: vs, off t v + goalV t v = off t u + goalV t u)]
      split <;> rfl
    · have := k3 i c (by rw [List.getElem?_set_ne (Ne.symm hiv)]; exact hi)
      rw [this]
      have : (∃ u ∈ vs, i = off t u + goalV t u) ↔ ∃ u ∈ v :: vs, i = off t u + goalV t u := by simp [hiv]
      simp only [this]

/-- everything about the linear program -/
theorem constructLp_spec {t : Task} (ht : t.PotentialOk) (mp : Option Rat) :
    ∃ p, constructLp t mp = some p ∧ p.maximize = true ∧ p.columns.length = numLpVars t ∧ p.WellFormed ∧
      (∀ i c, p.columns[i]? = some c → c = if ∃ v < t.vars.length, i = off t v + goalV t v then ⟨some 0, some 0, 1⟩ else ⟨none, mp, 1⟩) ∧
      ∀ r, r ∈ p.rows ↔ (∃ o ∈ t.ops, r = opRow t o) ∨ ∃ v d a, t.vars[v]? = some d ∧ a < d.domain ∧ r = undefRow t v a d.domain := by
  have h1 : t.ops.mapM (operatorRow t) = some (t.ops.map (opRow t)) := mapM_of_all (fun o ho => operatorRow_eq (ht.wf.pre o ho) (fun e he => ht.wf.effFact o ho e he))
  obtain ⟨cols, h2, h3, h4⟩ := fixGoals ht.wf.goalFacts (List.range t.vars.length) (List.replicate (numLpVars t) ⟨none, mp, 1⟩) (fun v hv => List.mem_range.mp hv) (by simp)
  have h5 : t.vars.zipIdx.mapM (fun v => undefinedRows t v.2 v.1) = some (t.vars.zipIdx.map (fun v => (List.range v.1.domain).map (fun val => undefRow t v.2 val v.1.domain))) :=
    mapM_of_all (fun v hv => undefinedRows_eq (List.mem_zipIdx_iff_getElem?.mp hv))
  have hrows : ∀ r, r ∈ t.ops.map (opRow t) ++ (t.vars.zipIdx.map (fun v => (List.range v.1.domain).map (fun val => undefRow t v.2 val v.1.domain))).flatten ↔
      (∃ o ∈ t.ops, r = opRow t o) ∨ ∃ v d a, t.vars[v]? = some d ∧ a < d.domain ∧ r = undefRow t v a d.domain := by
    intro r
    simp only [List.mem_append, List.mem_map, List.mem_flatten, List.mem_range]
    constructor
    · rintro (⟨o, ho, rfl⟩ | ⟨l, ⟨v, hv, rfl⟩, hr⟩)
      · exact .inl ⟨o, ho, rfl⟩
      · obtain ⟨a, ha, rfl⟩ := List.mem_map.mp hr
        exact .inr ⟨v.2, v.1, a, List.mem_zipIdx_iff_getElem?.mp hv, List.mem_range.mp ha, rfl⟩
    · rintro (⟨o, ho, rfl⟩ | ⟨v, d, a, hd, ha, rfl⟩)
      · exact .inl ⟨o, ho, rfl⟩
      · exact .inr ⟨_, ⟨(d, v), List.mem_zipIdx_iff_getElem?.mpr hd, rfl⟩, List.mem_map.mpr ⟨a, List.mem_range.mpr ha, rfl⟩⟩
  refine ⟨_, by simp only [constructLp, h1, h2, h5]; rfl, rfl, by simpa using h3, ?_, ?_, hrows⟩
  · intro r hr
    rcases (hrows r).mp hr with ⟨o, ho, rfl⟩ | ⟨v, d, a, hd, ha, rfl⟩
    · have := opRow_wf (ht.wf.pre o ho) (fun e he => ht.wf.effFact o ho e he) (ht.eff o ho)
      exact ⟨this.1, fun e he => by simp only [h3, List.length_replicate]; exact this.2 e he⟩
    · refine ⟨by simp [undefRow]; omega, fun e he => ?_⟩
      simp only [h3, List.length_replicate]
      simp only [undefRow, List.mem_cons, List.not_mem_nil, or_false] at he
      rcases he with rfl | rfl
      · exact off_lt hd (Nat.le_of_lt ha)
      · exact off_lt hd (le_refl _)
  · intro i c hc
    have hi : i < numLpVars t := by
      have := (List.getElem?_eq_some_iff.mp hc).1
      simpa [h3] using this
    have := h4 i _ (List.getElem?_replicate_of_lt hi)
    simp only at hc
    rw [hc] at this
    simp only [List.mem_range, Option.some.injEq] at this
    exact this

/-- the meaning of the linear program -/
structure Sol (t : Task) (mp : Option Rat) (δ : Rat) (w : Nat → Nat → Rat) : Prop where
  goal : ∀ v d, t.vars[v]? = some d → -δ ≤ w v (goalV t v) ∧ w v (goalV t v) ≤ δ
  bound : ∀ v d a m, t.vars[v]? = some d → a ≤ d.domain → a ≠ goalV t v → mp = some m → w v a ≤ m + δ
  undef : ∀ v d a, t.vars[v]? = some d → a < d.domain → w v a ≤ w v d.domain + δ
  op : ∀ o ∈ t.ops, (o.effects.map (fun e => w e.fact.var (preV t o e.fact.var) - w e.fact.var e.fact.val)).sum ≤ o.cost + δ

theorem exists_off {ds : List Variable} {i : Nat} (h : i < (ds.map (fun d => d.domain + 1)).sum) : ∃ v d a, ds[v]? = some d ∧ a ≤ d.domain ∧ i = offL ds v + a := by
  induction ds generalizing i with
  | nil => simp at h
  | cons d ds ih =>
    by_cases hi : i ≤ d.domain
    · exact ⟨0, d, i, rfl, hi, by simp [offL]⟩
    · simp only [List.map_cons, List.sum_cons] at h
      obtain ⟨v, d', a, h1, h2, h3⟩ := ih (i := i - (d.domain + 1)) (by omega)
      refine ⟨v + 1, d', a, by simpa using h1, h2, ?_⟩
      simp only [offL, List.take_succ_cons, List.map_cons, List.sum_cons] at h3 ⊢
      omega

theorem nearly_iff {t : Task} (ht : t.PotentialOk) {mp : Option Rat} {p : Program} (h : constructLp t mp = some p) (δ : Rat) (x : Nat → Rat) :
    p.NearlyFeasible δ x ↔ Sol t mp δ (weight t x) := by
  obtain ⟨p', h1, h2, h3, _, h4, h5⟩ := constructLp_spec ht mp
  rw [h] at h1
  cases h1
  constructor
  · intro hx
    refine ⟨fun v d hd => ?_, fun v d a m hd ha hne hm => ?_, fun v d a hd ha => ?_, fun o ho => ?_⟩
    · have hlt := off_lt hd (goalValue_spec ht.wf.goalFacts hd).2.1
      rw [← h3] at hlt
      have hc := List.getElem?_eq_getElem hlt
      have k := h4 _ _ hc
      rw [if_pos ⟨v, (List.getElem?_eq_some_iff.mp hd).1, rfl⟩] at k
      have := hx.columns _ _ hc
      rw [k] at this
      have a1 := this.1 0 rfl
      have a2 := this.2 0 rfl
      exact ⟨by unfold weight; linarith, by unfold weight; linarith⟩
    · have hlt := off_lt hd ha
      rw [← h3] at hlt
      have hc := List.getElem?_eq_getElem hlt
      have k := h4 _ _ hc
      rw [if_neg] at k
      · have := hx.columns _ _ hc
        rw [k] at this
        exact this.2 m hm
      · rintro ⟨v', hv', e⟩
        have hd' := List.getElem?_eq_getElem hv'
        obtain ⟨rfl, e2⟩ := off_inj hd hd' ha (goalValue_spec ht.wf.goalFacts hd').2.1 e
        exact hne e2
    · have := (hx.rows _ ((h5 _).mpr (.inr ⟨v, d, a, hd, ha, rfl⟩))).2 0 rfl
      rw [undefRow_value] at this
      linarith
    · have := (hx.rows _ ((h5 _).mpr (.inl ⟨o, ho, rfl⟩))).2 _ rfl
      rw [opRow_value] at this
      exact this
  · intro hw
    refine ⟨fun i c hc => ?_, fun r hr => ?_⟩
    · have hi : i < numLpVars t := by rw [← h3]; exact (List.getElem?_eq_some_iff.mp hc).1
      have k := h4 i c hc
      split at k
      · rename_i hv
        obtain ⟨v, hv, rfl⟩ := hv
        have := hw.goal v _ (List.getElem?_eq_getElem hv)
        rw [k]
        unfold weight at this
        refine ⟨fun l hl => ?_, fun u hu => ?_⟩
        · cases hl; linarith [this.1]
        · cases hu; linarith [this.2]
      · rename_i hv
        rw [k]
        refine ⟨fun l hl => by simp at hl, fun u hu => ?_⟩
        obtain ⟨v, d, a, hd, ha, rfl⟩ := exists_off hi
        exact hw.bound v d a u hd ha (fun e => hv ⟨v, (List.getElem?_eq_some_iff.mp hd).1, by rw [e]; rfl⟩) hu
    · rcases (h5 r).mp hr with ⟨o, ho, rfl⟩ | ⟨v, d, a, hd, ha, rfl⟩
      · refine ⟨fun l hl => by simp [opRow] at hl, fun u hu => ?_⟩
        rw [opRow_value]
        simp only [opRow, Option.some.injEq] at hu
        rw [← hu]
        exact hw.op o ho
      · refine ⟨fun l hl => by simp [undefRow] at hl, fun u hu => ?_⟩
        rw [undefRow_value]
        simp only [undefRow, Option.some.injEq] at hu
        rw [← hu]
        linarith [hw.undef v d a hd ha]

theorem nearly_zero {p : Program} {x : Nat → Rat} : p.NearlyFeasible 0 x ↔ p.Feasible x := by
  constructor
  · intro h
    refine ⟨fun i c hc => ?_, fun r hr => ?_⟩
    · have := h.columns i c hc; simpa [NearlyBetween, Between] using this
    · have := h.rows r hr; simpa [NearlyBetween, Between] using this
  · intro h
    refine ⟨fun i c hc => ?_, fun r hr => ?_⟩
    · have := h.columns i c hc; simpa [NearlyBetween, Between] using this
    · have := h.rows r hr; simpa [NearlyBetween, Between] using this

end Verif.Potentials
