import Verif.Lemmas.PotentialFunctions
import Mathlib.Tactic.FieldSimp

/- The objectives, and the best potential functions. -/
namespace Verif.Potentials
open Verif.LP

/-- the value of an objective -/
def dotAux (k : Nat) (cs : List Rat) (x : Nat → Rat) : Rat := ((cs.zipIdx k).map (fun c => c.1 * x c.2)).sum
def dot (cs : List Rat) (x : Nat → Rat) : Rat := dotAux 0 cs x

theorem dotAux_cons (k : Nat) (c : Rat) (cs : List Rat) (x : Nat → Rat) : dotAux k (c :: cs) x = c * x k + dotAux (k + 1) cs x := by
  simp [dotAux, List.zipIdx_cons]

theorem dotAux_set : ∀ (k i : Nat) (cs : List Rat) (c q : Rat) (x : Nat → Rat), cs[i]? = some c → dotAux k (cs.set i q) x = dotAux k cs x + (q - c) * x (k + i)
  | k, i, [], c, q, x, h => by simp at h
  | k, 0, a :: cs, c, q, x, h => by
    simp only [List.getElem?_cons_zero, Option.some.injEq] at h
    subst h
    rw [List.set_cons_zero, dotAux_cons, dotAux_cons]
    simp only [Nat.add_zero]
    ring
  | k, i + 1, a :: cs, c, q, x, h => by
    rw [List.set_cons_succ, dotAux_cons, dotAux_cons, dotAux_set (k + 1) i cs c q x (by simpa using h), show k + 1 + i = k + (i + 1) by omega]
    ring

theorem dot_set {i : Nat} {cs : List Rat} {c q : Rat} (x : Nat → Rat) (h : cs[i]? = some c) : dot (cs.set i q) x = dot cs x + (q - c) * x i := by
  have := dotAux_set 0 i cs c q x h
  simpa [dot] using this

theorem dotAux_zero : ∀ (n k : Nat) (x : Nat → Rat), dotAux k (List.replicate n 0) x = 0
  | 0, k, x => by simp [dotAux]
  | n + 1, k, x => by rw [List.replicate_succ, dotAux_cons, dotAux_zero n (k + 1) x]; ring

theorem value_aux (x : Nat → Rat) : ∀ (cols : List Column) (cs : List Rat) (k : Nat), cols.length = cs.length →
    (((List.zipWith (fun (c : Column) q => { c with objective := q }) cols cs).zipIdx k).map (fun c => c.1.objective * x c.2)).sum = dotAux k cs x
  | [], [], k, _ => by simp [dotAux]
  | [], _ :: _, k, h => by simp at h
  | _ :: _, [], k, h => by simp at h
  | c :: cols, q :: cs, k, h => by
    have := value_aux x cols cs (k + 1) (by simpa using h)
    simp only [List.zipWith_cons_cons, List.zipIdx_cons, List.map_cons, List.sum_cons, this, dotAux_cons]

theorem setObjective_value {p : Program} {cs : List Rat} (h : p.columns.length = cs.length) (x : Nat → Rat) : (setObjective p cs).value x = dot cs x :=
  value_aux x p.columns cs 0 h

theorem setObjective_column {p : Program} {cs : List Rat} (h : p.columns.length = cs.length) (i : Nat) : ((setObjective p cs).columns[i]?).map (fun c => (c.lower, c.upper)) = (p.columns[i]?).map (fun c => (c.lower, c.upper)) := by
  simp only [setObjective, List.getElem?_zipWith]
  cases hc : p.columns[i]? with
  | none => simp
  | some c =>
    have hlt := (List.getElem?_eq_some_iff.mp hc).1
    rw [List.getElem?_eq_getElem (show i < cs.length by omega)]
    simp

theorem setObjective_feasible {p : Program} {cs : List Rat} (h : p.columns.length = cs.length) (x : Nat → Rat) : (setObjective p cs).Feasible x ↔ p.Feasible x := by
  have hc := setObjective_column h
  constructor
  · intro hx
    refine ⟨fun i c hi => ?_, hx.rows⟩
    have := hc i
    rw [hi] at this
    cases hi' : (setObjective p cs).columns[i]? with
    | none => rw [hi'] at this; simp at this
    | some c' =>
      rw [hi'] at this
      simp only [Option.map_some, Option.some.injEq, Prod.mk.injEq] at this
      rw [← this.1, ← this.2]
      exact hx.columns i c' hi'
  · intro hx
    refine ⟨fun i c hi => ?_, hx.rows⟩
    have := hc i
    rw [hi] at this
    cases hi' : p.columns[i]? with
    | none => rw [hi'] at this; simp at this
    | some c' =>
      rw [hi'] at this
      simp only [Option.map_some, Option.some.injEq, Prod.mk.injEq] at this
      rw [this.1, this.2]
      exact hx.columns i c' hi'

theorem setObjective_wf {p : Program} {cs : List Rat} (h : p.columns.length = cs.length) (hp : p.WellFormed) : (setObjective p cs).WellFormed := by
  intro r hr
  refine ⟨(hp r hr).1, fun e he => ?_⟩
  have := (hp r hr).2 e he
  simp [setObjective]
  omega

/-- the objective for samples -/
theorem addState_aux {t : Task} : ∀ (s : State) (k : Nat) (cs : List Rat), cs.length = numLpVars t → (∀ (i a : Nat), s[i]? = some a → ∃ d, t.vars[k + i]? = some d ∧ a < d.domain) →
    ∃ cs', (s.zipIdx k).foldlM (fun cs f => match lpVar t f.2 f.1 with
      | none => none
      | some i => match cs[i]? with
        | none => none
        | some c => some (cs.set i (c + 1))) cs = some cs' ∧ cs'.length = numLpVars t ∧ ∀ x, dot cs' x = dot cs x + ((s.zipIdx k).map (fun f => weight t x f.2 f.1)).sum
  | [], k, cs, hl, _ => ⟨cs, rfl, hl, fun x => by simp⟩
  | a :: s, k, cs, hl, h => by
    obtain ⟨d, hd, ha⟩ := h 0 a rfl
    rw [Nat.add_zero] at hd
    have hlt := off_lt hd (Nat.le_of_lt ha)
    rw [← hl] at hlt
    have hc := List.getElem?_eq_getElem hlt
    obtain ⟨cs', k1, k2, k3⟩ := addState_aux s (k + 1) (cs.set (off t k + a) (cs[off t k + a] + 1)) (by simpa using hl) (fun i b hb => by
      have := h (i + 1) b (by simpa using hb)
      rwa [show k + (i + 1) = k + 1 + i by omega] at this)
    refine ⟨cs', ?_, k2, fun x => ?_⟩
    · rw [List.zipIdx_cons, List.foldlM_cons]
      simp only [lpVar_eq hd (Nat.le_of_lt ha), hc]
      exact k1
    · rw [k3 x, dot_set x hc, List.zipIdx_cons, List.map_cons, List.sum_cons]
      simp only [weight]
      ring

theorem addState_spec {t : Task} {s : State} (hs : t.ValidState s) {cs : List Rat} (hl : cs.length = numLpVars t) :
    ∃ cs', addState t s cs = some cs' ∧ cs'.length = numLpVars t ∧ ∀ x, dot cs' x = dot cs x + potential (weight t x) s := by
  refine addState_aux s 0 cs hl (fun i a ha => ?_)
  have hlt : i < t.vars.length := by rw [← hs.1]; exact (List.getElem?_eq_some_iff.mp ha).1
  have hd := List.getElem?_eq_getElem hlt
  rw [Nat.zero_add]
  exact ⟨_, hd, hs.2 _ _ _ ha hd⟩

theorem samples_aux {t : Task} : ∀ (l : List State) (cs : List Rat), (∀ s ∈ l, t.ValidState s) → cs.length = numLpVars t →
    ∃ cs', l.foldlM (fun cs s => addState t s cs) cs = some cs' ∧ cs'.length = numLpVars t ∧ ∀ x, dot cs' x = dot cs x + (l.map (potential (weight t x))).sum
  | [], cs, _, hl => ⟨cs, rfl, hl, fun x => by simp⟩
  | s :: l, cs, h, hl => by
    obtain ⟨cs1, k1, k2, k3⟩ := addState_spec (h s (by simp)) hl
    obtain ⟨cs2, k4, k5, k6⟩ := samples_aux l cs1 (fun s' hs' => h s' (by simp [hs'])) k2
    refine ⟨cs2, by rw [List.foldlM_cons, k1]; exact k4, k5, fun x => ?_⟩
    rw [k6 x, k3 x, List.map_cons, List.sum_cons]
    ring

theorem samples_spec {t : Task} {l : List State} (h : ∀ s ∈ l, t.ValidState s) :
    ∃ cs, sampleCoefficients t l = some cs ∧ cs.length = numLpVars t ∧ ∀ x, dot cs x = (l.map (potential (weight t x))).sum := by
  obtain ⟨cs, h1, h2, h3⟩ := samples_aux l (List.replicate (numLpVars t) 0) h (by simp)
  refine ⟨cs, h1, h2, fun x => ?_⟩
  rw [h3 x, dot, dotAux_zero]
  ring

/-- the objective for all states -/
theorem all_aux {t : Task} : ∀ (L : List (Nat × Nat × Nat)) (cs : List Rat), (∀ f ∈ L, ∃ d : Variable, t.vars[f.1]? = some d ∧ f.2.1 < d.domain ∧ f.2.2 = d.domain) → (L.map (fun f => off t f.1 + f.2.1)).Nodup →
    (∀ f ∈ L, cs[off t f.1 + f.2.1]? = some 0) → cs.length = numLpVars t →
    ∃ cs', L.foldlM (fun cs f => match lpVar t f.1 f.2.1 with
      | none => none
      | some i => if i < cs.length then some (cs.set i (1 / (f.2.2 : Rat))) else none) cs = some cs' ∧ cs'.length = numLpVars t ∧
        ∀ x, dot cs' x = dot cs x + (L.map (fun f => 1 / (f.2.2 : Rat) * weight t x f.1 f.2.1)).sum
  | [], cs, _, _, _, hl => ⟨cs, rfl, hl, fun x => by simp⟩
  | f :: L, cs, hf, hn, hz, hl => by
    simp only [List.map_cons, List.nodup_cons] at hn
    obtain ⟨d, hd, ha, _⟩ := hf f (by simp)
    have hlt := off_lt hd (Nat.le_of_lt ha)
    rw [← hl] at hlt
    obtain ⟨cs', k1, k2, k3⟩ := all_aux L (cs.set (off t f.1 + f.2.1) (1 / (f.2.2 : Rat))) (fun g hg => hf g (by simp [hg])) hn.2 (fun g hg => by
      rw [List.getElem?_set_ne]
      · exact hz g (by simp [hg])
      · intro e
        exact hn.1 (List.mem_map.mpr ⟨g, hg, e.symm⟩)) (by simpa using hl)
    refine ⟨cs', ?_, k2, fun x => ?_⟩
    · rw [List.foldlM_cons]
      simp only [lpVar_eq hd (Nat.le_of_lt ha), if_pos hlt]
      exact k1
    · rw [k3 x, dot_set x (hz f (by simp)), List.map_cons, List.sum_cons]
      simp only [weight]
      ring

/-- the facts of the variables from `k` on -/
def factsFrom (k : Nat) (ds : List Variable) : List (Nat × Nat × Nat) := (ds.zipIdx k).flatMap (fun v => (List.range v.1.domain).map (fun val => (v.2, val, v.1.domain)))

theorem factsFrom_mem {k : Nat} {ds : List Variable} {f : Nat × Nat × Nat} (h : f ∈ factsFrom k ds) : ∃ (i : Nat) (d : Variable), ds[i]? = some d ∧ f.1 = k + i ∧ f.2.1 < d.domain ∧ f.2.2 = d.domain := by
  unfold factsFrom at h
  obtain ⟨v, hv, hf⟩ := List.mem_flatMap.mp h
  obtain ⟨a, ha, rfl⟩ := List.mem_map.mp hf
  obtain ⟨h1, h2⟩ := List.mem_zipIdx_iff_le_and_getElem?_sub.mp hv
  exact ⟨v.2 - k, v.1, h2, by simp only; omega, List.mem_range.mp ha, rfl⟩

theorem factsFrom_nodup : ∀ (ds : List Variable) (k : Nat), ((factsFrom k ds).map (fun f => (f.1, f.2.1))).Nodup
  | [], k => by simp [factsFrom]
  | d :: ds, k => by
    have hc : factsFrom k (d :: ds) = (List.range d.domain).map (fun val => (k, val, d.domain)) ++ factsFrom (k + 1) ds := by simp [factsFrom, List.zipIdx_cons]
    rw [hc, List.map_append, List.nodup_append]
    refine ⟨?_, factsFrom_nodup ds (k + 1), ?_⟩
    · rw [List.map_map]
      exact List.Nodup.map (fun a b e => by simpa using e) List.nodup_range
    · intro a ha b hb e
      subst e
      obtain ⟨f, hf, rfl⟩ := List.mem_map.mp ha
      obtain ⟨v, _, rfl⟩ := List.mem_map.mp hf
      obtain ⟨g, hg, e⟩ := List.mem_map.mp hb
      obtain ⟨i, _, _, h1, _⟩ := factsFrom_mem hg
      simp only [Prod.mk.injEq] at e
      omega

theorem allStates_spec (t : Task) :
    ∃ cs, allStatesCoefficients t = some cs ∧ cs.length = numLpVars t ∧ ∀ x, dot cs x = ((factsFrom 0 t.vars).map (fun f => 1 / (f.2.2 : Rat) * weight t x f.1 f.2.1)).sum := by
  obtain ⟨cs, h1, h2, h3⟩ := all_aux (t := t) (factsFrom 0 t.vars) (List.replicate (numLpVars t) 0) (fun f hf => by
    obtain ⟨i, d, h1, h2, h3, h4⟩ := factsFrom_mem hf
    exact ⟨d, by rw [h2, Nat.zero_add]; exact h1, h3, h4⟩) (by
    have := List.Nodup.map_on (l := (factsFrom 0 t.vars).map (fun f => (f.1, f.2.1))) (f := fun p => off t p.1 + p.2) (by
      intro a ha b hb e
      obtain ⟨f, hf, rfl⟩ := List.mem_map.mp ha
      obtain ⟨g, hg, rfl⟩ := List.mem_map.mp hb
      obtain ⟨i, d, h1, h2, h3, h4⟩ := factsFrom_mem hf
      obtain ⟨i', d', h1', h2', h3', h4'⟩ := factsFrom_mem hg
      have := off_inj (t := t) (v := f.1) (v' := g.1) (a := f.2.1) (a' := g.2.1) (by rw [h2, Nat.zero_add]; exact h1) (by rw [h2', Nat.zero_add]; exact h1') (Nat.le_of_lt h3) (Nat.le_of_lt h3') e
      exact Prod.ext this.1 this.2) (factsFrom_nodup t.vars 0)
    rw [List.map_map] at this
    exact this) (fun f hf => by
    obtain ⟨i, d, h1, h2, h3, h4⟩ := factsFrom_mem hf
    exact List.getElem?_replicate_of_lt (off_lt (by rw [h2, Nat.zero_add]; exact h1) (Nat.le_of_lt h3))) (by simp)
  refine ⟨cs, h1, h2, fun x => ?_⟩
  rw [h3 x, dot, dotAux_zero]
  ring

/-! ### The best potential functions -/

theorem exists_max (f : Nat → Rat) : ∀ (n : Nat), 1 ≤ n → ∃ a < n, ∀ b < n, f b ≤ f a
  | 0, h => by omega
  | 1, _ => ⟨0, by omega, fun b hb => by rw [show b = 0 by omega]⟩
  | n + 2, _ => by
    obtain ⟨a, h1, h2⟩ := exists_max f (n + 1) (by omega)
    by_cases h : f a ≤ f (n + 1)
    · refine ⟨n + 1, by omega, fun b hb => ?_⟩
      rcases Nat.lt_or_ge b (n + 1) with hb' | hb'
      · exact le_trans (h2 b hb') h
      · rw [show b = n + 1 by omega]
    · refine ⟨a, by omega, fun b hb => ?_⟩
      rcases Nat.lt_or_ge b (n + 1) with hb' | hb'
      · exact h2 b hb'
      · rw [show b = n + 1 by omega]; linarith

theorem build_state (t : Task) (f : Nat → Nat) (hf : ∀ v d, t.vars[v]? = some d → f v < d.domain) :
    ∃ s, t.ValidState s ∧ ∀ v, v < t.vars.length → s[v]? = some (f v) := by
  refine ⟨(List.range t.vars.length).map f, ⟨by simp, fun v x d hx hd => ?_⟩, fun v hv => ?_⟩
  · rw [List.getElem?_map] at hx
    have hlt : v < t.vars.length := (List.getElem?_eq_some_iff.mp hd).1
    rw [List.getElem?_range hlt] at hx
    simp only [Option.map_some, Option.some.injEq] at hx
    rw [← hx]; exact hf v d hd
  · rw [List.getElem?_map, List.getElem?_range hv]; rfl

open Classical in
/-- the LP variables for given values of facts -/
noncomputable def encode (t : Task) (w : Nat → Nat → Rat) (i : Nat) : Rat :=
  if h : ∃ p : Nat × Nat, ∃ d, t.vars[p.1]? = some d ∧ p.2 ≤ d.domain ∧ i = off t p.1 + p.2 then w h.choose.1 h.choose.2 else 0

theorem encode_weight {t : Task} {w : Nat → Nat → Rat} {v a : Nat} {d : Variable} (hd : t.vars[v]? = some d) (ha : a ≤ d.domain) : weight t (encode t w) v a = w v a := by
  have h : ∃ p : Nat × Nat, ∃ d, t.vars[p.1]? = some d ∧ p.2 ≤ d.domain ∧ off t v + a = off t p.1 + p.2 := ⟨(v, a), d, hd, ha, rfl⟩
  unfold weight encode
  rw [dif_pos h]
  obtain ⟨d', h1, h2, h3⟩ := h.choose_spec
  obtain ⟨e1, e2⟩ := off_inj hd h1 ha h2 h3
  rw [← e1, ← e2]

theorem sol_congr {t : Task} (ht : t.PotentialOk) {mp : Option Rat} {δ : Rat} {w w' : Nat → Nat → Rat} (h : ∀ v d a, t.vars[v]? = some d → a ≤ d.domain → w v a = w' v a) (hw : Sol t mp δ w) : Sol t mp δ w' := by
  refine ⟨fun v d hd => ?_, fun v d a m hd ha hne hm => ?_, fun v d a hd ha => ?_, fun o ho => ?_⟩
  · rw [← h v d _ hd (goalValue_spec ht.wf.goalFacts hd).2.1]; exact hw.goal v d hd
  · rw [← h v d a hd ha]; exact hw.bound v d a m hd ha hne hm
  · rw [← h v d a hd (Nat.le_of_lt ha), ← h v d _ hd (le_refl _)]; exact hw.undef v d a hd ha
  · refine le_trans (le_of_eq ?_) (hw.op o ho)
    congr 1
    refine List.map_congr_left (fun e he => ?_)
    obtain ⟨d, hd, hlt⟩ := ht.wf.effFact o ho e he
    rw [h _ d _ hd (preValue_spec (ht.wf.pre o ho) hd).2.1, h _ d _ hd (Nat.le_of_lt hlt)]

/-- the linear program represents all consistent and goal-aware potential functions, up to functions that are at least as good -/
theorem dominates {t : Task} (ht : t.PotentialOk) (hco : t.ConditionsOnce) {w : Nat → Nat → Rat} (hc : t.PotConsistent w) (hg : t.PotGoalAware w) :
    ∃ w', Sol t none 0 w' ∧ ∀ s, t.ValidState s → potential w s ≤ potential w' s := by
  have hmax : ∀ v, ∃ a, ∀ d, t.vars[v]? = some d → a < d.domain ∧ ∀ b < d.domain, w v b ≤ w v a := by
    intro v
    cases hd : t.vars[v]? with
    | none => exact ⟨0, by simp⟩
    | some d =>
      obtain ⟨a, h1, h2⟩ := exists_max (w v) d.domain (ht.wf.domains d (List.mem_of_getElem? hd)).1
      exact ⟨a, fun d' hd' => by cases hd'; exact ⟨h1, h2⟩⟩
  obtain ⟨am, ham⟩ := Classical.axiomOfChoice hmax
  -- values with the undefined value
  let wx : Nat → Nat → Rat := fun v a => if a < t.domain v then w v a else w v (am v)
  have hdom : ∀ v d, t.vars[v]? = some d → t.domain v = d.domain := fun v d hd => by simp [Task.domain, hd]
  have hwx1 : ∀ v d a, t.vars[v]? = some d → a < d.domain → wx v a = w v a := fun v d a hd ha => by simp only [wx, hdom v d hd, if_pos ha]
  have hwx2 : ∀ v d, t.vars[v]? = some d → wx v d.domain = w v (am v) := fun v d hd => by simp [wx, hdom v d hd]
  let top : Nat → Rat := fun v => wx v (goalV t v)
  -- the best goal state
  obtain ⟨sg, hsg, hsgv⟩ := build_state t (fun v => if goalV t v < t.domain v then goalV t v else am v) (by
    intro v d hd
    simp only [hdom v d hd]
    split
    · assumption
    · exact (ham v d hd).1)
  have hgoal : allHold t.goal sg := by
    intro f hf
    obtain ⟨d, hd, hlt⟩ := ht.wf.goalFacts f hf
    unfold Fact.holds
    rw [hsgv _ (List.getElem?_eq_some_iff.mp hd).1]
    obtain ⟨_, _, h4⟩ := goalValue_spec ht.wf.goalFacts hd
    rcases h4 with ⟨f', hf', e1, e2, e3⟩ | ⟨h5, _⟩
    · have : f' = f := List.inj_on_of_nodup_map hco.goal hf' hf e1
      subst this
      rw [hdom _ d hd, if_pos e3, e2]
    · exact absurd rfl (h5 f hf)
  have hsum : potential w sg = ∑ v ∈ Finset.range t.vars.length, top v := by
    rw [potential_eq, hsg.1]
    refine Finset.sum_congr rfl (fun v hv => ?_)
    have hv := Finset.mem_range.mp hv
    have hd := List.getElem?_eq_getElem hv
    rw [hsgv v hv, Option.getD_some]
    simp only [top, wx]
    split
    · rfl
    · rfl
  have htop : ∑ v ∈ Finset.range t.vars.length, top v ≤ 0 := by rw [← hsum]; exact hg sg hsg hgoal
  refine ⟨fun v a => wx v a - top v, ⟨fun v d hd => ?_, fun v d a m hd ha hne hm => by simp at hm, fun v d a hd ha => ?_, fun o ho => ?_⟩, fun s hs => ?_⟩
  · simp [top]
  · rw [hwx1 v d a hd ha, hwx2 v d hd]
    linarith [(ham v d hd).2 a ha]
  · -- the state in which the operator is worst
    obtain ⟨so, hso, hsov⟩ := build_state t (fun v => if preV t o v < t.domain v then preV t o v else am v) (by
      intro v d hd
      simp only [hdom v d hd]
      split
      · assumption
      · exact (ham v d hd).1)
    have happ : o.applicable so := by
      intro f hf
      obtain ⟨d, hd, hlt⟩ := ht.wf.pre o ho f hf
      unfold Fact.holds
      rw [hsov _ (List.getElem?_eq_some_iff.mp hd).1]
      obtain ⟨_, _, h4⟩ := preValue_spec (ht.wf.pre o ho) hd
      rcases h4 with ⟨f', hf', e1, e2, e3⟩ | ⟨h5, _⟩
      · have : f' = f := List.inj_on_of_nodup_map (hco.pre o ho) hf' hf e1
        subst this
        rw [hdom _ d hd, if_pos e3, e2]
      · exact absurd rfl (h5 f hf)
    obtain ⟨s', hs', hsu⟩ := exists_succ ht.wf hso ho
    have hle := hc so s' o hso ho happ hsu
    obtain ⟨h1, h2, h3⟩ := succ_simple ht.wf ht.axioms (ht.conds o ho) (ht.eff o ho) hsu
    have hvlt : ∀ e ∈ o.effects, e.fact.var < so.length := by
      intro e he
      obtain ⟨d, hd, _⟩ := ht.wf.effFact o ho e he
      rw [hso.1]
      exact (List.getElem?_eq_some_iff.mp hd).1
    have hdiff := potential_diff w h1 (ht.eff o ho) (by
      intro v hv
      obtain ⟨e, he, rfl⟩ := List.mem_map.mp hv
      exact hvlt e he) (by
      intro v hv
      exact h3 v (fun e he hev => hv (List.mem_map.mpr ⟨e, he, hev⟩)))
    rw [List.map_map] at hdiff
    have : (o.effects.map (fun e => (wx e.fact.var (preV t o e.fact.var) - top e.fact.var) - (wx e.fact.var e.fact.val - top e.fact.var))) =
        o.effects.map ((fun v => w v ((so[v]?).getD 0) - w v ((s'[v]?).getD 0)) ∘ (fun e => e.fact.var)) := by
      refine List.map_congr_left (fun e he => ?_)
      obtain ⟨d, hd, hlt⟩ := ht.wf.effFact o ho e he
      simp only [Function.comp_apply]
      rw [h2 e he (hvlt e he), hsov _ (List.getElem?_eq_some_iff.mp hd).1, Option.getD_some, Option.getD_some, hwx1 _ d _ hd hlt]
      have : wx e.fact.var (preV t o e.fact.var) = w e.fact.var (if preV t o e.fact.var < t.domain e.fact.var then preV t o e.fact.var else am e.fact.var) := by
        simp only [wx]; split <;> rfl
      rw [this]
      ring
    rw [this, ← hdiff]
    linarith
  · have : potential (fun v a => wx v a - top v) s = potential w s - ∑ v ∈ Finset.range t.vars.length, top v := by
      rw [potential_eq, potential_eq, hs.1, ← Finset.sum_sub_distrib]
      refine Finset.sum_congr rfl (fun v hv => ?_)
      have hv := Finset.mem_range.mp hv
      have hsv := List.getElem?_eq_getElem (show v < s.length by rw [hs.1]; exact hv)
      have hd := List.getElem?_eq_getElem hv
      rw [hsv, Option.getD_some, hwx1 v _ _ hd (hs.2 _ _ _ hsv hd)]
    rw [this]
    linarith

end Verif.Potentials
