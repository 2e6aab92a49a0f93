import Verif.Lemmas.Potentials
import Mathlib.Algebra.BigOperators.Intervals
import Mathlib.Algebra.Order.BigOperators.Group.Finset

/- Potential functions that come from the linear program. -/
namespace Verif.Potentials
open Verif.LP

theorem potential_aux (w : Nat → Nat → Rat) : ∀ (s : State) (k : Nat), ((s.zipIdx k).map (fun f => w f.2 f.1)).sum = ∑ i ∈ Finset.range s.length, w (k + i) ((s[i]?).getD 0)
  | [], k => by simp
  | a :: s, k => by
    simp only [List.zipIdx_cons, List.map_cons, List.sum_cons, List.length_cons]
    rw [Finset.sum_range_succ', potential_aux w s (k + 1)]
    simp only [List.getElem?_cons_zero, Option.getD_some, List.getElem?_cons_succ, Nat.add_zero]
    rw [add_comm]
    congr 1
    refine Finset.sum_congr rfl (fun i _ => ?_)
    rw [Nat.add_assoc, Nat.add_comm 1 i]

theorem potential_eq (w : Nat → Nat → Rat) (s : State) : potential w s = ∑ i ∈ Finset.range s.length, w i ((s[i]?).getD 0) := by
  unfold potential
  rw [potential_aux w s 0]
  simp

theorem potential_diff (w : Nat → Nat → Rat) {s s' : State} (hl : s'.length = s.length) {L : List Nat} (hn : L.Nodup) (hlt : ∀ v ∈ L, v < s.length)
    (h : ∀ v, v ∉ L → s'[v]? = s[v]?) : potential w s - potential w s' = (L.map (fun v => w v ((s[v]?).getD 0) - w v ((s'[v]?).getD 0))).sum := by
  rw [potential_eq, potential_eq, hl, ← Finset.sum_sub_distrib]
  have hs : L.toFinset ⊆ Finset.range s.length := by
    intro v hv
    exact Finset.mem_range.mpr (hlt v (List.mem_toFinset.mp hv))
  rw [← Finset.sum_subset hs]
  · exact (List.sum_toFinset _ hn)
  · intro v _ hv
    rw [h v (fun hm => hv (List.mem_toFinset.mpr hm))]
    ring

theorem sum_map_le {α : Type} {f g : α → Rat} : ∀ {l : List α}, (∀ a ∈ l, f a ≤ g a) → (l.map f).sum ≤ (l.map g).sum
  | [], _ => by simp
  | a :: l, h => by
    have h1 := h a (by simp)
    have h2 := sum_map_le (l := l) (fun b hb => h b (by simp [hb]))
    simp only [List.map_cons, List.sum_cons]
    linarith

theorem sum_map_add_const {α : Type} (f : α → Rat) (c : Rat) : ∀ (l : List α), (l.map (fun a => f a + c)).sum = (l.map f).sum + l.length * c
  | [] => by simp
  | a :: l => by
    simp only [List.map_cons, List.sum_cons, sum_map_add_const f c l, List.length_cons]
    push_cast
    ring

theorem nodup_length_le {L : List Nat} {n : Nat} (hn : L.Nodup) (hlt : ∀ v ∈ L, v < n) : L.length ≤ n := by
  have := List.subperm_of_subset hn (fun v hv => List.mem_range.mpr (hlt v hv))
  simpa using this.length_le

/-- along a transition -/
theorem Sol.step {t : Task} (ht : t.PotentialOk) {mp : Option Rat} {δ : Rat} (hδ : 0 ≤ δ) {w : Nat → Nat → Rat} (hw : Sol t mp δ w) {s s' : State} {o : Operator}
    (hs : t.ValidState s) (ho : o ∈ t.ops) (ha : o.applicable s) (h : t.SuccRel o s s') : potential w s ≤ o.cost + potential w s' + (t.vars.length + 1) * δ := by
  obtain ⟨h1, h2, h3⟩ := succ_simple ht.wf ht.axioms (ht.conds o ho) (ht.eff o ho) h
  have hvlt : ∀ e ∈ o.effects, e.fact.var < s.length := by
    intro e he
    obtain ⟨d, hd, _⟩ := ht.wf.effFact o ho e he
    rw [hs.1]
    exact (List.getElem?_eq_some_iff.mp hd).1
  have hd := potential_diff w h1 (ht.eff o ho) (by
    intro v hv
    obtain ⟨e, he, rfl⟩ := List.mem_map.mp hv
    exact hvlt e he) (by
    intro v hv
    exact h3 v (fun e he hev => hv (List.mem_map.mpr ⟨e, he, hev⟩)))
  rw [List.map_map] at hd
  have hle : (o.effects.map ((fun v => w v ((s[v]?).getD 0) - w v ((s'[v]?).getD 0)) ∘ (fun e => e.fact.var))).sum ≤
      (o.effects.map (fun e => (w e.fact.var (preV t o e.fact.var) - w e.fact.var e.fact.val) + δ)).sum := by
    refine sum_map_le (fun e he => ?_)
    obtain ⟨d, hd, _⟩ := ht.wf.effFact o ho e he
    simp only [Function.comp_apply]
    rw [h2 e he (hvlt e he), Option.getD_some]
    have hsv := List.getElem?_eq_getElem (hvlt e he)
    have hx := hs.2 _ _ d hsv hd
    rw [hsv, Option.getD_some]
    obtain ⟨_, _, h4⟩ := preValue_spec (ht.wf.pre o ho) hd
    rcases h4 with ⟨f, hf, e1, e2, _⟩ | ⟨_, e1⟩
    · have := ha f hf
      unfold Fact.holds at this
      rw [e1, hsv, e2, Option.some.injEq] at this
      rw [this]
      linarith
    · rw [e1]
      have := hw.undef _ d _ hd hx
      linarith
  rw [sum_map_add_const] at hle
  have hop := hw.op o ho
  have hlen : ((o.effects.length : Nat) : Rat) ≤ t.vars.length := by
    have := nodup_length_le (ht.eff o ho) (n := t.vars.length) (by
      intro v hv
      obtain ⟨e, he, rfl⟩ := List.mem_map.mp hv
      rw [← hs.1]; exact hvlt e he)
    simp only [List.length_map] at this
    exact_mod_cast this
  have := mul_le_mul_of_nonneg_right hlen hδ
  linarith

/-- in goal states -/
theorem Sol.goalState {t : Task} (ht : t.PotentialOk) {mp : Option Rat} {δ : Rat} {w : Nat → Nat → Rat} (hw : Sol t mp δ w) {s : State} (hs : t.ValidState s) (hg : allHold t.goal s)
    (hδ : 0 ≤ δ) : potential w s ≤ t.vars.length * (2 * δ) := by
  rw [potential_eq, hs.1]
  have : ∑ i ∈ Finset.range t.vars.length, w i ((s[i]?).getD 0) ≤ ∑ i ∈ Finset.range t.vars.length, 2 * δ := by
    refine Finset.sum_le_sum (fun v hv => ?_)
    have hv := Finset.mem_range.mp hv
    have hd := List.getElem?_eq_getElem hv
    have hsv := List.getElem?_eq_getElem (show v < s.length by rw [hs.1]; exact hv)
    rw [hsv, Option.getD_some]
    have hx := hs.2 _ _ _ hsv hd
    obtain ⟨g1, g2⟩ := hw.goal v _ hd
    obtain ⟨_, _, h4⟩ := goalValue_spec ht.wf.goalFacts hd
    rcases h4 with ⟨f, hf, e1, e2, _⟩ | ⟨_, e1⟩
    · have := hg f hf
      unfold Fact.holds at this
      rw [e1, hsv, e2, Option.some.injEq] at this
      rw [this]
      linarith
    · rw [e1] at g2
      have := hw.undef _ _ _ hd hx
      linarith
  simpa using this

theorem Sol.consistent {t : Task} (ht : t.PotentialOk) {mp : Option Rat} {w : Nat → Nat → Rat} (hw : Sol t mp 0 w) : t.PotConsistent w ∧ t.PotGoalAware w := by
  constructor
  · intro s s' o hs ho ha h
    have := hw.step ht (le_refl _) hs ho ha h
    linarith
  · intro s hs hg
    have := hw.goalState ht hs hg (le_refl _)
    linarith

/-- the bound for plans -/
theorem Sol.plan {t : Task} (ht : t.PotentialOk) {mp : Option Rat} {δ : Rat} {w : Nat → Nat → Rat} (hw : Sol t mp δ w) (hδ : 0 ≤ δ) {s : State} (hs : t.ValidState s) {π : List Nat}
    (hπ : t.SolvesFrom s π) : potential w s ≤ t.planCost π + ((π.length : Rat) * (t.vars.length + 1) + 2 * t.vars.length) * δ := by
  obtain ⟨u, h1, h2⟩ := hπ
  induction h1 with
  | nil s =>
    have := hw.goalState ht hs h2 hδ
    simp [Task.planCost]
    linarith
  | cons s i o s' π u k1 k2 k3 k4 ih =>
    have h3 := hw.step ht hδ hs (List.mem_of_getElem? k1) k2 k3
    have h4 := ih (succ_valid ht.wf hs k1 k2 k3) h2
    have hc : t.opCost i = o.cost := by simp [Task.opCost, k1]
    simp only [Task.planCost, List.map_cons, List.sum_cons, List.length_cons, hc] at h4 ⊢
    push_cast
    push_cast at h4
    linarith

/-- the potentials of the facts in the vectors -/
def weights (pots : List (List Rat)) (v a : Nat) : Rat := ((pots[v]?).bind (·[a]?)).getD 0

/-- there is a potential for every fact -/
def Shape (t : Task) (pots : List (List Rat)) : Prop := pots.length = t.vars.length ∧ ∀ (v : Nat) (d : Variable) (p : List Rat), t.vars[v]? = some d → pots[v]? = some p → p.length = d.domain

theorem sumPotentials_aux : ∀ {pots : List (List Rat)} {s : State} {k : Nat} {w : Nat → Nat → Rat}, (∀ (i x : Nat), s[i]? = some x → (pots[i]?).bind (·[x]?) = some (w (k + i) x)) →
    sumPotentials pots s = some (((s.zipIdx k).map (fun f => w f.2 f.1)).sum)
  | _, [], _, _, _ => by simp [sumPotentials]
  | [], x :: s, k, w, h => by have := h 0 x rfl; simp at this
  | p :: pots, x :: s, k, w, h => by
    have h0 := h 0 x rfl
    have h1 := sumPotentials_aux (pots := pots) (s := s) (k := k + 1) (w := w) (fun i y hi => by
      have := h (i + 1) y (by simpa using hi)
      rw [List.getElem?_cons_succ] at this
      rw [this, Nat.add_assoc, Nat.add_comm 1 i])
    simp only [List.getElem?_cons_zero, Option.bind_some, Nat.add_zero] at h0
    simp [sumPotentials, h0, h1, List.zipIdx_cons]

theorem sumPotentials_eq {t : Task} {pots : List (List Rat)} (h : Shape t pots) {s : State} (hs : t.ValidState s) : sumPotentials pots s = some (potential (weights pots) s) := by
  refine sumPotentials_aux (k := 0) (fun i x hx => ?_)
  have hlt : i < t.vars.length := by rw [← hs.1]; exact (List.getElem?_eq_some_iff.mp hx).1
  have hd := List.getElem?_eq_getElem hlt
  have hp := List.getElem?_eq_getElem (show i < pots.length by rw [h.1]; exact hlt)
  have hxl := hs.2 _ _ _ hx hd
  have := h.2 i _ _ hd hp
  simp only [Nat.zero_add, weights, hp, Option.bind_some]
  rw [List.getElem?_eq_getElem (by omega), Option.getD_some]

theorem extract_get {t : Task} {x : Nat → Rat} {v : Nat} {d : Variable} (hd : t.vars[v]? = some d) : (extract t x)[v]? = some ((List.range' (off t v) d.domain).map x) := by
  unfold extract
  rw [List.getElem?_map, lpVarIds_get, hd]
  simp only [Option.map_some, Nat.zero_add, Option.some.injEq]
  congr 1
  rw [List.range'_1_concat]
  simp [off]

theorem lpVarIds_length : ∀ (ds : List Variable) (n : Nat), (lpVarIds ds n).length = ds.length
  | [], _ => rfl
  | _ :: ds, n => by simp [lpVarIds, lpVarIds_length ds]

theorem extract_shape (t : Task) (x : Nat → Rat) : Shape t (extract t x) := by
  refine ⟨by simp [extract, lpVarIds_length], fun v d p hd hp => ?_⟩
  rw [extract_get hd] at hp
  cases hp
  simp

theorem extract_weights {t : Task} {x : Nat → Rat} {v a : Nat} {d : Variable} (hd : t.vars[v]? = some d) (ha : a < d.domain) : weights (extract t x) v a = weight t x v a := by
  unfold weights
  rw [extract_get hd]
  simp only [Option.bind_some]
  rw [List.getElem?_map, List.getElem?_range' ha]
  simp [weight]

theorem potential_congr {t : Task} {w w' : Nat → Nat → Rat} (h : ∀ v d a, t.vars[v]? = some d → a < d.domain → w v a = w' v a) {s : State} (hs : t.ValidState s) : potential w s = potential w' s := by
  rw [potential_eq, potential_eq]
  refine Finset.sum_congr rfl (fun v hv => ?_)
  have hv := Finset.mem_range.mp hv
  have hsv := List.getElem?_eq_getElem hv
  have hd := List.getElem?_eq_getElem (show v < t.vars.length by rw [← hs.1]; exact hv)
  rw [hsv, Option.getD_some]
  exact h v _ _ hd (hs.2 _ _ _ hsv hd)

theorem extract_potential {t : Task} {x : Nat → Rat} {s : State} (hs : t.ValidState s) : potential (weights (extract t x)) s = potential (weight t x) s :=
  potential_congr (fun _ _ _ hd ha => extract_weights hd ha) hs

theorem consistent_congr {t : Task} (hwf : t.WF) {w w' : Nat → Nat → Rat} (h : ∀ s, t.ValidState s → potential w s = potential w' s) (hc : t.PotConsistent w) : t.PotConsistent w' := by
  intro s s' o hs ho ha hsu
  obtain ⟨i, hi⟩ := List.getElem?_of_mem ho
  rw [← h s hs, ← h s' (succ_valid hwf hs hi ha hsu)]
  exact hc s s' o hs ho ha hsu

theorem goalAware_congr {t : Task} {w w' : Nat → Nat → Rat} (h : ∀ s, t.ValidState s → potential w s = potential w' s) (hc : t.PotGoalAware w) : t.PotGoalAware w' := by
  intro s hs hg
  rw [← h s hs]
  exact hc s hs hg

/-- potentials that the optimizer may hold -/
structure Good (t : Task) (pots : List (List Rat)) : Prop where
  shape : Shape t pots
  consistent : t.PotConsistent (weights pots)
  goalAware : t.PotGoalAware (weights pots)

theorem extract_good {t : Task} (ht : t.PotentialOk) {mp : Option Rat} {x : Nat → Rat} (hw : Sol t mp 0 (weight t x)) : Good t (extract t x) := by
  obtain ⟨h1, h2⟩ := hw.consistent ht
  exact ⟨extract_shape t x, consistent_congr ht.wf (fun s hs => (extract_potential hs).symm) h1, goalAware_congr (fun s hs => (extract_potential hs).symm) h2⟩

theorem weight_zero (t : Task) : weight t (fun _ => 0) = fun _ _ => 0 := rfl

theorem zero_sol (t : Task) {mp : Option Rat} (hmp : ∀ m, mp = some m → 0 ≤ m) : Sol t mp 0 (fun _ _ => 0) := by
  refine ⟨fun v d hd => by simp, fun v d a m hd ha hne hm => by simpa using hmp m hm, fun v d a hd ha => by simp, fun o ho => ?_⟩
  simp

theorem initial_eq (t : Task) : initialPotentials t = extract t (fun _ => 0) := by
  refine List.ext_getElem? (fun v => ?_)
  cases hd : t.vars[v]? with
  | none =>
    have hl : t.vars.length ≤ v := List.getElem?_eq_none_iff.mp hd
    rw [List.getElem?_eq_none (by simpa [initialPotentials] using hl), List.getElem?_eq_none (by rw [(extract_shape t _).1]; exact hl)]
  | some d =>
    rw [extract_get hd]
    simp only [initialPotentials, List.getElem?_map, hd, Option.map_some, Option.some.injEq]
    rw [List.map_const', List.length_range']

end Verif.Potentials
