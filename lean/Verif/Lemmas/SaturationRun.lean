import Verif.Lemmas.Saturation

/-
The heuristic functions that are built for a sequence of subtasks.
-/
namespace Verif.Cart
open Verif.AdaptiveQueue

theorem infinite_pos : 0 < infinite := by decide

theorem saturateOne_spec (H : StdHeap Nat) (general : Bool) {t : Task} {sub : Subtask} {costs : List Nat} {a : Abs} {C : Nat} (hb : sub.build costs = some a) (hs : SoundAbs t sub.conv a) (hlen : costs.length = t.ops.length)
    (hle : ∀ c ∈ costs, c ≤ infinite) (hC : Bounded costs C) (hbd : C * (1 + a.states.length) < infinite) :
    ∃ f costs', saturateOne H general sub costs = some (f, costs') ∧ costs'.length = t.ops.length ∧ (∀ c ∈ costs', c ≤ infinite) ∧ Bounded costs' (C * (1 + a.states.length)) ∧ (general = false → Bounded costs' C) ∧
      ∃ hv, Layer t costs costs' (a.states.length * C) hv ∧ ∀ s, t.Reachable s → f.value s = some (hv s) := by
  have hnC : a.states.length * C + C = C * (1 + a.states.length) := by rw [Nat.mul_add, Nat.mul_one, Nat.mul_comm, Nat.add_comm]
  obtain ⟨i0, hi0, hi0'⟩ := hs.total t.init (Reachable.init t)
  have hinit : a.init < a.states.length := by
    have := hs.init
    rw [hi0'] at this
    simp at this
    omega
  obtain ⟨g, h, hg, hh, hd⟩ := distances_spec H hs.ts hlen hinit hs.goals hle hC (by omega)
  obtain ⟨sc, s1, s2, s3, s4⟩ := satStates_spec (general := general) (ts := a.ts) (n := a.states.length) (g := g) (h := h) (fun i tr htr => (hs.ts.range i tr.op tr.target htr).2.1) (List.range a.states.length)
    (fun _ => if general then -(infinite : Int) else 0) (by simp)
  have hnonneg : general = false → ∀ op, 0 ≤ sc op := by
    intro hge op
    have := s2 op
    rw [hge] at this
    simpa using this
  have hsc : saturatedCosts general a.ts ((List.range a.states.length).map g) ((List.range a.states.length).map h) = some sc := by
    unfold saturatedCosts
    rw [List.length_map, List.length_range]
    exact s1
  have hcost : ∀ op, costAt costs op < infinite → costAt costs op ≤ C := by
    intro op ho
    unfold costAt at *
    cases hc : costs[op]? with
    | none => simp
    | some c => rw [hc] at ho; exact hC c (List.mem_of_getElem? hc) (by simpa using ho)
  have hfin : ∀ i, h i ≠ infinite → h i < infinite := fun i hi => Nat.lt_of_le_of_ne (hd.hle i) hi
  have hupper : ∀ op, costAt costs op < infinite → sc op ≤ costAt costs op := by
    intro op ho
    rcases s4 op with e | ⟨i, j, e1, e2, e3, e4⟩ | ⟨_, e⟩
    · rw [e]; cases general <;> simp <;> omega
    · have := (hd.hstep i op j e1 ho (hfin j e3)).2
      omega
    · omega
  have hlower : ∀ op, (general = true ∧ sc op = -(infinite : Int)) ∨ -((a.states.length * C : Nat) : Int) ≤ sc op := by
    intro op
    rcases s4 op with e | ⟨i, j, e1, e2, e3, e4⟩ | ⟨_, e⟩
    · cases general with
      | true => exact Or.inl ⟨rfl, by simpa using e⟩
      | false => right; simp at e; omega
    · right
      have := hd.bound j (hs.ts.range i op j e1).2.1 (hfin j e3)
      omega
    · right; omega
  have hred : ∀ op, op < t.ops.length → ∃ r, reduceCost (costAt costs op) (sc op) = some r ∧ (costAt costs op = infinite → r = infinite) ∧
      (costAt costs op < infinite → (sc op = -(infinite : Int) ∧ r = infinite) ∨ (r ≤ C * (1 + a.states.length) ∧ (r : Int) = costAt costs op - sc op)) := by
    intro op ho
    unfold reduceCost
    by_cases h1 : costAt costs op = infinite
    · rw [if_pos h1]; exact ⟨_, rfl, fun _ => h1, fun h => absurd h1 (Nat.ne_of_lt h)⟩
    · have hlt : costAt costs op < infinite := by
        refine Nat.lt_of_le_of_ne ?_ h1
        unfold costAt
        rw [List.getElem?_eq_getElem (by omega)]
        exact hle _ (List.getElem_mem _)
      rw [if_neg h1]
      by_cases h2 : sc op = -(infinite : Int)
      · rw [if_pos h2]; exact ⟨_, rfl, fun _ => rfl, fun _ => Or.inl ⟨h2, rfl⟩⟩
      · rw [if_neg h2]
        have h3 := hupper op hlt
        have h4 := (hlower op).resolve_left (fun h => h2 h.2)
        have h5 := hcost op hlt
        have h6 : infinite < 2 ^ 31 := by decide
        rw [if_pos (by omega)]
        exact ⟨_, rfl, fun h => absurd h h1, fun _ => Or.inr ⟨by omega, by omega⟩⟩
  obtain ⟨costs', c1, c2, c3⟩ := reduceCosts_spec (sc := sc) costs 0 (fun i c hc => by
    have hi : i < t.ops.length := by rw [← hlen]; exact (List.getElem?_eq_some_iff.mp hc).1
    obtain ⟨r, hr, _⟩ := hred i hi
    unfold costAt at hr
    rw [hc] at hr
    exact ⟨r, by rw [Nat.zero_add]; exact hr⟩)
  have hcosts' : ∀ op, op < t.ops.length → reduceCost (costAt costs op) (sc op) = some (costAt costs' op) := by
    intro op ho
    have hc := List.getElem?_eq_getElem (show op < costs.length by omega)
    obtain ⟨r, k1, k2⟩ := c3 op _ hc
    unfold costAt
    rw [hc, k1]
    rw [Nat.zero_add] at k2
    exact k2
  have hcosts'' : ∀ op, op < t.ops.length → (costAt costs op = infinite → costAt costs' op = infinite) ∧
      (costAt costs op < infinite → (sc op = -(infinite : Int) ∧ costAt costs' op = infinite) ∨ (costAt costs' op ≤ C * (1 + a.states.length) ∧ (costAt costs' op : Int) = costAt costs op - sc op)) := by
    intro op ho
    obtain ⟨r, k1, k2, k3⟩ := hred op ho
    rw [hcosts' op ho] at k1
    simp at k1
    rw [k1]
    exact ⟨k2, k3⟩
  have hcle : ∀ op, op < t.ops.length → costAt costs op ≤ infinite := by
    intro op ho
    unfold costAt
    rw [List.getElem?_eq_getElem (by omega)]
    exact hle _ (List.getElem_mem _)
  have hmem : ∀ c ∈ costs', ∃ op, op < t.ops.length ∧ c = costAt costs' op := by
    intro c hc
    obtain ⟨op, ho, e⟩ := List.getElem_of_mem hc
    exact ⟨op, by omega, by unfold costAt; rw [List.getElem?_eq_getElem ho, e]; rfl⟩
  refine ⟨⟨a.nodes, sub.conv, (List.range a.states.length).map h⟩, costs', ?_, by omega, ?_, ?_, ?_, fun s => ((a.stateIn sub.conv s).map h).getD 0, ?_, ?_⟩
  · unfold saturateOne
    rw [hb]
    simp only [hg, hh, hsc, c1]
  · intro c hc
    obtain ⟨op, ho, rfl⟩ := hmem c hc
    obtain ⟨k1, k2⟩ := hcosts'' op ho
    by_cases e : costAt costs op = infinite
    · rw [k1 e]
    · rcases k2 (Nat.lt_of_le_of_ne (hcle op ho) e) with ⟨_, k⟩ | ⟨k, _⟩ <;> omega
  · intro c hc hlt
    obtain ⟨op, ho, rfl⟩ := hmem c hc
    obtain ⟨k1, k2⟩ := hcosts'' op ho
    by_cases e : costAt costs op = infinite
    · rw [k1 e] at hlt; omega
    · rcases k2 (Nat.lt_of_le_of_ne (hcle op ho) e) with ⟨_, k⟩ | ⟨k, _⟩ <;> omega
  · intro hge c hc hlt
    obtain ⟨op, ho, rfl⟩ := hmem c hc
    obtain ⟨k1, k2⟩ := hcosts'' op ho
    have h0 := hnonneg hge op
    by_cases e : costAt costs op = infinite
    · rw [k1 e] at hlt; omega
    · have hlt' := Nat.lt_of_le_of_ne (hcle op ho) e
      have h1 := hcost op hlt'
      rcases k2 hlt' with ⟨_, k⟩ | ⟨_, k⟩ <;> omega
  · have hval : ∀ s, t.Reachable s → ∃ i, i < a.states.length ∧ a.stateIn sub.conv s = some i ∧ ((a.stateIn sub.conv s).map h).getD 0 = h i := by
      intro s hr
      obtain ⟨i, h1, h2⟩ := hs.total s hr
      exact ⟨i, h1, h2, by rw [h2]; rfl⟩
    refine ⟨?_, ?_, ?_, fun s => ∃ i, a.stateIn sub.conv s = some i ∧ g i < infinite, sc, ?_, ?_, ?_, ?_, ?_⟩
    · intro s hr hlt
      obtain ⟨i, h1, h2, h3⟩ := hval s hr
      rw [h3] at hlt ⊢
      exact hd.bound i h1 hlt
    · intro s hr
      obtain ⟨i, h1, h2, h3⟩ := hval s hr
      rw [h3]; exact hd.hle i
    · intro s hr hgoal
      obtain ⟨i, h1, h2, h3⟩ := hval s hr
      rw [h3]
      exact hd.goal i (hs.goal s i hr hgoal h2)
    · exact ⟨_, hs.init, hd.init⟩
    · rintro s op s' hr hst hc ⟨i, hi, hgi⟩
      obtain ⟨j, h1, h2, h3⟩ := hval s' (Reachable.step hr hst)
      refine ⟨j, h2, ?_⟩
      by_cases e : i = j
      · rw [← e]; exact hgi
      · exact hd.gstep i op j ((hs.step s op s' i j hr hst hi h2).1 e) hc hgi
    · intro s op s' hr hst hc hinf
      obtain ⟨i, i1, i2, i3⟩ := hval s hr
      obtain ⟨j, h1, h2, h3⟩ := hval s' (Reachable.step hr hst)
      rw [i3] at hinf
      rw [h3]
      by_cases e : i = j
      · rw [← e]; exact hinf
      · by_contra hne
        have := (hd.hstep i op j ((hs.step s op s' i j hr hst i2 h2).1 e) hc (hfin j hne)).1
        omega
    · rintro s op s' hr hst ⟨i', hi', hgi⟩ hlt hlt'
      obtain ⟨i, i1, i2, i3⟩ := hval s hr
      obtain ⟨j, h1, h2, h3⟩ := hval s' (Reachable.step hr hst)
      rw [i2] at hi'
      simp at hi'
      subst hi'
      rw [i3] at hlt ⊢
      rw [h3] at hlt' ⊢
      obtain ⟨q1, q2⟩ := s3 i (by simpa using i1) (Nat.ne_of_lt hgi) (Nat.ne_of_lt hlt)
      obtain ⟨p1, p2⟩ := hs.step s op s' i j hr hst i2 h2
      have hbj := hd.bound j h1 hlt'
      by_cases e : i = j
      · subst e
        have h0 : 0 ≤ sc op := by
          cases hge : general with
          | true => exact q2 hge op (p2 rfl)
          | false =>
            have := s2 op
            rw [hge] at this
            simpa using this
        have := infinite_pos
        exact ⟨by omega, by omega⟩
      · have := q1 op j (p1 e) (Nat.ne_of_lt hlt')
        exact ⟨by omega, by omega⟩
    · intro op ho
      obtain ⟨k1, k2⟩ := hcosts'' op ho
      refine ⟨k1, fun hlt => ?_⟩
      rcases k2 hlt with h | ⟨h, h'⟩
      · exact Or.inl h
      · exact Or.inr ⟨by omega, h'⟩
  · intro s hr
    obtain ⟨i, h1, h2⟩ := hs.total s hr
    unfold HFun.value
    have h2' : (sub.conv s).bind (fun s => lookup a.nodes s 0) = some i := h2
    simp only [h2']
    rw [getElem?_range_map h1]
    have h2'' : a.stateIn sub.conv s = some i := h2
    rw [h2'']
    rfl

/-- a subtask for which abstractions with at most `N` states are built (if the costs are in range) -/
structure Sound (t : Task) (sub : Subtask) (N : Nat) : Prop where
  build : ∀ costs C, costs.length = t.ops.length → (∀ c ∈ costs, c ≤ infinite) → Bounded costs C → 2 * N * C < infinite → ∃ a, sub.build costs = some a ∧ SoundAbs t sub.conv a ∧ a.states.length ≤ N

/-- The finite remaining costs for the subtasks (with at most `ns` abstract states) are so small that the sums of the costs of paths cannot exceed the range of ints, and the finite values of
the heuristic functions have at most the sum `T`. -/
def Fits (H : StdHeap Nat) (general : Bool) : List Subtask → List Nat → List Nat → Nat → Prop
  | sub :: subs, n :: ns, costs, T => ∃ C, Bounded costs C ∧ C * (1 + 2 * n) < infinite ∧ n * C ≤ T ∧ ∀ f costs', saturateOne H general sub costs = some (f, costs') → Fits H general subs ns costs' (T - n * C)
  | _, _, _, _ => True

/-- the heuristic functions of a sequence of subtasks -/
theorem saturate_spec (H : StdHeap Nat) (general : Bool) {t : Task} : ∀ (subs : List Subtask) (ns : List Nat) (costs : List Nat) (T : Nat), List.Forall₂ (Sound t) subs ns → costs.length = t.ops.length → (∀ c ∈ costs, c ≤ infinite) → Fits H general subs ns costs T →
    ∃ fs hvs, saturate H general subs costs = some fs ∧ Chain t costs hvs ∧ (∀ hv ∈ hvs, ∀ s, t.Reachable s → hv s ≤ infinite ∧ (allHold t.goal s → hv s = 0)) ∧
      List.Forall₂ (fun (f : HFun) (hv : State → Nat) => ∀ s, t.Reachable s → f.value s = some (hv s)) fs hvs ∧
      ∀ s, t.Reachable s → (hvs.map (fun hv => if hv s = infinite then 0 else hv s)).sum ≤ T
  | [], ns, costs, T, hsub, _, _, _ => by
    cases hsub
    exact ⟨[], [], rfl, .nil _, by simp, .nil, by simp⟩
  | sub :: subs, ns, costs, T, hsub, hlen, hle, hfit => by
    cases hsub with
    | @cons _ N _ ns h1 h2 =>
    obtain ⟨C, hC, hbd, hT, hfit⟩ := hfit
    have hN : C * (1 + 2 * N) = 2 * N * C + C := by rw [Nat.mul_add, Nat.mul_one, Nat.mul_comm, Nat.add_comm]
    obtain ⟨a, b1, b2, b3⟩ := h1.build costs C hlen hle hC (by omega)
    have hN' : C * (1 + a.states.length) ≤ C * (1 + 2 * N) := Nat.mul_le_mul_left _ (by omega)
    obtain ⟨f, costs', k1, k2, k3, k4, k4', hv, k5, k6⟩ := saturateOne_spec H general b1 b2 hlen hle hC (by omega)
    obtain ⟨fs, hvs, m1, m2, m3, m4, m5⟩ := saturate_spec H general subs ns costs' (T - N * C) h2 k2 k3 (hfit f costs' k1)
    refine ⟨f :: fs, hv :: hvs, ?_, .cons _ _ _ _ _ k5 m2, ?_, .cons k6 m4, ?_⟩
    · unfold saturate
      rw [k1]
      simp only [m1]
    · intro hv' hm s hr
      rcases List.mem_cons.mp hm with rfl | hm
      · exact ⟨k5.le s hr, k5.goal s hr⟩
      · exact m3 hv' hm s hr
    · intro s hr
      have i1 := m5 s hr
      have i2 : (if hv s = infinite then 0 else hv s) ≤ a.states.length * C := by
        split
        · exact Nat.zero_le _
        · next hne => exact k5.bound s hr (Nat.lt_of_le_of_ne (k5.le s hr) hne)
      rw [List.map_cons, List.sum_cons]
      have e2 : a.states.length * C ≤ N * C := Nat.mul_le_mul_right _ b3
      omega

/-- Nonnegative cost partitioning: the remaining costs do not grow. -/
theorem fits_nonneg (H : StdHeap Nat) {t : Task} : ∀ {subs : List Subtask} {ns : List Nat} {costs : List Nat} {C T : Nat}, List.Forall₂ (Sound t) subs ns → costs.length = t.ops.length → (∀ c ∈ costs, c ≤ infinite) → Bounded costs C →
    (∀ n ∈ ns, C * (1 + 2 * n) < infinite) → ns.sum * C ≤ T → Fits H false subs ns costs T
  | [], _, _, _, _, hsub, _, _, _, _, _ => by cases hsub; trivial
  | sub :: subs, _, costs, C, T, hsub, hlen, hle, hC, hb, hT => by
    cases hsub with
    | @cons _ N _ ns h1 h2 =>
    rw [List.sum_cons, Nat.add_mul] at hT
    have hbd := hb N (by simp)
    have hN : C * (1 + 2 * N) = 2 * N * C + C := by rw [Nat.mul_add, Nat.mul_one, Nat.mul_comm, Nat.add_comm]
    obtain ⟨a, b1, b2, b3⟩ := h1.build costs C hlen hle hC (by omega)
    have hN' : C * (1 + a.states.length) ≤ C * (1 + 2 * N) := Nat.mul_le_mul_left _ (by omega)
    obtain ⟨f, costs', k1, k2, k3, k4, k4', _⟩ := saturateOne_spec H false b1 b2 hlen hle hC (by omega)
    refine ⟨C, hC, hbd, by omega, fun f' c' he => ?_⟩
    rw [k1] at he
    simp at he
    obtain ⟨rfl, rfl⟩ := he
    exact fits_nonneg H h2 k2 k3 (k4' rfl) (fun n hn => hb n (by simp [hn])) (by omega)

/-- the product of the numbers of states, each doubled and increased by 1 -/
def sizeProduct : List Nat → Nat
  | [] => 1
  | n :: ns => (1 + 2 * n) * sizeProduct ns

theorem sizeProduct_pos : ∀ ns, 1 ≤ sizeProduct ns
  | [] => Nat.le_refl _
  | n :: ns => Nat.mul_le_mul (show 1 ≤ 1 + 2 * n by omega) (sizeProduct_pos ns)

/-- General cost partitioning: in the worst case, the remaining costs grow with each abstraction. -/
theorem fits_general (H : StdHeap Nat) (general : Bool) {t : Task} : ∀ {subs : List Subtask} {ns : List Nat} {costs : List Nat} {C T : Nat}, List.Forall₂ (Sound t) subs ns → costs.length = t.ops.length → (∀ c ∈ costs, c ≤ infinite) → Bounded costs C →
    C * sizeProduct ns < infinite → C * sizeProduct ns ≤ T + C → Fits H general subs ns costs T
  | [], _, _, _, _, hsub, _, _, _, _, _ => by cases hsub; trivial
  | sub :: subs, _, costs, C, T, hsub, hlen, hle, hC, hb, hT => by
    cases hsub with
    | @cons _ N _ ns h1 h2 =>
    have e3 : C * sizeProduct (N :: ns) = C * (1 + 2 * N) * sizeProduct ns := by rw [sizeProduct, Nat.mul_assoc]
    rw [e3] at hb hT
    have hle2 : C * (1 + 2 * N) ≤ C * (1 + 2 * N) * sizeProduct ns := Nat.le_mul_of_pos_right _ (sizeProduct_pos ns)
    have hbd : C * (1 + 2 * N) < infinite := by omega
    have hN : C * (1 + 2 * N) = 2 * N * C + C := by rw [Nat.mul_add, Nat.mul_one, Nat.mul_comm, Nat.add_comm]
    have hN2 : 2 * N * C = N * C + N * C := by rw [Nat.mul_assoc, Nat.two_mul]
    obtain ⟨a, b1, b2, b3⟩ := h1.build costs C hlen hle hC (by omega)
    have hN' : C * (1 + a.states.length) ≤ C * (1 + 2 * N) := Nat.mul_le_mul_left _ (by omega)
    obtain ⟨f, costs', k1, k2, k3, k4, k4', _⟩ := saturateOne_spec H general b1 b2 hlen hle hC (by omega)
    refine ⟨C, hC, hbd, by omega, fun f' c' he => ?_⟩
    rw [k1] at he
    simp at he
    obtain ⟨rfl, rfl⟩ := he
    exact fits_general H general h2 k2 k3 (fun c hc hlt => Nat.le_trans (k4 c hc hlt) hN') hb (by omega)

theorem sumValues_spec {t : Task} {s : State} (hr : t.Reachable s) {fs : List HFun} {hvs : List (State → Nat)} (h : List.Forall₂ (fun (f : HFun) (hv : State → Nat) => ∀ s, t.Reachable s → f.value s = some (hv s)) fs hvs) :
    ∀ acc, acc + (hvs.map (fun hv => if hv s = infinite then 0 else hv s)).sum < 2 ^ 31 →
      ((∃ hv ∈ hvs, hv s = infinite) → sumValues s fs acc = some none) ∧ ((∀ hv ∈ hvs, hv s ≠ infinite) → sumValues s fs acc = some (some (acc + (hvs.map (fun hv => hv s)).sum))) := by
  induction h with
  | nil => intro acc _; simp [sumValues]
  | @cons f hv fs hvs hf _ ih =>
    intro acc h1
    rw [List.map_cons, List.sum_cons] at h1
    unfold sumValues
    simp only [hf s hr]
    by_cases hi : hv s = infinite
    · simp [hi]
    · rw [if_neg hi]
      rw [if_neg hi] at h1
      rw [if_pos (by omega)]
      obtain ⟨i1, i2⟩ := ih (acc + hv s) (by omega)
      constructor
      · rintro ⟨hv', hm, he⟩
        rcases List.mem_cons.mp hm with rfl | hm
        · exact absurd he hi
        · exact i1 ⟨hv', hm, he⟩
      · intro hno
        rw [List.map_cons, List.sum_cons, i2 (fun x hx => hno x (by simp [hx])), Nat.add_assoc]

end Verif.Cart
