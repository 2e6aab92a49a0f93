import Verif.Lemmas.CartDist

/-
Saturated cost partitioning.
-/
namespace Verif.Cart
open Verif.AdaptiveQueue Verif.Relax

theorem upd_get {α : Type} (f : Nat → α) (i : Nat) (x : α) (j : Nat) : Relax.upd f i x j = if j = i then x else f j := rfl

theorem getElem?_range_map {n : Nat} {f : Nat → Nat} {i : Nat} (h : i < n) : ((List.range n).map f)[i]? = some (f i) := by simp [h]

theorem satOut_spec {n d : Nat} {h : Nat → Nat} : ∀ (trs : List Trans) (sc : Nat → Int), (∀ tr ∈ trs, tr.target < n) → ∃ sc', satOut ((List.range n).map h) d trs sc = some sc' ∧ (∀ op, sc op ≤ sc' op) ∧
    (∀ op j, (⟨op, j⟩ : Trans) ∈ trs → h j ≠ infinite → (d : Int) - h j ≤ sc' op) ∧ ∀ op, sc' op = sc op ∨ ∃ j, (⟨op, j⟩ : Trans) ∈ trs ∧ h j ≠ infinite ∧ sc' op = (d : Int) - h j
  | [], sc, _ => ⟨sc, rfl, fun _ => Int.le_refl _, by simp, fun _ => Or.inl rfl⟩
  | ⟨o, k⟩ :: trs, sc, hr => by
    have hk := hr ⟨o, k⟩ (by simp)
    simp only at hk
    unfold satOut
    simp only [getElem?_range_map hk]
    by_cases hi : h k = infinite
    · rw [if_pos hi]
      obtain ⟨sc', h1, h2, h3, h4⟩ := satOut_spec trs sc (fun x hx => hr x (by simp [hx]))
      refine ⟨sc', h1, h2, fun op j hm hj => ?_, fun op => ?_⟩
      · rcases List.mem_cons.mp hm with e | e
        · simp only [Trans.mk.injEq] at e
          rw [e.2] at hj; exact absurd hi hj
        · exact h3 op j e hj
      · rcases h4 op with e | ⟨j, e, e'⟩
        · exact Or.inl e
        · exact Or.inr ⟨j, by simp [e], e'⟩
    · rw [if_neg hi]
      obtain ⟨sc', h1, h2, h3, h4⟩ := satOut_spec trs (Relax.upd sc o (max (sc o) ((d : Int) - h k))) (fun x hx => hr x (by simp [hx]))
      have hup : ∀ op, sc op ≤ Relax.upd sc o (max (sc o) ((d : Int) - h k)) op := by
        intro op
        rw [upd_get]
        split
        · next e => subst e; omega
        · exact Int.le_refl _
      refine ⟨sc', h1, fun op => Int.le_trans (hup op) (h2 op), fun op j hm hj => ?_, fun op => ?_⟩
      · rcases List.mem_cons.mp hm with e | e
        · simp only [Trans.mk.injEq] at e
          obtain ⟨rfl, rfl⟩ := e
          have := h2 op
          rw [upd_get, if_pos rfl] at this
          omega
        · exact h3 op j e hj
      · rcases h4 op with e | ⟨j, e, e'⟩
        · rw [upd_get] at e
          split at e
          · next e2 =>
            subst e2
            rcases Int.le_total (sc op) ((d : Int) - h k) with hle | hle
            · exact Or.inr ⟨k, by simp, hi, by omega⟩
            · exact Or.inl (by omega)
          · exact Or.inl e
        · exact Or.inr ⟨j, by simp [e], e'⟩

theorem satLoops_spec {general : Bool} : ∀ (loops : List Nat) (sc : Nat → Int), (∀ op, sc op ≤ satLoops general loops sc op) ∧ (general = true → ∀ op ∈ loops, 0 ≤ satLoops general loops sc op) ∧
    ∀ op, satLoops general loops sc op = sc op ∨ (general = true ∧ satLoops general loops sc op = 0) := by
  unfold satLoops
  cases general with
  | false => intro loops sc; simp
  | true =>
    simp only [if_true, true_and, forall_const]
    intro loops
    induction loops with
    | nil => intro sc; simp
    | cons o loops ih =>
      intro sc
      obtain ⟨h1, h2, h3⟩ := ih (Relax.upd sc o (max (sc o) 0))
      rw [List.foldl_cons]
      refine ⟨fun op => ?_, fun op hm => ?_, fun op => ?_⟩
      · refine Int.le_trans ?_ (h1 op)
        rw [upd_get]
        split
        · next e => subst e; omega
        · exact Int.le_refl _
      · rcases List.mem_cons.mp hm with rfl | e
        · have := h1 op
          rw [upd_get, if_pos rfl] at this
          omega
        · exact h2 op e
      · rcases h3 op with e | e
        · rw [upd_get] at e
          split at e
          · next e2 => subst e2; omega
          · exact Or.inl e
        · exact Or.inr e

theorem satStates_spec {general : Bool} {ts : TS} {n : Nat} {g h : Nat → Nat} (hr : ∀ i, ∀ tr ∈ ts.outgoing i, tr.target < n) : ∀ (ss : List Nat) (sc : Nat → Int), (∀ s ∈ ss, s < n) →
    ∃ sc', satStates general ts ((List.range n).map g) ((List.range n).map h) ss sc = some sc' ∧ (∀ op, sc op ≤ sc' op) ∧
      (∀ s ∈ ss, g s ≠ infinite → h s ≠ infinite → (∀ op j, (⟨op, j⟩ : Trans) ∈ ts.outgoing s → h j ≠ infinite → (h s : Int) - h j ≤ sc' op) ∧ (general = true → ∀ op ∈ ts.loops s, 0 ≤ sc' op)) ∧
      ∀ op, sc' op = sc op ∨ (∃ i j, (⟨op, j⟩ : Trans) ∈ ts.outgoing i ∧ h i ≠ infinite ∧ h j ≠ infinite ∧ sc' op = (h i : Int) - h j) ∨ (general = true ∧ sc' op = 0)
  | [], sc, _ => ⟨sc, rfl, fun _ => Int.le_refl _, by simp, fun _ => Or.inl rfl⟩
  | s :: ss, sc, hs => by
    have hsn := hs s (by simp)
    unfold satStates
    simp only [getElem?_range_map hsn]
    by_cases hd : g s = infinite ∨ h s = infinite
    · rw [if_pos hd]
      obtain ⟨sc', h1, h2, h3, h4⟩ := satStates_spec hr ss sc (fun x hx => hs x (by simp [hx]))
      refine ⟨sc', h1, h2, fun x hx => ?_, h4⟩
      rcases List.mem_cons.mp hx with rfl | e
      · intro k1 k2; exact absurd hd (by simp [k1, k2])
      · exact h3 x e
    · rw [if_neg hd]
      push Not at hd
      obtain ⟨sc1, a1, a2, a3, a4⟩ := satOut_spec (d := h s) (ts.outgoing s) sc (hr s)
      rw [a1]
      simp only
      obtain ⟨b1, b2, b3⟩ := satLoops_spec (general := general) (ts.loops s) sc1
      obtain ⟨sc', h1, h2, h3, h4⟩ := satStates_spec (general := general) (g := g) (h := h) hr ss (satLoops general (ts.loops s) sc1) (fun x hx => hs x (by simp [hx]))
      refine ⟨sc', h1, fun op => Int.le_trans (a2 op) (Int.le_trans (b1 op) (h2 op)), fun x hx => ?_, fun op => ?_⟩
      · rcases List.mem_cons.mp hx with rfl | e
        · intro _ _
          exact ⟨fun op j hm hj => Int.le_trans (a3 op j hm hj) (Int.le_trans (b1 op) (h2 op)), fun hg op hm => Int.le_trans (b2 hg op hm) (h2 op)⟩
        · exact h3 x e
      · rcases h4 op with e | e | e
        · rcases b3 op with f | ⟨f1, f2⟩
          · rcases a4 op with k | ⟨j, k1, k2, k3⟩
            · exact Or.inl (by rw [e, f, k])
            · exact Or.inr (Or.inl ⟨s, j, k1, hd.2, k2, by rw [e, f, k3]⟩)
          · exact Or.inr (Or.inr ⟨f1, by rw [e, f2]⟩)
        · exact Or.inr (Or.inl e)
        · exact Or.inr (Or.inr e)

theorem reduceCosts_spec {sc : Nat → Int} : ∀ (cs : List Nat) (k : Nat), (∀ i c, cs[i]? = some c → ∃ r, reduceCost c (sc (k + i)) = some r) →
    ∃ rs, reduceCosts sc k cs = some rs ∧ rs.length = cs.length ∧ ∀ i c, cs[i]? = some c → ∃ r, rs[i]? = some r ∧ reduceCost c (sc (k + i)) = some r
  | [], k, _ => ⟨[], rfl, rfl, by simp⟩
  | c :: cs, k, h => by
    obtain ⟨r, hr⟩ := h 0 c rfl
    obtain ⟨rs, h1, h2, h3⟩ := reduceCosts_spec cs (k + 1) (fun i c hc => by
      have := h (i + 1) c (by simpa using hc)
      rw [show k + 1 + i = k + (i + 1) by omega]; exact this)
    refine ⟨r :: rs, ?_, by simp [h2], fun i c' hc => ?_⟩
    · unfold reduceCosts
      rw [Nat.add_zero] at hr
      rw [hr, h1]
    · cases i with
      | zero => simp at hc; subst hc; exact ⟨r, rfl, hr⟩
      | succ i =>
        obtain ⟨r', k1, k2⟩ := h3 i c' (by simpa using hc)
        exact ⟨r', by simpa using k1, by rw [show k + (i + 1) = k + 1 + i by omega]; exact k2⟩

/-- the abstract state of a state that is converted first -/
def Abs.stateIn (a : Abs) (conv : State → Option State) (s : State) : Option Nat := (conv s).bind a.stateOf

/-- an abstraction of the reachable states of a task, where states are converted before they are looked up -/
structure SoundAbs (t : Task) (conv : State → Option State) (a : Abs) : Prop where
  ts : TSOk a.ts a.states.length t.ops.length
  total : ∀ s, t.Reachable s → ∃ i, i < a.states.length ∧ a.stateIn conv s = some i
  init : a.stateIn conv t.init = some a.init
  goals : ∀ i ∈ a.goals, i < a.states.length
  goal : ∀ s i, t.Reachable s → allHold t.goal s → a.stateIn conv s = some i → i ∈ a.goals
  step : ∀ s op s' i j, t.Reachable s → t.Step s op s' → a.stateIn conv s = some i → a.stateIn conv s' = some j → (i ≠ j → (⟨op, j⟩ : Trans) ∈ a.ts.outgoing i) ∧ (i = j → op ∈ a.ts.loops i)

theorem Reachable.init (t : Task) : t.Reachable t.init := ⟨[], .nil _⟩

theorem exec_snoc {t : Task} {s u : State} {π : List Nat} (h : t.Exec s π u) {op : Nat} {u' : State} (hs : t.Step u op u') : t.Exec s (π ++ [op]) u' := by
  induction h with
  | nil s => obtain ⟨o, h1, h2, h3⟩ := hs; exact .cons _ _ o _ _ _ h1 h2 h3 (.nil _)
  | cons s i o s' π u h1 h2 h3 _ ih => exact .cons _ _ o _ _ _ h1 h2 h3 (ih hs)

theorem Reachable.step {t : Task} {s s' : State} {op : Nat} (h : t.Reachable s) (hs : t.Step s op s') : t.Reachable s' := by
  obtain ⟨π, h⟩ := h
  exact ⟨_, exec_snoc h hs⟩

/-- what one abstraction contributes -/
structure Layer (t : Task) (costs costs' : List Nat) (B : Nat) (hv : State → Nat) : Prop where
  /-- finite values are at most `B` -/
  bound : ∀ s, t.Reachable s → hv s < infinite → hv s ≤ B
  le : ∀ s, t.Reachable s → hv s ≤ infinite
  goal : ∀ s, t.Reachable s → allHold t.goal s → hv s = 0
  sat : ∃ (R : State → Prop) (sc : Nat → Int), R t.init ∧
    (∀ s op s', t.Reachable s → t.Step s op s' → costAt costs op < infinite → R s → R s') ∧
    (∀ s op s', t.Reachable s → t.Step s op s' → costAt costs op < infinite → hv s = infinite → hv s' = infinite) ∧
    (∀ s op s', t.Reachable s → t.Step s op s' → R s → hv s < infinite → hv s' < infinite → sc op ≠ -(infinite : Int) ∧ (hv s : Int) ≤ sc op + hv s') ∧
    (∀ op, op < t.ops.length → (costAt costs op = infinite → costAt costs' op = infinite) ∧ (costAt costs op < infinite → (sc op = -(infinite : Int) ∧ costAt costs' op = infinite) ∨ (costAt costs' op < infinite ∧ (costAt costs' op : Int) = costAt costs op - sc op)))

/-- the layers of a sequence of abstractions, with the bounds on their values -/
inductive Chain (t : Task) : List Nat → List (State → Nat) → Prop where
  | nil (costs) : Chain t costs []
  | cons (costs costs' B hv hvs) : Layer t costs costs' B hv → Chain t costs' hvs → Chain t costs (hv :: hvs)

/-- Let `D` be a set of states without plans that contains a state of each transition whose operator has infinite cost.  Between other states that are not dead ends for the layers,
the sum of the values changes at most by the cost of the operator. -/
theorem Chain.main {t : Task} {costs : List Nat} {hvs : List (State → Nat)} (hc : Chain t costs hvs) : ∀ (D : State → Prop),
    (∀ s op s', t.Reachable s → t.Step s op s' → D s → D s') → (∀ s op s', t.Reachable s → t.Step s op s' → costAt costs op = infinite → D s ∨ D s') → (∀ op, op < t.ops.length → costAt costs op ≤ infinite) →
    (∀ s op s', t.Reachable s → t.Step s op s' → (D s ∨ ∃ hv ∈ hvs, hv s = infinite) → (D s' ∨ ∃ hv ∈ hvs, hv s' = infinite)) ∧
    (∀ s op s', t.Reachable s → t.Step s op s' → ¬(D s ∨ ∃ hv ∈ hvs, hv s = infinite) → ¬(D s' ∨ ∃ hv ∈ hvs, hv s' = infinite) → (hvs.map (fun hv => hv s)).sum ≤ costAt costs op + (hvs.map (fun hv => hv s')).sum) := by
  induction hc with
  | nil costs =>
    intro D h1 h2 h3
    simp only [List.not_mem_nil, false_and, exists_false, or_false, List.map_nil, List.sum_nil]
    exact ⟨h1, fun _ _ _ _ _ _ _ => Nat.zero_le _⟩
  | cons costs costs' B hv hvs hl _ ih =>
    intro D h1 h2 h3
    obtain ⟨R, sc, r1, r2, r3, r4, r5⟩ := hl.sat
    have hreach : ∀ s, t.Reachable s → D s ∨ R s := by
      rintro s ⟨π, hπ⟩
      have key : ∀ s π u, t.Exec s π u → t.Reachable s → (D s ∨ R s) → (D u ∨ R u) := by
        intro s π u h
        induction h with
        | nil s => exact fun _ h => h
        | cons s i o s' π u k1 k2 k3 _ ih =>
          intro hr hd
          have hst : t.Step s i s' := ⟨o, k1, k2, k3⟩
          refine ih (Reachable.step hr hst) ?_
          rcases hd with hd | hd
          · exact Or.inl (h1 s i s' hr hst hd)
          · by_cases hinf : costAt costs i = infinite
            · rcases h2 s i s' hr hst hinf with h | h
              · exact Or.inl (h1 s i s' hr hst h)
              · exact Or.inl h
            · exact Or.inr (r2 s i s' hr hst (Nat.lt_of_le_of_ne (h3 i (step_op hst)) hinf) hd)
      exact key _ _ _ hπ (Reachable.init t) (Or.inr r1)
    have hfin : ∀ s, t.Reachable s → hv s ≠ infinite → hv s < infinite := fun s hs hne => Nat.lt_of_le_of_ne (hl.le s hs) hne
    have e1 : ∀ s op s', t.Reachable s → t.Step s op s' → (D s ∨ hv s = infinite) → (D s' ∨ hv s' = infinite) := by
      intro s op s' hr hst h
      rcases h with h | h
      · exact Or.inl (h1 s op s' hr hst h)
      · by_cases hinf : costAt costs op = infinite
        · rcases h2 s op s' hr hst hinf with h' | h'
          · exact Or.inl (h1 s op s' hr hst h')
          · exact Or.inl h'
        · exact Or.inr (r3 s op s' hr hst (Nat.lt_of_le_of_ne (h3 op (step_op hst)) hinf) h)
    have e2 : ∀ s op s', t.Reachable s → t.Step s op s' → costAt costs' op = infinite → (D s ∨ hv s = infinite) ∨ (D s' ∨ hv s' = infinite) := by
      intro s op s' hr hst hinf
      have ho := step_op hst
      by_cases hc : costAt costs op = infinite
      · rcases h2 s op s' hr hst hc with h | h
        · exact Or.inl (Or.inl h)
        · exact Or.inr (Or.inl h)
      · rcases (r5 op ho).2 (Nat.lt_of_le_of_ne (h3 op ho) hc) with ⟨k, _⟩ | ⟨k, _⟩
        · by_contra hno
          push Not at hno
          obtain ⟨⟨n1, n2⟩, n3, n4⟩ := hno
          have hR := (hreach s hr).resolve_left n1
          exact (r4 s op s' hr hst hR (hfin s hr n2) (hfin s' (Reachable.step hr hst) n4)).1 k
        · omega
    have e3 : ∀ op, op < t.ops.length → costAt costs' op ≤ infinite := by
      intro op ho
      by_cases hc : costAt costs op = infinite
      · rw [(r5 op ho).1 hc]
      · rcases (r5 op ho).2 (Nat.lt_of_le_of_ne (h3 op ho) hc) with ⟨_, k⟩ | ⟨k, _⟩
        · rw [k]
        · exact Nat.le_of_lt k
    obtain ⟨i1, i2⟩ := ih (fun s => D s ∨ hv s = infinite) e1 e2 e3
    have hiff : ∀ s, (D s ∨ ∃ hv' ∈ hv :: hvs, hv' s = infinite) ↔ ((D s ∨ hv s = infinite) ∨ ∃ hv' ∈ hvs, hv' s = infinite) := by
      intro s
      simp only [List.mem_cons, exists_eq_or_imp]
      exact or_assoc.symm
    refine ⟨fun s op s' hr hst h => (hiff s').mpr (i1 s op s' hr hst ((hiff s).mp h)), fun s op s' hr hst n1 n2 => ?_⟩
    rw [hiff] at n1 n2
    have hle := i2 s op s' hr hst n1 n2
    push Not at n1 n2
    have hR := (hreach s hr).resolve_left n1.1.1
    obtain ⟨k1, k2⟩ := r4 s op s' hr hst hR (hfin s hr n1.1.2) (hfin s' (Reachable.step hr hst) n2.1.2)
    have ho := step_op hst
    have hcf : costAt costs op < infinite := by
      refine Nat.lt_of_le_of_ne (h3 op ho) (fun hinf => ?_)
      rcases h2 s op s' hr hst hinf with h | h
      · exact n1.1.1 h
      · exact n2.1.1 h
    rcases (r5 op ho).2 hcf with ⟨k, _⟩ | ⟨k3, k4⟩
    · exact absurd k k1
    · simp only [List.map_cons, List.sum_cons]
      omega

/-- the sum of the values is a lower bound on the costs of plans, and states with infinite values have no plans -/
theorem Chain.admissible {t : Task} {costs : List Nat} {hvs : List (State → Nat)} (hc : Chain t costs hvs) (hfin : ∀ op, op < t.ops.length → costAt costs op < infinite) (hg : ∀ hv ∈ hvs, ∀ s, t.Reachable s → allHold t.goal s → hv s = 0)
    {s : State} {π : List Nat} {u : State} (h : t.Exec s π u) : t.Reachable s → allHold t.goal u → (∀ hv ∈ hvs, hv s ≠ infinite) ∧ (hvs.map (fun hv => hv s)).sum ≤ (π.map (costAt costs)).sum := by
  obtain ⟨m1, m2⟩ := hc.main (fun _ => False) (fun _ _ _ _ _ h => h) (fun s op s' _ hst h => absurd h (Nat.ne_of_lt (hfin op (step_op hst)))) (fun op ho => Nat.le_of_lt (hfin op ho))
  simp only [false_or] at m1 m2
  induction h with
  | nil s =>
    intro hr hgoal
    refine ⟨fun hv hm => by rw [hg hv hm s hr hgoal]; simp [infinite, Dijkstra.inf], ?_⟩
    have : (hvs.map (fun hv => hv s)).sum = 0 := by
      rw [List.sum_eq_zero]
      intro x hx
      obtain ⟨hv, hm, rfl⟩ := List.mem_map.mp hx
      exact hg hv hm s hr hgoal
    rw [this]
    exact Nat.zero_le _
  | cons s i o s' π u k1 k2 k3 _ ih =>
    intro hr hgoal
    have hst : t.Step s i s' := ⟨o, k1, k2, k3⟩
    obtain ⟨j1, j2⟩ := ih (Reachable.step hr hst) hgoal
    have hno : ¬∃ hv ∈ hvs, hv s' = infinite := by push Not; exact j1
    have hno' : ¬∃ hv ∈ hvs, hv s = infinite := fun h => hno (m1 s i s' hr hst h)
    have := m2 s i s' hr hst hno' hno
    push Not at hno'
    refine ⟨hno', ?_⟩
    rw [List.map_cons, List.sum_cons]
    omega

end Verif.Cart
