import Verif.Spec.Sampling
import Verif.Props.SuccGen
import Verif.Props.Registry
import Verif.Lemmas.SimpleTask
import Mathlib.Tactic.Linarith
import Mathlib.Tactic.FieldSimp
import Mathlib.Algebra.Order.Field.Rat
import Mathlib.Data.Rat.Floor

/-
C49: random walks.
-/
namespace Verif.Sampling
variable {t : Task} {useHash : Nat → Nat → Bool} {isDeadEnd : State → Bool}

theorem choose_spec {α : Type} {rng : Rng} (hr : rng.Valid) (k : Nat) {v : List α} (hne : v ≠ []) (hlen : v.length < 2 ^ 31) :
    ∃ a, rng.choose k v = some a ∧ a ∈ v ∧ v[rng.int k v.length]? = some a := by
  have h0 : 0 < v.length := List.length_pos_iff.mpr hne
  have hlt := hr.int k v.length h0
  refine ⟨v[rng.int k v.length], ?_, List.getElem_mem _, List.getElem?_eq_getElem hlt⟩
  unfold Rng.choose Rng.random
  rw [if_pos ⟨h0, hlen⟩]
  simp only
  rw [List.getElem?_eq_getElem hlt]

/-- Choosing an element of a vector that is not empty gives an element of the vector, and each element can be chosen. -/
theorem C49_choose {α : Type} {v : List α} (hne : v ≠ []) (hlen : v.length < 2 ^ 31) (k : Nat) :
    (∀ rng : Rng, rng.Valid → ∃ a ∈ v, rng.choose k v = some a) ∧ ∀ a ∈ v, ∃ rng : Rng, rng.Valid ∧ rng.choose k v = some a := by
  refine ⟨fun rng hr => ?_, fun a ha => ?_⟩
  · obtain ⟨a, h1, h2, _⟩ := choose_spec hr k hne hlen
    exact ⟨a, h2, h1⟩
  · obtain ⟨i, hi, rfl⟩ := List.mem_iff_getElem.mp ha
    have hr : Rng.Valid ⟨fun _ => 0, fun _ b => min i (b - 1)⟩ := ⟨fun _ => by norm_num, fun _ b hb => by simp only; omega⟩
    obtain ⟨a, h1, _, h2⟩ := choose_spec hr k hne hlen
    refine ⟨_, hr, h1.trans ?_⟩
    have : min i (v.length - 1) = i := by omega
    simp only [this] at h2
    rw [← h2, List.getElem?_eq_getElem hi]

/-- The number of trials is 10 if the estimate is 0, and otherwise four times the estimate of the number of steps: the quotient of the
estimate and the average cost of an operator, rounded to the nearest integer. -/
theorem C49_trials {initH : Nat} (hh : initH < 2 ^ 31 - 1) : numTrials t 0 = some 10 ∧
    (0 < initH → 0 < totalCost t → 4 * (initH * t.ops.length + totalCost t) < 2 ^ 31 * totalCost t →
      ∃ r : Nat, numTrials t initH = some (4 * r) ∧ 2 * initH * t.ops.length ≤ (2 * r + 1) * totalCost t ∧ 2 * r * totalCost t ≤ 2 * initH * t.ops.length + totalCost t) := by
  refine ⟨by simp [numTrials], fun h0 hc hb => ?_⟩
  have hops : t.ops.length ≠ 0 := by
    intro h
    rw [List.length_eq_zero_iff] at h
    rw [totalCost, h] at hc
    simp at hc
  have hopsQ : (0 : Rat) < t.ops.length := by exact_mod_cast Nat.pos_of_ne_zero hops
  have hcQ : (0 : Rat) < totalCost t := by exact_mod_cast hc
  have havg : averageOperatorCost t = some ((totalCost t : Rat) / t.ops.length) := by
    unfold averageOperatorCost
    rw [if_neg hops, totalCost]
  have hpos : (0 : Rat) < (totalCost t : Rat) / t.ops.length := div_pos hcQ hopsQ
  have hq : (initH : Rat) / ((totalCost t : Rat) / t.ops.length) = initH * t.ops.length / totalCost t := by
    field_simp
  have hnn : (0 : Rat) ≤ (initH : Rat) * t.ops.length / totalCost t := by positivity
  have hfl : 0 ≤ Rat.floor ((initH : Rat) * t.ops.length / totalCost t + 1 / 2) := by
    rw [Rat.le_floor_iff]
    push_cast
    linarith
  obtain ⟨r, hr⟩ := Int.eq_ofNat_of_zero_le hfl
  have h1 : ((r : Int) : Rat) ≤ (initH : Rat) * t.ops.length / totalCost t + 1 / 2 := by
    rw [← hr]
    exact Rat.floor_le _
  have h2 : (initH : Rat) * t.ops.length / totalCost t + 1 / 2 < ((r : Int) : Rat) + 1 := by
    rw [← hr]
    exact_mod_cast Rat.lt_floor_add_one _
  push_cast at h1 h2
  refine ⟨r, ?_, ?_, ?_⟩
  · unfold numTrials
    rw [if_pos hh, if_neg (by omega), havg]
    simp only
    rw [if_neg (ne_of_gt hpos), hq, hr, if_pos]
    · simp
    · have h3 : (r : Rat) * totalCost t ≤ initH * t.ops.length + totalCost t := by
        have : (r : Rat) ≤ initH * t.ops.length / totalCost t + 1 := by linarith
        calc (r : Rat) * totalCost t ≤ (initH * t.ops.length / totalCost t + 1) * totalCost t := mul_le_mul_of_nonneg_right this hcQ.le
          _ = initH * t.ops.length + totalCost t := by field_simp
      have h4 : r * totalCost t ≤ initH * t.ops.length + totalCost t := by exact_mod_cast h3
      have h5 : 4 * r * totalCost t < 2 ^ 31 * totalCost t := by
        calc 4 * r * totalCost t = 4 * (r * totalCost t) := by ring
          _ ≤ 4 * (initH * t.ops.length + totalCost t) := by omega
          _ < _ := hb
      have h6 := lt_of_mul_lt_mul_right h5 (Nat.zero_le _)
      exact_mod_cast h6
  · have h3 : (2 : Rat) * initH * t.ops.length ≤ (2 * r + 1) * totalCost t := by
      have : (initH : Rat) * t.ops.length / totalCost t ≤ r + 1 / 2 := by linarith
      rw [div_le_iff₀ hcQ] at this
      linarith
    exact_mod_cast h3
  · have h3 : (2 : Rat) * r * totalCost t ≤ 2 * initH * t.ops.length + totalCost t := by
      have : (r : Rat) - 1 / 2 ≤ initH * t.ops.length / totalCost t := by linarith
      rw [le_div_iff₀ hcQ] at this
      linarith
    exact_mod_cast h3

/-- the operators that are generated -/
theorem generated (hwf : t.WF) {s : State} (hs : t.ValidState s) : ∃ l, SuccGen.generateApplicableOps t useHash s [] = some l ∧ l.length ≤ t.ops.length ∧
    ∀ i, i ∈ l ↔ ∃ o : Operator, t.ops[i]? = some o ∧ o.applicable s := by
  obtain ⟨l, h1, h2, h3⟩ := SuccGen.C10_successor_generator t hwf.pre useHash s hs []
  refine ⟨l, by simpa using h1, ?_, h3⟩
  have : l ⊆ List.range t.ops.length := by
    intro i hi
    obtain ⟨o, ho, _⟩ := (h3 i).mp hi
    exact List.mem_range.mpr (List.getElem?_eq_some_iff.mp ho).1
  simpa using (List.subperm_of_subset h2 this).length_le

theorem LivePath.snoc {s u u' : State} {π : List Nat} (h : LivePath t isDeadEnd s π u) {i : Nat} {o : Operator} (ho : t.ops[i]? = some o) (ha : o.applicable u) (hs : t.SuccRel o u u') (hd : isDeadEnd u' = false) :
    LivePath t isDeadEnd s (π ++ [i]) u' := by
  induction h with
  | nil s => exact .cons _ _ _ _ _ _ ho ha hs hd (.nil _)
  | cons s j o' s1 π u h1 h2 h3 h4 _ ih => exact .cons _ _ _ _ _ _ h1 h2 h3 h4 (ih ha hs)

theorem walk_spec (hwf : t.WF) (hlen : t.ops.length < 2 ^ 31) {rng : Rng} (hr : rng.Valid) : ∀ (n k : Nat) (s : State) (π : List Nat), t.ValidState s → LivePath t isDeadEnd t.init π s →
    ∃ s' π', walk t useHash isDeadEnd rng n k s = some s' ∧ t.ValidState s' ∧ LivePath t isDeadEnd t.init π' s' ∧ π'.length ≤ π.length + n
  | 0, k, s, π, hs, hp => ⟨s, π, rfl, hs, hp, by omega⟩
  | n + 1, k, s, π, hs, hp => by
    obtain ⟨l, h1, h2, h3⟩ := generated (useHash := useHash) hwf hs
    unfold walk
    rw [h1]
    match l, h2, h3 with
    | [], _, _ => exact ⟨s, π, rfl, hs, hp, by omega⟩
    | o :: os, h2, h3 =>
      simp only
      obtain ⟨i, h4, h5, _⟩ := choose_spec hr k (v := o :: os) (by simp) (by omega)
      rw [h4]
      simp only
      obtain ⟨op, h6, h7⟩ := (h3 i).mp h5
      rw [h6]
      simp only
      obtain ⟨s', h8, h9, h10⟩ := Registry.unregistered_spec hwf (List.mem_of_getElem? h6) hs
      rw [h8]
      simp only
      by_cases hd : isDeadEnd s' = true
      · rw [if_pos hd]
        obtain ⟨u, π', k1, k2, k3, k4⟩ := walk_spec hwf hlen hr n (k + 1) t.init [] hwf.init (.nil _)
        exact ⟨u, π', k1, k2, k3, by simp at k4; omega⟩
      · rw [if_neg hd]
        obtain ⟨u, π', k1, k2, k3, k4⟩ := walk_spec hwf hlen hr n (k + 1) s' (π ++ [i]) h9 (hp.snoc h6 h7 h10 (by simpa using hd))
        exact ⟨u, π', k1, k2, k3, by simp at k4; omega⟩

theorem walkLength_le (rng : Rng) (n : Nat) : walkLength rng n ≤ n := by
  unfold walkLength
  exact (List.length_filter_le _ _).trans (by simp)

/-- Whatever the random numbers, sampling gives a state at the end of a path from the initial state that does not visit states that are recognised as dead
ends (except possibly the initial state), and has at most as many steps as there are trials. -/
theorem C49_sample (hwf : t.WF) (hlen : t.ops.length < 2 ^ 31) {rng : Rng} (hr : rng.Valid) {initH n : Nat} (hn : numTrials t initH = some n) :
    ∃ s π, sampleState t useHash isDeadEnd rng initH = some s ∧ t.ValidState s ∧ LivePath t isDeadEnd t.init π s ∧ π.length ≤ n := by
  unfold sampleState
  rw [hn]
  obtain ⟨s, π, h1, h2, h3, h4⟩ := walk_spec (useHash := useHash) (isDeadEnd := isDeadEnd) hwf hlen hr (walkLength rng n) 0 t.init [] hwf.init (.nil _)
  exact ⟨s, π, h1, h2, h3, by have := walkLength_le rng n; simp at h4; omega⟩

/-- the numbers that lead along a path -/
theorem walk_follow (hwf : t.WF) (hlen : t.ops.length < 2 ^ 31) {s u : State} {π : List Nat} (h : LivePath t isDeadEnd s π u) (hs : t.ValidState s) :
    ∃ choice : List Nat, ∀ (rng : Rng) (k : Nat), rng.Valid → (∀ j c, choice[j]? = some c → ∀ b, c < b → rng.int (k + j) b = c) →
      walk t useHash isDeadEnd rng π.length k s = some u := by
  induction h with
  | nil s => exact ⟨[], fun rng k _ _ => rfl⟩
  | cons s i o s' π u h1 h2 h3 h4 _ ih =>
    obtain ⟨s1, k1, k2, k3⟩ := Registry.unregistered_spec hwf (List.mem_of_getElem? h1) hs
    have hu := Registry.succRel_unique hwf hs h3 k3
    subst hu
    obtain ⟨choice, hch⟩ := ih k2
    obtain ⟨l, g1, g2, g3⟩ := generated (useHash := useHash) hwf hs
    have him : i ∈ l := (g3 i).mpr ⟨o, h1, h2⟩
    obtain ⟨c, hc, hci⟩ := List.mem_iff_getElem.mp him
    refine ⟨c :: choice, fun rng k hr hint => ?_⟩
    rw [List.length_cons]
    unfold walk
    rw [g1]
    match l, g2, hc, hci with
    | x :: xs, g2, hc, hci =>
      simp only
      obtain ⟨a, e1, _, e2⟩ := choose_spec hr k (v := x :: xs) (by simp) (by omega)
      have := hint 0 c rfl (x :: xs).length hc
      rw [Nat.add_zero] at this
      rw [this, List.getElem?_eq_getElem hc, hci] at e2
      cases e2
      rw [e1]
      simp only
      rw [h1]
      simp only
      rw [k1]
      simp only
      rw [h4]
      refine hch rng (k + 1) hr (fun j d hj b hb => ?_)
      have := hint (j + 1) d (by simpa using hj) b hb
      rw [← this]
      congr 1
      omega

/-- Every state at the end of such a path can be sampled. -/
theorem C49_complete (hwf : t.WF) (hlen : t.ops.length < 2 ^ 31) {initH n : Nat} (hn : numTrials t initH = some n) {s : State} {π : List Nat} (hp : LivePath t isDeadEnd t.init π s) (hle : π.length ≤ n) :
    ∃ rng : Rng, rng.Valid ∧ sampleState t useHash isDeadEnd rng initH = some s := by
  obtain ⟨choice, hch⟩ := walk_follow (useHash := useHash) hwf hlen hp hwf.init
  have hr : Rng.Valid ⟨fun k => if k < π.length then 0 else 1 / 2, fun k b => min (choice[k]?.getD 0) (b - 1)⟩ := by
    refine ⟨fun k => ?_, fun k b hb => ?_⟩
    · simp only
      split <;> norm_num
    · simp only
      omega
  refine ⟨_, hr, ?_⟩
  unfold sampleState
  rw [hn]
  simp only
  have hl : walkLength ⟨fun k => if k < π.length then 0 else 1 / 2, fun k b => min (choice[k]?.getD 0) (b - 1)⟩ n = π.length := by
    unfold walkLength
    have : (List.range n).filter (fun j => decide ((if j < π.length then (0 : Rat) else 1 / 2) < 1 / 2)) = List.range π.length := by
      have h1 : ∀ j, decide ((if j < π.length then (0 : Rat) else 1 / 2) < 1 / 2) = decide (j < π.length) := by
        intro j
        by_cases hj : j < π.length
        · rw [if_pos hj]
          simp [hj]
        · rw [if_neg hj]
          simp [hj]
      simp only [h1]
      obtain ⟨d, rfl⟩ := Nat.exists_eq_add_of_le hle
      rw [List.range_add, List.filter_append, List.filter_eq_self.mpr (by simp), List.filter_eq_nil_iff.mpr (by simp), List.append_nil]
    simp only [this, List.length_range]
  rw [hl]
  refine hch _ 0 hr (fun j c hj b hb => ?_)
  simp only [Nat.zero_add, hj, Option.getD_some]
  omega

/-! ### Examples -/

/-- a lamp that can be switched on, and then only broken -/
def exLamp : Task where
  vars := [⟨3, none, 0⟩]
  ops := [⟨[⟨0, 0⟩], [⟨[], ⟨0, 1⟩⟩], 2⟩, ⟨[⟨0, 1⟩], [⟨[], ⟨0, 2⟩⟩], 4⟩]
  axioms := []
  init := [0]
  goal := [⟨0, 1⟩]

theorem exLamp_wf : exLamp.WF := Search.taskOK_wf (by decide)

example : numTrials exLamp 2 = some 4 := by decide +kernel

example (rng : Rng) (hr : rng.Valid) := C49_sample (useHash := fun _ _ => false) (isDeadEnd := fun _ => false) exLamp_wf (by decide) hr (show numTrials exLamp 2 = some 4 by decide +kernel)

/-- all random numbers are 0 -/
def zeroRng : Rng := ⟨fun _ => 0, fun _ _ => 0⟩

theorem zeroRng_valid : zeroRng.Valid := ⟨fun _ => by norm_num [zeroRng], fun _ _ h => h⟩

theorem lamp_valid {x : Nat} (hx : x < 3) : exLamp.ValidState [x] := by
  refine ⟨rfl, fun v z d hz hd => ?_⟩
  match v with
  | 0 => simp [exLamp] at hz hd; subst hz; subst hd; exact hx
  | _ + 1 => simp at hz

theorem lamp_gen {x : Nat} (hx : x < 3) : ∃ l, SuccGen.generateApplicableOps exLamp (fun _ _ => false) [x] [] = some l ∧ (∀ j ∈ l, j = x) ∧ (l = [] ↔ x = 2) := by
  obtain ⟨l, h1, _, h3⟩ := generated (useHash := fun _ _ => false) exLamp_wf (lamp_valid hx)
  have hall : ∀ j ∈ l, j = x ∧ x < 2 := by
    intro j hj
    obtain ⟨o, ho, ha⟩ := (h3 j).mp hj
    match j, ho with
    | 0, ho => cases ho; have h0 : x = 0 := by simpa [Operator.applicable, allHold, Fact.holds] using ha
               omega
    | 1, ho => cases ho; have h0 : x = 1 := by simpa [Operator.applicable, allHold, Fact.holds] using ha
               omega
    | j + 2, ho => simp [exLamp] at ho
  refine ⟨l, h1, fun j hj => (hall j hj).1, fun h => ?_, fun h => ?_⟩
  · by_contra hne
    have : x ∈ l := by
      rw [h3]
      rcases (show x = 0 ∨ x = 1 by omega) with rfl | rfl
      · exact ⟨_, rfl, by decide⟩
      · exact ⟨_, rfl, by decide⟩
    rw [h] at this
    cases this
  · rw [List.eq_nil_iff_forall_not_mem]
    intro j hj
    have := (hall j hj).2
    omega

theorem lamp_step {x n k : Nat} (hx : x < 2) : walk exLamp (fun _ _ => false) (fun _ => false) zeroRng (n + 1) k [x] = walk exLamp (fun _ _ => false) (fun _ => false) zeroRng n (k + 1) [x + 1] := by
  obtain ⟨l, h1, h2, h3⟩ := lamp_gen (x := x) (by omega)
  rw [walk, h1]
  match l, h2, h3 with
  | [], _, h3 => have := h3.mp rfl; omega
  | o :: os, h2, _ =>
    have ho := h2 o (by simp)
    subst ho
    have hlen : (o :: os).length < 2 ^ 31 := by
      obtain ⟨l', g1, g2, _⟩ := generated (useHash := fun _ _ => false) exLamp_wf (lamp_valid (x := o) (by omega))
      rw [h1] at g1
      cases g1
      exact lt_of_le_of_lt g2 (by decide)
    obtain ⟨a, e1, _, e2⟩ := choose_spec zeroRng_valid k (v := o :: os) (by simp) hlen
    have : a = o := by
      have h0 : zeroRng.int k (o :: os).length = 0 := rfl
      rw [h0] at e2
      simpa using e2.symm
    subst this
    simp only [e1]
    rcases (show a = 0 ∨ a = 1 by omega) with rfl | rfl <;> rfl

/-- The documentation (sampling.h:43) says that a walk starts again in the initial state if a state has no successors.  The code ends the walk in this state
instead: here after two of four steps. -/
theorem C49_documented_restart_fails : ∃ (t : Task) (rng : Rng) (s : State), t.WF ∧ rng.Valid ∧ walkLength rng 4 = 4 ∧ numTrials t 2 = some 4 ∧
    sampleState t (fun _ _ => false) (fun _ => false) rng 2 = some s ∧ s ≠ t.init ∧ SuccGen.generateApplicableOps t (fun _ _ => false) s [] = some [] :=
  ⟨exLamp, zeroRng, [2], exLamp_wf, zeroRng_valid, by decide +kernel, by decide +kernel, by
    unfold sampleState
    rw [show numTrials exLamp 2 = some 4 by decide +kernel]
    simp only
    rw [show walkLength zeroRng 4 = 4 by decide +kernel, show exLamp.init = [0] from rfl, lamp_step (by omega), lamp_step (by omega), walk]
    obtain ⟨l, h1, _, h3⟩ := lamp_gen (x := 2) (by omega)
    rw [h1, h3.mpr rfl], by decide, by
    obtain ⟨l, h1, _, h3⟩ := lamp_gen (x := 2) (by omega)
    rw [h1, h3.mpr rfl]⟩

end Verif.Sampling
