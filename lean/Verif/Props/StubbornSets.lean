import Verif.Lemmas.StubbornSearch
import Verif.Props.AstarHmax

/-
C43: pruning with stubborn sets preserves plans and their costs.
-/
namespace Verif.Stubborn
open Verif.Search Verif.OpenList

/-- **C43.** Every pruning method keeps only operators of the list it is given, in their order, and every plan from the state can be reordered (which does not change its cost) into a plan that begins with an operator that is kept. -/
theorem C43_safe {t : Task} (ht : StubbornTask t) (m : Method) {s : State} (hs : t.ValidState s) (hg : ¬ allHold t.goal s) {ops os : List Nat} (hops : t.ApplicableOps s ops) (h : m.prune t s ops = some os) :
    os.Sublist ops ∧ t.SafeSelection s os := by
  unfold Method.prune at h
  cases m with
  | null =>
    simp only [Option.some.injEq] at h
    subst h
    refine ⟨List.Sublist.refl _, ?_⟩
    rintro π ⟨u, hex, hgu⟩
    cases hex with
    | nil => exact absurd hgu hg
    | cons _ i o s' π u ho ha hsucc hex => exact ⟨i, π, (hops i).mpr ⟨o, ho, ha⟩, .refl _, u, .cons s i o s' π u ho ha hsucc hex, hgu⟩
  | simple =>
    simp only [pruneSimple, Option.map_eq_some_iff] at h
    obtain ⟨w, hw, rfl⟩ := h
    exact ⟨List.filter_sublist, keep_safe ht hs (computeSimple_stubborn ht hw) hops (fun _ _ _ _ => trivial)⟩
  | ec =>
    simp only [pruneEC] at h
    split at h
    · simp at h
    · rename_i l hl
      simp only [Option.map_eq_some_iff] at h
      obtain ⟨w, hw, rfl⟩ := h
      exact ⟨List.filter_sublist, keep_safe ht hs (computeEC_stubborn ht hw) hops (fun π hπ => activeOps_complete ht hs hl hπ)⟩
  | atomCentric sc st =>
    simp only [pruneAC, Option.map_eq_some_iff] at h
    obtain ⟨w, hw, rfl⟩ := h
    exact ⟨List.filter_sublist, keep_safe ht hs (computeAC_stubborn ht hw) hops (fun _ _ _ _ => trivial)⟩

/-- **C43.** The computation of the operators to keep ends, and is defined, in every state that is not a goal state; atom-centric stubborn sets (which count achievers with ints) require that no fact has 2^31 - 1 achievers. -/
theorem C43_defined {t : Task} (hwf : t.WF) (hc : ∀ f : Fact, ((t.ops.map (fun o => (o.effects.filter (fun e => decide (e.fact = f))).length)).sum) < 2 ^ 31 - 1) (m : Method) {s : State} (hs : t.ValidState s)
    (hg : ¬ allHold t.goal s) (ops : List Nat) : ∃ os, m.prune t s ops = some os := by
  have hc' : ∀ f, (achievers t f).length < 2 ^ 31 - 1 := by
    intro f
    have key : ∀ (os : List Operator) (k : Nat), (achieversFrom f k os).length = (os.map (fun o => (o.effects.filter (fun e => decide (e.fact = f))).length)).sum := by
      intro os
      induction os with
      | nil => intro k; simp [achieversFrom]
      | cons o os ih => intro k; simp [achieversFrom, ih]
    unfold achievers
    rw [key]
    exact hc f
  unfold Method.prune
  cases m with
  | null => exact ⟨ops, rfl⟩
  | simple =>
    obtain ⟨w, hw⟩ := computeSimple_defined hwf hs hg
    exact ⟨keep w.stubborn ops, by simp only [pruneSimple, hw, Option.map_some]⟩
  | ec =>
    obtain ⟨l, hl⟩ := activeOps_defined hwf hs
    obtain ⟨w, hw⟩ := computeEC_defined hwf hs (act := fun i => (l[i]?).getD false) hg
    exact ⟨keep w.stubborn ops, by simp only [pruneEC, hl, hw, Option.map_some]⟩
  | atomCentric sc st =>
    obtain ⟨w, hw⟩ := computeAC_defined hwf hs hc' hg sc st
    exact ⟨keep w.stubborn ops, by simp only [pruneAC, hw, Option.map_some]⟩

/-- every method returns a part of the list -/
theorem prune_only {t : Task} {m : Method} {s : State} {ops os : List Nat} (h : m.prune t s ops = some os) : ∀ i ∈ os, i ∈ ops := by
  have hk : ∀ (T : Nat → Bool), ∀ i ∈ keep T ops, i ∈ ops := fun T i hi => (List.mem_filter.mp hi).1
  unfold Method.prune at h
  cases m with
  | null =>
    simp only [Option.some.injEq] at h
    subst h
    exact fun _ h => h
  | simple =>
    simp only [pruneSimple, Option.map_eq_some_iff] at h
    obtain ⟨w, hw, rfl⟩ := h
    exact hk _
  | ec =>
    simp only [pruneEC] at h
    split at h
    · simp at h
    · simp only [Option.map_eq_some_iff] at h
      obtain ⟨w, hw, rfl⟩ := h
      exact hk _
  | atomCentric sc st =>
    simp only [pruneAC, Option.map_eq_some_iff] at h
    obtain ⟨w, hw, rfl⟩ := h
    exact hk _

/-- the result of limited pruning is the list, or the result of the method -/
theorem limited_cases {low : Nat → Nat → Bool} {limit : Nat} {inner : State → List Nat → Option (List Nat)} {l l' : Limited} {s : State} {ops os : List Nat} (h : l.prune low limit inner s ops = some (os, l')) : os = ops ∨ inner s ops = some os := by
  unfold Limited.prune at h
  split at h
  · simp only [Option.some.injEq, Prod.mk.injEq] at h
    exact Or.inl h.1.symm
  · split at h
    · simp at h
    · rename_i os' ho
      simp only [Option.some.injEq, Prod.mk.injEq] at h
      exact Or.inr (by rw [ho, h.1])

theorem safe_pruner {t : Task} (ht : StubbornTask t) (hc : ∀ f : Fact, ((t.ops.map (fun o => (o.effects.filter (fun e => decide (e.fact = f))).length)).sum) < 2 ^ 31 - 1) (m : Method) :
    SafePruner t (fun (_ : Unit) s ops => (m.prune t s ops).map (fun os => (os, ()))) where
  only l s ops os l' h := by
    simp only [Option.map_eq_some_iff, Prod.mk.injEq] at h
    obtain ⟨os', h1, rfl, _⟩ := h
    exact prune_only h1
  safe l s ops hs hg hops := by
    obtain ⟨os, h⟩ := C43_defined ht.wf hc m hs hg ops
    exact ⟨os, (), by simp [h], (C43_safe ht m hs hg hops h).2⟩

theorem safe_limited {t : Task} (ht : StubbornTask t) (hc : ∀ f : Fact, ((t.ops.map (fun o => (o.effects.filter (fun e => decide (e.fact = f))).length)).sum) < 2 ^ 31 - 1) (m : Method) (low : Nat → Nat → Bool) (limit : Nat) :
    SafePruner t (fun (l : Limited) s ops => l.prune low limit (m.prune t) s ops) where
  only l s ops os l' h := by
    rcases limited_cases h with rfl | h
    · exact fun _ h => h
    · exact prune_only h
  safe l s ops hs hg hops := by
    obtain ⟨os, h⟩ := C43_defined ht.wf hc m hs hg ops
    have : ∃ os l', l.prune low limit (m.prune t) s ops = some (os, l') := by
      unfold Limited.prune
      split
      · exact ⟨_, _, rfl⟩
      · simp only [h]
        exact ⟨_, _, rfl⟩
    obtain ⟨os', l', h'⟩ := this
    refine ⟨os', l', h', ?_⟩
    rcases limited_cases h' with rfl | h'
    · exact (C43_safe ht .null hs hg hops rfl).2
    · exact (C43_safe ht m hs hg hops h').2

/-- **C43.** A* with an admissible heuristic and one of the pruning methods ends; it returns a plan of minimal cost if there is a plan, and fails otherwise. -/
theorem C43_astar {t : Task} (ht : StubbornTask t) (hc : ∀ f : Fact, ((t.ops.map (fun o => (o.effects.filter (fun e => decide (e.fact = f))).length)).sum) < 2 ^ 31 - 1) (m : Method)
    {M : Type} {R : M → Prop} {f : State → M → Option (Option Nat × M)} (hf : AdmissibleObject t R f) (hfit : t.FitsTypes .normal) (hcost : ∀ i, t.opCost i < 2 ^ 29)
    (u : Nat → Nat → Bool) (H : StdHeap State) (rel : Nat → Bool) (rng : Rng) (σ : { m : M // R m } × Unit) :
    ∃ n, OptimalResult t (Eager.search (World.ofTask t u .normal) ((objEnv hf).withPruning (fun (_ : Unit) s ops => (m.prune t s ops).map (fun os => (os, ())))) H rel ⟨true, 2147483647⟩ (.tiebreaking false false [1, 0]) rng σ n) :=
  astar_object_pruning hf ht.wf hfit hcost (safe_pruner ht hc m) u H rel rng σ

/-- **C43.** The same with limited pruning, for every way to decide whether the pruning ratio is low. -/
theorem C43_astar_limited {t : Task} (ht : StubbornTask t) (hc : ∀ f : Fact, ((t.ops.map (fun o => (o.effects.filter (fun e => decide (e.fact = f))).length)).sum) < 2 ^ 31 - 1) (m : Method) (low : Nat → Nat → Bool) (limit : Nat)
    {M : Type} {R : M → Prop} {f : State → M → Option (Option Nat × M)} (hf : AdmissibleObject t R f) (hfit : t.FitsTypes .normal) (hcost : ∀ i, t.opCost i < 2 ^ 29)
    (u : Nat → Nat → Bool) (H : StdHeap State) (rel : Nat → Bool) (rng : Rng) (σ : { m : M // R m } × Limited) :
    ∃ n, OptimalResult t (Eager.search (World.ofTask t u .normal) ((objEnv hf).withPruning (fun (l : Limited) s ops => l.prune low limit (m.prune t) s ops)) H rel ⟨true, 2147483647⟩ (.tiebreaking false false [1, 0]) rng σ n) :=
  astar_object_pruning hf ht.wf hfit hcost (safe_limited ht hc m low limit) u H rel rng σ

/-- the state of limited pruning after the calls in `cs` with results `rs` -/
def LimitedInv (low : Nat → Nat → Bool) (limit : Nat) (cs : List (State × List Nat)) (rs : List (List Nat)) (l : Limited) : Prop :=
  rs.length = cs.length ∧ l.before = (cs.map (·.2.length)).sum ∧ l.after = (rs.map (·.length)).sum ∧
  ((cs.length ≤ limit ∧ l.disabled = false ∧ l.calls = cs.length) ∨
   (limit < cs.length ∧ l.disabled = low ((cs.take limit).map (·.2.length)).sum ((rs.take limit).map (·.length)).sum ∧ (l.disabled = false → l.calls = cs.length)))

theorem limited_step {low : Nat → Nat → Bool} {limit : Nat} {inner : State → List Nat → Option (List Nat)} {cs : List (State × List Nat)} {rs : List (List Nat)} {l l' : Limited} {s : State} {ops os : List Nat}
    (hi : LimitedInv low limit cs rs l) (h : l.prune low limit inner s ops = some (os, l')) :
    LimitedInv low limit (cs ++ [(s, ops)]) (rs ++ [os]) l' ∧
    if limit < cs.length ∧ low ((cs.take limit).map (·.2.length)).sum ((rs.take limit).map (·.length)).sum = true then os = ops else inner s ops = some os := by
  obtain ⟨hlen, hb, ha, hd⟩ := hi
  unfold Limited.prune at h
  cases hdis : l.disabled with
  | true =>
    simp only [hdis, if_true, Option.some.injEq, Prod.mk.injEq] at h
    obtain ⟨rfl, rfl⟩ := h
    rcases hd with ⟨_, h1, _⟩ | ⟨h1, h2, h3⟩
    · rw [hdis] at h1; simp at h1
    · rw [hdis] at h2
      rw [if_pos ⟨h1, h2.symm⟩]
      refine ⟨⟨by simp [hlen], by simp [hb], by simp [ha], Or.inr ⟨by simp; omega, ?_, ?_⟩⟩, rfl⟩
      · simp only
        rw [List.take_append_of_le_length (by omega), List.take_append_of_le_length (by omega)]
        exact h2
      · simp [hdis]
  | false =>
    simp only [hdis, Bool.false_eq_true, if_false] at h
    split at h
    · simp at h
    · rename_i os' ho
      simp only [Option.some.injEq, Prod.mk.injEq] at h
      obtain ⟨rfl, rfl⟩ := h
      have hbefore : (l.check low limit).before = l.before := by unfold Limited.check; split <;> rfl
      have hafter : (l.check low limit).after = l.after := by unfold Limited.check; split <;> rfl
      have hcalls : (l.check low limit).calls = l.calls := by unfold Limited.check; split <;> rfl
      refine ⟨⟨by simp [hlen], by simp [hb, hbefore], by simp [ha, hafter], ?_⟩, ?_⟩
      · rcases hd with ⟨h1, h2, h3⟩ | ⟨h1, h2, h3⟩
        · by_cases hl : cs.length = limit
          · right
            have htc : (cs ++ [(s, ops)]).take limit = cs := by rw [← hl]; simp
            have htr : (rs ++ [os']).take limit = rs := by rw [← hl, ← hlen]; simp
            refine ⟨by simp; omega, ?_, fun _ => by simp [hcalls, h3]⟩
            rw [htc, htr]
            show (l.check low limit).disabled = _
            unfold Limited.check
            rw [h3, hb, ha]
            cases hlow : low (cs.map (·.2.length)).sum (rs.map (·.length)).sum with
            | true => simp [hl]
            | false => simpa [hl] using hdis
          · left
            refine ⟨by simp; omega, ?_, by simp [hcalls, h3]⟩
            show (l.check low limit).disabled = false
            unfold Limited.check
            rw [if_neg (fun h => hl (by rw [← h3]; exact h.1))]
            exact hdis
        · right
          have hcal := h3 hdis
          have hck : l.check low limit = l := by
            unfold Limited.check
            rw [if_neg (fun h => by rw [hcal] at h; omega)]
          refine ⟨by simp; omega, ?_, fun _ => by simp [hcalls, hcal]⟩
          show (l.check low limit).disabled = _
          rw [hck, List.take_append_of_le_length (by omega), List.take_append_of_le_length (by omega)]
          exact h2
      · rw [if_neg]
        · exact ho
        · rintro ⟨h1, h2⟩
          rcases hd with ⟨h3, _⟩ | ⟨_, h4, _⟩
          · omega
          · rw [hdis, h2] at h4
            simp at h4

/-- **C43.** Limited pruning: the first `limit + 1` calls use the pruning method (although the documentation says that the decision is made after `limit` calls).  Whether the following ones do depends only on the numbers of operators before and after pruning in the first `limit` calls. -/
theorem C43_limited_switch {low : Nat → Nat → Bool} {limit : Nat} {inner : State → List Nat → Option (List Nat)} {cs : List (State × List Nat)} {rs : List (List Nat)} (h : Limited.run low limit inner Limited.start cs = some rs) :
    rs.length = cs.length ∧ ∀ (k : Nat) (s : State) (ops os : List Nat), cs[k]? = some (s, ops) → rs[k]? = some os →
      if limit < k ∧ low ((cs.take limit).map (·.2.length)).sum ((rs.take limit).map (·.length)).sum = true then os = ops else inner s ops = some os := by
  have key : ∀ (post : List (State × List Nat)) (pc : List (State × List Nat)) (pr qr : List (List Nat)) (l : Limited), LimitedInv low limit pc pr l → Limited.run low limit inner l post = some qr →
      qr.length = post.length ∧ ∀ (k : Nat) (s : State) (ops os : List Nat), post[k]? = some (s, ops) → qr[k]? = some os →
        if limit < pc.length + k ∧ low (((pc ++ post).take limit).map (·.2.length)).sum (((pr ++ qr).take limit).map (·.length)).sum = true then os = ops else inner s ops = some os := by
    intro post
    induction post with
    | nil =>
      intro pc pr qr l hi hr
      simp only [Limited.run, Option.some.injEq] at hr
      subst hr
      simp
    | cons c post ih =>
      obtain ⟨s, ops⟩ := c
      intro pc pr qr l hi hr
      simp only [Limited.run] at hr
      split at hr
      · simp at hr
      · rename_i os l' hp
        simp only [Option.map_eq_some_iff] at hr
        obtain ⟨qr', hr', rfl⟩ := hr
        obtain ⟨h1, h2⟩ := limited_step hi hp
        obtain ⟨h3, h4⟩ := ih _ _ _ _ h1 hr'
        refine ⟨by simp [h3], ?_⟩
        intro k s' ops' os' hk hk'
        cases k with
        | zero =>
          simp only [List.getElem?_cons_zero, Option.some.injEq, Prod.mk.injEq] at hk hk'
          obtain ⟨rfl, rfl⟩ := hk
          subst hk'
          by_cases hlt : limit < pc.length
          · have hlt' : limit < pr.length := by rw [hi.1]; exact hlt
            rw [List.take_append_of_le_length (by omega), List.take_append_of_le_length (by omega)]
            simpa using h2
          · rw [if_neg (fun h => hlt (by simpa using h.1))]
            rw [if_neg (fun h => hlt h.1)] at h2
            exact h2
        | succ k =>
          simp only [List.getElem?_cons_succ] at hk hk'
          have := h4 k s' ops' os' hk hk'
          simp only [List.append_assoc, List.singleton_append, List.length_append, List.length_singleton] at this
          rw [show pc.length + (k + 1) = pc.length + 1 + k by omega]
          exact this
  have := key cs [] [] rs Limited.start ⟨rfl, rfl, rfl, Or.inl ⟨by simp, rfl, rfl⟩⟩ h
  simpa using this

/-! ### Examples -/

/-- two independent switches; both have to be turned on -/
def switches : Task where
  vars := [⟨2, none, 0⟩, ⟨2, none, 0⟩]
  ops := [⟨[⟨0, 0⟩], [⟨[], ⟨0, 1⟩⟩], 1⟩, ⟨[⟨1, 0⟩], [⟨[], ⟨1, 1⟩⟩], 1⟩]
  axioms := []
  init := [0, 0]
  goal := [⟨0, 1⟩, ⟨1, 1⟩]

theorem switches_task : StubbornTask switches where
  wf := taskOK_wf (by decide)
  noAxioms := rfl
  unconditional := by decide
  pre := by decide
  eff := by decide

theorem switches_ops : switches.ApplicableOps [0, 0] [0, 1] := by
  intro i
  match i with
  | 0 => simp [switches, Operator.applicable, allHold, Fact.holds]
  | 1 => simp [switches, Operator.applicable, allHold, Fact.holds]
  | i + 2 => simp [switches]

/-- only the first operator is kept -/
theorem switches_pruned : pruneSimple switches [0, 0] [0, 1] = some [0] ∧ pruneAC switches true .dynamicSmall [0, 0] [0, 1] = some [0] :=
  ⟨pruneSimpleFuel_sound (n := 10) (by decide), pruneACFuel_sound (n := 10) (by decide +kernel)⟩

/-- all hypotheses of `C43_safe` hold; the plan which begins with the other operator can be reordered -/
example : switches.SafeSelection [0, 0] [0] :=
  (C43_safe switches_task .simple (s := [0, 0]) (taskOK_wf (by decide) : switches.WF).init (by decide) switches_ops switches_pruned.1).2

example : switches.SolvesFrom [0, 0] [1, 0] := execOK_spec switches_task.wf _ _ switches_task.wf.init (by decide)

/-- the hypotheses of `C43_astar` hold for the task and the heuristic that is 0 everywhere -/
example : (∀ f : Fact, ((switches.ops.map (fun o => (o.effects.filter (fun e => decide (e.fact = f))).length)).sum) < 2 ^ 31 - 1) ∧ AdmissibleObject switches (M := Unit) (fun _ => True) (fun _ _ => some (some 0, ())) ∧
    switches.FitsTypes .normal ∧ ∀ i, switches.opCost i < 2 ^ 29 := by
  have hC : ∀ i, switches.opCost i ≤ 1 := by
    intro i
    match i with
    | 0 => decide
    | 1 => decide
    | i + 2 => simp [Task.opCost, switches]
  refine ⟨fun f => ?_, fun _ _ _ _ => ⟨some 0, (), rfl, trivial, by simp, fun _ _ => ⟨0, rfl, Nat.zero_le _⟩⟩, ⟨1, fun i => ⟨hC i, hC i⟩, by decide⟩, fun i => Nat.lt_of_le_of_lt (hC i) (by decide)⟩
  · have h1 : (List.filter (fun e : Effect => decide (e.fact = f)) [⟨[], ⟨0, 1⟩⟩]).length ≤ 1 := List.length_filter_le _ _
    have h2 : (List.filter (fun e : Effect => decide (e.fact = f)) [⟨[], ⟨1, 1⟩⟩]).length ≤ 1 := List.length_filter_le _ _
    simp only [switches, List.map_cons, List.map_nil, List.sum_cons, List.sum_nil]
    omega

/-- The first operator achieves the first goal; it has two effects on the third variable, of which the latter counts.  The second operator requires the old value of that variable. -/
def doubleEffect : Task where
  vars := [⟨2, none, 0⟩, ⟨2, none, 0⟩, ⟨2, none, 0⟩]
  ops := [⟨[], [⟨[], ⟨2, 0⟩⟩, ⟨[], ⟨2, 1⟩⟩, ⟨[], ⟨0, 1⟩⟩], 1⟩, ⟨[⟨2, 0⟩], [⟨[], ⟨1, 1⟩⟩], 1⟩]
  axioms := []
  init := [0, 0, 0]
  goal := [⟨0, 1⟩, ⟨1, 1⟩]

theorem doubleEffect_wf : doubleEffect.WF := taskOK_wf (by decide)

/-- **C43 is false** for operators with two effects on the same variable (which the reader of tasks accepts): the merge of effects and preconditions misses that the first operator disables the second, and only the first operator is kept in the initial state, after which the
goal cannot be reached.  The task has a plan. -/
theorem C43_two_effects_fail : doubleEffect.IsPlan [1, 0] ∧ doubleEffect.ApplicableOps doubleEffect.init [0, 1] ∧ Method.simple.prune doubleEffect doubleEffect.init [0, 1] = some [0] ∧ ¬ doubleEffect.SafeSelection doubleEffect.init [0] := by
  refine ⟨execOK_spec doubleEffect_wf _ _ doubleEffect_wf.init (by decide), ?_, pruneSimpleFuel_sound (n := 10) (by decide), ?_⟩
  · intro i
    match i with
    | 0 => simp [doubleEffect, Operator.applicable, allHold]
    | 1 => simp [doubleEffect, Operator.applicable, allHold, Fact.holds]
    | i + 2 => simp [doubleEffect]
  · intro h
    obtain ⟨i, ρ, h1, h2, u, h3, h4⟩ := h [1, 0] (execOK_spec doubleEffect_wf _ _ doubleEffect_wf.init (by decide))
    simp only [List.mem_singleton] at h1
    subst h1
    have hρ : ρ = [1] := by
      have : (0 :: ρ).Perm (0 :: [1]) := h2.trans (List.Perm.swap 0 1 [])
      exact List.perm_singleton.mp ((List.perm_cons 0).mp this)
    subst hρ
    cases h3 with
    | cons _ _ o s' _ _ ho ha hsucc hex =>
      simp [doubleEffect] at ho
      subst ho
      cases hex with
      | cons _ _ o' s'' _ _ ho' ha' _ _ =>
        simp [doubleEffect] at ho'
        subst ho'
        have h5 := ha' ⟨2, 0⟩ (by simp)
        obtain ⟨m, hm, hst⟩ := hsucc
        have h6 : s'[2]? = m[2]? := hst.base 2 (by rfl)
        have h7 := hm.2 2 0 (by rfl)
        unfold Fact.holds at h5
        rw [h6, h7] at h5
        exact absurd h5 (by decide)

end Verif.Stubborn
