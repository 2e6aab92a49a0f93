import Verif.Lemmas.HmExact
import Verif.Lemmas.SimpleTask
import Verif.Lemmas.AstarHeuristic
import Verif.Props.Relaxation
import Mathlib.Tactic.NormNum

/-
C48: the h^m heuristic computes the critical path estimate for sets of at most m facts; it is admissible, consistent, and grows with m.
-/
namespace Verif

/-- the number of facts of the task -/
def Task.numFacts (t : Task) : Nat := (t.vars.map (·.domain)).sum

end Verif

namespace Verif.Hm
open Verif.Search

/-! Size of the table -/

theorem sum_map_le {α : Type} {l : List α} {f g : α → Nat} (h : ∀ a ∈ l, f a ≤ g a) : (l.map f).sum ≤ (l.map g).sum := List.sum_le_sum h

theorem sum_map_mul {α : Type} (f : α → Nat) (c : Nat) : ∀ l : List α, (l.map (fun a => f a * c)).sum = (l.map f).sum * c
  | [] => by simp
  | a :: l => by simp only [List.map_cons, List.sum_cons, Nat.add_mul, sum_map_mul f c l]

theorem sum_range'_le : ∀ (ds : List Nat) (a : Nat), ((List.range' a (ds.length - a)).map (fun i => ds[i]?.getD 0)).sum ≤ ds.sum := by
  intro ds a
  have e : (List.range' a (ds.length - a)).map (fun i => ds[i]?.getD 0) = ds.drop a := by
    apply List.ext_getElem
    · simp
    · intro i h1 h2
      simp only [List.length_map, List.length_range'] at h1
      simp only [List.getElem_map, List.getElem_range', List.getElem_drop, Nat.one_mul]
      rw [List.getElem?_eq_getElem (by omega)]
      rfl
  rw [e]
  exact List.Sublist.sum_le_sum (List.drop_sublist a ds) (by simp)

theorem tuplesAux_length {ds : List Nat} : ∀ (sz var : Nat) (base : Tuple), (tuplesAux ds sz var base).length + 1 ≤ (ds.sum + 1) ^ sz
  | 0, _, _ => by simp [tuplesAux]
  | sz + 1, var, base => by
    simp only [tuplesAux, List.length_flatMap, List.length_cons]
    have h1 : ∀ i ∈ List.range' var (ds.length - var), ((List.range (ds[i]?.getD 0)).map (fun j => (tuplesAux ds sz (i + 1) (base ++ [⟨i, j⟩])).length + 1)).sum ≤ (ds[i]?.getD 0) * (ds.sum + 1) ^ sz := by
      intro i _
      have := sum_map_le (l := List.range (ds[i]?.getD 0)) (f := fun j => (tuplesAux ds sz (i + 1) (base ++ [⟨i, j⟩])).length + 1) (g := fun _ => (ds.sum + 1) ^ sz) (fun j _ => tuplesAux_length sz (i + 1) _)
      simpa using this
    have h2 := sum_map_le h1
    have h3 : ((List.range' var (ds.length - var)).map (fun i => (ds[i]?.getD 0) * (ds.sum + 1) ^ sz)).sum = ((List.range' var (ds.length - var)).map (fun i => ds[i]?.getD 0)).sum * (ds.sum + 1) ^ sz := by
      exact sum_map_mul _ _ _
    rw [h3] at h2
    have h4 := Nat.mul_le_mul_right ((ds.sum + 1) ^ sz) (sum_range'_le ds var)
    have h5 : 1 ≤ (ds.sum + 1) ^ sz := Nat.one_le_pow _ _ (by omega)
    have h6 : (ds.sum + 1) ^ (sz + 1) = ds.sum * (ds.sum + 1) ^ sz + (ds.sum + 1) ^ sz := by rw [Nat.pow_succ, Nat.mul_succ, Nat.mul_comm]
    omega

theorem allTuples_length (t : Task) (m : Nat) : (allTuples t m).length + 1 ≤ (t.numFacts + 1) ^ m := tuplesAux_length m 0 []

section
variable {t : Task} {m : Nat} {s : State}

theorem goalLe_iff (ht : HmTask t) {val : Tuple → Nat} (hs : Sound t m s val) (hz : ∀ T ∈ allTuples t m, val T ≤ inf ∧ ((∀ f ∈ T, f.holds s) → val T = 0))
    (hsat : ∀ o ∈ t.ops, ∀ pre T, Rule (allTuples t m) m o pre T → Sat (allTuples t m) m val o pre T) {c : Nat} (hc : eval (allTuples t m) m val t.goal = some c) :
    (c ≠ inf → t.HmGoalLe m s c) ∧ (∀ n, t.HmGoalLe m s n → c ≤ n) ∧ (NoOverflow t m val → (∃ n, t.HmGoalLe m s n) → c ≠ inf) := by
  have hkey : ∀ T ∈ partials m t.goal, T ∈ allTuples t m := fun T hT => partials_key ht.goal ht.wf.goalFacts hT
  have hfs : ∀ n, t.HmGoalLe m s n → ∀ T ∈ partials m t.goal, HmLe t m s (factSet T) n := by
    intro n hn T hT
    have hk := mem_allTuples.mp (hkey T hT)
    exact hn _ (fun f hf => mem_factSet.mpr ((mem_partials.mp hT).1.subset (mem_factSet.mp hf))) (by rw [card_factSet hk.asc]; exact hk.len)
  refine ⟨fun hne => eval_estimates hs ht.goal hc hne, fun n hn => eval_le hc fun T hT => ?_, ?_⟩
  · exact (complete ht hz hsat (hfs n hn T hT) T (hkey T hT) (fun _ h => h)).1
  · rintro hno ⟨n, hn⟩
    exact eval_ne_inf hc fun T hT => (complete ht hz hsat (hfs n hn T hT) T (hkey T hT) (fun _ h => h)).2 hno

/-- what the computation returns -/
theorem hm_result (ht : HmTask t) {r : Option Nat} (h : hm t m s = some r) :
    (∀ v, r = some v → v < inf ∧ t.HmGoalLe m s v ∧ ∀ n, t.HmGoalLe m s n → v ≤ n) ∧ (r = none → (∀ n, t.HmGoalLe m s n → inf ≤ n) ∧
      ∃ val, update (allTuples t m) m t.ops (initVal s) = some val ∧ (NoOverflow t m val → ¬∃ n, t.HmGoalLe m s n)) := by
  unfold hm at h
  split at h
  · rename_i hg
    simp only [Option.some.injEq] at h
    subst h
    refine ⟨fun v hv => ?_, by simp⟩
    simp only [Option.some.injEq] at hv
    subst hv
    exact ⟨by decide, fun U hU _ => .init _ _ fun f hf => hg f (mem_factSet.mp (hU hf)), fun n _ => Nat.zero_le _⟩
  · split at h
    · simp at h
    · rename_i val hval
      split at h
      · simp at h
      · rename_i c hc
        simp only [Option.some.injEq] at h
        obtain ⟨hs, hsat⟩ := update_post (sound_invariant (m := m) (s := s) ht) (fun _ h => h.le) ht.pre initVal_sound hval
        obtain ⟨hz, _⟩ := update_post (zero_invariant (t := t) (m := m) (s := s)) (fun _ h T hT => (h T hT).1) ht.pre initVal_zero hval
        obtain ⟨g1, g2, g3⟩ := goalLe_iff ht hs hz hsat hc
        have hci : c ≤ inf := eval_inf hs.le hc
        split at h
        · rename_i e
          subst h
          refine ⟨by simp, fun _ => ⟨fun n hn => ?_, val, hval, fun hno hex => g3 hno hex e⟩⟩
          have := g2 n hn
          omega
        · rename_i e
          subst h
          refine ⟨fun v hv => ?_, by simp⟩
          simp only [Option.some.injEq] at hv
          subst hv
          exact ⟨by omega, g1 e, g2⟩

/-- the evaluation is defined, and values are bounded -/
theorem hm_defined (ht : HmTask t) {C : Nat} (hC : ∀ o ∈ t.ops, o.cost ≤ C) (hfit : C * (t.numFacts + 1) ^ m < 2 ^ 31 - 1) :
    (∃ r, hm t m s = some r ∧ ∀ v, r = some v → v ≤ C * (t.numFacts + 1) ^ m) ∧ ∀ val, update (allTuples t m) m t.ops (initVal s) = some val → NoOverflow t m val := by
  have hI := chain_invariant (t := t) (m := m) hC
  have hle : ∀ val : Tuple → Nat, (∀ T ∈ allTuples t m, val T ≤ inf ∧ (val T ≠ inf → Chain (allTuples t m) C val (val T))) → ∀ T ∈ allTuples t m, val T ≤ inf := fun _ h T hT => (h T hT).1
  have hlen := Nat.mul_le_mul_left C (allTuples_length t m)
  rw [Nat.mul_succ] at hlen
  have hb : ∀ (val : Tuple → Nat) (c : Nat), Chain (allTuples t m) C val c → ∀ o ∈ t.ops, c + o.cost < inf := by
    intro val c hch o ho
    have h1 := hch.bound
    have h2 := hC o ho
    unfold inf
    omega
  have hval : ∃ val, update (allTuples t m) m t.ops (initVal s) = some val := by
    refine update_defined hI hle ht.pre (fun o ho pre hr T hT => partials_key (rule_asc ht ho hr) (rule_valid ht ho hr) hT) (fun o ho pre T hr => rule_target ht ho hr) ?_ initVal_chain
    intro val o pre c _ ho _ hk
    have h1 := hb val c hk o ho
    unfold inf at h1
    omega
  have hno : ∀ val, update (allTuples t m) m t.ops (initVal s) = some val → NoOverflow t m val ∧ ∀ T ∈ allTuples t m, val T ≠ inf → val T ≤ C * (allTuples t m).length := by
    intro val hval
    obtain ⟨h1, _⟩ := update_post hI hle ht.pre initVal_chain hval
    refine ⟨fun o ho pre T hr c hc hne => hb val c (hI.start val o pre c h1 ho (Or.inr ⟨T, hr⟩) hc hne) o ho, fun T hT hne => ((h1 T hT).2 hne).bound⟩
  refine ⟨?_, fun val h => (hno val h).1⟩
  obtain ⟨val, hval⟩ := hval
  obtain ⟨c, hc⟩ : ∃ c, eval (allTuples t m) m val t.goal = some c := evalLoop_defined fun T hT => partials_key ht.goal ht.wf.goalFacts hT
  unfold hm
  by_cases hg : allHold t.goal s
  · rw [if_pos hg]
    exact ⟨_, rfl, fun v hv => by simp only [Option.some.injEq] at hv; omega⟩
  · rw [if_neg hg, hval]
    simp only [hc]
    refine ⟨_, rfl, fun v hv => ?_⟩
    split at hv
    · simp at hv
    · rename_i hne
      simp only [Option.some.injEq] at hv
      subst hv
      obtain ⟨h1, h2⟩ := eval_spec hc
      rcases h2 with rfl | ⟨T, hT, rfl⟩
      · exact Nat.zero_le _
      · have := (hno val hval).2 T (h1 T hT).1 hne
        omega

/-- C48: a value of the heuristic is the least estimate of the goal; if DEAD_END is returned, there is no estimate below the largest int. -/
theorem C48_exact (ht : HmTask t) {r : Option Nat} (h : hm t m s = some r) :
    match r with
    | some v => t.HmGoalLe m s v ∧ ∀ n, t.HmGoalLe m s n → v ≤ n
    | none => ∀ n, t.HmGoalLe m s n → inf ≤ n := by
  obtain ⟨h1, h2⟩ := hm_result ht h
  cases r with
  | some v => exact (h1 v rfl).2
  | none => exact (h2 rfl).1

/-- C48: if the costs are not too large, the evaluation is defined (no exception, no overflow), and DEAD_END is returned iff the goal has no estimate. -/
theorem C48_defined (ht : HmTask t) {C : Nat} (hC : ∀ o ∈ t.ops, o.cost ≤ C) (hfit : C * (t.numFacts + 1) ^ m < 2 ^ 31 - 1) :
    ∃ r, hm t m s = some r ∧ (∀ v, r = some v → v ≤ C * (t.numFacts + 1) ^ m) ∧ (r = none ↔ ¬∃ n, t.HmGoalLe m s n) := by
  obtain ⟨⟨r, h1, h2⟩, h3⟩ := hm_defined (m := m) (s := s) ht hC hfit
  obtain ⟨k1, k2⟩ := hm_result ht h1
  refine ⟨r, h1, h2, fun hr => ?_, fun hn => ?_⟩
  · obtain ⟨_, val, hval, h4⟩ := k2 hr
    exact h4 (h3 val hval)
  · cases r with
    | none => rfl
    | some v => exact absurd ⟨v, (k1 v rfl).2.1⟩ hn

end

/-! Admissibility and consistency -/

/-- an estimate in the successor gives one in the state -/
theorem hmLe_succ {t : Task} {m : Nat} (ht : HmTask t) {s s' : State} (hs : t.ValidState s) {i : Nat} {o : Operator} (ho : t.ops[i]? = some o) (happ : o.applicable s) (hsucc : t.SuccRel o s s')
    {T : Finset Fact} {n : Nat} (h : HmLe t m s' T n) : HmLe t m s T (n + o.cost) := by
  have hmem := List.mem_of_getElem? ho
  obtain ⟨h1, h2, h3⟩ := succ_simple ht.wf ht.noAxioms (ht.unconditional o hmem) (ht.eff o hmem) hsucc
  induction h with
  | init T n hT =>
    have hdel : ∀ f ∈ T, ¬o.deletes f := by
      rintro f hf ⟨e, he, e1, e2⟩
      obtain ⟨d, hd, _⟩ := ht.wf.effFact o hmem e he
      have hv := (List.getElem?_eq_some_iff.mp hd).1
      have h4 := h2 e he (by rw [hs.1]; exact hv)
      have h5 := hT f hf
      unfold Fact.holds at h5
      rw [← e1, h4] at h5
      exact e2 (by simpa using h5)
    have hkeep : ∀ f ∈ T, ¬o.adds f → f.holds s := by
      intro f hf hna
      have h5 := hT f hf
      unfold Fact.holds at h5 ⊢
      rw [← h3 f.var, h5]
      intro e he e1
      by_cases e2 : e.fact.val = f.val
      · refine hna ⟨e, he, ?_⟩
        obtain ⟨_, ev⟩ := e
        cases ev; cases f
        simp only at e1 e2 ⊢
        rw [e1, e2]
      · exact hdel f hf ⟨e, he, e1, e2⟩
    by_cases ha : ∃ f ∈ T, o.adds f
    · refine .op T n i o ho ha hdel fun U hU _ => .init _ _ fun f hf => ?_
      rcases Finset.mem_union.mp (hU hf) with h | h
      · exact happ f (mem_factSet.mp h)
      · obtain ⟨k1, k2⟩ := Finset.mem_sdiff.mp h
        exact hkeep f k1 fun h => k2 (mem_addSet.mpr h)
    · exact .init _ _ fun f hf => hkeep f hf fun h => ha ⟨f, hf, h⟩
  | op T n j o' ho' ha hd hU ih =>
    have e : n + o'.cost + o.cost = (n + o.cost) + o'.cost := by omega
    rw [e]
    exact .op T _ j o' ho' ha hd ih

theorem hmGoal_succ {t : Task} {m : Nat} (ht : HmTask t) {s s' : State} (hs : t.ValidState s) {i : Nat} {o : Operator} (ho : t.ops[i]? = some o) (happ : o.applicable s) (hsucc : t.SuccRel o s s')
    {n : Nat} (h : t.HmGoalLe m s' n) : t.HmGoalLe m s (n + o.cost) := fun U hU hc => hmLe_succ ht hs ho happ hsucc (h U hU hc)

/-- the cost of a plan is an estimate -/
theorem hmGoal_plan {t : Task} {m : Nat} (ht : HmTask t) {s : State} (hs : t.ValidState s) {π : List Nat} (h : t.SolvesFrom s π) : t.HmGoalLe m s (t.planCost π) := by
  obtain ⟨u, h1, h2⟩ := h
  induction h1 with
  | nil s => exact fun U hU _ => .init _ _ fun f hf => h2 f (mem_factSet.mp (hU hf))
  | cons s i o s' π u k1 k2 k3 k4 ih =>
    have := hmGoal_succ ht hs k1 k2 k3 (ih (succ_valid ht.wf hs k1 k2 k3) h2)
    have e : t.planCost (i :: π) = t.planCost π + o.cost := by simp [Task.planCost, Task.opCost, k1, Nat.add_comm]
    rw [e]
    exact this

/-- C48: the heuristic never exceeds the cost of a plan; if it is DEAD_END, all plans cost at least the largest int. -/
theorem C48_admissible {t : Task} {m : Nat} (ht : HmTask t) {s : State} (hs : t.ValidState s) {r : Option Nat} (h : hm t m s = some r) {π : List Nat} (hπ : t.SolvesFrom s π) :
    match r with
    | some v => v ≤ t.planCost π
    | none => inf ≤ t.planCost π := by
  have h1 := C48_exact ht h
  have h2 := hmGoal_plan (m := m) ht hs hπ
  cases r with
  | some v => exact h1.2 _ h2
  | none => exact h1 _ h2

/-- C48: DEAD_END is returned only for states without plan, if the costs are not too large. -/
theorem C48_dead_end {t : Task} {m : Nat} (ht : HmTask t) {C : Nat} (hC : ∀ o ∈ t.ops, o.cost ≤ C) (hfit : C * (t.numFacts + 1) ^ m < 2 ^ 31 - 1) {s : State} (hs : t.ValidState s) (h : hm t m s = some none) : ∀ π, ¬t.SolvesFrom s π := by
  intro π hπ
  obtain ⟨r, h1, _, h2⟩ := C48_defined (m := m) (s := s) ht hC hfit
  rw [h] at h1
  simp only [Option.some.injEq] at h1
  exact h2.mp h1.symm ⟨_, hmGoal_plan ht hs hπ⟩

/-- C48: the heuristic is consistent. -/
theorem C48_consistent {t : Task} {m : Nat} (ht : HmTask t) {s s' : State} (hs : t.ValidState s) {i : Nat} {o : Operator} (ho : t.ops[i]? = some o) (happ : o.applicable s) (hsucc : t.SuccRel o s s')
    {r : Option Nat} (h : hm t m s = some r) {v' : Nat} (h' : hm t m s' = some (some v')) :
    match r with
    | some v => v ≤ o.cost + v'
    | none => inf ≤ o.cost + v' := by
  have h1 := C48_exact ht h
  have h2 := hmGoal_succ ht hs ho happ hsucc (C48_exact ht h').1
  rw [Nat.add_comm]
  cases r with
  | some v => exact h1.2 _ h2
  | none => exact h1 _ h2

theorem hmLe_smaller {t : Task} {m m' : Nat} (hm : m ≤ m') {s : State} {T : Finset Fact} {n : Nat} (h : HmLe t m' s T n) : HmLe t m s T n := by
  induction h with
  | init T n h => exact .init T n h
  | op T n i o ho ha hd hU ih => exact .op T n i o ho ha hd fun U h1 h2 => ih U h1 (Nat.le_trans h2 hm)

/-- C48: with larger m the heuristic values do not decrease. -/
theorem C48_increasing {t : Task} {m m' : Nat} (hm' : m ≤ m') (ht : HmTask t) {s : State} {v' : Nat} (h' : hm t m' s = some (some v')) {r : Option Nat} (h : hm t m s = some r) :
    ∃ v, r = some v ∧ v ≤ v' := by
  have h1 := (hm_result ht h').1 v' rfl
  have h3 : t.HmGoalLe m s v' := fun U hU hc => hmLe_smaller hm' (h1.2.1 U hU (Nat.le_trans hc hm'))
  obtain ⟨k1, k2⟩ := hm_result ht h
  cases r with
  | some v => exact ⟨v, rfl, (k1 v rfl).2.2 _ h3⟩
  | none =>
    have := (k2 rfl).1 _ h3
    omega

instance : Nonempty Fact := ⟨⟨0, 0⟩⟩

theorem hmLe_one {t : Task} (ht : HmTask t) {s : State} {T : Finset Fact} {n : Nat} (h : HmLe t 1 s T n) : ∀ f ∈ T, t.HmaxLe s f n := by
  induction h with
  | init T n h => exact fun f hf => .state f n (h f hf)
  | op T n i o ho ha hd hU ih =>
    intro f hf
    by_cases af : o.adds f
    · obtain ⟨e, he, rfl⟩ := af
      have hr := Task.RelEffect.op (t := t) i o e ho he
      rw [ht.unconditional o (List.mem_of_getElem? ho) e he, List.append_nil] at hr
      refine .effect (some i) o.pre e.fact o.cost n _ hr (fun q hq => ?_) (Nat.le_refl _)
      exact ih {q} (by intro x hx; rw [Finset.mem_singleton] at hx; subst hx; exact Finset.mem_union_left _ (mem_factSet.mpr hq)) (by simp) q (by simp)
    · refine Relax.hmaxLe_mono (ih {f} ?_ (by simp) f (by simp)) (Nat.le_add_right _ _)
      intro x hx
      rw [Finset.mem_singleton] at hx
      subst hx
      exact Finset.mem_union_right _ (Finset.mem_sdiff.mpr ⟨hf, fun h => af (mem_addSet.mp h)⟩)

theorem hmLe_of_hmax {t : Task} (ht : HmTask t) {s : State} {f : Fact} {n : Nat} (h : t.HmaxLe s f n) : HmLe t 1 s {f} n := by
  induction h with
  | state f n h => exact .init _ _ (by simpa using h)
  | effect i cs f c k n hr hcs hle ih =>
    cases hr with
    | ax a e ha _ => rw [ht.noAxioms] at ha; simp at ha
    | op i o e ho he =>
      have hmem := List.mem_of_getElem? ho
      refine HmLe.mono (n := k + o.cost) (.op _ k i o ho ⟨e.fact, by simp, e, he, rfl⟩ ?_ fun U hU hcard => ?_) hle
      · intro g hg
        rw [Finset.mem_singleton] at hg
        subst hg
        exact not_deletes (ht.eff o hmem) ⟨e, he, rfl⟩
      · rcases Finset.card_le_one_iff_subset_singleton.mp hcard with ⟨q, hq⟩
        rcases Finset.subset_singleton_iff.mp hq with rfl | rfl
        · exact .init _ _ (by simp)
        · have hq' := hU (Finset.mem_singleton_self q)
          rcases Finset.mem_union.mp hq' with h | h
          · exact ih q (List.mem_append_left _ (mem_factSet.mp h))
          · obtain ⟨h1, h2⟩ := Finset.mem_sdiff.mp h
            rw [Finset.mem_singleton] at h1
            subst h1
            exact absurd (mem_addSet.mpr ⟨e, he, rfl⟩) h2

/-- C48: for m = 1 the heuristic computes h^max. -/
theorem C48_hmax {t : Task} (ht : HmTask t) {s : State} {r : Option Nat} (h : hm t 1 s = some r) :
    match r with
    | some v => t.HmaxGoalLe s v ∧ ∀ n, t.HmaxGoalLe s n → v ≤ n
    | none => ∀ n, t.HmaxGoalLe s n → inf ≤ n := by
  have e : ∀ n, t.HmGoalLe 1 s n ↔ t.HmaxGoalLe s n := by
    intro n
    constructor
    · intro h g hg
      exact hmLe_one ht (h {g} (by intro x hx; rw [Finset.mem_singleton] at hx; subst hx; exact mem_factSet.mpr hg) (by simp)) g (by simp)
    · intro h U hU hc
      rcases Finset.card_le_one_iff_subset_singleton.mp hc with ⟨q, hq⟩
      rcases Finset.subset_singleton_iff.mp hq with rfl | rfl
      · exact .init _ _ (by simp)
      · exact hmLe_of_hmax ht (h q (mem_factSet.mp (hU (Finset.mem_singleton_self q))))
  have h1 := C48_exact ht h
  cases r with
  | some v => exact ⟨(e v).mp h1.1, fun n hn => h1.2 n ((e n).mpr hn)⟩
  | none => exact fun n hn => h1 n ((e n).mpr hn)

/-- the heuristic as an object without memory -/
theorem hm_object {t : Task} {m : Nat} (ht : HmTask t) {C : Nat} (hC : ∀ o ∈ t.ops, o.cost ≤ C) (hfit : C * (t.numFacts + 1) ^ m < 2 ^ 30) : AdmissibleObject t (fun _ : Unit => True) (fun s u => (hm t m s).map (fun v => (v, u))) := by
  intro s u hs _
  obtain ⟨r, h1, h2, h3⟩ := C48_defined (m := m) (s := s) ht hC (by omega)
  refine ⟨r, u, by simp [h1], trivial, fun n hn => by have := h2 n hn; omega, fun π hπ => ?_⟩
  cases r with
  | none => exact absurd ⟨_, hmGoal_plan ht hs hπ⟩ (h3.mp rfl)
  | some n => exact ⟨n, rfl, C48_admissible ht hs h1 hπ⟩

/-- C48 and C23: A* with h^m ends with a plan of minimal cost, or fails and there is no plan. -/
theorem C48_astar {t : Task} {m : Nat} (ht : HmTask t) {C : Nat} (hC : ∀ o ∈ t.ops, o.cost ≤ C) (hfit : C * (t.numFacts + 1) ^ m < 2 ^ 30) (hC' : C < 2 ^ 29) (hft : t.FitsTypes .normal)
    (u : Nat → Nat → Bool) (H : OpenList.StdHeap State) (rel : Nat → Bool) (rng : OpenList.Rng) (σ : { _m : Unit // True }) :
    ∃ n, OptimalResult t (Eager.search (World.ofTask t u .normal) (objEnv (hm_object ht hC hfit)) H rel ⟨true, 2147483647⟩ (.tiebreaking false false [1, 0]) rng σ n) := by
  refine astar_object (hm_object ht hC hfit) ht.wf hft (fun i => ?_) u H rel rng σ
  unfold Task.opCost
  cases hi : t.ops[i]? with
  | none => simp
  | some o => exact Nat.lt_of_le_of_lt (hC o (List.mem_of_getElem? hi)) hC'

/-! Examples -/

/-- `update` with a bound on the number of rounds -/
def updateFuel (keys : List Tuple) (m : Nat) (ops : List Operator) : Nat → (Tuple → Nat) → Option (Option (Tuple → Nat))
  | 0, _ => none
  | k + 1, val =>
    match round keys m ops ⟨val, false⟩ with
    | none => some none
    | some st => if st.updated then updateFuel keys m ops k st.val else some (some st.val)

theorem updateFuel_sound {keys : List Tuple} {m : Nat} {ops : List Operator} : ∀ {k : Nat} {val : Tuple → Nat} {r : Option (Tuple → Nat)}, updateFuel keys m ops k val = some r → update keys m ops val = r
  | 0, _, _, h => by simp [updateFuel] at h
  | k + 1, val, r, h => by
    simp only [updateFuel] at h
    rw [update]
    cases hr : round keys m ops ⟨val, false⟩ with
    | none =>
      rw [hr] at h
      simp only [Option.some.injEq] at h
      exact h
    | some st =>
      rw [hr] at h
      simp only at h ⊢
      split at h
      · rename_i hu
        rw [if_pos hu]
        exact updateFuel_sound h
      · rename_i hu
        rw [if_neg hu]
        simpa using h

/-- `hm` with a bound on the number of rounds -/
def probe (t : Task) (m : Nat) (s : State) (k : Nat) : Option (Option (Option Nat)) :=
  if allHold t.goal s then some (some (some 0))
  else
    match updateFuel (allTuples t m) m t.ops k (initVal s) with
    | none => none
    | some none => some none
    | some (some val) =>
      match eval (allTuples t m) m val t.goal with
      | none => some none
      | some h => some (some (if h = inf then none else some h))

theorem probe_sound {t : Task} {m : Nat} {s : State} {k : Nat} {r : Option (Option Nat)} (h : probe t m s k = some r) : hm t m s = r := by
  unfold probe at h
  unfold hm
  split at h
  · rename_i hg
    rw [if_pos hg]
    simpa using h
  · rename_i hg
    rw [if_neg hg]
    split at h
    · simp at h
    · rename_i hu
      rw [updateFuel_sound hu]
      simpa using h
    · rename_i val hu
      rw [updateFuel_sound hu]
      simp only
      split at h
      · rename_i he
        simp only [he]
        simpa using h
      · rename_i c he
        simp only [he]
        simpa using h

/-- Two goals that are both reached from the initial state in one step, but each operator uses up the token. -/
def exTask : Task where
  vars := [⟨2, none, 0⟩, ⟨2, none, 0⟩, ⟨2, none, 0⟩]
  ops := [⟨[⟨2, 0⟩], [⟨[], ⟨2, 1⟩⟩, ⟨[], ⟨0, 1⟩⟩], 3⟩, ⟨[⟨2, 0⟩], [⟨[], ⟨2, 1⟩⟩, ⟨[], ⟨1, 1⟩⟩], 2⟩, ⟨[⟨2, 1⟩], [⟨[], ⟨2, 0⟩⟩], 4⟩]
  axioms := []
  init := [0, 0, 0]
  goal := [⟨0, 1⟩, ⟨1, 1⟩]

theorem exTask_ok : HmTask exTask := by
  refine ⟨taskOK_wf (by decide), rfl, ?_, ?_, ?_, ?_⟩ <;> decide

/-- the hypotheses are met -/
example : (∀ o ∈ exTask.ops, o.cost ≤ 4) ∧ 4 * (exTask.numFacts + 1) ^ 2 < 2 ^ 30 ∧ exTask.FitsTypes .normal :=
  ⟨by decide, by decide, ⟨4, fun i => by
    have h : exTask.opCost i ≤ 4 := by
      match i with
      | 0 | 1 | 2 => decide
      | n + 3 => simp [Task.opCost, exTask]
    exact ⟨h, h⟩, by decide⟩⟩

/-- h^1 is 3, h^2 is 9 (the cost of a plan) -/
example : hm exTask 1 [0, 0, 0] = some (some 3) := probe_sound (k := 5) (by decide +kernel)
example : hm exTask 2 [0, 0, 0] = some (some 9) := probe_sound (k := 5) (by decide +kernel)

/-- a task where two goals cannot be true together: h^1 does not see this, h^2 does -/
def mutexTask : Task where
  vars := [⟨2, none, 0⟩, ⟨2, none, 0⟩, ⟨2, none, 0⟩]
  ops := [⟨[⟨2, 0⟩], [⟨[], ⟨2, 1⟩⟩, ⟨[], ⟨0, 1⟩⟩], 3⟩, ⟨[⟨2, 0⟩], [⟨[], ⟨2, 1⟩⟩, ⟨[], ⟨1, 1⟩⟩], 2⟩]
  axioms := []
  init := [0, 0, 0]
  goal := [⟨0, 1⟩, ⟨1, 1⟩]

example : HmTask mutexTask ∧ hm mutexTask 1 [0, 0, 0] = some (some 3) ∧ hm mutexTask 2 [0, 0, 0] = some none := by
  refine ⟨⟨taskOK_wf (by decide), rfl, ?_, ?_, ?_, ?_⟩, probe_sound (k := 5) (by decide +kernel), probe_sound (k := 5) (by decide +kernel)⟩ <;> decide

/-- the goals in the opposite order -/
def unsortedTask : Task := { exTask with goal := [⟨1, 1⟩, ⟨0, 1⟩] }

/-- C48 needs that the goals are sorted by variable, which nothing enforces when a task is read: otherwise the evaluation with m = 2 looks up a pair that is not in the table, and ends with an exception. -/
theorem C48_unsorted_goals_fail : unsortedTask.WF ∧ (∀ o ∈ unsortedTask.ops, (o.pre.map (·.var)).Nodup ∧ (o.effects.map (·.fact.var)).Nodup) ∧ (unsortedTask.goal.map (·.var)).Nodup ∧ hm unsortedTask 2 unsortedTask.init = none :=
  ⟨taskOK_wf (by decide), by decide, by decide, probe_sound (k := 5) (by decide +kernel)⟩

end Verif.Hm
