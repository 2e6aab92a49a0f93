import Verif.Lemmas.LmCutRounds
import Verif.Props.Relaxation

/-
LM-cut: from relaxed operators to planning tasks.
-/
namespace Verif.LmCut
open Verif.AdaptiveQueue Verif.Relax

variable {t : Task}

theorem ofTask_op {i : Nat} {o : Operator} (h : t.ops[i]? = some o) : (LTask.ofTask t).ops[i]? = some (buildOp t (countFacts t) o i) := by
  have hlt : i < t.ops.length := (List.getElem?_eq_some_iff.mp h).1
  simp only [LTask.ofTask]
  rw [List.getElem?_append_left (by simpa using hlt)]
  simp [h]

theorem ofTask_last : (LTask.ofTask t).ops[t.ops.length]? = some (mkOp (countFacts t) (t.goal.map (propId t)) [countFacts t + 1] none 0) := by
  simp only [LTask.ofTask]
  rw [List.getElem?_append_right (by simp)]
  simp

theorem ofTask_length : (LTask.ofTask t).ops.length = t.ops.length + 1 := by simp [LTask.ofTask]

theorem ofTask_cases {i : Nat} {r : ROp} (h : (LTask.ofTask t).ops[i]? = some r) :
    (∃ o, t.ops[i]? = some o ∧ r = buildOp t (countFacts t) o i) ∨ (i = t.ops.length ∧ r = mkOp (countFacts t) (t.goal.map (propId t)) [countFacts t + 1] none 0) := by
  have hlt : i < t.ops.length + 1 := by rw [← ofTask_length]; exact (List.getElem?_eq_some_iff.mp h).1
  by_cases hi : i < t.ops.length
  · left
    refine ⟨t.ops[i], List.getElem?_eq_getElem hi, ?_⟩
    have := ofTask_op (List.getElem?_eq_getElem hi)
    rw [this] at h
    simpa using h.symm
  · right
    have e : i = t.ops.length := by omega
    subst e
    rw [ofTask_last] at h
    exact ⟨rfl, by simpa using h.symm⟩

theorem mkOp_pre {a : Nat} {pre eff : List Nat} {id : Option Nat} {b : Nat} {q : Nat} : q ∈ (mkOp a pre eff id b).pre ↔ q ∈ pre ∨ (pre = [] ∧ q = a) := by
  simp only [mkOp]
  cases pre <;> simp

/-- the costs of the relaxed operators -/
theorem base_cost (i : Nat) : (((LTask.ofTask t).ops[i]?).map (·.base)).getD 0 = t.opCost i := by
  unfold Task.opCost
  by_cases hi : i < t.ops.length
  · rw [ofTask_op (List.getElem?_eq_getElem hi), List.getElem?_eq_getElem hi]
    simp [buildOp, mkOp]
  · rw [List.getElem?_eq_none (by omega : t.ops.length ≤ i)]
    by_cases e : i = t.ops.length
    · subst e; rw [ofTask_last]; simp [mkOp]
    · rw [List.getElem?_eq_none (by rw [ofTask_length]; omega)]; simp

theorem sumN_opCost : sumN (LTask.ofTask t).ops.length t.opCost = (t.ops.map (·.cost)).sum := by
  rw [ofTask_length, sumN_succ]
  have h0 : t.opCost t.ops.length = 0 := by simp [Task.opCost]
  rw [h0, Nat.add_zero]
  unfold sumN
  congr 1
  apply List.ext_getElem?
  intro i
  by_cases hi : i < t.ops.length
  · simp [hi, Task.opCost]
  · simp [List.getElem?_eq_none (by omega : t.ops.length ≤ i), List.getElem?_eq_none (by simpa using hi : (List.range t.ops.length).length ≤ i)]

theorem propIds_nodup {l : List Fact} (h : l.Nodup) (hl : ∀ f ∈ l, t.ValidFact f) : (l.map (propId t)).Nodup :=
  List.Nodup.map_on (fun f hf g hg e => propId_inj (hl f hf) (hl g hg) e) h

theorem ofTask_lok (h : t.LmCutOk) : LOk (LTask.ofTask t) := by
  refine ⟨?_, ?_, ?_⟩
  · intro r hr
    obtain ⟨i, hi⟩ := List.getElem?_of_mem hr
    rcases ofTask_cases hi with ⟨o, _, rfl⟩ | ⟨_, rfl⟩ <;> simp only [buildOp, mkOp] <;> split
    · simp
    · rename_i e; simpa using e
    · simp
    · rename_i e; simpa using e
  · intro r hr e he
    obtain ⟨i, hi⟩ := List.getElem?_of_mem hr
    show e < countFacts t + 2
    rcases ofTask_cases hi with ⟨o, ho, rfl⟩ | ⟨_, rfl⟩
    · simp only [buildOp, mkOp, List.mem_map] at he
      obtain ⟨ef, h1, rfl⟩ := he
      have := propId_lt (h.wf.effFact o (List.mem_of_getElem? ho) ef h1)
      omega
    · simp only [mkOp, List.mem_singleton] at he
      omega
  · intro r hr
    obtain ⟨i, hi⟩ := List.getElem?_of_mem hr
    rcases ofTask_cases hi with ⟨o, ho, rfl⟩ | ⟨_, rfl⟩ <;> simp only [buildOp, mkOp] <;> split
    · simp
    · exact propIds_nodup (h.pre o (List.mem_of_getElem? ho)) (h.wf.pre o (List.mem_of_getElem? ho))
    · simp
    · exact propIds_nodup h.goal h.wf.goalFacts

theorem facts_nodup {s : State} (hs : t.ValidState s) : (factsOf t s ++ [(LTask.ofTask t).artPre]).Nodup := by
  refine List.nodup_append.mpr ⟨?_, by simp, ?_⟩
  · unfold factsOf
    refine List.Nodup.map_on ?_ ?_
    · rintro ⟨x, i⟩ hi ⟨y, j⟩ hj e
      have hx : (⟨i, x⟩ : Fact).holds s := by simpa [Fact.holds] using List.mem_zipIdx_iff_getElem?.mp hi
      have hy : (⟨j, y⟩ : Fact).holds s := by simpa [Fact.holds] using List.mem_zipIdx_iff_getElem?.mp hj
      have := propId_inj (valid_of_holds hs hx) (valid_of_holds hs hy) e
      simp only [Fact.mk.injEq] at this
      rw [this.1, this.2]
    · have hp : (s.zipIdx).Pairwise (fun a b => a.2 < b.2) := by
        rw [List.pairwise_iff_getElem]
        intro i j hi hj hij
        simp only [List.getElem_zipIdx]; omega
      exact hp.imp (fun h e => by rw [e] at h; omega)
  · intro a ha b hb e
    simp only [List.mem_singleton] at hb
    have := factsOf_lt hs a ha
    have hb' : b = countFacts t := hb
    omega

theorem facts_lt {s : State} (hs : t.ValidState s) : ∀ q ∈ factsOf t s ++ [(LTask.ofTask t).artPre], q < (LTask.ofTask t).numProps := by
  intro q hq
  show q < countFacts t + 2
  rcases List.mem_append.mp hq with h | h
  · have := factsOf_lt hs q h; omega
  · simp only [List.mem_singleton] at h
    have : q = countFacts t := h
    omega

/-! ### reachability and h^max -/

section
variable (h : t.LmCutOk) {s : State}
include h

theorem lreach_of_relReach {R : Nat → Prop} {f : Fact} (hr : t.RelReach R s f) :
    LReach (LTask.ofTask t) (fun i => R i ∨ i = t.ops.length) (factsOf t s ++ [(LTask.ofTask t).artPre]) (propId t f) := by
  induction hr with
  | state f hf => exact .init _ (List.mem_append_left _ (mem_factsOf.mpr ⟨f, hf, rfl⟩))
  | effect i cs f c he hR _ ih =>
    cases he with
    | op i o e h1 h2 =>
      refine .op i _ _ (ofTask_op h1) (Or.inl (hR i rfl)) ?_ (by simp only [buildOp, mkOp, List.mem_map]; exact ⟨e, h2, rfl⟩)
      intro q hq
      rcases mkOp_pre.mp hq with hq | ⟨_, rfl⟩
      · obtain ⟨g, hg, rfl⟩ := List.mem_map.mp hq
        exact ih g (List.mem_append_left _ hg)
      · exact .init _ (by simp [LTask.ofTask])
    | ax a e h1 h2 => rw [h.axioms] at h1; simp at h1

theorem lreach_of_plan {R : Nat → Prop} (hr : t.IsRelaxedPlan R s) :
    LReach (LTask.ofTask t) (fun i => R i ∨ i = t.ops.length) (factsOf t s ++ [(LTask.ofTask t).artPre]) (LTask.ofTask t).artGoal := by
  refine .op t.ops.length _ _ ofTask_last (Or.inr rfl) ?_ (by simp [mkOp, LTask.ofTask])
  intro q hq
  rcases mkOp_pre.mp hq with hq | ⟨_, rfl⟩
  · obtain ⟨g, hg, rfl⟩ := List.mem_map.mp hq
    exact lreach_of_relReach h (hr g hg)
  · exact .init _ (by simp [LTask.ofTask])

theorem lle_of_hmax {f : Fact} {n : Nat} (hr : t.HmaxLe s f n) : LLe (LTask.ofTask t) t.opCost (factsOf t s ++ [(LTask.ofTask t).artPre]) (propId t f) n := by
  induction hr with
  | state f n hf => exact .init _ _ (List.mem_append_left _ (mem_factsOf.mpr ⟨f, hf, rfl⟩))
  | effect i cs f c m n he _ hle ih =>
    cases he with
    | op i o e h1 h2 =>
      refine .op i _ m _ _ (ofTask_op h1) ?_ (by simp only [buildOp, mkOp, List.mem_map]; exact ⟨e, h2, rfl⟩) (by simpa [Task.opCost, h1] using hle)
      intro q hq
      rcases mkOp_pre.mp hq with hq | ⟨_, rfl⟩
      · obtain ⟨g, hg, rfl⟩ := List.mem_map.mp hq
        exact ih g (List.mem_append_left _ hg)
      · exact .init _ _ (by simp [LTask.ofTask])
    | ax a e h1 h2 => rw [h.axioms] at h1; simp at h1

omit h in
theorem withCosts_op {c : Nat → Nat} {i : Nat} {o : Operator} (ho : t.ops[i]? = some o) : (t.withCosts c).ops[i]? = some { o with cost := c i } := by
  simp [Task.withCosts, ho]

omit h in
theorem withCosts_self : t.withCosts t.opCost = t := by
  have : t.ops.zipIdx.map (fun p => { p.1 with cost := t.opCost p.2 : Operator }) = t.ops := by
    apply List.ext_getElem?
    intro i
    cases ho : t.ops[i]? with
    | none => simp [ho]
    | some o => simp [ho, Task.opCost]
  unfold Task.withCosts
  rw [this]

/-- h^max of relaxed operators with costs `c` is h^max of the task with these costs -/
theorem hmax_of_lle (hs : t.ValidState s) {c : Nat → Nat} {p n : Nat} (hr : LLe (LTask.ofTask t) c (factsOf t s ++ [(LTask.ofTask t).artPre]) p n) :
    (∃ f, t.ValidFact f ∧ propId t f = p ∧ (t.withCosts c).HmaxLe s f n) ∨ p = countFacts t ∨ (p = countFacts t + 1 ∧ (t.withCosts c).HmaxGoalLe s n) := by
  have hfact : ∀ (l : List Fact) (m : Nat), (∀ f ∈ l, t.ValidFact f) → (∀ q ∈ l.map (propId t), (∃ f, t.ValidFact f ∧ propId t f = q ∧ (t.withCosts c).HmaxLe s f m) ∨ q = countFacts t ∨ (q = countFacts t + 1 ∧ (t.withCosts c).HmaxGoalLe s m)) →
      ∀ f ∈ l, (t.withCosts c).HmaxLe s f m := by
    intro l m hl hq f hf
    have hlt := propId_lt (hl f hf)
    rcases hq (propId t f) (List.mem_map_of_mem hf) with ⟨g, h1, h2, h3⟩ | h1 | h1
    · rw [← propId_inj h1 (hl f hf) h2]; exact h3
    · omega
    · omega
  induction hr with
  | init p n hp =>
    rcases List.mem_append.mp hp with hp | hp
    · obtain ⟨f, h1, h2⟩ := mem_factsOf.mp hp
      exact Or.inl ⟨f, valid_of_holds hs h1, h2, .state f n h1⟩
    · simp only [List.mem_singleton] at hp
      exact Or.inr (Or.inl hp)
  | op i r m e n hr' hpre he hle ih =>
    rcases ofTask_cases hr' with ⟨o, ho, rfl⟩ | ⟨_, rfl⟩
    · simp only [buildOp, mkOp, List.mem_map] at he
      obtain ⟨ef, h1, rfl⟩ := he
      left
      have hom := List.mem_of_getElem? ho
      refine ⟨ef.fact, h.wf.effFact o hom ef h1, rfl, ?_⟩
      refine .effect (some i) (o.pre ++ ef.conds) ef.fact (c i) m n (.op i { o with cost := c i } ef (withCosts_op ho) h1) ?_ hle
      rw [h.conds o hom ef h1, List.append_nil]
      exact hfact o.pre m (h.wf.pre o hom) (fun q hq => ih q (mkOp_pre.mpr (Or.inl hq)))
    · right; right
      simp only [mkOp, List.mem_singleton] at he
      refine ⟨he, ?_⟩
      have := hfact t.goal m h.wf.goalFacts (fun q hq => ih q (mkOp_pre.mpr (Or.inl hq)))
      exact fun g hg => hmaxLe_mono (this g hg) (by omega)

theorem hmaxGoal_of_lle (hs : t.ValidState s) {c : Nat → Nat} {n : Nat} (hr : LLe (LTask.ofTask t) c (factsOf t s ++ [(LTask.ofTask t).artPre]) (LTask.ofTask t).artGoal n) :
    (t.withCosts c).HmaxGoalLe s n := by
  rcases hmax_of_lle h hs hr with ⟨f, h1, h2, _⟩ | h1 | h1
  · have := propId_lt h1
    have h3 : propId t f = countFacts t + 1 := h2
    omega
  · have h3 : countFacts t + 1 = countFacts t := h1
    omega
  · exact h1.2

theorem lle_goal {n : Nat} (hr : t.HmaxGoalLe s n) : LLe (LTask.ofTask t) t.opCost (factsOf t s ++ [(LTask.ofTask t).artPre]) (LTask.ofTask t).artGoal n := by
  refine .op t.ops.length _ n _ _ ofTask_last ?_ (by simp [mkOp, LTask.ofTask]) (by simp [Task.opCost])
  intro q hq
  rcases mkOp_pre.mp hq with hq | ⟨_, rfl⟩
  · obtain ⟨g, hg, rfl⟩ := List.mem_map.mp hq
    exact lle_of_hmax h (hr g hg)
  · exact .init _ _ (by simp [LTask.ofTask])

omit h in
theorem lreach_all_lle {F : List Nat} {T : LTask} {p : Nat} (hr : LReach T (fun _ => True) F p) : ∃ n, LLe T (fun _ => 0) F p n := by
  refine ⟨0, ?_⟩
  induction hr with
  | init p hp => exact .init p 0 hp
  | op i o e ho _ _ he ih => exact .op i o 0 e 0 ho ih he (by omega)

omit h in
theorem reach_withCosts {c : Nat → Nat} {R : Nat → Prop} {f : Fact} (hr : (t.withCosts c).RelReach R s f) : t.RelReach R s f := by
  induction hr with
  | state f hf => exact .state f hf
  | effect i cs f k he hR _ ih =>
    cases he with
    | op i o e h1 h2 =>
      have h3 : ∃ o', t.ops[i]? = some o' ∧ o = { o' with cost := c i } := by
        cases ho : t.ops[i]? with
        | none => simp [Task.withCosts, ho] at h1
        | some o' => exact ⟨o', rfl, by rw [withCosts_op ho] at h1; simpa using h1.symm⟩
      obtain ⟨o', h4, rfl⟩ := h3
      exact .effect (some i) _ _ _ (.op i o' e h4 h2) hR ih
    | ax a e h1 h2 => exact .effect none _ _ _ (.ax a e h1 h2) hR ih

theorem plan_of_lreach (hs : t.ValidState s) (hr : LReach (LTask.ofTask t) (fun _ => True) (factsOf t s ++ [(LTask.ofTask t).artPre]) (LTask.ofTask t).artGoal) : t.IsRelaxedPlan (fun _ => True) s := by
  obtain ⟨n, hn⟩ := lreach_all_lle hr
  have := hmaxGoal_of_lle h hs hn
  exact fun g hg => reach_withCosts (reach_of_hmax (this g hg))

end

/-! ### plans -/

/-- facts reached by a plan are reached in the delete relaxation -/
theorem relReach_succ (hwf : t.WF) (hax : t.axioms = []) {i : Nat} {o : Operator} {s s' : State} (hi : t.ops[i]? = some o) (ha : o.applicable s) (hsucc : t.SuccRel o s s') {R : Nat → Prop} (hR : R i)
    {f : Fact} (h : t.RelReach R s' f) : t.RelReach R s f := by
  induction h with
  | state f h =>
    rcases succ_facts hwf hax hi ha hsucc h with h | ⟨e, h1, rfl, h3⟩
    · exact .state f h
    · refine .effect (some i) (o.pre ++ e.conds) e.fact o.cost (.op i o e hi h1) (fun j hj => by simp only [Option.some.injEq] at hj; exact hj ▸ hR) ?_
      intro q hq
      rcases List.mem_append.mp hq with hq | hq
      · exact .state q (ha q hq)
      · exact .state q (h3 q hq)
  | effect j cs f c h hR' _ ih => exact .effect j cs f c h hR' ih

theorem relaxed_of_solves (hwf : t.WF) (hax : t.axioms = []) {s : State} {π : List Nat} (hπ : t.SolvesFrom s π) : t.IsRelaxedPlan (· ∈ π) s := by
  obtain ⟨u, h1, h2⟩ := hπ
  suffices ∀ R : Nat → Prop, (∀ i ∈ π, R i) → ∀ g ∈ t.goal, t.RelReach R s g from this _ (fun _ h => h)
  induction h1 with
  | nil s => exact fun R _ g hg => .state g (h2 g hg)
  | cons s i o s' π u k1 k2 k3 _ ih =>
    intro R hR g hg
    exact relReach_succ hwf hax k1 k2 k3 (hR i (by simp)) (ih h2 R (fun j hj => hR j (by simp [hj])) g hg)

/-- a set of operators that meets each landmark costs at least as much as the landmarks -/
theorem cost_ge (c : Nat → Nat) (S : List Nat) : ∀ (ls : List CostedSet), (∀ i ∈ S, charged ls i ≤ c i) → (∀ l ∈ ls, ∃ i ∈ S, some i ∈ l.1) → (ls.map (·.2)).sum ≤ (S.map c).sum := by
  intro ls
  induction ls generalizing c with
  | nil => intro _ _; simp
  | cons l ls ih =>
    intro hc hl
    have hcons : ∀ i, charged (l :: ls) i = (if some i ∈ l.1 then l.2 else 0) + charged ls i := by
      intro i
      unfold charged
      by_cases e : some i ∈ l.1 <;> simp [List.filter_cons, e]
    have h1 := ih (fun i => c i - (if some i ∈ l.1 then l.2 else 0)) (fun i hi => by
      have := hc i hi
      rw [hcons i] at this
      omega) (fun l' hl' => hl l' (by simp [hl']))
    obtain ⟨i0, hi0, hin⟩ := hl l (by simp)
    have h2 : ∀ (S : List Nat), (∀ i ∈ S, charged (l :: ls) i ≤ c i) → (S.map (fun i => c i - (if some i ∈ l.1 then l.2 else 0))).sum + (if (∃ i ∈ S, some i ∈ l.1) then l.2 else 0) ≤ (S.map c).sum := by
      intro S
      induction S with
      | nil => intro _; simp
      | cons a S ihS =>
        intro hS
        have h3 := ihS (fun i hi => hS i (by simp [hi]))
        have h4 := hS a (by simp)
        rw [hcons a] at h4
        simp only [List.map_cons, List.sum_cons, List.exists_mem_cons_iff]
        by_cases ea : some a ∈ l.1
        · rw [if_pos ea] at h4 ⊢
          rw [if_pos (Or.inl ea)]
          omega
        · rw [if_neg ea] at h4 ⊢
          simp only [ea, false_or]
          omega
    have h3 := h2 S hc
    rw [if_pos ⟨i0, hi0, hin⟩] at h3
    simp only [List.map_cons, List.sum_cons]
    omega

end Verif.LmCut
