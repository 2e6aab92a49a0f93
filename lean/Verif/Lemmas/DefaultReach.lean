import Verif.Lemmas.DefaultAxioms
import Verif.Lemmas.RelaxTask
import Verif.Lemmas.TaskWorld

/- With the axioms for default values, what is needed and can be reached can be reached in the delete relaxation. -/
namespace Verif.DefaultAxioms
open Verif.Axioms (layerOf_eq defaultOf_eq)

/-- what the constructor yields -/
structure NewOk (t : Task) (h : Handling) (as : List Operator) : Prop where
  form : ∀ a ∈ as, ∃ v b, t.Needed (Approx t h) v true ∧ a = defaultAxiom v (t.defaultOf v) b ∧ ∀ f ∈ b, t.ValidFact f
  approx : ∀ v, t.Needed (Approx t h) v true → Approx t h v → ∀ b, defaultAxiom v (t.defaultOf v) b ∈ as ↔ b = []
  exact : ∀ v, t.Needed (Approx t h) v true → ¬Approx t h v → ∀ s, t.ValidState s → ((∃ b, defaultAxiom v (t.defaultOf v) b ∈ as ∧ allHold b s) ↔ NoRule t v s)
  facts : ∀ v b, ¬Approx t h v → defaultAxiom v (t.defaultOf v) b ∈ as → ∀ f ∈ b, ∃ r ∈ t.rules, r.head.var = v ∧ ∃ c ∈ r.body, f.var = c.var ∧ f.val ≠ c.val
  /-- the value of the order in which exactly treated variables depend on each other -/
  order : h = .approximateNegativeCycles → ∃ rank : Nat → Nat, ∀ v w, ¬t.OnCycle v → t.PosDep v w → w ≠ v → rank w < rank v

theorem needed_derived {t : Task} (hwf : t.WF) {A : Nat → Prop} {v : Nat} {b : Bool} (h : t.Needed A v b) : v < t.vars.length ∧ t.layerOf v ≠ none := by
  cases h with
  | goal f h1 h2 => exact ⟨valid_var (hwf.goalFacts f h1), h2⟩
  | pre o f h0 h1 h2 => exact ⟨valid_var (hwf.pre o h0 f h1), h2⟩
  | cond o e f h0 h1 h2 h3 => exact ⟨valid_var (hwf.effCond o h0 e h1 f h2), h3⟩
  | same b r c _ _ h1 h2 h3 => exact ⟨valid_var (hwf.ax.validBody r h1 c h2), h3.1⟩
  | other b r c _ _ h1 h2 h3 => exact ⟨valid_var (hwf.ax.validBody r h1 c h2), h3.1⟩

theorem defaultAxiom_inj {v v' x x' : Nat} {b b' : List Fact} (h : defaultAxiom v x b = defaultAxiom v' x' b') : v = v' ∧ b = b' := by
  unfold defaultAxiom at h
  simp only [Operator.mk.injEq, List.cons.injEq, Fact.mk.injEq, Effect.mk.injEq, and_true] at h
  exact ⟨h.1.1, h.2.1⟩

theorem construct_ok {t : Task} (hwf : t.WF) (h : Handling) {o : HashOrders} (ho : o.Legal) : ∃ as, construct t h o = some { t with axioms := t.axioms ++ as } ∧ NewOk t h as := by
  obtain ⟨d, h1, hd⟩ := deps_ok hwf.ax
  obtain ⟨sccs, h2, hc⟩ := comp_ok hwf.ax h hd
  obtain ⟨vs, h3, hvs⟩ := relevant_ok hwf ho hd hc
  obtain ⟨as, h4, has⟩ := newAxioms_spec hwf.ax hd hc (vs := vs) (fun v hv => (needed_derived hwf ((hvs v).mp hv)).1)
  refine ⟨as, by unfold construct; simp only [h1, h2, h3, h4], ?_⟩
  have hmem : ∀ v b, defaultAxiom v (t.defaultOf v) b ∈ as ↔ v ∈ vs ∧ ∃ bs, bodies t h sccs d v = some bs ∧ b ∈ bs := by
    intro v b
    rw [has]
    constructor
    · rintro ⟨v', k1, bs, k2, b', k3, k4⟩
      obtain ⟨rfl, rfl⟩ := defaultAxiom_inj k4
      exact ⟨k1, bs, k2, k3⟩
    · rintro ⟨k1, bs, k2, k3⟩
      exact ⟨v, k1, bs, k2, b, k3, rfl⟩
  refine ⟨?_, ?_, ?_, ?_, hc.order⟩
  · intro a ha
    obtain ⟨v, k1, bs, k2, b, k3, k4⟩ := (has a).mp ha
    refine ⟨v, b, (hvs v).mp k1, k4, ?_⟩
    intro f hf
    obtain ⟨bs', p1, p2, p3⟩ := bodies_ok hwf.ax hd hc (needed_derived hwf ((hvs v).mp k1)).1
    rw [k2] at p1
    simp only [Option.some.injEq] at p1
    subst p1
    by_cases hA : Approx t h v
    · rw [p2 hA, List.mem_singleton] at k3
      rw [k3] at hf
      simp at hf
    · exact ((p3 hA).facts b k3 f hf).1
  · intro v hv hA b
    obtain ⟨bs', p1, p2, p3⟩ := bodies_ok hwf.ax hd hc (needed_derived hwf hv).1
    rw [hmem]
    constructor
    · rintro ⟨_, bs, k2, k3⟩
      rw [k2] at p1
      simp only [Option.some.injEq] at p1
      subst p1
      rw [p2 hA, List.mem_singleton] at k3
      exact k3
    · rintro rfl
      exact ⟨(hvs v).mpr hv, bs', p1, by rw [p2 hA]; simp⟩
  · intro v hv hA s hs
    obtain ⟨bs', p1, p2, p3⟩ := bodies_ok hwf.ax hd hc (needed_derived hwf hv).1
    rw [← (p3 hA).exact s hs]
    constructor
    · rintro ⟨b, k1, k2⟩
      obtain ⟨_, bs, k3, k4⟩ := (hmem v b).mp k1
      rw [k3] at p1
      simp only [Option.some.injEq] at p1
      subst p1
      exact ⟨b, k4, k2⟩
    · rintro ⟨b, k1, k2⟩
      exact ⟨b, (hmem v b).mpr ⟨(hvs v).mpr hv, bs', p1, k1⟩, k2⟩
  · intro v b hA hb f hf
    obtain ⟨k1, bs, k2, k3⟩ := (hmem v b).mp hb
    obtain ⟨bs', p1, p2, p3⟩ := bodies_ok hwf.ax hd hc (needed_derived hwf ((hvs v).mp k1)).1
    rw [k2] at p1
    simp only [Option.some.injEq] at p1
    subst p1
    exact ((p3 hA).facts b k3 f hf).2

section
variable {t : Task} (hwf : t.WF) (hform : t.AxiomForm) {h : Handling} {as : List Operator} (hnew : NewOk t h as)

include hwf hform in
theorem binary_cases {s : State} (hs : t.ValidState s) {v : Nat} (hv : v < t.vars.length) (hd : t.layerOf v ≠ none) :
    ∃ x, s[v]? = some x ∧ x < 2 ∧ t.defaultOf v < 2 ∧ ∀ f, t.ValidFact f → f.var = v → f.val < 2 := by
  have hx : t.vars[v]? = some t.vars[v] := List.getElem?_eq_getElem _
  have hl : t.vars[v].layer ≠ none := by rw [← layerOf_eq hx]; exact hd
  have h2 := hform.binary v _ hx hl
  have hlt : v < s.length := by rw [hs.1]; exact hv
  refine ⟨s[v], List.getElem?_eq_getElem hlt, ?_, ?_, ?_⟩
  · rw [← h2]; exact hs.2 v _ _ (List.getElem?_eq_getElem hlt) hx
  · rw [defaultOf_eq hx, ← h2]; exact hwf.ax.validDefault v _ hx hl
  · rintro f ⟨d, k1, k2⟩ rfl
    rw [hx] at k1
    simp only [Option.some.injEq] at k1
    subst k1
    omega

include hwf hform in
theorem ax_effect {s : State} (hs : t.ValidState s) {r : Rule} (hr : r ∈ t.rules) {n : Nat} (h : ∀ c ∈ r.body, Task.HmaxLe { t with axioms := t.axioms ++ as } s c n) :
    Task.HmaxLe { t with axioms := t.axioms ++ as } s r.head n := by
  obtain ⟨a, h1, e, h2, rfl⟩ := mem_rules.mp hr
  have hvh := hwf.ax.validHead _ hr
  have hdh := hwf.ax.headDerived _ hr
  have hne := hwf.ax.headNonDefault _ hr
  simp only at hvh hdh hne h
  obtain ⟨x, k1, k2, k3, k4⟩ := binary_cases hwf hform hs (valid_var hvh) hdh
  have k5 := k4 _ hvh rfl
  by_cases hx : x = e.fact.val
  · exact .state _ _ (by unfold Fact.holds; rw [k1, hx])
  · refine .effect none (a.pre ++ e.conds) e.fact 0 n n (.ax a e (List.mem_append_left _ h1) h2) ?_ (by omega)
    intro q hq
    rcases List.mem_append.mp hq with hq | hq
    · rw [hform.pre a h1 e h2 q hq]
      exact .state _ _ (by unfold Fact.holds; simp only; rw [k1]; congr 1; omega)
    · exact h q hq

include hwf hform in
theorem def_effect {s : State} (hs : t.ValidState s) {v : Nat} (hv : v < t.vars.length) (hd : t.layerOf v ≠ none) {b : List Fact} (hb : defaultAxiom v (t.defaultOf v) b ∈ as) {n : Nat}
    (h : ∀ c ∈ b, Task.HmaxLe { t with axioms := t.axioms ++ as } s c n) : Task.HmaxLe { t with axioms := t.axioms ++ as } s ⟨v, t.defaultOf v⟩ n := by
  obtain ⟨x, k1, k2, k3, k4⟩ := binary_cases hwf hform hs hv hd
  by_cases hx : x = t.defaultOf v
  · exact .state _ _ (by unfold Fact.holds; rw [k1, hx])
  · refine .effect none ([⟨v, 1 - t.defaultOf v⟩] ++ b) ⟨v, t.defaultOf v⟩ 0 n n (.ax (defaultAxiom v (t.defaultOf v) b) ⟨b, ⟨v, t.defaultOf v⟩⟩ (List.mem_append_right _ hb) (by simp [defaultAxiom])) ?_ (by omega)
    intro q hq
    rcases List.mem_append.mp hq with hq | hq
    · rw [List.mem_singleton] at hq
      subst hq
      exact .state _ _ (by unfold Fact.holds; simp only; rw [k1]; congr 1; omega)
    · exact h q hq

include hwf hform hnew in
/-- the derived facts of a state -/
theorem reach_derived (hself : h = .approximateNegative ∨ ¬t.SelfSupporting) {s m s2 : State} (hs : t.ValidState s) (hs2 : t.ValidState s2) (hm : StableModel t m s2) {n : Nat}
    (hbase : ∀ f, t.layerOf f.var = none → f.holds s2 → Task.HmaxLe { t with axioms := t.axioms ++ as } s f n) :
    ∀ (ℓ : Nat) (f : Fact), t.layerOf f.var = some ℓ → t.Needed (Approx t h) f.var (decide (f.val = t.defaultOf f.var)) → f.holds s2 →
      Task.HmaxLe { t with axioms := t.axioms ++ as } s f n := by
  intro ℓ
  induction ℓ using Nat.strongRecOn with
  | _ ℓ IH =>
  have hbase' : ∀ c : Fact, t.layerOf c.var = none → c.holds m → c.holds s2 := by
    intro c hc hh
    unfold Fact.holds at hh ⊢
    rw [hm.base _ hc]
    exact hh
  have pos : ∀ g, Derives t m (fun c => c.holds s2) g → ∀ ℓ', t.layerOf g.var = some ℓ' → ℓ' ≤ ℓ → t.Needed (Approx t h) g.var false → Task.HmaxLe { t with axioms := t.axioms ++ as } s g n := by
    intro g hg
    induction hg with
    | rule r hr k1 k2 k3 ih =>
      intro ℓ' hl hle hN
      refine ax_effect hwf hform hs hr ?_
      intro c hc
      cases hlc : t.layerOf c.var with
      | none => exact hbase c hlc (hbase' c hlc (k1 c hc hlc))
      | some ℓc =>
        have hd : t.layerOf c.var ≠ none := by rw [hlc]; simp
        by_cases hcd : c.val = t.defaultOf c.var
        · have hlt := hwf.ax.stratNeg r hr c hc ℓc ℓ' hlc hl hcd
          refine IH ℓc (by omega) c hlc ?_ (k2 c hc hd hcd)
          have := Task.Needed.other false r c hN (by simp) hr hc ⟨hd, hcd⟩
          simpa [hcd] using this
        · have hle' := hwf.ax.stratPos r hr c hc ℓc ℓ' hlc hl
          exact ih c hc hd hcd ℓc hlc (by omega) (Task.Needed.same false r c hN (by simp) hr hc ⟨hd, hcd⟩)
  have hpos : ∀ f : Fact, t.layerOf f.var = some ℓ → f.val ≠ t.defaultOf f.var → t.Needed (Approx t h) f.var false → f.holds s2 → Task.HmaxLe { t with axioms := t.axioms ++ as } s f n := by
    intro f hl hne hN hh
    exact pos f ((hm.pos f (by rw [hl]; simp) hne).mp hh) ℓ hl (Nat.le_refl _) hN
  have hnorule : ∀ v, t.layerOf v = some ℓ → (⟨v, t.defaultOf v⟩ : Fact).holds s2 → NoRule t v s2 := by
    rintro v hl hh r hr rfl hb
    have : Derives t m (fun c => c.holds s2) r.head := by
      refine .rule r hr ?_ ?_ ?_
      · intro c hc hlc
        have := hb c hc
        unfold Fact.holds at this ⊢
        rw [← hm.base _ hlc]
        exact this
      · intro c hc _ _
        exact hb c hc
      · intro c hc hd hne
        exact (hm.pos c hd hne).mp (hb c hc)
    have h1 := (hm.pos r.head (hwf.ax.headDerived r hr) (hwf.ax.headNonDefault r hr)).mpr this
    unfold Fact.holds at h1 hh
    simp only at hh
    rw [hh] at h1
    simp only [Option.some.injEq] at h1
    exact hwf.ax.headNonDefault r hr h1.symm
  have hdef : ∀ (k : Nat) (rank : Nat → Nat), (h = .approximateNegativeCycles → ∀ v w, ¬t.OnCycle v → t.PosDep v w → w ≠ v → rank w < rank v) → ∀ v, rank v = k → t.layerOf v = some ℓ →
      t.Needed (Approx t h) v true → (⟨v, t.defaultOf v⟩ : Fact).holds s2 → Task.HmaxLe { t with axioms := t.axioms ++ as } s ⟨v, t.defaultOf v⟩ n := by
    intro k
    induction k using Nat.strongRecOn with
    | _ k IHk =>
    intro rank hrank v hk hl hN hh
    obtain ⟨hv, hd⟩ := needed_derived hwf hN
    by_cases hA : Approx t h v
    · exact def_effect hwf hform hs hv hd ((hnew.approx v hN hA []).mpr rfl) (by simp)
    · obtain ⟨b, k1, k2⟩ := (hnew.exact v hN hA s2 hs2).mpr (hnorule v hl hh)
      refine def_effect hwf hform hs hv hd k1 ?_
      intro f hf
      obtain ⟨r, p1, p2, c, p3, p4, p5⟩ := hnew.facts v b hA k1 f hf
      subst p2
      have hfh := k2 f hf
      cases hlc : t.layerOf c.var with
      | none => exact hbase f (by rw [p4]; exact hlc) hfh
      | some ℓc =>
        have hdc : t.layerOf c.var ≠ none := by rw [hlc]; simp
        have hnA : ¬(true = true ∧ Approx t h r.head.var) := fun h => hA h.2
        by_cases hcd : c.val = t.defaultOf c.var
        · have hlt := hwf.ax.stratNeg r p1 c p3 ℓc ℓ hlc hl hcd
          have hne : f.val ≠ t.defaultOf f.var := by rw [p4, ← hcd]; exact p5
          refine IH ℓc hlt f (by rw [p4]; exact hlc) ?_ hfh
          have := Task.Needed.other true r c hN hnA p1 p3 ⟨hdc, hcd⟩
          rw [p4, decide_eq_false (by rw [← p4]; exact hne)]
          exact this
        · have hle := hwf.ax.stratPos r p1 c p3 ℓc ℓ hlc hl
          have hvc := hwf.ax.validBody r p1 c p3
          have hfd : f.val = t.defaultOf f.var := by
            obtain ⟨x, q1, q2, q3, q4⟩ := binary_cases hwf hform hs2 (valid_var hvc) hdc
            have h1 := q4 c hvc rfl
            unfold Fact.holds at hfh
            rw [p4, q1] at hfh
            simp only [Option.some.injEq] at hfh
            rw [p4]
            omega
          have hN' : t.Needed (Approx t h) c.var true := Task.Needed.same true r c hN hnA p1 p3 ⟨hdc, hcd⟩
          rcases Nat.lt_or_ge ℓc ℓ with hlt | hge
          · refine IH ℓc hlt f (by rw [p4]; exact hlc) ?_ hfh
            rw [decide_eq_true hfd, p4]
            exact hN'
          · have hleq : ℓc = ℓ := by omega
            have hcyc : h = .approximateNegativeCycles := by
              cases h with
              | approximateNegative => exact absurd (Or.inl rfl) hA
              | approximateNegativeCycles => rfl
            have hne : c.var ≠ r.head.var := by
              intro e
              rcases hself with h' | h'
              · rw [hcyc] at h'; cases h'
              · exact h' ⟨r, p1, c, p3, e⟩
            have hlt := hrank hcyc r.head.var c.var (fun h => hA (Or.inr h)) ⟨r, p1, rfl, c, p3, ⟨hdc, hcd⟩, rfl⟩ hne
            have hf' : f = ⟨c.var, t.defaultOf c.var⟩ := by
              cases f
              simp only at p4 hfd
              subst p4
              rw [hfd]
            rw [hf']
            exact IHk (rank c.var) (by omega) rank hrank c.var rfl (by rw [hlc, hleq]) hN' (hf' ▸ hfh)
  intro f hl hN hh
  by_cases hfd : f.val = t.defaultOf f.var
  · rw [decide_eq_true hfd] at hN
    have hf' : f = ⟨f.var, t.defaultOf f.var⟩ := by cases f; simp only at hfd; rw [hfd]
    rw [hf']
    by_cases hcyc : h = .approximateNegativeCycles
    · obtain ⟨rank, hrank⟩ := hnew.order hcyc
      exact hdef _ rank (fun _ => hrank) f.var rfl hl hN (hf' ▸ hh)
    · exact hdef _ (fun _ => 0) (fun h => absurd h hcyc) f.var rfl hl hN (hf' ▸ hh)
  · rw [decide_eq_false hfd] at hN
    exact hpos f hl hfd hN hh

/-- facts that are not derived, and needed facts, can be reached with cost `n` -/
def Reached (t : Task) (h : Handling) (as : List Operator) (s s1 : State) (n : Nat) : Prop :=
  ∀ f : Fact, f.holds s1 → (t.layerOf f.var ≠ none → t.Needed (Approx t h) f.var (decide (f.val = t.defaultOf f.var))) → Task.HmaxLe { t with axioms := t.axioms ++ as } s f n

include hwf hform hnew in
theorem reached_succ (hself : h = .approximateNegative ∨ ¬t.SelfSupporting) {s s1 s2 : State} (hs : t.ValidState s) (hs1 : t.ValidState s1) {i : Nat} {o : Operator} (hi : t.ops[i]? = some o)
    (ha : o.applicable s1) (hsucc : t.SuccRel o s1 s2) {n : Nat} (hr : Reached t h as s s1 n) : Reached t h as s s2 (n + o.cost) := by
  have hs2 : t.ValidState s2 := Search.exec_valid hwf hs1 (.cons s1 i o s2 [] s2 hi ha hsucc (.nil s2))
  have ho := List.mem_of_getElem? hi
  obtain ⟨m, k1, k2⟩ := hsucc
  have hbase : ∀ f, t.layerOf f.var = none → f.holds s2 → Task.HmaxLe { t with axioms := t.axioms ++ as } s f (n + o.cost) := by
    intro f hl hh
    have hm : m[f.var]? = some f.val := by rw [← k2.base _ hl]; exact hh
    have hlt : f.var < s1.length := by
      have := (List.getElem?_eq_some_iff.mp hm).1
      rw [k1.1] at this
      exact this
    have := k1.2 f.var _ (List.getElem?_eq_getElem hlt)
    rw [hm] at this
    simp only [Option.some.injEq] at this
    cases hasg : o.assigned s1 f.var with
    | none =>
      rw [hasg] at this
      simp only [Option.getD_none] at this
      refine Relax.hmaxLe_mono (hr f ?_ (fun h => absurd hl h)) (by omega)
      unfold Fact.holds
      rw [List.getElem?_eq_getElem hlt, this]
    | some y =>
      rw [hasg] at this
      simp only [Option.getD_some] at this
      subst this
      unfold Operator.assigned at hasg
      rw [Option.map_eq_some_iff] at hasg
      obtain ⟨e, p1, p2⟩ := hasg
      have hm := List.mem_of_getLast? p1
      simp only [List.mem_filter, Bool.and_eq_true, decide_eq_true_eq, beq_iff_eq] at hm
      have hfe : e.fact = f := by
        cases f
        cases hf' : e.fact
        simp_all
      rw [← hfe]
      refine .effect (some i) (o.pre ++ e.conds) e.fact o.cost n _ (.op i o e hi hm.1) ?_ (Nat.le_refl _)
      intro q hq
      rcases List.mem_append.mp hq with hq | hq
      · exact hr q (ha q hq) (fun hd => .pre o q ho hq hd)
      · exact hr q (hm.2.1 q hq) (fun hd => .cond o e q ho hm.1 hq hd)
  intro f hh hN
  cases hl : t.layerOf f.var with
  | none => exact hbase f hl hh
  | some ℓ => exact reach_derived hwf hform hnew hself hs hs2 k2 hbase ℓ f hl (hN (by rw [hl]; simp)) hh

include hwf hform hnew in
theorem reached_exec (hself : h = .approximateNegative ∨ ¬t.SelfSupporting) {s s1 u : State} (hs : t.ValidState s) {π : List Nat} (hex : t.Exec s1 π u) :
    ∀ n, t.ValidState s1 → Reached t h as s s1 n → Reached t h as s u (n + t.planCost π) := by
  induction hex with
  | nil s1 => intro n _ hr; simpa [Task.planCost] using hr
  | cons s1 i o s2 π u k1 k2 k3 _ ih =>
    intro n hs1 hr
    have hs2 : t.ValidState s2 := Search.exec_valid hwf hs1 (.cons s1 i o s2 [] s2 k1 k2 k3 (.nil s2))
    have h1 := ih (n + o.cost) hs2 (reached_succ hwf hform hnew hself hs hs1 k1 k2 k3 hr)
    have : t.opCost i = o.cost := by simp [Task.opCost, k1]
    have e : n + t.planCost (i :: π) = n + o.cost + t.planCost π := by
      simp only [Task.planCost, List.map_cons, List.sum_cons]
      omega
    rw [e]
    exact h1

include hwf hform hnew in
/-- h^max of the goal is at most the cost of every plan -/
theorem hmax_plan (hself : h = .approximateNegative ∨ ¬t.SelfSupporting) {s : State} (hs : t.ValidState s) {π : List Nat} (hπ : t.SolvesFrom s π) :
    Task.HmaxGoalLe { t with axioms := t.axioms ++ as } s (t.planCost π) := by
  obtain ⟨u, h1, h2⟩ := hπ
  intro g hg
  have := reached_exec hwf hform hnew hself hs h1 0 hs (fun f hf _ => .state f 0 hf)
  rw [Nat.zero_add] at this
  exact this g (h2 g hg) (fun hd => .goal g hg hd)

include hwf hnew hform in
/-- the facts of the new task exist -/
theorem new_valid : Task.FactsValid { t with axioms := t.axioms ++ as } := by
  refine ⟨?_, hwf.goalFacts⟩
  intro i cs f c he
  cases he with
  | op i o e h1 h2 =>
    have ho := List.mem_of_getElem? h1
    refine ⟨hwf.effFact o ho e h2, fun q hq => ?_⟩
    rcases List.mem_append.mp hq with hq | hq
    · exact hwf.pre o ho q hq
    · exact hwf.effCond o ho e h2 q hq
  | ax a e h1 h2 =>
    rcases List.mem_append.mp h1 with h1 | h1
    · have hr : (⟨e.conds, e.fact⟩ : Rule) ∈ t.rules := mem_rules.mpr ⟨a, h1, e, h2, rfl⟩
      have hvh : t.ValidFact e.fact := hwf.ax.validHead _ hr
      refine ⟨hvh, fun q hq => ?_⟩
      rcases List.mem_append.mp hq with hq | hq
      · rw [hform.pre a h1 e h2 q hq]
        obtain ⟨d, hd, _⟩ := hvh
        refine ⟨d, hd, ?_⟩
        simp only
        rw [defaultOf_eq hd]
        exact hwf.ax.validDefault _ d hd (by rw [← layerOf_eq hd]; exact hwf.ax.headDerived _ hr)
      · exact hwf.ax.validBody _ hr q hq
    · obtain ⟨v, b, k1, rfl, k2⟩ := hnew.form a h1
      obtain ⟨hv, hd⟩ := needed_derived hwf k1
      simp only [defaultAxiom, List.mem_singleton] at h2
      subst h2
      have hx : t.vars[v]? = some t.vars[v] := List.getElem?_eq_getElem _
      have hl : t.vars[v].layer ≠ none := by rw [← layerOf_eq hx]; exact hd
      have h2 := hform.binary v _ hx hl
      have hdv := hwf.ax.validDefault v _ hx hl
      refine ⟨⟨_, hx, by simp only; rw [defaultOf_eq hx]; exact hdv⟩, fun q hq => ?_⟩
      rcases List.mem_append.mp hq with hq | hq
      · simp only [defaultAxiom, List.mem_singleton] at hq
        subst hq
        exact ⟨_, hx, by simp only; omega⟩
      · exact k2 q hq

end

end Verif.DefaultAxioms
