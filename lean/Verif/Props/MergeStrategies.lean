import Verif.Lemmas.MergeSccs
import Verif.Lemmas.MergeTotalOrder
import Verif.Props.VariableOrderFinder

/-!
C71: merge strategies of merge-and-shrink.
-/
namespace Verif.Mas

/-- C71: whatever a strategy does, as long as it never fails: after `k` merges there are exactly `n - k` factors, with different numbers, and every variable belongs to exactly one of them. -/
theorem C71_views {σ : Type} (next : σ → FTS → Chosen ((Nat × Nat) × σ)) (st₀ : σ) (n : Nat) (Good : FTS → Prop) (h : AlwaysMerges next st₀ n Good)
    (k : Nat) (st : σ) (A : View) (hc : Calls next st₀ n Good k st A) : ViewOK n k A := by
  induction hc with
  | start => exact viewOK_start n
  | step k st st' A F p hc h2 hF hG hn ih =>
    obtain ⟨p', st'', e, e1, e2, e3⟩ := h k st A F hc h2 hF hG
    rw [hn] at e
    simp only [Chosen.ok.injEq, Prod.mk.injEq] at e
    obtain ⟨rfl, rfl⟩ := e
    exact viewOK_merge ih e1 e2 e3

/-- C71: a merge tree whose leaves are the variables (each one once) always yields two active factors. -/
theorem C71_precomputed (T : MergeTree) (n : Nat) (hT : T.leaves.Perm (List.range n)) : AlwaysMerges precomputedNext T n (fun _ => True) := by
  refine (always_of_invariant (fun _ st A => st.leaves.Perm (A.map (·.1))) (by rw [start_keys]; exact hT) ?_).1
  intro k st A F hI hA h2 hF _
  obtain ⟨p, T', -, e, h1, h2, h3, h4⟩ := precomputed_step hI hA h2 hF
  exact ⟨p, T', e, h1, h2, h3, h4⟩

theorem variableOrder_perm {t : Task} (hr : t.InRange) {τ : OrderFinder.OrderType} {shuffle : List Nat → List Nat} (hs : ∀ l, (shuffle l).Perm l) {vs : List Nat}
    (h : OrderFinder.variableOrder τ shuffle t = .ok vs) : vs.Perm (List.range t.vars.length) := by
  have lvl : ∀ τ, (τ = .level ∨ τ = .reverseLevel ∨ τ = .random) → OrderFinder.variableOrder τ shuffle t = .ok vs → vs.Perm (List.range t.vars.length) := by
    intro τ hτ h
    rw [OrderFinder.C70_level_orders t hr τ hτ shuffle hs] at h
    obtain rfl := OrderFinder.Result.ok.inj h
    rcases hτ with rfl | rfl | rfl
    · exact List.reverse_perm _
    · exact List.Perm.refl _
    · exact (hs _).trans (List.reverse_perm _)
  have cg : ∀ τ, (τ = .cgGoalLevel ∨ τ = .cgGoalRandom ∨ τ = .goalCgLevel) → OrderFinder.variableOrder τ shuffle t = .ok vs → vs.Perm (List.range t.vars.length) := by
    intro τ hτ h
    rcases OrderFinder.C70_causal_orders t hr τ hτ shuffle hs with ⟨vs', e, hp, -⟩ | ⟨e, -⟩
    · rw [h] at e
      obtain rfl := OrderFinder.Result.ok.inj e
      exact hp
    · rw [h] at e
      exact absurd e (by simp)
  cases τ
  · exact cg _ (by simp) h
  · exact cg _ (by simp) h
  · exact cg _ (by simp) h
  · exact lvl _ (by simp) h
  · exact lvl _ (by simp) h
  · exact lvl _ (by simp) h

/-- the state of a linear merge strategy after `k` merges -/
def LinearInv (vs : List Nat) (k : Nat) (st : MergeTree) (A : View) : Prop :=
  ∃ a, st = spine (.leaf a) (vs.drop (k + 1)) ∧ (a, vs.take (k + 1)) ∈ A ∧ ∀ w ∈ vs.drop (k + 1), (w, [w]) ∈ A

theorem linear_step {vs : List Nat} {n k : Nat} {st : MergeTree} {A : View} {F : FTS} (hp : vs.Perm (List.range n)) (hI : LinearInv vs k st A) (hA : ViewOK n k A) (h2 : 2 ≤ A.length)
    (hF : A.Shows F (n + k)) : ∃ a b st', precomputedNext st F = .ok ((a, b), st') ∧ a ≠ b ∧ vs[k + 1]? = some b ∧ (a, vs.take (k + 1)) ∈ A ∧ (b, [b]) ∈ A
      ∧ LinearInv vs (k + 1) st' (A.merge (n + k) (a, b)) := by
  obtain ⟨a, rfl, ha, hw⟩ := hI
  have hlen : vs.length = n := by rw [hp.length_eq, List.length_range]
  have hk : k + 1 < vs.length := by have := hA.len; omega
  have hd : vs.drop (k + 1) = vs[k + 1] :: vs.drop (k + 1 + 1) := List.drop_eq_getElem_cons hk
  have hb : (vs[k + 1], [vs[k + 1]]) ∈ A := hw _ (by rw [hd]; exact List.mem_cons_self ..)
  have hnd : vs.Nodup := hp.nodup_iff.mpr List.nodup_range
  have hndd : (vs[k + 1] :: vs.drop (k + 1 + 1)).Nodup := by rw [← hd]; exact (List.drop_sublist _ _).nodup hnd
  have ht0 : ∀ w ∈ vs.drop (k + 1), w ∉ vs.take (k + 1) := by
    intro w hw hw'
    have := List.take_append_drop (k + 1) vs
    rw [← this] at hnd
    exact (List.nodup_append.mp hnd).2.2 w hw' w hw rfl
  have h0 : vs[0] ∈ vs.take (k + 1) := by
    have : (vs.take (k + 1))[0]'(by rw [List.length_take]; omega) = vs[0] := by simp
    rw [← this]; exact List.getElem_mem _
  have hne : ∀ w ∈ vs.drop (k + 1), a ≠ w := by
    rintro w hwm rfl
    have e := mem_unique hA.nodup ha (hw a hwm)
    rw [e] at h0
    have hm : vs[0] ∈ vs.take (k + 1) := by rw [e]; exact h0
    exact ht0 a hwm (by rw [e]; simp)
  have hab : a ≠ vs[k + 1] := hne _ (by rw [hd]; exact List.mem_cons_self ..)
  refine ⟨a, vs[k + 1], spine (.leaf (n + k)) (vs.drop (k + 1 + 1)), ?_, hab, List.getElem?_eq_getElem hk, ha, hb, n + k, rfl, ?_, ?_⟩
  · unfold precomputedNext
    rw [hF.1, hd, nextMerge_spine]
    have a1 := (hF.2 a).mpr (List.mem_map.mpr ⟨_, ha, rfl⟩)
    have a2 := (hF.2 vs[k + 1]).mpr (List.mem_map.mpr ⟨_, hb, rfl⟩)
    simp only [a1, a2, Bool.and_self, if_true]
  · refine (mem_merge hA (p := (a, vs[k + 1])) ha hb).mpr (.inr ?_)
    rw [List.take_add_one (i := k + 1), List.getElem?_eq_getElem hk]
    rfl
  · intro w hwm
    have hwm' : w ∈ vs.drop (k + 1) := by rw [hd]; exact List.mem_cons_of_mem _ hwm
    refine (mem_merge hA (p := (a, vs[k + 1])) ha hb).mpr (.inl ⟨hw w hwm', fun e => hne w hwm' e.symm, fun e => ?_⟩)
    have e : w = vs[k + 1] := e
    exact (List.nodup_cons.mp hndd).1 (e ▸ hwm)

/-- C71: linear merge strategies.  For every variable order that does not end in an input error there is a merge tree; it never fails, and merge number `k + 1` combines the factor that consists of the first `k + 1` variables of the order with the next variable of the order. -/
theorem C71_linear (t : Task) (hr : t.InRange) (h1 : 1 ≤ t.vars.length) (τ : OrderFinder.OrderType) (shuffle : List Nat → List Nat) (hs : ∀ l, (shuffle l).Perm l)
    (vs : List Nat) (hv : OrderFinder.variableOrder τ shuffle t = .ok vs) :
    ∃ T, linearTree vs = some T ∧ AlwaysMerges precomputedNext T t.vars.length (fun _ => True)
      ∧ ∀ k st A F a b st', Calls precomputedNext T t.vars.length (fun _ => True) k st A → 2 ≤ A.length → A.Shows F (t.vars.length + k) → precomputedNext st F = .ok ((a, b), st') →
          (a, vs.take (k + 1)) ∈ A ∧ vs[k + 1]? = some b ∧ (b, [b]) ∈ A := by
  have hp := variableOrder_perm hr hs hv
  cases vs with
  | nil => rw [← List.length_range (n := t.vars.length), ← hp.length_eq] at h1; simp at h1
  | cons v ws =>
    have hvlt : v < t.vars.length := List.mem_range.mp (hp.mem_iff.mp (by simp))
    have hwlt : ∀ w ∈ ws, w < t.vars.length := fun w hw => List.mem_range.mp (hp.mem_iff.mp (by simp [hw]))
    have h0 : LinearInv (v :: ws) 0 (spine (.leaf v) ws) (View.start t.vars.length) :=
      ⟨v, rfl, List.mem_map.mpr ⟨v, List.mem_range.mpr hvlt, rfl⟩, fun w hw => List.mem_map.mpr ⟨w, List.mem_range.mpr (hwlt w (by simpa using hw)), rfl⟩⟩
    obtain ⟨hall, hinv⟩ := always_of_invariant (next := precomputedNext) (Good := fun _ => True) (LinearInv (v :: ws)) h0 (fun k st A F hI hA h2 hF _ => by
      obtain ⟨a, b, st', e, hne, -, ha, hb, hI'⟩ := linear_step hp hI hA h2 hF
      exact ⟨(a, b), st', e, hne, List.mem_map.mpr ⟨_, ha, rfl⟩, List.mem_map.mpr ⟨_, hb, rfl⟩, hI'⟩)
    refine ⟨spine (.leaf v) ws, rfl, hall, ?_⟩
    intro k st A F a b st' hc h2 hF hn
    obtain ⟨hI, hA⟩ := hinv k st A hc
    obtain ⟨a', b', st'', e, -, h3, h4, h5, -⟩ := linear_step hp hI hA h2 hF
    rw [hn] at e
    simp only [Chosen.ok.injEq, Prod.mk.injEq] at e
    obtain ⟨⟨rfl, rfl⟩, -⟩ := e
    exact ⟨h4, h3, h5⟩

/-- C71: score-based filtering.  If every scoring function gives every candidate a score of at most INF, the vectors of the scores are compared lexicographically: if a pair is chosen then its vector is smaller than those of all other candidates; if the planner exits with a critical error then two candidates have the same vector, and no vector is smaller.  Nothing else can happen. -/
theorem C71_selector (F : FTS) (cands : List (Nat × Nat)) (hne : cands ≠ []) (hnd : cands.Nodup) (gs : List (FTS → Nat × Nat → Option ℚ)) (vs : List (Nat × Nat → ℚ))
    (hs : List.Forall₂ (fun g v => ∀ c ∈ cands, g F c = some (v c) ∧ v c ≤ (inf : ℚ)) gs vs) :
    (∃ p ∈ cands, selectMerge (gs.map perPair) F cands = .ok p ∧ ∀ q ∈ cands, q ≠ p → List.Lex (· < ·) (vs.map (fun v => v p)) (vs.map (fun v => v q))) ∨
    (selectMerge (gs.map perPair) F cands = .criticalError ∧ ∃ p ∈ cands, ∃ q ∈ cands, p ≠ q ∧ vs.map (fun v => v p) = vs.map (fun v => v q)
      ∧ ∀ r ∈ cands, vs.map (fun v => v r) = vs.map (fun v => v p) ∨ List.Lex (· < ·) (vs.map (fun v => v p)) (vs.map (fun v => v r))) := by
  obtain ⟨rem, e, hrne, hsub, heq, hlex⟩ := filterLoop_lex gs vs cands hs hne
  rcases rem with _ | ⟨p, _ | ⟨q, rem⟩⟩
  · exact absurd rfl hrne
  · refine .inl ⟨p, hsub.subset (by simp), by unfold selectMerge; rw [e], fun q hq hqp => hlex p (by simp) q hq (by simpa using hqp)⟩
  · have hn := (List.nodup_cons.mp (hsub.nodup hnd)).1
    refine .inr ⟨by unfold selectMerge; rw [e], p, hsub.subset (by simp), q, hsub.subset (by simp), fun h => hn (by simp [h]), heq (by simp) p (by simp) q (by simp), fun r hr => ?_⟩
    by_cases hrm : r ∈ p :: q :: rem
    · exact .inl (heq (by simp) r hrm p (by simp))
    · exact .inr (hlex p (by simp) r hr hrm)

/-- C71: the stateless strategy with score-based filtering never fails if one of the scoring functions breaks ties. -/
theorem C71_stateless (fs : List Scoring) (n : Nat) (Good : FTS → Prop) (hf : ∀ f ∈ fs, f.Scores n Good) (hu : ∃ f ∈ fs, f.BreaksTies n Good) :
    AlwaysMerges (statelessNext fs) () n Good := by
  refine (always_of_invariant (fun _ _ _ => True) trivial ?_).1
  intro k st A F _ hA h2 hF hG
  have hn : F.factors.length < 2 * n := by rw [hF.1]; have := hA.len; omega
  have hact : ∀ i ∈ F.indices, F.active i = true := fun i hi => mem_indices.mp hi
  have hc : Candidates F (allPairs F.indices) := candidates_allPairs (indices_nodup F) (by rw [indices_length hA.nodup hF]; exact h2) hact
  obtain ⟨p, hp, e⟩ := selectMerge_ok hn hG hf hu hc
  refine ⟨p, (), by unfold statelessNext; rw [e], allPairs_ne (indices_nodup F) hp, ?_, ?_, trivial⟩
  · exact (hF.2 p.1).mp (hact _ (mem_allPairs hp).1)
  · exact (hF.2 p.2).mp (hact _ (mem_allPairs hp).2)

theorem lex_single {a b : ℚ} (h : List.Lex (· < ·) [a] [b]) : a < b := by
  cases h with
  | rel h => exact h
  | cons h => cases h

/-- C71: the total order.  For up to 32768 variables it gives every pair a score of at most INF and breaks all ties: of two candidates it prefers the one that comes first if pairs are ordered by their first and then by their second factor, in the order the options say. -/
theorem C71_total_order (n : Nat) (hn : n ≤ 32768) (ao : AtomicOrder) (po : ProductOrder) (atomicFirst : Bool) (perm : List Nat → List Nat) (hp : ∀ l, (perm l).Perm l) (Good : FTS → Prop) :
    ∃ order l, candidateOrder n ao po atomicFirst perm = some order ∧ TotalOrderOf n ao po atomicFirst l ∧ (totalOrder order).Scores n Good ∧ (totalOrder order).BreaksTies n Good
      ∧ ∀ F cands p, F.factors.length < 2 * n → Candidates F cands → selectMerge [totalOrder order] F cands = .ok p →
          p ∈ cands ∧ ∀ q ∈ cands, q ≠ p → PairBefore l (sortPair l p) (sortPair l q) := by
  obtain ⟨l, e, ho⟩ := candidateOrder_meaning (n := n) (ao := ao) (po := po) (af := atomicFirst) hp
  obtain ⟨hl, hmem, hlen⟩ := totalOrderOf_spec ho
  refine ⟨_, l, e, ho, totalOrder_scores hmem hlen hn Good, totalOrder_breaksTies hmem Good, ?_⟩
  intro F cands p hF hc hs
  have hin : ∀ c ∈ cands, c.1 ∈ l ∧ c.2 ∈ l ∧ c.1 ≠ c.2 := by
    intro c hcm
    obtain ⟨h1, h2, h3⟩ := hc.active c hcm
    have l1 := active_lt h2
    have l2 := active_lt h3
    exact ⟨(hmem _).mpr (by omega), (hmem _).mpr (by omega), h1⟩
  have hsc : ∀ c ∈ cands, ∃ s : ℚ, orderScore (allPairs l) c = some s ∧ s ≤ (inf : ℚ) :=
    fun c hcm => totalOrder_le hmem hlen hn hF (hc.active c hcm).1 (hc.active c hcm).2.1 (hc.active c hcm).2.2
  have hv : ∀ c ∈ cands, orderScore (allPairs l) c = some ((orderScore (allPairs l) c).getD 0) ∧ (orderScore (allPairs l) c).getD 0 ≤ (inf : ℚ) := by
    intro c hcm
    obtain ⟨s, es, hle⟩ := hsc c hcm
    rw [es]
    exact ⟨rfl, hle⟩
  have hsel : ∀ x, selectMerge [totalOrder (allPairs l)] F cands = x → selectMerge ([fun _ : FTS => orderScore (allPairs l)].map perPair) F cands = x := fun x h => h
  rcases C71_selector F cands hc.ne hc.nodup [fun _ => orderScore (allPairs l)] [fun c => (orderScore (allPairs l) c).getD 0] (.cons hv .nil) with ⟨p', hp', e', hmin⟩ | ⟨e', -⟩
  · rw [hsel _ hs] at e'
    obtain rfl := Chosen.ok.inj e'
    refine ⟨hp', fun q hq hqp => ?_⟩
    have hlex := hmin q hq hqp
    have hlt : (orderScore (allPairs l) p).getD 0 < (orderScore (allPairs l) q).getD 0 := lex_single hlex
    exact orderScore_lt hl (hv p hp').1 (hv q hq).1 (hin p hp') (hin q hq) hlt
  · rw [hsel _ hs] at e'
    exact absurd e' (by simp)

/-- C71: a single random candidate: every candidate gets a score, and one of them gets a smaller score than all others. -/
theorem C71_single_random (draw : FTS → List (Nat × Nat) → Nat) (hd : ∀ F cands, cands ≠ [] → draw F cands < cands.length) (n : Nat) (Good : FTS → Prop) :
    (singleRandom draw).Scores n Good ∧ (singleRandom draw).BreaksTies n Good := singleRandom_both hd

/-- C71: goal relevance: the score is 0 if one of the factors has a state that is not a goal state, and INF otherwise. -/
theorem C71_goal_relevance (n : Nat) (Good : FTS → Prop) : goalRelevance.Scores n Good ∧ ∀ (F : FTS) (c : Nat × Nat) (f g : Factor), F.factor c.1 = some f → F.factor c.2 = some g →
    ((false ∈ f.ts.goals ∨ false ∈ g.ts.goals) → goalScore F c = some 0) ∧ (¬ (false ∈ f.ts.goals ∨ false ∈ g.ts.goals) → goalScore F c = some (inf : ℚ)) := by
  refine ⟨goalRelevance_scores n Good, fun F c f g hf hg => ?_⟩
  rw [goalScore_spec hf hg]
  have key : ∀ l : List Bool, l.any (fun b => !b) = true ↔ false ∈ l := by
    intro l
    rw [List.any_eq_true]
    constructor
    · rintro ⟨b, hb, h⟩
      cases b
      · exact hb
      · exact absurd h (by simp)
    · intro h; exact ⟨false, h, rfl⟩
  constructor
  · intro h
    rw [if_pos (by rw [Bool.or_eq_true, key, key]; exact h)]
  · intro h
    rw [if_neg (by rw [Bool.or_eq_true, key, key]; exact h)]

/-- C71: DFP.  The score of two factors is the least maximum of the ranks of a label that is relevant for both (the rank of a label for a factor being the least goal distance of the target of one of its transitions), or INF if there is none below INF. -/
theorem C71_dfp (n : Nat) : dfp.Scores n DfpReady ∧ ∀ (F : FTS) (c : Nat × Nat) (f g : Factor), DfpReady F → F.factor c.1 = some f → F.factor c.2 = some g →
    ∃ w : Nat, dfpScore F c = some (w : ℚ) ∧ w ≤ inf
      ∧ (∀ l, ¬ Irrelevant f l → ¬ Irrelevant g l → ∃ a b, IsRank f l a ∧ IsRank g l b ∧ w ≤ max a b)
      ∧ (w = inf ∨ ∃ l a b, ¬ Irrelevant f l ∧ ¬ Irrelevant g l ∧ IsRank f l a ∧ IsRank g l b ∧ w = max a b) :=
  ⟨dfp_scores n, fun _ _ _ _ hF hf hg => dfpScore_spec hF hf hg⟩

/-- C71: merging along strongly connected components.  The strategy never fails.  The components with at least two variables are merged one after the other in the chosen order, each of them completely; before that is done no factor combines variables of different components, afterwards every factor is a union of components. -/
theorem C71_sccs (t : Task) (hr : t.InRange) (ord : SccOrder) (sort : List (List Nat) → List (List Nat))
    (hs : ∀ l, (sort l).Perm l ∧ (ord = .decreasing → (sort l).Pairwise (fun a b => b.length ≤ a.length)) ∧ (ord = .increasing → (sort l).Pairwise (fun a b => a.length ≤ b.length)))
    (fs : List Scoring) (Good : FTS → Prop) (hf : ∀ f ∈ fs, f.Scores t.vars.length Good) (hu : ∃ f ∈ fs, f.BreaksTies t.vars.length Good) :
    ∃ G L, OrderFinder.causalGraph t = some G ∧ createSccs sort ord G = some ⟨L, []⟩ ∧ BigSccs t L ∧ ord.Ordered t L
      ∧ AlwaysMerges (sccNext fs) ⟨L, []⟩ t.vars.length Good
      ∧ ∀ k st A, Calls (sccNext fs) ⟨L, []⟩ t.vars.length Good k st A → OneAfterTheOther L A ∧ SccsFirst t A := by
  obtain ⟨G, L, eG, eL, hL, ho⟩ := createSccs_spec hr hs
  obtain ⟨hall, hinv⟩ := always_of_invariant (next := sccNext fs) (Good := Good) (SccInv t L t.vars.length) (scc_start hr hL (bigSccs_lt hr hL))
    (fun k st A F hI hA h2 hF hG => scc_step hL hf hu hI hA h2 hF hG)
  exact ⟨G, L, eG, eL, hL, ho, hall, fun k st A hc => sccInv_meaning (hinv k st A hc).1⟩

/-! ### a concrete case -/

/-- a factor with two states for variable `v`: label `v` leads to the second state, label 3 too, from both states; the other labels have self-loops only -/
def exampleFactor (v : Nat) : Factor where
  ts := ⟨[some 2, some 2, some 2, some 1].set v (some 0),
    [⟨[v], [(0, 1)], 1⟩, ⟨[3], [(0, 1), (1, 1)], 1⟩, ⟨(List.range 3).filter (· ≠ v), [(0, 0), (1, 1)], 1⟩], [v != 2, true], some 0⟩
  repr := .leaf v 2 [some 0, some 1]
  dist := ⟨none, some [v, v]⟩

def exampleFts : FTS := ⟨⟨[some 1, some 1, some 1, some 1], 7⟩, [some (exampleFactor 0), some (exampleFactor 1), some (exampleFactor 2)], false, true⟩

theorem exampleFts_shows : (View.start 3).Shows exampleFts (3 + 0) := by
  refine ⟨rfl, fun i => ?_⟩
  rw [start_keys, List.mem_range]
  constructor
  · intro h; exact active_lt h
  · intro h
    have : i = 0 ∨ i = 1 ∨ i = 2 := by omega
    rcases this with rfl | rfl | rfl <;> rfl

theorem exampleFts_ready : DfpReady exampleFts := by
  intro i f hf
  have hi : i < 3 := active_lt (F := exampleFts) (i := i) (by unfold FTS.active; rw [hf]; rfl)
  have : i = 0 ∨ i = 1 ∨ i = 2 := by omega
  rcases this with rfl | rfl | rfl <;> obtain rfl := Option.some.inj hf <;> exact ⟨⟨_, rfl, by decide⟩, by decide, by decide, by decide⟩

-- DFP with goal relevance and a total order: only label 3 is relevant for two factors; factors 0 and 1 have the least ranks
example : mapAll (dfpScore exampleFts) [(0, 1), (0, 2), (1, 2)] = some [1, 2, 2] := by decide +kernel
example : mapAll (goalScore exampleFts) [(0, 1), (0, 2), (1, 2)] = some [(inf : ℚ), 0, 0] := by decide +kernel
example : candidateOrder 3 .level .oldToNew true id = some [(2, 1), (2, 0), (2, 3), (2, 4), (1, 0), (1, 3), (1, 4), (0, 3), (0, 4), (3, 4)] := by decide
example : statelessNext [goalRelevance, dfp, totalOrder (allPairs [2, 1, 0, 3, 4])] () exampleFts = .ok ((1, 2), ()) := by decide +kernel
example : statelessNext [dfp, goalRelevance] () exampleFts = .ok ((0, 1), ()) := by decide +kernel
example : statelessNext [goalRelevance] () exampleFts = .criticalError := by decide +kernel

-- the hypotheses of the theorems are satisfied
example : AlwaysMerges (statelessNext [goalRelevance, dfp, totalOrder (allPairs [2, 1, 0, 3, 4])]) () 3 DfpReady := by
  obtain ⟨order, l, e, -, h1, h2, -⟩ := C71_total_order 3 (by decide) .level .oldToNew true id (fun _ => List.Perm.refl _) DfpReady
  have ho : order = allPairs [2, 1, 0, 3, 4] := Option.some.inj (e.symm.trans (by decide))
  subst ho
  refine C71_stateless _ 3 DfpReady (fun f hf => ?_) ⟨_, by simp, h2⟩
  simp only [List.mem_cons, List.not_mem_nil, or_false] at hf
  rcases hf with rfl | rfl | rfl
  · exact (C71_goal_relevance 3 DfpReady).1
  · exact (C71_dfp 3).1
  · exact h1

-- variables 0 and 1 of the example task are on a cycle of the causal graph, so they are merged first
example : ∃ G, OrderFinder.causalGraph (OrderFinder.exampleTask false) = some G ∧ createSccs id .topological G = some ⟨[[0, 1]], []⟩ := by
  refine ⟨⟨[[1], [2], []], [[], [0], [1]], [[1], [0], []], [[1], [0, 2], []], [[1], [0], [1]]⟩, by decide, ?_⟩
  simp [createSccs, orderSccs, Sccs.computeMaximalSccs, List.range, List.range.loop, Sccs.outer, Sccs.dfs, Sccs.visit, Sccs.enter, Sccs.close, Sccs.upd, Int.min_def]
example : sccNext [goalRelevance, dfp, totalOrder (allPairs [2, 1, 0, 3, 4])] ⟨[[0, 1]], []⟩ exampleFts = .ok ((0, 1), ⟨[], []⟩) := by decide +kernel
example : linearTree [2, 1, 0] = some (.node (.node (.leaf 2) (.leaf 1)) (.leaf 0)) := rfl
example : precomputedNext (.node (.node (.leaf 2) (.leaf 1)) (.leaf 0)) exampleFts = .ok ((2, 1), .node (.leaf 3) (.leaf 0)) := rfl

end Verif.Mas
