import Verif.Lemmas.LandmarkCycles
import Verif.Lemmas.LandmarkLp

/- Admissibility of the cost-partitioning heuristics over landmarks; dead ends; the landmark sum; preferred operators. -/
namespace Verif.Landmarks
variable {t : Task} {g : Graph} {a b c : Bool} {es : List Event} {st : Status}

/-- every plan from a reachable state contains a relevant achiever of every future landmark -/
theorem achiever_on_plan (hg : g.Valid t) (hc : g.AchieversComplete t) (hi : Inv t g a b c es st) {s : State} {r0 : List (Nat × State)} (hr0 : t.Run t.init r0 s)
    {r : List (Nat × State)} (hr : t.GoalRun s r) {i : Nat} {n : Node} (hn : g[i]? = some n) (hd : n.landmark.isDerived = false) {p : Bool} (hp : (st.past s)[i]? = some p)
    (hf : (st.future s)[i]? = some true) : ∃ op : Nat, op ∈ r.map (·.1) ∧ (op : Int) ∈ getAchievers n.landmark p := by
  have hlt := (List.getElem?_eq_some_iff.mp hn).1
  have hnm := List.mem_of_getElem? hn
  cases p with
  | true =>
    obtain ⟨k, hk⟩ := hi.sound s i hlt hf r hr
    rw [L_eq hn] at hk
    have hk2 := (addedAt_right (r' := r) hr0 k).mpr hk
    have hkr : k < r.length := by
      have := holdsAt_big hk.1
      omega
    have hx : (r0 ++ r)[r0.length + k]? = some (r[k].1, r[k].2) := by
      rw [List.getElem?_append_right (by omega)]
      simp [hkr]
    have := hc.possible n hnm hd _ (goalRun_append hr0 hr) _ _ _ hx (by rwa [Nat.add_assoc])
    exact ⟨r[k].1, List.mem_map.mpr ⟨r[k], List.getElem_mem hkr, rfl⟩, this⟩
  | false =>
    obtain ⟨r1, ho, hnever⟩ := (hi.past s i hlt).mp hp
    have hr1 := ho.1
    have hplan := goalRun_append hr1 hr
    obtain ⟨k, hk⟩ := hg.landmark n hnm _ hplan
    obtain ⟨j, _, hj⟩ := exists_first hk
    rw [L_eq hn] at hnever
    have hjr : r1.length < j := by
      apply Nat.lt_of_not_le
      intro hle
      exact hnever j ((holdsAt_left hle).mp hj.1)
    obtain ⟨m, rfl⟩ : ∃ m, j = r1.length + m + 1 := ⟨j - r1.length - 1, by omega⟩
    have hmr : m < r.length := by
      have := holdsAt_big hj.1
      rw [List.length_append] at this
      omega
    have hx : (r1 ++ r)[r1.length + m]? = some (r[m].1, r[m].2) := by
      rw [List.getElem?_append_right (by omega)]
      simp [hmr]
    have := hc.first n hnm hd _ hplan _ _ _ hx hj
    exact ⟨r[m].1, List.mem_map.mpr ⟨r[m], List.getElem_mem hmr, rfl⟩, this⟩

theorem futs_valid (hi : Inv t g a b c es st) {N : Nat} (hw : g.WithoutAxioms N) (s : State) : ∀ as ∈ futs (st.past s) (st.future s) g.zipIdx, ValidIds N as := by
  intro as has
  obtain ⟨y, hy, hsel⟩ := List.mem_filterMap.mp has
  have hn := mem_zipIdx.mp hy
  have hnm := List.mem_of_getElem? hn
  unfold selAch at hsel
  split at hsel
  · simp only [Option.some.injEq] at hsel
    rw [← hsel]
    unfold getAchievers
    split
    · exact hw.possible y.1 hnm
    · exact hw.first y.1 hnm
  · cases hsel

theorem futs_hit (hg : g.Valid t) (hc : g.AchieversComplete t) (hi : Inv t g a b c es st) {N : Nat} (hw : g.WithoutAxioms N) {s : State} {r0 : List (Nat × State)}
    (hr0 : t.Run t.init r0 s) {r : List (Nat × State)} (hr : t.GoalRun s r) :
    ∀ as ∈ futs (st.past s) (st.future s) g.zipIdx, ∃ i : Nat, i ∈ (r.map (·.1)).toFinset ∧ (i : Int) ∈ as := by
  intro as has
  obtain ⟨y, hy, hsel⟩ := List.mem_filterMap.mp has
  have hn := mem_zipIdx.mp hy
  unfold selAch at hsel
  split at hsel
  · rename_i hf
    simp only [Option.some.injEq] at hsel
    have hlt : y.2 < (st.past s).length := by rw [(hi.len s).1]; exact zipIdx_lt hy
    have hp : (st.past s)[y.2]? = some (((st.past s)[y.2]?).getD false) := by
      rw [List.getElem?_eq_getElem hlt]; rfl
    obtain ⟨op, h1, h2⟩ := achiever_on_plan hg hc hi hr0 hr hn (hw.derived y.1 (List.mem_of_getElem? hn)) hp hf
    rw [hsel] at h2
    exact ⟨op, List.mem_toFinset.mpr h1, h2⟩
  · cases hsel

theorem sum_toFinset_le (f : Nat → Nat) : ∀ l : List Nat, ∑ i ∈ l.toFinset, f i ≤ (l.map f).sum
  | [] => by simp
  | x :: l => by
    rw [List.toFinset_cons, List.map_cons, List.sum_cons]
    by_cases h : x ∈ l.toFinset
    · rw [Finset.insert_eq_of_mem h]
      have := sum_toFinset_le f l
      omega
    · rw [Finset.sum_insert h]
      have := sum_toFinset_le f l
      omega

/-- the operator costs of a task (task_properties.cc `get_operator_costs`) -/
theorem opCost_costs (t : Task) (i : Nat) : ((t.ops.map (·.cost))[i]?).getD 0 = t.opCost i := by
  simp [Task.opCost]

theorem hit_cost (t : Task) (π : List Nat) : ∑ i ∈ π.toFinset, ((t.ops.map (·.cost))[i]?).getD 0 ≤ t.planCost π := by
  have e : (fun i : Nat => ((t.ops.map (·.cost))[i]?).getD 0) = t.opCost := funext (opCost_costs t)
  rw [Finset.sum_congr rfl (fun i _ => congrFun e i)]
  exact sum_toFinset_le _ _

theorem roundValue_le {x : Rat} {n : Nat} (h : x ≤ (n : Rat) + 1 / 100) : roundValue x ≤ n := by
  unfold roundValue
  rw [Rat.ceil_le_iff]
  have : ((n : Int) : Rat) = (n : Rat) := by norm_cast
  rw [this]
  linarith

theorem roundValue_nonneg {x : Rat} (h : 0 ≤ x) : 0 ≤ roundValue x := by
  by_contra hneg
  push Not at hneg
  have h1 : roundValue x ≤ -1 := by omega
  unfold roundValue at h1
  rw [Rat.ceil_le_iff] at h1
  push_cast at h1
  linarith

theorem children_lt (hg : g.Valid t) : ∀ n ∈ g, ∀ x ∈ n.children, x.1 < g.length := by
  intro n hn x hx
  obtain ⟨b, hb, _⟩ := hg.children n hn x.1 x.2 hx
  exact (List.getElem?_eq_some_iff.mp hb).1

/-- if the search for cycles finds a cycle, there are no plans from reachable states -/
theorem cycle_deadEnd (hg : g.Valid t) {s : State} {r0 : List (Nat × State)} (hr0 : t.Run t.init r0 s) (h : hasCycleOfNaturalOrderings g = some true) (r : List (Nat × State)) : ¬t.GoalRun s r := by
  obtain ⟨b, h1, h2⟩ := hasCycle_spec (children_lt hg)
  rw [h] at h1
  simp only [Option.some.injEq] at h1
  obtain ⟨x, hx⟩ := h2.mp h1.symm
  exact fun hr => cycle_unsolvable hg hx _ (goalRun_append hr0 hr)

theorem uniformHeuristic_spec (hg : g.Valid t) (hc : g.AchieversComplete t) (hi : Inv t g a b c es st) (hw : g.WithoutAxioms t.ops.length) {s : State} {r0 : List (Nat × State)}
    (hr0 : t.Run t.init r0 s) (useAlm : Bool) :
    (uniformHeuristic g (t.ops.map (·.cost)) useAlm st s = some .deadEnd ∧ ∀ r, ¬t.GoalRun s r) ∨
    (∃ x, uniformValue g (t.ops.map (·.cost)) useAlm (st.past s) (st.future s) = some (some x) ∧ uniformHeuristic g (t.ops.map (·.cost)) useAlm st s = some (.value (roundValue x)) ∧
      0 ≤ x ∧ x ≤ (((t.ops.map (·.cost)).sum : Nat) : Rat) ∧ ∀ r, t.GoalRun s r → x ≤ (t.planCost (r.map (·.1)) : Rat)) := by
  obtain ⟨bc, h1, h2⟩ := hasCycle_spec (children_lt hg)
  cases bc with
  | true =>
    left
    refine ⟨?_, cycle_deadEnd hg hr0 h1⟩
    unfold uniformHeuristic
    rw [h1]
  | false =>
    have hlen := hi.len s
    have hv := futs_valid hi hw s
    have hvl : ∀ as ∈ futs (st.past s) (st.future s) g.zipIdx, ValidIds (t.ops.map (·.cost)).length as := by simpa using hv
    rcases uniformValue_parts (useAlm := useAlm) hlen.1 hlen.2 hvl with ⟨k1, k2⟩ | ⟨_, _, _, _, _, _, _, _, k2⟩
    · left
      refine ⟨?_, fun r hr => ?_⟩
      · unfold uniformHeuristic
        rw [h1, k2]
      · obtain ⟨i, _, h⟩ := futs_hit hg hc hi hw hr0 hr [] k1
        cases h
    · right
      refine ⟨_, k2, ?_, (uniformValue_le hlen.1 hlen.2 hvl k2).1, ?_, fun r hr => ?_⟩
      · unfold uniformHeuristic
        rw [h1, k2]
      · have := (uniformValue_le hlen.1 hlen.2 hvl k2).2 (Finset.range t.ops.length) (fun as has => ?_)
        · refine le_trans this ?_
          have e : ∀ l : List Nat, ∑ i ∈ Finset.range l.length, (l[i]?).getD 0 = l.sum := by
            intro l
            induction l using List.reverseRecOn with
            | nil => simp
            | append_singleton l x ih =>
              rw [List.length_append, List.length_singleton, Finset.sum_range_succ, List.sum_append, List.sum_singleton, ← ih]
              congr 1
              · refine Finset.sum_congr rfl fun i hi => ?_
                rw [List.getElem?_append_left (Finset.mem_range.mp hi)]
              · simp
          have e' := e (t.ops.map (·.cost))
          rw [List.length_map] at e'
          rw [e']
        · cases as with
          | nil =>
            rcases uniformValue_parts (useAlm := useAlm) hlen.1 hlen.2 hvl with ⟨_, k3⟩ | ⟨k3, _⟩
            · rw [k2] at k3; cases k3
            · exact absurd has k3
          | cons a as =>
            obtain ⟨j, hj, hlt⟩ := (hv _ has).nat (List.mem_cons_self)
            exact ⟨j, Finset.mem_range.mpr hlt, by simp [hj]⟩
      · refine le_trans ((uniformValue_le hlen.1 hlen.2 hvl k2).2 _ (futs_hit hg hc hi hw hr0 hr)) ?_
        exact_mod_cast hit_cost t (r.map (·.1))

theorem optimalHeuristic_spec (hg : g.Valid t) (hc : g.AchieversComplete t) (hi : Inv t g a b c es st) (hw : g.WithoutAxioms t.ops.length) {s : State} {r0 : List (Nat × State)}
    (hr0 : t.Run t.init r0 s) (solver : LP.Program → Rat) :
    (optimalHeuristic g (t.ops.map (·.cost)) solver st s = some .deadEnd ∧ ∀ r, ¬t.GoalRun s r) ∨
    (∃ lp, optimalLp g (t.ops.map (·.cost)) (st.past s) (st.future s) = some (some lp) ∧ optimalHeuristic g (t.ops.map (·.cost)) solver st s = some (.value (roundValue (solver lp))) ∧
      lp.maximize = true ∧ lp.Solvable ∧ ∀ r, t.GoalRun s r → ∀ x, lp.Feasible x → lp.value x ≤ (t.planCost (r.map (·.1)) : Rat)) := by
  obtain ⟨bc, h1, h2⟩ := hasCycle_spec (children_lt hg)
  cases bc with
  | true =>
    left
    refine ⟨?_, cycle_deadEnd hg hr0 h1⟩
    unfold optimalHeuristic
    rw [h1]
  | false =>
    have hlen := hi.len s
    have hv := futs_valid hi hw s
    have hvl : ∀ as ∈ futs (st.past s) (st.future s) g.zipIdx, ValidIds (t.ops.map (·.cost)).length as := by simpa using hv
    rcases optimalLp_spec hlen.1 hlen.2 hvl with ⟨k1, k2⟩ | ⟨_, lp, k2, k3, _⟩
    · left
      refine ⟨?_, fun r hr => ?_⟩
      · unfold optimalHeuristic
        rw [h1, k2]
      · obtain ⟨i, _, h⟩ := futs_hit hg hc hi hw hr0 hr [] k1
        cases h
    · right
      refine ⟨lp, k2, ?_, k3, optimalLp_solvable hlen.1 hlen.2 hvl k2, fun r hr x hx => ?_⟩
      · unfold optimalHeuristic
        rw [h1, k2]
      · refine le_trans (optimalLp_le hlen.1 hlen.2 hvl k2 (futs_hit hg hc hi hw hr0 hr) hx) ?_
        exact_mod_cast hit_cost t (r.map (·.1))

/-! ### Landmark sum -/

theorem getMinCost_spec (t : Task) : ∀ (ids : List Int) (m m' : Nat), getMinCostOfAchievers t ids m = some m' → m' ≤ m ∧ (m' = m ∨ ∃ id ∈ ids, costOfId t id = some m') ∧ ∀ id ∈ ids, ∃ c, costOfId t id = some c ∧ m' ≤ c
  | [], m, m', h => by
    simp only [getMinCostOfAchievers, Option.some.injEq] at h
    subst h
    simp
  | id :: ids, m, m', h => by
    unfold getMinCostOfAchievers at h
    cases hc : costOfId t id with
    | none => rw [hc] at h; cases h
    | some x =>
      rw [hc] at h
      obtain ⟨h1, h2, h3⟩ := getMinCost_spec t ids _ _ h
      refine ⟨le_trans h1 (min_le_left _ _), ?_, ?_⟩
      · rcases h2 with h2 | ⟨j, hj, h2⟩
        · rcases min_choice m x with e | e
          · left; omega
          · right; exact ⟨id, by simp, by rw [hc, h2, e]⟩
        · exact Or.inr ⟨j, by simp [hj], h2⟩
      · intro j hj
        rcases List.mem_cons.mp hj with rfl | hj
        · exact ⟨x, hc, le_trans h1 (min_le_right _ _)⟩
        · exact h3 j hj

/-- what the first dead end of the loop says -/
theorem sumLoop_deadEnd (past future : Bits) : ∀ (cs : List (Nat × Nat)) (id h : Nat), sumLoop past future cs id h = some .deadEnd →
    ∃ k x p, cs[k]? = some x ∧ future[id + k]? = some true ∧ past[id + k]? = some p ∧ intMax ≤ (if p then x.2 else x.1)
  | [], id, h, hd => by simp [sumLoop] at hd
  | x :: cs, id, h, hd => by
    unfold sumLoop at hd
    have lift : (∃ h', sumLoop past future cs (id + 1) h' = some .deadEnd) → ∃ k y p, (x :: cs)[k]? = some y ∧ future[id + k]? = some true ∧ past[id + k]? = some p ∧ intMax ≤ (if p then y.2 else y.1) := by
      rintro ⟨h', hd⟩
      obtain ⟨k, y, p, h1, h2, h3, h4⟩ := sumLoop_deadEnd past future cs (id + 1) h' hd
      exact ⟨k + 1, y, p, by simpa using h1, by rw [← h2]; congr 1; omega, by rw [← h3]; congr 1; omega, h4⟩
    split at hd
    · cases hd
    · exact lift ⟨_, hd⟩
    · rename_i hf
      split at hd
      · cases hd
      · rename_i p hp
        by_cases hlt : (if p then x.2 else x.1) < intMax
        · rw [if_pos hlt] at hd
          by_cases hle : h + (if p then x.2 else x.1) ≤ intMax
          · rw [if_pos hle] at hd
            exact lift ⟨_, hd⟩
          · rw [if_neg hle] at hd
            cases hd
        · exact ⟨0, x, p, by simp, hf, hp, Nat.le_of_not_lt hlt⟩

theorem minOperatorCost_spec (t : Task) : ∀ o ∈ t.ops, getMinOperatorCost t ≤ o.cost := by
  have key : ∀ (l : List Operator) (m : Nat), l.foldl (fun m o => min m o.cost) m ≤ m ∧ ∀ o ∈ l, l.foldl (fun m o => min m o.cost) m ≤ o.cost := by
    intro l
    induction l with
    | nil => simp
    | cons x l ih =>
      intro m
      obtain ⟨h1, h2⟩ := ih (min m x.cost)
      refine ⟨le_trans h1 (min_le_left _ _), fun o ho => ?_⟩
      rcases List.mem_cons.mp ho with rfl | ho
      · exact le_trans h1 (min_le_right _ _)
      · exact h2 o ho
  exact (key t.ops intMax).2

theorem mapM_getElem {α β : Type} {f : α → Option β} : ∀ {l : List α} {l' : List β}, l.mapM f = some l' → ∀ {k : Nat} {a : α} {b : β}, l[k]? = some a → l'[k]? = some b → f a = some b
  | [], l', h, k, a, b, h1, h2 => by simp at h1
  | x :: l, l', h, k, a, b, h1, h2 => by
    rw [List.mapM_cons] at h
    cases hx : f x with
    | none => rw [hx] at h; cases h
    | some y =>
      cases hl : l.mapM f with
      | none => rw [hx, hl] at h; cases h
      | some ys =>
        rw [hx, hl] at h
        have : l' = y :: ys := by
          have h' : some (y :: ys) = some l' := h
          exact (Option.some.inj h').symm
        subst this
        cases k with
        | zero =>
          simp only [List.getElem?_cons_zero, Option.some.injEq] at h1 h2
          rw [← h1, ← h2, hx]
        | succ k =>
          simp only [List.getElem?_cons_succ] at h1 h2
          exact mapM_getElem hl h1 h2

/-- The landmark sum only reports dead ends for states without plans. -/
theorem sumHeuristic_deadEnd (hg : g.Valid t) (hc : g.AchieversComplete t) (hi : Inv t g a b c es st) (hcost : ∀ o ∈ t.ops, o.cost < intMax) {s : State} {r0 : List (Nat × State)}
    (hr0 : t.Run t.init r0 s) (h : sumHeuristic t g st s = some .deadEnd) (r : List (Nat × State)) : ¬t.GoalRun s r := by
  intro hr
  unfold sumHeuristic at h
  split at h
  · rename_i hcyc _
    exact cycle_deadEnd hg hr0 hcyc r hr
  · rename_i cs hcyc hcs
    obtain ⟨k, x, p, h1, h2, h3, h4⟩ := sumLoop_deadEnd _ _ cs 0 0 h
    rw [Nat.zero_add] at h2 h3
    have hk : k < g.length := by
      rw [← (hi.len s).2]; exact (List.getElem?_eq_some_iff.mp h2).1
    have hn : g[k]? = some g[k] := List.getElem?_eq_getElem hk
    -- the costs of the landmark
    have hx : landmarkCosts t g[k].landmark = some x := by
      exact mapM_getElem hcs hn h1
    have hstep : ∃ op, op ∈ r.map (·.1) := by
      obtain ⟨m, hm⟩ := hi.sound s k hk h2 r hr
      have := holdsAt_big hm.1
      match r, this with
      | y :: r, _ => exact ⟨y.1, by simp⟩
    have hops : ∀ op ∈ r.map (·.1), ∃ o, t.ops[op]? = some o ∧ o.cost < intMax := by
      intro op hop
      obtain ⟨u, hru, _⟩ := hr
      have : ∀ {s u : State} {r : List (Nat × State)}, t.Run s r u → ∀ op ∈ r.map (·.1), ∃ o, t.ops[op]? = some o := by
        intro s u r hrun
        induction hrun with
        | nil => simp
        | cons s i s' r u hst _ ih =>
          intro op hop
          rcases List.mem_cons.mp hop with rfl | hop
          · obtain ⟨o, ho, _⟩ := hst
            exact ⟨o, ho⟩
          · exact ih op hop
      obtain ⟨o, ho⟩ := this hru op hop
      exact ⟨o, ho, hcost o (List.mem_of_getElem? ho)⟩
    unfold landmarkCosts at hx
    by_cases hd : g[k].landmark.isDerived = true
    · rw [if_pos hd] at hx
      cases hx
      obtain ⟨op, hop⟩ := hstep
      obtain ⟨o, ho, hlt⟩ := hops op hop
      have := minOperatorCost_spec t o (List.mem_of_getElem? ho)
      have h4' : intMax ≤ getMinOperatorCost t := by simpa using h4
      omega
    · rw [if_neg hd] at hx
      have hd' : g[k].landmark.isDerived = false := by simpa using hd
      split at hx
      · rename_i m1 m2 e1 e2
        cases hx
        obtain ⟨op, hop, hach⟩ := achiever_on_plan hg hc hi hr0 hr hn hd' h3 h2
        obtain ⟨o, ho, hlt⟩ := hops op hop
        have hco : costOfId t (op : Int) = some o.cost := by
          unfold costOfId
          rw [if_neg (by omega)]
          simp [ho]
        cases p with
        | true =>
          obtain ⟨x, hx1, hx2⟩ := (getMinCost_spec t _ _ _ e2).2.2 _ hach
          rw [hco] at hx1
          cases hx1
          have h4' : intMax ≤ m2 := by simpa using h4
          omega
        | false =>
          obtain ⟨x, hx1, hx2⟩ := (getMinCost_spec t _ _ _ e1).2.2 _ hach
          rw [hco] at hx1
          cases hx1
          have h4' : intMax ≤ m1 := by simpa using h4
          omega
      · cases hx
  · cases h

/-! ### Preferred operators -/

theorem mem_landmarksAchievedByAtom {f : Fact} {id : Nat} : id ∈ landmarksAchievedByAtom g f ↔ ∃ n, g[id]? = some n ∧ n.landmark.type ≠ .conjunctive ∧ f ∈ n.landmark.atoms := by
  unfold landmarksAchievedByAtom
  simp only [List.mem_map, List.mem_filter, Bool.and_eq_true, bne_iff_ne, List.contains_iff_mem]
  constructor
  · rintro ⟨x, ⟨h1, h2, h3⟩, rfl⟩
    exact ⟨x.1, mem_zipIdx.mp h1, h2, h3⟩
  · rintro ⟨n, h1, h2, h3⟩
    exact ⟨(n, id), ⟨mem_zipIdx.mpr h1, h2, h3⟩, rfl⟩

theorem someFuture_spec {future : Bits} : ∀ (l : List Nat), (∀ i ∈ l, i < future.length) → ∃ b, someFuture future l = some b ∧ (b = true ↔ ∃ i ∈ l, future[i]? = some true)
  | [], _ => ⟨false, rfl, by simp⟩
  | i :: l, h => by
    obtain ⟨b, h1, h2⟩ := someFuture_spec l (fun j hj => h j (by simp [hj]))
    unfold someFuture
    rcases bit_cases (h i (by simp)) with e | e
    · rw [e]; exact ⟨true, rfl, by simp [e]⟩
    · rw [e]; exact ⟨b, h1, by rw [h2]; simp [e]⟩

theorem operatorIsPreferred_spec {s : State} (hs : t.ValidState s) {future : Bits} (hf : future.length = g.length) : ∀ (es : List Effect), (∀ e ∈ es, ∀ f ∈ e.conds, t.ValidFact f) →
    ∃ b, operatorIsPreferred g s future es = some b ∧ (b = true ↔ AchievesFuture g s future es)
  | [], _ => ⟨false, rfl, by simp [AchievesFuture]⟩
  | e :: es, h => by
    obtain ⟨b, h1, h2⟩ := operatorIsPreferred_spec hs hf es (fun x hx => h x (by simp [hx]))
    obtain ⟨b1, k1, k2⟩ := allTrue_spec hs e.conds (h e (by simp))
    obtain ⟨b2, m1, m2⟩ := someFuture_spec (future := future) (landmarksAchievedByAtom g e.fact) (fun i hi => by
      obtain ⟨n, hn, _⟩ := mem_landmarksAchievedByAtom.mp hi
      rw [hf]; exact (List.getElem?_eq_some_iff.mp hn).1)
    have m3 : b2 = true ↔ ∃ (i : Nat) (n : Node), g[i]? = some n ∧ n.landmark.type ≠ .conjunctive ∧ e.fact ∈ n.landmark.atoms ∧ future[i]? = some true := by
      rw [m2]
      constructor
      · rintro ⟨i, hi, hfi⟩
        obtain ⟨n, hn1, hn2, hn3⟩ := mem_landmarksAchievedByAtom.mp hi
        exact ⟨i, n, hn1, hn2, hn3, hfi⟩
      · rintro ⟨i, n, hn1, hn2, hn3, hfi⟩
        exact ⟨i, mem_landmarksAchievedByAtom.mpr ⟨n, hn1, hn2, hn3⟩, hfi⟩
    have hcons : AchievesFuture g s future (e :: es) ↔ (b1 = true ∧ b2 = true) ∨ b = true := by
      rw [k2, m3, h2]
      simp only [AchievesFuture, List.mem_cons, exists_eq_or_imp]
    unfold operatorIsPreferred
    rw [k1]
    cases b1 with
    | false => exact ⟨b, h1, by rw [hcons]; simp⟩
    | true =>
      simp only [m1]
      cases b2 with
      | false => exact ⟨b, h1, by rw [hcons]; simp⟩
      | true => exact ⟨true, rfl, by rw [hcons]; simp⟩

theorem generatePreferred_spec {s : State} (hwf : t.WF) (hs : t.ValidState s) {future : Bits} (hf : future.length = g.length) : ∀ (l : List Nat), (∀ i ∈ l, i < t.ops.length) →
    ∃ p, generatePreferredOperators t g s future l = some p ∧ p.Sublist l ∧ ∀ i ∈ l, (i ∈ p ↔ ∃ o, t.ops[i]? = some o ∧ AchievesFuture g s future o.effects)
  | [], _ => ⟨[], rfl, .slnil, by simp⟩
  | i :: l, h => by
    obtain ⟨p, h1, h2, h3⟩ := generatePreferred_spec hwf hs hf l (fun j hj => h j (by simp [hj]))
    have hlt : i < t.ops.length := h i (by simp)
    have ho : t.ops[i]? = some t.ops[i] := List.getElem?_eq_getElem hlt
    obtain ⟨b, k1, k2⟩ := operatorIsPreferred_spec (g := g) hs hf t.ops[i].effects (fun e he f hfc => hwf.effCond t.ops[i] (List.getElem_mem _) e he f hfc)
    unfold generatePreferredOperators
    rw [ho]
    simp only [k1, h1]
    have hi : (∃ o, t.ops[i]? = some o ∧ AchievesFuture g s future o.effects) ↔ b = true := by
      rw [ho, k2]
      simp
    cases b with
    | true =>
      refine ⟨i :: p, rfl, h2.cons_cons i, fun j hj => ?_⟩
      by_cases hji : j = i
      · subst hji
        simp [hi]
      · rcases List.mem_cons.mp hj with hj | hj
        · exact absurd hj hji
        · rw [← h3 j hj]
          simp [hji]
    | false =>
      refine ⟨p, rfl, h2.cons i, fun j hj => ?_⟩
      by_cases hjl : j ∈ l
      · exact h3 j hjl
      · rcases List.mem_cons.mp hj with rfl | hj
        · rw [hi]
          simp only [Bool.false_eq_true, iff_false]
          exact fun hm => hjl (h2.subset hm)
        · exact absurd hj hjl

end Verif.Landmarks
