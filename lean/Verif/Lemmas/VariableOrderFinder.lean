import Verif.Lemmas.SearchCausalGraph
import Verif.Spec.VariableOrders

namespace Verif.OrderFinder

theorem follows_nil (τ : OrderType) (t : Task) (base chosen : List Nat) : Follows τ t base chosen [] := by
  intro b v a h
  exact absurd h (by simp)

theorem follows_cons {τ : OrderType} {t : Task} {base chosen vs : List Nat} {v : Nat}
    (h : FirstChoice base chosen (first τ t chosen) (second τ t chosen) v) (hvs : Follows τ t base (chosen ++ [v]) vs) :
    Follows τ t base chosen (v :: vs) := by
  intro b w a e
  rcases b with _ | ⟨x, b⟩
  · simp only [List.nil_append, List.cons.injEq] at e
    rw [List.append_nil, ← e.1]; exact h
  · simp only [List.cons_append, List.cons.injEq] at e
    have := hvs b w a e.2
    rw [List.append_assoc] at this
    rw [← e.1]; exact this

theorem markAll_spec : ∀ (vs : List Nat) (marks : List Bool), (∀ v ∈ vs, v < marks.length) →
    ∃ marks', markAll vs marks = some marks' ∧ marks'.length = marks.length
      ∧ ∀ v : Nat, marks'[v]? = some true ↔ marks[v]? = some true ∨ (v ∈ vs ∧ v < marks.length) := by
  intro vs
  induction vs with
  | nil => intro marks _; exact ⟨marks, rfl, rfl, fun v => by simp⟩
  | cons w vs ih =>
    intro marks h
    have hw := h w (List.mem_cons_self ..)
    obtain ⟨m', e, hl, hm⟩ := ih (marks.set w true) (fun v hv => by rw [List.length_set]; exact h v (List.mem_cons_of_mem _ hv))
    refine ⟨m', by rw [markAll, if_pos hw]; exact e, by rw [hl, List.length_set], fun v => ?_⟩
    rw [hm v, List.length_set, List.getElem?_set]
    by_cases hvw : w = v
    · subst hvw; simp [hw]
    · simp only [if_neg hvw, List.mem_cons]
      grind

/-- the state of the finder after the variables in `chosen` have been returned -/
structure Inv (t : Task) (base chosen : List Nat) (F : Finder) : Prop where
  perm : base.Perm (List.range t.vars.length)
  sub : ∀ v ∈ chosen, v ∈ base
  nodup : chosen.Nodup
  rem : F.remaining = base.filter (fun v => decide (v ∉ chosen))
  goalLen : F.isGoal.length = t.vars.length
  goal : ∀ v : Nat, F.isGoal[v]? = some true ↔ t.GoalVar v
  predLen : F.isPred.length = t.vars.length
  pred : ∀ v : Nat, F.isPred[v]? = some true ↔ t.Connected chosen v

theorem Inv.lt {t : Task} {base chosen : List Nat} {F : Finder} (h : Inv t base chosen F) {v : Nat} : v ∈ base ↔ v < t.vars.length := by
  rw [h.perm.mem_iff, List.mem_range]

theorem findMarked_spec (marks : List Bool) : ∀ (l : List Nat) (i : Nat), (∀ v ∈ l, v < marks.length) →
    (findMarked marks i l = some none ∧ ∀ v ∈ l, marks[v]? ≠ some true) ∨
    ∃ pre v post, l = pre ++ v :: post ∧ findMarked marks i l = some (some (i + pre.length, v)) ∧ marks[v]? = some true
      ∧ ∀ u ∈ pre, marks[u]? ≠ some true := by
  intro l
  induction l with
  | nil => intro i _; exact .inl ⟨rfl, fun v hv => absurd hv (by simp)⟩
  | cons w l ih =>
    intro i h
    have hw := h w (List.mem_cons_self ..)
    rw [findMarked]
    cases hb : marks[w]? with
    | none => rw [List.getElem?_eq_none_iff] at hb; omega
    | some b =>
      cases b with
      | true => exact .inr ⟨[], w, l, rfl, by simp, hb, fun u hu => absurd hu (by simp)⟩
      | false =>
        rcases ih (i + 1) (fun v hv => h v (List.mem_cons_of_mem _ hv)) with ⟨e, hn⟩ | ⟨pre, v, post, e1, e2, e3, e4⟩
        · refine .inl ⟨e, fun v hv => ?_⟩
          rcases List.mem_cons.mp hv with rfl | hv
          · rw [hb]; simp
          · exact hn v hv
        · refine .inr ⟨w :: pre, v, post, by rw [e1]; rfl, ?_, e3, fun u hu => ?_⟩
          · simp only [e2, List.length_cons]
            rw [Nat.add_assoc, Nat.add_comm 1]
          · rcases List.mem_cons.mp hu with rfl | hu
            · rw [hb]; simp
            · exact e4 u hu

theorem selected_spec {t : Task} {G : Graph} (hG : Lists t.vars.length G.effToPre (fun u v => t.PreEff v u)) {base chosen : List Nat} {F : Finder}
    (hI : Inv t base chosen F) {pre post : List Nat} {v : Nat} (e : F.remaining = pre ++ v :: post) :
    ∃ F', selected G F pre.length v = .ok (v, F') ∧ Inv t base (chosen ++ [v]) F' ∧ F'.remaining = pre ++ post ∧ v ∉ chosen ∧ v ∈ base := by
  have hv : v ∈ F.remaining := by rw [e]; simp
  rw [hI.rem, List.mem_filter] at hv
  have hvb := hv.1
  have hvc : v ∉ chosen := by simpa using hv.2
  have hvn := hI.lt.mp hvb
  have hlen : v < G.effToPre.length := by rw [hG.1]; exact hvn
  have hrow := List.getElem?_eq_getElem hlen
  obtain ⟨-, hmem⟩ := hG.2.1 v _ hrow
  obtain ⟨marks, e1, e2, e3⟩ := markAll_spec G.effToPre[v] F.isPred (fun u hu => by
    rw [hI.predLen]; exact (hG.2.2 v u ((hmem u).mp hu)).2)
  have hrem : F.remaining.eraseIdx pre.length = pre ++ post := by
    rw [e, List.eraseIdx_append_of_length_le (Nat.le_refl _)]
    simp
  refine ⟨{ F with remaining := F.remaining.eraseIdx pre.length, isPred := marks }, ?_, ?_, hrem, hvc, hvb⟩
  · simp only [selected, selectNext, hrow, e1]
  · have hnd : F.remaining.Nodup := by rw [hI.rem]; exact (hI.perm.nodup_iff.mpr List.nodup_range).filter _
    refine ⟨hI.perm, ?_, ?_, ?_, hI.goalLen, hI.goal, e2.trans hI.predLen, ?_⟩
    · intro u hu
      rcases List.mem_append.mp hu with hu | hu
      · exact hI.sub u hu
      · rw [List.mem_singleton.mp hu]; exact hvb
    · rw [List.nodup_append]
      exact ⟨hI.nodup, by simp, fun a ha b hb hab => hvc (by rw [List.mem_singleton.mp hb] at hab; exact hab ▸ ha)⟩
    · show F.remaining.eraseIdx pre.length = _
      rw [hrem]
      have e4 : base.filter (fun u => decide (u ∉ chosen ++ [v])) = F.remaining.filter (fun u => decide (u ≠ v)) := by
        rw [hI.rem, List.filter_filter]
        congr 1
        funext u
        simp only [List.mem_append, List.mem_singleton, not_or, Bool.decide_and]
        rw [Bool.and_comm]
      rw [e4, e]
      rw [e] at hnd
      have hd := List.nodup_append.mp hnd
      have hd2 := List.nodup_cons.mp hd.2.1
      rw [List.filter_append, List.filter_cons_of_neg (by simp)]
      rw [List.filter_eq_self.mpr, List.filter_eq_self.mpr]
      · intro a ha
        simp only [ne_eq, decide_eq_true_eq]
        rintro rfl; exact hd2.1 ha
      · intro a ha
        simp only [ne_eq, decide_eq_true_eq]
        rintro rfl; exact hd.2.2 a ha a (List.mem_cons_self ..) rfl
    · intro u
      rw [e3 u, hI.pred u, hI.predLen]
      unfold Task.Connected
      constructor
      · rintro (⟨w, hw, hp⟩ | ⟨hu, _⟩)
        · exact ⟨w, List.mem_append_left _ hw, hp⟩
        · exact ⟨v, by simp, (hmem u).mp hu⟩
      · rintro ⟨w, hw, hp⟩
        rcases List.mem_append.mp hw with hw | hw
        · exact .inl ⟨w, hw, hp⟩
        · rw [List.mem_singleton.mp hw] at hp
          exact .inr ⟨(hmem u).mpr hp, (hG.2.2 v u hp).2⟩

theorem firstLeft_of_split {t : Task} {base chosen : List Nat} {F : Finder} (hI : Inv t base chosen F) {pre post : List Nat} {v : Nat}
    (e : F.remaining = pre ++ v :: post) {P : Nat → Prop} (hv : P v) (hpre : ∀ u ∈ pre, ¬ P u) : FirstLeft base chosen P v := by
  rw [hI.rem] at e
  obtain ⟨l1, l2, e1, e2, e3⟩ := List.filter_eq_append_iff.mp e
  obtain ⟨m1, m2, e4, e5, e6, e7⟩ := List.filter_eq_cons_iff.mp e3
  refine ⟨by simpa using e6, hv, l1 ++ m1, m2, by rw [e1, e4]; simp, fun u hu huc => ?_⟩
  rcases List.mem_append.mp hu with hu | hu
  · exact hpre u (by rw [← e2, List.mem_filter]; exact ⟨hu, by simpa using huc⟩)
  · exact absurd huc (by simpa using e5 u hu)

theorem rem_iff {t : Task} {base chosen : List Nat} {F : Finder} (hI : Inv t base chosen F) {v : Nat} :
    v ∈ F.remaining ↔ v ∈ base ∧ v ∉ chosen := by
  rw [hI.rem, List.mem_filter]; simp

theorem twoRuns_spec {t : Task} {G : Graph} (hG : Lists t.vars.length G.effToPre (fun u v => t.PreEff v u)) {base chosen : List Nat} {F : Finder}
    (hI : Inv t base chosen F) {m1 m2 : List Bool} {P Q : Nat → Prop} (l1 : m1.length = t.vars.length) (l2 : m2.length = t.vars.length)
    (h1 : ∀ v : Nat, m1[v]? = some true ↔ P v) (h2 : ∀ v : Nat, m2[v]? = some true ↔ Q v) :
    (∃ v F', twoRuns G F m1 m2 = .ok (v, F') ∧ Inv t base (chosen ++ [v]) F' ∧ F'.remaining.length + 1 = F.remaining.length
      ∧ FirstChoice base chosen P Q v) ∨
    (twoRuns G F m1 m2 = .inputError ∧ ∀ u ∈ base, u ∉ chosen → ¬ P u ∧ ¬ Q u) := by
  have hlt : ∀ v ∈ F.remaining, v < t.vars.length := fun v hv => hI.lt.mp ((rem_iff hI).mp hv).1
  unfold twoRuns
  rcases findMarked_spec m1 F.remaining 0 (fun v hv => by rw [l1]; exact hlt v hv) with ⟨e, hn⟩ | ⟨pre, v, post, e, e', hv, hpre⟩
  · rw [e]
    rcases findMarked_spec m2 F.remaining 0 (fun v hv => by rw [l2]; exact hlt v hv) with ⟨e', hn'⟩ | ⟨pre, v, post, es, e', hv, hpre⟩
    · rw [e']
      exact .inr ⟨rfl, fun u hu huc => ⟨fun h => hn u ((rem_iff hI).mpr ⟨hu, huc⟩) ((h1 u).mpr h),
        fun h => hn' u ((rem_iff hI).mpr ⟨hu, huc⟩) ((h2 u).mpr h)⟩⟩
    · rw [e']
      obtain ⟨F', e1, hI', hr, hvc, hvb⟩ := selected_spec hG hI es
      refine .inl ⟨v, F', by simpa using e1, hI', by rw [hr, es]; simp; omega, .inr ⟨fun u hu huc h => ?_, ?_⟩⟩
      · exact hn u ((rem_iff hI).mpr ⟨hu, huc⟩) ((h1 u).mpr h)
      · exact firstLeft_of_split hI es ((h2 v).mp hv) (fun u hu h => hpre u hu ((h2 u).mpr h))
  · rw [e']
    obtain ⟨F', e1, hI', hr, hvc, hvb⟩ := selected_spec hG hI e
    refine .inl ⟨v, F', by simpa using e1, hI', by rw [hr, e]; simp; omega, .inl ?_⟩
    exact firstLeft_of_split hI e ((h1 v).mp hv) (fun u hu h => hpre u hu ((h1 u).mpr h))

/-- every call of next() returns the right choice, or there is none and the planner exits -/
theorem next_spec {t : Task} {G : Graph} (hG : Lists t.vars.length G.effToPre (fun u v => t.PreEff v u)) (τ : OrderType) {base chosen : List Nat}
    {F : Finder} (hI : Inv t base chosen F) (hne : F.remaining ≠ []) :
    (∃ v F', next τ G F = .ok (v, F') ∧ Inv t base (chosen ++ [v]) F' ∧ F'.remaining.length + 1 = F.remaining.length
      ∧ FirstChoice base chosen (first τ t chosen) (second τ t chosen) v) ∨
    (next τ G F = .inputError ∧ ∀ u ∈ base, u ∉ chosen → ¬ first τ t chosen u ∧ ¬ second τ t chosen u) := by
  obtain ⟨w, ws, hw⟩ : ∃ w ws, F.remaining = w :: ws := by
    cases h : F.remaining with
    | nil => exact absurd h hne
    | cons w ws => exact ⟨w, ws, rfl⟩
  have simple : ∃ v F', selected G F 0 w = .ok (v, F') ∧ Inv t base (chosen ++ [v]) F' ∧ F'.remaining.length + 1 = F.remaining.length
      ∧ FirstChoice base chosen (fun _ => True) (fun _ => False) v := by
    obtain ⟨F', e1, hI', hr, hvc, hvb⟩ := selected_spec hG hI (pre := []) (by simpa using hw)
    refine ⟨w, F', e1, hI', by rw [hr, hw]; simp, .inl ?_⟩
    exact firstLeft_of_split hI (pre := []) (by simpa using hw) trivial (fun u hu => absurd hu (by simp))
  cases τ with
  | cgGoalLevel =>
    have e : next .cgGoalLevel G F = twoRuns G F F.isPred F.isGoal := by unfold next; rw [hw]
    rw [e]; exact twoRuns_spec hG hI hI.predLen hI.goalLen hI.pred hI.goal
  | cgGoalRandom =>
    have e : next .cgGoalRandom G F = twoRuns G F F.isPred F.isGoal := by unfold next; rw [hw]
    rw [e]; exact twoRuns_spec hG hI hI.predLen hI.goalLen hI.pred hI.goal
  | goalCgLevel =>
    have e : next .goalCgLevel G F = twoRuns G F F.isGoal F.isPred := by unfold next; rw [hw]
    rw [e]; exact twoRuns_spec hG hI hI.goalLen hI.predLen hI.goal hI.pred
  | random =>
    have e : next .random G F = selected G F 0 w := by unfold next; rw [hw]
    rw [e]; exact .inl simple
  | level =>
    have e : next .level G F = selected G F 0 w := by unfold next; rw [hw]
    rw [e]; exact .inl simple
  | reverseLevel =>
    have e : next .reverseLevel G F = selected G F 0 w := by unfold next; rw [hw]
    rw [e]; exact .inl simple

theorem rem_nil {t : Task} {base chosen : List Nat} {F : Finder} (hI : Inv t base chosen F) (h : F.remaining = []) : ∀ v < t.vars.length, v ∈ chosen := by
  intro v hv
  by_contra hc
  have := (rem_iff hI).mpr ⟨hI.lt.mpr hv, hc⟩
  rw [h] at this
  exact absurd this (by simp)

theorem collect_spec {t : Task} {G : Graph} (hG : Lists t.vars.length G.effToPre (fun u v => t.PreEff v u)) (τ : OrderType) {base : List Nat} :
    ∀ (k : Nat) (chosen : List Nat) (F : Finder), Inv t base chosen F → F.remaining.length ≤ k →
    (∃ vs, collect τ G k F = .ok vs ∧ Follows τ t base chosen vs ∧ (chosen ++ vs).Nodup ∧ ∀ v, v ∈ chosen ++ vs ↔ v < t.vars.length) ∨
    (collect τ G k F = .inputError ∧ ∃ vs, Follows τ t base chosen vs ∧ (chosen ++ vs).Nodup ∧ (∀ v ∈ chosen ++ vs, v ∈ base) ∧ (∃ u ∈ base, u ∉ chosen ++ vs)
      ∧ ∀ u ∈ base, u ∉ chosen ++ vs → ¬ first τ t (chosen ++ vs) u ∧ ¬ second τ t (chosen ++ vs) u) := by
  have done : ∀ (chosen : List Nat) (F : Finder), Inv t base chosen F → F.remaining = [] →
      Follows τ t base chosen [] ∧ (chosen ++ []).Nodup ∧ ∀ v, v ∈ chosen ++ [] ↔ v < t.vars.length := by
    intro chosen F hI h
    refine ⟨follows_nil _ _ _ _, by simpa using hI.nodup, fun v => ?_⟩
    rw [List.append_nil]
    exact ⟨fun hv => hI.lt.mp (hI.sub v hv), rem_nil hI h v⟩
  intro k
  induction k with
  | zero =>
    intro chosen F hI hk
    have h : F.remaining = [] := List.length_eq_zero_iff.mp (by omega)
    exact .inl ⟨[], by rw [collect, if_pos h], done chosen F hI h⟩
  | succ k ih =>
    intro chosen F hI hk
    rw [collect]
    cases hr : F.remaining with
    | nil => exact .inl ⟨[], rfl, done chosen F hI hr⟩
    | cons w ws =>
      simp only
      rcases next_spec hG τ hI (by rw [hr]; simp) with ⟨v, F', e, hI', hlen, hfc⟩ | ⟨e, hno⟩
      · rw [e]
        simp only
        rcases ih (chosen ++ [v]) F' hI' (by omega) with ⟨vs, e', hf, hnd, hall⟩ | ⟨e', vs, hf, hnd, hs, hu, hno⟩
        · rw [e']
          simp only [List.append_assoc, List.singleton_append] at hnd hall
          exact .inl ⟨v :: vs, rfl, follows_cons hfc hf, hnd, hall⟩
        · rw [e']
          simp only [List.append_assoc, List.singleton_append] at hnd hs hu hno
          exact .inr ⟨rfl, v :: vs, follows_cons hfc hf, hnd, hs, hu, hno⟩
      · rw [e]
        refine .inr ⟨rfl, [], follows_nil _ _ _ _, by simpa using hI.nodup, by simpa using hI.sub, ⟨w, ?_⟩, by simpa using hno⟩
        have := (rem_iff hI (v := w)).mp (by rw [hr]; simp)
        simpa using this

/-! ### relevance -/

theorem follows_relevant {τ : OrderType} (hτ : τ = .cgGoalLevel ∨ τ = .cgGoalRandom ∨ τ = .goalCgLevel) {t : Task} {base vs : List Nat}
    (h : Follows τ t base [] vs) : ∀ v ∈ vs, t.RelevantVar v := by
  have key : ∀ (n : Nat) (v : Nat), vs[n]? = some v → t.RelevantVar v := by
    intro n
    induction n using Nat.strong_induction_on with
    | _ n ih =>
      intro v hv
      obtain ⟨hn, e⟩ := List.getElem?_eq_some_iff.mp hv
      have es : vs = vs.take n ++ v :: vs.drop (n + 1) := by
        rw [← e, List.getElem_cons_drop, List.take_append_drop]
      have hfc := h _ _ _ es
      rw [List.nil_append] at hfc
      have hgc : t.GoalVar v ∨ t.Connected (vs.take n) v := by
        rcases hτ with rfl | rfl | rfl <;> rcases hfc with hl | ⟨_, hl⟩
        · exact .inr hl.2.1
        · exact .inl hl.2.1
        · exact .inr hl.2.1
        · exact .inl hl.2.1
        · exact .inl hl.2.1
        · exact .inr hl.2.1
      rcases hgc with ⟨g, hg, rfl⟩ | ⟨u, hu, hp⟩
      · exact ⟨g, hg, .refl⟩
      · obtain ⟨i, hi, ei⟩ := List.mem_take_iff_getElem.mp hu
        have hi2 : i < n ∧ i < vs.length := by omega
        obtain ⟨g, hg, hpath⟩ := ih i hi2.1 u (by rw [List.getElem?_eq_getElem hi2.2, ei])
        exact ⟨g, hg, .head hp hpath⟩
  intro v hv
  obtain ⟨n, hn, e⟩ := List.getElem_of_mem hv
  exact key n v (by rw [List.getElem?_eq_getElem hn, e])

/-- if neither variables of the goal nor connected variables are left, the variables left are not relevant -/
theorem left_irrelevant {t : Task} (hr : t.InRange) {chosen : List Nat} (h : ∀ u < t.vars.length, u ∉ chosen → ¬ t.GoalVar u ∧ ¬ t.Connected chosen u) :
    ∀ u < t.vars.length, u ∉ chosen → ¬ t.RelevantVar u := by
  rintro u hu huc ⟨g, hg, hpath⟩
  have hgc : g.var ∈ chosen := by
    by_contra hc
    exact (h g.var (hr.goal g hg) hc).1 ⟨g, hg, rfl⟩
  have : u ∈ chosen := by
    induction hpath using Relation.ReflTransGen.head_induction_on with
    | refl => exact hgc
    | @head x y hp _ ih =>
      by_contra hc
      have hx := PreEff_range hr hp
      by_cases hy : y ∈ chosen
      · exact (h _ hx.1 hc).2 ⟨_, hy, hp⟩
      · exact hy (ih hx.2 hy)
  exact huc this

/-! ### creation -/

theorem create_spec {t : Task} (hr : t.InRange) {τ : OrderType} {shuffle : List Nat → List Nat} (hs : ∀ l, (shuffle l).Perm l) :
    ∃ F, create τ shuffle t = some F ∧ Inv t F.remaining [] F ∧
      F.remaining = match τ with
        | .cgGoalRandom | .random => shuffle (List.range t.vars.length).reverse
        | .reverseLevel => List.range t.vars.length
        | .cgGoalLevel | .goalCgLevel | .level => (List.range t.vars.length).reverse := by
  obtain ⟨goals, e, hl, hm⟩ := markAll_spec (t.goal.map (·.var)) (List.replicate t.vars.length false) (by
    intro v hv
    rw [List.mem_map] at hv
    obtain ⟨g, hg, rfl⟩ := hv
    rw [List.length_replicate]; exact hr.goal g hg)
  rw [List.length_replicate] at hl hm
  have hrep : ∀ v : Nat, (List.replicate t.vars.length false)[v]? ≠ some true := by
    intro v h
    have := List.mem_of_getElem? h
    rw [List.mem_replicate] at this
    exact absurd this.2 (by simp)
  have mk : ∀ base : List Nat, base.Perm (List.range t.vars.length) → Inv t base [] ⟨base, goals, List.replicate t.vars.length false⟩ := by
    intro base hb
    refine ⟨hb, by simp, by simp, ?_, hl, fun v => ?_, by simp, fun v => ?_⟩
    · rw [List.filter_eq_self.mpr]; intro a _; simp
    · rw [hm v]
      unfold Task.GoalVar
      constructor
      · rintro (h | ⟨h, _⟩)
        · exact absurd h (hrep v)
        · rw [List.mem_map] at h
          exact h
      · rintro ⟨g, hg, rfl⟩
        exact .inr ⟨List.mem_map_of_mem hg, hr.goal g hg⟩
    · constructor
      · intro h; exact absurd h (hrep v)
      · rintro ⟨u, hu, _⟩; exact absurd hu (by simp)
  have hrev : (List.range t.vars.length).reverse.Perm (List.range t.vars.length) := List.reverse_perm _
  have hsh := (hs (List.range t.vars.length).reverse).trans hrev
  have h1 : shuffled .cgGoalRandom shuffle (List.range t.vars.length).reverse = some (shuffle (List.range t.vars.length).reverse) := if_pos (hs _)
  have h2 : shuffled .random shuffle (List.range t.vars.length).reverse = some (shuffle (List.range t.vars.length).reverse) := if_pos (hs _)
  cases τ
  · exact ⟨⟨(List.range t.vars.length).reverse, goals, _⟩, by simp only [create, shuffled, initialVars, e], mk _ hrev, rfl⟩
  · exact ⟨⟨shuffle (List.range t.vars.length).reverse, goals, _⟩, by simp only [create, h1, initialVars, e], mk _ hsh, rfl⟩
  · exact ⟨⟨(List.range t.vars.length).reverse, goals, _⟩, by simp only [create, shuffled, initialVars, e], mk _ hrev, rfl⟩
  · exact ⟨⟨shuffle (List.range t.vars.length).reverse, goals, _⟩, by simp only [create, h2, initialVars, e], mk _ hsh, rfl⟩
  · exact ⟨⟨(List.range t.vars.length).reverse, goals, _⟩, by simp only [create, shuffled, initialVars, e], mk _ hrev, rfl⟩
  · exact ⟨⟨List.range t.vars.length, goals, _⟩, by simp only [create, shuffled, initialVars, e], mk _ (List.Perm.refl _), rfl⟩

/-! ### the greedy pattern generator -/

theorem within_iff {a b limit : Nat} (hb : 1 ≤ b) : Pdb.isProductWithinLimit a b limit = true ↔ a * b ≤ limit := by
  unfold Pdb.isProductWithinLimit
  rw [Bool.or_eq_true, decide_eq_true_eq, decide_eq_true_eq, Nat.le_div_iff_mul_le (by omega)]
  constructor
  · rintro (h | h)
    · omega
    · exact h
  · exact .inr

theorem greedyLoop_spec {t : Task} {G : Graph} (hG : Lists t.vars.length G.effToPre (fun u v => t.PreEff v u)) (hd : ∀ d ∈ t.vars, 1 ≤ d.domain)
    {maxStates : Nat} {base : List Nat} :
    ∀ (k : Nat) (chosen : List Nat) (F : Finder), Inv t base chosen F → F.remaining.length ≤ k → numStates t chosen ≤ maxStates →
    ∃ vs, Follows .goalCgLevel t base chosen vs ∧ (chosen ++ vs).Nodup ∧ (∀ v ∈ chosen ++ vs, v < t.vars.length)
      ∧ numStates t (chosen ++ vs) ≤ maxStates ∧
    ((greedyLoop t maxStates G k F (numStates t chosen) chosen = .ok (chosen ++ vs) ∧ ((∀ v < t.vars.length, v ∈ chosen ++ vs) ∨
      ∃ v, v < t.vars.length ∧ FirstChoice base (chosen ++ vs) t.GoalVar (t.Connected (chosen ++ vs)) v ∧ maxStates < numStates t (chosen ++ vs ++ [v]))) ∨
    (greedyLoop t maxStates G k F (numStates t chosen) chosen = .inputError ∧ (∃ u < t.vars.length, u ∉ chosen ++ vs)
      ∧ ∀ u < t.vars.length, u ∉ chosen ++ vs → ¬ t.GoalVar u ∧ ¬ t.Connected (chosen ++ vs) u)) := by
  have hsnoc : ∀ (chosen : List Nat) (v : Nat) (d : Variable), t.vars[v]? = some d → numStates t (chosen ++ [v]) = numStates t chosen * d.domain := by
    intro chosen v d hv
    simp [numStates, hv]
  have stop : ∀ (chosen : List Nat) (F : Finder), Inv t base chosen F → numStates t chosen ≤ maxStates →
      Follows .goalCgLevel t base chosen [] ∧ (chosen ++ []).Nodup ∧ (∀ v ∈ chosen ++ [], v < t.vars.length)
      ∧ numStates t (chosen ++ []) ≤ maxStates := by
    intro chosen F hI hm
    refine ⟨follows_nil _ _ _ _, by simpa using hI.nodup, fun v hv => ?_, by simpa using hm⟩
    rw [List.append_nil] at hv
    exact hI.lt.mp (hI.sub v hv)
  intro k
  induction k with
  | zero =>
    intro chosen F hI hk hm
    have h : F.remaining = [] := List.length_eq_zero_iff.mp (by omega)
    obtain ⟨s1, s2, s3, s4⟩ := stop chosen F hI hm
    refine ⟨[], s1, s2, s3, s4, .inl ⟨by rw [greedyLoop, if_pos h, List.append_nil], .inl ?_⟩⟩
    rw [List.append_nil]; exact rem_nil hI h
  | succ k ih =>
    intro chosen F hI hk hm
    obtain ⟨s1, s2, s3, s4⟩ := stop chosen F hI hm
    rw [greedyLoop]
    cases hr : F.remaining with
    | nil =>
      refine ⟨[], s1, s2, s3, s4, .inl ⟨by simp only [List.append_nil], .inl ?_⟩⟩
      rw [List.append_nil]; exact rem_nil hI hr
    | cons w ws =>
      simp only
      rcases next_spec hG .goalCgLevel hI (by rw [hr]; simp) with ⟨v, F', e, hI', hlen, hfc⟩ | ⟨e, hno⟩
      · rw [e]
        simp only
        have hv : v < t.vars.length := hI.lt.mp (hI'.sub v (by simp))
        have hvd := List.getElem?_eq_getElem hv
        have h1 : 1 ≤ (t.vars[v]).domain := hd _ (List.getElem_mem hv)
        rw [hvd]
        simp only
        by_cases hp : numStates t chosen * (t.vars[v]).domain ≤ maxStates
        · rw [if_pos ((within_iff h1).mpr hp), ← hsnoc chosen v _ hvd]
          obtain ⟨vs, f1, f2, f3, f4, f5⟩ := ih (chosen ++ [v]) F' hI' (by omega) (by rw [hsnoc chosen v _ hvd]; exact hp)
          simp only [List.append_assoc, List.singleton_append] at f2 f3 f4 f5
          refine ⟨v :: vs, follows_cons hfc f1, f2, f3, f4, ?_⟩
          simpa only [List.append_assoc, List.cons_append, List.nil_append] using f5
        · rw [if_neg (fun h => hp ((within_iff h1).mp h))]
          refine ⟨[], s1, s2, s3, s4, .inl ⟨by rw [List.append_nil], .inr ⟨v, hv, ?_, ?_⟩⟩⟩
          · rw [List.append_nil]; exact hfc
          · rw [List.append_nil, hsnoc chosen v _ hvd]; omega
      · rw [e]
        refine ⟨[], s1, s2, s3, s4, .inr ⟨rfl, ⟨w, ?_⟩, ?_⟩⟩
        · have := (rem_iff hI (v := w)).mp (by rw [hr]; simp)
          rw [List.append_nil]
          exact ⟨hI.lt.mp this.1, this.2⟩
        · rw [List.append_nil]
          exact fun u hu huc => hno u (hI.lt.mpr hu) huc

end Verif.OrderFinder
