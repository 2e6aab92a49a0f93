import Verif.Lemmas.MasPerfect
import Verif.Props.Mas
import Verif.Props.MasSizes
import Mathlib.Algebra.BigOperators.Group.List.Basic

/-
Merge-and-shrink with exact bisimulation: the algorithm.
-/
namespace Verif.Mas
open Verif.AdaptiveQueue

/-! ### sizes -/

def weight : Option Factor → Nat
  | none => 1
  | some f => f.ts.size

/-- the product of the sizes of the factors -/
def weights (l : List (Option Factor)) : Nat := (l.map weight).prod

theorem weights_set : ∀ {l : List (Option Factor)} {i : Nat} {x : Option Factor}, l[i]? = some x → ∀ y, weights (l.set i y) * weight x = weights l * weight y
  | [], i, x, h, y => by simp at h
  | z :: l, 0, x, h, y => by
    simp only [List.getElem?_cons_zero, Option.some.injEq] at h
    subst h
    simp only [List.set_cons_zero, weights, List.map_cons, List.prod_cons]
    ring
  | z :: l, i + 1, x, h, y => by
    simp only [List.getElem?_cons_succ] at h
    have := weights_set h y
    simp only [List.set_cons_succ, weights, List.map_cons, List.prod_cons] at this ⊢
    rw [Nat.mul_assoc, this, Nat.mul_assoc]

theorem weights_pos : ∀ {l : List (Option Factor)}, (∀ (j : Nat) (f : Factor), l[j]? = some (some f) → 1 ≤ f.ts.size) → 1 ≤ weights l
  | [], _ => by simp [weights]
  | x :: l, h => by
    have h1 := weights_pos (l := l) (fun j f hf => h (j + 1) f (by simpa using hf))
    have h2 : 1 ≤ weight x := by
      cases x with
      | none => simp [weight]
      | some f => exact h 0 f rfl
    simp only [weights, List.map_cons, List.prod_cons] at h1 ⊢
    exact Nat.mul_pos h2 h1

/-! ### distances -/

/-- the goal distances of the factor are not less than costs of plans -/
def DistTrue (t : Task) (f : Factor) : Prop :=
  ∀ ds, f.dist.goal = some ds → ∀ (s : State) (a d : Nat), t.ValidState s → f.repr.value s = some (some a) → ds[a]? = some d → d < inf → ∃ π, t.SolvesFrom s π ∧ t.planCost π ≤ d

/-- there is at most one active factor -/
def Single (F : FTS) : Prop := ∀ j j' f f', F.factor j = some f → F.factor j' = some f' → j = j'

def Final (t : Task) (F : FTS) : Prop := Single F → ∀ j f, F.factor j = some f → DistTrue t f

theorem countP_single {α : Type} {p : α → Bool} : ∀ {l : List α}, l.countP p ≤ 1 → ∀ {i j : Nat} {a b : α}, l[i]? = some a → p a = true → l[j]? = some b → p b = true → i = j
  | [], _, i, j, a, b, h1, _, _, _ => by simp at h1
  | x :: l, h, 0, 0, a, b, _, _, _, _ => rfl
  | x :: l, h, 0, j + 1, a, b, h1, h2, h3, h4 => by
    simp only [List.getElem?_cons_zero, Option.some.injEq] at h1
    subst h1
    simp only [List.getElem?_cons_succ] at h3
    rw [List.countP_cons_of_pos h2] at h
    have : 0 < l.countP p := List.countP_pos_iff.mpr ⟨b, List.mem_of_getElem? h3, h4⟩
    omega
  | x :: l, h, i + 1, 0, a, b, h1, h2, h3, h4 => by
    simp only [List.getElem?_cons_zero, Option.some.injEq] at h3
    subst h3
    simp only [List.getElem?_cons_succ] at h1
    rw [List.countP_cons_of_pos h4] at h
    have : 0 < l.countP p := List.countP_pos_iff.mpr ⟨a, List.mem_of_getElem? h1, h2⟩
    omega
  | x :: l, h, i + 1, j + 1, a, b, h1, h2, h3, h4 => by
    simp only [List.getElem?_cons_succ] at h1 h3
    have : l.countP p ≤ 1 := by rw [List.countP_cons] at h; omega
    rw [countP_single this h1 h2 h3 h4]

theorem single_of_numActive {F : FTS} (h : F.numActive ≤ 1) : Single F := by
  intro j j' f f' h1 h2
  unfold FTS.factor at h1 h2
  rw [Option.join_eq_some_iff] at h1 h2
  exact countP_single h h1 rfl h2 rfl

/-- a path of the only factor -/
theorem Faithful.single {t : Task} {U : Bool} {F : FTS} (h : Faithful t F) (hI : FtsInv t U F) (hs : Single F) {j : Nat} {f : Factor} (hf : F.factor j = some f) {s : State} (hv : t.ValidState s) {a d : Nat} (ha : f.repr.value s = some (some a)) (hd : f.ts.ToGoal a d) :
    ∃ π, t.SolvesFrom s π ∧ t.planCost π ≤ d := by
  obtain ⟨lab, _, h2⟩ := hI
  have hok := (h2 j f hf).1.ok
  have honly : ∀ j' f', F.factor j' = some f' → j' = j ∧ f' = f := by
    intro j' f' hf'
    have := hs j' j f' f hf' hf
    subst this
    rw [hf] at hf'
    simp only [Option.some.injEq] at hf'
    exact ⟨rfl, hf'.symm⟩
  refine h s (fun _ => a) d hv (fun j' f' hf' => by rw [(honly j' f' hf').2]; exact ha) ?_
  obtain ⟨g, hg, hp⟩ := hd
  clear ha
  induction hp with
  | nil a => exact .goal _ (fun j' f' hf' => by rw [(honly j' f' hf').2]; exact hg)
  | cons a b u c k harc _ ih =>
    obtain ⟨i, hi, hne, ht, rfl⟩ := harc
    obtain ⟨l, hl, hc⟩ := hok.cons.least i hi hne
    refine .step _ (fun _ => b) l _ k hc (fun j' f' hf' => ?_) (ih hg)
    rw [(honly j' f' hf').2]
    exact ⟨i, hi, hl, ht⟩

theorem computeDistances_goal {H : StdHeap Nat} {L : Labels} {T : TS} (hT : TSOk L T) {ci cg : Bool} {d d' : Distances} (h : computeDistances H T ci cg d = some d') {ds : List Nat} (hds : d'.goal = some ds) :
    d.goal = some ds ∨ ∀ a x : Nat, ds[a]? = some x → x < inf → T.ToGoal a x := by
  unfold computeDistances at h
  split at h
  · simp only [Option.some.injEq] at h
    subst h
    simp only [Option.some.injEq] at hds
    subst hds
    right
    intro a x hx
    simp at hx
  · split at h
    · rename_i i g h1 h2
      simp only [Option.some.injEq] at h
      subst h
      rcases computeIf_some h2 hds with h3 | h3
      · right
        intro a x hx hlt
        rcases (C39_goal_below H hT.range h3).2 a x hx with ⟨h4, _⟩ | ⟨h4, _⟩
        · exact h4
        · rw [h4] at hlt
          exact absurd hlt (by simp [infinity, inf, Dijkstra.inf])
      · exact Or.inl h3
    · simp at h

theorem computeBoth_goal {H : StdHeap Nat} {L : Labels} {T : TS} (hT : TSOk L T) {ci cg : Bool} {d : Distances} (h : computeBoth H T ci cg = some d) {ds : List Nat} (hds : d.goal = some ds) : ∀ a x : Nat, ds[a]? = some x → x < inf → T.ToGoal a x := by
  unfold computeBoth at h
  split at h
  · rcases computeDistances_goal hT h hds with h1 | h1
    · simp at h1
    · exact h1
  · simp only [Option.some.injEq] at h
    subst h
    simp at hds

/-! ### abstraction -/

theorem Final.abstract {t : Task} {U : Bool} {H : StdHeap Nat} {F F' : FTS} (hfin : Final t F) (hI : FtsInv t U F) (hI' : FtsInv t U F') (hP' : Faithful t F') {i : Nat} {rel : List (List Nat)} (hne : ∀ c ∈ rel, c ≠ [])
    (hF : F.applyAbstraction H i rel = some F') : Final t F' := by
  obtain ⟨lab, _, h2⟩ := hI
  unfold FTS.applyAbstraction at hF
  cases hf : F.factor i with
  | none => rw [hf] at hF; simp at hF
  | some f =>
    rw [hf] at hF
    simp only at hF
    cases hf' : f.applyAbstraction H rel F.ci F.cg with
    | none => rw [hf'] at hF; simp at hF
    | some f' =>
      rw [hf'] at hF
      simp only [Option.some.injEq] at hF
      have hself : F'.factor i = some f' := by subst hF; exact factor_set_self hf
      have hother : ∀ j, j ≠ i → F'.factor j = F.factor j := by intro j hj; subst hF; exact factor_set_other hj
      intro hS j g hg
      have hji := hS j i g f' hg hself
      subst hji
      rw [hself] at hg
      simp only [Option.some.injEq] at hg
      subst hg
      have hSF : Single F := by
        intro p q x y hp hq
        by_cases e1 : p = j
        · by_cases e2 : q = j
          · rw [e1, e2]
          · subst e1; exact hS p q f' y hself (by rw [hother q e2]; exact hq)
        · by_cases e2 : q = j
          · subst e2; exact hS p q x f' (by rw [hother p e1]; exact hp) hself
          · exact hS p q x y (by rw [hother p e1]; exact hp) (by rw [hother q e2]; exact hq)
      have hdt := hfin hSF j f hf
      have hfi := (h2 j f hf).1
      have hflags := (h2 j f hf).2
      rcases applyAbstraction_factor hfi hne hf' with rfl | ⟨m, T, hm, hT, hT', hdist, hback⟩
      · exact hdt
      · obtain ⟨hTok, _⟩ := applyAbstraction_spec hm hfi.ok hT
        intro ds hds s a d hs ha hd hlt
        have hpath : f'.ts.ToGoal a d → ∃ π, t.SolvesFrom s π ∧ t.planCost π ≤ d := fun h => hP'.single hI' hS hself hs ha h
        unfold abstractDistances at hdist
        split at hdist
        · unfold Distances.applyAbstraction at hdist
          split at hdist
          · rename_i di dg e1 e2
            simp only [Option.some.injEq] at hdist
            rw [← hdist] at hds
            simp only at hds
            split at hds
            · rename_i hcg
              simp only [Option.some.injEq] at hds
              subst hds
              unfold newIf at e2
              rw [if_pos hcg] at e2
              cases hgo : f.dist.goal with
              | none => rw [hgo] at e2; simp at e2
              | some ds0 =>
                rw [hgo] at e2
                simp only at e2
                obtain ⟨a0, h3, h4⟩ := hback s a hs ha
                obtain ⟨c, h5, h6⟩ := (hm.2 a0 a).mp h4
                exact hdt ds0 hgo s a0 d hs h3 ((newDistances_some e2).2 a d c hd h5 a0 h6) hlt
            · simp at hds
          · rcases computeDistances_goal hTok hdist hds with h1 | h1
            · simp at h1
            · exact hpath (hT' ▸ h1 a d hd hlt)
          · simp at hdist
        · rename_i hflag
          simp only [Option.some.injEq] at hdist
          simp only [Bool.not_eq_true] at hflag
          rw [← hdist, (hflags hflag).2] at hds
          simp at hds

theorem abstract_weights {t : Task} {U : Bool} {H : StdHeap Nat} {F F' : FTS} (hI : FtsInv t U F) {i : Nat} {rel : List (List Nat)} (hne : ∀ c ∈ rel, c ≠ []) (hlen : ∀ f, F.factor i = some f → rel.length ≤ f.ts.size) (hpos : 1 ≤ weights F.factors)
    (hF : F.applyAbstraction H i rel = some F') : weights F'.factors ≤ weights F.factors ∧ ∀ j f', F'.factor j = some f' → ∃ f, F.factor j = some f ∧ f'.ts.size ≤ f.ts.size := by
  obtain ⟨lab, _, h2⟩ := hI
  unfold FTS.applyAbstraction at hF
  cases hf : F.factor i with
  | none => rw [hf] at hF; simp at hF
  | some f =>
    rw [hf] at hF
    simp only at hF
    cases hf' : f.applyAbstraction H rel F.ci F.cg with
    | none => rw [hf'] at hF; simp at hF
    | some f' =>
      rw [hf'] at hF
      simp only [Option.some.injEq] at hF
      have hsz : f'.ts.size ≤ f.ts.size := by
        rcases applyAbstraction_factor (h2 i f hf).1 hne hf' with rfl | ⟨m, T, hm, hT, hT', _, _⟩
        · exact Nat.le_refl _
        · obtain ⟨_, hsize, _⟩ := applyAbstraction_spec hm (h2 i f hf).1.ok hT
          rw [hT', hsize]
          exact hlen f hf
      have hfi := hf
      unfold FTS.factor at hfi
      rw [Option.join_eq_some_iff] at hfi
      constructor
      · have := weights_set hfi (some f')
        subst hF
        simp only [weight] at this ⊢
        have hfpos : 0 < f.ts.size := by
          rcases Nat.eq_zero_or_pos f.ts.size with h0 | h0
          · have h3 := weights_set hfi none
            simp only [weight, h0] at h3
            omega
          · exact h0
        have h3 : weights F.factors * f'.ts.size ≤ weights F.factors * f.ts.size := Nat.mul_le_mul_left _ hsz
        rw [← this] at h3
        exact Nat.le_of_mul_le_mul_right h3 hfpos
      · intro j g hg
        by_cases e : j = i
        · subst e
          subst hF
          rw [factor_set_self hf] at hg
          simp only [Option.some.injEq] at hg
          subst hg
          exact ⟨f, hf, hsz⟩
        · subst hF
          rw [factor_set_other e] at hg
          exact ⟨g, hg, Nat.le_refl _⟩

/-! ### shrinking by bisimulation -/

theorem bisim_shrink {L : Labels} {T : TS} {d : Distances} (hT : TSOk L T) (hd : DistOk L T d) (hgoal : ∃ a : Nat, T.goals[a]? = some true) {lim : AtLimit} {n : Nat} {rel : List (List Nat)} (h : shrinkBisimulation false lim T d n = some rel) (hn : T.size ≤ n) :
    IsPartition T.size rel ∧ rel.length ≤ T.size ∧ ∀ m, MapOf T.size rel m → Lifts T m := by
  cases hds : d.goal with
  | none => unfold shrinkBisimulation at h; rw [hds] at h; simp at h
  | some ds =>
    have hc := hd.goal ds hds
    have ok : ShrinkOk false T ds := ⟨hT.range, rfl, hc.length, hc.zero, hgoal, by simp⟩
    obtain ⟨rel', g, num, h1, h2, h3, _, h5, h6, h7⟩ := ok.result hds lim n
    rw [h] at h1
    simp only [Option.some.injEq] at h1
    subst h1
    refine ⟨h5, by rw [h3, ← h2.length]; exact h2.groups.num_le, fun m hm a a0 x ha ha0 => ?_⟩
    obtain ⟨c, e1, e2⟩ := (hm.2 a x).mp ha
    obtain ⟨c', e3, e4⟩ := (hm.2 a0 x).mp ha0
    rw [e1] at e3
    simp only [Option.some.injEq] at e3
    subst e3
    obtain ⟨k, hk, hk0⟩ := (h6 a a0).mp ⟨c, List.mem_of_getElem? e1, e2, e4⟩
    have hla : a < T.size := by rw [← h2.length]; exact (List.getElem?_eq_some_iff.mp hk).1
    obtain ⟨y, hy⟩ := ok.sigH_some hla
    have hy0 := hy
    rw [h2.same a a0 k hk hk0] at hy0
    refine ⟨fun hg => (sigH_goal hy).mp ((sigH_goal hy0).mpr hg), fun l b0 z ht hz => ?_⟩
    obtain ⟨i, hi, hl, ht⟩ := ht
    have hact : i ∈ T.infos.filter (·.active) := List.mem_filter.mpr ⟨hi, by
      simp only [LocalLabel.active, Bool.not_eq_true', List.isEmpty_eq_false_iff]
      exact List.ne_nil_of_mem hl⟩
    obtain ⟨p, hp⟩ := List.getElem?_of_mem hact
    obtain ⟨la, hla⟩ := ok.succSig_some h2.length a0
    have hlb := hla
    rw [← h7 hn a a0 k hk hk0] at hlb
    have hlt : b0 < g.length := by rw [h2.length]; exact (hT.range.trans i hi _ ht).2
    have hga := List.getElem?_eq_getElem hlt
    have hmem := (mem_succSig hla p _).mpr ⟨i, hp, b0, ht, hga, by simp [Counts]⟩
    obtain ⟨j, hj, b, e5, e6, _⟩ := (mem_succSig hlb p _).mp hmem
    rw [hp] at hj
    simp only [Option.some.injEq] at hj
    subst hj
    refine ⟨b, ⟨i, hi, hl, e5⟩, ?_⟩
    -- the same class
    obtain ⟨c2, e7, e8, e9⟩ := (h6 b b0).mpr ⟨_, e6, hga⟩
    obtain ⟨c3, e10, e11⟩ := (hm.2 b0 z).mp hz
    obtain ⟨q, hq⟩ := List.getElem?_of_mem e7
    have := (hm.2 b0 q).mpr ⟨c2, hq, e9⟩
    rw [hz] at this
    simp only [Option.some.injEq] at this
    subst this
    exact (hm.2 b z).mpr ⟨c2, hq, e8⟩

/-! ### sizes of the other operations -/

theorem mapping_weights {t : Task} {U : Bool} {F F' : FTS} (h : FtsInv t U F) {es : List (Nat × List Nat)} {i : Nat} (hv : ValidMap F.labels es)
    (hloc : ∀ j f, j ≠ i → F.factor j = some f → ∀ e ∈ es, ∃ x ∈ f.ts.infos, ∀ l ∈ e.2, l ∈ x.labels) (hF : F.applyLabelMapping es i = some F') : weights F'.factors = weights F.factors := by
  obtain ⟨lab, h1, h2⟩ := h
  unfold FTS.applyLabelMapping at hF
  cases hr : reduceLabels es F.labels with
  | none => rw [hr] at hF; simp at hF
  | some L' =>
    rw [hr] at hF
    simp only at hF
    cases hm : mapAll (reduceFactor L' es i) F.factors.zipIdx with
    | none => rw [hm] at hF; simp at hF
    | some fs =>
      rw [hm] at hF
      simp only [Option.some.injEq] at hF
      subst hF
      simp only [weights]
      congr 1
      apply List.ext_getElem?
      intro j
      rw [List.getElem?_map, List.getElem?_map]
      cases hj : F.factors[j]? with
      | none =>
        have : fs[j]? = none := by
          rw [List.getElem?_eq_none_iff, mapAll_length hm, List.length_zipIdx]
          exact List.getElem?_eq_none_iff.mp hj
        rw [this]
      | some o =>
        have hz : F.factors.zipIdx[j]? = some (o, j) := by rw [List.getElem?_zipIdx, hj]; simp
        obtain ⟨y, h3, h4⟩ := mapAll_getElem? hm hz
        rw [h3]
        cases o with
        | none =>
          simp only [reduceFactor, Option.some.injEq] at h4
          subst h4
          rfl
        | some f =>
          simp only [reduceFactor] at h4
          cases hT : f.ts.applyLabelReduction L' es (decide (j ≠ i)) with
          | none => rw [hT] at h4; simp at h4
          | some T' =>
            rw [hT] at h4
            simp only [Option.some.injEq] at h4
            subst h4
            have hfj : F.factor j = some f := by unfold FTS.factor; rw [hj]; rfl
            obtain ⟨_, h5, _⟩ := applyLabelReduction_spec h1.ok hv (h2 j f hfj).1.ok hr (fun hd => hloc j f (by simpa using hd) hfj) hT
            simp only [Option.map_some, weight, TS.size, h5]

theorem reduceAt_weights {t : Task} {U : Bool} {O : HashOrder} {F F' : FTS} (h : FtsInv t U F) {i : Nat} {b : Bool} (hF : F.reduceAt O i = some (F', b)) : weights F'.factors = weights F.factors := by
  unfold FTS.reduceAt at hF
  cases hb : F.combinable i with
  | none => rw [hb] at hF; simp at hF
  | some bs =>
    rw [hb] at hF
    simp only at hF
    split at hF
    · simp at hF
    · simp only [Option.some.injEq, Prod.mk.injEq] at hF
      rw [hF.1]
    · rename_i es _ hm
      simp only [Option.map_eq_some_iff, Prod.mk.injEq] at hF
      obtain ⟨F1, h1, rfl, _⟩ := hF
      obtain ⟨h2, h3⟩ := mapping_valid h.ok hb hm
      exact mapping_weights h h2 h3 h1

theorem merge_weights {t : Task} {U : Bool} {O : HashOrder} {H : StdHeap Nat} {F F' : FTS} (hI : FtsInv t U F) (hpos : 1 ≤ weights F.factors) {i j : Nat} (hF : F.merge O H i j = some F') : weights F'.factors = weights F.factors := by
  obtain ⟨lab, h1, h2⟩ := hI
  unfold FTS.merge at hF
  split at hF
  · simp at hF
  · rename_i hij
    cases hf : F.factor i with
    | none => rw [hf] at hF; simp at hF
    | some f =>
      cases hg : F.factor j with
      | none => rw [hf, hg] at hF; simp at hF
      | some g =>
        rw [hf, hg] at hF
        simp only at hF
        cases hm : mergeFactors O H F.labels F.ci F.cg f g with
        | none => rw [hm] at hF; simp at hF
        | some x =>
          rw [hm] at hF
          simp only [Option.some.injEq] at hF
          subst hF
          unfold mergeFactors at hm
          cases hT0 : f.ts.merge O F.labels g.ts with
          | none => rw [hT0] at hm; simp at hm
          | some T =>
            rw [hT0] at hm
            simp only at hm
            obtain ⟨_, hsize, _⟩ := merge_spec h1.ok (h2 i f hf).1.ok (h2 j g hg).1.ok hT0
            cases hd0 : computeBoth H T F.ci F.cg with
            | none => rw [hd0] at hm; simp at hm
            | some d =>
              rw [hd0] at hm
              simp only [Option.some.injEq] at hm
              subst hm
              unfold FTS.factor at hf hg
              rw [Option.join_eq_some_iff] at hf hg
              have e1 := weights_set hf none
              have e2 := weights_set (l := F.factors.set i none) (i := j) (x := some g) (by rw [List.getElem?_set_ne hij]; exact hg) none
              simp only [weight, Nat.mul_one] at e1 e2
              have e3 : weights ((F.factors.set i none).set j none ++ [some ⟨T, f.repr.newMerge g.repr, d⟩]) = weights ((F.factors.set i none).set j none) * T.size := by
                simp [weights, weight]
              rw [e3, hsize, Nat.mul_comm f.ts.size, ← Nat.mul_assoc, e2, e1]

/-- two factors -/
theorem weights_two {F : FTS} (hpos : 1 ≤ weights F.factors) {i j : Nat} (hij : i ≠ j) {f g : Factor} (hf : F.factor i = some f) (hg : F.factor j = some g) : f.ts.size * g.ts.size ≤ weights F.factors := by
  unfold FTS.factor at hf hg
  rw [Option.join_eq_some_iff] at hf hg
  have e1 := weights_set hf none
  have e2 := weights_set (l := F.factors.set i none) (i := j) (x := some g) (by rw [List.getElem?_set_ne hij]; exact hg) none
  simp only [weight, Nat.mul_one] at e1 e2
  rw [← e1, ← e2]
  rcases Nat.eq_zero_or_pos (weights ((F.factors.set i none).set j none)) with h0 | h0
  · rw [h0, Nat.zero_mul] at e2
    rw [← e2, Nat.zero_mul] at e1
    omega
  · rw [Nat.mul_assoc, Nat.mul_comm g.ts.size]
    exact Nat.le_mul_of_pos_left _ h0

/-! ### the algorithm -/

/-- the invariant of the algorithm; `D` is a bound on the number of states -/
structure Inv (t : Task) (U : Bool) (D : Nat) (F : FTS) : Prop where
  fts : FtsInv t U F
  faithful : Faithful t F
  size : weights F.factors ≤ D

section
variable {t : Task} (hwf : t.WF) {U : Bool} {D : Nat} {u : State} (hu : Live t U u) (hug : allHold t.goal u)

include hu hug in
theorem FtsInv.goal_exists {F : FTS} (h : FtsInv t U F) {j : Nat} {f : Factor} (hf : F.factor j = some f) : ∃ a : Nat, f.ts.goals[a]? = some true := by
  obtain ⟨lab, _, h2⟩ := h
  obtain ⟨a, ha⟩ := (h2 j f hf).1.live u hu
  exact ⟨a, (h2 j f hf).1.goal u a hu.1 hug ha⟩

include hu hug in
theorem FtsInv.weights_pos {F : FTS} (h : FtsInv t U F) : 1 ≤ weights F.factors := by
  refine Mas.weights_pos (fun j f hf => ?_)
  obtain ⟨a, ha⟩ := h.goal_exists hu hug (j := j) (f := f) (by unfold FTS.factor; rw [hf]; rfl)
  have := (List.getElem?_eq_some_iff.mp ha).1
  unfold TS.size
  omega

theorem Inv.reduceIf {O : HashOrder} {c : Config} {F F' : FTS} {b : Reduction → Bool} {n : Nat} {pair : Nat × Nat} (h : Inv t U D F) (hF : reduceIf O c b n pair F = some F') : Inv t U D F' := by
  unfold Mas.reduceIf at hF
  split at hF
  · simp only [Option.some.injEq] at hF
    exact hF ▸ h
  · split at hF
    · refine reduce_closed (P := Inv t U D) (fun {F F' i b} hP hr => ⟨hP.fts.reduceAt hr, hP.faithful.reduceAt hP.fts hr, ?_⟩) h hF
      rw [reduceAt_weights hP.fts hr]
      exact hP.size
    · simp only [Option.some.injEq] at hF
      exact hF ▸ h

include hwf hu hug in
theorem Inv.shrinkFactor {H : StdHeap Nat} {lim : AtLimit} {S : TS → Distances → Nat → Option (List (List Nat))} (hS : ∀ T d n, S T d n = shrinkBisimulation false lim T d n) {F F' : FTS} (h : Inv t U D F) {i n thr : Nat} (hn : ∀ f, F.factor i = some f → f.ts.size ≤ n)
    (hF : F.shrinkFactor H S i n thr = some F') : Inv t U D F' ∧ ∀ j f', F'.factor j = some f' → ∃ f, F.factor j = some f ∧ f'.ts.size ≤ f.ts.size := by
  unfold FTS.shrinkFactor at hF
  cases hf : F.factor i with
  | none => rw [hf] at hF; simp at hF
  | some f =>
    rw [hf] at hF
    simp only at hF
    split at hF
    · cases hrel : S f.ts f.dist n with
      | none => rw [hrel] at hF; simp at hF
      | some rel =>
        rw [hrel] at hF
        simp only at hF
        rw [hS] at hrel
        obtain ⟨lab, h1, h2⟩ := id h.fts
        have hfi := (h2 i f hf).1
        obtain ⟨h3, h4, h5⟩ := bisim_shrink hfi.ok hfi.dist (h.fts.goal_exists hu hug hf) hrel (hn f hf)
        have h6 := h.fts.shrink hwf hf h3.nonempty h3.covers hF
        have h7 := h.faithful.abstract h.fts h3.nonempty (fun g hg m hm => by
          rw [hf] at hg
          simp only [Option.some.injEq] at hg
          subst hg
          exact h5 m hm) hF
        obtain ⟨h8, h9⟩ := abstract_weights h.fts h3.nonempty (fun g hg => by
          rw [hf] at hg
          simp only [Option.some.injEq] at hg
          subst hg
          exact h4) (h.fts.weights_pos hu hug) hF
        exact ⟨⟨h6, h7, Nat.le_trans h8 h.size⟩, h9⟩
    · simp only [Option.some.injEq] at hF
      subst hF
      exact ⟨h, fun j f' hf' => ⟨f', hf', Nat.le_refl _⟩⟩

include hwf hu hug in
theorem Inv.shrinkStep {H : StdHeap Nat} {lim : AtLimit} {S1 S2 : TS → Distances → Nat → Option (List (List Nat))} (hS1 : ∀ T d n, S1 T d n = shrinkBisimulation false lim T d n) (hS2 : ∀ T d n, S2 T d n = shrinkBisimulation false lim T d n) {F F' : FTS}
    (h : Inv t U D F) {m b thr i j : Nat} (hij : i ≠ j) (hm : D ≤ m) (hb : D ≤ b) (hF : F.shrinkStep H S1 S2 m b thr i j = some F') : Inv t U D F' := by
  have hpos := h.fts.weights_pos hu hug
  unfold FTS.shrinkStep at hF
  split at hF
  · rename_i f g hf hg
    have hprod := weights_two hpos hij hf hg
    obtain ⟨a, ha⟩ := h.fts.goal_exists hu hug hf
    obtain ⟨a', ha'⟩ := h.fts.goal_exists hu hug hg
    have hf1 : 1 ≤ f.ts.size := by have := (List.getElem?_eq_some_iff.mp ha).1; unfold TS.size; omega
    have hg1 : 1 ≤ g.ts.size := by have := (List.getElem?_eq_some_iff.mp ha').1; unfold TS.size; omega
    have hle1 : f.ts.size ≤ f.ts.size * g.ts.size := Nat.le_mul_of_pos_right _ hg1
    have hle2 : g.ts.size ≤ f.ts.size * g.ts.size := Nat.le_mul_of_pos_left _ hf1
    have hsz := h.size
    obtain ⟨n1, n2, e1, _, _, _, e5⟩ := C57_targets hf1 hg1 (before := b) (after := m) (by omega) (by omega)
    obtain ⟨rfl, rfl⟩ := e5 (by omega) (by omega) (by omega)
    rw [e1] at hF
    simp only at hF
    split at hF
    · simp at hF
    · rename_i F1 h1
      obtain ⟨h2, h3⟩ := h.shrinkFactor hwf hu hug hS1 (fun g' hg' => by
        rw [hf] at hg'
        simp only [Option.some.injEq] at hg'
        rw [hg']) h1
      refine (h2.shrinkFactor hwf hu hug hS2 (fun g' hg' => ?_) hF).1
      obtain ⟨g0, h4, h5⟩ := h3 j g' hg'
      rw [hg] at h4
      simp only [Option.some.injEq] at h4
      rw [h4]
      exact h5
  · simp at hF

include hwf hu hug in
theorem Inv.merge {O : HashOrder} {H : StdHeap Nat} {F F' : FTS} (h : Inv t U D F) {i j : Nat} (hF : F.merge O H i j = some F') : Inv t U D F' ∧ Final t F' := by
  have h1 := h.fts.merge hwf hF
  have h2 := h.faithful.merge h.fts hF
  refine ⟨⟨h1, h2, by rw [merge_weights h.fts (h.fts.weights_pos hu hug) hF]; exact h.size⟩, ?_⟩
  intro hS p y hy ds hds s a d hs ha hd hlt
  refine h2.single h1 hS hy hs ha ?_
  -- the factor is the new one
  unfold FTS.merge at hF
  split at hF
  · simp at hF
  · cases hf : F.factor i with
    | none => rw [hf] at hF; simp at hF
    | some f =>
      cases hg : F.factor j with
      | none => rw [hf, hg] at hF; simp at hF
      | some g =>
        rw [hf, hg] at hF
        simp only at hF
        cases hm : mergeFactors O H F.labels F.ci F.cg f g with
        | none => rw [hm] at hF; simp at hF
        | some x =>
          rw [hm] at hF
          simp only [Option.some.injEq] at hF
          have hnew : F'.factor F.factors.length = some x := by
            subst hF
            unfold FTS.factor
            simp only
            rw [List.getElem?_append_right (by simp)]
            simp
          have := hS p _ y x hy hnew
          subst this
          rw [hnew] at hy
          simp only [Option.some.injEq] at hy
          subst hy
          obtain ⟨lab, l1, l2⟩ := h1
          have hxok := (l2 _ x hnew).1.ok
          unfold mergeFactors at hm
          cases hT0 : f.ts.merge O F.labels g.ts with
          | none => rw [hT0] at hm; simp at hm
          | some T =>
            rw [hT0] at hm
            simp only at hm
            cases hd0 : computeBoth H T F.ci F.cg with
            | none => rw [hd0] at hm; simp at hm
            | some d' =>
              rw [hd0] at hm
              simp only [Option.some.injEq] at hm
              subst hm
              exact computeBoth_goal hxok hd0 hds a d hd hlt

include hwf hu hug in
theorem Inv.pruneIf {H : StdHeap Nat} {c : Config} (hU : c.unreachable = U) {F F' : FTS} (h : Inv t U D F) (hfin : Final t F) {i : Nat} (hF : pruneIf H c F i = some F') : Inv t U D F' ∧ Final t F' := by
  unfold Mas.pruneIf at hF
  split at hF
  · have h1 := h.fts.prune hwf (fun e => by rw [← hU]; exact e) hF
    have h2 := h.faithful.prune h.fts hF
    unfold FTS.pruneStep at hF
    split at hF
    · simp at hF
    · rename_i f hf
      split at hF
      · simp at hF
      · rename_i ks hks
        have hne : ∀ c ∈ (((List.range f.ts.size).filter (fun s => ks[s]? == some true)).map (fun s => [s])), c ≠ [] := by
          intro c hc
          obtain ⟨x, _, rfl⟩ := List.mem_map.mp hc
          simp
        obtain ⟨h3, _⟩ := abstract_weights h.fts hne (fun g hg => by
          rw [hf] at hg
          simp only [Option.some.injEq] at hg
          subst hg
          rw [List.length_map]
          refine Nat.le_trans (List.length_filter_le _ _) ?_
          simp) (h.fts.weights_pos hu hug) hF
        exact ⟨⟨h1, h2, Nat.le_trans h3 h.size⟩, hfin.abstract h.fts h1 h2 hne hF⟩
  · simp only [Option.some.injEq] at hF
    exact hF ▸ ⟨h, hfin⟩

end

/-- a factor of a solvable task is not recognised as unsolvable -/
theorem FtsInv.solvable {t : Task} (hwf : t.WF) {U : Bool} (hsol : Live t U t.init) {F : FTS} (h : FtsInv t U F) {i : Nat} {f : Factor} (hf : F.factor i = some f) : f.solvable ≠ some false := by
  obtain ⟨lab, h1, h2⟩ := h
  have hI := (h2 i f hf).1
  obtain ⟨a, ha⟩ := hI.live _ hsol
  have hin := hI.init
  rw [ha] at hin
  simp only [Option.some.injEq] at hin
  have hfin := (hI.finite hwf h1 hsol ha).1
  unfold Factor.solvable
  rw [← hin]
  simp only
  cases hd : f.dist.goal with
  | none => simp
  | some ds =>
    simp only
    rw [hd] at hfin
    intro hc
    apply hfin
    simp only [isInf]
    cases hda : ds[a]? with
    | none => rw [hda] at hc; simp at hc
    | some x =>
      rw [hda] at hc
      simp only [Option.map_some, Option.some.injEq, decide_eq_false_iff_not, not_not] at hc
      simp [hc]

section
variable {t : Task} (hwf : t.WF) {c : Config} {D : Nat} (hsol : Live t c.unreachable t.init) {u : State} (hu : Live t c.unreachable u) (hug : allHold t.goal u)
  {lim : AtLimit} (hS1 : ∀ k T d n, c.shrink1 k T d n = shrinkBisimulation false lim T d n) (hS2 : ∀ k T d n, c.shrink2 k T d n = shrinkBisimulation false lim T d n)
  (hm : D ≤ c.maxStates) (hb : D ≤ c.before) (hexp : ∀ k p, c.expired k p = false) {O : HashOrder} {H : StdHeap Nat}

include hwf hsol hu hug hS1 hS2 hm hb hexp in
theorem Inv.iteration {F F' : FTS} {n k : Nat} {b : Bool} (h : Inv t c.unreachable D F) (hF : iteration O H c n k F = some (F', b)) : Inv t c.unreachable D F' ∧ Final t F' ∧ b = true := by
  unfold Mas.iteration at hF
  rw [if_neg (by simp [hexp])] at hF
  split at hF
  · simp at hF
  · rename_i F1 h1
    have i1 := h.reduceIf h1
    unfold shrinkMerge at hF
    rw [if_neg (by simp [hexp])] at hF
    split at hF
    · simp at hF
    · rename_i F2 h2
      unfold reduceMerge at hF
      rw [if_neg (by simp [hexp])] at hF
      split at hF
      · simp at hF
      · rename_i F3 h3
        unfold mergeStep at hF
        rw [if_neg (by simp [hexp])] at hF
        split at hF
        · simp at hF
        · rename_i F4 h4
          have hij : (c.pair k F).1 ≠ (c.pair k F).2 := by
            intro e
            unfold FTS.merge at h4
            rw [if_pos e] at h4
            simp at h4
          have i2 := i1.shrinkStep hwf hu hug (hS1 k) (hS2 k) hij hm hb h2
          have i3 := i2.reduceIf h3
          obtain ⟨i4, f4⟩ := i3.merge hwf hu hug h4
          unfold afterMerge at hF
          rw [if_neg (by simp [hexp])] at hF
          split at hF
          · simp at hF
          · rename_i F5 h5
            obtain ⟨i5, f5⟩ := i4.pruneIf hwf hu hug rfl f4 h5
            split at hF
            · simp at hF
            · rename_i h6
              exfalso
              unfold FTS.solvable at h6
              split at h6
              · simp at h6
              · rename_i f hf
                exact i5.fts.solvable hwf hsol hf h6
            · simp only [Option.some.injEq, Prod.mk.injEq] at hF
              obtain ⟨rfl, rfl⟩ := hF
              exact ⟨i5, f5, by simp [hexp]⟩

include hwf hsol hu hug hS1 hS2 hm hb hexp in
theorem Inv.mainLoop {F F' : FTS} {n k : Nat} (h : Inv t c.unreachable D F) (hfin : Final t F) (hF : mainLoop O H c n k F = some F') : Inv t c.unreachable D F' ∧ Final t F' ∧ Single F' := by
  refine mainLoop.partial_correctness O H c n (motive := fun k F F' => Inv t c.unreachable D F → Final t F → Inv t c.unreachable D F' ∧ Final t F' ∧ Single F') ?_ k F F' hF h hfin
  intro ml ih k F r hr hI hfin
  split at hr
  · split at hr
    · simp at hr
    · rename_i F1 h1
      have := (hI.iteration hwf hsol hu hug hS1 hS2 hm hb hexp h1).2.2
      simp at this
    · rename_i F1 h1
      obtain ⟨h2, h3, _⟩ := hI.iteration hwf hsol hu hug hS1 hS2 hm hb hexp h1
      exact ih _ _ _ hr h2 h3
  · rename_i hle
    simp only [Option.some.injEq] at hr
    subst hr
    exact ⟨hI, hfin, single_of_numActive (by omega)⟩

include hwf hsol hu hug in
theorem Inv.pruneAtomic : ∀ {is : List Nat} {F F' : FTS} {b : Bool}, Inv t c.unreachable D F → Final t F → pruneAtomic H c is F = some (F', b) → Inv t c.unreachable D F' ∧ Final t F' ∧ b = false
  | [], F, F', b, h, hf, hF => by
    simp only [Mas.pruneAtomic, Option.some.injEq, Prod.mk.injEq] at hF
    obtain ⟨rfl, rfl⟩ := hF
    exact ⟨h, hf, rfl⟩
  | i :: is, F, F', b, h, hf, hF => by
    simp only [Mas.pruneAtomic] at hF
    split at hF
    · simp at hF
    · rename_i F1 h1
      obtain ⟨i1, f1⟩ := h.pruneIf hwf hu hug rfl hf h1
      split at hF
      · simp at hF
      · rename_i h6
        exfalso
        unfold FTS.solvable at h6
        split at h6
        · simp at h6
        · rename_i f hf
          exact i1.fts.solvable hwf hsol hf h6
      · exact Inv.pruneAtomic i1 f1 hF

end

/-! ### the initial factors -/

section
variable {t : Task} (hwf : t.WF) (hax : t.axioms = []) (hp : PlainTask t) (hcosts : ∀ o ∈ t.ops, o.cost ≤ inf) (hsingle : ∀ o ∈ t.ops, ∀ e ∈ o.effects, (e.conds.map (·.var)).Nodup)

include hwf hax hp hcosts hsingle in
theorem createFts_inv2 {H : StdHeap Nat} {U ci cg : Bool} {F : FTS} (h : createFts H t ci cg = some F) : Inv t U (numStates t) F ∧ Final t F := by
  have h1 := createFts_inv (U := U) hwf hax hcosts hsingle h
  have h2 := createFts_faithful hwf hax hp hcosts h
  unfold createFts at h
  cases hm : mapAll (atomicFactor H t ci cg) (List.range t.vars.length) with
  | none => rw [hm] at h; simp at h
  | some fs =>
    rw [hm] at h
    simp only [Option.some.injEq] at h
    have hF : F.factors = fs := by subst h; rfl
    have hfac : ∀ (v : Nat) (o : Option Factor), fs[v]? = some o → ∃ (d : Variable) (T : TS) (dist : Distances), t.vars[v]? = some d ∧ T.size = d.domain ∧ computeBoth H T ci cg = some dist ∧ o = some (⟨T, Repr.newLeaf v d.domain, dist⟩ : Factor) := by
      intro v o ho
      obtain ⟨v', e1, e2⟩ := mapAll_getElem?' hm ho
      have hv : v' = v := by
        obtain ⟨_, e3⟩ := List.getElem?_eq_some_iff.mp e1
        rw [List.getElem_range] at e3
        exact e3.symm
      subst hv
      unfold atomicFactor at e2
      cases hd : t.vars[v']? with
      | none => rw [hd] at e2; simp at e2
      | some d =>
        cases hT : atomic t v' with
        | none => rw [hd, hT] at e2; simp at e2
        | some T =>
          rw [hd, hT] at e2
          simp only at e2
          cases hc : computeBoth H T ci cg with
          | none => rw [hc] at e2; simp at e2
          | some dist =>
            rw [hc] at e2
            simp only [Option.some.injEq] at e2
            obtain ⟨d', h0, _, _, h3, _⟩ := atomic_spec hwf hcosts hT
            rw [hd] at h0
            simp only [Option.some.injEq] at h0
            subst h0
            exact ⟨d, T, dist, rfl, h3, hc, e2.symm⟩
    refine ⟨⟨h1, h2, ?_⟩, ?_⟩
    · rw [hF]
      apply Nat.le_of_eq
      unfold weights numStates
      congr 1
      apply List.ext_getElem?
      intro v
      rw [List.getElem?_map, List.getElem?_map]
      cases hv : fs[v]? with
      | none =>
        have : t.vars[v]? = none := by
          rw [List.getElem?_eq_none_iff]
          have := List.getElem?_eq_none_iff.mp hv
          rw [mapAll_length hm, List.length_range] at this
          exact this
        rw [this]
        rfl
      | some o =>
        obtain ⟨d, T, dist, e1, e2, _, rfl⟩ := hfac v o hv
        rw [e1]
        simp only [Option.map_some, weight, e2]
    · intro hS v f hf ds hds s a d hs ha hd hlt
      refine h2.single h1 hS hf hs ha ?_
      obtain ⟨lab, _, l2⟩ := h1
      have hok := (l2 v f hf).1.ok
      unfold FTS.factor at hf
      rw [Option.join_eq_some_iff, hF] at hf
      obtain ⟨d', T, dist, _, _, e3, e4⟩ := hfac v _ hf
      simp only [Option.some.injEq] at e4
      subst e4
      exact computeBoth_goal hok e3 hds a d hd hlt

end

/-! ### the heuristic -/

theorem build_exact {t : Task} (ht : MasTask t) (hp : PlainTask t) {c : Config} (hsol : Live t c.unreachable t.init) {lim : AtLimit} (hS1 : ∀ k T d n, c.shrink1 k T d n = shrinkBisimulation false lim T d n) (hS2 : ∀ k T d n, c.shrink2 k T d n = shrinkBisimulation false lim T d n)
    (hm : numStates t ≤ c.maxStates) (hb : numStates t ≤ c.before) (htimed : c.timed = true) (hexp : ∀ k p, c.expired k p = false) {O : HashOrder} {H : StdHeap Nat} {F : FTS} (h : build O H c t = some F) :
    FtsInv t c.unreachable F ∧ Faithful t F ∧ Final t F ∧ Single F := by
  obtain ⟨u, hu, hug⟩ : ∃ u, Live t c.unreachable u ∧ allHold t.goal u := by
    obtain ⟨h1, π, ⟨u, h2, h3⟩, h4, _⟩ := id hsol
    exact ⟨u, ⟨Search.exec_valid ht.wf h1 h2, [], ⟨u, .nil u, h3⟩, by simp [Task.planCost, inf, Dijkstra.inf], fun _ => ⟨π, h2, by simpa [Task.planCost] using h4⟩⟩, h3⟩
  unfold build at h
  split at h
  · rename_i hax
    have hax := List.isEmpty_iff.mp hax
    split at h
    · simp at h
    · rename_i F0 h0
      obtain ⟨i0, f0⟩ := createFts_inv2 (U := c.unreachable) ht.wf hax hp ht.costs ht.single h0
      split at h
      · simp at h
      · rename_i F1 b h1
        obtain ⟨i1, f1, rfl⟩ := i0.pruneAtomic ht.wf hsol hu hug f0 h1
        simp only [Bool.not_false, htimed, Bool.and_self, if_true] at h
        obtain ⟨h2, h3, h4⟩ := i1.mainLoop ht.wf hsol hu hug hS1 hS2 hm hb hexp f1 h
        exact ⟨h2.fts, h2.faithful, h3, h4⟩
  · simp at h

/-- finite values are not less than the cost of a plan -/
theorem extract_exact {t : Task} (hwf : t.WF) {U : Bool} (hsol : Live t U t.init) {F : FTS} (hI : FtsInv t U F) (hP : Faithful t F) (hfin : Final t F) (hS : Single F) {H : StdHeap Nat} {rs : List Repr} (h : extract H F = some rs) {s : State} (hs : t.ValidState s) {n : Nat}
    (hn : heuristic rs s = some (some n)) : ∃ π, t.SolvesFrom s π ∧ t.planCost π ≤ n := by
  obtain ⟨lab, hl, hall⟩ := id hI
  unfold extract at h
  have hfac : ∀ f ∈ F.factors.filterMap id, ∃ j, F.factor j = some f := by
    intro f hf'
    simp only [List.mem_filterMap, id, exists_eq_right] at hf'
    obtain ⟨j, hj⟩ := List.getElem?_of_mem hf'
    exact ⟨j, by unfold FTS.factor; rw [hj]; rfl⟩
  split at h
  · simp at h
  · rename_i f hu
    exfalso
    have aux : ∀ {fs : List Factor} {f : Factor}, unsolvableFactor fs = some (some f) → f.solvable = some false := by
      intro fs
      induction fs with
      | nil => intro f h; simp [unsolvableFactor] at h
      | cons g fs ih =>
        intro f h
        simp only [unsolvableFactor] at h
        split at h
        · simp at h
        · rename_i hg
          simp only [Option.some.injEq] at h
          exact h ▸ hg
        · exact ih h
    obtain ⟨j, hj⟩ := hfac f (unsolvableFactor_mem hu)
    exact hI.solvable hwf hsol hj (aux hu)
  · by_cases hex : ∃ j f, F.factor j = some f
    · obtain ⟨j, f, hf⟩ := hex
      have hfi := (hall j f hf).1
      have honly : ∀ j' f', F.factor j' = some f' → j' = j ∧ f' = f := by
        intro j' f' hf'
        have := hS j' j f' f hf' hf
        subst this
        rw [hf] at hf'
        simp only [Option.some.injEq] at hf'
        exact ⟨rfl, hf'.symm⟩
      by_cases htr : f.trivial = true
      · -- all states are goal states
        simp only [Factor.trivial, Bool.and_eq_true, List.all_eq_true, id_eq] at htr
        obtain ⟨o, h1, h2⟩ := hfi.repr.value hs
        obtain ⟨a, rfl⟩ := total_value htr.1 h1
        have hlt : a < f.ts.goals.length := by
          have := h2 a rfl
          rw [hfi.dom] at this
          exact this
        have hg : f.ts.goals[a]? = some true := by rw [List.getElem?_eq_getElem hlt, htr.2 _ (List.getElem_mem hlt)]
        obtain ⟨π, h3, h4⟩ := hP s (fun _ => a) 0 hs (fun j' f' hf' => by rw [(honly j' f' hf').2]; exact h1) (.goal _ (fun j' f' hf' => by rw [(honly j' f' hf').2]; exact hg))
        exact ⟨π, h3, by omega⟩
      · have hmem : f ∈ (F.factors.filterMap id).filter (fun f => !f.trivial) := by
          refine List.mem_filter.mpr ⟨?_, by simpa using htr⟩
          simp only [List.mem_filterMap, id, exists_eq_right]
          unfold FTS.factor at hf
          rw [Option.join_eq_some_iff] at hf
          exact List.mem_of_getElem? hf
        obtain ⟨r, hr, hex⟩ := mapAll_mem' h hmem
        obtain ⟨hall', _, _⟩ := heuristicLoop_some.mp hn
        obtain ⟨v, h1, h2, h3⟩ := hall' r hr
        suffices hv : ∃ π, t.SolvesFrom s π ∧ t.planCost π ≤ v by
          obtain ⟨π, h4, h5⟩ := hv
          exact ⟨π, h4, by omega⟩
        unfold extractFactor at hex
        split at hex
        · rename_i ds hds
          obtain ⟨a, e1, e2⟩ := (Good.value (U := U) hfi.repr hex hs).mp h1
          have hle := (hfi.dist.goal ds hds).le a v e2
          exact hfin hS j f hf ds hds s a v hs e1 e2 (by omega)
        · rename_i hnone
          split at hex
          · rename_i di ds hd
            obtain ⟨a, e1, e2⟩ := (Good.value (U := U) hfi.repr hex hs).mp h1
            have hle := ((computeDistances_ok hfi.ok hfi.dist hd).goal ds rfl).le a v e2
            rcases computeDistances_goal hfi.ok hd (ds := ds) rfl with h5 | h5
            · rw [hnone] at h5; simp at h5
            · exact hP.single hI hS hf hs e1 (h5 a v e2 (by omega))
          · simp at hex
    · -- there are no variables
      obtain ⟨π, h3, h4⟩ := hP s (fun _ => 0) 0 hs (fun j f hf => absurd ⟨j, f, hf⟩ hex) (.goal _ (fun j f hf => absurd ⟨j, f, hf⟩ hex))
      exact ⟨π, h3, by omega⟩

end Verif.Mas
