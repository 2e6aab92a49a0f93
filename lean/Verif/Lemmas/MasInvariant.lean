import Verif.Lemmas.MasLabelMapping

/-
Merges, shrinking, label reduction and pruning keep all factors abstractions of the task.
-/
namespace Verif.Mas
open Verif.AdaptiveQueue

/-- all factors are abstractions of the task -/
def FtsInv (t : Task) (U : Bool) (F : FTS) : Prop :=
  ∃ lab, LabOk t lab F.labels ∧ ∀ j f, F.factor j = some f → FInv t U lab F.labels f ∧ f.Flags F.ci F.cg

theorem FtsInv.ok {t : Task} {U : Bool} {F : FTS} (h : FtsInv t U F) : ∀ j f, F.factor j = some f → TSOk F.labels f.ts ∧ Srt f.ts.infos := by
  obtain ⟨lab, _, h2⟩ := h
  exact fun j f hf => ⟨(h2 j f hf).1.ok, (h2 j f hf).1.srt⟩

theorem factor_set {F : FTS} {i j : Nat} {f : Option Factor} {g : Factor} (h : FTS.factor { F with factors := F.factors.set i f } j = some g) : (j = i ∧ f = some g) ∨ (j ≠ i ∧ F.factor j = some g) := by
  unfold FTS.factor at h ⊢
  simp only [List.getElem?_set] at h
  split at h
  · rename_i e
    subst e
    split at h
    · exact Or.inl ⟨rfl, by simpa using h⟩
    · simp at h
  · rename_i e
    exact Or.inr ⟨fun e' => e e'.symm, h⟩

theorem FtsInv.set {t : Task} {U : Bool} {F : FTS} {lab : Nat → Nat} (hl : LabOk t lab F.labels) (h : ∀ j f, F.factor j = some f → FInv t U lab F.labels f ∧ f.Flags F.ci F.cg) {i : Nat} {f : Factor} (hf : FInv t U lab F.labels f ∧ f.Flags F.ci F.cg) :
    FtsInv t U { F with factors := F.factors.set i (some f) } := by
  refine ⟨lab, hl, fun j g hg => ?_⟩
  rcases factor_set hg with ⟨_, e⟩ | ⟨_, e⟩
  · simp only [Option.some.injEq] at e
    exact e ▸ hf
  · exact h j g e

theorem Flags.abstract {H : StdHeap Nat} {f f' : Factor} {rel : List (List Nat)} {ci cg : Bool} (hflag : f.Flags ci cg) (hf : f.applyAbstraction H rel ci cg = some f') : f'.Flags ci cg := by
  intro hb
  unfold Factor.applyAbstraction at hf
  split at hf
  · simp only [Option.some.injEq] at hf
    exact hf ▸ hflag hb
  · cases hm0 : abstractionMapping f.ts.size rel with
    | none => rw [hm0] at hf; simp at hf
    | some m =>
      rw [hm0] at hf
      simp only at hf
      cases hT0 : f.ts.applyAbstraction rel m with
      | none => rw [hT0] at hf; simp at hf
      | some T =>
        rw [hT0] at hf
        simp only [abstractDistances, hb, if_neg Bool.false_ne_true] at hf
        cases hr0 : f.repr.applyAbstraction m with
        | none => rw [hr0] at hf; simp at hf
        | some r =>
          rw [hr0] at hf
          simp only [Option.some.injEq] at hf
          subst hf
          exact hflag hb

/-- an abstraction that keeps all live states -/
theorem FtsInv.abstract {t : Task} (hwf : t.WF) {U : Bool} {H : StdHeap Nat} {F F' : FTS} (h : FtsInv t U F) {i : Nat} {rel : List (List Nat)} (hne : ∀ c ∈ rel, c ≠ [])
    (hlive : ∀ lab f, F.factor i = some f → FInv t U lab F.labels f → LabOk t lab F.labels → ∀ (s : State) (a : Nat), Live t U s → f.repr.value s = some (some a) → ∃ c ∈ rel, a ∈ c) (hF : F.applyAbstraction H i rel = some F') : FtsInv t U F' := by
  obtain ⟨lab, h1, h2⟩ := h
  unfold FTS.applyAbstraction at hF
  cases hf : F.factor i with
  | none => rw [hf] at hF; simp at hF
  | some f =>
    rw [hf] at hF
    simp only at hF
    cases hf' : f.applyAbstraction H rel F.ci F.cg with
    | none => rw [hf'] at hF; simp at hF
    | some f' =>
      rw [hf'] at hF
      simp only [Option.some.injEq] at hF
      subst hF
      obtain ⟨h3, h4⟩ := h2 i f hf
      exact FtsInv.set h1 h2 ⟨h3.abstract hwf h4 hne (hlive lab f hf h3 h1) hf', Flags.abstract h4 hf'⟩

/-- an abstraction that keeps all states -/
theorem FtsInv.shrink {t : Task} (hwf : t.WF) {U : Bool} {H : StdHeap Nat} {F F' : FTS} (h : FtsInv t U F) {i : Nat} {f : Factor} (hf : F.factor i = some f) {rel : List (List Nat)} (hne : ∀ c ∈ rel, c ≠ []) (hall : ∀ s, s < f.ts.size → ∃ c ∈ rel, s ∈ c)
    (hF : F.applyAbstraction H i rel = some F') : FtsInv t U F' := by
  refine h.abstract hwf hne (fun lab g hg hI _ s a hs ha => ?_) hF
  rw [hf] at hg
  simp only [Option.some.injEq] at hg
  subst hg
  obtain ⟨o, e1, e2⟩ := hI.repr.value hs.1
  rw [ha] at e1
  simp only [Option.some.injEq] at e1
  exact hall a (hI.dom ▸ e2 a e1.symm)

/-- a merge -/
theorem FtsInv.merge {t : Task} (hwf : t.WF) {U : Bool} {O : HashOrder} {H : StdHeap Nat} {F F' : FTS} (h : FtsInv t U F) {i j : Nat} (hF : F.merge O H i j = some F') : FtsInv t U F' := by
  obtain ⟨lab, h1, h2⟩ := h
  unfold FTS.merge at hF
  split at hF
  · simp at hF
  · cases hf : F.factor i with
    | none => rw [hf] at hF; simp at hF
    | some f =>
      cases hg : F.factor j with
      | none => rw [hf, hg] at hF; simp at hF
      | some g =>
        rw [hf, hg] at hF
        simp only at hF
        cases hm : mergeFactors O H F.labels F.ci F.cg f g with
        | none => rw [hm] at hF; simp at hF
        | some h =>
          rw [hm] at hF
          simp only [Option.some.injEq] at hF
          subst hF
          refine ⟨lab, h1, fun k x hx => ?_⟩
          unfold FTS.factor at hx
          simp only [List.getElem?_append] at hx
          split at hx
          · have hx' : FTS.factor { F with factors := (F.factors.set i none).set j none } k = some x := hx
            rcases factor_set (F := { F with factors := F.factors.set i none }) hx' with ⟨_, e⟩ | ⟨_, e⟩
            · simp at e
            · rcases factor_set e with ⟨_, e⟩ | ⟨_, e⟩
              · simp at e
              · exact h2 k x e
          · rw [List.getElem?_singleton] at hx
            split at hx
            · simp only [Option.join_some, Option.some.injEq] at hx
              subst hx
              refine ⟨(h2 i f hf).1.merge hwf h1.ok (h2 j g hg).1 hm, fun hb => ?_⟩
              unfold mergeFactors at hm
              cases hT0 : f.ts.merge O F.labels g.ts with
              | none => rw [hT0] at hm; simp at hm
              | some T =>
                rw [hT0] at hm
                simp only [computeBoth, hb, if_neg Bool.false_ne_true, Option.some.injEq] at hm
                subst hm
                exact ⟨rfl, rfl⟩
            · simp at hx

/-- label reduction with a valid mapping -/
theorem FtsInv.mapping {t : Task} {U : Bool} {F F' : FTS} (h : FtsInv t U F) {es : List (Nat × List Nat)} {i : Nat} (hv : ValidMap F.labels es)
    (hloc : ∀ j f, j ≠ i → F.factor j = some f → ∀ e ∈ es, ∃ x ∈ f.ts.infos, ∀ l ∈ e.2, l ∈ x.labels) (hF : F.applyLabelMapping es i = some F') : FtsInv t U F' := by
  obtain ⟨lab, h1, h2⟩ := h
  unfold FTS.applyLabelMapping at hF
  cases hr : reduceLabels es F.labels with
  | none => rw [hr] at hF; simp at hF
  | some L' =>
    rw [hr] at hF
    simp only at hF
    cases hm : mapAll (reduceFactor L' es i) F.factors.zipIdx with
    | none => rw [hm] at hF; simp at hF
    | some fs =>
      rw [hm] at hF
      simp only [Option.some.injEq] at hF
      subst hF
      obtain ⟨k1, _, k3, _⟩ := reduceLabels_cost h1.ok hv hr
      refine ⟨fun i => sigma es (lab i), ⟨k1, fun i hi => k3 _ _ (h1.cost i hi)⟩, fun j f' hf' => ?_⟩
      unfold FTS.factor at hf'
      simp only [Option.join_eq_some_iff] at hf'
      obtain ⟨p, h3, h4⟩ := mapAll_getElem?' hm hf'
      rw [List.getElem?_zipIdx] at h3
      simp only [Option.map_eq_some_iff, Nat.zero_add] at h3
      obtain ⟨o, h5, rfl⟩ := h3
      cases o with
      | none => simp [reduceFactor] at h4
      | some f =>
        have hf : F.factor j = some f := by unfold FTS.factor; rw [h5]; rfl
        simp only [reduceFactor] at h4
        cases hT : f.ts.applyLabelReduction L' es (decide (j ≠ i)) with
        | none => rw [hT] at h4; simp at h4
        | some T' =>
          rw [hT] at h4
          simp only [Option.some.injEq] at h4
          subst h4
          exact ⟨FInv.reduce h1 hv hr (h2 j f hf).1 (fun hd => hloc j f (by simpa using hd) hf) hT, (h2 j f hf).2⟩

theorem FtsInv.reduceAt {t : Task} {U : Bool} {O : HashOrder} {F F' : FTS} (h : FtsInv t U F) {i : Nat} {b : Bool} (hF : F.reduceAt O i = some (F', b)) : FtsInv t U F' := by
  unfold FTS.reduceAt at hF
  cases hb : F.combinable i with
  | none => rw [hb] at hF; simp at hF
  | some bs =>
    rw [hb] at hF
    simp only at hF
    split at hF
    · simp at hF
    · simp only [Option.some.injEq, Prod.mk.injEq] at hF
      exact hF.1 ▸ h
    · rename_i es _ hm
      simp only [Option.map_eq_some_iff, Prod.mk.injEq] at hF
      obtain ⟨F1, h1, rfl, _⟩ := hF
      obtain ⟨h2, h3⟩ := mapping_valid h.ok hb hm
      exact h.mapping h2 h3 h1

theorem FtsInv.reduceAll {t : Task} {U : Bool} {O : HashOrder} {order : List Nat} : ∀ {k p fails : Nat} {F F' : FTS}, FtsInv t U F → reduceAllLoop O order k p fails F = some F' → FtsInv t U F'
  | 0, p, fails, F, F', h, hF => by simp only [reduceAllLoop, Option.some.injEq] at hF; exact hF ▸ h
  | k + 1, p, fails, F, F', h, hF => by
    simp only [reduceAllLoop] at hF
    cases hi : reduceIter O order p fails F with
    | none => rw [hi] at hF; simp at hF
    | some r =>
      obtain ⟨F1, fails1⟩ := r
      rw [hi] at hF
      simp only at hF
      have h1 : FtsInv t U F1 := by
        unfold reduceIter at hi
        split at hi
        · simp at hi
        · split at hi
          · simp at hi
          · simp only [Option.some.injEq, Prod.mk.injEq] at hi
            exact hi.1 ▸ h
          · split at hi
            · simp at hi
            · rename_i F2 hr
              simp only [Option.some.injEq, Prod.mk.injEq] at hi
              exact hi.1 ▸ h.reduceAt hr
            · rename_i F2 hr
              simp only [Option.some.injEq, Prod.mk.injEq] at hi
              exact hi.1 ▸ h.reduceAt hr
      split at hF
      · simp only [Option.some.injEq] at hF
        exact hF ▸ h1
      · split at hF
        · simp at hF
        · exact FtsInv.reduceAll h1 hF

/-- any kind of label reduction -/
theorem FtsInv.reduce {t : Task} {U : Bool} {O : HashOrder} {r : Reduction} {n : Nat} {pair : Nat × Nat} {F F' : FTS} (h : FtsInv t U F) (hF : F.reduce O r n pair = some F') : FtsInv t U F' := by
  unfold FTS.reduce at hF
  split at hF
  · split at hF
    · rename_i F1 b _ _ hr
      simp only [Option.map_eq_some_iff] at hF
      obtain ⟨⟨F2, b2⟩, h2, rfl⟩ := hF
      exact (h.reduceAt hr).reduceAt h2
    · simp at hF
  · split at hF
    · simp at hF
    · split at hF
      · simp at hF
      · exact h.reduceAll hF
  · split at hF
    · simp at hF
    · split at hF
      · simp at hF
      · exact h.reduceAll hF

/-! ### live states are not pruned -/

theorem exec_append {t : Task} {s u v : State} {π ρ : List Nat} (h : t.Exec s π u) (h' : t.Exec u ρ v) : t.Exec s (π ++ ρ) v := by
  induction h with
  | nil s => exact h'
  | cons s i o s' π u h1 h2 h3 _ ih => exact .cons s i o s' _ v h1 h2 h3 (ih h')

theorem planCost_append (t : Task) (π ρ : List Nat) : t.planCost (π ++ ρ) = t.planCost π + t.planCost ρ := by simp [Task.planCost]
theorem planCost_cons (t : Task) (i : Nat) (π : List Nat) : t.planCost (i :: π) = t.opCost i + t.planCost π := by simp [Task.planCost]

/-- `Live` with a given plan -/
def LiveVia (t : Task) (U : Bool) (s : State) (π : List Nat) : Prop :=
  t.ValidState s ∧ t.SolvesFrom s π ∧ t.planCost π < inf ∧ (U = true → ∃ ρ, t.Exec t.init ρ s ∧ t.planCost ρ + t.planCost π < inf)

theorem LiveVia.live {t : Task} {U : Bool} {s : State} {π : List Nat} (h : LiveVia t U s π) : Live t U s := ⟨h.1, π, h.2⟩

theorem LiveVia.step {t : Task} (hwf : t.WF) {U : Bool} {s s' : State} {i : Nat} {o : Operator} {π : List Nat} (h : LiveVia t U s (i :: π)) (ho : t.ops[i]? = some o) (ha : o.applicable s) (hs : t.SuccRel o s s') {u : State} (he : t.Exec s' π u) (hg : allHold t.goal u) : LiveVia t U s' π := by
  obtain ⟨h1, _, h3, h4⟩ := h
  rw [planCost_cons] at h3 h4
  refine ⟨succ_valid hwf h1 ho ha hs, ⟨u, he, hg⟩, by omega, fun hU => ?_⟩
  obtain ⟨ρ, h5, h6⟩ := h4 hU
  refine ⟨ρ ++ [i], exec_append h5 (.cons s i o s' [] s' ho ha hs (.nil s')), ?_⟩
  rw [planCost_append, planCost_cons]
  simp only [Task.planCost, List.map_nil, List.sum_nil] at h6 ⊢
  omega

theorem op_lt {t : Task} {i : Nat} {o : Operator} (h : t.ops[i]? = some o) : i < t.ops.length := (List.getElem?_eq_some_iff.mp h).1

theorem FInv.lt {t : Task} {U : Bool} {lab : Nat → Nat} {L : Labels} {f : Factor} (h : FInv t U lab L f) {s : State} (hs : t.ValidState s) {a : Nat} (ha : f.repr.value s = some (some a)) : a < f.ts.size := by
  obtain ⟨o, e1, e2⟩ := h.repr.value hs
  rw [ha] at e1
  simp only [Option.some.injEq] at e1
  exact h.dom ▸ e2 a e1.symm

/-- the goal distance does not exceed the cost of a plan -/
theorem FInv.goal_le {t : Task} (hwf : t.WF) {U : Bool} {lab : Nat → Nat} {L : Labels} (hl : LabOk t lab L) {f : Factor} (h : FInv t U lab L f) {ds : List Nat} (hd : GoalClosed L f.ts ds) {s u : State} {π : List Nat} (he : t.Exec s π u) (hg : allHold t.goal u) :
    LiveVia t U s π → ∀ a d : Nat, f.repr.value s = some (some a) → ds[a]? = some d → d ≤ t.planCost π := by
  induction he with
  | nil s =>
    intro hv a d ha hda
    have := hd.zero a (h.goal s a hv.1 hg ha)
    rw [hda] at this
    simp only [Option.some.injEq] at this
    omega
  | cons s i o s' π u ho happ hsu he ih =>
    intro hv a d ha hda
    have hv' := hv.step hwf ho happ hsu he hg
    obtain ⟨b, hb⟩ := h.live s' hv'.live
    have hblt : b < ds.length := by rw [hd.length]; exact h.lt hv'.1 hb
    have e := List.getElem?_eq_getElem hblt
    have h1 := ih hg hv' b _ hb e
    have h2 := hd.edge _ a b _ d _ (h.tr i o s s' a b hv.1 ho happ hsu ha hb) (hl.cost i (op_lt ho)) hda e
    rw [planCost_cons]
    omega

/-- the distance from the initial state does not exceed the cost of a path -/
theorem FInv.init_le {t : Task} (hwf : t.WF) {U : Bool} {lab : Nat → Nat} {L : Labels} (hl : LabOk t lab L) {f : Factor} (h : FInv t U lab L f) {ds : List Nat} (hd : InitClosed L f.ts ds) {s u : State} {ρ : List Nat} (he : t.Exec s ρ u) {π : List Nat} (hsolve : t.SolvesFrom u π) :
    LiveVia t U s (ρ ++ π) → ∀ a d b e : Nat, f.repr.value s = some (some a) → ds[a]? = some d → f.repr.value u = some (some b) → ds[b]? = some e → e ≤ d + t.planCost ρ := by
  induction he with
  | nil s =>
    intro _ a d b e ha hda hb hdb
    rw [ha] at hb
    simp only [Option.some.injEq] at hb
    subst hb
    rw [hda] at hdb
    simp only [Option.some.injEq] at hdb
    omega
  | cons s i o s' ρ u ho happ hsu he ih =>
    intro hv a d b e ha hda hb hdb
    obtain ⟨w, hw, hg⟩ := hsolve
    have hv' : LiveVia t U s' (ρ ++ π) := LiveVia.step hwf (i := i) hv ho happ hsu (exec_append he hw) hg
    obtain ⟨a', ha'⟩ := h.live s' hv'.live
    have hlt : a' < ds.length := by rw [hd.length]; exact h.lt hv'.1 ha'
    have e1 := List.getElem?_eq_getElem hlt
    have h1 := ih ⟨w, hw, hg⟩ hv' a' _ b e ha' e1 hb hdb
    have h2 := hd.edge _ a a' _ d _ (h.tr i o s s' a a' hv.1 ho happ hsu ha ha') (hl.cost i (op_lt ho)) hda e1
    rw [planCost_cons]
    omega

/-- live states have finite distances -/
theorem FInv.finite {t : Task} (hwf : t.WF) {U : Bool} {lab : Nat → Nat} {L : Labels} (hl : LabOk t lab L) {f : Factor} (h : FInv t U lab L f) {s : State} (hs : Live t U s) {a : Nat} (ha : f.repr.value s = some (some a)) :
    isInf f.dist.goal a ≠ some true ∧ (U = true → isInf f.dist.init a ≠ some true) := by
  obtain ⟨h1, π, h2, h3, h4⟩ := hs
  have hlt := h.lt h1 ha
  constructor
  · intro hc
    unfold isInf at hc
    cases hg : f.dist.goal with
    | none => rw [hg] at hc; simp at hc
    | some ds =>
      rw [hg] at hc
      have hd := h.dist.goal ds hg
      have e := List.getElem?_eq_getElem (show a < ds.length by rw [hd.length]; exact hlt)
      simp only [e, Option.map_some, Option.some.injEq, decide_eq_true_eq] at hc
      obtain ⟨u, hu1, hu2⟩ := id h2
      have := h.goal_le hwf hl hd hu1 hu2 ⟨h1, h2, h3, h4⟩ a _ ha e
      omega
  · intro hU hc
    unfold isInf at hc
    cases hg : f.dist.init with
    | none => rw [hg] at hc; simp at hc
    | some ds =>
      rw [hg] at hc
      have hd := h.dist.init ds hg
      have e := List.getElem?_eq_getElem (show a < ds.length by rw [hd.length]; exact hlt)
      simp only [e, Option.map_some, Option.some.injEq, decide_eq_true_eq] at hc
      obtain ⟨ρ, h5, h6⟩ := h4 hU
      obtain ⟨w, hw, hgw⟩ := id h2
      have hlive : LiveVia t U t.init (ρ ++ π) := ⟨hwf.init, ⟨w, exec_append h5 hw, hgw⟩, by rw [planCost_append]; exact h6, fun _ => ⟨[], .nil _, by rw [planCost_append]; simpa [Task.planCost] using h6⟩⟩
      obtain ⟨i, hi⟩ := h.live _ hlive.live
      have hinit : f.ts.init = some i := by
        have := h.init
        rw [hi] at this
        simpa using this.symm
      have := h.init_le hwf hl hd h5 h2 hlive i 0 a _ hi (hd.zero i hinit) ha e
      omega

theorem keep_true {d : Distances} {U I : Bool} {a : Nat} {b : Bool} (h : keep d U I a = some b) (h1 : isInf d.goal a ≠ some true) (h2 : U = true → isInf d.init a ≠ some true) : b = true := by
  unfold keep at h
  cases hU : (if U then isInf d.init a else some false) with
  | none => rw [hU] at h; simp at h
  | some x =>
    cases hI : (if I then isInf d.goal a else some false) with
    | none => rw [hU, hI] at h; simp at h
    | some y =>
      rw [hU, hI] at h
      simp only [Option.some.injEq] at h
      have hx : x = false := by
        cases U with
        | false => simpa using hU.symm
        | true =>
          simp only [if_true] at hU
          cases x with
          | false => rfl
          | true => exact absurd hU (h2 rfl)
      have hy : y = false := by
        cases I with
        | false => simpa using hI.symm
        | true =>
          simp only [if_true] at hI
          cases y with
          | false => rfl
          | true => exact absurd hI h1
      rw [← h, hx, hy]
      rfl

/-- pruning -/
theorem FtsInv.prune {t : Task} (hwf : t.WF) {U U' I : Bool} (hUU : U' = true → U = true) {H : StdHeap Nat} {F F' : FTS} (h : FtsInv t U F) {i : Nat} (hF : F.pruneStep H U' I i = some F') : FtsInv t U F' := by
  unfold FTS.pruneStep at hF
  cases hf : F.factor i with
  | none => rw [hf] at hF; simp at hF
  | some f =>
    rw [hf] at hF
    simp only at hF
    cases hk : mapAll (keep f.dist U' I) (List.range f.ts.size) with
    | none => rw [hk] at hF; simp at hF
    | some ks =>
      rw [hk] at hF
      simp only at hF
      refine h.abstract hwf (fun c hc => ?_) (fun lab g hg hI hl s a hs ha => ?_) hF
      · obtain ⟨x, _, rfl⟩ := List.mem_map.mp hc
        simp
      · rw [hf] at hg
        simp only [Option.some.injEq] at hg
        subst hg
        have hlt := hI.lt hs.1 ha
        obtain ⟨b, h1, h2⟩ := mapAll_getElem? hk (i := a) (a := a) (by simp [hlt])
        obtain ⟨h3, h4⟩ := hI.finite hwf hl hs ha
        have := keep_true h2 h3 (fun e => h4 (hUU e))
        subst this
        exact ⟨[a], List.mem_map.mpr ⟨a, List.mem_filter.mpr ⟨List.mem_range.mpr hlt, by simp [h1]⟩, rfl⟩, by simp⟩

end Verif.Mas
