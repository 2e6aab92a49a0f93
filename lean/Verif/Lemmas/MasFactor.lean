import Verif.Lemmas.MasRepr
import Verif.Lemmas.MasMerge
import Verif.Lemmas.MasCombine
import Verif.Lemmas.MasSorted
import Verif.Props.MasDistances
import Verif.Lemmas.SimpleSucc

/-
The invariant of the factors of merge-and-shrink: they are abstractions of the task.
-/
namespace Verif.Mas
open Verif.AdaptiveQueue

/-- the state has a plan whose cost is an int; with `U` also together with a path from the initial state -/
def Live (t : Task) (U : Bool) (s : State) : Prop :=
  t.ValidState s ∧ ∃ π, t.SolvesFrom s π ∧ t.planCost π < inf ∧ (U = true → ∃ ρ, t.Exec t.init ρ s ∧ t.planCost ρ + t.planCost π < inf)

/-- the distances do not overestimate -/
structure GoalClosed (L : Labels) (T : TS) (ds : List Nat) : Prop where
  length : ds.length = T.size
  zero : ∀ a : Nat, T.goals[a]? = some true → ds[a]? = some 0
  edge : ∀ (l a b c da db : Nat), Tr T.infos l a b → L.cost l = some c → ds[a]? = some da → ds[b]? = some db → da ≤ c + db
  le : ∀ (a d : Nat), ds[a]? = some d → d ≤ inf

structure InitClosed (L : Labels) (T : TS) (ds : List Nat) : Prop where
  length : ds.length = T.size
  zero : ∀ a : Nat, T.init = some a → ds[a]? = some 0
  edge : ∀ (l a b c da db : Nat), Tr T.infos l a b → L.cost l = some c → ds[a]? = some da → ds[b]? = some db → db ≤ da + c
  le : ∀ (a d : Nat), ds[a]? = some d → d ≤ inf

structure DistOk (L : Labels) (T : TS) (d : Distances) : Prop where
  init : ∀ ds, d.init = some ds → InitClosed L T ds
  goal : ∀ ds, d.goal = some ds → GoalClosed L T ds

/-- a transition with a label is an arc with at most its cost -/
theorem tr_arc {L : Labels} {T : TS} (hT : TSOk L T) {l a b c : Nat} (h : Tr T.infos l a b) (hc : L.cost l = some c) : ∃ c', T.Arc a b c' ∧ c' ≤ c := by
  obtain ⟨i, h1, h2, h3⟩ := h
  obtain ⟨c', h4, h5⟩ := hT.cons.live i h1 l h2
  rw [hc] at h4
  simp only [Option.some.injEq] at h4
  exact ⟨i.cost, ⟨i, h1, List.ne_nil_of_mem h2, h3, rfl⟩, by omega⟩

theorem inf_eq : infinity = inf := rfl

theorem goalDistances_closed {H : StdHeap Nat} {L : Labels} {T : TS} (hT : TSOk L T) {ds : List Nat} (h : T.goalDistances H = some ds) : GoalClosed L T ds := by
  obtain ⟨h1, h2⟩ := C39_goal_below H hT.range h
  have hle : ∀ (a d : Nat), ds[a]? = some d → d ≤ inf := by
    intro a d hd
    rcases h2 a d hd with h | h
    · exact Nat.le_of_lt (inf_eq ▸ h.2.1)
    · exact Nat.le_of_eq (inf_eq ▸ h.1)
  refine ⟨h1, fun a ha => ?_, fun l a b c da db ht hc ha hb => ?_, hle⟩
  · have hlt : a < ds.length := by rw [h1]; exact (List.getElem?_eq_some_iff.mp ha).1
    have e : ds[a]? = some ds[a] := List.getElem?_eq_getElem hlt
    have hp : T.ToGoal a 0 := ⟨a, ha, .nil a⟩
    rcases h2 a _ e with h | h
    · have := h.2.2 0 hp
      rw [e]; congr 1; omega
    · have := h.2 0 hp
      simp [infinity] at this
  · obtain ⟨c', h3, h4⟩ := tr_arc hT ht hc
    have hda := hle a da ha
    rcases h2 b db hb with h | h
    · obtain ⟨g, hg, hp⟩ := h.1
      have hp' : T.ToGoal a (c' + db) := ⟨g, hg, .cons a b g c' db h3 hp⟩
      rcases h2 a da ha with h' | h'
      · have := h'.2.2 _ hp'; omega
      · have := h'.2 _ hp'
        have e := h'.1
        omega
    · have := h.1
      rw [inf_eq] at this
      omega

theorem initDistances_closed {H : StdHeap Nat} {L : Labels} {T : TS} (hT : TSOk L T) {ds : List Nat} (h : T.initDistances H = some ds) : InitClosed L T ds := by
  obtain ⟨h1, h2⟩ := C39_init_below H hT.range h
  have hle : ∀ (a d : Nat), ds[a]? = some d → d ≤ inf := by
    intro a d hd
    rcases h2 a d hd with h | h
    · exact Nat.le_of_lt (inf_eq ▸ h.2.1)
    · exact Nat.le_of_eq (inf_eq ▸ h.1)
  refine ⟨h1, fun a ha => ?_, fun l a b c da db ht hc ha hb => ?_, hle⟩
  · have hlt : a < ds.length := by rw [h1]; exact hT.range.init a ha
    have e : ds[a]? = some ds[a] := List.getElem?_eq_getElem hlt
    have hp : T.FromInit a 0 := ⟨a, ha, .nil a⟩
    rcases h2 a _ e with h | h
    · have := h.2.2 0 hp
      rw [e]; congr 1; omega
    · have := h.2 0 hp
      simp [infinity] at this
  · obtain ⟨c', h3, h4⟩ := tr_arc hT ht hc
    have hdb := hle b db hb
    rcases h2 a da ha with h | h
    · obtain ⟨g, hg, hp⟩ := h.1
      have hp' : T.FromInit b (da + c') := ⟨g, hg, hp.snoc h3⟩
      rcases h2 b db hb with h' | h'
      · have := h'.2.2 _ hp'; omega
      · have := h'.2 _ hp'
        have e := h'.1
        omega
    · have := h.1
      rw [inf_eq] at this
      omega

theorem computeIf_some {b : Bool} {f old r : Option (List Nat)} (h : computeIf b f old = some r) {ds : List Nat} (hr : r = some ds) : f = some ds ∨ old = some ds := by
  unfold computeIf at h
  split at h
  · simp only [Option.map_eq_some_iff] at h
    obtain ⟨x, h1, h2⟩ := h
    rw [hr] at h2
    simp only [Option.some.injEq] at h2
    exact Or.inl (h2 ▸ h1)
  · simp only [Option.some.injEq] at h
    exact Or.inr (h.trans hr)

theorem computeDistances_ok {H : StdHeap Nat} {L : Labels} {T : TS} (hT : TSOk L T) {ci cg : Bool} {d d' : Distances} (hd : DistOk L T d) (h : computeDistances H T ci cg d = some d') : DistOk L T d' := by
  unfold computeDistances at h
  split at h
  · rename_i h0
    simp only [Option.some.injEq] at h
    subst h
    have hno : ∀ a : Nat, T.goals[a]? ≠ some true := fun a ha => by
      have : a < T.size := (List.getElem?_eq_some_iff.mp ha).1
      omega
    refine ⟨fun ds e => ?_, fun ds e => ?_⟩
    · simp only [Option.some.injEq] at e
      subst e
      exact ⟨h0.symm, fun a ha => absurd (hT.range.init a ha) (by omega), by simp, by simp⟩
    · simp only [Option.some.injEq] at e
      subst e
      exact ⟨h0.symm, fun a ha => absurd ha (hno a), by simp, by simp⟩
  · cases h1 : computeIf ci (T.initDistances H) d.init with
    | none => rw [h1] at h; simp at h
    | some i =>
      cases h2 : computeIf cg (T.goalDistances H) d.goal with
      | none => rw [h1, h2] at h; simp at h
      | some g =>
        rw [h1, h2] at h
        simp only [Option.some.injEq] at h
        subst h
        refine ⟨fun ds e => ?_, fun ds e => ?_⟩
        · rcases computeIf_some h1 e with h | h
          · exact initDistances_closed hT h
          · exact hd.init ds h
        · rcases computeIf_some h2 e with h | h
          · exact goalDistances_closed hT h
          · exact hd.goal ds h

theorem DistOk.none {L : Labels} {T : TS} : DistOk L T ⟨none, none⟩ := ⟨by simp, by simp⟩

theorem computeBoth_ok {H : StdHeap Nat} {L : Labels} {T : TS} (hT : TSOk L T) {ci cg : Bool} {d : Distances} (h : computeBoth H T ci cg = some d) : DistOk L T d := by
  unfold computeBoth at h
  split at h
  · exact computeDistances_ok hT .none h
  · simp only [Option.some.injEq] at h
    subst h
    exact .none

/-- the common value of a class -/
theorem classValue_some {ds : List Nat} {c : List Nat} {v : Nat} (h : classValue ds c = some (some v)) : ∀ s ∈ c, ds[s]? = some v := by
  cases c with
  | nil => simp [classValue] at h
  | cons x xs =>
    simp only [classValue] at h
    cases hm : mapAll (fun x => ds[x]?) (x :: xs) with
    | none => rw [hm] at h; simp at h
    | some vs =>
      rw [hm] at h
      simp only [Option.some.injEq] at h
      split at h
      · rename_i hall
        intro s hs
        obtain ⟨b, h1, h2⟩ := mapAll_mem' hm hs
        have := List.all_eq_true.mp hall b h1
        rw [h] at this
        simp only [beq_iff_eq, Option.some.injEq] at this
        subst this
        exact h2
      · simp at h

theorem newDistances_some {ds : List Nat} {rel : List (List Nat)} {ds' : List Nat} (h : newDistances ds rel = some (some ds')) :
    ds'.length = rel.length ∧ ∀ (x v : Nat) (c : List Nat), ds'[x]? = some v → rel[x]? = some c → ∀ s ∈ c, ds[s]? = some v := by
  unfold newDistances at h
  cases hm : mapAll (classValue ds) rel with
  | none => rw [hm] at h; simp at h
  | some vs =>
    rw [hm] at h
    simp only [Option.some.injEq] at h
    refine ⟨(mapAll_length h).trans (mapAll_length hm), fun x v c hv hc => ?_⟩
    obtain ⟨o, h1, h2⟩ := mapAll_getElem?' h hv
    obtain ⟨o', h3, h4⟩ := mapAll_getElem? hm hc
    rw [h1] at h3
    simp only [Option.some.injEq, id] at h3 h2
    subst h3
    rw [h2] at h4
    exact classValue_some h4

/-- the distances after an abstraction -/
theorem abstractDistances_ok {H : StdHeap Nat} {L : Labels} {T T' : TS} {rel : List (List Nat)} {m : List (Option Nat)} (hm : MapOf T.size rel m) (hne : ∀ c ∈ rel, c ≠ []) (hT : TSOk L T) (h : T.applyAbstraction rel m = some T') {ci cg : Bool} {d d' : Distances} (hd : DistOk L T d)
    (hnone : (ci || cg) = false → d.init = none ∧ d.goal = none) (h' : abstractDistances H T' rel ci cg d = some d') : DistOk L T' d' := by
  obtain ⟨hT', hsize, htr, hgoal, ⟨i, hi1, hi2⟩, _⟩ := applyAbstraction_spec hm hT h
  unfold abstractDistances at h'
  by_cases hb : (ci || cg) = true
  · rw [if_pos hb] at h'
    unfold Distances.applyAbstraction at h'
    cases h1 : newIf ci d.init rel with
    | none => rw [h1] at h'; simp at h'
    | some oi =>
      cases h2 : newIf cg d.goal rel with
      | none => rw [h1, h2] at h'; cases oi <;> simp at h'
      | some og =>
        rw [h1, h2] at h'
        cases oi with
        | none => cases og <;> exact computeDistances_ok hT' .none h'
        | some i' =>
          cases og with
          | none => exact computeDistances_ok hT' .none h'
          | some g' =>
            simp only [Option.some.injEq] at h'
            subst h'
            have cls : ∀ s x : Nat, m[s]? = some (some x) → ∃ c, rel[x]? = some c ∧ s ∈ c := fun s x h => (hm.2 s x).mp h
            have rep : ∀ x : Nat, x < rel.length → ∃ c s, rel[x]? = some c ∧ s ∈ c := by
              intro x hx
              obtain ⟨s, hs⟩ := List.exists_mem_of_ne_nil _ (hne _ (List.getElem_mem hx))
              exact ⟨_, s, List.getElem?_eq_getElem hx, hs⟩
            refine ⟨fun ds' e => ?_, fun ds' e => ?_⟩
            · simp only at e
              split at e
              · rename_i hci
                simp only [Option.some.injEq] at e
                subst e
                unfold newIf at h1
                rw [if_pos hci] at h1
                cases hdi : d.init with
                | none => rw [hdi] at h1; simp at h1
                | some ds =>
                  rw [hdi] at h1
                  obtain ⟨k1, k2⟩ := newDistances_some h1
                  have hc := hd.init ds hdi
                  have hval : ∀ s x : Nat, m[s]? = some (some x) → ds[s]? = i'[x]? := by
                    intro s x hsx
                    obtain ⟨c, h5, h6⟩ := cls s x hsx
                    have hx : x < i'.length := by rw [k1]; exact (List.getElem?_eq_some_iff.mp h5).1
                    rw [k2 x _ c (List.getElem?_eq_getElem hx) h5 s h6, List.getElem?_eq_getElem hx]
                  refine ⟨k1.trans hsize.symm, fun a ha => ?_, fun l a b c da db ht hl hda hdb => ?_, fun a x hx => ?_⟩
                  · rw [ha] at hi2
                    rw [← hval i a hi2]
                    exact hc.zero i hi1
                  · obtain ⟨a0, b0, h3, h4, h5⟩ := (htr l a b).mp ht
                    exact hc.edge l a0 b0 c da db h3 hl (by rw [hval a0 a h4]; exact hda) (by rw [hval b0 b h5]; exact hdb)
                  · obtain ⟨c, s, h5, h6⟩ := rep a (by rw [← k1]; exact (List.getElem?_eq_some_iff.mp hx).1)
                    exact hc.le s x (k2 a x c hx h5 s h6)
              · simp at e
            · simp only at e
              split at e
              · rename_i hcg
                simp only [Option.some.injEq] at e
                subst e
                unfold newIf at h2
                rw [if_pos hcg] at h2
                cases hdi : d.goal with
                | none => rw [hdi] at h2; simp at h2
                | some ds =>
                  rw [hdi] at h2
                  obtain ⟨k1, k2⟩ := newDistances_some h2
                  have hc := hd.goal ds hdi
                  have hval : ∀ s x : Nat, m[s]? = some (some x) → ds[s]? = g'[x]? := by
                    intro s x hsx
                    obtain ⟨c, h5, h6⟩ := cls s x hsx
                    have hx : x < g'.length := by rw [k1]; exact (List.getElem?_eq_some_iff.mp h5).1
                    rw [k2 x _ c (List.getElem?_eq_getElem hx) h5 s h6, List.getElem?_eq_getElem hx]
                  refine ⟨k1.trans hsize.symm, fun a ha => ?_, fun l a b c da db ht hl hda hdb => ?_, fun a x hx => ?_⟩
                  · obtain ⟨a0, h3, h4⟩ := (hgoal a).mp ha
                    rw [← hval a0 a h4]
                    exact hc.zero a0 h3
                  · obtain ⟨a0, b0, h3, h4, h5⟩ := (htr l a b).mp ht
                    exact hc.edge l a0 b0 c da db h3 hl (by rw [hval a0 a h4]; exact hda) (by rw [hval b0 b h5]; exact hdb)
                  · obtain ⟨c, s, h5, h6⟩ := rep a (by rw [← k1]; exact (List.getElem?_eq_some_iff.mp hx).1)
                    exact hc.le s x (k2 a x c hx h5 s h6)
              · simp at e
  · simp only [Bool.not_eq_true] at hb
    rw [if_neg (by simp [hb])] at h'
    simp only [Option.some.injEq] at h'
    subst h'
    obtain ⟨h1, h2⟩ := hnone hb
    exact ⟨fun ds e => by simp [h1] at e, fun ds e => by simp [h2] at e⟩

/-- distances exist only if requested, or if there are no states -/
def Factor.Flags (f : Factor) (ci cg : Bool) : Prop := (ci || cg) = false → f.dist.init = none ∧ f.dist.goal = none

/-- the factor is an abstraction of the task; the label `lab i` stands for the operator with index `i` -/
structure FInv (t : Task) (U : Bool) (lab : Nat → Nat) (L : Labels) (f : Factor) : Prop where
  ok : TSOk L f.ts
  srt : Srt f.ts.infos
  repr : ReprOk t f.repr
  dom : f.repr.domain = f.ts.size
  dist : DistOk L f.ts f.dist
  tr : ∀ (i : Nat) (o : Operator) (s s' : State) (a b : Nat), t.ValidState s → t.ops[i]? = some o → o.applicable s → t.SuccRel o s s' →
    f.repr.value s = some (some a) → f.repr.value s' = some (some b) → Tr f.ts.infos (lab i) a b
  goal : ∀ (s : State) (a : Nat), t.ValidState s → allHold t.goal s → f.repr.value s = some (some a) → f.ts.goals[a]? = some true
  init : f.repr.value t.init = some f.ts.init
  live : ∀ s, Live t U s → ∃ a : Nat, f.repr.value s = some (some a)

/-- the labels have the costs of the operators -/
structure LabOk (t : Task) (lab : Nat → Nat) (L : Labels) : Prop where
  ok : L.Ok
  cost : ∀ i, i < t.ops.length → L.cost (lab i) = some (t.opCost i)

/-- a mapping covers all live states -/
theorem FInv.abstract {t : Task} (hwf : t.WF) {U : Bool} {lab : Nat → Nat} {L : Labels} {H : StdHeap Nat} {f f' : Factor} (h : FInv t U lab L f) {rel : List (List Nat)} {ci cg : Bool} (hflag : f.Flags ci cg) (hne : ∀ c ∈ rel, c ≠ [])
    (hlive : ∀ (s : State) (a : Nat), Live t U s → f.repr.value s = some (some a) → ∃ c ∈ rel, a ∈ c) (hf : f.applyAbstraction H rel ci cg = some f') : FInv t U lab L f' := by
  unfold Factor.applyAbstraction at hf
  split at hf
  · simp only [Option.some.injEq] at hf
    exact hf ▸ h
  · cases hm0 : abstractionMapping f.ts.size rel with
    | none => rw [hm0] at hf; simp at hf
    | some m =>
      rw [hm0] at hf
      simp only at hf
      have hm := abstractionMapping_spec hm0
      cases hT0 : f.ts.applyAbstraction rel m with
      | none => rw [hT0] at hf; simp at hf
      | some T =>
        rw [hT0] at hf
        simp only at hf
        obtain ⟨hT', hsize, htr, hgoal, ⟨i, hi1, hi2⟩, _⟩ := applyAbstraction_spec hm h.ok hT0
        cases hd0 : abstractDistances H T rel ci cg f.dist with
        | none => rw [hd0] at hf; simp at hf
        | some d =>
          cases hr0 : f.repr.applyAbstraction m with
          | none => rw [hd0, hr0] at hf; simp at hf
          | some r =>
            rw [hd0, hr0] at hf
            simp only [Option.some.injEq] at hf
            subst hf
            obtain ⟨k1, k2, k3⟩ := applyAbstraction_repr h.repr (h.dom ▸ hm) hne hr0
            have back : ∀ (s : State) (a' : Nat), t.ValidState s → r.value s = some (some a') → ∃ a, f.repr.value s = some (some a) ∧ m[a]? = some (some a') := by
              intro s a' hs hv
              obtain ⟨o, h1, _⟩ := h.repr.value hs
              obtain ⟨o', h2, h3⟩ := k3 s o h1
              rw [hv] at h2
              simp only [Option.some.injEq] at h2
              subst h2
              cases o with
              | none => simp [mapEntry] at h3
              | some a => exact ⟨a, h1, by simpa [mapEntry] using h3⟩
            refine ⟨hT', applyAbstraction_srt h.ok h.srt hT0, k1, k2.trans hsize.symm, abstractDistances_ok hm hne h.ok hT0 h.dist hflag hd0, ?_, ?_, ?_, ?_⟩
            · intro j o s s' a b hs ho ha hsu hva hvb
              obtain ⟨a0, e1, e2⟩ := back s a hs hva
              obtain ⟨b0, e3, e4⟩ := back s' b (succ_valid hwf hs ho ha hsu) hvb
              exact (htr _ _ _).mpr ⟨a0, b0, h.tr j o s s' a0 b0 hs ho ha hsu e1 e3, e2, e4⟩
            · intro s a hs hg hv
              obtain ⟨a0, e1, e2⟩ := back s a hs hv
              exact (hgoal a).mpr ⟨a0, h.goal s a0 hs hg e1, e2⟩
            · obtain ⟨o', h2, h3⟩ := k3 t.init f.ts.init h.init
              rw [hi1] at h3
              simp only [mapEntry, hi2, Option.map_some, id, Option.some.injEq] at h3
              rw [h2, ← h3]
            · intro s hs
              obtain ⟨a, ha⟩ := h.live s hs
              obtain ⟨c, hc1, hc2⟩ := hlive s a hs ha
              obtain ⟨x, hx⟩ := List.getElem?_of_mem hc1
              have hma := (hm.2 a x).mpr ⟨c, hx, hc2⟩
              obtain ⟨o', h2, h3⟩ := k3 s (some a) ha
              simp only [mapEntry, hma, Option.map_some, id, Option.some.injEq] at h3
              exact ⟨x, by rw [h2, ← h3]⟩

/-- the product of two factors -/
theorem FInv.merge {t : Task} (hwf : t.WF) {U : Bool} {lab : Nat → Nat} {L : Labels} (hL : L.Ok) {O : HashOrder} {H : StdHeap Nat} {f g h : Factor} (hf : FInv t U lab L f) (hg : FInv t U lab L g) {ci cg : Bool} (hm : mergeFactors O H L ci cg f g = some h) : FInv t U lab L h := by
  unfold mergeFactors at hm
  cases hT0 : f.ts.merge O L g.ts with
  | none => rw [hT0] at hm; simp at hm
  | some T =>
    rw [hT0] at hm
    simp only at hm
    obtain ⟨hT, hsize, htr, hgoal, ⟨i1, i2, hi1, hi2, hi3⟩, _⟩ := merge_spec hL hf.ok hg.ok hT0
    cases hd0 : computeBoth H T ci cg with
    | none => rw [hd0] at hm; simp at hm
    | some d =>
      rw [hd0] at hm
      simp only [Option.some.injEq] at hm
      subst hm
      obtain ⟨k1, k2, k3⟩ := newMerge_ok hf.repr hg.repr
      have back : ∀ (s : State) (a : Nat), t.ValidState s → (f.repr.newMerge g.repr).value s = some (some a) → ∃ a1 a2, f.repr.value s = some (some a1) ∧ g.repr.value s = some (some a2) ∧ a = a1 * g.ts.size + a2 ∧ a2 < g.ts.size := by
        intro s a hs hv
        obtain ⟨o1, e1, _⟩ := hf.repr.value hs
        obtain ⟨o2, e2, e3⟩ := hg.repr.value hs
        rw [k3 s hs o1 o2 e1 e2] at hv
        cases o1 with
        | none => simp at hv
        | some a1 =>
          cases o2 with
          | none => simp at hv
          | some a2 =>
            simp only [Option.some.injEq] at hv
            have := e3 a2 rfl
            rw [hg.dom] at hv this
            exact ⟨a1, a2, e1, e2, hv.symm, this⟩
      refine ⟨hT, merge_srt hf.ok hg.ok hf.srt hT0, k1, by rw [k2, hf.dom, hg.dom]; exact hsize.symm, computeBoth_ok hT hd0, ?_, ?_, ?_, ?_⟩
      · intro j o s s' a b hs ho ha hsu hva hvb
        obtain ⟨a1, a2, e1, e2, rfl, _⟩ := back s a hs hva
        obtain ⟨b1, b2, e3, e4, rfl, _⟩ := back s' b (succ_valid hwf hs ho ha hsu) hvb
        exact (htr _ _ _).mpr ⟨a1, b1, a2, b2, hf.tr j o s s' a1 b1 hs ho ha hsu e1 e3, hg.tr j o s s' a2 b2 hs ho ha hsu e2 e4, rfl, rfl⟩
      · intro s a hs hgo hv
        obtain ⟨a1, a2, e1, e2, rfl, hlt⟩ := back s a hs hv
        exact (hgoal a1 a2 hlt).mpr ⟨hf.goal s a1 hs hgo e1, hg.goal s a2 hs hgo e2⟩
      · rw [k3 t.init hwf.init _ _ hf.init hg.init, hi1, hi2, hi3, hg.dom]
      · intro s hs
        obtain ⟨a1, e1⟩ := hf.live s hs
        obtain ⟨a2, e2⟩ := hg.live s hs
        exact ⟨_, k3 s hs.1 _ _ e1 e2⟩

/-- label reduction -/
theorem FInv.reduce {t : Task} {U : Bool} {lab : Nat → Nat} {es : List (Nat × List Nat)} {L L' : Labels} (hL : LabOk t lab L) (hv : ValidMap L es) (hr : reduceLabels es L = some L') {f : Factor} (hf : FInv t U lab L f) {only : Bool}
    (hloc : only = true → ∀ e ∈ es, ∃ i ∈ f.ts.infos, ∀ l ∈ e.2, l ∈ i.labels) {T' : TS} (h : f.ts.applyLabelReduction L' es only = some T') : FInv t U (fun i => sigma es (lab i)) L' { f with ts := T' } := by
  obtain ⟨h1, h2, h3, _, h5⟩ := applyLabelReduction_spec hL.ok hv hf.ok hr hloc h
  obtain ⟨_, _, hcost, _⟩ := reduceLabels_cost hL.ok hv hr
  have hsz : T'.size = f.ts.size := by unfold TS.size; rw [h2]
  have hback : ∀ l' a b, Tr T'.infos l' a b → ∀ c, L'.cost l' = some c → ∃ l, Tr f.ts.infos l a b ∧ L.cost l = some c := by
    intro l' a b ht c hc
    obtain ⟨l, e, ht'⟩ := (h5 l' a b).mp ht
    obtain ⟨i, h6, h7, _⟩ := id ht'
    obtain ⟨c', h8, _⟩ := hf.ok.cons.live i h6 l h7
    have := hcost l c' h8
    rw [e, hc] at this
    simp only [Option.some.injEq] at this
    exact ⟨l, ht', by rw [h8, this]⟩
  refine ⟨h1, applyLabelReduction_srt hL.ok hv hf.ok hr hloc hf.srt h, hf.repr, hf.dom.trans hsz.symm, ⟨fun ds e => ?_, fun ds e => ?_⟩, ?_, ?_, ?_, hf.live⟩
  · have hc := hf.dist.init ds e
    refine ⟨hc.length.trans hsz.symm, fun a ha => hc.zero a (by rw [← h3]; exact ha), fun l a b c da db ht hl => ?_, hc.le⟩
    obtain ⟨l0, h6, h7⟩ := hback l a b ht c hl
    exact hc.edge l0 a b c da db h6 h7
  · have hc := hf.dist.goal ds e
    refine ⟨hc.length.trans hsz.symm, fun a ha => hc.zero a (by rw [← h2]; exact ha), fun l a b c da db ht hl => ?_, hc.le⟩
    obtain ⟨l0, h6, h7⟩ := hback l a b ht c hl
    exact hc.edge l0 a b c da db h6 h7
  · intro i o s s' a b hs ho ha hsu hva hvb
    exact (h5 _ _ _).mpr ⟨lab i, rfl, hf.tr i o s s' a b hs ho ha hsu hva hvb⟩
  · intro s a hs hg hv
    simp only [h2]
    exact hf.goal s a hs hg hv
  · simp only [h3]
    exact hf.init

end Verif.Mas
