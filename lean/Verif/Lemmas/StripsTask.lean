import Verif.Lemmas.StripsBuild
import Verif.Lemmas.SasStable
import Verif.Lemmas.MasBasic

/-
Translation of a grounded task: initial values, axioms and layers of variables.
-/
namespace Verif.StripsToSas
open Verif.SasFile
open Verif.Strips
open Verif.Simplify (lookup mkOperator)

section
variable {α : Type} [DecidableEq α] {t : StripsTask α} {groups mutexGroups : List (List α)}

theorem groups_nodup (hg : t.Groups groups mutexGroups) : ∀ g ∈ groups, g.Nodup := fun g h => hg.nodup g (List.mem_append_left _ h)

theorem mutexGroups_nodup (hg : t.Groups groups mutexGroups) : ∀ g ∈ mutexGroups, g.Nodup := fun g h => hg.nodup g (List.mem_append_right _ h)

theorem reachable_consistent (hg : t.Groups groups mutexGroups) {s : α → Prop} (hs : t.Reachable s) : Consistent groups s := fun g h => hg.mutex g (List.mem_append_left _ h) s hs

theorem reachable_consistent' (hg : t.Groups groups mutexGroups) {s : α → Prop} (hs : t.Reachable s) : Consistent mutexGroups s := fun g h => hg.mutex g (List.mem_append_right _ h) s hs

theorem rep (hg : t.Groups groups mutexGroups) {s : α → Prop} (hs : t.Reachable s) : Represents groups s (enc groups s) := enc_represents (groups_nodup hg) (reachable_consistent hg hs)

theorem rep' (hg : t.Groups groups mutexGroups) {s : α → Prop} (hs : t.Reachable s) : Represents mutexGroups s (enc mutexGroups s) := enc_represents (mutexGroups_nodup hg) (reachable_consistent' hg hs)

/-- the only fact of an atom that is in one group only -/
theorem pairs_single (hn : ∀ g ∈ groups, g.Nodup) {p : α} {v : Nat} {g : List α} (hv : groups[v]? = some g) (hp : p ∈ g) (hu : ∀ (w : Nat) (g' : List α), groups[w]? = some g' → p ∈ g' → w = v) :
    ∃ i : Nat, g[i]? = some p ∧ pairs groups p = [⟨v, i⟩] := by
  obtain ⟨i, hi⟩ := List.getElem?_of_mem hp
  refine ⟨i, hi, ?_⟩
  have hmem : (⟨v, i⟩ : Fact) ∈ pairs groups p := mem_pairs.mpr ⟨g, hv, hi⟩
  have hall : ∀ f ∈ pairs groups p, f = ⟨v, i⟩ := by
    intro f hf
    obtain ⟨g', hg', hp'⟩ := mem_pairs.mp hf
    exact pairs_unique hn hf hmem (hu _ _ hg' (List.mem_of_getElem? hp'))
  have hnd : (pairs groups p).Nodup := List.Nodup.of_map _ (pairs_vars hn p)
  cases hl : pairs groups p with
  | nil => rw [hl] at hmem; cases hmem
  | cons a l =>
    rw [hl] at hall hnd
    have ha := hall a (by simp)
    cases l with
    | nil => rw [ha]
    | cons b l =>
      have hb := hall b (by simp)
      rw [ha, hb] at hnd
      simp at hnd

/-- the variable of a derived atom -/
theorem derived_pairs (hg : t.Groups groups mutexGroups) {p : α} (hp : t.Derived p) : ∃ v : Nat, groups[v]? = some [p] ∧ pairs groups p = [⟨v, 0⟩] ∧ dictionary groups p = some [⟨v, 0⟩] := by
  obtain ⟨v, hv, hu⟩ := hg.derived p hp
  obtain ⟨i, hi, hps⟩ := pairs_single (groups_nodup hg) hv (by simp) hu
  have hi0 : i = 0 := by
    have := (List.getElem?_eq_some_iff.mp hi).1
    simpa using this
  subst hi0
  refine ⟨v, hv, hps, ?_⟩
  rw [dictionary_some ⟨[p], List.mem_of_getElem? hv, by simp⟩, hps]

theorem covAll (hg : t.Groups groups mutexGroups) {conds : List (Literal α)} (h : ∀ l ∈ conds, t.Mentions l.atom) : CovAll groups mutexGroups conds := fun l hl => hg.covered _ (h l hl)

theorem goal_cov (hg : t.Groups groups mutexGroups) : CovAll groups mutexGroups t.goal := covAll hg (fun l hl => Or.inl ⟨l, hl, rfl⟩)

theorem action_cov (hg : t.Groups groups mutexGroups) {a : Action α} (ha : a ∈ t.actions) : CovAction groups mutexGroups a :=
  ⟨covAll hg (fun l hl => Or.inr (Or.inl ⟨a, ha, Or.inl ⟨l, hl, rfl⟩⟩)),
   fun e he => ⟨covAll hg (fun l hl => Or.inr (Or.inl ⟨a, ha, Or.inr ⟨e, he, Or.inr ⟨l, hl, rfl⟩⟩⟩)), hg.covered _ (Or.inr (Or.inl ⟨a, ha, Or.inr ⟨e, he, Or.inl rfl⟩⟩))⟩⟩

theorem rule_cov (hg : t.Groups groups mutexGroups) {r : Strips.Rule α} (hr : r ∈ t.axioms) : CovAll groups mutexGroups r.body :=
  covAll hg (fun l hl => Or.inr (Or.inr ⟨r, hr, Or.inr ⟨l, hl, rfl⟩⟩))

theorem conds_spec (hg : t.Groups groups mutexGroups) {conds : List (Literal α)} (hc : CovAll groups mutexGroups conds) :
    (translateConds groups mutexGroups conds = .none ∧ ∀ s, t.Reachable s → ¬ ∀ l ∈ conds, l.holds s) ∨
    ∃ cs, translateConds groups mutexGroups conds = .ok cs ∧ (∀ c ∈ cs, Translates groups conds c) ∧
      (∀ s, t.Reachable s → (∀ l ∈ conds, l.holds s) → ∃ c ∈ cs, allHold c (enc groups s)) ∧ cs ≠ [] ∧
      ((∀ l ∈ conds, l.negated = true → ∀ g ∈ groups, l.atom ∈ g → g = [l.atom]) → cs.length = 1) := by
  have h := translateConds_spec (groups_nodup hg) (mutexGroups_nodup hg) (conds := conds) (fun l h => (hc l h).1) (fun l h => (hc l h).2)
  cases ht : translateConds groups mutexGroups conds with
  | error => rw [ht] at h; exact h.elim
  | none =>
    rw [ht] at h
    exact Or.inl ⟨rfl, fun s hs => h s _ _ (rep hg hs) (rep' hg hs)⟩
  | ok cs =>
    rw [ht] at h
    exact Or.inr ⟨cs, rfl, h.1, fun s hs => h.2.1 s _ (rep hg hs), h.2.2.1, h.2.2.2⟩

/-! initial values -/

/-- values for the atoms seen so far -/
structure InitInv (groups : List (List α)) (seen : List α) (x : State) : Prop where
  length : x.length = groups.length
  values : ∀ (v : Nat) (g : List α), groups[v]? = some g → ∃ y, x[v]? = some y ∧ (y = g.length ∨ ∃ p ∈ seen, g[y]? = some p)
  set : ∀ p ∈ seen, ∀ f ∈ pairs groups p, f.holds x

theorem initFacts_spec {seen : List α} {p : α} (hn : ∀ g ∈ groups, g.Nodup) (hc : ∀ g ∈ groups, p ∈ g → ∀ q ∈ seen, q ∈ g → q = p) :
    ∀ (fs done : List Fact) (x : State), (∀ f ∈ fs, f ∈ pairs groups p) → (∀ f ∈ done, f ∈ pairs groups p ∧ f.holds x) → x.length = groups.length →
      (∀ (v : Nat) (g : List α), groups[v]? = some g → ∃ y, x[v]? = some y ∧ (y = g.length ∨ ∃ q ∈ p :: seen, g[y]? = some q)) → (∀ q ∈ seen, ∀ f ∈ pairs groups q, f.holds x) →
      ∃ x', initFacts groups fs x = some x' ∧ x'.length = groups.length ∧
        (∀ (v : Nat) (g : List α), groups[v]? = some g → ∃ y, x'[v]? = some y ∧ (y = g.length ∨ ∃ q ∈ p :: seen, g[y]? = some q)) ∧ (∀ q ∈ seen, ∀ f ∈ pairs groups q, f.holds x') ∧
        ∀ f ∈ done ++ fs, f.holds x'
  | [], done, x, _, hd, hl, hv, hs => ⟨x, rfl, hl, hv, hs, fun f hf => (hd f (by simpa using hf)).2⟩
  | f :: fs, done, x, hf, hd, hl, hv, hs => by
    have hfp := hf f (by simp)
    obtain ⟨g, hg, hp⟩ := mem_pairs.mp hfp
    have hgm := List.mem_of_getElem? hg
    obtain ⟨y, hy, hyv⟩ := hv _ _ hg
    have hlt : f.var < x.length := (List.getElem?_eq_some_iff.mp hy).1
    have hok : ¬ (y ≠ rangeOf groups f.var - 1 ∧ y ≠ f.val) := by
      rintro ⟨h1, h2⟩
      rcases hyv with rfl | ⟨q, hq, hqy⟩
      · apply h1
        rw [rangeOf, hg]
        rfl
      · have hqp : q = p := by
          rcases List.mem_cons.mp hq with rfl | hq
          · rfl
          · exact hc g hgm (List.mem_of_getElem? hp) q hq (List.mem_of_getElem? hqy)
        subst hqp
        obtain ⟨a1, a2⟩ := List.getElem?_eq_some_iff.mp hqy
        obtain ⟨b1, b2⟩ := List.getElem?_eq_some_iff.mp hp
        exact h2 ((List.Nodup.getElem_inj_iff (hn g hgm)).mp (a2.trans b2.symm))
    have hset : ∀ w, (x.set f.var f.val)[w]? = if w = f.var then some f.val else x[w]? := by
      intro w
      rw [List.getElem?_set]
      by_cases hw : f.var = w
      · subst hw
        simp [hlt]
      · rw [if_neg hw, if_neg (fun h => hw h.symm)]
    have hkeep : ∀ q, (q = p ∨ q ∈ seen) → ∀ f' ∈ pairs groups q, f'.holds x → f'.holds (x.set f.var f.val) := by
      intro q hq f' hf' hh
      unfold Fact.holds at hh ⊢
      rw [hset]
      by_cases hw : f'.var = f.var
      · rw [if_pos hw]
        obtain ⟨g', hg', hp'⟩ := mem_pairs.mp hf'
        rw [hw, hg, Option.some.injEq] at hg'
        subst hg'
        have hqp : q = p := by
          rcases hq with rfl | hq
          · rfl
          · exact hc g hgm (List.mem_of_getElem? hp) q hq (List.mem_of_getElem? hp')
        subst hqp
        rw [pairs_unique hn hf' hfp hw]
      · rw [if_neg hw]
        exact hh
    rw [initFacts, hy]
    simp only
    rw [if_neg hok]
    obtain ⟨x', hx', h1, h2, h3, h4⟩ := initFacts_spec hn hc fs (done ++ [f]) (x.set f.var f.val) (fun f h => hf f (List.mem_cons_of_mem _ h)) (fun f' hf' => by
      rcases List.mem_append.mp hf' with hf' | hf'
      · exact ⟨(hd f' hf').1, hkeep p (Or.inl rfl) f' (hd f' hf').1 (hd f' hf').2⟩
      · rw [List.mem_singleton.mp hf']
        refine ⟨hfp, ?_⟩
        unfold Fact.holds
        rw [hset, if_pos rfl]) (by simpa using hl) (fun v g' hg' => by
        rw [hset]
        by_cases hw : v = f.var
        · subst hw
          rw [hg, Option.some.injEq] at hg'
          subst hg'
          rw [if_pos rfl]
          exact ⟨_, rfl, Or.inr ⟨p, by simp, hp⟩⟩
        · rw [if_neg hw]
          exact hv v g' hg') (fun q hq f' hf' => hkeep q (Or.inr hq) f' hf' (hs q hq f' hf'))
    exact ⟨x', hx', h1, h2, h3, fun f' hf' => h4 f' (by simpa using hf')⟩

theorem initValues_spec (hn : ∀ g ∈ groups, g.Nodup) : ∀ (ps seen : List α) (x : State), (∀ g ∈ groups, ∀ p ∈ seen ++ ps, ∀ q ∈ seen ++ ps, p ∈ g → q ∈ g → p = q) → InitInv groups seen x →
    ∃ x', initValues groups ps x = some x' ∧ InitInv groups (seen ++ ps) x'
  | [], seen, x, _, h => ⟨x, rfl, by simpa using h⟩
  | p :: ps, seen, x, hc, h => by
    rw [initValues]
    obtain ⟨x1, hx1, h1, h2, h3, h4⟩ := initFacts_spec (seen := seen) (p := p) hn (fun g hg hp q hq hqg => hc g hg q (by simp [hq]) p (by simp) hqg hp) (pairs groups p) [] x (fun f h => h) (by simp) h.length
      (fun v g hg => by
        obtain ⟨y, hy, hyv⟩ := h.values v g hg
        refine ⟨y, hy, hyv.imp id ?_⟩
        rintro ⟨q, hq, hh⟩
        exact ⟨q, List.mem_cons_of_mem _ hq, hh⟩) h.set
    rw [hx1]
    simp only
    obtain ⟨x', hx', hinv⟩ := initValues_spec hn ps (seen ++ [p]) x1 (by simpa using hc) ⟨h1, fun v g hg => by
      obtain ⟨y, hy, hyv⟩ := h2 v g hg
      refine ⟨y, hy, hyv.imp id ?_⟩
      rintro ⟨q, hq, hh⟩
      exact ⟨q, by simpa [or_comm] using hq, hh⟩, fun q hq f hf => by
      rcases List.mem_append.mp hq with hq | hq
      · exact h3 q hq f hf
      · rw [List.mem_singleton.mp hq] at hf
        exact h4 f (by simpa using hf)⟩
    exact ⟨x', hx', by simpa using hinv⟩

/-- the initial values represent the initial atoms -/
theorem initValues_represents (hs : t.Stratified) (hg : t.Groups groups mutexGroups) :
    ∃ x, initValues groups t.init (groups.map (fun g => g.length)) = some x ∧ x.length = groups.length ∧ Represents groups (fun p => p ∈ t.init) x := by
  have hR : t.Reachable (completion t (fun p => p ∈ t.init)) := ⟨_, [], completes hs _, .nil _⟩
  have hi : ∀ p ∈ t.init, completion t (fun p => p ∈ t.init) p := fun p hp => ((completes hs _).base p (hs.init p hp)).mpr hp
  have hc : ∀ g ∈ groups, ∀ p ∈ t.init, ∀ q ∈ t.init, p ∈ g → q ∈ g → p = q := fun g hgm p hp q hq hpg hqg =>
    reachable_consistent hg hR g hgm p hpg q hqg (hi p hp) (hi q hq)
  obtain ⟨x, hx, hinv⟩ := initValues_spec (groups_nodup hg) t.init [] (groups.map (fun g => g.length)) (by simpa using hc) ⟨by simp, fun v g hv => ⟨g.length, by simp [hv], Or.inl rfl⟩, by simp⟩
  refine ⟨x, hx, hinv.length, fun v g hv => ?_⟩
  obtain ⟨y, hy, hyv⟩ := hinv.values v g hv
  refine ⟨y, hy, ?_, fun i p hp => ⟨?_, fun hpi => ?_⟩⟩
  · rcases hyv with rfl | ⟨q, _, hq⟩
    · omega
    · have := (List.getElem?_eq_some_iff.mp hq).1
      omega
  · rintro rfl
    rcases hyv with rfl | ⟨q, hq, hqy⟩
    · have := (List.getElem?_eq_some_iff.mp hp).1
      omega
    · rw [hp, Option.some.injEq] at hqy
      subst hqy
      simpa using hq
  · have := hinv.set p (by simpa using hpi) ⟨v, i⟩ (mem_pairs.mpr ⟨g, hv, hp⟩)
    unfold Fact.holds at this
    rw [hy, Option.some.injEq] at this
    exact this

/-! layers of variables -/

theorem layerNumbers_spec (hg : t.Groups groups mutexGroups) : ∀ (ls : List (α × Nat)) (x : List (Option Nat)), (∀ q ∈ ls, q ∈ t.layers) → x.length = groups.length →
    ∃ r, layerNumbers groups ls x = some r ∧ r.length = groups.length ∧
      ∀ (v : Nat), ((∀ q ∈ ls, groups[v]? ≠ some [q.1]) → r[v]? = x[v]?) ∧ ((ls.map (·.1)).Nodup → ∀ q ∈ ls, groups[v]? = some [q.1] → r[v]? = some (some q.2))
  | [], x, _, hl => ⟨x, rfl, hl, fun v => ⟨fun _ => rfl, by simp⟩⟩
  | (p, n) :: ls, x, hm, hl => by
    obtain ⟨v, hv, _, hd⟩ := derived_pairs hg ⟨n, hm (p, n) (by simp)⟩
    have hvlt : v < x.length := by
      rw [hl]
      exact (List.getElem?_eq_some_iff.mp hv).1
    rw [layerNumbers, hd]
    simp only
    obtain ⟨r, hr, hrl, hrv⟩ := layerNumbers_spec hg ls (x.set v (some n)) (fun q hq => hm q (List.mem_cons_of_mem _ hq)) (by simpa using hl)
    have huniq : ∀ w, groups[w]? = some [p] → w = v := by
      intro w hw
      obtain ⟨v', _, hu⟩ := hg.derived p ⟨n, hm (p, n) (by simp)⟩
      rw [hu w _ hw (by simp), hu v _ hv (by simp)]
    refine ⟨r, hr, hrl, fun w => ⟨fun hno => ?_, fun hnd q hq hw => ?_⟩⟩
    · rw [(hrv w).1 (fun q hq => hno q (List.mem_cons_of_mem _ hq)), List.getElem?_set]
      have : v ≠ w := fun h => hno (p, n) (by simp) (h ▸ hv)
      rw [if_neg this]
    · rw [List.map_cons, List.nodup_cons] at hnd
      rcases List.mem_cons.mp hq with rfl | hq
      · have := huniq w hw
        subst this
        rw [(hrv w).1 (fun q hq he => hnd.1 (List.mem_map.mpr ⟨q, hq, by
          rw [hv, Option.some.injEq, List.cons.injEq] at he
          exact he.1.symm⟩)), List.getElem?_set]
        simp [hvlt]
      · exact (hrv w).2 hnd.2 q hq hw

theorem layers_spec (hs : t.Stratified) (hg : t.Groups groups mutexGroups) : ∃ r, layerNumbers groups t.layers (groups.map (fun _ => none)) = some r ∧ r.length = groups.length ∧
    ∀ (v n : Nat), r[v]? = some (some n) ↔ ∃ p, groups[v]? = some [p] ∧ (p, n) ∈ t.layers := by
  obtain ⟨r, hr, hl, hv⟩ := layerNumbers_spec hg t.layers (groups.map (fun _ => none)) (fun q h => h) (by simp)
  refine ⟨r, hr, hl, fun v n => ⟨fun h => ?_, ?_⟩⟩
  · by_cases hex : ∃ q ∈ t.layers, groups[v]? = some [q.1]
    · obtain ⟨q, hq, hgv⟩ := hex
      have := (hv v).2 hs.once q hq hgv
      rw [h, Option.some.injEq, Option.some.injEq] at this
      subst this
      exact ⟨q.1, hgv, hq⟩
    · push Not at hex
      rw [(hv v).1 hex, List.getElem?_map] at h
      cases hgv : groups[v]? with
      | none => rw [hgv] at h; cases h
      | some g => rw [hgv] at h; cases h
  · rintro ⟨p, hgv, hp⟩
    exact (hv v).2 hs.once (p, n) hp hgv

end
end Verif.StripsToSas
