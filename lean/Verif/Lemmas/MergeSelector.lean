import Verif.Spec.MergeStrategies
import Verif.Lemmas.MasBasic
import Mathlib.Data.List.Lex
import Mathlib.Tactic.Ring

namespace Verif.Mas

/-! ### pairs -/

theorem mem_allPairs {l : List Nat} {c : Nat × Nat} (h : c ∈ allPairs l) : c.1 ∈ l ∧ c.2 ∈ l := by
  induction l with
  | nil => exact absurd h (by simp [allPairs])
  | cons a l ih =>
    rw [allPairs] at h
    rcases List.mem_append.mp h with h | h
    · rw [List.mem_map] at h
      obtain ⟨b, hb, rfl⟩ := h
      exact ⟨by simp, by simp [hb]⟩
    · exact ⟨List.mem_cons_of_mem _ (ih h).1, List.mem_cons_of_mem _ (ih h).2⟩

theorem allPairs_ne {l : List Nat} (hl : l.Nodup) {c : Nat × Nat} (h : c ∈ allPairs l) : c.1 ≠ c.2 := by
  induction l with
  | nil => exact absurd h (by simp [allPairs])
  | cons a l ih =>
    rw [List.nodup_cons] at hl
    rw [allPairs] at h
    rcases List.mem_append.mp h with h | h
    · rw [List.mem_map] at h
      obtain ⟨b, hb, rfl⟩ := h
      intro e
      have e : a = b := e
      exact hl.1 (e ▸ hb)
    · exact ih hl.2 h

theorem allPairs_nodup {l : List Nat} (hl : l.Nodup) : (allPairs l).Nodup := by
  induction l with
  | nil => simp [allPairs]
  | cons a l ih =>
    rw [List.nodup_cons] at hl
    rw [allPairs, List.nodup_append]
    refine ⟨hl.2.map (fun x y e => (Prod.mk.inj e).2), ih hl.2, ?_⟩
    rintro c hc d hd rfl
    rw [List.mem_map] at hc
    obtain ⟨b, hb, rfl⟩ := hc
    exact hl.1 (mem_allPairs hd).1

theorem allPairs_oneWay {l : List Nat} (hl : l.Nodup) {c : Nat × Nat} (h : c ∈ allPairs l) : (c.2, c.1) ∉ allPairs l := by
  induction l with
  | nil => exact absurd h (by simp [allPairs])
  | cons a l ih =>
    rw [List.nodup_cons] at hl
    rw [allPairs] at h ⊢
    intro h'
    rcases List.mem_append.mp h with h | h <;> rcases List.mem_append.mp h' with h' | h'
    · rw [List.mem_map] at h h'
      obtain ⟨b, hb, rfl⟩ := h
      obtain ⟨b', hb', e⟩ := h'
      exact hl.1 ((Prod.mk.inj e).1 ▸ hb)
    · rw [List.mem_map] at h
      obtain ⟨b, hb, rfl⟩ := h
      exact hl.1 (mem_allPairs h').2
    · rw [List.mem_map] at h'
      obtain ⟨b, hb, e⟩ := h'
      exact hl.1 (by rw [(Prod.mk.inj e).1]; exact (mem_allPairs h).2)
    · exact ih hl.2 h h'

theorem allPairs_total {l : List Nat} {a b : Nat} (ha : a ∈ l) (hb : b ∈ l) (hne : a ≠ b) : (a, b) ∈ allPairs l ∨ (b, a) ∈ allPairs l := by
  induction l with
  | nil => exact absurd ha (by simp)
  | cons x l ih =>
    simp only [allPairs, List.mem_append, List.mem_map]
    rcases List.mem_cons.mp ha with ea | ha' <;> rcases List.mem_cons.mp hb with eb | hb'
    · exact absurd (ea.trans eb.symm) hne
    · exact .inl (.inl ⟨b, hb', by rw [ea]⟩)
    · exact .inr (.inl ⟨a, ha', by rw [eb]⟩)
    · rcases ih ha' hb' with h | h
      · exact .inl (.inr h)
      · exact .inr (.inr h)

theorem candidates_allPairs {F : FTS} {l : List Nat} (hl : l.Nodup) (h2 : 2 ≤ l.length) (ha : ∀ i ∈ l, F.active i = true) : Candidates F (allPairs l) := by
  refine ⟨?_, allPairs_nodup hl, fun c hc => ⟨allPairs_ne hl hc, ha _ (mem_allPairs hc).1, ha _ (mem_allPairs hc).2⟩, fun c hc => allPairs_oneWay hl hc⟩
  rcases l with _ | ⟨a, _ | ⟨b, l⟩⟩
  · simp at h2
  · simp at h2
  · simp [allPairs]

theorem Candidates.sub {F : FTS} {cands rem : List (Nat × Nat)} (h : Candidates F cands) (hs : rem.Sublist cands) (hne : rem ≠ []) : Candidates F rem :=
  ⟨hne, hs.nodup h.nodup, fun c hc => h.active c (hs.subset hc), fun c hc hc' => h.oneWay c (hs.subset hc) (hs.subset hc')⟩

/-! ### filtering -/

theorem foldl_best (scores : List ℚ) : ∀ b : ℚ, let r := scores.foldl (fun b s => if s < b then s else b) b
    r ≤ b ∧ (∀ s ∈ scores, r ≤ s) ∧ (r = b ∨ r ∈ scores) := by
  induction scores with
  | nil => intro b; simp
  | cons s scores ih =>
    intro b
    obtain ⟨h1, h2, h3⟩ := ih (if s < b then s else b)
    simp only [List.foldl_cons]
    split at h1 <;> rename_i hs
    · simp only [hs, if_true] at h2 h3 ⊢
      refine ⟨h1.trans hs.le, fun x hx => ?_, ?_⟩
      · rcases List.mem_cons.mp hx with rfl | hx
        · exact h1
        · exact h2 x hx
      · rcases h3 with h3 | h3
        · exact .inr (by rw [h3]; simp)
        · exact .inr (List.mem_cons_of_mem _ h3)
    · simp only [hs, if_false] at h2 h3 ⊢
      refine ⟨h1, fun x hx => ?_, ?_⟩
      · rcases List.mem_cons.mp hx with rfl | hx
        · exact h1.trans (not_lt.mp hs)
        · exact h2 x hx
      · rcases h3 with h3 | h3
        · exact .inl h3
        · exact .inr (List.mem_cons_of_mem _ h3)

theorem remaining_spec {cands : List (Nat × Nat)} {scores : List ℚ} (hl : scores.length = cands.length) (hne : cands ≠ []) (hinf : ∀ s ∈ scores, s ≤ (inf : ℚ)) :
    ∃ rem, remainingCandidates cands scores = some rem ∧ rem ≠ [] ∧ rem.Sublist cands ∧ ∃ best : ℚ, (∀ s ∈ scores, best ≤ s)
      ∧ ∀ c, c ∈ rem ↔ ∃ i : Nat, cands[i]? = some c ∧ scores[i]? = some best := by
  obtain ⟨h1, h2, h3⟩ := foldl_best scores (inf : ℚ)
  have hmem : ∀ c, c ∈ ((cands.zip scores).filter (fun c => decide (c.2 = bestScore scores))).map (·.1) ↔
      ∃ i : Nat, cands[i]? = some c ∧ scores[i]? = some (bestScore scores) := by
    intro c
    rw [List.mem_map]
    constructor
    · rintro ⟨⟨c', s⟩, hm, rfl⟩
      rw [List.mem_filter] at hm
      obtain ⟨i, hi⟩ := List.getElem?_of_mem hm.1
      rw [List.getElem?_zip_eq_some] at hi
      have e : s = bestScore scores := by simpa using hm.2
      exact ⟨i, hi.1, e ▸ hi.2⟩
    · rintro ⟨i, hi1, hi2⟩
      exact ⟨(c, bestScore scores), List.mem_filter.mpr ⟨List.mem_of_getElem? (List.getElem?_zip_eq_some.mpr ⟨hi1, hi2⟩), by simp⟩, rfl⟩
  refine ⟨_, by unfold remainingCandidates; rw [if_pos hl.symm], ?_, ?_, bestScore scores, h2, hmem⟩
  · have hb : bestScore scores ∈ scores := by
      rcases h3 with h3 | h3
      · cases hs : scores with
        | nil => rw [hs] at hl; exact absurd (List.length_eq_zero_iff.mp hl.symm) hne
        | cons s ss =>
          have e : bestScore scores = s := by
            have a1 := h2 s (by rw [hs]; simp)
            have a2 := hinf s (by rw [hs]; simp)
            have h3 : bestScore scores = (inf : ℚ) := h3
            have a1 : bestScore scores ≤ s := a1
            rw [h3] at a1 ⊢
            exact le_antisymm a1 a2
          rw [← hs, e, hs]; simp
      · exact h3
    obtain ⟨i, hi⟩ := List.getElem?_of_mem hb
    have hi' : i < cands.length := by rw [← hl]; exact (List.getElem?_eq_some_iff.mp hi).1
    intro e
    have := (hmem cands[i]).mpr ⟨i, List.getElem?_eq_getElem hi', hi⟩
    rw [e] at this
    exact absurd this (by simp)
  · have : (cands.zip scores).map (·.1) = cands := List.map_fst_zip (by omega)
    conv_rhs => rw [← this]
    exact List.filter_sublist.map _

theorem length_one {α : Type} {l : List α} (hn : l.Nodup) (hne : l ≠ []) (h : ∀ a ∈ l, ∀ b ∈ l, a = b) : ∃ a, l = [a] := by
  rcases l with _ | ⟨a, _ | ⟨b, l⟩⟩
  · exact absurd rfl hne
  · exact ⟨a, rfl⟩
  · have := h a (by simp) b (by simp)
    rw [List.nodup_cons] at hn
    exact absurd (by simp [this]) hn.1

theorem filterLoop_spec {n : Nat} {Good : FTS → Prop} {F : FTS} (hn : F.factors.length < 2 * n) (hG : Good F) : ∀ (fs : List Scoring) (cands : List (Nat × Nat)),
    (∀ f ∈ fs, f.Scores n Good) → Candidates F cands →
    ∃ rem, filterLoop F fs cands = some rem ∧ rem ≠ [] ∧ rem.Sublist cands ∧ ((∃ f ∈ fs, f.BreaksTies n Good) → ∃ c, rem = [c]) := by
  intro fs
  induction fs with
  | nil => intro cands _ hc; exact ⟨cands, rfl, hc.ne, List.Sublist.refl _, fun ⟨f, hf, _⟩ => absurd hf (by simp)⟩
  | cons f fs ih =>
    intro cands hf hc
    obtain ⟨scores, e, hl, hinf⟩ := hf f (List.mem_cons_self ..) F cands hn hG hc
    obtain ⟨rem, er, hne, hsub, best, hb1, hb2⟩ := remaining_spec hl hc.ne hinf
    rw [filterLoop, e]
    simp only [er]
    by_cases h1 : rem.length = 1
    · rw [if_pos h1]
      exact ⟨rem, rfl, hne, hsub, fun _ => List.length_eq_one_iff.mp h1⟩
    · rw [if_neg h1]
      obtain ⟨rem', e', hne', hsub', hu⟩ := ih rem (fun g hg => hf g (List.mem_cons_of_mem _ hg)) (hc.sub hsub hne)
      refine ⟨rem', e', hne', hsub'.trans hsub, ?_⟩
      rintro ⟨g, hg, hgu⟩
      rcases List.mem_cons.mp hg with rfl | hg
      · exfalso
        obtain ⟨scores', e'', i, s, hi, hmin⟩ := hgu F cands hn hG hc
        rw [e] at e''
        obtain rfl := Option.some.inj e''
        have hidx : ∀ c ∈ rem, cands[i]? = some c := by
          intro c hcm
          obtain ⟨j, hj1, hj2⟩ := (hb2 c).mp hcm
          by_cases hij : j = i
          · exact hij ▸ hj1
          · have h1 := hmin j best hij hj2
            have h2 := hb1 s (List.mem_of_getElem? hi)
            exact absurd h1 (not_lt.mpr h2)
        obtain ⟨c, hc1⟩ := length_one (hsub.nodup hc.nodup) hne (fun a ha b hb => Option.some.inj ((hidx a ha).symm.trans (hidx b hb)))
        exact h1 (by rw [hc1]; rfl)
      · exact hu ⟨g, hg, hgu⟩

/-- with a scoring function that breaks ties, filtering always returns one of the candidates -/
theorem selectMerge_ok {n : Nat} {Good : FTS → Prop} {F : FTS} (hn : F.factors.length < 2 * n) (hG : Good F) {fs : List Scoring} {cands : List (Nat × Nat)}
    (hf : ∀ f ∈ fs, f.Scores n Good) (hu : ∃ f ∈ fs, f.BreaksTies n Good) (hc : Candidates F cands) : ∃ p ∈ cands, selectMerge fs F cands = .ok p := by
  obtain ⟨rem, e, hne, hsub, h⟩ := filterLoop_spec hn hG fs cands hf hc
  obtain ⟨c, rfl⟩ := h hu
  exact ⟨c, hsub.subset (by simp), by unfold selectMerge; rw [e]⟩

/-! ### lexicographic minimality -/

theorem filterLoop_lex {F : FTS} : ∀ (gs : List (FTS → Nat × Nat → Option ℚ)) (vs : List (Nat × Nat → ℚ)) (cands : List (Nat × Nat)),
    List.Forall₂ (fun g v => ∀ c ∈ cands, g F c = some (v c) ∧ v c ≤ (inf : ℚ)) gs vs → cands ≠ [] →
    ∃ rem, filterLoop F (gs.map perPair) cands = some rem ∧ rem ≠ [] ∧ rem.Sublist cands
      ∧ (1 < rem.length → ∀ p ∈ rem, ∀ q ∈ rem, vs.map (fun v => v p) = vs.map (fun v => v q))
      ∧ ∀ p ∈ rem, ∀ q ∈ cands, q ∉ rem → List.Lex (· < ·) (vs.map (fun v => v p)) (vs.map (fun v => v q)) := by
  intro gs
  induction gs with
  | nil =>
    intro vs cands h hne
    cases h
    exact ⟨cands, rfl, hne, List.Sublist.refl _, fun _ _ _ _ _ => rfl, fun p _ q hq hn => absurd hq hn⟩
  | cons g gs ih =>
    intro vs cands h hne
    cases h with
    | @cons _ v _ vs hg hgs =>
      obtain ⟨scores, e⟩ := mapAll_defined (f := g F) (l := cands) (fun c hc => ⟨_, (hg c hc).1⟩)
      have hl := mapAll_length e
      have hinf : ∀ s ∈ scores, s ≤ (inf : ℚ) := by
        intro s hs
        obtain ⟨c, hc, ec⟩ := mapAll_mem e hs
        rw [(hg c hc).1] at ec
        exact Option.some.inj ec ▸ (hg c hc).2
      obtain ⟨rem, er, hrne, hsub, best, hb1, hb2⟩ := remaining_spec hl hne hinf
      have hrem : ∀ c ∈ cands, c ∈ rem ↔ v c = best := by
        intro c hc
        rw [hb2 c]
        constructor
        · rintro ⟨i, hi1, hi2⟩
          obtain ⟨s, hs1, hs2⟩ := mapAll_getElem? e hi1
          rw [hi2] at hs1
          rw [(hg c hc).1] at hs2
          rw [Option.some.inj hs2, ← Option.some.inj hs1]
        · intro hv
          obtain ⟨i, hi⟩ := List.getElem?_of_mem hc
          obtain ⟨s, hs1, hs2⟩ := mapAll_getElem? e hi
          rw [(hg c hc).1] at hs2
          exact ⟨i, hi, by rw [hs1, ← Option.some.inj hs2, hv]⟩
      have hlt : ∀ p ∈ rem, ∀ q ∈ cands, q ∉ rem → v p < v q := by
        intro p hp q hq hqn
        have e1 := (hrem p (hsub.subset hp)).mp hp
        have e2 : v q ≠ best := fun e => hqn ((hrem q hq).mpr e)
        obtain ⟨s, hs, es⟩ := mapAll_mem' e hq
        rw [(hg q hq).1] at es
        have := hb1 s hs
        rw [← Option.some.inj es] at this
        rw [e1]
        exact lt_of_le_of_ne this (Ne.symm e2)
      rw [List.map_cons, filterLoop]
      have ep : perPair g F cands = some scores := e
      simp only [ep, er]
      by_cases h1 : rem.length = 1
      · rw [if_pos h1]
        refine ⟨rem, rfl, hrne, hsub, fun h => absurd h (by omega), fun p hp q hq hqn => ?_⟩
        exact List.Lex.rel (hlt p hp q hq hqn)
      · rw [if_neg h1]
        obtain ⟨rem', e', hne', hsub', heq', hlex'⟩ := ih vs rem (hgs.imp (fun _ _ hx c hc => hx c (hsub.subset hc))) hrne
        have hv : ∀ p ∈ rem, ∀ q ∈ rem, v p = v q := fun p hp q hq => by
          rw [(hrem p (hsub.subset hp)).mp hp, (hrem q (hsub.subset hq)).mp hq]
        refine ⟨rem', e', hne', hsub'.trans hsub, fun h p hp q hq => ?_, fun p hp q hq hqn => ?_⟩
        · simp only [List.map_cons]
          rw [heq' h p hp q hq, hv p (hsub'.subset hp) q (hsub'.subset hq)]
        · by_cases hqr : q ∈ rem
          · simp only [List.map_cons]
            rw [hv p (hsub'.subset hp) q hqr]
            exact List.Lex.cons (hlex' p hp q hqr hqn)
          · exact List.Lex.rel (hlt p (hsub'.subset hp) q hq hqr)

/-! ### the scoring functions -/

theorem perPair_scores {g : FTS → Nat × Nat → Option ℚ} {n : Nat} {Good : FTS → Prop}
    (h : ∀ (F : FTS) (c : Nat × Nat), F.factors.length < 2 * n → Good F → c.1 ≠ c.2 → F.active c.1 = true → F.active c.2 = true → ∃ s, g F c = some s ∧ s ≤ (inf : ℚ)) :
    (perPair g).Scores n Good := by
  intro F cands hn hG hc
  have hs : ∀ c ∈ cands, ∃ s, g F c = some s ∧ s ≤ (inf : ℚ) := fun c hm => h F c hn hG (hc.active c hm).1 (hc.active c hm).2.1 (hc.active c hm).2.2
  obtain ⟨scores, e⟩ := mapAll_defined (f := g F) (l := cands) (fun c hm => ⟨_, (hs c hm).choose_spec.1⟩)
  refine ⟨scores, e, mapAll_length e, fun s hm => ?_⟩
  obtain ⟨c, hcm, ec⟩ := mapAll_mem e hm
  obtain ⟨s', e', h'⟩ := hs c hcm
  rw [ec] at e'
  exact Option.some.inj e' ▸ h'

theorem exists_least {scores : List ℚ} (hne : scores ≠ []) (hinj : scores.Nodup) :
    ∃ (i : Nat) (s : ℚ), scores[i]? = some s ∧ ∀ (j : Nat) (s' : ℚ), j ≠ i → scores[j]? = some s' → s < s' := by
  have : ∃ s ∈ scores, ∀ x ∈ scores, s ≤ x := by
    clear hinj
    induction scores with
    | nil => exact absurd rfl hne
    | cons a l ih =>
      by_cases hl : l = []
      · subst hl; exact ⟨a, by simp, by simp⟩
      · obtain ⟨s, hs, hmin⟩ := ih hl
        rcases le_total a s with h | h
        · refine ⟨a, by simp, fun x hx => ?_⟩
          rcases List.mem_cons.mp hx with rfl | hx
          · exact le_refl _
          · exact h.trans (hmin x hx)
        · refine ⟨s, by simp [hs], fun x hx => ?_⟩
          rcases List.mem_cons.mp hx with rfl | hx
          · exact h
          · exact hmin x hx
  obtain ⟨s, hs, hmin⟩ := this
  obtain ⟨i, hi⟩ := List.getElem?_of_mem hs
  refine ⟨i, s, hi, fun j s' hji hj => lt_of_le_of_ne (hmin s' (List.mem_of_getElem? hj)) (fun e => hji ?_)⟩
  subst e
  obtain ⟨h1, e1⟩ := List.getElem?_eq_some_iff.mp hi
  obtain ⟨h2, e2⟩ := List.getElem?_eq_some_iff.mp hj
  exact (List.Nodup.getElem_inj_iff hinj).mp (e2.trans e1.symm)

theorem orderScore_spec {order : List (Nat × Nat)} {c : Nat × Nat} (h : c ∈ order ∨ (c.2, c.1) ∈ order) :
    ∃ i : Nat, i < order.length ∧ orderScore order c = some (i : ℚ) ∧ (order[i]? = some c ∨ order[i]? = some (c.2, c.1)) := by
  have hex : ∃ o ∈ order, (fun o : Nat × Nat => decide ((o.1 = c.1 ∧ o.2 = c.2) ∨ (o.2 = c.1 ∧ o.1 = c.2))) o = true := by
    rcases h with h | h
    · exact ⟨c, h, by simp⟩
    · exact ⟨_, h, by simp⟩
  cases hf : order.findIdx? (fun o : Nat × Nat => decide ((o.1 = c.1 ∧ o.2 = c.2) ∨ (o.2 = c.1 ∧ o.1 = c.2))) with
  | none =>
    rw [List.findIdx?_eq_none_iff] at hf
    obtain ⟨o, ho, hp⟩ := hex
    have this := hf o ho
    have hp : decide ((o.1 = c.1 ∧ o.2 = c.2) ∨ (o.2 = c.1 ∧ o.1 = c.2)) = true := hp
    rw [hp] at this
    exact absurd this (by simp)
  | some i =>
    rw [List.findIdx?_eq_some_iff_getElem] at hf
    obtain ⟨hi, hp, _⟩ := hf
    refine ⟨i, hi, ?_, ?_⟩
    · unfold orderScore
      have : order.findIdx? (fun o : Nat × Nat => decide ((o.1 = c.1 ∧ o.2 = c.2) ∨ (o.2 = c.1 ∧ o.1 = c.2))) = some i := by
        rw [List.findIdx?_eq_some_iff_getElem]; exact ⟨hi, hp, by assumption⟩
      rw [this]; rfl
    · rw [List.getElem?_eq_getElem hi]
      simp only [decide_eq_true_eq] at hp
      rcases hp with ⟨h1, h2⟩ | ⟨h1, h2⟩
      · exact .inl (congrArg some (Prod.ext h1 h2))
      · exact .inr (congrArg some (Prod.ext h2 h1))

/-! ### the order of the candidates -/

theorem allPairs_length (l : List Nat) : 2 * (allPairs l).length = l.length * (l.length - 1) := by
  induction l with
  | nil => rfl
  | cons a l ih =>
    simp only [allPairs, List.length_append, List.length_map, List.length_cons, Nat.add_sub_cancel]
    rw [Nat.mul_add, ih]
    cases hl : l.length with
    | zero => simp
    | succ m => simp only [Nat.add_sub_cancel]; ring

theorem active_lt {F : FTS} {i : Nat} (h : F.active i = true) : i < F.factors.length := by
  unfold FTS.active FTS.factor at h
  by_contra hc
  rw [List.getElem?_eq_none (by omega)] at h
  simp at h

theorem totalOrder_score {n : Nat} {l : List Nat} (hmem : ∀ i, i ∈ l ↔ i < 2 * n - 1) {F : FTS} (hn : F.factors.length < 2 * n) {c : Nat × Nat} (hne : c.1 ≠ c.2)
    (h1 : F.active c.1 = true) (h2 : F.active c.2 = true) :
    ∃ i : Nat, i < (allPairs l).length ∧ orderScore (allPairs l) c = some (i : ℚ) ∧ ((allPairs l)[i]? = some c ∨ (allPairs l)[i]? = some (c.2, c.1)) := by
  have l1 := active_lt h1
  have l2 := active_lt h2
  exact orderScore_spec (allPairs_total ((hmem c.1).mpr (by omega)) ((hmem c.2).mpr (by omega)) hne)

theorem totalOrder_breaksTies {n : Nat} {l : List Nat} (hmem : ∀ i, i ∈ l ↔ i < 2 * n - 1) (Good : FTS → Prop) : (totalOrder (allPairs l)).BreaksTies n Good := by
  intro F cands hn hG hc
  have hs : ∀ c ∈ cands, _ := fun c hm => totalOrder_score (c := c) hmem hn (hc.active c hm).1 (hc.active c hm).2.1 (hc.active c hm).2.2
  obtain ⟨scores, e⟩ := mapAll_defined (f := orderScore (allPairs l)) (l := cands) (fun c hm => ⟨_, (hs c hm).choose_spec.2.1⟩)
  refine ⟨scores, e, exists_least ?_ ?_⟩
  · intro h
    have := mapAll_length e
    rw [h] at this
    exact hc.ne (List.length_eq_zero_iff.mp this.symm)
  · rw [List.nodup_iff_injective_getElem]
    rintro ⟨i, hi⟩ ⟨j, hj⟩ hij
    simp only at hij
    obtain ⟨c, hc1, ec⟩ := mapAll_getElem?' e (List.getElem?_eq_getElem hi)
    obtain ⟨d, hd1, ed⟩ := mapAll_getElem?' e (List.getElem?_eq_getElem hj)
    obtain ⟨a, _, ea, ha⟩ := hs c (List.mem_of_getElem? hc1)
    obtain ⟨b, _, eb, hb⟩ := hs d (List.mem_of_getElem? hd1)
    rw [ec] at ea
    rw [ed] at eb
    have hab : a = b := by
      have : (a : ℚ) = b := by rw [← Option.some.inj ea, ← Option.some.inj eb]; exact hij
      exact_mod_cast this
    subst hab
    have hcd : c = d ∨ c = (d.2, d.1) := by
      rcases ha with ha | ha <;> rcases hb with hb | hb <;> rw [ha] at hb <;> have hb := Option.some.inj hb
      · exact .inl hb
      · exact .inr hb
      · exact .inr (by rw [← hb])
      · left; have := Prod.mk.inj hb; exact Prod.ext this.2 this.1
    rcases hcd with rfl | rfl
    · obtain ⟨x1, y1⟩ := List.getElem?_eq_some_iff.mp hc1
      obtain ⟨x2, y2⟩ := List.getElem?_eq_some_iff.mp hd1
      simp only [Fin.mk.injEq]
      exact (List.Nodup.getElem_inj_iff hc.nodup).mp (y1.trans y2.symm)
    · exact absurd (List.mem_of_getElem? hc1) (hc.oneWay d (List.mem_of_getElem? hd1))

theorem totalOrder_le {n : Nat} {l : List Nat} (hmem : ∀ i, i ∈ l ↔ i < 2 * n - 1) (hlen : l.length = 2 * n - 1) (hsmall : n ≤ 32768) {F : FTS} (hn : F.factors.length < 2 * n)
    {c : Nat × Nat} (hne : c.1 ≠ c.2) (h1 : F.active c.1 = true) (h2 : F.active c.2 = true) : ∃ s, orderScore (allPairs l) c = some s ∧ s ≤ (inf : ℚ) := by
  obtain ⟨i, hi, e, -⟩ := totalOrder_score (c := c) hmem hn hne h1 h2
  refine ⟨_, e, ?_⟩
  have h2 := allPairs_length l
  rw [hlen] at h2
  have h3 : (2 * n - 1) * (2 * n - 1 - 1) ≤ 65535 * 65534 := Nat.mul_le_mul (by omega) (by omega)
  have h4 : i ≤ inf := by
    have : inf = 2147483647 := by decide
    rw [this]
    omega
  exact_mod_cast h4

theorem totalOrder_scores {n : Nat} {l : List Nat} (hmem : ∀ i, i ∈ l ↔ i < 2 * n - 1) (hlen : l.length = 2 * n - 1) (hsmall : n ≤ 32768) (Good : FTS → Prop) :
    (totalOrder (allPairs l)).Scores n Good :=
  perPair_scores (fun _ _ hn _ hne h1 h2 => totalOrder_le hmem hlen hsmall hn hne h1 h2)

theorem singleRandom_both {draw : FTS → List (Nat × Nat) → Nat} {n : Nat} {Good : FTS → Prop} (hd : ∀ F cands, cands ≠ [] → draw F cands < cands.length) :
    (singleRandom draw).Scores n Good ∧ (singleRandom draw).BreaksTies n Good := by
  have e : ∀ F cands, Candidates F cands → singleRandom draw F cands = some ((List.range cands.length).map (fun i => if i = draw F cands then 0 else (inf : ℚ))) := by
    intro F cands hc
    unfold singleRandom
    rw [if_pos (hd F cands hc.ne)]
  have hpos : (0 : ℚ) < (inf : ℚ) := by have : 0 < inf := by decide
                                        exact_mod_cast this
  refine ⟨fun F cands hn hG hc => ⟨_, e F cands hc, by simp, fun s hs => ?_⟩, fun F cands hn hG hc => ⟨_, e F cands hc, draw F cands, 0, ?_, fun j s' hj hs => ?_⟩⟩
  · rw [List.mem_map] at hs
    obtain ⟨i, _, rfl⟩ := hs
    split
    · exact hpos.le
    · exact le_refl _
  · rw [List.getElem?_map, List.getElem?_range (hd F cands hc.ne)]
    simp
  · rw [List.getElem?_map, Option.map_eq_some_iff] at hs
    obtain ⟨i, hi, rfl⟩ := hs
    obtain ⟨h1, h2⟩ := List.getElem?_eq_some_iff.mp hi
    rw [List.getElem_range] at h2
    subst h2
    rw [if_neg hj]
    exact hpos

theorem goalScore_spec {F : FTS} {c : Nat × Nat} {f g : Factor} (h1 : F.factor c.1 = some f) (h2 : F.factor c.2 = some g) :
    goalScore F c = some (if f.ts.goals.any (fun b => !b) || g.ts.goals.any (fun b => !b) then 0 else (inf : ℚ)) := by
  have key : ∀ {i : Nat} {f : Factor}, F.factor i = some f → goalRelevantAt F i = some (f.ts.goals.any (fun b => !b)) := by
    intro i f h
    unfold FTS.factor at h
    unfold goalRelevantAt
    cases hx : F.factors[i]? with
    | none => rw [hx] at h; exact absurd h (by simp)
    | some o =>
      rw [hx] at h
      have h : o = some f := h
      rw [h]; rfl
  unfold goalScore
  rw [key h1, key h2]

theorem factor_of_active {F : FTS} {i : Nat} (h : F.active i = true) : ∃ f, F.factor i = some f := Option.isSome_iff_exists.mp h

theorem goalRelevance_scores (n : Nat) (Good : FTS → Prop) : goalRelevance.Scores n Good := by
  refine perPair_scores (fun F c hn hG hne h1 h2 => ?_)
  obtain ⟨f, hf⟩ := factor_of_active h1
  obtain ⟨g, hg⟩ := factor_of_active h2
  refine ⟨_, goalScore_spec hf hg, ?_⟩
  split
  · have : 0 ≤ inf := by decide
    exact_mod_cast this
  · exact le_refl _

/-! ### DFP -/

theorem minTarget_spec (h : List Nat) : ∀ (trs : List (Nat × Nat)) (r : Nat), (∀ tr ∈ trs, tr.2 < h.length) → ∃ m, minTarget h trs r = some m ∧ m ≤ r
    ∧ (m = r ∨ ∃ tr ∈ trs, h[tr.2]? = some m) ∧ ∀ tr ∈ trs, ∀ d, h[tr.2]? = some d → m ≤ d := by
  intro trs
  induction trs with
  | nil => intro r _; exact ⟨r, rfl, Nat.le_refl _, .inl rfl, fun tr htr => absurd htr (by simp)⟩
  | cons tr trs ih =>
    intro r hlt
    have h1 := hlt tr (List.mem_cons_self ..)
    have e := List.getElem?_eq_getElem h1
    obtain ⟨m, em, m1, m2, m3⟩ := ih (min r h[tr.2]) (fun x hx => hlt x (List.mem_cons_of_mem _ hx))
    refine ⟨m, by rw [minTarget, e]; exact em, m1.trans (Nat.min_le_left _ _), ?_, fun x hx d hd => ?_⟩
    · rcases m2 with m2 | ⟨x, hx, ex⟩
      · rcases Nat.le_total r h[tr.2] with hle | hle
        · exact .inl (by rw [m2, Nat.min_eq_left hle])
        · exact .inr ⟨tr, by simp, by rw [m2, Nat.min_eq_right hle, e]⟩
      · exact .inr ⟨x, by simp [hx], ex⟩
    · rcases List.mem_cons.mp hx with rfl | hx
      · rw [e] at hd
        exact Option.some.inj hd ▸ m1.trans (Nat.min_le_right _ _)
      · exact m3 x hx d hd

theorem setRanks_spec (r : Option Nat) : ∀ (ls : List Nat) (ranks : List (Option Nat)), (∀ l ∈ ls, l < ranks.length) →
    ∃ out, setRanks r ls ranks = some out ∧ out.length = ranks.length ∧ (∀ l ∈ ls, out[l]? = some r) ∧ ∀ l : Nat, l ∉ ls → out[l]? = ranks[l]? := by
  intro ls
  induction ls with
  | nil => intro ranks _; exact ⟨ranks, rfl, rfl, fun l hl => absurd hl (by simp), fun _ _ => rfl⟩
  | cons x ls ih =>
    intro ranks h
    have hx := h x (List.mem_cons_self ..)
    obtain ⟨out, e, hl, h1, h2⟩ := ih (ranks.set x r) (fun l hl => by rw [List.length_set]; exact h l (List.mem_cons_of_mem _ hl))
    refine ⟨out, by rw [setRanks, if_pos hx]; exact e, by rw [hl, List.length_set], fun l hm => ?_, fun l hm => ?_⟩
    · by_cases hls : l ∈ ls
      · exact h1 l hls
      · have : l = x := by rcases List.mem_cons.mp hm with h | h
                           · exact h
                           · exact absurd h hls
        subst this
        rw [h2 l hls, List.getElem?_set_self hx]
    · rw [List.mem_cons, not_or] at hm
      rw [h2 l hm.2, List.getElem?_set_ne (Ne.symm hm.1)]

theorem groupRank_defined {T : TS} {h : List Nat} {g : LocalLabel} (hlt : ∀ tr ∈ g.transitions, tr.2 < h.length) : ∃ r, groupRank T h g = some r := by
  unfold groupRank
  split
  · obtain ⟨m, e, -⟩ := minTarget_spec h g.transitions inf hlt
    exact ⟨some m, by rw [e]; rfl⟩
  · exact ⟨none, rfl⟩

theorem rankLoop_spec (T : TS) (h : List Nat) : ∀ (gs : List LocalLabel) (ranks : List (Option Nat)), (∀ g ∈ gs, ∀ tr ∈ g.transitions, tr.2 < h.length) →
    (∀ g ∈ gs, ∀ l ∈ g.labels, l < ranks.length) → (gs.flatMap (·.labels)).Nodup →
    ∃ out, rankLoop T h gs ranks = some out ∧ out.length = ranks.length ∧ (∀ g ∈ gs, ∀ l ∈ g.labels, ∃ r, groupRank T h g = some r ∧ out[l]? = some r)
      ∧ ∀ l : Nat, (∀ g ∈ gs, l ∉ g.labels) → out[l]? = ranks[l]? := by
  intro gs
  induction gs with
  | nil => intro ranks _ _ _; exact ⟨ranks, rfl, rfl, fun g hg => absurd hg (by simp), fun _ _ => rfl⟩
  | cons g gs ih =>
    intro ranks h1 h2 hnd
    rw [List.flatMap_cons, List.nodup_append] at hnd
    obtain ⟨r, er⟩ := groupRank_defined (T := T) (h1 g (List.mem_cons_self ..))
    obtain ⟨ranks', e', hl', ha, hb⟩ := setRanks_spec r g.labels ranks (h2 g (List.mem_cons_self ..))
    obtain ⟨out, e, hl, hc, hd⟩ := ih ranks' (fun x hx => h1 x (List.mem_cons_of_mem _ hx))
      (fun x hx l hxl => by rw [hl']; exact h2 x (List.mem_cons_of_mem _ hx) l hxl) hnd.2.1
    refine ⟨out, by rw [rankLoop, er]; simp only [e']; exact e, by rw [hl, hl'], fun x hx l hxl => ?_, fun l hn => ?_⟩
    · rcases List.mem_cons.mp hx with rfl | hx
      · refine ⟨r, er, ?_⟩
        rw [hd l (fun y hy hly => hnd.2.2 l hxl l (List.mem_flatMap.mpr ⟨y, hy, hly⟩) rfl)]
        exact ha l hxl
      · exact hc x hx l hxl
    · rw [hd l (fun y hy => hn y (List.mem_cons_of_mem _ hy)), hb l (hn g (List.mem_cons_self ..))]

/-- the ranks of the labels of a factor -/
theorem labelRanks_spec {F : FTS} (hF : DfpReady F) {i : Nat} {f : Factor} (hf : F.factor i = some f) :
    ∃ ranks, labelRanks F i = some ranks ∧ ranks.length = F.labels.costs.length ∧ (∀ l r, ranks[l]? = some (some r) → ¬ Irrelevant f l ∧ IsRank f l r ∧ r ≤ inf)
      ∧ ∀ l, ¬ Irrelevant f l → ∃ r, ranks[l]? = some (some r) := by
  obtain ⟨⟨h, eh, htr⟩, hnd, hlt, hnt⟩ := hF i f hf
  obtain ⟨out, e, hl, hin, hout⟩ := rankLoop_spec f.ts h f.ts.infos (List.replicate F.labels.costs.length none) htr
    (fun g hg l hgl => by rw [List.length_replicate]; exact hlt g hg l hgl) hnd
  refine ⟨out, by unfold labelRanks; rw [hf]; simp only [eh]; exact e, by rw [hl, List.length_replicate], fun l r hr => ?_, fun l hirr => ?_⟩
  · by_cases hex : ∃ g ∈ f.ts.infos, l ∈ g.labels
    · obtain ⟨g, hg, hgl⟩ := hex
      obtain ⟨r', er, eo⟩ := hin g hg l hgl
      rw [hr] at eo
      obtain rfl := Option.some.inj eo
      unfold groupRank at er
      split at er
      · rename_i hrel
        obtain ⟨m, em, m1, m2, m3⟩ := minTarget_spec h g.transitions inf (htr g hg)
        rw [em] at er
        have er : some (some m) = some (some r) := er
        obtain rfl := Option.some.inj (Option.some.inj er)
        refine ⟨fun hirr => ?_, ⟨h, g, eh, hg, hgl, m2, m1, m3⟩, m1⟩
        obtain ⟨i1, i2⟩ := hirr g hg hgl
        unfold groupRelevant at hrel
        rw [if_pos i1, List.any_eq_true] at hrel
        obtain ⟨tr, ht, hne⟩ := hrel
        have := i2 tr ht
        simp [this] at hne
      · exact absurd (Option.some.inj er) (by simp)
    · rw [hout l (fun g hg hgl => hex ⟨g, hg, hgl⟩)] at hr
      have := List.mem_of_getElem? hr
      rw [List.mem_replicate] at this
      exact absurd this.2 (by simp)
  · unfold Irrelevant at hirr
    push_neg at hirr
    obtain ⟨g, hg, hgl, hne⟩ := hirr
    obtain ⟨r', er, eo⟩ := hin g hg l hgl
    obtain ⟨m, em, m1, m2, m3⟩ := minTarget_spec h g.transitions inf (htr g hg)
    have hrel : groupRelevant f.ts g = true := by
      unfold groupRelevant
      split
      · rename_i hs
        obtain ⟨tr, ht, hn⟩ := hne hs
        rw [List.any_eq_true]
        exact ⟨tr, ht, by simpa using hn⟩
      · rfl
    unfold groupRank at er
    rw [if_pos hrel, em] at er
    have er : some (some m) = some r' := er
    exact ⟨m, by rw [eo, ← Option.some.inj er]⟩

theorem pairWeight_spec : ∀ (as bs : List (Option Nat)) (w : Nat), as.length = bs.length → pairWeight as bs w ≤ w
    ∧ (∀ (l a b : Nat), as[l]? = some (some a) → bs[l]? = some (some b) → pairWeight as bs w ≤ max a b)
    ∧ (pairWeight as bs w = w ∨ ∃ l a b : Nat, as[l]? = some (some a) ∧ bs[l]? = some (some b) ∧ pairWeight as bs w = max a b) := by
  intro as
  induction as with
  | nil =>
    intro bs w h
    have : bs = [] := List.length_eq_zero_iff.mp h.symm
    subst this
    exact ⟨by simp [pairWeight], fun l a b h => absurd h (by simp), .inl (by simp [pairWeight])⟩
  | cons x as ih =>
    intro bs w h
    rcases bs with _ | ⟨y, bs⟩
    · simp at h
    · have hl : as.length = bs.length := by simpa using h
      have skip : (x = none ∨ y = none) → pairWeight (x :: as) (y :: bs) w = pairWeight as bs w := by
        intro hxy
        cases x <;> cases y <;> simp [pairWeight] at hxy ⊢
      by_cases hxy : x = none ∨ y = none
      · rw [skip hxy]
        obtain ⟨h1, h2, h3⟩ := ih bs w hl
        refine ⟨h1, fun l a b ha hb => ?_, ?_⟩
        · cases l with
          | zero =>
            simp only [List.getElem?_cons_zero, Option.some.injEq] at ha hb
            rcases hxy with rfl | rfl
            · exact absurd ha (by simp)
            · exact absurd hb (by simp)
          | succ l => exact h2 l a b (by simpa using ha) (by simpa using hb)
        · rcases h3 with h3 | ⟨l, a, b, ha, hb, e⟩
          · exact .inl h3
          · exact .inr ⟨l + 1, a, b, by simpa using ha, by simpa using hb, e⟩
      · obtain ⟨a0, rfl⟩ : ∃ a, x = some a := by cases x with
          | none => exact absurd (.inl rfl) hxy
          | some a => exact ⟨a, rfl⟩
        obtain ⟨b0, rfl⟩ : ∃ b, y = some b := by cases y with
          | none => exact absurd (.inr rfl) hxy
          | some b => exact ⟨b, rfl⟩
        rw [pairWeight]
        obtain ⟨h1, h2, h3⟩ := ih bs (min w (max a0 b0)) hl
        refine ⟨h1.trans (Nat.min_le_left _ _), fun l a b ha hb => ?_, ?_⟩
        · cases l with
          | zero =>
            simp only [List.getElem?_cons_zero, Option.some.injEq] at ha hb
            rw [← ha, ← hb]
            exact h1.trans (Nat.min_le_right _ _)
          | succ l => exact h2 l a b (by simpa using ha) (by simpa using hb)
        · rcases h3 with h3 | ⟨l, a, b, ha, hb, e⟩
          · rcases Nat.le_total w (max a0 b0) with hle | hle
            · exact .inl (by rw [h3, Nat.min_eq_left hle])
            · exact .inr ⟨0, a0, b0, rfl, rfl, by rw [h3, Nat.min_eq_right hle]⟩
          · exact .inr ⟨l + 1, a, b, by simpa using ha, by simpa using hb, e⟩

theorem dfpScore_spec {F : FTS} (hF : DfpReady F) {c : Nat × Nat} {f g : Factor} (hf : F.factor c.1 = some f) (hg : F.factor c.2 = some g) :
    ∃ w : Nat, dfpScore F c = some (w : ℚ) ∧ w ≤ inf
      ∧ (∀ l, ¬ Irrelevant f l → ¬ Irrelevant g l → ∃ a b, IsRank f l a ∧ IsRank g l b ∧ w ≤ max a b)
      ∧ (w = inf ∨ ∃ l a b, ¬ Irrelevant f l ∧ ¬ Irrelevant g l ∧ IsRank f l a ∧ IsRank g l b ∧ w = max a b) := by
  obtain ⟨r1, e1, l1, a1, b1⟩ := labelRanks_spec hF hf
  obtain ⟨r2, e2, l2, a2, b2⟩ := labelRanks_spec hF hg
  obtain ⟨h1, h2, h3⟩ := pairWeight_spec r1 r2 inf (l1.trans l2.symm)
  refine ⟨pairWeight r1 r2 inf, by unfold dfpScore; rw [e1, e2], h1, fun l hl1 hl2 => ?_, ?_⟩
  · obtain ⟨a, ha⟩ := b1 l hl1
    obtain ⟨b, hb⟩ := b2 l hl2
    exact ⟨a, b, (a1 l a ha).2.1, (a2 l b hb).2.1, h2 l a b ha hb⟩
  · rcases h3 with h3 | ⟨l, a, b, ha, hb, e⟩
    · exact .inl h3
    · exact .inr ⟨l, a, b, (a1 l a ha).1, (a2 l b hb).1, (a1 l a ha).2.1, (a2 l b hb).2.1, e⟩

theorem dfp_scores (n : Nat) : dfp.Scores n DfpReady := by
  refine perPair_scores (fun F c hn hG hne h1 h2 => ?_)
  obtain ⟨f, hf⟩ := factor_of_active h1
  obtain ⟨g, hg⟩ := factor_of_active h2
  obtain ⟨w, e, hw, -⟩ := dfpScore_spec hG hf hg
  exact ⟨_, e, by exact_mod_cast hw⟩

end Verif.Mas
