import Verif.Lemmas.ProgramSplit
import Verif.Lemmas.MasBasic

/-
Lemmas about the normalisation of rules: free variables of the effect, variables that occur twice in an atom, rules without conditions.
-/
namespace Verif.PrologProgram
open Verif.Datalog Verif.BuildModel
open scoped List
variable {P V O : Type} [DecidableEq P] [DecidableEq V] [DecidableEq O]

/-- the variables of arguments -/
def tvars (ts : List (Term V O)) : List V := ts.filterMap Term.var?

theorem mem_tvars {ts : List (Term V O)} {v : V} : v ∈ tvars ts ↔ .var v ∈ ts := mem_vars (a := (⟨(), ts⟩ : SymAtom Unit V O))

/-- the pairs are numbered -/
def Numbered (e : Env P V O) (X : List V) (extra : List (V × V)) : Prop := ∀ j x, extra[j]? = some x → x.1 ∈ X ∧ x.2 = e.fresh x.1 j

theorem numbered_push {e : Env P V O} {X : List V} {extra : List (V × V)} (h : Numbered e X extra) {v : V} (hv : v ∈ X) : Numbered e X (extra ++ [(v, e.fresh v extra.length)]) := by
  intro j x hx
  by_cases hj : j < extra.length
  · rw [List.getElem?_append_left hj] at hx
    exact h j x hx
  · rw [List.getElem?_append_right (by omega)] at hx
    have hj0 : j - extra.length = 0 := by
      by_contra h0
      rw [List.getElem?_eq_none (by simp; omega)] at hx
      simp at hx
    rw [hj0] at hx
    simp only [List.getElem?_cons_zero, Option.some.injEq] at hx
    subst hx
    have : j = extra.length := by omega
    rw [this]
    exact ⟨hv, rfl⟩

theorem renameArgs_spec {e : Env P V O} (he : e.Ok) {X : List V} (hX : ∀ v ∈ X, ∀ i, e.fresh v i ∉ X) : ∀ (ts : List (Term V O)) (used : List V) (extra : List (V × V)), (∀ v ∈ tvars ts, v ∈ X) → (∀ v ∈ used, v ∈ X) → Numbered e X extra →
    (∃ new, (renameArgs e ts used extra).2 = extra ++ new ∧ (∀ x ∈ new, x.1 ∈ tvars ts ∧ .var x.2 ∈ (renameArgs e ts used extra).1) ∧ (((∀ v ∈ used, v ∉ tvars ts) ∧ (tvars ts).Nodup) → new = [] ∧ (renameArgs e ts used extra).1 = ts)) ∧
    Numbered e X (renameArgs e ts used extra).2 ∧
    (∀ σ : V → O, (∀ x ∈ (renameArgs e ts used extra).2, σ x.1 = σ x.2) → (renameArgs e ts used extra).1.map (·.value σ) = ts.map (·.value σ)) ∧
    (∀ v ∈ tvars (renameArgs e ts used extra).1, (v ∈ tvars ts ∧ v ∉ used) ∨ ∃ x j, (renameArgs e ts used extra).2[j]? = some (x, v) ∧ extra.length ≤ j ∧ x ∈ X ∧ v = e.fresh x j) ∧
    (tvars (renameArgs e ts used extra).1).Nodup ∧
    (∀ v ∈ tvars ts, v ∈ used ∨ v ∈ tvars (renameArgs e ts used extra).1) ∧
    (renameArgs e ts used extra).1.length = ts.length
  | [], used, extra, _, _, hnum => by
    simp only [renameArgs]
    exact ⟨⟨[], by simp, by simp, by simp⟩, hnum, by simp, by simp [tvars], by simp [tvars], by simp [tvars], by simp⟩
  | .const o :: ts, used, extra, hts, hused, hnum => by
    have hcons : ∀ l : List (Term V O), tvars (.const o :: l) = tvars l := fun l => rfl
    obtain ⟨⟨new, n1, n2, n3⟩, h2, h3, h4, h5, h6, h7⟩ := renameArgs_spec he hX ts used extra (by rw [hcons] at hts; exact hts) hused hnum
    simp only [renameArgs, hcons]
    refine ⟨⟨new, n1, fun x hx => ⟨(n2 x hx).1, by simp [(n2 x hx).2]⟩, fun h => ⟨(n3 h).1, by rw [(n3 h).2]⟩⟩, h2, fun σ hσ => ?_, h4, h5, h6, by simp [h7]⟩
    rw [List.map_cons, List.map_cons, h3 σ hσ]
  | .var v :: ts, used, extra, hts, hused, hnum => by
    have hcons : ∀ (w : V) (l : List (Term V O)), tvars (.var w :: l) = w :: tvars l := fun w l => rfl
    simp only [hcons, List.mem_cons, forall_eq_or_imp] at hts
    by_cases hv : v ∈ used
    · obtain ⟨⟨new, n1, n2, n3⟩, h2, h3, h4, h5, h6, h7⟩ := renameArgs_spec he hX ts used (extra ++ [(v, e.fresh v extra.length)]) hts.2 hused (numbered_push hnum hts.1)
      simp only [renameArgs, if_pos hv, hcons]
      have hlast : (renameArgs e ts used (extra ++ [(v, e.fresh v extra.length)])).2[extra.length]? = some (v, e.fresh v extra.length) := by
        rw [n1, List.append_assoc, List.getElem?_append_right (Nat.le_refl _)]
        simp
      refine ⟨⟨(v, e.fresh v extra.length) :: new, by rw [n1]; simp, fun x hx => ?_, fun h => absurd (by simp) (h.1 v hv)⟩, h2, fun σ hσ => ?_, fun w hw => ?_, ?_, fun w hw => ?_, by simp [h7]⟩
      · rcases List.mem_cons.mp hx with rfl | hx
        · exact ⟨by simp, by simp⟩
        · exact ⟨List.mem_cons_of_mem _ (n2 x hx).1, List.mem_cons_of_mem _ (n2 x hx).2⟩
      · rw [List.map_cons, List.map_cons, h3 σ hσ]
        have := hσ (v, e.fresh v extra.length) (List.mem_of_getElem? hlast)
        simp only [Term.value]
        simp only at this
        rw [this]
      · rcases List.mem_cons.mp hw with rfl | hw
        · exact .inr ⟨v, extra.length, hlast, Nat.le_refl _, hts.1, rfl⟩
        · rcases h4 w hw with ⟨h, h'⟩ | ⟨x, j, h, hj, h'⟩
          · exact .inl ⟨List.mem_cons_of_mem _ h, h'⟩
          · exact .inr ⟨x, j, h, by simp at hj; omega, h'⟩
      · rw [List.nodup_cons]
        refine ⟨fun hw => ?_, h5⟩
        rcases h4 _ hw with ⟨h, _⟩ | ⟨x, j, _, hj, _, h'⟩
        · exact hX v hts.1 _ (hts.2 _ h)
        · have := he.fresh _ _ _ _ h'
          simp at hj
          omega
      · rcases List.mem_cons.mp hw with rfl | hw
        · exact .inl hv
        · exact (h6 w hw).imp id (List.mem_cons_of_mem _)
    · obtain ⟨⟨new, n1, n2, n3⟩, h2, h3, h4, h5, h6, h7⟩ := renameArgs_spec he hX ts (v :: used) extra hts.2 (by simp only [List.mem_cons, forall_eq_or_imp]; exact ⟨hts.1, hused⟩) hnum
      simp only [renameArgs, if_neg hv, hcons]
      refine ⟨⟨new, n1, fun x hx => ⟨List.mem_cons_of_mem _ (n2 x hx).1, List.mem_cons_of_mem _ (n2 x hx).2⟩, fun h => ?_⟩, h2, fun σ hσ => ?_, fun w hw => ?_, ?_, fun w hw => ?_, by simp [h7]⟩
      · obtain ⟨ha, hb⟩ := h
        rw [List.nodup_cons] at hb
        have := n3 ⟨fun w hw hw' => by
          rcases List.mem_cons.mp hw with rfl | hw
          · exact hb.1 hw'
          · exact ha w hw (List.mem_cons_of_mem _ hw'), hb.2⟩
        exact ⟨this.1, by rw [this.2]⟩
      · rw [List.map_cons, List.map_cons, h3 σ hσ]
      · rcases List.mem_cons.mp hw with rfl | hw
        · exact .inl ⟨by simp, hv⟩
        · rcases h4 w hw with ⟨h, h'⟩ | h
          · exact .inl ⟨List.mem_cons_of_mem _ h, fun h'' => h' (List.mem_cons_of_mem _ h'')⟩
          · exact .inr h
      · rw [List.nodup_cons]
        refine ⟨fun hw => ?_, h5⟩
        rcases h4 _ hw with ⟨_, h⟩ | ⟨x, j, _, _, hx, h'⟩
        · exact h (by simp)
        · exact hX x hx j (h' ▸ hts.1)
      · rcases List.mem_cons.mp hw with rfl | hw
        · exact .inr (by simp)
        · rcases h6 w hw with h | h
          · rcases List.mem_cons.mp h with rfl | h
            · exact .inr (by simp)
            · exact .inl h
          · exact .inr (List.mem_cons_of_mem _ h)

theorem renameAll_spec {e : Env P V O} (he : e.Ok) {X : List V} (hX : ∀ v ∈ X, ∀ i, e.fresh v i ∉ X) : ∀ (cs : List (SymAtom P V O)) (extra : List (V × V)), (∀ c ∈ cs, ∀ v ∈ c.vars, v ∈ X) → Numbered e X extra →
    (∃ new, (renameAll e cs extra).2 = extra ++ new ∧ (∀ x ∈ new, ∃ c ∈ cs, x.1 ∈ c.vars) ∧ ((∀ c ∈ cs, c.vars.Nodup) → new = [] ∧ (renameAll e cs extra).1 = cs)) ∧
    Numbered e X (renameAll e cs extra).2 ∧
    (∀ σ : V → O, (∀ x ∈ (renameAll e cs extra).2, σ x.1 = σ x.2) → (renameAll e cs extra).1.map (·.inst σ) = cs.map (·.inst σ)) ∧
    (∀ c ∈ (renameAll e cs extra).1, c.vars.Nodup) ∧
    (∀ c ∈ cs, ∃ c' ∈ (renameAll e cs extra).1, ∀ v ∈ c.vars, v ∈ c'.vars) ∧
    (∀ c ∈ (renameAll e cs extra).1, ∃ c' ∈ cs, c.pred = c'.pred ∧ c.args.length = c'.args.length) ∧
    (renameAll e cs extra).1.length = cs.length
  | [], extra, _, hnum => by
    simp only [renameAll]
    exact ⟨⟨[], by simp, by simp, by simp⟩, hnum, by simp, by simp, by simp, by simp, by simp⟩
  | c :: cs, extra, hcs, hnum => by
    obtain ⟨⟨new1, m1, m2, m3⟩, h2, h3, h4, h5, h6, h7⟩ := renameArgs_spec he hX c.args [] extra (hcs c (by simp)) (by simp) hnum
    obtain ⟨⟨new, n1, n2, n3⟩, i2, i3, i4, i5, i6, i7⟩ := renameAll_spec he hX cs (renameArgs e c.args [] extra).2 (fun c hc => hcs c (by simp [hc])) h2
    simp only [renameAll]
    refine ⟨⟨new1 ++ new, by rw [n1, m1, List.append_assoc], fun x hx => ?_, fun h => ?_⟩, i2, fun σ hσ => ?_, ?_, fun d hd => ?_, fun d hd => ?_, by simp [i7]⟩
    · rcases List.mem_append.mp hx with hx | hx
      · exact ⟨c, by simp, (m2 x hx).1⟩
      · obtain ⟨d, hd, h⟩ := n2 x hx
        exact ⟨d, by simp [hd], h⟩
    · obtain ⟨a1, a2⟩ := m3 ⟨by simp, h c (by simp)⟩
      obtain ⟨b1, b2⟩ := n3 fun d hd => h d (by simp [hd])
      exact ⟨by rw [a1, b1]; rfl, by rw [a2, b2]⟩
    · rw [List.map_cons, List.map_cons, i3 σ hσ]
      have : (renameArgs e c.args [] extra).1.map (·.value σ) = c.args.map (·.value σ) := h3 σ fun x hx => hσ x (by rw [n1]; exact List.mem_append_left _ hx)
      simp only [SymAtom.inst, this]
    · simp only [List.mem_cons, forall_eq_or_imp]
      exact ⟨h5, i4⟩
    · rcases List.mem_cons.mp hd with rfl | hd
      · exact ⟨⟨d.pred, (renameArgs e d.args [] extra).1⟩, by simp, fun v hv => (h6 v hv).resolve_left (by simp)⟩
      · obtain ⟨c', hc', h⟩ := i5 d hd
        exact ⟨c', by simp [hc'], h⟩
    · rcases List.mem_cons.mp hd with rfl | hd
      · exact ⟨c, by simp, rfl, h7⟩
      · obtain ⟨c', hc', h⟩ := i6 d hd
        exact ⟨c', by simp [hc'], h⟩

/-- the pairs of variables for a rule -/
def pairs (e : Env P V O) (r : Clause P V O) : List (V × V) := (renameAll e r.conditions (renameArgs e r.effect.args [] []).2).2

theorem rename_spec {e : Env P V O} (he : e.Ok) {X : List V} (hX : ∀ v ∈ X, ∀ i, e.fresh v i ∉ X) {r : Clause P V O} (hr : ∀ v ∈ r.vars, v ∈ X) (hbound : ∀ v ∈ r.effect.vars, ∃ c ∈ r.conditions, v ∈ c.vars) :
    Tidy (rename e r).effect (rename e r).conditions ∧ Numbered e X (pairs e r) ∧ (∀ x ∈ pairs e r, x.1 ∈ r.vars) ∧
    (∀ σ : V → O, (∀ x ∈ pairs e r, σ x.1 = σ x.2) → (rename e r).effect.inst σ = r.effect.inst σ ∧ ∀ Q : GAtom P O → Prop, (∀ c ∈ (rename e r).conditions, Q (c.inst σ)) ↔ (∀ c ∈ r.conditions, Q (c.inst σ)) ∧ ∀ x ∈ pairs e r, Q ⟨e.eq, [σ x.1, σ x.2]⟩) ∧
    (∀ x ∈ pairs e r, (⟨e.eq, [.var x.1, .var x.2]⟩ : SymAtom P V O) ∈ (rename e r).conditions) ∧
    ((rename e r).conditions = [] → r.conditions = []) ∧
    ((rename e r).effect.pred = r.effect.pred ∧ (rename e r).effect.args.length = r.effect.args.length) ∧
    (∀ c ∈ (rename e r).conditions, (c.pred = e.eq ∧ c.args.length = 2) ∨ ∃ c' ∈ r.conditions, c.pred = c'.pred ∧ c.args.length = c'.args.length) ∧
    ((∀ c ∈ r.conditions, c.vars.Nodup ∧ ∀ v ∈ c.vars, v ∈ r.effect.vars) → ∀ c ∈ (rename e r).conditions, ∀ v ∈ c.vars, v ∈ (rename e r).effect.vars) := by
  have hXe : ∀ v ∈ tvars r.effect.args, v ∈ X := fun v hv => hr v (List.mem_append_left _ hv)
  have hXc : ∀ c ∈ r.conditions, ∀ v ∈ c.vars, v ∈ X := fun c hc v hv => hr v (List.mem_append_right _ (List.mem_flatMap.mpr ⟨c, hc, hv⟩))
  obtain ⟨⟨new1, m1, m2, m3⟩, h2, h3, h4, h5, h6, h7⟩ := renameArgs_spec he hX r.effect.args [] [] hXe (by simp) (by intro j x hx; simp at hx)
  obtain ⟨⟨new, n1, n2, n3⟩, i2, i3, i4, i5, i6, i7⟩ := renameAll_spec he hX r.conditions (renameArgs e r.effect.args [] []).2 hXc h2
  rw [List.nil_append] at m1
  have hpairs : (renameAll e r.conditions (renameArgs e r.effect.args [] []).2).2 = pairs e r := rfl
  have hvars : ∀ x : V × V, (⟨e.eq, [.var x.1, .var x.2]⟩ : SymAtom P V O).vars = [x.1, x.2] := fun x => rfl
  have hcond : ∀ c, c ∈ (rename e r).conditions ↔ c ∈ (renameAll e r.conditions (renameArgs e r.effect.args [] []).2).1 ∨ ∃ x ∈ pairs e r, (⟨e.eq, [.var x.1, .var x.2]⟩ : SymAtom P V O) = c := by
    intro c
    unfold rename
    simp only [List.mem_append, List.mem_map, hpairs]
  have hnum : Numbered e X (pairs e r) := i2
  refine ⟨⟨h5, fun c hc => ?_, fun v hv => ?_⟩, hnum, fun x hx => ?_, fun σ hσ => ⟨?_, fun Q => ?_⟩, fun x hx => (hcond _).mpr (.inr ⟨x, hx, rfl⟩), fun h => ?_, ⟨rfl, h7⟩, fun c hc => ?_, fun h c hc v hv => ?_⟩
  · rcases (hcond c).mp hc with hc | ⟨x, hx, rfl⟩
    · exact i4 c hc
    · rw [hvars]
      obtain ⟨j, hj⟩ := List.mem_iff_getElem?.mp hx
      obtain ⟨hx1, hx2⟩ := hnum j x hj
      simp only [List.nodup_cons, List.mem_singleton, List.not_mem_nil, not_false_eq_true, List.nodup_nil, and_true]
      intro heq
      refine hX x.1 hx1 j ?_
      rw [← hx2, ← heq]
      exact hx1
  · rcases h4 v hv with ⟨h, _⟩ | ⟨x, j, h, _⟩
    · obtain ⟨c, hc, hvc⟩ := hbound v h
      obtain ⟨c', hc', h'⟩ := i5 c hc
      exact ⟨c', (hcond c').mpr (.inl hc'), h' v hvc⟩
    · refine ⟨_, (hcond _).mpr (.inr ⟨(x, v), ?_, rfl⟩), by rw [hvars]; simp⟩
      rw [← hpairs, n1]
      exact List.mem_append_left _ (List.mem_of_getElem? h)
  · rw [← hpairs, n1, m1] at hx
    rcases List.mem_append.mp hx with hx | hx
    · exact List.mem_append_left _ (m2 x hx).1
    · obtain ⟨c, hc, h⟩ := n2 x hx
      exact List.mem_append_right _ (List.mem_flatMap.mpr ⟨c, hc, h⟩)
  · have : (renameArgs e r.effect.args [] []).1.map (·.value σ) = r.effect.args.map (·.value σ) := h3 σ fun x hx => hσ x (by rw [← hpairs, n1]; exact List.mem_append_left _ hx)
    simp only [SymAtom.inst, rename, this]
  · have hsame := i3 σ hσ
    have hiff : (∀ c ∈ (renameAll e r.conditions (renameArgs e r.effect.args [] []).2).1, Q (c.inst σ)) ↔ ∀ c ∈ r.conditions, Q (c.inst σ) := by
      rw [← List.forall_mem_map (f := fun c => SymAtom.inst c σ), hsame, List.forall_mem_map]
    rw [← hiff]
    constructor
    · intro h
      exact ⟨fun c hc => h c ((hcond c).mpr (.inl hc)), fun x hx => h _ ((hcond _).mpr (.inr ⟨x, hx, rfl⟩))⟩
    · rintro ⟨ha, hb⟩ c hc
      rcases (hcond c).mp hc with hc | ⟨x, hx, rfl⟩
      · exact ha c hc
      · exact hb x hx
  · have h0 : (renameAll e r.conditions (renameArgs e r.effect.args [] []).2).1 = [] := by
      unfold rename at h
      exact (List.append_eq_nil_iff.mp h).1
    rw [h0] at i7
    exact List.length_eq_zero_iff.mp i7.symm
  · rcases (hcond c).mp hc with hc | ⟨x, hx, rfl⟩
    · exact .inr (i6 c hc)
    · exact .inl ⟨rfl, rfl⟩
  · obtain ⟨b1, b2⟩ := n3 fun c hc => (h c hc).1
    have hkeep : ∀ w ∈ r.effect.vars, w ∈ (rename e r).effect.vars := fun w hw => (h6 w hw).resolve_left (by simp)
    rcases (hcond c).mp hc with hc | ⟨x, hx, rfl⟩
    · rw [b2] at hc
      exact hkeep v ((h c hc).2 v hv)
    · rw [← hpairs, n1, m1, b1, List.append_nil] at hx
      rw [hvars] at hv
      simp only [List.mem_cons, List.not_mem_nil, or_false] at hv
      rcases hv with rfl | rfl
      · exact hkeep _ (m2 x hx).1
      · exact mem_tvars.mpr (m2 x hx).2

theorem renameAll_keep {e : Env P V O} (he : e.Ok) {X : List V} (hX : ∀ v ∈ X, ∀ i, e.fresh v i ∉ X) : ∀ (cs : List (SymAtom P V O)) (extra : List (V × V)), (∀ c ∈ cs, ∀ v ∈ c.vars, v ∈ X) → Numbered e X extra →
    ∀ c ∈ cs, c.vars.Nodup → c ∈ (renameAll e cs extra).1
  | [], _, _, _ => by simp
  | c :: cs, extra, hcs, hnum => by
    obtain ⟨⟨_, _, _, m3⟩, h2, _⟩ := renameArgs_spec (O := O) he hX c.args [] extra (hcs c (by simp)) (by simp) hnum
    have ih := renameAll_keep he hX cs (renameArgs e c.args [] extra).2 (fun c hc => hcs c (by simp [hc])) h2
    intro d hd hn
    simp only [renameAll]
    rcases List.mem_cons.mp hd with rfl | hd
    · rw [(m3 ⟨by simp, hn⟩).2]
      simp
    · exact List.mem_cons_of_mem _ (ih d hd hn)

/-- what remains of a rule if conditions need to agree on variables of the effect only -/
theorem rename_loose {e : Env P V O} (he : e.Ok) {X : List V} (hX : ∀ v ∈ X, ∀ i, e.fresh v i ∉ X) {r : Clause P V O} (hr : ∀ v ∈ r.vars, v ∈ X) :
    (∀ c ∈ r.conditions, c.vars.Nodup → c ∈ (rename e r).conditions) ∧ (∀ v ∈ r.effect.vars, v ∈ (rename e r).effect.vars) ∧
    ∀ σ : V → O, (∀ x ∈ pairs e r, x.1 ∈ (rename e r).effect.vars → x.2 ∈ (rename e r).effect.vars → σ x.1 = σ x.2) → (rename e r).effect.inst σ = r.effect.inst σ := by
  have hXe : ∀ v ∈ tvars r.effect.args, v ∈ X := fun v hv => hr v (List.mem_append_left _ hv)
  have hXc : ∀ c ∈ r.conditions, ∀ v ∈ c.vars, v ∈ X := fun c hc v hv => hr v (List.mem_append_right _ (List.mem_flatMap.mpr ⟨c, hc, hv⟩))
  obtain ⟨⟨new1, m1, m2, m3⟩, h2, h3, h4, h5, h6, h7⟩ := renameArgs_spec he hX r.effect.args [] [] hXe (by simp) (by intro j x hx; simp at hx)
  obtain ⟨⟨new, n1, n2, n3⟩, i2, i3, i4, i5, i6, i7⟩ := renameAll_spec he hX r.conditions (renameArgs e r.effect.args [] []).2 hXc h2
  have hkeep : ∀ w ∈ r.effect.vars, w ∈ (rename e r).effect.vars := fun w hw => (h6 w hw).resolve_left (by simp)
  refine ⟨fun c hc hn => ?_, hkeep, fun σ hσ => ?_⟩
  · unfold rename
    exact List.mem_append_left _ (renameAll_keep he hX r.conditions _ hXc h2 c hc hn)
  · have : (renameArgs e r.effect.args [] []).1.map (·.value σ) = r.effect.args.map (·.value σ) := h3 σ fun x hx => by
      refine hσ x (by show x ∈ (renameAll e r.conditions (renameArgs e r.effect.args [] []).2).2; rw [n1]; exact List.mem_append_left _ hx) ?_ ?_
      all_goals rw [m1, List.nil_append] at hx
      · exact hkeep _ (m2 x hx).1
      · exact mem_tvars.mpr (m2 x hx).2
    simp only [SymAtom.inst, rename, this]

/-- values for the new variables -/
theorem extend_values {e : Env P V O} (he : e.Ok) {X : List V} (hX : ∀ v ∈ X, ∀ i, e.fresh v i ∉ X) {l : List (V × V)} (hl : Numbered e X l) (σ : V → O) : ∃ σ' : V → O, (∀ v ∈ X, σ' v = σ v) ∧ ∀ x ∈ l, σ' x.1 = σ' x.2 := by
  classical
  have hX' : ∀ x ∈ l, x.1 ∈ X ∧ x.2 ∉ X := by
    intro x hx
    obtain ⟨j, hj⟩ := List.mem_iff_getElem?.mp hx
    obtain ⟨h1, h2⟩ := hl j x hj
    exact ⟨h1, h2 ▸ hX x.1 h1 j⟩
  have huniq : ∀ x ∈ l, ∀ y ∈ l, x.2 = y.2 → x = y := by
    intro x hx y hy hxy
    obtain ⟨i, hi⟩ := List.mem_iff_getElem?.mp hx
    obtain ⟨j, hj⟩ := List.mem_iff_getElem?.mp hy
    rw [(hl i x hi).2, (hl j y hj).2] at hxy
    have := he.fresh _ _ _ _ hxy
    subst this
    rw [hi, Option.some.injEq] at hj
    exact hj
  refine ⟨fun w => if h : ∃ x ∈ l, x.2 = w then σ h.choose.1 else σ w, fun v hv => ?_, fun x hx => ?_⟩
  · beta_reduce
    rw [dif_neg]
    rintro ⟨x, hx, rfl⟩
    exact (hX' x hx).2 hv
  · have h1 : ¬ ∃ y ∈ l, y.2 = x.1 := by
      rintro ⟨y, hy, h⟩
      exact (hX' y hy).2 (h ▸ (hX' x hx).1)
    have h2 : ∃ y ∈ l, y.2 = x.2 := ⟨x, hx, rfl⟩
    beta_reduce
    rw [dif_neg h1, dif_pos h2, huniq _ h2.choose_spec.1 x hx h2.choose_spec.2]

theorem mem_freeVars {e : Env P V O} (he : e.Ok) {r : Clause P V O} {t : Term V O} : t ∈ freeVars e r ↔ ∃ v, t = .var v ∧ v ∈ r.effect.vars ∧ ∀ c ∈ r.conditions, v ∉ c.vars := by
  unfold freeVars
  rw [(he.terms _).mem_iff, List.mem_map]
  refine exists_congr fun v => ?_
  rw [List.mem_dedup, List.mem_filter]
  simp only [Bool.not_eq_true', List.any_eq_false, List.contains_iff_mem, eq_comm (a := Term.var v)]
  tauto

theorem mem_bindFree {e : Env P V O} (he : e.Ok) {r : Clause P V O} {c : SymAtom P V O} : c ∈ (bindFree e r).conditions ↔ c ∈ r.conditions ∨ ∃ v, c = ⟨e.object, [.var v]⟩ ∧ v ∈ r.effect.vars ∧ ∀ c ∈ r.conditions, v ∉ c.vars := by
  unfold bindFree
  simp only [List.mem_append, List.mem_map]
  refine or_congr Iff.rfl ⟨?_, ?_⟩
  · rintro ⟨t, ht, rfl⟩
    obtain ⟨v, rfl, h⟩ := (mem_freeVars he).mp ht
    exact ⟨v, rfl, h⟩
  · rintro ⟨v, rfl, h⟩
    exact ⟨.var v, (mem_freeVars he).mpr ⟨v, rfl, h⟩, rfl⟩

theorem bindFree_bound {e : Env P V O} (he : e.Ok) {r : Clause P V O} : ∀ v ∈ (bindFree e r).effect.vars, ∃ c ∈ (bindFree e r).conditions, v ∈ c.vars := by
  intro v hv
  by_cases h : ∃ c ∈ r.conditions, v ∈ c.vars
  · obtain ⟨c, hc, hvc⟩ := h
    exact ⟨c, (mem_bindFree he).mpr (.inl hc), hvc⟩
  · exact ⟨⟨e.object, [.var v]⟩, (mem_bindFree he).mpr (.inr ⟨v, rfl, hv, fun c hc hvc => h ⟨c, hc, hvc⟩⟩), by simp [SymAtom.vars, Term.var?]⟩

theorem bindFree_vars {e : Env P V O} (he : e.Ok) {r : Clause P V O} : ∀ v ∈ (bindFree e r).vars, v ∈ r.vars := by
  intro v hv
  rcases List.mem_append.mp hv with hv | hv
  · exact List.mem_append_left _ hv
  · obtain ⟨c, hc, hvc⟩ := List.mem_flatMap.mp hv
    rcases (mem_bindFree he).mp hc with hc | ⟨w, rfl, hw, _⟩
    · exact List.mem_append_right _ (List.mem_flatMap.mpr ⟨c, hc, hvc⟩)
    · have : v = w := by simpa [SymAtom.vars, Term.var?] using hvc
      subst this
      exact List.mem_append_left _ hw

theorem ground_some {a : SymAtom P V O} (h : a.vars = []) : ∃ g, ground a = some g ∧ ∀ σ : V → O, a.inst σ = g := by
  have hall : ∀ l : List (Term V O), tvars l = [] → ∃ args, Mas.mapAll constant? l = some args ∧ ∀ σ : V → O, l.map (·.value σ) = args := by
    intro l
    induction l with
    | nil => exact fun _ => ⟨[], rfl, fun _ => rfl⟩
    | cons t l ih =>
      intro hl
      cases t with
      | var v => simp [tvars, Term.var?] at hl
      | const o =>
        obtain ⟨args, h1, h2⟩ := ih hl
        refine ⟨o :: args, by simp [Mas.mapAll, constant?, h1], fun σ => ?_⟩
        rw [List.map_cons, h2]
        rfl
  obtain ⟨args, h1, h2⟩ := hall a.args h
  exact ⟨⟨a.pred, args⟩, by unfold ground; rw [h1]; rfl, fun σ => by simp only [SymAtom.inst, h2]⟩

/-- arguments of what can be derived are objects of the program -/
theorem derivable_objects {eq : P} {facts : List (GAtom P O)} {rules : List (Clause P V O)} (hq : Equality eq facts rules) {a : GAtom P O} (h : Derivable facts rules a) : ∀ o ∈ a.args, o ∈ objects facts := by
  induction h with
  | fact a ha => exact fun o ho => List.mem_flatMap.mpr ⟨a, ha, ho⟩
  | rule r hr σ hf hc ih =>
    intro o ho
    obtain ⟨t, ht, rfl⟩ := List.mem_map.mp ho
    cases t with
    | const o => exact hq.consts r hr o ht
    | var v =>
      by_cases h : ∃ c ∈ r.conditions, v ∈ c.vars
      · obtain ⟨c, hc', hvc⟩ := h
        exact ih c hc' _ (List.mem_map.mpr ⟨.var v, mem_vars.mp hvc, rfl⟩)
      · exact hf v (mem_vars.mpr ht) fun c hc' hvc => h ⟨c, hc', hvc⟩

/-- the atoms that the normalised program may contain -/
def Meaning (e : Env P V O) (facts : List (GAtom P O)) (rules : List (Clause P V O)) (a : GAtom P O) : Prop := Derivable facts rules a ∨ (a.pred = e.object ∧ ∃ o ∈ objects facts, a.args = [o])

theorem derivable_pred {facts : List (GAtom P O)} {rules : List (Clause P V O)} {a : GAtom P O} (h : Derivable facts rules a) : a ∈ facts ∨ ∃ r ∈ rules, a.pred = r.effect.pred := by
  cases h with
  | fact a ha => exact .inl ha
  | rule r hr σ hf hc => exact .inr ⟨r, hr, rfl⟩

/-- the atoms that the exploration of the normalised program may find -/
def LMeaning (e : Env P V O) (facts : List (GAtom P O)) (rules : List (Clause P V O)) (a : GAtom P O) : Prop := DerivableLoosely facts rules a ∨ (a.pred = e.object ∧ ∃ o ∈ objects facts, a.args = [o])

theorem loosely_pred {facts : List (GAtom P O)} {rules : List (Clause P V O)} {a : GAtom P O} (h : DerivableLoosely facts rules a) : a ∈ facts ∨ ∃ r ∈ rules, a.pred = r.effect.pred := by
  cases h with
  | fact a ha => exact .inl ha
  | rule r hr σ τ hτ hf hc => exact .inr ⟨r, hr, rfl⟩

theorem loosely_objects {eq : P} {facts : List (GAtom P O)} {rules : List (Clause P V O)} (hq : Equality eq facts rules) {a : GAtom P O} (h : DerivableLoosely facts rules a) : ∀ o ∈ a.args, o ∈ objects facts := by
  cases h with
  | fact a ha => exact fun o ho => List.mem_flatMap.mpr ⟨a, ha, ho⟩
  | rule r hr σ τ hτ hf hc =>
    intro o ho
    obtain ⟨t, ht, rfl⟩ := List.mem_map.mp ho
    cases t with
    | const o => exact hq.consts r hr o ht
    | var v => exact hf v (mem_vars.mpr ht)

theorem normalize_ok [Nonempty O] {e : Env P V O} (he : e.Ok) {facts : List (GAtom P O)} {rules : List (Clause P V O)} (hf : e.Fits facts rules) (hq : Equality e.eq facts rules) : ∃ facts' rules', normalize e facts rules = some (facts', rules') ∧
    (∀ r ∈ rules', r.conditions ≠ [] ∧ Tidy r.effect r.conditions ∧ ∀ b ∈ r.effect :: r.conditions, ∀ i, b.pred ≠ e.name i) ∧ (∀ a ∈ facts', ∀ i, a.pred ≠ e.name i) ∧
    (∀ Q : GAtom P O → Prop, (∀ a ∈ facts', Q a) → (∀ r ∈ rules', Closed Q r.effect r.conditions) → (∀ a ∈ facts, Q a) ∧ ∀ r ∈ rules, ∀ σ : V → O,
      (∀ v ∈ r.effect.vars, (∀ c ∈ r.conditions, v ∉ c.vars) → σ v ∈ objects facts) → (∀ c ∈ r.conditions, ∀ v ∈ c.vars, σ v ∈ objects facts) → (∀ c ∈ r.conditions, Q (c.inst σ)) → Q (r.effect.inst σ)) ∧
    (∀ a ∈ facts', LMeaning e facts rules a) ∧ (∀ r ∈ rules', LClosed (LMeaning e facts rules) r.effect r.conditions) ∧
    (∀ a ∈ facts', Meaning e facts rules a) ∧ (∀ r ∈ rules', Closed (Meaning e facts rules) r.effect r.conditions) ∧
    (∀ ar : P → Nat, ClauseArity ar facts rules → ar e.eq = 2 → ar e.object = 1 → (∀ a ∈ facts', a.args.length = ar a.pred) ∧ ∀ r ∈ rules', ∀ b ∈ r.effect :: r.conditions, b.args.length = ar b.pred) ∧
    ((∀ r ∈ rules, ∀ c ∈ r.conditions, c.vars.Nodup ∧ ∀ v ∈ c.vars, v ∈ r.effect.vars) → ∀ r ∈ rules', ∀ c ∈ r.conditions, ∀ v ∈ c.vars, v ∈ r.effect.vars) := by
  have hspec : ∀ r ∈ rules, _ := fun r hr => rename_spec he (hf.freshVars r hr) (r := bindFree e r) (bindFree_vars he) (bindFree_bound he)
  -- trivial rules have no variables
  have htriv : ∀ r ∈ rules, (rename e (bindFree e r)).conditions = [] → ∃ g, ground (rename e (bindFree e r)).effect = some g ∧ ∀ σ : V → O, (rename e (bindFree e r)).effect.inst σ = g := by
    intro r hr h0
    refine ground_some (List.eq_nil_iff_forall_not_mem.mpr fun v hv => ?_)
    obtain ⟨c, hc, _⟩ := (hspec r hr).1.bound v hv
    rw [h0] at hc
    simp at hc
  obtain ⟨new, hnew⟩ := Mas.mapAll_defined (f := fun r : Clause P V O => ground r.effect) (l := ((removeFree e facts rules).2.map (rename e)).filter (fun r => r.conditions.isEmpty)) (by
    intro x hx
    obtain ⟨hx1, hx2⟩ := List.mem_filter.mp hx
    obtain ⟨y, hy, rfl⟩ := List.mem_map.mp hx1
    obtain ⟨r, hr, rfl⟩ := List.mem_map.mp hy
    obtain ⟨g, hg, _⟩ := htriv r hr (by simpa using hx2)
    exact ⟨g, hg⟩)
  have hrules : ∀ x, x ∈ ((removeFree e facts rules).2.map (rename e)).filter (fun r => !r.conditions.isEmpty) ↔ ∃ r ∈ rules, x = rename e (bindFree e r) ∧ x.conditions ≠ [] := by
    intro x
    rw [List.mem_filter]
    constructor
    · rintro ⟨hx1, hx2⟩
      obtain ⟨y, hy, rfl⟩ := List.mem_map.mp hx1
      obtain ⟨r, hr, rfl⟩ := List.mem_map.mp hy
      exact ⟨r, hr, rfl, by simpa using hx2⟩
    · rintro ⟨r, hr, rfl, h⟩
      exact ⟨List.mem_map.mpr ⟨_, List.mem_map.mpr ⟨r, hr, rfl⟩, rfl⟩, by simpa using h⟩
  have hnewmem : ∀ a, a ∈ new → ∃ r ∈ rules, (rename e (bindFree e r)).conditions = [] ∧ ground (rename e (bindFree e r)).effect = some a := by
    intro a ha
    obtain ⟨x, hx, hg⟩ := Mas.mapAll_mem hnew ha
    obtain ⟨hx1, hx2⟩ := List.mem_filter.mp hx
    obtain ⟨y, hy, rfl⟩ := List.mem_map.mp hx1
    obtain ⟨r, hr, rfl⟩ := List.mem_map.mp hy
    exact ⟨r, hr, by simpa using hx2, hg⟩
  have hmemnew : ∀ r ∈ rules, (rename e (bindFree e r)).conditions = [] → ∃ a ∈ new, ground (rename e (bindFree e r)).effect = some a := by
    intro r hr h0
    exact Mas.mapAll_mem' hnew (List.mem_filter.mpr ⟨List.mem_map.mpr ⟨_, List.mem_map.mpr ⟨r, hr, rfl⟩, rfl⟩, by simpa using h0⟩)
  have hfacts : ∀ a, a ∈ (removeFree e facts rules).1 → a ∈ facts ∨ ∃ o ∈ objects facts, a = ⟨e.object, [o]⟩ := by
    intro a ha
    unfold removeFree at ha
    simp only [] at ha
    split at ha
    · rcases List.mem_append.mp ha with ha | ha
      · exact .inl ha
      · obtain ⟨o, ho, rfl⟩ := List.mem_map.mp ha
        exact .inr ⟨o, List.mem_dedup.mp ho, rfl⟩
    · exact .inl ha
  have hfacts1 : ∀ a ∈ facts, a ∈ (removeFree e facts rules).1 := by
    intro a ha
    unfold removeFree
    simp only []
    split
    · exact List.mem_append_left _ ha
    · exact ha
  have hfacts2 : ∀ r ∈ rules, ∀ v ∈ r.effect.vars, (∀ c ∈ r.conditions, v ∉ c.vars) → ∀ o ∈ objects facts, (⟨e.object, [o]⟩ : GAtom P O) ∈ (removeFree e facts rules).1 := by
    intro r hr v hv hv' o ho
    unfold removeFree
    simp only []
    rw [if_pos]
    · exact List.mem_append_right _ (List.mem_map.mpr ⟨o, List.mem_dedup.mpr ho, rfl⟩)
    · rw [List.any_eq_true]
      refine ⟨r, hr, ?_⟩
      have := (mem_freeVars he).mpr ⟨v, rfl, hv, hv'⟩
      have hne := List.ne_nil_of_mem this
      simpa using hne
  have hmean : ∀ r ∈ rules, Closed (Meaning e facts rules) (rename e (bindFree e r)).effect (rename e (bindFree e r)).conditions := by
    intro r hr σ hc
    obtain ⟨_, _, _, h4, h5, _⟩ := hspec r hr
    have heq : ∀ x ∈ pairs e (bindFree e r), σ x.1 = σ x.2 := by
      intro x hx
      rcases hc _ (h5 x hx) with h | h
      · rcases derivable_pred h with h | ⟨r', hr', h⟩
        · obtain ⟨o, ho⟩ := hq.only _ h rfl
          simp only [SymAtom.inst, List.map_cons, List.map_nil, Term.value, List.cons.injEq, and_true] at ho
          rw [ho.1, ho.2]
        · exact absurd h.symm (hq.effects r' hr')
      · exact absurd h.1 hf.eqObject
    obtain ⟨h6, h7⟩ := h4 σ heq
    have h8 := ((h7 (Meaning e facts rules)).mp hc).1
    rw [h6]
    refine .inl (Derivable.rule r hr σ (fun v hv hv' => ?_) fun c hc' => ?_)
    · rcases h8 ⟨e.object, [.var v]⟩ ((mem_bindFree he).mpr (.inr ⟨v, rfl, hv, hv'⟩)) with h | ⟨_, o, ho, h⟩
      · exfalso
        rcases derivable_pred h with h | ⟨r', hr', h⟩
        · exact hf.factObject _ h rfl
        · exact hf.ruleObject r' hr' r'.effect.pred (by simp [Clause.preds]) h.symm
      · simp only [SymAtom.inst, List.map_cons, List.map_nil, Term.value, List.cons.injEq, and_true] at h
        rw [h]
        exact ho
    · rcases h8 c ((mem_bindFree he).mpr (.inl hc')) with h | ⟨h, _⟩
      · exact h
      · exact absurd h (hf.ruleObject r hr c.pred (List.mem_cons_of_mem _ (List.mem_map.mpr ⟨c, hc', rfl⟩)))
  have hlmean : ∀ r ∈ rules, LClosed (LMeaning e facts rules) (rename e (bindFree e r)).effect (rename e (bindFree e r)).conditions := by
    intro r hr σ hc
    obtain ⟨htidy, _, _, _, h5, _⟩ := hspec r hr
    obtain ⟨k1, k2, k3⟩ := rename_loose he (hf.freshVars r hr) (r := bindFree e r) (bindFree_vars he)
    have heff := k3 σ fun x hx hx1 hx2 => by
      obtain ⟨τ, hτ, h⟩ := hc _ (h5 x hx)
      have e1 : τ x.1 = σ x.1 := hτ x.1 (by simp [SymAtom.vars, Term.var?]) hx1
      have e2 : τ x.2 = σ x.2 := hτ x.2 (by simp [SymAtom.vars, Term.var?]) hx2
      rw [← e1, ← e2]
      rcases h with h | h
      · rcases loosely_pred h with h | ⟨r', hr', h⟩
        · obtain ⟨o, ho⟩ := hq.only _ h rfl
          simp only [SymAtom.inst, List.map_cons, List.map_nil, Term.value, List.cons.injEq, and_true] at ho
          rw [ho.1, ho.2]
        · exact absurd h.symm (hq.effects r' hr')
      · exact absurd h.1 hf.eqObject
    rw [heff]
    have hex : ∀ c : SymAtom P V O, ∃ τ : V → O, c ∈ r.conditions → c.vars.Nodup → (∀ v ∈ c.vars, v ∈ r.effect.vars → τ v = σ v) ∧ LMeaning e facts rules (c.inst τ) := by
      intro c
      by_cases h : c ∈ r.conditions ∧ c.vars.Nodup
      · obtain ⟨τ, h1, h2⟩ := hc c (k1 c ((mem_bindFree he).mpr (.inl h.1)) h.2)
        exact ⟨τ, fun _ _ => ⟨fun v hv hve => h1 v hv (k2 v hve), h2⟩⟩
      · exact ⟨σ, fun h1 h2 => absurd ⟨h1, h2⟩ h⟩
    choose τ hτ using hex
    refine .inl (DerivableLoosely.rule r hr σ (fun c => if c.vars.Nodup then τ c else σ) (fun c hc' v hv hve => ?_) (fun v hv => ?_) fun c hc' hn => ?_)
    · beta_reduce
      split
      · rename_i hn
        exact (hτ c hc' hn).1 v hv hve
      · rfl
    · obtain ⟨c, hc', hvc⟩ := htidy.bound v (k2 v hv)
      obtain ⟨τ', h1, h2⟩ := hc c hc'
      rw [← h1 v hvc (k2 v hv)]
      have hmem : τ' v ∈ (c.inst τ').args := List.mem_map.mpr ⟨.var v, mem_vars.mp hvc, rfl⟩
      rcases h2 with h | ⟨_, o, ho, h⟩
      · exact loosely_objects hq h _ hmem
      · rw [h, List.mem_singleton] at hmem
        rw [hmem]
        exact ho
    · beta_reduce
      rw [if_pos hn]
      rcases (hτ c hc' hn).2 with h | ⟨h, _⟩
      · exact h
      · exact absurd h (hf.ruleObject r hr c.pred (List.mem_cons_of_mem _ (List.mem_map.mpr ⟨c, hc', rfl⟩)))
  refine ⟨(removeFree e facts rules).1 ++ new, ((removeFree e facts rules).2.map (rename e)).filter (fun r => !r.conditions.isEmpty), ?_, fun x hx => ?_, fun a ha i => ?_, fun Q hQ hQr => ⟨fun a ha => hQ a (List.mem_append_left _ (hfacts1 a ha)), fun r hr σ hfree hobj hc => ?_⟩, fun a ha => ?_, fun x hx => ?_, fun a ha => ?_, fun x hx => ?_, fun ar har h2 h1 => ⟨fun a ha => ?_, fun x hx b hb => ?_⟩, fun hj x hx => ?_⟩
  · unfold normalize convertTrivial
    rw [hnew]
    rfl
  · obtain ⟨r, hr, rfl, h0⟩ := (hrules x).mp hx
    obtain ⟨h1, _, _, _, _, _, h7, h8, _⟩ := hspec r hr
    refine ⟨h0, h1, fun b hb i => ?_⟩
    rcases List.mem_cons.mp hb with rfl | hb
    · rw [h7.1]
      exact hf.ruleName r hr _ (by simp [Clause.preds, bindFree]) i
    · rcases h8 b hb with ⟨h, _⟩ | ⟨c, hc, h, _⟩
      · rw [h]
        exact hf.eqName i
      · rw [h]
        rcases (mem_bindFree he).mp hc with hc | ⟨v, rfl, _⟩
        · exact hf.ruleName r hr _ (List.mem_cons_of_mem _ (List.mem_map.mpr ⟨c, hc, rfl⟩)) i
        · exact hf.objectName i
  · rcases List.mem_append.mp ha with ha | ha
    · rcases hfacts a ha with ha | ⟨o, _, rfl⟩
      · exact hf.factName a ha i
      · exact hf.objectName i
    · obtain ⟨r, hr, h0, hg⟩ := hnewmem a ha
      obtain ⟨g, hg1, hg2⟩ := htriv r hr h0
      rw [hg, Option.some.injEq] at hg1
      subst hg1
      rw [← hg2 (fun _ => Classical.choice inferInstance)]
      exact hf.ruleName r hr r.effect.pred (by simp [Clause.preds]) i
  · obtain ⟨_, h2, h3, h4, h5, _⟩ := hspec r hr
    obtain ⟨σ', hσ1, hσ2⟩ := extend_values he (hf.freshVars r hr) h2 σ
    obtain ⟨h6, h7⟩ := h4 σ' hσ2
    have heff : (rename e (bindFree e r)).effect.inst σ' = r.effect.inst σ := by
      rw [h6]
      exact inst_congr fun v hv => hσ1 v (List.mem_append_left _ hv)
    by_cases h0 : (rename e (bindFree e r)).conditions = []
    · obtain ⟨a, ha, hg⟩ := hmemnew r hr h0
      obtain ⟨g, hg1, hg2⟩ := htriv r hr h0
      rw [hg, Option.some.injEq] at hg1
      subst hg1
      rw [← heff, hg2]
      exact hQ _ (List.mem_append_right _ ha)
    · rw [← heff]
      refine hQr _ ((hrules _).mpr ⟨r, hr, rfl, h0⟩) σ' ((h7 Q).mpr ⟨fun c hc' => ?_, fun x hx => ?_⟩)
      · rcases (mem_bindFree he).mp hc' with hc' | ⟨v, rfl, hv, hv'⟩
        · rw [inst_congr fun v hv => hσ1 v (List.mem_append_right _ (List.mem_flatMap.mpr ⟨c, hc', hv⟩))]
          exact hc c hc'
        · have : (⟨e.object, [.var v]⟩ : SymAtom P V O).inst σ' = ⟨e.object, [σ v]⟩ := by
            simp only [SymAtom.inst, List.map_cons, List.map_nil, Term.value, hσ1 v (List.mem_append_left _ hv)]
          rw [this]
          exact hQ _ (List.mem_append_left _ (hfacts2 r hr v hv hv' _ (hfree v hv hv')))
      · have hxv := bindFree_vars he _ (h3 x hx)
        rw [← hσ2 x hx, hσ1 _ hxv]
        refine hQ _ (List.mem_append_left _ (hfacts1 _ (hq.same _ ?_)))
        by_cases hx' : ∃ c ∈ r.conditions, x.1 ∈ c.vars
        · obtain ⟨c, hc', hvc⟩ := hx'
          exact hobj c hc' _ hvc
        · refine hfree _ ((List.mem_append.mp hxv).resolve_right fun h => hx' ?_) fun c hc' hvc => hx' ⟨c, hc', hvc⟩
          obtain ⟨c, hc', hvc⟩ := List.mem_flatMap.mp h
          exact ⟨c, hc', hvc⟩
  · rcases List.mem_append.mp ha with ha | ha
    · rcases hfacts a ha with ha | ⟨o, ho, rfl⟩
      · exact .inl (.fact a ha)
      · exact .inr ⟨rfl, o, ho, rfl⟩
    · obtain ⟨r, hr, h0, hg⟩ := hnewmem a ha
      obtain ⟨g, hg1, hg2⟩ := htriv r hr h0
      rw [hg, Option.some.injEq] at hg1
      subst hg1
      rw [← hg2 (fun _ => Classical.choice inferInstance)]
      refine hlmean r hr _ fun c hc => ?_
      rw [h0] at hc
      simp at hc
  · obtain ⟨r, hr, rfl, _⟩ := (hrules x).mp hx
    exact hlmean r hr
  · rcases List.mem_append.mp ha with ha | ha
    · rcases hfacts a ha with ha | ⟨o, ho, rfl⟩
      · exact .inl (.fact a ha)
      · exact .inr ⟨rfl, o, ho, rfl⟩
    · obtain ⟨r, hr, h0, hg⟩ := hnewmem a ha
      obtain ⟨g, hg1, hg2⟩ := htriv r hr h0
      rw [hg, Option.some.injEq] at hg1
      subst hg1
      rw [← hg2 (fun _ => Classical.choice inferInstance)]
      refine hmean r hr _ fun c hc => ?_
      rw [h0] at hc
      simp at hc
  · obtain ⟨r, hr, rfl, _⟩ := (hrules x).mp hx
    exact hmean r hr
  · rcases List.mem_append.mp ha with ha | ha
    · rcases hfacts a ha with ha | ⟨o, _, rfl⟩
      · exact har.1 a ha
      · exact h1.symm
    · obtain ⟨r, hr, h0, hg⟩ := hnewmem a ha
      obtain ⟨g, hg1, hg2⟩ := htriv r hr h0
      rw [hg, Option.some.injEq] at hg1
      subst hg1
      rw [← hg2 (fun _ => Classical.choice inferInstance)]
      obtain ⟨_, _, _, _, _, _, h7, _⟩ := hspec r hr
      simp only [SymAtom.inst, List.length_map, h7.2]
      rw [h7.1]
      exact (har.2 r hr).1
  · obtain ⟨r, hr, rfl, _⟩ := (hrules x).mp hx
    obtain ⟨_, _, _, _, _, _, h7, h8, _⟩ := hspec r hr
    rcases List.mem_cons.mp hb with rfl | hb
    · rw [h7.1, h7.2]
      exact (har.2 r hr).1
    · rcases h8 b hb with ⟨h, h'⟩ | ⟨c, hc, h, h'⟩
      · rw [h, h', h2]
      · rw [h, h']
        rcases (mem_bindFree he).mp hc with hc | ⟨v, rfl, _⟩
        · exact (har.2 r hr).2 c hc
        · exact h1.symm
  · obtain ⟨r, hr, rfl, _⟩ := (hrules x).mp hx
    obtain ⟨_, _, _, _, _, _, _, _, h9⟩ := hspec r hr
    refine h9 fun c hc => ?_
    rcases (mem_bindFree he).mp hc with hc | ⟨v, rfl, hv, _⟩
    · exact hj r hr c hc
    · refine ⟨by simp [SymAtom.vars, Term.var?], fun w hw => ?_⟩
      have : w = v := by simpa [SymAtom.vars, Term.var?] using hw
      rw [this]
      exact hv

end Verif.PrologProgram
