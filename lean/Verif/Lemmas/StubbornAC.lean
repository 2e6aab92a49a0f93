import Verif.Lemmas.StubbornSimple
import Mathlib.Data.List.Dedup

/-
Atom-centric stubborn sets.
-/
namespace Verif.Stubborn
open Verif.Search

section
variable {t : Task} {s : State}

/-- all facts of the task -/
def allFacts (t : Task) : List Fact := ((List.range t.vars.length).flatMap (fun v => (List.range (domainOf t v)).map (fun d => (⟨v, d⟩ : Fact)))).dedup

theorem domainOf_eq {v : Nat} {d : Variable} (h : t.vars[v]? = some d) : domainOf t v = d.domain := by simp [domainOf, h]

theorem valid_iff {f : Fact} : t.ValidFact f ↔ f.val < domainOf t f.var := by
  unfold Task.ValidFact domainOf
  cases h : t.vars[f.var]? with
  | none => simp
  | some d => simp

theorem mem_allFacts {f : Fact} (h : t.ValidFact f) : f ∈ allFacts t := by
  obtain ⟨d, hd, hlt⟩ := h
  simp only [allFacts, List.mem_dedup, List.mem_flatMap, List.mem_range, List.mem_map]
  refine ⟨f.var, (List.getElem?_eq_some_iff.mp hd).1, f.val, ?_, rfl⟩
  rw [domainOf_eq hd]; exact hlt

/-- number of facts without a mark -/
def unmarkedF (t : Task) (m : Fact → Bool) : Nat := ((allFacts t).filter (fun f => !m f)).length

theorem unmarkedF_mark {m : Fact → Bool} {f : Fact} (hf : t.ValidFact f) (hm : m f = false) : unmarkedF t (mark m f) + 1 = unmarkedF t m :=
  filter_mark (List.nodup_dedup _) (mem_allFacts hf) hm

/-- `g` is another fact of the same variable -/
def Sibling (t : Task) (f g : Fact) : Prop := g.var = f.var ∧ g.val ≠ f.val ∧ t.ValidFact g

theorem mem_siblings {f g : Fact} : g ∈ siblings t f ↔ Sibling t f g := by
  simp only [siblings, List.mem_map, List.mem_filter, List.mem_range, decide_eq_true_eq, Sibling, valid_iff]
  constructor
  · rintro ⟨d, ⟨h1, h2⟩, rfl⟩
    exact ⟨rfl, h2, h1⟩
  · rintro ⟨h1, h2, h3⟩
    refine ⟨g.val, ⟨by rw [← h1]; exact h3, h2⟩, ?_⟩
    cases g
    simp at h1 ⊢
    exact h1.symm

/-- what handling operator `i` achieves -/
def HandledAC (t : Task) (s : State) (w : AC) (i : Nat) : Prop :=
  (findUnsatisfied s (pre t i) = some none ∧ (∀ p ∈ pre t i, ∀ g, Sibling t p g → w.markedP g = true) ∧ ∀ e ∈ eff t i, ∀ g, Sibling t e g → w.markedP g = true ∧ w.markedC g = true) ∨
  ∃ f ∈ pre t i, ¬ f.holds s ∧ w.markedP f = true

/-- `w'` results from `w` by marking facts and operators -/
structure AC.Grow (t : Task) (s : State) (w w' : AC) : Prop where
  stub : ∀ i, w.stubborn i = true → w'.stubborn i = true
  stubNew : ∀ i, w'.stubborn i = true → w.stubborn i = true ∨ HandledAC t s w' i
  monoP : ∀ f, w.markedP f = true → w'.markedP f = true
  newP : ∀ f, w'.markedP f = true → w.markedP f = true ∨ f ∈ w'.queueP
  queueP : ∀ f ∈ w.queueP, f ∈ w'.queueP
  monoC : ∀ f, w.markedC f = true → w'.markedC f = true
  newC : ∀ f, w'.markedC f = true → w.markedC f = true ∨ f ∈ w'.queueC
  queueC : ∀ f ∈ w.queueC, f ∈ w'.queueC
  measure : 2 * unmarkedF t w'.markedP + w'.queueP.length + (2 * unmarkedF t w'.markedC + w'.queueC.length) ≤ 2 * unmarkedF t w.markedP + w.queueP.length + (2 * unmarkedF t w.markedC + w.queueC.length)

theorem HandledAC.mono {w w' : AC} {i : Nat} (h : HandledAC t s w i) (hP : ∀ f, w.markedP f = true → w'.markedP f = true) (hC : ∀ f, w.markedC f = true → w'.markedC f = true) : HandledAC t s w' i := by
  rcases h with ⟨h1, h2, h3⟩ | ⟨f, h1, h2, h3⟩
  · exact Or.inl ⟨h1, fun p hp g hg => hP g (h2 p hp g hg), fun e he g hg => ⟨hP g (h3 e he g hg).1, hC g (h3 e he g hg).2⟩⟩
  · exact Or.inr ⟨f, h1, h2, hP f h3⟩

theorem AC.Grow.refl (w : AC) : AC.Grow t s w w := ⟨fun _ h => h, fun _ h => Or.inl h, fun _ h => h, fun _ h => Or.inl h, fun _ h => h, fun _ h => h, fun _ h => Or.inl h, fun _ h => h, Nat.le_refl _⟩

theorem AC.Grow.trans {w w' w'' : AC} (h : AC.Grow t s w w') (h' : AC.Grow t s w' w'') : AC.Grow t s w w'' where
  stub i hi := h'.stub i (h.stub i hi)
  stubNew i hi := by
    rcases h'.stubNew i hi with h1 | h1
    · exact (h.stubNew i h1).imp id (fun h2 => h2.mono h'.monoP h'.monoC)
    · exact Or.inr h1
  monoP f hf := h'.monoP f (h.monoP f hf)
  newP f hf := by
    rcases h'.newP f hf with h1 | h1
    · exact (h.newP f h1).imp id (h'.queueP f)
    · exact Or.inr h1
  queueP f hf := h'.queueP f (h.queueP f hf)
  monoC f hf := h'.monoC f (h.monoC f hf)
  newC f hf := by
    rcases h'.newC f hf with h1 | h1
    · exact (h.newC f h1).imp id (h'.queueC f)
    · exact Or.inr h1
  queueC f hf := h'.queueC f (h.queueC f hf)
  measure := h'.measure.trans h.measure

theorem mark_mono {m : Fact → Bool} {f g : Fact} (h : m g = true) : mark m f g = true := by
  simp only [mark]
  split
  · rfl
  · exact h

theorem enqueueP_spec {w : AC} {f : Fact} (hf : t.ValidFact f) : AC.Grow t s w (w.enqueueP f) ∧ (w.enqueueP f).markedP f = true ∧ (w.enqueueP f).varP = w.varP ∧ (w.enqueueP f).varC = w.varC := by
  unfold AC.enqueueP
  cases h : w.markedP f with
  | true => exact ⟨by simpa using AC.Grow.refl w, by simpa using h, rfl, rfl⟩
  | false =>
    have hm := unmarkedF_mark hf h
    refine ⟨⟨fun _ h => h, fun _ h => Or.inl h, fun g hg => mark_mono hg, ?_, ?_, fun _ h => h, fun _ h => Or.inl h, fun _ h => h, ?_⟩, by simp [mark], rfl, rfl⟩
    · intro g hg
      simp only [Bool.false_eq_true, if_false, mark] at hg ⊢
      split at hg
      · rename_i hgf; exact Or.inr (by simp [hgf])
      · exact Or.inl hg
    · intro g hg
      simp [hg]
    · simp only [Bool.false_eq_true, if_false, List.length_cons]
      omega

theorem enqueueC_spec {w : AC} {f : Fact} (hf : t.ValidFact f) : AC.Grow t s w (w.enqueueC f) ∧ (w.enqueueC f).markedC f = true ∧ (w.enqueueC f).varP = w.varP ∧ (w.enqueueC f).varC = w.varC := by
  unfold AC.enqueueC
  cases h : w.markedC f with
  | true => exact ⟨by simpa using AC.Grow.refl w, by simpa using h, rfl, rfl⟩
  | false =>
    have hm := unmarkedF_mark hf h
    refine ⟨⟨fun _ h => h, fun _ h => Or.inl h, fun _ h => h, fun _ h => Or.inl h, fun _ h => h, fun g hg => mark_mono hg, ?_, ?_, ?_⟩, by simp [mark], rfl, rfl⟩
    · intro g hg
      simp only [Bool.false_eq_true, if_false, mark] at hg ⊢
      split at hg
      · rename_i hgf; exact Or.inr (by simp [hgf])
      · exact Or.inl hg
    · intro g hg
      simp [hg]
    · simp only [Bool.false_eq_true, if_false, List.length_cons]
      omega

theorem foldlP_spec {l : List Fact} {w : AC} (hl : ∀ f ∈ l, t.ValidFact f) :
    AC.Grow t s w (l.foldl AC.enqueueP w) ∧ (∀ f ∈ l, (l.foldl AC.enqueueP w).markedP f = true) ∧ (l.foldl AC.enqueueP w).varP = w.varP ∧ (l.foldl AC.enqueueP w).varC = w.varC := by
  induction l generalizing w with
  | nil => exact ⟨.refl w, by simp, rfl, rfl⟩
  | cons f l ih =>
    obtain ⟨h1, h2, h3, h4⟩ := enqueueP_spec (s := s) (w := w) (hl f (by simp))
    obtain ⟨h5, h6, h7, h8⟩ := ih (w := w.enqueueP f) (fun g hg => hl g (by simp [hg]))
    refine ⟨h1.trans h5, ?_, h7.trans h3, h8.trans h4⟩
    intro g hg
    rcases List.mem_cons.mp hg with rfl | hg
    · exact h5.monoP _ h2
    · exact h6 g hg

theorem foldlC_spec {l : List Fact} {w : AC} (hl : ∀ f ∈ l, t.ValidFact f) :
    AC.Grow t s w (l.foldl AC.enqueueC w) ∧ (∀ f ∈ l, (l.foldl AC.enqueueC w).markedC f = true) ∧ (l.foldl AC.enqueueC w).varP = w.varP ∧ (l.foldl AC.enqueueC w).varC = w.varC := by
  induction l generalizing w with
  | nil => exact ⟨.refl w, by simp, rfl, rfl⟩
  | cons f l ih =>
    obtain ⟨h1, h2, h3, h4⟩ := enqueueC_spec (s := s) (w := w) (hl f (by simp))
    obtain ⟨h5, h6, h7, h8⟩ := ih (w := w.enqueueC f) (fun g hg => hl g (by simp [hg]))
    refine ⟨h1.trans h5, ?_, h7.trans h3, h8.trans h4⟩
    intro g hg
    rcases List.mem_cons.mp hg with rfl | hg
    · exact h5.monoC _ h2
    · exact h6 g hg

/-- the meaning of the marks of variables -/
def MarkOk (t : Task) (m : Fact → Bool) (v : Nat) : Mark → Prop
  | .none => True
  | .value d => d < domainOf t v ∧ ∀ x, x < domainOf t v → x ≠ d → m ⟨v, x⟩ = true
  | .all => ∀ x, x < domainOf t v → m ⟨v, x⟩ = true

theorem MarkOk.mono {m m' : Fact → Bool} (h : ∀ f, m f = true → m' f = true) {v : Nat} {x : Mark} (hx : MarkOk t m v x) : MarkOk t m' v x := by
  cases x with
  | none => trivial
  | value d => exact ⟨hx.1, fun y hy hne => h _ (hx.2 y hy hne)⟩
  | all => exact fun y hy => h _ (hx y hy)

structure VarOk (t : Task) (w : AC) : Prop where
  P : ∀ v, MarkOk t w.markedP v (w.varP v)
  C : ∀ v, MarkOk t w.markedC v (w.varC v)

theorem VarOk.grow {w w' : AC} (h : VarOk t w) (hg : AC.Grow t s w w') (hP : w'.varP = w.varP) (hC : w'.varC = w.varC) : VarOk t w' :=
  ⟨fun v => by rw [hP]; exact (h.P v).mono hg.monoP, fun v => by rw [hC]; exact (h.C v).mono hg.monoC⟩

theorem sibling_of_valid {f g : Fact} (h : Sibling t f g) : g = ⟨f.var, g.val⟩ ∧ g.val < domainOf t f.var := by
  obtain ⟨h1, h2, h3⟩ := h
  rw [valid_iff, h1] at h3
  cases g
  simp at h1 h3 ⊢
  exact ⟨h1, h3⟩

/-- changing the marks of variables does not matter for `Grow` -/
theorem AC.Grow.setVarP {w w' : AC} (h : AC.Grow t s w w') (m : Nat → Mark) : AC.Grow t s w { w' with varP := m } :=
  ⟨h.stub, h.stubNew, h.monoP, h.newP, h.queueP, h.monoC, h.newC, h.queueC, h.measure⟩

theorem AC.Grow.setVarC {w w' : AC} (h : AC.Grow t s w w') (m : Nat → Mark) : AC.Grow t s w { w' with varC := m } :=
  ⟨h.stub, h.stubNew, h.monoP, h.newP, h.queueP, h.monoC, h.newC, h.queueC, h.measure⟩

theorem markOk_set {m : Fact → Bool} {var : Nat → Mark} (h : ∀ v, MarkOk t m v (var v)) {v : Nat} {x : Mark} (hx : MarkOk t m v x) : ∀ u, MarkOk t m u (setMark var v x u) := by
  intro u
  unfold setMark
  split
  · rename_i huv
    subst huv
    exact hx
  · exact h u

theorem siblingP_spec {sc : Bool} {w : AC} (hw : VarOk t w) {f : Fact} (hf : t.ValidFact f) :
    AC.Grow t s w (w.enqueueSiblingP t sc f) ∧ VarOk t (w.enqueueSiblingP t sc f) ∧ ∀ g, Sibling t f g → (w.enqueueSiblingP t sc f).markedP g = true := by
  unfold AC.enqueueSiblingP
  cases hx : (if sc then w.varP f.var else Mark.none) with
  | none =>
    obtain ⟨h1, h2, h3, h4⟩ := foldlP_spec (s := s) (w := w) (l := siblings t f) (fun g hg => (mem_siblings.mp hg).2.2)
    have hok := hw.grow h1 h3 h4
    cases sc with
    | false => exact ⟨h1, hok, fun g hg => h2 g (mem_siblings.mpr hg)⟩
    | true =>
      refine ⟨h1.setVarP _, ⟨markOk_set hok.P ⟨valid_iff.mp hf, ?_⟩, hok.C⟩, fun g hg => h2 g (mem_siblings.mpr hg)⟩
      intro x hx hne
      exact h2 _ (mem_siblings.mpr ⟨rfl, hne, valid_iff.mpr hx⟩)
  | value d =>
    have hd : w.varP f.var = .value d := by
      cases sc with
      | false => simp at hx
      | true => simpa using hx
    have hm := hw.P f.var
    rw [hd] at hm
    by_cases hdf : d ≠ f.val
    · have hvd : t.ValidFact ⟨f.var, d⟩ := valid_iff.mpr hm.1
      obtain ⟨h1, h2, h3, h4⟩ := enqueueP_spec (s := s) (w := w) hvd
      have hok := hw.grow h1 h3 h4
      have hall : ∀ x, x < domainOf t f.var → (w.enqueueP ⟨f.var, d⟩).markedP ⟨f.var, x⟩ = true := by
        intro x hx
        by_cases hxd : x = d
        · subst hxd; exact h2
        · exact h1.monoP _ (hm.2 x hx hxd)
      simp only [hdf, if_true, ne_eq, not_false_eq_true]
      refine ⟨h1.setVarP _, ⟨markOk_set hok.P hall, hok.C⟩, ?_⟩
      intro g hg
      obtain ⟨h5, h6⟩ := sibling_of_valid hg
      rw [h5]
      exact hall _ h6
    · simp only [hdf, if_false]
      refine ⟨.refl w, hw, ?_⟩
      intro g hg
      obtain ⟨h5, h6⟩ := sibling_of_valid hg
      rw [h5]
      push Not at hdf
      exact hm.2 _ h6 (by rw [hdf]; exact hg.2.1)
  | all =>
    have hd : w.varP f.var = .all := by
      cases sc with
      | false => simp at hx
      | true => simpa using hx
    have hm := hw.P f.var
    rw [hd] at hm
    refine ⟨.refl w, hw, ?_⟩
    intro g hg
    obtain ⟨h5, h6⟩ := sibling_of_valid hg
    rw [h5]
    exact hm _ h6

theorem siblingC_spec {sc : Bool} {w : AC} (hw : VarOk t w) {f : Fact} (hf : t.ValidFact f) :
    AC.Grow t s w (w.enqueueSiblingC t sc f) ∧ VarOk t (w.enqueueSiblingC t sc f) ∧ ∀ g, Sibling t f g → (w.enqueueSiblingC t sc f).markedC g = true := by
  unfold AC.enqueueSiblingC
  cases hx : (if sc then w.varC f.var else Mark.none) with
  | none =>
    obtain ⟨h1, h2, h3, h4⟩ := foldlC_spec (s := s) (w := w) (l := siblings t f) (fun g hg => (mem_siblings.mp hg).2.2)
    have hok := hw.grow h1 h3 h4
    cases sc with
    | false => exact ⟨h1, hok, fun g hg => h2 g (mem_siblings.mpr hg)⟩
    | true =>
      refine ⟨h1.setVarC _, ⟨hok.P, markOk_set hok.C ⟨valid_iff.mp hf, ?_⟩⟩, fun g hg => h2 g (mem_siblings.mpr hg)⟩
      intro x hx hne
      exact h2 _ (mem_siblings.mpr ⟨rfl, hne, valid_iff.mpr hx⟩)
  | value d =>
    have hd : w.varC f.var = .value d := by
      cases sc with
      | false => simp at hx
      | true => simpa using hx
    have hm := hw.C f.var
    rw [hd] at hm
    by_cases hdf : d ≠ f.val
    · have hvd : t.ValidFact ⟨f.var, d⟩ := valid_iff.mpr hm.1
      obtain ⟨h1, h2, h3, h4⟩ := enqueueC_spec (s := s) (w := w) hvd
      have hok := hw.grow h1 h3 h4
      have hall : ∀ x, x < domainOf t f.var → (w.enqueueC ⟨f.var, d⟩).markedC ⟨f.var, x⟩ = true := by
        intro x hx
        by_cases hxd : x = d
        · subst hxd; exact h2
        · exact h1.monoC _ (hm.2 x hx hxd)
      simp only [hdf, if_true, ne_eq, not_false_eq_true]
      refine ⟨h1.setVarC _, ⟨hok.P, markOk_set hok.C hall⟩, ?_⟩
      intro g hg
      obtain ⟨h5, h6⟩ := sibling_of_valid hg
      rw [h5]
      exact hall _ h6
    · simp only [hdf, if_false]
      refine ⟨.refl w, hw, ?_⟩
      intro g hg
      obtain ⟨h5, h6⟩ := sibling_of_valid hg
      rw [h5]
      push Not at hdf
      exact hm.2 _ h6 (by rw [hdf]; exact hg.2.1)
  | all =>
    have hd : w.varC f.var = .all := by
      cases sc with
      | false => simp at hx
      | true => simpa using hx
    have hm := hw.C f.var
    rw [hd] at hm
    refine ⟨.refl w, hw, ?_⟩
    intro g hg
    obtain ⟨h5, h6⟩ := sibling_of_valid hg
    rw [h5]
    exact hm _ h6

theorem foldl_grow {step : AC → Fact → AC} {Q : AC → Fact → Prop} (hQ : ∀ w w' f, AC.Grow t s w w' → Q w f → Q w' f) {l : List Fact}
    (hstep : ∀ w f, f ∈ l → VarOk t w → AC.Grow t s w (step w f) ∧ VarOk t (step w f) ∧ Q (step w f) f) {w : AC} (hw : VarOk t w) :
    AC.Grow t s w (l.foldl step w) ∧ VarOk t (l.foldl step w) ∧ ∀ f ∈ l, Q (l.foldl step w) f := by
  induction l generalizing w with
  | nil => exact ⟨.refl w, hw, by simp⟩
  | cons f l ih =>
    obtain ⟨h1, h2, h3⟩ := hstep w f (by simp) hw
    obtain ⟨h4, h5, h6⟩ := ih (fun w g hg => hstep w g (by simp [hg])) h2
    refine ⟨h1.trans h4, h5, ?_⟩
    intro g hg
    rcases List.mem_cons.mp hg with rfl | hg
    · exact hQ _ _ _ h4 h3
    · exact h6 g hg

theorem interferers_spec (hwf : t.WF) {sc : Bool} {w : AC} (hw : VarOk t w) (i : Nat) :
    AC.Grow t s w (w.enqueueInterferers t sc i) ∧ VarOk t (w.enqueueInterferers t sc i) ∧ (∀ p ∈ pre t i, ∀ g, Sibling t p g → (w.enqueueInterferers t sc i).markedP g = true) ∧
    ∀ e ∈ eff t i, ∀ g, Sibling t e g → (w.enqueueInterferers t sc i).markedP g = true ∧ (w.enqueueInterferers t sc i).markedC g = true := by
  unfold AC.enqueueInterferers
  obtain ⟨h1, h2, h3⟩ := foldl_grow (t := t) (s := s) (step := AC.enqueueSiblingP t sc) (Q := fun w p => ∀ g, Sibling t p g → w.markedP g = true) (l := pre t i)
    (fun w w' f hg h g hs => hg.monoP g (h g hs)) (fun w f hf hw => siblingP_spec hw (pre_valid hwf hf)) hw
  obtain ⟨h4, h5, h6⟩ := foldl_grow (t := t) (s := s) (step := fun w f => (w.enqueueSiblingP t sc f).enqueueSiblingC t sc f) (Q := fun w p => ∀ g, Sibling t p g → w.markedP g = true ∧ w.markedC g = true) (l := eff t i)
    (fun w w' f hg h g hs => ⟨hg.monoP g (h g hs).1, hg.monoC g (h g hs).2⟩)
    (fun w f hf hw => by
      obtain ⟨a1, a2, a3⟩ := siblingP_spec (s := s) (sc := sc) hw (eff_valid hwf hf)
      obtain ⟨b1, b2, b3⟩ := siblingC_spec (s := s) (sc := sc) a2 (eff_valid hwf hf)
      exact ⟨a1.trans b1, b2, fun g hg => ⟨b1.monoP g (a3 g hg), b3 g hg⟩⟩) h2
  exact ⟨h1.trans h4, h5, fun p hp g hg => h4.monoP g (h3 p hp g hg), h6⟩

/-! ### Selecting a fact -/

theorem quickSkip_some {m : Fact → Bool} {fs : List Fact} {acc : Option Fact} {f : Fact} (h : quickSkip s m fs acc = some (some f)) : acc = some f ∨ f ∈ fs ∧ ¬ f.holds s := by
  induction fs generalizing acc with
  | nil => simp [quickSkip] at h; exact Or.inl h
  | cons g fs ih =>
    unfold quickSkip at h
    split at h
    · simp at h
    · rename_i x hx
      have hnot : x ≠ g.val → ¬ g.holds s := by
        intro hne
        unfold Fact.holds
        rw [hx]
        simpa using hne
      split at h
      · rename_i hne
        split at h
        · simp only [Option.some.injEq] at h
          subst h
          exact Or.inr ⟨by simp, hnot hne⟩
        · split at h
          · rcases ih h with h1 | ⟨h1, h2⟩
            · simp only [Option.some.injEq] at h1
              subst h1
              exact Or.inr ⟨by simp, hnot hne⟩
            · exact Or.inr ⟨by simp [h1], h2⟩
          · rcases ih h with h1 | ⟨h1, h2⟩
            · exact Or.inl h1
            · exact Or.inr ⟨by simp [h1], h2⟩
      · rcases ih h with h1 | ⟨h1, h2⟩
        · exact Or.inl h1
        · exact Or.inr ⟨by simp [h1], h2⟩

theorem smallest_some {c : Fact → Nat} {fs : List Fact} {acc : Option Fact} {best : Nat} {f : Fact} (h : smallest s c fs acc best = some (some f)) : acc = some f ∨ f ∈ fs ∧ ¬ f.holds s := by
  induction fs generalizing acc best with
  | nil => simp [smallest] at h; exact Or.inl h
  | cons g fs ih =>
    unfold smallest at h
    split at h
    · simp at h
    · rename_i x hx
      have hnot : x ≠ g.val → ¬ g.holds s := by
        intro hne
        unfold Fact.holds
        rw [hx]
        simpa using hne
      split at h
      · rename_i hne
        split at h
        · rcases ih h with h1 | ⟨h1, h2⟩
          · simp only [Option.some.injEq] at h1
            subst h1
            exact Or.inr ⟨by simp, hnot hne⟩
          · exact Or.inr ⟨by simp [h1], h2⟩
        · rcases ih h with h1 | ⟨h1, h2⟩
          · exact Or.inl h1
          · exact Or.inr ⟨by simp [h1], h2⟩
      · rcases ih h with h1 | ⟨h1, h2⟩
        · exact Or.inl h1
        · exact Or.inr ⟨by simp [h1], h2⟩

theorem select_some {st : Strategy} {w : AC} {fs : List Fact} {f : Fact} (h : w.select t s st fs = some (some f)) : f ∈ fs ∧ ¬ f.holds s := by
  unfold AC.select at h
  cases st with
  | fastDownward => exact findUnsatisfied_some h
  | quickSkip => exact (quickSkip_some h).resolve_left (by simp)
  | staticSmall => exact (smallest_some h).resolve_left (by simp)
  | dynamicSmall => exact (smallest_some h).resolve_left (by simp)

/-! ### The worklist algorithm -/

theorem handleOp_spec (hwf : t.WF) {sc : Bool} {st : Strategy} {w w' : AC} {i : Nat} (hw : VarOk t w) (h : w.handleOp t s sc st i = some w') : AC.Grow t s w w' ∧ VarOk t w' ∧ w'.stubborn i = true := by
  unfold AC.handleOp at h
  cases hi : w.stubborn i with
  | true =>
    simp only [hi, if_true, Option.some.injEq] at h
    subst h
    exact ⟨.refl w, hw, hi⟩
  | false =>
    simp only [hi, Bool.false_eq_true, if_false] at h
    -- marking the operator, and then handling it
    have hcombine : ∀ w'' : AC, AC.Grow t s { w with stubborn := mark w.stubborn i } w'' → HandledAC t s w'' i → AC.Grow t s w w'' ∧ w''.stubborn i = true := by
      intro w'' hg hh
      refine ⟨⟨?_, ?_, hg.monoP, hg.newP, hg.queueP, hg.monoC, hg.newC, hg.queueC, hg.measure⟩, hg.stub i (by simp [mark])⟩
      · intro j hj
        refine hg.stub j ?_
        simp only [mark]
        split
        · rfl
        · exact hj
      · intro j hj
        rcases hg.stubNew j hj with h1 | h1
        · simp only [mark] at h1
          split at h1
          · rename_i hji
            subst hji
            exact Or.inr hh
          · exact Or.inl h1
        · exact Or.inr h1
    have hw1 : VarOk t { w with stubborn := mark w.stubborn i } := ⟨hw.P, hw.C⟩
    split at h
    · simp at h
    · rename_i hu
      simp only [Option.some.injEq] at h
      subst h
      obtain ⟨h1, h2, h3, h4⟩ := interferers_spec (s := s) hwf (sc := sc) hw1 i
      obtain ⟨h5, h6⟩ := hcombine _ h1 (Or.inl ⟨hu, h3, h4⟩)
      exact ⟨h5, h2, h6⟩
    · split at h
      · rename_i f hsel
        simp only [Option.some.injEq] at h
        subst h
        obtain ⟨hm, hn⟩ := select_some hsel
        obtain ⟨h1, h2, h3, h4⟩ := enqueueP_spec (s := s) (w := { w with stubborn := mark w.stubborn i }) (pre_valid hwf hm)
        obtain ⟨h5, h6⟩ := hcombine _ h1 (Or.inr ⟨f, hm, hn, h2⟩)
        exact ⟨h5, hw1.grow h1 h3 h4, h6⟩
      · simp at h

theorem foldlM_spec (hwf : t.WF) {sc : Bool} {st : Strategy} {l : List Nat} {w w' : AC} (hw : VarOk t w) (h : l.foldlM (AC.handleOp t s sc st) w = some w') : AC.Grow t s w w' ∧ VarOk t w' ∧ ∀ i ∈ l, w'.stubborn i = true := by
  induction l generalizing w with
  | nil =>
    simp at h
    subst h
    exact ⟨.refl w, hw, by simp⟩
  | cons i l ih =>
    simp only [List.foldlM_cons] at h
    cases hi : w.handleOp t s sc st i with
    | none => simp [hi] at h
    | some w1 =>
      simp [hi] at h
      obtain ⟨h1, h2, h3⟩ := handleOp_spec hwf hw hi
      obtain ⟨h4, h5, h6⟩ := ih h2 h
      refine ⟨h1.trans h4, h5, ?_⟩
      intro j hj
      rcases List.mem_cons.mp hj with rfl | hj
      · exact h4.stub _ h3
      · exact h6 j hj

/-- the invariant of the main loop -/
structure InvAC (t : Task) (s : State) (w : AC) : Prop where
  goal : ∃ g ∈ t.goal, ¬ g.holds s ∧ w.markedP g = true
  handled : ∀ i, w.stubborn i = true → HandledAC t s w i
  producers : ∀ f, w.markedP f = true → f ∉ w.queueP → ∀ i ∈ achievers t f, w.stubborn i = true
  consumers : ∀ f, w.markedC f = true → f ∉ w.queueC → ∀ i ∈ consumers t f, w.stubborn i = true
  var : VarOk t w

theorem popAC_some {w w' : AC} {x : Bool × Fact} (h : w.pop = some (x, w')) :
    w'.stubborn = w.stubborn ∧ w'.markedP = w.markedP ∧ w'.markedC = w.markedC ∧ w'.varP = w.varP ∧ w'.varC = w.varC ∧
    ((x.1 = true ∧ w.queueP = x.2 :: w'.queueP ∧ w'.queueC = w.queueC) ∨ (x.1 = false ∧ w.queueC = x.2 :: w'.queueC ∧ w'.queueP = w.queueP)) := by
  unfold AC.pop at h
  split at h
  · rename_i f q hq
    simp only [Option.some.injEq, Prod.mk.injEq] at h
    obtain ⟨rfl, rfl⟩ := h
    exact ⟨rfl, rfl, rfl, rfl, rfl, Or.inl ⟨rfl, hq, rfl⟩⟩
  · rename_i f q hq hq'
    simp only [Option.some.injEq, Prod.mk.injEq] at h
    obtain ⟨rfl, rfl⟩ := h
    exact ⟨rfl, rfl, rfl, rfl, rfl, Or.inr ⟨rfl, hq', rfl⟩⟩
  · simp at h

theorem popAC_none {w : AC} (h : w.pop = none) : w.queueP = [] ∧ w.queueC = [] := by
  unfold AC.pop at h
  split at h
  · simp at h
  · simp at h
  · rename_i h1 h2
    exact ⟨h1, h2⟩

theorem stepAC (hwf : t.WF) {sc : Bool} {st : Strategy} {w w' w'' : AC} {x : Bool × Fact} (hw : InvAC t s w) (hp : w.pop = some (x, w')) (h : w'.handle t s sc st x = some w'') : InvAC t s w'' := by
  obtain ⟨e1, e2, e3, e4, e5, hq⟩ := popAC_some hp
  have hv : VarOk t w' := ⟨by rw [e2, e4]; exact hw.var.P, by rw [e3, e5]; exact hw.var.C⟩
  unfold AC.handle at h
  obtain ⟨h1, h2, h3⟩ := foldlM_spec hwf hv h
  refine ⟨?_, ?_, ?_, ?_, h2⟩
  · obtain ⟨g, hg, hn, hm⟩ := hw.goal
    exact ⟨g, hg, hn, h1.monoP g (by rw [e2]; exact hm)⟩
  · intro i hi
    rcases h1.stubNew i hi with h4 | h4
    · rw [e1] at h4
      exact (hw.handled i h4).mono (fun f hf => h1.monoP f (by rw [e2]; exact hf)) (fun f hf => h1.monoC f (by rw [e3]; exact hf))
    · exact h4
  · intro f hf hnq i hi
    rcases hq with ⟨hx, hqp, _⟩ | ⟨hx, _, hqp⟩
    · by_cases hfx : f = x.2
      · rw [hx] at h3
        exact h3 i (by rw [← hfx]; simpa using hi)
      · rcases h1.newP f hf with h4 | h4
        · rw [e2] at h4
          have hnq' : f ∉ w.queueP := by
            rw [hqp]
            simp only [List.mem_cons, not_or]
            exact ⟨hfx, fun hm => hnq (h1.queueP f hm)⟩
          exact h1.stub i (by rw [e1]; exact hw.producers f h4 hnq' i hi)
        · exact absurd h4 hnq
    · rcases h1.newP f hf with h4 | h4
      · rw [e2] at h4
        exact h1.stub i (by rw [e1]; exact hw.producers f h4 (fun hm => hnq (h1.queueP f (by rw [hqp]; exact hm))) i hi)
      · exact absurd h4 hnq
  · intro f hf hnq i hi
    rcases hq with ⟨hx, _, hqc⟩ | ⟨hx, hqc, _⟩
    · rcases h1.newC f hf with h4 | h4
      · rw [e3] at h4
        exact h1.stub i (by rw [e1]; exact hw.consumers f h4 (fun hm => hnq (h1.queueC f (by rw [hqc]; exact hm))) i hi)
      · exact absurd h4 hnq
    · by_cases hfx : f = x.2
      · rw [hx] at h3
        exact h3 i (by rw [← hfx]; simpa using hi)
      · rcases h1.newC f hf with h4 | h4
        · rw [e3] at h4
          have hnq' : f ∉ w.queueC := by
            rw [hqc]
            simp only [List.mem_cons, not_or]
            exact ⟨hfx, fun hm => hnq (h1.queueC f hm)⟩
          exact h1.stub i (by rw [e1]; exact hw.consumers f h4 hnq' i hi)
        · exact absurd h4 hnq

theorem initAC_spec (hwf : t.WF) {st : Strategy} {g : Fact} (hsel : AC.select t s st AC.empty (sortFacts t.goal) = some (some g)) :
    InvAC t s (AC.enqueueP AC.empty g) := by
  obtain ⟨hm, hn⟩ := select_some hsel
  have hm' := mem_sortFacts.mp hm
  obtain ⟨h1, h2, h3, h4⟩ := enqueueP_spec (s := s) (w := AC.empty) (hwf.goalFacts g hm')
  refine ⟨⟨g, hm', hn, h2⟩, ?_, ?_, ?_, VarOk.grow (w := AC.empty) ⟨fun _ => trivial, fun _ => trivial⟩ h1 h3 h4⟩
  · intro i hi
    rcases h1.stubNew i hi with h | h
    · simp [AC.empty] at h
    · exact h
  · intro f hf hnq
    rcases h1.newP f hf with h | h
    · simp [AC.empty] at h
    · exact absurd h hnq
  · intro f hf hnq
    rcases h1.newC f hf with h | h
    · simp [AC.empty] at h
    · exact absurd h hnq

theorem computeAC_stubborn (ht : StubbornTask t) {sc : Bool} {st : Strategy} {w : AC} (h : computeAC t s sc st = some w) : t.Stubborn s (fun _ => True) (fun i => w.stubborn i = true) := by
  have hwf := ht.wf
  unfold computeAC at h
  split at h
  · rename_i g hsel
    obtain ⟨hinv, hpop⟩ := loop_spec (Inv := InvAC t s) (fun w a w' w'' hw hp hh => stepAC hwf hw hp hh) h (initAC_spec hwf hsel)
    obtain ⟨hqp, hqc⟩ := popAC_none hpop
    have hprod : ∀ f, w.markedP f = true → ∀ (i : Nat) (o : Operator), t.ops[i]? = some o → o.Achieves f → w.stubborn i = true :=
      fun f hf i o ho ha => hinv.producers f hf (by simp [hqp]) i (mem_achievers.mpr ⟨o, ho, ha⟩)
    have hcons : ∀ f, w.markedC f = true → ∀ (i : Nat) (o : Operator), t.ops[i]? = some o → f ∈ o.pre → w.stubborn i = true :=
      fun f hf i o ho ha => hinv.consumers f hf (by simp [hqc]) i (mem_consumers.mpr ⟨o, ho, ha⟩)
    constructor
    · obtain ⟨g, hg, hn, hm⟩ := hinv.goal
      exact ⟨g, hg, hn, fun i o ho ha _ => hprod g hm i o ho ha⟩
    · intro i o hi ho hna
      rcases hinv.handled i hi with ⟨h1, _⟩ | ⟨f, h1, h2, h3⟩
      · exact absurd (fun f hf => findUnsatisfied_none h1 f ((mem_pre ho).mpr hf)) hna
      · exact ⟨f, (mem_pre ho).mp h1, h2, fun j o' ho' ha _ => hprod f h3 j o' ho' ha⟩
    · intro i j o o' hi ho ha ho' _ hji
      rcases hinv.handled i hi with ⟨_, h2, h3⟩ | ⟨f, h1, h2, _⟩
      · refine ⟨?_, fun hx => Or.inl ?_⟩
        · rintro (⟨e, he, e', he', hv, hne⟩ | ⟨e, he, f, hf, hv, hne⟩)
          · have := h3 e.fact ((mem_eff ho).mpr ⟨e, he, rfl⟩) e'.fact ⟨hv.symm, fun h => hne h.symm, hwf.effFact o' (List.mem_of_getElem? ho') e' he'⟩
            exact hprod _ this.1 j o' ho' ⟨e', he', rfl⟩
          · have := h2 f ((mem_pre ho).mpr hf) e.fact ⟨hv, hne, hwf.effFact o' (List.mem_of_getElem? ho') e he⟩
            exact hprod _ this j o' ho' ⟨e, he, rfl⟩
        · obtain ⟨e, he, f, hf, hv, hne⟩ := hx
          have := h3 e.fact ((mem_eff ho).mpr ⟨e, he, rfl⟩) f ⟨hv.symm, fun h => hne h.symm, hwf.pre o' (List.mem_of_getElem? ho') f hf⟩
          exact hcons _ this.2 j o' ho' hf
      · exact absurd (ha f ((mem_pre ho).mp h1)) h2
  · simp at h

/-! ### Definedness -/

theorem quickSkip_defined (hs : t.ValidState s) {m : Fact → Bool} {fs : List Fact} (h : ∀ f ∈ fs, t.ValidFact f) (acc : Option Fact) (hn : acc ≠ none ∨ ¬ allHold fs s) : ∃ f, quickSkip s m fs acc = some (some f) := by
  induction fs generalizing acc with
  | nil =>
    rcases hn with hn | hn
    · obtain ⟨f, hf⟩ := Option.ne_none_iff_exists'.mp hn
      exact ⟨f, by simp [quickSkip, hf]⟩
    · exact absurd (by intro f hf; simp at hf) hn
  | cons f fs ih =>
    obtain ⟨x, hx⟩ := valid_lt hs (h f (by simp))
    have ih' := ih (fun g hg => h g (by simp [hg]))
    unfold quickSkip
    simp only [hx]
    by_cases hne : x ≠ f.val
    · simp only [hne, ne_eq, not_false_eq_true, if_true]
      split
      · exact ⟨f, rfl⟩
      · split
        · exact ih' (some f) (Or.inl (by simp))
        · rename_i hacc
          exact ih' acc (Or.inl (by simpa using hacc))
    · simp only [hne, if_false]
      refine ih' acc (hn.imp id ?_)
      intro hn hall
      apply hn
      intro g hg
      rcases List.mem_cons.mp hg with rfl | hg
      · push Not at hne
        unfold Fact.holds
        rw [hx, hne]
      · exact hall g hg

theorem smallest_defined (hs : t.ValidState s) {c : Fact → Nat} {fs : List Fact} (h : ∀ f ∈ fs, t.ValidFact f) (acc : Option Fact) (best : Nat) (hb : acc = none → ∀ f ∈ fs, c f < best) (hn : acc ≠ none ∨ ¬ allHold fs s) : ∃ f, smallest s c fs acc best = some (some f) := by
  induction fs generalizing acc best with
  | nil =>
    rcases hn with hn | hn
    · obtain ⟨f, hf⟩ := Option.ne_none_iff_exists'.mp hn
      exact ⟨f, by simp [smallest, hf]⟩
    · exact absurd (by intro f hf; simp at hf) hn
  | cons f fs ih =>
    obtain ⟨x, hx⟩ := valid_lt hs (h f (by simp))
    have ih' := ih (fun g hg => h g (by simp [hg]))
    unfold smallest
    simp only [hx]
    by_cases hne : x ≠ f.val
    · simp only [hne, ne_eq, not_false_eq_true, if_true]
      split
      · exact ih' (some f) _ (by simp) (Or.inl (by simp))
      · rename_i hlt
        have hacc : acc ≠ none := fun ha => hlt (hb ha f (by simp))
        exact ih' acc best (fun ha => absurd ha hacc) (Or.inl hacc)
    · simp only [hne, if_false]
      refine ih' acc best (fun ha g hg => hb ha g (by simp [hg])) (hn.imp id ?_)
      intro hn hall
      apply hn
      intro g hg
      rcases List.mem_cons.mp hg with rfl | hg
      · push Not at hne
        unfold Fact.holds
        rw [hx, hne]
      · exact hall g hg

theorem select_defined (hs : t.ValidState s) (hc : ∀ f, (achievers t f).length < 2 ^ 31 - 1) (st : Strategy) (w : AC) {fs : List Fact} (h : ∀ f ∈ fs, t.ValidFact f) (hn : ¬ allHold fs s) : ∃ f, w.select t s st fs = some (some f) := by
  unfold AC.select
  cases st with
  | fastDownward => exact findUnsatisfied_exists hs h hn
  | quickSkip => exact quickSkip_defined hs h none (Or.inr hn)
  | staticSmall => exact smallest_defined hs h none _ (fun _ f _ => hc f) (Or.inr hn)
  | dynamicSmall => exact smallest_defined hs h none _ (fun _ f _ => Nat.lt_of_le_of_lt (List.length_filter_le _ _) (hc f)) (Or.inr hn)

theorem handleOp_defined (hwf : t.WF) (hs : t.ValidState s) (hc : ∀ f, (achievers t f).length < 2 ^ 31 - 1) (sc : Bool) (st : Strategy) (w : AC) (i : Nat) : ∃ w', w.handleOp t s sc st i = some w' := by
  unfold AC.handleOp
  split
  · exact ⟨w, rfl⟩
  · obtain ⟨r, hr⟩ := findUnsatisfied_defined hs (fs := pre t i) (fun f hf => pre_valid hwf hf)
    rw [hr]
    cases r with
    | none => exact ⟨_, rfl⟩
    | some f =>
      obtain ⟨h1, h2⟩ := findUnsatisfied_some hr
      obtain ⟨g, hg⟩ := select_defined hs hc st { w with stubborn := mark w.stubborn i } (fs := pre t i) (fun f hf => pre_valid hwf hf) (fun h => h2 (h f h1))
      simp only [hg]
      exact ⟨_, rfl⟩

theorem foldlM_defined {W α : Type} {f : W → α → Option W} (h : ∀ w a, ∃ w', f w a = some w') (l : List α) (w : W) : ∃ w', l.foldlM f w = some w' := by
  induction l generalizing w with
  | nil => exact ⟨w, by simp⟩
  | cons a l ih =>
    obtain ⟨w1, h1⟩ := h w a
    obtain ⟨w2, h2⟩ := ih w1
    exact ⟨w2, by simp [List.foldlM_cons, h1, h2]⟩

theorem computeAC_defined (hwf : t.WF) (hs : t.ValidState s) (hc : ∀ f, (achievers t f).length < 2 ^ 31 - 1) (hg : ¬ allHold t.goal s) (sc : Bool) (st : Strategy) : ∃ w, computeAC t s sc st = some w := by
  unfold computeAC
  obtain ⟨g, hsel⟩ := select_defined hs hc st AC.empty (fs := sortFacts t.goal) (fun f hf => hwf.goalFacts f (mem_sortFacts.mp hf)) (fun h => hg (fun f hf => h f (mem_sortFacts.mpr hf)))
  simp only [hsel]
  refine loop_defined (Inv := VarOk t) (fun w => 2 * unmarkedF t w.markedP + w.queueP.length + (2 * unmarkedF t w.markedC + w.queueC.length)) ?_ (initAC_spec hwf hsel).var
  intro w x w' hv hp
  obtain ⟨e1, e2, e3, e4, e5, hq⟩ := popAC_some hp
  have hv' : VarOk t w' := ⟨by rw [e2, e4]; exact hv.P, by rw [e3, e5]; exact hv.C⟩
  obtain ⟨w'', h⟩ := foldlM_defined (handleOp_defined hwf hs hc sc st) (if x.1 then achievers t x.2 else consumers t x.2) w'
  obtain ⟨h1, h2, _⟩ := foldlM_spec hwf hv' h
  refine ⟨w'', h, h2, ?_⟩
  have := h1.measure
  rw [e2, e3] at this
  rcases hq with ⟨_, hq1, hq2⟩ | ⟨_, hq1, hq2⟩
  · rw [hq1, ← hq2]
    simp only [List.length_cons]
    omega
  · rw [hq1, ← hq2]
    simp only [List.length_cons]
    omega

end

end Verif.Stubborn
