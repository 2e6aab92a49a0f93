import Verif.Spec.AxiomRules

/-
Renaming the atoms of a grounded task does not change its plans.
-/
namespace Verif.Strips
variable {α β γ : Type}

def Literal.rename (f : α → β) (l : Literal α) : Literal β := ⟨l.negated, f l.atom⟩

def Action.rename (f : α → β) (a : Action α) : Action β := ⟨a.name, a.pre.map (·.rename f), a.effects.map (fun e => (e.1.map (·.rename f), e.2.rename f)), a.cost⟩

def Rule.rename (f : α → β) (r : Rule α) : Rule β := ⟨r.body.map (·.rename f), f r.head⟩

/-- the task with other names of atoms -/
def StripsTask.rename (f : α → β) (t : StripsTask α) : StripsTask β := ⟨t.init.map f, t.goal.map (·.rename f), t.actions.map (·.rename f), t.axioms.map (·.rename f), t.layers.map (fun x => (f x.1, x.2)), t.metric⟩

theorem Literal.rename_rename (f : α → β) (g : β → γ) (l : Literal α) : (l.rename f).rename g = l.rename (g ∘ f) := rfl

theorem Action.rename_rename (f : α → β) (g : β → γ) (a : Action α) : (a.rename f).rename g = a.rename (g ∘ f) := by
  simp [Action.rename, Function.comp_def, Literal.rename]

theorem Rule.rename_rename (f : α → β) (g : β → γ) (r : Rule α) : (r.rename f).rename g = r.rename (g ∘ f) := by
  simp [Rule.rename, Function.comp_def, Literal.rename]

theorem StripsTask.rename_id (t : StripsTask α) : t.rename id = t := by
  have h1 : (fun l : Literal α => l.rename id) = id := rfl
  have h2 : (fun r : Rule α => r.rename id) = id := by funext r; simp [Rule.rename, h1]
  have h3 : (fun a : Action α => a.rename id) = id := by funext a; simp [Action.rename, h1, Literal.rename]
  cases t
  simp [StripsTask.rename, h1, h2, h3]

theorem StripsTask.rename_back (f : α ≃ β) (t : StripsTask α) : (t.rename f).rename f.symm = t := by
  have : (t.rename f).rename f.symm = t.rename (f.symm ∘ f) := by
    simp [StripsTask.rename, Function.comp_def, Action.rename_rename, Rule.rename_rename, Literal.rename_rename]
  rw [this, Equiv.symm_comp_self, StripsTask.rename_id]

theorem derived_rename (f : α ≃ β) {t : StripsTask α} {p : α} (h : t.Derived p) : (t.rename f).Derived (f p) := by
  obtain ⟨n, h⟩ := h
  exact ⟨n, List.mem_map.mpr ⟨_, h, rfl⟩⟩

theorem derived_rename_iff (f : α ≃ β) {t : StripsTask α} {p : α} : (t.rename f).Derived (f p) ↔ t.Derived p := by
  refine ⟨fun h => ?_, derived_rename f⟩
  have := derived_rename f.symm h
  rwa [StripsTask.rename_back, Equiv.symm_apply_apply] at this

theorem derives_rename (f : α ≃ β) {t : StripsTask α} {s : α → Prop} {p : α} (h : t.Derives s p) : (t.rename f).Derives (s ∘ f.symm) (f p) := by
  induction h with
  | rule r hr hneg hbase hpos ih =>
    refine StripsTask.Derives.rule (r.rename f) (List.mem_map.mpr ⟨r, hr, rfl⟩) ?_ ?_ ?_
    · intro l hl hn
      obtain ⟨l, hl', rfl⟩ := List.mem_map.mp hl
      replace hl := hl'
      simpa [Literal.rename] using hneg l hl hn
    · intro l hl hn hd
      obtain ⟨l, hl', rfl⟩ := List.mem_map.mp hl
      replace hl := hl'
      simpa [Literal.rename] using hbase l hl hn fun h => hd (derived_rename f h)
    · intro l hl hn hd
      obtain ⟨l, hl', rfl⟩ := List.mem_map.mp hl
      replace hl := hl'
      exact ih l hl hn ((derived_rename_iff f).mp hd)

theorem derives_rename_iff (f : α ≃ β) {t : StripsTask α} {s : α → Prop} {p : α} : (t.rename f).Derives (s ∘ f.symm) (f p) ↔ t.Derives s p := by
  refine ⟨fun h => ?_, derives_rename f⟩
  have := derives_rename f.symm h
  rwa [StripsTask.rename_back, Equiv.symm_apply_apply, Equiv.symm_symm, Function.comp_assoc, Equiv.symm_comp_self, Function.comp_id] at this

theorem completes_rename (f : α ≃ β) {t : StripsTask α} {b s : α → Prop} (h : t.Completes b s) : (t.rename f).Completes (b ∘ f.symm) (s ∘ f.symm) := by
  constructor
  · intro q hq
    obtain ⟨p, rfl⟩ := f.surjective q
    simpa using h.base p fun h' => hq (derived_rename f h')
  · intro q hq
    obtain ⟨p, rfl⟩ := f.surjective q
    rw [derives_rename_iff]
    simpa using h.derived p ((derived_rename_iff f).mp hq)

theorem holds_rename (f : α ≃ β) {l : Literal α} {s : α → Prop} : (l.rename f).holds (s ∘ f.symm) ↔ l.holds s := by
  simp [Literal.holds, Literal.rename]

theorem result_rename (f : α ≃ β) {a : Action α} {s : α → Prop} : (a.rename f).result (s ∘ f.symm) = a.result s ∘ f.symm := by
  have key : ∀ (n : Bool) (p : α), (∃ e ∈ (a.rename f).effects, e.2 = ⟨n, f p⟩ ∧ ∀ l ∈ e.1, l.holds (s ∘ f.symm)) ↔ ∃ e ∈ a.effects, e.2 = ⟨n, p⟩ ∧ ∀ l ∈ e.1, l.holds s := by
    intro n p
    constructor
    · rintro ⟨e, he, h1, h2⟩
      obtain ⟨e, he', rfl⟩ := List.mem_map.mp he
      replace he := he'
      refine ⟨e, he, ?_, fun l hl => (holds_rename f).mp (h2 _ (List.mem_map.mpr ⟨l, hl, rfl⟩))⟩
      simp only [Literal.rename, Literal.mk.injEq, EmbeddingLike.apply_eq_iff_eq] at h1
      rw [← h1.1, ← h1.2]
    · rintro ⟨e, he, h1, h2⟩
      refine ⟨_, List.mem_map.mpr ⟨e, he, rfl⟩, by simp only [h1]; rfl, fun l hl => ?_⟩
      obtain ⟨l, hl', rfl⟩ := List.mem_map.mp hl
      replace hl := hl'
      exact (holds_rename f).mpr (h2 l hl)
  funext q
  obtain ⟨p, rfl⟩ := f.surjective q
  simp only [Action.result, Action.Adds, Action.Deletes, key, Function.comp_apply, Equiv.symm_apply_apply]

theorem run_rename (f : α ≃ β) {t : StripsTask α} {s u : α → Prop} {as : List (Action α)} (h : t.Run s as u) : (t.rename f).Run (s ∘ f.symm) (as.map (·.rename f)) (u ∘ f.symm) := by
  induction h with
  | nil s => exact .nil _
  | cons s a s' as u hstep _ ih =>
    refine .cons _ (a.rename f) _ _ _ ⟨List.mem_map.mpr ⟨a, hstep.1, rfl⟩, fun l hl => ?_, ?_⟩ ih
    · obtain ⟨l, hl', rfl⟩ := List.mem_map.mp hl
      replace hl := hl'
      exact (holds_rename f).mpr (hstep.2.1 l hl)
    · rw [result_rename]
      exact completes_rename f hstep.2.2

theorem initial_rename (f : α ≃ β) {t : StripsTask α} {s : α → Prop} (h : t.Initial s) : (t.rename f).Initial (s ∘ f.symm) := by
  have := completes_rename f h
  unfold StripsTask.Initial
  have he : (fun p => p ∈ (t.rename f).init) = (fun p => p ∈ t.init) ∘ f.symm := by
    funext q
    obtain ⟨p, rfl⟩ := f.surjective q
    simp [StripsTask.rename]
  rw [he]
  exact this

theorem hasPlan_rename (f : α ≃ β) {t : StripsTask α} {p : List (List Char × Nat)} (h : t.HasPlan p) : (t.rename f).HasPlan p := by
  obtain ⟨s, as, u, h1, h2, h3, rfl⟩ := h
  refine ⟨_, _, _, initial_rename f h1, run_rename f h2, fun l hl => ?_, by simp [Function.comp_def, Action.rename]⟩
  obtain ⟨l, hl', rfl⟩ := List.mem_map.mp hl
  replace hl := hl'
  exact (holds_rename f).mpr (h3 l hl)

theorem hasPlan_rename_iff (f : α ≃ β) {t : StripsTask α} {p : List (List Char × Nat)} : (t.rename f).HasPlan p ↔ t.HasPlan p := by
  refine ⟨fun h => ?_, hasPlan_rename f⟩
  have := hasPlan_rename f.symm h
  rwa [StripsTask.rename_back] at this

theorem head_rename_iff (f : α ≃ β) {t : StripsTask α} {p : α} : (t.rename f).Head (f p) ↔ t.Head p := by
  constructor
  · rintro ⟨r, hr, h⟩
    obtain ⟨r, hr', rfl⟩ := List.mem_map.mp hr
    replace hr := hr'
    exact ⟨r, hr, f.injective h⟩
  · rintro ⟨r, hr, rfl⟩
    exact ⟨_, List.mem_map.mpr ⟨r, hr, rfl⟩, rfl⟩

theorem derivedOnly_rename (f : α ≃ β) {t : StripsTask α} (h : t.DerivedOnly) : (t.rename f).DerivedOnly := by
  constructor
  · intro a ha e he hh
    obtain ⟨a, ha', rfl⟩ := List.mem_map.mp ha
    replace ha := ha'
    obtain ⟨e, he', rfl⟩ := List.mem_map.mp he
    replace he := he'
    exact h.effects a ha e he ((head_rename_iff f).mp hh)
  · intro p hp hh
    obtain ⟨p, hp', rfl⟩ := List.mem_map.mp hp
    replace hp := hp'
    exact h.init p hp ((head_rename_iff f).mp hh)

theorem stratifiable_rename (f : α ≃ β) {t : StripsTask α} (h : t.Stratifiable) : (t.rename f).Stratifiable := by
  obtain ⟨layer, h⟩ := h
  refine ⟨layer ∘ f.symm, fun r hr _ l hl hh => ?_⟩
  obtain ⟨r, hr', rfl⟩ := List.mem_map.mp hr
  replace hr := hr'
  obtain ⟨l, hl', rfl⟩ := List.mem_map.mp hl
  replace hl := hl'
  simpa [Literal.rename, Rule.rename] using h r hr trivial l hl ((head_rename_iff f).mp hh)

theorem mentions_rename (f : α ≃ β) {t : StripsTask α} {q : β} (h : (t.rename f).Mentions q) : ∃ p, t.Mentions p ∧ f p = q := by
  rcases h with ⟨l, hl, rfl⟩ | ⟨a, ha, h⟩ | ⟨r, hr, h⟩
  · obtain ⟨l, hl', rfl⟩ := List.mem_map.mp hl
    replace hl := hl'
    exact ⟨l.atom, .inl ⟨l, hl, rfl⟩, rfl⟩
  · obtain ⟨a, ha', rfl⟩ := List.mem_map.mp ha
    replace ha := ha'
    rcases h with ⟨l, hl, rfl⟩ | ⟨e, he, h⟩
    · obtain ⟨l, hl', rfl⟩ := List.mem_map.mp hl
      replace hl := hl'
      exact ⟨l.atom, .inr (.inl ⟨a, ha, .inl ⟨l, hl, rfl⟩⟩), rfl⟩
    · obtain ⟨e, he', rfl⟩ := List.mem_map.mp he
      replace he := he'
      rcases h with rfl | ⟨l, hl, rfl⟩
      · exact ⟨e.2.atom, .inr (.inl ⟨a, ha, .inr ⟨e, he, .inl rfl⟩⟩), rfl⟩
      · obtain ⟨l, hl', rfl⟩ := List.mem_map.mp hl
        replace hl := hl'
        exact ⟨l.atom, .inr (.inl ⟨a, ha, .inr ⟨e, he, .inr ⟨l, hl, rfl⟩⟩⟩), rfl⟩
  · obtain ⟨r, hr', rfl⟩ := List.mem_map.mp hr
    replace hr := hr'
    rcases h with rfl | ⟨l, hl, rfl⟩
    · exact ⟨r.head, .inr (.inr ⟨r, hr, .inl rfl⟩), rfl⟩
    · obtain ⟨l, hl', rfl⟩ := List.mem_map.mp hl
      replace hl := hl'
      exact ⟨l.atom, .inr (.inr ⟨r, hr, .inr ⟨l, hl, rfl⟩⟩), rfl⟩

theorem fromHeads_rename (f : α → β) {t : StripsTask α} (h : t.fromHeads = t) : (t.rename f).fromHeads = t.rename f := by
  have hl : t.layers = t.axioms.map (fun r => (r.head, 0)) := by
    conv_lhs => rw [← h]
    rfl
  unfold StripsTask.fromHeads StripsTask.rename
  rw [hl]
  simp [Function.comp_def, Rule.rename]

end Verif.Strips
