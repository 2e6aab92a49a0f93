import Verif.Model.PddlEffects
import Mathlib.Data.List.Basic

/-
C88: the effects of PDDL actions.
-/
namespace Verif.Effects

variable {V T O C A G : Type} [DecidableEq V] {L : Lang V T O C A G} {ρ ρ' : V → O} {b : Bool} {g : G}

theorem fires_conj {es : List (Eff V T C A)} : Fires L (.conj es) ρ b g ↔ ∃ e ∈ es, Fires L e ρ b g := by
  constructor
  · intro h
    cases h with
    | conj _ e _ _ _ h1 h2 => exact ⟨e, h1, h2⟩
  · rintro ⟨e, h1, h2⟩
    exact .conj _ e _ _ _ h1 h2

theorem fires_all {ps : List (V × T)} {e : Eff V T C A} : Fires L (.all ps e) ρ b g ↔ ∃ ρ', Ext L ps ρ ρ' ∧ Fires L e ρ' b g := by
  constructor
  · intro h
    cases h with
    | all _ _ _ ρ' _ _ h1 h2 => exact ⟨ρ', h1, h2⟩
  · rintro ⟨ρ', h1, h2⟩
    exact .all _ _ _ ρ' _ _ h1 h2

theorem fires_when {c : C} {e : Eff V T C A} : Fires L (.when c e) ρ b g ↔ L.holds c ρ ∧ Fires L e ρ b g := by
  constructor
  · intro h
    cases h with
    | when _ _ _ _ _ h1 h2 => exact ⟨h1, h2⟩
  · rintro ⟨h1, h2⟩
    exact .when _ _ _ _ _ h1 h2

theorem fires_simple {p : Bool} {a : A} : Fires L (.simple p a) ρ b g ↔ p = b ∧ g = L.ground a ρ := by
  constructor
  · intro h
    cases h
    exact ⟨rfl, rfl⟩
  · rintro ⟨rfl, rfl⟩
    exact .simple _ _ _

theorem ext_append {ps qs : List (V × T)} : Ext L (ps ++ qs) ρ ρ' ↔ ∃ σ, Ext L ps ρ σ ∧ Ext L qs σ ρ' := by
  induction ps generalizing ρ with
  | nil =>
    constructor
    · intro h
      exact ⟨ρ, .nil _, h⟩
    · rintro ⟨σ, h1, h2⟩
      cases h1
      exact h2
  | cons p ps ih =>
    constructor
    · intro h
      cases h with
      | cons x t _ _ _ o h1 h2 =>
        obtain ⟨σ, h3, h4⟩ := ih.mp h2
        exact ⟨σ, .cons _ _ _ _ _ o h1 h3, h4⟩
    · rintro ⟨σ, h1, h2⟩
      cases h1 with
      | cons x t _ _ _ o h1 h3 => exact .cons _ _ _ _ _ o h1 (ih.mpr ⟨σ, h3, h2⟩)

theorem ext_agree {ps : List (V × T)} (h : Ext L ps ρ ρ') : ∀ x, x ∉ ps.map (·.1) → ρ x = ρ' x := by
  induction h with
  | nil => exact fun _ _ => rfl
  | cons x t ps ρ ρ' o _ _ ih =>
    intro y hy
    simp only [List.map_cons, List.mem_cons, not_or] at hy
    rw [← ih y hy.2]
    simp only [if_neg hy.1]

theorem fires_mkAll {ps : List (V × T)} {e : Eff V T C A} : Fires L (mkAll ps e) ρ b g ↔ Fires L (.all ps e) ρ b g := by
  unfold mkAll
  split
  · rw [fires_all, fires_all]
    constructor
    · rintro ⟨ρ', h1, h2⟩
      obtain ⟨σ, h3, h4⟩ := ext_append.mp h1
      exact ⟨σ, h3, fires_all.mpr ⟨ρ', h4, h2⟩⟩
    · rintro ⟨σ, h1, h2⟩
      obtain ⟨ρ', h3, h4⟩ := fires_all.mp h2
      exact ⟨ρ', ext_append.mpr ⟨σ, h1, h3⟩, h4⟩
  · rfl

theorem fires_mkWhen {c : C} {e : Eff V T C A} : Fires L (mkWhen L c e) ρ b g ↔ Fires L (.when c e) ρ b g := by
  unfold mkWhen
  split
  · rw [fires_when, fires_when, fires_when, L.holds_and, and_assoc]
  · rfl

theorem mem_flatten {P : Eff V T C A → Prop} (hP : ∀ es, P (.conj es) ↔ ∃ e ∈ es, P e) : ∀ {es : List (Eff V T C A)}, (∃ e ∈ flattenConj es, P e) ↔ ∃ e ∈ es, P e
  | [] => by simp [flattenConj]
  | e :: es => by
    have ih := mem_flatten hP (es := es)
    simp only [List.mem_cons, exists_eq_or_imp]
    cases e with
    | conj fs =>
      rw [flattenConj, hP]
      simp only [List.mem_append, or_and_right, exists_or, ih]
    | _ => simp only [flattenConj, List.mem_cons, exists_eq_or_imp, ih]

theorem bound_conj {es : List (Eff V T C A)} {x : V} : Bound (.conj es) x ↔ ∃ e ∈ es, Bound e x := by
  constructor
  · intro h
    cases h with
    | conj _ e _ h1 h2 => exact ⟨e, h1, h2⟩
  · rintro ⟨e, h1, h2⟩
    exact .conj _ e _ h1 h2

theorem bound_all {ps : List (V × T)} {e : Eff V T C A} {x : V} : Bound (.all ps e) x ↔ x ∈ ps.map (·.1) ∨ Bound e x := by
  constructor
  · intro h
    cases h with
    | here _ _ _ h => exact .inl h
    | all _ _ _ h => exact .inr h
  · rintro (h | h)
    · exact .here _ _ _ h
    · exact .all _ _ _ h

theorem bound_when {c : C} {e : Eff V T C A} {x : V} : Bound (.when c e) x ↔ Bound e x := by
  constructor
  · intro h
    cases h with
    | when _ _ _ h => exact h
  · exact .when _ _ _

theorem bound_mkAll {ps : List (V × T)} {e : Eff V T C A} {x : V} : Bound (mkAll ps e) x ↔ Bound (.all ps e) x := by
  unfold mkAll
  split
  · rw [bound_all, bound_all, bound_all, List.map_append, List.mem_append, or_assoc]
  · rfl

theorem bound_mkWhen {c : C} {e : Eff V T C A} {x : V} : Bound (mkWhen L c e) x ↔ Bound (.when c e) x := by
  unfold mkWhen
  split
  · rw [bound_when, bound_when, bound_when]
  · rfl

theorem normalizeAll_spec {ps : List (V × T)} {e e' : Eff V T C A} (h : normalizeAll ps e = some e') : (∀ ρ b g, Fires L e' ρ b g ↔ Fires L (.all ps e) ρ b g) ∧ ∀ x, Bound e' x → Bound (.all ps e) x := by
  unfold normalizeAll at h
  split at h
  · rename_i es
    split at h
    · simp only [Option.some.injEq] at h
      subst h
      refine ⟨fun ρ b g => ?_, fun x => ?_⟩
      · rw [fires_conj, mem_flatten (P := fun e => Fires L e ρ b g) (fun es => fires_conj), fires_all]
        simp only [List.mem_map, exists_exists_and_eq_and, fires_mkAll, fires_all, fires_conj]
        constructor
        · rintro ⟨e, h1, ρ', h2, h3⟩
          exact ⟨ρ', h2, e, h1, h3⟩
        · rintro ⟨ρ', h2, e, h1, h3⟩
          exact ⟨e, h1, ρ', h2, h3⟩
      · rw [bound_conj, mem_flatten (P := fun e => Bound e x) (fun es => bound_conj), bound_all]
        simp only [List.mem_map, exists_exists_and_eq_and, bound_mkAll, bound_all, bound_conj]
        rintro ⟨e, h1, h2 | h2⟩
        · exact .inl h2
        · exact .inr ⟨e, h1, h2⟩
    · simp at h
  · simp only [Option.some.injEq] at h
    subst h
    exact ⟨fun ρ b g => fires_mkAll, fun x => bound_mkAll.mp⟩

theorem normalizeWhen_spec {c : C} {e e' : Eff V T C A} (hc : ∀ x, Bound e x → ¬L.free c x) (h : normalizeWhen L c e = some e') : (∀ ρ b g, Fires L e' ρ b g ↔ Fires L (.when c e) ρ b g) ∧ ∀ x, Bound e' x → Bound (.when c e) x := by
  unfold normalizeWhen at h
  split at h
  · rename_i es
    split at h
    · simp only [Option.some.injEq] at h
      subst h
      refine ⟨fun ρ b g => ?_, fun x => ?_⟩
      · rw [fires_conj, mem_flatten (P := fun e => Fires L e ρ b g) (fun es => fires_conj), fires_when]
        simp only [List.mem_map, exists_exists_and_eq_and, fires_mkWhen, fires_when, fires_conj]
        constructor
        · rintro ⟨e, h1, h2, h3⟩
          exact ⟨h2, e, h1, h3⟩
        · rintro ⟨h2, e, h1, h3⟩
          exact ⟨e, h1, h2, h3⟩
      · rw [bound_conj, mem_flatten (P := fun e => Bound e x) (fun es => bound_conj), bound_when]
        simp only [List.mem_map, exists_exists_and_eq_and, bound_mkWhen, bound_when, bound_conj]
        exact id
    · simp at h
  · rename_i ps e1
    simp only [Option.some.injEq] at h
    subst h
    refine ⟨fun ρ b g => ?_, fun x => ?_⟩
    · rw [fires_mkAll, fires_all, fires_when, fires_all]
      simp only [fires_mkWhen, fires_when]
      have hh : ∀ ρ', Ext L ps ρ ρ' → (L.holds c ρ ↔ L.holds c ρ') := fun ρ' he => L.holds_congr c ρ ρ' fun x hx => ext_agree he x fun hm => hc x (.here _ _ _ hm) hx
      constructor
      · rintro ⟨ρ', h1, h2, h3⟩
        exact ⟨(hh ρ' h1).mpr h2, ρ', h1, h3⟩
      · rintro ⟨h2, ρ', h1, h3⟩
        exact ⟨ρ', h1, (hh ρ' h1).mp h2, h3⟩
    · rw [bound_mkAll, bound_all, bound_mkWhen, bound_when, bound_when, bound_all]
      exact id
  · simp only [Option.some.injEq] at h
    subst h
    exact ⟨fun ρ b g => fires_mkWhen, fun x => bound_mkWhen.mp⟩

mutual
theorem normalize_spec (e e' : Eff V T C A) (h : normalize L e = some e') (hn : NoCapture L e) : (∀ ρ b g, Fires L e' ρ b g ↔ Fires L e ρ b g) ∧ ∀ x, Bound e' x → Bound e x := by
  match e with
  | .simple p a =>
    simp only [normalize, Option.some.injEq] at h
    subst h
    exact ⟨fun _ _ _ => Iff.rfl, fun _ => id⟩
  | .cost =>
    simp only [normalize, Option.some.injEq] at h
    subst h
    exact ⟨fun _ _ _ => Iff.rfl, fun _ => id⟩
  | .conj es =>
    simp only [normalize] at h
    obtain ⟨es', h1, rfl⟩ := Option.map_eq_some_iff.mp h
    have hn' : ∀ e ∈ es, NoCapture L e := by cases hn; assumption
    obtain ⟨h2, h3⟩ := normalizeList_spec es es' h1 hn'
    refine ⟨fun ρ b g => ?_, fun x => ?_⟩
    · rw [fires_conj, mem_flatten (P := fun e => Fires L e ρ b g) (fun es => fires_conj), fires_conj]
      exact h2 ρ b g
    · rw [bound_conj, mem_flatten (P := fun e => Bound e x) (fun es => bound_conj), bound_conj]
      exact h3 x
  | .all ps e1 =>
    simp only [normalize] at h
    have hn' : NoCapture L e1 := by cases hn; assumption
    cases h1 : normalize L e1 with
    | none => rw [h1] at h; simp at h
    | some e2 =>
      rw [h1] at h
      obtain ⟨h2, h3⟩ := normalize_spec e1 e2 h1 hn'
      obtain ⟨h4, h5⟩ := normalizeAll_spec (L := L) h
      refine ⟨fun ρ b g => ?_, fun x hx => ?_⟩
      · rw [h4, fires_all, fires_all]
        simp only [h2]
      · exact bound_all.mpr ((bound_all.mp (h5 x hx)).imp_right (h3 x))
  | .when c e1 =>
    simp only [normalize] at h
    obtain ⟨hc, hn'⟩ : (∀ x, Bound e1 x → ¬L.free c x) ∧ NoCapture L e1 := by
      cases hn with
      | when _ _ k1 k2 => exact ⟨k1, k2⟩
    cases h1 : normalize L e1 with
    | none => rw [h1] at h; simp at h
    | some e2 =>
      rw [h1] at h
      obtain ⟨h2, h3⟩ := normalize_spec e1 e2 h1 hn'
      obtain ⟨h4, h5⟩ := normalizeWhen_spec (fun x hx => hc x (h3 x hx)) h
      refine ⟨fun ρ b g => ?_, fun x hx => ?_⟩
      · rw [h4, fires_when, fires_when, h2]
      · exact bound_when.mpr (h3 x (bound_when.mp (h5 x hx)))
theorem normalizeList_spec (es es' : List (Eff V T C A)) (h : normalizeList L es = some es') (hn : ∀ e ∈ es, NoCapture L e) :
    (∀ ρ b g, (∃ e ∈ es', Fires L e ρ b g) ↔ ∃ e ∈ es, Fires L e ρ b g) ∧ ∀ x, (∃ e ∈ es', Bound e x) → ∃ e ∈ es, Bound e x := by
  match es with
  | [] =>
    simp only [normalizeList, Option.some.injEq] at h
    subst h
    simp
  | e :: es =>
    simp only [normalizeList] at h
    cases h1 : normalize L e with
    | none => rw [h1] at h; simp at h
    | some e1 =>
      rw [h1] at h
      obtain ⟨es1, h2, rfl⟩ := Option.map_eq_some_iff.mp h
      obtain ⟨h3, h4⟩ := normalize_spec e e1 h1 (hn e List.mem_cons_self)
      obtain ⟨h5, h6⟩ := normalizeList_spec es es1 h2 (fun e' he' => hn e' (List.mem_cons_of_mem _ he'))
      refine ⟨fun ρ b g => ?_, fun x => ?_⟩
      · simp only [List.mem_cons, exists_eq_or_imp, h3, h5]
      · simp only [List.mem_cons, exists_eq_or_imp]
        exact Or.imp (h4 x) (h6 x)
end

theorem extractCost_spec {e e' : Eff V T C A} (h : extractCost e = some e') : Fires L e' ρ b g ↔ Fires L e ρ b g := by
  unfold extractCost at h
  split at h
  · rename_i es
    simp only [Option.some.injEq] at h
    subst h
    rw [fires_conj, mem_flatten (P := fun e => Fires L e ρ b g) (fun es => fires_conj), fires_conj]
    constructor
    · rintro ⟨e, h1, h2⟩
      exact ⟨e, (List.mem_filter.mp h1).1, h2⟩
    · rintro ⟨e, h1, h2⟩
      refine ⟨e, List.mem_filter.mpr ⟨h1, ?_⟩, h2⟩
      cases e with
      | cost => cases h2
      | _ => rfl
  · simp at h
  · simp only [Option.some.injEq] at h
    rw [h]

theorem ext_nil : Ext L [] ρ ρ' ↔ ρ' = ρ := by
  constructor
  · intro h
    cases h
    rfl
  · rintro rfl
    exact .nil _

theorem toFlat_spec {e : Eff V T C A} {f : Flat V T C A} (h : toFlat L e = some f) : f.Fires L ρ b g ↔ Fires L e ρ b g := by
  unfold toFlat at h
  split at h <;> simp only [Option.some.injEq, reduceCtorEq] at h <;> subst h <;> simp only [Flat.Fires, fires_all, fires_when, fires_simple, L.holds_simplified, L.holds_truth, true_and, ext_nil, exists_eq_left]
  · constructor
    · rintro ⟨h1, ρ', h2, h3, h4⟩
      exact ⟨ρ', h2, h3, h1, h4⟩
    · rintro ⟨ρ', h2, h3, h1, h4⟩
      exact ⟨h1, ρ', h2, h3, h4⟩
  · constructor
    · rintro ⟨h1, ρ', h2, h4⟩
      exact ⟨ρ', h2, h1, h4⟩
    · rintro ⟨ρ', h2, h1, h4⟩
      exact ⟨h1, ρ', h2, h4⟩
  · constructor
    · rintro ⟨h1, h2, h3⟩
      exact ⟨h2, h1, h3⟩
    · rintro ⟨h2, h1, h3⟩
      exact ⟨h1, h2, h3⟩

/-- the effects `r` have the same consequences as `F`: deletions are only left out if the atom is added -/
structure Sim (L : Lang V T O C A G) (ρ : V → O) (r : List (Flat V T C A)) (F : Bool → G → Prop) : Prop where
  add : ∀ g, (∃ f ∈ r, f.Fires L ρ true g) ↔ F true g
  del : ∀ g, (∃ f ∈ r, f.Fires L ρ false g) → F false g
  kept : ∀ g, F false g → (∃ f ∈ r, f.Fires L ρ false g) ∨ F true g

theorem addFlat_spec [DecidableEq (Flat V T C A)] {r : List (Flat V T C A)} {F : Bool → G → Prop} (h : Sim L ρ r F) (f : Flat V T C A) : Sim L ρ (addFlat f r) (fun b g => F b g ∨ f.Fires L ρ b g) := by
  have hopp : ∀ {b g}, f.Fires L ρ b g → ({ f with positive := !f.positive } : Flat V T C A).Fires L ρ (!b) g := fun ⟨h1, h2⟩ => ⟨by simp [h1], h2⟩
  have hopp' : ∀ {b g}, ({ f with positive := !f.positive } : Flat V T C A).Fires L ρ b g → f.Fires L ρ (!b) g := fun ⟨h1, h2⟩ => ⟨by simp only at h1; rw [← h1, Bool.not_not], h2⟩
  unfold addFlat
  simp only
  split
  · refine ⟨fun g => ?_, fun g => ?_, fun g => ?_⟩
    · simp only [List.mem_append, List.mem_singleton, or_and_right, exists_or, exists_eq_left, h.add g]
    · simp only [List.mem_append, List.mem_singleton, or_and_right, exists_or, exists_eq_left]
      exact Or.imp_left (h.del g)
    · simp only [List.mem_append, List.mem_singleton, or_and_right, exists_or, exists_eq_left]
      rintro (h1 | h1)
      · rcases h.kept g h1 with h2 | h2
        · exact .inl (.inl h2)
        · exact .inr (.inl h2)
      · exact .inl (.inr h1)
  · rename_i hm
    rw [Classical.not_not] at hm
    split
    · rename_i hp
      refine ⟨fun g => ?_, fun g => ?_, fun g => ?_⟩
      · rw [← h.add g]
        simp only [List.mem_append, List.mem_singleton, or_and_right, exists_or, exists_eq_left]
        refine or_congr_left ⟨?_, ?_⟩
        · rintro ⟨f', h1, h2⟩
          exact ⟨f', List.mem_of_mem_erase h1, h2⟩
        · rintro ⟨f', h1, h2⟩
          refine ⟨f', (List.mem_erase_of_ne ?_).mpr h1, h2⟩
          rintro rfl
          have := h2.1
          simp only at this
          rw [hp] at this
          exact absurd this (by simp)
      · simp only [List.mem_append, List.mem_singleton, or_and_right, exists_or, exists_eq_left]
        rintro (⟨f', h1, h2⟩ | h1)
        · exact .inl (h.del g ⟨f', List.mem_of_mem_erase h1, h2⟩)
        · exact .inr h1
      · simp only [List.mem_append, List.mem_singleton, or_and_right, exists_or, exists_eq_left]
        rintro (h1 | h1)
        · rcases h.kept g h1 with ⟨f', h2, h3⟩ | h2
          · by_cases he : f' = { f with positive := !f.positive }
            · subst he
              exact .inr (.inr (by simpa using hopp' h3))
            · exact .inl (.inl ⟨f', (List.mem_erase_of_ne he).mpr h2, h3⟩)
          · exact .inr (.inl h2)
        · exact .inl (.inr h1)
    · rename_i hp
      have hneg : f.positive = false := by simpa using hp
      refine ⟨fun g => ?_, fun g hg => .inl (h.del g hg), fun g => ?_⟩
      · rw [h.add g]
        refine ⟨.inl, ?_⟩
        rintro (h1 | h1)
        · exact h1
        · have := h1.1
          rw [hneg] at this
          exact absurd this (by simp)
      · rintro (h1 | h1)
        · rcases h.kept g h1 with h2 | h2
          · exact .inl h2
          · exact .inr (.inl h2)
        · exact .inr (.inl ((h.add g).mp ⟨_, hm, by simpa using hopp h1⟩))

theorem Sim.congr {r : List (Flat V T C A)} {F F' : Bool → G → Prop} (h : Sim L ρ r F) (he : ∀ b g, F b g ↔ F' b g) : Sim L ρ r F' :=
  ⟨fun g => (h.add g).trans (he _ _), fun g hg => (he _ _).mp (h.del g hg), fun g hg => (h.kept g ((he _ _).mpr hg)).imp_right (he _ _).mp⟩

theorem addAll_spec [DecidableEq (Flat V T C A)] : ∀ {es : List (Eff V T C A)} {r r' : List (Flat V T C A)} {F : Bool → G → Prop}, Sim L ρ r F → addAll L es r = some r' → Sim L ρ r' (fun b g => F b g ∨ ∃ e ∈ es, Fires L e ρ b g)
  | [], r, r', F, h, hr => by
    simp only [addAll, Option.some.injEq] at hr
    subst hr
    exact h.congr (by simp)
  | e :: es, r, r', F, h, hr => by
    simp only [addAll] at hr
    split at hr
    · simp at hr
    · rename_i f hf
      refine (addAll_spec (addFlat_spec h f) hr).congr fun b g => ?_
      simp only [List.mem_cons, exists_eq_or_imp, toFlat_spec hf, or_assoc]

/-- C88: if the effect of an action is accepted and no variable of a condition is bound again within the effect of this condition, the list of effects of the parsed action has the meaning of the nested effect: in every state and for all
values of the parameters of the action, the same atoms are true afterwards. -/
theorem C88_effects [DecidableEq (Flat V T C A)] {e : Eff V T C A} (hn : NoCapture L e) {r : List (Flat V T C A)} (h : parseEffects L e = some r) (ρ : V → O) (s : G → Prop) (g : G) :
    Next (fun b g => ∃ f ∈ r, f.Fires L ρ b g) s g ↔ Next (Fires L e ρ) s g := by
  unfold parseEffects at h
  split at h
  · simp at h
  · rename_i e1 h1
    split at h
    · simp at h
    · rename_i e2 h2
      have h0 : Sim L ρ ([] : List (Flat V T C A)) (fun _ _ => False) := ⟨by simp, by simp, by simp⟩
      have hS : Sim L ρ r (Fires L e ρ) := by
        have hfin : ∀ b g, Fires L e2 ρ b g ↔ Fires L e ρ b g := fun b g => (extractCost_spec h2).trans ((normalize_spec e e1 h1 hn).1 ρ b g)
        unfold addEffect at h
        split at h
        · refine (addAll_spec h0 h).congr fun b g => ?_
          rw [← hfin, fires_conj, false_or]
        · refine (addAll_spec h0 h).congr fun b g => ?_
          rw [← hfin]
          simp
      unfold Next
      beta_reduce
      rw [hS.add g]
      constructor
      · rintro (h3 | ⟨h3, h4⟩)
        · exact .inl h3
        · by_cases h5 : Fires L e ρ true g
          · exact .inl h5
          · exact .inr ⟨h3, fun h6 => (hS.kept g h6).elim h4 h5⟩
      · rintro (h3 | ⟨h3, h4⟩)
        · exact .inl h3
        · exact .inr ⟨h3, fun h6 => h4 (hS.del g h6)⟩

/-! ### Accepted effects -/

/-- a literal or a conditional literal -/
inductive Leaf : Eff V T C A → Prop where
  | simple (b a) : Leaf (.simple b a)
  | when (c b a) : Leaf (.when c (.simple b a))

/-- the same, maybe with a quantifier -/
inductive QLeaf : Eff V T C A → Prop where
  | leaf (e) : Leaf e → QLeaf e
  | all (ps e) : Leaf e → QLeaf (.all ps e)

def OneOrMany (P : Eff V T C A → Prop) (e : Eff V T C A) : Prop := P e ∨ ∃ es, e = .conj es ∧ ∀ x ∈ es, P x

omit [DecidableEq V] in
theorem Leaf.mkWhen {c : C} {e : Eff V T C A} (h : Leaf e) : Leaf (mkWhen L c e) := by
  cases h <;> exact .when _ _ _

omit [DecidableEq V] in
theorem QLeaf.mkAll {ps : List (V × T)} {e : Eff V T C A} (h : QLeaf e) : QLeaf (mkAll ps e) := by
  cases h with
  | leaf _ h => cases h with
    | simple b a => exact .all _ _ (.simple _ _)
    | when c b a => exact .all _ _ (.when _ _ _)
  | all qs e h => exact .all _ _ h

omit [DecidableEq V] in
theorem flatten_all {P : Eff V T C A → Prop} (hP : ∀ es, ¬P (.conj es)) : ∀ {es : List (Eff V T C A)}, (∀ e ∈ es, OneOrMany P e) → ∀ x ∈ flattenConj es, P x
  | [], _ => by simp [flattenConj]
  | e :: es, h => by
    have ih := flatten_all hP (fun y hy => h y (List.mem_cons_of_mem _ hy))
    have h1 := h e List.mem_cons_self
    intro x hx
    cases e with
    | conj fs =>
      simp only [flattenConj, List.mem_append] at hx
      rcases h1 with h1 | ⟨_, h2, h3⟩
      · exact absurd h1 (hP _)
      · obtain rfl := Eff.conj.inj h2
        exact hx.elim (h3 x) (ih x)
    | _ =>
      simp only [flattenConj, List.mem_cons] at hx
      rcases hx with rfl | hx
      · rcases h1 with h1 | ⟨_, h2, _⟩
        · exact h1
        · cases h2
      · exact ih x hx

omit [DecidableEq V] in
theorem normalizeList_all {P : Eff V T C A → Prop} : ∀ {es : List (Eff V T C A)}, (∀ e ∈ es, ∃ e', normalize L e = some e' ∧ P e') → ∃ es', normalizeList L es = some es' ∧ ∀ e ∈ es', P e
  | [], _ => ⟨[], by simp [normalizeList], by simp⟩
  | e :: es, h => by
    obtain ⟨e', h1, h2⟩ := h e List.mem_cons_self
    obtain ⟨es', h3, h4⟩ := normalizeList_all (fun y hy => h y (List.mem_cons_of_mem _ hy))
    exact ⟨e' :: es', by simp [normalizeList, h1, h3], by simpa using ⟨h2, h4⟩⟩

omit [DecidableEq V] in
theorem normalize_conj {P : Eff V T C A → Prop} (hP : ∀ es, ¬P (.conj es)) {es : List (Eff V T C A)} (h : ∀ e ∈ es, ∃ e', normalize L e = some e' ∧ OneOrMany P e') : ∃ e', normalize L (.conj es) = some e' ∧ OneOrMany P e' := by
  obtain ⟨es', h1, h2⟩ := normalizeList_all h
  exact ⟨.conj (flattenConj es'), by simp [normalize, h1], .inr ⟨_, rfl, flatten_all hP h2⟩⟩

omit [DecidableEq V] in
theorem chain_normalize {e : Eff V T C A} (h : Chain e) : ∃ e', normalize L e = some e' ∧ QLeaf e' := by
  induction h with
  | simple b a => exact ⟨.simple b a, by simp [normalize], .leaf _ (.simple _ _)⟩
  | all ps e _ ih =>
    obtain ⟨e', h1, h2⟩ := ih
    refine ⟨mkAll ps e', ?_, h2.mkAll⟩
    simp only [normalize, h1]
    cases h2 with
    | leaf _ h => cases h <;> rfl
    | all _ _ h => rfl
  | when c e _ ih =>
    obtain ⟨e', h1, h2⟩ := ih
    cases h2 with
    | leaf _ h =>
      refine ⟨mkWhen L c e', ?_, .leaf _ h.mkWhen⟩
      simp only [normalize, h1]
      cases h <;> rfl
    | all ps e h =>
      refine ⟨mkAll ps (mkWhen L c e), ?_, (QLeaf.leaf _ h.mkWhen).mkAll⟩
      simp only [normalize, h1]
      rfl

omit [DecidableEq V] in
theorem leaf_conj (es : List (Eff V T C A)) : ¬Leaf (.conj es) := nofun

omit [DecidableEq V] in
theorem qleaf_conj (es : List (Eff V T C A)) : ¬QLeaf (.conj es) := by
  rintro (h | _)
  cases ‹Leaf _›

omit [DecidableEq V] in
theorem noForall_normalize {e : Eff V T C A} (h : NoForall e) : ∃ e', normalize L e = some e' ∧ OneOrMany Leaf e' := by
  induction h with
  | simple b a => exact ⟨.simple b a, by simp [normalize], .inl (.simple _ _)⟩
  | conj es _ ih => exact normalize_conj leaf_conj ih
  | when c e _ ih =>
    obtain ⟨e', h1, h2 | ⟨es, rfl, h2⟩⟩ := ih
    · refine ⟨mkWhen L c e', ?_, .inl h2.mkWhen⟩
      simp only [normalize, h1]
      cases h2 <;> rfl
    · refine ⟨.conj (flattenConj (es.map (mkWhen L c))), ?_, .inr ⟨_, rfl, flatten_all leaf_conj fun x hx => ?_⟩⟩
      · have : es.all simpleOrWhen = true := by
          rw [List.all_eq_true]
          intro x hx
          cases h2 x hx <;> rfl
        simp only [normalize, h1, normalizeWhen, this, if_true]
      · obtain ⟨y, hy, rfl⟩ := List.mem_map.mp hx
        exact .inl (h2 y hy).mkWhen

omit [DecidableEq V] in
theorem supported_normalize {e : Eff V T C A} (h : Supported e) : ∃ e', normalize L e = some e' ∧ OneOrMany QLeaf e' := by
  induction h with
  | simple b a => exact ⟨.simple b a, by simp [normalize], .inl (.leaf _ (.simple _ _))⟩
  | conj es _ ih => exact normalize_conj qleaf_conj ih
  | all ps e _ ih =>
    obtain ⟨e', h1, h2 | ⟨es, rfl, h2⟩⟩ := ih
    · refine ⟨mkAll ps e', ?_, .inl h2.mkAll⟩
      simp only [normalize, h1]
      cases h2 with
      | leaf _ h => cases h <;> rfl
      | all _ _ h => rfl
    · refine ⟨.conj (flattenConj (es.map (mkAll ps))), ?_, .inr ⟨_, rfl, flatten_all qleaf_conj fun x hx => ?_⟩⟩
      · have : es.all simpleWhenOrAll = true := by
          rw [List.all_eq_true]
          intro x hx
          cases h2 x hx with
          | leaf _ h => cases h <;> rfl
          | all _ _ h => rfl
        simp only [normalize, h1, normalizeAll, this, if_true]
      · obtain ⟨y, hy, rfl⟩ := List.mem_map.mp hx
        exact .inl (h2 y hy).mkAll
  | when c e h =>
    rcases h with h | h
    · obtain ⟨e', h1, h2⟩ := chain_normalize (L := L) (Chain.when c e h)
      exact ⟨e', h1, .inl h2⟩
    · obtain ⟨e', h1, h2 | ⟨es, h2, h3⟩⟩ := noForall_normalize (L := L) (NoForall.when c e h)
      · exact ⟨e', h1, .inl (.leaf _ h2)⟩
      · exact ⟨e', h1, .inr ⟨es, h2, fun x hx => .leaf _ (h3 x hx)⟩⟩

omit [DecidableEq V] in
theorem supportedCost_normalize {e : Eff V T C A} (h : SupportedCost e) : ∃ e', normalize L e = some e' ∧ (QLeaf e' ∨ ∃ es, e' = .conj es ∧ ∀ x ∈ es, x = .cost ∨ QLeaf x) := by
  induction h with
  | plain e h =>
    obtain ⟨e', h1, h2 | ⟨es, h2, h3⟩⟩ := supported_normalize (L := L) h
    · exact ⟨e', h1, .inl h2⟩
    · exact ⟨e', h1, .inr ⟨es, h2, fun x hx => .inr (h3 x hx)⟩⟩
  | conj es h ih =>
    obtain ⟨es', h1, h2⟩ := normalizeList_all (L := L) (P := OneOrMany fun x : Eff V T C A => x = .cost ∨ QLeaf x) (es := es) fun e he => by
      by_cases hc : e = .cost
      · exact ⟨.cost, by simp [hc, normalize], .inl (.inl rfl)⟩
      · obtain ⟨e', h1, h2 | h2⟩ := ih e he hc
        · exact ⟨e', h1, .inl (.inr h2)⟩
        · exact ⟨e', h1, .inr h2⟩
    refine ⟨.conj (flattenConj es'), by simp [normalize, h1], .inr ⟨_, rfl, flatten_all ?_ h2⟩⟩
    rintro fs (h | h)
    · cases h
    · exact qleaf_conj _ h

omit [DecidableEq V] in
theorem addAll_accepts [DecidableEq (Flat V T C A)] : ∀ {es : List (Eff V T C A)} (_ : ∀ e ∈ es, QLeaf e) (r : List (Flat V T C A)), ∃ r', addAll L es r = some r'
  | [], _, r => ⟨r, rfl⟩
  | e :: es, h, r => by
    have h1 : ∃ f, toFlat L e = some f := by
      cases h e List.mem_cons_self with
      | leaf _ h' => cases h' <;> exact ⟨_, rfl⟩
      | all _ _ h' => cases h' <;> exact ⟨_, rfl⟩
    obtain ⟨f, h1⟩ := h1
    obtain ⟨r', h2⟩ := addAll_accepts (fun y hy => h y (List.mem_cons_of_mem _ hy)) (addFlat f r)
    exact ⟨r', by simp only [addAll, h1, h2]⟩

omit [DecidableEq V] in
/-- C88: effects in which no condition is above both a quantifier and a conjunction, and with effects on the costs only in the outer conjunctions, are accepted. -/
theorem C88_accepts [DecidableEq (Flat V T C A)] (L : Lang V T O C A G) {e : Eff V T C A} (h : SupportedCost e) : ∃ r, parseEffects L e = some r := by
  obtain ⟨e', h1, h2 | ⟨es, rfl, h2⟩⟩ := supportedCost_normalize (L := L) h
  · have h3 : parseEffects L e = addAll L [e'] [] := by
      simp only [parseEffects, h1]
      cases h2 with
      | leaf _ h => cases h <;> rfl
      | all _ _ h => rfl
    rw [h3]
    exact addAll_accepts (by simpa using h2) []
  · have h3 : parseEffects L e = addAll L (flattenConj (es.filter (fun e => !isCost e))) [] := by
      simp only [parseEffects, h1, extractCost, addEffect]
    rw [h3]
    refine addAll_accepts (flatten_all qleaf_conj fun x hx => ?_) []
    rw [List.mem_filter] at hx
    rcases h2 x hx.1 with rfl | h4
    · simp [isCost] at hx
    · exact .inl h4

/-! ### Examples -/

/-- conditions on one predicate -/
inductive ExCond where
  | truth
  | p (x : Nat)
  | and (c d : ExCond)
deriving DecidableEq

def ExCond.holds (ρ : Nat → Bool) : ExCond → Prop
  | truth => True
  | p x => ρ x = true
  | and c d => c.holds ρ ∧ d.holds ρ

def ExCond.free (x : Nat) : ExCond → Prop
  | truth => False
  | p y => x = y
  | and c d => c.free x ∨ d.free x

/-- two objects, the condition p is true for one of them; atoms q(x) -/
def exLang : Lang Nat Unit Bool ExCond Nat Bool where
  dom _ _ := True
  holds c ρ := c.holds ρ
  free c x := c.free x
  ground x ρ := ρ x
  truth := .truth
  and := .and
  simplified c := c
  holds_congr c ρ ρ' h := by
    induction c with
    | truth => rfl
    | p x => simp only [ExCond.holds, h x rfl]
    | and c d ih1 ih2 => simp only [ExCond.holds, ih1 (fun x hx => h x (.inl hx)), ih2 (fun x hx => h x (.inr hx))]
  holds_truth _ := trivial
  holds_and _ _ _ := Iff.rfl
  holds_simplified _ _ := Iff.rfl

deriving instance DecidableEq for Flat

/-- the hypotheses can be met: (and (when p(0) (and (not q(0)) (when p(1) q(1)))) (forall (2) (when p(2) q(2))) (increase ...)) -/
example : NoCapture exLang (.conj [.when (.p 0) (.conj [.simple false 0, .when (.p 1) (.simple true 1)]), .all [(2, ())] (.when (.p 2) (.simple true 2)), .cost]) ∧
    parseEffects exLang (.conj [.when (.p 0) (.conj [.simple false 0, .when (.p 1) (.simple true 1)]), .all [(2, ())] (.when (.p 2) (.simple true 2)), .cost]) =
      some [⟨[], .p 0, false, 0⟩, ⟨[], .and (.p 0) (.p 1), true, 1⟩, ⟨[(2, ())], .p 2, true, 2⟩] := by
  constructor
  · refine .conj _ fun e he => ?_
    simp only [List.mem_cons, List.not_mem_nil, or_false] at he
    rcases he with rfl | rfl | rfl
    · refine .when _ _ (fun x hx => ?_) (.conj _ fun e he => ?_)
      · rw [bound_conj] at hx
        simp only [List.mem_cons, List.not_mem_nil, or_false, exists_eq_or_imp, exists_eq_left, bound_when] at hx
        rcases hx with hx | hx <;> cases hx
      · simp only [List.mem_cons, List.not_mem_nil, or_false] at he
        rcases he with rfl | rfl
        · exact .simple _ _
        · exact .when _ _ (fun x hx => by cases hx) (.simple _ _)
    · exact .all _ _ (.when _ _ (fun x hx => by cases hx) (.simple _ _))
    · exact .cost
  · rfl

/-- the effect of the example is of the supported form -/
example : SupportedCost (.conj [.when (.p 0) (.conj [.simple false 0, .when (.p 1) (.simple true 1)]), .all [(2, ())] (.when (.p 2) (.simple true 2)), .cost] : Eff Nat Unit ExCond Nat) := by
  refine .conj _ fun e he hc => ?_
  simp only [List.mem_cons, List.not_mem_nil, or_false] at he
  rcases he with rfl | rfl | rfl
  · refine (.plain _ (.when _ _ (.inr (.conj _ fun e he => ?_))))
    simp only [List.mem_cons, List.not_mem_nil, or_false] at he
    rcases he with rfl | rfl
    · exact .simple _ _
    · exact .when _ _ (.simple _ _)
  · exact (.plain _ (.all _ _ (.when _ _ (.inl (.simple _ _)))))
  · exact absurd rfl hc

/-- the nested effect (when p(x) (forall (x) q(x))) -/
def captured : Eff Nat Unit ExCond Nat := .when (.p 0) (.all [(0, ())] (.simple true 0))

/-- C88: the condition on variables is needed: for this effect, whose condition is about a parameter of the action with the same name as the quantified variable, the condition is moved below the quantifier; if the condition does not hold
for the parameter, the nested effect has no effect, but the parsed effect makes an atom true. -/
theorem C88_capture_fails : ∃ r, parseEffects exLang captured = some r ∧ ¬Next (Fires exLang captured (fun _ => false)) (fun _ => False) true ∧ Next (fun b g => ∃ f ∈ r, f.Fires exLang (fun _ => false) b g) (fun _ => False) true := by
  refine ⟨[⟨[(0, ())], .p 0, true, 0⟩], rfl, ?_, .inl ⟨_, List.mem_singleton.mpr rfl, rfl, _, .cons 0 () [] _ _ true trivial (.nil _), ?_, ?_⟩⟩
  · rintro (h | h)
    · have := (fires_when.mp h).1
      simp [exLang, ExCond.holds] at this
    · exact h.1
  · simp [exLang, ExCond.holds]
  · simp [exLang]

/-- C88: not all effects are accepted: an assertion fails for a universal effect in a conjunction below a condition, for any condition, and for an action whose only effect is on the costs -/
theorem C88_assertions_fail (L : Lang V T O C A G) [DecidableEq (Flat V T C A)] (c : C) (ps : List (V × T)) (b : Bool) (a : A) (es : List (Eff V T C A)) : parseEffects L (.when c (.conj (.all ps (.simple b a) :: es))) = none ∧ parseEffects L (.cost : Eff V T C A) = none := by
  refine ⟨?_, rfl⟩
  have : normalize L (.when c (.conj (.all ps (.simple b a) :: es))) = none := by
    simp only [normalize, normalizeList, normalizeAll, mkAll]
    cases normalizeList L es with
    | none => rfl
    | some es' => simp [flattenConj, normalizeWhen, simpleOrWhen]
  simp only [parseEffects, this]

end Verif.Effects
