import Verif.Lemmas.NormalizeDnf

/-
`move_existential_quantifiers` and the elimination of existential quantifiers: a condition without disjunctions and universal quantifiers becomes a conjunction of literals for some values of new parameters.
-/
namespace Verif.Normalize
open Verif.Datalog Verif.Lifted Verif.Pddl
variable {P V O T : Type}

theorem mem_names_of_mem {p : V × T} {ps : List (V × T)} (h : p ∈ ps) : p.1 ∈ names ps := List.mem_map_of_mem h

/-- first some parameters, then others -/
theorem Ext.append_iff [DecidableEq V] {has : T → O → Prop} {ps qs : List (V × T)} {σ τ : V → O} (hd : ∀ v ∈ names ps, v ∉ names qs) :
    Ext has (ps ++ qs) σ τ ↔ ∃ ρ, Ext has ps σ ρ ∧ Ext has qs ρ τ := by
  constructor
  · rintro ⟨h1, h2⟩
    refine ⟨fun v => if v ∈ names ps then τ v else σ v, ⟨fun v hv => if_neg hv, fun p hp => ?_⟩, fun v hv => ?_, fun p hp => h2 p (by simp [hp])⟩
    · beta_reduce
      rw [if_pos (mem_names_of_mem hp)]
      exact h2 p (by simp [hp])
    · by_cases h : v ∈ names ps
      · exact (if_pos h).symm
      · refine Eq.trans ?_ (if_neg h).symm
        exact h1 v (by rw [List.map_append, List.mem_append]; exact fun h' => h'.elim h hv)
  · rintro ⟨ρ, ⟨h1, h2⟩, h3, h4⟩
    refine ⟨fun v hv => ?_, fun p hp => ?_⟩
    · rw [List.map_append, List.mem_append, not_or] at hv
      rw [h3 v hv.2, h1 v hv.1]
    · rcases List.mem_append.mp hp with hp | hp
      · rw [h3 p.1 (hd p.1 (List.mem_map_of_mem hp))]
        exact h2 p hp
      · exact h4 p hp

theorem sat_exBody {has : T → O → Prop} {ev under : Bool → GAtom P O → Prop} {σ : V → O} {d : Cond P V O T} : d.sat has ev under σ ↔ ∃ τ, Ext has (exParams d) σ τ ∧ (exBody d).sat has ev under τ := by
  cases d <;> simp [exParams, exBody, Ext.nil_iff, sat_ex]

theorem scoped_exBody {d : Cond P V O T} {vs : List V} (h : d.Scoped vs) : (exBody d).Scoped (names (exParams d) ++ vs) := by
  cases d <;> simpa [exParams, exBody, names, Cond.Scoped] using h

theorem scoped_mono [DecidableEq V] {c : Cond P V O T} {vs ws : List V} (h : ∀ v ∈ vs, v ∈ ws) (hc : c.Scoped vs) : c.Scoped ws := by
  rw [scoped_iff] at hc ⊢
  exact fun v hv => h v (hc v hv)

/-- all conditions are true with their own values if they are true with common values -/
theorem ext_all [DecidableEq V] {has : T → O → Prop} {ev under : Bool → GAtom P O → Prop} {vs : List V} : ∀ {ds : List (Cond P V O T)} {σ : V → O}, (names (ds.flatMap exParams)).Nodup → (∀ v ∈ names (ds.flatMap exParams), v ∉ vs) →
    (∀ d ∈ ds, d.Scoped vs) → ((∀ d ∈ ds, d.sat has ev under σ) ↔ ∃ τ, Ext has (ds.flatMap exParams) σ τ ∧ ∀ d ∈ ds, (exBody d).sat has ev under τ)
  | [], σ, _, _, _ => by simp [Ext.nil_iff]
  | d :: ds, σ, hn, hv, hs => by
    rw [List.flatMap_cons, names_append] at hn hv
    rw [List.nodup_append] at hn
    have hdis : ∀ v ∈ names (exParams d), v ∉ names (ds.flatMap exParams) := fun v h1 h2 => hn.2.2 v h1 v h2 rfl
    have hv1 : ∀ v ∈ vs, v ∉ names (exParams d) := fun v h1 h2 => hv v (by simp [h2]) h1
    have hv2 : ∀ v ∈ vs, v ∉ names (ds.flatMap exParams) := fun v h1 h2 => hv v (by rw [List.mem_append]; exact .inr h2) h1
    have ih := ext_all (has := has) (ev := ev) (under := under) (σ := σ) hn.2.1 (fun v hv' => hv v (by rw [List.mem_append]; exact .inr hv')) fun d hd => hs d (by simp [hd])
    have hfree : ∀ e ∈ d :: ds, ∀ v ∈ freeVars (exBody e), v ∈ names (exParams e) ∨ v ∈ vs := fun e he v hv => List.mem_append.mp ((scoped_iff _).mp (scoped_exBody (hs e he)) v hv)
    rw [List.forall_mem_cons, ih, sat_exBody, List.flatMap_cons]
    constructor
    · rintro ⟨⟨τ1, ⟨h1, h2⟩, h3⟩, τ2, ⟨h4, h5⟩, h6⟩
      refine ⟨fun v => if v ∈ names (exParams d) then τ1 v else τ2 v, ⟨fun v hv => ?_, fun p hp => ?_⟩, List.forall_mem_cons.mpr ⟨sat_agree _ (fun v hv => ?_) h3, fun e he => sat_agree _ (fun v hv => ?_) (h6 e he)⟩⟩
      · rw [List.map_append, List.mem_append, not_or] at hv
        exact (if_neg hv.1).trans (h4 v hv.2)
      · rcases List.mem_append.mp hp with hp | hp
        · beta_reduce
          rw [if_pos (mem_names_of_mem hp)]
          exact h2 p hp
        · beta_reduce
          rw [if_neg (fun h => hdis _ h (mem_names_of_mem hp))]
          exact h5 p hp
      · rcases hfree d (by simp) v hv with h | h
        · exact (if_pos h).symm
        · rw [if_neg (hv1 v h), h1 v (hv1 v h), h4 v (hv2 v h)]
      · rcases hfree e (by simp [he]) v hv with h | h
        · refine (if_neg fun h' => hdis v h' ?_).symm
          obtain ⟨t, ht⟩ := mem_names.mp h
          exact mem_names.mpr ⟨t, List.mem_flatMap.mpr ⟨e, he, ht⟩⟩
        · exact (if_neg (hv1 v h)).symm
    · rintro ⟨τ, ⟨h1, h2⟩, h3⟩
      rw [List.forall_mem_cons] at h3
      have hvs : ∀ v ∈ vs, τ v = σ v := fun v h => h1 v (by rw [List.map_append, List.mem_append]; exact fun h' => h'.elim (hv1 v h) (hv2 v h))
      constructor
      · refine ⟨fun v => if v ∈ names (exParams d) then τ v else σ v, ⟨fun v hv => if_neg hv, fun p hp => ?_⟩, sat_agree _ (fun v hv => ?_) h3.1⟩
        · beta_reduce
          rw [if_pos (mem_names_of_mem hp)]
          exact h2 p (by simp [hp])
        · rcases hfree d (by simp) v hv with h | h
          · exact (if_pos h).symm
          · rw [if_neg (hv1 v h), hvs v h]
      · refine ⟨fun v => if v ∈ names (ds.flatMap exParams) then τ v else σ v, ⟨fun v hv => if_neg hv, fun p hp => ?_⟩, fun e he => sat_agree _ (fun v hv => ?_) (h3.2 e he)⟩
        · beta_reduce
          rw [if_pos (mem_names_of_mem hp)]
          exact h2 p (List.mem_append_right _ hp)
        · rcases hfree e (by simp [he]) v hv with h | h
          · refine (if_pos ?_).symm
            obtain ⟨t, ht⟩ := mem_names.mp h
            exact mem_names.mpr ⟨t, List.mem_flatMap.mpr ⟨e, he, ht⟩⟩
          · rw [if_neg (hv2 v h), hvs v h]

/-- values of the parameters of one condition, from values of the parameters of all -/
theorem ext_part [DecidableEq V] {has : T → O → Prop} {vs : List V} {ds : List (Cond P V O T)} {σ τ : V → O} (hv : ∀ v ∈ names (ds.flatMap exParams), v ∉ vs) (hs : ∀ d ∈ ds, d.Scoped vs)
    (h : Ext has (ds.flatMap exParams) σ τ) {d : Cond P V O T} (hd : d ∈ ds) : ∃ ρ, Ext has (exParams d) σ ρ ∧ ∀ v ∈ freeVars (exBody d), τ v = ρ v := by
  refine ⟨fun v => if v ∈ names (exParams d) then τ v else σ v, ⟨fun v hv => if_neg hv, fun p hp => ?_⟩, fun v hv' => ?_⟩
  · beta_reduce
    rw [if_pos (mem_names_of_mem hp)]
    exact h.2 p (List.mem_flatMap.mpr ⟨d, hd, hp⟩)
  · beta_reduce
    by_cases h1 : v ∈ names (exParams d)
    · rw [if_pos h1]
    · rw [if_neg h1]
      have : v ∈ vs := (List.mem_append.mp ((scoped_iff _).mp (scoped_exBody (hs d hd)) v hv')).resolve_left h1
      exact h.1 v fun h2 => hv v h2 this

theorem occurs_exBody {has : T → O → Prop} {st u : Bool} {p : GAtom P O} {σ : V → O} {d : Cond P V O T} : d.occurs has st p u σ ↔ ∃ τ, Ext has (exParams d) σ τ ∧ (exBody d).occurs has st p u τ := by
  cases d <;> simp [exParams, exBody, Ext.nil_iff, Cond.occurs]

/-- no quantifiers and no disjunctions -/
structure Plain (c : Cond P V O T) : Prop where
  noDisj : hasDisj c = false
  noAll : hasAll c = false
  noEx : hasEx c = false

theorem plain_conj {cs : List (Cond P V O T)} : Plain (.conj cs) ↔ ∀ c ∈ cs, Plain c :=
  ⟨fun h c hc => ⟨noDisj_conj.mp h.noDisj c hc, noAll_conj.mp h.noAll c hc, noEx_conj.mp h.noEx c hc⟩, fun h => ⟨noDisj_conj.mpr fun c hc => (h c hc).noDisj, noAll_conj.mpr fun c hc => (h c hc).noAll, noEx_conj.mpr fun c hc => (h c hc).noEx⟩⟩

theorem Plain.bound {c : Cond P V O T} : Plain c → c.bound = [] := by
  induction c using Cond.ind with
  | truth => intro _; rfl
  | falsity => intro _; rfl
  | lit n a => intro _; rfl
  | conj cs ih =>
    intro h
    rw [bound_conj, List.flatMap_eq_nil_iff]
    exact fun c hc => ih c hc (plain_conj.mp h c hc)
  | disj cs ih => intro h; simpa [hasDisj] using h.noDisj
  | all ps b ih => intro h; simpa [hasAll] using h.noAll
  | ex ps b ih => intro h; simpa [hasEx] using h.noEx

theorem Plain.proper {has : T → O → Prop} {c : Cond P V O T} : Plain c → c.Proper has := by
  induction c using Cond.ind with
  | truth => intro _; trivial
  | falsity => intro _; trivial
  | lit n a => intro _; trivial
  | conj cs ih => intro h; exact Proper_conj.mpr fun c hc => ih c hc (plain_conj.mp h c hc)
  | disj cs ih => intro h; simpa [hasDisj] using h.noDisj
  | all ps b ih => intro h; simpa [hasAll] using h.noAll
  | ex ps b ih => intro h; simpa [hasEx] using h.noEx

theorem Plain.simplify {c : Cond P V O T} (h : Plain c) : Plain (simplify c) := ⟨hered_disj.simplify c h.noDisj, hered_all.simplify c h.noAll, hered_ex.simplify c h.noEx⟩

/-- the result of `recurse` of `move_existential_quantifiers` -/
structure Moved (c d : Cond P V O T) : Prop where
  shape : (d = c ∧ hasEx c = false) ∨ ∃ ps b, d = .ex ps b
  plain : Plain (exBody d)
  bound : (exParams d).Perm c.bound
  lits : ∀ q, c.Lits q → (exBody d).Lits q
  scope : ∀ vs, c.Scoped vs → d.Scoped vs
  trivially : (exBody d).trivially true = true → c.trivially true = true

theorem exBody_of_noEx {c : Cond P V O T} (h : hasEx c = false) : exBody c = c ∧ exParams c = [] := by cases c <;> simp_all [exBody, exParams, hasEx]

theorem Moved.self {c : Cond P V O T} (h : Plain c) : Moved c c := by
  obtain ⟨h1, h2⟩ := exBody_of_noEx h.noEx
  exact ⟨.inl ⟨rfl, h.noEx⟩, by rw [h1]; exact h, by rw [h2, h.bound], by rw [h1]; exact fun _ => id, fun _ => id, by rw [h1]; exact id⟩

theorem existentials_params : ∀ {ds : List (Cond P V O T)}, (existentials ds).flatMap (·.1) = ds.flatMap exParams
  | [] => rfl
  | d :: ds => by cases d <;> simp [existentials, exParams, existentials_params (ds := ds)]

theorem existentials_bodies {R : Cond P V O T → Prop} : ∀ {ds : List (Cond P V O T)}, (∀ x ∈ notExistentials ds ++ (existentials ds).map (·.2), R x) ↔ ∀ d ∈ ds, R (exBody d)
  | [] => by simp [existentials, notExistentials]
  | d :: ds => by
    have ih := existentials_bodies (R := R) (ds := ds)
    simp only [List.forall_mem_append] at ih
    cases d <;> simp only [existentials, notExistentials, exBody, List.map_cons, List.forall_mem_append, List.forall_mem_cons, ← ih] <;> tauto

theorem existentials_nil : ∀ {ds : List (Cond P V O T)}, existentials ds = [] → ∀ d ∈ ds, ¬ ∃ ps b, d = .ex ps b
  | [], _ => by simp
  | d :: ds, h => by
    have ih := existentials_nil (ds := ds)
    cases d <;> simp_all [existentials]

theorem moves_some : ∀ {cs : List (Cond P V O T)}, (∀ c ∈ cs, ∃ d, move c = some d) → ∃ ds, moves cs = some ds ∧ List.Forall₂ (fun c d => c ∈ cs ∧ move c = some d) cs ds
  | [], _ => ⟨[], by simp [moves], .nil⟩
  | c :: cs, h => by
    obtain ⟨d, h1⟩ := h c (by simp)
    obtain ⟨ds, h3, h4⟩ := moves_some (cs := cs) fun c hc => h c (by simp [hc])
    exact ⟨d :: ds, by rw [moves, h1]; simp [h3], .cons ⟨by simp, h1⟩ (h4.imp fun c d h => ⟨by simp [h.1], h.2⟩)⟩

theorem forall₂_left {α β : Type} {R : α → β → Prop} : ∀ {l : List α} {m : List β}, List.Forall₂ R l m → ∀ a ∈ l, ∃ b ∈ m, R a b
  | _, _, .nil => by simp
  | _, _, .cons h t => List.forall_mem_cons.mpr ⟨⟨_, by simp, h⟩, fun a ha => let ⟨b, hb, h⟩ := forall₂_left t a ha; ⟨b, by simp [hb], h⟩⟩

theorem forall₂_right {α β : Type} {R : α → β → Prop} : ∀ {l : List α} {m : List β}, List.Forall₂ R l m → ∀ b ∈ m, ∃ a ∈ l, R a b
  | _, _, .nil => by simp
  | _, _, .cons h t => List.forall_mem_cons.mpr ⟨⟨_, by simp, h⟩, fun a ha => let ⟨b, hb, h⟩ := forall₂_right t a ha; ⟨b, by simp [hb], h⟩⟩

theorem forall₂_flatMap_perm {α β γ : Type} {R : α → β → Prop} {f : α → List γ} {g : β → List γ} (h : ∀ a b, R a b → (g b).Perm (f a)) : ∀ {l : List α} {m : List β}, List.Forall₂ R l m → (m.flatMap g).Perm (l.flatMap f)
  | _, _, .nil => .refl _
  | _, _, .cons h' t => by
    rw [List.flatMap_cons, List.flatMap_cons]
    exact (h _ _ h').append (forall₂_flatMap_perm h t)

theorem move_spec [DecidableEq V] (c : Cond P V O T) : hasDisj c = false → hasAll c = false → ∃ d, move c = some d ∧ Moved c d ∧
    ∀ (has : T → O → Prop) (ev under : Bool → GAtom P O → Prop) (vs : List V) (σ : V → O), c.Scoped vs → (names c.bound).Nodup → (∀ v ∈ names c.bound, v ∉ vs) → (d.sat has ev under σ ↔ c.sat has ev under σ) ∧
      ∀ st p u, d.occurs has st p u σ → c.occurs has st p u σ := by
  induction c using Cond.ind with
  | truth => intro h1 h2; exact ⟨.truth, by simp [move], .self ⟨rfl, rfl, rfl⟩, fun _ _ _ _ _ _ _ _ => ⟨Iff.rfl, fun _ _ _ => id⟩⟩
  | falsity => intro h1 h2; exact ⟨.falsity, by simp [move], .self ⟨rfl, rfl, rfl⟩, fun _ _ _ _ _ _ _ _ => ⟨Iff.rfl, fun _ _ _ => id⟩⟩
  | lit n a => intro h1 h2; exact ⟨.lit n a, by simp [move], .self ⟨rfl, rfl, rfl⟩, fun _ _ _ _ _ _ _ _ => ⟨Iff.rfl, fun _ _ _ => id⟩⟩
  | disj cs ih => intro h; simp [hasDisj] at h
  | all ps b ih => intro _ h; simp [hasAll] at h
  | ex ps b ih =>
    intro hd ha
    obtain ⟨d, h1, h2, h3⟩ := ih (by simpa [hasDisj] using hd) (by simpa [hasAll] using ha)
    rcases h2.shape with ⟨rfl, h4⟩ | ⟨qs, b', rfl⟩
    · refine ⟨.ex ps d, ?_, ⟨.inr ⟨ps, d, rfl⟩, ?_, ?_, fun _ => id, fun _ => id, ?_⟩, fun _ _ _ _ _ _ _ _ => ⟨Iff.rfl, fun _ _ _ => id⟩⟩
      · rw [move, h1]
        cases d <;> simp_all [hasEx]
      · have := h2.plain
        rwa [(exBody_of_noEx h4).1] at this
      · have := h2.bound
        rw [(exBody_of_noEx h4).2] at this
        rw [Cond.bound, exParams, ← this.nil_eq]
        simp
      · simp [exBody, Cond.trivially]
    · refine ⟨.ex (ps ++ qs) b', by rw [move, h1], ⟨.inr ⟨_, _, rfl⟩, h2.plain, ?_, h2.lits, ?_, ?_⟩, ?_⟩
      · rw [Cond.bound]
        exact h2.bound.append_left ps
      · intro vs hs
        have := h2.scope _ hs
        rw [Cond.Scoped] at this ⊢
        refine scoped_mono (fun v hv => ?_) this
        simp only [List.mem_append, List.map_append] at hv ⊢
        tauto
      · exact h2.trivially
      · intro has ev under vs σ hs hn hv
        rw [Cond.bound, names_append] at hn hv
        rw [List.nodup_append] at hn
        have hdis : ∀ v ∈ names ps, v ∉ names qs := by
          intro v h5 h6
          refine hn.2.2 v h5 v ?_ rfl
          exact (h2.bound.map Prod.fst).subset h6
        have hv' : ∀ v ∈ names b.bound, v ∉ List.map (·.1) ps ++ vs := by
          intro v h5 h6
          rcases List.mem_append.mp h6 with h6 | h6
          · exact hn.2.2 v h6 v h5 rfl
          · exact hv v (by simp [h5]) h6
        constructor
        rotate_left
        · intro st p u h
          rw [Cond.occurs] at h ⊢
          obtain ⟨τ, h5, h6⟩ := h
          obtain ⟨ρ, h7, h8⟩ := (Ext.append_iff hdis).mp h5
          refine ⟨ρ, h7, (h3 has ev under _ ρ hs hn.2.1 hv').2 st p u ?_⟩
          rw [Cond.occurs]
          exact ⟨τ, h8, h6⟩
        rw [sat_ex, sat_ex]
        have : ∀ ρ, (b.sat has ev under ρ ↔ ∃ τ, Ext has qs ρ τ ∧ b'.sat has ev under τ) := by
          intro ρ
          rw [← sat_ex, (h3 has ev under _ ρ hs hn.2.1 hv').1]
        simp only [this, Ext.append_iff hdis]
        exact ⟨fun ⟨τ, ⟨ρ, h5, h6⟩, h7⟩ => ⟨ρ, h5, τ, h6, h7⟩, fun ⟨ρ, h5, τ, h6, h7⟩ => ⟨τ, ⟨ρ, h5, h6⟩, h7⟩⟩
  | conj cs ih =>
    intro hd ha
    have hd' := noDisj_conj.mp hd
    have ha' := noAll_conj.mp ha
    obtain ⟨ds, h1, h2⟩ := moves_some fun c hc => let ⟨d, h, _⟩ := ih c hc (hd' c hc) (ha' c hc); ⟨d, h⟩
    have ih' : ∀ c d, c ∈ cs ∧ move c = some d → Moved c d ∧ ∀ (has : T → O → Prop) (ev under : Bool → GAtom P O → Prop) (vs : List V) (σ : V → O), c.Scoped vs → (names c.bound).Nodup → (∀ v ∈ names c.bound, v ∉ vs) → (d.sat has ev under σ ↔ c.sat has ev under σ) ∧
        ∀ st p u, d.occurs has st p u σ → c.occurs has st p u σ := by
      rintro c d ⟨hc, hm⟩
      obtain ⟨d', h3, h4⟩ := ih c hc (hd' c hc) (ha' c hc)
      cases hm.symm.trans h3
      exact h4
    by_cases he : existentials ds = []
    · have hn : ∀ c ∈ cs, hasEx c = false := by
        intro c hc
        obtain ⟨d, hd, h⟩ := forall₂_left h2 c hc
        exact (ih' c d h).1.shape.elim (fun h => h.2) fun h => absurd h (existentials_nil he d hd)
      exact ⟨.conj cs, by rw [move, h1]; simp [he], .self ⟨hd, ha, noEx_conj.mpr hn⟩, fun _ _ _ _ _ _ _ _ => ⟨Iff.rfl, fun _ _ _ => id⟩⟩
    · refine ⟨.ex ((existentials ds).flatMap (·.1)) (.conj (notExistentials ds ++ (existentials ds).map (·.2))), by rw [move, h1, Option.map_some, if_neg (by simpa using he)], ⟨.inr ⟨_, _, rfl⟩, ?_, ?_, ?_, ?_, ?_⟩, ?_⟩
      · rw [exBody, plain_conj, existentials_bodies]
        intro d hd
        obtain ⟨c, _, h⟩ := forall₂_right h2 d hd
        exact (ih' c d h).1.plain
      · rw [exParams, existentials_params, bound_conj]
        exact forall₂_flatMap_perm (fun c d h => (ih' c d h).1.bound) h2
      · intro q hq
        rw [exBody, Lits_conj, existentials_bodies]
        intro d hd
        obtain ⟨c, hc, h⟩ := forall₂_right h2 d hd
        exact (ih' c d h).1.lits q (Lits_conj.mp hq c hc)
      · intro vs hs
        rw [Cond.Scoped, Scoped_conj, existentials_bodies]
        intro d hd
        obtain ⟨c, hc, h⟩ := forall₂_right h2 d hd
        refine scoped_mono (fun v hv => ?_) (scoped_exBody ((ih' c d h).1.scope vs (Scoped_conj.mp hs c hc)))
        rw [existentials_params]
        rcases List.mem_append.mp hv with hv | hv
        · obtain ⟨t, ht⟩ := mem_names.mp hv
          exact List.mem_append_left _ (mem_names.mpr ⟨t, List.mem_flatMap.mpr ⟨d, hd, ht⟩⟩)
        · exact List.mem_append_right _ hv
      · rw [exBody, trivially_conj, trivially_conj]
        simp only [if_true, List.all_eq_true]
        rw [existentials_bodies (R := fun c => c.trivially true = true)]
        intro ht c hc
        obtain ⟨d, hd, h⟩ := forall₂_left h2 c hc
        exact (ih' c d h).1.trivially (ht d hd)
      · intro has ev under vs σ hs hn hv
        have hperm : (ds.flatMap exParams).Perm (cs.flatMap Cond.bound) := forall₂_flatMap_perm (fun c d h => (ih' c d h).1.bound) h2
        rw [bound_conj] at hn hv
        have hscope : ∀ d ∈ ds, d.Scoped vs := by
          intro d hd
          obtain ⟨c, hc, h⟩ := forall₂_right h2 d hd
          exact (ih' c d h).1.scope vs (Scoped_conj.mp hs c hc)
        have hcd : ∀ c d, c ∈ cs ∧ move c = some d → (d.sat has ev under σ ↔ c.sat has ev under σ) ∧ ∀ st p u, d.occurs has st p u σ → c.occurs has st p u σ := by
          intro c d h
          have hb : c.bound.Sublist (cs.flatMap Cond.bound) := by
            rw [List.flatMap_def]
            exact List.sublist_flatten_of_mem (List.mem_map_of_mem h.1)
          exact (ih' c d h).2 has ev under vs σ (Scoped_conj.mp hs c h.1) (hn.sublist (hb.map _)) fun v h5 => hv v ((hb.map _).subset h5)
        constructor
        rotate_left
        · intro st p u h
          rw [Cond.occurs, existentials_params] at h
          obtain ⟨τ, h5, h6⟩ := h
          have hb : ∃ d ∈ ds, (exBody d).occurs has st p u τ := by
            by_contra hno
            push Not at hno
            obtain ⟨x, hx, hx'⟩ := occurs_conj.mp h6
            exact (existentials_bodies (R := fun x => ¬ x.occurs has st p u τ)).mpr hno x hx hx'
          obtain ⟨d, hd, h7⟩ := hb
          obtain ⟨ρ, h8, h9⟩ := ext_part (fun v h => hv v ((hperm.map Prod.fst).subset h)) hscope h5 hd
          obtain ⟨c, hc, h⟩ := forall₂_right h2 d hd
          exact occurs_conj.mpr ⟨c, hc, (hcd c d h).2 st p u (occurs_exBody.mpr ⟨ρ, h8, occurs_agree _ h9 h7⟩)⟩
        rw [sat_ex, sat_conj, existentials_params]
        simp only [sat_conj]
        have : ∀ τ, (∀ c ∈ notExistentials ds ++ (existentials ds).map (·.2), c.sat has ev under τ) ↔ ∀ d ∈ ds, (exBody d).sat has ev under τ := fun τ => existentials_bodies (R := fun c => c.sat has ev under τ)
        simp only [this]
        rw [← ext_all ((hperm.map Prod.fst).nodup_iff.mpr hn) (fun v h => hv v ((hperm.map Prod.fst).subset h)) (vs := vs)]
        · constructor
          · intro h5 c hc
            obtain ⟨d, hd, h⟩ := forall₂_left h2 c hc
            exact (hcd c d h).1.mp (h5 d hd)
          · intro h5 d hd
            obtain ⟨c, hc, h⟩ := forall₂_right h2 d hd
            exact (hcd c d h).1.mpr (h5 c hc)
        · exact hscope

/-- a trivial condition is fine only if there are objects -/
theorem inhabited_bound {has : T → O → Prop} (c : Cond P V O T) : hasDisj c = false → hasAll c = false → c.trivially true = true → c.Proper has → ∀ p ∈ c.bound, ∃ o, has p.2 o := by
  induction c using Cond.ind with
  | truth => intro _ _ _ _ p hp; simp [Cond.bound] at hp
  | falsity => intro _ _ _ _ p hp; simp [Cond.bound] at hp
  | lit n a => intro _ _ _ _ p hp; simp [Cond.bound] at hp
  | disj cs ih => intro h; simp [hasDisj] at h
  | all ps b ih => intro _ h; simp [hasAll] at h
  | conj cs ih =>
    intro h1 h2 h3 h4 p hp
    rw [bound_conj] at hp
    obtain ⟨c, hc, hp⟩ := List.mem_flatMap.mp hp
    rw [trivially_conj] at h3
    simp only [if_true, List.all_eq_true] at h3
    exact ih c hc (noDisj_conj.mp h1 c hc) (noAll_conj.mp h2 c hc) (h3 c hc) (Proper_conj.mp h4 c hc) p hp
  | ex ps b ih =>
    intro h1 h2 h3 h4 p hp
    rw [Cond.trivially] at h3
    rw [Cond.Proper] at h4
    rw [Cond.bound] at hp
    rcases List.mem_append.mp hp with hp | hp
    · obtain ⟨τ, hτ⟩ := h4.1.resolve_right (by simp [h3])
      exact ⟨_, hτ p hp⟩
    · exact ih (by simpa [hasDisj] using h1) (by simpa [hasAll] using h2) h3 h4.2 p hp

theorem typed_exists [DecidableEq V] {has : T → O → Prop} (σ : V → O) : ∀ {ps : List (V × T)}, (names ps).Nodup → (∀ p ∈ ps, ∃ o, has p.2 o) → ∃ τ : V → O, ∀ p ∈ ps, has p.2 (τ p.1)
  | [], _, _ => ⟨σ, by simp⟩
  | p :: ps, hn, h => by
    have hn := List.nodup_cons.mp hn
    obtain ⟨τ, hτ⟩ := typed_exists σ hn.2 fun p hp => h p (by simp [hp])
    obtain ⟨o, ho⟩ := h p (by simp)
    refine ⟨fun v => if v = p.1 then o else τ v, List.forall_mem_cons.mpr ⟨by simpa using ho, fun q hq => ?_⟩⟩
    beta_reduce
    rw [if_neg]
    · exact hτ q hq
    · intro he
      have := mem_names_of_mem hq
      rw [he] at this
      exact hn.1 this

/-- the part is true for the values of literals -/
def partSat (ev : Bool → GAtom P O → Prop) (σ : V → O) : Part P V O → Prop
  | .lit n a => ev n (a.inst σ)
  | .falsity => False

/-- the parts of a simplified condition without quantifiers and disjunctions -/
theorem toParts_spec {c : Cond P V O T} (hp : Plain c) (hf : c.Flat) : ∃ parts, toParts c = some parts ∧ (∀ q, c.Lits q → ∀ n a, .lit n a ∈ parts → q n a) ∧
    ∀ (has : T → O → Prop) (ev under : Bool → GAtom P O → Prop) (σ : V → O), (c.sat has ev under σ ↔ ∀ p ∈ parts, partSat ev σ p) ∧ ∀ n a, .lit n a ∈ parts → c.occurs has n (a.inst σ) false σ := by
  cases c with
  | truth => exact ⟨[], by simp [toParts], by simp, by simp [sat_truth]⟩
  | falsity => exact ⟨[.falsity], by simp [toParts, toPart], by simp, by simp [sat_falsity, partSat]⟩
  | lit n a => exact ⟨[.lit n a], by simp [toParts, toPart], by simp [Cond.Lits], by simp [sat_lit, partSat, Cond.occurs]⟩
  | disj cs => simpa [hasDisj] using hp.noDisj
  | all ps b => simpa [hasAll] using hp.noAll
  | ex ps b => simpa [hasEx] using hp.noEx
  | conj cs =>
    have hl : ∀ c ∈ cs, ∃ n a, c = .lit n a := by
      intro c hc
      have h1 := plain_conj.mp hp c hc
      obtain ⟨h2, h3, _⟩ := Flat_conj.mp hf c hc
      cases c with
      | lit n a => exact ⟨n, a, rfl⟩
      | disj cs => simpa [hasDisj] using h1.noDisj
      | all ps b => simpa [hasAll] using h1.noAll
      | ex ps b => simpa [hasEx] using h1.noEx
      | conj cs => simp [Cond.isConj] at h2
      | truth => simp [Cond.isConst] at h3
      | falsity => simp [Cond.isConst] at h3
    clear hp hf
    induction cs with
    | nil => exact ⟨[], by simp [toParts, Mas.mapAll], by simp, by simp [sat_conj]⟩
    | cons c cs ih =>
      obtain ⟨parts, h1, h2, h3⟩ := ih fun c hc => hl c (by simp [hc])
      obtain ⟨n, a, rfl⟩ := hl c (by simp)
      rw [toParts] at h1
      refine ⟨.lit n a :: parts, by rw [toParts, Mas.mapAll, toPart, h1], ?_, ?_⟩
      · intro q hq m b hb
        rw [Lits_conj, List.forall_mem_cons, ← Lits_conj] at hq
        rcases List.mem_cons.mp hb with hb | hb
        · cases hb
          exact hq.1
        · exact h2 q hq.2 m b hb
      · intro has ev under σ
        constructor
        · rw [sat_conj, List.forall_mem_cons, ← sat_conj, (h3 has ev under σ).1, List.forall_mem_cons, sat_lit]
          rfl
        · intro m b hb
          rw [occurs_conj]
          rcases List.mem_cons.mp hb with hb | hb
          · cases hb
            exact ⟨_, List.mem_cons_self, by simp [Cond.occurs]⟩
          · obtain ⟨c, hc, h⟩ := occurs_conj.mp ((h3 has ev under σ).2 m b hb)
            exact ⟨c, by simp [hc], h⟩

/-- the elimination of existential quantifiers -/
structure Finished (c : Cond P V O T) (ps : List (V × T)) (parts : List (Part P V O)) : Prop where
  bound : ps.Subperm c.bound
  lits : ∀ q, c.Lits q → ∀ n a, .lit n a ∈ parts → q n a
  vars : ∀ vs, c.Scoped vs → ∀ n a, .lit n a ∈ parts → ∀ v ∈ a.vars, v ∈ names ps ++ vs
  sat : ∀ (has : T → O → Prop) (ev under : Bool → GAtom P O → Prop) (vs : List V) (σ : V → O), c.Proper has → c.Scoped vs → (names c.bound).Nodup → (∀ v ∈ names c.bound, v ∉ vs) →
    (c.sat has ev under σ ↔ ∃ τ, Ext has ps σ τ ∧ ∀ p ∈ parts, partSat ev τ p)
  occ : ∀ (has : T → O → Prop) (vs : List V) (σ τ : V → O), c.Scoped vs → (names c.bound).Nodup → (∀ v ∈ names c.bound, v ∉ vs) → Ext has ps σ τ → ∀ n a, .lit n a ∈ parts → c.occurs has n (a.inst τ) false σ

theorem parts_vars {c : Cond P V O T} {vs : List V} (hp : Plain c) (hs : c.Scoped vs) : c.Lits (fun _ a => ∀ v ∈ a.vars, v ∈ vs) := by
  induction c using Cond.ind with
  | truth => trivial
  | falsity => trivial
  | lit n a => exact hs
  | conj cs ih => exact Lits_conj.mpr fun c hc => ih c hc (plain_conj.mp hp c hc) (Scoped_conj.mp hs c hc)
  | disj cs ih => simpa [hasDisj] using hp.noDisj
  | all ps b ih => simpa [hasAll] using hp.noAll
  | ex ps b ih => simpa [hasEx] using hp.noEx

theorem finish_spec [DecidableEq V] {c : Cond P V O T} (hd : hasDisj c = false) (ha : hasAll c = false) (hf : c.Flat) : ∃ ps parts, finish c = some (ps, parts) ∧ Finished c ps parts := by
  by_cases he : hasEx c = true
  · obtain ⟨d, h1, h2, h3⟩ := move_spec c hd ha
    obtain ⟨ps, b, rfl⟩ : ∃ ps b, d = .ex ps b := by
      rcases h2.shape with ⟨_, h⟩ | h
      · rw [h] at he; simp at he
      · exact h
    have hb : Plain b := h2.plain
    obtain ⟨parts, h4, h5, h6⟩ := toParts_spec hb.simplify (flat_simplify b)
    have hprop : ∀ has : T → O → Prop, ∀ σ : V → O, c.Proper has → (names c.bound).Nodup → (Cond.ex ps b).Proper has := by
      intro has σ hp hn
      rw [Cond.Proper]
      refine ⟨?_, hb.proper⟩
      by_cases ht : b.trivially true = true
      · refine .inl (typed_exists σ ((h2.bound.map Prod.fst).nodup_iff.mpr hn) fun p hp' => ?_)
        exact inhabited_bound c hd ha (h2.trivially ht) hp p (h2.bound.subset hp')
      · exact .inr (by simpa using ht)
    have hmove : moveCond c = some (simplify (.ex ps b)) := by rw [moveCond, if_pos he, h1]; rfl
    have hsat : ∀ (has : T → O → Prop) (ev under : Bool → GAtom P O → Prop) (vs : List V) (σ : V → O), c.Proper has → c.Scoped vs → (names c.bound).Nodup → (∀ v ∈ names c.bound, v ∉ vs) →
        (c.sat has ev under σ ↔ ∃ τ, Ext has (exParams (simplify (.ex ps b))) σ τ ∧ (exBody (simplify (.ex ps b))).sat has ev under τ) := by
      intro has ev under vs σ hp hs hn hv
      rw [← sat_exBody, sat_simplify _ (hprop has σ hp hn), (h3 has ev under vs σ hs hn hv).1]
    have hbody : exBody (simplify (.ex ps b)) = simplify b ∧ (exParams (simplify (.ex ps b)) = ps ∨ ((simplify b).isConst = true ∧ exParams (simplify (.ex ps b)) = [])) := by
      rcases simplify_ex (ps := ps) (b := b) with ⟨h7, h8⟩ | ⟨_, h8⟩ <;> rw [h8]
      · rcases isConst_iff.mp h7 with h | h <;> rw [h] <;> exact ⟨rfl, .inr ⟨rfl, rfl⟩⟩
      · exact ⟨rfl, .inl rfl⟩
    refine ⟨exParams (simplify (.ex ps b)), parts, by simp only [finish, hmove, hbody.1, h4, Option.map_some], ?_, ?_, ?_, ?_, ?_⟩
    · rcases hbody.2 with h | ⟨_, h⟩ <;> rw [h]
      · exact h2.bound.subperm
      · exact List.nil_subperm
    · intro q hq
      exact h5 q (hered_lits.simplify b (h2.lits q hq))
    · intro vs hs n a hna v hv
      rcases hbody.2 with h | ⟨h7, h⟩ <;> rw [h]
      · have := h2.scope vs hs
        rw [Cond.Scoped] at this
        exact h5 (fun _ a => ∀ v ∈ a.vars, v ∈ names ps ++ vs) (parts_vars hb.simplify (scoped_simplify b this)) n a hna v hv
      · have : (simplify b).Lits (fun _ _ => False) := by rcases isConst_iff.mp h7 with h | h <;> rw [h] <;> trivial
        exact (h5 _ this n a hna).elim
    · intro has ev under vs σ hp hs hn hv
      rw [hsat has ev under vs σ hp hs hn hv, hbody.1]
      simp only [fun τ => (h6 has ev under τ).1]
    · intro has vs σ τ hs hn hv hE n a hna
      refine (h3 has (fun _ _ => True) (fun _ _ => True) vs σ hs hn hv).2 n _ false (occurs_simplify _ (occurs_exBody.mpr ⟨τ, hE, ?_⟩))
      rw [hbody.1]
      exact (h6 has (fun _ _ => True) (fun _ _ => True) τ).2 n a hna
  · have he : hasEx c = false := by simpa using he
    obtain ⟨parts, h4, h5, h6⟩ := toParts_spec ⟨hd, ha, he⟩ hf
    obtain ⟨h7, h8⟩ := exBody_of_noEx he
    refine ⟨[], parts, by simp [finish, moveCond, he, h7, h8, h4], List.nil_subperm, h5, ?_, ?_, ?_⟩
    · intro vs hs n a hna
      exact h5 _ (parts_vars ⟨hd, ha, he⟩ hs) n a hna
    · intro has ev under vs σ _ _ _ _
      simp only [Ext.nil_iff, exists_eq_left, (h6 has ev under σ).1]
    · intro has vs σ τ _ _ _ hE n a hna
      rw [Ext.nil_iff] at hE
      subst hE
      exact (h6 has (fun _ _ => True) (fun _ _ => True) τ).2 n a hna

end Verif.Normalize
