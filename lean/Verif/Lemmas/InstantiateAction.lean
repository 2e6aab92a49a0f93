import Verif.Lemmas.InstantiateModel
import Verif.Lemmas.MasBasic

/-
Instances of conditions, effects and actions have the meaning of the schemas.
-/
namespace Verif.Instantiate
open Verif.Datalog Verif.Lifted Verif.BuildModel
open Verif.Strips (Literal)
variable {P V O T F : Type} [DecidableEq P] [DecidableEq V] [DecidableEq O] [DecidableEq T] [DecidableEq F]

/-- atoms that are not fluent are true if they are true initially -/
def Static (init fluent : List (GAtom P O)) (s : GAtom P O → Prop) : Prop := ∀ p, p ∉ fluent → (s p ↔ p ∈ init)

/-- the literals mean the same as the condition, for values of variables -/
def Means (init fluent : List (GAtom P O)) (l : List (Literal (GAtom P O))) (σ : V → O) (cs : List (Part P V O)) : Prop := ∀ s, Static init fluent s → ((∀ x ∈ l, x.holds s) ↔ ∀ c ∈ cs, c.holds σ s)

theorem groundAtom_inst {m : List (V × O)} {a : SymAtom P V O} {σ : V → O} (h : ∀ v ∈ a.vars, m.lookup v = some (σ v)) : groundAtom m a = some (a.inst σ) := by
  have : Mas.mapAll (value m) a.args = some (a.args.map (·.value σ)) := by
    rw [Mas.mapAll_iff, List.forall₂_map_right_iff, List.forall₂_same]
    intro t ht
    cases t with
    | var v => exact h v (mem_vars.mpr ht)
    | const o => rfl
  unfold groundAtom
  rw [this]
  rfl

/-- what `instCond` does -/
theorem instCond_spec {m : List (V × O)} {init fluent : List (GAtom P O)} {σ : V → O} : ∀ {cs : List (Part P V O)}, (∀ v ∈ condVars cs, m.lookup v = some (σ v)) →
    (∃ l, instCond m init fluent cs = .ok l ∧ .falsity ∉ cs ∧ (∀ x : Literal (GAtom P O), x ∈ l ↔ ∃ a, .lit x.negated a ∈ cs ∧ a.inst σ = x.atom ∧ x.atom ∈ fluent) ∧ ∀ n a, .lit n a ∈ cs → a.inst σ ∉ fluent → (a.inst σ ∈ init ↔ n = false)) ∨
    (instCond m init fluent cs = .impossible ∧ (.falsity ∈ cs ∨ ∃ n a, .lit n a ∈ cs ∧ a.inst σ ∉ fluent ∧ (a.inst σ ∈ init ↔ n = true)))
  | [], _ => .inl ⟨[], rfl, by simp, by simp, by simp⟩
  | .falsity :: cs, _ => .inr ⟨by simp [instCond, instPart], .inl (by simp)⟩
  | .lit n a :: cs, h => by
    have hg : groundAtom m a = some (a.inst σ) := groundAtom_inst fun v hv => h v (by simp [condVars, hv])
    have ih := instCond_spec (m := m) (init := init) (fluent := fluent) (σ := σ) (cs := cs) fun v hv => h v (by simp only [condVars, List.flatMap_cons, List.mem_append]; exact .inr hv)
    have hp : instPart m init fluent (.lit n a) = instLiteral init fluent n (a.inst σ) := by simp only [instPart]; rw [hg]
    unfold instCond
    rw [hp]
    unfold instLiteral
    by_cases hf : a.inst σ ∈ fluent
    · rw [if_pos (by simpa using hf)]
      simp only []
      rcases ih with ⟨l, h1, h2, h3, h4⟩ | ⟨h1, h2⟩
      · rw [h1]
        refine .inl ⟨⟨n, a.inst σ⟩ :: l, rfl, by simpa using h2, fun x => ?_, fun k b hb hnf => ?_⟩
        · rw [List.mem_cons, h3]
          constructor
          · rintro (rfl | ⟨b, hb, h5⟩)
            · exact ⟨a, by simp, rfl, hf⟩
            · exact ⟨b, List.mem_cons_of_mem _ hb, h5⟩
          · rintro ⟨b, hb, h5, h6⟩
            rcases List.mem_cons.mp hb with hb | hb
            · simp only [Part.lit.injEq] at hb
              obtain ⟨hb1, rfl⟩ := hb
              left
              cases x
              simp only [Literal.mk.injEq]
              exact ⟨hb1, h5.symm⟩
            · exact .inr ⟨b, hb, h5, h6⟩
        · rcases List.mem_cons.mp hb with hb | hb
          · simp only [Part.lit.injEq] at hb
            obtain ⟨rfl, rfl⟩ := hb
            exact absurd hf hnf
          · exact h4 k b hb hnf
      · rw [h1]
        refine .inr ⟨rfl, ?_⟩
        rcases h2 with h2 | ⟨k, b, hb, h3⟩
        · exact .inl (List.mem_cons_of_mem _ h2)
        · exact .inr ⟨k, b, List.mem_cons_of_mem _ hb, h3⟩
    · rw [if_neg (by simpa using hf)]
      by_cases hi : (a.inst σ ∈ init ↔ n = true)
      · have : (if n = true then (if init.contains (a.inst σ) = true then (.impossible : Outcome (List (Literal (GAtom P O)))) else .ok []) else if init.contains (a.inst σ) = true then .ok [] else .impossible) = .impossible := by
          cases n with
          | true => simp [hi.mpr rfl]
          | false => simp only [Bool.false_eq_true, iff_false] at hi; simp [hi]
        rw [this]
        exact .inr ⟨rfl, .inr ⟨n, a, by simp, hf, hi⟩⟩
      · have : (if n = true then (if init.contains (a.inst σ) = true then (.impossible : Outcome (List (Literal (GAtom P O)))) else .ok []) else if init.contains (a.inst σ) = true then .ok [] else .impossible) = .ok [] := by
          cases n with
          | true => simp only [iff_true] at hi; simp [hi]
          | false => simp only [Bool.false_eq_true, iff_false, not_not] at hi; simp [hi]
        rw [this]
        simp only []
        rcases ih with ⟨l, h1, h2, h3, h4⟩ | ⟨h1, h2⟩
        · rw [h1]
          refine .inl ⟨l, rfl, by simpa using h2, fun x => ?_, fun k b hb hnf => ?_⟩
          · rw [h3]
            constructor
            · rintro ⟨b, hb, h5⟩
              exact ⟨b, List.mem_cons_of_mem _ hb, h5⟩
            · rintro ⟨b, hb, h5, h6⟩
              rcases List.mem_cons.mp hb with hb | hb
              · simp only [Part.lit.injEq] at hb
                obtain ⟨_, rfl⟩ := hb
                exact absurd (h5 ▸ h6) hf
              · exact ⟨b, hb, h5, h6⟩
          · rcases List.mem_cons.mp hb with hb | hb
            · simp only [Part.lit.injEq] at hb
              obtain ⟨rfl, rfl⟩ := hb
              cases k with
              | true => simpa using hi
              | false => simpa using hi
            · exact h4 k b hb hnf
        · rw [h1]
          refine .inr ⟨rfl, ?_⟩
          rcases h2 with h2 | ⟨k, b, hb, h3⟩
          · exact .inl (List.mem_cons_of_mem _ h2)
          · exact .inr ⟨k, b, List.mem_cons_of_mem _ hb, h3⟩

/-- the meaning of the result of `instCond` -/
theorem instCond_means {m : List (V × O)} {init fluent : List (GAtom P O)} {σ : V → O} {cs : List (Part P V O)} (h : ∀ v ∈ condVars cs, m.lookup v = some (σ v)) :
    (∃ l, instCond m init fluent cs = .ok l ∧ Means init fluent l σ cs ∧ .falsity ∉ cs ∧ (∀ x ∈ l, x.atom ∈ fluent) ∧ ∀ a, .lit false a ∈ cs → a.inst σ ∈ fluent ∨ a.inst σ ∈ init) ∨
    (instCond m init fluent cs = .impossible ∧ ∀ s, Static init fluent s → ¬ ∀ c ∈ cs, c.holds σ s) := by
  rcases instCond_spec (init := init) (fluent := fluent) h with ⟨l, h1, h2, h3, h4⟩ | ⟨h1, h2⟩
  · refine .inl ⟨l, h1, fun s hs => ⟨fun hl c hc => ?_, fun hc x hx => ?_⟩, h2, fun x hx => ?_, fun a ha => ?_⟩
    · match c, hc with
      | .falsity, hc => exact absurd hc h2
      | .lit n a, hc =>
        simp only [Part.holds]
        by_cases hf : a.inst σ ∈ fluent
        · exact hl ⟨n, a.inst σ⟩ ((h3 _).mpr ⟨a, hc, rfl, hf⟩)
        · have h5 := h4 n a hc hf
          rw [hs _ hf, h5]
          cases n <;> simp
    · obtain ⟨a, ha, h5, h6⟩ := (h3 x).mp hx
      have := hc _ ha
      simp only [Part.holds, h5] at this
      exact this
    · obtain ⟨a, ha, h5, h6⟩ := (h3 x).mp hx
      exact h6
    · by_cases hf : a.inst σ ∈ fluent
      · exact .inl hf
      · exact .inr ((h4 _ a ha hf).mpr rfl)
  · refine .inr ⟨h1, fun s hs hall => ?_⟩
    rcases h2 with h2 | ⟨n, a, ha, hf, hi⟩
    · exact hall _ h2
    · have := hall _ ha
      simp only [Part.holds] at this
      rw [hs _ hf, hi] at this
      cases n <;> simp at this

theorem update_lookup_not {v : V} : ∀ {vs : List V} {os : List O} {m : List (V × O)}, v ∉ vs → (update m vs os).lookup v = m.lookup v
  | [], os, m, _ => by unfold update; rfl
  | w :: vs, [], m, _ => by unfold update; rfl
  | w :: vs, o :: os, m, h => by
    unfold update
    rw [update_lookup_not (fun h' => h (List.mem_cons_of_mem _ h')), List.lookup_cons]
    have : (v == w) = false := by simpa using fun h' => h (by simp [h'])
    rw [this]

theorem update_lookup_mem {v : V} {σ : V → O} : ∀ {vs : List V} {m : List (V × O)}, v ∈ vs → (update m vs (vs.map σ)).lookup v = some (σ v)
  | w :: vs, m, h => by
    rw [List.map_cons]
    unfold update
    by_cases hv : v ∈ vs
    · exact update_lookup_mem hv
    · obtain rfl : v = w := by
        rcases List.mem_cons.mp h with h | h
        · exact h
        · exact absurd h hv
      rw [update_lookup_not hv, List.lookup_cons, beq_self_eq_true]

theorem mem_objectsByType {L : LTask P V O T F} {t : T} {o : O} : o ∈ objectsByType L t ↔ L.HasType t o := by
  unfold objectsByType LTask.HasType
  simp only [List.mem_flatMap, List.mem_map, List.mem_filter, List.mem_cons, Prod.exists, beq_iff_eq]
  constructor
  · rintro ⟨o', u, h, t', ⟨h1, rfl⟩, rfl⟩
    exact ⟨u, h, h1⟩
  · rintro ⟨u, h, h1⟩
    exact ⟨o, u, h, t, ⟨h1, rfl⟩, rfl⟩

omit [DecidableEq O] in
theorem mem_cartesian : ∀ {ls : List (List O)} {t : List O}, t ∈ cartesian ls ↔ List.Forall₂ (fun o l => o ∈ l) t ls
  | [], t => by simp [cartesian]
  | l :: ls, t => by
    simp only [cartesian, List.mem_flatMap, List.mem_map]
    constructor
    · rintro ⟨t', h1, o, ho, rfl⟩
      exact .cons ho (mem_cartesian.mp h1)
    · rintro (_ | ⟨ho, ht⟩)
      exact ⟨_, mem_cartesian.mpr ht, _, ho, rfl⟩

theorem cartesian_typed {L : LTask P V O T F} (σ : V → O) : ∀ {ps : List (V × T)}, (ps.map (·.1)).Nodup → ∀ {t : List O},
    t ∈ cartesian (ps.map (fun p => objectsByType L p.2)) ↔ ∃ τ : V → O, t = (ps.map (·.1)).map τ ∧ (∀ v, v ∉ ps.map (·.1) → τ v = σ v) ∧ L.Typed ps τ
  | [], _, t => by
    simp only [List.map_nil, cartesian, List.mem_singleton, List.not_mem_nil, not_false_eq_true, forall_const]
    exact ⟨fun h => ⟨σ, h, fun _ => rfl, fun p hp => by simp at hp⟩, fun ⟨_, h, _⟩ => h⟩
  | p :: ps, hn, t => by
    rw [List.map_cons, List.nodup_cons] at hn
    rw [mem_cartesian, List.map_cons]
    constructor
    · intro h
      cases h with
      | @cons o _ t' _ ho ht =>
        obtain ⟨τ, h1, h2, h3⟩ := (cartesian_typed σ hn.2).mp (mem_cartesian.mpr ht)
        refine ⟨Function.update τ p.1 o, ?_, fun v hv => ?_, fun q hq => ?_⟩
        · rw [List.map_cons, List.map_cons, Function.update_self, h1]
          congr 1
          refine List.map_congr_left fun v hv => ?_
          rw [Function.update_of_ne]
          rintro rfl
          exact hn.1 hv
        · rw [List.map_cons, List.mem_cons, not_or] at hv
          rw [Function.update_of_ne hv.1]
          exact h2 v hv.2
        · rcases List.mem_cons.mp hq with rfl | hq
          · rw [Function.update_self]
            exact mem_objectsByType.mp ho
          · rw [Function.update_of_ne]
            · exact h3 q hq
            · rintro h
              exact hn.1 (h ▸ List.mem_map.mpr ⟨q, hq, rfl⟩)
    · rintro ⟨τ, h1, h2, h3⟩
      rw [List.map_cons, List.map_cons] at h1
      subst h1
      refine .cons (mem_objectsByType.mpr (h3 p (by simp))) ?_
      rw [List.forall₂_map_left_iff, List.forall₂_map_left_iff, List.forall₂_map_right_iff, List.forall₂_same]
      exact fun q hq => mem_objectsByType.mpr (h3 q (List.mem_cons_of_mem _ hq))

variable {L : LTask P V O T F} {out : List (GAtom (DPred P T F) O)}

theorem mem_fluentFacts {p : GAtom P O} : p ∈ fluentFacts L out ↔ up p ∈ out ∧ p.pred ∈ fluentPreds L := by
  unfold fluentFacts
  rw [List.mem_filter, List.mem_filterMap]
  simp only [List.contains_iff_mem]
  refine and_congr_left fun _ => ⟨?_, fun h => ⟨_, h, rfl⟩⟩
  rintro ⟨a, ha, h⟩
  cases a with
  | mk q args =>
    cases q <;> simp [down] at h
    subst h
    exact ha

/-- what is known about states: true atoms were found, and atoms that are not fluent keep their initial value -/
structure Inv (L : LTask P V O T F) (out : List (GAtom (DPred P T F) O)) (s : GAtom P O → Prop) : Prop where
  found : ∀ p, s p → up p ∈ out
  static : ∀ p, p.pred ∉ fluentPreds L → (s p ↔ p ∈ L.init)

theorem Inv.rel (hM : Model L out) {s : GAtom P O → Prop} (h : Inv L out s) : Static L.init (fluentFacts L out) s := by
  intro p hp
  by_cases hf : p.pred ∈ fluentPreds L
  · have hno : up p ∉ out := fun h' => hp (mem_fluentFacts.mpr ⟨h', hf⟩)
    exact ⟨fun h' => absurd (h.found p h') hno, fun h' => absurd (hM.init p h') hno⟩
  · exact h.static p hf

theorem effect_fluent {A : LAction P V O T F} (hA : A ∈ L.actions) {e : LEffect P V O T} (he : e ∈ A.effects) : e.atom.pred ∈ fluentPreds L :=
  List.mem_append_left _ (List.mem_flatMap.mpr ⟨A, hA, List.mem_map.mpr ⟨e, he, rfl⟩⟩)

theorem axiom_fluent {x : LAxiom P V O T} (hx : x ∈ L.axioms) : x.pred ∈ fluentPreds L := List.mem_append_right _ (List.mem_map.mpr ⟨x, hx, rfl⟩)

theorem instEffectOnce_spec {ar : P → Nat} {fnAr : F → Nat} (hL : L.Ok ar fnAr) (hM : Model L out) {i : Nat} {A : LAction P V O T F} (hA : L.actions[i]? = some A) {σ τ : V → O} (hout : ⟨.action i, A.params.map (fun p => σ p.1)⟩ ∈ out)
    {e : LEffect P V O T} (he : e ∈ A.effects) (hext : L.Extends e σ τ) {m : List (V × O)} (hm : ∀ v, v ∈ A.params.map (·.1) ∨ v ∈ e.params.map (·.1) → m.lookup v = some (τ v)) :
    ∃ r, instEffectOnce m L.init (fluentFacts L out) e = some r ∧ (∀ x ∈ r, Means L.init (fluentFacts L out) x.1 τ e.cond ∧ (∀ y ∈ x.1, y.atom ∈ fluentFacts L out) ∧ x.2 = ⟨e.negated, e.atom.inst τ⟩ ∧ x.2.atom ∈ fluentFacts L out) ∧
      (∀ s, Static L.init (fluentFacts L out) s → (∀ c ∈ e.cond, c.holds τ s) → e.atom.inst τ ∈ fluentFacts L out → ∃ c, (c, ⟨e.negated, e.atom.inst τ⟩) ∈ r ∧ ∀ x ∈ c, x.holds s) := by
  have hA' := List.mem_of_getElem? hA
  have hg : groundAtom m e.atom = some (e.atom.inst τ) := groundAtom_inst fun v hv => hm v (hL.effectVars A hA' e he v (.inr hv))
  unfold instEffectOnce
  rcases instCond_means (init := L.init) (fluent := fluentFacts L out) (σ := τ) (fun v hv => hm v (hL.effectVars A hA' e he v (.inl hv))) with ⟨l, h1, h2, h3, h4, h5⟩ | ⟨h1, h2⟩
  · rw [h1]
    simp only [instPart]
    rw [hg]
    simp only [instLiteral]
    by_cases hf : e.atom.inst τ ∈ fluentFacts L out
    · rw [if_pos (by simpa using hf)]
      refine ⟨_, rfl, fun x hx => ?_, fun s hs hc _ => ⟨l, by simp, (h2 s hs).mpr hc⟩⟩
      obtain rfl : x = _ := by simpa using hx
      exact ⟨h2, h4, rfl, hf⟩
    · rw [if_neg (by simpa using hf)]
      have hno : up (e.atom.inst τ) ∉ out := fun h => hf (mem_fluentFacts.mpr ⟨h, effect_fluent hA' he⟩)
      have hni : e.atom.inst τ ∉ L.init := fun h => hno (hM.init _ h)
      cases hn : e.negated with
      | true =>
        rw [if_pos rfl, if_neg (by simpa using hni)]
        exact ⟨_, rfl, by simp, fun s _ _ h => absurd h hf⟩
      | false =>
        refine absurd (hM.eff i A σ τ e hA hout he hn hext h3 fun a ha => ?_) hno
        rcases h5 a ha with h | h
        · exact (mem_fluentFacts.mp h).1
        · exact hM.init _ h
  · rw [h1]
    exact ⟨[], rfl, by simp, fun s hs hc => absurd hc (h2 s hs)⟩

theorem instEffect_spec {ar : P → Nat} {fnAr : F → Nat} (hL : L.Ok ar fnAr) (hM : Model L out) {i : Nat} {A : LAction P V O T F} (hA : L.actions[i]? = some A) {σ : V → O} (hout : ⟨.action i, A.params.map (fun p => σ p.1)⟩ ∈ out)
    {e : LEffect P V O T} (he : e ∈ A.effects) {m : List (V × O)} (hm : ∀ v ∈ A.params.map (·.1), m.lookup v = some (σ v)) :
    ∃ r, instEffect L m L.init (fluentFacts L out) e = some r ∧ (∀ x ∈ r, ∃ τ, L.Extends e σ τ ∧ Means L.init (fluentFacts L out) x.1 τ e.cond ∧ (∀ y ∈ x.1, y.atom ∈ fluentFacts L out) ∧ x.2 = ⟨e.negated, e.atom.inst τ⟩ ∧ x.2.atom ∈ fluentFacts L out) ∧
      (∀ s τ, L.Extends e σ τ → Static L.init (fluentFacts L out) s → (∀ c ∈ e.cond, c.holds τ s) → e.atom.inst τ ∈ fluentFacts L out → ∃ c, (c, ⟨e.negated, e.atom.inst τ⟩) ∈ r ∧ ∀ x ∈ c, x.holds s) := by
  have hA' := List.mem_of_getElem? hA
  obtain ⟨hnd, hdis⟩ := hL.effectParams A hA' e he
  have hone : ∀ τ, L.Extends e σ τ → ∀ v, v ∈ A.params.map (·.1) ∨ v ∈ e.params.map (·.1) → (update m (e.params.map (·.1)) ((e.params.map (·.1)).map τ)).lookup v = some (τ v) := by
    intro τ hτ v hv
    by_cases h : v ∈ e.params.map (·.1)
    · exact update_lookup_mem h
    · rw [update_lookup_not h, hτ.1 v h]
      rcases hv with hv | hv
      · exact hm v hv
      · exact absurd hv h
  obtain ⟨rs, hrs⟩ := Mas.mapAll_defined (f := fun t => instEffectOnce (update m (e.params.map (·.1)) t) L.init (fluentFacts L out) e) (l := cartesian (e.params.map (fun p => objectsByType L p.2))) (by
    intro t ht
    obtain ⟨τ, rfl, h2, h3⟩ := (cartesian_typed σ hnd).mp ht
    obtain ⟨r, hr, _⟩ := instEffectOnce_spec hL hM hA hout he (τ := τ) ⟨h2, h3⟩ (hone τ ⟨h2, h3⟩)
    exact ⟨r, hr⟩)
  refine ⟨rs.flatten, by unfold instEffect; rw [hrs]; rfl, fun x hx => ?_, fun s τ hτ hs hc hf => ?_⟩
  · obtain ⟨r, hr, hx⟩ := List.mem_flatten.mp hx
    obtain ⟨t, ht, hr'⟩ := Mas.mapAll_mem hrs hr
    obtain ⟨τ, rfl, h2, h3⟩ := (cartesian_typed σ hnd).mp ht
    obtain ⟨r', hr'', h4, _⟩ := instEffectOnce_spec hL hM hA hout he (τ := τ) ⟨h2, h3⟩ (hone τ ⟨h2, h3⟩)
    rw [hr''] at hr'
    obtain rfl := Option.some.inj hr'
    exact ⟨τ, ⟨h2, h3⟩, h4 x hx⟩
  · obtain ⟨r, hr, h1, h2⟩ := instEffectOnce_spec hL hM hA hout he hτ (hone τ hτ)
    obtain ⟨r', hr', h3⟩ := Mas.mapAll_mem' hrs ((cartesian_typed σ hnd).mpr ⟨τ, rfl, hτ⟩)
    rw [hr] at h3
    obtain rfl := Option.some.inj h3
    obtain ⟨c, hc1, hc2⟩ := h2 s hs hc hf
    exact ⟨c, List.mem_flatten.mpr ⟨_, hr', hc1⟩, hc2⟩

/-- the effects of an instance of an action -/
structure EffectsOf (L : LTask P V O T F) (out : List (GAtom (DPred P T F) O)) (A : LAction P V O T F) (σ : V → O) (es : List (List (Literal (GAtom P O)) × Literal (GAtom P O))) : Prop where
  sound : ∀ x ∈ es, ∃ e ∈ A.effects, ∃ τ, L.Extends e σ τ ∧ Means L.init (fluentFacts L out) x.1 τ e.cond ∧ x.2 = ⟨e.negated, e.atom.inst τ⟩
  atoms : ∀ x ∈ es, x.2.atom ∈ fluentFacts L out ∧ ∀ y ∈ x.1, y.atom ∈ fluentFacts L out
  complete : ∀ e ∈ A.effects, ∀ s τ, L.Extends e σ τ → Static L.init (fluentFacts L out) s → (∀ c ∈ e.cond, c.holds τ s) → e.atom.inst τ ∈ fluentFacts L out → ∃ c, (c, ⟨e.negated, e.atom.inst τ⟩) ∈ es ∧ ∀ x ∈ c, x.holds s

theorem instEffects_spec {ar : P → Nat} {fnAr : F → Nat} (hL : L.Ok ar fnAr) (hM : Model L out) {i : Nat} {A : LAction P V O T F} (hA : L.actions[i]? = some A) {σ : V → O} (hout : ⟨.action i, A.params.map (fun p => σ p.1)⟩ ∈ out)
    {m : List (V × O)} (hm : ∀ v ∈ A.params.map (·.1), m.lookup v = some (σ v)) : ∃ rs, Mas.mapAll (instEffect L m L.init (fluentFacts L out)) A.effects = some rs ∧ EffectsOf L out A σ rs.flatten := by
  obtain ⟨rs, hrs⟩ := Mas.mapAll_defined (f := instEffect L m L.init (fluentFacts L out)) (l := A.effects) (by
    intro e he
    obtain ⟨r, hr, _⟩ := instEffect_spec hL hM hA hout he hm
    exact ⟨r, hr⟩)
  have hfrom : ∀ x ∈ rs.flatten, ∃ e ∈ A.effects, ∃ τ, L.Extends e σ τ ∧ Means L.init (fluentFacts L out) x.1 τ e.cond ∧ (∀ y ∈ x.1, y.atom ∈ fluentFacts L out) ∧ x.2 = ⟨e.negated, e.atom.inst τ⟩ ∧ x.2.atom ∈ fluentFacts L out := by
    intro x hx
    obtain ⟨r, hr, hx⟩ := List.mem_flatten.mp hx
    obtain ⟨e, he, hr'⟩ := Mas.mapAll_mem hrs hr
    obtain ⟨r', hr'', h4, _⟩ := instEffect_spec hL hM hA hout he hm
    rw [hr''] at hr'
    obtain rfl := Option.some.inj hr'
    exact ⟨e, he, h4 x hx⟩
  refine ⟨rs, hrs, fun x hx => ?_, fun x hx => ?_, fun e he s τ hτ hs hc hf => ?_⟩
  · obtain ⟨e, he, τ, h1, h2, _, h4, _⟩ := hfrom x hx
    exact ⟨e, he, τ, h1, h2, h4⟩
  · obtain ⟨e, he, τ, h1, h2, h3, h4, h5⟩ := hfrom x hx
    exact ⟨h5, h3⟩
  · obtain ⟨r, hr, _, h2⟩ := instEffect_spec hL hM hA hout he hm
    obtain ⟨r', hr', h3⟩ := Mas.mapAll_mem' hrs he
    rw [hr] at h3
    obtain rfl := Option.some.inj h3
    obtain ⟨c, hc1, hc2⟩ := h2 s τ hτ hs hc hf
    exact ⟨c, List.mem_flatten.mpr ⟨_, hr', hc1⟩, hc2⟩

section
variable {ar : P → Nat} {fnAr : F → Nat} {A : LAction P V O T F} {σ : V → O} {es : List (List (Literal (GAtom P O)) × Literal (GAtom P O))} {s : GAtom P O → Prop}

/-- added atoms are found -/
theorem changes_found (hM : Model L out) {i : Nat} (hA : L.actions[i]? = some A) (hout : ⟨.action i, A.params.map (fun p => σ p.1)⟩ ∈ out) (hs : Inv L out s) {p : GAtom P O} (h : L.Changes false A σ s p) : up p ∈ out := by
  obtain ⟨e, he, τ, hτ, hn, rfl, hc⟩ := h
  refine hM.eff i A σ τ e hA hout he hn hτ (fun hf => hc _ hf) fun a ha => hs.found _ ?_
  exact hc _ ha

theorem changes_of {n : Bool} (hE : EffectsOf L out A σ es) (hs : Static L.init (fluentFacts L out) s) {c : List (Literal (GAtom P O))} {p : GAtom P O} (h : (c, ⟨n, p⟩) ∈ es) (hc : ∀ x ∈ c, x.holds s) : L.Changes n A σ s p := by
  obtain ⟨e, he, τ, h1, h2, h3⟩ := hE.sound _ h
  simp only [Literal.mk.injEq] at h3
  exact ⟨e, he, τ, h1, h3.1.symm, h3.2.symm, (h2 s hs).mp hc⟩

theorem of_changes {n : Bool} (hE : EffectsOf L out A σ es) (hs : Static L.init (fluentFacts L out) s) {p : GAtom P O} (hA : A ∈ L.actions) (h : L.Changes n A σ s p) (hp : up p ∈ out) : ∃ c, (c, ⟨n, p⟩) ∈ es ∧ ∀ x ∈ c, x.holds s := by
  obtain ⟨e, he, τ, hτ, rfl, rfl, hc⟩ := h
  exact hE.complete e he s τ hτ hs hc (mem_fluentFacts.mpr ⟨hp, effect_fluent hA he⟩)

/-- the result of the grounded action -/
theorem result_iff (hM : Model L out) {i : Nat} (hA : L.actions[i]? = some A) (hout : ⟨.action i, A.params.map (fun p => σ p.1)⟩ ∈ out) (hE : EffectsOf L out A σ es) (hs : Inv L out s) {name : List Char} {pre : List (Literal (GAtom P O))} {cost : Nat} (p : GAtom P O) :
    Strips.Action.result ⟨name, pre, addEffects es ++ delEffects es, cost⟩ s p ↔ L.result A σ s p := by
  have hA' := List.mem_of_getElem? hA
  have hr := hs.rel hM
  have hadd : Strips.Action.Adds ⟨name, pre, addEffects es ++ delEffects es, cost⟩ s p ↔ L.Changes false A σ s p := by
    constructor
    · rintro ⟨⟨c, l⟩, he, rfl, hc⟩
      refine changes_of hE hr ?_ hc
      rcases List.mem_append.mp he with he | he
      · exact (List.mem_filter.mp he).1
      · exact (List.mem_filter.mp he).1
    · intro h
      obtain ⟨c, hc1, hc2⟩ := of_changes hE hr hA' h (changes_found hM hA hout hs h)
      exact ⟨_, List.mem_append_left _ (List.mem_filter.mpr ⟨hc1, rfl⟩), rfl, hc2⟩
  have hdel : Strips.Action.Deletes ⟨name, pre, addEffects es ++ delEffects es, cost⟩ s p → L.Changes true A σ s p := by
    rintro ⟨⟨c, l⟩, he, rfl, hc⟩
    refine changes_of hE hr ?_ hc
    rcases List.mem_append.mp he with he | he
    · exact (List.mem_filter.mp he).1
    · exact (List.mem_filter.mp he).1
  have hdel' : s p → L.Changes true A σ s p → Strips.Action.Deletes ⟨name, pre, addEffects es ++ delEffects es, cost⟩ s p ∨ Strips.Action.Adds ⟨name, pre, addEffects es ++ delEffects es, cost⟩ s p := by
    intro hp h
    obtain ⟨c, hc1, hc2⟩ := of_changes hE hr hA' h (hs.found p hp)
    by_cases hb : (c, ⟨false, p⟩) ∈ addEffects es
    · exact .inr ⟨_, List.mem_append_left _ hb, rfl, hc2⟩
    · refine .inl ⟨(c, ⟨true, p⟩), List.mem_append_right _ (List.mem_filter.mpr ⟨hc1, ?_⟩), rfl, hc2⟩
      simpa using hb
  unfold Strips.Action.result LTask.result
  rw [← hadd]
  constructor
  · rintro (h | ⟨h1, h2⟩)
    · exact .inl h
    · by_cases h : L.Changes true A σ s p
      · rcases hdel' h1 h with h | h
        · exact absurd h h2
        · exact .inl h
      · exact .inr ⟨h1, h⟩
  · rintro (h | ⟨h1, h2⟩)
    · exact .inl h
    · exact .inr ⟨h1, fun h => h2 (hdel h)⟩

/-- without effects nothing changes -/
theorem result_none (hM : Model L out) {i : Nat} (hA : L.actions[i]? = some A) (hout : ⟨.action i, A.params.map (fun p => σ p.1)⟩ ∈ out) (hE : EffectsOf L out A σ []) (hs : Inv L out s) (p : GAtom P O) : L.result A σ s p ↔ s p := by
  have hA' := List.mem_of_getElem? hA
  have hr := hs.rel hM
  constructor
  · rintro (h | h)
    · obtain ⟨c, hc, _⟩ := of_changes hE hr hA' h (changes_found hM hA hout hs h)
      simp at hc
    · exact h.1
  · refine fun h => .inr ⟨h, fun h' => ?_⟩
    obtain ⟨c, hc, _⟩ := of_changes hE hr hA' h' (hs.found p h)
    simp at hc

/-- the grounded action for an instance -/
structure Instance (L : LTask P V O T F) (out : List (GAtom (DPred P T F) O)) (A : LAction P V O T F) (σ : V → O) (a : Strips.Action (GAtom P O)) : Prop where
  name : a.name = L.instName A σ
  cost : L.CostIs A σ a.cost
  pre : Means L.init (fluentFacts L out) a.pre σ A.pre
  result : ∀ s, Inv L out s → ∀ p, a.result s p ↔ L.result A σ s p
  effects : ∀ x ∈ a.effects, ∃ e ∈ A.effects, x.2.atom.pred = e.atom.pred
  atoms : (∀ x ∈ a.pre, x.atom ∈ fluentFacts L out) ∧ ∀ x ∈ a.effects, x.2.atom ∈ fluentFacts L out ∧ ∀ y ∈ x.1, y.atom ∈ fluentFacts L out

theorem lookup_of_mem {α β : Type} [BEq α] [LawfulBEq α] {k : α} {v : β} : ∀ {l : List (α × β)}, (∀ w, (k, w) ∈ l → w = v) → (k, v) ∈ l → l.lookup k = some v
  | (k', v') :: l, h1, h2 => by
    rw [List.lookup_cons]
    by_cases hk : k = k'
    · subst hk
      rw [beq_self_eq_true, h1 v' (by simp)]
    · have : (k == k') = false := by simpa using hk
      rw [this]
      refine lookup_of_mem (fun w hw => h1 w (List.mem_cons_of_mem _ hw)) ?_
      rcases List.mem_cons.mp h2 with h2 | h2
      · exact absurd (by simpa using congrArg Prod.fst h2) hk
      · exact h2

theorem instCost_spec (hL : L.Ok ar fnAr) (hA : A ∈ L.actions) {m : List (V × O)} (hm : ∀ v ∈ A.params.map (·.1), m.lookup v = some (σ v)) (hc : ∃ n, L.CostValue σ n A.cost) : ∃ n, instCost L m A.cost = some n ∧ L.CostIs A σ n := by
  obtain ⟨n, hn⟩ := hc
  unfold LTask.CostIs
  cases hcost : A.cost with
  | none => cases hmet : L.metric <;> simp [instCost, hmet, LTask.CostValue]
  | const k => cases hmet : L.metric <;> simp [instCost, hmet, LTask.CostValue]
  | fn f args =>
    rw [hcost] at hn
    cases hmet : L.metric with
    | false => simp [instCost, hmet]
    | true =>
      have : Mas.mapAll (value m) args = some (args.map (·.value σ)) := by
        rw [Mas.mapAll_iff, List.forall₂_map_right_iff, List.forall₂_same]
        intro t ht
        cases t with
        | var v => exact hm v ((hL.costVars A hA f args hcost).2 v (List.mem_filterMap.mpr ⟨_, ht, rfl⟩))
        | const o => rfl
      refine ⟨n, ?_, by simpa using hn⟩
      simp only [instCost, hmet, if_true, this]
      exact lookup_of_mem (fun w hw => hL.functional _ _ _ (List.mem_reverse.mp hw) hn) (List.mem_reverse.mpr hn)

theorem instName_spec {m : List (V × O)} (hm : ∀ v ∈ A.params.map (·.1), m.lookup v = some (σ v)) : instName L m A = some (L.instName A σ) := by
  have : Mas.mapAll (fun p => m.lookup p.1) (A.params.take A.external) = some ((A.params.take A.external).map (fun p => σ p.1)) := by
    rw [Mas.mapAll_iff, List.forall₂_map_right_iff, List.forall₂_same]
    exact fun p hp => hm p.1 (List.mem_map.mpr ⟨p, List.mem_of_mem_take hp, rfl⟩)
  unfold instName
  rw [this]
  simp [LTask.instName, Function.comp_def]

/-- what `instAction` does -/
theorem instAction_spec (hL : L.Ok ar fnAr) (hM : Model L out) (keep : Bool) {i : Nat} (hA : L.actions[i]? = some A) (hout : ⟨.action i, A.params.map (fun p => σ p.1)⟩ ∈ out) (hc : ∃ n, L.CostValue σ n A.cost) :
    (∃ a, instAction keep L (fluentFacts L out) A (update [] (A.params.map (·.1)) (A.params.map (fun p => σ p.1))) = some (some a) ∧ Instance L out A σ a) ∨
    (instAction keep L (fluentFacts L out) A (update [] (A.params.map (·.1)) (A.params.map (fun p => σ p.1))) = some none ∧
      ((∀ s, Inv L out s → ¬ ∀ c ∈ A.pre, c.holds σ s) ∨ (keep = false ∧ ∀ s, Inv L out s → ∀ p, L.result A σ s p ↔ s p))) := by
  have hA' := List.mem_of_getElem? hA
  have hmap : A.params.map (fun p => σ p.1) = (A.params.map (·.1)).map σ := by rw [List.map_map]; rfl
  rw [hmap]
  generalize hgen : update [] (A.params.map (·.1)) ((A.params.map (·.1)).map σ) = m
  have hm : ∀ v ∈ A.params.map (·.1), m.lookup v = some (σ v) := fun v hv => hgen ▸ update_lookup_mem hv
  unfold instAction
  rw [instName_spec hm]
  rcases instCond_means (init := L.init) (fluent := fluentFacts L out) (σ := σ) (fun v hv => hm v (hL.preVars A hA' v hv)) with ⟨l, h1, h2, h3, h4, h5⟩ | ⟨h1, h2⟩
  · rw [h1]
    simp only []
    obtain ⟨rs, hrs, hE⟩ := instEffects_spec hL hM hA hout hm
    rw [hrs]
    simp only []
    obtain ⟨n, hn1, hn2⟩ := instCost_spec hL hA' hm hc
    unfold finishAction
    by_cases hk : (!rs.flatten.isEmpty || keep) = true
    · rw [if_pos hk, hn1]
      refine .inl ⟨_, rfl, rfl, hn2, h2, fun s hs p => result_iff hM hA hout hE hs p, fun x hx => ?_, h4, fun x hx => ?_⟩
      · have hx' : x ∈ rs.flatten := by
          rcases List.mem_append.mp hx with hx | hx
          · exact (List.mem_filter.mp hx).1
          · exact (List.mem_filter.mp hx).1
        obtain ⟨e, he, τ, _, _, h⟩ := hE.sound x hx'
        exact ⟨e, he, by rw [h]; rfl⟩
      · have hx' : x ∈ rs.flatten := by
          rcases List.mem_append.mp hx with hx | hx
          · exact (List.mem_filter.mp hx).1
          · exact (List.mem_filter.mp hx).1
        exact hE.atoms x hx'
    · rw [if_neg hk]
      simp only [Bool.or_eq_true, Bool.not_eq_true', not_or, Bool.not_eq_false, Bool.not_eq_true, List.isEmpty_iff] at hk
      rw [hk.1] at hE
      exact .inr ⟨rfl, .inr ⟨hk.2, fun s hs p => result_none hM hA hout hE hs p⟩⟩
  · rw [h1]
    exact .inr ⟨rfl, .inl fun s hs => h2 s (hs.rel hM)⟩

end
end Verif.Instantiate
