import Verif.Lemmas.InvariantSystem

/-
Balanced actions keep invariants.
-/
namespace Verif.Invariants
open Verif.Datalog Verif.Lifted

variable {P V O T F : Type}

/-- the values of terms -/
def val (θ : Nat → O) (σ : V → O) (τ : Bool → V → O) : Tm V O → O
  | .inv k => θ k
  | .param v => σ v
  | .eff b v => τ b v
  | .obj o => o

/-- the literal is true -/
def Lit.holds (ν : Tm V O → O) (s : GAtom P O → Prop) (l : Lit P V O) : Prop := if l.negated then ¬ s ⟨l.pred, l.args.map ν⟩ else s ⟨l.pred, l.args.map ν⟩

/-- the object is declared -/
def Declared (L : LTask P V O T F) (o : O) : Prop := ∃ t, (o, t) ∈ L.objects

/-- terms with declared values -/
def Known (L : LTask P V O T F) (A : LAction P V O T F) (ps : Bool → List V) : Tm V O → Prop
  | .inv _ => False
  | .param v => v ∈ A.params.map (·.1)
  | .eff b v => v ∈ ps b
  | .obj o => Declared L o

/-- true literals with the right number of arguments -/
structure Good (L : LTask P V O T F) (ar : P → Nat) (A : LAction P V O T F) (ps : Bool → List V) (ν : Tm V O → O) (s : GAtom P O → Prop) (l : Lit P V O) : Prop where
  holds : l.holds ν s
  arity : l.args.length = ar l.pred
  known : ∀ t ∈ l.args, Known L A ps t

/-- an action in a state -/
structure Situation (L : LTask P V O T F) (ar : P → Nat) (fnAr : F → Nat) (A : LAction P V O T F) (σ : V → O) (s : GAtom P O → Prop) : Prop where
  ok : L.Ok ar fnAr
  objects : L.ConditionObjects
  mem : A ∈ L.actions
  typed : L.Typed A.params σ
  pre : ∀ c ∈ A.pre, c.holds σ s
  eqs : ∀ a b, s ⟨L.eq, [a, b]⟩ → a = b
  refl : ∀ o, Declared L o → s ⟨L.eq, [o, o]⟩

theorem lit_mem {f : Term V O → Tm V O} {cs : List (Part P V O)} {l : Lit P V O} (h : l ∈ literals f cs) : ∃ a, .lit l.negated a ∈ cs ∧ l.pred = a.pred ∧ l.args = a.args.map f := by
  unfold literals at h
  split at h
  · cases h
  · obtain ⟨c, hc, h⟩ := List.mem_flatMap.mp h
    cases c with
    | falsity => simp at h
    | lit n a =>
      rw [List.mem_singleton] at h
      subst h
      exact ⟨a, hc, rfl, rfl⟩

theorem mem_literals {f : Term V O → Tm V O} {cs : List (Part P V O)} {n : Bool} {a : SymAtom P V O} (hf : .falsity ∉ cs) (h : .lit n a ∈ cs) : ⟨n, a.pred, a.args.map f⟩ ∈ literals f cs := by
  unfold literals
  rw [if_neg]
  · exact List.mem_flatMap.mpr ⟨_, h, List.mem_singleton_self _⟩
  · rw [List.any_eq_true]
    rintro ⟨c, hc, h'⟩
    cases c with
    | falsity => exact hf hc
    | lit _ _ => cases h'

theorem part_args {cs : List (Part P V O)} {n : Bool} {a : SymAtom P V O} (h : .lit n a ∈ cs) {v : V} (hv : .var v ∈ a.args) : v ∈ condVars cs :=
  List.mem_flatMap.mpr ⟨_, h, List.mem_filterMap.mpr ⟨_, hv, rfl⟩⟩

variable [DecidableEq P] [DecidableEq V] [DecidableEq O]

variable {L : LTask P V O T F} {ar : P → Nat} {fnAr : F → Nat} {A : LAction P V O T F} {σ : V → O} {s : GAtom P O → Prop} {θ : Nat → O} {τ : Bool → V → O} {ps : Bool → List V}

omit [DecidableEq P] [DecidableEq V] [DecidableEq O] in
theorem declared_of_type {t : T} {o : O} (h : L.HasType t o) : Declared L o := by
  obtain ⟨u, hu, _⟩ := h
  exact ⟨u, hu⟩

omit [DecidableEq P] [DecidableEq O] in
theorem effTm_value {e : LEffect P V O T} {b : Bool} (h : L.Extends e σ (τ b)) (x : Term V O) : val θ σ τ (effTm b e x) = x.value (τ b) := by
  cases x with
  | const o => rfl
  | var v =>
    simp only [effTm, Term.value]
    split
    · rfl
    · next hv => exact (h.1 v (by simpa using hv)).symm

omit [DecidableEq P] [DecidableEq O] in
theorem effTm_values {e : LEffect P V O T} {b : Bool} (h : L.Extends e σ (τ b)) (a : SymAtom P V O) : (⟨a.pred, (a.args.map (effTm b e)).map (val θ σ τ)⟩ : GAtom P O) = a.inst (τ b) := by
  rw [SymAtom.inst, List.map_map]
  congr 1
  exact List.map_congr_left fun x _ => effTm_value h x

omit [DecidableEq P] [DecidableEq O] in
theorem effTm_known {e : LEffect P V O T} {b : Bool} (hps : ps b = e.params.map (·.1)) {x : Term V O} (hv : ∀ v, x = .var v → v ∈ A.params.map (·.1) ∨ v ∈ e.params.map (·.1)) (ho : ∀ o, x = .const o → Declared L o) : Known L A ps (effTm b e x) := by
  cases x with
  | const o => exact ho o rfl
  | var v =>
    simp only [effTm]
    split
    · next h =>
      show v ∈ ps b
      rw [hps]
      simpa using h
    · next h => exact (hv v rfl).resolve_right (by simpa using h)

omit [DecidableEq P] [DecidableEq O] in
theorem effLit_known (h : Situation L ar fnAr A σ s) {e : LEffect P V O T} (he : e ∈ A.effects) {b : Bool} (hps : ps b = e.params.map (·.1)) (n : Bool) : (effLit b e n).args.length = ar (effLit b e n).pred ∧ ∀ t ∈ (effLit b e n).args, Known L A ps t := by
  refine ⟨by simpa [effLit] using (h.ok.effectArity A h.mem e he).2, fun t ht => ?_⟩
  obtain ⟨x, hx, rfl⟩ := List.mem_map.mp ht
  refine effTm_known hps (fun v hv => ?_) (fun o ho => ?_)
  · subst hv
    exact h.ok.effectVars A h.mem e he v (.inr (List.mem_filterMap.mpr ⟨_, hx, rfl⟩))
  · subst ho
    exact h.ok.effectObjects A h.mem e he o hx

omit [DecidableEq P] [DecidableEq O] in
theorem effLit_good (h : Situation L ar fnAr A σ s) {e : LEffect P V O T} (he : e ∈ A.effects) {b : Bool} (hps : ps b = e.params.map (·.1)) (hx : L.Extends e σ (τ b)) (hs : ¬ s (e.atom.inst (τ b))) :
    Good L ar A ps (val θ σ τ) s (effLit b e true) := by
  refine ⟨?_, (effLit_known h he hps true).1, (effLit_known h he hps true).2⟩
  simp only [Lit.holds, effLit, if_true]
  rw [effTm_values hx]
  exact hs

omit [DecidableEq P] [DecidableEq O] in
theorem condLits_known (h : Situation L ar fnAr A σ s) {e : LEffect P V O T} (he : e ∈ A.effects) {b : Bool} (hps : ps b = e.params.map (·.1)) {l : Lit P V O} (hl : l ∈ condLits b e) :
    l.args.length = ar l.pred ∧ ∀ t ∈ l.args, Known L A ps t := by
  obtain ⟨a, ha, h1, h2⟩ := lit_mem hl
  refine ⟨by rw [h2, h1, List.length_map]; exact (h.ok.effectArity A h.mem e he).1 _ _ ha, fun t ht => ?_⟩
  rw [h2] at ht
  obtain ⟨x, hx, rfl⟩ := List.mem_map.mp ht
  refine effTm_known hps (fun v hv => ?_) (fun o ho => ?_)
  · subst hv
    exact h.ok.effectVars A h.mem e he v (.inl (part_args ha hx))
  · subst ho
    exact h.objects A h.mem e.cond (List.mem_cons_of_mem _ (List.mem_map.mpr ⟨e, he, rfl⟩)) _ a ha o hx

omit [DecidableEq P] [DecidableEq O] in
theorem condLits_good (h : Situation L ar fnAr A σ s) {e : LEffect P V O T} (he : e ∈ A.effects) {b : Bool} (hps : ps b = e.params.map (·.1)) (hx : L.Extends e σ (τ b)) (hc : ∀ c ∈ e.cond, c.holds (τ b) s) {l : Lit P V O}
    (hl : l ∈ condLits b e) : Good L ar A ps (val θ σ τ) s l := by
  refine ⟨?_, (condLits_known h he hps hl).1, (condLits_known h he hps hl).2⟩
  obtain ⟨a, ha, h1, h2⟩ := lit_mem hl
  have h3 := hc _ ha
  simp only [Lit.holds, h1, h2]
  rw [effTm_values hx]
  exact h3

omit [DecidableEq P] [DecidableEq V] [DecidableEq O] in
theorem mem_zipIdx_get {α : Type} {l : List α} {x : α × Nat} (h : x ∈ l.zipIdx) : l[x.2]? = some x.1 := by
  rw [List.mem_zipIdx_iff_getElem?] at h
  exact h

omit [DecidableEq P] [DecidableEq V] in
theorem preLits_good (h : Situation L ar fnAr A σ s) {reach : Option (List (List O))} (hr : ∀ r, reach = some r → A.params.map (fun p => σ p.1) ∈ r) {l : Lit P V O} (hl : l ∈ preLits L.eq A reach) : Good L ar A ps (val θ σ τ) s l := by
  obtain ⟨a, ha, h1, h2⟩ := lit_mem hl
  have hval : (⟨a.pred, (a.args.map paramTm).map (val θ σ τ)⟩ : GAtom P O) = a.inst σ := by
    rw [SymAtom.inst, List.map_map]
    congr 1
    exact List.map_congr_left fun x _ => by cases x <;> rfl
  rcases List.mem_append.mp ha with ha | ha
  · refine ⟨?_, by rw [h2, h1, List.length_map]; exact h.ok.preArity A h.mem _ _ ha, fun t ht => ?_⟩
    · have h3 := h.pre _ ha
      simp only [Lit.holds, h1, h2]
      rw [hval]
      exact h3
    · rw [h2] at ht
      obtain ⟨x, hx, rfl⟩ := List.mem_map.mp ht
      cases x with
      | var v => exact h.ok.preVars A h.mem v (part_args ha hx)
      | const o => exact h.objects A h.mem A.pre List.mem_cons_self _ a ha o hx
  · cases reach with
    | none => cases ha
    | some r =>
      obtain ⟨x, hx, hxa⟩ := List.mem_map.mp ha
      obtain ⟨y, hy, rfl⟩ := List.mem_map.mp hx
      obtain ⟨hy1, hy2⟩ := List.mem_filter.mp hy
      have hsub := pairs_sublist hy1
      have m1 := mem_zipIdx_get (hsub.subset (by simp : y.1 ∈ [y.1, y.2]))
      have m2 := mem_zipIdx_get (hsub.subset (by simp : y.2 ∈ [y.1, y.2]))
      have h3 := List.all_eq_true.mp hy2 _ (hr r rfl)
      simp only [List.getElem?_map, m1, m2, Option.map_some, bne_iff_ne, ne_eq, Option.some.injEq] at h3
      injection hxa with hn ha'
      subst ha'
      refine ⟨?_, by rw [h2, h1]; exact h.ok.eqArity.symm, fun t ht => ?_⟩
      · simp only [Lit.holds, ← hn, if_true, h1, h2]
        rw [hval]
        exact fun hs => h3 (h.eqs _ _ hs)
      · rw [h2] at ht
        simp only [List.map_cons, List.map_nil, List.mem_cons, List.not_mem_nil, or_false, paramTm] at ht
        rcases ht with rfl | rfl
        · exact List.mem_map_of_mem (List.mem_of_getElem? m1)
        · exact List.mem_map_of_mem (List.mem_of_getElem? m2)

omit [DecidableEq P] [DecidableEq V] [DecidableEq O] in
theorem known_declared (h : Situation L ar fnAr A σ s) (hτ : ∀ b, ∀ v ∈ ps b, Declared L (τ b v)) {t : Tm V O} (ht : Known L A ps t) : Declared L (val θ σ τ t) := by
  cases t with
  | inv k => exact ht.elim
  | param v =>
    obtain ⟨p, hp, rfl⟩ := List.mem_map.mp ht
    exact declared_of_type (h.typed p hp)
  | eff b v => exact hτ b v ht
  | obj o => exact ht

omit [DecidableEq V] [DecidableEq O] in
/-- literals that are true together satisfy the constraints -/
theorem conjunction_satisfied (h : Situation L ar fnAr A σ s) (hτ : ∀ b, ∀ v ∈ ps b, Declared L (τ b v)) {ls : List (Lit P V O)} (hls : ∀ l ∈ ls, Good L ar A ps (val θ σ τ) s l) :
    (∀ D ∈ (ensureConjunction L.eq ls).equalities, ∃ c ∈ D, ∀ e ∈ c, val θ σ τ e.1 = val θ σ τ e.2) ∧ ∀ d ∈ (ensureConjunction L.eq ls).inequalities, ∃ x ∈ d, val θ σ τ x.1 ≠ val θ σ τ x.2 := by
  have two : ∀ l ∈ ls, l.pred = L.eq → ∃ a b, l.args = [a, b] := fun l hl hp => by
    have := (hls l hl).arity
    rw [hp, h.ok.eqArity] at this
    exact List.length_eq_two.mp this
  constructor
  · intro D hD
    obtain ⟨l, hl, rfl⟩ := List.mem_map.mp hD
    obtain ⟨hl, hp⟩ := List.mem_filter.mp hl
    simp only [Bool.and_eq_true, decide_eq_true_eq, Bool.not_eq_true'] at hp
    obtain ⟨a, b, hab⟩ := two l hl hp.1
    have h1 := (hls l hl).holds
    rw [Lit.holds, hp.2, hp.1, hab] at h1
    rw [hab]
    exact ⟨_, List.mem_singleton_self _, fun e he => by
      rw [List.mem_singleton] at he
      subst he
      exact h.eqs _ _ (by simpa using h1)⟩
  · intro d hd
    rcases List.mem_append.mp hd with hd | hd
    · obtain ⟨l, hl, rfl⟩ := List.mem_map.mp hd
      obtain ⟨hl, hp⟩ := List.mem_filter.mp hl
      simp only [Bool.and_eq_true, decide_eq_true_eq] at hp
      obtain ⟨a, b, hab⟩ := two l hl hp.1
      have h1 := (hls l hl).holds
      rw [Lit.holds, hp.2, hp.1, hab] at h1
      rw [hab]
      refine ⟨_, List.mem_singleton_self _, fun heq => ?_⟩
      simp only [if_true, List.map_cons, List.map_nil] at h1
      apply h1
      rw [← show val θ σ τ a = val θ σ τ b from heq]
      exact h.refl _ (known_declared h hτ ((hls l hl).known a (by simp [hab])))
    · obtain ⟨p, hp, hd⟩ := List.mem_flatMap.mp hd
      obtain ⟨n, hn, hd⟩ := List.mem_flatMap.mp hd
      obtain ⟨hp, hp'⟩ := List.mem_filter.mp hp
      obtain ⟨hn, hn'⟩ := List.mem_filter.mp hn
      simp only [Bool.and_eq_true, Bool.not_eq_true'] at hp' hn'
      split at hd
      · next hc =>
        rw [List.mem_singleton] at hd
        subst hd
        have h1 := (hls p hp).holds
        have h2 := (hls n hn).holds
        rw [Lit.holds, hp'.2] at h1
        rw [Lit.holds, hn'.2] at h2
        simp only [if_true, Bool.false_eq_true, if_false] at h1 h2
        refine zip_ne (by rw [(hls p hp).arity, (hls n hn).arity, hc.1]) fun heq => h2 ?_
        rw [heq, hc.1]
        exact h1
      · cases hd

omit [DecidableEq V] [DecidableEq O] in
theorem cover_some {inv : List (IPart P)} {l : Lit P V O} {c : List (Tm V O × Tm V O)} (h : cover inv l = some c) : ∃ part ∈ inv, part.pred = l.pred ∧ c = (part.args.zip l.args).filterMap (fun x => x.1.map (fun k => (.inv k, x.2))) := by
  unfold cover at h
  obtain ⟨part, h1, h2⟩ := Option.map_eq_some_iff.mp h
  exact ⟨part, List.mem_of_find?_eq_some h1, by simpa using List.find?_some h1, h2.symm⟩

omit [DecidableEq P] [DecidableEq V] [DecidableEq O] in
theorem mem_cover {part : IPart P} {ts : List (Tm V O)} {x : Tm V O × Tm V O} : x ∈ (part.args.zip ts).filterMap (fun x => x.1.map (fun k => ((Tm.inv k : Tm V O), x.2))) ↔ ∃ k, (some k, x.2) ∈ part.args.zip ts ∧ x.1 = .inv k := by
  rw [List.mem_filterMap]
  constructor
  · rintro ⟨⟨a, t⟩, h1, h2⟩
    obtain ⟨k, rfl, rfl⟩ := Option.map_eq_some_iff.mp h2
    exact ⟨k, h1, rfl⟩
  · rintro ⟨k, h1, h2⟩
    exact ⟨_, h1, by cases x; simp_all⟩

omit [DecidableEq P] in
theorem part_unique {inv : List (IPart P)} (hn : (inv.map (·.pred)).Nodup) {x y : IPart P} (hx : x ∈ inv) (hy : y ∈ inv) (h : x.pred = y.pred) : x = y := List.inj_on_of_nodup_map hn hx hy h

omit [DecidableEq V] [DecidableEq O] in
/-- the constraints of the cover are satisfied by covered atoms -/
theorem cover_satisfied {inv : List (IPart P)} (hn : (inv.map (·.pred)).Nodup) {l : Lit P V O} {c : List (Tm V O × Tm V O)} (h : cover inv l = some c) (hc : Covered inv θ ⟨l.pred, l.args.map (val θ σ τ)⟩) :
    ∀ e ∈ c, val θ σ τ e.1 = val θ σ τ e.2 := by
  obtain ⟨part, h1, h2, rfl⟩ := cover_some h
  obtain ⟨part', h3, h4, h5⟩ := hc
  obtain rfl := part_unique hn h1 h3 (h2.trans h4.symm)
  intro e he
  obtain ⟨k, hk, hk'⟩ := mem_cover.mp he
  rw [List.forall₂_map_right_iff, List.forall₂_iff_zip] at h5
  rw [hk']
  exact h5.2 hk k rfl

omit [DecidableEq V] [DecidableEq O] in
theorem relevant_of_covered {inv : List (IPart P)} {e : LEffect P V O T} {ρ : V → O} (h : Covered inv θ (e.atom.inst ρ)) : relevant inv e = true := by
  obtain ⟨part, h1, h2, _⟩ := h
  simp only [relevant, List.contains_eq_mem, decide_eq_true_eq]
  exact List.mem_map.mpr ⟨part, h1, h2⟩

omit [DecidableEq V] [DecidableEq O] in
theorem cover_of_relevant {inv : List (IPart P)} {l : Lit P V O} (h : l.pred ∈ inv.map (·.pred)) : ∃ c, cover inv l = some c := by
  unfold cover
  cases hf : inv.find? (fun part => part.pred = l.pred) with
  | some p => exact ⟨_, rfl⟩
  | none =>
    obtain ⟨p, hp, hp'⟩ := List.mem_map.mp h
    exact absurd (List.find?_eq_none.mp hf p hp) (by simp [hp'])

/-- two different covered atoms that are added satisfy the constraints of an action that is too heavy -/
theorem heavy_pair (h : Situation L ar fnAr A σ s) {reach : Option (List (List O))} (hr : ∀ r, reach = some r → A.params.map (fun p => σ p.1) ∈ r) {inv : List (IPart P)} (hn : (inv.map (·.pred)).Nodup)
    {e1 e2 : LEffect P V O T} (h1 : e1 ∈ A.effects) (h2 : e2 ∈ A.effects) {τ1 τ2 : V → O} (x1 : L.Extends e1 σ τ1) (x2 : L.Extends e2 σ τ2) (c1 : ∀ c ∈ e1.cond, c.holds τ1 s) (c2 : ∀ c ∈ e2.cond, c.holds τ2 s)
    (v1 : Covered inv θ (e1.atom.inst τ1)) (v2 : Covered inv θ (e2.atom.inst τ2)) (s1 : ¬ s (e1.atom.inst τ1)) (s2 : ¬ s (e2.atom.inst τ2)) (hne : e1.atom.inst τ1 ≠ e2.atom.inst τ2) :
    (match heavySystem L.eq inv (preLits L.eq A reach) e1 e2 with | none => true | some s => s.solvable) = true := by
  let τ : Bool → V → O := fun b => if b then τ2 else τ1
  let ps : Bool → List V := fun b => if b then e2.params.map (·.1) else e1.params.map (·.1)
  have hτ : ∀ b, ∀ v ∈ ps b, Declared L (τ b v) := by
    intro b v hv
    cases b
    · obtain ⟨p, hp, rfl⟩ := List.mem_map.mp hv
      exact declared_of_type (x1.2 p hp)
    · obtain ⟨p, hp, rfl⟩ := List.mem_map.mp hv
      exact declared_of_type (x2.2 p hp)
  obtain ⟨d1, hd1⟩ := cover_of_relevant (l := effLit false e1 false) (by simpa [relevant, effLit, List.contains_eq_mem] using relevant_of_covered v1)
  obtain ⟨d2, hd2⟩ := cover_of_relevant (l := effLit true e2 false) (by simpa [relevant, effLit, List.contains_eq_mem] using relevant_of_covered v2)
  rw [heavySystem, hd1, hd2]
  have a1 : (⟨e1.atom.pred, (e1.atom.args.map (effTm false e1)).map (val θ σ τ)⟩ : GAtom P O) = e1.atom.inst τ1 := effTm_values (τ := τ) (b := false) x1 _
  have a2 : (⟨e2.atom.pred, (e2.atom.args.map (effTm true e2)).map (val θ σ τ)⟩ : GAtom P O) = e2.atom.inst τ2 := effTm_values (τ := τ) (b := true) x2 _
  have hgood : ∀ l ∈ preLits L.eq A reach ++ condLits false e1 ++ condLits true e2 ++ [effLit false e1 true] ++ [effLit true e2 true], Good L ar A ps (val θ σ τ) s l := by
    intro l hl
    simp only [List.mem_append, List.mem_singleton] at hl
    rcases hl with (((hl | hl) | hl) | rfl) | rfl
    · exact preLits_good h hr hl
    · exact condLits_good (b := false) h h1 rfl x1 c1 hl
    · exact condLits_good (b := true) h h2 rfl x2 c2 hl
    · exact effLit_good (b := false) h h1 rfl x1 s1
    · exact effLit_good (b := true) h h2 rfl x2 s2
  obtain ⟨k1, k2⟩ := conjunction_satisfied h hτ hgood
  refine solvable_of_values (ν := val θ σ τ) (fun _ => rfl) ?_ ?_ rfl
  · intro D hD
    simp only [System.extend, ensureInequality, List.nil_append, List.cons_append, List.mem_cons] at hD
    rcases hD with rfl | rfl | hD
    · exact ⟨d1, List.mem_singleton_self _, cover_satisfied hn hd1 (by simpa only [effLit, a1] using v1)⟩
    · exact ⟨d2, List.mem_singleton_self _, cover_satisfied hn hd2 (by simpa only [effLit, a2] using v2)⟩
    · exact k1 D hD
  · intro d hd
    simp only [System.extend, List.append_nil, List.mem_append] at hd
    rcases hd with hd | hd
    · simp only [ensureInequality] at hd
      split at hd
      · next hc =>
        rw [List.mem_singleton] at hd
        subst hd
        refine zip_ne ?_ fun heq => hne ?_
        · rw [(effLit_known (ps := ps) (b := false) h h1 rfl false).1, (effLit_known (ps := ps) (b := true) h h2 rfl false).1, hc.1]
        · rw [← a1, ← a2]
          exact congrArg₂ GAtom.mk hc.1 heq
      · cases hd
    · exact k2 d hd

omit [DecidableEq P] [DecidableEq V] [DecidableEq O] in
theorem mem_heavyEffects {e : LEffect P V O T} : e ∈ heavyEffects A ↔ e ∈ A.effects := by
  simp only [heavyEffects, List.mem_flatMap]
  constructor
  · rintro ⟨a, ha, h⟩
    split at h <;> simp at h <;> exact h ▸ ha
  · intro h
    exact ⟨e, h, by split <;> simp⟩

/-- an action that is not too heavy adds at most one new covered atom -/
theorem not_heavy (h : Situation L ar fnAr A σ s) {reach : Option (List (List O))} (hr : ∀ r, reach = some r → A.params.map (fun p => σ p.1) ∈ r) {inv : List (IPart P)} (hn : (inv.map (·.pred)).Nodup)
    (hh : tooHeavy L.eq inv (preLits L.eq A reach) A = false) {p q : GAtom P O} (hp : Covered inv θ p) (hq : Covered inv θ q) (sp : ¬ s p) (sq : ¬ s q) (ap : L.Changes false A σ s p) (aq : L.Changes false A σ s q) : p = q := by
  by_contra hne
  obtain ⟨e1, h1, τ1, x1, n1, rfl, c1⟩ := ap
  obtain ⟨e2, h2, τ2, x2, n2, rfl, c2⟩ := aq
  have hall : ∀ x ∈ pairs ((heavyEffects A).filter (fun e => !e.negated && relevant inv e)), ¬ (match heavySystem L.eq inv (preLits L.eq A reach) x.1 x.2 with | none => true | some s => s.solvable) = true := by
    intro x hx h'
    rw [tooHeavy, List.any_eq_false] at hh
    exact hh x hx h'
  by_cases he : e1 = e2
  · subst he
    have hpar : e1.params ≠ [] := by
      intro hp0
      apply hne
      have : τ1 = τ2 := funext fun v => by rw [x1.1 v (by simp [hp0]), x2.1 v (by simp [hp0])]
      rw [this]
    refine hall (e1, e1) (pairs_of_sublist ?_) (heavy_pair h hr hn h1 h2 x1 x2 c1 c2 hp hq sp sq hne)
    have hs : [e1, e1].Sublist (heavyEffects A) := by
      obtain ⟨l1, l2, hl⟩ := List.append_of_mem h1
      have hb : e1.params.isEmpty = false := by simpa using hpar
      rw [heavyEffects, hl, List.flatMap_append, List.flatMap_cons, hb]
      exact List.Sublist.trans (List.sublist_append_left _ _) (List.sublist_append_right _ _)
    have := hs.filter (fun e => !e.negated && relevant inv e)
    simpa [n1, relevant_of_covered hp] using this
  · have m1 : e1 ∈ (heavyEffects A).filter (fun e => !e.negated && relevant inv e) := List.mem_filter.mpr ⟨mem_heavyEffects.mpr h1, by simp [n1, relevant_of_covered hp]⟩
    have m2 : e2 ∈ (heavyEffects A).filter (fun e => !e.negated && relevant inv e) := List.mem_filter.mpr ⟨mem_heavyEffects.mpr h2, by simp [n2, relevant_of_covered hq]⟩
    rcases pairs_of_mem m1 m2 he with hm | hm
    · exact hall _ hm (heavy_pair h hr hn h1 h2 x1 x2 c1 c2 hp hq sp sq hne)
    · exact hall _ hm (heavy_pair h hr hn h2 h1 x2 x1 c2 c1 hq hp sq sp (Ne.symm hne))

omit [DecidableEq V] [DecidableEq O] in
theorem implied_spec {given : List (Lit P V O)} : ∀ {ls : List (Lit P V O)} {eqs : List (List (List (Tm V O × Tm V O)))}, implied given ls = some eqs → ∀ {choice : List (List (Tm V O × Tm V O))}, List.Forall₂ (· ∈ ·) choice eqs →
    ∀ l ∈ ls, ∃ m ∈ given, m.pred = l.pred ∧ m.negated = l.negated ∧ ∀ x ∈ l.args.zip m.args, x ∈ choice.flatten
  | [], _, _, _, _, l, hl => by cases hl
  | l' :: ls, eqs, h, choice, hc, l, hl => by
    rw [implied] at h
    split at h
    · cases h
    · next m ms hf =>
      obtain ⟨eqs', h1, rfl⟩ := Option.map_eq_some_iff.mp h
      cases hc with
      | @cons c _ cs _ hc1 hc2 =>
        rcases List.mem_cons.mp hl with rfl | hl
        · rw [← hf] at hc1
          obtain ⟨m', hm', rfl⟩ := List.mem_map.mp hc1
          obtain ⟨hm1, hm2⟩ := List.mem_filter.mp hm'
          simp only [Bool.and_eq_true, decide_eq_true_eq, beq_iff_eq] at hm2
          exact ⟨m', hm1, hm2.1, hm2.2, fun x hx => List.mem_append_left _ hx⟩
        · obtain ⟨m', k1, k2, k3, k4⟩ := implied_spec h1 hc2 l hl
          exact ⟨m', k1, k2, k3, fun x hx => List.mem_append_right _ (k4 x hx)⟩

/-- known terms of one class have the same value -/
theorem class_value {e : LEffect P V O T} {ν : Tm V O → O} (hobj : ∀ o, ν (.obj o) = o) {ac E : List (Tm V O × Tm V O)} (hac : ∀ x ∈ ac, ν x.1 = ν x.2) (hsub : ∀ x ∈ ac, x ∈ E) (hcon : consistent E = true)
    (hnc : ∀ t ∈ (paramSystem A e ac).notConstant, (representative E t).isObj = false) (hin : ∀ d ∈ (paramSystem A e ac).inequalities, ∃ x ∈ d, representative E x.1 ≠ representative E x.2)
    {a b : Tm V O} (ha : Known L A (fun b => if b then [] else e.params.map (·.1)) a) (hb : Known L A (fun b => if b then [] else e.params.map (·.1)) b) (h : classes E a = classes E b) : ν a = ν b := by
  have hE : ∀ x ∈ ac, classes E x.1 = classes E x.2 := fun x hx => classes_eq (hsub x hx)
  have hoo : ∀ o o' : O, classes E (.obj o) = classes E (.obj o') → o = o' := by
    intro o o' h'
    by_contra hne
    have hm := classes_mentioned h' (fun h2 => hne (Tm.obj.inj h2))
    exact hne (consistent_iff.mp hcon o o' hm.1 hm.2 h')
  have hmem : ∀ t : Tm V O, Known L A (fun b => if b then [] else e.params.map (·.1)) t → t.isObj = false → t ∈ A.params.map (fun p => (.param p.1 : Tm V O)) ++ e.params.map (fun p => .eff false p.1) := by
    intro t ht ho
    cases t with
    | inv k => exact ht.elim
    | obj o => cases ho
    | param v =>
      obtain ⟨p, hp, rfl⟩ := List.mem_map.mp ht
      exact List.mem_append_left _ (List.mem_map.mpr ⟨p, hp, rfl⟩)
    | eff b v =>
      cases b with
      | true => exact absurd ht (by simp [Known])
      | false =>
        obtain ⟨p, hp, rfl⟩ := List.mem_map.mp ht
        exact List.mem_append_right _ (List.mem_map.mpr ⟨p, hp, rfl⟩)
  have hvo : ∀ t : Tm V O, Known L A (fun b => if b then [] else e.params.map (·.1)) t → t.isObj = false → ∀ o, classes E t = classes E (.obj o) → ν t = o := by
    intro t ht hto o hc
    have hne : t ≠ .obj o := fun h' => by rw [h'] at hto; cases hto
    have hrep : (representative E t).isObj = true := representative_obj (classes_mentioned hc hne).2 hc.symm
    have hrep' : (representative ac t).isObj = true := by
      by_contra hf
      rw [Bool.not_eq_true] at hf
      rw [hnc t (List.mem_filter.mpr ⟨hmem t ht hto, by simp [hf]⟩)] at hrep
      cases hrep
    cases hr : representative ac t with
    | obj o' =>
      have h1 := representative_sound hac t
      have h2 := representative_sound hE t
      rw [hr] at h1 h2
      rw [← h1, hobj, hoo o' o (h2.trans hc)]
    | _ => rw [hr] at hrep'; cases hrep'
  cases hao : a.isObj with
  | true =>
    cases a with
    | obj o =>
      cases hbo : b.isObj with
      | true =>
        cases b with
        | obj o' => rw [hoo o o' h]
        | _ => cases hbo
      | false => rw [hobj, hvo b hb hbo o h.symm]
    | _ => cases hao
  | false =>
    cases hbo : b.isObj with
    | true =>
      cases b with
      | obj o' => rw [hobj, hvo a ha hao o' h]
      | _ => cases hbo
    | false =>
      by_cases hab : a = b
      · rw [hab]
      · have hrep := representative_congr h
        have key : ∀ x ∈ pairs (A.params.map (fun p => (.param p.1 : Tm V O)) ++ e.params.map (fun p => .eff false p.1)), representative E x.1 = representative E x.2 → ν x.1 = ν x.2 := by
          intro x hx hxr
          have hac' : representative ac x.1 = representative ac x.2 := by
            by_contra hf
            obtain ⟨y, hy, hy'⟩ := hin [x] (List.mem_map.mpr ⟨x, List.mem_filter.mpr ⟨hx, by simpa using hf⟩, rfl⟩)
            rw [List.mem_singleton] at hy
            subst hy
            exact hy' hxr
          rw [← representative_sound hac x.1, hac', representative_sound hac x.2]
        rcases pairs_of_mem (hmem a ha hao) (hmem b hb hbo) hab with hx | hx
        · exact key _ hx hrep
        · exact (key _ hx hrep.symm).symm

/-- a delete effect that balances an add effect deletes a covered atom that was true -/
theorem balance_deletes (h : Situation L ar fnAr A σ s) {reach : Option (List (List O))} (hr : ∀ r, reach = some r → A.params.map (fun p => σ p.1) ∈ r) {inv : List (IPart P)} {n : Nat} (hwf : WellFormed ar n inv)
    (hud : L.UntypedDeletes) (hpd : L.PossibleDeletes) {e d : LEffect P V O T} (he : e ∈ A.effects) (hd : d ∈ A.effects) (hneg : d.negated = true) {τ0 : V → O} (hx : L.Extends e σ τ0) (hc : ∀ c ∈ e.cond, c.holds τ0 s)
    (hv : Covered inv θ (e.atom.inst τ0)) (hs : ¬ s (e.atom.inst τ0)) {ac : List (Tm V O × Tm V O)} (hac : cover inv (effLit false e false) = some ac)
    (hb : balances inv (preLits L.eq A reach ++ condLits false e ++ [effLit false e true]) A e ac d = true) : ∃ q, Covered inv θ q ∧ s q ∧ L.Changes true A σ s q := by
  classical
  let ps : Bool → List V := fun b => if b then [] else e.params.map (·.1)
  let ν : Tm V O → O := val θ σ (fun _ => τ0)
  have hgood : ∀ l ∈ preLits L.eq A reach ++ condLits false e ++ [effLit false e true], Good L ar A ps ν s l := by
    intro l hl
    simp only [List.mem_append, List.mem_singleton] at hl
    rcases hl with (hl | hl) | rfl
    · exact preLits_good h hr hl
    · exact condLits_good (b := false) h he rfl hx hc hl
    · exact effLit_good (b := false) h he rfl hx hs
  have hτ : ∀ b, ∀ v ∈ ps b, Declared L (τ0 v) := by
    intro b v hv
    cases b
    · obtain ⟨p, hp, rfl⟩ := List.mem_map.mp hv
      exact declared_of_type (hx.2 p hp)
    · cases hv
  have hav : (⟨e.atom.pred, (e.atom.args.map (effTm false e)).map ν⟩ : GAtom P O) = e.atom.inst τ0 := effTm_values (τ := fun _ => τ0) (b := false) hx _
  have hacν : ∀ x ∈ ac, ν x.1 = ν x.2 := cover_satisfied hwf.preds hac (by simpa only [effLit, ν] using (show Covered inv θ ⟨e.atom.pred, (e.atom.args.map (effTm false e)).map ν⟩ from hav ▸ hv))
  unfold balances at hb
  split at hb
  case h_2 => cases hb
  next b dc hbs hdc =>
  obtain ⟨eqs, himp, rfl⟩ := Option.map_eq_some_iff.mp hbs
  obtain ⟨choice, hch, hcon, hnc, hin⟩ := solvable_choice hb
  have hch' : List.Forall₂ (· ∈ ·) choice ([ac] :: [dc] :: eqs) := by simpa [System.extend, ensureInequality, paramSystem] using hch
  clear hch
  cases hch' with
  | @cons c1 _ r1 _ hc1 hr1 =>
  cases hr1 with
  | @cons c2 _ r2 _ hc2 hr2 =>
  rw [List.mem_singleton] at hc1 hc2
  subst hc1 hc2
  generalize hE : (c1 :: c2 :: r2).flatten = E at hcon hnc hin
  have hE1 : ∀ x ∈ c1, x ∈ E := fun x hx => hE ▸ List.mem_append_left _ hx
  have hE2 : ∀ x ∈ c2, x ∈ E := fun x hx => hE ▸ List.mem_append_right _ (List.mem_append_left _ hx)
  have hE3 : ∀ x ∈ r2.flatten, x ∈ E := fun x hx => hE ▸ List.mem_append_right _ (List.mem_append_right _ hx)
  have hclass : ∀ {a b : Tm V O}, Known L A ps a → Known L A ps b → classes E a = classes E b → ν a = ν b := fun ha hb' hcl =>
    class_value (ν := ν) (fun _ => rfl) hacν hE1 hcon (fun t ht => hnc t (List.mem_append_right _ ht)) (fun d hd => hin d (List.mem_append_right _ hd)) ha hb' hcl
  obtain ⟨o0, ho0⟩ := List.exists_mem_of_ne_nil _ hud.1
  let μ : Tm V O → O := fun t => if hex : ∃ t', Known L A ps t' ∧ classes E t' = classes E t then ν hex.choose else o0.1
  have hμk : ∀ {t}, Known L A ps t → μ t = ν t := by
    intro t ht
    have hex : ∃ t', Known L A ps t' ∧ classes E t' = classes E t := ⟨t, ht, rfl⟩
    simp only [μ, dif_pos hex]
    exact hclass hex.choose_spec.1 ht hex.choose_spec.2
  have hμe : ∀ x ∈ E, μ x.1 = μ x.2 := by
    intro x hx
    have hcl := classes_eq hx
    simp only [μ, hcl]
  have hμd : ∀ t, Declared L (μ t) := by
    intro t
    by_cases hex : ∃ t', Known L A ps t' ∧ classes E t' = classes E t
    · simp only [μ, dif_pos hex]
      exact known_declared h hτ hex.choose_spec.1
    · simp only [μ, dif_neg hex]
      exact ⟨o0.2, ho0⟩
  have hμi : ∀ k, k < n → μ (.inv k) = θ k := by
    intro k hk
    obtain ⟨part, hp, hpp, hpc⟩ := cover_some hac
    have hmem : some k ∈ part.args := by
      have h1 : k ∈ part.args.filterMap id := (hwf.args part hp).mem_iff.mpr (List.mem_range.mpr hk)
      simpa using h1
    have hlen : part.args.length = (effLit false e false).args.length := by rw [hwf.length part hp, (effLit_known (ps := ps) (b := false) h he rfl false).1, hpp]
    obtain ⟨i, hi, hget⟩ := List.getElem_of_mem hmem
    have hz : (some k, (effLit false e false).args[i]'(hlen ▸ hi)) ∈ part.args.zip (effLit false e false).args := by
      refine List.mem_iff_getElem.mpr ⟨i, by simp only [List.length_zip]; omega, ?_⟩
      rw [List.getElem_zip, hget]
    have hin' : ((.inv k : Tm V O), (effLit false e false).args[i]'(hlen ▸ hi)) ∈ c1 := by
      rw [hpc]
      exact mem_cover.mpr ⟨k, hz, rfl⟩
    have h2 := hμe _ (hE1 _ hin')
    have h3 := hacν _ hin'
    rw [show μ (.inv k) = _ from h2, hμk ((effLit_known (ps := ps) (b := false) h he rfl false).2 _ (List.getElem_mem _))]
    exact h3.symm
  let τ' : V → O := fun v => if v ∈ d.params.map (·.1) then μ (.eff true v) else σ v
  have hext : L.Extends d σ τ' := by
    refine ⟨fun v hv => by simp only [τ', if_neg hv], fun p hp => ?_⟩
    simp only [τ', if_pos (List.mem_map.mpr ⟨p, hp, rfl⟩ : p.1 ∈ d.params.map (·.1))]
    obtain ⟨t, ht⟩ := hμd (.eff true p.1)
    exact hud.2 A h.mem d hd hneg p hp _ ht
  have hval : ∀ x : Term V O, (∀ v, x = .var v → v ∈ A.params.map (·.1) ∨ v ∈ d.params.map (·.1)) → (∀ o, x = .const o → Declared L o) → μ (effTm true d x) = x.value τ' := by
    intro x hxv hxo
    cases x with
    | const o => exact hμk (t := .obj o) (hxo o rfl)
    | var v =>
      simp only [effTm, Term.value, τ', List.contains_eq_mem, decide_eq_true_eq]
      split
      · rfl
      · next hv => exact hμk (t := .param v) ((hxv v rfl).resolve_right hv)
  have hinst : ∀ a : SymAtom P V O, (∀ v, .var v ∈ a.args → v ∈ A.params.map (·.1) ∨ v ∈ d.params.map (·.1)) → (∀ o, .const o ∈ a.args → Declared L o) →
      (⟨a.pred, (a.args.map (effTm true d)).map μ⟩ : GAtom P O) = a.inst τ' := by
    intro a h1 h2
    rw [SymAtom.inst, List.map_map]
    congr 1
    exact List.map_congr_left fun x hx => hval x (fun v hv => h1 v (hv ▸ hx)) (fun o ho => h2 o (ho ▸ hx))
  have harity : ∀ l ∈ condLits true d ++ [effLit true d false], l.args.length = ar l.pred := by
    intro l hl
    rcases List.mem_append.mp hl with hl | hl
    · exact (condLits_known (ps := fun _ => d.params.map (·.1)) h hd rfl hl).1
    · rw [List.mem_singleton] at hl
      subst hl
      exact (effLit_known (ps := fun _ => d.params.map (·.1)) h hd rfl false).1
  have hholds : ∀ l ∈ condLits true d ++ [effLit true d false], l.holds μ s := by
    intro l hl
    obtain ⟨m, hm, h1, h2, h3⟩ := implied_spec himp hr2 l hl
    have hg := hgood m hm
    have h4 : l.args.map μ = m.args.map μ := zip_eq (by rw [harity l hl, hg.arity, h1]) fun x hx => hμe x (hE3 x (h3 x hx))
    have h5 : m.args.map μ = m.args.map ν := List.map_congr_left fun t ht => hμk (hg.known t ht)
    have h6 := hg.holds
    rw [Lit.holds, h1, h2] at h6
    rw [Lit.holds, h4, h5]
    exact h6
  have hda := hinst d.atom (fun v hv => h.ok.effectVars A h.mem d hd v (.inr (List.mem_filterMap.mpr ⟨_, hv, rfl⟩))) (fun o ho => h.ok.effectObjects A h.mem d hd o ho)
  refine ⟨d.atom.inst τ', ?_, ?_, d, hd, τ', hext, hneg, rfl, ?_⟩
  · obtain ⟨part, hp, hpp, hpc⟩ := cover_some hdc
    refine ⟨part, hp, hpp, ?_⟩
    rw [← hda]
    simp only
    rw [List.forall₂_map_right_iff, List.forall₂_iff_zip]
    refine ⟨by rw [hwf.length part hp, hpp]; exact (harity _ (List.mem_append_right _ (List.mem_singleton_self _))).symm, ?_⟩
    intro a t hat k hk
    subst hk
    have hin' : ((.inv k : Tm V O), t) ∈ c2 := by
      rw [hpc]
      exact mem_cover.mpr ⟨k, hat, rfl⟩
    have hk : k < n := by
      have h1 : k ∈ part.args.filterMap id := by simpa using (List.of_mem_zip hat).1
      exact List.mem_range.mp ((hwf.args part hp).mem_iff.mp h1)
    rw [← hμi k hk]
    exact hμe _ (hE2 _ hin')
  · have h1 := hholds (effLit true d false) (List.mem_append_right _ (List.mem_singleton_self _))
    simp only [Lit.holds, effLit, Bool.false_eq_true, if_false] at h1
    rw [hda] at h1
    exact h1
  · intro c hc'
    cases c with
    | falsity => exact absurd hc' (hpd A h.mem d hd hneg)
    | lit m a =>
      have h1 := hholds ⟨m, a.pred, a.args.map (effTm true d)⟩ (List.mem_append_left _ (mem_literals (hpd A h.mem d hd hneg) hc'))
      have h2 := hinst a (fun v hv => h.ok.effectVars A h.mem d hd v (.inl (part_args hc' hv))) (fun o ho => h.objects A h.mem d.cond (List.mem_cons_of_mem _ (List.mem_map.mpr ⟨d, hd, rfl⟩)) _ a hc' o ho)
      simp only [Lit.holds] at h1
      rw [h2] at h1
      exact h1

end Verif.Invariants
