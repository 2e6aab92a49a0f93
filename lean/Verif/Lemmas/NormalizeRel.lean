import Verif.Lemmas.NormalizeTask

/-
The states of a task and of the task after the replacement of universal conditions.
-/
namespace Verif.Pddl
open Verif.Datalog Verif.Lifted
variable {P V O T F : Type} {Q : PTask P V O T F}

theorem sat_mono {has : T → O → Prop} {ev under ev' under' : Bool → GAtom P O → Prop} (he : ∀ n p, ev n p → ev' n p) (hu : ∀ n p, under n p → under' n p) {c : Cond P V O T} {σ : V → O} : c.sat has ev under σ → c.sat has ev' under' σ :=
  sat_imp (q := fun _ _ => True) (fun n a σ _ => hu n _) c (Lits_true c) fun n a σ _ => he n _

theorem PTask.ruleLits_mono {s D D' : GAtom P O → Prop} (h : ∀ p, Q.Derived p → D p → D' p) : ∀ n p, Q.ruleLits s D n p → Q.ruleLits s D' n p := by
  intro n p
  cases n with
  | true => exact id
  | false => exact fun h' => h'.imp (fun h1 => ⟨h1.1, h p h1.1 h1.2⟩) id

theorem PTask.derives_closed {s : GAtom P O → Prop} : ∀ x ∈ Q.axioms, ∀ σ, Q.Typed x.params σ → x.cond.sat Q.HasType (Q.ruleLits s (Q.Derives s)) (Q.ruleLits s (Q.Derives s)) σ → Q.Derives s (x.head σ) := by
  intro x hx σ ht hs D hD
  have : ∀ n p, Q.ruleLits s (Q.Derives s) n p → Q.ruleLits s D n p := PTask.ruleLits_mono fun p _ h => h D hD
  exact hD x hx σ ht (sat_mono this this hs)

theorem PTask.derives_cases {s : GAtom P O → Prop} {p : GAtom P O} (h : Q.Derives s p) : ∃ x ∈ Q.axioms, ∃ σ, Q.Typed x.params σ ∧ x.cond.sat Q.HasType (Q.ruleLits s (Q.Derives s)) (Q.ruleLits s (Q.Derives s)) σ ∧ p = x.head σ := by
  refine (h (fun p => Q.Derives s p ∧ ∃ x ∈ Q.axioms, ∃ σ, Q.Typed x.params σ ∧ x.cond.sat Q.HasType (Q.ruleLits s (Q.Derives s)) (Q.ruleLits s (Q.Derives s)) σ ∧ p = x.head σ) fun x hx σ ht hs => ?_).2
  have hm := Q.ruleLits_mono (s := s) (D := fun p => Q.Derives s p ∧ ∃ x ∈ Q.axioms, ∃ σ, Q.Typed x.params σ ∧ x.cond.sat Q.HasType (Q.ruleLits s (Q.Derives s)) (Q.ruleLits s (Q.Derives s)) σ ∧ p = x.head σ) (D' := Q.Derives s) fun p _ h => h.1
  have hs' := sat_mono hm hm hs
  exact ⟨PTask.derives_closed x hx σ ht hs', x, hx, σ, ht, hs', rfl⟩

theorem PTask.head_derived {x : PAxiom P V O T} (hx : x ∈ Q.axioms) (σ : V → O) : Q.Derived (x.head σ) := ⟨x, hx, rfl⟩

/-- as `Derives`, but atoms under universal quantifiers are read off the state -/
def PTask.Derives2 (Q : PTask P V O T F) (s : GAtom P O → Prop) (p : GAtom P O) : Prop :=
  ∀ D : GAtom P O → Prop, (∀ x ∈ Q.axioms, ∀ σ, Q.Typed x.params σ → x.cond.sat Q.HasType (Q.ruleLits s D) (lits s) σ → D (x.head σ)) → D p

structure PTask.Completes2 (Q : PTask P V O T F) (b s : GAtom P O → Prop) : Prop where
  base : ∀ p, ¬ Q.Derived p → (s p ↔ b p)
  derived : ∀ p, Q.Derived p → (s p ↔ Q.Derives2 s p)

theorem PTask.derives2_closed {s : GAtom P O → Prop} : ∀ x ∈ Q.axioms, ∀ σ, Q.Typed x.params σ → x.cond.sat Q.HasType (Q.ruleLits s (Q.Derives2 s)) (lits s) σ → Q.Derives2 s (x.head σ) := by
  intro x hx σ ht hs D hD
  exact hD x hx σ ht (sat_mono (PTask.ruleLits_mono fun p _ h => h D hD) (fun _ _ => id) hs)

theorem PTask.lits_le {s D : GAtom P O → Prop} (h : ∀ p, Q.Derived p → s p → D p) : ∀ n p, lits s n p → Q.ruleLits s D n p := by
  intro n p
  cases n with
  | true => exact id
  | false =>
    intro h'
    by_cases hd : Q.Derived p
    · exact .inl ⟨hd, h p hd h'⟩
    · exact .inr ⟨hd, h'⟩

theorem PTask.le_lits {s D : GAtom P O → Prop} (h : ∀ p, Q.Derived p → D p → s p) : ∀ n p, Q.ruleLits s D n p → lits s n p := by
  intro n p
  cases n with
  | true => exact id
  | false => exact fun h' => h'.elim (fun h1 => h p h1.1 h1.2) (·.2)

theorem PTask.completes2_of {b s : GAtom P O → Prop} (h : Q.Completes b s) : Q.Completes2 b s := by
  refine ⟨h.base, fun p hp => ?_⟩
  have h1 : ∀ n p, lits s n p → Q.ruleLits s (Q.Derives s) n p := PTask.lits_le fun p hp => (h.derived p hp).mp
  have h2 : ∀ n p, Q.ruleLits s (Q.Derives s) n p → lits s n p := PTask.le_lits fun p hp => (h.derived p hp).mpr
  rw [h.derived p hp]
  constructor
  · intro hd D hD
    refine (hd (fun p => D p ∧ Q.Derives s p) fun x hx σ ht hs => ?_).1
    have h3 : ∀ n p, Q.ruleLits s (fun p => D p ∧ Q.Derives s p) n p → Q.ruleLits s (Q.Derives s) n p := PTask.ruleLits_mono fun p _ h => h.2
    exact ⟨hD x hx σ ht (sat_mono (PTask.ruleLits_mono fun p _ h => h.1) (fun n p h => h2 n p (h3 n p h)) hs), PTask.derives_closed x hx σ ht (sat_mono h3 h3 hs)⟩
  · intro hd
    exact hd (Q.Derives s) fun x hx σ ht hs => PTask.derives_closed x hx σ ht (sat_mono (fun _ _ => id) h1 hs)

theorem PTask.completes_of {b s : GAtom P O → Prop} (hst : Q.Stratifiable) (h : Q.Completes2 b s) : Q.Completes b s := by
  obtain ⟨layer, hl⟩ := hst
  refine ⟨h.base, fun p hp => ?_⟩
  have hle : ∀ n p, Q.Derived p → layer p ≤ n → Q.Derives2 s p → Q.Derives s p := by
    intro n
    induction n using Nat.strong_induction_on with
    | h n ih =>
      intro p _ hn hp
      refine (hp (fun q => Q.Derives2 s q ∧ (layer q ≤ n → Q.Derives s q)) fun x hx σ ht hs => ⟨?_, fun hn => ?_⟩).2 hn
      · exact PTask.derives2_closed x hx σ ht (sat_mono (PTask.ruleLits_mono fun p _ h => h.1) (fun _ _ => id) hs)
      · refine PTask.derives_closed x hx σ ht (sat_occurs _ (fun m q ho hm => ?_) (fun m q ho hm => ?_) hs)
        · cases m with
          | true => exact hm
          | false =>
            refine hm.imp (fun h1 => ⟨h1.1, ?_⟩) id
            exact h1.2.2 ((hl x hx σ ht false q ho h1.1).1.trans hn)
        · cases m with
          | true => exact hm
          | false =>
            by_cases hd : Q.Derived q
            · have hlt := (hl x hx σ ht true q ho hd).2 rfl
              exact .inl ⟨hd, ih (layer q) (by omega) q hd (Nat.le_refl _) ((h.derived q hd).mp hm)⟩
            · exact .inr ⟨hd, hm⟩
  rw [h.derived p hp]
  refine ⟨hle _ p hp (Nat.le_refl _), fun hd => ?_⟩
  refine hd (Q.Derives2 s) fun x hx σ ht hs => PTask.derives2_closed x hx σ ht (sat_mono (fun _ _ => id) (PTask.le_lits fun p hp => (h.derived p hp).mpr) hs)

end Verif.Pddl

namespace Verif.Normalize
open Verif.Datalog Verif.Lifted Verif.Pddl
variable {P V O T F : Type} [DecidableEq V]

/-- a state of the task and the state of the task after the replacement -/
structure Rel (e : Env P V) (has : T → O → Prop) (final : New P V O T) (s s' : GAtom P O → Prop) : Prop where
  old : ∀ p : GAtom P O, Old e p.pred → (s' p ↔ s p)
  fits : Fits e has final s'
  rest : ∀ j args, final.length ≤ j → ¬ s' ⟨e.newAxiom j, args⟩
  clean : ∀ p : GAtom P O, ¬ Old e p.pred → ¬ s p

theorem fine_of {has : T → O → Prop} {ts vs : List (V × T)} {c : Cond P V O T} {σ : V → O} (hn : (names ts).Nodup) (hb : ∀ p ∈ c.bound, p ∈ ts) (hv : ∀ p ∈ vs, p ∈ ts) (hs : c.Scoped (names vs)) (ht : ∀ p ∈ vs, has p.2 (σ p.1)) : Fine has ts c σ := by
  refine ⟨fun p hp => lookup_eq hn (hb p hp), fun v hf t hl => ?_⟩
  obtain ⟨t', ht'⟩ := mem_names.mp ((scoped_iff c).mp hs v hf)
  cases (lookup_eq hn (hv _ ht')).symm.trans hl
  exact ht _ ht'

/-- the states before the new axiom `k`, where the new axioms before `k` are added -/
def liftN (e : Env P V) (has : T → O → Prop) (final : New P V O T) (s : GAtom P O → Prop) : Nat → GAtom P O → Prop
  | 0 => s
  | k + 1 => fun p => liftN e has final s k p ∨ ∃ params c, final[k]? = some (params, c) ∧ ∃ σ : V → O, (∀ p ∈ params, has p.2 (σ p.1)) ∧ p = ⟨e.newAxiom k, params.map (fun p => σ p.1)⟩ ∧ c.holds has (liftN e has final s k) σ

section
variable {e : Env P V} {Q Q' : PTask P V O T F} {ar : P → Nat} {fnAr : F → Nat} {final : New P V O T} (hQ : Q.Ok ar fnAr) (hF : Fresh e Q) (R : Removed e ar Q Q' final)

include hF in
theorem liftN_other {has : T → O → Prop} {s : GAtom P O → Prop} {p : GAtom P O} {k : Nat} (h : ∀ j, k ≤ j → p.pred ≠ e.newAxiom j) : ∀ m, k ≤ m → (liftN e has final s m p ↔ liftN e has final s k p) := by
  intro m hm
  induction m, hm using Nat.le_induction with
  | base => rfl
  | succ m hm ih =>
    rw [liftN, ← ih]
    exact or_iff_left fun ⟨params, c, _, σ, _, h2, _⟩ => h m hm (by rw [h2])

omit [DecidableEq V] in
theorem not_old {p : P} (h : ¬ Old e p) : ∃ j, p = e.newAxiom j := by
  unfold Old at h
  push Not at h
  exact h

omit [DecidableEq V] in
theorem old_new {i : Nat} : ¬ Old e (e.newAxiom i) := fun h => h i rfl

theorem take_literal {ar : P → Nat} {has : T → O → Prop} (hg : AllGood e has ar final) {i : Nat} {x : List (V × T) × Cond P V O T} (hx : final[i]? = some x) :
    x.2.Lits (fun n a => Old e a.pred ∨ (n = true ∧ ∃ j, j < i ∧ a.pred = e.newAxiom j)) := by
  refine Lits_mono (fun n a h => ?_) _ (hg i x hx).lits
  rcases h with h | ⟨j, y, h1, h2, h3, _⟩
  · exact .inl h.1
  · rw [List.getElem?_take] at h2
    split at h2
    · rename_i hj
      exact .inr ⟨h1, j, hj, h3⟩
    · simp at h2

include hF R in
theorem rel_up {s : GAtom P O → Prop} (hs : ∀ p : GAtom P O, ¬ Old e p.pred → ¬ s p) : ∃ s', Rel e Q.HasType final s s' := by
  have hfin : ∀ (j m : Nat), m ≤ j → ∀ args, ¬ liftN e Q.HasType final s m ⟨e.newAxiom j, args⟩ := by
    intro j m hm args
    induction m with
    | zero => exact hs _ old_new
    | succ m ih =>
      rintro (h | ⟨params, c, _, σ, _, h2, _⟩)
      · exact ih (by omega) h
      · have := hF.inj _ _ (congrArg GAtom.pred h2)
        omega
  refine ⟨liftN e Q.HasType final s final.length, ?_, ?_, fun j args hj => hfin j _ hj args, hs⟩
  · intro p hp
    exact liftN_other hF (k := 0) (fun j _ => hp j) _ (Nat.zero_le _)
  · intro i params c hi args
    have hlt : i < final.length := (List.getElem?_eq_some_iff.mp hi).1
    have hlits := take_literal R.good hi
    have hsame : ∀ σ : V → O, c.holds Q.HasType (liftN e Q.HasType final s i) σ ↔ c.holds Q.HasType (liftN e Q.HasType final s final.length) σ := by
      intro σ
      have : ∀ n (a : SymAtom P V O) (σ : V → O), (Old e a.pred ∨ (n = true ∧ ∃ j, j < i ∧ a.pred = e.newAxiom j)) → (lits (liftN e Q.HasType final s i) n (a.inst σ) ↔ lits (liftN e Q.HasType final s final.length) n (a.inst σ)) := by
        intro n a σ h
        have : liftN e Q.HasType final s final.length (a.inst σ) ↔ liftN e Q.HasType final s i (a.inst σ) := by
          refine liftN_other hF (fun j hj he => ?_) _ (Nat.le_of_lt hlt)
          rcases h with h | ⟨_, k, hk, h⟩
          · exact h j he
          · have := hF.inj _ _ (h.symm.trans he)
            omega
        cases n <;> simp [lits, this]
      exact sat_congr this c hlits this
    rw [liftN_other hF (k := i + 1) (fun j hj he => by have := hF.inj _ _ he; omega) _ hlt, liftN]
    constructor
    · rintro (h | ⟨params', c', h1, σ, h2, h3, h4⟩)
      · exact absurd h (hfin i i (Nat.le_refl _) args)
      · cases hi.symm.trans h1
        exact ⟨σ, h2, congrArg GAtom.args h3, (hsame σ).mp h4⟩
    · rintro ⟨σ, h2, rfl, h4⟩
      exact .inr ⟨params, c, hi, σ, h2, rfl, (hsame σ).mpr h4⟩

namespace Removed
include R

theorem hasType : Q'.HasType = Q.HasType := by
  funext t o
  simp only [PTask.HasType, R.objects, R.supertypes]

theorem typed {ps : List (V × T)} {σ : V → O} : Q'.Typed ps σ ↔ Q.Typed ps σ := by rw [PTask.Typed, PTask.Typed, R.hasType]

theorem derived_old {p : GAtom P O} (hp : Old e p.pred) : Q'.Derived p ↔ Q.Derived p := by
  obtain ⟨xs', h1, h2⟩ := R.axs
  constructor
  · rintro ⟨x, hx, he⟩
    rw [h2] at hx
    rcases List.mem_append.mp hx with hx | hx
    · obtain ⟨y, hy, c', rfl, _⟩ := forall₂_right h1 x hx
      exact ⟨y, hy, he⟩
    · obtain ⟨i, params, c, _, rfl⟩ := mem_newAxioms.mp hx
      exact absurd he.symm (hp i)
  · rintro ⟨x, hx, he⟩
    obtain ⟨y, hy, c', rfl, _⟩ := forall₂_left h1 x hx
    exact ⟨{ x with cond := c' }, by rw [h2]; exact List.mem_append_left _ hy, he⟩

include hF in
theorem derived_new {i : Nat} {args : List O} : Q'.Derived ⟨e.newAxiom i, args⟩ ↔ i < final.length := by
  obtain ⟨xs', h1, h2⟩ := R.axs
  constructor
  · rintro ⟨x, hx, he⟩
    rw [h2] at hx
    rcases List.mem_append.mp hx with hx | hx
    · obtain ⟨y, hy, c', rfl, _⟩ := forall₂_right h1 x hx
      exact absurd he (hF.axs y hy i)
    · obtain ⟨j, params, c, h3, rfl⟩ := mem_newAxioms.mp hx
      cases hF.inj _ _ he
      exact (List.getElem?_eq_some_iff.mp h3).1
  · intro hi
    exact ⟨⟨e.newAxiom i, final[i].1, final[i].1.length, final[i].2⟩, by rw [h2]; exact List.mem_append_right _ (mem_newAxioms.mpr ⟨i, _, _, List.getElem?_eq_getElem hi, rfl⟩), rfl⟩

omit R in
include hF in
theorem derived_is_old {p : GAtom P O} (h : Q.Derived p) : Old e p.pred := by
  obtain ⟨x, hx, he⟩ := h
  exact he ▸ hF.axs x hx

omit R in
include hQ in
theorem fine_ax {x : PAxiom P V O T} (hx : x ∈ Q.axioms) {σ : V → O} (ht : Q.Typed x.params σ) : Fine Q.HasType x.binders x.cond σ :=
  fine_of (hQ.axiomNames x hx) (fun p hp => List.mem_append_right _ hp) (fun p hp => List.mem_append_left _ hp) (hQ.axiomVars x hx) ht

variable {s s' : GAtom P O → Prop} (hR : Rel e Q.HasType final s s')
include hR

include hF in
/-- what follows in the task also follows after the replacement -/
theorem derives_up (hQ : Q.Ok ar fnAr) {p : GAtom P O} (h : Q.Derives2 s p) : Q'.Derives s' p := by
  obtain ⟨xs', h1, h2⟩ := R.axs
  refine h (Q'.Derives s') fun x hx σ ht hs => ?_
  obtain ⟨y, hy, c', rfl, hc⟩ := forall₂_left h1 x hx
  refine PTask.derives_closed { x with cond := c' } (by rw [h2]; exact List.mem_append_left _ hy) σ (R.typed.mpr ht) ?_
  rw [R.hasType]
  refine ((hc.sat hF.sort hR.old hR.fits (hF.conds _ (ax_mem hx)) σ (fine_ax hQ hx ht) _).2 rfl (Q.ruleLits s (Q'.Derives s')) _ (fun n q hq => ?_) fun i args => Iff.rfl).mpr hs
  cases n with
  | true => exact not_congr (hR.old q hq)
  | false => exact or_congr (and_congr_left' (R.derived_old hq)) (and_congr (not_congr (R.derived_old hq)) (hR.old q hq))

include hF hQ in
/-- what follows after the replacement follows in the task, or is a new atom whose condition is true -/
theorem derives_down (hs : ∀ p, Q.Derived p → Q.Derives2 s p → s p) {p : GAtom P O} (h : Q'.Derives s' p) : (Old e p.pred → Q.Derives2 s p) ∧ (¬ Old e p.pred → s' p) := by
  obtain ⟨xs', h1, h2⟩ := R.axs
  refine h (fun p => (Old e p.pred → Q.Derives2 s p) ∧ (¬ Old e p.pred → s' p)) fun x hx σ ht hsat => ?_
  rw [h2] at hx
  rw [R.hasType] at hsat
  rw [R.typed] at ht
  rcases List.mem_append.mp hx with hx | hx
  · obtain ⟨y, hy, c', rfl, hc⟩ := forall₂_right h1 x hx
    refine ⟨fun _ => PTask.derives2_closed y hy σ ht ?_, fun h => absurd (hF.axs y hy) h⟩
    refine ((hc.sat hF.sort hR.old hR.fits (hF.conds _ (ax_mem hy)) σ (fine_ax hQ hy ht) _).2 rfl _ _ (fun n q hq => ?_) fun i args => Iff.rfl).mp hsat
    cases n with
    | true => exact not_congr (hR.old q hq)
    | false => exact or_congr (and_congr (R.derived_old hq) ⟨fun h => h.1 hq, fun h => ⟨fun _ => h, fun h' => absurd hq h'⟩⟩) (and_congr (not_congr (R.derived_old hq)) (hR.old q hq))
  · obtain ⟨i, params, c, hi, rfl⟩ := mem_newAxioms.mp hx
    refine ⟨fun h => absurd rfl (h i), fun _ => ?_⟩
    refine (hR.fits i params c hi _).mpr ⟨σ, ht, ?_, ?_⟩
    · simp [List.take_length]
    · have key : ∀ n (a : SymAtom P V O) (σ : V → O), (Old e a.pred ∨ (n = true ∧ ∃ j, j < i ∧ a.pred = e.newAxiom j)) → Q'.ruleLits s' (fun p => (Old e p.pred → Q.Derives2 s p) ∧ (¬ Old e p.pred → s' p)) n (a.inst σ) → lits s' n (a.inst σ) := by
        intro n a σ ha h
        cases n with
        | true => exact h
        | false =>
          rcases ha with ha | ⟨ha, _⟩
          · exact h.elim (fun h => (hR.old _ ha).mpr (hs _ ((R.derived_old ha).mp h.1) (h.2.1 ha))) (·.2)
          · simp at ha
      exact sat_imp key c (take_literal R.good hi) key hsat

include hF hQ in
theorem completes_iff {b b' : GAtom P O → Prop} (hb : ∀ p : GAtom P O, Old e p.pred → (b p ↔ b' p)) (hbc : ∀ p : GAtom P O, ¬ Old e p.pred → ¬ b p) (hb' : ∀ j args, final.length ≤ j → ¬ b' ⟨e.newAxiom j, args⟩) :
    Q.Completes2 b s ↔ Q'.Completes b' s' := by
  constructor
  · intro h
    have hold : ∀ p, Old e p.pred → Q'.Derived p → (s' p ↔ Q'.Derives s' p) := by
      intro p hp hd
      rw [hR.old p hp, h.derived p ((R.derived_old hp).mp hd)]
      exact ⟨R.derives_up hF hR hQ, fun h' => (R.derives_down hQ hF hR (fun p hp => (h.derived p hp).mpr) h').1 hp⟩
    refine ⟨fun p hp => ?_, fun p hp => ?_⟩
    · by_cases ho : Old e p.pred
      · rw [hR.old p ho, h.base p fun h' => hp ((R.derived_old ho).mpr h'), hb p ho]
      · obtain ⟨j, hj⟩ := not_old ho
        have : p = ⟨e.newAxiom j, p.args⟩ := by rw [← hj]
        rw [this] at hp ⊢
        have hj' : final.length ≤ j := by rw [R.derived_new hF] at hp; omega
        exact iff_of_false (hR.rest j _ hj') (hb' j _ hj')
    · by_cases ho : Old e p.pred
      · exact hold p ho hp
      · refine ⟨fun hs => ?_, fun h' => (R.derives_down hQ hF hR (fun p hp => (h.derived p hp).mpr) h').2 ho⟩
        obtain ⟨j, hj⟩ := not_old ho
        have hpe : p = ⟨e.newAxiom j, p.args⟩ := by rw [← hj]
        rw [hpe] at hp hs ⊢
        rw [R.derived_new hF] at hp
        obtain ⟨σ, h1, h2, h3⟩ := (hR.fits j _ _ (List.getElem?_eq_getElem hp) _).mp hs
        obtain ⟨xs', _, hax⟩ := R.axs
        have := PTask.derives_closed (Q := Q') (s := s') ⟨e.newAxiom j, final[j].1, final[j].1.length, final[j].2⟩ (by rw [hax]; exact List.mem_append_right _ (mem_newAxioms.mpr ⟨j, _, _, List.getElem?_eq_getElem hp, rfl⟩)) σ (R.typed.mpr h1) ?_
        · rw [PAxiom.head, List.take_length] at this
          rw [h2]
          exact this
        · rw [R.hasType]
          have key : ∀ n (a : SymAtom P V O) (σ : V → O), (Old e a.pred ∨ (n = true ∧ ∃ i, i < j ∧ a.pred = e.newAxiom i)) → lits s' n (a.inst σ) → Q'.ruleLits s' (Q'.Derives s') n (a.inst σ) := by
            intro n a σ ha h
            cases n with
            | true => exact h
            | false =>
              rcases ha with ha | ⟨ha, _⟩
              · by_cases hd : Q'.Derived (a.inst σ)
                · exact .inl ⟨hd, (hold _ ha hd).mp h⟩
                · exact .inr ⟨hd, h⟩
              · simp at ha
          exact sat_imp key _ (take_literal R.good (List.getElem?_eq_getElem hp)) key h3
  · intro h
    refine ⟨fun p hp => ?_, fun p hp => ?_⟩
    · by_cases ho : Old e p.pred
      · rw [← hR.old p ho, h.base p fun h' => hp ((R.derived_old ho).mp h'), hb p ho]
      · exact iff_of_false (hR.clean p ho) (hbc p ho)
    · have ho := derived_is_old hF hp
      rw [← hR.old p ho, h.derived p ((R.derived_old ho).mpr hp)]
      refine ⟨fun h' => (R.derives_down hQ hF hR (fun q hq h' => ?_) h').1 ho, R.derives_up hF hR hQ⟩
      have hqo := derived_is_old hF hq
      exact (hR.old q hqo).mp ((h.derived q ((R.derived_old hqo).mpr hq)).mpr (R.derives_up hF hR hQ h'))

omit hR in
include hF in
theorem rel_down {b' : GAtom P O → Prop} (hb' : ∀ j args, final.length ≤ j → ¬ b' ⟨e.newAxiom j, args⟩) (h : Q'.Completes b' s') : Rel e Q.HasType final (fun p => Old e p.pred ∧ s' p) s' := by
  refine ⟨fun p hp => ⟨fun h => ⟨hp, h⟩, (·.2)⟩, fun i params c hi args => ?_, fun j args hj h' => ?_, fun p hp h => hp h.1⟩
  · have hlt : i < final.length := (List.getElem?_eq_some_iff.mp hi).1
    rw [h.derived _ ((R.derived_new hF).mpr hlt)]
    have hle : ∀ n p, Q'.ruleLits s' (Q'.Derives s') n p → lits s' n p := PTask.le_lits fun p hp => (h.derived p hp).mpr
    have hge : ∀ n p, lits s' n p → Q'.ruleLits s' (Q'.Derives s') n p := PTask.lits_le fun p hp => (h.derived p hp).mp
    obtain ⟨xs', h1, h2⟩ := R.axs
    constructor
    · intro hd
      obtain ⟨x, hx, σ, ht, hs, he⟩ := PTask.derives_cases hd
      rw [h2] at hx
      rcases List.mem_append.mp hx with hx | hx
      · obtain ⟨y, hy, c', rfl, hc⟩ := forall₂_right h1 x hx
        exact absurd (congrArg GAtom.pred he).symm (hF.axs y hy i)
      · obtain ⟨j, params', c', hj, rfl⟩ := mem_newAxioms.mp hx
        cases hF.inj _ _ (congrArg GAtom.pred he)
        cases hi.symm.trans hj
        refine ⟨σ, R.typed.mp ht, ?_, ?_⟩
        · have := congrArg GAtom.args he
          simpa [PAxiom.head] using this
        · rw [R.hasType] at hs
          exact sat_mono hle hle hs
    · rintro ⟨σ, ht, rfl, hs⟩
      have := PTask.derives_closed (Q := Q') (s := s') ⟨e.newAxiom i, params, params.length, c⟩ (by rw [h2]; exact List.mem_append_right _ (mem_newAxioms.mpr ⟨i, _, _, hi, rfl⟩)) σ (R.typed.mpr ht) (by rw [R.hasType]; exact sat_mono hge hge hs)
      rwa [PAxiom.head, List.take_length] at this
  · have hnd : ¬ Q'.Derived ⟨e.newAxiom j, args⟩ := by rw [R.derived_new hF]; omega
    exact hb' j args hj ((h.base _ hnd).mp h')
end Removed
end
end Verif.Normalize
