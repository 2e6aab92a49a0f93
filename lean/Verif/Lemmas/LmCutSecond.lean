import Verif.Lemmas.LmCutIncr

/-
LM-cut: the goal zone and the second exploration; the cut.
-/
namespace Verif.LmCut
open Verif.AdaptiveQueue Verif.Relax

variable {T : LTask}

/-! ### the goal zone -/

/-- number of propositions outside the goal zone -/
def outside (T : LTask) (status : Nat → Status) : Nat := sumN T.numProps (fun q => if status q = .goalZone then 0 else 1)

/-- the goal zone grows, by propositions with property `Φ` -/
structure Grow (Φ : Nat → Prop) (a b : Nat → Status) : Prop where
  keep : ∀ q, a q = .goalZone → b q = .goalZone
  new : ∀ q, b q = a q ∨ (b q = .goalZone ∧ Φ q)

theorem Grow.refl {Φ : Nat → Prop} (a : Nat → Status) : Grow Φ a a := ⟨fun _ h => h, fun _ => Or.inl rfl⟩

theorem Grow.trans {Φ : Nat → Prop} {a b c : Nat → Status} (h : Grow Φ a b) (h' : Grow Φ b c) : Grow Φ a c := by
  refine ⟨fun q hq => h'.keep q (h.keep q hq), fun q => ?_⟩
  rcases h'.new q with e | e
  · rcases h.new q with e' | e'
    · exact Or.inl (e.trans e')
    · exact Or.inr ⟨e.trans e'.1, e'.2⟩
  · exact Or.inr e

theorem Grow.outside {Φ : Nat → Prop} {a b : Nat → Status} (h : Grow Φ a b) : outside T b ≤ outside T a := by
  apply sumN_mono
  intro q _
  by_cases e : a q = .goalZone
  · rw [if_pos (h.keep q e)]; omega
  · rw [if_neg e]; split <;> omega

theorem outside_upd {a : Nat → Status} {p : Nat} (hp : p < T.numProps) (h : a p ≠ .goalZone) : outside T (upd a p .goalZone) < outside T a := by
  unfold outside
  have h1 := sumN_upd hp (fun q => if a q = .goalZone then 0 else 1) 0
  have h2 : sumN T.numProps (fun q => if upd a p .goalZone q = .goalZone then 0 else 1) = sumN T.numProps (upd (fun q => if a q = .goalZone then 0 else 1) p 0) := by
    apply sumN_congr
    intro q _
    simp only [upd]
    by_cases e : q = p
    · simp [e]
    · simp [e]
  rw [h2]
  simp only [if_neg h] at h1
  omega

/-- supporters of free achievers are in the zone -/
def ZoneClosed (T : LTask) (cost : Nat → Nat) (supp : Nat → Option Nat) (status : Nat → Status) (p : Nat) : Prop :=
  ∀ i ∈ T.effectOf p, cost i = 0 → ∀ q, supp i = some q → status q = .goalZone

structure PlateauOk (T : LTask) (cost : Nat → Nat) (supp : Nat → Option Nat) (Φ : Nat → Prop) (a b : Nat → Status) : Prop where
  grow : Grow Φ a b
  closed : ∀ q, b q = .goalZone → a q ≠ .goalZone → ZoneClosed T cost supp b q

theorem PlateauOk.trans {cost : Nat → Nat} {supp : Nat → Option Nat} {Φ : Nat → Prop} {a b c : Nat → Status} (h : PlateauOk T cost supp Φ a b) (h' : PlateauOk T cost supp Φ b c) : PlateauOk T cost supp Φ a c := by
  refine ⟨h.grow.trans h'.grow, fun q hc ha => ?_⟩
  by_cases hb : b q = .goalZone
  · exact fun i hi hz r hr => h'.grow.keep r (h.closed q hb ha i hi hz r hr)
  · exact h'.closed q hc hb

theorem achievers_spec {cost : Nat → Nat} {supp : Nat → Option Nat} {Φ : Nat → Prop} {N : Nat}
    (ih : ∀ p a, outside T a ≤ N → Φ p → ∃ b, markPlateau T cost supp p a = some b ∧ PlateauOk T cost supp Φ a b ∧ b p = .goalZone) :
    ∀ (is : List Nat) (a : Nat → Status), outside T a ≤ N → (∀ i ∈ is, cost i = 0 → ∀ q, supp i = some q → Φ q) →
      ∃ b, markAchievers T cost supp is a = some b ∧ PlateauOk T cost supp Φ a b ∧ ∀ i ∈ is, cost i = 0 → ∀ q, supp i = some q → b q = .goalZone
  | [], a, _, _ => by
    refine ⟨a, by rw [markAchievers], ⟨Grow.refl a, fun q h h' => absurd h h'⟩, by simp⟩
  | i :: is, a, ha, hΦ => by
    have hΦ' : ∀ j ∈ is, cost j = 0 → ∀ q, supp j = some q → Φ q := fun j hj => hΦ j (by simp [hj])
    rw [markAchievers]
    by_cases hz : cost i = 0
    · rw [if_pos hz]
      cases hs : supp i with
      | none =>
        simp only
        obtain ⟨b, k1, k2, k3⟩ := achievers_spec ih is a ha hΦ'
        refine ⟨b, k1, k2, fun j hj hzj q hq => ?_⟩
        rcases List.mem_cons.mp hj with e | e
        · subst e; rw [hs] at hq; simp at hq
        · exact k3 j e hzj q hq
      | some r =>
        simp only
        obtain ⟨b, k1, k2, k3⟩ := ih r a ha (hΦ i (by simp) hz r hs)
        rw [k1]
        obtain ⟨c, j1, j2, j3⟩ := achievers_spec ih is b (Nat.le_trans k2.grow.outside ha) hΦ'
        refine ⟨c, j1, k2.trans j2, fun j hj hzj q hq => ?_⟩
        rcases List.mem_cons.mp hj with e | e
        · subst e
          rw [hs] at hq
          simp only [Option.some.injEq] at hq
          subst hq
          exact j2.grow.keep _ k3
        · exact j3 j e hzj q hq
    · rw [if_neg hz]
      obtain ⟨b, k1, k2, k3⟩ := achievers_spec ih is a ha hΦ'
      refine ⟨b, k1, k2, fun j hj hzj q hq => ?_⟩
      rcases List.mem_cons.mp hj with e | e
      · subst e; exact absurd hzj hz
      · exact k3 j e hzj q hq

theorem plateau_spec {cost : Nat → Nat} {supp : Nat → Option Nat} {Φ : Nat → Prop} (hr : ∀ p, Φ p → p < T.numProps)
    (hstep : ∀ p i q, Φ p → i ∈ T.effectOf p → cost i = 0 → supp i = some q → Φ q) :
    ∀ N p a, outside T a ≤ N → Φ p → ∃ b, markPlateau T cost supp p a = some b ∧ PlateauOk T cost supp Φ a b ∧ b p = .goalZone := by
  intro N
  induction N with
  | zero =>
    intro p a ha hp
    rw [markPlateau]
    have h0 := le_sumN (hr p hp) (fun q => if a q = .goalZone then 0 else 1)
    have hz : a p = .goalZone := by
      by_contra hne
      simp only [if_neg hne] at h0
      unfold outside at ha
      omega
    rw [if_pos hz]
    exact ⟨a, rfl, ⟨Grow.refl a, fun q h h' => absurd h h'⟩, hz⟩
  | succ N ih =>
    intro p a ha hp
    rw [markPlateau]
    by_cases hz : a p = .goalZone
    · rw [if_pos hz]
      exact ⟨a, rfl, ⟨Grow.refl a, fun q h h' => absurd h h'⟩, hz⟩
    · rw [if_neg hz]
      have ho := outside_upd (hr p hp) hz
      obtain ⟨b, k1, k2, k3⟩ := achievers_spec ih (T.effectOf p) (upd a p .goalZone) (by omega) (fun i hi hc q hq => hstep p i q hp hi hc hq)
      have hbp : b p = .goalZone := k2.grow.keep p (by simp [upd])
      refine ⟨b, k1, ⟨⟨?_, ?_⟩, ?_⟩, hbp⟩
      · intro q hq
        apply k2.grow.keep q
        simp only [upd]; split
        · rfl
        · exact hq
      · intro q
        by_cases e : q = p
        · subst e; exact Or.inr ⟨hbp, hp⟩
        · rcases k2.grow.new q with e' | e'
          · left; rw [e']; simp [upd, e]
          · exact Or.inr e'
      · intro q hb hq
        by_cases e : q = p
        · subst e; exact k3
        · exact k2.closed q hb (by simp only [upd, if_neg e]; exact hq)

/-! ### the second exploration -/

/-- the invariant of the second exploration; `done` are the propositions removed from the queue, `rem` the
operators still to be treated for the proposition `p` -/
structure Sec (T : LTask) (F : List Nat) (supp : Nat → Option Nat) (s0 : Nat → Status) (done : List Nat) (p : Nat) (rem : List Nat) (x : Second) : Prop where
  zone : ∀ q, x.status q = .goalZone ↔ s0 q = .goalZone
  status : ∀ q, (x.status q = .beforeGoalZone ∧ s0 q ≠ .unreached) ∨ x.status q = s0 q
  init : ∀ q ∈ F, x.status q = .beforeGoalZone
  before : ∀ q, x.status q = .beforeGoalZone ↔ q ∈ x.stack ∨ q ∈ done
  range : ∀ q, x.status q = .beforeGoalZone → q < T.numProps
  stackNodup : x.stack.Nodup
  doneNodup : done.Nodup
  disj : ∀ q ∈ x.stack, q ∉ done
  proc : ∀ q ∈ done, ∀ i o, T.ops[i]? = some o → supp i = some q → (q = p ∧ i ∈ rem) ∨ i ∈ x.cut ∨ ∀ e ∈ o.eff, x.status e = .beforeGoalZone
  cut : ∀ i ∈ x.cut, ∃ o q, T.ops[i]? = some o ∧ supp i = some q ∧ q ∈ done ∧ (∃ e ∈ o.eff, s0 e = .goalZone) ∧ ¬(q = p ∧ i ∈ rem)
  cutNodup : x.cut.Nodup

theorem pushEffects_spec {F : List Nat} {supp : Nat → Option Nat} {s0 : Nat → Status} {done : List Nat} {p : Nat} {rem : List Nat} :
    ∀ (es : List Nat) (x : Second), Sec T F supp s0 done p rem x → (∀ e ∈ es, e < T.numProps ∧ s0 e ≠ .unreached ∧ s0 e ≠ .goalZone) →
      Sec T F supp s0 done p rem (pushEffects es x) ∧ (∀ e ∈ es, (pushEffects es x).status e = .beforeGoalZone) ∧ (∀ q, x.status q = .beforeGoalZone → (pushEffects es x).status q = .beforeGoalZone) ∧
      (pushEffects es x).cut = x.cut
  | [], x, h, _ => ⟨h, by simp, fun _ h => h, rfl⟩
  | e :: es, x, h, hes => by
    have hes' : ∀ e ∈ es, e < T.numProps ∧ s0 e ≠ .unreached ∧ s0 e ≠ .goalZone := fun a ha => hes a (by simp [ha])
    obtain ⟨e1, e2, e3⟩ := hes e (by simp)
    unfold pushEffects
    by_cases hb : x.status e ≠ .beforeGoalZone
    · rw [if_pos hb]
      have hup : ∀ q, upd x.status e .beforeGoalZone q = .beforeGoalZone ↔ q = e ∨ x.status q = .beforeGoalZone := by
        intro q
        simp only [upd]
        by_cases hq : q = e <;> simp [hq]
      have h1 : Sec T F supp s0 done p rem { x with status := upd x.status e .beforeGoalZone, stack := e :: x.stack } := by
        refine ⟨?_, ?_, ?_, ?_, ?_, ?_, h.doneNodup, ?_, ?_, h.cut, h.cutNodup⟩
        · intro q
          simp only [upd]
          by_cases hq : q = e
          · subst hq; simp [e3]
          · simp only [if_neg hq]; exact h.zone q
        · intro q
          simp only [upd]
          by_cases hq : q = e
          · subst hq; left; simp [e2]
          · simp only [if_neg hq]; exact h.status q
        · intro q hq; exact (hup q).mpr (Or.inr (h.init q hq))
        · intro q
          rw [hup q, h.before q]
          simp only [List.mem_cons]
          exact or_assoc.symm
        · intro q hq
          rcases (hup q).mp hq with e' | e'
          · rw [e']; exact e1
          · exact h.range q e'
        · refine List.nodup_cons.mpr ⟨fun hin => hb ((h.before e).mpr (Or.inl hin)), h.stackNodup⟩
        · intro q hq
          rcases List.mem_cons.mp hq with e' | e'
          · subst e'; exact fun hin => hb ((h.before _).mpr (Or.inr hin))
          · exact h.disj q e'
        · intro q hq i o ho hs
          rcases h.proc q hq i o ho hs with a | a | a
          · exact Or.inl a
          · exact Or.inr (Or.inl a)
          · exact Or.inr (Or.inr (fun e' he' => (hup e').mpr (Or.inr (a e' he'))))
      obtain ⟨k1, k2, k3, k4⟩ := pushEffects_spec es _ h1 hes'
      refine ⟨k1, ?_, fun q hq => k3 q ((hup q).mpr (Or.inr hq)), k4⟩
      intro a ha
      rcases List.mem_cons.mp ha with e' | e'
      · subst e'; exact k3 _ ((hup _).mpr (Or.inl rfl))
      · exact k2 a e'
    · rw [if_neg hb]
      simp only [ne_eq, not_not] at hb
      obtain ⟨k1, k2, k3, k4⟩ := pushEffects_spec es x h hes'
      refine ⟨k1, ?_, k3, k4⟩
      intro a ha
      rcases List.mem_cons.mp ha with e' | e'
      · subst e'; exact k3 _ hb
      · exact k2 a e'

theorem Sec.skip {F : List Nat} {supp : Nat → Option Nat} {s0 : Nat → Status} {done : List Nat} {p i : Nat} {rem : List Nat} {x : Second} (h : Sec T F supp s0 done p (i :: rem) x)
    (hi : ∀ o, T.ops[i]? = some o → supp i = some p → i ∈ x.cut ∨ ∀ e ∈ o.eff, x.status e = .beforeGoalZone) : Sec T F supp s0 done p rem x := by
  refine ⟨h.zone, h.status, h.init, h.before, h.range, h.stackNodup, h.doneNodup, h.disj, ?_, ?_, h.cutNodup⟩
  · intro q hq j o ho hs
    rcases h.proc q hq j o ho hs with ⟨a1, a2⟩ | a
    · rcases List.mem_cons.mp a2 with e | e
      · subst e a1; exact Or.inr (hi o ho hs)
      · exact Or.inl ⟨a1, e⟩
    · exact Or.inr a
  · intro j hj
    obtain ⟨o, q, a1, a2, a3, a4, a5⟩ := h.cut j hj
    exact ⟨o, q, a1, a2, a3, a4, fun hc => a5 ⟨hc.1, List.mem_cons_of_mem _ hc.2⟩⟩

theorem trigger3_spec {F : List Nat} {supp : Nat → Option Nat} {s0 : Nat → Status} {done : List Nat} {p : Nat} (hp : p ∈ done)
    (hsupp : ∀ i o q, T.ops[i]? = some o → supp i = some q → ∀ e ∈ o.eff, e < T.numProps ∧ s0 e ≠ .unreached) :
    ∀ (rem : List Nat) (x : Second), rem.Nodup → (∀ i ∈ rem, ∃ o, T.ops[i]? = some o) → Sec T F supp s0 done p rem x →
      ∃ x', trigger3 T supp p rem x = some x' ∧ Sec T F supp s0 done p [] x'
  | [], x, _, _, h => ⟨x, rfl, h⟩
  | i :: rem, x, hnd, hrem, h => by
    obtain ⟨o, ho⟩ := hrem i (by simp)
    have hrem' : ∀ i ∈ rem, ∃ o, T.ops[i]? = some o := fun j hj => hrem j (by simp [hj])
    obtain ⟨hni, hnd'⟩ := List.nodup_cons.mp hnd
    unfold trigger3
    by_cases hs : supp i = some p
    · rw [if_pos hs, ho]
      simp only
      by_cases hany : o.eff.any (fun e => x.status e = .goalZone) = true
      · rw [if_pos hany]
        simp only [List.any_eq_true, decide_eq_true_eq] at hany
        obtain ⟨e, he, hez⟩ := hany
        have hnc : i ∉ x.cut := by
          intro hin
          obtain ⟨o', q, a1, a2, a3, a4, a5⟩ := h.cut i hin
          rw [hs] at a2
          simp only [Option.some.injEq] at a2
          exact a5 ⟨a2.symm, by simp⟩
        have h1 : Sec T F supp s0 done p rem { x with cut := x.cut ++ [i] } := by
          refine ⟨h.zone, h.status, h.init, h.before, h.range, h.stackNodup, h.doneNodup, h.disj, ?_, ?_, ?_⟩
          · intro q hq j o' hj hsj
            rcases h.proc q hq j o' hj hsj with ⟨a1, a2⟩ | a | a
            · rcases List.mem_cons.mp a2 with e | e
              · subst e; exact Or.inr (Or.inl (by simp))
              · exact Or.inl ⟨a1, e⟩
            · exact Or.inr (Or.inl (by simp [a]))
            · exact Or.inr (Or.inr a)
          · intro j hj
            simp only [List.mem_append, List.mem_singleton] at hj
            rcases hj with hj | hj
            · obtain ⟨o', q, a1, a2, a3, a4, a5⟩ := h.cut j hj
              exact ⟨o', q, a1, a2, a3, a4, fun hc => a5 ⟨hc.1, List.mem_cons_of_mem _ hc.2⟩⟩
            · subst hj
              exact ⟨o, p, ho, hs, hp, ⟨e, he, (h.zone e).mp hez⟩, fun hc => hni hc.2⟩
          · exact List.nodup_append.mpr ⟨h.cutNodup, by simp, fun a ha b hb => by
              simp only [List.mem_singleton] at hb
              subst hb
              exact fun e => hnc (e ▸ ha)⟩
        exact trigger3_spec hp hsupp rem _ hnd' hrem' h1
      · rw [if_neg hany]
        simp only [List.any_eq_true, decide_eq_true_eq, not_exists, not_and] at hany
        obtain ⟨k1, k2, k3, k4⟩ := pushEffects_spec o.eff x h (fun e he => ⟨(hsupp i o p ho hs e he).1, (hsupp i o p ho hs e he).2, fun hz => hany e he ((h.zone e).mpr hz)⟩)
        refine trigger3_spec hp hsupp rem _ hnd' hrem' (k1.skip ?_)
        intro o' ho' _
        rw [ho] at ho'
        simp only [Option.some.injEq] at ho'
        subst ho'
        exact Or.inr k2
    · rw [if_neg hs]
      exact trigger3_spec hp hsupp rem x hnd' hrem' (h.skip (fun _ _ hc => absurd hc hs))

theorem length_le_of_lt {l : List Nat} {n : Nat} (h : l.Nodup) (hl : ∀ q ∈ l, q < n) : l.length ≤ n := by
  have := List.subperm_of_subset h (fun q hq => List.mem_range.mpr (hl q hq) : ∀ q ∈ l, q ∈ List.range n)
  simpa using this.length_le

theorem explore3_spec (hT : LOk T) {F : List Nat} {supp : Nat → Option Nat} {s0 : Nat → Status}
    (hsupp : ∀ i o q, T.ops[i]? = some o → supp i = some q → q ∈ o.pre ∧ ∀ e ∈ o.eff, e < T.numProps ∧ s0 e ≠ .unreached) :
    ∀ (n p : Nat) (done : List Nat) (x : Second), T.numProps - done.length = n → Sec T F supp s0 done p [] x →
      ∃ x' done' p', explore3 T supp x = some x' ∧ x'.stack = [] ∧ Sec T F supp s0 done' p' [] x' := by
  intro n
  induction n using Nat.strong_induction_on with
  | _ n ih =>
    intro p done x hn h
    rw [explore3]
    cases hst : x.stack with
    | nil => simp only; exact ⟨x, done, p, rfl, hst, h⟩
    | cons r ps =>
      simp only
      have hb : ∀ q, x.status q = .beforeGoalZone ↔ q ∈ ps ∨ q ∈ r :: done := by
        intro q
        rw [h.before q, hst]
        simp only [List.mem_cons]
        constructor <;> rintro (a | a) <;> tauto
      have hnd := h.stackNodup
      rw [hst] at hnd
      obtain ⟨hr1, hr2⟩ := List.nodup_cons.mp hnd
      have hrd : r ∉ done := h.disj r (by rw [hst]; simp)
      have h1 : Sec T F supp s0 (r :: done) r (T.precondOf r) { x with stack := ps } := by
        refine ⟨h.zone, h.status, h.init, hb, h.range, hr2, List.nodup_cons.mpr ⟨hrd, h.doneNodup⟩, ?_, ?_, ?_, h.cutNodup⟩
        · intro q hq hin
          rcases List.mem_cons.mp hin with e | e
          · subst e; exact hr1 hq
          · exact h.disj q (by rw [hst]; simp [hq]) e
        · intro q hq i o ho hs
          rcases List.mem_cons.mp hq with e | e
          · subst e; exact Or.inl ⟨rfl, mem_precondOf.mpr ⟨o, ho, (hsupp i o _ ho hs).1⟩⟩
          · rcases h.proc q e i o ho hs with ⟨_, a⟩ | a
            · simp at a
            · exact Or.inr a
        · intro i hi
          obtain ⟨o, q, a1, a2, a3, a4, _⟩ := h.cut i hi
          refine ⟨o, q, a1, a2, List.mem_cons_of_mem _ a3, a4, fun hc => hrd (hc.1 ▸ a3)⟩
      obtain ⟨x1, k1, k2⟩ := trigger3_spec (List.mem_cons_self) (fun i o q ho hs => (hsupp i o q ho hs).2) (T.precondOf r) _ (nodup_precondOf hT.nodup r) (fun i hi => by
        obtain ⟨o, ho, _⟩ := mem_precondOf.mp hi
        exact ⟨o, ho⟩) h1
      rw [k1]
      simp only
      have hlen : (r :: done).length ≤ T.numProps := length_le_of_lt h1.doneNodup (fun q hq => h1.range q ((h1.before q).mpr (Or.inr hq)))
      simp only [List.length_cons] at hlen
      exact ih (T.numProps - (r :: done).length) (by simp only [List.length_cons]; omega) r (r :: done) x1 rfl k2

theorem startSecond_spec {supp : Nat → Option Nat} {s0 : Nat → Status} : ∀ (F F' : List Nat) (x : Second), (F' ++ F).Nodup → (∀ q ∈ F' ++ F, q < T.numProps ∧ s0 q ≠ .unreached ∧ s0 q ≠ .goalZone) → x.cut = [] →
    (∀ q ∈ x.stack, q ∈ F') → (∀ q, x.status q = .beforeGoalZone ↔ q ∈ F') → (∀ q ∈ F', q ∈ x.stack) → x.stack.Nodup → (∀ q, q ∉ F' → x.status q = s0 q) →
    Sec T (F' ++ F) supp s0 [] 0 [] (startSecond F x)
  | [], F', x, hnd, hF, hc, h1, h2, h3, h4, h5 => by
    rw [List.append_nil] at hF ⊢
    refine ⟨?_, ?_, fun q hq => (h2 q).mpr hq, ?_, fun q hq => (hF q ((h2 q).mp hq)).1, h4, by simp, by simp, by simp, ?_, ?_⟩
    · intro q
      by_cases e : q ∈ F'
      · have := (h2 q).mpr e
        show x.status q = _ ↔ _
        rw [this]; simp [(hF q e).2.2]
      · show x.status q = _ ↔ _
        rw [h5 q e]
    · intro q
      by_cases e : q ∈ F'
      · exact Or.inl ⟨(h2 q).mpr e, (hF q e).2.1⟩
      · exact Or.inr (h5 q e)
    · intro q
      show x.status q = _ ↔ q ∈ x.stack ∨ q ∈ []
      rw [h2 q]
      simp only [List.not_mem_nil, or_false]
      exact ⟨h3 q, h1 q⟩
    · show ∀ i ∈ x.cut, _
      rw [hc]; simp
    · show x.cut.Nodup
      rw [hc]; simp
  | p :: F, F', x, hnd, hF, hc, h1, h2, h3, h4, h5 => by
    have hnp : p ∉ F' := by
      have := (List.nodup_append.mp hnd).2.2
      exact fun hin => this p hin p (by simp) rfl
    have := startSecond_spec (supp := supp) (s0 := s0) F (F' ++ [p]) { x with status := upd x.status p .beforeGoalZone, stack := p :: x.stack } (by simpa using hnd) (by simpa using hF) hc
      (by
        intro q hq
        rcases List.mem_cons.mp hq with e | e
        · simp [e]
        · simp [h1 q e])
      (by
        intro q
        simp only [upd, List.mem_append, List.mem_singleton]
        by_cases e : q = p
        · simp [e]
        · simp [e, h2 q])
      (by
        intro q hq
        simp only [List.mem_append, List.mem_singleton] at hq
        simp only [List.mem_cons]
        exact hq.elim (fun h => Or.inr (h3 q h)) Or.inl)
      (List.nodup_cons.mpr ⟨fun hin => hnp (h1 p hin), h4⟩)
      (by
        intro q hq
        simp only [List.mem_append, List.mem_singleton, not_or] at hq
        simp only [upd, if_neg hq.2]
        exact h5 q hq.1)
    simpa [startSecond] using this

/-! ### the cut -/

/-- `p` can be reached with the operators in `R` -/
inductive LReach (T : LTask) (R : Nat → Prop) (F : List Nat) : Nat → Prop where
  | init (p) : p ∈ F → LReach T R F p
  | op (i o e) : T.ops[i]? = some o → R i → (∀ q ∈ o.pre, LReach T R F q) → e ∈ o.eff → LReach T R F e

theorem Stable.reached {c : Nat → Nat} {F : List Nat} {st : St} (h : Stable T c F st) {R : Nat → Prop} {p : Nat} (hp : LReach T R F p) : st.Reached p := by
  induction hp with
  | init p hp => exact (h.init p hp).1
  | op i o e ho _ _ he ih =>
    obtain ⟨q, hq⟩ := Option.ne_none_iff_exists'.mp (h.full i o ho ih)
    exact ((h.supp i o q ho hq).2.2.2.1 e he).1

theorem LLe.reach {c : Nat → Nat} {F : List Nat} {p n : Nat} (h : LLe T c F p n) : LReach T (fun _ => True) F p := by
  induction h with
  | init p n h => exact .init p h
  | op i o m e n h1 _ h3 _ ih => exact .op i o e h1 trivial ih h3

theorem Stable.reached_iff {c : Nat → Nat} {F : List Nat} {st : St} (h : Stable T c F st) (p : Nat) : st.Reached p ↔ LReach T (fun _ => True) F p :=
  ⟨fun hr => (h.sound p hr).reach, h.reached⟩

/-- h^max costs are exact -/
theorem Stable.le {c : Nat → Nat} {F : List Nat} {st : St} (h : Stable T c F st) {p n : Nat} (hp : LLe T c F p n) : st.h p ≤ n := by
  induction hp with
  | init p n hp => rw [(h.init p hp).2]; omega
  | op i o m e n ho hpre he hle ih =>
    obtain ⟨q, hq⟩ := Option.ne_none_iff_exists'.mp (h.full i o ho (fun r hr => h.reached (hpre r hr).reach))
    obtain ⟨a1, _, _, a4, _⟩ := h.supp i o q ho hq
    have h1 := (a4 e he).2
    have h2 := ih q a1
    omega

/-- what one round finds -/
structure CutOk (T : LTask) (c : Nat → Nat) (F : List Nat) (st : St) (x : Second) : Prop where
  nodup : x.cut.Nodup
  supp : ∀ i ∈ x.cut, ∃ o q, T.ops[i]? = some o ∧ st.supp i = some q
  pos : ∀ i ∈ x.cut, 0 < c i
  over : ∀ i ∈ x.cut, ∀ q, st.supp i = some q → st.h T.artGoal ≤ st.h q + c i
  landmark : ∀ R : Nat → Prop, LReach T R F T.artGoal → ∃ i ∈ x.cut, R i
  status : ∀ q, x.status q = .unreached ↔ st.status q = .unreached

theorem second_spec (hT : LOk T) {c : Nat → Nat} {facts : List Nat} {st : St} (h : Stable T c (facts ++ [T.artPre]) st) (hnd : (facts ++ [T.artPre]).Nodup) (hs : ∀ q, st.status q = .unreached ∨ st.status q = .reached)
    (hg : st.Reached T.artGoal) (hpos : st.h T.artGoal ≠ 0) :
    ∃ status x, markPlateau T st.cost st.supp T.artGoal st.status = some status ∧ second T facts st.supp status = some x ∧ CutOk T c (facts ++ [T.artPre]) st x := by
  have hcost : st.cost = c := h.cost
  obtain ⟨status, k1, k2, k3⟩ := plateau_spec (T := T) (cost := st.cost) (supp := st.supp) (Φ := fun q => st.Reached q ∧ st.h T.artGoal ≤ st.h q) (fun p hp => h.range p hp.1)
    (by
      intro p i q hp hi hz hq
      obtain ⟨o, ho, hpe⟩ := mem_effectOf.mp hi
      obtain ⟨a1, _, a3, a4, _⟩ := h.supp i o q ho hq
      refine ⟨(a3 q a1).1, ?_⟩
      have h1 := (a4 p hpe).2
      rw [hcost] at hz
      have h2 := hp.2
      omega) _ T.artGoal st.status (Nat.le_refl _) ⟨hg, Nat.le_refl _⟩
  have hzone : ∀ q, status q = .goalZone → st.Reached q ∧ st.h T.artGoal ≤ st.h q := by
    intro q hq
    rcases k2.grow.new q with e | e
    · rw [hq] at e
      rcases hs q with e' | e' <;> rw [e'] at e <;> simp at e
    · exact e.2
  have hclosed : ∀ q, status q = .goalZone → ZoneClosed T st.cost st.supp status q := by
    intro q hq
    apply k2.closed q hq
    rcases hs q with e' | e' <;> rw [e'] <;> simp
  have hun : ∀ q, status q = .unreached ↔ st.status q = .unreached := by
    intro q
    rcases k2.grow.new q with e | e
    · rw [e]
    · rw [e.1]
      exact ⟨fun h => by simp at h, fun h => absurd h e.2.1⟩
  have hF : ∀ q ∈ facts ++ [T.artPre], q < T.numProps ∧ status q ≠ .unreached ∧ status q ≠ .goalZone := by
    intro q hq
    obtain ⟨a1, a2⟩ := h.init q hq
    refine ⟨h.range q a1, fun e => a1 ((hun q).mp e), fun e => ?_⟩
    have := (hzone q e).2
    omega
  have hperm : (T.artPre :: facts).Perm (facts ++ [T.artPre]) := (List.perm_append_comm (l₁ := [T.artPre]) (l₂ := facts))
  have hF' : ∀ q ∈ ([] : List Nat) ++ (T.artPre :: facts), q < T.numProps ∧ status q ≠ .unreached ∧ status q ≠ .goalZone := fun q hq => hF q (hperm.subset hq)
  have hnb : ∀ q, status q ≠ .beforeGoalZone := by
    intro q e
    rcases k2.grow.new q with e' | e'
    · rw [e] at e'
      rcases hs q with a | a <;> rw [a] at e' <;> simp at e'
    · rw [e'.1] at e; simp at e
  have hstart := startSecond_spec (T := T) (supp := st.supp) (s0 := status) (T.artPre :: facts) [] ⟨status, [], []⟩ (by simpa using hperm.nodup_iff.mpr hnd) hF' rfl (by simp) (by simpa using hnb) (by simp) (by simp) (by simp)
  simp only [List.nil_append] at hstart
  have hsup : ∀ i o q, T.ops[i]? = some o → st.supp i = some q → q ∈ o.pre ∧ ∀ e ∈ o.eff, e < T.numProps ∧ status e ≠ .unreached := by
    intro i o q ho hq
    obtain ⟨a1, _, _, a4, _⟩ := h.supp i o q ho hq
    refine ⟨a1, fun e he => ⟨h.range e (a4 e he).1, fun hu => (a4 e he).1 ((hun e).mp hu)⟩⟩
  obtain ⟨x, done, p, j1, j2, j3⟩ := explore3_spec hT hsup _ 0 [] _ rfl hstart
  refine ⟨status, x, k1, j1, j3.cutNodup, ?_, ?_, ?_, ?_, ?_⟩
  · intro i hi
    obtain ⟨o, q, a1, a2, _⟩ := j3.cut i hi
    exact ⟨o, q, a1, a2⟩
  · intro i hi
    obtain ⟨o, q, a1, a2, a3, ⟨e, he, hez⟩, _⟩ := j3.cut i hi
    by_contra hz
    have hq := hclosed e hez i (mem_effectOf.mpr ⟨o, a1, he⟩) (by rw [hcost]; omega) q a2
    have hb := (j3.before q).mpr (Or.inr a3)
    have := (j3.zone q).mpr hq
    rw [hb] at this
    simp at this
  · intro i hi q hq
    obtain ⟨o, q', a1, a2, a3, ⟨e, he, hez⟩, _⟩ := j3.cut i hi
    rw [hq] at a2
    simp only [Option.some.injEq] at a2
    subst a2
    have h1 := (hzone e hez).2
    have h2 := ((h.supp i o q a1 hq).2.2.2.1 e he).2
    omega
  · intro R hR
    by_contra hno
    simp only [not_exists, not_and] at hno
    have hall : ∀ p, LReach T R (facts ++ [T.artPre]) p → x.status p = .beforeGoalZone := by
      intro p hp
      induction hp with
      | init p hp => exact j3.init p (hperm.symm.subset hp)
      | op i o e ho hRi hpre he ih =>
        obtain ⟨q, hq⟩ := Option.ne_none_iff_exists'.mp (h.full i o ho (fun r hr => h.reached (hpre r hr)))
        have hqb := ih q (h.supp i o q ho hq).1
        have hqd : q ∈ done := by
          rcases (j3.before q).mp hqb with a | a
          · rw [j2] at a; simp at a
          · exact a
        rcases j3.proc q hqd i o ho hq with a | a | a
        · simp at a
        · exact absurd hRi (hno i a)
        · exact a e he
    have h1 := hall _ hR
    have h2 := (j3.zone T.artGoal).mpr k3
    rw [h1] at h2
    simp at h2
  · intro q
    rcases j3.status q with ⟨a, b⟩ | a
    · rw [a]
      exact ⟨fun e => by simp at e, fun e => absurd ((hun q).mpr e) b⟩
    · rw [a]; exact hun q

end Verif.LmCut
