import Verif.Lemmas.LmCutExplore

/-
LM-cut: the incremental exploration after operators have become cheaper.
-/
namespace Verif.LmCut
open Verif.AdaptiveQueue Verif.Relax

variable {T : LTask} (H : StdHeap Nat)

theorem rep_virtual {q : Queue Nat} {bag : List (Entry Nat)} (h : Rep q bag) (n : Int) : Rep (q.addVirtualPushes n) bag := by
  cases q with
  | bucket b => exact h
  | heap c => exact h

/-- the invariant; the operators in `pend` have effects that have not been updated, those in `rem` are still to be
treated for the proposition `p`, whose cost was `k` when it was removed from the queue -/
structure Incr (T : LTask) (c : Nat → Nat) (F : List Nat) (pend : List Nat) (p k : Nat) (rem : List Nat) (bag : List (Entry Nat)) (st : St) : Prop where
  rep : Rep st.queue bag
  cost : st.cost = c
  range : ∀ q, st.Reached q → q < T.numProps
  entry : ∀ k q, (k, q) ∈ bag → st.Reached q ∧ st.h q ≤ k
  sound : ∀ q, st.Reached q → LLe T c F q (st.h q)
  init : ∀ q ∈ F, st.Reached q ∧ st.h q = 0
  supp : ∀ i o q, T.ops[i]? = some o → st.supp i = some q → q ∈ o.pre ∧ (∀ r ∈ o.pre, st.Reached r ∧ st.h r ≤ st.suppCost i) ∧
    (st.h q < st.suppCost i → (st.h q, q) ∈ bag ∨ (q = p ∧ i ∈ rem)) ∧ (∀ e ∈ o.eff, st.Reached e) ∧ st.suppCost i + c i < 2 ^ 31
  eff : ∀ i o, T.ops[i]? = some o → st.supp i ≠ none → i ∉ pend → ∀ e ∈ o.eff, st.h e ≤ st.suppCost i + c i
  full : ∀ i o, T.ops[i]? = some o → (∀ r ∈ o.pre, st.Reached r) → st.supp i ≠ none
  cur : rem ≠ [] → st.h p = k ∨ (st.h p, p) ∈ bag

/-- decreases with each iteration -/
def measure (T : LTask) (bag : List (Entry Nat)) (st : St) : Nat := 2 * sumN T.numProps st.h + bag.length

/-- costs only decrease -/
structure Less (st st' : St) : Prop where
  reach : ∀ q, st'.Reached q ↔ st.Reached q
  le : ∀ q, st'.h q ≤ st.h q
  supp : st'.supp = st.supp
  suppCost : st'.suppCost = st.suppCost

theorem Less.refl (st : St) : Less st st := ⟨fun _ => Iff.rfl, fun _ => Nat.le_refl _, rfl, rfl⟩
theorem Less.trans {a b c : St} (h : Less a b) (h' : Less b c) : Less a c :=
  ⟨fun q => (h'.reach q).trans (h.reach q), fun q => Nat.le_trans (h'.le q) (h.le q), h'.supp.trans h.supp, h'.suppCost.trans h.suppCost⟩

theorem enqueue_incr {c : Nat → Nat} {F pend rem : List Nat} {p0 k0 : Nat} {bag : List (Entry Nat)} {st : St} (h : Incr T c F pend p0 k0 rem bag st) {p k : Nat} (hr : st.Reached p) (hs : LLe T c F p k) :
    ∃ st' bag', st.enqueue H T p k = some st' ∧ Incr T c F pend p0 k0 rem bag' st' ∧ Less st st' ∧ st'.h p ≤ k ∧ measure T bag' st' ≤ measure T bag st := by
  rcases enqueue_spec H h.rep (p := p) (c := k) (h.range p hr) with ⟨h1, _, h3⟩ | ⟨q, h1, h2, h3⟩
  · exact ⟨st, bag, h1, h, Less.refl st, h3, Nat.le_refl _⟩
  · have hlt := h3 hr
    have hiff : ∀ r, St.Reached { st with status := upd st.status p .reached, h := upd st.h p k, queue := q } r ↔ st.Reached r := by
      intro r
      rw [reached_upd]
      exact ⟨fun e => e.elim (fun e => e ▸ hr) id, Or.inr⟩
    have hle : ∀ r, upd st.h p k r ≤ st.h r := by
      intro r
      simp only [upd]
      split
      · rename_i e; subst e; omega
      · exact Nat.le_refl _
    have hsame : ∀ r, (upd st.h p k r = st.h r ∧ r ≠ p) ∨ (r = p ∧ upd st.h p k r = k) := by
      intro r
      simp only [upd]
      split
      · rename_i e; exact Or.inr ⟨e, rfl⟩
      · rename_i e; exact Or.inl ⟨rfl, e⟩
    refine ⟨_, (k, p) :: bag, h1, ?_, ⟨hiff, hle, rfl, rfl⟩, by simp [upd], ?_⟩
    · refine ⟨h2, h.cost, fun r hr' => h.range r ((hiff r).mp hr'), ?_, ?_, ?_, ?_, ?_, ?_, ?_⟩
      · intro k' r hk
        rw [hiff]
        rcases List.mem_cons.mp hk with e | e
        · simp only [Prod.mk.injEq] at e
          obtain ⟨rfl, rfl⟩ := e
          exact ⟨hr, by simp [upd]⟩
        · obtain ⟨e1, e2⟩ := h.entry k' r e
          exact ⟨e1, Nat.le_trans (hle r) e2⟩
      · intro r hr'
        show LLe T c F r (upd st.h p k r)
        rcases hsame r with ⟨e, _⟩ | ⟨e1, e2⟩
        · rw [e]; exact h.sound r ((hiff r).mp hr')
        · rw [e2, e1]; exact hs
      · intro r hr'
        obtain ⟨e1, e2⟩ := h.init r hr'
        refine ⟨(hiff r).mpr e1, ?_⟩
        have := hle r
        show upd st.h p k r = 0
        omega
      · intro i o r ho hsr
        obtain ⟨e1, e2, e3, e4, e5⟩ := h.supp i o r ho hsr
        refine ⟨e1, fun x hx => ⟨(hiff x).mpr (e2 x hx).1, Nat.le_trans (hle x) (e2 x hx).2⟩, ?_, fun x hx => (hiff x).mpr (e4 x hx), e5⟩
        show upd st.h p k r < st.suppCost i → (upd st.h p k r, r) ∈ (k, p) :: bag ∨ _
        rcases hsame r with ⟨e, _⟩ | ⟨e6, e7⟩
        · rw [e]
          intro hl
          exact (e3 hl).imp (List.mem_cons_of_mem _) id
        · rw [e7, e6]; intro _; exact Or.inl (by simp)
      · intro i o ho hsn hp x hx
        exact Nat.le_trans (hle x) (h.eff i o ho hsn hp x hx)
      · intro i o ho hall
        exact h.full i o ho (fun r hr' => (hiff r).mp (hall r hr'))
      · intro hrem
        show upd st.h p k p0 = k0 ∨ (upd st.h p k p0, p0) ∈ (k, p) :: bag
        rcases hsame p0 with ⟨e, _⟩ | ⟨e6, e7⟩
        · rw [e]; exact (h.cur hrem).imp id (List.mem_cons_of_mem _)
        · right; rw [e7, e6]; simp
    · unfold measure
      have := sumN_upd (h.range p hr) st.h k
      simp only [List.length_cons]
      omega

theorem enqueueAll_incr {c : Nat → Nat} {F pend rem : List Nat} {p0 k0 k : Nat} : ∀ (ps : List Nat) (bag : List (Entry Nat)) (st : St), Incr T c F pend p0 k0 rem bag st → (∀ p ∈ ps, st.Reached p ∧ LLe T c F p k) →
    ∃ st' bag', St.enqueueAll H T k ps st = some st' ∧ Incr T c F pend p0 k0 rem bag' st' ∧ Less st st' ∧ (∀ p ∈ ps, st'.h p ≤ k) ∧ measure T bag' st' ≤ measure T bag st
  | [], bag, st, h, _ => ⟨st, bag, rfl, h, Less.refl st, by simp, Nat.le_refl _⟩
  | p :: ps, bag, st, h, hps => by
    obtain ⟨h1, h2⟩ := hps p (by simp)
    obtain ⟨st1, bag1, k1, k2, k3, k4, k5⟩ := enqueue_incr H h h1 h2
    obtain ⟨st2, bag2, j1, j2, j3, j4, j5⟩ := enqueueAll_incr ps bag1 st1 k2 (fun q hq => ⟨(k3.reach q).mpr (hps q (by simp [hq])).1, (hps q (by simp [hq])).2⟩)
    refine ⟨st2, bag2, ?_, j2, k3.trans j3, ?_, Nat.le_trans j5 k5⟩
    · unfold St.enqueueAll; rw [k1]; exact j1
    · intro q hq
      rcases List.mem_cons.mp hq with e | e
      · subst e; exact Nat.le_trans (j3.le _) k4
      · exact j4 q e

/-- the effects of an operator that have been updated -/
theorem Incr.unpend {c : Nat → Nat} {F pend rem : List Nat} {p0 k0 i : Nat} {bag : List (Entry Nat)} {st : St} (h : Incr T c F (i :: pend) p0 k0 rem bag st)
    (he : ∀ o, T.ops[i]? = some o → ∀ e ∈ o.eff, st.h e ≤ st.suppCost i + c i) : Incr T c F pend p0 k0 rem bag st := by
  refine ⟨h.rep, h.cost, h.range, h.entry, h.sound, h.init, h.supp, ?_, h.full, h.cur⟩
  intro j o ho hsn hj
  by_cases e : j = i
  · subst e; exact he o ho
  · exact h.eff j o ho hsn (by simp [e, hj])

theorem Incr.pend_mono {c : Nat → Nat} {F pend pend' rem : List Nat} {p0 k0 : Nat} {bag : List (Entry Nat)} {st : St} (h : Incr T c F pend p0 k0 rem bag st) (hp : ∀ i ∈ pend, i ∈ pend') :
    Incr T c F pend' p0 k0 rem bag st :=
  ⟨h.rep, h.cost, h.range, h.entry, h.sound, h.init, h.supp, fun j o ho hsn hj => h.eff j o ho hsn (fun hin => hj (hp j hin)), h.full, h.cur⟩

/-- the effects of a supported operator are derivable -/
theorem Incr.der {c : Nat → Nat} {F pend rem : List Nat} {p0 k0 : Nat} {bag : List (Entry Nat)} {st : St} (h : Incr T c F pend p0 k0 rem bag st) {i : Nat} {o : ROp} (ho : T.ops[i]? = some o)
    (hr : ∀ r ∈ o.pre, st.Reached r) {m : Nat} (hm : ∀ r ∈ o.pre, st.h r ≤ m) : ∀ e ∈ o.eff, LLe T c F e (m + c i) :=
  fun e he => .op i o m e _ ho (fun q hq => (h.sound q (hr q hq)).mono (hm q hq)) he (Nat.le_refl _)

theorem enqueueCut_spec {c : Nat → Nat} {F : List Nat} {p0 k0 : Nat} : ∀ (cut : List Nat) (bag : List (Entry Nat)) (st : St), Incr T c F cut p0 k0 [] bag st → (∀ i ∈ cut, ∃ o q, T.ops[i]? = some o ∧ st.supp i = some q) →
    ∃ st' bag', enqueueCut H T cut st = some st' ∧ Incr T c F [] p0 k0 [] bag' st' ∧ Less st st'
  | [], bag, st, h, _ => ⟨st, bag, rfl, h, Less.refl st⟩
  | i :: cut, bag, st, h, hcut => by
    obtain ⟨o, q, ho, hq⟩ := hcut i (by simp)
    obtain ⟨e1, e2, _, e4, e5⟩ := h.supp i o q ho hq
    unfold enqueueCut
    rw [ho]
    simp only
    have hci : st.cost i = c i := by rw [h.cost]
    rw [hci, if_pos e5]
    obtain ⟨st1, bag1, k1, k2, k3, k4, _⟩ := enqueueAll_incr H (k := st.suppCost i + c i) o.eff bag st h (fun e he => ⟨e4 e he, h.der ho (fun r hr => (e2 r hr).1) (fun r hr => (e2 r hr).2) e he⟩)
    rw [k1]
    simp only
    have h1 : Incr T c F cut p0 k0 [] bag1 st1 := k2.unpend (fun o' ho' e he => by
      rw [ho] at ho'
      simp only [Option.some.injEq] at ho'
      subst ho'
      rw [k3.suppCost]; exact k4 e he)
    obtain ⟨st2, bag2, j1, j2, j3⟩ := enqueueCut_spec cut bag1 st1 h1 (fun j hj => by
      obtain ⟨o', q', a, b⟩ := hcut j (by simp [hj])
      exact ⟨o', q', a, by rw [k3.supp]; exact b⟩)
    exact ⟨st2, bag2, j1, j2, k3.trans j3⟩

theorem newSupporter_spec (h : Nat → Nat) : ∀ (pre : List Nat) (q : Nat), (newSupporter h q pre = q ∨ newSupporter h q pre ∈ pre) ∧ h q ≤ h (newSupporter h q pre) ∧ ∀ r ∈ pre, h r ≤ h (newSupporter h q pre)
  | [], q => ⟨Or.inl rfl, Nat.le_refl _, by simp⟩
  | r :: pre, q => by
    unfold newSupporter
    simp only [List.foldl_cons]
    by_cases hgt : h r > h q
    · rw [if_pos hgt]
      obtain ⟨a, b, c⟩ := newSupporter_spec h pre r
      unfold newSupporter at a b c
      refine ⟨Or.inr ?_, by omega, ?_⟩
      · rcases a with a | a
        · rw [a]; simp
        · exact List.mem_cons_of_mem _ a
      · intro x hx
        rcases List.mem_cons.mp hx with e | e
        · rw [e]; exact b
        · exact c x e
    · rw [if_neg hgt]
      obtain ⟨a, b, c⟩ := newSupporter_spec h pre q
      unfold newSupporter at a b c
      refine ⟨a.imp id (List.mem_cons_of_mem _), b, ?_⟩
      intro x hx
      rcases List.mem_cons.mp hx with e | e
      · rw [e]; omega
      · exact c x e

theorem trigger2_spec {c : Nat → Nat} {F : List Nat} {p k : Nat} : ∀ (rem : List Nat) (bag : List (Entry Nat)) (st : St), (∀ i ∈ rem, ∃ o, T.ops[i]? = some o ∧ p ∈ o.pre) → Incr T c F [] p k rem bag st →
    ∃ st' bag', trigger2 H T p k rem st = some st' ∧ Incr T c F [] p k [] bag' st' ∧ (∀ q, st'.Reached q ↔ st.Reached q) ∧ measure T bag' st' ≤ measure T bag st
  | [], bag, st, _, h => ⟨st, bag, rfl, h, fun _ => Iff.rfl, Nat.le_refl _⟩
  | i :: rem, bag, st, hrem, h => by
    obtain ⟨o, ho, hpo⟩ := hrem i (by simp)
    have hrem' : ∀ j ∈ rem, ∃ o, T.ops[j]? = some o ∧ p ∈ o.pre := fun j hj => hrem j (by simp [hj])
    unfold trigger2
    rw [ho]
    simp only
    by_cases hs : st.supp i = some p ∧ st.suppCost i > k
    · rw [if_pos hs]
      obtain ⟨n1, n2, n3⟩ := newSupporter_spec st.h o.pre p
      obtain ⟨s, hsdef⟩ : ∃ s, s = newSupporter st.h p o.pre := ⟨_, rfl⟩
      rw [← hsdef] at n1 n2 n3 ⊢
      obtain ⟨_, e2, _, e4, e5⟩ := h.supp i o p ho hs.1
      have hsp : s ∈ o.pre := n1.elim (fun e => e ▸ hpo) id
      have hsle : st.h s ≤ st.suppCost i := (e2 s hsp).2
      -- the state with the new supporter; the effects of `i` are pending
      have h1 : Incr T c F [i] p k rem bag { st with supp := upd st.supp i (some s), suppCost := upd st.suppCost i (st.h s) } := by
        refine ⟨h.rep, h.cost, h.range, h.entry, h.sound, h.init, ?_, ?_, ?_, fun _ => h.cur (by simp)⟩
        · intro j o' q hj hq
          simp only [upd] at hq ⊢
          by_cases e : j = i
          · subst e
            rw [ho] at hj
            simp only [Option.some.injEq] at hj
            subst hj
            simp only [if_true, Option.some.injEq] at hq ⊢
            subst hq
            exact ⟨hsp, fun r hr => ⟨(e2 r hr).1, n3 r hr⟩, fun hl => absurd hl (Nat.lt_irrefl _), e4, by omega⟩
          · simp only [if_neg e] at hq ⊢
            obtain ⟨a1, a2, a3, a4, a5⟩ := h.supp j o' q hj hq
            refine ⟨a1, a2, fun hl => ?_, a4, a5⟩
            rcases a3 hl with b | ⟨b1, b2⟩
            · exact Or.inl b
            · refine Or.inr ⟨b1, ?_⟩
              rcases List.mem_cons.mp b2 with b | b
              · exact absurd b e
              · exact b
        · intro j o' hj hsn hj' x hx
          have e : j ≠ i := by simpa using hj'
          simp only [upd, if_neg e] at hsn ⊢
          exact h.eff j o' hj hsn (by simp) x hx
        · intro j o' hj hall
          simp only [upd]
          split
          · simp
          · exact h.full j o' hj hall
      by_cases hne : st.h s ≠ st.suppCost i
      · rw [if_pos hne]
        have hci : st.cost i = c i := by rw [h.cost]
        rw [hci, if_pos (by omega)]
        obtain ⟨st1, bag1, k1, k2, k3, k4, k5⟩ := enqueueAll_incr H (k := st.h s + c i) o.eff bag _ h1 (fun e he => ⟨e4 e he, h.der ho (fun r hr => (e2 r hr).1) n3 e he⟩)
        rw [k1]
        simp only
        have h2 : Incr T c F [] p k rem bag1 st1 := k2.unpend (fun o' ho' e he => by
          rw [ho] at ho'
          simp only [Option.some.injEq] at ho'
          subst ho'
          rw [k3.suppCost]; simpa [upd] using k4 e he)
        obtain ⟨st2, bag2, j1, j2, j3, j4⟩ := trigger2_spec rem bag1 st1 hrem' h2
        refine ⟨st2, bag2, j1, j2, fun q => (j3 q).trans (k3.reach q), Nat.le_trans j4 k5⟩
      · rw [if_neg hne]
        have heq : st.h s = st.suppCost i := by omega
        have h2 := h1.unpend (fun o' ho' e he => by
          have := h.eff i o' ho' (by rw [hs.1]; simp) (by simp) e he
          simp only [upd, if_true]; omega)
        obtain ⟨st2, bag2, j1, j2, j3, j4⟩ := trigger2_spec rem bag _ hrem' h2
        exact ⟨st2, bag2, j1, j2, j3, j4⟩
    · rw [if_neg hs]
      have h1 : Incr T c F [] p k rem bag st := by
        refine ⟨h.rep, h.cost, h.range, h.entry, h.sound, h.init, ?_, h.eff, h.full, fun _ => h.cur (by simp)⟩
        intro j o' q hj hq
        obtain ⟨a1, a2, a3, a4, a5⟩ := h.supp j o' q hj hq
        refine ⟨a1, a2, fun hl => ?_, a4, a5⟩
        rcases a3 hl with b | ⟨b1, b2⟩
        · exact Or.inl b
        · rcases List.mem_cons.mp b2 with b | b
          · subst b b1
            have hle : ¬st.suppCost j > k := fun hgt => hs ⟨hq, hgt⟩
            rcases h.cur (by simp) with e | e
            · omega
            · exact Or.inl e
          · exact Or.inr ⟨b1, b⟩
      exact trigger2_spec rem bag st hrem' h1

theorem explore2_spec {c : Nat → Nat} {F : List Nat} : ∀ (n p k : Nat) (bag : List (Entry Nat)) (st : St), measure T bag st = n → Incr T c F [] p k [] bag st →
    ∃ st', explore2 H T st = some st' ∧ Stable T c F st' ∧ (∀ q, st'.Reached q ↔ st.Reached q) := by
  intro n
  induction n using Nat.strong_induction_on with
  | _ n ih =>
    intro p k bag st hn h
    rw [explore2]
    by_cases he : st.queue.empty = true
    · rw [if_pos he]
      have hbag := h.rep.empty.mp he
      subst hbag
      refine ⟨st, rfl, ⟨h.rep, h.cost, h.range, h.sound, h.init, ?_, h.full⟩, fun _ => Iff.rfl⟩
      intro i o q ho hq
      obtain ⟨a1, a2, a3, a4, a5⟩ := h.supp i o q ho hq
      have heq : st.suppCost i = st.h q := by
        have h1 := (a2 q a1).2
        by_contra hne
        rcases a3 (by omega) with b | b
        · simp at b
        · simp at b
      refine ⟨a1, heq, fun r hr => ⟨(a2 r hr).1, by rw [← heq]; exact (a2 r hr).2⟩, fun e he => ⟨a4 e he, ?_⟩, by rw [← heq]; exact a5⟩
      rw [← heq]
      exact h.eff i o ho (by rw [hq]; simp) (by simp) e he
    · rw [if_neg he]
      have hne : bag ≠ [] := fun e => he (h.rep.empty.mpr e)
      obtain ⟨q, k', p', bag', h1, h2, h3, h4⟩ := h.rep.pop H hne
      have hin : (k', p') ∈ bag := h2.symm.subset (by simp)
      obtain ⟨hr, hle⟩ := h.entry k' p' hin
      have hlen := h2.length_eq
      simp only [List.length_cons] at hlen
      rw [h1]
      simp only
      by_cases hlt : st.h p' < k'
      · rw [if_pos hlt]
        have h5 : Incr T c F [] p k [] bag' { st with queue := q } := by
          refine ⟨h4, h.cost, h.range, fun a b hab => h.entry a b (h2.symm.subset (List.mem_cons_of_mem _ hab)), h.sound, h.init, ?_, h.eff, h.full, by simp⟩
          intro i o r ho hq
          obtain ⟨a1, a2, a3, a4, a5⟩ := h.supp i o r ho hq
          refine ⟨a1, a2, fun hl => ?_, a4, a5⟩
          rcases a3 hl with b | b
          · left
            rcases List.mem_cons.mp (h2.subset b) with e | e
            · simp only [Prod.mk.injEq] at e
              obtain ⟨e1, rfl⟩ := e
              omega
            · exact e
          · simp at b
        obtain ⟨st', j1, j2, j3⟩ := ih (measure T bag' { st with queue := q }) (by simp only [measure] at hn ⊢; omega) p k bag' _ rfl h5
        exact ⟨st', j1, j2, j3⟩
      · rw [if_neg hlt]
        have hk : st.h p' = k' := by omega
        have h5 : Incr T c F [] p' k' (T.precondOf p') bag' { st with queue := q } := by
          refine ⟨h4, h.cost, h.range, fun a b hab => h.entry a b (h2.symm.subset (List.mem_cons_of_mem _ hab)), h.sound, h.init, ?_, h.eff, h.full, fun _ => Or.inl hk⟩
          intro i o r ho hq
          obtain ⟨a1, a2, a3, a4, a5⟩ := h.supp i o r ho hq
          refine ⟨a1, a2, fun hl => ?_, a4, a5⟩
          rcases a3 hl with b | b
          · rcases List.mem_cons.mp (h2.subset b) with e | e
            · simp only [Prod.mk.injEq] at e
              exact Or.inr ⟨e.2, mem_precondOf.mpr ⟨o, ho, e.2 ▸ a1⟩⟩
            · exact Or.inl e
          · simp at b
        rw [hk]
        obtain ⟨st1, bag1, k1, k2, k3, k4⟩ := trigger2_spec H (T.precondOf p') bag' _ (fun i hi => mem_precondOf.mp hi) h5
        rw [k1]
        simp only
        obtain ⟨st', j1, j2, j3⟩ := ih (measure T bag1 st1) (by simp only [measure] at hn k4 ⊢; omega) p' k' bag1 st1 rfl k2
        exact ⟨st', j1, j2, fun r => (j3 r).trans (k3 r)⟩

/-- operators in the cut have become cheaper -/
theorem incremental_spec {c c' : Nat → Nat} {F cut : List Nat} {st : St} (h : Stable T c F st) (hc : ∀ i, c' i ≤ c i) (hcut : ∀ i, i ∉ cut → c' i = c i)
    (hs : ∀ i ∈ cut, ∃ o q, T.ops[i]? = some o ∧ st.supp i = some q) (status : Nat → Status) (hst : ∀ q, status q = .unreached ↔ st.status q = .unreached) :
    ∃ st', incremental H T cut { st with status := status, cost := c' } = some st' ∧ Stable T c' F st' ∧ ∀ q, st'.Reached q ↔ st.Reached q := by
  have hre : ∀ q, St.Reached { st with status := status, cost := c', queue := st.queue.addVirtualPushes T.numProps } q ↔ st.Reached q := fun q => not_congr (hst q)
  have h0 : Incr T c' F cut 0 0 [] [] { st with status := status, cost := c', queue := st.queue.addVirtualPushes T.numProps } := by
    refine ⟨rep_virtual h.rep _, rfl, fun q hq => h.range q ((hre q).mp hq), by simp, fun q hq => (h.sound q ((hre q).mp hq)).cost_mono hc, fun q hq => ⟨(hre q).mpr (h.init q hq).1, (h.init q hq).2⟩, ?_, ?_, ?_, by simp⟩
    · intro i o q ho hq
      obtain ⟨a1, a2, a3, a4, a5⟩ := h.supp i o q ho hq
      refine ⟨a1, fun r hr => ⟨(hre r).mpr (a3 r hr).1, ?_⟩, fun hl => ?_, fun e he => (hre e).mpr (a4 e he).1, ?_⟩
      · show st.h r ≤ st.suppCost i
        rw [a2]; exact (a3 r hr).2
      · exfalso
        simp only at hl
        omega
      · show st.suppCost i + c' i < 2 ^ 31
        have := hc i
        omega
    · intro i o ho hsn hi e he
      obtain ⟨q, hq⟩ := Option.ne_none_iff_exists'.mp hsn
      obtain ⟨a1, a2, a3, a4, a5⟩ := h.supp i o q ho hq
      show st.h e ≤ st.suppCost i + c' i
      rw [hcut i hi, a2]
      exact (a4 e he).2
    · exact fun i o ho hall => h.full i o ho (fun r hr => (hre r).mp (hall r hr))
  obtain ⟨st1, bag1, k1, k2, k3⟩ := enqueueCut_spec H cut [] _ h0 hs
  obtain ⟨st2, j1, j2, j3⟩ := explore2_spec H _ 0 0 bag1 st1 rfl k2
  refine ⟨st2, ?_, j2, fun q => (j3 q).trans ((k3.reach q).trans (hre q))⟩
  unfold incremental
  simp only
  rw [k1]
  exact j1

end Verif.LmCut
