import Verif.Lemmas.OpenList
import Mathlib.Data.List.Sort

namespace Verif.OpenList

variable {E : Type}

/-! ### C16 -/

/-- **C16** (best-first).  In every history of a best-first open list, `remove_min` returns
the oldest of the entries with minimal evaluator value; what is stored is exactly what was
accepted and not yet removed; `empty()` tells whether nothing is stored. -/
theorem C16_best_first (H : StdHeap E) (rel : Nat → Bool) (pref : Bool) (ev : Nat) (g : Rng) (ops : List (Op E))
    (hl : Spec.Legal (fun c => Spec.copies rel c (.bestFirst pref ev)) 0 ops) :
    ∃ outs o g' l, (create E (.bestFirst pref ev)).run H rel g ops = some (outs, o, g') ∧
      Spec.Run (fun c => Spec.copies rel c (.bestFirst pref ev)) (fun c => c.value ev) Spec.PopMin [] ops outs l ∧ (o.empty = true ↔ l = []) := by
  obtain ⟨outs, o, g', l, h1, h2, s, rfl, h3⟩ := run_refines H rel (fun c => Spec.copies rel c (.bestFirst pref ev)) (fun c => c.value ev) Spec.PopMin
    (fun o l => ∃ s, o = OL.bestFirst pref ev s ∧ s.Rep l)
    (by
      rintro o l c e ⟨s, rfl, h⟩ _
      obtain ⟨s', i1, i2⟩ := bestFirst_insert H rel c e pref ev s l h
      exact ⟨_, i1, s', rfl, i2⟩)
    (by
      rintro o l g ⟨s, rfl, h⟩ hne
      obtain ⟨k, e, s', l1, l2, r1, r2, r3, r4, r5⟩ := BF.removeMin_rep h hne
      exact ⟨e, .bestFirst pref ev s', g, l1 ++ l2, by simp only [OL.removeMin, r1, Option.map_some], ⟨k, l1, l2, r2, r3, r4, rfl⟩,
        by rw [r2]; simp; omega, s', rfl, r5⟩)
    (by rintro o l ⟨s, rfl, h⟩; exact ⟨s, rfl, h⟩)
    (by rintro o l ⟨s, rfl, h⟩; exact ⟨_, rfl, BF.rep_new⟩)
    ops (create E (.bestFirst pref ev)) g [] ⟨_, rfl, BF.rep_new⟩ hl
  exact ⟨outs, _, g', l, h1, h2, BF.empty_rep h3⟩

/-- **C16** (tie-breaking).  The same with the lexicographically ordered vectors of values. -/
theorem C16_tiebreaking (H : StdHeap E) (rel : Nat → Bool) (pref uns : Bool) (evs : List Nat) (g : Rng) (ops : List (Op E))
    (hl : Spec.Legal (fun c => Spec.copies rel c (.tiebreaking pref uns evs)) 0 ops) :
    ∃ outs o g' l, (create E (.tiebreaking pref uns evs)).run H rel g ops = some (outs, o, g') ∧
      Spec.Run (fun c => Spec.copies rel c (.tiebreaking pref uns evs)) (fun c => evs.map c.value) Spec.PopMin [] ops outs l ∧ (o.empty = true ↔ l = []) := by
  obtain ⟨outs, o, g', l, h1, h2, s, rfl, h3⟩ := run_refines H rel (fun c => Spec.copies rel c (.tiebreaking pref uns evs)) (fun c => evs.map c.value) Spec.PopMin
    (fun o l => ∃ s, o = OL.tiebreaking pref uns evs s ∧ s.Rep l)
    (by
      rintro o l c e ⟨s, rfl, h⟩ _
      obtain ⟨s', i1, i2⟩ := tiebreaking_insert H rel c e pref uns evs s l h
      exact ⟨_, i1, s', rfl, i2⟩)
    (by
      rintro o l g ⟨s, rfl, h⟩ hne
      obtain ⟨k, e, s', l1, l2, r1, r2, r3, r4, r5⟩ := BF.removeMin_rep h hne
      exact ⟨e, .tiebreaking pref uns evs s', g, l1 ++ l2, by simp only [OL.removeMin, r1, Option.map_some], ⟨k, l1, l2, r2, r3, r4, rfl⟩,
        by rw [r2]; simp; omega, s', rfl, r5⟩)
    (by rintro o l ⟨s, rfl, h⟩; exact ⟨s, rfl, h⟩)
    (by rintro o l ⟨s, rfl, h⟩; exact ⟨_, rfl, BF.rep_new⟩)
    ops (create E (.tiebreaking pref uns evs)) g [] ⟨_, rfl, BF.rep_new⟩ hl
  exact ⟨outs, _, g', l, h1, h2, BF.empty_rep h3⟩

/-! ### C17 -/

/-- the reachable states of an alternation list on which `boost_preferred` is never called
and from which entries are removed only while no sublist is empty; `n i` counts the removals
from sublist `i`, i.e. those which change sublist `i` -/
inductive AltRun (H : StdHeap E) (rel : Nat → Bool) : OL E → Rng → (Nat → Nat) → Prop where
  | create (boost : Int) (subs : List Cfg) (g : Rng) : Spec.WF (.alternation boost subs) →
      AltRun H rel (create E (.alternation boost subs)) g (fun _ => 0)
  | insert {o o' : OL E} {g : Rng} {n : Nat → Nat} (c : Ctx) (e : E) : AltRun H rel o g n → LegalCtx c →
      o.insert H rel c e = some o' → AltRun H rel o' g n
  | clear {o : OL E} {g : Rng} {n : Nat → Nat} : AltRun H rel o g n → AltRun H rel o.clear g n
  | removeMin {b : Int} {pr : List Int} {subs : List (OL E)} {g : Rng} {n : Nat → Nat} {e : E} {b' : Int} {pr' : List Int} {subs' : List (OL E)} {g' : Rng} (i : Nat) :
      AltRun H rel (.alternation b pr subs) g n → (∀ o ∈ subs, o.empty = false) →
      (OL.alternation b pr subs).removeMin H g = some (e, .alternation b' pr' subs', g') →
      subs'[i]? ≠ subs[i]? →
      AltRun H rel (.alternation b' pr' subs') g' (fun j => if j = i then n j + 1 else n j)

theorem AltRun.inv {H : StdHeap E} {rel : Nat → Bool} {o : OL E} {g : Rng} {n : Nat → Nat} (h : AltRun H rel o g n) :
    ∃ b pr subs l, o = .alternation b pr subs ∧ o.Holds l ∧ (∀ i, i < subs.length → pr[i]? = some (n i : Int)) ∧
      ∀ i j, i < subs.length → j < subs.length → n i ≤ n j + 1 := by
  induction h with
  | create boost subs g hwf =>
    refine ⟨boost, _, _, [], rfl, create_holds _ hwf, ?_, by simp⟩
    intro i hi
    rw [createAll_length] at hi
    simp [hi]
  | @insert o o' g n c e _ hc hi ih =>
    obtain ⟨b, pr, subs, l, rfl, h1, h2, h3⟩ := ih
    obtain ⟨o1, i1, i2, i3⟩ := insert_holds H rel c hc e _ l h1
    rw [hi] at i1
    simp only [Option.some.injEq] at i1
    subst i1
    simp only [OL.insert] at hi
    split at hi
    · simp only [Option.some.injEq] at hi
      subst hi
      exact ⟨b, pr, subs, _, rfl, i3, h2, h3⟩
    · obtain ⟨os', j1, _, _, j4⟩ := insertAll_holds H rel c hc e subs l h1.2
      rw [j1] at hi
      simp only [Option.map_some, Option.some.injEq] at hi
      subst hi
      exact ⟨b, pr, os', _, rfl, i3, by rw [j4]; exact h2, by rw [j4]; exact h3⟩
  | @clear o g n _ ih =>
    obtain ⟨b, pr, subs, l, rfl, h1, h2, h3⟩ := ih
    obtain ⟨_, _, i3⟩ := clearAll_holds subs l h1.2
    exact ⟨b, pr, clearAll subs, [], rfl, (clear_holds _ l h1).1, by rw [i3]; exact h2, by rw [i3]; exact h3⟩
  | @removeMin b pr subs g n e b' pr' subs' g' i _ hne hr hch ih =>
    obtain ⟨b0, pr0, subs0, l, h0, h1, h2, h3⟩ := ih
    simp only [OL.alternation.injEq] at h0
    obtain ⟨rfl, rfl, rfl⟩ := h0
    by_cases hsub : subs = []
    · subst hsub
      simp [OL.removeMin, bestLoop] at hr
    obtain ⟨o0, ho0⟩ := List.exists_mem_of_ne_nil _ hsub
    obtain ⟨k, o, p, a1, a2, a3, a4, a5⟩ := alternation_removeMin H g b pr subs h1.1 ⟨o0, ho0, hne o0 ho0⟩
    obtain ⟨e1, o1, g1, l1, c1, c2, c3, c4⟩ := removeMin_holds H _ l g h1 (by
      intro hc
      have := (empty_iff _ l h1).2 hc
      simp only [OL.empty] at this
      cases subs with
      | nil => simp at hsub
      | cons s ss =>
        simp only [allEmpty] at this
        rw [hne s (by simp)] at this
        simp at this)
    rw [hr] at c1
    simp only [Option.some.injEq, Prod.mk.injEq] at c1
    obtain ⟨rfl, rfl, rfl⟩ := c1
    rw [a5] at hr
    obtain ⟨r, hr1, hr2⟩ := Option.map_eq_some_iff.mp hr
    simp only [Prod.mk.injEq, OL.alternation.injEq] at hr2
    obtain ⟨_, ⟨rfl, rfl, rfl⟩, _⟩ := hr2
    have hik : i = k := by
      by_contra hik
      apply hch
      rw [List.getElem?_set, if_neg (Ne.symm hik)]
    subst hik
    have hklen : i < subs.length := by
      by_contra hc
      rw [List.getElem?_eq_none (by omega)] at a1; simp at a1
    have hp : p = n i := by
      have := h2 i hklen
      rw [a3] at this
      simpa using this
    have hmin : ∀ j, j < subs.length → n i ≤ n j := by
      intro j hj
      have h4 := (a4 j (subs[j]) (n j) (List.getElem?_eq_getElem hj) (hne _ (List.getElem_mem hj)) (h2 j hj)).1
      rw [hp] at h4; omega
    refine ⟨b, _, _, l1, rfl, c4, ?_, ?_⟩
    · intro j hj
      rw [List.length_set] at hj
      rw [List.getElem?_set]
      by_cases hji : j = i
      · subst hji
        rw [if_pos rfl, if_pos (by rw [h1.1]; exact hj)]
        simp [hp]
      · rw [if_neg (Ne.symm hji)]
        simp only [if_neg hji]
        exact h2 j hj
    · intro a c ha hc
      rw [List.length_set] at ha hc
      have := h3 a c ha hc
      have := hmin c hc
      have := hmin a ha
      simp only
      split <;> split
      · omega
      · rename_i h4 h5; subst h4; omega
      · rename_i h4 h5; subst h5; omega
      · omega

/-- **C17**.  (1) A removal from an alternation list with a non-empty sublist removes from the
first non-empty sublist with smallest priority, raises its priority by one and changes
nothing else.  (2) Without boosts, as long as all sublists stay non-empty, the numbers of
removals from any two sublists differ by at most one.  (3) Every such removal is counted
for some sublist. -/
theorem C17_alternation (H : StdHeap E) (rel : Nat → Bool) :
    (∀ (g : Rng) (boost : Int) (prios : List Int) (subs : List (OL E)), prios.length = subs.length → (∃ o ∈ subs, o.empty = false) →
      ∃ (i : Nat) (o : OL E) (p : Int), subs[i]? = some o ∧ o.empty = false ∧ prios[i]? = some p ∧
        (∀ (j : Nat) (o' : OL E) (q : Int), subs[j]? = some o' → o'.empty = false → prios[j]? = some q → p ≤ q ∧ (j < i → p < q)) ∧
        (OL.alternation boost prios subs).removeMin H g =
          (o.removeMin H g).map (fun r => (r.1, .alternation boost (prios.set i (p + 1)) (subs.set i r.2.1), r.2.2))) ∧
    (∀ (b : Int) (pr : List Int) (subs : List (OL E)) (g : Rng) (n : Nat → Nat), AltRun H rel (.alternation b pr subs) g n →
      ∀ i j, i < subs.length → j < subs.length → n i ≤ n j + 1) ∧
    (∀ (b : Int) (pr : List Int) (subs : List (OL E)) (g : Rng) (n : Nat → Nat), AltRun H rel (.alternation b pr subs) g n →
      subs ≠ [] → (∀ o ∈ subs, o.empty = false) →
      ∃ e pr' subs' g' i, (OL.alternation b pr subs).removeMin H g = some (e, .alternation b pr' subs', g') ∧ i < subs.length ∧ subs'[i]? ≠ subs[i]?) := by
  refine ⟨fun g boost prios subs h1 h2 => alternation_removeMin H g boost prios subs h1 h2, ?_, ?_⟩
  · intro b pr subs g n h
    obtain ⟨b0, pr0, subs0, l, h0, _, _, h3⟩ := h.inv
    simp only [OL.alternation.injEq] at h0
    obtain ⟨rfl, rfl, rfl⟩ := h0
    exact h3
  · intro b pr subs g n h hsub hne
    obtain ⟨b0, pr0, subs0, l, h0, h1, _, _⟩ := h.inv
    simp only [OL.alternation.injEq] at h0
    obtain ⟨rfl, rfl, rfl⟩ := h0
    obtain ⟨o0, ho0⟩ := List.exists_mem_of_ne_nil _ hsub
    obtain ⟨k, o, p, a1, a2, a3, a4, a5⟩ := alternation_removeMin H g b pr subs h1.1 ⟨o0, ho0, hne o0 ho0⟩
    obtain ⟨lo, rest, b1, b2, b3⟩ := HoldsAll.split h1.2 a1
    have hlo : lo ≠ [] := by
      intro hc
      rw [(empty_iff o lo b1).2 hc] at a2; simp at a2
    obtain ⟨e, o', g', l', c1, c2, c3, c4⟩ := removeMin_holds H o lo g b1 hlo
    have hk : k < subs.length := by
      by_contra hc
      rw [List.getElem?_eq_none (by omega)] at a1; simp at a1
    refine ⟨e, pr.set k (p + 1), subs.set k o', g', k, by rw [a5, c1]; rfl, hk, ?_⟩
    rw [List.getElem?_set_self hk, a1]
    simp only [ne_eq, Option.some.injEq]
    rintro rfl
    -- the sizes differ
    exact absurd (holds_length _ _ _ b1 c4) (by have := c3.length_eq; simp only [List.length_cons] at this; omega)

/-! ### C18 -/

/-- **C18** (first part).  For every stream of random numbers, a pareto open list returns the
oldest entry of some bucket whose key no stored key dominates; it is empty iff nothing is
stored.  Missing: the weights of the random choice, see `C18_state_uniform_fails`. -/
theorem C18_pareto_partial (H : StdHeap E) (rel : Nat → Bool) (pref u : Bool) (evs : List Nat) (hevs : evs ≠ []) (g : Rng) (ops : List (Op E))
    (hl : Spec.Legal (fun c => Spec.copies rel c (.pareto pref u evs)) 0 ops) :
    ∃ outs o g' l, (create E (.pareto pref u evs)).run H rel g ops = some (outs, o, g') ∧
      Spec.Run (fun c => Spec.copies rel c (.pareto pref u evs)) (fun c => evs.map c.value) Spec.PopPareto [] ops outs l ∧ (o.empty = true ↔ l = []) := by
  obtain ⟨outs, o, g', l, h1, h2, s, rfl, h3⟩ := run_refines H rel (fun c => Spec.copies rel c (.pareto pref u evs)) (fun c => evs.map c.value) Spec.PopPareto
    (fun o l => ∃ s, o = OL.pareto pref u evs s ∧ s.Rep evs.length l)
    (by
      rintro o l c e ⟨s, rfl, h⟩ _
      obtain ⟨s', i1, i2⟩ := pareto_insert H rel c e pref u evs s l h
      exact ⟨_, i1, s', rfl, i2⟩)
    (by
      rintro o l g ⟨s, rfl, h⟩ hne
      obtain ⟨k, e, s', g', l1, l2, r1, r2, r3, r4, r5⟩ := Pareto.removeMin_rep (List.length_pos_iff.mpr hevs) u h hne g
      exact ⟨e, .pareto pref u evs s', g', l1 ++ l2, by simp only [OL.removeMin, r1, Option.map_some], ⟨k, l1, l2, r2, r3, r4, rfl⟩,
        by rw [r2]; simp; omega, s', rfl, r5⟩)
    (by rintro o l ⟨s, rfl, h⟩; exact ⟨s, rfl, h⟩)
    (by rintro o l ⟨s, rfl, h⟩; exact ⟨_, rfl, Pareto.rep_new _⟩)
    ops (create E (.pareto pref u evs)) g [] ⟨_, rfl, Pareto.rep_new _⟩ hl
  exact ⟨outs, _, g', l, h1, h2, Pareto.empty_rep h3⟩

/-- three entries: entry 0 with key (1,2), entries 1 and 2 with key (2,1) -/
def uniformExample : Pareto Nat := ((Pareto.new.insert [1, 2] 0).insert [2, 1] 1).insert [2, 1] 2

/-- **C18**, second part, refuted.  The documentation of `state_uniform_selection` says that
buckets are weighted with the number of their entries.  In `uniformExample` the bucket of
entry 1 holds two entries and the other one holds one.  Let the two random numbers range over
0..11 independently (12 is a multiple of all bounds used, so this is the uniform
distribution).  The bucket with two entries is selected in 72 of the 144 cases, not in 96. -/
theorem C18_state_uniform_fails :
    (((List.range 12).flatMap (fun a => (List.range 12).map (fun b => (a, b)))).filter (fun ab =>
      (uniformExample.removeMin true ⟨fun i => if i = 0 then ab.1 else ab.2, 0⟩).map (·.1) = some 1)).length = 72 ∧ 3 * 72 ≠ 2 * 144 := by
  decide +kernel

/-! ### C19 -/

/-- **C19** (epsilon-greedy).  For every epsilon and every stream of random numbers, each
removal returns one stored entry, which is then no longer stored; nothing else changes.
If epsilon is 0, it is the oldest one with minimal value. -/
theorem C19_epsilon_greedy (H : StdHeap E) (rel : Nat → Bool) (pref : Bool) (ev p q : Nat) (g : Rng) (ops : List (Op E))
    (hl : Spec.Legal (fun c => Spec.copies rel c (.epsilonGreedy pref ev p q)) 0 ops) :
    ∃ outs o g' l, (create E (.epsilonGreedy pref ev p q)).run H rel g ops = some (outs, o, g') ∧
      Spec.Run (fun c => Spec.copies rel c (.epsilonGreedy pref ev p q)) (fun c => c.value ev)
        (fun l e l' => Spec.PopAny l e l' ∧ (p = 0 → Spec.PopMin l e l')) [] ops outs l ∧ (o.empty = true ↔ l = []) := by
  obtain ⟨outs, o, g', l, h1, h2, s, rfl, h3⟩ := run_refines H rel (fun c => Spec.copies rel c (.epsilonGreedy pref ev p q)) (fun c => c.value ev)
    (fun l e l' => Spec.PopAny l e l' ∧ (p = 0 → Spec.PopMin l e l'))
    (fun o l => ∃ s, o = OL.epsilonGreedy pref ev p q s ∧ s.Rep l)
    (by
      rintro o l c e ⟨s, rfl, h⟩ hc
      obtain ⟨s', i1, i2⟩ := epsilonGreedy_insert H rel c hc e pref ev p q s l h
      exact ⟨_, i1, s', rfl, i2⟩)
    (by
      rintro o l g ⟨s, rfl, h⟩ hne
      obtain ⟨k, e, s', g', l1, l2, r1, r2, r5, r6⟩ := Eps.removeMin_rep H p q h hne g
      refine ⟨e, .epsilonGreedy pref ev p q s', g', l1 ++ l2, by simp only [OL.removeMin, r1, Option.map_some], ⟨⟨k, l1, l2, r2, rfl⟩, ?_⟩,
        by rw [r2]; simp; omega, s', rfl, r5⟩
      rintro rfl
      obtain ⟨r3, r4⟩ := r6 (by simp [Rng.randomLt])
      exact ⟨k, l1, l2, r2, r3, r4, rfl⟩)
    (by rintro o l ⟨s, rfl, h⟩; exact ⟨s, rfl, h⟩)
    (by rintro o l ⟨s, rfl, h⟩; exact ⟨_, rfl, Eps.rep_new⟩)
    ops (create E (.epsilonGreedy pref ev p q)) g [] ⟨_, rfl, Eps.rep_new⟩ hl
  exact ⟨outs, _, g', l, h1, h2, Eps.empty_rep h3⟩

/-- **C19** (type-based).  For every stream of random numbers, each removal returns one stored
entry, which is then no longer stored. -/
theorem C19_type_based (H : StdHeap E) (rel : Nat → Bool) (evs : List Nat) (g : Rng) (ops : List (Op E))
    (hl : Spec.Legal (fun c => Spec.copies rel c (.typeBased evs)) 0 ops) :
    ∃ outs o g' l, (create E (.typeBased evs)).run H rel g ops = some (outs, o, g') ∧
      Spec.Run (fun c => Spec.copies rel c (.typeBased evs)) (fun c => evs.map c.value) Spec.PopBag [] ops outs l ∧ (o.empty = true ↔ l = []) := by
  obtain ⟨outs, o, g', l, h1, h2, s, rfl, h3⟩ := run_refines H rel (fun c => Spec.copies rel c (.typeBased evs)) (fun c => evs.map c.value) Spec.PopBag
    (fun o l => ∃ s, o = OL.typeBased evs s ∧ s.Rep l)
    (by
      rintro o l c e ⟨s, rfl, h⟩ _
      obtain ⟨s', i1, i2⟩ := typeBased_insert H rel c e evs s l h
      exact ⟨_, i1, s', rfl, i2⟩)
    (by
      rintro o l g ⟨s, rfl, h⟩ hne
      obtain ⟨k, e, s', g', l', r1, r2, r5⟩ := TB.removeMin_rep h hne g
      exact ⟨e, .typeBased evs s', g', l', by simp only [OL.removeMin, r1, Option.map_some], ⟨k, r2⟩, by rw [r2.length_eq]; simp, s', rfl, r5⟩)
    (by rintro o l ⟨s, rfl, h⟩; exact ⟨s, rfl, h⟩)
    (by rintro o l ⟨s, rfl, h⟩; exact ⟨_, rfl, TB.rep_new⟩)
    ops (create E (.typeBased evs)) g [] ⟨_, rfl, TB.rep_new⟩ hl
  exact ⟨outs, _, g', l, h1, h2, TB.empty_rep h3⟩

/-! ### C51 and C20: arbitrary nestings -/

/-- the entries of a specification state -/
theorem bag_run (H : StdHeap E) (rel : Nat → Bool) (cfg : Cfg) (hwf : Spec.WF cfg) (g : Rng) (ops : List (Op E))
    (hl : Spec.Legal (fun c => Spec.copies rel c cfg) 0 ops) :
    ∃ outs o g' l, (create E cfg).run H rel g ops = some (outs, o, g') ∧
      Spec.Run (fun c => Spec.copies rel c cfg) (fun _ => ()) Spec.PopBag [] ops outs l ∧ o.cfg = cfg ∧ o.Holds (l.map Prod.snd) := by
  obtain ⟨outs, o, g', l, h1, h2, h3, h4⟩ := run_refines H rel (fun c => Spec.copies rel c cfg) (fun _ => ()) Spec.PopBag
    (fun o l => o.cfg = cfg ∧ o.Holds (l.map Prod.snd))
    (by
      rintro o l c e ⟨h1, h2⟩ hc
      obtain ⟨o', i1, i2, i3⟩ := insert_holds H rel c hc e o _ h2
      refine ⟨o', i1, by rw [i2, h1], ?_⟩
      rw [List.map_append, List.map_replicate, ← h1]; exact i3)
    (by
      rintro o l g ⟨h1, h2⟩ hne
      obtain ⟨e, o', g', l', r1, r2, r3, r4⟩ := removeMin_holds H o _ g h2 (by simpa using hne)
      refine ⟨e, o', g', l'.map (fun x => ((), x)), r1, ⟨(), ?_⟩, ?_, by rw [r2, h1], by simpa [Function.comp_def] using r4⟩
      · have := r3.map (fun x => ((), x))
        simp only [List.map_map, List.map_cons] at this
        have he : (fun x => ((), x)) ∘ Prod.snd = (id : Unit × E → Unit × E) := by funext ⟨_, _⟩; rfl
        rw [he, List.map_id] at this
        exact this
      · have := r3.length_eq
        simpa using this)
    (by rintro o l ⟨h1, h2⟩; obtain ⟨i1, i2⟩ := boost_holds o _ h2; exact ⟨by rw [i2, h1], i1⟩)
    (by rintro o l ⟨h1, h2⟩; obtain ⟨i1, i2⟩ := clear_holds o _ h2; exact ⟨by rw [i2, h1], i1⟩)
    ops (create E cfg) g [] ⟨create_cfg cfg, create_holds cfg hwf⟩ hl
  exact ⟨outs, o, g', l, h1, h2, h3, h4⟩

/-- **C51**.  Every nesting of open lists is a bag: in every history, inserting adds
`copies` copies of the entry, removing takes out one stored entry, `empty()` tells whether
nothing is stored, and no operation fails unless an entry is requested from an empty list. -/
theorem C51_open_list_bag (H : StdHeap E) (rel : Nat → Bool) (cfg : Cfg) (hwf : Spec.WF cfg) (g : Rng) (ops : List (Op E))
    (hl : Spec.Legal (fun c => Spec.copies rel c cfg) 0 ops) :
    ∃ outs o g' l, (create E cfg).run H rel g ops = some (outs, o, g') ∧
      Spec.Run (fun c => Spec.copies rel c cfg) (fun _ => ()) Spec.PopBag [] ops outs l ∧ (o.empty = true ↔ l = []) := by
  obtain ⟨outs, o, g', l, h1, h2, h3, h4⟩ := bag_run H rel cfg hwf g ops hl
  refine ⟨outs, o, g', l, h1, h2, ?_⟩
  rw [empty_iff o _ h4]; simp

mutual
theorem deadEnd_some (rel : Nat → Bool) (c : Ctx) : ∀ (cfg : Cfg), Spec.WF cfg → Spec.DeadEnd rel c cfg → ∃ ev ∈ Spec.evaluators cfg, c.value ev = infty
  | .bestFirst _ ev, _, h => ⟨ev, by simp [Spec.evaluators], h⟩
  | .tiebreaking _ _ evs, hwf, h => by
    simp only [Spec.DeadEnd, Spec.WF, Spec.evaluators] at h hwf ⊢
    rcases h with ⟨ev, h1, h2, _⟩ | ⟨_, ev, h1, h2⟩ | h
    · exact ⟨ev, h1, h2⟩
    · exact ⟨ev, List.mem_of_mem_head? h1, h2⟩
    · obtain ⟨ev, hev⟩ := List.exists_mem_of_ne_nil _ hwf
      exact ⟨ev, hev, h ev hev⟩
  | .pareto _ _ evs, hwf, h => by
    simp only [Spec.DeadEnd, Spec.WF, Spec.evaluators] at h hwf ⊢
    rcases h with ⟨ev, h1, h2, _⟩ | h
    · exact ⟨ev, h1, h2⟩
    · obtain ⟨ev, hev⟩ := List.exists_mem_of_ne_nil _ hwf
      exact ⟨ev, hev, h ev hev⟩
  | .epsilonGreedy _ ev _ _, _, h => ⟨ev, by simp [Spec.evaluators], h⟩
  | .typeBased evs, hwf, h => by
    simp only [Spec.DeadEnd, Spec.WF, Spec.evaluators] at h hwf ⊢
    rcases h with ⟨ev, h1, h2, _⟩ | h
    · exact ⟨ev, h1, h2⟩
    · obtain ⟨ev, hev⟩ := List.exists_mem_of_ne_nil _ hwf
      exact ⟨ev, hev, h ev hev⟩
  | .alternation _ subs, hwf, h => by
    simp only [Spec.DeadEnd, Spec.WF, Spec.evaluators] at h hwf ⊢
    rcases h with ⟨ev, h1, h2, _⟩ | h
    · exact ⟨ev, h1, h2⟩
    · exact deadEndAll_some rel c subs hwf.1 hwf.2 h
theorem deadEndAll_some (rel : Nat → Bool) (c : Ctx) : ∀ (cs : List Cfg), cs ≠ [] → Spec.WFAll cs → Spec.DeadEndAll rel c cs →
    ∃ ev ∈ Spec.evaluatorsAll cs, c.value ev = infty
  | [], h, _, _ => absurd rfl h
  | x :: xs, _, hwf, h => by
    simp only [Spec.WFAll, Spec.DeadEndAll, Spec.evaluatorsAll] at hwf h ⊢
    obtain ⟨ev, h1, h2⟩ := deadEnd_some rel c x hwf.1 h.1
    exact ⟨ev, by simp [h1], h2⟩
end

mutual
theorem reliable_deadEnd (rel : Nat → Bool) (c : Ctx) : ∀ (cfg : Cfg), Spec.ReliableInfinite rel c (Spec.evaluators cfg) → Spec.DeadEnd rel c cfg
  | .bestFirst _ ev, h => ((reliableInfinite_single rel c ev).1 h).1
  | .tiebreaking _ _ evs, h => Or.inl h
  | .pareto _ _ evs, h => Or.inl h
  | .epsilonGreedy _ ev _ _, h => ((reliableInfinite_single rel c ev).1 h).1
  | .typeBased evs, h => Or.inl h
  | .alternation _ subs, h => Or.inl h
end

mutual
theorem copies_pos (rel : Nat → Bool) (c : Ctx) : ∀ (cfg : Cfg), Spec.PreferenceOK c cfg → ¬ Spec.DeadEnd rel c cfg → 0 < Spec.copies rel c cfg
  | .bestFirst pref ev, h1, h2 => by simp only [Spec.PreferenceOK] at h1; simp only [Spec.copies]; rw [if_pos ⟨h1, h2⟩]; omega
  | .tiebreaking _ _ evs, h1, h2 => by simp only [Spec.PreferenceOK] at h1; simp only [Spec.copies]; rw [if_pos ⟨h1, h2⟩]; omega
  | .pareto _ _ evs, h1, h2 => by simp only [Spec.PreferenceOK] at h1; simp only [Spec.copies]; rw [if_pos ⟨h1, h2⟩]; omega
  | .epsilonGreedy _ ev _ _, h1, h2 => by simp only [Spec.PreferenceOK] at h1; simp only [Spec.copies]; rw [if_pos ⟨h1, h2⟩]; omega
  | .typeBased evs, h1, h2 => by simp only [Spec.copies]; rw [if_pos h2]; omega
  | .alternation _ subs, h1, h2 => by
    simp only [Spec.PreferenceOK] at h1; simp only [Spec.copies]; rw [if_neg h2]
    simp only [Spec.DeadEnd, not_or] at h2
    exact copiesAll_pos rel c subs h1 h2.2
theorem copiesAll_pos (rel : Nat → Bool) (c : Ctx) : ∀ (cs : List Cfg), Spec.PreferenceOKAll c cs → ¬ Spec.DeadEndAll rel c cs → 0 < Spec.copiesAll rel c cs
  | [], _, h => absurd trivial h
  | x :: xs, h1, h2 => by
    simp only [Spec.PreferenceOKAll, Spec.DeadEndAll, Spec.copiesAll] at h1 h2 ⊢
    by_cases hx : Spec.DeadEnd rel c x
    · have := copiesAll_pos rel c xs h1.2 (fun h => h2 ⟨hx, h⟩)
      omega
    · have := copies_pos rel c x h1.1 hx
      omega
end

mutual
theorem copies_deadEnd (rel : Nat → Bool) (c : Ctx) : ∀ (cfg : Cfg), Spec.DeadEnd rel c cfg → Spec.copies rel c cfg = 0
  | .bestFirst pref ev, h => by simp only [Spec.copies]; rw [if_neg (fun hc => hc.2 h)]
  | .tiebreaking _ _ evs, h => by simp only [Spec.copies]; rw [if_neg (fun hc => hc.2 h)]
  | .pareto _ _ evs, h => by simp only [Spec.copies]; rw [if_neg (fun hc => hc.2 h)]
  | .epsilonGreedy _ ev _ _, h => by simp only [Spec.copies]; rw [if_neg (fun hc => hc.2 h)]
  | .typeBased evs, h => by simp only [Spec.copies]; rw [if_neg (fun hc => hc h)]
  | .alternation _ subs, h => by simp only [Spec.copies]; rw [if_pos h]
end

/-- **C20**.  After every history of every nesting of open lists, for every evaluation
context `c` (of a state for which `Unsolvable` says that it has no plan):
the open list reports a reliable dead end iff some reliable evaluator used anywhere in it is
infinite; a reported dead end means that some evaluator is infinite; hence, if infinite
values of reliable evaluators imply unsolvability, reliable dead ends are unsolvable, and so
are all dead ends if all evaluators are reliable.  An entry is dropped for a dead end, and
stored at least once otherwise unless it is not preferred and some list requires that. -/
theorem C20_dead_ends (H : StdHeap E) (rel : Nat → Bool) (cfg : Cfg) (hwf : Spec.WF cfg) (g : Rng) (ops : List (Op E)) (outs : List (Option E)) (o : OL E) (g' : Rng)
    (hl : Spec.Legal (fun c => Spec.copies rel c cfg) 0 ops) (hrun : (create E cfg).run H rel g ops = some (outs, o, g')) (c : Ctx) (Unsolvable : Prop) :
    (o.isReliableDeadEnd rel c = true ↔ ∃ ev ∈ Spec.evaluators cfg, c.value ev = infty ∧ rel ev = true) ∧
    (o.isReliableDeadEnd rel c = true → o.isDeadEnd rel c = true) ∧
    (o.isDeadEnd rel c = true → ∃ ev ∈ Spec.evaluators cfg, c.value ev = infty) ∧
    ((∀ ev ∈ Spec.evaluators cfg, rel ev = true → c.value ev = infty → Unsolvable) → o.isReliableDeadEnd rel c = true → Unsolvable) ∧
    ((∀ ev ∈ Spec.evaluators cfg, rel ev = true → c.value ev = infty → Unsolvable) → (∀ ev ∈ Spec.evaluators cfg, rel ev = true) →
      o.isDeadEnd rel c = true → Unsolvable) ∧
    (o.isDeadEnd rel c = true → Spec.copies rel c cfg = 0) ∧
    (o.isDeadEnd rel c = false → Spec.PreferenceOK c cfg → 0 < Spec.copies rel c cfg) := by
  obtain ⟨outs1, o1, g1, l, h1, _, h3, _⟩ := bag_run H rel cfg hwf g ops hl
  rw [hrun] at h1
  simp only [Option.some.injEq, Prod.mk.injEq] at h1
  obtain ⟨rfl, rfl, rfl⟩ := h1
  have hr := isReliableDeadEnd_iff rel c o
  have hd := isDeadEnd_iff rel c o
  rw [h3] at hr hd
  refine ⟨hr, fun h => hd.2 (reliable_deadEnd rel c cfg (hr.1 h)), fun h => deadEnd_some rel c cfg hwf (hd.1 h), ?_, ?_, fun h => copies_deadEnd rel c cfg (hd.1 h), ?_⟩
  · intro hu h
    obtain ⟨ev, h4, h5, h6⟩ := hr.1 h
    exact hu ev h4 h6 h5
  · intro hu ha h
    obtain ⟨ev, h4, h5⟩ := deadEnd_some rel c cfg hwf (hd.1 h)
    exact hu ev h4 (ha ev h4) h5
  · intro h hp
    apply copies_pos rel c cfg hp
    rw [← hd, h]; simp

/-! ### non-vacuity -/

/-- std::push_heap and std::pop_heap exist: sorting satisfies their contracts -/
def sortHeap (E : Type) : StdHeap E where
  pushHeap c x := (x :: c).mergeSort (fun a b => !a.gt b)
  popHeap c := c.tail.mergeSort (fun a b => !a.gt b)
  push_ok := by
    intro c x _
    exact ⟨sorted_isHeap (List.pairwise_mergeSort (fun a b c h1 h2 => by
      simp only [Bool.not_eq_true'] at *; exact HeapNode.not_gt_trans h1 h2) (fun a b => by
      simp only [Bool.or_eq_true, Bool.not_eq_true', HeapNode.gt_false]; omega) _), List.mergeSort_perm _ _⟩
  pop_ok := by
    intro x c _
    exact ⟨sorted_isHeap (List.pairwise_mergeSort (fun a b c h1 h2 => by
      simp only [Bool.not_eq_true'] at *; exact HeapNode.not_gt_trans h1 h2) (fun a b => by
      simp only [Bool.or_eq_true, Bool.not_eq_true', HeapNode.gt_false]; omega) _), List.mergeSort_perm _ _⟩
where
  sorted_isHeap {l : List (HeapNode E)} (h : l.Pairwise (fun a b => (!a.gt b) = true)) : IsHeap l := by
    intro i p x hi hp hx
    have hil : i < l.length := by
      by_contra hc
      rw [List.getElem?_eq_none (by omega)] at hx; simp at hx
    rw [List.getElem?_eq_getElem hil] at hx
    rw [List.getElem?_eq_getElem (by omega : (i - 1) / 2 < l.length)] at hp
    simp only [Option.some.injEq] at hx hp
    subst hx hp
    have := List.pairwise_iff_getElem.mp h ((i - 1) / 2) i (by omega) hil (by omega)
    simpa using this

/-- an alternation of a best-first, a preferred-only tie-breaking and a type-based list -/
def exampleCfg : Cfg := .alternation 1000 [.bestFirst false 0, .tiebreaking true false [1, 0], .alternation 0 [.typeBased [0, 1]]]

def exampleCtx (a b : Int) (p : Bool) : Ctx := ⟨fun ev => if ev = 0 then a else b, p⟩

/-- the options are well-formed, an entry is stored three times if preferred, twice if not,
and not at all if evaluator 1, the reliable one, is infinite -/
example : Spec.WF exampleCfg ∧ Spec.copies (fun ev => ev = 1) (exampleCtx 3 4 true) exampleCfg = 3 ∧
    Spec.copies (fun ev => ev = 1) (exampleCtx 3 4 false) exampleCfg = 2 ∧
    Spec.copies (fun ev => ev = 1) (exampleCtx 3 infty true) exampleCfg = 0 := by
  simp [exampleCfg, exampleCtx, Spec.WF, Spec.WFAll, Spec.copies, Spec.copiesAll, Spec.DeadEnd, Spec.DeadEndAll, Spec.ReliableInfinite, Spec.evaluatorsAll, Spec.evaluators, infty]

/-- a legal history with insertions, removals and a boost -/
example : Spec.Legal (fun c => Spec.copies (fun ev => ev = 1) c exampleCfg) 0
    [Op.insert (exampleCtx 3 4 true) 10, .insert (exampleCtx 2 5 false) 11, .removeMin, .boostPreferred, .removeMin, .removeMin, .removeMin, .removeMin, .clear] := by
  simp [Spec.Legal, exampleCfg, exampleCtx, Spec.copies, Spec.copiesAll, Spec.DeadEnd, Spec.DeadEndAll, Spec.ReliableInfinite, Spec.evaluatorsAll, Spec.evaluators, infty, intMin]
  constructor
  · intro ev; split <;> omega
  · intro ev; split <;> omega

/-- its outputs: without the boost the lists take turns, after it the preferred list is used -/
example : ((create Nat exampleCfg).run (sortHeap Nat) (fun ev => ev = 1) ⟨fun _ => 0, 0⟩
    [Op.insert (exampleCtx 3 4 true) 10, .insert (exampleCtx 2 5 false) 11, .removeMin, .boostPreferred, .removeMin, .removeMin, .removeMin, .removeMin, .clear]).map (·.1) =
    some [none, none, some 11, none, some 10, some 10, some 10, some 11, none] := by
  decide +kernel

/-- the tie-breaking list prefers smaller second values among equal first ones, then age -/
example : ((create Nat (.tiebreaking false true [0, 1])).run (sortHeap Nat) (fun _ => true) ⟨fun _ => 0, 0⟩
    [Op.insert (exampleCtx 3 4 true) 1, .insert (exampleCtx 3 2 true) 2, .insert (exampleCtx 3 2 true) 3, .insert (exampleCtx 5 0 true) 4, .removeMin, .removeMin, .removeMin]).map (·.1) =
    some [none, none, none, none, some 2, some 3, some 1] := by
  decide +kernel

/-- a legal history of an epsilon-greedy list -/
example : Spec.Legal (fun c => Spec.copies (fun _ => true) c (.epsilonGreedy false 0 1 5)) 0
    [Op.insert (exampleCtx 3 4 true) 1, .insert (exampleCtx 2 4 true) 2, .removeMin, .removeMin] := by
  simp [Spec.Legal, exampleCtx, Spec.copies, Spec.DeadEnd, infty, intMin]
  constructor
  · intro ev; split <;> omega
  · intro ev; split <;> omega

/-- two states of an alternation list reachable in the sense of C17: one sublist was used -/
example : AltRun (sortHeap Nat) (fun _ => true)
    (.alternation 0 [1, 0] [.bestFirst false 0 ⟨[], 0⟩, .bestFirst false 1 ⟨[(4, [7])], 1⟩]) ⟨fun _ => 0, 0⟩ (fun j => if j = 0 then 0 + 1 else 0) := by
  refine AltRun.removeMin (b := 0) (pr := [0, 0]) (subs := [.bestFirst false 0 ⟨[(3, [7])], 1⟩, .bestFirst false 1 ⟨[(4, [7])], 1⟩]) (g := ⟨fun _ => 0, 0⟩)
    (n := fun _ => 0) (e := 7) 0 ?_ ?_ ?_ ?_
  · refine AltRun.insert (exampleCtx 3 4 true) 7 (.create 0 [.bestFirst false 0, .bestFirst false 1] _ ?_) ?_ ?_
    · simp [Spec.WF, Spec.WFAll]
    · intro ev; simp only [exampleCtx, intMin]; split <;> omega
    · rfl
  · intro o ho
    simp at ho
    rcases ho with rfl | rfl <;> rfl
  · rfl
  · simp

end Verif.OpenList
