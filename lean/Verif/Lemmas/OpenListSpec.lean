import Verif.Props.OpenList

/- A uniform interface to the theorems about open lists, for the search algorithms. -/
namespace Verif.OpenList

variable {E : Type}

/-- `R o l`: the open list `o` (with options `cfg`) stores the keyed entries `l` -/
structure OLSpec (K E : Type) (H : StdHeap E) (rel : Nat → Bool) (cfg : Cfg) where
  R : OL E → List (K × E) → Prop
  key : Ctx → K
  Pop : List (K × E) → E → List (K × E) → Prop
  create : R (create E cfg) []
  insert : ∀ o l c e, R o l → LegalCtx c → ∃ o', o.insert H rel c e = some o' ∧ R o' (l ++ List.replicate (Spec.copies rel c cfg) (key c, e))
  remove : ∀ o l g, R o l → l ≠ [] → ∃ e o' g' l', o.removeMin H g = some (e, o', g') ∧ Pop l e l' ∧ R o' l'
  empty : ∀ o l, R o l → (o.empty = true ↔ l = [])
  boost : ∀ o l, R o l → R o.boostPreferred l
  clear : ∀ o l, R o l → R o.clear []
  dead : ∀ o l c, R o l → (o.isDeadEnd rel c = true ↔ Spec.DeadEnd rel c cfg)
  popPerm : ∀ l e l', Pop l e l' → ∃ k, l.Perm ((k, e) :: l')

/-- every open list as a bag -/
def bagSpec (H : StdHeap E) (rel : Nat → Bool) (cfg : Cfg) (hwf : Spec.WF cfg) : OLSpec Unit E H rel cfg where
  R o l := o.cfg = cfg ∧ o.Holds (l.map Prod.snd)
  key _ := ()
  Pop := Spec.PopBag
  create := ⟨create_cfg cfg, create_holds cfg hwf⟩
  insert o l c e h hc := by
    obtain ⟨o', i1, i2, i3⟩ := insert_holds H rel c hc e o _ h.2
    refine ⟨o', i1, by rw [i2]; exact h.1, ?_⟩
    rw [h.1] at i3
    simpa using i3
  remove o l g h hne := by
    obtain ⟨e, o', g', l', r1, r2, r3, r4⟩ := removeMin_holds H o _ g h.2 (by simpa using hne)
    refine ⟨e, o', g', l'.map (fun x => ((), x)), r1, ⟨(), ?_⟩, by rw [r2]; exact h.1, ?_⟩
    · have := r3.map (fun x => ((), x))
      simpa [List.map_map, Function.comp_def] using this
    · simpa [List.map_map, Function.comp_def] using r4
  empty o l h := by rw [empty_iff o _ h.2]; simp
  boost o l h := by
    obtain ⟨h1, h2⟩ := boost_holds o _ h.2
    exact ⟨by rw [h2]; exact h.1, h1⟩
  clear o l h := by
    obtain ⟨h1, h2⟩ := clear_holds o _ h.2
    exact ⟨by rw [h2]; exact h.1, h1⟩
  dead o l c h := by rw [isDeadEnd_iff, h.1]
  popPerm _ _ _ h := h

/-- tie-breaking open lists (C16) -/
def tiebreakingSpec (H : StdHeap E) (rel : Nat → Bool) (pref uns : Bool) (evs : List Nat) :
    OLSpec (List Int) E H rel (.tiebreaking pref uns evs) where
  R o l := ∃ s, o = .tiebreaking pref uns evs s ∧ s.Rep l
  key c := evs.map c.value
  Pop := Spec.PopMin
  create := ⟨_, rfl, BF.rep_new⟩
  insert := by
    rintro o l c e ⟨s, rfl, h⟩ _
    obtain ⟨s', i1, i2⟩ := tiebreaking_insert H rel c e pref uns evs s l h
    exact ⟨_, i1, s', rfl, i2⟩
  remove := by
    rintro o l g ⟨s, rfl, h⟩ hne
    obtain ⟨k, e, s', l1, l2, r1, r2, r3, r4, r5⟩ := BF.removeMin_rep h hne
    exact ⟨e, .tiebreaking pref uns evs s', g, l1 ++ l2, by simp only [OL.removeMin, r1, Option.map_some], ⟨k, l1, l2, r2, r3, r4, rfl⟩,
      s', rfl, r5⟩
  empty := by rintro o l ⟨s, rfl, h⟩; exact BF.empty_rep h
  boost := by rintro o l ⟨s, rfl, h⟩; exact ⟨s, rfl, h⟩
  clear := by rintro o l ⟨s, rfl, h⟩; exact ⟨_, rfl, BF.rep_new⟩
  dead := by rintro o l c ⟨s, rfl, h⟩; rw [isDeadEnd_iff]; rfl
  popPerm := by rintro l e l' ⟨k, l1, l2, rfl, _, _, rfl⟩; exact ⟨k, List.perm_middle⟩

/-- best-first open lists (C16) -/
def bestFirstSpec (H : StdHeap E) (rel : Nat → Bool) (pref : Bool) (ev : Nat) : OLSpec Int E H rel (.bestFirst pref ev) where
  R o l := ∃ s, o = .bestFirst pref ev s ∧ s.Rep l
  key c := c.value ev
  Pop := Spec.PopMin
  create := ⟨_, rfl, BF.rep_new⟩
  insert := by
    rintro o l c e ⟨s, rfl, h⟩ _
    obtain ⟨s', i1, i2⟩ := bestFirst_insert H rel c e pref ev s l h
    exact ⟨_, i1, s', rfl, i2⟩
  remove := by
    rintro o l g ⟨s, rfl, h⟩ hne
    obtain ⟨k, e, s', l1, l2, r1, r2, r3, r4, r5⟩ := BF.removeMin_rep h hne
    exact ⟨e, .bestFirst pref ev s', g, l1 ++ l2, by simp only [OL.removeMin, r1, Option.map_some], ⟨k, l1, l2, r2, r3, r4, rfl⟩,
      s', rfl, r5⟩
  empty := by rintro o l ⟨s, rfl, h⟩; exact BF.empty_rep h
  boost := by rintro o l ⟨s, rfl, h⟩; exact ⟨s, rfl, h⟩
  clear := by rintro o l ⟨s, rfl, h⟩; exact ⟨_, rfl, BF.rep_new⟩
  dead := by rintro o l c ⟨s, rfl, h⟩; rw [isDeadEnd_iff]; rfl
  popPerm := by rintro l e l' ⟨k, l1, l2, rfl, _, _, rfl⟩; exact ⟨k, List.perm_middle⟩

mutual
/-- some innermost list accepts entries that are not preferred -/
def Spec.Unrestricted : Cfg → Prop
  | .bestFirst pref _ => pref = false
  | .tiebreaking pref _ _ => pref = false
  | .pareto pref _ _ => pref = false
  | .epsilonGreedy pref _ _ _ => pref = false
  | .typeBased _ => True
  | .alternation _ subs => Spec.UnrestrictedAny subs
def Spec.UnrestrictedAny : List Cfg → Prop
  | [] => False
  | x :: xs => Spec.Unrestricted x ∨ Spec.UnrestrictedAny xs
end

mutual
/-- an entry all of whose evaluator values are finite is stored -/
theorem stored_of_finite (rel : Nat → Bool) (c : Ctx) : ∀ (cfg : Cfg), Spec.WF cfg → Spec.Unrestricted cfg →
    (∀ ev ∈ Spec.evaluators cfg, c.value ev ≠ infty) → 0 < Spec.copies rel c cfg
  | .bestFirst pref ev, hwf, hu, hf => by
    have hd : ¬ Spec.DeadEnd rel c (.bestFirst pref ev) := fun h => by
      obtain ⟨e, h1, h2⟩ := deadEnd_some rel c _ hwf h; exact hf e h1 h2
    simp only [Spec.Unrestricted] at hu
    simp only [Spec.copies]
    rw [if_pos ⟨by simp [hu], hd⟩]; omega
  | .tiebreaking pref uns evs, hwf, hu, hf => by
    have hd : ¬ Spec.DeadEnd rel c (.tiebreaking pref uns evs) := fun h => by
      obtain ⟨e, h1, h2⟩ := deadEnd_some rel c _ hwf h; exact hf e h1 h2
    simp only [Spec.Unrestricted] at hu
    simp only [Spec.copies]
    rw [if_pos ⟨by simp [hu], hd⟩]; omega
  | .pareto pref u evs, hwf, hu, hf => by
    have hd : ¬ Spec.DeadEnd rel c (.pareto pref u evs) := fun h => by
      obtain ⟨e, h1, h2⟩ := deadEnd_some rel c _ hwf h; exact hf e h1 h2
    simp only [Spec.Unrestricted] at hu
    simp only [Spec.copies]
    rw [if_pos ⟨by simp [hu], hd⟩]; omega
  | .epsilonGreedy pref ev p q, hwf, hu, hf => by
    have hd : ¬ Spec.DeadEnd rel c (.epsilonGreedy pref ev p q) := fun h => by
      obtain ⟨e, h1, h2⟩ := deadEnd_some rel c _ hwf h; exact hf e h1 h2
    simp only [Spec.Unrestricted] at hu
    simp only [Spec.copies]
    rw [if_pos ⟨by simp [hu], hd⟩]; omega
  | .typeBased evs, hwf, hu, hf => by
    have hd : ¬ Spec.DeadEnd rel c (.typeBased evs) := fun h => by
      obtain ⟨e, h1, h2⟩ := deadEnd_some rel c _ hwf h; exact hf e h1 h2
    simp only [Spec.copies]
    rw [if_pos hd]; omega
  | .alternation boost subs, hwf, hu, hf => by
    have hd : ¬ Spec.DeadEnd rel c (.alternation boost subs) := fun h => by
      obtain ⟨e, h1, h2⟩ := deadEnd_some rel c _ hwf h; exact hf e h1 h2
    simp only [Spec.copies]
    rw [if_neg hd]
    exact storedAll_of_finite rel c subs hwf.2 hu hf
theorem storedAll_of_finite (rel : Nat → Bool) (c : Ctx) : ∀ (cs : List Cfg), Spec.WFAll cs → Spec.UnrestrictedAny cs →
    (∀ ev ∈ Spec.evaluatorsAll cs, c.value ev ≠ infty) → 0 < Spec.copiesAll rel c cs
  | [], _, hu, _ => hu.elim
  | x :: xs, hwf, hu, hf => by
    simp only [Spec.WFAll] at hwf
    simp only [Spec.evaluatorsAll, List.mem_append] at hf
    simp only [Spec.copiesAll]
    rcases hu with hu | hu
    · have := stored_of_finite rel c x hwf.1 hu (fun ev h => hf ev (Or.inl h)); omega
    · have := storedAll_of_finite rel c xs hwf.2 hu (fun ev h => hf ev (Or.inr h)); omega
end

end Verif.OpenList
