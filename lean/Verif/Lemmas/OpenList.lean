import Verif.Spec.OpenList
import Verif.Lemmas.OpenListBF
import Verif.Lemmas.OpenListPareto
import Verif.Lemmas.OpenListEps

namespace Verif.OpenList

variable {E : Type}

mutual
/-- the options of an open list -/
def OL.cfg : OL E → Cfg
  | .bestFirst pref ev _ => .bestFirst pref ev
  | .tiebreaking pref uns evs _ => .tiebreaking pref uns evs
  | .pareto pref u evs _ => .pareto pref u evs
  | .epsilonGreedy pref ev p q _ => .epsilonGreedy pref ev p q
  | .typeBased evs _ => .typeBased evs
  | .alternation boost _ subs => .alternation boost (cfgAll subs)
def cfgAll : List (OL E) → List Cfg
  | [] => []
  | o :: os => o.cfg :: cfgAll os
end

theorem cfgAll_eq (os : List (OL E)) : cfgAll os = os.map OL.cfg := by
  induction os with
  | nil => rfl
  | cons o os ih => simp [cfgAll, ih]

mutual
theorem create_cfg : ∀ (c : Cfg), (create E c).cfg = c
  | .bestFirst _ _ => rfl
  | .tiebreaking _ _ _ => rfl
  | .pareto _ _ _ => rfl
  | .epsilonGreedy _ _ _ _ => rfl
  | .typeBased _ => rfl
  | .alternation _ subs => by simp only [create, OL.cfg, createAll_cfg subs]
theorem createAll_cfg : ∀ (cs : List Cfg), cfgAll (createAll E cs) = cs
  | [] => rfl
  | c :: cs => by simp only [createAll, cfgAll, create_cfg c, createAll_cfg cs]
end

/-! ### dead ends -/

theorem isInfinite_iff (c : Ctx) (ev : Nat) : c.isInfinite ev = true ↔ c.value ev = infty := by simp [Ctx.isInfinite]

theorem anyReliableInfinite_iff (rel : Nat → Bool) (c : Ctx) (evs : List Nat) :
    anyReliableInfinite rel c evs = true ↔ Spec.ReliableInfinite rel c evs := by
  simp [anyReliableInfinite, Spec.ReliableInfinite, Ctx.isInfinite]

theorem allInfinite_iff (c : Ctx) (evs : List Nat) : allInfinite c evs = true ↔ ∀ ev ∈ evs, c.value ev = infty := by
  simp [allInfinite, Ctx.isInfinite]

theorem firstInfinite_iff (c : Ctx) (evs : List Nat) : firstInfinite c evs = true ↔ ∃ ev, evs.head? = some ev ∧ c.value ev = infty := by
  cases evs <;> simp [firstInfinite, Ctx.isInfinite]

theorem reliableInfinite_append (rel : Nat → Bool) (c : Ctx) (a b : List Nat) :
    Spec.ReliableInfinite rel c (a ++ b) ↔ Spec.ReliableInfinite rel c a ∨ Spec.ReliableInfinite rel c b := by
  unfold Spec.ReliableInfinite
  simp only [List.mem_append]
  constructor
  · rintro ⟨ev, h | h, h2⟩
    · exact Or.inl ⟨ev, h, h2⟩
    · exact Or.inr ⟨ev, h, h2⟩
  · rintro (⟨ev, h, h2⟩ | ⟨ev, h, h2⟩)
    · exact ⟨ev, Or.inl h, h2⟩
    · exact ⟨ev, Or.inr h, h2⟩

theorem reliableInfinite_single (rel : Nat → Bool) (c : Ctx) (ev : Nat) :
    Spec.ReliableInfinite rel c [ev] ↔ c.value ev = infty ∧ rel ev = true := by simp [Spec.ReliableInfinite]

mutual
theorem isReliableDeadEnd_iff (rel : Nat → Bool) (c : Ctx) : ∀ (o : OL E),
    o.isReliableDeadEnd rel c = true ↔ Spec.ReliableInfinite rel c (Spec.evaluators o.cfg)
  | .bestFirst _ ev _ => by simp only [OL.isReliableDeadEnd, OL.cfg, Spec.evaluators, reliableInfinite_single, Bool.and_eq_true, isInfinite_iff]
  | .tiebreaking _ _ evs _ => by simp only [OL.isReliableDeadEnd, OL.cfg, Spec.evaluators, anyReliableInfinite_iff]
  | .pareto _ _ evs _ => by simp only [OL.isReliableDeadEnd, OL.cfg, Spec.evaluators, anyReliableInfinite_iff]
  | .epsilonGreedy _ ev _ _ _ => by simp only [OL.isReliableDeadEnd, OL.cfg, Spec.evaluators, reliableInfinite_single, Bool.and_eq_true, isInfinite_iff]
  | .typeBased evs _ => by simp only [OL.isReliableDeadEnd, OL.cfg, Spec.evaluators, anyReliableInfinite_iff]
  | .alternation _ _ subs => by simp only [OL.isReliableDeadEnd, OL.cfg, Spec.evaluators, anyReliable_iff rel c subs]
theorem anyReliable_iff (rel : Nat → Bool) (c : Ctx) : ∀ (os : List (OL E)),
    anyReliable rel c os = true ↔ Spec.ReliableInfinite rel c (Spec.evaluatorsAll (cfgAll os))
  | [] => by simp [anyReliable, cfgAll, Spec.evaluatorsAll, Spec.ReliableInfinite]
  | o :: os => by
    simp only [anyReliable, cfgAll, Spec.evaluatorsAll, reliableInfinite_append]
    rw [← isReliableDeadEnd_iff rel c o, ← anyReliable_iff rel c os]
    cases o.isReliableDeadEnd rel c <;> simp
end

mutual
theorem isDeadEnd_iff (rel : Nat → Bool) (c : Ctx) : ∀ (o : OL E), o.isDeadEnd rel c = true ↔ Spec.DeadEnd rel c o.cfg
  | .bestFirst _ ev _ => by simp only [OL.isDeadEnd, OL.cfg, Spec.DeadEnd, isInfinite_iff]
  | .tiebreaking _ _ evs _ => by
    simp only [OL.isDeadEnd, OL.cfg, Spec.DeadEnd, Bool.or_eq_true, Bool.and_eq_true, anyReliableInfinite_iff, allInfinite_iff, firstInfinite_iff, or_assoc]
  | .pareto _ _ evs _ => by simp only [OL.isDeadEnd, OL.cfg, Spec.DeadEnd, Bool.or_eq_true, anyReliableInfinite_iff, allInfinite_iff]
  | .epsilonGreedy _ ev _ _ _ => by simp only [OL.isDeadEnd, OL.cfg, Spec.DeadEnd, isInfinite_iff]
  | .typeBased evs _ => by simp only [OL.isDeadEnd, OL.cfg, Spec.DeadEnd, Bool.or_eq_true, anyReliableInfinite_iff, allInfinite_iff]
  | .alternation _ _ subs => by simp only [OL.isDeadEnd, OL.cfg, Spec.DeadEnd, Bool.or_eq_true, anyReliable_iff rel c subs, allDeadEnd_iff rel c subs]
theorem allDeadEnd_iff (rel : Nat → Bool) (c : Ctx) : ∀ (os : List (OL E)), allDeadEnd rel c os = true ↔ Spec.DeadEndAll rel c (cfgAll os)
  | [] => by simp [allDeadEnd, cfgAll, Spec.DeadEndAll]
  | o :: os => by
    simp only [allDeadEnd, cfgAll, Spec.DeadEndAll]
    rw [← isDeadEnd_iff rel c o, ← allDeadEnd_iff rel c os]
    cases o.isDeadEnd rel c <;> simp
end

/-! ### bags -/

mutual
/-- the open list stores the entries `l`, in some order -/
def OL.Holds : OL E → List E → Prop
  | .bestFirst _ _ s, l => ∃ kl, s.Rep kl ∧ l.Perm (kl.map Prod.snd)
  | .tiebreaking _ _ _ s, l => ∃ kl, s.Rep kl ∧ l.Perm (kl.map Prod.snd)
  | .pareto _ _ evs s, l => 0 < evs.length ∧ ∃ kl, s.Rep evs.length kl ∧ l.Perm (kl.map Prod.snd)
  | .epsilonGreedy _ _ _ _ s, l => ∃ kl, s.Rep kl ∧ l.Perm (kl.map Prod.snd)
  | .typeBased _ s, l => ∃ kl, s.Rep kl ∧ l.Perm (kl.map Prod.snd)
  | .alternation _ prios subs, l => prios.length = subs.length ∧ HoldsAll subs l
def HoldsAll : List (OL E) → List E → Prop
  | [], l => l = []
  | o :: os, l => ∃ l1 l2, o.Holds l1 ∧ HoldsAll os l2 ∧ l.Perm (l1 ++ l2)
end

theorem Holds.perm : ∀ {o : OL E} {l l' : List E}, o.Holds l → l'.Perm l → o.Holds l'
  | .bestFirst _ _ s, l, l', ⟨kl, h1, h2⟩, hp => ⟨kl, h1, hp.trans h2⟩
  | .tiebreaking _ _ _ s, l, l', ⟨kl, h1, h2⟩, hp => ⟨kl, h1, hp.trans h2⟩
  | .pareto _ _ evs s, l, l', ⟨h0, kl, h1, h2⟩, hp => ⟨h0, kl, h1, hp.trans h2⟩
  | .epsilonGreedy _ _ _ _ s, l, l', ⟨kl, h1, h2⟩, hp => ⟨kl, h1, hp.trans h2⟩
  | .typeBased _ s, l, l', ⟨kl, h1, h2⟩, hp => ⟨kl, h1, hp.trans h2⟩
  | .alternation _ prios [], l, l', ⟨h0, h1⟩, hp => by
    simp only [OL.Holds, HoldsAll] at h1 ⊢
    subst h1
    exact ⟨h0, by simpa using hp⟩
  | .alternation _ prios (o :: os), l, l', ⟨h0, h1⟩, hp => by
    simp only [OL.Holds, HoldsAll] at h1 ⊢
    obtain ⟨l1, l2, h2, h3, h4⟩ := h1
    exact ⟨h0, l1, l2, h2, h3, hp.trans h4⟩

theorem HoldsAll.perm {os : List (OL E)} {l l' : List E} (h : HoldsAll os l) (hp : l'.Perm l) : HoldsAll os l' := by
  cases os with
  | nil => simp only [HoldsAll] at h ⊢; subst h; simpa using hp
  | cons o os =>
    simp only [HoldsAll] at h ⊢
    obtain ⟨l1, l2, h2, h3, h4⟩ := h
    exact ⟨l1, l2, h2, h3, hp.trans h4⟩

mutual
theorem create_holds : ∀ (c : Cfg), Spec.WF c → (create E c).Holds []
  | .bestFirst _ _, _ => ⟨[], BF.rep_new, by simp⟩
  | .tiebreaking _ _ _, _ => ⟨[], BF.rep_new, by simp⟩
  | .pareto _ _ evs, h => ⟨List.length_pos_iff.mpr (by simpa [Spec.WF] using h), [], Pareto.rep_new _, by simp⟩
  | .epsilonGreedy _ _ _ _, _ => ⟨[], Eps.rep_new, by simp⟩
  | .typeBased _, _ => ⟨[], TB.rep_new, by simp⟩
  | .alternation _ subs, h => by
    simp only [create, OL.Holds]
    simp only [Spec.WF] at h
    exact ⟨by rw [List.length_map]; exact (createAll_length subs).symm, createAll_holds subs h.2⟩
theorem createAll_holds : ∀ (cs : List Cfg), Spec.WFAll cs → HoldsAll (createAll E cs) []
  | [], _ => rfl
  | c :: cs, h => by
    simp only [Spec.WFAll] at h
    exact ⟨[], [], create_holds c h.1, createAll_holds cs h.2, by simp⟩
theorem createAll_length : ∀ (cs : List Cfg), (createAll E cs).length = cs.length
  | [] => rfl
  | c :: cs => by simp only [createAll, List.length_cons, createAll_length cs]
end

mutual
theorem empty_iff : ∀ (o : OL E) (l : List E), o.Holds l → (o.empty = true ↔ l = [])
  | .bestFirst _ _ s, l, ⟨kl, h1, h2⟩ => by
    simp only [OL.empty]; rw [BF.empty_rep h1]
    constructor
    · rintro rfl; simpa using h2
    · rintro rfl; simpa using h2
  | .tiebreaking _ _ _ s, l, ⟨kl, h1, h2⟩ => by
    simp only [OL.empty]; rw [BF.empty_rep h1]
    constructor
    · rintro rfl; simpa using h2
    · rintro rfl; simpa using h2
  | .pareto _ _ evs s, l, ⟨h0, kl, h1, h2⟩ => by
    simp only [OL.empty]; rw [Pareto.empty_rep h1]
    constructor
    · rintro rfl; simpa using h2
    · rintro rfl; simpa using h2
  | .epsilonGreedy _ _ _ _ s, l, ⟨kl, h1, h2⟩ => by
    simp only [OL.empty]; rw [Eps.empty_rep h1]
    constructor
    · rintro rfl; simpa using h2
    · rintro rfl; simpa using h2
  | .typeBased _ s, l, ⟨kl, h1, h2⟩ => by
    simp only [OL.empty]; rw [TB.empty_rep h1]
    constructor
    · rintro rfl; simpa using h2
    · rintro rfl; simpa using h2
  | .alternation _ prios subs, l, ⟨h0, h1⟩ => by
    simp only [OL.empty]; exact allEmpty_iff subs l h1
theorem allEmpty_iff : ∀ (os : List (OL E)) (l : List E), HoldsAll os l → (allEmpty os = true ↔ l = [])
  | [], l, h => by simp only [HoldsAll] at h; simp [allEmpty, h]
  | o :: os, l, ⟨l1, l2, h1, h2, h3⟩ => by
    simp only [allEmpty]
    have i1 := empty_iff o l1 h1
    have i2 := allEmpty_iff os l2 h2
    cases ho : o.empty with
    | false =>
      simp only [Bool.not_false, if_true, Bool.false_eq_true, false_iff]
      rintro rfl
      have := h3.symm.eq_nil
      rw [List.append_eq_nil_iff] at this
      rw [i1.2 this.1] at ho; simp at ho
    | true =>
      simp only [Bool.not_true, Bool.false_eq_true, if_false]
      rw [i2]
      have hl1 := i1.1 ho
      subst hl1
      constructor
      · rintro rfl; simpa using h3
      · rintro rfl; simpa using h3
end

mutual
theorem clear_holds : ∀ (o : OL E) (l : List E), o.Holds l → o.clear.Holds [] ∧ o.clear.cfg = o.cfg
  | .bestFirst _ _ s, l, _ => ⟨⟨[], BF.rep_new, by simp⟩, rfl⟩
  | .tiebreaking _ _ _ s, l, _ => ⟨⟨[], BF.rep_new, by simp⟩, rfl⟩
  | .pareto _ _ evs s, l, ⟨h0, _⟩ => ⟨⟨h0, [], Pareto.rep_new _, by simp⟩, rfl⟩
  | .epsilonGreedy _ _ _ _ s, l, _ => ⟨⟨[], Eps.rep_new, by simp⟩, rfl⟩
  | .typeBased _ s, l, _ => ⟨⟨[], TB.rep_new, by simp⟩, rfl⟩
  | .alternation _ prios subs, l, ⟨h0, h1⟩ => by
    obtain ⟨i1, i2, i3⟩ := clearAll_holds subs l h1
    simp only [OL.clear, OL.Holds, OL.cfg, i2, i3]
    exact ⟨⟨h0, i1⟩, trivial⟩
theorem clearAll_holds : ∀ (os : List (OL E)) (l : List E), HoldsAll os l →
    HoldsAll (clearAll os) [] ∧ cfgAll (clearAll os) = cfgAll os ∧ (clearAll os).length = os.length
  | [], l, _ => ⟨rfl, rfl, rfl⟩
  | o :: os, l, ⟨l1, l2, h1, h2, h3⟩ => by
    obtain ⟨i1, i2, i3⟩ := clearAll_holds os l2 h2
    obtain ⟨j1, j2⟩ := clear_holds o l1 h1
    refine ⟨⟨[], [], j1, i1, by simp⟩, ?_, ?_⟩
    · simp only [clearAll, cfgAll, i2, j2]
    · simp only [clearAll, List.length_cons, i3]
end

theorem boostLoop_length (boost : Int) : ∀ (os : List (OL E)) (ps : List Int), (boostLoop boost os ps).length = ps.length
  | [], ps => by simp [boostLoop]
  | _ :: _, [] => by simp [boostLoop]
  | _ :: os, _ :: ps => by simp [boostLoop, boostLoop_length boost os ps]

theorem boost_holds : ∀ (o : OL E) (l : List E), o.Holds l → o.boostPreferred.Holds l ∧ o.boostPreferred.cfg = o.cfg
  | .bestFirst _ _ s, l, h => ⟨h, rfl⟩
  | .tiebreaking _ _ _ s, l, h => ⟨h, rfl⟩
  | .pareto _ _ evs s, l, h => ⟨h, rfl⟩
  | .epsilonGreedy _ _ _ _ s, l, h => ⟨h, rfl⟩
  | .typeBased _ s, l, h => ⟨h, rfl⟩
  | .alternation _ prios subs, l, ⟨h0, h1⟩ => ⟨⟨by rw [boostLoop_length]; exact h0, h1⟩, rfl⟩

/-! ### the number of stored entries is determined -/

theorem BF.rep_length {K : Type} [LinearOrder K] {s : BF K E} {a b : List (K × E)} (h1 : s.Rep a) (h2 : s.Rep b) : a.length = b.length := by
  have := h1.size; have := h2.size; omega

theorem Pareto.rep_length {d : Nat} {s : Pareto E} {a b : List (List Int × E)} (h1 : s.Rep d a) (h2 : s.Rep d b) : a.length = b.length := by
  -- remove entries one by one with a fixed random stream
  by_cases hd : d = 0
  · -- all keys are empty
    subst hd
    have key : ∀ {l : List (List Int × E)}, s.Rep 0 l → l.length = (s.buckets.flatMap (·.2)).length := by
      intro l h
      have hk : ∀ x ∈ l, x.1 = [] := fun x hx => List.length_eq_zero_iff.mp (h.len x hx)
      cases l with
      | nil =>
        cases hb : s.buckets with
        | nil => simp
        | cons p ps =>
          obtain ⟨h3, h4⟩ := h.bucket p (by rw [hb]; simp)
          simp only [List.filter_nil, List.map_nil] at h4
          exact absurd h4 h3
      | cons x xs =>
        obtain ⟨p, hp, hpx⟩ := h.cover x (by simp)
        have hpk : p.1 = [] := by rw [hpx]; exact hk x (by simp)
        have hall : s.buckets = [p] := by
          have hn := h.nodup
          have hq : ∀ q ∈ s.buckets, q.1 = [] := by
            intro q hq
            obtain ⟨y, hy, hyq⟩ := (h.key_iff q.1).1 ⟨q, hq, rfl⟩
            rw [← hyq]; exact hk y hy
          cases hb : s.buckets with
          | nil => rw [hb] at hp; simp at hp
          | cons q qs =>
            cases qs with
            | nil => rw [hb] at hp; simp at hp; rw [hp]
            | cons r rs =>
              exfalso
              rw [hb] at hn hq
              simp only [List.map_cons, List.nodup_cons, List.mem_cons] at hn
              exact hn.1 (Or.inl (by rw [hq q (by simp), hq r (by simp)]))
        rw [hall]
        obtain ⟨_, h4⟩ := h.bucket p hp
        simp only [List.flatMap_cons, List.flatMap_nil, List.append_nil]
        rw [h4, List.length_map]
        congr 1
        symm
        rw [List.filter_eq_self]
        intro y hy
        simp [hk y hy, hpk]
    rw [key h1, key h2]
  · have : ∀ (n : Nat) (s : Pareto E) (a b : List (List Int × E)), a.length = n → s.Rep d a → s.Rep d b → a.length = b.length := by
      intro n
      induction n with
      | zero =>
        intro s a b hn ha hb
        have : a = [] := List.length_eq_zero_iff.mp hn
        subst this
        have := (Pareto.empty_rep hb).1 ((Pareto.empty_rep ha).2 rfl)
        rw [this]
      | succ n ih =>
        intro s a b hn ha hb
        have hane : a ≠ [] := by rintro rfl; simp at hn
        have hbne : b ≠ [] := fun h => hane ((Pareto.empty_rep ha).1 ((Pareto.empty_rep hb).2 h))
        obtain ⟨k, e, s', g', l1, l2, r1, r2, _, _, r5⟩ := Pareto.removeMin_rep (by omega) false ha hane ⟨fun _ => 0, 0⟩
        obtain ⟨k', e', s'', g'', l1', l2', q1, q2, _, _, q5⟩ := Pareto.removeMin_rep (by omega) false hb hbne ⟨fun _ => 0, 0⟩
        rw [r1] at q1
        simp only [Option.some.injEq, Prod.mk.injEq] at q1
        obtain ⟨_, rfl, _⟩ := q1
        have := ih s' _ _ (by rw [r2] at hn; simp only [List.length_append, List.length_cons] at hn ⊢; omega) r5 q5
        rw [r2, q2]
        simp only [List.length_append, List.length_cons] at this ⊢
        omega
    exact this _ s a b rfl h1 h2

theorem Eps.rep_length {s : Eps E} {a b : List (Int × E)} (h1 : s.Rep a) (h2 : s.Rep b) : a.length = b.length := by
  obtain ⟨_, _, _, _, _, _, h3⟩ := h1
  obtain ⟨_, _, _, _, _, _, h4⟩ := h2
  omega

theorem TB.rep_length {s : TB E} {a b : List (List Int × E)} (h1 : s.Rep a) (h2 : s.Rep b) : a.length = b.length := by
  rw [h1.perm.length_eq, h2.perm.length_eq]

mutual
theorem holds_length : ∀ (o : OL E) (a b : List E), o.Holds a → o.Holds b → a.length = b.length
  | .bestFirst _ _ s, a, b, ⟨ka, h1, h2⟩, ⟨kb, h3, h4⟩ => by
    rw [h2.length_eq, h4.length_eq, List.length_map, List.length_map, BF.rep_length h1 h3]
  | .tiebreaking _ _ _ s, a, b, ⟨ka, h1, h2⟩, ⟨kb, h3, h4⟩ => by
    rw [h2.length_eq, h4.length_eq, List.length_map, List.length_map, BF.rep_length h1 h3]
  | .pareto _ _ evs s, a, b, ⟨_, ka, h1, h2⟩, ⟨_, kb, h3, h4⟩ => by
    rw [h2.length_eq, h4.length_eq, List.length_map, List.length_map, Pareto.rep_length h1 h3]
  | .epsilonGreedy _ _ _ _ s, a, b, ⟨ka, h1, h2⟩, ⟨kb, h3, h4⟩ => by
    rw [h2.length_eq, h4.length_eq, List.length_map, List.length_map, Eps.rep_length h1 h3]
  | .typeBased _ s, a, b, ⟨ka, h1, h2⟩, ⟨kb, h3, h4⟩ => by
    rw [h2.length_eq, h4.length_eq, List.length_map, List.length_map, TB.rep_length h1 h3]
  | .alternation _ prios subs, a, b, ⟨_, h1⟩, ⟨_, h2⟩ => holdsAll_length subs a b h1 h2
theorem holdsAll_length : ∀ (os : List (OL E)) (a b : List E), HoldsAll os a → HoldsAll os b → a.length = b.length
  | [], a, b, h1, h2 => by simp only [HoldsAll] at h1 h2; rw [h1, h2]
  | o :: os, a, b, ⟨a1, a2, h1, h2, h3⟩, ⟨b1, b2, h4, h5, h6⟩ => by
    have := holds_length o a1 b1 h1 h4
    have := holdsAll_length os a2 b2 h2 h5
    rw [h3.length_eq, h6.length_eq, List.length_append, List.length_append]
    omega
end

/-! ### insertion -/

/-- the values the caller may provide -/
def LegalCtx (c : Ctx) : Prop := ∀ ev, intMin < c.value ev

theorem getValue_eq {c : Ctx} {ev : Nat} (h : c.value ev ≠ infty) : c.getValue ev = some (c.value ev) := by
  simp [Ctx.getValue, h]

theorem bestFirst_insert (H : StdHeap E) (rel : Nat → Bool) (c : Ctx) (e : E) (pref : Bool) (ev : Nat) (s : BF Int E) (kl : List (Int × E)) (h : s.Rep kl) :
    ∃ s', (OL.bestFirst pref ev s).insert H rel c e = some (.bestFirst pref ev s') ∧
      s'.Rep (kl ++ List.replicate (Spec.copies rel c (.bestFirst pref ev)) (c.value ev, e)) := by
  simp only [OL.insert, Spec.copies]
  split
  · rename_i hp
    rw [if_neg (by intro hc; simp only [Bool.and_eq_true, Bool.not_eq_true'] at hp; rw [hc.1 hp.1] at hp; simp at hp)]
    exact ⟨s, rfl, by simpa using h⟩
  · rename_i hp
    split
    · rename_i hd
      rw [isDeadEnd_iff] at hd
      rw [if_neg (by simp only [OL.cfg] at hd; tauto)]
      exact ⟨s, rfl, by simpa using h⟩
    · rename_i hd
      rw [isDeadEnd_iff] at hd
      simp only [OL.cfg] at hd
      rw [if_pos ⟨by intro hpt; simpa [hpt] using hp, hd⟩]
      simp only [Spec.DeadEnd] at hd
      exact ⟨s.insert (c.value ev) e, by simp [OL.insertLeaf, getValue_eq hd], BF.insert_rep h _ _⟩

theorem tiebreaking_insert (H : StdHeap E) (rel : Nat → Bool) (c : Ctx) (e : E) (pref uns : Bool) (evs : List Nat) (s : BF (List Int) E)
    (kl : List (List Int × E)) (h : s.Rep kl) :
    ∃ s', (OL.tiebreaking pref uns evs s).insert H rel c e = some (.tiebreaking pref uns evs s') ∧
      s'.Rep (kl ++ List.replicate (Spec.copies rel c (.tiebreaking pref uns evs)) (evs.map c.value, e)) := by
  simp only [OL.insert, Spec.copies]
  split
  · rename_i hp
    rw [if_neg (by intro hc; simp only [Bool.and_eq_true, Bool.not_eq_true'] at hp; rw [hc.1 hp.1] at hp; simp at hp)]
    exact ⟨s, rfl, by simpa using h⟩
  · rename_i hp
    split
    · rename_i hd
      rw [isDeadEnd_iff] at hd
      rw [if_neg (by simp only [OL.cfg] at hd; tauto)]
      exact ⟨s, rfl, by simpa using h⟩
    · rename_i hd
      rw [isDeadEnd_iff] at hd
      simp only [OL.cfg] at hd
      rw [if_pos ⟨by intro hpt; simpa [hpt] using hp, hd⟩]
      exact ⟨s.insert (evs.map c.value) e, rfl, BF.insert_rep h _ _⟩

theorem pareto_insert (H : StdHeap E) (rel : Nat → Bool) (c : Ctx) (e : E) (pref u : Bool) (evs : List Nat) (s : Pareto E)
    (kl : List (List Int × E)) (h : s.Rep evs.length kl) :
    ∃ s', (OL.pareto pref u evs s).insert H rel c e = some (.pareto pref u evs s') ∧
      s'.Rep evs.length (kl ++ List.replicate (Spec.copies rel c (.pareto pref u evs)) (evs.map c.value, e)) := by
  simp only [OL.insert, Spec.copies]
  split
  · rename_i hp
    rw [if_neg (by intro hc; simp only [Bool.and_eq_true, Bool.not_eq_true'] at hp; rw [hc.1 hp.1] at hp; simp at hp)]
    exact ⟨s, rfl, by simpa using h⟩
  · rename_i hp
    split
    · rename_i hd
      rw [isDeadEnd_iff] at hd
      rw [if_neg (by simp only [OL.cfg] at hd; tauto)]
      exact ⟨s, rfl, by simpa using h⟩
    · rename_i hd
      rw [isDeadEnd_iff] at hd
      simp only [OL.cfg] at hd
      rw [if_pos ⟨by intro hpt; simpa [hpt] using hp, hd⟩]
      exact ⟨s.insert (evs.map c.value) e, rfl, Pareto.insert_rep h _ _ (by simp)⟩

theorem epsilonGreedy_insert (H : StdHeap E) (rel : Nat → Bool) (c : Ctx) (hc : LegalCtx c) (e : E) (pref : Bool) (ev p q : Nat) (s : Eps E)
    (kl : List (Int × E)) (h : s.Rep kl) :
    ∃ s', (OL.epsilonGreedy pref ev p q s).insert H rel c e = some (.epsilonGreedy pref ev p q s') ∧
      s'.Rep (kl ++ List.replicate (Spec.copies rel c (.epsilonGreedy pref ev p q)) (c.value ev, e)) := by
  simp only [OL.insert, Spec.copies]
  split
  · rename_i hp
    rw [if_neg (by intro hc; simp only [Bool.and_eq_true, Bool.not_eq_true'] at hp; rw [hc.1 hp.1] at hp; simp at hp)]
    exact ⟨s, rfl, by simpa using h⟩
  · rename_i hp
    split
    · rename_i hd
      rw [isDeadEnd_iff] at hd
      rw [if_neg (by simp only [OL.cfg] at hd; tauto)]
      exact ⟨s, rfl, by simpa using h⟩
    · rename_i hd
      rw [isDeadEnd_iff] at hd
      simp only [OL.cfg] at hd
      rw [if_pos ⟨by intro hpt; simpa [hpt] using hp, hd⟩]
      simp only [Spec.DeadEnd] at hd
      exact ⟨s.insert H (c.value ev) e, by simp [OL.insertLeaf, getValue_eq hd], Eps.insert_rep H h _ _ (hc ev)⟩

theorem typeBased_insert (H : StdHeap E) (rel : Nat → Bool) (c : Ctx) (e : E) (evs : List Nat) (s : TB E)
    (kl : List (List Int × E)) (h : s.Rep kl) :
    ∃ s', (OL.typeBased evs s).insert H rel c e = some (.typeBased evs s') ∧
      s'.Rep (kl ++ List.replicate (Spec.copies rel c (.typeBased evs)) (evs.map c.value, e)) := by
  simp only [OL.insert, Spec.copies]
  split
  · rename_i hd
    rw [isDeadEnd_iff] at hd
    rw [if_neg (by simp only [OL.cfg] at hd; tauto)]
    exact ⟨s, rfl, by simpa using h⟩
  · rename_i hd
    rw [isDeadEnd_iff] at hd
    simp only [OL.cfg] at hd
    rw [if_pos hd]
    obtain ⟨s', h1, h2⟩ := TB.insert_rep h (evs.map c.value) e
    exact ⟨s', by simp only [OL.insertLeaf, Ctx.key, h1, Option.map_some], h2⟩

theorem perm_replicate_snd {K : Type} {l : List E} {kl : List (K × E)} (h : l.Perm (kl.map Prod.snd)) (n : Nat) (k : K) (e : E) :
    (l ++ List.replicate n e).Perm ((kl ++ List.replicate n (k, e)).map Prod.snd) := by
  rw [List.map_append, List.map_replicate]
  exact h.append_right _

mutual
theorem insert_holds (H : StdHeap E) (rel : Nat → Bool) (c : Ctx) (hc : LegalCtx c) (e : E) : ∀ (o : OL E) (l : List E), o.Holds l →
    ∃ o', o.insert H rel c e = some o' ∧ o'.cfg = o.cfg ∧ o'.Holds (l ++ List.replicate (Spec.copies rel c o.cfg) e)
  | .bestFirst pref ev s, l, ⟨kl, h1, h2⟩ => by
    obtain ⟨s', i1, i2⟩ := bestFirst_insert H rel c e pref ev s kl h1
    exact ⟨_, i1, rfl, _, i2, perm_replicate_snd h2 _ _ _⟩
  | .tiebreaking pref uns evs s, l, ⟨kl, h1, h2⟩ => by
    obtain ⟨s', i1, i2⟩ := tiebreaking_insert H rel c e pref uns evs s kl h1
    exact ⟨_, i1, rfl, _, i2, perm_replicate_snd h2 _ _ _⟩
  | .pareto pref u evs s, l, ⟨h0, kl, h1, h2⟩ => by
    obtain ⟨s', i1, i2⟩ := pareto_insert H rel c e pref u evs s kl h1
    exact ⟨_, i1, rfl, h0, _, i2, perm_replicate_snd h2 _ _ _⟩
  | .epsilonGreedy pref ev p q s, l, ⟨kl, h1, h2⟩ => by
    obtain ⟨s', i1, i2⟩ := epsilonGreedy_insert H rel c hc e pref ev p q s kl h1
    exact ⟨_, i1, rfl, _, i2, perm_replicate_snd h2 _ _ _⟩
  | .typeBased evs s, l, ⟨kl, h1, h2⟩ => by
    obtain ⟨s', i1, i2⟩ := typeBased_insert H rel c e evs s kl h1
    exact ⟨_, i1, rfl, _, i2, perm_replicate_snd h2 _ _ _⟩
  | .alternation boost prios subs, l, ⟨h0, h1⟩ => by
    have hd := isDeadEnd_iff rel c (OL.alternation boost prios subs)
    simp only [OL.isDeadEnd, OL.cfg] at hd
    simp only [OL.insert, OL.cfg, Spec.copies]
    split
    · rename_i hdd
      rw [if_pos (hd.1 hdd)]
      exact ⟨_, rfl, rfl, h0, by simpa using h1⟩
    · rename_i hdd
      rw [if_neg (fun hx => hdd (hd.2 hx))]
      obtain ⟨subs', i1, i2, i3, i4⟩ := insertAll_holds H rel c hc e subs l h1
      rw [i1]
      refine ⟨_, rfl, ?_, ?_, i3⟩
      · simp only [OL.cfg, i2]
      · rw [h0, i4]
theorem insertAll_holds (H : StdHeap E) (rel : Nat → Bool) (c : Ctx) (hc : LegalCtx c) (e : E) : ∀ (os : List (OL E)) (l : List E), HoldsAll os l →
    ∃ os', insertAll H rel c e os = some os' ∧ cfgAll os' = cfgAll os ∧ HoldsAll os' (l ++ List.replicate (Spec.copiesAll rel c (cfgAll os)) e) ∧ os'.length = os.length
  | [], l, h => by
    simp only [HoldsAll] at h
    subst h
    exact ⟨[], rfl, rfl, by simp [HoldsAll, cfgAll, Spec.copiesAll], rfl⟩
  | o :: os, l, ⟨l1, l2, h1, h2, h3⟩ => by
    obtain ⟨o', i1, i2, i3⟩ := insert_holds H rel c hc e o l1 h1
    obtain ⟨os', j1, j2, j3, j4⟩ := insertAll_holds H rel c hc e os l2 h2
    refine ⟨o' :: os', by simp only [insertAll, i1, j1, Option.bind_some, Option.map_some], by simp only [cfgAll, i2, j2], ?_, by simp only [List.length_cons, j4]⟩
    refine ⟨_, _, i3, j3, ?_⟩
    simp only [cfgAll, Spec.copiesAll, List.replicate_add]
    refine (h3.append_right _).trans ?_
    simp only [List.append_assoc]
    refine List.Perm.append_left _ ?_
    rw [← List.append_assoc, ← List.append_assoc]
    exact List.perm_append_comm.append_right _
end

/-! ### removal -/

/-- alternation_open_list.cc:62-68 finds the first non-empty sublist with minimal priority -/
theorem bestLoop_spec : ∀ (os : List (OL E)) (ps : List Int) (i : Nat) (best : Option (Nat × Int)), ps.length = os.length →
    (bestLoop i best os ps = none → best = none ∧ ∀ o ∈ os, o.empty = true) ∧
    (∀ b p, bestLoop i best os ps = some (b, p) →
      ((best = some (b, p) ∧ ∀ (j : Nat) (o : OL E) (q : Int), os[j]? = some o → o.empty = false → ps[j]? = some q → p ≤ q) ∨
       (∃ (j : Nat) (o : OL E), b = i + j ∧ os[j]? = some o ∧ o.empty = false ∧ ps[j]? = some p ∧
        (∀ b' p', best = some (b', p') → p < p') ∧
        (∀ (j' : Nat) (o' : OL E) (q : Int), os[j']? = some o' → o'.empty = false → ps[j']? = some q → p ≤ q ∧ (j' < j → p < q)))))
  | [], ps, i, best, h => by
    simp only [bestLoop]
    refine ⟨fun h => ⟨h, by simp⟩, ?_⟩
    intro b p hb
    exact Or.inl ⟨hb, by simp⟩
  | o :: os, [], i, best, h => by simp at h
  | o :: os, pr :: ps, i, best, h => by
    have hlen : ps.length = os.length := by simpa using h
    have IH := bestLoop_spec os ps (i + 1) (better o.empty i pr best) hlen
    simp only [bestLoop]
    generalize hnb : (better o.empty i pr best) = nb at IH ⊢
    obtain ⟨IH1, IH2⟩ := IH
    constructor
    · intro hn
      obtain ⟨h1, h2⟩ := IH1 hn
      subst h1
      cases best with
      | some bp =>
        obtain ⟨b, pb⟩ := bp
        simp only [better] at hnb
        split at hnb <;> simp at hnb
      | none =>
        simp only [better] at hnb
        cases ho : o.empty with
        | true =>
          refine ⟨rfl, ?_⟩
          intro o' ho'
          rcases List.mem_cons.mp ho' with rfl | ho'
          · exact ho
          · exact h2 o' ho'
        | false => rw [ho] at hnb; simp at hnb
    · intro b p hb
      have hnbne : o.empty = false → ∃ x, nb = some x ∧ x.2 ≤ pr := by
        intro ho
        rw [ho] at hnb
        cases best with
        | none => simp only [better, Bool.false_eq_true, if_false] at hnb; exact ⟨_, hnb.symm, Int.le_refl _⟩
        | some bp =>
          obtain ⟨b1, pb⟩ := bp
          simp only [better, Bool.not_false, Bool.true_and, decide_eq_true_eq] at hnb
          split at hnb
          · exact ⟨_, hnb.symm, Int.le_refl _⟩
          · rename_i hh; exact ⟨_, hnb.symm, by simp only; omega⟩
      have hnbbest : ∀ b' p', best = some (b', p') → ∃ x, nb = some x ∧ x.2 ≤ p' := by
        rintro b' p' rfl
        simp only [better, Bool.and_eq_true, decide_eq_true_eq] at hnb
        split at hnb
        · rename_i hh; exact ⟨_, hnb.symm, by simp only; omega⟩
        · exact ⟨_, hnb.symm, Int.le_refl _⟩
      rcases IH2 b p hb with ⟨h1, h2⟩ | ⟨j, o', h1, h2, h3, h4, h5, h6⟩
      · -- the new best was kept
        subst h1
        by_cases hcase : best = some (b, p) ∧ (o.empty = false → p ≤ pr)
        · left
          refine ⟨hcase.1, ?_⟩
          intro j o' q hj ho' hq
          cases j with
          | zero =>
            simp only [List.getElem?_cons_zero, Option.some.injEq] at hj hq
            subst hj hq
            exact hcase.2 ho'
          | succ j =>
            simp only [List.getElem?_cons_succ] at hj hq
            exact h2 j o' q hj ho' hq
        · right
          -- o itself is the best
          have ho : o.empty = false := by
            cases ho : o.empty with
            | false => rfl
            | true =>
              exfalso
              rw [ho] at hnb
              cases best with
              | none => simp [better] at hnb
              | some bp =>
                obtain ⟨b1, pb⟩ := bp
                simp only [better, Bool.not_true, Bool.false_and, Bool.false_eq_true, if_false] at hnb
                exact hcase ⟨hnb, by simp [ho]⟩
          obtain ⟨x, hx, hxle⟩ := hnbne ho
          simp only [Option.some.injEq] at hx
          subst hx
          have hbp : (b, p) = (i, pr) ∧ ∀ b' p', best = some (b', p') → pr < p' := by
            rw [ho] at hnb
            cases best with
            | none =>
              simp only [better, Bool.false_eq_true, if_false, Option.some.injEq] at hnb
              exact ⟨hnb.symm, by simp⟩
            | some bp =>
              obtain ⟨b1, p1⟩ := bp
              simp only [better, Bool.not_false, Bool.true_and, decide_eq_true_eq] at hnb
              split at hnb
              · rename_i hlt
                simp only [Option.some.injEq] at hnb
                refine ⟨hnb.symm, ?_⟩
                intro b' p' hbp
                simp only [Option.some.injEq, Prod.mk.injEq] at hbp
                omega
              · exact absurd ⟨hnb, fun _ => hxle⟩ hcase
          obtain ⟨hbp1, hbp2⟩ := hbp
          simp only [Prod.mk.injEq] at hbp1
          obtain ⟨rfl, rfl⟩ := hbp1
          refine ⟨0, o, rfl, rfl, ho, rfl, hbp2, ?_⟩
          intro j' o' q hj ho' hq
          cases j' with
          | zero =>
            simp only [List.getElem?_cons_zero, Option.some.injEq] at hq
            exact ⟨by omega, by omega⟩
          | succ j =>
            simp only [List.getElem?_cons_succ] at hj hq
            exact ⟨h2 j o' q hj ho' hq, by omega⟩
      · right
        refine ⟨j + 1, o', by omega, by simpa using h2, h3, by simpa using h4, ?_, ?_⟩
        · intro b' p' hbp
          obtain ⟨x, hx, hxle⟩ := hnbbest b' p' hbp
          have := h5 x.1 x.2 hx
          omega
        · intro j' o'' q hj ho' hq
          cases j' with
          | zero =>
            simp only [List.getElem?_cons_zero, Option.some.injEq] at hj hq
            subst hj hq
            obtain ⟨x, hx, hxle⟩ := hnbne ho'
            have := h5 x.1 x.2 hx
            exact ⟨by omega, by omega⟩
          | succ j' =>
            simp only [List.getElem?_cons_succ] at hj hq
            obtain ⟨h7, h8⟩ := h6 j' o'' q hj ho' hq
            exact ⟨h7, fun hlt => h8 (by omega)⟩

theorem removeNth_eq (H : StdHeap E) (g : Rng) : ∀ (os : List (OL E)) (n : Nat) (o : OL E), os[n]? = some o →
    removeNth H g n os = (o.removeMin H g).map (fun r => (r.1, os.set n r.2.1, r.2.2))
  | [], n, o, h => by simp at h
  | o' :: os, 0, o, h => by
    simp only [List.getElem?_cons_zero, Option.some.injEq] at h
    subst h
    simp [removeNth]
  | o' :: os, n + 1, o, h => by
    simp only [List.getElem?_cons_succ] at h
    simp only [removeNth, removeNth_eq H g os n o h, Option.map_map]
    rfl

theorem HoldsAll.split : ∀ {os : List (OL E)} {l : List E} {n : Nat} {o : OL E}, HoldsAll os l → os[n]? = some o →
    ∃ lo rest, o.Holds lo ∧ l.Perm (lo ++ rest) ∧ ∀ o' lo', o'.Holds lo' → HoldsAll (os.set n o') (lo' ++ rest)
  | [], l, n, o, _, h => by simp at h
  | o1 :: os, l, 0, o, ⟨l1, l2, h1, h2, h3⟩, h => by
    simp only [List.getElem?_cons_zero, Option.some.injEq] at h
    subst h
    refine ⟨l1, l2, h1, h3, ?_⟩
    intro o' lo' ho'
    exact ⟨lo', l2, ho', h2, List.Perm.refl _⟩
  | o1 :: os, l, n + 1, o, ⟨l1, l2, h1, h2, h3⟩, h => by
    simp only [List.getElem?_cons_succ] at h
    obtain ⟨lo, rest, i1, i2, i3⟩ := HoldsAll.split h2 h
    refine ⟨lo, l1 ++ rest, i1, ?_, ?_⟩
    · refine h3.trans ?_
      refine (i2.append_left _).trans ?_
      rw [← List.append_assoc, ← List.append_assoc]
      exact List.perm_append_comm.append_right _
    · intro o' lo' ho'
      refine ⟨l1, lo' ++ rest, h1, i3 o' lo' ho', ?_⟩
      rw [← List.append_assoc, ← List.append_assoc]
      exact List.perm_append_comm.append_right _

theorem perm_pop {K : Type} {l : List E} {kl l1 l2 : List (K × E)} {k : K} {e : E} (h : l.Perm (kl.map Prod.snd)) (h2 : kl = l1 ++ (k, e) :: l2) :
    l.Perm (e :: (l1 ++ l2).map Prod.snd) := by
  refine h.trans ?_
  rw [h2]
  simp only [List.map_append, List.map_cons]
  exact List.perm_middle

/-- what a removal from an alternation list does -/
theorem alternation_removeMin (H : StdHeap E) (g : Rng) (boost : Int) (prios : List Int) (subs : List (OL E)) (hlen : prios.length = subs.length)
    (hne : ∃ o ∈ subs, o.empty = false) :
    ∃ (i : Nat) (o : OL E) (p : Int), subs[i]? = some o ∧ o.empty = false ∧ prios[i]? = some p ∧
      (∀ (j : Nat) (o' : OL E) (q : Int), subs[j]? = some o' → o'.empty = false → prios[j]? = some q → p ≤ q ∧ (j < i → p < q)) ∧
      (OL.alternation boost prios subs).removeMin H g =
        (o.removeMin H g).map (fun r => (r.1, .alternation boost (prios.set i (p + 1)) (subs.set i r.2.1), r.2.2)) := by
  obtain ⟨s1, s2⟩ := bestLoop_spec subs prios 0 none hlen
  cases hb : bestLoop 0 none subs prios with
  | none =>
    obtain ⟨o, ho, he⟩ := hne
    rw [(s1 hb).2 o ho] at he; simp at he
  | some bp =>
    obtain ⟨b, p⟩ := bp
    rcases s2 b p hb with ⟨h1, _⟩ | ⟨j, o, h1, h2, h3, h4, _, h6⟩
    · simp at h1
    · have hbj : b = j := by omega
      subst hbj
      refine ⟨b, o, p, h2, h3, h4, h6, ?_⟩
      simp only [OL.removeMin, hb, removeNth_eq H g subs b o h2, Option.map_map]
      rfl

theorem cfgAll_set {os : List (OL E)} {n : Nat} {o o' : OL E} (h : os[n]? = some o) (hc : o'.cfg = o.cfg) : cfgAll (os.set n o') = cfgAll os := by
  rw [cfgAll_eq, cfgAll_eq, List.map_set, hc]
  apply List.ext_getElem?
  intro i
  rw [List.getElem?_set]
  split
  · rename_i hi
    subst hi
    rw [List.getElem?_map, h]
    split
    · rfl
    · rename_i hlt
      rw [List.length_map] at hlt
      rw [List.getElem?_eq_none (by omega)] at h; simp at h
  · rfl

theorem removeMin_holds (H : StdHeap E) (o : OL E) : ∀ (l : List E) (g : Rng), o.Holds l → l ≠ [] →
    ∃ e o' g' l', o.removeMin H g = some (e, o', g') ∧ o'.cfg = o.cfg ∧ l.Perm (e :: l') ∧ o'.Holds l' := by
  induction o using OL.rec (motive_2 := fun os => ∀ o ∈ os, ∀ (l : List E) (g : Rng), o.Holds l → l ≠ [] →
    ∃ e o' g' l', o.removeMin H g = some (e, o', g') ∧ o'.cfg = o.cfg ∧ l.Perm (e :: l') ∧ o'.Holds l') with
  | bestFirst pref ev s =>
    rintro l g ⟨kl, h1, h2⟩ hne
    have hkl : kl ≠ [] := by rintro rfl; exact hne (by simpa using h2)
    obtain ⟨k, e, s', l1, l2, r1, r2, _, _, r5⟩ := BF.removeMin_rep h1 hkl
    exact ⟨e, .bestFirst pref ev s', g, _, by simp only [OL.removeMin, r1, Option.map_some], rfl, perm_pop h2 r2, _, r5, List.Perm.refl _⟩
  | tiebreaking pref uns evs s =>
    rintro l g ⟨kl, h1, h2⟩ hne
    have hkl : kl ≠ [] := by rintro rfl; exact hne (by simpa using h2)
    obtain ⟨k, e, s', l1, l2, r1, r2, _, _, r5⟩ := BF.removeMin_rep h1 hkl
    exact ⟨e, .tiebreaking pref uns evs s', g, _, by simp only [OL.removeMin, r1, Option.map_some], rfl, perm_pop h2 r2, _, r5, List.Perm.refl _⟩
  | pareto pref u evs s =>
    rintro l g ⟨h0, kl, h1, h2⟩ hne
    have hkl : kl ≠ [] := by rintro rfl; exact hne (by simpa using h2)
    obtain ⟨k, e, s', g', l1, l2, r1, r2, _, _, r5⟩ := Pareto.removeMin_rep h0 u h1 hkl g
    exact ⟨e, .pareto pref u evs s', g', _, by simp only [OL.removeMin, r1, Option.map_some], rfl, perm_pop h2 r2, h0, _, r5, List.Perm.refl _⟩
  | epsilonGreedy pref ev p q s =>
    rintro l g ⟨kl, h1, h2⟩ hne
    have hkl : kl ≠ [] := by rintro rfl; exact hne (by simpa using h2)
    obtain ⟨k, e, s', g', l1, l2, r1, r2, r5, _⟩ := Eps.removeMin_rep H p q h1 hkl g
    exact ⟨e, .epsilonGreedy pref ev p q s', g', _, by simp only [OL.removeMin, r1, Option.map_some], rfl, perm_pop h2 r2, _, r5, List.Perm.refl _⟩
  | typeBased evs s =>
    rintro l g ⟨kl, h1, h2⟩ hne
    have hkl : kl ≠ [] := by rintro rfl; exact hne (by simpa using h2)
    obtain ⟨k, e, s', g', l', r1, r2, r5⟩ := TB.removeMin_rep h1 hkl g
    refine ⟨e, .typeBased evs s', g', l'.map Prod.snd, by simp only [OL.removeMin, r1, Option.map_some], rfl, ?_, l', r5, List.Perm.refl _⟩
    refine h2.trans ?_
    have := r2.map Prod.snd
    simpa using this
  | alternation boost prios subs ih =>
    rintro l g ⟨h0, h1⟩ hne
    have hex : ∃ o ∈ subs, o.empty = false := by
      by_contra hc
      push Not at hc
      have : allEmpty subs = true := by
        clear * - hc
        induction subs with
        | nil => rfl
        | cons o os ih =>
          have := hc o (by simp)
          simp only [allEmpty]
          simp only [ne_eq, Bool.not_eq_false] at this
          rw [this]
          simp only [Bool.not_true, Bool.false_eq_true, if_false]
          exact ih (fun o' ho' => hc o' (by simp [ho']))
      exact hne ((allEmpty_iff subs l h1).1 this)
    obtain ⟨i, o, p, a1, a2, a3, a4, a5⟩ := alternation_removeMin H g boost prios subs h0 hex
    obtain ⟨lo, rest, b1, b2, b3⟩ := HoldsAll.split h1 a1
    have hlo : lo ≠ [] := by
      intro hc
      rw [(empty_iff o lo b1).2 hc] at a2; simp at a2
    obtain ⟨e, o', g', l', c1, c2, c3, c4⟩ := ih o (List.mem_of_getElem? a1) lo g b1 hlo
    refine ⟨e, .alternation boost (prios.set i (p + 1)) (subs.set i o'), g', l' ++ rest, ?_, ?_, ?_, ?_⟩
    · rw [a5, c1]; rfl
    · simp only [OL.cfg]; rw [cfgAll_set a1 c2]
    · exact b2.trans (c3.append_right _)
    · exact ⟨by simp [h0], b3 o' l' c4⟩
  | nil => rename_i h _ _ _ _; simp at h
  | cons o os ih1 ih2 =>
    rename_i o' ho' l g a b; revert l g a b
    rcases List.mem_cons.mp ho' with rfl | ho'
    · exact ih1
    · exact ih2 o' ho'

/-! ### histories -/

theorem run_refines {K : Type} (H : StdHeap E) (rel : Nat → Bool) (copies : Ctx → Nat) (key : Ctx → K)
    (Pop : List (K × E) → E → List (K × E) → Prop) (R : OL E → List (K × E) → Prop)
    (hins : ∀ o l c e, R o l → LegalCtx c → ∃ o', o.insert H rel c e = some o' ∧ R o' (l ++ List.replicate (copies c) (key c, e)))
    (hrem : ∀ o l g, R o l → l ≠ [] → ∃ e o' g' l', o.removeMin H g = some (e, o', g') ∧ Pop l e l' ∧ l.length = l'.length + 1 ∧ R o' l')
    (hboost : ∀ o l, R o l → R o.boostPreferred l) (hclear : ∀ o l, R o l → R o.clear []) :
    ∀ (ops : List (Op E)) (o : OL E) (g : Rng) (l : List (K × E)), R o l → Spec.Legal copies l.length ops →
      ∃ outs o' g' l', o.run H rel g ops = some (outs, o', g') ∧ Spec.Run copies key Pop l ops outs l' ∧ R o' l'
  | [], o, g, l, h, _ => ⟨[], o, g, l, rfl, .nil l, h⟩
  | .insert c e :: ops, o, g, l, h, hl => by
    obtain ⟨o', i1, i2⟩ := hins o l c e h hl.1
    obtain ⟨outs, o'', g'', l', r1, r2, r3⟩ := run_refines H rel copies key Pop R hins hrem hboost hclear ops o' g _ i2 (by simpa using hl.2)
    exact ⟨none :: outs, o'', g'', l', by simp [OL.run, OL.step, i1, r1], .insert _ _ _ _ _ _ r2, r3⟩
  | .removeMin :: ops, o, g, l, h, hl => by
    obtain ⟨e, o', g', l1, i1, i2, i3, i4⟩ := hrem o l g h (List.length_pos_iff.mp hl.1)
    obtain ⟨outs, o'', g'', l', r1, r2, r3⟩ := run_refines H rel copies key Pop R hins hrem hboost hclear ops o' g' _ i4
      (by have := hl.2; rw [i3] at this; exact this)
    exact ⟨some e :: outs, o'', g'', l', by simp [OL.run, OL.step, i1, r1], .removeMin _ _ _ _ _ _ i2 r2, r3⟩
  | .boostPreferred :: ops, o, g, l, h, hl => by
    obtain ⟨outs, o'', g'', l', r1, r2, r3⟩ := run_refines H rel copies key Pop R hins hrem hboost hclear ops _ g _ (hboost o l h) hl
    exact ⟨none :: outs, o'', g'', l', by simp [OL.run, OL.step, r1], .boostPreferred _ _ _ _ r2, r3⟩
  | .clear :: ops, o, g, l, h, hl => by
    obtain ⟨outs, o'', g'', l', r1, r2, r3⟩ := run_refines H rel copies key Pop R hins hrem hboost hclear ops _ g _ (hclear o l h) hl
    exact ⟨none :: outs, o'', g'', l', by simp [OL.run, OL.step, r1], .clear _ _ _ _ r2, r3⟩

end Verif.OpenList
