import Verif.Model.ShrinkBuckets
import Mathlib.Data.List.Count
import Mathlib.Data.List.Perm.Basic

/-
Combining the states of buckets.
-/
namespace Verif.Mas

/-- the pairs drawn by the random number generator are pairs of different positions -/
def Draws (pick : Nat → Nat × Nat) : Prop := ∀ n, 2 ≤ n → (pick n).1 < n ∧ (pick n).2 < n ∧ (pick n).1 ≠ (pick n).2

theorem count_set {x : Nat} {b : List Nat} : ∀ {l : List (List Nat)} {i : Nat} {a : List Nat}, l[i]? = some a → (l.set i b).flatten.count x + a.count x = l.flatten.count x + b.count x
  | [], i, a, h => by simp at h
  | c :: l, 0, a, h => by
    simp only [List.getElem?_cons_zero, Option.some.injEq] at h
    subst h
    simp only [List.set_cons_zero, List.flatten_cons, List.count_append]
    omega
  | c :: l, i + 1, a, h => by
    simp only [List.getElem?_cons_succ] at h
    have := count_set (x := x) (b := b) h
    simp only [List.set_cons_succ, List.flatten_cons, List.count_append]
    omega

theorem combineOnce_spec {p : Nat × Nat} {gs : List (List Nat)} (hne : ∀ c ∈ gs, c ≠ []) {gs' : List (List Nat)} (h : combineOnce p gs = some gs') :
    gs'.length + 1 = gs.length ∧ gs'.flatten.Perm gs.flatten ∧ ∀ c ∈ gs', c ≠ [] := by
  unfold combineOnce at h
  split at h
  · simp at h
  · rename_i hij
    split at h
    · rename_i a b ha hb
      split at h
      · simp at h
      · rename_i l hl
        simp only [Option.some.injEq] at h
        subst h
        have hla := (List.getElem?_eq_some_iff.mp ha).1
        have hlb := (List.getElem?_eq_some_iff.mp hb).1
        rw [List.getLast?_eq_getElem?] at hl
        simp only [List.length_set] at hl
        have hsb : (gs.set p.1 (b ++ a))[p.2]? = some b := by rw [List.getElem?_set_ne hij]; exact hb
        refine ⟨by simp only [List.length_dropLast, List.length_set]; omega, ?_, ?_⟩
        · rw [List.perm_iff_count]
          intro x
          have c1 := count_set (x := x) (b := b ++ a) ha
          have c2 := count_set (x := x) (b := l) hsb
          simp only [List.count_append] at c1
          have c3 : ((gs.set p.1 (b ++ a)).set p.2 l).flatten.count x = (((gs.set p.1 (b ++ a)).set p.2 l).dropLast).flatten.count x + l.count x := by
            have hl0 : ((gs.set p.1 (b ++ a)).set p.2 l) ≠ [] := by
              intro e
              have := congrArg List.length e
              simp only [List.length_set, List.length_nil] at this
              omega
            have hlast : ((gs.set p.1 (b ++ a)).set p.2 l).getLast hl0 = l := by
              have : ((gs.set p.1 (b ++ a)).set p.2 l).getLast? = some l := by
                rw [List.getLast?_eq_getElem?]
                simp only [List.length_set]
                by_cases e : p.2 = gs.length - 1
                · rw [← e, List.getElem?_set_self (by simp only [List.length_set]; omega)]
                · rw [List.getElem?_set_ne e, ← hl, List.getElem?_set_ne e]
              rw [List.getLast?_eq_some_getLast hl0] at this
              exact Option.some.inj this
            conv_lhs => rw [← List.dropLast_append_getLast hl0, hlast]
            simp only [List.flatten_append, List.count_append, List.flatten_cons, List.flatten_nil, List.append_nil]
          omega
        · intro c hc
          obtain ⟨k, hk⟩ := List.mem_iff_getElem?.mp hc
          rw [List.getElem?_dropLast] at hk
          split at hk
          · rename_i hlt
            simp only [List.length_set] at hlt
            have hgood : ∀ m d, m ≠ p.2 → (gs.set p.1 (b ++ a))[m]? = some d → d ≠ [] := by
              intro m d hm hd
              by_cases e : p.1 = m
              · subst e
                rw [List.getElem?_set_self hla] at hd
                simp only [Option.some.injEq] at hd
                subst hd
                have := hne b (List.mem_of_getElem? hb)
                simp only [ne_eq, List.append_eq_nil_iff, not_and]
                exact fun e => absurd e this
              · rw [List.getElem?_set_ne e] at hd
                exact hne d (List.mem_of_getElem? hd)
            by_cases e : p.2 = k
            · subst e
              rw [List.getElem?_set_self (by simp only [List.length_set]; omega)] at hk
              simp only [Option.some.injEq] at hk
              subst hk
              rw [List.getElem?_set_ne (by omega)] at hl
              exact hgood _ _ (by omega) hl
            · rw [List.getElem?_set_ne e] at hk
              exact hgood k c (fun x => e x.symm) hk
          · simp at hk
    · simp at h

theorem combineOnce_defined {pick : Nat → Nat × Nat} (hp : Draws pick) {gs : List (List Nat)} (h2 : 2 ≤ gs.length) : ∃ gs', combineOnce (pick gs.length) gs = some gs' := by
  obtain ⟨h1, h3, h4⟩ := hp gs.length h2
  unfold combineOnce
  rw [if_neg h4, List.getElem?_eq_getElem h1, List.getElem?_eq_getElem h3]
  simp only
  rw [List.getLast?_eq_getElem?, List.getElem?_eq_getElem (by simp only [List.length_set]; omega)]
  exact ⟨_, rfl⟩

theorem combineLoop_spec {pick : Nat → Nat × Nat} {budget : Nat} : ∀ {k : Nat} {gs gs' : List (List Nat)}, (∀ c ∈ gs, c ≠ []) → combineLoop pick budget k gs = some gs' →
    gs'.length = min budget gs.length ∧ gs'.flatten.Perm gs.flatten ∧ ∀ c ∈ gs', c ≠ []
  | 0, gs, gs', _, h => by simp [combineLoop] at h
  | k + 1, gs, gs', hne, h => by
    simp only [combineLoop] at h
    split at h
    · rename_i hlt
      split at h
      · simp at h
      · rename_i gs1 h1
        obtain ⟨a1, a2, a3⟩ := combineOnce_spec hne h1
        obtain ⟨b1, b2, b3⟩ := combineLoop_spec a3 h
        exact ⟨by omega, b2.trans a2, b3⟩
    · simp only [Option.some.injEq] at h
      subst h
      exact ⟨by omega, List.Perm.refl _, hne⟩

theorem combineLoop_defined {pick : Nat → Nat × Nat} (hp : Draws pick) {budget : Nat} (hb : 1 ≤ budget) : ∀ {k : Nat} {gs : List (List Nat)}, (∀ c ∈ gs, c ≠ []) → gs.length < k → ∃ gs', combineLoop pick budget k gs = some gs'
  | 0, gs, _, h => by omega
  | k + 1, gs, hne, h => by
    simp only [combineLoop]
    split
    · rename_i hlt
      obtain ⟨gs1, h1⟩ := combineOnce_defined hp (gs := gs) (by omega)
      rw [h1]
      obtain ⟨a1, _, a3⟩ := combineOnce_spec hne h1
      exact combineLoop_defined hp hb a3 (by omega)
    · exact ⟨_, rfl⟩

theorem length_le_sum : ∀ {bs : List (List Nat)}, (∀ b ∈ bs, b ≠ []) → bs.length ≤ (bs.map List.length).sum
  | [], _ => by simp
  | b :: bs, h => by
    have h1 := length_le_sum (bs := bs) (fun b hb => h b (by simp [hb]))
    have h2 := List.length_pos_iff.mpr (h b (by simp))
    simp only [List.length_cons, List.map_cons, List.sum_cons]
    omega

theorem flatten_singletons : ∀ (l : List Nat), (l.map (fun s => [s])).flatten = l
  | [] => rfl
  | a :: l => by simp [flatten_singletons l]

section
variable {pick : Nat → Nat → Nat × Nat} {target count : Nat}

/-- enough budget for all states -/
theorem bucketLoop_rich : ∀ {bs : List (List Nat)} {no : Nat} {rel : List (List Nat)}, rel.length + (bs.map List.length).sum ≤ target → bucketLoop pick target count no bs rel = some (rel ++ bs.flatten.map (fun s => [s]))
  | [], no, rel, _ => by simp [bucketLoop]
  | b :: bs, no, rel, h => by
    simp only [List.map_cons, List.sum_cons] at h
    simp only [bucketLoop, bucketStep]
    rw [if_pos (by omega)]
    simp only
    rw [bucketLoop_rich (by simp only [List.length_append, List.length_map]; omega)]
    simp [List.append_assoc]

/-- the budget is the number of buckets -/
theorem bucketLoop_whole : ∀ {bs : List (List Nat)} {no : Nat} {rel : List (List Nat)}, (∀ b ∈ bs, b ≠ []) → rel.length + bs.length = target → no + bs.length = count → bucketLoop pick target count no bs rel = some (rel ++ bs)
  | [], no, rel, _, _, _ => by simp [bucketLoop]
  | b :: bs, no, rel, hne, h, hc => by
    have h1 := length_le_sum (bs := bs) (fun b hb => hne b (by simp [hb]))
    have h2 := List.length_pos_iff.mpr (hne b (by simp))
    simp only [List.length_cons] at h hc
    have hstep : bucketStep (pick no) target count no (bs.map List.length).sum b rel = some (rel ++ [b]) := by
      unfold bucketStep
      split
      · rename_i h3
        have : b.length = 1 := by omega
        obtain ⟨s, rfl⟩ := List.length_eq_one_iff.mp this
        rfl
      · rw [if_pos (by omega), if_pos (by omega)]
    simp only [bucketLoop]
    rw [hstep]
    simp only
    rw [bucketLoop_whole (fun b hb => hne b (by simp [hb])) (by simp only [List.length_append, List.length_cons, List.length_nil]; omega) (by omega)]
    simp [List.append_assoc]

/-- fewer classes are left than buckets: buckets join the last class until the numbers agree -/
theorem bucketLoop_poor : ∀ {bs : List (List Nat)} {no : Nat} {init : List (List Nat)} {last : List Nat}, (∀ b ∈ bs, b ≠ []) → init.length + 1 ≤ target → init.length + 1 + bs.length > target → no ≠ 0 → no + bs.length = count →
    ∃ pre post, bs = pre ++ post ∧ init.length + 1 + post.length = target ∧ bucketLoop pick target count no bs (init ++ [last]) = some (init ++ [pre.reverse.flatten ++ last] ++ post)
  | [], no, init, last, _, h1, h2, _, _ => by simp only [List.length_nil] at h2; omega
  | b :: bs, no, init, last, hne, h1, h2, h0, hc => by
    have hne' : ∀ b ∈ bs, b ≠ [] := fun b hb => hne b (by simp [hb])
    have h3 := length_le_sum hne'
    have h4 := List.length_pos_iff.mpr (hne b (by simp))
    simp only [List.length_cons] at h2 hc
    have hstep : bucketStep (pick no) target count no (bs.map List.length).sum b (init ++ [last]) = some (init ++ [b ++ last]) := by
      unfold bucketStep
      have hl : (init ++ [last]).length = init.length + 1 := by simp
      rw [hl]
      rw [if_neg (by push_cast; omega), if_pos (by push_cast; omega), if_neg (by push_cast; omega), if_neg h0]
      simp
    simp only [bucketLoop]
    rw [hstep]
    simp only
    by_cases e : init.length + 1 + bs.length > target
    · obtain ⟨pre, post, a1, a2, a3⟩ := bucketLoop_poor (last := b ++ last) hne' h1 e (no := no + 1) (by omega) (by omega)
      refine ⟨b :: pre, post, by simp [a1], a2, ?_⟩
      rw [a3]
      simp [List.append_assoc]
    · refine ⟨[b], bs, rfl, by omega, ?_⟩
      rw [bucketLoop_whole hne' (by simp only [List.length_append, List.length_cons, List.length_nil]; omega) (by omega)]
      simp

/-- What becomes of the buckets: those of `pre` are not divided, those of `post` are divided into single states, and at most one bucket is between. -/
structure Shrunken (bs : List (List Nat)) (rel : List (List Nat)) : Prop where
  perm : rel.flatten.Perm bs.flatten
  nonempty : ∀ c ∈ rel, c ≠ []
  phases : ∃ pre mid post, bs = pre ++ mid ++ post ∧ mid.length ≤ 1 ∧ (∀ b ∈ pre, ∃ c ∈ rel, ∀ s ∈ b, s ∈ c) ∧ ∀ c ∈ rel, (∃ s ∈ c, s ∈ post.flatten) → c.length = 1

/-- not less classes are left than buckets -/
theorem bucketLoop_enough : ∀ {bs : List (List Nat)} {no : Nat} {rel : List (List Nat)}, (∀ b ∈ bs, b ≠ []) → bs.flatten.Nodup → rel.length + bs.length ≤ target → no + bs.length = count → ∀ {rel' : List (List Nat)}, bucketLoop pick target count no bs rel = some rel' →
    ∃ new, rel' = rel ++ new ∧ new.length = min (target - rel.length) (bs.map List.length).sum ∧ (∀ c ∈ new, ∃ b ∈ bs, ∀ s ∈ c, s ∈ b) ∧ Shrunken bs new
  | [], no, rel, _, _, _, _, rel', h => by
    simp only [bucketLoop, Option.some.injEq] at h
    subst h
    exact ⟨[], by simp, by simp, by simp, List.Perm.refl _, by simp, [], [], [], by simp⟩
  | b :: bs, no, rel, hne, hnd, hle, hc, rel', h => by
    have hne' : ∀ b ∈ bs, b ≠ [] := fun b hb => hne b (by simp [hb])
    have h3 := length_le_sum hne'
    have h4 := List.length_pos_iff.mpr (hne b (by simp))
    simp only [List.length_cons] at hle hc
    simp only [List.flatten_cons] at hnd
    have hnd' := (List.nodup_append.mp hnd).2.1
    have hdis := (List.nodup_append.mp hnd).2.2
    simp only [bucketLoop, bucketStep] at h
    split at h
    · simp at h
    rename_i rel1 h1
    split at h1
    · -- all states are kept
      rename_i hbig
      simp only [Option.some.injEq] at h1
      subst h1
      rw [bucketLoop_rich (by simp only [List.length_append, List.length_map]; omega)] at h
      simp only [Option.some.injEq] at h
      subst h
      have key : (b ++ bs.flatten).map (fun s => [s]) = b.map (fun s => [s]) ++ bs.flatten.map (fun s => [s]) := by simp
      refine ⟨(b ++ bs.flatten).map (fun s => [s]), by rw [key, List.append_assoc], ?_, ?_, ?_, ?_, ?_⟩
      · simp only [List.length_map, List.length_append, List.length_flatten, List.map_cons, List.sum_cons]
        omega
      · intro c hc
        obtain ⟨s, hs, rfl⟩ := List.mem_map.mp hc
        have : s ∈ (b :: bs).flatten := hs
        obtain ⟨b', hb', hs'⟩ := List.mem_flatten.mp this
        exact ⟨b', hb', by simpa using hs'⟩
      · rw [flatten_singletons]
        exact List.Perm.refl _
      · intro c hc
        obtain ⟨s, hs, rfl⟩ := List.mem_map.mp hc
        simp
      · refine ⟨[], [], b :: bs, rfl, by simp, by simp, fun c hc _ => ?_⟩
        obtain ⟨s, hs, rfl⟩ := List.mem_map.mp hc
        rfl
    · rename_i hbig
      split at h1
      · -- the bucket becomes one class
        rename_i hsmall
        rw [if_pos (by omega)] at h1
        simp only [Option.some.injEq] at h1
        subst h1
        obtain ⟨new, e1, e2, e3, e4, e5, pre, mid, post, p1, p2, p3, p4⟩ := bucketLoop_enough hne' hnd' (by simp only [List.length_append, List.length_cons, List.length_nil]; omega) (by omega) h
        simp only [List.length_append, List.length_cons, List.length_nil] at e2
        refine ⟨b :: new, by simp [e1], ?_, ?_, ?_, ?_, b :: pre, mid, post, by simp [p1], p2, ?_, ?_⟩
        · simp only [List.length_cons, List.map_cons, List.sum_cons]
          omega
        · intro c hc
          rcases List.mem_cons.mp hc with rfl | hc
          · exact ⟨c, by simp, fun s hs => hs⟩
          · obtain ⟨b', hb', hs⟩ := e3 c hc
            exact ⟨b', by simp [hb'], hs⟩
        · simp only [List.flatten_cons]
          exact e4.append_left b
        · intro c hc
          rcases List.mem_cons.mp hc with rfl | hc
          · exact hne c (by simp)
          · exact e5 c hc
        · intro b' hb'
          rcases List.mem_cons.mp hb' with rfl | hb'
          · exact ⟨b', by simp, fun s hs => hs⟩
          · obtain ⟨c, hc, hs⟩ := p3 b' hb'
            exact ⟨c, by simp [hc], hs⟩
        · intro c hc ⟨s, hs, hp⟩
          rcases List.mem_cons.mp hc with rfl | hc
          · exfalso
            refine hdis s hs s ?_ rfl
            rw [p1]
            simp only [List.flatten_append, List.mem_append]
            exact Or.inr hp
          · exact p4 c hc ⟨s, hs, hp⟩
      · -- the bucket is divided
        rename_i hsmall
        split at h1
        · simp at h1
        · rename_i gs hgs
          simp only [Option.some.injEq] at h1
          subst h1
          obtain ⟨g1, g2, g3⟩ := combineLoop_spec (by simp) hgs
          rw [flatten_singletons] at g2
          simp only [List.length_map] at g1
          rw [bucketLoop_rich (by simp only [List.length_append]; omega)] at h
          simp only [Option.some.injEq] at h
          subst h
          refine ⟨gs ++ bs.flatten.map (fun s => [s]), by simp [List.append_assoc], ?_, ?_, ?_, ?_, [], [b], bs, rfl, by simp, by simp, ?_⟩
          · simp only [List.length_append, List.length_map, List.length_flatten, List.map_cons, List.sum_cons]
            omega
          · intro c hc
            rcases List.mem_append.mp hc with hc | hc
            · exact ⟨b, by simp, fun s hs => g2.subset (List.mem_flatten.mpr ⟨c, hc, hs⟩)⟩
            · obtain ⟨s, hs, rfl⟩ := List.mem_map.mp hc
              obtain ⟨b', hb', hs'⟩ := List.mem_flatten.mp hs
              exact ⟨b', by simp [hb'], by simpa using hs'⟩
          · rw [List.flatten_append, flatten_singletons, List.flatten_cons]
            exact g2.append_right _
          · intro c hc
            rcases List.mem_append.mp hc with hc | hc
            · exact g3 c hc
            · obtain ⟨s, hs, rfl⟩ := List.mem_map.mp hc
              simp
          · intro c hc ⟨s, hs, hp⟩
            rcases List.mem_append.mp hc with hc | hc
            · exfalso
              exact hdis s (g2.subset (List.mem_flatten.mpr ⟨c, hc, hs⟩)) s hp rfl
            · obtain ⟨s, hs, rfl⟩ := List.mem_map.mp hc
              rfl

theorem bucketLoop_defined (hp : ∀ no, Draws (pick no)) : ∀ {bs : List (List Nat)} {no : Nat} {rel : List (List Nat)}, (no ≠ 0 → rel ≠ []) → (∀ b ∈ bs, b ≠ []) → ∃ rel', bucketLoop pick target count no bs rel = some rel'
  | [], no, rel, _, _ => ⟨rel, rfl⟩
  | b :: bs, no, rel, h0, hne => by
    have hne' : ∀ b ∈ bs, b ≠ [] := fun b hb => hne b (by simp [hb])
    have hstep : ∃ rel1, bucketStep (pick no) target count no (bs.map List.length).sum b rel = some rel1 ∧ rel1 ≠ [] := by
      unfold bucketStep
      split
      · refine ⟨_, rfl, ?_⟩
        have := hne b (by simp)
        simp [this]
      · split
        · split
          · exact ⟨_, rfl, by simp⟩
          · split
            · exact ⟨_, rfl, by simp⟩
            · rename_i hn0
              rw [List.getLast?_eq_some_getLast (h0 hn0)]
              exact ⟨_, rfl, by simp⟩
        · rename_i h1 h2
          obtain ⟨gs, hgs⟩ := combineLoop_defined (hp no) (budget := ((target : Int) - rel.length - ((bs.map List.length).sum : Nat)).toNat) (by omega) (k := b.length + 1) (gs := b.map (fun s => [s])) (by simp) (by simp)
          rw [hgs]
          refine ⟨_, rfl, ?_⟩
          have := (combineLoop_spec (by simp) hgs).1
          simp only [List.length_map] at this
          intro e
          have e2 := (List.append_eq_nil_iff.mp e).2
          rw [e2] at this
          simp only [List.length_nil] at this
          omega
    obtain ⟨rel1, h1, h2⟩ := hstep
    simp only [bucketLoop]
    rw [h1]
    exact bucketLoop_defined hp (fun _ => h2) hne'

end

/-- the result of `compute_abstraction` -/
theorem abstraction_spec {pick : Nat → Nat → Nat × Nat} {target : Nat} (ht : 1 ≤ target) {bs : List (List Nat)} (hne : ∀ b ∈ bs, b ≠ []) (hnd : bs.flatten.Nodup) {rel : List (List Nat)} (h : computeAbstraction pick target bs = some rel) :
    rel.length = min target (bs.map List.length).sum ∧ (bs.length ≤ target → ∀ c ∈ rel, ∃ b ∈ bs, ∀ s ∈ c, s ∈ b) ∧ Shrunken bs rel := by
  unfold computeAbstraction at h
  by_cases hle : bs.length ≤ target
  · obtain ⟨new, e1, e2, e3, e4⟩ := bucketLoop_enough hne hnd (by simpa using hle) (by simp) h
    simp only [List.nil_append] at e1
    subst e1
    simp only [List.length_nil] at e2
    exact ⟨by omega, fun _ => e3, e4⟩
  · refine (?_ : _ ∧ _)
    cases bs with
    | nil => simp at hle
    | cons b bs =>
      have hne' : ∀ b ∈ bs, b ≠ [] := fun b hb => hne b (by simp [hb])
      have h3 := length_le_sum hne'
      have h4 := List.length_pos_iff.mpr (hne b (by simp))
      simp only [List.length_cons] at hle
      have hstep : bucketStep (pick 0) target (b :: bs).length 0 (bs.map List.length).sum b [] = some [b] := by
        unfold bucketStep
        simp only [List.length_nil, List.length_cons]
        rw [if_neg (by omega), if_pos (by omega), if_neg (by omega), if_pos trivial]
        rfl
      simp only [bucketLoop] at h
      rw [hstep] at h
      simp only at h
      obtain ⟨pre, post, a1, a2, a3⟩ := bucketLoop_poor (pick := pick) (target := target) (count := (b :: bs).length) (init := []) (last := b) (no := 0 + 1) hne' (by simp only [List.length_nil]; omega) (by simp only [List.length_nil]; omega) (by omega) (by simp only [List.length_cons]; omega)
      simp only [List.nil_append] at a3
      rw [a3] at h
      simp only [Option.some.injEq] at h
      subst h
      simp only [List.length_nil] at a2
      refine ⟨?_, fun x => absurd x (by simp only [List.length_cons]; omega), ?_, ?_, b :: bs, [], [], by simp, by simp, ?_, ?_⟩
      · simp only [List.cons_append, List.nil_append, List.length_cons, List.map_cons, List.sum_cons]
        omega
      · rw [List.flatten_append, a1]
        simp only [List.flatten_cons, List.flatten_nil, List.append_nil, List.flatten_append]
        rw [← List.append_assoc]
        refine List.Perm.append_right _ ?_
        exact List.perm_append_comm.trans ((List.reverse_perm pre).flatten.append_left b)
      · intro c hc
        rcases List.mem_append.mp hc with hc | hc
        · simp only [List.mem_cons, List.not_mem_nil, or_false] at hc
          subst hc
          have := hne b (by simp)
          simp [this]
        · exact hne' c (by rw [a1]; simp [hc])
      · intro b' hb'
        rcases List.mem_cons.mp hb' with rfl | hb'
        · exact ⟨pre.reverse.flatten ++ b', by simp, fun s hs => List.mem_append_right _ hs⟩
        · rw [a1] at hb'
          rcases List.mem_append.mp hb' with hb' | hb'
          · refine ⟨pre.reverse.flatten ++ b, by simp, fun s hs => List.mem_append_left _ (List.mem_flatten.mpr ⟨b', by simpa using hb', hs⟩)⟩
          · exact ⟨b', by simp [hb'], fun s hs => hs⟩
      · intro c _ ⟨s, _, hs⟩
        simp at hs

/-- no state is lost and no class is empty, whatever the target size is -/
theorem bucketLoop_perm {pick : Nat → Nat → Nat × Nat} {target count : Nat} : ∀ {bs : List (List Nat)} {no : Nat} {rel rel' : List (List Nat)}, (∀ b ∈ bs, b ≠ []) → (∀ c ∈ rel, c ≠ []) → bucketLoop pick target count no bs rel = some rel' →
    rel'.flatten.Perm (rel.flatten ++ bs.flatten) ∧ ∀ c ∈ rel', c ≠ []
  | [], no, rel, rel', _, hr, h => by
    simp only [bucketLoop, Option.some.injEq] at h
    subst h
    exact ⟨by simp, hr⟩
  | b :: bs, no, rel, rel', hne, hr, h => by
    have hne' : ∀ b ∈ bs, b ≠ [] := fun b hb => hne b (by simp [hb])
    simp only [bucketLoop] at h
    split at h
    · simp at h
    rename_i rel1 h1
    have hstep : rel1.flatten.Perm (rel.flatten ++ b) ∧ ∀ c ∈ rel1, c ≠ [] := by
      have happ : ∀ gs : List (List Nat), gs.flatten.Perm b → (∀ c ∈ gs, c ≠ []) → (rel ++ gs).flatten.Perm (rel.flatten ++ b) ∧ ∀ c ∈ rel ++ gs, c ≠ [] := by
        intro gs hg hg2
        refine ⟨by rw [List.flatten_append]; exact hg.append_left _, fun c hc => ?_⟩
        rcases List.mem_append.mp hc with hc | hc
        · exact hr c hc
        · exact hg2 c hc
      have hsing : (rel ++ [b]).flatten.Perm (rel.flatten ++ b) ∧ ∀ c ∈ rel ++ [b], c ≠ [] := happ [b] (by simp) (fun c hc => by
        simp only [List.mem_cons, List.not_mem_nil, or_false] at hc
        exact hc ▸ hne b (by simp))
      unfold bucketStep at h1
      split at h1
      · simp only [Option.some.injEq] at h1
        subst h1
        exact happ _ (by rw [flatten_singletons]) (by simp)
      · split at h1
        · split at h1
          · simp only [Option.some.injEq] at h1
            exact h1 ▸ hsing
          · split at h1
            · simp only [Option.some.injEq] at h1
              exact h1 ▸ hsing
            · split at h1
              · simp at h1
              · rename_i l hl
                simp only [Option.some.injEq] at h1
                subst h1
                have hnil : rel ≠ [] := by
                  intro e
                  rw [e] at hl
                  simp at hl
                rw [List.getLast?_eq_some_getLast hnil] at hl
                simp only [Option.some.injEq] at hl
                subst hl
                refine ⟨?_, fun c hc => ?_⟩
                · conv_rhs => rw [← List.dropLast_append_getLast hnil]
                  simp only [List.flatten_append, List.flatten_cons, List.flatten_nil, List.append_nil, List.append_assoc]
                  exact List.perm_append_comm.append_left _
                · rcases List.mem_append.mp hc with hc | hc
                  · exact hr c ((List.dropLast_subset _ hc))
                  · simp only [List.mem_cons, List.not_mem_nil, or_false] at hc
                    subst hc
                    have := hne b (by simp)
                    simp [this]
        · split at h1
          · simp at h1
          · rename_i gs hgs
            simp only [Option.some.injEq] at h1
            subst h1
            obtain ⟨_, g2, g3⟩ := combineLoop_spec (by simp) hgs
            rw [flatten_singletons] at g2
            exact happ gs g2 g3
    obtain ⟨a1, a2⟩ := bucketLoop_perm hne' hstep.2 h
    refine ⟨a1.trans ?_, a2⟩
    rw [List.flatten_cons, ← List.append_assoc]
    exact hstep.1.append_right _

theorem abstraction_perm {pick : Nat → Nat → Nat × Nat} {target : Nat} {bs : List (List Nat)} (hne : ∀ b ∈ bs, b ≠ []) {rel : List (List Nat)} (h : computeAbstraction pick target bs = some rel) : rel.flatten.Perm bs.flatten ∧ ∀ c ∈ rel, c ≠ [] := by
  have := bucketLoop_perm hne (by simp) h
  simpa using this

end Verif.Mas
