import Verif.Model.ShrinkBisimulation
import Verif.Lemmas.MasBasic
import Mathlib.Data.Fintype.Card
import Mathlib.Data.Finset.Card
import Mathlib.Tactic.ByContra

/- Splitting groups: every number is used, and groups are only split. -/
namespace Verif.Mas

/-- the groups `g` of the states use exactly the numbers less than `num`; states in the same group are also together according to `o` -/
structure Groups (o : Nat → Nat) (g : List Nat) (num : Nat) : Prop where
  lt : ∀ s k : Nat, g[s]? = some k → k < num
  used : ∀ k, k < num → ∃ s : Nat, g[s]? = some k
  refines : ∀ a b k : Nat, g[a]? = some k → g[b]? = some k → o a = o b

/-- there are at most as many groups as states -/
theorem Groups.num_le {o : Nat → Nat} {g : List Nat} {num : Nat} (h : Groups o g num) : num ≤ g.length := by
  have hsub : Finset.range num ⊆ g.toFinset := by
    intro k hk
    obtain ⟨s, hs⟩ := h.used k (Finset.mem_range.mp hk)
    exact List.mem_toFinset.mpr (List.mem_of_getElem? hs)
  have := Finset.card_le_card hsub
  rw [Finset.card_range] at this
  exact this.trans (List.toFinset_card_le g)

/-- with as many groups as states, every group has one state -/
theorem Groups.injective {o : Nat → Nat} {g : List Nat} {num : Nat} (h : Groups o g num) (hn : g.length ≤ num) {a b k : Nat} (ha : g[a]? = some k) (hb : g[b]? = some k) : a = b := by
  have hsub : Finset.range num ⊆ g.toFinset := by
    intro k hk
    obtain ⟨s, hs⟩ := h.used k (Finset.mem_range.mp hk)
    exact List.mem_toFinset.mpr (List.mem_of_getElem? hs)
  have h1 := Finset.card_le_card hsub
  rw [Finset.card_range] at h1
  have h2 : g.toFinset.card = g.length := Nat.le_antisymm (List.toFinset_card_le g) (hn.trans h1)
  have hnd : g.Nodup := by
    rw [← Multiset.coe_nodup]
    exact Multiset.toFinset_card_eq_card_iff_nodup.mp (by simpa using h2)
  obtain ⟨h3, h4⟩ := List.getElem?_eq_some_iff.mp ha
  obtain ⟨h5, h6⟩ := List.getElem?_eq_some_iff.mp hb
  exact (List.Nodup.getElem_inj_iff hnd).mp (h4.trans h6.symm)

theorem count_le : ∀ (l : List Sig) (prev : Option Sig), (countGroups prev l).1 ≤ (countGroups prev l).2
  | [], _ => by simp [countGroups]
  | c :: l, prev => by
    have := count_le l (some c)
    unfold countGroups
    split
    · simp only; omega
    · split
      · simp only; omega
      · exact this

/-- the state of the loop over the signatures -/
structure SplitInv (o : Nat → Nat) (prev : Option Sig) (l : List Sig) (no : Option Nat) (g : List Nat) (num : Nat) : Prop where
  groups : Groups o g num
  nodup : (l.map (·.state)).Nodup
  group : ∀ x ∈ l, g[x.state]? = some x.group
  old : ∀ x ∈ l, o x.state = x.group
  start : no = none → ∀ c l', l = c :: l' → newBlock prev c = true
  keeper : ∀ k, no = some k → ∃ p, prev = some p ∧ k < num ∧ (∀ s, g[s]? = some k → o s = p.group) ∧ ∃ s, s ∉ l.map (·.state) ∧ g[s]? = some p.group

theorem SplitInv.step {o : Nat → Nat} {prev : Option Sig} {c : Sig} {l : List Sig} {no : Option Nat} {g : List Nat} {num : Nat} (h : SplitInv o prev (c :: l) no g num) :
    ∃ k, (newNo prev c no num).1 = some k ∧ c.state < g.length ∧ SplitInv o (some c) l (some k) (g.set c.state k) (newNo prev c no num).2 := by
  have hc := h.group c (by simp)
  have hlt : c.state < g.length := (List.getElem?_eq_some_iff.mp hc).1
  have hnd : c.state ∉ l.map (·.state) ∧ (l.map (·.state)).Nodup := by
    have := h.nodup
    simp only [List.map_cons, List.nodup_cons] at this
    exact this
  have hrest : ∀ k, ∀ x ∈ l, (g.set c.state k)[x.state]? = some x.group := by
    intro k x hx
    rw [List.getElem?_set_ne]
    · exact h.group x (by simp [hx])
    · rintro e
      exact hnd.1 (List.mem_map.mpr ⟨x, hx, e.symm⟩)
  have hset : ∀ k s, (g.set c.state k)[s]? = if c.state = s then some k else g[s]? := by
    intro k s
    by_cases e : c.state = s
    · subst e
      rw [if_pos rfl, List.getElem?_set_self hlt]
    · rw [if_neg e, List.getElem?_set_ne e]
  by_cases hb : newBlock prev c = true
  · have hnew : newNo prev c no num = (some c.group, num) := by unfold newNo; rw [if_pos hb]
    have hsame : g.set c.state c.group = g := by
      apply List.ext_getElem?
      intro s
      rw [hset]
      split
      · rename_i e; rw [← e]; exact hc.symm
      · rfl
    refine ⟨c.group, by rw [hnew], hlt, ?_⟩
    rw [hnew, hsame]
    refine ⟨h.groups, hnd.2, fun x hx => h.group x (by simp [hx]), fun x hx => h.old x (by simp [hx]), by simp, ?_⟩
    rintro k hk
    simp only [Option.some.injEq] at hk
    subst hk
    refine ⟨c, rfl, h.groups.lt _ _ hc, fun s hs => ?_, c.state, hnd.1, hc⟩
    rw [h.groups.refines s c.state _ hs hc]
    exact h.old c (by simp)
  · have hb' : newBlock prev c = false := by simpa using hb
    have hno : ∃ k, no = some k := by
      cases no with
      | none => exact absurd (h.start rfl c l rfl) hb
      | some k => exact ⟨k, rfl⟩
    obtain ⟨k0, rfl⟩ := hno
    obtain ⟨p, rfl, hk0, hp, s0, hs0, hgs0⟩ := h.keeper k0 rfl
    have hpc : p.group = c.group := by simpa [newBlock] using hb'
    have hs0c : s0 ≠ c.state := by
      rintro rfl
      exact hs0 (by simp)
    have hs0l : s0 ∉ l.map (·.state) := fun hx => hs0 (by simp only [List.map_cons, List.mem_cons]; exact Or.inr hx)
    by_cases hsu : newSucc (some p) c = true
    · have hnew : newNo (some p) c (some k0) num = (some num, num + 1) := by unfold newNo; rw [if_neg hb, if_pos hsu]
      refine ⟨num, by rw [hnew], hlt, ?_⟩
      rw [hnew]
      refine ⟨⟨?_, ?_, ?_⟩, hnd.2, hrest num, fun x hx => h.old x (by simp [hx]), by simp, ?_⟩
      · intro s k hs
        rw [hset] at hs
        split at hs
        · simp only [Option.some.injEq] at hs
          show k < num + 1
          omega
        · exact Nat.lt_succ_of_lt (h.groups.lt s k hs)
      · intro k hk
        by_cases hkn : k = num
        · exact ⟨c.state, by rw [hset, if_pos rfl, hkn]⟩
        · obtain ⟨s, hs⟩ := h.groups.used k (by simp only at hk; omega)
          by_cases hsc : c.state = s
          · subst hsc
            rw [hc] at hs
            simp only [Option.some.injEq] at hs
            exact ⟨s0, by rw [hset, if_neg (fun e => hs0c e.symm), hgs0, hpc, hs]⟩
          · exact ⟨s, by rw [hset, if_neg hsc]; exact hs⟩
      · intro a b k ha hb
        rw [hset] at ha hb
        split at ha <;> split at hb
        · rename_i e1 e2; rw [← e1, ← e2]
        · simp only [Option.some.injEq] at ha
          have := h.groups.lt b k hb
          omega
        · simp only [Option.some.injEq] at hb
          have := h.groups.lt a k ha
          omega
        · exact h.groups.refines a b k ha hb
      · rintro k hk
        simp only [Option.some.injEq] at hk
        subst hk
        refine ⟨c, rfl, by show num < num + 1; omega, fun s hs => ?_, s0, hs0l, by rw [hset, if_neg (fun e => hs0c e.symm), hgs0, hpc]⟩
        rw [hset] at hs
        split at hs
        · rename_i e; rw [← e]; exact h.old c (by simp)
        · have := h.groups.lt s num hs
          omega
    · have hnew : newNo (some p) c (some k0) num = (some k0, num) := by unfold newNo; rw [if_neg hb, if_neg hsu]
      refine ⟨k0, by rw [hnew], hlt, ?_⟩
      rw [hnew]
      have hoc : o c.state = c.group := h.old c (by simp)
      refine ⟨⟨?_, ?_, ?_⟩, hnd.2, hrest k0, fun x hx => h.old x (by simp [hx]), by simp, ?_⟩
      · intro s k hs
        rw [hset] at hs
        split at hs
        · simp only [Option.some.injEq] at hs
          show k < num
          omega
        · exact h.groups.lt s k hs
      · intro k hk
        obtain ⟨s, hs⟩ := h.groups.used k hk
        by_cases hsc : c.state = s
        · subst hsc
          rw [hc] at hs
          simp only [Option.some.injEq] at hs
          exact ⟨s0, by rw [hset, if_neg (fun e => hs0c e.symm), hgs0, hpc, hs]⟩
        · exact ⟨s, by rw [hset, if_neg hsc]; exact hs⟩
      · intro a b k ha hb
        rw [hset] at ha hb
        split at ha <;> split at hb
        · rename_i e1 e2; rw [← e1, ← e2]
        · rename_i e1 e2
          simp only [Option.some.injEq] at ha
          subst ha
          rw [← e1, hoc, hp b hb, hpc]
        · rename_i e1 e2
          simp only [Option.some.injEq] at hb
          subst hb
          rw [← e2, hoc, hp a ha, hpc]
        · exact h.groups.refines a b k ha hb
      · rintro k hk
        simp only [Option.some.injEq] at hk
        subst hk
        refine ⟨c, rfl, hk0, fun s hs => ?_, s0, hs0l, by rw [hset, if_neg (fun e => hs0c e.symm), hgs0, hpc]⟩
        rw [hset] at hs
        split at hs
        · rename_i e; rw [← e]; exact hoc
        · rw [hp s hs, hpc]

theorem newNo_count {prev : Option Sig} {c : Sig} {no : Option Nat} {num : Nat} (l : List Sig) :
    (newNo prev c no num).2 + (countGroups (some c) l).2 + (countGroups prev (c :: l)).1 = num + (countGroups prev (c :: l)).2 + (countGroups (some c) l).1 ∧
      num ≤ (newNo prev c no num).2 ∧ (newNo prev c no num).2 ≤ num + 1 := by
  rw [countGroups]
  unfold newNo
  by_cases h1 : newBlock prev c = true
  · rw [if_pos h1, if_pos h1]
    dsimp only
    omega
  · by_cases h2 : newSucc prev c = true
    · rw [if_neg h1, if_neg h1, if_pos h2, if_pos h2]
      dsimp only
      omega
    · rw [if_neg h1, if_neg h1, if_neg h2, if_neg h2]
      dsimp only
      omega

theorem split_spec {o : Nat → Nat} {target : Nat} : ∀ {l : List Sig} {prev : Option Sig} {no : Option Nat} {g : List Nat} {num : Nat}, SplitInv o prev l no g num → num < target →
    ∃ g' num', splitGroups target prev l no g num = some (g', num') ∧ g'.length = g.length ∧ Groups o g' num' ∧ num ≤ num' ∧ num' ≤ target ∧ num' ≤ num + l.length ∧
      num' + (countGroups prev l).1 ≤ num + (countGroups prev l).2 ∧ (num' ≠ target → num' + (countGroups prev l).1 = num + (countGroups prev l).2) ∧ ∀ s, s ∉ l.map (·.state) → g'[s]? = g[s]?
  | [], prev, no, g, num, h, ht => ⟨g, num, rfl, rfl, h.groups, by omega, by omega, by simp, by simp [countGroups], by simp [countGroups], by simp⟩
  | c :: l, prev, no, g, num, h, ht => by
    obtain ⟨k, h1, h2, h3⟩ := h.step
    obtain ⟨hc1, hc2, hc3⟩ := newNo_count (prev := prev) (c := c) (no := no) (num := num) l
    have hle := count_le l (some c)
    unfold splitGroups
    rw [h1]
    simp only
    rw [if_pos h2]
    have hout : ∀ s, s ∉ (c :: l).map (·.state) → (g.set c.state k)[s]? = g[s]? := by
      intro s hs
      rw [List.getElem?_set_ne]
      rintro rfl
      exact hs (by simp)
    split
    · rename_i he
      refine ⟨_, _, rfl, by simp, h3.groups, by omega, by omega, by simp only [List.length_cons]; omega, by omega, fun hne => absurd he hne, hout⟩
    · rename_i he
      obtain ⟨g', num', e1, e2, e3, e4, e5, e6, e7, e8, e9⟩ := split_spec (target := target) h3 (show (newNo prev c no num).2 < target by omega)
      refine ⟨g', num', e1, by simpa using e2, e3, by omega, e5, by simp only [List.length_cons]; omega, by omega, fun hne => ?_, fun s hs => ?_⟩
      · have := e8 hne
        omega
      · rw [e9 s (fun hx => hs (by simp only [List.map_cons, List.mem_cons]; exact Or.inr hx)), hout s hs]

end Verif.Mas
