import Verif.Lemmas.ShrinkSplit

/- One pass over the signatures. -/
namespace Verif.Mas

theorem count_append : ∀ (b l : List Sig) (prev : Option Sig), b ≠ [] →
    countGroups prev (b ++ l) = ((countGroups prev b).1 + (countGroups b.getLast? l).1, (countGroups prev b).2 + (countGroups b.getLast? l).2)
  | [], _, _, h => absurd rfl h
  | [c], l, prev, _ => by
    rw [List.singleton_append, countGroups, countGroups]
    simp only [countGroups, List.getLast?_singleton]
    by_cases h1 : newBlock prev c = true
    · simp only [if_pos h1]; ext <;> simp only <;> omega
    · by_cases h2 : newSucc prev c = true
      · simp only [if_neg h1, if_pos h2]; ext <;> simp only <;> omega
      · simp only [if_neg h1, if_neg h2]; ext <;> simp only <;> omega
  | c :: d :: b, l, prev, _ => by
    have ih := count_append (d :: b) l (some c) (by simp)
    rw [List.cons_append, countGroups, ih, countGroups.eq_2 prev c (d :: b)]
    simp only [List.getLast?_cons_cons]
    by_cases h1 : newBlock prev c = true
    · simp only [if_pos h1]; ext <;> simp only <;> omega
    · by_cases h2 : newSucc prev c = true
      · simp only [if_neg h1, if_pos h2]; ext <;> simp only <;> omega
      · simp only [if_neg h1, if_neg h2]

/-- if no group is split, neighbouring signatures of a group are equal -/
theorem count_eq_chain : ∀ (l : List Sig) (p : Sig), (countGroups (some p) l).2 = (countGroups (some p) l).1 → List.IsChain (fun a b : Sig => a.group = b.group → a.succ = b.succ) (p :: l)
  | [], p, _ => by simp
  | c :: l, p, h => by
    have hle := count_le l (some c)
    rw [countGroups] at h
    rw [List.isChain_cons_cons]
    by_cases h1 : newBlock (some p) c = true
    · rw [if_pos h1] at h
      refine ⟨fun e => ?_, count_eq_chain l c (by simp only at h; omega)⟩
      simp [newBlock, e] at h1
    · rw [if_neg h1] at h
      by_cases h2 : newSucc (some p) c = true
      · rw [if_pos h2] at h
        simp only at h
        omega
      · rw [if_neg h2] at h
        refine ⟨fun _ => ?_, count_eq_chain l c h⟩
        simpa [newSucc] using h2

theorem count_eq_chain' {l : List Sig} (h : (countGroups none l).2 = (countGroups none l).1) : List.IsChain (fun a b : Sig => a.group = b.group → a.succ = b.succ) l := by
  cases l with
  | nil => simp
  | cons c l =>
    rw [countGroups] at h
    rw [if_pos (show newBlock none c = true from rfl)] at h
    exact count_eq_chain l c (by simpa using h)

/-- what holds for the remaining signatures -/
structure PassInv (o : Nat → Nat) (prev : Option Sig) (bs : List (List Sig)) (g : List Nat) (num : Nat) : Prop where
  groups : Groups o g num
  nodup : (bs.flatten.map (·.state)).Nodup
  group : ∀ x ∈ bs.flatten, g[x.state]? = some x.group
  old : ∀ x ∈ bs.flatten, o x.state = x.group
  nonempty : ∀ b ∈ bs, b ≠ []
  start : ∀ p, prev = some p → ∀ b bs', bs = b :: bs' → ∀ x ∈ b, p.group ≠ x.group
  chain : List.IsChain (fun b b' : List Sig => ∀ x ∈ b, ∀ y ∈ b', x.group ≠ y.group) bs

theorem PassInv.split {o : Nat → Nat} {prev : Option Sig} {b : List Sig} {bs : List (List Sig)} {g : List Nat} {num : Nat} (h : PassInv o prev (b :: bs) g num) : SplitInv o prev b none g num where
  groups := h.groups
  nodup := by
    have := h.nodup
    rw [List.flatten_cons, List.map_append, List.nodup_append] at this
    exact this.1
  group := fun x hx => h.group x (by rw [List.flatten_cons]; exact List.mem_append_left _ hx)
  old := fun x hx => h.old x (by rw [List.flatten_cons]; exact List.mem_append_left _ hx)
  start := by
    rintro _ c l' rfl
    cases prev with
    | none => rfl
    | some p => simpa [newBlock] using h.start p rfl _ _ rfl c (by simp)
  keeper := by simp

theorem PassInv.next {o : Nat → Nat} {prev : Option Sig} {b : List Sig} {bs : List (List Sig)} {g g' : List Nat} {num num' : Nat} (h : PassInv o prev (b :: bs) g num) (hg : Groups o g' num')
    (hout : ∀ s, s ∉ b.map (·.state) → g'[s]? = g[s]?) : PassInv o b.getLast? bs g' num' where
  groups := hg
  nodup := by
    have := h.nodup
    rw [List.flatten_cons, List.map_append, List.nodup_append] at this
    exact this.2.1
  group := by
    intro x hx
    rw [hout]
    · exact h.group x (by rw [List.flatten_cons]; exact List.mem_append_right _ hx)
    · intro hx'
      have := h.nodup
      rw [List.flatten_cons, List.map_append, List.nodup_append] at this
      exact this.2.2 _ hx' _ (List.mem_map.mpr ⟨x, hx, rfl⟩) rfl
  old := fun x hx => h.old x (by rw [List.flatten_cons]; exact List.mem_append_right _ hx)
  nonempty := fun c hc => h.nonempty c (by simp [hc])
  start := by
    rintro p hp b' bs' rfl x hx
    have := h.chain
    rw [List.isChain_cons_cons] at this
    exact this.1 p (List.mem_of_getLast? hp) x hx
  chain := by
    have := h.chain
    cases bs with
    | nil => simp
    | cons b' bs =>
      rw [List.isChain_cons_cons] at this
      exact this.2

theorem pass_spec {o : Nat → Nat} {atLimit : AtLimit} {target : Nat} : ∀ {bs : List (List Sig)} {prev : Option Sig} {st : ShrinkSt}, PassInv o prev bs st.g st.num → st.num < target → st.stop = false →
    ∃ st', pass atLimit target prev bs st = some st' ∧ st'.g.length = st.g.length ∧ Groups o st'.g st'.num ∧ st.num ≤ st'.num ∧ st'.num ≤ target ∧
      (st'.stop = true → target < st.g.length) ∧ (st'.stable = false → st.stable = false ∨ st.num < st'.num) ∧ (st'.stable = true → st.stable = true ∧ st'.g = st.g ∧ st'.num = st.num) ∧
      (st'.stable = true → st'.stop = false → (countGroups prev bs.flatten).2 = (countGroups prev bs.flatten).1)
  | [], prev, st, h, ht, hs => ⟨st, rfl, rfl, h.groups, Nat.le_refl _, by omega, by simp [hs], fun h => Or.inl h, fun h => ⟨h, rfl, rfl⟩, by simp [countGroups]⟩
  | b :: bs, prev, st, h, ht, hs => by
    have hsp := h.split
    have hle := count_le b prev
    have happ := count_append b bs.flatten prev (h.nonempty b (by simp))
    unfold pass
    split
    · rename_i hc
      refine ⟨_, rfl, rfl, h.groups, Nat.le_refl _, by simp only; omega, fun _ => ?_, fun h => Or.inl h, fun h => ⟨h, rfl, rfl⟩, by simp⟩
      obtain ⟨g', num', _, e2, e3, _, _, e6, _, e8, _⟩ := split_spec (target := st.num + b.length + 1) hsp (by omega)
      have h1 := e8 (by omega)
      have h2 := e3.num_le
      omega
    · split
      · rename_i hne
        obtain ⟨g', num', e1, e2, e3, e4, e5, e6, e7, e8, e9⟩ := split_spec (target := target) hsp ht
        rw [e1]
        simp only
        have hinc : st.num < num' := by
          by_cases he : num' = target
          · omega
          · have := e8 he
            omega
        split
        · rename_i he
          exact ⟨_, rfl, e2, e3, e4, e5, fun hx => by simp only [hs, Bool.false_eq_true] at hx, fun _ => Or.inr hinc, by simp, by simp⟩
        · rename_i he
          obtain ⟨st', f1, f2, f3, f4, f5, f6, f7, f8, f9⟩ := pass_spec (atLimit := atLimit) (target := target) (st := { st with g := g', num := num', stable := false }) (h.next e3 e9) (by simp only; omega) hs
          refine ⟨st', f1, by simp only at f2; omega, f3, by simp only at f4; omega, f5, fun hx => by have := f6 hx; simp only at this; omega, fun _ => Or.inr (by simp only at f4; omega), fun hx => ?_, fun hx => ?_⟩
          · exact absurd (f8 hx).1 (by simp)
          · exact absurd (f8 hx).1 (by simp)
      · rename_i hne
        obtain ⟨st', f1, f2, f3, f4, f5, f6, f7, f8, f9⟩ := pass_spec (atLimit := atLimit) (target := target) (h.next h.groups (fun _ _ => rfl)) ht hs
        refine ⟨st', f1, f2, f3, f4, f5, f6, f7, f8, fun h1 h2 => ?_⟩
        have := f9 h1 h2
        rw [List.flatten_cons, happ]
        simp only
        omega

/- Blocks of equal h values. -/

theorem hBlocks_spec : ∀ (l : List Sig), (hBlocks l).flatten = l ∧ (∀ b ∈ hBlocks l, b ≠ []) ∧ (∀ b ∈ hBlocks l, ∀ x ∈ b, ∀ y ∈ b, x.h = y.h) ∧
    List.IsChain (fun b b' : List Sig => ∀ x ∈ b, ∀ y ∈ b', x.h ≠ y.h) (hBlocks l)
  | [] => by simp [hBlocks]
  | a :: l => by
    obtain ⟨h1, h2, h3, h4⟩ := hBlocks_spec l
    unfold hBlocks
    split
    · rename_i he
      rw [he] at h1
      simp only [List.flatten_nil] at h1
      subst h1
      simp
    · rename_i rest he
      exact absurd rfl (h2 [] (by rw [he]; simp))
    · rename_i b bs rest he
      rw [he] at h1 h2 h3 h4
      have hb : ∀ x ∈ b :: bs, x.h = b.h := fun x hx => h3 _ (by simp) x hx b (by simp)
      split
      · rename_i e
        refine ⟨by rw [← h1]; simp, ?_, ?_, ?_⟩
        · intro c hc
          rcases List.mem_cons.mp hc with rfl | hc
          · simp
          · exact h2 c (by simp [hc])
        · intro c hc
          rcases List.mem_cons.mp hc with rfl | hc
          · have : ∀ x ∈ a :: b :: bs, x.h = b.h := by
              intro x hx
              rcases List.mem_cons.mp hx with rfl | hx
              · exact e
              · exact hb x hx
            intro x hx y hy
            rw [this x hx, this y hy]
          · exact h3 c (by simp [hc])
        · cases rest with
          | nil => simp
          | cons r rest =>
            rw [List.isChain_cons_cons] at h4 ⊢
            refine ⟨fun x hx y hy => ?_, h4.2⟩
            rcases List.mem_cons.mp hx with rfl | hx
            · rw [e]; exact h4.1 b (by simp) y hy
            · exact h4.1 x hx y hy
      · rename_i e
        refine ⟨by rw [← h1]; simp, ?_, ?_, ?_⟩
        · intro c hc
          rcases List.mem_cons.mp hc with rfl | hc
          · simp
          · exact h2 c hc
        · intro c hc
          rcases List.mem_cons.mp hc with rfl | hc
          · simp
          · exact h3 c hc
        · rw [List.isChain_cons_cons]
          refine ⟨fun x hx y hy => ?_, h4⟩
          rw [List.mem_singleton] at hx
          subst hx
          rw [hb y hy]
          exact e

/-- signatures sorted by their keys: the same group is contiguous -/
theorem sorted_chain : ∀ {l : List Sig}, l.Pairwise (fun a b => a.key ≤ b.key) → (∀ a ∈ l, ∀ b ∈ l, a.group = b.group → a.h = b.h) → List.IsChain (fun a b : Sig => a.group = b.group → a.succ = b.succ) l →
    ∀ a ∈ l, ∀ b ∈ l, a.group = b.group → a.succ = b.succ
  | [], _, _, _ => by simp
  | [a], _, _, _ => by simp
  | a :: c :: l, hs, hh, hc => by
    have hs' := List.pairwise_cons.mp hs
    rw [List.isChain_cons_cons] at hc
    have ih := sorted_chain hs'.2 (fun x hx y hy => hh x (by simp only [List.mem_cons] at hx ⊢; tauto) y (by simp only [List.mem_cons] at hy ⊢; tauto)) hc.2
    have key : ∀ b ∈ c :: l, a.group = b.group → a.succ = b.succ := by
      intro b hb hg
      have hac := hs'.1 c (by simp)
      have hcb : c.key ≤ b.key := by
        rcases List.mem_cons.mp hb with rfl | hb'
        · exact le_refl _
        · exact (List.pairwise_cons.mp hs'.2).1 b hb'
      have hhab := hh a (by simp) b (by simp only [List.mem_cons] at hb ⊢; tauto) hg
      have hgc : a.group = c.group := by
        simp only [Sig.key, Prod.Lex.toLex_le_toLex] at hac hcb
        omega
      rw [hc.1 hgc, ih c (by simp) b hb (by omega)]
    intro x hx y hy hg
    rcases List.mem_cons.mp hx with hx | hx'
    · rcases List.mem_cons.mp hy with hy | hy'
      · rw [hx, hy]
      · rw [hx] at hg ⊢
        exact key y hy' hg
    · rcases List.mem_cons.mp hy with hy | hy'
      · rw [hy] at hg ⊢
        exact (key x hx' hg.symm).symm
      · exact ih x hx' y hy' hg

end Verif.Mas
