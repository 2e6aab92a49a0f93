import Verif.Model.MasAlgorithm
import Verif.Lemmas.MasFactor
import Verif.Props.EquivRel

/-
Label reduction computes valid label mappings.
-/
namespace Verif.Mas

theorem mapAll_pairwise {α β : Type} {f : α → Option β} {R : α → α → Prop} {S : β → β → Prop} (hRS : ∀ a a' b b', f a = some b → f a' = some b' → R a a' → S b b') :
    ∀ {l : List α} {l' : List β}, mapAll f l = some l' → l.Pairwise R → l'.Pairwise S
  | [], l', h, _ => by simp only [mapAll, Option.some.injEq] at h; subst h; exact .nil
  | a :: l, l', h, hp => by
    have h' := mapAll_iff.mp h
    cases h' with
    | cons h1 h2 =>
      rename_i b bs
      have h3 := mapAll_iff.mpr h2
      rw [List.pairwise_cons] at hp ⊢
      refine ⟨fun b' hb' => ?_, mapAll_pairwise hRS h3 hp.2⟩
      obtain ⟨a', h4, h5⟩ := mapAll_mem h3 hb'
      exact hRS a a' b b' h1 h5 (hp.1 a' h4)

theorem mem_active {L : Labels} {l : Nat} : l ∈ L.active ↔ ∃ c, L.cost l = some c := by
  unfold Labels.active
  simp only [List.mem_filter, List.mem_range, Option.isSome_iff_exists]
  constructor
  · exact fun h => h.2
  · rintro ⟨c, hc⟩
    refine ⟨?_, c, hc⟩
    by_contra hlt
    unfold Labels.cost at hc
    rw [List.getElem?_eq_none (l := L.costs) (by omega)] at hc
    simp at hc

theorem active_nodup (L : Labels) : L.active.Nodup := List.Nodup.filter _ List.nodup_range

/-- the groups of a block: sets of labels of the block with the same cost -/
theorem costGroups_spec {O : HashOrder} {L : Labels} {b : List Nat} {gs : List (List Nat)} (h : costGroups O L b = some gs) :
    (∀ g ∈ gs, g ≠ [] ∧ ∃ c, ∀ l ∈ g, l ∈ b ∧ L.cost l = some c) ∧ gs.Pairwise (fun g g' => ∀ l ∈ g, l ∉ g') := by
  unfold costGroups at h
  cases hb : buckets O L.cost b with
  | none => rw [hb] at h; simp at h
  | some bs =>
    rw [hb] at h
    simp only [Option.some.injEq] at h
    subst h
    obtain ⟨h1, _, h3⟩ := buckets_spec hb
    constructor
    · intro g hg
      simp only [List.mem_map, List.mem_filter, decide_eq_true_eq] at hg
      obtain ⟨g0, ⟨⟨p, hp, rfl⟩, hlen⟩, rfl⟩ := hg
      constructor
      · have hne : p.2 ≠ [] := by intro e; rw [e] at hlen; simp at hlen
        obtain ⟨x, hx⟩ := List.exists_mem_of_ne_nil _ hne
        exact List.ne_nil_of_mem (mem_sortLabels.mpr hx)
      · refine ⟨p.1, fun l hl => ?_⟩
        have := mem_sortLabels.mp hl
        rw [h1 p hp] at this
        simpa using this
    · rw [List.pairwise_map]
      apply List.Pairwise.filter
      rw [List.pairwise_map]
      rw [List.Nodup, List.pairwise_map] at h3
      refine h3.imp_of_mem ?_
      intro p q hp hq hne l hl hl'
      have h5 := mem_sortLabels.mp hl
      have h6 := mem_sortLabels.mp hl'
      rw [h1 p hp] at h5
      rw [h1 q hq] at h6
      simp only [List.mem_filter, decide_eq_true_eq] at h5 h6
      rw [h5.2] at h6
      simp only [Option.some.injEq] at h6
      exact hne h6.2

/-- the label mapping of disjoint blocks is valid, and its entries are within blocks -/
theorem labelMapping_spec {O : HashOrder} {L : Labels} {blocks : List (List Nat)} {es : List (Nat × List Nat)} (hd : blocks.Pairwise List.Disjoint) (h : labelMapping O L blocks = some es) :
    ValidMap L es ∧ ∀ e ∈ es, ∃ b ∈ blocks, ∀ l ∈ e.2, l ∈ b := by
  unfold labelMapping at h
  cases hg : mapAll (costGroups O L) blocks with
  | none => rw [hg] at h; simp at h
  | some gs =>
    rw [hg] at h
    simp only [Option.some.injEq] at h
    subst h
    have hmap : ((gs.flatten.zipIdx.map (fun p => (L.costs.length + p.2, p.1))).map (·.2)) = gs.flatten := by
      rw [List.map_map]
      show gs.flatten.zipIdx.map Prod.fst = gs.flatten
      exact List.zipIdx_map_fst 0 _
    have hmem : ∀ e ∈ gs.flatten.zipIdx.map (fun p => (L.costs.length + p.2, p.1)), ∃ b ∈ blocks, ∃ g, costGroups O L b = some g ∧ e.2 ∈ g := by
      intro e he
      have : e.2 ∈ gs.flatten := by rw [← hmap]; exact List.mem_map_of_mem he
      obtain ⟨g, h1, h2⟩ := List.mem_flatten.mp this
      obtain ⟨b, h3, h4⟩ := mapAll_mem hg h1
      exact ⟨b, h3, g, h4, h2⟩
    refine ⟨⟨fun e he => ?_, fun e he => ?_, ?_⟩, fun e he => ?_⟩
    · obtain ⟨b, _, g, h4, h5⟩ := hmem e he
      obtain ⟨_, c, h6⟩ := (costGroups_spec h4).1 _ h5
      exact ⟨c, fun l hl => (h6 l hl).2⟩
    · obtain ⟨b, _, g, h4, h5⟩ := hmem e he
      exact ((costGroups_spec h4).1 _ h5).1
    · have key : gs.flatten.Pairwise (fun g g' => ∀ l ∈ g, l ∉ g') := by
        rw [List.pairwise_flatten]
        constructor
        · intro g hg'
          obtain ⟨b, _, h4⟩ := mapAll_mem hg hg'
          exact (costGroups_spec h4).2
        · refine mapAll_pairwise ?_ hg hd
          intro b b' g g' h1 h2 hdis x hx y hy l hl hl'
          obtain ⟨_, _, h6⟩ := (costGroups_spec h1).1 _ hx
          obtain ⟨_, _, h7⟩ := (costGroups_spec h2).1 _ hy
          exact hdis (h6 l hl).1 (h7 l hl').1
      rw [← hmap, List.pairwise_map] at key
      exact key
    · obtain ⟨b, h3, g, h4, h5⟩ := hmem e he
      obtain ⟨_, c, h6⟩ := (costGroups_spec h4).1 _ h5
      exact ⟨b, h3, fun l hl => (h6 l hl).1⟩

theorem factor_mem_indices {F : FTS} {j : Nat} {f : Factor} (h : F.factor j = some f) : j ∈ F.indices := by
  unfold FTS.indices
  simp only [List.mem_filter, List.mem_range, h, Option.isSome_some, and_true]
  by_contra hlt
  unfold FTS.factor at h
  rw [List.getElem?_eq_none (l := F.factors) (by omega)] at h
  simp at h

theorem mem_groupsExcept {F : FTS} {i : Nat} {g : List Nat} : g ∈ F.groupsExcept i ↔ ∃ j f, j ≠ i ∧ F.factor j = some f ∧ ∃ x ∈ f.ts.infos, x.labels ≠ [] ∧ x.labels = g := by
  unfold FTS.groupsExcept TS.groups LocalLabel.active
  simp only [List.mem_flatMap, List.mem_filter, decide_eq_true_eq]
  constructor
  · rintro ⟨j, ⟨h1, h2⟩, h3⟩
    cases hf : F.factor j with
    | none => rw [hf] at h3; simp at h3
    | some f =>
      rw [hf] at h3
      simp only [List.mem_map, List.mem_filter, Bool.not_eq_true', List.isEmpty_eq_false_iff] at h3
      obtain ⟨x, ⟨h4, h5⟩, h6⟩ := h3
      exact ⟨j, f, h2, hf, x, h4, h5, h6⟩
  · rintro ⟨j, f, h1, h2, x, h3, h4, h5⟩
    refine ⟨j, ⟨factor_mem_indices h2, h1⟩, ?_⟩
    rw [h2]
    simp only [List.mem_map, List.mem_filter, Bool.not_eq_true', List.isEmpty_eq_false_iff]
    exact ⟨x, ⟨h3, h4⟩, h5⟩

/-- the blocks of the combinable relation: two active labels are in the same block if they are in the same groups in all other factors.  The relation is always computed. -/
theorem combinable_spec {F : FTS} (hF : ∀ j f, F.factor j = some f → TSOk F.labels f.ts ∧ Srt f.ts.infos) (i : Nat) :
    ∃ bs, F.combinable i = some bs ∧ bs.Pairwise List.Disjoint ∧ (∀ b ∈ bs, b.Nodup ∧ ∀ l ∈ b, l ∈ F.labels.active) ∧ (∀ l ∈ F.labels.active, ∃ b ∈ bs, l ∈ b) ∧
      ∀ l ∈ F.labels.active, ∀ l' ∈ F.labels.active, ((∃ b ∈ bs, l ∈ b ∧ l' ∈ b) ↔ ∀ g ∈ F.groupsExcept i, (l ∈ g ↔ l' ∈ g)) := by
  have hX : ∀ g ∈ F.groupsExcept i, g ≠ [] ∧ g.Nodup ∧ ∀ l ∈ g, l ∈ F.labels.active := by
    intro g hg
    obtain ⟨j, f, _, h2, x, h3, h4, rfl⟩ := mem_groupsExcept.mp hg
    obtain ⟨h5, h6⟩ := hF j f h2
    refine ⟨h4, sorted_nodup (h6 x h3), fun l hl => mem_active.mpr ?_⟩
    obtain ⟨c, h7, _⟩ := h5.cons.live x h3 l hl
    exact ⟨c, h7⟩
  by_cases hne : F.labels.active = []
  · have hg : F.groupsExcept i = [] := by
      rw [List.eq_nil_iff_forall_not_mem]
      intro g hg
      obtain ⟨h1, _, h2⟩ := hX g hg
      obtain ⟨l, hl⟩ := List.exists_mem_of_ne_nil _ h1
      have := h2 l hl
      rw [hne] at this
      simp at this
    refine ⟨[[]], ?_, by simp, by simp, by simp [hne], by simp [hne]⟩
    unfold FTS.combinable
    rw [hne, hg]
    rfl
  · have hinj : ∀ {l : List Nat} {x : Nat}, (Int.ofNat x ∈ l.map Int.ofNat ↔ x ∈ l) := by
      intro l x
      simp only [List.mem_map, Int.ofNat_eq_natCast, Nat.cast_inj, exists_eq_right]
    have hnd : ∀ {l : List Nat}, l.Nodup → (l.map Int.ofNat).Nodup := fun h => h.map (fun a b h => by simpa using h)
    obtain ⟨r, bs, h1, h2, h3, h4, h5, h6⟩ := EquivRel.C11_equivalence_relation (F.labels.active.map Int.ofNat) (hnd (active_nodup _)) (by simpa using hne) ((F.groupsExcept i).map (fun g => g.map Int.ofNat)) (by
      intro X hXm
      obtain ⟨g, hg, rfl⟩ := List.mem_map.mp hXm
      obtain ⟨_, k1, k2⟩ := hX g hg
      refine ⟨hnd k1, fun x hx => ?_⟩
      obtain ⟨l, hl, rfl⟩ := List.mem_map.mp hx
      exact hinj.mpr (k2 l hl))
    have hnn : ∀ b ∈ bs, ∀ e ∈ b, ∃ l ∈ F.labels.active, e = Int.ofNat l := by
      intro b hb e he
      obtain ⟨l, hl, e'⟩ := List.mem_map.mp ((h5 e).mpr ⟨b, hb, he⟩)
      exact ⟨l, hl, e'.symm⟩
    have hto : ∀ b ∈ bs, ∀ l : Nat, l ∈ b.map Int.toNat ↔ Int.ofNat l ∈ b := by
      intro b hb l
      rw [List.mem_map]
      constructor
      · rintro ⟨e, he, rfl⟩
        obtain ⟨l', _, rfl⟩ := hnn b hb e he
        simpa using he
      · intro h
        exact ⟨_, h, by simp⟩
    refine ⟨bs.map (fun b => b.map Int.toNat), by unfold FTS.combinable; rw [h1]; simp only [h2, Option.map_some], ?_, ?_, ?_, ?_⟩
    · rw [List.pairwise_map]
      refine h4.imp_of_mem ?_
      intro a b ha hb hdis l hl hl'
      exact hdis ((hto a ha l).mp hl) ((hto b hb l).mp hl')
    · intro b' hb'
      obtain ⟨b, hb, rfl⟩ := List.mem_map.mp hb'
      refine ⟨List.Nodup.map_on ?_ (h3 b hb).2, fun l hl => ?_⟩
      · intro x hx y hy e
        obtain ⟨l1, _, rfl⟩ := hnn b hb x hx
        obtain ⟨l2, _, rfl⟩ := hnn b hb y hy
        simp at e
        rw [e]
      · obtain ⟨l', hl', e⟩ := hnn b hb _ ((hto b hb l).mp hl)
        have : l = l' := by simpa using e
        rw [this]; exact hl'
    · intro l hl
      obtain ⟨b, hb, h7⟩ := (h5 (Int.ofNat l)).mp (hinj.mpr hl)
      exact ⟨_, List.mem_map_of_mem hb, (hto b hb l).mpr h7⟩
    · intro l hl l' hl'
      rw [show (∃ b ∈ bs.map (fun b => b.map Int.toNat), l ∈ b ∧ l' ∈ b) ↔ (∃ b ∈ bs, Int.ofNat l ∈ b ∧ Int.ofNat l' ∈ b) from ?_]
      · rw [h6 _ (hinj.mpr hl) _ (hinj.mpr hl')]
        constructor
        · intro h g hg
          have := h _ (List.mem_map_of_mem hg)
          rwa [hinj, hinj] at this
        · intro h X hX'
          obtain ⟨g, hg, rfl⟩ := List.mem_map.mp hX'
          rw [hinj, hinj]
          exact h g hg
      · constructor
        · rintro ⟨b', hb', k1, k2⟩
          obtain ⟨b, hb, rfl⟩ := List.mem_map.mp hb'
          exact ⟨b, hb, (hto b hb l).mp k1, (hto b hb l').mp k2⟩
        · rintro ⟨b, hb, k1, k2⟩
          exact ⟨_, List.mem_map_of_mem hb, (hto b hb l).mpr k1, (hto b hb l').mpr k2⟩

/-- the computed mapping is valid, and its entries are within one group in all other factors -/
theorem mapping_valid {O : HashOrder} {F : FTS} (hF : ∀ j f, F.factor j = some f → TSOk F.labels f.ts ∧ Srt f.ts.infos) {i : Nat} {bs : List (List Nat)} {es : List (Nat × List Nat)} (hb : F.combinable i = some bs) (h : labelMapping O F.labels bs = some es) :
    ValidMap F.labels es ∧ ∀ j f, j ≠ i → F.factor j = some f → ∀ e ∈ es, ∃ x ∈ f.ts.infos, ∀ l ∈ e.2, l ∈ x.labels := by
  obtain ⟨bs', h1, h2, h3, _, h4⟩ := combinable_spec hF i
  rw [hb] at h1
  simp only [Option.some.injEq] at h1
  subst h1
  obtain ⟨hv, h5⟩ := labelMapping_spec h2 h
  refine ⟨hv, fun j f hj hf e he => ?_⟩
  obtain ⟨b, h6, h7⟩ := h5 e he
  obtain ⟨l, hl⟩ := List.exists_mem_of_ne_nil _ (hv.ne e he)
  have hact := (h3 b h6).2 l (h7 l hl)
  obtain ⟨c, hc⟩ := mem_active.mp hact
  obtain ⟨x, h8, h9⟩ := (hF j f hf).1.cons.complete l c hc
  refine ⟨x, h8, fun l' hl' => ?_⟩
  exact ((h4 l hact l' ((h3 b h6).2 l' (h7 l' hl'))).mp ⟨b, h6, h7 l hl, h7 l' hl'⟩ x.labels (mem_groupsExcept.mpr ⟨j, f, hj, hf, x, h8, List.ne_nil_of_mem h9, rfl⟩)).mp h9

end Verif.Mas
