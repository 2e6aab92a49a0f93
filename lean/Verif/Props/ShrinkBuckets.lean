import Verif.Lemmas.ShrinkBuckets
import Verif.Props.Mas
import Verif.Props.MasSizes

/-
C69: f-preserving shrinking and random shrinking.
-/
namespace Verif.Mas
open Verif.AdaptiveQueue

theorem le_foldl_max : ∀ {l : List Nat} {m x : Nat}, (x ∈ l ∨ x ≤ m) → x ≤ l.foldl max m
  | [], m, x, h => by simpa using h
  | a :: l, m, x, h => by
    simp only [List.foldl_cons]
    refine le_foldl_max ?_
    rcases h with h | h
    · rcases List.mem_cons.mp h with rfl | h
      · exact Or.inr (by omega)
      · exact Or.inl h
    · exact Or.inr (by omega)

theorem fhAlive_fhAt {d : Distances} {s : Nat} {k : Nat × Nat} (h : fhAlive d s = some k) : fhAt d s = some k := by
  unfold fhAlive at h
  unfold fhAt
  split at h
  · split at h
    · split at h
      · simp at h
      · rename_i h5
        rw [if_neg h5]
        exact h
    · simp at h
  · simp at h

theorem fhAt_fh {gs hs : List Nat} {s : Nat} {k : Nat × Nat} (h : fhAt ⟨some gs, some hs⟩ s = some k) : k = fh gs hs s := by
  unfold fhAt at h
  simp only at h
  split at h
  · rename_i g x h3 h4
    have e1 : gs.getD s 0 = g := by rw [List.getD_eq_getElem?_getD, h3]; rfl
    have e2 : hs.getD s 0 = x := by rw [List.getD_eq_getElem?_getD, h4]; rfl
    unfold fh
    rw [e1, e2]
    have hi : infinity = inf := rfl
    rw [hi]
    split at h
    · rename_i h5
      simp only [Option.some.injEq] at h
      rw [if_pos h5, h]
    · rename_i h5
      split at h
      · simp only [Option.some.injEq] at h
        rw [if_neg h5, h]
      · simp at h
  · simp at h

theorem fhAlive_le {d : Distances} {s : Nat} {k : Nat × Nat} (h : fhAlive d s = some k) : k.2 ≤ k.1 := by
  unfold fhAlive at h
  split at h
  · split at h
    · split at h
      · simp at h
      · split at h
        · simp only [Option.some.injEq] at h
          subst h
          simp only
          omega
        · simp at h
    · simp at h
  · simp at h

theorem fillVector_alive {d : Distances} : ∀ {ss : List Nat} {M M' : List (List (List Nat))}, fillVector d ss M = some M' → ∀ s ∈ ss, ∃ k, fhAlive d s = some k
  | [], _, _, _ => by simp
  | s :: ss, M, M', h => by
    simp only [fillVector] at h
    split at h
    · simp at h
    · rename_i k hk
      split at h
      · simp at h
      · intro x hx
        rcases List.mem_cons.mp hx with rfl | hx
        · exact ⟨k, hk⟩
        · exact fillVector_alive h x hx

/-- if `partition_into_buckets` is defined, its result is as specified -/
theorem partitionFH_some {df dh : HighLow} {T : TS} {gs hs : List Nat} {bs : List (List Nat)} (h : partitionFH df dh T ⟨some gs, some hs⟩ = some bs) : IsBuckets df dh (fh gs hs) T.size bs := by
  unfold partitionFH at h
  split at h
  · simp at h
  · rename_i ks hks
    have hat : ∀ s, s < T.size → fhAt ⟨some gs, some hs⟩ s = some (fh gs hs s) ∧ fh gs hs s ∈ ks := by
      intro s hlt
      obtain ⟨k, hk, e⟩ := mapAll_mem' hks (List.mem_range.mpr hlt)
      have := fhAt_fh e
      subst this
      exact ⟨e, hk⟩
    split at h
    · obtain ⟨bs', h1, h2⟩ := bucketsMap_spec (df := df) (dh := dh) (fun s hlt => (hat s hlt).1)
      rw [h] at h1
      simp only [Option.some.injEq] at h1
      exact h1 ▸ h2
    · have halive : ∀ s, s < T.size → fhAlive ⟨some gs, some hs⟩ s = some (fh gs hs s) := by
        intro s hlt
        obtain ⟨M, hM⟩ : ∃ M, fillVector ⟨some gs, some hs⟩ (List.range T.size) ((List.range ((ks.map (·.1)).foldl max 0 + 1)).map (fun f => List.replicate (min f ((ks.map (·.2)).foldl max 0) + 1) [])) = some M := by
          unfold bucketsVector at h
          split at h
          · simp at h
          · rename_i M hM
            exact ⟨M, hM⟩
        obtain ⟨k, hk⟩ := fillVector_alive hM s (List.mem_range.mpr hlt)
        have := fhAlive_fhAt hk
        rw [(hat s hlt).1] at this
        rw [hk, this]
      obtain ⟨bs', h1, h2⟩ := bucketsVector_spec (df := df) (dh := dh) (d := ⟨some gs, some hs⟩) (key := fh gs hs) (n := T.size) (maxF := (ks.map (·.1)).foldl max 0) (maxH := (ks.map (·.2)).foldl max 0)
        (fun s hlt => ⟨halive s hlt, le_foldl_max (Or.inl (List.mem_map_of_mem (hat s hlt).2)), le_foldl_max (Or.inl (List.mem_map_of_mem (hat s hlt).2)), fhAlive_le (halive s hlt)⟩)
      rw [h] at h1
      simp only [Option.some.injEq] at h1
      exact h1 ▸ h2

theorem SumsFit.fhAt {T : TS} {gs hs : List Nat} (h : SumsFit T gs hs) {s : Nat} (hlt : s < T.size) : fhAt ⟨some gs, some hs⟩ s = some (fh gs hs s) ∧ ((fh gs hs s).1 ≠ infinity → fhAlive ⟨some gs, some hs⟩ s = some (fh gs hs s)) := by
  have h1 : gs[s]? = some (gs.getD s 0) := by
    have := h.init
    rw [List.getD_eq_getElem?_getD, List.getElem?_eq_getElem (by omega)]
    rfl
  have h2 : hs[s]? = some (hs.getD s 0) := by
    have := h.goal
    rw [List.getD_eq_getElem?_getD, List.getElem?_eq_getElem (by omega)]
    rfl
  have h3 := h.sums s hlt
  unfold Mas.fhAt fhAlive fh
  simp only
  rw [h1, h2]
  simp only
  generalize gs.getD s 0 = g at h3 ⊢
  generalize hs.getD s 0 = x at h3 ⊢
  have hi : inf = infinity := rfl
  rw [hi]
  by_cases hd : g = infinity ∨ x = infinity
  · simp [hd]
  · have h4 := h3 (fun e => hd (Or.inl e)) (fun e => hd (Or.inr e))
    have h5 : g + x < 2 ^ 31 := by simp only [infinity] at h4; omega
    simp only [infinity] at h4
    simp [hd]
    omega

theorem partitionFH_defined {df dh : HighLow} {T : TS} {gs hs : List Nat} (h : SumsFit T gs hs) : ∃ bs, partitionFH df dh T ⟨some gs, some hs⟩ = some bs := by
  obtain ⟨ks, hks⟩ := mapAll_defined (f := fhAt ⟨some gs, some hs⟩) (l := List.range T.size) (fun s hs => ⟨_, (h.fhAt (List.mem_range.mp hs)).1⟩)
  unfold partitionFH
  rw [hks]
  simp only
  have hat : ∀ s, s < T.size → fh gs hs s ∈ ks := by
    intro s hlt
    obtain ⟨k, hk, e⟩ := mapAll_mem' hks (List.mem_range.mpr hlt)
    have := fhAt_fh e
    subst this
    exact hk
  split
  · obtain ⟨bs', h1, _⟩ := bucketsMap_spec (df := df) (dh := dh) (fun s hlt => (h.fhAt hlt).1)
    exact ⟨bs', h1⟩
  · rename_i hsq
    have halive : ∀ s, s < T.size → fhAlive ⟨some gs, some hs⟩ s = some (fh gs hs s) := by
      intro s hlt
      refine (h.fhAt hlt).2 (fun e => hsq ?_)
      have h1 : (fh gs hs s).1 ≤ (ks.map (·.1)).foldl max 0 := le_foldl_max (Or.inl (List.mem_map_of_mem (hat s hlt)))
      rw [e] at h1
      have h2 := Nat.mul_le_mul h1 h1
      have h3 := h.size
      simp only [infinity] at h2 h3
      omega
    obtain ⟨bs', h1, _⟩ := bucketsVector_spec (df := df) (dh := dh) (d := ⟨some gs, some hs⟩) (key := fh gs hs) (n := T.size) (maxF := (ks.map (·.1)).foldl max 0) (maxH := (ks.map (·.2)).foldl max 0)
        (fun s hlt => ⟨halive s hlt, le_foldl_max (Or.inl (List.mem_map_of_mem (hat s hlt))), le_foldl_max (Or.inl (List.mem_map_of_mem (hat s hlt))), fhAlive_le (halive s hlt)⟩)
    exact ⟨bs', h1⟩

section
variable {df dh : HighLow} {key : Nat → Nat × Nat} {n : Nat} {bs : List (List Nat)} (h : IsBuckets df dh key n bs)
include h

theorem IsBuckets.flatten_nodup : bs.flatten.Nodup := by
  rw [List.nodup_flatten]
  refine ⟨h.nodup, h.sorted.imp ?_⟩
  intro b b' hbb
  intro s hs hs'
  exact shrunkEarlier_irrefl (hbb s hs s hs')

theorem IsBuckets.mem_flatten {s : Nat} : s ∈ bs.flatten ↔ s < n := by
  constructor
  · intro hs
    obtain ⟨b, hb, hs⟩ := List.mem_flatten.mp hs
    obtain ⟨k, hk⟩ := h.whole b hb
    exact ((hk s).mp hs).1
  · intro hs
    obtain ⟨b, hb, hs⟩ := h.covers s hs
    exact List.mem_flatten.mpr ⟨b, hb, hs⟩

theorem IsBuckets.perm : bs.flatten.Perm (List.range n) := by
  rw [List.perm_ext_iff_of_nodup h.flatten_nodup List.nodup_range]
  intro s
  rw [h.mem_flatten, List.mem_range]

theorem IsBuckets.sum : (bs.map List.length).sum = n := by
  have := h.perm.length_eq
  rw [List.length_flatten, List.length_range] at this
  exact this

/-- there are not more buckets than values -/
theorem IsBuckets.length_le : bs.length ≤ ((List.range n).map key).dedup.length := by
  have hnd : (bs.map (fun b => key (b.headD 0))).Nodup := by
    rw [List.Nodup, List.pairwise_map]
    refine List.Pairwise.imp_of_mem (R := fun b b' => ∀ s ∈ b, ∀ s' ∈ b', ShrunkEarlier df dh (key s) (key s')) ?_ h.sorted
    intro b b' hb hb' hbb e
    have hin : ∀ b ∈ bs, b.headD 0 ∈ b := by
      intro b hb
      cases b with
      | nil => exact absurd rfl (h.nonempty [] hb)
      | cons x l => simp
    have := hbb _ (hin b hb) _ (hin b' hb')
    rw [e] at this
    exact shrunkEarlier_irrefl this
  have hsub : (bs.map (fun b => key (b.headD 0))) ⊆ ((List.range n).map key).dedup := by
    intro k hk
    obtain ⟨b, hb, rfl⟩ := List.mem_map.mp hk
    rw [List.mem_dedup]
    refine List.mem_map_of_mem (List.mem_range.mpr (h.mem_flatten.mp (List.mem_flatten.mpr ⟨b, hb, ?_⟩)))
    cases b with
    | nil => exact absurd rfl (h.nonempty [] hb)
    | cons x l => simp
  have := (hnd.subperm hsub).length_le
  simpa using this

theorem IsBuckets.result {pick : Nat → Nat → Nat × Nat} {target : Nat} (ht : 1 ≤ target) {rel : List (List Nat)} (hr : computeAbstraction pick target bs = some rel) :
    IsPartition n rel ∧ rel.length = min target n ∧ (((List.range n).map key).dedup.length ≤ target → ∀ a b, SameClass rel a b → key a = key b) ∧
      ∀ a b c c', a ≠ b → SameClass rel a b → c < n → c' < n → ShrunkEarlier df dh (key c) (key a) → key c' = key c → SameClass rel c c' := by
  obtain ⟨h1, h2, h3⟩ := abstraction_spec ht h.nonempty h.flatten_nodup hr
  have hperm := h3.perm.trans h.perm
  refine ⟨⟨h3.nonempty, fun c hc s hs => ?_, fun s hs => ?_, hperm.nodup_iff.mpr List.nodup_range⟩, by rw [h1, h.sum], fun hle a b ⟨c, hc, ha, hb⟩ => ?_, ?_⟩
  · exact List.mem_range.mp (hperm.subset (List.mem_flatten.mpr ⟨c, hc, hs⟩))
  · exact List.mem_flatten.mp (hperm.symm.subset (List.mem_range.mpr hs))
  · obtain ⟨bk, hbk, hin⟩ := h2 (Nat.le_trans h.length_le hle) c hc
    obtain ⟨k, hk⟩ := h.whole bk hbk
    rw [((hk a).mp (hin a ha)).2, ((hk b).mp (hin b hb)).2]
  · intro a b c c' hab ⟨cl, hcl, ha, hb⟩ hc hc' hearly hkey
    obtain ⟨pre, mid, post, e, hmid, hpre, hpost⟩ := h3.phases
    obtain ⟨bc, hbc, hcb⟩ := h.covers c hc
    have hc'b : c' ∈ bc := by
      obtain ⟨k, hk⟩ := h.whole bc hbc
      exact (hk c').mpr ⟨hc', by rw [hkey]; exact ((hk c).mp hcb).2⟩
    suffices hp : bc ∈ pre by
      obtain ⟨cl', h4, h5⟩ := hpre bc hp
      exact ⟨cl', h4, h5 c hcb, h5 c' hc'b⟩
    have hapost : a ∉ post.flatten := by
      intro hap
      have := hpost cl hcl ⟨a, ha, hap⟩
      obtain ⟨x, rfl⟩ := List.length_eq_one_iff.mp this
      simp only [List.mem_cons, List.not_mem_nil, or_false] at ha hb
      exact hab (ha.trans hb.symm)
    have haall : a ∈ bs.flatten := h3.perm.subset (List.mem_flatten.mpr ⟨cl, hcl, ha⟩)
    have hs := h.sorted
    rw [e] at hs hbc haall
    rw [List.append_assoc] at hs
    have hs2 := (List.pairwise_append.mp hs)
    have hs3 := List.pairwise_append.mp hs2.2.1
    rw [List.flatten_append, List.flatten_append] at haall
    simp only [List.mem_append] at haall hbc
    rcases hbc with (hbc | hbc) | hbc
    · exact hbc
    · exfalso
      rcases haall with (hax | hax) | hax
      · obtain ⟨ba, hba, hax⟩ := List.mem_flatten.mp hax
        exact shrunkEarlier_asymm hearly (hs2.2.2 ba hba bc (List.mem_append_left _ hbc) a hax c hcb)
      · obtain ⟨ba, hba, hax⟩ := List.mem_flatten.mp hax
        have : ba = bc := by
          match mid, hmid, hba, hbc with
          | [x], _, hba, hbc =>
            simp only [List.mem_cons, List.not_mem_nil, or_false] at hba hbc
            rw [hba, hbc]
        subst this
        obtain ⟨k, hk⟩ := h.whole ba (by rw [e]; simp [hba])
        rw [((hk a).mp hax).2, ((hk c).mp hcb).2] at hearly
        exact shrunkEarlier_irrefl hearly
      · exact hapost hax
    · exfalso
      rcases haall with (hax | hax) | hax
      · obtain ⟨ba, hba, hax⟩ := List.mem_flatten.mp hax
        exact shrunkEarlier_asymm hearly (hs2.2.2 ba hba bc (List.mem_append_right _ hbc) a hax c hcb)
      · obtain ⟨ba, hba, hax⟩ := List.mem_flatten.mp hax
        exact shrunkEarlier_asymm hearly (hs3.2.2 ba hba bc hbc a hax c hcb)
      · exact hapost hax

theorem IsBuckets.defined {pick : Nat → Nat → Nat × Nat} (hp : ∀ no, Draws (pick no)) (target : Nat) : ∃ rel, computeAbstraction pick target bs = some rel :=
  bucketLoop_defined hp (fun x => absurd rfl x) h.nonempty

end

/-- C69: `shrink_fh` ends, for all options and all choices of the random number generator, with a partition of the states.  The number of classes is exactly the target size, or the number of states if that
is smaller.  If the target size is not less than the number of pairs of values of f and h which occur, then states of the same class have the same f and h.  States are shrunk in the specified order: if a state
shares its class with another one, then all states which have the same f and h and come earlier in the order share one class. -/
theorem C69_fh (df dh : HighLow) {pick : Nat → Nat → Nat × Nat} (hp : ∀ no, Draws (pick no)) {T : TS} {gs hs : List Nat} (h : SumsFit T gs hs) {target : Nat} (ht : 1 ≤ target) :
    ∃ rel, shrinkFH df dh pick T ⟨some gs, some hs⟩ target = some rel ∧ IsPartition T.size rel ∧ rel.length = min target T.size ∧
      (((List.range T.size).map (fh gs hs)).dedup.length ≤ target → ∀ a b, SameClass rel a b → fh gs hs a = fh gs hs b) ∧
      ∀ a b c c', a ≠ b → SameClass rel a b → c < T.size → c' < T.size → ShrunkEarlier df dh (fh gs hs c) (fh gs hs a) → fh gs hs c' = fh gs hs c → SameClass rel c c' := by
  obtain ⟨bs, h1⟩ := partitionFH_defined (df := df) (dh := dh) h
  have hb := partitionFH_some h1
  obtain ⟨rel, h2⟩ := hb.defined hp target
  refine ⟨rel, ?_, hb.result ht h2⟩
  unfold shrinkFH
  rw [h1]
  exact h2

theorem random_buckets {n : Nat} (hn : n ≠ 0) : IsBuckets .low .low (fun _ => (0, 0)) n [List.range n] where
  nonempty := fun b hb => by
    simp only [List.mem_cons, List.not_mem_nil, or_false] at hb
    subst hb
    intro e
    exact hn (List.range_eq_nil.mp e)
  nodup := fun b hb => by
    simp only [List.mem_cons, List.not_mem_nil, or_false] at hb
    subst hb
    exact List.nodup_range
  whole := fun b hb => by
    simp only [List.mem_cons, List.not_mem_nil, or_false] at hb
    subst hb
    exact ⟨(0, 0), by simp⟩
  covers := fun s hs => ⟨_, by simp, List.mem_range.mpr hs⟩
  sorted := List.pairwise_singleton _ _

/-- C69: `shrink_random` ends, for all choices of the random number generator, with a partition of the states into as many classes as the target size allows. -/
theorem C69_random {pick : Nat → Nat → Nat × Nat} (hp : ∀ no, Draws (pick no)) {T : TS} (hT : T.size ≠ 0) (d : Distances) {target : Nat} (ht : 1 ≤ target) :
    ∃ rel, shrinkRandom pick T d target = some rel ∧ IsPartition T.size rel ∧ rel.length = min target T.size := by
  obtain ⟨rel, h2⟩ := (random_buckets hT).defined hp target
  have h3 := (random_buckets hT).result ht h2
  refine ⟨rel, ?_, h3.1, h3.2.1⟩
  unfold shrinkRandom partitionRandom
  rw [if_neg hT]
  exact h2

theorem shrinkFH_covers {df dh : HighLow} {pick : Nat → Nat → Nat × Nat} {T : TS} {d : Distances} {target : Nat} {rel : List (List Nat)} (h : shrinkFH df dh pick T d target = some rel) : Covers T.size rel ∧ (1 ≤ target → rel.length ≤ target) := by
  unfold shrinkFH at h
  split at h
  · simp at h
  · rename_i bs hbs
    by_cases h0 : T.size = 0
    · have hb0 : bs = [] := by
        simp only [partitionFH, h0, List.range_zero, mapAll, List.map_nil, List.foldl_nil] at hbs
        rw [if_neg (by omega)] at hbs
        simp only [bucketsVector, List.range_zero, fillVector, Option.some.injEq] at hbs
        rw [← hbs]
        cases df <;> cases dh <;> rfl
      subst hb0
      simp only [computeAbstraction, bucketLoop, Option.some.injEq] at h
      subst h
      refine ⟨⟨by simp, fun s hs => ?_⟩, by simp⟩
      rw [h0] at hs
      omega
    · obtain ⟨gs, hs, rfl⟩ : ∃ gs hs, d = ⟨some gs, some hs⟩ := by
        unfold partitionFH at hbs
        split at hbs
        · simp at hbs
        · rename_i ks hks
          obtain ⟨k, _, e⟩ := mapAll_mem' hks (List.mem_range.mpr (Nat.pos_of_ne_zero h0))
          unfold fhAt at e
          split at e
          · rename_i gs hs h1 h2
            exact ⟨gs, hs, by cases d; simp_all⟩
          · simp at e
      have hb := partitionFH_some hbs
      obtain ⟨h1, h2⟩ := abstraction_perm hb.nonempty h
      refine ⟨⟨h2, fun s hs => List.mem_flatten.mp (h1.symm.subset (hb.mem_flatten.mpr hs))⟩, fun ht => ?_⟩
      rw [(hb.result ht h).2.1]
      omega

theorem shrinkRandom_covers {pick : Nat → Nat → Nat × Nat} {T : TS} {d : Distances} {target : Nat} {rel : List (List Nat)} (h : shrinkRandom pick T d target = some rel) : Covers T.size rel ∧ (1 ≤ target → rel.length ≤ target) := by
  unfold shrinkRandom partitionRandom at h
  by_cases h0 : T.size = 0
  · rw [if_pos h0] at h
    simp at h
  · rw [if_neg h0] at h
    simp only at h
    have hb := random_buckets h0
    obtain ⟨h1, h2⟩ := abstraction_perm hb.nonempty h
    refine ⟨⟨h2, fun s hs => List.mem_flatten.mp (h1.symm.subset (hb.mem_flatten.mpr hs))⟩, fun ht => ?_⟩
    rw [(hb.result ht h).2.1]
    omega

/-- one of the two strategies, with any options and any random number generator -/
def BucketBased (S : TS → Distances → Nat → Option (List (List Nat))) : Prop := (∃ df dh pick, S = shrinkFH df dh pick) ∨ ∃ pick, S = shrinkRandom pick

theorem BucketBased.covers {S : TS → Distances → Nat → Option (List (List Nat))} (hS : BucketBased S) {T : TS} {d : Distances} {target : Nat} {rel : List (List Nat)} (h : S T d target = some rel) : Covers T.size rel ∧ (1 ≤ target → rel.length ≤ target) := by
  rcases hS with ⟨df, dh, pick, rfl⟩ | ⟨pick, rfl⟩
  · exact shrinkFH_covers h
  · exact shrinkRandom_covers h

/-- C69: With these shrink strategies, the factors built by merge-and-shrink have at most `max_states` states, and the heuristic is admissible. -/
theorem C69_merge_and_shrink {O : HashOrder} {H : StdHeap Nat} {c : Config} (h1 : ∀ k, BucketBased (c.shrink1 k)) (h2 : ∀ k, BucketBased (c.shrink2 k)) (hb : 1 ≤ c.before) (hm : 1 ≤ c.maxStates) {t : Task} :
    (∀ (F : FTS) (i : Nat) (f : Factor), build O H c t = some F → F.factor i = some f → t.vars.length ≤ i → f.ts.size ≤ c.maxStates) ∧
    (MasTask t → ∀ (rs : List Repr) (s : State) (π : List Nat), construct O H c t = some rs → t.ValidState s → t.SolvesFrom s π → t.planCost π < infinity →
      (c.unreachable = true → ∃ ρ, t.Exec t.init ρ s ∧ t.planCost ρ + t.planCost π < infinity) → ∃ n, heuristic rs s = some (some n) ∧ n ≤ t.planCost π) := by
  constructor
  · intro F i f hF hf hi
    exact C57_max_states (fun k T d n rel hn => ⟨fun h => ((h1 k).covers h).2 hn, fun h => ((h2 k).covers h).2 hn⟩) hb hm hF hf hi
  · intro ht rs s π hr hs hπ hcost hU
    obtain ⟨v, hv, hadm⟩ := C38_admissible O H c (fun k T d n rel => ⟨fun h => ((h1 k).covers h).1, fun h => ((h2 k).covers h).1⟩) ht hr hs
    obtain ⟨n, rfl, hn⟩ := hadm π hπ hcost hU
    exact ⟨n, hv, hn⟩

/-! ### examples -/

/-- draws the first two positions -/
def drawFirst : Nat → Nat → Nat × Nat := fun _ _ => (0, 1)

theorem drawFirst_draws (no : Nat) : Draws (drawFirst no) := fun n hn => ⟨by simp only [drawFirst]; omega, by simp only [drawFirst]; omega, by simp [drawFirst]⟩

/-- seven states, one of which is dead; the dead state makes the strategy use the map -/
def mapDistances : Distances := ⟨some [0, 1, 1, 1, 2, 5, inf], some [2, 1, 1, 1, 0, 0, 3]⟩

/-- six states, for which the strategy uses the vector -/
def vectorDistances : Distances := ⟨some [0, 1, 1, 1, 2, 3], some [2, 1, 1, 1, 0, 0]⟩

def sevenStates : TS := ⟨[], [], List.replicate 7 false, some 0⟩

def sixStates : TS := ⟨[], [], List.replicate 6 false, some 0⟩

-- the hypotheses are met
example : SumsFit sevenStates [0, 1, 1, 1, 2, 5, inf] [2, 1, 1, 1, 0, 0, 3] := ⟨by decide, by decide, by decide, by decide⟩

-- There are five pairs of values.  With a target of two classes they are combined.
example : shrinkFH .high .low drawFirst sevenStates mapDistances 5 = some [[6], [5], [4], [1, 2, 3], [0]] := by decide +kernel
example : shrinkFH .high .low drawFirst sevenStates mapDistances 6 = some [[6], [5], [4], [2, 1], [3], [0]] := by decide +kernel
example : shrinkFH .low .high drawFirst sevenStates mapDistances 6 = some [[0], [2, 1], [3], [4], [5], [6]] := by decide +kernel
example : shrinkFH .high .low drawFirst sevenStates mapDistances 2 = some [[1, 2, 3, 4, 5, 6], [0]] := by decide +kernel
example : shrinkFH .high .low drawFirst sixStates vectorDistances 4 = some [[5], [4], [1, 2, 3], [0]] := by decide +kernel
example : shrinkFH .high .low drawFirst sixStates vectorDistances 5 = some [[5], [4], [2, 1], [3], [0]] := by decide +kernel
example : shrinkRandom drawFirst sixStates vectorDistances 3 = some [[4, 5, 1, 0], [3], [2]] := by decide +kernel

/-- The sum of two distances may overflow, which is undefined behaviour. -/
theorem C69_overflow : shrinkFH .high .low drawFirst sixStates ⟨some [0, 0, 0, 0, 0, 2000000000], some [0, 0, 0, 0, 0, 2000000000]⟩ 3 = none := by decide +kernel

end Verif.Mas
