import Verif.Model.VariableOrder
import Mathlib.Data.List.Perm.Subperm
import Mathlib.Data.List.Nodup

/-
The order of a component computed by `MaxDAG` contains each of its variables once.
-/
namespace Verif.VarOrder

theorem mem_addEntry {k : Int} {x : Nat} {b : Int × List Nat} : ∀ {bs : List (Int × List Nat)}, b ∈ addEntry k x bs → b ∈ bs ∨ (b.1 = k ∧ (b.2 = [x] ∨ ∃ q, (k, q) ∈ bs ∧ b.2 = q ++ [x]))
  | [], h => by
    rw [addEntry, List.mem_singleton] at h
    subst h
    exact Or.inr ⟨rfl, Or.inl rfl⟩
  | (k', q) :: bs, h => by
    rw [addEntry] at h
    split at h
    · rename_i hk
      subst hk
      rcases List.mem_cons.mp h with rfl | h
      · exact Or.inr ⟨rfl, Or.inr ⟨q, by simp, rfl⟩⟩
      · exact Or.inl (List.mem_cons_of_mem _ h)
    · rcases List.mem_cons.mp h with rfl | h
      · exact Or.inl (by simp)
      · rcases mem_addEntry h with h | ⟨h1, h2 | ⟨q', h2, h3⟩⟩
        · exact Or.inl (List.mem_cons_of_mem _ h)
        · exact Or.inr ⟨h1, Or.inl h2⟩
        · exact Or.inr ⟨h1, Or.inr ⟨q', List.mem_cons_of_mem _ h2, h3⟩⟩

theorem addEntry_new (k : Int) (x : Nat) : ∀ (bs : List (Int × List Nat)), ∃ q, (k, q) ∈ addEntry k x bs ∧ x ∈ q
  | [] => ⟨[x], by simp [addEntry], by simp⟩
  | (k', q) :: bs => by
    rw [addEntry]
    split
    · rename_i hk
      subst hk
      exact ⟨q ++ [x], by simp, by simp⟩
    · obtain ⟨q', h1, h2⟩ := addEntry_new k x bs
      exact ⟨q', List.mem_cons_of_mem _ h1, h2⟩

theorem addEntry_old {k k' : Int} {x : Nat} {q : List Nat} : ∀ {bs : List (Int × List Nat)}, (k', q) ∈ bs → ∃ q', (k', q') ∈ addEntry k x bs ∧ q ⊆ q'
  | [], h => by simp at h
  | (k2, q2) :: bs, h => by
    rw [addEntry]
    rcases List.mem_cons.mp h with h | h
    · cases h
      split
      · exact ⟨q ++ [x], by simp, List.subset_append_left ..⟩
      · exact ⟨q, by simp, List.Subset.refl _⟩
    · split
      · exact ⟨q, List.mem_cons_of_mem _ h, List.Subset.refl _⟩
      · obtain ⟨q', h1, h2⟩ := addEntry_old (k := k) (x := x) h
        exact ⟨q', List.mem_cons_of_mem _ h1, h2⟩

theorem addEntry_keys (k : Int) (x : Nat) : ∀ {bs : List (Int × List Nat)}, (bs.map (·.1)).Nodup → ((addEntry k x bs).map (·.1)).Nodup ∧ ∀ j, j ∈ (addEntry k x bs).map (·.1) → j = k ∨ j ∈ bs.map (·.1)
  | [], _ => by simp [addEntry]
  | (k', q) :: bs, h => by
    rw [List.map_cons, List.nodup_cons] at h
    rw [addEntry]
    split
    · rename_i hk
      refine ⟨by rw [List.map_cons, List.nodup_cons]; exact h, fun j hj => Or.inr (by simpa using hj)⟩
    · rename_i hk
      obtain ⟨h1, h2⟩ := addEntry_keys k x h.2
      refine ⟨?_, fun j hj => ?_⟩
      · rw [List.map_cons, List.nodup_cons]
        refine ⟨fun hm => ?_, h1⟩
        rcases h2 _ hm with h3 | h3
        · exact hk h3
        · exact h.1 h3
      · rw [List.map_cons, List.mem_cons] at hj
        rcases hj with rfl | hj
        · exact Or.inr (by simp)
        · rcases h2 j hj with h3 | h3
          · exact Or.inl h3
          · exact Or.inr (by rw [List.map_cons, List.mem_cons]; exact Or.inr h3)

def size (bs : List (Int × List Nat)) : Nat := (bs.map (fun b => b.2.length)).sum

theorem addEntry_size (k : Int) (x : Nat) : ∀ (bs : List (Int × List Nat)), size (addEntry k x bs) = size bs + 1
  | [] => by simp [addEntry, size]
  | (k', q) :: bs => by
    rw [addEntry]
    split
    · simp only [size, List.map_cons, List.sum_cons, List.length_append, List.length_singleton]
      omega
    · have := addEntry_size k x bs
      simp only [size, List.map_cons, List.sum_cons] at this ⊢
      omega

theorem minBucket_none {bs : List (Int × List Nat)} (h : minBucket bs = none) : bs = [] := by
  cases bs with
  | nil => rfl
  | cons b bs =>
    rw [minBucket] at h
    split at h
    · cases h
    · split at h <;> cases h

theorem minBucket_mem {b : Int × List Nat} : ∀ {bs : List (Int × List Nat)}, minBucket bs = some b → b ∈ bs
  | [], h => by cases h
  | c :: bs, h => by
    rw [minBucket] at h
    split at h
    · cases h
      exact List.mem_cons_self ..
    · rename_i d hd
      split at h
      · cases h
        exact List.mem_cons_self ..
      · cases h
        exact List.mem_cons_of_mem _ (minBucket_mem hd)

theorem pickEntry_some (w : Nat → Int) (done : List Nat) (k : Int) : ∀ (q : List Nat) (m : Nat), ∃ pre m' rest, pickEntry w done k (some m) q = (some m', rest) ∧ m :: q = pre ++ m' :: rest ∧ ∀ x ∈ pre, x ∈ done ∨ w x < k
  | [], m => ⟨[], m, [], rfl, rfl, by simp⟩
  | x :: q, m => by
    rw [pickEntry]
    split
    · rename_i h
      obtain ⟨pre, m', rest, h1, h2, h3⟩ := pickEntry_some w done k q x
      refine ⟨m :: pre, m', rest, h1, by rw [h2]; rfl, fun y hy => ?_⟩
      rcases List.mem_cons.mp hy with rfl | hy
      · exact h
      · exact h3 y hy
    · exact ⟨[], m, x :: q, rfl, rfl, by simp⟩

theorem pickEntry_spec (w : Nat → Int) (done : List Nat) (k : Int) {q : List Nat} (hq : q ≠ []) : ∃ pre m rest, pickEntry w done k none q = (some m, rest) ∧ q = pre ++ m :: rest ∧ ∀ x ∈ pre, x ∈ done ∨ w x < k := by
  cases q with
  | nil => exact absurd rfl hq
  | cons x q =>
    rw [pickEntry]
    exact pickEntry_some w done k q x

theorem mem_setBucket {k : Int} {q' : List Nat} {bs : List (Int × List Nat)} (hk : ∃ q, (k, q) ∈ bs) {b : Int × List Nat} : b ∈ setBucket k q' bs ↔ (b.1 ≠ k ∧ b ∈ bs) ∨ (q' ≠ [] ∧ b = (k, q')) := by
  unfold setBucket
  split
  · rename_i h
    simp only [List.mem_filter, decide_eq_true_eq, h, ne_eq, not_true_eq_false, false_and, or_false]
    exact and_comm
  · rename_i h
    simp only [List.mem_map, ne_eq, h, not_false_eq_true, true_and]
    constructor
    · rintro ⟨c, hc, rfl⟩
      split
      · exact Or.inr rfl
      · rename_i hne
        exact Or.inl ⟨hne, hc⟩
    · rintro (⟨h1, h2⟩ | rfl)
      · exact ⟨b, h2, by rw [if_neg h1]⟩
      · obtain ⟨q, hq⟩ := hk
        exact ⟨(k, q), hq, by simp⟩

theorem setBucket_keys {k : Int} {q' : List Nat} {bs : List (Int × List Nat)} (h : (bs.map (·.1)).Nodup) : ((setBucket k q' bs).map (·.1)).Nodup := by
  unfold setBucket
  split
  · exact h.sublist (List.filter_sublist.map _)
  · rw [List.map_map]
    have : ((fun b : Int × List Nat => b.1) ∘ fun b => if b.1 = k then (k, q') else b) = (fun b => b.1) := by
      funext b
      simp only [Function.comp]
      split
      · rename_i hk
        exact hk.symm
      · rfl
    rw [this]
    exact h

theorem setBucket_size {k : Int} {q q' : List Nat} : ∀ {bs : List (Int × List Nat)}, (bs.map (·.1)).Nodup → (k, q) ∈ bs → size (setBucket k q' bs) + q.length = size bs + q'.length
  | [], _, h => by simp at h
  | (k2, q2) :: bs, hn, h => by
    rw [List.map_cons, List.nodup_cons] at hn
    have hnot : k2 = k → ∀ b ∈ bs, b.1 ≠ k := by
      rintro rfl b hb e
      exact hn.1 (List.mem_map.mpr ⟨b, hb, e⟩)
    rcases List.mem_cons.mp h with h | h
    · cases h
      have h0 := hnot rfl
      have hf : bs.filter (fun b => b.1 ≠ k) = bs := List.filter_eq_self.mpr (fun b hb => by simpa using h0 b hb)
      have hm : bs.map (fun b => if b.1 = k then (k, q') else b) = bs := by
        conv_rhs => rw [← List.map_id bs]
        exact List.map_congr_left (fun b hb => by rw [if_neg (h0 b hb)]; rfl)
      unfold setBucket
      split
      · rename_i he
        rw [List.filter_cons]
        simp only [ne_eq, not_true_eq_false, decide_false, Bool.false_eq_true, if_false]
        have hf' : bs.filter (fun b => decide ¬ b.1 = k) = bs := hf
        rw [hf', he]
        simp only [size, List.map_cons, List.sum_cons, List.length_nil]
        omega
      · rw [List.map_cons, hm]
        simp only [size, List.map_cons, List.sum_cons, if_true]
        omega
    · have hne : k2 ≠ k := by
        rintro rfl
        exact hnot rfl _ h rfl
      have ih := setBucket_size (q' := q') hn.2 h
      have hcons : setBucket k q' ((k2, q2) :: bs) = (k2, q2) :: setBucket k q' bs := by
        unfold setBucket
        split
        · rw [List.filter_cons_of_pos (by simpa using hne)]
        · rw [List.map_cons, if_neg hne]
      rw [hcons]
      simp only [size, List.map_cons, List.sum_cons] at ih ⊢
      omega

/-! ### the loop -/

structure DagInv (scc : List Nat) (st : DagSt) : Prop where
  sub : ∀ b ∈ st.buckets, b.2 ⊆ scc
  some : ∀ b ∈ st.buckets, b.2 ≠ []
  keys : (st.buckets.map (·.1)).Nodup
  cur : ∀ x ∈ scc, x ∉ st.result → ∃ q, (st.incoming x, q) ∈ st.buckets ∧ x ∈ q
  nodup : st.result.Nodup
  res : st.result ⊆ scc

theorem addEntry_inv {scc : List Nat} {st : DagSt} (h : DagInv scc st) {x : Nat} (hx : x ∈ scc) (k : Int) : DagInv scc { st with incoming := fun y => if y = x then k else st.incoming y, buckets := addEntry k x st.buckets } where
  sub := by
    intro b hb
    rcases mem_addEntry hb with h1 | ⟨_, h1 | ⟨q, h2, h1⟩⟩
    · exact h.sub b h1
    · rw [h1]
      simpa using hx
    · rw [h1]
      exact List.append_subset.mpr ⟨h.sub _ h2, by simpa using hx⟩
  some := by
    intro b hb
    rcases mem_addEntry hb with h1 | ⟨_, h1 | ⟨q, h2, h1⟩⟩
    · exact h.some b h1
    · rw [h1]; simp
    · rw [h1]; simp
  keys := (addEntry_keys k x h.keys).1
  cur := by
    intro y hy hr
    simp only
    split
    · rename_i he
      subst he
      exact addEntry_new k y st.buckets
    · obtain ⟨q, h1, h2⟩ := h.cur y hy hr
      obtain ⟨q', h3, h4⟩ := addEntry_old (k := k) (x := x) h1
      exact ⟨q', h3, h4 h2⟩
  nodup := h.nodup
  res := h.res

theorem relaxEdge_spec {scc : List Nat} {st : DagSt} (h : DagInv scc st) {e : Nat × Nat} (he : e.1 ∈ scc) : DagInv scc (relaxEdge st e) ∧ (relaxEdge st e).result = st.result ∧ size (relaxEdge st e).buckets ≤ size st.buckets + 1 := by
  unfold relaxEdge
  split
  · exact ⟨h, rfl, by omega⟩
  · split
    · exact ⟨h, rfl, by omega⟩
    · exact ⟨addEntry_inv h he _, rfl, by simp only [addEntry_size]; omega⟩

theorem relaxEdges_spec {scc : List Nat} : ∀ (es : List (Nat × Nat)) (st : DagSt), DagInv scc st → (∀ e ∈ es, e.1 ∈ scc) →
    DagInv scc (es.foldl relaxEdge st) ∧ (es.foldl relaxEdge st).result = st.result ∧ size (es.foldl relaxEdge st).buckets ≤ size st.buckets + es.length
  | [], st, h, _ => ⟨h, rfl, by simp⟩
  | e :: es, st, h, hes => by
    obtain ⟨h1, h2, h3⟩ := relaxEdge_spec h (hes e (by simp))
    obtain ⟨h4, h5, h6⟩ := relaxEdges_spec es _ h1 (fun e' he' => hes e' (by simp [he']))
    rw [List.foldl_cons]
    exact ⟨h4, h5.trans h2, by simp only [List.length_cons]; omega⟩

/-- edges of variables that are not done -/
def open' (g : Nat → List (Nat × Nat)) (scc : List Nat) (res : List Nat) : Nat := ((scc.filter (fun x => decide (x ∉ res))).map (fun x => (g x).length)).sum

theorem open_add (g : Nat → List (Nat × Nat)) {scc : List Nat} (hn : scc.Nodup) {res : List Nat} {m : Nat} (hm : m ∈ scc) (hr : m ∉ res) : open' g scc (res ++ [m]) + (g m).length = open' g scc res := by
  unfold open'
  induction scc with
  | nil => simp at hm
  | cons x scc ih =>
    rw [List.nodup_cons] at hn
    rcases List.mem_cons.mp hm with h | hm'
    · subst h
      have hsame : scc.filter (fun y => decide (y ∉ res ++ [m])) = scc.filter (fun y => decide (y ∉ res)) := by
        refine List.filter_congr (fun y hy => ?_)
        have : y ≠ m := fun e => hn.1 (e ▸ hy)
        simp [this]
      rw [List.filter_cons_of_neg (by simp), List.filter_cons_of_pos (by simpa using hr), hsame]
      simp only [List.map_cons, List.sum_cons]
      omega
    · have hxm : x ≠ m := fun e => hn.1 (e ▸ hm')
      have ih := ih hn.2 hm'
      by_cases hx : x ∈ res
      · rw [List.filter_cons_of_neg (by simp [hx]), List.filter_cons_of_neg (by simp [hx])]
        exact ih
      · rw [List.filter_cons_of_pos (by simp [hx, hxm]), List.filter_cons_of_pos (by simp [hx])]
        simp only [List.map_cons, List.sum_cons]
        omega

theorem dagLoop_spec {g : Nat → List (Nat × Nat)} {scc : List Nat} (hn : scc.Nodup) (hg : ∀ x ∈ scc, ∀ e ∈ g x, e.1 ∈ scc) : ∀ (fuel : Nat) (st : DagSt), DagInv scc st → size st.buckets + open' g scc st.result < fuel →
    ∃ r, dagLoop g fuel st = some r ∧ r.Perm scc
  | 0, st, _, hf => by omega
  | fuel + 1, st, h, hf => by
    rw [dagLoop]
    cases hm : minBucket st.buckets with
    | none =>
      refine ⟨st.result, rfl, ?_⟩
      have hb := minBucket_none hm
      refine (List.perm_ext_iff_of_nodup h.nodup hn).mpr (fun x => ⟨fun hx => h.res hx, fun hx => ?_⟩)
      by_contra hnr
      obtain ⟨q, hq, _⟩ := h.cur x hx hnr
      rw [hb] at hq
      simp at hq
    | some b =>
      obtain ⟨k, q⟩ := b
      have hkq := minBucket_mem hm
      obtain ⟨pre, m, rest, h1, h2, h3⟩ := pickEntry_spec st.incoming st.result k (q := q) (h.some _ hkq)
      simp only [h1]
      have hmem := @mem_setBucket k rest st.buckets ⟨q, hkq⟩
      have hsize := setBucket_size (q' := rest) h.keys hkq
      have hq : q.length = pre.length + 1 + rest.length := by
        rw [h2]
        simp only [List.length_append, List.length_cons]
        omega
      have hms : m ∈ scc := h.sub _ hkq (by rw [h2]; simp)
      have hcur : ∀ x ∈ scc, x ∉ st.result → x ≠ m → ∃ q', (st.incoming x, q') ∈ setBucket k rest st.buckets ∧ x ∈ q' := by
        intro x hx hr hxm
        obtain ⟨qx, a1, a2⟩ := h.cur x hx hr
        by_cases hk : st.incoming x = k
        · have hqq : qx = q := by
            rw [hk] at a1
            have := List.inj_on_of_nodup_map h.keys a1 hkq rfl
            exact (Prod.mk.inj this).2
          subst hqq
          rw [h2] at a2
          simp only [List.mem_append, List.mem_cons] at a2
          rcases a2 with a2 | a2 | a2
          · rcases h3 x a2 with h4 | h4
            · exact absurd h4 hr
            · omega
          · exact absurd a2 hxm
          · exact ⟨rest, hmem.mpr (Or.inr ⟨List.ne_nil_of_mem a2, by rw [hk]⟩), a2⟩
        · exact ⟨qx, hmem.mpr (Or.inl ⟨hk, a1⟩), a2⟩
      have hsub : ∀ b ∈ setBucket k rest st.buckets, b.2 ⊆ scc := by
        intro b hb
        rcases hmem.mp hb with ⟨_, hb⟩ | ⟨_, rfl⟩
        · exact h.sub b hb
        · intro x hx
          exact h.sub _ hkq (by rw [h2]; simp [hx])
      have hsome : ∀ b ∈ setBucket k rest st.buckets, b.2 ≠ [] := by
        intro b hb
        rcases hmem.mp hb with ⟨_, hb⟩ | ⟨h4, rfl⟩
        · exact h.some b hb
        · exact h4
      simp only [useEntry]
      by_cases hmr : m ∈ st.result
      · rw [if_pos hmr]
        refine dagLoop_spec hn hg fuel _ ⟨hsub, hsome, setBucket_keys h.keys, fun x hx hr => hcur x hx hr (fun e => hr (e ▸ hmr)), h.nodup, h.res⟩ ?_
        simp only
        omega
      · rw [if_neg hmr]
        have hinv : DagInv scc { st with buckets := setBucket k rest st.buckets, result := st.result ++ [m] } := by
          refine ⟨hsub, hsome, setBucket_keys h.keys, fun x hx hr => ?_, ?_, ?_⟩
          · simp only [List.mem_append, List.mem_singleton, not_or] at hr
            exact hcur x hx hr.1 hr.2
          · exact List.nodup_append.mpr ⟨h.nodup, by simp, fun a ha b hb => by
              rw [List.mem_singleton] at hb
              subst hb
              rintro rfl
              exact hmr ha⟩
          · exact List.append_subset.mpr ⟨h.res, by simpa using hms⟩
        obtain ⟨b1, b2, b3⟩ := relaxEdges_spec (g m) _ hinv (hg m hms)
        refine dagLoop_spec hn hg fuel _ b1 ?_
        have := open_add g hn hms hmr
        rw [b2]
        simp only at b3 ⊢
        omega

theorem initBuckets_spec {scc : List Nat} (w : Nat → Int) : ∀ (xs : List Nat) (bs : List (Int × List Nat)), xs ⊆ scc → (∀ b ∈ bs, b.2 ⊆ scc) → (∀ b ∈ bs, b.2 ≠ []) → (bs.map (·.1)).Nodup →
    (∀ b ∈ initBuckets w xs bs, b.2 ⊆ scc) ∧ (∀ b ∈ initBuckets w xs bs, b.2 ≠ []) ∧ ((initBuckets w xs bs).map (·.1)).Nodup ∧ (∀ k q, (k, q) ∈ bs → ∃ q', (k, q') ∈ initBuckets w xs bs ∧ q ⊆ q') ∧
    (∀ x ∈ xs, ∃ q, (w x, q) ∈ initBuckets w xs bs ∧ x ∈ q) ∧ size (initBuckets w xs bs) = size bs + xs.length
  | [], bs, _, h1, h2, h3 => ⟨h1, h2, h3, fun k q h => ⟨q, h, List.Subset.refl _⟩, by simp, by simp [initBuckets]⟩
  | x :: xs, bs, hx, h1, h2, h3 => by
    rw [initBuckets]
    obtain ⟨a1, a2, a3, a4, a5, a6⟩ := initBuckets_spec w xs (addEntry (w x) x bs) (fun y hy => hx (by simp [hy])) (fun b hb => by
        rcases mem_addEntry hb with h | ⟨_, h | ⟨q, h, h'⟩⟩
        · exact h1 b h
        · rw [h]
          simpa using hx (by simp)
        · rw [h']
          exact List.append_subset.mpr ⟨h1 _ h, by simpa using hx (by simp)⟩) (fun b hb => by
        rcases mem_addEntry hb with h | ⟨_, h | ⟨q, h, h'⟩⟩
        · exact h2 b h
        · rw [h]; simp
        · rw [h']; simp) (addEntry_keys _ _ h3).1
    refine ⟨a1, a2, a3, fun k q h => ?_, fun y hy => ?_, ?_⟩
    · obtain ⟨q1, b1, b2⟩ := addEntry_old (k := w x) (x := x) h
      obtain ⟨q2, b3, b4⟩ := a4 k q1 b1
      exact ⟨q2, b3, fun z hz => b4 (b2 hz)⟩
    · rcases List.mem_cons.mp hy with rfl | hy
      · obtain ⟨q1, b1, b2⟩ := addEntry_new (w y) y bs
        obtain ⟨q2, b3, b4⟩ := a4 _ _ b1
        exact ⟨q2, b3, b4 b2⟩
      · exact a5 y hy
    · rw [a6, addEntry_size, List.length_cons]
      omega

/-- the order of a component -/
theorem maxDag_spec {g : Nat → List (Nat × Nat)} {scc : List Nat} (hn : scc.Nodup) (hg : ∀ x ∈ scc, ∀ e ∈ g x, e.1 ∈ scc) : ∃ r, maxDag g scc = some r ∧ r.Perm scc := by
  obtain ⟨a1, a2, a3, _, a5, a6⟩ := initBuckets_spec (scc := scc) (incomingWeights g scc) scc [] (List.Subset.refl _) (by simp) (by simp) (by simp)
  unfold maxDag
  refine dagLoop_spec hn hg _ _ ⟨a1, a2, a3, fun x hx _ => a5 x hx, by simp, by simp⟩ ?_
  simp only [a6]
  have h1 : size [] = 0 := rfl
  have h2 : open' g scc [] = (scc.flatMap g).length := by
    unfold open'
    rw [List.length_flatMap]
    simp
  omega

end Verif.VarOrder
