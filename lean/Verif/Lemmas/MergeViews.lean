import Verif.Spec.MergeStrategies
import Mathlib.Data.List.Induction

namespace Verif.Mas

/-! ### views -/

theorem viewOK_start (n : Nat) : ViewOK n 0 (View.start n) := by
  refine ⟨?_, ?_, by simp [View.start], ?_⟩
  · have : (View.start n).map (·.1) = List.range n := by simp [View.start, List.map_map, Function.comp_def]
    rw [this]; exact List.nodup_range
  · intro f hf
    simp only [View.start, List.mem_map, List.mem_range] at hf
    obtain ⟨v, hv, rfl⟩ := hf
    simpa using hv
  · have : (View.start n).flatMap (·.2) = List.range n := by
      simp only [View.start, List.flatMap_map]
      generalize List.range n = l
      induction l with
      | nil => rfl
      | cons a l ih => simp [ih]
    rw [this]

theorem mem_unique {A : View} (h : (A.map (·.1)).Nodup) {i : Nat} {V V' : List Nat} (h1 : (i, V) ∈ A) (h2 : (i, V') ∈ A) : V = V' := by
  induction A with
  | nil => exact absurd h1 (by simp)
  | cons f A ih =>
    rw [List.map_cons, List.nodup_cons] at h
    rcases List.mem_cons.mp h1 with e1 | m1 <;> rcases List.mem_cons.mp h2 with e2 | m2
    · rw [← e1] at e2; exact (Prod.mk.inj e2).2.symm
    · exact absurd (List.mem_map_of_mem (f := (·.1)) m2) (by rw [← e1] at h; exact h.1)
    · exact absurd (List.mem_map_of_mem (f := (·.1)) m1) (by rw [← e2] at h; exact h.1)
    · exact ih h.2 m1 m2

theorem filter_key {A : View} (h : (A.map (·.1)).Nodup) {i : Nat} {V : List Nat} (hm : (i, V) ∈ A) : A.filter (fun f => f.1 == i) = [(i, V)] := by
  induction A with
  | nil => exact absurd hm (by simp)
  | cons f A ih =>
    rw [List.map_cons, List.nodup_cons] at h
    rcases List.mem_cons.mp hm with e | m
    · subst e
      rw [List.filter_cons_of_pos (by simp)]
      have : A.filter (fun f => f.1 == i) = [] := by
        rw [List.filter_eq_nil_iff]
        intro g hg e
        have e : g.1 = i := by simpa using e
        exact h.1 (e ▸ List.mem_map_of_mem (f := (·.1)) hg)
      rw [this]
    · have hne : ¬ (f.1 == i) = true := by
        intro e
        have e : f.1 = i := by simpa using e
        exact h.1 (e ▸ List.mem_map_of_mem (f := (·.1)) m)
      rw [List.filter_cons_of_neg (p := fun g : Nat × List Nat => g.1 == i) hne]
      exact ih h.2 m

theorem vars_eq {A : View} (h : (A.map (·.1)).Nodup) {i : Nat} {V : List Nat} (hm : (i, V) ∈ A) : A.vars i = V := by
  unfold View.vars
  rw [filter_key h hm]
  simp

theorem exists_of_key {A : View} {i : Nat} (h : i ∈ A.map (·.1)) : ∃ V, (i, V) ∈ A := by
  rw [List.mem_map] at h
  obtain ⟨⟨j, V⟩, hm, rfl⟩ := h
  exact ⟨V, hm⟩

/-- taking out two factors -/
theorem perm_two {A : View} (h : (A.map (·.1)).Nodup) {i j : Nat} {V W : List Nat} (hi : (i, V) ∈ A) (hj : (j, W) ∈ A) (hne : i ≠ j) :
    A.Perm (A.filter (fun f => decide (f.1 ≠ i ∧ f.1 ≠ j)) ++ [(i, V), (j, W)]) := by
  have hnd : A.Nodup := List.Nodup.of_map _ h
  refine (List.perm_ext_iff_of_nodup hnd ?_).mpr ?_
  · rw [List.nodup_append]
    refine ⟨hnd.filter _, by simp; exact fun e => absurd e hne, ?_⟩
    rintro a ha b hb rfl
    rw [List.mem_filter] at ha
    simp only [List.mem_cons, List.not_mem_nil, or_false] at hb
    have := ha.2
    simp only [ne_eq, decide_eq_true_eq] at this
    rcases hb with rfl | rfl
    · exact this.1 rfl
    · exact this.2 rfl
  · rintro ⟨x, X⟩
    simp only [List.mem_append, List.mem_filter, ne_eq, decide_eq_true_eq, List.mem_cons, List.not_mem_nil, or_false, Prod.mk.injEq]
    constructor
    · intro hm
      by_cases hx : x = i
      · subst hx; exact .inr (.inl ⟨rfl, mem_unique h hm hi⟩)
      · by_cases hx' : x = j
        · subst hx'; exact .inr (.inr ⟨rfl, mem_unique h hm hj⟩)
        · exact .inl ⟨hm, hx, hx'⟩
    · rintro (hm | ⟨rfl, rfl⟩ | ⟨rfl, rfl⟩)
      · exact hm.1
      · exact hi
      · exact hj

theorem merge_eq {n k : Nat} {A : View} (h : ViewOK n k A) {p : Nat × Nat} {V W : List Nat} (h1 : (p.1, V) ∈ A) (h2 : (p.2, W) ∈ A) :
    A.merge (n + k) p = A.filter (fun f => decide (f.1 ≠ p.1 ∧ f.1 ≠ p.2)) ++ [(n + k, V ++ W)] := by
  unfold View.merge
  rw [vars_eq h.nodup h1, vars_eq h.nodup h2]

theorem mem_merge {n k : Nat} {A : View} (h : ViewOK n k A) {p : Nat × Nat} {V W : List Nat} (h1 : (p.1, V) ∈ A) (h2 : (p.2, W) ∈ A) {f : Nat × List Nat} :
    f ∈ A.merge (n + k) p ↔ (f ∈ A ∧ f.1 ≠ p.1 ∧ f.1 ≠ p.2) ∨ f = (n + k, V ++ W) := by
  rw [merge_eq h h1 h2]
  simp only [List.mem_append, List.mem_filter, decide_eq_true_eq, List.mem_singleton]

theorem keys_merge {n k : Nat} {A : View} (h : ViewOK n k A) {p : Nat × Nat} (h1 : p.1 ∈ A.map (·.1)) (h2 : p.2 ∈ A.map (·.1)) {i : Nat} :
    i ∈ (A.merge (n + k) p).map (·.1) ↔ (i ∈ A.map (·.1) ∧ i ≠ p.1 ∧ i ≠ p.2) ∨ i = n + k := by
  obtain ⟨V, hV⟩ := exists_of_key h1
  obtain ⟨W, hW⟩ := exists_of_key h2
  rw [List.mem_map]
  constructor
  · rintro ⟨f, hf, rfl⟩
    rcases (mem_merge h hV hW).mp hf with ⟨hf, hn⟩ | rfl
    · exact .inl ⟨List.mem_map_of_mem hf, hn⟩
    · exact .inr rfl
  · rintro (⟨hi, hn⟩ | rfl)
    · obtain ⟨X, hX⟩ := exists_of_key hi
      exact ⟨_, (mem_merge h hV hW).mpr (.inl ⟨hX, hn⟩), rfl⟩
    · exact ⟨_, (mem_merge h hV hW).mpr (.inr rfl), rfl⟩

theorem viewOK_merge {n k : Nat} {A : View} (h : ViewOK n k A) {p : Nat × Nat} (hne : p.1 ≠ p.2) (h1 : p.1 ∈ A.map (·.1)) (h2 : p.2 ∈ A.map (·.1)) :
    ViewOK n (k + 1) (A.merge (n + k) p) := by
  obtain ⟨V, hV⟩ := exists_of_key h1
  obtain ⟨W, hW⟩ := exists_of_key h2
  have hp := perm_two h.nodup hV hW hne
  rw [merge_eq h hV hW]
  refine ⟨?_, ?_, ?_, ?_⟩
  · rw [List.map_append, List.nodup_append]
    refine ⟨(List.filter_sublist.map _).nodup h.nodup, by simp, ?_⟩
    rintro a ha b hb rfl
    simp only [List.map_cons, List.map_nil, List.mem_singleton] at hb
    rw [List.mem_map] at ha
    obtain ⟨f, hf, rfl⟩ := ha
    have := h.lt f (List.mem_of_mem_filter hf)
    omega
  · intro f hf
    rcases List.mem_append.mp hf with hf | hf
    · have := h.lt f (List.mem_of_mem_filter hf)
      omega
    · rw [List.mem_singleton.mp hf]; simp
  · have := hp.length_eq
    simp only [List.length_append, List.length_cons, List.length_nil] at this ⊢
    have := h.len
    omega
  · refine List.Perm.trans ?_ h.perm
    have := hp.flatMap_right (·.2)
    refine List.Perm.trans ?_ this.symm
    simp

/-- the usual way to show that a strategy never fails: an invariant -/
theorem always_of_invariant {σ : Type} {next : σ → FTS → Chosen ((Nat × Nat) × σ)} {st₀ : σ} {n : Nat} {Good : FTS → Prop} (I : Nat → σ → View → Prop)
    (h0 : I 0 st₀ (View.start n))
    (hstep : ∀ (k : Nat) (st : σ) (A : View) (F : FTS), I k st A → ViewOK n k A → 2 ≤ A.length → A.Shows F (n + k) → Good F →
      ∃ (p : Nat × Nat) (st' : σ), next st F = .ok (p, st') ∧ p.1 ≠ p.2 ∧ p.1 ∈ A.map (·.1) ∧ p.2 ∈ A.map (·.1) ∧ I (k + 1) st' (A.merge (n + k) p)) :
    AlwaysMerges next st₀ n Good ∧ ∀ k st A, Calls next st₀ n Good k st A → I k st A ∧ ViewOK n k A := by
  have key : ∀ k st A, Calls next st₀ n Good k st A → I k st A ∧ ViewOK n k A := by
    intro k st A h
    induction h with
    | start => exact ⟨h0, viewOK_start n⟩
    | step k st st' A F p h h2 hF hG hn ih =>
      obtain ⟨p', st'', e, e1, e2, e3, e4⟩ := hstep k st A F ih.1 ih.2 h2 hF hG
      rw [hn] at e
      simp only [Chosen.ok.injEq, Prod.mk.injEq] at e
      obtain ⟨rfl, rfl⟩ := e
      exact ⟨e4, viewOK_merge ih.2 e1 e2 e3⟩
  refine ⟨fun k st A F h h2 hF hG => ?_, key⟩
  obtain ⟨p, st', e, e1, e2, e3, -⟩ := hstep k st A F (key k st A h).1 (key k st A h).2 h2 hF hG
  exact ⟨p, st', e, e1, e2, e3⟩

/-! ### merge trees -/

theorem leaves_ne (T : MergeTree) : T.leaves ≠ [] := by
  induction T with
  | leaf i => simp [MergeTree.leaves]
  | node l r ih _ => simp [MergeTree.leaves, ih]

theorem nextMerge_spec (new : Nat) (T : MergeTree) : (∃ i, T = .leaf i) ∨ ∃ p T' l₁ l₂, T.nextMerge new = some (p, T')
    ∧ T.leaves = l₁ ++ p.1 :: p.2 :: l₂ ∧ T'.leaves = l₁ ++ new :: l₂ := by
  induction T with
  | leaf i => exact .inl ⟨i, rfl⟩
  | node l r ihl ihr =>
    right
    cases l with
    | leaf a =>
      cases r with
      | leaf b => exact ⟨(a, b), .leaf new, [], [], rfl, rfl, rfl⟩
      | node r1 r2 =>
        rcases ihr with ⟨i, hi⟩ | ⟨p, T', l₁, l₂, e, e1, e2⟩
        · exact absurd hi (by simp)
        · refine ⟨p, .node (.leaf a) T', a :: l₁, l₂, ?_, ?_, ?_⟩
          · rw [MergeTree.nextMerge, e]
          · rw [MergeTree.leaves, e1]; rfl
          · rw [MergeTree.leaves, e2]; rfl
    | node l1 l2 =>
      rcases ihl with ⟨i, hi⟩ | ⟨p, T', l₁, l₂, e, e1, e2⟩
      · exact absurd hi (by simp)
      · refine ⟨p, .node T' r, l₁, l₂ ++ r.leaves, ?_, ?_, ?_⟩
        · rw [MergeTree.nextMerge, e]
        · rw [MergeTree.leaves, e1]; simp
        · rw [MergeTree.leaves, e2]; simp

theorem precomputed_step {T : MergeTree} {n k : Nat} {A : View} {F : FTS} (hT : T.leaves.Perm (A.map (·.1))) (hA : ViewOK n k A) (h2 : 2 ≤ A.length)
    (hF : A.Shows F (n + k)) : ∃ p T', T.nextMerge (n + k) = some (p, T') ∧ precomputedNext T F = .ok (p, T') ∧ p.1 ≠ p.2 ∧ p.1 ∈ A.map (·.1) ∧ p.2 ∈ A.map (·.1)
      ∧ T'.leaves.Perm ((A.merge (n + k) p).map (·.1)) := by
  rcases nextMerge_spec (n + k) T with ⟨i, rfl⟩ | ⟨p, T', l₁, l₂, e, e1, e2⟩
  · have := hT.length_eq
    simp [MergeTree.leaves] at this
    omega
  · have hnd : (l₁ ++ p.1 :: p.2 :: l₂).Nodup := by rw [← e1]; exact hT.nodup_iff.mpr hA.nodup
    have m1 : p.1 ∈ A.map (·.1) := hT.mem_iff.mp (by rw [e1]; simp)
    have m2 : p.2 ∈ A.map (·.1) := hT.mem_iff.mp (by rw [e1]; simp)
    have hd := List.nodup_append.mp hnd
    have hd2 := List.nodup_cons.mp hd.2.1
    have hd3 := List.nodup_cons.mp hd2.2
    have hne : p.1 ≠ p.2 := fun e => hd2.1 (by rw [e]; simp)
    refine ⟨p, T', e, ?_, hne, m1, m2, ?_⟩
    · unfold precomputedNext
      rw [hF.1, e]
      simp only [(hF.2 p.1).mpr m1, (hF.2 p.2).mpr m2, Bool.and_self, if_true]
    · have hlt : ∀ i ∈ A.map (·.1), i < n + k := by
        intro i hi
        obtain ⟨V, hV⟩ := exists_of_key hi
        exact hA.lt _ hV
      have hmem : ∀ i, i ∈ l₁ ++ p.1 :: p.2 :: l₂ ↔ i ∈ A.map (·.1) := fun i => by rw [← e1]; exact hT.mem_iff
      refine (List.perm_ext_iff_of_nodup ?_ (viewOK_merge hA hne m1 m2).nodup).mpr (fun i => ?_)
      · rw [e2, List.nodup_append, List.nodup_cons]
        refine ⟨hd.1, ⟨fun hm => ?_, hd3.2⟩, fun a ha b hb hab => ?_⟩
        · have := hlt _ ((hmem (n + k)).mp (by simp [hm]))
          omega
        · rcases List.mem_cons.mp hb with rfl | hb
          · have := hlt a ((hmem a).mp (by simp [ha]))
            omega
          · exact hd.2.2 a ha b (by simp [hb]) hab
      · rw [keys_merge hA m1 m2, ← hmem i, e2]
        simp only [List.mem_append, List.mem_cons]
        constructor
        · rintro (h | rfl | h)
          · exact .inl ⟨.inl h, fun e => hd.2.2 i h p.1 (by simp) e, fun e => hd.2.2 i h p.2 (by simp) e⟩
          · exact .inr rfl
          · exact .inl ⟨.inr (.inr (.inr h)), fun e => hd2.1 (by simp [← e, h]), fun e => hd3.1 (e ▸ h)⟩
        · rintro (⟨h | rfl | rfl | h, hn1, hn2⟩ | rfl)
          · exact .inl h
          · exact absurd rfl hn1
          · exact absurd rfl hn2
          · exact .inr (.inr h)
          · exact .inr (.inl rfl)

theorem start_keys (n : Nat) : (View.start n).map (·.1) = List.range n := by simp [View.start, List.map_map, Function.comp_def]

/-! ### linear merge trees -/

def spine (T : MergeTree) (ws : List Nat) : MergeTree := ws.foldl (fun t w => .node t (.leaf w)) T

theorem spine_snoc (T : MergeTree) (ws : List Nat) (w : Nat) : spine T (ws ++ [w]) = .node (spine T ws) (.leaf w) := by
  simp [spine]

theorem leaves_spine (T : MergeTree) (ws : List Nat) : (spine T ws).leaves = T.leaves ++ ws := by
  induction ws using List.reverseRecOn with
  | nil => simp [spine]
  | append_singleton ws w ih => rw [spine_snoc, MergeTree.leaves, ih]; simp [MergeTree.leaves]

theorem spine_isNode (a b : MergeTree) (ws : List Nat) : ∃ l r, spine (.node a b) ws = .node l r := by
  induction ws using List.reverseRecOn with
  | nil => exact ⟨a, b, rfl⟩
  | append_singleton ws w ih => exact ⟨_, _, spine_snoc _ _ _⟩

theorem nextMerge_spine (new v w : Nat) (ws : List Nat) : (spine (.leaf v) (w :: ws)).nextMerge new = some ((v, w), spine (.leaf new) ws) := by
  have e0 : ∀ ws, spine (.leaf v) (w :: ws) = spine (.node (.leaf v) (.leaf w)) ws := fun _ => rfl
  rw [e0]
  induction ws using List.reverseRecOn with
  | nil => rfl
  | append_singleton ws x ih =>
    rw [spine_snoc, spine_snoc]
    obtain ⟨l, r, e⟩ := spine_isNode (.leaf v) (.leaf w) ws
    rw [e] at ih ⊢
    rw [MergeTree.nextMerge, ih]

end Verif.Mas
