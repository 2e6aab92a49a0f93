import Verif.Lemmas.MergeSelector
import Verif.Lemmas.MergeViews
import Verif.Lemmas.SearchCausalGraph
import Verif.Props.Sccs

namespace Verif.Mas

theorem SameScc.refl (t : Task) (u : Nat) : SameScc t u u := ⟨.refl, .refl⟩
theorem SameScc.symm {t : Task} {u v : Nat} (h : SameScc t u v) : SameScc t v u := ⟨h.2, h.1⟩
theorem SameScc.trans {t : Task} {u v w : Nat} (h : SameScc t u v) (h' : SameScc t v w) : SameScc t u w := ⟨h.1.trans h'.1, h'.2.trans h.2⟩

/-! ### the list of components -/

theorem sublist_flatten {l₁ l₂ : List (List Nat)} (h : l₁.Sublist l₂) : l₁.flatten.Sublist l₂.flatten := by
  induction h with
  | slnil => exact List.Sublist.refl _
  | cons a _ ih => rw [List.flatten_cons]; exact ih.trans (List.sublist_append_right _ _)
  | cons_cons a _ ih => rw [List.flatten_cons, List.flatten_cons]; exact (List.Sublist.refl a).append ih

theorem nodup_flatten_filter {L : List (List Nat)} (h : L.flatten.Nodup) (p : List Nat → Bool) : (L.filter p).flatten.Nodup :=
  (sublist_flatten List.filter_sublist).nodup h

theorem createSccs_spec {t : Task} (hr : t.InRange) {ord : SccOrder} {sort : List (List Nat) → List (List Nat)}
    (hs : ∀ l, (sort l).Perm l ∧ (ord = .decreasing → (sort l).Pairwise (fun a b => b.length ≤ a.length)) ∧ (ord = .increasing → (sort l).Pairwise (fun a b => a.length ≤ b.length))) :
    ∃ G L, OrderFinder.causalGraph t = some G ∧ createSccs sort ord G = some ⟨L, []⟩ ∧ BigSccs t L ∧ ord.Ordered t L := by
  obtain ⟨G, eG, -, -, -, hG, -⟩ := OrderFinder.causalGraph_spec hr
  obtain ⟨hlen, hrow, hrange⟩ := hG
  have hedge : ∀ u v, Sccs.Edge G.successors u v ↔ Arc t u v := by
    intro u v
    constructor
    · rintro ⟨row, h1, h2⟩
      exact ((hrow u row h1).2 v).mp h2
    · intro h
      have hu : u < G.successors.length := hlen ▸ (hrange u v h).1
      exact ⟨G.successors[u], List.getElem?_eq_getElem hu, ((hrow u _ (List.getElem?_eq_getElem hu)).2 v).mpr h⟩
  have ereach : Sccs.Reach G.successors = Relation.ReflTransGen (Arc t) := by
    have : Sccs.Edge G.successors = Arc t := by funext u v; exact propext (hedge u v)
    unfold Sccs.Reach
    rw [this]
  obtain ⟨out, eo, h1, h2, h3, h4, h5⟩ := Sccs.C13_sccs G.successors (fun succs hm w hw => by
    obtain ⟨u, hu⟩ := List.getElem?_of_mem hm
    rw [hlen]
    exact (hrange u w (((hrow u succs hu).2 w).mp hw)).2)
  rw [ereach] at h4
  have hordered : ∃ L, orderSccs sort out ord = some L ∧ L.Perm out ∧ ord.Ordered t L := by
    cases ord
    · exact ⟨out, rfl, List.Perm.refl _, h5.imp (fun h u hu w hw hA => h u hu w hw ((hedge u w).mpr hA))⟩
    · refine ⟨out.reverse, rfl, List.reverse_perm _, ?_⟩
      refine List.pairwise_reverse.mpr ?_
      exact h5.imp (fun h u hu w hw hA => h u hu w hw ((hedge u w).mpr hA))
    · exact ⟨sort out, if_pos ⟨(hs out).1, (hs out).2.1 rfl⟩, (hs out).1, (hs out).2.1 rfl⟩
    · exact ⟨sort out, if_pos ⟨(hs out).1, (hs out).2.2 rfl⟩, (hs out).1, (hs out).2.2 rfl⟩
  obtain ⟨L, eL, hp, ho⟩ := hordered
  refine ⟨G, L.filter (fun c => c.length ≠ 1), eG, ?_, ⟨?_, ?_, ?_, ?_⟩, ?_⟩
  · unfold createSccs
    simp only [eo, eL]
  · intro c hc
    rw [List.mem_filter] at hc
    have e1 := h1 c (hp.mem_iff.mp hc.1)
    have e2 : c.length ≠ 1 := by simpa using hc.2
    have e3 : c.length ≠ 0 := fun e => e1 (List.length_eq_zero_iff.mp e)
    omega
  · intro c hc v hv w
    exact h4 c (hp.mem_iff.mp (List.mem_filter.mp hc).1) v hv w
  · intro u w hne hE
    have hu : u < t.vars.length := by
      rcases Relation.ReflTransGen.cases_head hE.1 with e | ⟨x, hx, -⟩
      · exact absurd e hne
      · exact (hrange u x hx).1
    obtain ⟨c, hc, huc⟩ := List.mem_flatten.mp ((h3 u).mpr (hlen ▸ hu))
    refine ⟨c, List.mem_filter.mpr ⟨hp.mem_iff.mpr hc, ?_⟩, huc⟩
    have hwc := (h4 c hc u huc w).mpr hE
    rw [decide_eq_true_eq]
    intro e
    obtain ⟨a, rfl⟩ := List.length_eq_one_iff.mp e
    exact hne ((List.mem_singleton.mp huc).trans (List.mem_singleton.mp hwc).symm)
  · exact nodup_flatten_filter (hp.flatten.nodup_iff.mpr h2) _
  · cases ord <;> exact List.Pairwise.filter _ ho

/-! ### the invariant -/

def SccWithin (t : Task) (V : List Nat) : Prop := ∀ u ∈ V, ∀ w ∈ V, SameScc t u w
def SccClosed (t : Task) (V : List Nat) : Prop := ∀ u ∈ V, ∀ w, SameScc t u w → w ∈ V

theorem SccClosed.append {t : Task} {V W : List Nat} (h1 : SccClosed t V) (h2 : SccClosed t W) : SccClosed t (V ++ W) := by
  intro u hu w hE
  rcases List.mem_append.mp hu with hu | hu
  · exact List.mem_append_left _ (h1 u hu w hE)
  · exact List.mem_append_right _ (h2 u hu w hE)

/-- components that have not been touched, and factors outside the group -/
structure SccRest (t : Task) (L done pend : List (List Nat)) (A : View) : Prop where
  covered : ∀ c ∈ done, ∃ f ∈ A, ∀ v ∈ c, v ∈ f.2
  atomic : ∀ c ∈ pend, ∀ v ∈ c, (v, [v]) ∈ A

structure SccIdle (t : Task) (L pend : List (List Nat)) (A : View) : Prop where
  split : ∃ done, L = done ++ pend ∧ SccRest t L done pend A
  facs : ∀ f ∈ A, SccClosed t f.2 ∨ (f.2 = [f.1] ∧ f.1 ∈ pend.flatten)
  within : pend = [] ∨ ∀ f ∈ A, SccWithin t f.2

structure SccGroup (t : Task) (L pend : List (List Nat)) (group : List Nat) (A : View) : Prop where
  nodup : group.Nodup
  active : ∀ i ∈ group, i ∈ A.map (·.1)
  split : ∃ done C, L = done ++ C :: pend ∧ SccRest t L done pend A ∧ (∀ f ∈ A, f.1 ∈ group → ∀ v ∈ f.2, v ∈ C) ∧ ∀ v ∈ C, ∃ f ∈ A, f.1 ∈ group ∧ v ∈ f.2
  untouched : ∀ c ∈ pend, ∀ v ∈ c, v ∉ group
  facs : ∀ f ∈ A, f.1 ∉ group → SccClosed t f.2 ∨ (f.2 = [f.1] ∧ f.1 ∈ pend.flatten)
  within : ∀ f ∈ A, SccWithin t f.2

structure SccFinal (t : Task) (L : List (List Nat)) (group : List Nat) (A : View) : Prop where
  nodup : group.Nodup
  active : ∀ i, i ∈ group ↔ i ∈ A.map (·.1)
  covered : ∀ c ∈ L, ∃ f ∈ A, ∀ v ∈ c, v ∈ f.2
  closed : ∀ f ∈ A, SccClosed t f.2

def SccInv (t : Task) (L : List (List Nat)) (n k : Nat) (st : SccState) (A : View) : Prop :=
  (st.current = [] ∧ SccIdle t L st.sccs A) ∨ (st.current ≠ [] ∧ 1 ≤ k ∧ SccGroup t L st.sccs (st.current ++ [n + k - 1]) A)
    ∨ (st.current ≠ [] ∧ 1 ≤ k ∧ st.sccs = [] ∧ SccFinal t L (st.current ++ [n + k - 1]) A)

/-- covering a component survives merging -/
theorem covered_merge {n k : Nat} {A : View} (h : ViewOK n k A) {p : Nat × Nat} (h1 : p.1 ∈ A.map (·.1)) (h2 : p.2 ∈ A.map (·.1)) {P : Nat → Prop}
    (hc : ∃ f ∈ A, ∀ v, P v → v ∈ f.2) : ∃ f ∈ A.merge (n + k) p, ∀ v, P v → v ∈ f.2 := by
  obtain ⟨V, hV⟩ := exists_of_key h1
  obtain ⟨W, hW⟩ := exists_of_key h2
  obtain ⟨⟨i, X⟩, hf, hcov⟩ := hc
  by_cases e1 : i = p.1
  · subst e1
    have := mem_unique h.nodup hf hV
    subst this
    exact ⟨_, (mem_merge h hV hW).mpr (.inr rfl), fun v hv => List.mem_append_left _ (hcov v hv)⟩
  · by_cases e2 : i = p.2
    · subst e2
      have := mem_unique h.nodup hf hW
      subst this
      exact ⟨_, (mem_merge h hV hW).mpr (.inr rfl), fun v hv => List.mem_append_right _ (hcov v hv)⟩
    · exact ⟨_, (mem_merge h hV hW).mpr (.inl ⟨hf, e1, e2⟩), hcov⟩

theorem key_lt {n k : Nat} {A : View} (h : ViewOK n k A) {i : Nat} (hi : i ∈ A.map (·.1)) : i < n + k := by
  obtain ⟨V, hV⟩ := exists_of_key hi
  exact h.lt _ hV

/-- the group without the two factors that have been merged, and with the new factor -/
def newGroup (group : List Nat) (p : Nat × Nat) (new : Nat) : List Nat := group.filter (fun i => !(i == p.1 || i == p.2)) ++ [new]

theorem mem_newGroup {group : List Nat} {p : Nat × Nat} {new i : Nat} : i ∈ newGroup group p new ↔ (i ∈ group ∧ i ≠ p.1 ∧ i ≠ p.2) ∨ i = new := by
  unfold newGroup
  simp [List.mem_append, List.mem_filter]

theorem newGroup_nodup {group : List Nat} {p : Nat × Nat} {new : Nat} (h : group.Nodup) (hn : new ∉ group) : (newGroup group p new).Nodup := by
  unfold newGroup
  rw [List.nodup_append]
  refine ⟨h.filter _, by simp, ?_⟩
  rintro a ha b hb rfl
  rw [List.mem_singleton] at hb
  exact hn (hb ▸ List.mem_of_mem_filter ha)

theorem group_merge {t : Task} {L pend : List (List Nat)} (hL : BigSccs t L) {group : List Nat} {n k : Nat} {A : View} (h : ViewOK n k A) (hg : SccGroup t L pend group A) {p : Nat × Nat}
    (h1 : p.1 ∈ group) (h2 : p.2 ∈ group) : SccGroup t L pend (newGroup group p (n + k)) (A.merge (n + k) p) := by
  have m1 := hg.active _ h1
  have m2 := hg.active _ h2
  obtain ⟨V, hV⟩ := exists_of_key m1
  obtain ⟨W, hW⟩ := exists_of_key m2
  have hlt : ∀ i ∈ A.map (·.1), i < n + k := fun i hi => key_lt h hi
  obtain ⟨done, C, eL, hrest, hC1, hC2⟩ := hg.split
  have hCE : ∀ u ∈ C, ∀ w, w ∈ C ↔ SameScc t u w := hL.scc C (by rw [eL]; simp)
  refine ⟨newGroup_nodup hg.nodup (fun hm => by have := hlt _ (hg.active _ hm); omega), ?_, ⟨done, C, eL, ⟨?_, ?_⟩, ?_, ?_⟩, ?_, ?_, ?_⟩
  · intro i hi
    rw [keys_merge h m1 m2]
    rcases mem_newGroup.mp hi with ⟨hi, hn⟩ | rfl
    · exact .inl ⟨hg.active i hi, hn⟩
    · exact .inr rfl
  · intro c hc
    exact covered_merge h m1 m2 (P := fun v => v ∈ c) (hrest.covered c hc)
  · intro c hc v hv
    refine (mem_merge h hV hW).mpr (.inl ⟨hrest.atomic c hc v hv, ?_, ?_⟩)
    · intro e
      have e : v = p.1 := e
      exact hg.untouched c hc v hv (e ▸ h1)
    · intro e
      have e : v = p.2 := e
      exact hg.untouched c hc v hv (e ▸ h2)
  · intro f hf hfg v hv
    rcases (mem_merge h hV hW).mp hf with ⟨hf, hn⟩ | rfl
    · rcases mem_newGroup.mp hfg with ⟨hfg, _⟩ | e
      · exact hC1 f hf hfg v hv
      · have := hlt _ (List.mem_map_of_mem (f := (·.1)) hf)
        omega
    · rcases List.mem_append.mp hv with hv | hv
      · exact hC1 _ hV h1 v hv
      · exact hC1 _ hW h2 v hv
  · intro v hv
    obtain ⟨⟨i, X⟩, hf, hfg, hvX⟩ := hC2 v hv
    by_cases e1 : i = p.1
    · subst e1
      have e := mem_unique h.nodup hf hV
      subst e
      exact ⟨_, (mem_merge h hV hW).mpr (.inr rfl), mem_newGroup.mpr (.inr rfl), List.mem_append_left _ hvX⟩
    · by_cases e2 : i = p.2
      · subst e2
        have e := mem_unique h.nodup hf hW
        subst e
        exact ⟨_, (mem_merge h hV hW).mpr (.inr rfl), mem_newGroup.mpr (.inr rfl), List.mem_append_right _ hvX⟩
      · exact ⟨_, (mem_merge h hV hW).mpr (.inl ⟨hf, e1, e2⟩), mem_newGroup.mpr (.inl ⟨hfg, e1, e2⟩), hvX⟩
  · intro c hc v hv hvg
    rcases mem_newGroup.mp hvg with ⟨hvg, _⟩ | e
    · exact hg.untouched c hc v hv hvg
    · have := hlt v (List.mem_map.mpr ⟨_, hrest.atomic c hc v hv, rfl⟩)
      omega
  · intro f hf hfg
    rcases (mem_merge h hV hW).mp hf with ⟨hf, hn⟩ | rfl
    · exact hg.facs f hf (fun hm => hfg (mem_newGroup.mpr (.inl ⟨hm, hn⟩)))
    · exact absurd (mem_newGroup.mpr (.inr rfl)) hfg
  · intro f hf
    rcases (mem_merge h hV hW).mp hf with ⟨hf, hn⟩ | rfl
    · exact hg.within f hf
    · have key : ∀ x ∈ V ++ W, x ∈ C := by
        intro x hx
        rcases List.mem_append.mp hx with hx | hx
        · exact hC1 _ hV h1 x hx
        · exact hC1 _ hW h2 x hx
      intro u hu w hw
      exact (hCE u (key u hu) w).mp (key w hw)

/-- the last factor of the group contains the whole component -/
theorem idle_of_group {t : Task} {L pend : List (List Nat)} (hL : BigSccs t L) {j : Nat} {A : View} (hA : (A.map (·.1)).Nodup) (hg : SccGroup t L pend [j] A) : SccIdle t L pend A := by
  obtain ⟨done, C, eL, hrest, hC1, hC2⟩ := hg.split
  have hCE : ∀ u ∈ C, ∀ w, w ∈ C ↔ SameScc t u w := hL.scc C (by rw [eL]; simp)
  obtain ⟨V, hV⟩ := exists_of_key (hg.active j (by simp))
  have hcov : ∀ v ∈ C, v ∈ V := by
    intro v hv
    obtain ⟨⟨i, X⟩, hf, hfg, hvX⟩ := hC2 v hv
    have hfg : i = j := by simpa using hfg
    subst hfg
    exact mem_unique hA hf hV ▸ hvX
  refine ⟨⟨done ++ [C], by rw [eL]; simp, ⟨fun c hc => ?_, hrest.atomic⟩⟩, fun f hf => ?_, .inr hg.within⟩
  · rcases List.mem_append.mp hc with hc | hc
    · exact hrest.covered c hc
    · rw [List.mem_singleton] at hc
      subst hc
      exact ⟨_, hV, hcov⟩
  · by_cases hj : f.1 = j
    · left
      intro u hu w hE
      have huC := hC1 f hf (by simp [hj]) u hu
      have hwV := hcov w ((hCE u huC w).mpr hE)
      obtain ⟨i, X⟩ := f
      have hj : i = j := hj
      subst hj
      exact mem_unique hA hf hV ▸ hwV
    · exact hg.facs f hf (by simpa using hj)

theorem final_merge {t : Task} {L : List (List Nat)} {group : List Nat} {n k : Nat} {A : View} (h : ViewOK n k A) (hg : SccFinal t L group A) {p : Nat × Nat}
    (h1 : p.1 ∈ group) (h2 : p.2 ∈ group) : SccFinal t L (newGroup group p (n + k)) (A.merge (n + k) p) := by
  have m1 := (hg.active _).mp h1
  have m2 := (hg.active _).mp h2
  obtain ⟨V, hV⟩ := exists_of_key m1
  obtain ⟨W, hW⟩ := exists_of_key m2
  refine ⟨newGroup_nodup hg.nodup (fun hm => by have := key_lt h ((hg.active _).mp hm); omega), fun i => ?_, fun c hc => ?_, fun f hf => ?_⟩
  · rw [mem_newGroup, keys_merge h m1 m2, hg.active]
  · exact covered_merge h m1 m2 (P := fun v => v ∈ c) (hg.covered c hc)
  · rcases (mem_merge h hV hW).mp hf with ⟨hf, hn⟩ | rfl
    · exact hg.closed f hf
    · exact (hg.closed _ hV).append (hg.closed _ hW)

theorem idle_of_final {t : Task} {L : List (List Nat)} {group : List Nat} {A : View} (hg : SccFinal t L group A) : SccIdle t L [] A :=
  ⟨⟨L, by simp, ⟨hg.covered, fun c hc => absurd hc (by simp)⟩⟩, fun f hf => .inl (hg.closed f hf), .inl rfl⟩

/-- what a call does, given the factors it chooses from -/
theorem select_step {fs : List Scoring} {n k : Nat} {Good : FTS → Prop} {F : FTS} {A : View} (hA : ViewOK n k A) (hA2 : 2 ≤ A.length) (hF : A.Shows F (n + k)) (hG : Good F)
    (hf : ∀ f ∈ fs, f.Scores n Good) (hu : ∃ f ∈ fs, f.BreaksTies n Good)
    {pend : List (List Nat)} {group : List Nat} (hnd : group.Nodup) (h2 : 2 ≤ group.length) (hact : ∀ i ∈ group, i ∈ A.map (·.1)) :
    ∃ p, sccSelect fs F ⟨pend, group⟩ = .ok (p, ⟨pend, group.filter (fun i => !(i == p.1 || i == p.2))⟩) ∧ p.1 ≠ p.2 ∧ p.1 ∈ group ∧ p.2 ∈ group := by
  have hact' : ∀ i ∈ group, F.active i = true := fun i hi => (hF.2 i).mpr (hact i hi)
  have hn : F.factors.length < 2 * n := by
    rw [hF.1]
    have := hA.len
    omega
  obtain ⟨p, hp, e⟩ := selectMerge_ok hn hG hf hu (candidates_allPairs hnd h2 hact')
  refine ⟨p, ?_, allPairs_ne hnd hp, (mem_allPairs hp).1, (mem_allPairs hp).2⟩
  unfold sccSelect
  rw [if_pos ⟨h2, List.all_eq_true.mpr hact'⟩]
  simp only [e]

theorem filter_append_new {group : List Nat} {p : Nat × Nat} {new : Nat} : newGroup group p new = group.filter (fun i => !(i == p.1 || i == p.2)) ++ [new] := rfl

theorem mem_indices {F : FTS} {i : Nat} : i ∈ F.indices ↔ F.active i = true := by
  unfold FTS.indices
  rw [List.mem_filter, List.mem_range]
  exact ⟨fun h => h.2, fun h => ⟨active_lt h, h⟩⟩

theorem indices_nodup (F : FTS) : F.indices.Nodup := List.nodup_range.filter _

theorem indices_length {F : FTS} {A : View} {size : Nat} (hA : (A.map (·.1)).Nodup) (hF : A.Shows F size) : F.indices.length = A.length := by
  have : F.indices.Perm (A.map (·.1)) := (List.perm_ext_iff_of_nodup (indices_nodup F) hA).mpr (fun i => by rw [mem_indices]; exact hF.2 i)
  rw [this.length_eq, List.length_map]

theorem scc_step {t : Task} {L : List (List Nat)} (hL : BigSccs t L) {fs : List Scoring} {n k : Nat} {Good : FTS → Prop} {F : FTS} {A : View} {st : SccState}
    (hf : ∀ f ∈ fs, f.Scores n Good) (hu : ∃ f ∈ fs, f.BreaksTies n Good) (hI : SccInv t L n k st A) (hA : ViewOK n k A) (hA2 : 2 ≤ A.length) (hF : A.Shows F (n + k)) (hG : Good F) :
    ∃ (p : Nat × Nat) (st' : SccState), sccNext fs st F = .ok (p, st') ∧ p.1 ≠ p.2 ∧ p.1 ∈ A.map (·.1) ∧ p.2 ∈ A.map (·.1) ∧ SccInv t L n (k + 1) st' (A.merge (n + k) p) := by
  have stepG : ∀ (pend : List (List Nat)) (group : List Nat), sccIndices st F = ⟨pend, group⟩ → SccGroup t L pend group A → 2 ≤ group.length →
      ∃ (p : Nat × Nat) (st' : SccState), sccNext fs st F = .ok (p, st') ∧ p.1 ≠ p.2 ∧ p.1 ∈ A.map (·.1) ∧ p.2 ∈ A.map (·.1) ∧ SccInv t L n (k + 1) st' (A.merge (n + k) p) := by
    intro pend group e hg h2
    obtain ⟨p, es, hne, h1, h2'⟩ := select_step hA hA2 hF hG hf hu (pend := pend) hg.nodup h2 hg.active
    refine ⟨p, _, by unfold sccNext; rw [e]; exact es, hne, hg.active _ h1, hg.active _ h2', ?_⟩
    have hg' := group_merge hL hA hg h1 h2'
    rw [filter_append_new] at hg'
    by_cases hemp : group.filter (fun i => !(i == p.1 || i == p.2)) = []
    · refine .inl ⟨hemp, idle_of_group hL (viewOK_merge hA hne (hg.active _ h1) (hg.active _ h2')).nodup (j := n + k) ?_⟩
      rw [hemp] at hg'
      exact hg'
    · exact .inr (.inl ⟨hemp, by omega, hg'⟩)
  have stepF : ∀ (group : List Nat), sccIndices st F = ⟨[], group⟩ → SccFinal t L group A → 2 ≤ group.length →
      ∃ (p : Nat × Nat) (st' : SccState), sccNext fs st F = .ok (p, st') ∧ p.1 ≠ p.2 ∧ p.1 ∈ A.map (·.1) ∧ p.2 ∈ A.map (·.1) ∧ SccInv t L n (k + 1) st' (A.merge (n + k) p) := by
    intro group e hg h2
    obtain ⟨p, es, hne, h1, h2'⟩ := select_step hA hA2 hF hG hf hu (pend := []) hg.nodup h2 (fun i hi => (hg.active i).mp hi)
    refine ⟨p, _, by unfold sccNext; rw [e]; exact es, hne, (hg.active _).mp h1, (hg.active _).mp h2', ?_⟩
    have hg' := final_merge hA hg h1 h2'
    rw [filter_append_new] at hg'
    by_cases hemp : group.filter (fun i => !(i == p.1 || i == p.2)) = []
    · exact .inl ⟨hemp, idle_of_final hg'⟩
    · exact .inr (.inr ⟨hemp, by omega, rfl, hg'⟩)
  obtain ⟨pend, cur⟩ := st
  rcases hI with ⟨hc, hi⟩ | ⟨hc, hk, hg⟩ | ⟨hc, hk, hp, hg⟩
  · have hc : cur = [] := hc
    subst hc
    cases pend with
    | nil =>
      refine stepF F.indices rfl ⟨indices_nodup F, fun i => by rw [mem_indices]; exact hF.2 i, ?_, ?_⟩ (by rw [indices_length hA.nodup hF]; exact hA2)
      · obtain ⟨done, e, hr⟩ := hi.split
        rw [List.append_nil] at e
        rw [e]
        exact hr.covered
      · intro f hfm
        rcases hi.facs f hfm with h | ⟨_, h⟩
        · exact h
        · exact absurd h (by simp)
    | cons c cs =>
      obtain ⟨done, e, hr⟩ := hi.split
      have e : L = done ++ c :: cs := e
      have hcL : c ∈ L := by rw [e]; simp
      have hon := hL.once
      rw [e, List.flatten_append, List.flatten_cons, List.nodup_append] at hon
      have hon2 := List.nodup_append.mp hon.2.1
      refine stepG cs c rfl ⟨hon2.1, ?_, ⟨done, c, e, ⟨hr.covered, fun d hd => hr.atomic d (List.mem_cons_of_mem _ hd)⟩, ?_, ?_⟩, ?_, ?_, ?_⟩ (hL.big c hcL)
      · intro i hic
        exact List.mem_map.mpr ⟨_, hr.atomic c (List.mem_cons_self ..) i hic, rfl⟩
      · rintro ⟨i, X⟩ hfm hic v hv
        have := mem_unique hA.nodup hfm (hr.atomic c (List.mem_cons_self ..) i hic)
        subst this
        rw [List.mem_singleton.mp hv]
        exact hic
      · intro v hv
        exact ⟨_, hr.atomic c (List.mem_cons_self ..) v hv, hv, by simp⟩
      · intro d hd v hv hvc
        exact hon2.2.2 v hvc v (List.mem_flatten.mpr ⟨d, hd, hv⟩) rfl
      · intro f hfm hnc
        rcases hi.facs f hfm with h | ⟨h1, h2⟩
        · exact .inl h
        · refine .inr ⟨h1, ?_⟩
          have h2 : f.1 ∈ (c :: cs).flatten := h2
          rw [List.flatten_cons, List.mem_append] at h2
          exact h2.resolve_left hnc
      · rcases hi.within with h | h
        · exact absurd h (by simp)
        · exact h
  · have hcur : cur ≠ [] := hc
    have e : sccIndices ⟨pend, cur⟩ F = ⟨pend, cur ++ [n + k - 1]⟩ := by
      unfold sccIndices
      cases cur with
      | nil => exact absurd rfl hcur
      | cons a l => simp only [hF.1]
    refine stepG pend (cur ++ [n + k - 1]) e hg ?_
    have : 1 ≤ cur.length := List.length_pos_iff.mpr hcur
    simp only [List.length_append, List.length_cons, List.length_nil]
    omega
  · have hcur : cur ≠ [] := hc
    have hp : pend = [] := hp
    subst hp
    have e : sccIndices ⟨[], cur⟩ F = ⟨[], cur ++ [n + k - 1]⟩ := by
      unfold sccIndices
      cases cur with
      | nil => exact absurd rfl hcur
      | cons a l => simp only [hF.1]
    refine stepF (cur ++ [n + k - 1]) e hg ?_
    have : 1 ≤ cur.length := List.length_pos_iff.mpr hcur
    simp only [List.length_append, List.length_cons, List.length_nil]
    omega

theorem scc_start {t : Task} (hr : t.InRange) {L : List (List Nat)} (hL : BigSccs t L) (hlt : ∀ c ∈ L, ∀ v ∈ c, v < t.vars.length) : SccInv t L t.vars.length 0 ⟨L, []⟩ (View.start t.vars.length) := by
  have hmem : ∀ f ∈ View.start t.vars.length, f.2 = [f.1] := by
    intro f hf
    simp only [View.start, List.mem_map] at hf
    obtain ⟨v, _, rfl⟩ := hf
    rfl
  refine .inl ⟨rfl, ⟨⟨[], rfl, ⟨fun c hc => absurd hc (by simp), fun c hc v hv => ?_⟩⟩, fun f hf => ?_, .inr (fun f hf => ?_)⟩⟩
  · exact List.mem_map.mpr ⟨v, List.mem_range.mpr (hlt c hc v hv), rfl⟩
  · rw [hmem f hf]
    by_cases hm : f.1 ∈ L.flatten
    · exact .inr ⟨rfl, hm⟩
    · left
      intro u hu w hE
      rw [List.mem_singleton] at hu ⊢
      subst hu
      by_contra hne
      obtain ⟨c, hc, hv⟩ := hL.all f.1 w (fun e => hne e.symm) hE
      exact hm (List.mem_flatten.mpr ⟨c, hc, hv⟩)
  · rw [hmem f hf]
    intro u hu w hw
    rw [List.mem_singleton] at hu hw
    rw [hu, hw]
    exact SameScc.refl t _

theorem bigSccs_lt {t : Task} (hr : t.InRange) {L : List (List Nat)} (hL : BigSccs t L) : ∀ c ∈ L, ∀ v ∈ c, v < t.vars.length := by
  intro c hc v hv
  have hbig := hL.big c hc
  have hnd : c.Nodup := (List.nodup_flatten.mp hL.once).1 c hc
  have : ∃ w ∈ c, w ≠ v := by
    by_contra hno
    push Not at hno
    obtain ⟨a, e⟩ := length_one hnd (List.ne_nil_of_mem hv) (fun a ha b hb => (hno a ha).trans (hno b hb).symm)
    rw [e] at hbig
    simp at hbig
  obtain ⟨w, hw, hne⟩ := this
  rcases Relation.ReflTransGen.cases_head ((hL.scc c hc v hv w).mp hw).1 with e | ⟨x, hx, -⟩
  · exact absurd e.symm hne
  · rcases hx with hx | hx
    · exact (OrderFinder.PreEff_range hr hx).1
    · exact (OrderFinder.EffEff_range hr hx).1

theorem sccInv_meaning {t : Task} {L : List (List Nat)} {n k : Nat} {st : SccState} {A : View} (h : SccInv t L n k st A) : OneAfterTheOther L A ∧ SccsFirst t A := by
  rcases h with ⟨_, hi⟩ | ⟨_, _, hg⟩ | ⟨_, _, _, hg⟩
  · obtain ⟨done, e, hr⟩ := hi.split
    refine ⟨⟨done, st.sccs, e, hr.covered, fun c hc => hr.atomic c (List.mem_of_mem_tail hc)⟩, ?_⟩
    rcases hi.within with hp | hw
    · right
      intro f hf
      rcases hi.facs f hf with h | ⟨_, h⟩
      · exact h
      · rw [hp] at h
        exact absurd h (by simp)
    · exact .inl hw
  · obtain ⟨done, C, e, hr, -, -⟩ := hg.split
    exact ⟨⟨done, C :: st.sccs, e, hr.covered, hr.atomic⟩, .inl hg.within⟩
  · exact ⟨⟨L, [], by simp, hg.covered, fun c hc => absurd hc (by simp)⟩, .inr hg.closed⟩

end Verif.Mas
