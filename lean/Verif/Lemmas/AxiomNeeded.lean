import Verif.Model.AxiomRules
import Verif.Spec.AxiomRules
import Verif.Lemmas.MasBasic
import Verif.Props.PySccs

/-
Lemmas about the derived atoms that are needed and the components of their dependencies.
-/
namespace Verif.AxiomRules
open Verif.Strips
variable {α : Type} [LinearOrder α] {t : StripsTask α}

theorem mem_derivedVars {p : α} : p ∈ derivedVars t.axioms ↔ t.Head p := by
  simp [derivedVars, StripsTask.Head]

theorem mem_dependencies {neg : Bool} {p q : α} : q ∈ dependencies t.axioms neg p ↔ ∃ r ∈ t.axioms, r.head = p ∧ ∃ l ∈ r.body, l.negated = neg ∧ l.atom = q ∧ t.Head q := by
  unfold dependencies
  simp only [List.mem_dedup, List.mem_flatMap, List.mem_filter, beq_iff_eq, List.mem_map, Bool.and_eq_true, List.contains_iff_mem, mem_derivedVars]
  constructor
  · rintro ⟨r, ⟨hr, hh⟩, l, ⟨hl, h1, h2⟩, rfl⟩
    exact ⟨r, hr, hh, l, hl, h1, rfl, h2⟩
  · rintro ⟨r, hr, hh, l, hl, h1, rfl, h2⟩
    exact ⟨r, ⟨hr, hh⟩, l, ⟨hl, h1, h2⟩, rfl⟩

theorem mem_allDependencies {p q : α} : q ∈ allDependencies t.axioms p ↔ ∃ r ∈ t.axioms, r.head = p ∧ ∃ l ∈ r.body, l.atom = q ∧ t.Head q := by
  unfold allDependencies
  rw [List.mem_append, mem_dependencies, mem_dependencies]
  constructor
  · rintro (⟨r, hr, hh, l, hl, _, h1, h2⟩ | ⟨r, hr, hh, l, hl, _, h1, h2⟩) <;> exact ⟨r, hr, hh, l, hl, h1, h2⟩
  · rintro ⟨r, hr, hh, l, hl, h1, h2⟩
    cases hn : l.negated
    · exact .inl ⟨r, hr, hh, l, hl, hn, h1, h2⟩
    · exact .inr ⟨r, hr, hh, l, hl, hn, h1, h2⟩

theorem mem_directlyNecessary {p : α} : p ∈ directlyNecessary t.axioms t.goal t.actions ↔ t.Head p ∧ ((∃ l ∈ t.goal, l.atom = p) ∨ ∃ a ∈ t.actions, (∃ l ∈ a.pre, l.atom = p) ∨ ∃ e ∈ a.effects, ∃ l ∈ e.1, l.atom = p) := by
  unfold directlyNecessary
  simp only [List.mem_dedup, List.mem_filter, List.contains_iff_mem, mem_derivedVars, List.mem_append, List.mem_map, List.mem_flatMap]
  rw [and_comm]
  refine and_congr_right fun _ => or_congr_right ?_
  refine exists_congr fun a => and_congr_right fun _ => or_congr_right ?_
  constructor
  · rintro ⟨e, he, l, hl, rfl⟩
    rcases he with he | he
    · unfold StripsToSas.addEffects at he
      obtain ⟨e', he', rfl⟩ := List.mem_map.mp he
      exact ⟨e', (List.mem_filter.mp he').1, l, hl, rfl⟩
    · unfold StripsToSas.delEffects at he
      obtain ⟨e', he', rfl⟩ := List.mem_map.mp (List.mem_filter.mp he).1
      exact ⟨e', (List.mem_filter.mp he').1, l, hl, rfl⟩
  · rintro ⟨e, he, l, hl, rfl⟩
    by_cases hadd : (e.1, e.2.atom) ∈ StripsToSas.addEffects a
    · exact ⟨_, .inl hadd, l, hl, rfl⟩
    · refine ⟨(e.1, e.2.atom), .inr ?_, l, hl, rfl⟩
      unfold StripsToSas.delEffects
      rw [List.mem_filter]
      refine ⟨List.mem_map.mpr ⟨e, List.mem_filter.mpr ⟨he, ?_⟩, rfl⟩, by simpa using hadd⟩
      cases hn : e.2.negated
      · exact absurd (List.mem_map.mpr ⟨e, List.mem_filter.mpr ⟨he, by simp [hn]⟩, rfl⟩) hadd
      · rfl

theorem expand_spec : ∀ (qs st nec : List α), ∃ new, expand qs (st, nec) = (new ++ st, new ++ nec) ∧ (∀ q ∈ new, q ∈ qs ∧ q ∉ nec) ∧ new.Nodup ∧ ∀ q ∈ qs, q ∈ new ++ nec
  | [], st, nec => ⟨[], rfl, by simp, by simp, by simp⟩
  | q :: qs, st, nec => by
    by_cases hq : q ∈ nec
    · obtain ⟨new, h1, h2, h3, h4⟩ := expand_spec qs st nec
      refine ⟨new, by rw [expand, if_pos hq]; exact h1, fun x hx => ⟨by simp [(h2 x hx).1], (h2 x hx).2⟩, h3, fun x hx => ?_⟩
      rcases List.mem_cons.mp hx with rfl | hx
      · simp [hq]
      · exact h4 x hx
    · obtain ⟨new, h1, h2, h3, h4⟩ := expand_spec qs (q :: st) (q :: nec)
      refine ⟨new ++ [q], ?_, ?_, ?_, ?_⟩
      · rw [expand, if_neg hq, h1]; simp
      · intro x hx
        rcases List.mem_append.mp hx with hx | hx
        · obtain ⟨h5, h6⟩ := h2 x hx
          exact ⟨by simp [h5], fun h => h6 (by simp [h])⟩
        · rw [List.mem_singleton.mp hx]
          exact ⟨by simp, hq⟩
      · rw [List.nodup_append]
        refine ⟨h3, by simp, fun x hx y hy hxy => ?_⟩
        rw [List.mem_singleton.mp hy] at hxy
        subst hxy
        exact (h2 x hx).2 (by simp)
      · intro x hx
        rcases List.mem_cons.mp hx with rfl | hx
        · simp
        · have := h4 x hx
          simpa using this

theorem closure_spec (N : α → Prop) (hN : ∀ p, N p → ∀ q ∈ allDependencies t.axioms p, N q) : ∀ (n : Nat) (st nec : List α), nec.Nodup → (∀ p ∈ nec, t.Head p) → (∀ p ∈ nec, N p) → (∀ p ∈ st, p ∈ nec) →
    (∀ p ∈ nec, p ∈ st ∨ ∀ q ∈ allDependencies t.axioms p, q ∈ nec) → st.length + (derivedVars t.axioms).length ≤ n + nec.length →
    ∃ r, closure t.axioms n st nec = some r ∧ (∀ p ∈ nec, p ∈ r) ∧ (∀ p ∈ r, N p) ∧ ∀ p ∈ r, ∀ q ∈ allDependencies t.axioms p, q ∈ r
  | n, [], nec, _, _, h3, _, h5, _ => ⟨nec, by cases n <;> rfl, fun _ h => h, h3, fun p hp => (h5 p hp).resolve_left (by simp)⟩
  | 0, p :: st, nec, h1, h2, _, _, _, h6 => by
    have hle : nec.length ≤ (derivedVars t.axioms).length := (List.subperm_of_subset h1 (fun x hx => mem_derivedVars.mpr (h2 x hx))).length_le
    simp only [List.length_cons] at h6
    omega
  | n + 1, p :: st, nec, h1, h2, h3, h4, h5, h6 => by
    obtain ⟨new, e1, e2, e3, e4⟩ := expand_spec (allDependencies t.axioms p) st nec
    have hp := h4 p (by simp)
    obtain ⟨r, r1, r2, r3, r4⟩ := closure_spec N hN n (new ++ st) (new ++ nec)
      (List.nodup_append.mpr ⟨e3, h1, fun x hx y hy hxy => (e2 x hx).2 (hxy ▸ hy)⟩)
      (by
        intro x hx
        rcases List.mem_append.mp hx with hx | hx
        · obtain ⟨_, _, _, _, _, _, hh⟩ := mem_allDependencies.mp (e2 x hx).1
          exact hh
        · exact h2 x hx)
      (by
        intro x hx
        rcases List.mem_append.mp hx with hx | hx
        · exact hN p (h3 p hp) x (e2 x hx).1
        · exact h3 x hx)
      (by
        intro x hx
        rcases List.mem_append.mp hx with hx | hx
        · simp [hx]
        · simp [h4 x (by simp [hx])])
      (by
        intro x hx
        rcases List.mem_append.mp hx with hx | hx
        · exact .inl (by simp [hx])
        · rcases h5 x hx with h | h
          · rcases List.mem_cons.mp h with rfl | h
            · exact .inr e4
            · exact .inl (by simp [h])
          · exact .inr fun q hq => by simp [h q hq])
      (by simp only [List.length_append, List.length_cons] at h6 ⊢; omega)
    refine ⟨r, ?_, fun x hx => r2 x (by simp [hx]), r3, r4⟩
    rw [closure, e1]
    exact r1

theorem needed_head {p : α} (h : t.Needed p) : t.Head p := by
  cases h <;> assumption

theorem needed_dep {p q : α} (h : t.Needed p) (hq : q ∈ allDependencies t.axioms p) : t.Needed q := by
  obtain ⟨r, hr, rfl, l, hl, rfl, hh⟩ := mem_allDependencies.mp hq
  exact .body r hr h l hl hh

theorem necessaryAtoms_spec : ∃ r, necessaryAtoms t.axioms t.goal t.actions = some r ∧ ∀ p, p ∈ r ↔ t.Needed p := by
  obtain ⟨r, h1, h2, h3, h4⟩ := closure_spec (t := t) t.Needed (fun p hp q hq => needed_dep hp hq) (derivedVars t.axioms).length (directlyNecessary t.axioms t.goal t.actions) (directlyNecessary t.axioms t.goal t.actions)
    (List.nodup_dedup _) (fun p hp => (mem_directlyNecessary.mp hp).1)
    (by
      intro p hp
      obtain ⟨hh, h⟩ := mem_directlyNecessary.mp hp
      rcases h with ⟨l, hl, rfl⟩ | ⟨a, ha, ⟨l, hl, rfl⟩ | ⟨e, he, l, hl, rfl⟩⟩
      · exact .goal l hl hh
      · exact .pre a ha l hl hh
      · exact .cond a ha e he l hl hh)
    (fun _ h => h) (fun p hp => .inl hp) (by omega)
  refine ⟨r, h1, fun p => ⟨h3 p, fun hp => ?_⟩⟩
  induction hp with
  | goal l hl hh => exact h2 _ (mem_directlyNecessary.mpr ⟨hh, .inl ⟨l, hl, rfl⟩⟩)
  | pre a ha l hl hh => exact h2 _ (mem_directlyNecessary.mpr ⟨hh, .inr ⟨a, ha, .inl ⟨l, hl, rfl⟩⟩⟩)
  | cond a ha e he l hl hh => exact h2 _ (mem_directlyNecessary.mpr ⟨hh, .inr ⟨a, ha, .inr ⟨e, he, l, hl, rfl⟩⟩⟩)
  | body r' hr' _ l hl hh ih => exact h4 _ ih _ (mem_allDependencies.mpr ⟨r', hr', rfl, l, hl, rfl, hh⟩)

theorem dep_iff {p q : α} : t.DependsOn p q ↔ q ∈ allDependencies t.axioms p := mem_allDependencies.symm

theorem mapAll_map {β γ : Type} {f : β → Option γ} {e : β → γ} {l : List β} (h : ∀ a ∈ l, f a = some (e a)) : Mas.mapAll f l = some (l.map e) := by
  rw [Mas.mapAll_iff]
  induction l with
  | nil => exact .nil
  | cons a l ih => exact .cons (h a (by simp)) (ih fun x hx => h x (by simp [hx]))

/-- the clusters: a partition of the needed atoms into sets of atoms that depend on each other, where later clusters do not depend on earlier ones -/
structure Clusters (t : StripsTask α) (groups : List (List α)) : Prop where
  nodup : groups.flatten.Nodup
  mem : ∀ p, p ∈ groups.flatten ↔ t.Needed p
  same : ∀ c ∈ groups, ∀ p ∈ c, ∀ q, q ∈ c ↔ t.Mutual p q
  order : groups.Pairwise (fun c d => ∀ p ∈ d, ∀ q ∈ c, ¬ t.DependsOn p q)

theorem components_spec {derived : List α} (hd : derived.Nodup) (hm : ∀ p, p ∈ derived ↔ t.Needed p) : ∃ groups, components t.axioms derived = some groups ∧ Clusters t groups := by
  have hperm := List.perm_insertionSort (· ≤ ·) derived
  generalize hv : derived.insertionSort (· ≤ ·) = vars at hperm
  have hnd : vars.Nodup := hperm.nodup_iff.mpr hd
  have hmem : ∀ p, p ∈ vars ↔ t.Needed p := fun p => by rw [hperm.mem_iff, hm]
  have hidx : ∀ p, p ∈ vars → indexOf vars p = some (vars.idxOf p) := by
    intro p hp
    unfold indexOf
    rw [List.findIdx?_eq_some_iff_getElem]
    have hlt := List.idxOf_lt_length_iff.mpr hp
    refine ⟨hlt, by simp, fun j hj => ?_⟩
    simp only [beq_iff_eq]
    intro he
    have h1 : vars[j] = vars[vars.idxOf p] := by rw [he]; simp
    have := (List.Nodup.getElem_inj_iff hnd).mp h1
    omega
  have hadj : adjacency t.axioms vars = some (vars.map (fun p => ((allDependencies t.axioms p).dedup.insertionSort (· ≤ ·)).map (fun q => vars.idxOf q))) := by
    refine mapAll_map fun p hp => mapAll_map fun q hq => hidx q ?_
    rw [List.mem_insertionSort, List.mem_dedup] at hq
    exact (hmem q).mpr (needed_dep ((hmem p).mp hp) hq)
  generalize hg : vars.map (fun p => ((allDependencies t.axioms p).dedup.insertionSort (· ≤ ·)).map (fun q => vars.idxOf q)) = g at hadj
  have hlen : g.length = vars.length := by rw [← hg]; simp
  have hedge : ∀ i j, PySccs.getSccs g (PySccs.bound g) = PySccs.getSccs g (PySccs.bound g) → (Sccs.Edge g i j ↔ ∃ p q, vars[i]? = some p ∧ vars[j]? = some q ∧ t.DependsOn p q) := by
    intro i j _
    unfold Sccs.Edge
    rw [← hg]
    constructor
    · rintro ⟨succs, h1, h2⟩
      rw [List.getElem?_map] at h1
      obtain ⟨p, hp, rfl⟩ := Option.map_eq_some_iff.mp h1
      obtain ⟨q, hq, rfl⟩ := List.mem_map.mp h2
      rw [List.mem_insertionSort, List.mem_dedup] at hq
      have hqv : q ∈ vars := (hmem q).mpr (needed_dep ((hmem p).mp (List.mem_of_getElem? hp)) hq)
      have hlt := List.idxOf_lt_length_iff.mpr hqv
      exact ⟨p, q, hp, by simp [hlt], dep_iff.mpr hq⟩
    · rintro ⟨p, q, hp, hq, hdep⟩
      refine ⟨_, by rw [List.getElem?_map, hp]; rfl, List.mem_map.mpr ⟨q, ?_, ?_⟩⟩
      · rw [List.mem_insertionSort, List.mem_dedup]; exact dep_iff.mp hdep
      · obtain ⟨hj, rfl⟩ := List.getElem?_eq_some_iff.mp hq
        exact List.Nodup.idxOf_getElem hnd j hj
  replace hedge : ∀ i j, Sccs.Edge g i j ↔ ∃ p q, vars[i]? = some p ∧ vars[j]? = some q ∧ t.DependsOn p q := fun i j => hedge i j rfl
  obtain ⟨out, h1, _, h2, h3, h4, h5, h6⟩ := PySccs.C13_python_sccs g (by
    rw [← hg]
    intro succs hs w hw
    obtain ⟨p, hp, rfl⟩ := List.mem_map.mp hs
    obtain ⟨q, hq, rfl⟩ := List.mem_map.mp hw
    rw [List.mem_insertionSort, List.mem_dedup] at hq
    rw [List.length_map]
    exact List.idxOf_lt_length_iff.mpr ((hmem q).mpr (needed_dep ((hmem p).mp hp) hq)))
  rw [hlen] at h4
  have hreach : ∀ i j, Sccs.Reach g i j → ∀ p q, vars[i]? = some p → vars[j]? = some q → Relation.ReflTransGen t.DependsOn p q := by
    intro i j h
    induction h with
    | refl =>
      intro p q hp hq
      rw [hp, Option.some.injEq] at hq
      rw [hq]
    | tail _ he ih =>
      intro p q hp hq
      obtain ⟨p', q', hp', hq', hdep⟩ := (hedge _ _).mp he
      rw [hq, Option.some.injEq] at hq'
      subst hq'
      exact (ih p p' hp hp').tail hdep
  have hreach' : ∀ p q, Relation.ReflTransGen t.DependsOn p q → t.Needed p → ∀ i j, vars[i]? = some p → vars[j]? = some q → Sccs.Reach g i j := by
    intro p q h hn
    have : t.Needed q ∧ ∀ i j, vars[i]? = some p → vars[j]? = some q → Sccs.Reach g i j := by
      induction h with
      | refl =>
        refine ⟨hn, fun i j hi hj => ?_⟩
        obtain ⟨hi', hi⟩ := List.getElem?_eq_some_iff.mp hi
        obtain ⟨hj', hj⟩ := List.getElem?_eq_some_iff.mp hj
        have := (List.Nodup.getElem_inj_iff hnd).mp (hi.trans hj.symm)
        subst this
        exact .refl
      | @tail q' q _ hdep ih =>
        refine ⟨needed_dep ih.1 (dep_iff.mp hdep), fun i j hi hj => ?_⟩
        obtain ⟨k, hk⟩ := List.mem_iff_getElem?.mp ((hmem q').mpr ih.1)
        exact (ih.2 i k hi hk).tail ((hedge _ _).mpr ⟨q', q, hk, hj, hdep⟩)
    exact this.2
  by_cases hemp : vars = []
  · have hout : out = [] := by
      cases out with
      | nil => rfl
      | cons c cs =>
        obtain ⟨x, hx⟩ := List.exists_mem_of_ne_nil c (h2 c (by simp))
        have := (h4 x).mp (by simp [hx])
        simp [hemp] at this
    subst hout
    refine ⟨[], ?_, by simp, fun p => ?_, by simp, by simp⟩
    · unfold components
      rw [hv, hadj]
      simp only []
      rw [h1]
      rfl
    · rw [← hmem, hemp]
      simp
  · obtain ⟨a0, ha0⟩ := List.exists_mem_of_ne_nil _ hemp
    have hget : ∀ i, i < vars.length → vars[i]? = some (vars.getD i a0) := by
      intro i hi
      simp [List.getD, hi]
    have hinj : ∀ i j, i < vars.length → j < vars.length → vars.getD i a0 = vars.getD j a0 → i = j := by
      intro i j hi hj he
      have e1 : vars.getD i a0 = vars[i] := by simp [List.getD, hi]
      have e2 : vars.getD j a0 = vars[j] := by simp [List.getD, hj]
      rw [e1, e2] at he
      exact (List.Nodup.getElem_inj_iff hnd).mp he
    have hlt : ∀ c ∈ out, ∀ i ∈ c, i < vars.length := fun c hc i hi => (h4 i).mp (List.mem_flatten.mpr ⟨c, hc, hi⟩)
    have hflat : (out.map (fun c => c.map (fun i => vars.getD i a0))).flatten = out.flatten.map (fun i => vars.getD i a0) := by
      rw [List.map_flatten]
    refine ⟨out.map (fun c => c.map (fun i => vars.getD i a0)), ?_, ?_, fun p => ?_, ?_, ?_⟩
    · unfold components
      rw [hv, hadj]
      simp only []
      rw [h1]
      simp only []
      exact mapAll_map fun c hc => mapAll_map fun i hi => hget i (hlt c hc i hi)
    · rw [hflat]
      exact h3.map_on fun i hi j hj he => hinj i j ((h4 i).mp hi) ((h4 j).mp hj) he
    · rw [hflat, List.mem_map, ← hmem]
      constructor
      · rintro ⟨i, hi, rfl⟩
        exact List.mem_of_getElem? (hget i ((h4 i).mp hi))
      · intro hp
        obtain ⟨i, hi⟩ := List.mem_iff_getElem?.mp hp
        have hil := (List.getElem?_eq_some_iff.mp hi).1
        refine ⟨i, (h4 i).mpr hil, ?_⟩
        have := hget i hil
        rw [hi, Option.some.injEq] at this
        exact this.symm
    · intro d hd' p hp q
      obtain ⟨c, hc, rfl⟩ := List.mem_map.mp hd'
      obtain ⟨i, hi, rfl⟩ := List.mem_map.mp hp
      have hil := hlt c hc i hi
      have hpn : t.Needed (vars.getD i a0) := (hmem _).mp (List.mem_of_getElem? (hget i hil))
      constructor
      · intro hq
        obtain ⟨j, hj, rfl⟩ := List.mem_map.mp hq
        obtain ⟨r1, r2⟩ := (h5 c hc i hi j).mp hj
        have hjl := hlt c hc j hj
        exact ⟨hreach i j r1 _ _ (hget i hil) (hget j hjl), hreach j i r2 _ _ (hget j hjl) (hget i hil)⟩
      · rintro ⟨r1, r2⟩
        have hqn : t.Needed q := by
          clear r2
          induction r1 with
          | refl => exact hpn
          | tail _ hdep ih => exact needed_dep ih (dep_iff.mp hdep)
        obtain ⟨j, hj⟩ := List.mem_iff_getElem?.mp ((hmem q).mpr hqn)
        have hjc := (h5 c hc i hi j).mpr ⟨hreach' _ _ r1 hpn i j (hget i hil) hj, hreach' _ _ r2 hqn j i hj (hget i hil)⟩
        refine List.mem_map.mpr ⟨j, hjc, ?_⟩
        have := hget j (hlt c hc j hjc)
        rw [hj, Option.some.injEq] at this
        exact this.symm
    · rw [List.pairwise_map]
      have hsub : ∀ c ∈ out, ∀ i ∈ c, i < vars.length := hlt
      refine List.Pairwise.imp_of_mem ?_ h6
      intro c d hc hd' h p hp q hq hdep
      obtain ⟨i, hi, rfl⟩ := List.mem_map.mp hp
      obtain ⟨j, hj, rfl⟩ := List.mem_map.mp hq
      exact h i hi j hj ((hedge i j).mpr ⟨_, _, hget i (hlt d hd' i hi), hget j (hlt c hc j hj), hdep⟩)

end Verif.AxiomRules
