import Verif.Model.LandmarkHeuristics
import Verif.Lemmas.LandmarkInv
import Mathlib.Logic.Relation

/- The depth-first search for cycles of natural orderings. -/
namespace Verif.Landmarks
open Relation

variable {g : Graph}

/-- there is an ordering from `a` to `b` that is natural or stronger -/
def NaturalEdge (g : Graph) (a b : Nat) : Prop := ∃ n ty, g[a]? = some n ∧ (b, ty) ∈ n.children ∧ ty ≠ .reasonable

/-- a list of nodes such that the successors of each node stand behind it -/
inductive Topo (g : Graph) : List Nat → Prop where
  | nil : Topo g []
  | cons (x l) : x ∉ l → (∀ y, NaturalEdge g x y → y ∈ l) → Topo g l → Topo g (x :: l)

theorem Topo.closed {l : List Nat} (h : Topo g l) : ∀ x ∈ l, ∀ y, NaturalEdge g x y → y ∈ l := by
  induction h with
  | nil => simp
  | cons x l _ h2 _ ih =>
    intro z hz y hy
    rcases List.mem_cons.mp hz with rfl | hz
    · exact List.mem_cons_of_mem _ (h2 y hy)
    · exact List.mem_cons_of_mem _ (ih z hz y hy)

theorem Topo.reach {l : List Nat} (h : Topo g l) {x y : Nat} (hx : x ∈ l) (hxy : ReflTransGen (NaturalEdge g) x y) : y ∈ l := by
  induction hxy with
  | refl => exact hx
  | tail _ h2 ih => exact h.closed _ ih _ h2

theorem Topo.acyclic {l : List Nat} (h : Topo g l) : ∀ x ∈ l, ¬TransGen (NaturalEdge g) x x := by
  induction h with
  | nil => simp
  | cons x l h1 h2 h3 ih =>
    intro z hz hc
    rcases List.mem_cons.mp hz with rfl | hz
    · obtain ⟨y, hy, hyz⟩ := TransGen.head'_iff.mp hc
      exact h1 (h3.reach (h2 y hy) hyz)
    · exact ih z hz hc

structure DGood (g : Graph) (c v : Bits) (ord : List Nat) : Prop where
  lenC : c.length = g.length
  lenV : v.length = g.length
  closed : ∀ i, c[i]? = some true ↔ i ∈ ord
  topo : Topo g ord
  visited : ∀ i ∈ ord, v[i]? = some true

/-- the nodes on the stack -/
def Opened (c v : Bits) (u : Nat) : Prop := v[u]? = some true ∧ c[u]? = some false

/-- the number of nodes that are not visited -/
def unvisited (v : Bits) : Nat := v.count false

/-- the search finds a cycle, or ends with good vectors and the same stack, and the nodes in `ids` are closed -/
def DfsOk (g : Graph) (c v : Bits) (ids : Nat → Prop) : Dfs → Prop
  | .ub => False
  | .loops => False
  | .done true _ _ => ∃ x, TransGen (NaturalEdge g) x x
  | .done false c' v' => ∃ ord, DGood g c' v' ord ∧ (∀ i, ids i → i ∈ ord) ∧ (∀ i : Nat, c[i]? = some true → c'[i]? = some true) ∧ (∀ u, Opened c' v' u ↔ Opened c v u) ∧ unvisited v' ≤ unvisited v

theorem unvisited_set {v : Bits} {i : Nat} (h : v[i]? = some false) : unvisited (v.set i true) + 1 = unvisited v := by
  unfold unvisited
  induction v generalizing i with
  | nil => simp at h
  | cons b v ih =>
    cases i with
    | zero =>
      simp only [List.getElem?_cons_zero, Option.some.injEq] at h
      subst h
      simp
    | succ i =>
      simp only [List.getElem?_cons_succ] at h
      have := ih h
      cases b <;> simp only [List.set_cons_succ, List.count_cons, beq_self_eq_true, if_true] <;> simp <;> omega

theorem dfsChildren_spec {fuel : Nat} {p : Nat} (hrec : ∀ id c v ord, DGood g c v ord → id < g.length → unvisited v < fuel →
      (∀ u, Opened c v u → TransGen (NaturalEdge g) u id) → DfsOk g c v (· = id) (dfsNode g fuel id c v)) :
    ∀ (cs : List (Nat × OrderingType)) (c v : Bits) (ord : List Nat), DGood g c v ord → unvisited v < fuel → (∀ x ∈ cs, x.1 < g.length) →
      (∀ x ∈ cs, x.2 ≠ .reasonable → NaturalEdge g p x.1) → (∀ u, Opened c v u → ReflTransGen (NaturalEdge g) u p) →
      DfsOk g c v (fun i => ∃ x ∈ cs, x.1 = i ∧ x.2 ≠ .reasonable) (dfsChildren (dfsNode g fuel) cs c v)
  | [], c, v, ord, h1, _, _, _, _ => ⟨ord, h1, by simp, fun _ h => h, fun _ => Iff.rfl, Nat.le_refl _⟩
  | x :: cs, c, v, ord, h1, h2, h3, h4, h5 => by
    unfold dfsChildren
    by_cases hx : x.2 = .reasonable
    · rw [if_pos hx]
      have := dfsChildren_spec hrec cs c v ord h1 h2 (fun y hy => h3 y (by simp [hy])) (fun y hy => h4 y (by simp [hy])) h5
      generalize dfsChildren (dfsNode g fuel) cs c v = d at this ⊢
      match d with
      | .ub => exact this
      | .loops => exact this
      | .done true _ _ => exact this
      | .done false _ _ =>
        obtain ⟨o, k1, k2, k3⟩ := this
        refine ⟨o, k1, ?_, k3⟩
        rintro i ⟨y, hy, rfl, hne⟩
        rcases List.mem_cons.mp hy with rfl | hy
        · exact absurd hx hne
        · exact k2 _ ⟨y, hy, rfl, hne⟩
    · rw [if_neg hx]
      have hr := hrec x.1 c v ord h1 (h3 x (by simp)) h2 (fun u hu => TransGen.tail' (h5 u hu) (h4 x (by simp) hx))
      generalize dfsNode g fuel x.1 c v = d at hr ⊢
      match d with
      | .ub => exact hr
      | .loops => exact hr
      | .done true _ _ => exact hr
      | .done false c1 v1 =>
        obtain ⟨o, k1, k2, k3, k4, k5⟩ := hr
        have := dfsChildren_spec hrec cs c1 v1 o k1 (by omega) (fun y hy => h3 y (by simp [hy])) (fun y hy => h4 y (by simp [hy])) (fun u hu => h5 u ((k4 u).mp hu))
        simp only
        generalize dfsChildren (dfsNode g fuel) cs c1 v1 = d at this ⊢
        match d with
        | .ub => exact this
        | .loops => exact this
        | .done true _ _ => exact this
        | .done false c2 v2 =>
          obtain ⟨o2, m1, m2, m3, m4, m5⟩ := this
          refine ⟨o2, m1, ?_, fun i hi => m3 i (k3 i hi), fun u => (m4 u).trans (k4 u), by omega⟩
          rintro i ⟨y, hy, rfl, hne⟩
          rcases List.mem_cons.mp hy with rfl | hy
          · exact (m1.closed _).mp (m3 _ ((k1.closed _).mpr (k2 _ rfl)))
          · exact m2 _ ⟨y, hy, rfl, hne⟩

theorem dfsNode_spec (hg : ∀ n ∈ g, ∀ x ∈ n.children, x.1 < g.length) : ∀ (fuel id : Nat) (c v : Bits) (ord : List Nat), DGood g c v ord → id < g.length → unvisited v < fuel →
      (∀ u, Opened c v u → TransGen (NaturalEdge g) u id) → DfsOk g c v (· = id) (dfsNode g fuel id c v)
  | 0, _, _, _, _, _, _, h, _ => absurd h (Nat.not_lt_zero _)
  | fuel + 1, id, c, v, ord, h1, h2, h3, h4 => by
    unfold dfsNode
    have hn : g[id]? = some g[id] := List.getElem?_eq_getElem h2
    rw [hn]
    rcases bit_cases (by rw [h1.lenC]; exact h2 : id < c.length) with e | e
    · rw [e]
      exact ⟨ord, h1, fun i hi => by rw [hi]; exact (h1.closed id).mp e, fun _ h => h, fun _ => Iff.rfl, Nat.le_refl _⟩
    · rcases bit_cases (by rw [h1.lenV]; exact h2 : id < v.length) with e' | e'
      · rw [e, e']
        exact ⟨id, h4 id ⟨e', e⟩⟩
      · rw [e, e']
        simp only
        have hc := unvisited_set e'
        have hopen : ∀ u, Opened c (v.set id true) u ↔ Opened c v u ∨ u = id := by
          intro u
          unfold Opened
          rw [List.getElem?_set]
          by_cases hu : id = u
          · subst hu; simp [h1.lenV, h2, e]
          · simp [hu, Ne.symm hu]
        have hgood : DGood g c (v.set id true) ord := by
          refine ⟨h1.lenC, by simp [h1.lenV], h1.closed, h1.topo, fun i hi => ?_⟩
          rw [List.getElem?_set]
          by_cases hu : id = i
          · simp [hu, h1.lenV]; omega
          · simp [hu, h1.visited i hi]
        have := dfsChildren_spec (p := id) (fun id c v ord => dfsNode_spec hg fuel id c v ord) g[id].children c (v.set id true) ord hgood (by omega)
          (hg _ (List.getElem_mem h2)) (fun x hx hne => ⟨_, x.2, hn, hx, hne⟩)
          (fun u hu => by
            rcases (hopen u).mp hu with hu | rfl
            · exact (h4 u hu).to_reflTransGen
            · exact .refl)
        generalize dfsChildren (dfsNode g fuel) g[id].children c (v.set id true) = d at this ⊢
        match d with
        | .ub => exact this
        | .loops => exact this
        | .done true _ _ => exact this
        | .done false c1 v1 =>
          obtain ⟨o, k1, k2, k3, k4, k5⟩ := this
          simp only [if_pos (by rw [k1.lenC]; exact h2 : id < c1.length)]
          have hid : Opened c1 v1 id := (k4 id).mpr ((hopen id).mpr (Or.inr rfl))
          have hido : id ∉ o := fun hm => by
            have := (k1.closed id).mpr hm
            rw [hid.2] at this
            cases this
          refine ⟨id :: o, ⟨by simp [k1.lenC], k1.lenV, fun i => ?_, .cons _ _ hido ?_ k1.topo, ?_⟩, fun i hi => by simp [hi], fun i hi => ?_, fun u => ?_, by omega⟩
          · rw [List.getElem?_set, List.mem_cons, ← k1.closed i]
            by_cases hu : id = i
            · subst hu; simp [k1.lenC, h2]
            · simp [hu, Ne.symm hu]
          · rintro y ⟨n, ty, hn', hy, hne⟩
            rw [hn] at hn'
            cases hn'
            exact k2 y ⟨(y, ty), hy, rfl, hne⟩
          · intro i hi
            rcases List.mem_cons.mp hi with rfl | hi
            · exact hid.1
            · exact k1.visited i hi
          · rw [List.getElem?_set]
            by_cases hu : id = i
            · subst hu; simp [k1.lenC, h2]
            · simp [hu, k3 i hi]
          · unfold Opened
            rw [List.getElem?_set]
            by_cases hu : id = u
            · subst hu
              simp [k1.lenC, h2, e']
            · have h5 := k4 u
              have h6 := hopen u
              unfold Opened at h5 h6
              simp only [if_neg hu]
              rw [h5, h6]
              simp [Ne.symm hu]

theorem dfsAll_spec (hg : ∀ n ∈ g, ∀ x ∈ n.children, x.1 < g.length) : ∀ (ids : List Nat) (c v : Bits) (ord : List Nat), DGood g c v ord → (∀ i ∈ ids, i < g.length) →
      (∀ u, ¬Opened c v u) → unvisited v ≤ g.length → DfsOk g c v (· ∈ ids) (dfsAll g ids c v)
  | [], c, v, ord, h1, _, _, _ => ⟨ord, h1, by simp, fun _ h => h, fun _ => Iff.rfl, Nat.le_refl _⟩
  | id :: ids, c, v, ord, h1, h2, h3, h4 => by
    unfold dfsAll
    have hr := dfsNode_spec hg (g.length + 1) id c v ord h1 (h2 id (by simp)) (by omega) (fun u hu => absurd hu (h3 u))
    generalize dfsNode g (g.length + 1) id c v = d at hr ⊢
    match d with
    | .ub => exact hr
    | .loops => exact hr
    | .done true _ _ => exact hr
    | .done false c1 v1 =>
      obtain ⟨o, k1, k2, k3, k4, k5⟩ := hr
      have := dfsAll_spec hg ids c1 v1 o k1 (fun i hi => h2 i (by simp [hi])) (fun u hu => h3 u ((k4 u).mp hu)) (by omega)
      simp only
      generalize dfsAll g ids c1 v1 = d at this ⊢
      match d with
      | .ub => exact this
      | .loops => exact this
      | .done true _ _ => exact this
      | .done false c2 v2 =>
        obtain ⟨o2, m1, m2, m3, m4, m5⟩ := this
        refine ⟨o2, m1, ?_, fun i hi => m3 i (k3 i hi), fun u => (m4 u).trans (k4 u), by omega⟩
        intro i hi
        rcases List.mem_cons.mp hi with rfl | hi
        · exact (m1.closed _).mp (m3 _ ((k1.closed _).mpr (k2 _ rfl)))
        · exact m2 _ hi

/-- The search for cycles ends, and finds a cycle if and only if there is one. -/
theorem hasCycle_spec (hg : ∀ n ∈ g, ∀ x ∈ n.children, x.1 < g.length) :
    ∃ b, hasCycleOfNaturalOrderings g = some b ∧ (b = true ↔ ∃ x, TransGen (NaturalEdge g) x x) := by
  have hgood : DGood g (List.replicate g.length false) (List.replicate g.length false) [] := by
    refine ⟨by simp, by simp, fun i => ?_, .nil, by simp⟩
    simp [List.getElem?_replicate]
  have := dfsAll_spec hg (List.range g.length) _ _ [] hgood (fun i hi => List.mem_range.mp hi)
    (fun u hu => by have := hu.1; simp [List.getElem?_replicate] at this) (by simp [unvisited])
  unfold hasCycleOfNaturalOrderings
  generalize dfsAll g (List.range g.length) (List.replicate g.length false) (List.replicate g.length false) = d at this ⊢
  match d with
  | .ub => exact this.elim
  | .loops => exact this.elim
  | .done true _ _ => exact ⟨true, rfl, fun _ => this, fun _ => rfl⟩
  | .done false c v =>
    obtain ⟨o, k1, k2, _⟩ := this
    refine ⟨false, rfl, ?_⟩
    simp only [Bool.false_eq_true, false_iff]
    rintro ⟨x, hx⟩
    have hlt : x < g.length := by
      obtain ⟨y, hy, _⟩ := TransGen.head'_iff.mp hx
      obtain ⟨n, _, hn, _⟩ := hy
      exact (List.getElem?_eq_some_iff.mp hn).1
    exact k1.topo.acyclic x (k2 x (List.mem_range.mpr hlt)) hx

theorem FirstAt.unique {L : State → Prop} {ss : List State} {i j : Nat} (hi : FirstAt L ss i) (hj : FirstAt L ss j) : i = j := by
  rcases Nat.lt_trichotomy i j with h | h | h
  · exact absurd hi.1 (hj.2 i h)
  · exact h
  · exact absurd hj.1 (hi.2 j h)

/-- along a natural ordering, the first times at which the landmarks hold increase -/
theorem natural_first {t : Task} (hg : g.Valid t) {r : List (Nat × State)} (hr : t.GoalRun t.init r) {a b : Nat} (h : TransGen (NaturalEdge g) a b) :
    ∀ k, FirstAt (g.L b) (runStates t.init r) k → ∃ j < k, FirstAt (g.L a) (runStates t.init r) j := by
  have step : ∀ {a b}, NaturalEdge g a b → ∀ k, FirstAt (g.L b) (runStates t.init r) k → ∃ j < k, FirstAt (g.L a) (runStates t.init r) j := by
    rintro a b ⟨n, ty, hn, hb, hne⟩ k hk
    obtain ⟨nb, hnb, hord⟩ := hg.children n (List.mem_of_getElem? hn) b ty hb
    rw [L_eq hnb] at hk
    rw [L_eq hn]
    have : ∃ j < k, HoldsAt n.landmark.Holds (runStates t.init r) j := by
      cases ty with
      | reasonable => exact absurd rfl hne
      | natural => exact hord r hr k hk
      | greedyNecessary =>
        obtain ⟨j, hj, hh⟩ := hord r hr k hk
        exact ⟨j, by omega, hh⟩
      | necessary =>
        obtain ⟨j, hj, hh⟩ := hord r hr k hk.added
        exact ⟨j, by omega, hh⟩
    obtain ⟨j, hj, hh⟩ := this
    obtain ⟨i, hi, hf⟩ := exists_first hh
    exact ⟨i, by omega, hf⟩
  induction h with
  | single h => exact step h
  | tail _ h2 ih =>
    intro k hk
    obtain ⟨j, hj, hf⟩ := step h2 k hk
    obtain ⟨i, hi, hf'⟩ := ih j hf
    exact ⟨i, by omega, hf'⟩

/-- a task whose landmark graph has a cycle of natural orderings has no plan -/
theorem cycle_unsolvable {t : Task} (hg : g.Valid t) {x : Nat} (h : TransGen (NaturalEdge g) x x) (r : List (Nat × State)) : ¬t.GoalRun t.init r := by
  intro hr
  obtain ⟨y, ⟨n, _, hn, _⟩, _⟩ := TransGen.head'_iff.mp h
  obtain ⟨k, hk⟩ := hg.landmark n (List.mem_of_getElem? hn) r hr
  rw [← L_eq hn] at hk
  obtain ⟨j, _, hj⟩ := exists_first hk
  obtain ⟨i, hi, hf⟩ := natural_first hg hr h j hj
  have := hf.unique hj
  omega

end Verif.Landmarks
