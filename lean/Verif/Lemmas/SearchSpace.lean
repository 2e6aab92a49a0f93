import Verif.Spec.Search

namespace Verif.Search

variable {S : Type}

theorem World.Path.append {w : World S} {s t u : S} {π ρ : List Nat} (h : w.Path s π t) (h' : w.Path t ρ u) : w.Path s (π ++ ρ) u := by
  induction h with
  | nil s => exact h'
  | cons s o t π u l h1 h2 h3 _ ih => exact .cons s o t _ _ l h1 h2 h3 (ih h')

theorem World.Path.single {w : World S} {s t : S} {l : List Nat} {o : Nat} (h1 : w.ops s = some l) (h2 : o ∈ l) (h3 : w.succ s o = some t) : w.Path s [o] t :=
  .cons s o t [] t l h1 h2 h3 (.nil t)

theorem pathCost_append (c : Nat → Nat) (a b : List Nat) : pathCost c (a ++ b) = pathCost c a + pathCost c b := by
  simp [pathCost]

@[simp] theorem upd_same [DecidableEq S] {α : Type} (f : S → α) (s : S) (a : α) : upd f s a s = a := by simp [upd]
theorem upd_ne [DecidableEq S] {α : Type} (f : S → α) {s x : S} (a : α) (h : x ≠ s) : upd f s a x = f x := by simp [upd, h]

theorem plus_some {a : Int} {c : Nat} {b : Int} (h : plus a c = some b) : b = a + c ∧ b < 2 ^ 31 := by
  unfold plus at h
  split at h
  · simp only [Option.some.injEq] at h; omega
  · simp at h

/-- the node has been given a g-value -/
def Created (infos : S → NodeInfo S) (s : S) : Prop := 0 ≤ (infos s).g

/-- `p` is the parent stored for `s` -/
def ParentOf (infos : S → NodeInfo S) (p s : S) : Prop := (infos s).parent = some p

/-- what holds of a created node -/
def NodeOK (w : World S) (valid : S → Prop) (infos : S → NodeInfo S) (s : S) : Prop :=
  valid s ∧
  ((s = w.init ∧ (infos s).parent = none ∧ (infos s).op = none ∧ (infos s).g = 0 ∧ (infos s).realG = 0) ∨
   (s ≠ w.init ∧ ∃ p o l, (infos s).parent = some p ∧ (infos s).op = some o ∧ Created infos p ∧ w.ops p = some l ∧ o ∈ l ∧ w.succ p o = some s ∧
      (infos p).g + w.adj o ≤ (infos s).g))

/-- the invariant of the search space -/
structure NodeInv (w : World S) (valid : S → Prop) (infos : S → NodeInfo S) : Prop where
  live : ∀ s, (infos s).status = .opened ∨ (infos s).status = .closed → Created infos s
  fresh : ∀ s, (infos s).status = .new → ¬ Created infos s
  ok : ∀ s, Created infos s → NodeOK w valid infos s
  /-- only the initial state can be without a parent -/
  noParent : ∀ s, ¬ Created infos s → (infos s).parent = none ∧ (infos s).op = none
  acc : ∀ s, Acc (ParentOf infos) s

theorem nodeInv_fresh (w : World S) (valid : S → Prop) : NodeInv w valid (fun _ : S => (NodeInfo.fresh : NodeInfo S)) where
  live s h := by simp [NodeInfo.fresh] at h
  fresh s _ := by simp [Created, NodeInfo.fresh]
  ok s h := by simp [Created, NodeInfo.fresh] at h
  noParent s _ := by simp [NodeInfo.fresh]
  acc s := ⟨s, fun p hp => by simp [ParentOf, NodeInfo.fresh] at hp⟩

section
variable [DecidableEq S]

/-- opening the initial state -/
theorem NodeInv.openInitial {w : World S} {valid : S → Prop} (hv : w.Total valid) :
    NodeInv w valid (upd (fun _ => (NodeInfo.fresh : NodeInfo S)) w.init ⟨.opened, 0, none, none, 0⟩) where
  live s h := by
    by_cases hs : s = w.init
    · subst hs; simp [Created]
    · rw [upd_ne _ _ hs] at h; simp [NodeInfo.fresh] at h
  fresh s h := by
    by_cases hs : s = w.init
    · subst hs; simp at h
    · simp [Created, upd_ne _ _ hs, NodeInfo.fresh]
  ok s h := by
    by_cases hs : s = w.init
    · subst hs
      exact ⟨hv.init, Or.inl (by simp)⟩
    · rw [Created, upd_ne _ _ hs] at h; simp [NodeInfo.fresh] at h
  noParent s h := by
    by_cases hs : s = w.init
    · subst hs; simp
    · simp [upd_ne _ _ hs, NodeInfo.fresh]
  acc s := by
    refine ⟨s, fun p hp => ?_⟩
    unfold ParentOf at hp
    by_cases hs : s = w.init
    · subst hs; simp at hp
    · rw [upd_ne _ _ hs] at hp; simp [NodeInfo.fresh] at hp

/-- changing only the status of a node -/
theorem NodeInv.setStatus {w : World S} {valid : S → Prop} {infos : S → NodeInfo S} (h : NodeInv w valid infos) {s : S} {st : Status}
    (h1 : st = .opened ∨ st = .closed → Created infos s) (h2 : st = .new → ¬ Created infos s) :
    NodeInv w valid (upd infos s { infos s with status := st }) := by
  have hg : ∀ x, (upd infos s { infos s with status := st } x).g = (infos x).g := by
    intro x; by_cases hx : x = s
    · subst hx; simp
    · rw [upd_ne _ _ hx]
  have hrg : ∀ x, (upd infos s { infos s with status := st } x).realG = (infos x).realG := by
    intro x; by_cases hx : x = s
    · subst hx; simp
    · rw [upd_ne _ _ hx]
  have hp : ∀ x, (upd infos s { infos s with status := st } x).parent = (infos x).parent := by
    intro x; by_cases hx : x = s
    · subst hx; simp
    · rw [upd_ne _ _ hx]
  have ho : ∀ x, (upd infos s { infos s with status := st } x).op = (infos x).op := by
    intro x; by_cases hx : x = s
    · subst hx; simp
    · rw [upd_ne _ _ hx]
  have hc : ∀ x, Created (upd infos s { infos s with status := st }) x ↔ Created infos x := by
    intro x; unfold Created; rw [hg]
  have hpo : ParentOf (upd infos s { infos s with status := st }) = ParentOf infos := by
    funext p x; unfold ParentOf; rw [hp]
  refine ⟨?_, ?_, ?_, ?_, ?_⟩
  · intro x hx
    rw [hc]
    by_cases hxs : x = s
    · subst hxs; simp only [upd_same] at hx; exact h1 hx
    · rw [upd_ne _ _ hxs] at hx; exact h.live x hx
  · intro x hx
    rw [hc]
    by_cases hxs : x = s
    · subst hxs; simp only [upd_same] at hx; exact h2 hx
    · rw [upd_ne _ _ hxs] at hx; exact h.fresh x hx
  · intro x hx
    rw [hc] at hx
    have := h.ok x hx
    unfold NodeOK at this ⊢
    simp only [hg, hrg, hp, ho, hc]
    exact this
  · intro x hx
    rw [hc] at hx
    rw [hp, ho]
    exact h.noParent x hx
  · rw [hpo]; exact h.acc

theorem NodeInv.g_zero_le {w : World S} {valid : S → Prop} {infos : S → NodeInfo S} (h : NodeInv w valid infos) {t : S} (ht : t = w.init) (hc : Created infos t) :
    (infos t).g = 0 := by
  obtain ⟨_, h1 | h1⟩ := h.ok t hc
  · exact h1.2.2.2.1
  · exact absurd ht h1.1

/-- The parent of `t` is set to `p`: `t` is not created yet, or its g-value improves. -/
theorem NodeInv.setParent {w : World S} {valid : S → Prop} (hv : w.Total valid) {infos : S → NodeInfo S} (h : NodeInv w valid infos)
    {p t : S} {o : Nat} {l : List Nat} {st : Status} {g rg : Int}
    (hp : Created infos p) (hl : w.ops p = some l) (ho : o ∈ l) (hs : w.succ p o = some t) (hg : g = (infos p).g + w.adj o)
    (hinit : t ≠ w.init ∨ Created infos t)
    (himp : Created infos t → g < (infos t).g) (hst : st = .opened ∨ st = .closed) :
    NodeInv w valid (upd infos t ⟨st, g, some p, some o, rg⟩) := by
  have hp0 : 0 ≤ (infos p).g := hp
  have hg0 : 0 ≤ g := by omega
  have htp : t ≠ p := by
    rintro rfl
    have := himp hp
    omega
  have hti : t ≠ w.init := by
    rcases hinit with h1 | h1
    · exact h1
    · intro hti
      have h2 := h.g_zero_le hti h1
      have := himp h1
      omega
  have hc : ∀ x, Created infos x → Created (upd infos t ⟨st, g, some p, some o, rg⟩) x := by
    intro x hx
    by_cases hxt : x = t
    · subst hxt; simpa [Created] using hg0
    · unfold Created; rw [upd_ne _ _ hxt]; exact hx
  have hle : ∀ x, Created infos x → (upd infos t ⟨st, g, some p, some o, rg⟩ x).g ≤ (infos x).g := by
    intro x hx
    by_cases hxt : x = t
    · subst hxt; have := himp hx; simp; omega
    · rw [upd_ne _ _ hxt]
  refine ⟨?_, ?_, ?_, ?_, ?_⟩
  · intro x hx
    by_cases hxt : x = t
    · subst hxt; simpa [Created] using hg0
    · rw [upd_ne _ _ hxt] at hx; exact hc x (h.live x hx)
  · intro x hx
    by_cases hxt : x = t
    · subst hxt; simp only [upd_same] at hx; rcases hst with e | e <;> rw [e] at hx <;> simp at hx
    · rw [upd_ne _ _ hxt] at hx; unfold Created; rw [upd_ne _ _ hxt]; exact h.fresh x hx
  · intro x hx
    by_cases hxt : x = t
    · subst hxt
      obtain ⟨t', ht', hvt⟩ := hv.succ p l o (h.ok p hp).1 hl ho
      rw [hs] at ht'
      simp only [Option.some.injEq] at ht'
      subst ht'
      refine ⟨hvt, Or.inr ⟨hti, p, o, l, by simp, by simp, hc p hp, hl, ho, hs, ?_⟩⟩
      simp only [upd_same, upd_ne _ _ (Ne.symm htp)]
      omega
    · unfold Created at hx
      rw [upd_ne _ _ hxt] at hx
      obtain ⟨h1, h2 | ⟨h2, q, o', l', h3, h4, h5, h6, h7, h8, h9⟩⟩ := h.ok x hx
      · exact ⟨h1, Or.inl (by rw [upd_ne _ _ hxt]; exact h2)⟩
      · refine ⟨h1, Or.inr ⟨h2, q, o', l', ?_, ?_, hc q h5, h6, h7, h8, ?_⟩⟩
        · rw [upd_ne _ _ hxt]; exact h3
        · rw [upd_ne _ _ hxt]; exact h4
        · have := hle q h5
          rw [upd_ne _ _ hxt]
          omega
  · intro x hx
    by_cases hxt : x = t
    · subst hxt; simp [Created] at hx; omega
    · unfold Created at hx; rw [upd_ne _ _ hxt] at hx ⊢; exact h.noParent x hx
  · -- the chain of parents of p does not contain t
    have hacc : ∀ x, Acc (ParentOf infos) x → x ≠ t → (Created infos x → Created infos t → (infos x).g < (infos t).g) → 
        (¬ Created infos t → Created infos x) → Acc (ParentOf (upd infos t ⟨st, g, some p, some o, rg⟩)) x := by
      intro x hx
      induction hx with
      | intro x _ ih =>
        intro hxt hlt hcr
        refine ⟨x, fun q hq => ?_⟩
        unfold ParentOf at hq
        rw [upd_ne _ _ hxt] at hq
        by_cases hcx : Created infos x
        · obtain ⟨_, h2 | ⟨h2, q', o', l', h3, h4, h5, h6, h7, h8, h9⟩⟩ := h.ok x hcx
          · rw [h2.2.1] at hq; simp at hq
          · rw [hq] at h3
            simp only [Option.some.injEq] at h3
            subst h3
            refine ih q hq ?_ ?_ (fun _ => h5)
            · rintro rfl
              have := hlt hcx h5
              have : (0 : Int) ≤ w.adj o' := by omega
              omega
            · intro _ hct
              have := hlt hcx hct
              omega
        · rw [(h.noParent x hcx).1] at hq; simp at hq
    have hpacc : Acc (ParentOf (upd infos t ⟨st, g, some p, some o, rg⟩)) p := by
      refine hacc p (h.acc p) (Ne.symm htp) ?_ (fun _ => hp)
      intro _ hct
      have := himp hct
      omega
    have htacc : Acc (ParentOf (upd infos t ⟨st, g, some p, some o, rg⟩)) t := by
      refine ⟨t, fun q hq => ?_⟩
      unfold ParentOf at hq
      simp only [upd_same, Option.some.injEq] at hq
      subst hq
      exact hpacc
    intro x
    have hx := h.acc x
    induction hx with
    | intro x _ ih =>
      by_cases hxt : x = t
      · subst hxt; exact htacc
      · refine ⟨x, fun q hq => ih q ?_⟩
        unfold ParentOf at hq ⊢
        rwa [upd_ne _ _ hxt] at hq

end

/-- Tracing back from a created node yields an operator sequence from the initial state to
the node whose adjusted cost is at most the g-value of the node. -/
theorem NodeInv.trace {w : World S} {valid : S → Prop} {infos : S → NodeInfo S} (h : NodeInv w valid infos) {s : S} (hs : Created infos s) :
    ∃ π, tracePath infos s = some π ∧ w.Path w.init π s ∧ (pathCost w.adj π : Int) ≤ (infos s).g := by
  have key : ∀ s, Acc (ParentOf infos) s → Created infos s →
      ∃ π, (∀ acc, traceLoop infos s acc = some (acc ++ π.reverse)) ∧ w.Path w.init π s ∧ (pathCost w.adj π : Int) ≤ (infos s).g := by
    intro s hacc
    induction hacc with
    | intro s _ ih =>
      intro hs
      obtain ⟨hv, ⟨rfl, h1, h2, h3, h4⟩ | ⟨h2, p, o, l, h3, h4, h5, h6, h7, h8, h9⟩⟩ := h.ok s hs
      · refine ⟨[], ?_, .nil _, ?_⟩
        · intro acc
          rw [traceLoop, h2]; simp
        · simp [pathCost, h3]
      · obtain ⟨π, i1, i2, i3⟩ := ih p h3 h5
        refine ⟨π ++ [o], ?_, i2.append (.single h6 h7 h8), ?_⟩
        · intro acc
          rw [traceLoop, h4, h3]
          simp only [i1]
          simp
        · rw [pathCost_append]
          simp only [pathCost, List.map_cons, List.map_nil, List.sum_cons, List.sum_nil] at *
          push_cast
          omega
  obtain ⟨π, h1, h2, h3⟩ := key s (h.acc s) hs
  refine ⟨π, ?_, h2, h3⟩
  unfold tracePath
  rw [h1 []]
  simp

theorem NodeInv.init_created {w : World S} {valid : S → Prop} {infos : S → NodeInfo S} (h : NodeInv w valid infos) {s : S} (hs : Created infos s) :
    Created infos w.init := by
  have hacc := h.acc s
  induction hacc with
  | intro s _ ih =>
    obtain ⟨hv, ⟨rfl, _⟩ | ⟨h2, p, o, l, h3, h4, h5, _⟩⟩ := h.ok s hs
    · exact hs
    · exact ih p h3 h5

/-! ### g-values are costs of simple paths -/

theorem World.Visits.path {w : World S} {π : List Nat} {xs : List S} {s : S} (h : w.Visits π xs s) : w.Path w.init π s := by
  induction h with
  | init => exact .nil _
  | snoc π xs s l o t _ h1 h2 h3 ih => exact ih.append (.single h1 h2 h3)

theorem World.Visits.length {w : World S} {π : List Nat} {xs : List S} {s : S} (h : w.Visits π xs s) : xs.length = π.length + 1 := by
  induction h with
  | init => rfl
  | snoc π xs s l o t _ _ _ _ ih => simp [ih]

theorem World.Visits.mem {w : World S} {π : List Nat} {xs : List S} {s : S} (h : w.Visits π xs s) : s ∈ xs := by
  cases h <;> simp

/-- the g-values of a created node are the costs of a path without repeated states -/
def Walk (w : World S) (infos : S → NodeInfo S) (s : S) : Prop :=
  ∃ π xs, w.Visits π xs s ∧ xs.Nodup ∧ (∀ x ∈ xs, Created infos x ∧ (infos x).g ≤ (infos s).g) ∧
    (infos s).g = pathCost w.adj π ∧ (infos s).realG = pathCost w.cost π

def WalkInv (w : World S) (infos : S → NodeInfo S) : Prop := ∀ s, Created infos s → Walk w infos s

variable [DecidableEq S]

theorem WalkInv.openInitial (w : World S) : WalkInv w (upd (fun _ => (NodeInfo.fresh : NodeInfo S)) w.init ⟨.opened, 0, none, none, 0⟩) := by
  intro s hs
  by_cases h : s = w.init
  · subst h
    exact ⟨[], [w.init], .init, by simp, by simp [Created], by simp [pathCost], by simp [pathCost]⟩
  · unfold Created at hs; rw [upd_ne _ _ h] at hs; simp [NodeInfo.fresh] at hs

theorem WalkInv.setStatus {w : World S} {infos : S → NodeInfo S} (h : WalkInv w infos) {s : S} {st : Status} :
    WalkInv w (upd infos s { infos s with status := st }) := by
  have hg : ∀ x, (upd infos s { infos s with status := st } x).g = (infos x).g := by
    intro x; by_cases hx : x = s
    · subst hx; simp
    · rw [upd_ne _ _ hx]
  have hrg : ∀ x, (upd infos s { infos s with status := st } x).realG = (infos x).realG := by
    intro x; by_cases hx : x = s
    · subst hx; simp
    · rw [upd_ne _ _ hx]
  intro x hx
  unfold Created at hx
  rw [hg] at hx
  obtain ⟨π, xs, h1, h2, h3, h4, h5⟩ := h x hx
  refine ⟨π, xs, h1, h2, ?_, ?_, ?_⟩
  · intro y hy
    unfold Created
    rw [hg, hg]
    exact h3 y hy
  · rw [hg]; exact h4
  · rw [hrg]; exact h5

theorem WalkInv.setParent {w : World S} {infos : S → NodeInfo S} (h : WalkInv w infos) {p t : S} {o : Nat} {l : List Nat} {st : Status} {g rg : Int}
    (hp : Created infos p) (hl : w.ops p = some l) (ho : o ∈ l) (hs : w.succ p o = some t) (hg : g = (infos p).g + w.adj o)
    (hrg : rg = (infos p).realG + w.cost o) (himp : Created infos t → g < (infos t).g) :
    WalkInv w (upd infos t ⟨st, g, some p, some o, rg⟩) := by
  have hp0 : 0 ≤ (infos p).g := hp
  have hc : ∀ x, Created infos x → Created (upd infos t ⟨st, g, some p, some o, rg⟩) x := by
    intro x hx
    by_cases hxt : x = t
    · subst hxt; simp [Created]; omega
    · unfold Created; rw [upd_ne _ _ hxt]; exact hx
  have hle : ∀ x, Created infos x → (upd infos t ⟨st, g, some p, some o, rg⟩ x).g ≤ (infos x).g := by
    intro x hx
    by_cases hxt : x = t
    · subst hxt; have := himp hx; simp; omega
    · rw [upd_ne _ _ hxt]
  intro x hx
  by_cases hxt : x = t
  · subst hxt
    obtain ⟨π, xs, h1, h2, h3, h4, h5⟩ := h p hp
    have hnot : x ∉ xs := by
      intro hmem
      obtain ⟨a, b⟩ := h3 x hmem
      have := himp a
      omega
    refine ⟨π ++ [o], x :: xs, .snoc π xs p l o x h1 hl ho hs, List.nodup_cons.mpr ⟨hnot, h2⟩, ?_, ?_, ?_⟩
    · intro y hy
      rcases List.mem_cons.mp hy with rfl | hy
      · exact ⟨hx, le_refl _⟩
      · obtain ⟨a, b⟩ := h3 y hy
        refine ⟨hc y a, ?_⟩
        have := hle y a
        simp only [upd_same]
        omega
    · simp only [upd_same, pathCost_append]
      simp only [pathCost, List.map_cons, List.map_nil, List.sum_cons, List.sum_nil] at h4 ⊢
      push_cast
      omega
    · simp only [upd_same, pathCost_append]
      simp only [pathCost, List.map_cons, List.map_nil, List.sum_cons, List.sum_nil] at h5 ⊢
      push_cast
      omega
  · unfold Created at hx
    rw [upd_ne _ _ hxt] at hx
    obtain ⟨π, xs, h1, h2, h3, h4, h5⟩ := h x hx
    refine ⟨π, xs, h1, h2, ?_, ?_, ?_⟩
    · intro y hy
      obtain ⟨a, b⟩ := h3 y hy
      refine ⟨hc y a, ?_⟩
      have := hle y a
      rw [upd_ne _ _ hxt]
      omega
    · rw [upd_ne _ _ hxt]; exact h4
    · rw [upd_ne _ _ hxt]; exact h5

end Verif.Search
