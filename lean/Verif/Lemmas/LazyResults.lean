import Verif.Lemmas.LazySearch

/- Completeness, bounds and termination of lazy search. -/
namespace Verif.Search
open Verif.OpenList

variable {S σ K : Type} [DecidableEq S] {H : StdHeap (S × Nat)} {rel : Nat → Bool} {cfg : Cfg}

/-- infinite values mean that there is no plan -/
structure LSafe (w : World S) (valid : S → Prop) (E : LEnv S σ) (rel : Nat → Bool) (cfg : Cfg) : Prop where
  dead : ∀ s c, valid s → E.Yields s c → Spec.DeadEnd rel c cfg → ¬ w.Solvable s
  stored : ∀ s c, valid s → E.Yields s c → Spec.copies rel c cfg = 0 → ¬ w.Solvable s

/-- the edge from `s` via `o` to `t` has been followed -/
def Followed (w : World S) (opts : LOptions) (infos : S → NodeInfo S) (s : S) (o : Nat) (t : S) : Prop :=
  (infos t).status ≠ .new ∧ (opts.reopen = true → (infos t).status = .deadEnd ∨ (infos t).g ≤ (infos s).g + w.adj o)

/-- the invariant behind completeness; `pend` is the edge taken from the open list but not yet
followed, `start` holds before the initial state is treated -/
structure LCInv (w : World S) (opts : LOptions) (pend : S → Nat → Prop) (start : Prop) (infos : S → NodeInfo S) (l : List (K × (S × Nat))) : Prop where
  dead : ∀ s, (infos s).status = .deadEnd → ¬ w.Solvable s
  goal : ∀ s, (infos s).status = .closed → w.goal s = some false
  closed : ∀ s ops o t, (infos s).status = .closed → w.ops s = some ops → o ∈ ops → w.succ s o = some t →
    (infos s).realG + w.cost o ≥ opts.bound ∨ Followed w opts infos s o t ∨ (∃ k, (k, (s, o)) ∈ l) ∨ pend s o ∨ ¬ w.Solvable s
  init : (infos w.init).status ≠ .new ∨ start

/-- the edge that led to the current state -/
def Cur.pend (cur : Cur S) (s : S) (o : Nat) : Prop := cur.pred = some (s, o)

theorem Proc.cinv {w : World S} {valid : S → Prop} (hv : w.Total valid) {E : LEnv S σ} (hsafe : LSafe w valid E rel cfg) {opts : LOptions} {A : OLSpec K (S × Nat) H rel cfg}
    {infos infos' : S → NodeInfo S} {l l' : List (K × (S × Nat))} {cur : Cur S} (h : Proc w E opts A infos l cur infos' l') (hi : PInv w valid infos l) (hc : CurOK w infos l cur)
    (hl : LCInv w opts cur.pend (cur.pred = none) infos l) : LCInv w opts (fun _ _ => False) False infos' l' := by
  -- the edge to the current state
  have hcur : ∀ p o, cur.pred = some (p, o) → cur.g = (infos p).g + w.adj o ∧ w.succ p o = some cur.state ∧ Created infos p := by
    intro p o hp
    cases hc with
    | init => simp at hp
    | edge _ _ p' o' t he hs =>
      simp only [Option.some.injEq, Prod.mk.injEq] at hp
      obtain ⟨rfl, rfl⟩ := hp
      exact ⟨rfl, hs, he.1⟩
  have hini : cur.pred = none → cur.state = w.init := by
    intro hp
    cases hc with
    | init => rfl
    | edge _ _ p' o' t he hs => simp at hp
  cases h with
  | skip h1 h2 =>
    refine ⟨hl.dead, hl.goal, ?_, ?_⟩
    · intro s ops o t hs hops ho ht
      rcases hl.closed s ops o t hs hops ho ht with h | h | h | h | h
      · exact Or.inl h
      · exact Or.inr (Or.inl h)
      · exact Or.inr (Or.inr (Or.inl h))
      · obtain ⟨k1, k2, _⟩ := hcur s o h
        rw [ht] at k2; simp only [Option.some.injEq] at k2
        refine Or.inr (Or.inl ?_)
        rw [k2]
        exact ⟨h1, fun hr => by rw [← k1]; exact h2 hr⟩
      · exact Or.inr (Or.inr (Or.inr (Or.inr h)))
    · rcases hl.init with h | h
      · exact Or.inl h
      · left; rw [← hini h]; exact h1
  | dead c h1 h2 h3 =>
    obtain ⟨i0, iv, _, _⟩ := info_inv hv hi hc h1
    have hdead : ¬ w.Solvable cur.state := hsafe.dead _ c iv ⟨cur.g, i0, Or.inl h2⟩ h3
    have hst : ∀ x, x ≠ cur.state → setStatus infos cur.state .deadEnd x = infos x := fun x hx => by unfold setStatus; rw [upd_ne _ _ hx]
    have hst' : (setStatus infos cur.state .deadEnd cur.state).status = .deadEnd := by simp [setStatus]
    have hne : ∀ x, (infos x).status ≠ .new → (setStatus infos cur.state .deadEnd x).status ≠ .new := by
      intro x hx
      by_cases h : x = cur.state
      · rw [h, hst']; simp
      · rw [hst x h]; exact hx
    refine ⟨?_, ?_, ?_, ?_⟩
    · intro s hs
      by_cases h : s = cur.state
      · rw [h]; exact hdead
      · rw [hst s h] at hs; exact hl.dead s hs
    · intro s hs
      by_cases h : s = cur.state
      · rw [h, hst'] at hs; simp at hs
      · rw [hst s h] at hs; exact hl.goal s hs
    · intro s ops o t hs hops ho ht
      have hsc : s ≠ cur.state := by rintro rfl; rw [hst'] at hs; simp at hs
      rw [hst s hsc] at hs
      rcases hl.closed s ops o t hs hops ho ht with h | h | h | h | h
      · left; rw [hst s hsc]; exact h
      · refine Or.inr (Or.inl ⟨hne t h.1, fun hr => ?_⟩)
        by_cases htc : t = cur.state
        · left; rw [htc]; exact hst'
        · rw [hst t htc, hst s hsc]; exact h.2 hr
      · exact Or.inr (Or.inr (Or.inl h))
      · obtain ⟨k1, k2, _⟩ := hcur s o h
        rw [ht] at k2; simp only [Option.some.injEq] at k2
        refine Or.inr (Or.inl ?_)
        rw [k2]
        exact ⟨by rw [hst']; simp, fun _ => Or.inl hst'⟩
      · exact Or.inr (Or.inr (Or.inr (Or.inr h)))
    · rcases hl.init with h | h
      · exact Or.inl (hne _ h)
      · left; rw [← hini h, hst']; simp
  | expand ops0 os add h1 h2 h3 h4 h5 h6 =>
    obtain ⟨i0, iv, _, _⟩ := info_inv hv hi hc h1
    have hst : ∀ x, x ≠ cur.state → upd infos cur.state cur.info x = infos x := fun x hx => upd_ne _ _ hx
    have hst' : upd infos cur.state cur.info cur.state = cur.info := upd_same _ _ _
    have hne : ∀ x, (infos x).status ≠ .new → (upd infos cur.state cur.info x).status ≠ .new := by
      intro x hx
      by_cases h : x = cur.state
      · rw [h, hst']; simp [Cur.info]
      · rw [hst x h]; exact hx
    refine ⟨?_, ?_, ?_, ?_⟩
    · intro s hs
      by_cases h : s = cur.state
      · rw [h, hst'] at hs; simp [Cur.info] at hs
      · rw [hst s h] at hs; exact hl.dead s hs
    · intro s hs
      by_cases h : s = cur.state
      · rw [h]; exact h3
      · rw [hst s h] at hs; exact hl.goal s hs
    · intro s ops o t hs hops ho ht
      by_cases hsc : s = cur.state
      · rw [hsc] at hops ⊢
        rw [h4] at hops
        simp only [Option.some.injEq] at hops
        subst hops
        rw [hst']
        simp only [Cur.info]
        by_cases hb : cur.realG + w.cost o < opts.bound
        · obtain ⟨c, k1, k2⟩ := h6.all o ((h5 o).mpr ho) hb
          rcases k2 with k2 | k2
          · exact Or.inr (Or.inr (Or.inr (Or.inr (hsafe.stored _ c iv ⟨_, by omega, Or.inr k1⟩ k2))))
          · exact Or.inr (Or.inr (Or.inl ⟨_, List.mem_append.mpr (Or.inr k2)⟩))
        · exact Or.inl (by omega)
      · rw [hst s hsc] at hs
        rcases hl.closed s ops o t hs hops ho ht with h | h | ⟨k, h⟩ | h | h
        · left; rw [hst s hsc]; exact h
        · refine Or.inr (Or.inl ⟨hne t h.1, fun hr => ?_⟩)
          by_cases htc : t = cur.state
          · rw [htc, hst', hst s hsc]
            right
            rw [htc] at h
            simp only [Cur.info]
            rcases h1 with h1 | ⟨_, h1, h1'⟩
            · exact absurd h1 h.1
            · rcases h.2 hr with h' | h'
              · rw [h1] at h'; simp at h'
              · omega
          · rw [hst t htc, hst s hsc]; exact h.2 hr
        · exact Or.inr (Or.inr (Or.inl ⟨k, List.mem_append.mpr (Or.inl h)⟩))
        · obtain ⟨k1, k2, _⟩ := hcur s o h
          rw [ht] at k2; simp only [Option.some.injEq] at k2
          refine Or.inr (Or.inl ?_)
          rw [k2]
          refine ⟨by rw [hst']; simp [Cur.info], fun _ => Or.inr ?_⟩
          rw [hst', hst s hsc, ← k1]
          simp [Cur.info]
        · exact Or.inr (Or.inr (Or.inr (Or.inr h)))
    · rcases hl.init with h | h
      · exact Or.inl (hne _ h)
      · left; rw [← hini h, hst']; simp [Cur.info]

theorem LStep.cinv {w : World S} {valid : S → Prop} (hv : w.Total valid) {E : LEnv S σ} (hsafe : LSafe w valid E rel cfg) {opts : LOptions} {A : OLSpec K (S × Nat) H rel cfg}
    {infos infos' : S → NodeInfo S} {l l' : List (K × (S × Nat))} {cur cur' : Cur S} (h : LStep w E opts A infos l cur infos' l' cur') (hi : PInv w valid infos l) (hc : CurOK w infos l cur)
    (hl : LCInv w opts cur.pend (cur.pred = none) infos l) : LCInv w opts cur'.pend (cur'.pred = none) infos' l' := by
  obtain ⟨l1, p, o, h1, h2, h3, h4⟩ := h.ex
  have hl1 := h1.cinv hv hsafe hi hc hl
  obtain ⟨k, hk⟩ := A.popPerm _ _ _ h2
  refine ⟨hl1.dead, hl1.goal, ?_, ?_⟩
  · intro s ops o' t hs hops ho ht
    rcases hl1.closed s ops o' t hs hops ho ht with h | h | ⟨k', h⟩ | h | h
    · exact Or.inl h
    · exact Or.inr (Or.inl h)
    · rcases List.mem_cons.mp (hk.subset h) with e | e
      · simp only [Prod.mk.injEq] at e
        obtain ⟨_, rfl, rfl⟩ := e
        exact Or.inr (Or.inr (Or.inr (Or.inl h3)))
      · exact Or.inr (Or.inr (Or.inl ⟨k', e⟩))
    · exact h.elim
    · exact Or.inr (Or.inr (Or.inr (Or.inr h)))
  · rcases hl1.init with h | h
    · exact Or.inl h
    · exact h.elim

theorem LReached.cinv {w : World S} {valid : S → Prop} (hv : w.Total valid) {E : LEnv S σ} (hsafe : LSafe w valid E rel cfg) {opts : LOptions} {A : OLSpec K (S × Nat) H rel cfg}
    {infos : S → NodeInfo S} {l : List (K × (S × Nat))} {cur : Cur S} (h : LReached w E opts A infos l cur) : LCInv w opts cur.pend (cur.pred = none) infos l := by
  induction h with
  | start =>
    refine ⟨?_, ?_, ?_, Or.inr rfl⟩
    · intro s hs; simp [NodeInfo.fresh] at hs
    · intro s hs; simp [NodeInfo.fresh] at hs
    · intro s _ _ _ hs; simp [NodeInfo.fresh] at hs
  | step infos l cur infos' l' cur' hr h ih => exact h.cinv hv hsafe (hr.inv hv).1 (hr.inv hv).2 ih

theorem PInv.realG_eq_g {w : World S} {valid : S → Prop} {infos : S → NodeInfo S} {l : List (K × (S × Nat))} (hi : PInv w valid infos l)
    (hadj : ∀ o, w.adj o = w.cost o) {s : S} (hs : Created infos s) : (infos s).realG = (infos s).g := by
  obtain ⟨π, xs, _, _, _, w4, w5⟩ := hi.walks s hs
  have : pathCost w.adj π = pathCost w.cost π := by
    unfold pathCost; congr 1; exact List.map_congr_left (fun o _ => hadj o)
  rw [w4, w5, this]

theorem PInv.free {w : World S} {valid : S → Prop} {infos : S → NodeInfo S} {l : List (K × (S × Nat))} (hi : PInv w valid infos l) {b : Int} (h : w.Unbounded b) :
    Free w b infos := by
  rcases h with h | ⟨h1, h2, h3⟩
  · exact hi.walks.free h
  · intro s _ o hs _ _
    rw [hi.realG_eq_g h1 hs]
    have := hi.small s
    have := h2 o
    omega

/-- if the open list is empty and the bound plays no role then there is no plan -/
theorem LCInv.unsolvable {w : World S} {valid : S → Prop} {opts : LOptions} {infos : S → NodeInfo S}
    (hi : PInv w valid infos ([] : List (K × (S × Nat)))) (hc : LCInv w opts (fun _ _ => False) False infos ([] : List (K × (S × Nat)))) (hf : w.Unbounded opts.bound) :
    ¬ w.Solvable w.init := by
  have hfree := hi.free hf
  have key : ∀ (π : List Nat) (s : S), (infos s).status ≠ .new → ¬ w.GoalPath s π := by
    intro π
    induction π with
    | nil =>
      intro s hs hg
      by_cases hd : (infos s).status = .deadEnd
      · exact hc.dead s hd ⟨_, hg⟩
      have hst := curOK_status hi hs hd
      rcases hg.cases with ⟨_, h⟩ | ⟨_, _, _, _, h, _⟩
      · rw [hc.goal s hst] at h; simp at h
      · simp at h
    | cons o ρ ih =>
      intro s hs hg
      by_cases hd : (infos s).status = .deadEnd
      · exact hc.dead s hd ⟨_, hg⟩
      have hst := curOK_status hi hs hd
      rcases hg.cases with ⟨h, _⟩ | ⟨o', t, ρ', l, h0, h1, h2, h3, h4⟩
      · simp at h
      · simp only [List.cons.injEq] at h0
        obtain ⟨rfl, rfl⟩ := h0
        rcases hc.closed s l o t hst h1 h2 h3 with h | h | ⟨k, h⟩ | h | h
        · have := hfree s l o (hi.nodes.live s (Or.inr hst)) h1 h2
          omega
        · exact ih t h.1 h4
        · simp at h
        · exact h
        · exact h ⟨_, hg⟩
  rintro ⟨π, hπ⟩
  rcases hc.init with h | h
  · exact key π _ h hπ
  · exact h

/-- if the open list is empty, nodes are reopened and costs are not adjusted, every plan
reaches the bound -/
theorem LCInv.bounded {w : World S} {valid : S → Prop} {opts : LOptions} {infos : S → NodeInfo S}
    (hi : PInv w valid infos ([] : List (K × (S × Nat)))) (hc : LCInv w opts (fun _ _ => False) False infos ([] : List (K × (S × Nat)))) (hr : opts.reopen = true)
    (hadj : ∀ o, w.adj o = w.cost o) {π : List Nat} (hπ : w.IsPlan π) : opts.bound ≤ pathCost w.cost π := by
  have key : ∀ (π : List Nat) (s : S), (infos s).status ≠ .new → w.GoalPath s π → opts.bound ≤ (infos s).g + pathCost w.cost π := by
    intro π
    induction π with
    | nil =>
      intro s hs hg
      by_cases hd : (infos s).status = .deadEnd
      · exact absurd ⟨_, hg⟩ (hc.dead s hd)
      have hst := curOK_status hi hs hd
      rcases hg.cases with ⟨_, h⟩ | ⟨_, _, _, _, h, _⟩
      · rw [hc.goal s hst] at h; simp at h
      · simp at h
    | cons o ρ ih =>
      intro s hs hg
      by_cases hd : (infos s).status = .deadEnd
      · exact absurd ⟨_, hg⟩ (hc.dead s hd)
      have hst := curOK_status hi hs hd
      rcases hg.cases with ⟨h, _⟩ | ⟨o', t, ρ', l, h0, h1, h2, h3, h4⟩
      · simp at h
      · simp only [List.cons.injEq] at h0
        obtain ⟨rfl, rfl⟩ := h0
        rcases hc.closed s l o t hst h1 h2 h3 with h | h | ⟨k, h⟩ | h | h
        · rw [hi.realG_eq_g hadj (hi.nodes.live s (Or.inr hst))] at h
          simp only [pathCost, List.map_cons, List.sum_cons]
          push_cast; omega
        · have h5 := ih t h.1 h4
          rcases h.2 hr with h' | h'
          · exact absurd ⟨_, h4⟩ (hc.dead t h')
          · rw [hadj] at h'
            simp only [pathCost, List.map_cons, List.sum_cons] at *
            push_cast; omega
        · simp at h
        · exact h.elim
        · exact absurd ⟨_, hg⟩ h
  have h0 := init_g hi.nodes
  rcases hc.init with h | h
  · have := key π _ h hπ
    omega
  · exact h.elim

/-! ### bounds -/

/-- the costs of created nodes and of edges in the open list are below the bound -/
structure LBound (w : World S) (opts : LOptions) (infos : S → NodeInfo S) (l : List (K × (S × Nat))) : Prop where
  nodes : ∀ s, Created infos s → s ≠ w.init → (infos s).realG < opts.bound
  entries : ∀ x ∈ l, (infos x.2.1).realG + w.cost x.2.2 < opts.bound

def CurBound (opts : LOptions) (cur : Cur S) : Prop := cur.pred ≠ none → cur.realG < opts.bound

/-- real costs of nodes are the costs of the stored paths -/
def Exact (w : World S) (infos : S → NodeInfo S) : Prop :=
  ∀ s p o, Created infos s → (infos s).parent = some p → (infos s).op = some o → (infos s).realG = (infos p).realG + w.cost o

/-- nodes are not reopened, or costs are not adjusted -/
def Steady (w : World S) (opts : LOptions) : Prop := opts.reopen = false ∨ ∀ o, w.adj o = w.cost o

theorem Proc.bound {w : World S} {valid : S → Prop} (hv : w.Total valid) {E : LEnv S σ} {opts : LOptions} (hst : Steady w opts) {A : OLSpec K (S × Nat) H rel cfg}
    {infos infos' : S → NodeInfo S} {l l' : List (K × (S × Nat))} {cur : Cur S} (h : Proc w E opts A infos l cur infos' l') (hi : PInv w valid infos l) (hc : CurOK w infos l cur)
    (hl : LBound w opts infos l) (hb : CurBound opts cur) : LBound w opts infos' l' := by
  cases h with
  | skip h1 h2 => exact hl
  | dead c h1 h2 h3 =>
    refine ⟨?_, ?_⟩
    · intro s hs hsi
      unfold Created at hs; rw [setStatus_g] at hs
      rw [setStatus_realG]; exact hl.nodes s hs hsi
    · intro x hx; rw [setStatus_realG]; exact hl.entries x hx
  | expand ops os add h1 h2 h3 h4 h5 h6 =>
    have hcb : cur.state ≠ w.init → cur.realG < opts.bound := by
      intro hne
      refine hb ?_
      cases hc with
      | init => exact absurd rfl hne
      | edge => simp
    refine ⟨?_, ?_⟩
    · intro s hs hsi
      by_cases hsc : s = cur.state
      · rw [hsc, upd_same]; rw [hsc] at hsi; exact hcb hsi
      · unfold Created at hs; rw [upd_ne _ _ hsc] at hs ⊢; exact hl.nodes s hs hsi
    · intro x hx
      rcases List.mem_append.mp hx with hx | hx
      · by_cases hsc : x.2.1 = cur.state
        · have hx1 := hl.entries x hx
          have hcr := (hi.entries x hx).1
          rw [hsc] at hx1 hcr
          rw [hsc, upd_same]
          simp only [Cur.info]
          rcases h1 with h1 | ⟨h1, _, h1'⟩
          · exact absurd hcr (hi.nodes.fresh _ h1)
          · rcases hst with e | e
            · rw [e] at h1; simp at h1
            · have e1 := hi.realG_eq_g e hcr
              have e2 : cur.realG = cur.g := by
                cases hc with
                | init => rfl
                | edge _ _ p o t he hs => simp only [e, hi.realG_eq_g e he.1]
              omega
        · rw [upd_ne _ _ hsc]; exact hl.entries x hx
      · obtain ⟨k1, _, k2⟩ := h6.mem x hx
        rw [k1, upd_same]
        exact k2

theorem LReached.bound {w : World S} {valid : S → Prop} (hv : w.Total valid) {E : LEnv S σ} {opts : LOptions} (hst : Steady w opts) {A : OLSpec K (S × Nat) H rel cfg}
    {infos : S → NodeInfo S} {l : List (K × (S × Nat))} {cur : Cur S} (h : LReached w E opts A infos l cur) : LBound w opts infos l ∧ CurBound opts cur := by
  induction h with
  | start => exact ⟨⟨fun s hs => by simp [Created, NodeInfo.fresh] at hs, by simp⟩, fun h => absurd rfl h⟩
  | step infos l cur infos' l' cur' hr h ih =>
    obtain ⟨l1, p, o, h1, h2, h3, h4⟩ := h.ex
    have hl := h1.bound hv hst (hr.inv hv).1 (hr.inv hv).2 ih.1 ih.2
    obtain ⟨k, hk⟩ := A.popPerm _ _ _ h2
    refine ⟨⟨hl.nodes, fun x hx => hl.entries x (hk.symm.subset (by simp [hx]))⟩, fun _ => ?_⟩
    have he := hl.entries (k, (p, o)) (hk.symm.subset (by simp))
    cases h4 with
    | init => simp at h3
    | edge _ _ p' o' t _ _ =>
      simp only [Option.some.injEq, Prod.mk.injEq] at h3
      obtain ⟨rfl, rfl⟩ := h3
      exact he

theorem Exact.info {w : World S} {valid : S → Prop} {opts : LOptions} (hre : opts.reopen = false) {infos : S → NodeInfo S} {l : List (K × (S × Nat))} {cur : Cur S}
    (hi : PInv w valid infos l) (hc : CurOK w infos l cur) (hf : Fresh opts infos cur) (hx : Exact w infos) : Exact w (upd infos cur.state cur.info) := by
  have hnew : (infos cur.state).status = .new := by
    rcases hf with h | ⟨h, _⟩
    · exact h
    · rw [hre] at h; simp at h
  have hnc : ¬ Created infos cur.state := hi.nodes.fresh _ hnew
  intro s p o hs hp ho
  by_cases hsc : s = cur.state
  · rw [hsc, upd_same] at hp ho ⊢
    cases hc with
    | init => simp [Cur.info] at hp
    | edge _ _ p' o' t he _ =>
      simp only [Cur.info, Option.map_some, Option.some.injEq] at hp ho
      subst hp; subst ho
      have : p' ≠ t := by rintro rfl; exact hnc he.1
      simp only [Cur.info]
      rw [upd_ne _ _ this]
  · unfold Created at hs
    rw [upd_ne _ _ hsc] at hs hp ho ⊢
    have : p ≠ cur.state := by
      rintro rfl
      obtain ⟨_, h | ⟨_, p', o', l', k1, _, k2, _⟩⟩ := hi.nodes.ok s hs
      · rw [h.2.1] at hp; simp at hp
      · rw [k1] at hp
        simp only [Option.some.injEq] at hp
        rw [hp] at k2
        exact hnc k2
    rw [upd_ne _ _ this]
    exact hx s p o hs hp ho

theorem Exact.setStatus {w : World S} {infos : S → NodeInfo S} (hx : Exact w infos) (s : S) (st : Status) : Exact w (setStatus infos s st) := by
  intro x p o hc hp ho
  unfold Created at hc
  rw [setStatus_g] at hc
  rw [setStatus_realG, setStatus_realG]
  refine hx x p o hc ?_ ?_
  · rw [← hp]; unfold Search.setStatus; by_cases h : x = s
    · subst h; simp
    · rw [upd_ne _ _ h]
  · rw [← ho]; unfold Search.setStatus; by_cases h : x = s
    · subst h; simp
    · rw [upd_ne _ _ h]

theorem LReached.exact {w : World S} {valid : S → Prop} (hv : w.Total valid) {E : LEnv S σ} {opts : LOptions} (hre : opts.reopen = false) {A : OLSpec K (S × Nat) H rel cfg}
    {infos : S → NodeInfo S} {l : List (K × (S × Nat))} {cur : Cur S} (h : LReached w E opts A infos l cur) : Exact w infos := by
  induction h with
  | start => intro s p o hs; simp [Created, NodeInfo.fresh] at hs
  | step infos l cur infos' l' cur' hr h ih =>
    obtain ⟨l1, p, o, h1, h2, h3, h4⟩ := h.ex
    obtain ⟨j1, j2⟩ := hr.inv hv
    cases h1 with
    | skip => exact ih
    | dead => exact ih.setStatus _ _
    | expand ops os add k1 => exact Exact.info hre j1 j2 k1 ih

/-- the cost of the traced path is the real cost of the node -/
theorem Exact.trace {w : World S} {valid : S → Prop} {infos : S → NodeInfo S} (hn : NodeInv w valid infos) (hx : Exact w infos) {s : S} (hs : Created infos s) {π : List Nat}
    (h : tracePath infos s = some π) : (infos s).realG = pathCost w.cost π := by
  have key : ∀ s, Acc (ParentOf infos) s → Created infos s → ∃ π, (∀ acc, traceLoop infos s acc = some (acc ++ π.reverse)) ∧ (infos s).realG = pathCost w.cost π := by
    intro s hacc
    induction hacc with
    | intro s _ ih =>
      intro hs
      obtain ⟨_, ⟨rfl, h1, h2, h3, h4⟩ | ⟨h2, p, o, l, h3, h4, h5, h6, h7, h8, h9⟩⟩ := hn.ok s hs
      · refine ⟨[], ?_, by simp [pathCost, h4]⟩
        intro acc
        rw [traceLoop, h2]; simp
      · obtain ⟨π, i1, i2⟩ := ih p h3 h5
        refine ⟨π ++ [o], ?_, ?_⟩
        · intro acc
          rw [traceLoop, h4, h3]
          simp only [i1]
          simp
        · rw [pathCost_append, hx s p o hs h3 h4, i2]
          simp [pathCost]
  obtain ⟨π', h1, h2⟩ := key s (hn.acc s) hs
  unfold tracePath at h
  rw [h1 []] at h
  simp at h
  subst h
  exact h2

/-! ### termination -/

theorem LStep.later {w : World S} {valid : S → Prop} (hv : w.Total valid) {E : LEnv S σ} {opts : LOptions} {A : OLSpec K (S × Nat) H rel cfg} {states : List S} (hst : ∀ s, valid s → s ∈ states)
    {infos infos' : S → NodeInfo S} {l l' : List (K × (S × Nat))} {cur cur' : Cur S} (h : LStep w E opts A infos l cur infos' l' cur') (hi : PInv w valid infos l) (hc : CurOK w infos l cur) :
    Later states infos infos' ∨ (numNew states infos' = numNew states infos ∧ sumG states infos' = sumG states infos) ∧ l'.length < l.length := by
  obtain ⟨l1, p, o, h1, h2, h3, h4⟩ := h.ex
  obtain ⟨k, hk⟩ := A.popPerm _ _ _ h2
  have hlen : l'.length < l1.length := by
    have := hk.length_eq
    simp at this; omega
  cases h1 with
  | skip => exact Or.inr ⟨⟨rfl, rfl⟩, hlen⟩
  | dead c k1 k2 k3 =>
    obtain ⟨_, iv, _, _⟩ := info_inv hv hi hc k1
    rcases k1 with k1 | ⟨_, k1, _⟩
    · exact Or.inl (Or.inl (numNew_upd_lt (hst _ iv) k1 (by simp)))
    · refine Or.inr ⟨⟨numNew_upd_eq (by simp [k1]) (by simp), ?_⟩, hlen⟩
      unfold sumG; congr 1; apply List.map_congr_left; intro x _; rw [setStatus_g]
  | expand ops os add k1 k2 k3 k4 k5 k6 =>
    obtain ⟨i0, iv, _, _⟩ := info_inv hv hi hc k1
    left
    rcases k1 with k1 | ⟨_, k1, k1'⟩
    · exact Or.inl (numNew_upd_lt (hst _ iv) k1 (by simp [Cur.info]))
    · exact Or.inr ⟨numNew_upd_eq (by simp [k1]) (by simp [Cur.info]), sumG_upd_lt (hst _ iv) (by simpa [Cur.info] using i0) (by simpa [Cur.info] using k1')⟩

theorem lazyRun_terminates {w : World S} {valid : S → Prop} (hv : w.Total valid) {E : LEnv S σ} (hE : E.Legal w) {opts : LOptions}
    (A : OLSpec K (S × Nat) H rel cfg) {states : List S} (hst : ∀ s, valid s → s ∈ states) :
    ∀ (a b c : Nat) (st : Lazy S σ) (l : List (K × (S × Nat))), numNew states st.infos = a → sumG states st.infos = b → l.length = c → A.R st.openList l →
      LReached w E opts A st.infos l st.cur → ∃ n, ∀ st', runFor (Lazy.step w E H rel opts) n st ≠ some (.inProgress st') := by
  intro a
  induction a using Nat.strong_induction_on with
  | _ a iha =>
  intro b
  induction b using Nat.strong_induction_on with
  | _ b ihb =>
  intro c
  induction c using Nat.strong_induction_on with
  | _ c ihc =>
  intro st l ha hb hc hR hr
  obtain ⟨hi, hcur⟩ := hr.inv hv
  have hs := lazyStep_refines hv hE (opts := opts) A hR hi hcur
  generalize hstep : Lazy.step w E H rel opts st = r at hs
  cases hs with
  | failed _ h => exact ⟨1, by simp [runFor, hstep]⟩
  | solved π h1 h2 h3 => exact ⟨1, by simp [runFor, hstep]⟩
  | problem h1 => exact ⟨1, by simp [runFor, hstep]⟩
  | inProgress st1 l1 h1 h2 =>
    have hr1 : LReached w E opts A st1.infos l1 st1.cur := .step _ _ _ _ _ _ hr h2
    have : ∃ n, ∀ st', runFor (Lazy.step w E H rel opts) n st1 ≠ some (.inProgress st') := by
      rcases h2.later hv hst hi hcur with (h | ⟨h, h'⟩) | ⟨⟨h, h'⟩, h''⟩
      · exact iha _ (by omega) _ _ st1 l1 rfl rfl rfl h1 hr1
      · exact ihb _ (by omega) _ st1 l1 (by omega) rfl rfl h1 hr1
      · exact ihc _ (by omega) st1 l1 (by omega) (by omega) rfl h1 hr1
    obtain ⟨n, hn⟩ := this
    exact ⟨n + 1, by simpa [runFor, hstep] using hn⟩

/-! ### theorems about worlds -/

section
variable {w : World S} {valid : S → Prop} (hv : w.Total valid) {E : LEnv S σ} (hE : E.Legal w) {opts : LOptions} (A : OLSpec K (S × Nat) H rel cfg)
include hv hE

include A in
theorem lazy_solved {rng : Rng} {env : σ} {n : Nat} {π : List Nat} (h : Lazy.search w E H rel opts cfg rng env n = some (.solved π)) :
    w.IsPlan π ∧ (Steady w opts → (pathCost w.cost π : Int) < opts.bound ∨ π = [] ∧ w.goal w.init = some true) := by
  obtain ⟨infos, l, cur, hr, ⟨st', h1⟩ | h1⟩ := lazySearch_reached hv hE (opts := opts) A rng env n
  · rw [h1] at h; simp at h
  · rw [h] at h1
    cases h1 with
    | solved _ h2 h3 h4 =>
      obtain ⟨hi, hc⟩ := hr.inv hv
      obtain ⟨i0, iv, i1, i2⟩ := info_inv hv hi hc h2
      have hcr : Created (upd infos cur.state cur.info) cur.state := by simpa [Created, Cur.info] using i0
      obtain ⟨π', k1, k2, k3⟩ := i1.trace hcr
      rw [h4] at k1
      simp only [Option.some.injEq] at k1
      subst k1
      refine ⟨⟨_, k2, h3⟩, fun hst => ?_⟩
      obtain ⟨_, hb⟩ := hr.bound hv hst
      by_cases hp : cur.pred = none
      · right
        cases hc with
        | init =>
          refine ⟨?_, h3⟩
          unfold tracePath at h4
          rw [traceLoop] at h4
          simp [Cur.info] at h4
          exact h4
        | edge => simp at hp
      · left
        refine lt_of_le_of_lt ?_ (hb hp)
        rcases hst with hst | hst
        · have := (Exact.info hst hi hc h2 (hr.exact hv hst)).trace i1 hcr h4
          rw [← this, upd_same]; rfl
        · have e : pathCost w.adj π = pathCost w.cost π := by
            unfold pathCost; congr 1; exact List.map_congr_left (fun o _ => hst o)
          rw [e, upd_same] at k3
          refine k3.trans ?_
          cases hc with
          | init => exact le_refl _
          | edge _ _ p o t he hs => simp only [Cur.info, hst, hi.realG_eq_g hst he.1]; exact le_refl _

include A in
theorem lazy_failed {rng : Rng} {env : σ} {n : Nat} (hsafe : LSafe w valid E rel cfg) (h : Lazy.search w E H rel opts cfg rng env n = some .failed) :
    ∃ infos, PInv w valid infos ([] : List (K × (S × Nat))) ∧ LCInv w opts (fun _ _ => False) False infos ([] : List (K × (S × Nat))) := by
  obtain ⟨infos, l, cur, hr, ⟨st', h1⟩ | h1⟩ := lazySearch_reached hv hE (opts := opts) A rng env n
  · rw [h1] at h; simp at h
  · rw [h] at h1
    cases h1 with
    | failed infos' h2 =>
      obtain ⟨hi, hc⟩ := hr.inv hv
      exact ⟨infos', h2.inv hv hi hc, h2.cinv hv hsafe hi hc (hr.cinv hv hsafe)⟩

include A in
theorem lazy_defined (hT : E.Total) (hno : w.NoOverflow) (rng : Rng) (env : σ) (n : Nat) : Lazy.search w E H rel opts cfg rng env n ≠ none := by
  intro h
  obtain ⟨infos, l, cur, hr, ⟨st', h1⟩ | h1⟩ := lazySearch_reached hv hE (opts := opts) A rng env n
  · rw [h1] at h; simp at h
  · rw [h] at h1
    cases h1 with
    | problem h2 =>
      rcases h2 with h2 | ⟨infos', s, k1, k2, k3⟩
      · exact h2 hT
      · exact k1.no_overflow hno k2 k3

include A in
theorem lazy_terminates {states : List S} (hst : ∀ s, valid s → s ∈ states) (rng : Rng) (env : σ) :
    ∃ n, ∀ st, Lazy.search w E H rel opts cfg rng env n ≠ some (.inProgress st) :=
  lazyRun_terminates hv hE A hst _ _ _ (Lazy.initialize w E cfg rng env) [] rfl rfl rfl A.create .start

end

end Verif.Search
