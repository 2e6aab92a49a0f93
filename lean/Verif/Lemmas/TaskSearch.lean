import Verif.Lemmas.EagerResults
import Verif.Lemmas.TaskWorld
import Mathlib.Data.List.Perm.Subperm

/- Consequences of the theorems about eager search for planning tasks. -/
namespace Verif.Search
open Verif.OpenList

variable {t : Task} {u : Nat → Nat → Bool} {ct : CostType}

theorem visits_valid (hwf : t.WF) {π : List Nat} {xs : List State} {s : State} (h : (World.ofTask t u ct).Visits π xs s) :
    xs.length = π.length + 1 ∧ (∀ x ∈ xs, t.ValidState x) ∧ t.ValidState s := by
  induction h with
  | init => exact ⟨rfl, by simpa [World.ofTask] using hwf.init, hwf.init⟩
  | snoc π xs s l o s' _ h1 h2 h3 ih =>
    obtain ⟨i1, i2, i3⟩ := ih
    obtain ⟨s'', k1, k2⟩ := (ofTask_total hwf u ct).succ s l o i3 h1 h2
    rw [h3] at k1
    simp only [Option.some.injEq] at k1
    subst k1
    refine ⟨by simp [i1], ?_, k2⟩
    intro x hx
    rcases List.mem_cons.mp hx with rfl | hx
    · exact k2
    · exact i2 x hx

theorem visits_length (hwf : t.WF) {π : List Nat} {xs : List State} {s : State} (h : (World.ofTask t u ct).Visits π xs s) (hn : xs.Nodup) (o : Nat) :
    (π ++ [o]).length ≤ t.numStates := by
  obtain ⟨h1, h2, _⟩ := visits_valid hwf h
  have hsub : xs ⊆ Task.states t := fun x hx => mem_states.mpr (h2 x hx)
  have := (List.subperm_of_subset hn hsub).length_le
  have h3 : (Task.states t).length = t.numStates := length_allStates _
  simp only [List.length_append, List.length_cons, List.length_nil]
  omega

theorem pathCost_le {c : Nat → Nat} {C : Nat} (hc : ∀ i, c i ≤ C) : ∀ π : List Nat, pathCost c π ≤ π.length * C
  | [] => by simp [pathCost]
  | i :: π => by
    have := pathCost_le hc π
    have := hc i
    simp only [pathCost, List.map_cons, List.sum_cons, List.length_cons] at *
    rw [Nat.add_mul]
    omega

theorem boundFree_of (hwf : t.WF) {C : Nat} (hC : ∀ i, t.opCost i ≤ C) {b : Int} (hb : t.numStates * C < b) : (World.ofTask t u ct).BoundFree b := by
  intro π xs s l o h hn _ _
  have h1 := visits_length hwf h hn o
  have h2 := pathCost_le (c := (World.ofTask t u ct).cost) hC (π ++ [o])
  have h3 : (π ++ [o]).length * C ≤ t.numStates * C := Nat.mul_le_mul_right _ h1
  omega

theorem adj_normal (i : Nat) : (World.ofTask t u .normal).adj i = (World.ofTask t u .normal).cost i := by
  rw [adj_eq]; rfl

theorem unbounded_of (hwf : t.WF) {b : Int} (h : t.BoundIrrelevant ct b) : (World.ofTask t u ct).Unbounded b := by
  rcases h with ⟨rfl, h2, h3⟩ | ⟨C, h1, h2⟩
  · exact Or.inr ⟨adj_normal, h2, h3⟩
  · exact Or.inl (boundFree_of hwf h1 h2)

theorem noOverflow_of (hwf : t.WF) (h : t.FitsTypes ct) : (World.ofTask t u ct).NoOverflow := by
  obtain ⟨C, h1, h2⟩ := h
  intro π xs s l o h hn _ _
  have h3 := visits_length hwf h hn o
  have h4 := pathCost_le (c := (World.ofTask t u ct).cost) (fun i => (h1 i).1) (π ++ [o])
  have h5 := pathCost_le (c := (World.ofTask t u ct).adj) (fun i => by rw [adj_eq]; exact (h1 i).2) (π ++ [o])
  have h6 : (π ++ [o]).length * C ≤ t.numStates * C := Nat.mul_le_mul_right _ h3
  omega

variable {σ : Type} {H : StdHeap State} {rel : Nat → Bool}

theorem safe_of (hwf : t.WF) {E : Env State σ} {cfg : Cfg} (hcfg : Spec.WF cfg) (hu : Spec.Unrestricted cfg) (hs : E.SafeFor t (Spec.evaluators cfg)) {K : Type}
    (A : OLSpec K State H rel cfg) : Safe (World.ofTask t u ct) t.ValidState E A (fun _ _ _ => True) where
  dead s g c hv hg hy hd := by
    rw [ofTask_solvable hwf u ct hv]
    exact hs s g c hv hg hy (deadEnd_some rel c cfg hcfg hd)
  stored s g c hv hg hy hd := by
    rw [ofTask_solvable hwf u ct hv]
    refine hs s g c hv hg hy ?_
    by_contra hn
    have := stored_of_finite rel c cfg hcfg hu (fun ev hev h => hn ⟨ev, hev, h⟩)
    omega
  good _ _ _ _ _ _ := trivial

theorem weighted_dead {E : Env State σ} {f h wt : Nat} (hE : E.Weighted t ct f h wt) {s : State} {g : Int} {c : Ctx} (hv : t.ValidState s) (hg : 0 ≤ g)
    (hy : E.Yields s g c) (hd : c.value f = infty ∨ c.value h = infty) : ¬ ∃ π, t.SolvesFrom s π := by
  rcases hE s g c hv hg hy with ⟨_, _, k⟩ | ⟨_, k1, _, k2, _⟩
  · exact k
  · omega

/-- the bound on the value of an open list entry -/
def wbound (wt : Nat) (x : Int) : Int := (Max.max wt 1 : Nat) * x

theorem wbound_mono (wt : Nat) (x y : Int) (h : x ≤ y) : wbound wt x ≤ wbound wt y :=
  Int.mul_le_mul_of_nonneg_left h (Int.natCast_nonneg _)

theorem wbound_bound (wt : Nat) {g h p : Int} (hg : 0 ≤ g) (h0 : 0 ≤ h) (hp : h ≤ p) : g + wt * h ≤ wbound wt (g + p) := by
  unfold wbound
  have h1 : (wt : Int) ≤ (Max.max wt 1 : Nat) := by exact_mod_cast Nat.le_max_left wt 1
  have h2 : (1 : Int) ≤ (Max.max wt 1 : Nat) := by exact_mod_cast Nat.le_max_right wt 1
  have e1 : (wt : Int) * h ≤ (Max.max wt 1 : Nat) * p :=
    (Int.mul_le_mul_of_nonneg_right h1 h0).trans (Int.mul_le_mul_of_nonneg_left hp (by omega))
  have e2 : (1 : Int) * g ≤ (Max.max wt 1 : Nat) * g := Int.mul_le_mul_of_nonneg_right h2 hg
  rw [Int.mul_add]
  omega

theorem prunesSafely_of (hwf : t.WF) {E : Env State σ} (h : E.PrunesSafely t) : (World.ofTask t u ct).PrunesSafely t.ValidState E := by
  intro s l os hs hg hl hp π hπ
  obtain ⟨l', h1, h2⟩ := ofTask_ops hwf u ct hs
  rw [hl] at h1
  simp only [Option.some.injEq] at h1
  subst h1
  rw [ofTask_goalPath hwf u ct hs] at hπ
  obtain ⟨i, ρ, k1, k2, k3⟩ := h s l os hs (by rw [← ofTask_goal hwf u ct hs, hg]; simp) h2 hp π hπ
  exact ⟨i, ρ, k1, k2, (ofTask_goalPath hwf u ct hs).mpr k3⟩

theorem prunesNothing_safely {E : Env State σ} (h : E.PrunesNothing) : E.PrunesSafely t := by
  intro s l os hs hg hl hp π hπ
  obtain ⟨u, h1, h2⟩ := id hπ
  cases h1 with
  | nil => exact absurd h2 hg
  | cons _ i o s' ρ _ ho ha _ _ => exact ⟨i, ρ, h s l os hp i ((hl i).mpr ⟨o, ho, ha⟩), .refl _, hπ⟩

/-- what optimality needs of the open list -/
theorem weighted_optimal (hwf : t.WF) {E : Env State σ} (hL : E.Legal) (hpr : E.PrunesOnly) (hpn : E.PrunesSafely t) {f h wt : Nat} (hE : E.Weighted t ct f h wt)
    {opts : Options} (hre : opts.reopen = true) {cfg : Cfg} {K : Type} {A : OLSpec K State H rel cfg} {prio : K → Int} (hpop : PopsMin A prio)
    (hprio : ∀ c, prio (A.key c) = c.value f) (hdead : ∀ c, Spec.DeadEnd rel c cfg → c.value f = infty ∨ c.value h = infty)
    (hcop : ∀ c, Spec.copies rel c cfg = 0 ↔ Spec.DeadEnd rel c cfg) (hfin : ∀ c, c.value f = infty → c.value h = infty → Spec.DeadEnd rel c cfg)
    {rng : Rng} {env : σ} {n : Nat} {π : List Nat} (hs : Eager.search (World.ofTask t u ct) E H rel opts cfg rng env n = some (.solved π))
    {ρ : List Nat} (hρ : t.IsPlan ρ) (ha : Affordable (World.ofTask t u ct) opts ρ) : t.planCostUnder ct π ≤ Max.max wt 1 * t.planCostUnder ct ρ := by
  have hv := ofTask_total hwf u ct
  have := eager_optimal hv hL hpr (prunesSafely_of hwf hpn) hre hpop (wbound_mono wt) (A := A) ?_ ⟨?_, ?_, ?_⟩ hs ((ofTask_isPlan hwf u ct).mpr hρ) ha
  · rw [ofTask_adj, ofTask_adj] at this
    unfold wbound at this
    exact_mod_cast this
  · intro s g c hs hg hy hc
    rw [hprio]
    rcases hE s g c hs hg hy with ⟨k1, k2, _⟩ | ⟨k1, k2, k3, _⟩
    · have := (hcop c).mpr (hfin c k2 k1)
      omega
    · rw [k3]
      have : (0 : Int) ≤ wt * c.value h := Int.mul_nonneg (Int.natCast_nonneg _) k1
      omega
  · intro s g c hs hg hy hd
    rw [ofTask_solvable hwf u ct hs]
    exact weighted_dead hE hs hg hy (hdead c hd)
  · intro s g c hs hg hy hd
    rw [ofTask_solvable hwf u ct hs]
    exact weighted_dead hE hs hg hy (hdead c ((hcop c).mp hd))
  · intro s g c hs hg hy π hπ
    rw [ofTask_goalPath hwf u ct hs] at hπ
    rw [hprio, ofTask_adj]
    rcases hE s g c hs hg hy with ⟨_, _, k⟩ | ⟨k1, k2, k3, k4, k5⟩
    · exact absurd ⟨π, hπ⟩ k
    · rw [k3]
      exact wbound_bound wt hg k1 (k5 π hπ)

/-- for cost_type=normal every plan at least as good as a reported one is below the bound -/
theorem affordable_normal {w : World State} (hadj : ∀ o, w.adj o = w.cost o) {opts : Options} {π ρ : List Nat}
    (h : (pathCost w.cost π : Int) < opts.bound ∨ pathCost w.cost π = 0 ∧ w.goal w.init = some true) :
    pathCost w.adj π ≤ pathCost w.adj ρ ∨ Affordable w opts ρ := by
  have e : ∀ π, pathCost w.adj π = pathCost w.cost π := fun π => by
    unfold pathCost; congr 1; exact List.map_congr_left (fun o _ => hadj o)
  rw [e, e]
  rcases h with h | ⟨h, _⟩
  · rcases Nat.lt_or_ge (pathCost w.cost ρ) (pathCost w.cost π) with h' | h'
    · exact Or.inr (Or.inl ⟨hadj, by omega⟩)
    · exact Or.inl h'
  · exact Or.inl (by omega)

end Verif.Search
