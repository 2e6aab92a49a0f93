import Verif.Lemmas.SimpleSucc

/-
Plans of a task are plans of its projections.
-/
namespace Verif

/-- the states have the same values of the variables of `P` -/
def Agree (P : List Nat) (s s' : State) : Prop := ∀ v ∈ P, s[v]? = s'[v]?

section
variable {t : Task} (hwf : t.WF) (hax : t.axioms = []) (hconds : ∀ o ∈ t.ops, ∀ e ∈ o.effects, e.conds = []) (heff : ∀ o ∈ t.ops, (o.effects.map (·.fact.var)).Nodup) {P : List Nat}
include hwf hax hconds heff

/-- a step of the task is a step of the projection -/
theorem proj_step {o : Operator} (ho : o ∈ t.ops) {s s' s0 : State} (hs : t.ValidState s) (hs0 : t.ValidState s0) (ha : o.applicable s) (h : t.SuccRel o s s') (hag : Agree P s s0) :
    (o.project P).applicable s0 ∧ ∃ s0', t.ValidState s0' ∧ (t.project P).SuccRel (o.project P) s0 s0' ∧ Agree P s' s0' := by
  have hap : (o.project P).applicable s0 := by
    intro f hf
    obtain ⟨h1, h2⟩ := List.mem_filter.mp hf
    have := ha f h1
    unfold Fact.holds at this ⊢
    rw [← hag f.var (by simpa using h2)]
    exact this
  refine ⟨hap, ?_⟩
  have hmem : o.project P ∈ (t.project P).ops := by
    simp only [Task.project, List.mem_map]
    exact ⟨o, ho, rfl⟩
  obtain ⟨s0', k1, k2⟩ := exists_succ (project_wf hwf P) (t := t.project P) hs0 hmem
  refine ⟨s0', k1, k2, ?_⟩
  obtain ⟨_, a2, a3⟩ := succ_simple hwf hax (hconds o ho) (heff o ho) h
  obtain ⟨_, b2, b3⟩ := succ_simple (project_wf hwf P) hax (o := o.project P) (fun e he => hconds o ho e (List.mem_of_mem_filter he)) ((heff o ho).sublist (List.Sublist.map _ List.filter_sublist)) k2
  intro v hv
  by_cases hex : ∃ e ∈ o.effects, e.fact.var = v
  · obtain ⟨e, he, rfl⟩ := hex
    by_cases hlt : e.fact.var < t.vars.length
    · rw [a2 e he (by rw [hs.1]; exact hlt), b2 e (List.mem_filter.mpr ⟨he, by simpa using hv⟩) (by rw [hs0.1]; exact hlt)]
    · obtain ⟨d, hd, _⟩ := hwf.effFact o ho e he
      exact absurd (List.getElem?_eq_some_iff.mp hd).1 hlt
  · have hne : ∀ e ∈ o.effects, e.fact.var ≠ v := fun e he hc => hex ⟨e, he, hc⟩
    rw [a3 v hne, b3 v (fun e he => hne e (List.mem_of_mem_filter he))]
    exact hag v hv

/-- a plan of the task, without any operators that do not affect `P`, is a plan of the projection -/
theorem proj_solves (q : Nat → Bool) (hq : ∀ i o, t.ops[i]? = some o → q i = false → ∀ e ∈ o.effects, e.fact.var ∉ P) {s s0 : State} (hs : t.ValidState s) (hs0 : t.ValidState s0) (hag : Agree P s s0) {π : List Nat}
    (h : t.SolvesFrom s π) : (t.project P).SolvesFrom s0 (π.filter q) := by
  obtain ⟨u, hex, hg⟩ := h
  induction hex generalizing s0 with
  | nil s =>
    refine ⟨s0, .nil s0, fun f hf => ?_⟩
    obtain ⟨h1, h2⟩ := List.mem_filter.mp hf
    have := hg f h1
    unfold Fact.holds at this ⊢
    rw [← hag f.var (by simpa using h2)]
    exact this
  | cons s i o s' π u h1 h2 h3 _ ih =>
    have hs' := succ_valid hwf hs h1 h2 h3
    have ho := List.mem_of_getElem? h1
    cases hqi : q i with
    | true =>
      obtain ⟨k1, s0', k2, k3, k4⟩ := proj_step hwf hax hconds heff ho hs hs0 h2 h3 hag
      obtain ⟨u', k5, k6⟩ := ih hs' k2 k4 hg
      refine ⟨u', ?_, k6⟩
      rw [List.filter_cons_of_pos hqi]
      exact .cons s0 i (o.project P) s0' _ u' (by rw [project_ops, h1]; rfl) k1 k3 k5
    | false =>
      rw [List.filter_cons_of_neg (by simp [hqi])]
      refine ih hs' hs0 ?_ hg
      obtain ⟨_, a2, a3⟩ := succ_simple hwf hax (hconds o ho) (heff o ho) h3
      intro v hv
      rw [a3 v (fun e he hc => hq i o h1 hqi e he (hc ▸ hv))]
      exact hag v hv

/-- a plan of the task is a plan of the projection -/
theorem proj_solves_all {s s0 : State} (hs : t.ValidState s) (hs0 : t.ValidState s0) (hag : Agree P s s0) {π : List Nat} (h : t.SolvesFrom s π) : (t.project P).SolvesFrom s0 π := by
  have := proj_solves hwf hax hconds heff (fun _ => true) (by simp) hs hs0 hag h
  simpa using this

end
end Verif
