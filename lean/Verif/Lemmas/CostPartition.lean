import Verif.Spec.PdbCollections
import Verif.Lemmas.ProjectTask
import Mathlib.Algebra.Order.BigOperators.Group.List
import Mathlib.Algebra.Order.Ring.Nat

/-
Additivity of projections.
-/
namespace Verif

theorem affects_iff {t : Task} {P : List Nat} {i : Nat} : t.affects P i = true ↔ ∃ o, t.ops[i]? = some o ∧ o.Affects P := by
  unfold Task.affects Operator.Affects
  cases t.ops[i]? with
  | none => simp
  | some o => simp

/-- the costs of the operators that affect the pattern; other operators cost nothing -/
def Task.costOn (t : Task) (c : Nat → Nat) (P : List Nat) (i : Nat) : Nat := if t.affects P i then c i else 0

theorem sum_filter (q : Nat → Bool) (c : Nat → Nat) (l : List Nat) : ((l.filter q).map c).sum = (l.map (fun i => if q i then c i else 0)).sum := by
  induction l with
  | nil => rfl
  | cons a l ih => cases h : q a <;> simp [h, ih]

/-- what pattern databases need of a task -/
structure Task.Simple (t : Task) : Prop where
  wf : t.WF
  axioms : t.axioms = []
  conds : ∀ o ∈ t.ops, ∀ e ∈ o.effects, e.conds = []
  eff : ∀ o ∈ t.ops, (o.effects.map (·.fact.var)).Nodup

theorem Task.PdbOk.simple {t : Task} (h : t.PdbOk) : t.Simple := ⟨h.wf, h.axioms, h.conds, h.eff⟩

theorem Task.Simple.project {t : Task} (h : t.Simple) (P : List Nat) : (t.project P).Simple where
  wf := project_wf h.wf P
  axioms := h.axioms
  conds := fun o ho e he => by
    obtain ⟨o', h1, rfl⟩ := project_mem ho
    exact h.conds o' h1 e (List.mem_of_mem_filter he)
  eff := fun o ho => by
    obtain ⟨o', h1, rfl⟩ := project_mem ho
    exact (h.eff o' h1).sublist (List.Sublist.map _ List.filter_sublist)

/-- a plan costs at least the perfect value of a projection, even if only the operators that affect the pattern are counted -/
theorem value_le_costOn {t : Task} (ht : t.Simple) {P : List Nat} {c : Nat → Nat} {s : State} (hs : t.ValidState s) {v : Option Nat} (hv : (t.project P).PerfectValue c s v) {π : List Nat} (hπ : t.SolvesFrom s π) :
    ∃ n, v = some n ∧ n ≤ (π.map (t.costOn c P)).sum := by
  have h := proj_solves ht.wf ht.axioms ht.conds ht.eff (P := P) (t.affects P) (fun i o ho hq e he hm => by
    have : t.affects P i = true := affects_iff.mpr ⟨o, ho, e, he, hm⟩
    rw [hq] at this; simp at this) hs hs (fun _ _ => rfl) hπ
  cases v with
  | none => exact absurd h (hv _)
  | some n =>
    refine ⟨n, rfl, ?_⟩
    have := hv.2 _ h
    rw [sum_filter] at this
    exact this

theorem project_project {t : Task} {P Q : List Nat} (h : ∀ v ∈ P, v ∈ Q) : (t.project Q).project P = t.project P := by
  have h1 : ∀ l : List Fact, (l.filter (fun f => decide (f.var ∈ Q))).filter (fun f => decide (f.var ∈ P)) = l.filter (fun f => decide (f.var ∈ P)) := by
    intro l
    rw [List.filter_filter]
    exact List.filter_congr (fun f _ => by
      have := h f.var
      by_cases hp : f.var ∈ P <;> simp [hp, this])
  have h2 : ∀ l : List Effect, (l.filter (fun e => decide (e.fact.var ∈ Q))).filter (fun e => decide (e.fact.var ∈ P)) = l.filter (fun e => decide (e.fact.var ∈ P)) := by
    intro l
    rw [List.filter_filter]
    exact List.filter_congr (fun e _ => by
      have := h e.fact.var
      by_cases hp : e.fact.var ∈ P <;> simp [hp, this])
  unfold Task.project
  simp only [List.map_map, h1]
  congr 1
  refine List.map_congr_left (fun o _ => ?_)
  simp only [Function.comp_apply, h1, h2]

theorem project_affects {t : Task} {P Q : List Nat} (h : ∀ v ∈ P, v ∈ Q) (i : Nat) : (t.project Q).affects P i = t.affects P i := by
  rw [Bool.eq_iff_iff, affects_iff, affects_iff, project_ops]
  constructor
  · rintro ⟨o, ho, e, he, hm⟩
    simp only [Option.map_eq_some_iff] at ho
    obtain ⟨o', ho', rfl⟩ := ho
    exact ⟨o', ho', e, List.mem_of_mem_filter he, hm⟩
  · rintro ⟨o, ho, e, he, hm⟩
    exact ⟨o.project Q, by rw [ho]; rfl, e, List.mem_filter.mpr ⟨he, by simpa using h _ hm⟩, hm⟩

/-- the perfect values of projections with a cost partitioning add up to at most the cost of every plan -/
theorem partition_le {t : Task} (ht : t.Simple) {s : State} (hs : t.ValidState s) {c : Nat → Nat} {ι : Type} (fam : List ι) (P : ι → List Nat) (d : ι → Nat → Nat) (v : ι → Nat)
    (hv : ∀ k ∈ fam, (t.project (P k)).PerfectValue (d k) s (some (v k))) (hc : ∀ i, (fam.map (fun k => t.costOn (d k) (P k) i)).sum ≤ c i) {π : List Nat} (hπ : t.SolvesFrom s π) : (fam.map v).sum ≤ (π.map c).sum := by
  have h1 : (fam.map v).sum ≤ (fam.map (fun k => (π.map (t.costOn (d k) (P k))).sum)).sum := by
    refine List.sum_le_sum (fun k hk => ?_)
    obtain ⟨n, h2, h3⟩ := value_le_costOn ht hs (hv k hk) hπ
    simp only [Option.some.injEq] at h2
    rw [h2]; exact h3
  have h2 : (fam.map (fun k => (π.map (t.costOn (d k) (P k))).sum)).sum ≤ (π.map c).sum := by
    clear hπ h1
    induction π with
    | nil => simp
    | cons i π ih =>
      simp only [List.map_cons, List.sum_cons]
      rw [List.sum_map_add]
      have := hc i
      omega
  omega

/-- an operator is counted at most once if no two patterns of the family are affected by it -/
theorem additive_cost_le {t : Task} {c : Nat → Nat} {ι : Type} {P : ι → List Nat} {i : Nat} : ∀ {fam : List ι}, fam.Pairwise (fun k l => t.AdditivePatterns (P k) (P l)) → (fam.map (fun k => t.costOn c (P k) i)).sum ≤ c i
  | [], _ => by simp
  | k :: fam, h => by
    rw [List.pairwise_cons] at h
    rw [List.map_cons, List.sum_cons]
    by_cases hk : t.affects (P k) i = true
    · have h0 : (fam.map (fun k => t.costOn c (P k) i)).sum = 0 := by
        rw [List.sum_eq_zero_iff]
        intro x hx
        obtain ⟨l, hl, rfl⟩ := List.mem_map.mp hx
        unfold Task.costOn
        rw [if_neg]
        intro hl'
        obtain ⟨o, ho, h1⟩ := affects_iff.mp hk
        obtain ⟨o', ho', h2⟩ := affects_iff.mp hl'
        rw [ho] at ho'
        simp only [Option.some.injEq] at ho'
        subst ho'
        exact h.1 l hl o (List.mem_of_getElem? ho) ⟨h1, h2⟩
      rw [h0]
      unfold Task.costOn
      split <;> omega
    · have : t.costOn c (P k) i = 0 := by unfold Task.costOn; rw [if_neg hk]
      rw [this, Nat.zero_add]
      exact additive_cost_le h.2

/-- the perfect values of additive projections add up to at most the value of a projection to a superset of all variables -/
theorem additive_le_project {t : Task} (ht : t.Simple) {s : State} (hs : t.ValidState s) {c : Nat → Nat} {ι : Type} (fam : List ι) (P : ι → List Nat) (v : ι → Nat) {Q : List Nat} {w : Nat} (hw : (t.project Q).PerfectValue c s (some w))
    (hv : ∀ k ∈ fam, (t.project (P k)).PerfectValue c s (some (v k))) (hsub : ∀ k ∈ fam, ∀ x ∈ P k, x ∈ Q) (hadd : fam.Pairwise (fun k l => t.AdditivePatterns (P k) (P l))) : (fam.map v).sum ≤ w := by
  obtain ⟨⟨π, h1, h2⟩, _⟩ := hw
  rw [← h2]
  refine partition_le (ht.project Q) hs fam P (fun _ => c) v (fun k hk => ?_) (fun i => ?_) h1
  · rw [project_project (hsub k hk)]; exact hv k hk
  · refine additive_cost_le (hadd.imp (fun {k l} hkl o ho hc => ?_))
    obtain ⟨o', ho', rfl⟩ := project_mem ho
    obtain ⟨⟨e1, a1, a2⟩, ⟨e2, b1, b2⟩⟩ := hc
    exact hkl o' ho' ⟨⟨e1, List.mem_of_mem_filter a1, a2⟩, ⟨e2, List.mem_of_mem_filter b1, b2⟩⟩

/-- a projection to fewer variables is solvable if the projection to more variables is -/
theorem perfect_none_of_subset {t : Task} (ht : t.Simple) {s : State} (hs : t.ValidState s) {c : Nat → Nat} {P Q : List Nat} (hsub : ∀ x ∈ P, x ∈ Q) (h : (t.project P).PerfectValue c s none) {v : Option Nat} (hv : (t.project Q).PerfectValue c s v) : v = none := by
  cases v with
  | none => rfl
  | some n =>
    obtain ⟨⟨π, h1, _⟩, _⟩ := hv
    have h2 := proj_solves_all (ht.project Q).wf (ht.project Q).axioms (ht.project Q).conds (ht.project Q).eff (P := P) hs hs (fun _ _ => rfl) h1
    rw [project_project hsub] at h2
    exact absurd h2 (h π)

end Verif
