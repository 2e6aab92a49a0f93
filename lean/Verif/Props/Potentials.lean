import Verif.Lemmas.PotentialObjective
import Verif.Lemmas.AstarHeuristic
import Verif.Lemmas.SimpleTask
import Mathlib.Algebra.Order.Floor.Ring

/-
C63: potential heuristics.
-/
namespace Verif.Potentials
open Verif.LP Verif.Search

/-- C63: the linear program for a task without axioms and conditional effects can be built without undefined behaviour and satisfies the requirements
of the LP solver (no constraint mentions a variable twice, all variables exist); if the potentials are not bounded by a negative number, it has a feasible
solution. -/
theorem C63_linear_program {t : Task} (ht : t.PotentialOk) (mp : Option Rat) :
    ∃ p, constructLp t mp = some p ∧ p.maximize = true ∧ p.WellFormed ∧ ((∀ m, mp = some m → 0 ≤ m) → ∃ x, p.Feasible x) := by
  obtain ⟨p, h1, h2, _, h3, _⟩ := constructLp_spec ht mp
  exact ⟨p, h1, h2, h3, fun hmp => ⟨fun _ => 0, nearly_zero.mp ((nearly_iff ht h1 0 _).mpr (zero_sol t hmp))⟩⟩

theorem feasible_iff {t : Task} (ht : t.PotentialOk) {mp : Option Rat} {p : Program} (h : constructLp t mp = some p) (x : Nat → Rat) : p.Feasible x ↔ Sol t mp 0 (weight t x) :=
  nearly_zero.symm.trans (nearly_iff ht h 0 x)

/-- C63: the solutions of the linear program are potential functions that are consistent and goal-aware; and for every consistent and goal-aware potential
function there is a solution that is at least as good for all states (without bounds on potentials). -/
theorem C63_characterisation {t : Task} (ht : t.PotentialOk) {mp : Option Rat} {p : Program} (h : constructLp t mp = some p) :
    (∀ x, p.Feasible x → t.PotConsistent (weights (extract t x)) ∧ t.PotGoalAware (weights (extract t x))) ∧
    (mp = none → t.ConditionsOnce → ∀ w, t.PotConsistent w → t.PotGoalAware w → ∃ x, p.Feasible x ∧ ∀ s, t.ValidState s → potential w s ≤ potential (weights (extract t x)) s) := by
  refine ⟨fun x hx => ?_, fun hmp hco w hc hg => ?_⟩
  · have := extract_good ht ((feasible_iff ht h x).mp hx)
    exact ⟨this.consistent, this.goalAware⟩
  · subst hmp
    obtain ⟨w', h1, h2⟩ := dominates ht hco hc hg
    refine ⟨encode t w', (feasible_iff ht h _).mpr (sol_congr ht (fun v d a hd ha => (encode_weight hd ha).symm) h1), fun s hs => ?_⟩
    rw [extract_potential hs]
    refine le_trans (h2 s hs) (le_of_eq (potential_congr (fun v d a hd ha => (encode_weight hd (Nat.le_of_lt ha)).symm) hs))

/-- all samples are states -/
def TargetOk (t : Task) : Target → Prop
  | .samples l => ∀ s ∈ l, t.ValidState s
  | .allStates => True

/-- the value of the objective -/
def objective (t : Task) (tg : Target) (w : Nat → Nat → Rat) : Rat :=
  match tg with
  | .samples l => (l.map (potential w)).sum
  | .allStates => ((allStates (t.vars.map (·.domain))).map (potential w)).sum / t.numStates

theorem allStates_length : ∀ (ds : List Nat), (allStates ds).length = ds.prod
  | [] => rfl
  | d :: ds => by
    simp only [allStates, List.length_flatMap, List.length_map, allStates_length ds, List.map_const', List.sum_replicate, List.length_range, List.prod_cons, nsmul_eq_mul]
    rfl

theorem sum_flatMap_map {α β : Type} (f : α → List β) (g : β → Rat) : ∀ (l : List α), ((l.flatMap f).map g).sum = (l.map (fun a => ((f a).map g).sum)).sum
  | [] => rfl
  | a :: l => by simp [List.flatMap_cons, sum_flatMap_map f g l]

theorem sum_map_add' {α : Type} (f g : α → Rat) : ∀ (l : List α), (l.map (fun a => f a + g a)).sum = (l.map f).sum + (l.map g).sum
  | [] => by simp
  | a :: l => by simp only [List.map_cons, List.sum_cons, sum_map_add' f g l]; ring

theorem sum_map_const' {α : Type} (c : Rat) : ∀ (l : List α), (l.map (fun _ => c)).sum = l.length * c
  | [] => by simp
  | a :: l => by simp only [List.map_cons, List.sum_cons, sum_map_const' c l, List.length_cons]; push_cast; ring

theorem sum_map_mul' {α : Type} (c : Rat) (f : α → Rat) : ∀ (l : List α), (l.map (fun a => c * f a)).sum = c * (l.map f).sum
  | [] => by simp
  | a :: l => by simp only [List.map_cons, List.sum_cons, sum_map_mul' c f l]; ring

theorem average (w : Nat → Nat → Rat) : ∀ (ds : List Variable) (k : Nat), (∀ d ∈ ds, 1 ≤ d.domain) →
    ((allStates (ds.map (·.domain))).map (fun s => ((s.zipIdx k).map (fun f => w f.2 f.1)).sum)).sum =
      (((ds.map (·.domain)).prod : Nat) : Rat) * ((factsFrom k ds).map (fun f => 1 / (f.2.2 : Rat) * w f.1 f.2.1)).sum
  | [], k, _ => by simp [allStates, factsFrom]
  | d :: ds, k, h => by
    have hc : factsFrom k (d :: ds) = (List.range d.domain).map (fun val => (k, val, d.domain)) ++ factsFrom (k + 1) ds := by simp [factsFrom, List.zipIdx_cons]
    have ih := average w ds (k + 1) (fun d hd => h d (by simp [hd]))
    rw [hc, List.map_append, List.sum_append, List.map_map]
    simp only [List.map_cons, allStates]
    rw [sum_flatMap_map]
    simp only [List.map_map, Function.comp_def, List.zipIdx_cons, List.map_cons, List.sum_cons]
    have e1 : ∀ a : Nat, ((allStates (ds.map (·.domain))).map (fun s => w k a + ((s.zipIdx (k + 1)).map (fun f => w f.2 f.1)).sum)).sum =
        (((ds.map (·.domain)).prod : Nat) : Rat) * w k a + (((ds.map (·.domain)).prod : Nat) : Rat) * ((factsFrom (k + 1) ds).map (fun f => 1 / (f.2.2 : Rat) * w f.1 f.2.1)).sum := by
      intro a
      rw [sum_map_add', sum_map_const', allStates_length, ih]
    simp only [e1]
    rw [sum_map_add', sum_map_const', sum_map_mul', sum_map_mul', List.length_range]
    have hd : (d.domain : Rat) ≠ 0 := by
      have := h d (by simp)
      exact_mod_cast (show d.domain ≠ 0 by omega)
    rw [List.prod_cons, Nat.cast_mul]
    field_simp

theorem prod_pos' : ∀ {l : List Nat}, (∀ x ∈ l, 1 ≤ x) → 1 ≤ l.prod
  | [], _ => by simp
  | a :: l, h => by
    rw [List.prod_cons]
    exact Nat.mul_pos (h a (by simp)) (prod_pos' (fun x hx => h x (by simp [hx])))

theorem numStates_ne {t : Task} (hwf : t.WF) : (((t.vars.map (·.domain)).prod : Nat) : Rat) ≠ 0 := by
  have : 1 ≤ (t.vars.map (·.domain)).prod := prod_pos' (by
    intro x hx
    obtain ⟨d, hd, rfl⟩ := List.mem_map.mp hx
    exact (hwf.domains d hd).1)
  exact_mod_cast (show (t.vars.map (·.domain)).prod ≠ 0 by omega)

/-- the objective as it is passed to the LP solver -/
theorem coefficients_spec {t : Task} (hwf : t.WF) {tg : Target} (h : TargetOk t tg) :
    ∃ cs, coefficients t tg = some cs ∧ cs.length = numLpVars t ∧ ∀ x, dot cs x = objective t tg (weight t x) := by
  cases tg with
  | samples l => exact samples_spec h
  | allStates =>
    obtain ⟨cs, h1, h2, h3⟩ := allStates_spec t
    refine ⟨cs, h1, h2, fun x => ?_⟩
    rw [h3 x]
    have hd : ∀ d ∈ t.vars, 1 ≤ d.domain := fun d hd => (hwf.domains d hd).1
    have := average (weight t x) t.vars 0 hd
    have hne := numStates_ne hwf
    unfold objective potential Task.numStates
    simp only
    rw [this]
    field_simp

theorem objective_congr {t : Task} {tg : Target} (h : TargetOk t tg) {w w' : Nat → Nat → Rat} (hw : ∀ s, t.ValidState s → potential w s ≤ potential w' s) : objective t tg w ≤ objective t tg w' := by
  cases tg with
  | samples l => exact sum_map_le (fun s hs => hw s (h s hs))
  | allStates =>
    unfold objective
    have hval : ∀ (ds : List Variable) (s : State), s ∈ allStates (ds.map (·.domain)) → s.length = ds.length ∧ ∀ (v x : Nat) (d : Variable), s[v]? = some x → ds[v]? = some d → x < d.domain := by
      intro ds
      induction ds with
      | nil => intro s hs; simp only [List.map_nil, allStates, List.mem_singleton] at hs; subst hs; simp
      | cons d ds ih =>
        intro s hs
        simp only [List.map_cons, allStates, List.mem_flatMap, List.mem_map] at hs
        obtain ⟨a, ha, s', hs', rfl⟩ := hs
        obtain ⟨h1, h2⟩ := ih s' hs'
        refine ⟨by simp [h1], fun v x d' hx hd' => ?_⟩
        cases v with
        | zero =>
          simp only [List.getElem?_cons_zero, Option.some.injEq] at hx hd'
          subst hx hd'
          exact List.mem_range.mp ha
        | succ v => exact h2 v x d' (by simpa using hx) (by simpa using hd')
    have : ((allStates (t.vars.map (·.domain))).map (potential w)).sum ≤ ((allStates (t.vars.map (·.domain))).map (potential w')).sum :=
      sum_map_le (fun s hs => hw s (hval t.vars s hs))
    exact div_le_div_of_nonneg_right this (by positivity)

/-- what one optimisation does -/
theorem optimize_spec {t : Task} (ht : t.PotentialOk) {mp : Option Rat} {solve : Program → Option (Nat → Rat)} (hsolve : MaxSolver solve) {tg : Target} (htg : TargetOk t tg) (opt : Optimizer)
    {p : Program} (hp : constructLp t mp = some p) :
    (tg = .allStates ∧ mp = none ∧ optimize t mp solve tg opt = .inputError) ∨
    (¬(tg = .allStates ∧ mp = none) ∧ ∃ x, p.Feasible x ∧ (∀ y, p.Feasible y → objective t tg (weight t y) ≤ objective t tg (weight t x)) ∧ optimize t mp solve tg opt = .ok ⟨extract t x, true⟩) ∨
    (¬(tg = .allStates ∧ mp = none) ∧ ¬((∃ x, p.Feasible x) ∧ ∃ b, ∀ x, p.Feasible x → objective t tg (weight t x) ≤ b) ∧
      optimize t mp solve tg opt = if tg = .allStates then .abort else .ok { opt with solved := false }) := by
  by_cases hin : tg = .allStates ∧ mp = none
  · exact .inl ⟨hin.1, hin.2, by simp [optimize, hin]⟩
  · obtain ⟨p', h1, h2, h3, h4, _⟩ := constructLp_spec ht mp
    rw [hp] at h1
    cases h1
    obtain ⟨cs, k1, k2, k3⟩ := coefficients_spec ht.wf htg
    have hl : p.columns.length = cs.length := by rw [h3, k2]
    obtain ⟨m1, m2⟩ := hsolve (setObjective p cs) h2 (setObjective_wf hl h4)
    right
    cases hs : solve (setObjective p cs) with
    | none =>
      right
      refine ⟨hin, ?_, ?_⟩
      · have := m2 hs
        rintro ⟨⟨x, hx⟩, b, hb⟩
        refine this ⟨⟨x, (setObjective_feasible hl x).mpr hx⟩, b, fun y hy => ?_⟩
        rw [setObjective_value hl, k3]
        exact hb y ((setObjective_feasible hl y).mp hy)
      · simp only [optimize, if_neg hin, hp, k1, solveAndExtract, hs]
        by_cases e : tg = .allStates
        · simp [e]
        · simp [e]
    | some x =>
      left
      have hx := m1 x hs
      refine ⟨hin, x, (setObjective_feasible hl x).mp hx.1, fun y hy => ?_, ?_⟩
      · have := hx.2 y ((setObjective_feasible hl y).mpr hy)
        rwa [setObjective_value hl, setObjective_value hl, k3, k3] at this
      · simp [optimize, if_neg hin, hp, k1, solveAndExtract, hs]

/-- C63: whatever has been optimised before, the optimiser (with an LP solver that works exactly) never runs into undefined behaviour and holds potentials
that are consistent and goal-aware; it fails only if all states are optimised without a bound for potentials, with an error message. -/
theorem C63_optimiser {t : Task} (ht : t.PotentialOk) {mp : Option Rat} (hmp : ∀ m, mp = some m → 0 ≤ m) {solve : Program → Option (Nat → Rat)} (hsolve : MaxSolver solve) (tgs : List Target) (htg : ∀ tg ∈ tgs, TargetOk t tg) :
    (mp = none ∧ .allStates ∈ tgs ∧ optimizeAll t mp solve tgs ⟨initialPotentials t, false⟩ = .inputError) ∨
    (¬(mp = none ∧ .allStates ∈ tgs) ∧ ∃ opt, optimizeAll t mp solve tgs ⟨initialPotentials t, false⟩ = .ok opt ∧ t.PotConsistent (weights opt.potentials) ∧ t.PotGoalAware (weights opt.potentials) ∧
      ∀ s, t.ValidState s → sumPotentials opt.potentials s = some (potential (weights opt.potentials) s)) := by
  have hmain : ∀ (tgs : List Target) (opt : Optimizer), (∀ tg ∈ tgs, TargetOk t tg) → Good t opt.potentials →
      (mp = none ∧ .allStates ∈ tgs ∧ optimizeAll t mp solve tgs opt = .inputError) ∨
      (¬(mp = none ∧ .allStates ∈ tgs) ∧ ∃ opt', optimizeAll t mp solve tgs opt = .ok opt' ∧ Good t opt'.potentials) := by
    intro tgs
    induction tgs with
    | nil => intro opt _ hg; exact .inr ⟨by simp, opt, rfl, hg⟩
    | cons tg tgs ih =>
      intro opt htg hg
      obtain ⟨p, hp, _, _, hfe⟩ := C63_linear_program ht mp
      have hrest : ∀ opt', optimize t mp solve tg opt = .ok opt' → Good t opt'.potentials → ¬(tg = .allStates ∧ mp = none) →
          (mp = none ∧ .allStates ∈ tg :: tgs ∧ optimizeAll t mp solve (tg :: tgs) opt = .inputError) ∨
          (¬(mp = none ∧ .allStates ∈ tg :: tgs) ∧ ∃ opt', optimizeAll t mp solve (tg :: tgs) opt = .ok opt' ∧ Good t opt'.potentials) := by
        intro opt' h1 h2 h3
        rcases ih opt' (fun g hg => htg g (by simp [hg])) h2 with ⟨a1, a2, a3⟩ | ⟨a1, opt'', a2, a3⟩
        · exact .inl ⟨a1, by simp [a2], by simp [optimizeAll, h1, a3]⟩
        · refine .inr ⟨?_, opt'', by simp [optimizeAll, h1, a2], a3⟩
          rintro ⟨b1, b2⟩
          rcases List.mem_cons.mp b2 with b3 | b3
          · exact h3 ⟨b3.symm, b1⟩
          · exact a1 ⟨b1, b3⟩
      rcases optimize_spec ht hsolve (htg tg (by simp)) opt hp with ⟨h1, h2, h3⟩ | ⟨h0, x, h1, _, h2⟩ | ⟨h0, h1, h2⟩
      · exact .inl ⟨h2, by simp [h1], by simp [optimizeAll, h3]⟩
      · exact hrest _ h2 (extract_good ht ((feasible_iff ht hp x).mp h1)) h0
      · by_cases e : tg = .allStates
        · exfalso
          refine h1 ⟨hfe hmp, ?_⟩
          cases hm : mp with
          | none => exact absurd ⟨e, hm⟩ h0
          | some m =>
            refine ⟨t.vars.length * m, fun y hy => ?_⟩
            have hy := (feasible_iff ht hp y).mp hy
            have hle : ∀ s, t.ValidState s → potential (weight t y) s ≤ potential (fun _ _ => m) s := by
              intro s hs
              rw [potential_eq, potential_eq]
              refine Finset.sum_le_sum (fun v hv => ?_)
              have hv := Finset.mem_range.mp hv
              have hsv := List.getElem?_eq_getElem hv
              have hd := List.getElem?_eq_getElem (show v < t.vars.length by rw [← hs.1]; exact hv)
              rw [hsv, Option.getD_some]
              by_cases hgv : s[v] = goalV t v
              · rw [hgv]
                have := (hy.goal v _ hd).2
                linarith [hmp m hm]
              · have := hy.bound v _ _ m hd (Nat.le_of_lt (hs.2 _ _ _ hsv hd)) hgv hm
                linarith
            refine le_trans (objective_congr (htg tg (by simp)) hle) ?_
            subst e
            unfold objective
            simp only
            have hall : ∀ s ∈ allStates (t.vars.map (·.domain)), potential (fun _ _ => m) s = t.vars.length * m := by
              have : ∀ (ds : List Nat) (s : State), s ∈ allStates ds → s.length = ds.length := by
                intro ds
                induction ds with
                | nil => intro s hs; simp only [allStates, List.mem_singleton] at hs; subst hs; rfl
                | cons d ds ih =>
                  intro s hs
                  simp only [allStates, List.mem_flatMap, List.mem_map] at hs
                  obtain ⟨a, _, s', hs', rfl⟩ := hs
                  simp [ih s' hs']
              intro s hs
              rw [potential_eq, Finset.sum_const, Finset.card_range, this _ s hs, List.length_map, nsmul_eq_mul]
            rw [List.map_congr_left hall, sum_map_const', allStates_length]
            unfold Task.numStates
            have hne := numStates_ne ht.wf
            rw [mul_comm, mul_div_assoc, div_self hne, mul_one]
        · rw [if_neg e] at h2
          exact hrest _ h2 hg h0
  have hinit : Good t (initialPotentials t) := by
    rw [initial_eq]
    exact extract_good ht (mp := none) (zero_sol t (by simp))
  rcases hmain tgs ⟨initialPotentials t, false⟩ htg hinit with h | ⟨h1, opt, h2, h3⟩
  · exact .inl h
  · exact .inr ⟨h1, opt, h2, h3.consistent, h3.goalAware, fun s hs => sumPotentials_eq h3.shape hs⟩

/-- `pots` are the potentials that an optimiser holds after some optimisations -/
def Optimised (t : Task) (mp : Option Rat) (solve : Program → Option (Nat → Rat)) (pots : List (List Rat)) : Prop :=
  ∃ tgs b, (∀ tg ∈ tgs, TargetOk t tg) ∧ optimizeAll t mp solve tgs ⟨initialPotentials t, false⟩ = .ok ⟨pots, b⟩

theorem Optimised.good {t : Task} (ht : t.PotentialOk) {mp : Option Rat} {solve : Program → Option (Nat → Rat)} (hsolve : MaxSolver solve) {pots : List (List Rat)} (h : Optimised t mp solve pots) :
    Good t pots := by
  obtain ⟨tgs, b, h1, h2⟩ := h
  have hmain : ∀ (tgs : List Target) (opt opt' : Optimizer), (∀ tg ∈ tgs, TargetOk t tg) → Good t opt.potentials → optimizeAll t mp solve tgs opt = .ok opt' → Good t opt'.potentials := by
    intro tgs
    induction tgs with
    | nil => intro opt opt' _ hg h; cases h; exact hg
    | cons tg tgs ih =>
      intro opt opt' htg hg h
      obtain ⟨p, hp, _⟩ := C63_linear_program ht mp
      rcases optimize_spec ht hsolve (htg tg (by simp)) opt hp with ⟨_, _, k3⟩ | ⟨_, x, k1, _, k2⟩ | ⟨_, _, k2⟩
      · simp [optimizeAll, k3] at h
      · simp only [optimizeAll, k2] at h
        exact ih _ _ (fun g hg => htg g (by simp [hg])) (extract_good ht ((feasible_iff ht hp x).mp k1)) h
      · by_cases e : tg = .allStates
        · simp only [optimizeAll, k2, if_pos e] at h
          cases h
        · simp only [optimizeAll, k2, if_neg e] at h
          exact ih { opt with solved := false } _ (fun g hg => htg g (by simp [hg])) hg h
  exact hmain tgs _ _ h1 (by rw [initial_eq]; exact extract_good ht (mp := none) (zero_sol t (by simp))) h2

theorem getValue_eq {t : Task} {pots : List (List Rat)} (hg : Good t pots) {s : State} (hs : t.ValidState s) {n : Int} (h : getValue pots s = some n) : n = ⌈potential (weights pots) s - 1 / 100⌉ := by
  unfold getValue at h
  rw [sumPotentials_eq hg.shape hs] at h
  simp only at h
  split at h
  · cases h; rfl
  · simp at h

theorem getValue_some {t : Task} {pots : List (List Rat)} (hg : Good t pots) {s : State} (hs : t.ValidState s) (h1 : -2 ^ 31 ≤ potential (weights pots) s) (h2 : potential (weights pots) s ≤ 2 ^ 31 - 1) :
    getValue pots s = some ⌈potential (weights pots) s - 1 / 100⌉ := by
  unfold getValue
  rw [sumPotentials_eq hg.shape hs]
  simp only
  rw [if_pos]
  constructor
  · have : (-2147483649 : Int) < ⌈potential (weights pots) s - 1 / 100⌉ := by
      rw [Int.lt_ceil]
      push_cast
      linarith
    omega
  · rw [Int.ceil_le]
    push_cast
    linarith

theorem value_le {t : Task} {pots : List (List Rat)} (hwf : t.WF) (hg : Good t pots) {s : State} (hs : t.ValidState s) {π : List Nat} (hπ : t.SolvesFrom s π) : potential (weights pots) s ≤ t.planCost π := by
  obtain ⟨u, h1, h2⟩ := hπ
  induction h1 with
  | nil s => simpa [Task.planCost] using hg.goalAware s hs h2
  | cons s i o s' π u k1 k2 k3 k4 ih =>
    have h3 := hg.consistent s s' o hs (List.mem_of_getElem? k1) k2 k3
    have h4 := ih (succ_valid hwf hs k1 k2 k3) h2
    have hc : t.opCost i = o.cost := by simp [Task.opCost, k1]
    simp only [Task.planCost, List.map_cons, List.sum_cons, hc] at h4 ⊢
    push_cast
    linarith

theorem ceil_mono_add {a b : Rat} {c : Nat} (h : a ≤ c + b) : ⌈a - 1 / 100⌉ ≤ (c : Int) + ⌈b - 1 / 100⌉ := by
  rw [Int.ceil_le]
  push_cast
  have := Int.le_ceil (b - 1 / 100)
  linarith

/-- C63: the potential heuristic (with an LP solver that works exactly): whatever has been optimised, the value is defined if the sum of potentials fits into
the type `int`; it is never negative; it is 0 in goal states; it is consistent; and it is admissible. -/
theorem C63_heuristic {t : Task} (ht : t.PotentialOk) {mp : Option Rat} {solve : Program → Option (Nat → Rat)} (hsolve : MaxSolver solve) {pots : List (List Rat)} (h : Optimised t mp solve pots) :
    (∀ s, t.ValidState s → -2 ^ 31 ≤ potential (weights pots) s → potential (weights pots) s ≤ 2 ^ 31 - 1 → computeHeuristic pots s = some (max 0 ⌈potential (weights pots) s - 1 / 100⌉)) ∧
    (∀ s n, t.ValidState s → computeHeuristic pots s = some n → 0 ≤ n ∧ (allHold t.goal s → n = 0) ∧ ∀ π, t.SolvesFrom s π → n ≤ t.planCost π) ∧
    ∀ s s' o n n', t.ValidState s → o ∈ t.ops → o.applicable s → t.SuccRel o s s' → computeHeuristic pots s = some n → computeHeuristic pots s' = some n' → n ≤ o.cost + n' := by
  have hg := h.good ht hsolve
  have hval : ∀ s n, t.ValidState s → computeHeuristic pots s = some n → n = max 0 ⌈potential (weights pots) s - 1 / 100⌉ := by
    intro s n hs hn
    unfold computeHeuristic at hn
    cases hv : getValue pots s with
    | none => rw [hv] at hn; simp at hn
    | some v =>
      rw [hv] at hn
      simp only [Option.map_some, Option.some.injEq] at hn
      rw [← getValue_eq hg hs hv, hn]
  have hle : ∀ {a : Rat} {c : Nat}, a ≤ c → max 0 ⌈a - 1 / 100⌉ ≤ (c : Int) := by
    intro a c hac
    refine max_le (by omega) ?_
    rw [Int.ceil_le]
    push_cast
    linarith
  refine ⟨fun s hs h1 h2 => by simp [computeHeuristic, getValue_some hg hs h1 h2], fun s n hs hn => ?_, fun s s' o n n' hs ho ha hsu hn hn' => ?_⟩
  · rw [hval s n hs hn]
    refine ⟨le_max_left _ _, fun hgo => ?_, fun π hπ => hle (value_le ht.wf hg hs hπ)⟩
    have := hle (c := 0) (by simpa using hg.goalAware s hs hgo)
    have h2 : 0 ≤ max 0 ⌈potential (weights pots) s - 1 / 100⌉ := le_max_left _ _
    push_cast at this
    omega
  · obtain ⟨i, hi⟩ := List.getElem?_of_mem ho
    rw [hval s n hs hn, hval s' n' (succ_valid ht.wf hs hi ha hsu) hn']
    have h1 := ceil_mono_add (hg.consistent s s' o hs ho ha hsu)
    have h2 := le_max_left 0 ⌈potential (weights pots) s' - 1 / 100⌉
    have h3 := le_max_right 0 ⌈potential (weights pots) s' - 1 / 100⌉
    refine max_le ?_ ?_ <;> omega

/-- the maximum of values, all of which are defined -/
theorem maxHeuristic_aux {s : State} : ∀ (funs : List (List (List Rat))) (v n : Int), funs.foldlM (fun v f => (getValue f s).map (max v)) v = some n →
    v ≤ n ∧ (∀ f ∈ funs, ∃ m, getValue f s = some m ∧ m ≤ n) ∧ (n = v ∨ ∃ f ∈ funs, getValue f s = some n)
  | [], v, n, h => by
    simp only [List.foldlM_nil, Option.pure_def, Option.some.injEq] at h
    subst h
    simp
  | f :: funs, v, n, h => by
    rw [List.foldlM_cons] at h
    cases hf : getValue f s with
    | none => simp [hf] at h
    | some m =>
      rw [hf] at h
      obtain ⟨h1, h2, h3⟩ := maxHeuristic_aux funs (max v m) n h
      have a1 := le_max_left v m
      have a2 := le_max_right v m
      refine ⟨by omega, ?_, ?_⟩
      · intro g hg
        rcases List.mem_cons.mp hg with rfl | hg
        · exact ⟨m, hf, by omega⟩
        · exact h2 g hg
      · rcases h3 with h3 | ⟨g, hg, h3⟩
        · rcases max_choice v m with e | e
          · exact .inl (by omega)
          · exact .inr ⟨f, by simp, by rw [hf, h3, e]⟩
        · exact .inr ⟨g, by simp [hg], h3⟩

/-- C63: the maximum over several optimised potential functions is the largest of their values (at least 0); it is 0 in goal states, consistent and admissible. -/
theorem C63_maximum {t : Task} (ht : t.PotentialOk) {mp : Option Rat} {solve : Program → Option (Nat → Rat)} (hsolve : MaxSolver solve) {funs : List (List (List Rat))} (h : ∀ f ∈ funs, Optimised t mp solve f) :
    (∀ s n, t.ValidState s → computeMaxHeuristic funs s = some n → 0 ≤ n ∧ (∀ f ∈ funs, ∃ m, computeHeuristic f s = some m ∧ m ≤ n) ∧ (n = 0 ∨ ∃ f ∈ funs, computeHeuristic f s = some n) ∧
      (allHold t.goal s → n = 0) ∧ ∀ π, t.SolvesFrom s π → n ≤ t.planCost π) ∧
    ∀ s s' o n n', t.ValidState s → o ∈ t.ops → o.applicable s → t.SuccRel o s s' → computeMaxHeuristic funs s = some n → computeMaxHeuristic funs s' = some n' → n ≤ o.cost + n' := by
  have key : ∀ s n, computeMaxHeuristic funs s = some n → 0 ≤ n ∧ (∀ f ∈ funs, ∃ m, computeHeuristic f s = some m ∧ m ≤ n) ∧ (n = 0 ∨ ∃ f ∈ funs, computeHeuristic f s = some n) := by
    intro s n hn
    obtain ⟨h1, h2, h3⟩ := maxHeuristic_aux funs 0 n hn
    refine ⟨h1, fun f hf => ?_, ?_⟩
    · obtain ⟨m, k1, k2⟩ := h2 f hf
      exact ⟨max 0 m, by simp [computeHeuristic, k1], max_le h1 k2⟩
    · rcases h3 with h3 | ⟨f, hf, h3⟩
      · exact .inl h3
      · exact .inr ⟨f, hf, by simp [computeHeuristic, h3, h1]⟩
  constructor
  · intro s n hs hn
    obtain ⟨h1, h2, h3⟩ := key s n hn
    refine ⟨h1, h2, h3, fun hg => ?_, fun π hπ => ?_⟩
    · rcases h3 with h3 | ⟨f, hf, h3⟩
      · exact h3
      · exact ((C63_heuristic ht hsolve (h f hf)).2.1 s n hs h3).2.1 hg
    · rcases h3 with h3 | ⟨f, hf, h3⟩
      · rw [h3]; omega
      · exact ((C63_heuristic ht hsolve (h f hf)).2.1 s n hs h3).2.2 π hπ
  · intro s s' o n n' hs ho ha hsu hn hn'
    obtain ⟨h1, h2, h3⟩ := key s n hn
    obtain ⟨h1', h2', h3'⟩ := key s' n' hn'
    rcases h3 with h3 | ⟨f, hf, h3⟩
    · omega
    · obtain ⟨m, k1, k2⟩ := h2' f hf
      have := (C63_heuristic ht hsolve (h f hf)).2.2 s s' o n m hs ho ha hsu h3 k1
      omega

/-- C63: the optimiser finds the best potential function: without bounds on potentials, the sum of potentials of the samples, or the average potential of all states, is
maximal among all consistent and goal-aware potential functions; and it reports no solution only if there is no maximum because the sums can be arbitrarily large. -/
theorem C63_optimal {t : Task} (ht : t.PotentialOk) (hco : t.ConditionsOnce) {solve : Program → Option (Nat → Rat)} (hsolve : MaxSolver solve) {l : List State} (hl : ∀ s ∈ l, t.ValidState s) (opt : Optimizer) :
    ∃ opt', optimize t none solve (.samples l) opt = .ok opt' ∧
      (opt'.solved = true → t.PotConsistent (weights opt'.potentials) ∧ t.PotGoalAware (weights opt'.potentials) ∧
        ∀ w, t.PotConsistent w → t.PotGoalAware w → (l.map (potential w)).sum ≤ (l.map (potential (weights opt'.potentials))).sum) ∧
      (opt'.solved = false → ∀ b, ∃ w, t.PotConsistent w ∧ t.PotGoalAware w ∧ b < (l.map (potential w)).sum) := by
  obtain ⟨p, hp, _, _, hfe⟩ := C63_linear_program ht none
  obtain ⟨c1, c2⟩ := C63_characterisation ht hp
  rcases optimize_spec ht hsolve (tg := .samples l) hl opt hp with ⟨k1, _⟩ | ⟨_, x, k1, k2, k3⟩ | ⟨_, k1, k2⟩
  · simp at k1
  · refine ⟨_, k3, fun _ => ⟨(c1 x k1).1, (c1 x k1).2, fun w hw1 hw2 => ?_⟩, fun h => by simp at h⟩
    obtain ⟨y, hy1, hy2⟩ := c2 rfl hco w hw1 hw2
    have h1 : (l.map (potential w)).sum ≤ (l.map (potential (weights (extract t y)))).sum := sum_map_le (fun s hs => hy2 s (hl s hs))
    have h2 := k2 y hy1
    simp only [objective] at h2
    have e : ∀ z, l.map (potential (weights (extract t z))) = l.map (potential (weight t z)) := fun z => List.map_congr_left (fun s hs => extract_potential (hl s hs))
    simp only [e] at h1 ⊢
    linarith
  · refine ⟨_, by rw [k2]; exact if_neg (by simp), fun h => by simp at h, fun _ b => ?_⟩
    by_contra hcon
    push Not at hcon
    refine k1 ⟨hfe (by simp), b, fun x hx => ?_⟩
    have := hcon _ (c1 x hx).1 (c1 x hx).2
    rw [show l.map (potential (weights (extract t x))) = l.map (potential (weight t x)) from List.map_congr_left (fun s hs => extract_potential (hl s hs))] at this
    exact this

/-- C63: the same for the average potential of all states, with a bound `m` on potentials: no solution of the linear program has a larger average. -/
theorem C63_all_states {t : Task} (ht : t.PotentialOk) {m : Rat} (hm : 0 ≤ m) {solve : Program → Option (Nat → Rat)} (hsolve : MaxSolver solve) (opt : Optimizer) {p : Program} (hp : constructLp t (some m) = some p) :
    ∃ pots, optimize t (some m) solve .allStates opt = .ok ⟨pots, true⟩ ∧ (∃ x, p.Feasible x ∧ pots = extract t x) ∧
      ∀ y, p.Feasible y → ((allStates (t.vars.map (·.domain))).map (potential (weights (extract t y)))).sum / t.numStates ≤ ((allStates (t.vars.map (·.domain))).map (potential (weights pots))).sum / t.numStates := by
  have hcon : ∃ opt', optimize t (some m) solve .allStates opt = .ok opt' := by
    rcases C63_optimiser ht (mp := some m) (fun m' h => by cases h; exact hm) hsolve [.allStates] (by simp [TargetOk]) with ⟨h, _⟩ | ⟨_, opt', h, _⟩
    · simp at h
    · rcases optimize_spec ht hsolve (tg := .allStates) trivial opt hp with ⟨_, k1, _⟩ | ⟨_, x, _, _, k3⟩ | ⟨_, k1, _⟩
      · simp at k1
      · exact ⟨_, k3⟩
      · exfalso
        rcases optimize_spec ht hsolve (tg := .allStates) trivial ⟨initialPotentials t, false⟩ hp with ⟨_, j1, _⟩ | ⟨_, x, j1, j2, _⟩ | ⟨_, _, j2⟩
        · simp at j1
        · exact k1 ⟨⟨x, j1⟩, _, j2⟩
        · simp [optimizeAll, j2] at h
  rcases optimize_spec ht hsolve (tg := .allStates) trivial opt hp with ⟨_, k1, _⟩ | ⟨_, x, k1, k2, k3⟩ | ⟨_, k1, k2⟩
  · simp at k1
  · refine ⟨_, k3, ⟨x, k1, rfl⟩, fun y hy => ?_⟩
    have e : ∀ z z', (∀ s, t.ValidState s → potential z s = potential z' s) → objective t .allStates z = objective t .allStates z' := fun z z' h =>
      le_antisymm (objective_congr (t := t) (tg := .allStates) trivial (fun s hs => le_of_eq (h s hs))) (objective_congr (t := t) (tg := .allStates) trivial (fun s hs => le_of_eq (h s hs).symm))
    have h1 := e _ _ (fun s hs => extract_potential (t := t) (x := x) hs)
    have h2 := e _ _ (fun s hs => extract_potential (t := t) (x := y) hs)
    have h3 := k2 y hy
    rw [← h1, ← h2] at h3
    exact h3
  · obtain ⟨opt', h⟩ := hcon
    rw [k2, if_pos rfl] at h
    simp at h

/-- C63: the solution of the LP solver may violate every constraint by up to `δ`.  For a plan of length n, the value still does not exceed the cost of the
plan, as long as δ times (n (k + 1) + 2 k) is at most 0.01, for k variables. -/
theorem C63_tolerance {t : Task} (ht : t.PotentialOk) {mp : Option Rat} {p : Program} (hp : constructLp t mp = some p) {δ : Rat} (hδ : 0 ≤ δ) {x : Nat → Rat} (hx : p.NearlyFeasible δ x)
    {s : State} (hs : t.ValidState s) {π : List Nat} (hπ : t.SolvesFrom s π) (hsmall : ((π.length : Rat) * (t.vars.length + 1) + 2 * t.vars.length) * δ ≤ 1 / 100) {n : Int}
    (hn : computeHeuristic (extract t x) s = some n) : n ≤ t.planCost π := by
  have h1 := ((nearly_iff ht hp δ x).mp hx).plan ht hδ hs hπ
  unfold computeHeuristic getValue at hn
  rw [sumPotentials_eq (extract_shape t x) hs, extract_potential hs] at hn
  simp only at hn
  split at hn
  · simp only [Option.map_some, Option.some.injEq] at hn
    rw [← hn]
    refine max_le (by omega) ?_
    rw [Int.ceil_le]
    push_cast
    linarith
  · simp at hn

end Verif.Potentials
