import Verif.Lemmas.VariableOrderFinder
import Verif.Props.PatternNormalize

/-
Theorems about the causal graph and the variable orders of the search component (C70).
-/
namespace Verif.OrderFinder

/-- C70: for every task whose operators, axioms and goal only mention existing variables, the causal graph consists of exactly the arcs and edges of the definition; every list of neighbours is sorted and has no duplicates. -/
theorem C70_causal_graph (t : Task) (hr : t.InRange) : ∃ G, causalGraph t = some G
    ∧ Lists t.vars.length G.preToEff t.PreEff
    ∧ Lists t.vars.length G.effToPre (fun u v => t.PreEff v u)
    ∧ Lists t.vars.length G.effToEff t.EffEff
    ∧ Lists t.vars.length G.successors (fun u v => t.PreEff u v ∨ t.EffEff u v)
    ∧ Lists t.vars.length G.predecessors (fun u v => t.PreEff v u ∨ t.EffEff v u) := causalGraph_spec hr

/-- C70: the orders by level and the random order contain every variable exactly once: by decreasing number, by increasing number, or as shuffled. -/
theorem C70_level_orders (t : Task) (hr : t.InRange) (τ : OrderType) (hτ : τ = .level ∨ τ = .reverseLevel ∨ τ = .random)
    (shuffle : List Nat → List Nat) (hs : ∀ l, (shuffle l).Perm l) : variableOrder τ shuffle t = .ok (baseOrder τ shuffle t) := by
  obtain ⟨G, eG, -, hG, -⟩ := causalGraph_spec hr
  obtain ⟨F, eF, hI, hb⟩ := create_spec hr (τ := τ) hs
  have hbase : F.remaining = baseOrder τ shuffle t := hb.trans (by unfold baseOrder; cases τ <;> rfl)
  unfold variableOrder
  simp only [eG, eF]
  rw [← hbase]
  have key : ∀ (k : Nat) (F : Finder) (base chosen : List Nat), Inv t base chosen F → F.remaining.length ≤ k → collect τ G k F = .ok F.remaining := by
    intro k
    induction k with
    | zero =>
      intro F base chosen hI hk
      have h : F.remaining = [] := List.length_eq_zero_iff.mp (by omega)
      rw [collect, if_pos h, h]
    | succ k ih =>
      intro F base chosen hI hk
      rw [collect]
      cases hr : F.remaining with
      | nil => rfl
      | cons w ws =>
        simp only
        obtain ⟨F', e1, hI', hrem, -, -⟩ := selected_spec hG hI (pre := []) (by simpa using hr)
        have en : next τ G F = .ok (w, F') := by
          unfold next
          rw [hr]
          rcases hτ with rfl | rfl | rfl <;> exact e1
        rw [en]
        simp only
        have hrem : F'.remaining = ws := hrem
        rw [ih F' base _ hI' (by rw [hrem]; rw [hr] at hk; simpa using hk), hrem]
  exact key _ F _ _ hI (Nat.le_refl _)

/-- C70: the orders along the causal graph.  They contain every variable exactly once, and every variable is the first one of its kind among those left (a variable with a variable chosen before depending on it, or a variable of the goal, in the priority of the type); or the planner exits with an input error, exactly if some variable is not relevant for the goal. -/
theorem C70_causal_orders (t : Task) (hr : t.InRange) (τ : OrderType) (hτ : τ = .cgGoalLevel ∨ τ = .cgGoalRandom ∨ τ = .goalCgLevel)
    (shuffle : List Nat → List Nat) (hs : ∀ l, (shuffle l).Perm l) :
    (∃ vs, variableOrder τ shuffle t = .ok vs ∧ vs.Perm (List.range t.vars.length) ∧ Follows τ t (baseOrder τ shuffle t) [] vs
      ∧ ∀ v < t.vars.length, t.RelevantVar v) ∨
    (variableOrder τ shuffle t = .inputError ∧ ∃ v < t.vars.length, ¬ t.RelevantVar v) := by
  obtain ⟨G, eG, -, hG, -⟩ := causalGraph_spec hr
  obtain ⟨F, eF, hI, hb⟩ := create_spec hr (τ := τ) hs
  have hbase : F.remaining = baseOrder τ shuffle t := hb.trans (by unfold baseOrder; cases τ <;> rfl)
  have hv : variableOrder τ shuffle t = collect τ G F.remaining.length F := by unfold variableOrder; simp only [eG, eF]
  rw [hv, ← hbase]
  rcases collect_spec hG τ F.remaining.length [] F hI (Nat.le_refl _) with ⟨vs, e, hf, hnd, hall⟩ | ⟨e, vs, hf, hnd, hsub, ⟨u, hu, huc⟩, hno⟩
  · simp only [List.nil_append] at hnd hall
    refine .inl ⟨vs, e, ?_, hf, fun v hv => follows_relevant hτ hf v ((hall v).mpr hv)⟩
    exact (List.perm_ext_iff_of_nodup hnd List.nodup_range).mpr (fun v => by rw [hall v, List.mem_range])
  · simp only [List.nil_append] at hnd hsub huc hno
    refine .inr ⟨e, u, hI.lt.mp hu, left_irrelevant hr (chosen := vs) (fun w hw hwc => ?_) u (hI.lt.mp hu) huc⟩
    have := hno w (hI.lt.mpr hw) hwc
    rcases hτ with rfl | rfl | rfl
    · exact this.symm
    · exact this.symm
    · exact this

/-- C70: the greedy pattern generator.  There is a list of variables that starts the order `goal_cg_level` and whose projection has at most `maxStates` states, and either the pattern consists of these variables (sorted), and all variables are taken or the next one does not fit; or the planner exits with an input error, which happens exactly if the relevant variables all fit and some variable is not relevant. -/
theorem C70_greedy_pattern (t : Task) (hr : t.InRange) (hd : ∀ d ∈ t.vars, 1 ≤ d.domain) (maxStates : Nat) (hm : 1 ≤ maxStates) :
    ∃ vs, Follows .goalCgLevel t (List.range t.vars.length).reverse [] vs ∧ vs.Nodup ∧ numStates t vs ≤ maxStates ∧
    ((∃ P, greedyPattern t maxStates = .ok P ∧ P.Pairwise (· < ·) ∧ P.Perm vs ∧ ((∀ v < t.vars.length, v ∈ vs) ∨
      ∃ v, v < t.vars.length ∧ FirstChoice (List.range t.vars.length).reverse vs t.GoalVar (t.Connected vs) v ∧ maxStates < numStates t (vs ++ [v]))) ∨
    (greedyPattern t maxStates = .inputError ∧ (∀ v < t.vars.length, v ∈ vs ↔ t.RelevantVar v) ∧ ∃ v < t.vars.length, ¬ t.RelevantVar v)) := by
  obtain ⟨G, eG, -, hG, -⟩ := causalGraph_spec hr
  obtain ⟨F, eF, hI, hb⟩ := create_spec hr (τ := .goalCgLevel) (shuffle := id) (fun l => List.Perm.refl l)
  have hb : F.remaining = (List.range t.vars.length).reverse := hb
  obtain ⟨vs, h1, h2, h3, h4, h5⟩ := greedyLoop_spec hG hd F.remaining.length [] F hI (Nat.le_refl _) (maxStates := maxStates) (by simpa [numStates] using hm)
  simp only [List.nil_append] at h2 h3 h4 h5
  have e0 : numStates t [] = 1 := by simp [numStates]
  rw [e0, hb] at h5
  rw [hb] at h1
  refine ⟨vs, h1, h2, h4, ?_⟩
  unfold greedyPattern
  simp only [eG, eF]
  rw [hb]
  rcases h5 with ⟨e, hmax⟩ | ⟨e, ⟨u, hu, huc⟩, hno⟩
  · left
    rw [e]
    simp only
    unfold normalized
    have hn := Pdb.C53_normalize t.vars.length (vs.map Int.ofNat)
    cases hP : Pdb.normalize t.vars.length (vs.map Int.ofNat) with
    | none =>
      rw [hP] at hn
      obtain ⟨x, hx, hbad⟩ := hn
      rw [List.mem_map] at hx
      obtain ⟨v, hv, rfl⟩ := hx
      have := h3 v hv
      simp only [Int.ofNat_eq_natCast] at hbad
      omega
    | some P =>
      rw [hP] at hn
      obtain ⟨-, hn2, hn3⟩ := hn
      refine ⟨P, rfl, hn2, ?_, hmax⟩
      refine (List.perm_ext_iff_of_nodup (hn2.imp (fun h => Nat.ne_of_lt h)) h2).mpr (fun v => ?_)
      rw [hn3 v, List.mem_map]
      constructor
      · rintro ⟨w, hw, e⟩
        have e : (w : Int) = v := e
        have e : w = v := by omega
        exact e ▸ hw
      · intro hv; exact ⟨v, hv, rfl⟩
  · right
    rw [e]
    have hirr := left_irrelevant hr (chosen := vs) hno
    refine ⟨rfl, fun v hv => ⟨follows_relevant (.inr (.inr rfl)) h1 v, fun h => ?_⟩, u, hu, hirr u hu huc⟩
    by_contra hc
    exact hirr v hv hc h

/-! ### a concrete case -/

/-- three variables: the operator changes variable 1 if variable 0 has value 1; an axiom derives variable 2 from variable 1; the goal mentions variable 2.  Variable 3 is not relevant. -/
def exampleTask (irrelevant : Bool) : Task where
  vars := [⟨2, none, 0⟩, ⟨3, none, 0⟩, ⟨2, some 0, 0⟩] ++ if irrelevant then [⟨2, none, 0⟩] else []
  ops := [⟨[⟨0, 1⟩], [⟨[], ⟨1, 2⟩⟩], 1⟩, ⟨[], [⟨[], ⟨0, 1⟩⟩, ⟨[⟨0, 0⟩], ⟨1, 0⟩⟩], 1⟩]
  axioms := [⟨[⟨2, 0⟩], [⟨[⟨1, 2⟩], ⟨2, 1⟩⟩], 0⟩]
  init := [0, 0, 0] ++ if irrelevant then [0] else []
  goal := [⟨2, 1⟩]

theorem exampleTask_inRange (b : Bool) : (exampleTask b).InRange := by
  cases b <;> constructor <;> decide

example : causalGraph (exampleTask false) = some ⟨[[1], [2], []], [[], [0], [1]], [[1], [0], []], [[1], [0, 2], []], [[1], [0], [1]]⟩ := by decide
example : variableOrder .goalCgLevel id (exampleTask false) = .ok [2, 1, 0] := by decide
example : variableOrder .cgGoalRandom List.reverse (exampleTask false) = .ok [2, 1, 0] := by decide
example : variableOrder .reverseLevel id (exampleTask false) = .ok [0, 1, 2] := by decide
example : variableOrder .goalCgLevel id (exampleTask true) = .inputError := by decide
example : variableOrder .level id (exampleTask true) = .ok [3, 2, 1, 0] := by decide
example : greedyPattern (exampleTask true) 11 = .ok [1, 2] := by decide
example : greedyPattern (exampleTask true) 12 = .inputError := by decide
example : greedyPattern (exampleTask false) 12 = .ok [0, 1, 2] := by decide

end Verif.OrderFinder
