import Verif.Spec.SasPlans

/-
A check for the validity of translator tasks, used for examples.
-/
namespace Verif.SasFile

deriving instance DecidableEq for SasOperator, SasAxiom, SasVariable, SasTask

instance (T : SasTask) (f : Fact) : Decidable (FactOk T f) :=
  match h : T.variables[f.var]? with
  | none => .isFalse (by rintro ⟨v, hv, _⟩; rw [h] at hv; cases hv)
  | some v => if h2 : f.val < v.valueNames.length then .isTrue ⟨v, h, h2⟩ else .isFalse (by rintro ⟨w, hw, h3⟩; rw [h] at hw; cases hw; exact h2 h3)

instance (n : List Char) : Decidable (NameOk n) := by unfold NameOk; infer_instance
instance (T : SasTask) (fs : List Fact) : Decidable (CondOk T fs) := by unfold CondOk; infer_instance
instance (fs : List Fact) : Decidable (SortedVars fs) := by unfold SortedVars; infer_instance

def preCheck (T : SasTask) (e : PrePost) : Bool := match e.pre with | none => true | some x => decide (FactOk T ⟨e.var, x⟩)

def opCheck (T : SasTask) (o : SasOperator) : Bool :=
  decide (NameOk o.name) && decide (CondOk T o.prevail) && decide (o.prePost ≠ []) && decide (o.prePost.length ≤ IntMax) && o.prePost.all (preCheck T) &&
  decide (∀ e ∈ o.prePost, FactOk T ⟨e.var, e.post⟩) && decide (∀ e ∈ o.prePost, CondOk T e.conds) && decide (∀ e ∈ o.prePost, layerOf T e.var = none) && decide (o.cost ≤ IntMax)

theorem opCheck_valid {T : SasTask} {o : SasOperator} (h : opCheck T o = true) : o.Valid T := by
  unfold opCheck at h
  simp only [Bool.and_eq_true, decide_eq_true_eq, List.all_eq_true] at h
  obtain ⟨⟨⟨⟨⟨⟨⟨⟨h1, h2⟩, h3⟩, h4⟩, h5⟩, h6⟩, h7⟩, h8⟩, h9⟩ := h
  refine ⟨h1, h2, h3, h4, fun e he x hx => ?_, h6, h7, h8, h9⟩
  have := h5 e he
  rw [preCheck, hx] at this
  exact of_decide_eq_true this

def condCheck (T : SasTask) (l : Nat) (c : Fact) : Bool :=
  match layerOf T c.var with
  | none => true
  | some lc => decide (lc ≤ l) && decide (lc = l → T.init[c.var]? ≠ some c.val)

def axiomCheck (T : SasTask) (a : SasAxiom) : Bool :=
  decide (CondOk T a.conds) && decide (FactOk T a.effect) && (match layerOf T a.effect.var with | none => false | some l => a.conds.all (condCheck T l)) && decide (T.init[a.effect.var]? ≠ some a.effect.val)

theorem axiomCheck_valid {T : SasTask} {a : SasAxiom} (h : axiomCheck T a = true) : a.Valid T := by
  unfold axiomCheck at h
  simp only [Bool.and_eq_true, decide_eq_true_eq] at h
  obtain ⟨⟨⟨h1, h2⟩, h3⟩, h4⟩ := h
  refine ⟨h1, h2, ?_, h4⟩
  split at h3
  · cases h3
  · rename_i l hl
    refine ⟨l, hl, fun c hc lc hlc => ?_⟩
    have := List.all_eq_true.mp h3 c hc
    rw [condCheck, hlc] at this
    simp only [Bool.and_eq_true, decide_eq_true_eq] at this
    exact this

def layerCheck (v : SasVariable) : Bool := match v.layer with | none => true | some l => decide (l ≤ IntMax)

def taskCheck (T : SasTask) : Bool :=
  decide (T.variables ≠ []) && decide (∀ v ∈ T.variables, ∀ n ∈ v.valueNames, NameOk n) && decide (∀ v ∈ T.variables, 1 ≤ v.valueNames.length ∧ v.valueNames.length ≤ IntMax) &&
  decide (∀ v ∈ T.variables, v.layer ≠ none → v.valueNames.length = 2) && T.variables.all layerCheck && decide (T.variables.length ≤ IntMax) &&
  decide (∀ m ∈ T.mutexes, CondOk T m) && decide (T.mutexes.length ≤ IntMax) && decide (T.init.length = T.variables.length) &&
  decide (∀ p ∈ T.init.zipIdx, FactOk T ⟨p.2, p.1⟩) && decide (CondOk T T.goal) && decide (T.goal ≠ []) && decide ((T.goal.map (·.var)).Nodup) &&
  T.operators.all (opCheck T) && decide (T.operators.length ≤ IntMax) && T.axioms.all (axiomCheck T) && decide (T.axioms.length ≤ IntMax)

theorem taskCheck_valid {T : SasTask} (h : taskCheck T = true) : T.Valid := by
  unfold taskCheck at h
  simp only [Bool.and_eq_true, decide_eq_true_eq, List.all_eq_true] at h
  obtain ⟨⟨⟨⟨⟨⟨⟨⟨⟨⟨⟨⟨⟨⟨⟨⟨h1, h2⟩, h3⟩, h4⟩, h5⟩, h6⟩, h7⟩, h8⟩, h9⟩, h10⟩, h11⟩, h12⟩, h13⟩, h14⟩, h15⟩, h16⟩, h17⟩ := h
  refine ⟨h1, h2, h3, h4, fun v hv l hl => ?_, h6, h7, h8, h9, fun v x hx => ?_, h11, h12, h13, fun o ho => opCheck_valid (h14 o ho), h15, fun a ha => axiomCheck_valid (h16 a ha), h17⟩
  · have := h5 v hv
    rw [layerCheck, hl] at this
    exact of_decide_eq_true this
  · exact h10 (x, v) (List.mem_zipIdx_iff_getElem?.mpr hx)

def opCanonicalCheck (o : SasOperator) : Bool :=
  decide (SortedVars o.prevail) && decide (∀ e ∈ o.prePost, SortedVars e.conds) && decide (o.prePost.Pairwise (fun a b => a.key < b.key)) &&
  decide (∀ f ∈ o.prevail, ∀ e ∈ o.prePost, f.var ≠ e.var) && decide (∀ e ∈ o.prePost, ∀ e' ∈ o.prePost, e.var = e'.var → e.pre = e'.pre)

def canonicalCheck (T : SasTask) : Bool :=
  decide (SortedVars T.goal) && decide (∀ m ∈ T.mutexes, m.Pairwise (fun a b => a.var < b.var ∨ (a.var = b.var ∧ a.val < b.val))) && T.operators.all opCanonicalCheck && decide (∀ a ∈ T.axioms, SortedVars a.conds)

theorem canonicalCheck_canonical {T : SasTask} (h : canonicalCheck T = true) : T.Canonical := by
  unfold canonicalCheck at h
  simp only [Bool.and_eq_true, decide_eq_true_eq, List.all_eq_true] at h
  obtain ⟨⟨⟨h1, h2⟩, h3⟩, h4⟩ := h
  refine ⟨h1, h2, fun o ho => ?_, h4⟩
  have := h3 o ho
  unfold opCanonicalCheck at this
  simp only [Bool.and_eq_true, decide_eq_true_eq] at this
  obtain ⟨⟨⟨⟨a1, a2⟩, a3⟩, a4⟩, a5⟩ := this
  exact ⟨a1, a2, a3, a4, a5⟩

instance (T : SasTask) : Decidable T.NoKeepingEffects := by unfold SasTask.NoKeepingEffects; infer_instance

end Verif.SasFile
