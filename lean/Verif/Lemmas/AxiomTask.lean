import Verif.Lemmas.SimpleTask
import Verif.Spec.DefaultAxioms

/- Checking by computation that a concrete task with axioms is well-formed. -/
namespace Verif.Search

/-- the layers of the variables of a body and a head -/
def layersOK (t : Task) (r : Rule) (c : Fact) : Bool :=
  match t.layerOf c.var, t.layerOf r.head.var with
  | some a, some b => decide (a ≤ b) && (decide (c.val ≠ t.defaultOf c.var) || decide (a < b))
  | _, _ => true

def ruleOK (t : Task) (r : Rule) : Bool :=
  (t.layerOf r.head.var).isSome && decide (r.head.val ≠ t.defaultOf r.head.var) && factOK t r.head && r.body.all (fun c => factOK t c && layersOK t r c) &&
    t.rules.all (fun r' => decide (r.head.var ≠ r'.head.var) || decide (r.head.val = r'.head.val))

/-- a well-formed task with axioms, by computation -/
def axiomTaskOK (t : Task) : Bool :=
  !t.axioms.isEmpty && t.axioms.all (fun a => a.effects.length == 1) && t.rules.all (ruleOK t) &&
    t.vars.all (fun d => (d.layer.isNone || decide (d.default < d.domain)) && decide (1 ≤ d.domain) && decide (d.domain < 2 ^ 31)) && stateOK t t.init &&
    t.ops.all (fun o => o.pre.all (factOK t) && o.effects.all (fun e => factOK t e.fact && e.conds.all (factOK t))) && t.goal.all (factOK t)

theorem axiomTaskOK_wf {t : Task} (h : axiomTaskOK t = true) : t.WF := by
  unfold axiomTaskOK at h
  simp only [Bool.and_eq_true, Bool.or_eq_true, Bool.not_eq_true', List.all_eq_true, decide_eq_true_iff, Option.isNone_iff_eq_none, beq_iff_eq] at h
  obtain ⟨⟨⟨⟨⟨⟨h0, h1⟩, h2⟩, h3⟩, h4⟩, h5⟩, h6⟩ := h
  have hr : ∀ r ∈ t.rules, (t.layerOf r.head.var).isSome ∧ r.head.val ≠ t.defaultOf r.head.var ∧ t.ValidFact r.head ∧ (∀ c ∈ r.body, t.ValidFact c ∧ layersOK t r c = true) ∧
      ∀ r' ∈ t.rules, r.head.var ≠ r'.head.var ∨ r.head.val = r'.head.val := by
    intro r hr
    have := h2 r hr
    unfold ruleOK at this
    simp only [Bool.and_eq_true, Bool.or_eq_true, List.all_eq_true, decide_eq_true_iff] at this
    obtain ⟨⟨⟨⟨k1, k2⟩, k3⟩, k4⟩, k5⟩ := this
    exact ⟨k1, k2, factOK_spec k3, fun c hc => ⟨factOK_spec (k4 c hc).1, (k4 c hc).2⟩, k5⟩
  refine ⟨⟨?_, ?_, ?_, ?_, ?_, ?_, ?_, ?_, ?_, ?_⟩, ?_, stateOK_spec h4, ?_, ?_, ?_, ?_⟩
  · intro a ha
    exact List.length_eq_one_iff.mp (h1 a ha)
  · intro r h hn
    have := (hr r h).1
    rw [hn] at this
    simp at this
  · intro r h; exact (hr r h).2.1
  · intro r h r' h' e
    rcases (hr r h).2.2.2.2 r' h' with k | k
    · exact absurd e k
    · exact k
  · intro r h; exact (hr r h).2.2.1
  · intro r h c hc; exact ((hr r h).2.2.2.1 c hc).1
  · intro e
    rw [e] at h0
    simp at h0
  · intro v d hv hd
    rcases (h3 d (List.mem_of_getElem? hv)).1.1 with k | k
    · exact absurd k hd
    · exact k
  · intro r h c hc ℓc ℓh e1 e2
    have := ((hr r h).2.2.2.1 c hc).2
    unfold layersOK at this
    rw [e1, e2] at this
    simp only [Bool.and_eq_true, decide_eq_true_iff] at this
    exact this.1
  · intro r h c hc ℓc ℓh e1 e2 e3
    have := ((hr r h).2.2.2.1 c hc).2
    unfold layersOK at this
    rw [e1, e2] at this
    simp only [Bool.and_eq_true, Bool.or_eq_true, decide_eq_true_iff] at this
    rcases this.2 with k | k
    · exact absurd e3 k
    · exact k
  · intro d hd; exact ⟨(h3 d hd).1.2, (h3 d hd).2⟩
  · intro o ho e he; exact factOK_spec ((h5 o ho).2 e he).1
  · intro o ho e he c hc; exact factOK_spec (((h5 o ho).2 e he).2 c hc)
  · intro o ho c hc; exact factOK_spec ((h5 o ho).1 c hc)
  · intro f hf; exact factOK_spec (h6 f hf)

/-- `AxiomForm`, by computation -/
def axiomFormOK (t : Task) : Bool :=
  t.vars.all (fun d => d.layer.isNone || d.domain == 2) && t.axioms.all (fun a => a.effects.all (fun e => a.pre.all (fun p => decide (p = ⟨e.fact.var, t.defaultOf e.fact.var⟩))))

theorem axiomFormOK_spec {t : Task} (h : axiomFormOK t = true) : t.AxiomForm := by
  unfold axiomFormOK at h
  simp only [Bool.and_eq_true, Bool.or_eq_true, List.all_eq_true, decide_eq_true_iff, Option.isNone_iff_eq_none, beq_iff_eq] at h
  refine ⟨?_, h.2⟩
  intro v d hd hl
  rcases h.1 d (List.mem_of_getElem? hd) with k | k
  · exact absurd k hl
  · exact k

end Verif.Search
