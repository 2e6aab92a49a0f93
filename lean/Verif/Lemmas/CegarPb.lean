import Verif.Model.Cegar
import Verif.Lemmas.CartBasic
import Verif.Spec.Relaxation
import Mathlib.Data.List.Perm.Subperm

/-
The facts that are reachable before a given fact.
-/
namespace Verif.Cart

variable {t : Task}

/-- the operator with index `j` does not have the effect `last` -/
def NotAchieving (t : Task) (last : Fact) (j : Nat) : Prop := ∀ o, t.ops[j]? = some o → ∀ e ∈ o.effects, e.fact ≠ last

theorem insertFact_suffix (fs : List Fact) (f : Fact) : ∃ p, insertFact fs f = p ++ fs := by
  unfold insertFact
  split
  · exact ⟨[], rfl⟩
  · exact ⟨[f], rfl⟩

theorem mem_insertFact {fs : List Fact} {f g : Fact} : g ∈ insertFact fs f ↔ g = f ∨ g ∈ fs := by
  unfold insertFact
  split
  · rename_i h
    constructor
    · exact Or.inr
    · rintro (rfl | h')
      · exact h
      · exact h'
  · simp

theorem nodup_insertFact {fs : List Fact} {f : Fact} (h : fs.Nodup) : (insertFact fs f).Nodup := by
  unfold insertFact
  split
  · exact h
  · rename_i hn; exact List.nodup_cons.mpr ⟨hn, h⟩

theorem foldl_insert {α : Type} (g : α → Fact) (l : List α) : ∀ fs : List Fact, (∃ p, l.foldl (fun fs e => insertFact fs (g e)) fs = p ++ fs) ∧ (∀ f, f ∈ l.foldl (fun fs e => insertFact fs (g e)) fs ↔ f ∈ fs ∨ ∃ e ∈ l, g e = f) ∧
    (fs.Nodup → (l.foldl (fun fs e => insertFact fs (g e)) fs).Nodup) := by
  induction l with
  | nil => intro fs; exact ⟨⟨[], rfl⟩, by simp, fun h => h⟩
  | cons e l ih =>
    intro fs
    obtain ⟨⟨p, h1⟩, h2, h3⟩ := ih (insertFact fs (g e))
    obtain ⟨q, h4⟩ := insertFact_suffix fs (g e)
    refine ⟨⟨p ++ q, by rw [List.foldl_cons, h1, h4, List.append_assoc]⟩, fun f => ?_, fun h => h3 (nodup_insertFact h)⟩
    rw [List.foldl_cons, h2, mem_insertFact]
    simp only [List.mem_cons, exists_eq_or_imp]
    constructor
    · rintro ((rfl | h) | h)
      · exact Or.inr (Or.inl rfl)
      · exact Or.inl h
      · exact Or.inr (Or.inr h)
    · rintro (h | rfl | h)
      · exact Or.inl (Or.inr h)
      · exact Or.inl (Or.inl rfl)
      · exact Or.inr h

theorem pbStep_suffix (last : Fact) (fs : List Fact) (o : Operator) : ∃ p, pbStep last fs o = p ++ fs := by
  unfold pbStep
  split
  · exact ⟨[], rfl⟩
  · split
    · exact (foldl_insert (fun e : Effect => e.fact) o.effects fs).1
    · exact ⟨[], rfl⟩

theorem mem_pbStep {last : Fact} {fs : List Fact} {o : Operator} {f : Fact} (h : f ∈ pbStep last fs o) : f ∈ fs ∨ ((∀ e ∈ o.effects, e.fact ≠ last) ∧ (∀ c ∈ o.pre, c ∈ fs) ∧ ∃ e ∈ o.effects, e.fact = f) := by
  unfold pbStep at h
  split at h
  · exact Or.inl h
  · rename_i h1
    split at h
    · rename_i h2
      rcases ((foldl_insert (fun e : Effect => e.fact) o.effects fs).2.1 f).mp h with k | k
      · exact Or.inl k
      · refine Or.inr ⟨fun e he hf => h1 (List.any_eq_true.mpr ⟨e, he, by simpa using hf⟩), fun c hc => by simpa using List.all_eq_true.mp h2 c hc, k⟩
    · exact Or.inl h

theorem nodup_pbStep {last : Fact} {fs : List Fact} {o : Operator} (h : fs.Nodup) : (pbStep last fs o).Nodup := by
  unfold pbStep
  split
  · exact h
  · split
    · exact (foldl_insert (fun e : Effect => e.fact) o.effects fs).2.2 h
    · exact h

theorem pbStep_closed {last : Fact} {fs : List Fact} {o : Operator} (h : pbStep last fs o = fs) (h1 : ∀ e ∈ o.effects, e.fact ≠ last) (h2 : ∀ c ∈ o.pre, c ∈ fs) : ∀ e ∈ o.effects, e.fact ∈ fs := by
  intro e he
  rw [← h]
  unfold pbStep
  rw [if_neg (by
    rw [List.any_eq_true]
    rintro ⟨e', he', hf⟩
    exact h1 e' he' (by simpa using hf)), if_pos (List.all_eq_true.mpr (fun c hc => by simpa using h2 c hc))]
  exact ((foldl_insert (fun e : Effect => e.fact) o.effects fs).2.1 _).mpr (Or.inr ⟨e, he, rfl⟩)

theorem pass_suffix (last : Fact) (ops : List Operator) : ∀ fs, (∃ p, ops.foldl (pbStep last) fs = p ++ fs) ∧ (fs.Nodup → (ops.foldl (pbStep last) fs).Nodup) ∧ (ops.foldl (pbStep last) fs = fs → ∀ o ∈ ops, pbStep last fs o = fs) := by
  induction ops with
  | nil => intro fs; exact ⟨⟨[], rfl⟩, fun h => h, by simp⟩
  | cons o ops ih =>
    intro fs
    obtain ⟨⟨p, h1⟩, h2, h3⟩ := ih (pbStep last fs o)
    obtain ⟨q, h4⟩ := pbStep_suffix last fs o
    refine ⟨⟨p ++ q, by rw [List.foldl_cons, h1, h4, List.append_assoc]⟩, fun h => h2 (nodup_pbStep h), fun h => ?_⟩
    rw [List.foldl_cons] at h
    have hq : pbStep last fs o = fs := by
      rw [h1, h4] at h
      have := congrArg List.length h
      simp only [List.length_append] at this
      have hq : q = [] := List.length_eq_zero_iff.mp (by omega)
      rw [h4, hq]; rfl
    intro o' ho'
    rcases List.mem_cons.mp ho' with rfl | ho'
    · exact hq
    · rw [hq] at h3 h
      exact h3 h o' ho'

/-- all facts of the task -/
def allFacts (t : Task) : List Fact := (List.range t.vars.length).flatMap (fun v => (List.range (((domainSizes t)[v]?).getD 0)).map (fun x => (⟨v, x⟩ : Fact)))

theorem mem_allFacts {f : Fact} (h : t.ValidFact f) : f ∈ allFacts t := by
  obtain ⟨d, h1, h2⟩ := h
  have hl := (List.getElem?_eq_some_iff.mp h1).1
  unfold allFacts
  rw [List.mem_flatMap]
  refine ⟨f.var, List.mem_range.mpr hl, List.mem_map.mpr ⟨f.val, ?_, rfl⟩⟩
  rw [List.mem_range, domainSizes, List.getElem?_map, h1]
  exact h2

/-- the facts are valid and reachable without operators that achieve `last` -/
structure PbOk (t : Task) (last : Fact) (fs : List Fact) : Prop where
  nodup : fs.Nodup
  valid : ∀ f ∈ fs, t.ValidFact f
  reach : ∀ f ∈ fs, t.RelReach (NotAchieving t last) t.init f

/-- the facts are closed -/
def PbClosed (t : Task) (last : Fact) (fs : List Fact) : Prop := ∀ o ∈ t.ops, (∀ e ∈ o.effects, e.fact ≠ last) → (∀ c ∈ o.pre, c ∈ fs) → ∀ e ∈ o.effects, e.fact ∈ fs

theorem PbOk.step (ht : CartesianTask t) {last : Fact} {fs : List Fact} (h : PbOk t last fs) {o : Operator} (ho : o ∈ t.ops) : PbOk t last (pbStep last fs o) := by
  refine ⟨nodup_pbStep h.nodup, fun f hf => ?_, fun f hf => ?_⟩
  · rcases mem_pbStep hf with k | ⟨_, _, e, he, rfl⟩
    · exact h.valid f k
    · exact ht.wf.effFact o ho e he
  · rcases mem_pbStep hf with k | ⟨k1, k2, e, he, rfl⟩
    · exact h.reach f k
    · obtain ⟨i, hi⟩ := List.mem_iff_getElem?.mp ho
      refine .effect (some i) _ _ _ (.op i o e hi he) (fun j hj => ?_) (fun q hq => ?_)
      · simp at hj; subst hj
        intro o' ho'
        rw [hi] at ho'; simp at ho'; subst ho'
        exact k1
      · rw [ht.unconditional o ho e he, List.append_nil] at hq
        exact h.reach q (k2 q hq)

theorem PbOk.pass (ht : CartesianTask t) {last : Fact} : ∀ (ops : List Operator) (fs : List Fact), (∀ o ∈ ops, o ∈ t.ops) → PbOk t last fs → PbOk t last (ops.foldl (pbStep last) fs)
  | [], _, _, h => h
  | o :: ops, fs, hm, h => PbOk.pass ht ops _ (fun o' ho' => hm o' (by simp [ho'])) (h.step ht (hm o (by simp)))

theorem pbLoop_spec (ht : CartesianTask t) {last : Fact} : ∀ (m : Nat) (fs : List Fact) (lastNum : Nat), (allFacts t).length + 1 - lastNum = m → lastNum ≤ fs.length → PbOk t last fs → (lastNum = fs.length → PbClosed t last fs) →
    ∃ fs', pbLoop t last fs lastNum = some fs' ∧ PbOk t last fs' ∧ PbClosed t last fs' ∧ ∀ f ∈ fs, f ∈ fs' := by
  intro m
  induction m using Nat.strong_induction_on with
  | _ m ih =>
    intro fs lastNum hm hle hok hcl
    rw [pbLoop]
    by_cases he : lastNum = fs.length
    · rw [if_pos he]
      exact ⟨fs, rfl, hok, hcl he, fun f hf => hf⟩
    · rw [if_neg he]
      obtain ⟨⟨p, h1⟩, h2, h3⟩ := pass_suffix last t.ops fs
      have hlen : fs.length ≤ (allFacts t).length := (hok.nodup.subperm (fun f hf => mem_allFacts (hok.valid f hf))).length_le
      have hok' := hok.pass ht t.ops fs (fun o ho => ho)
      obtain ⟨fs', k1, k2, k3, k4⟩ := ih ((allFacts t).length + 1 - fs.length) (by omega) (t.ops.foldl (pbStep last) fs) fs.length rfl (by rw [h1]; simp) hok' (fun hl => by
        have hp : p = [] := by
          rw [h1, List.length_append] at hl
          exact List.length_eq_zero_iff.mp (by omega)
        have hfix : t.ops.foldl (pbStep last) fs = fs := by rw [h1, hp]; rfl
        rw [hfix]
        exact fun o ho a b => pbStep_closed (h3 hfix o ho) a b)
      exact ⟨fs', k1, k2, k3, fun f hf => k4 f (by rw [h1]; simp [hf])⟩

/-- The facts are the fact itself and those that can be reached in the delete relaxation without operators that achieve it. -/
theorem relaxedPossibleBefore_spec (ht : CartesianTask t) {last : Fact} : ∃ fs, relaxedPossibleBefore t last = some fs ∧ (∀ f, f ∈ fs ↔ f = last ∨ t.RelReach (NotAchieving t last) t.init f) ∧ (∀ f ∈ fs, f = last ∨ t.ValidFact f) := by
  have hf0 := foldl_insert (fun f : Fact => f) (t.init.zipIdx.map (fun p => (⟨p.2, p.1⟩ : Fact))) []
  generalize hF : (t.init.zipIdx.map (fun p => (⟨p.2, p.1⟩ : Fact))).foldl (fun fs e => insertFact fs e) [] = F at hf0
  have hmem : ∀ f, f ∈ F ↔ f.holds t.init := by
    intro f
    rw [hf0.2.1]
    simp only [List.not_mem_nil, false_or, List.mem_map, exists_eq_right]
    constructor
    · rintro ⟨⟨x, v⟩, h, rfl⟩
      exact (List.mem_zipIdx_iff_getElem?.mp h : _)
    · intro h
      exact ⟨(f.val, f.var), List.mem_zipIdx_iff_getElem?.mpr h, rfl⟩
  have hval : ∀ f, f.holds t.init → t.ValidFact f := by
    intro f h
    have hl : f.var < t.vars.length := by rw [← ht.wf.init.1]; exact (List.getElem?_eq_some_iff.mp h).1
    exact ⟨_, List.getElem?_eq_getElem hl, ht.wf.init.2 f.var f.val _ h (List.getElem?_eq_getElem hl)⟩
  obtain ⟨fs, h1, h2, h3, h4⟩ := pbLoop_spec ht (last := last) _ F 0 rfl (Nat.zero_le _) ⟨hf0.2.2 List.nodup_nil, fun f hf => hval f ((hmem f).mp hf), fun f hf => .state f ((hmem f).mp hf)⟩ (fun hl => by
    have hnil : F = [] := List.length_eq_zero_iff.mp hl.symm
    intro o ho _ _ e he
    exfalso
    obtain ⟨d, hd, _⟩ := ht.wf.effFact o ho e he
    have hl := (List.getElem?_eq_some_iff.mp hd).1
    rw [← ht.wf.init.1] at hl
    have : (⟨e.fact.var, t.init[e.fact.var]⟩ : Fact) ∈ F := (hmem _).mpr (List.getElem?_eq_getElem hl)
    rw [hnil] at this
    simp at this)
  refine ⟨insertFact fs last, ?_, fun f => ?_, fun f hf => ?_⟩
  · unfold relaxedPossibleBefore
    have : (t.init.zipIdx.map (fun p => (⟨p.2, p.1⟩ : Fact))).foldl insertFact [] = F := hF
    rw [this, h1]
    rfl
  · rw [mem_insertFact]
    refine or_congr Iff.rfl ⟨h2.reach f, fun h => ?_⟩
    induction h with
    | state f h => exact h4 f ((hmem f).mpr h)
    | effect i cs f c he hR _ ih =>
      cases he with
      | op i o e h1 h2 =>
        have ho := List.mem_of_getElem? h1
        exact h3 o ho (hR i rfl o h1) (fun c hc => ih c (by simp [hc])) e h2
      | ax a e h1 h2 => rw [ht.noAxioms] at h1; simp at h1
  · rcases mem_insertFact.mp hf with h | h
    · exact Or.inl h
    · exact Or.inr (h2.valid f h)

end Verif.Cart
