import Verif.Lemmas.PdbStep
import Verif.Lemmas.SimpleSucc
import Verif.Lemmas.Dijkstra

/-
The pattern database contains the distances in the projected task.
-/
namespace Verif.Pdb
open Verif.AdaptiveQueue Verif.Relax Verif.Dijkstra

section
variable {t : Task} (ht : t.PdbOk) {P : List Nat} (hP : t.IsPattern P)
include ht

theorem opOk {o : Operator} (ho : o ∈ t.ops) : OpOk t o := ⟨ht.pre o ho, ht.eff o ho, ht.aligned o ho, ht.wf.pre o ho, ht.wf.effFact o ho⟩

include hP

theorem vals_at {s : State} (hs : t.ValidState s) {v : Nat} (hv : v ∈ P) : ∃ j : Nat, P[j]? = some v ∧ (vals P s)[j]? = s[v]? := by
  obtain ⟨j, hj⟩ := List.getElem?_of_mem hv
  exact ⟨j, hj, vals_getElem? hP.range hs hj⟩

/-- a step of the projected task is an abstract step -/
theorem astep_of_succ {o : Operator} (ho : o ∈ t.ops) {s s' : State} (hs : t.ValidState s) (hs' : t.ValidState s') (ha : (o.project P).applicable s) (h : (t.project P).SuccRel (o.project P) s s') :
    AStep P o (vals P s) (vals P s') := by
  obtain ⟨h1, h2, h3⟩ := succ_simple (project_wf ht.wf P) ht.axioms (o := o.project P) (fun e he => ht.conds o ho e (List.mem_of_mem_filter he))
    ((ht.eff o ho).sublist (List.Sublist.map _ List.filter_sublist)) h
  refine ⟨?_, ?_, ?_⟩
  · intro f hf j hj
    rw [vals_getElem? hP.range hs hj]
    exact ha f (List.mem_filter.mpr ⟨hf, by simpa using List.mem_of_getElem? hj⟩)
  · intro e he j hj
    rw [vals_getElem? hP.range hs' hj]
    exact h2 e (List.mem_filter.mpr ⟨he, by simpa using List.mem_of_getElem? hj⟩) (by rw [hs.1]; exact hP.range _ (List.mem_of_getElem? hj))
  · intro j hj
    cases hPj : P[j]? with
    | none =>
      have : P.length ≤ j := List.getElem?_eq_none_iff.mp hPj
      rw [List.getElem?_eq_none (by simpa [vals] using this), List.getElem?_eq_none (by simpa [vals] using this)]
    | some v =>
      rw [vals_getElem? hP.range hs' hPj, vals_getElem? hP.range hs hPj]
      refine h3 v (fun e he hv => ?_)
      exact hj e (List.mem_of_mem_filter he) (by rw [hPj, hv])

/-- an abstract step is a step of the projected task -/
theorem succ_of_astep {o : Operator} (ho : o ∈ t.ops) {s : State} (hs : t.ValidState s) {b : List Nat} (h : AStep P o (vals P s) b) (hb : b.length = P.length) :
    (o.project P).applicable s ∧ ∃ s', t.ValidState s' ∧ (t.project P).SuccRel (o.project P) s s' ∧ vals P s' = b := by
  have ha : (o.project P).applicable s := by
    intro f hf
    obtain ⟨h1, h2⟩ := List.mem_filter.mp hf
    obtain ⟨j, hj, hj'⟩ := vals_at ht hP hs (show f.var ∈ P by simpa using h2)
    have := h.pre f h1 j hj
    rw [hj'] at this
    exact this
  refine ⟨ha, ?_⟩
  have hmem : o.project P ∈ (t.project P).ops := by
    simp only [Task.project, List.mem_map]
    exact ⟨o, ho, rfl⟩
  obtain ⟨s', k1, k2⟩ := exists_succ (project_wf ht.wf P) (t := t.project P) hs hmem
  refine ⟨s', k1, k2, ?_⟩
  have h' := astep_of_succ ht hP ho hs k1 ha k2
  apply List.ext_getElem?
  intro j
  by_cases hex : ∃ e ∈ o.effects, P[j]? = some e.fact.var
  · obtain ⟨e, he, hj⟩ := hex
    rw [h'.eff e he j hj, h.eff e he j hj]
  · have hne : ∀ e ∈ o.effects, P[j]? ≠ some e.fact.var := fun e he hj => hex ⟨e, he, hj⟩
    rw [h'.frame j hne, h.frame j hne]

end

section
variable (H : StdHeap Nat) {t : Task} (ht : t.PdbOk) {P : List Nat} (hP : t.IsPattern P) {p : Proj} (hp : ProjOk t P p) {costs : List Nat} (hcosts : costs = [] ∨ costs.length = t.ops.length)
include ht hP hp hcosts

theorem ops_spec : ∃ ops, abstractOperators t p (toIndex P) costs = some ops ∧
    ∀ A, A ∈ ops ↔ ∃ i o r, t.ops[i]? = some o ∧ buildForOp t p (toIndex P) i o (t.costWith costs i) = some r ∧ A ∈ r := by
  unfold abstractOperators
  obtain ⟨ops, h1, h2⟩ := collect_spec (f := fun q : Operator × Nat => if costs = [] then buildForOp t p (toIndex P) q.2 q.1 q.1.cost else match costs[q.2]? with | none => none | some c => buildForOp t p (toIndex P) q.2 q.1 c)
    (Q := fun q A => ∃ r, buildForOp t p (toIndex P) q.2 q.1 (t.costWith costs q.2) = some r ∧ A ∈ r) t.ops.zipIdx (by
      rintro ⟨o, i⟩ hq
      have hi : t.ops[i]? = some o := List.mem_zipIdx_iff_getElem?.mp hq
      obtain ⟨r, hr, _⟩ := buildForOp_spec hp hP (opOk ht (List.mem_of_getElem? hi)) i (t.costWith costs i)
      refine ⟨r, ?_, fun A => ⟨fun hA => ⟨r, hr, hA⟩, ?_⟩⟩
      · simp only
        by_cases e : costs = []
        · rw [if_pos e]
          have : t.costWith costs i = o.cost := by simp [Task.costWith, e, Task.opCost, hi]
          rw [← this]; exact hr
        · rw [if_neg e]
          have hlt : i < costs.length := by
            rcases hcosts with h | h
            · exact absurd h e
            · rw [h]; exact (List.getElem?_eq_some_iff.mp hi).1
          have : t.costWith costs i = costs[i] := by simp [Task.costWith, e, List.getElem?_eq_getElem hlt]
          rw [List.getElem?_eq_getElem hlt]
          simp only
          rw [← this]; exact hr
      · rintro ⟨r', hr', hA⟩
        simp only at hr'
        rw [hr] at hr'
        simp only [Option.some.injEq] at hr'
        subst hr'
        exact hA)
  refine ⟨ops, h1, fun A => ?_⟩
  rw [h2]
  constructor
  · rintro ⟨⟨o, i⟩, hq, r, hr, hA⟩
    exact ⟨i, o, r, List.mem_zipIdx_iff_getElem?.mp hq, hr, hA⟩
  · rintro ⟨i, o, r, hi, hr, hA⟩
    exact ⟨(o, i), List.mem_zipIdx_iff_getElem?.mpr hi, r, hr, hA⟩

omit ht hP hp hcosts in
theorem mapAll_spec {α β : Type} {f : α → Option β} : ∀ (l : List α), (∀ a ∈ l, ∃ b, f a = some b) → ∃ r, mapAll f l = some r ∧ ∀ b, b ∈ r ↔ ∃ a ∈ l, f a = some b
  | [], _ => ⟨[], rfl, by simp⟩
  | a :: l, h => by
    obtain ⟨b, hb⟩ := h a (by simp)
    obtain ⟨r, h1, h2⟩ := mapAll_spec l (fun c hc => h c (by simp [hc]))
    refine ⟨b :: r, by simp only [mapAll, hb, h1], fun c => ?_⟩
    simp only [List.mem_cons, h2, exists_eq_or_imp, hb, Option.some.injEq]
    constructor
    · rintro (rfl | h) <;> simp_all
    · rintro (rfl | h) <;> simp_all

/-- the transitions found by regression -/
theorem regress_spec {ops : List AbsOp} (hops : abstractOperators t p (toIndex P) costs = some ops) :
    ∃ tree, matchTree t p ops = some tree ∧ ∀ b, Valid (P.map t.domain) b → ∃ es, regress p ops tree (enc (P.map t.domain) b) = some es ∧
      (∀ q c, (q, c) ∈ es → ∃ i o a, t.ops[i]? = some o ∧ c = t.costWith costs i ∧ Valid (P.map t.domain) a ∧ q = (enc (P.map t.domain) a : Int) ∧ AStep P o a b) ∧
      (∀ i o a, t.ops[i]? = some o → Valid (P.map t.domain) a → AStep P o a b → a = b ∨ ((enc (P.map t.domain) a : Int), t.costWith costs i) ∈ es) := by
  obtain ⟨ops', h1, h2⟩ := ops_spec ht hP hp hcosts
  rw [hops] at h1
  simp only [Option.some.injEq] at h1
  subst h1
  have hsound : ∀ A ∈ ops, ∃ i o, t.ops[i]? = some o ∧ A.cost = t.costWith costs i ∧ (∀ f ∈ A.pre, f.1 < P.length ∧ ∀ d, (P.map t.domain)[f.1]? = some d → f.2 < d) ∧
      ∀ b, Valid (P.map t.domain) b → Holds (fun j => b[j]?) A.pre → ∃ a, Valid (P.map t.domain) a ∧ (enc (P.map t.domain) b : Int) + A.effect = enc (P.map t.domain) a ∧ AStep P o a b := by
    intro A hA
    obtain ⟨i, o, r, hi, hr, hAr⟩ := (h2 A).mp hA
    obtain ⟨_, k2, k3, k4⟩ := absop_sound hp hP (opOk ht (List.mem_of_getElem? hi)) hr hAr
    exact ⟨i, o, hi, k2, k3, k4⟩
  obtain ⟨tree, m1, m2, m3⟩ := treeLoop_spec (dom := domOf t p) ops.zipIdx .null trivial (by
    rintro ⟨A, i⟩ hq f hf
    obtain ⟨_, _, _, _, k3, _⟩ := hsound A (List.mem_of_getElem? (List.mem_zipIdx_iff_getElem?.mp hq))
    obtain ⟨g1, g2⟩ := k3 f hf
    have hd : (P.map t.domain)[f.1]? = some (t.domain P[f.1]) := by simp [g1]
    exact ⟨_, by rw [domOf_eq hp hP]; exact hd, g2 _ hd⟩)
  refine ⟨tree, m1, ?_⟩
  intro b hb
  have hval : ∀ j, p.unrank (enc (P.map t.domain) b) j = b[j]? := fun j => by rw [unrank_eq hp, digits_enc hb]
  have hvo : ValOk (domOf t p) (p.unrank (enc (P.map t.domain) b)) := by
    intro v d hd
    rw [domOf_eq hp hP] at hd
    have hv : v < b.length := by rw [← hb.length]; exact (List.getElem?_eq_some_iff.mp hd).1
    exact ⟨b[v], by rw [hval, List.getElem?_eq_getElem hv], (valid_iff.mp hb).2 v d _ hd (List.getElem?_eq_getElem hv)⟩
  obtain ⟨ids, hids⟩ := lookup_total hvo tree m2
  have hmem := m3 _ hvo [] ids rfl hids
  have hholds : ∀ A : AbsOp, Holds (p.unrank (enc (P.map t.domain) b)) A.pre ↔ Holds (fun j => b[j]?) A.pre := by
    intro A
    unfold Holds
    simp only [hval]
  have hid : ∀ i, i ∈ ids ↔ ∃ A, ops[i]? = some A ∧ Holds (fun j => b[j]?) A.pre := by
    intro i
    rw [hmem]
    simp only [List.not_mem_nil, or_false, hholds, List.mem_zipIdx_iff_getElem?]
  have hedge : ∀ i A, ops[i]? = some A → Holds (fun j => b[j]?) A.pre → edge ops (enc (P.map t.domain) b) i = some ((enc (P.map t.domain) b : Int) + A.effect, A.cost) := by
    intro i A hi hh
    obtain ⟨_, _, _, _, _, k4⟩ := hsound A (List.mem_of_getElem? hi)
    obtain ⟨a, ha, hea, _⟩ := k4 b hb hh
    have l1 := enc_lt_n hp ha
    have l2 := hp.lt
    simp only [edge, hi]
    rw [isInt_of (n := p.n) (by omega) (by omega) (by omega)]
    rfl
  obtain ⟨es, he1, he2⟩ := mapAll_spec (f := edge ops (enc (P.map t.domain) b)) ids (by
    intro i hi
    obtain ⟨A, h3, h4⟩ := (hid i).mp hi
    exact ⟨_, hedge i A h3 h4⟩)
  refine ⟨es, by simp only [regress, hids, he1], ?_, ?_⟩
  · intro q c hqc
    obtain ⟨i, hi, hei⟩ := (he2 (q, c)).mp hqc
    obtain ⟨A, h3, h4⟩ := (hid i).mp hi
    rw [hedge i A h3 h4] at hei
    simp only [Option.some.injEq, Prod.mk.injEq] at hei
    obtain ⟨k, o, hk, k2, _, k4⟩ := hsound A (List.mem_of_getElem? h3)
    obtain ⟨a, ha, hea, hst⟩ := k4 b hb h4
    exact ⟨k, o, a, hk, by rw [← hei.2, k2], ha, by rw [← hei.1, hea], hst⟩
  · intro i o a hi ha hst
    obtain ⟨r, hr, _⟩ := buildForOp_spec hp hP (opOk ht (List.mem_of_getElem? hi)) i (t.costWith costs i)
    rcases absop_complete hp hP (opOk ht (List.mem_of_getElem? hi)) hr ha hb hst with h | ⟨A, hA, h3, h4⟩
    · exact Or.inl h
    · right
      obtain ⟨k, hk⟩ := List.getElem?_of_mem ((h2 A).mpr ⟨i, o, r, hi, hr, hA⟩)
      obtain ⟨_, k2, _, _⟩ := absop_sound hp hP (opOk ht (List.mem_of_getElem? hi)) hr hA
      rw [he2]
      exact ⟨k, (hid k).mpr ⟨A, hk, h3⟩, by rw [hedge k A hk h3, h4, k2]⟩

omit hcosts in
theorem mem_goals {j x : Nat} : (j, x) ∈ abstractGoals t (toIndex P) ↔ ∃ f ∈ t.goal, P[j]? = some f.var ∧ f.val = x := by
  simp only [abstractGoals, List.mem_filterMap]
  constructor
  · rintro ⟨f, hf, h⟩
    obtain ⟨k, hk, hk'⟩ := Option.map_eq_some_iff.mp h
    simp only [Prod.mk.injEq] at hk'
    obtain ⟨rfl, rfl⟩ := hk'
    exact ⟨f, hf, (toIndex_iff hP.nodup).mp hk, rfl⟩
  · rintro ⟨f, hf, h1, rfl⟩
    exact ⟨f, hf, by rw [(toIndex_iff hP.nodup).mpr h1]; rfl⟩

omit hcosts ht in
theorem isGoal_spec {i : Nat} : ∀ (gs : List (Nat × Nat)), (∀ g ∈ gs, g.1 < P.length) → ∃ r, isGoal p i gs = some r ∧ (r = true ↔ ∀ g ∈ gs, (digits (P.map t.domain) i)[g.1]? = some g.2)
  | [], _ => ⟨true, rfl, by simp⟩
  | (v, x) :: gs, h => by
    obtain ⟨r, h1, h2⟩ := isGoal_spec gs (fun g hg => h g (by simp [hg]))
    have hv := h (v, x) (by simp)
    simp only at hv
    unfold isGoal
    rw [unrank_eq hp]
    have hlt : v < (digits (P.map t.domain) i).length := by
      by_contra hc
      have := List.getElem?_eq_none (by omega : (digits (P.map t.domain) i).length ≤ v)
      rw [digits_getElem?] at this
      simp [hv] at this
    rw [List.getElem?_eq_getElem hlt]
    simp only
    by_cases e : (digits (P.map t.domain) i)[v] = x
    · rw [if_neg (by simpa using e)]
      refine ⟨r, h1, ?_⟩
      rw [h2]
      simp [List.getElem?_eq_getElem hlt, e]
    · rw [if_pos e]
      refine ⟨false, rfl, ?_⟩
      simp [List.getElem?_eq_getElem hlt, e]

/-- the goal states of the projection -/
def AGoal (t : Task) (P : List Nat) (i : Nat) : Prop := i < (P.map t.domain).prod ∧ ∀ g ∈ abstractGoals t (toIndex P), (digits (P.map t.domain) i)[g.1]? = some g.2

omit hcosts in
theorem initLoop_spec : ∀ (is : List Nat) (bag : List (Entry Nat)) (st : DSt), (∀ i ∈ is, i < p.n) → is.Nodup → Rep st.queue bag →
    ∃ st' bag', initLoop H p (abstractGoals t (toIndex P)) is st = some st' ∧ Rep st'.queue bag' ∧ (∀ k v, (k, v) ∈ bag' ↔ (k, v) ∈ bag ∨ (k = 0 ∧ v ∈ is ∧ AGoal t P v)) ∧
      (∀ i, i ∉ is → st'.dist i = st.dist i) ∧ (∀ i ∈ is, AGoal t P i → st'.dist i = 0) ∧ (∀ i ∈ is, ¬AGoal t P i → st'.dist i = inf)
  | [], bag, st, _, _, hr => ⟨st, bag, rfl, hr, by simp, fun _ _ => rfl, by simp, by simp⟩
  | i :: is, bag, st, hi, hn, hr => by
    rw [List.nodup_cons] at hn
    have hgp : ∀ g ∈ abstractGoals t (toIndex P), g.1 < P.length := by
      rintro ⟨j, x⟩ hg
      obtain ⟨f, _, h2, _⟩ := (mem_goals ht hP hp).mp hg
      exact (List.getElem?_eq_some_iff.mp h2).1
    obtain ⟨r, h1, h2⟩ := isGoal_spec hP hp (i := i) (abstractGoals t (toIndex P)) hgp
    have hin := hi i (by simp)
    rw [hp.n] at hin
    have hag : r = true ↔ AGoal t P i := by rw [h2]; exact ⟨fun h => ⟨hin, h⟩, fun h => h.2⟩
    unfold initLoop
    rw [h1]
    cases r with
    | true =>
      simp only
      obtain ⟨q, k1, k2⟩ := hr.push H 0 i
      rw [k1]
      simp only
      obtain ⟨st', bag', j1, j2, j3, j4, j5, j6⟩ := initLoop_spec is _ ⟨upd st.dist i 0, q⟩ (fun x hx => hi x (by simp [hx])) hn.2 k2
      refine ⟨st', bag', j1, j2, ?_, ?_, ?_, ?_⟩
      · intro k v
        rw [j3]
        simp only [List.mem_cons, Prod.mk.injEq]
        constructor
        · rintro ((⟨rfl, rfl⟩ | h) | ⟨rfl, h3, h4⟩)
          · exact Or.inr ⟨rfl, Or.inl rfl, hag.mp rfl⟩
          · exact Or.inl h
          · exact Or.inr ⟨rfl, Or.inr h3, h4⟩
        · rintro (h | ⟨rfl, rfl | h3, h4⟩)
          · exact Or.inl (Or.inr h)
          · exact Or.inl (Or.inl ⟨rfl, rfl⟩)
          · exact Or.inr ⟨rfl, h3, h4⟩
      · intro x hx
        simp only [List.mem_cons, not_or] at hx
        rw [j4 x hx.2]
        simp [upd, hx.1]
      · intro x hx hg
        rcases List.mem_cons.mp hx with e | e
        · subst e; rw [j4 x hn.1]; simp [upd]
        · exact j5 x e hg
      · intro x hx hg
        rcases List.mem_cons.mp hx with e | e
        · subst e; exact absurd (hag.mp rfl) hg
        · exact j6 x e hg
    | false =>
      simp only
      have hng : ¬AGoal t P i := fun hc => by simp [← hag] at hc
      obtain ⟨st', bag', j1, j2, j3, j4, j5, j6⟩ := initLoop_spec is _ ⟨upd st.dist i inf, st.queue⟩ (fun x hx => hi x (by simp [hx])) hn.2 hr
      refine ⟨st', bag', j1, j2, ?_, ?_, ?_, ?_⟩
      · intro k v
        rw [j3]
        simp only [List.mem_cons]
        constructor
        · rintro (h | ⟨rfl, h3, h4⟩)
          · exact Or.inl h
          · exact Or.inr ⟨rfl, Or.inr h3, h4⟩
        · rintro (h | ⟨rfl, rfl | h3, h4⟩)
          · exact Or.inl h
          · exact absurd h4 hng
          · exact Or.inr ⟨rfl, h3, h4⟩
      · intro x hx
        simp only [List.mem_cons, not_or] at hx
        rw [j4 x hx.2]
        simp [upd, hx.1]
      · intro x hx hg
        rcases List.mem_cons.mp hx with e | e
        · subst e; exact absurd hg hng
        · exact j5 x e hg
      · intro x hx hg
        rcases List.mem_cons.mp hx with e | e
        · subst e; rw [j4 x hn.1]; simp [upd]
        · exact j6 x e hg

omit hcosts hp in
theorem agoal_iff {s : State} (hs : t.ValidState s) : AGoal t P (enc (P.map t.domain) (vals P s)) ↔ allHold (t.project P).goal s := by
  have hv := vals_valid hP.range hs
  unfold AGoal
  rw [digits_enc hv]
  constructor
  · rintro ⟨_, h⟩ f hf
    obtain ⟨h1, h2⟩ := List.mem_filter.mp hf
    obtain ⟨j, hj, hj'⟩ := vals_at ht hP hs (show f.var ∈ P by simpa using h2)
    have hg : (j, f.val) ∈ abstractGoals t (toIndex P) := by
      simp only [abstractGoals, List.mem_filterMap]
      exact ⟨f, h1, by rw [(toIndex_iff hP.nodup).mpr hj]; rfl⟩
    have := h _ hg
    simp only at this
    rw [hj'] at this
    exact this
  · intro h
    refine ⟨enc_lt hv, ?_⟩
    rintro ⟨j, x⟩ hg
    simp only [abstractGoals, List.mem_filterMap] at hg
    obtain ⟨f, hf, h'⟩ := hg
    obtain ⟨k, hk, hk'⟩ := Option.map_eq_some_iff.mp h'
    simp only [Prod.mk.injEq] at hk'
    obtain ⟨rfl, rfl⟩ := hk'
    have hj := (toIndex_iff hP.nodup).mp hk
    simp only
    rw [vals_getElem? hP.range hs hj]
    exact h f (List.mem_filter.mpr ⟨hf, by simpa using List.mem_of_getElem? hj⟩)

/-- the pattern database is computed without undefined behaviour, and its values are the perfect heuristic values in the projection -/
theorem distances_spec {C : Nat} (hC : ∀ i, t.costWith costs i ≤ C) (hb : p.n * C < 2 ^ 31 - 1) :
    ∃ ops tree dist, abstractOperators t p (toIndex P) costs = some ops ∧ matchTree t p ops = some tree ∧ computeDistances H p ops tree (abstractGoals t (toIndex P)) = some dist ∧
      ∀ s, t.ValidState s → (t.project P).PerfectValue (t.costWith costs) s (if dist (enc (P.map t.domain) (vals P s)) = inf then none else some (dist (enc (P.map t.domain) (vals P s)))) ∧
        (dist (enc (P.map t.domain) (vals P s)) ≠ inf → dist (enc (P.map t.domain) (vals P s)) ≤ p.n * C) := by
  obtain ⟨ops, ho, _⟩ := ops_spec ht hP hp hcosts
  obtain ⟨tree, htr, hreg⟩ := regress_spec ht hP hp hcosts ho
  have hval : ∀ {i}, i < p.n → Valid (P.map t.domain) (digits (P.map t.domain) i) ∧ enc (P.map t.domain) (digits (P.map t.domain) i) = i := by
    intro i hi
    rw [hp.n] at hi
    exact ⟨digits_valid hi, enc_digits hi⟩
  -- the graph
  let E : Nat → List (Int × Nat) := fun i => if i < p.n then (regress p ops tree i).getD [] else []
  have hE : ∀ v, v < p.n → regress p ops tree v = some (E v) := by
    intro v hv
    obtain ⟨h1, h2⟩ := hval hv
    obtain ⟨es, h3, _⟩ := hreg _ h1
    rw [h2] at h3
    simp [E, hv, h3]
  have hE1 : ∀ b, Valid (P.map t.domain) b → ∀ q c, (q, c) ∈ E (enc (P.map t.domain) b) → ∃ i o a, t.ops[i]? = some o ∧ c = t.costWith costs i ∧ Valid (P.map t.domain) a ∧ q = (enc (P.map t.domain) a : Int) ∧ AStep P o a b := by
    intro b hb q c hqc
    obtain ⟨es, h3, h4, _⟩ := hreg b hb
    rw [hE _ (enc_lt_n hp hb)] at h3
    simp only [Option.some.injEq] at h3
    exact h4 q c (h3 ▸ hqc)
  have hE2 : ∀ b, Valid (P.map t.domain) b → ∀ i o a, t.ops[i]? = some o → Valid (P.map t.domain) a → AStep P o a b → a = b ∨ ((enc (P.map t.domain) a : Int), t.costWith costs i) ∈ E (enc (P.map t.domain) b) := by
    intro b hb i o a hi ha hst
    obtain ⟨es, h3, _, h4⟩ := hreg b hb
    rw [hE _ (enc_lt_n hp hb)] at h3
    simp only [Option.some.injEq] at h3
    rw [h3]
    exact h4 i o a hi ha hst
  have hG : GraphOk p.n (AGoal t P) E C := by
    refine ⟨fun v hv => by rw [hp.n]; exact hv.1, ?_, ?_, by unfold inf; omega⟩
    · intro v q c hv hqc
      obtain ⟨h1, h2⟩ := hval hv
      rw [← h2] at hqc
      obtain ⟨i, o, a, _, _, ha, rfl, _⟩ := hE1 _ h1 q c hqc
      have := enc_lt_n hp ha
      omega
    · intro v q c hqc
      by_cases hv : v < p.n
      · obtain ⟨h1, h2⟩ := hval hv
        rw [← h2] at hqc
        obtain ⟨i, o, a, _, rfl, _⟩ := hE1 _ h1 q c hqc
        exact hC i
      · simp [E, hv] at hqc
  obtain ⟨st, bag, hi1, hi2, hi3, hi4, hi5, hi6⟩ := initLoop_spec H ht hP hp (List.range p.n) [] ⟨fun _ => inf, Queue.new⟩ (by simp) List.nodup_range Rep.new
  have hsrc : ∀ v, AGoal t P v → v ∈ List.range p.n := fun v hv => by rw [List.mem_range, hp.n]; exact hv.1
  have hdist : ∀ v, st.dist v = 0 ∧ AGoal t P v ∨ st.dist v = inf ∧ ¬AGoal t P v := by
    intro v
    by_cases hg : AGoal t P v
    · exact Or.inl ⟨hi5 v (hsrc v hg) hg, hg⟩
    · by_cases hv : v ∈ List.range p.n
      · exact Or.inr ⟨hi6 v hv hg, hg⟩
      · exact Or.inr ⟨hi4 v hv, hg⟩
  have hinv : DInv p.n (AGoal t P) E 0 [] bag st := by
    refine ⟨hi2, ?_, ?_, ?_, ?_, ?_⟩
    · intro k v hkv
      rcases (hi3 k v).mp hkv with h | ⟨rfl, h1, h2⟩
      · simp at h
      · rw [hi5 v h1 h2]
        exact ⟨by simpa using h1, by omega, by decide⟩
    · exact fun v hv => hi5 v (hsrc v hv) hv
    · intro v
      rcases hdist v with h | h <;> omega
    · intro v hv hlt
      rcases hdist v with ⟨h1, h2⟩ | h
      · exact ⟨[], by rw [h1]; exact .src v h2 (by omega)⟩
      · omega
    · intro v hv hlt
      rcases hdist v with ⟨h1, h2⟩ | h
      · left; rw [h1]; exact (hi3 0 v).mpr (Or.inr ⟨rfl, hsrc v h2, h2⟩)
      · omega
  obtain ⟨st', hl, hex⟩ := loop_spec H hG hE _ 0 bag st rfl hinv
  refine ⟨ops, tree, st'.dist, ho, htr, by simp only [computeDistances, hi1, hl], ?_⟩
  -- paths and plans
  have hsound : ∀ v k, Cost (AGoal t P) E v k → ∀ s, t.ValidState s → enc (P.map t.domain) (vals P s) = v → ∃ π, (t.project P).SolvesFrom s π ∧ (π.map (t.costWith costs)).sum = k := by
    intro v k hk
    have hlt : v < p.n ∧ Cost (AGoal t P) E v k := ⟨by
      induction hk with
      | src v hv => exact hG.src v hv
      | edge v k q c _ hin ih =>
        have := hG.range v _ c ih hin
        omega, hk⟩
    clear hlt
    induction hk with
    | src v hv =>
      rintro s hs rfl
      exact ⟨[], ⟨s, .nil s, (agoal_iff ht hP hs).mp hv⟩, by simp⟩
    | edge v k q c hcost hin ih =>
      rintro s hs rfl
      have hv : v < p.n := by
        by_contra hc
        simp [E, hc] at hin
      obtain ⟨h1, h2⟩ := hval hv
      rw [← h2] at hin
      obtain ⟨i, o, a, ho, rfl, ha, hea, hst⟩ := hE1 _ h1 _ c hin
      have hav : a = vals P s := by
        have : enc (P.map t.domain) (vals P s) = enc (P.map t.domain) a := by exact_mod_cast hea
        rw [← digits_enc ha, ← this, digits_enc (vals_valid hP.range hs)]
      subst hav
      obtain ⟨k1, s', k2, k3, k4⟩ := succ_of_astep ht hP (List.mem_of_getElem? ho) hs hst (by have := h1.length; simpa using this.symm)
      obtain ⟨π, ⟨u, k5, k6⟩, k7⟩ := ih s' k2 (by rw [k4, h2])
      refine ⟨i :: π, ⟨u, .cons s i (o.project P) s' π u (by rw [project_ops, ho]; rfl) k1 k3 k5, k6⟩, ?_⟩
      simp only [List.map_cons, List.sum_cons, k7]
      omega
  have hcomplete : ∀ s π, t.ValidState s → (t.project P).SolvesFrom s π → ∃ k, Cost (AGoal t P) E (enc (P.map t.domain) (vals P s)) k ∧ k ≤ (π.map (t.costWith costs)).sum := by
    rintro s π hs ⟨u, hex, hgoal⟩
    induction hex with
    | nil s => exact ⟨0, .src _ ((agoal_iff ht hP hs).mpr hgoal), by simp⟩
    | cons s i o' s' π u h1 h2 h3 _ ih =>
      have hs' := succ_valid (project_wf ht.wf P) (t := t.project P) hs h1 h2 h3
      obtain ⟨k, hk, hle⟩ := ih hs' hgoal
      rw [project_ops] at h1
      obtain ⟨o, ho, rfl⟩ := Option.map_eq_some_iff.mp h1
      have hst := astep_of_succ ht hP (List.mem_of_getElem? ho) hs hs' h2 h3
      simp only [List.map_cons, List.sum_cons]
      rcases hE2 _ (vals_valid hP.range hs') i o _ ho (vals_valid hP.range hs) hst with h | h
      · exact ⟨k, by rw [h]; exact hk, by omega⟩
      · exact ⟨k + t.costWith costs i, .edge _ k _ _ hk h, by omega⟩
  intro s hs
  have hlt := enc_lt_n hp (vals_valid hP.range hs)
  refine ⟨?_, fun hne => hex.bound _ hlt (by have := hex.le (enc (P.map t.domain) (vals P s)); omega)⟩
  split
  · rename_i e
    intro π hπ
    obtain ⟨k, hk, _⟩ := hcomplete s π hs hπ
    have := (hex.low _ k hk).2
    omega
  · rename_i e
    have hle := hex.le (enc (P.map t.domain) (vals P s))
    refine ⟨?_, fun π hπ => ?_⟩
    · exact hsound _ _ (hex.sound _ hlt (by omega)) s hs rfl
    · obtain ⟨k, hk, hk'⟩ := hcomplete s π hs hπ
      exact Nat.le_trans (hex.low _ k hk).1 hk'

end
end Verif.Pdb
