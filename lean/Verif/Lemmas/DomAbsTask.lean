import Verif.Lemmas.DomAbs
import Verif.Lemmas.CartBasic
import Verif.Spec.Subtasks

/-
Domain abstraction: the abstracted task simulates the task.
-/
namespace Verif.DomAbs
open Verif.Cart Verif.Stubborn

theorem mapM_eq_map {α β : Type} {f : α → Option β} {g : α → β} : ∀ {l : List α}, (∀ a ∈ l, f a = some (g a)) → l.mapM f = some (l.map g)
  | [], _ => by simp
  | a :: l, h => by
    have h1 := h a (by simp)
    have h2 := mapM_eq_map (fun b hb => h b (List.mem_cons_of_mem a hb))
    simp [h1, h2]

/-- the map of values given by the vectors -/
def alpha (maps : List (List Nat × Nat)) (v x : Nat) : Nat := ((maps[v]?).bind (fun m => m.1[x]?)).getD 0

structure MapsOk (t : Task) (groups : Nat → List (List Nat)) (maps : List (List Nat × Nat)) : Prop where
  length : maps.length = t.vars.length
  each : ∀ (v : Nat) (d : Variable), t.vars[v]? = some d → ∃ m n, maps[v]? = some (m, n) ∧ m.length = d.domain ∧ (∀ x k : Nat, m[x]? = some k → k < n) ∧ (∀ k, k < n → ∃ x : Nat, m[x]? = some k) ∧
      ∀ x y : Nat, x < d.domain → y < d.domain → (m[x]? = m[y]? ↔ x = y ∨ ∃ g ∈ groups v, x ∈ g ∧ y ∈ g)

theorem valueMaps_spec {t : Task} {vg : VarToGroups} (hk : KeysOk t vg) (hl : LegalGroups t (groupsOf vg)) : ∃ maps, valueMaps t vg = some maps ∧ MapsOk t (groupsOf vg) maps := by
  have hf : ∀ p ∈ t.vars.zipIdx, ∃ b, (match vg.lookup p.2 with | none => some (List.range p.1.domain, p.1.domain) | some groups => combineValues p.1.domain groups) = some b := by
    intro p hp
    obtain ⟨i, hi⟩ := List.mem_iff_getElem?.mp hp
    rw [List.getElem?_zipIdx] at hi
    cases hv : t.vars[i]? with
    | none => simp [hv] at hi
    | some d =>
      simp [hv] at hi
      subst hi
      cases hlk : vg.lookup i with
      | none => exact ⟨_, rfl⟩
      | some gs =>
        have hg : groupsOf vg i = gs := by simp [groupsOf, hlk]
        obtain ⟨m, n, h, _⟩ := combineValues_spec (dom := d.domain) (gs := gs) (by rw [← hg]; exact hl.disjoint i) (by rw [← hg]; exact hl.nonempty i) (by rw [← hg]; exact hl.values i d hv)
        exact ⟨_, h⟩
  obtain ⟨maps, hmaps⟩ := mapM_defined hf
  refine ⟨maps, ?_, ?_, ?_⟩
  · unfold valueMaps
    rw [if_pos (by simpa [KeysOk] using hk)]
    exact hmaps
  · rw [(mapM_getElem? hmaps).1, List.length_zipIdx]
  · intro v d hd
    obtain ⟨b, hb, hmv⟩ := (mapM_getElem? hmaps).2 v (d, v) (by rw [List.getElem?_zipIdx, hd]; simp)
    simp only at hb
    cases hlk : vg.lookup v with
    | none =>
      rw [hlk] at hb
      simp only [Option.some.injEq] at hb
      subst hb
      have hg : groupsOf vg v = [] := by simp [groupsOf, hlk]
      refine ⟨_, _, hmv, by simp, fun x k h => ?_, fun k h => ⟨k, by simp [h]⟩, fun x y hx hy => ?_⟩
      · rcases List.getElem?_eq_some_iff.mp h with ⟨h1, h2⟩
        simp at h1 h2; omega
      · simp [hg, hx, hy]
    | some gs =>
      rw [hlk] at hb
      simp only at hb
      have hg : groupsOf vg v = gs := by simp [groupsOf, hlk]
      obtain ⟨m, n, h, h2, h3, h4, h5⟩ := combineValues_spec (dom := d.domain) (gs := gs) (by rw [← hg]; exact hl.disjoint v) (by rw [← hg]; exact hl.nonempty v) (by rw [← hg]; exact hl.values v d hd)
      rw [h] at hb
      simp at hb
      subst hb
      exact ⟨m, n, hmv, h2, h3, h4, by rw [hg]; exact h5⟩

section
variable {t : Task} {groups : Nat → List (List Nat)} {maps : List (List Nat × Nat)}

theorem MapsOk.alpha (h : MapsOk t groups maps) {v : Nat} {d : Variable} (hd : t.vars[v]? = some d) {x : Nat} (hx : x < d.domain) : ∃ m, maps[v]? = some m ∧ m.1[x]? = some (alpha maps v x) := by
  obtain ⟨m, n, h1, h2, _⟩ := h.each v d hd
  refine ⟨_, h1, ?_⟩
  have : m[x]? = some m[x] := List.getElem?_eq_getElem (by omega)
  simp [DomAbs.alpha, h1, this]

theorem MapsOk.mapFact (h : MapsOk t groups maps) {f : Fact} (hf : t.ValidFact f) : mapFact maps f = some (f.rename (DomAbs.alpha maps)) := by
  obtain ⟨d, h1, h2⟩ := hf
  obtain ⟨m, k1, k2⟩ := h.alpha h1 h2
  simp [DomAbs.mapFact, k1, k2, Fact.rename]

theorem MapsOk.convert (h : MapsOk t groups maps) {s : State} (hs : t.ValidState s) : convert maps s = some (renameState (DomAbs.alpha maps) s) := by
  unfold DomAbs.convert
  rw [mapM_eq_map (g := fun p => DomAbs.alpha maps p.2 p.1)]
  · congr 1
    apply List.ext_getElem?
    intro i
    simp only [renameState, List.getElem?_map, List.getElem?_mapIdx, List.getElem?_zipIdx]
    cases s[i]? <;> simp
  · intro p hp
    obtain ⟨i, hi⟩ := List.mem_iff_getElem?.mp hp
    rw [List.getElem?_zipIdx] at hi
    cases hv : s[i]? with
    | none => simp [hv] at hi
    | some x =>
      simp [hv] at hi
      subst hi
      have hi : i < t.vars.length := by rw [← hs.1]; exact (List.getElem?_eq_some_iff.mp hv).1
      have hd := List.getElem?_eq_getElem hi
      obtain ⟨m, k1, k2⟩ := h.alpha hd (hs.2 i x _ hv hd)
      simp [k1, k2]

theorem MapsOk.mapOp (h : MapsOk t groups maps) {o : Operator} (hp : ∀ f ∈ o.pre, t.ValidFact f) (he : ∀ e ∈ o.effects, t.ValidFact e.fact) : mapOp maps o = some (o.rename (DomAbs.alpha maps)) := by
  unfold DomAbs.mapOp
  rw [mapM_eq_map (fun f hf => h.mapFact (hp f hf)), mapM_eq_map (g := fun e => (⟨e.conds, e.fact.rename (DomAbs.alpha maps)⟩ : Effect)) (fun e hm => by rw [h.mapFact (he e hm)]; rfl)]
  rfl

end

/-- the construction is defined, and its result is the abstraction of the task -/
theorem abstractTask_spec {t : Task} (hwf : t.WF) (hax : t.axioms = []) (hc : ∀ o ∈ t.ops, ∀ e ∈ o.effects, e.conds = []) {vg : VarToGroups} (hk : KeysOk t vg) (hl : LegalGroups t (groupsOf vg)) :
    ∃ t' conv α, abstractTask t vg = some (t', conv) ∧ DomainAbstraction t α t' ∧ (∀ s, t.ValidState s → conv s = some (renameState α s)) ∧
      ∀ (v : Nat) (d : Variable), t.vars[v]? = some d → ∀ x y, x < d.domain → y < d.domain → (α v x = α v y ↔ x = y ∨ ∃ g ∈ groupsOf vg v, x ∈ g ∧ y ∈ g) := by
  obtain ⟨maps, h1, h2⟩ := valueMaps_spec hk hl
  refine ⟨⟨t.vars.zipWith (fun d m => { d with domain := m.2 }) maps, t.ops.map (Operator.rename (alpha maps)), [], renameState (alpha maps) t.init, t.goal.map (Fact.rename (alpha maps))⟩, convert maps, alpha maps, ?_, ?_, fun s hs => h2.convert hs, ?_⟩
  · unfold abstractTask
    rw [if_pos ⟨hax, by simpa using hc⟩, h1]
    simp only
    rw [mapM_eq_map (fun o ho => h2.mapOp (fun f hf => hwf.pre o ho f hf) (fun e he => hwf.effFact o ho e he)), h2.convert hwf.init, mapM_eq_map (fun f hf => h2.mapFact (hwf.goalFacts f hf))]
  · have hvar : ∀ (v : Nat) (d d' : Variable), t.vars[v]? = some d → (t.vars.zipWith (fun d m => { d with domain := m.2 }) maps)[v]? = some d' → ∃ m n, maps[v]? = some (m, n) ∧ d' = { d with domain := n } ∧ m.length = d.domain ∧ (∀ x k : Nat, m[x]? = some k → k < n) ∧ (∀ k, k < n → ∃ x : Nat, m[x]? = some k) := by
      intro v d d' hd hd'
      obtain ⟨m, n, k1, k2, k3, k4, _⟩ := h2.each v d hd
      simp [List.getElem?_zipWith, hd, k1] at hd'
      exact ⟨m, n, k1, hd'.symm, k2, k3, k4⟩
    refine ⟨by simp [h2.length], fun v d d' hd hd' y => ?_, fun v d d' hd hd' => ?_, rfl, rfl, rfl, rfl⟩
    · obtain ⟨m, n, k1, rfl, k3, k4, k5⟩ := hvar v d d' hd hd'
      simp only
      constructor
      · intro hy
        obtain ⟨x, hx⟩ := k5 y hy
        exact ⟨x, by rw [← k3]; exact (List.getElem?_eq_some_iff.mp hx).1, by simp [alpha, k1, hx]⟩
      · rintro ⟨x, hx, rfl⟩
        have : m[x]? = some m[x] := List.getElem?_eq_getElem (by omega)
        have h := k4 x _ this
        simpa [alpha, k1, this] using h
    · obtain ⟨m, n, k1, rfl, k3, k4, k5⟩ := hvar v d d' hd hd'
      rfl
  · intro v d hd x y hx hy
    obtain ⟨m, n, k1, k2, k3, k4, k5⟩ := h2.each v d hd
    rw [← k5 x y hx hy]
    have hx' : m[x]? = some m[x] := List.getElem?_eq_getElem (by omega)
    have hy' : m[y]? = some m[y] := List.getElem?_eq_getElem (by omega)
    simp [alpha, k1, hx', hy']

/-! ### Simulation -/

variable {t t' : Task} {α : Nat → Nat → Nat}

theorem rename_getElem? (s : State) (v : Nat) : (renameState α s)[v]? = (s[v]?).map (α v) := by simp [renameState, List.getElem?_mapIdx]

theorem rename_length (s : State) : (renameState α s).length = s.length := by simp [renameState]

theorem holds_rename {f : Fact} {s : State} (h : f.holds s) : (f.rename α).holds (renameState α s) := by
  unfold Fact.holds Fact.rename at *
  rw [rename_getElem?, h]
  rfl

theorem allHold_rename {fs : List Fact} {s : State} (h : allHold fs s) : allHold (fs.map (Fact.rename α)) (renameState α s) := by
  intro f hf
  obtain ⟨g, hg, rfl⟩ := List.mem_map.mp hf
  exact holds_rename (h g hg)

theorem _root_.Verif.DomainAbstraction.var (hd : DomainAbstraction t α t') {v : Nat} {d : Variable} (h : t.vars[v]? = some d) : ∃ d', t'.vars[v]? = some d' := by
  have : v < t'.vars.length := by rw [hd.numVars]; exact (List.getElem?_eq_some_iff.mp h).1
  exact ⟨_, List.getElem?_eq_getElem this⟩

theorem _root_.Verif.DomainAbstraction.var' (hd : DomainAbstraction t α t') {v : Nat} {d' : Variable} (h : t'.vars[v]? = some d') : ∃ d, t.vars[v]? = some d := by
  have : v < t.vars.length := by rw [← hd.numVars]; exact (List.getElem?_eq_some_iff.mp h).1
  exact ⟨_, List.getElem?_eq_getElem this⟩

theorem _root_.Verif.DomainAbstraction.validFact (hd : DomainAbstraction t α t') {f : Fact} (h : t.ValidFact f) : t'.ValidFact (f.rename α) := by
  obtain ⟨d, h1, h2⟩ := h
  obtain ⟨d', h'⟩ := hd.var h1
  exact ⟨d', h', (hd.values _ d d' h1 h' _).mpr ⟨f.val, h2, rfl⟩⟩

theorem _root_.Verif.DomainAbstraction.validState (hd : DomainAbstraction t α t') {s : State} (h : t.ValidState s) : t'.ValidState (renameState α s) := by
  refine ⟨by rw [rename_length, h.1, hd.numVars], fun v x d' hx hd' => ?_⟩
  obtain ⟨d, hdv⟩ := hd.var' hd'
  rw [rename_getElem?] at hx
  cases hv : s[v]? with
  | none => simp [hv] at hx
  | some y =>
    simp [hv] at hx
    exact (hd.values v d d' hdv hd' x).mpr ⟨y, h.2 v y d hv hdv, hx⟩

theorem _root_.Verif.DomainAbstraction.layerOf (hd : DomainAbstraction t α t') (v : Nat) : t'.layerOf v = t.layerOf v := by
  unfold Task.layerOf
  cases h : t.vars[v]? with
  | none =>
    have : t'.vars[v]? = none := by rw [List.getElem?_eq_none_iff] at h ⊢; rw [hd.numVars]; exact h
    rw [this]
  | some d =>
    obtain ⟨d', h'⟩ := hd.var h
    simp [h', hd.layers v d d' h h']

theorem domain_le {n m : Nat} {f : Nat → Nat} (h : ∀ y, y < n → ∃ x, x < m ∧ f x = y) : n ≤ m := by
  have : (List.range n) ⊆ (List.range m).map f := by
    intro y hy
    obtain ⟨x, h1, h2⟩ := h y (by simpa using hy)
    exact List.mem_map.mpr ⟨x, by simpa using h1, h2⟩
  have := (List.subperm_of_subset List.nodup_range this).length_le
  simpa using this

theorem _root_.Verif.DomainAbstraction.wf (hd : DomainAbstraction t α t') (hwf : t.WF) (hax : t.axioms = []) (hc : ∀ o ∈ t.ops, ∀ e ∈ o.effects, e.conds = []) : t'.WF := by
  have hr : t'.rules = [] := by simp [Task.rules, hd.axioms]
  have hlay : ∀ v, t'.layerOf v = none := fun v => by rw [hd.layerOf]; exact hwf.ax.someAxioms hax v
  refine ⟨⟨by simp [hd.axioms], by simp [hr], by simp [hr], by simp [hr], by simp [hr], by simp [hr], fun _ v => hlay v, fun v d h1 h2 => ?_, by simp [hr], by simp [hr]⟩, fun d' hm => ?_, ?_, ?_, ?_, ?_, ?_⟩
  · have := hlay v
    simp [Task.layerOf, h1] at this
    exact absurd this h2
  · obtain ⟨v, hv⟩ := List.mem_iff_getElem?.mp hm
    obtain ⟨d, hdv⟩ := hd.var' hv
    have h1 := hwf.domains d (List.mem_of_getElem? hdv)
    have h2 := hd.values v d d' hdv hv
    have h3 : d'.domain ≤ d.domain := domain_le (fun y hy => (h2 y).mp hy)
    have h4 := (h2 (α v 0)).mpr ⟨0, by omega, rfl⟩
    omega
  · rw [hd.init]; exact hd.validState hwf.init
  · rw [hd.ops]
    intro o' ho' e' he'
    obtain ⟨o, ho, rfl⟩ := List.mem_map.mp ho'
    obtain ⟨e, he, rfl⟩ := List.mem_map.mp he'
    exact hd.validFact (hwf.effFact o ho e he)
  · rw [hd.ops]
    intro o' ho' e' he' c hcm
    obtain ⟨o, ho, rfl⟩ := List.mem_map.mp ho'
    obtain ⟨e, he, rfl⟩ := List.mem_map.mp he'
    simp [hc o ho e he] at hcm
  · rw [hd.ops]
    intro o' ho' f hf
    obtain ⟨o, ho, rfl⟩ := List.mem_map.mp ho'
    obtain ⟨g, hg, rfl⟩ := List.mem_map.mp hf
    exact hd.validFact (hwf.pre o ho g hg)
  · rw [hd.goal]
    intro f hf
    obtain ⟨g, hg, rfl⟩ := List.mem_map.mp hf
    exact hd.validFact (hwf.goalFacts g hg)

theorem _root_.Verif.DomainAbstraction.cartesian (hd : DomainAbstraction t α t') (ht : CartesianTask t) : CartesianTask t' := by
  refine ⟨hd.wf ht.wf ht.noAxioms ht.unconditional, hd.axioms, ?_, ?_, ?_, ?_⟩
  · rw [hd.ops]
    intro o' ho' e' he'
    obtain ⟨o, ho, rfl⟩ := List.mem_map.mp ho'
    obtain ⟨e, he, rfl⟩ := List.mem_map.mp he'
    exact ht.unconditional o ho e he
  · rw [hd.ops]
    intro o' ho'
    obtain ⟨o, ho, rfl⟩ := List.mem_map.mp ho'
    have := ht.pre o ho
    simpa [Operator.rename, Function.comp_def, Fact.rename] using this
  · rw [hd.ops]
    intro o' ho'
    obtain ⟨o, ho, rfl⟩ := List.mem_map.mp ho'
    have := ht.eff o ho
    simpa [Operator.rename, Function.comp_def, Fact.rename] using this
  · rw [hd.goal]
    have := ht.goal
    simpa [Function.comp_def, Fact.rename] using this

theorem assigned_rename {o : Operator} (hc : ∀ e ∈ o.effects, e.conds = []) (s : State) (v : Nat) : (o.rename α).assigned (renameState α s) v = (o.assigned s v).map (α v) := by
  unfold Operator.assigned Operator.rename
  simp only [List.filter_map, List.getLast?_map]
  have : List.filter ((fun e => decide (e.fires (renameState α s)) && e.fact.var == v) ∘ fun e => (⟨e.conds, e.fact.rename α⟩ : Effect)) o.effects = List.filter (fun e => decide (e.fires s) && e.fact.var == v) o.effects := by
    apply List.filter_congr
    intro e he
    simp [Effect.fires, hc e he, allHold, Fact.rename]
  rw [this]
  cases hl : (List.filter (fun e => decide (e.fires s) && e.fact.var == v) o.effects).getLast? with
  | none => rfl
  | some e =>
    have hm := List.mem_of_getLast? hl
    rw [List.mem_filter] at hm
    have : e.fact.var = v := by simpa using (by simpa using hm.2 : _ ∧ _).2
    simp [Fact.rename, this]

theorem _root_.Verif.DomainAbstraction.step (hd : DomainAbstraction t α t') (hwf : t.WF) (hax : t.axioms = []) (hc : ∀ o ∈ t.ops, ∀ e ∈ o.effects, e.conds = []) {s s' : State} {i : Nat} (h : t.Step s i s') : t'.Step (renameState α s) i (renameState α s') := by
  obtain ⟨o, ho, happ, m, hm, hs⟩ := h
  have hlay : ∀ v, t.layerOf v = none := fun v => hwf.ax.someAxioms hax v
  have hlay' : ∀ v, t'.layerOf v = none := fun v => by rw [hd.layerOf]; exact hlay v
  have hsm : s' = m := List.ext_getElem? (fun v => hs.base v (hlay v))
  subst hsm
  refine ⟨o.rename α, by rw [hd.ops, List.getElem?_map, ho]; rfl, allHold_rename happ, renameState α s', ⟨by rw [rename_length, rename_length, hm.1], fun v x hx => ?_⟩, ⟨rfl, fun _ _ => rfl, fun f hf => absurd (hlay' _) hf, fun v hv => absurd (hlay' v) hv⟩⟩
  rw [rename_getElem?] at hx ⊢
  rw [assigned_rename (hc o (List.mem_of_getElem? ho))]
  cases hv : s[v]? with
  | none => simp [hv] at hx
  | some y =>
    simp [hv] at hx
    subst hx
    rw [hm.2 v y hv]
    cases o.assigned s v <;> rfl

theorem _root_.Verif.DomainAbstraction.exec (hd : DomainAbstraction t α t') (hwf : t.WF) (hax : t.axioms = []) (hc : ∀ o ∈ t.ops, ∀ e ∈ o.effects, e.conds = []) {s u : State} {π : List Nat} (h : t.Exec s π u) : t'.Exec (renameState α s) π (renameState α u) := by
  induction h with
  | nil s => exact .nil _
  | cons s i o s' π u ho ha hsucc _ ih =>
    obtain ⟨o', k1, k2, k3⟩ := hd.step hwf hax hc ⟨o, ho, ha, hsucc⟩
    exact .cons _ i o' _ π _ k1 k2 k3 ih

end Verif.DomAbs
