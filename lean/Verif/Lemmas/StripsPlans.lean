import Verif.Lemmas.StripsTask
import Verif.Props.Axioms

/-
Translation of a grounded task: steps and plans of the new task are those of the old one.
-/
namespace Verif.StripsToSas
open Verif.SasFile
open Verif.Strips
open Verif.Simplify (lookup mkOperator)

section
variable {α : Type} [DecidableEq α] {t : StripsTask α} {groups mutexGroups : List (List α)} {o : Options} {T : SasTask}

/-- the parts of the new task -/
structure Encodes (o : Options) (groups mutexGroups : List (List α)) (t : StripsTask α) (T : SasTask) : Prop where
  ops : ∀ op, op ∈ T.operators ↔ ∃ a ∈ t.actions, ∃ cs es c, translateConds groups mutexGroups a.pre = .ok cs ∧ operatorEffects groups mutexGroups a = some es ∧ c ∈ cs ∧
    buildOperator o.keepNoOps (rangeOf groups) a.name a.cost c (impliedPre o groups mutexGroups c) es = some op
  axs : ∀ ax, ax ∈ T.axioms ↔ ∃ r ∈ t.axioms, ∃ cs c v, translateConds groups mutexGroups r.body = .ok cs ∧ c ∈ cs ∧ groups[v]? = some [r.head] ∧
    ax = ⟨c.insertionSort (fun a b => toLex (a.var, a.val) ≤ toLex (b.var, b.val)), ⟨v, 0⟩⟩
  layer : ∀ v n, layerOf T v = some n ↔ ∃ p, groups[v]? = some [p] ∧ (p, n) ∈ t.layers
  vars : T.variables.length = groups.length
  initLength : T.init.length = groups.length
  init : Represents groups (fun p => p ∈ t.init) T.init
  goal : ∃ c, translateConds groups mutexGroups t.goal = .ok [c] ∧ T.goal = c.insertionSort (fun a b => toLex (a.var, a.val) ≤ toLex (b.var, b.val))
  metric : T.metric = t.metric

theorem translateOperator_spec (hg : t.Groups groups mutexGroups) {a : Action α} (ha : a ∈ t.actions) : ∃ l, translateOperator o groups mutexGroups a = some l ∧
    ∀ op, op ∈ l ↔ ∃ cs es c, translateConds groups mutexGroups a.pre = .ok cs ∧ operatorEffects groups mutexGroups a = some es ∧ c ∈ cs ∧
      buildOperator o.keepNoOps (rangeOf groups) a.name a.cost c (impliedPre o groups mutexGroups c) es = some op := by
  unfold translateOperator
  rcases conds_spec hg (action_cov hg ha).1 with ⟨h, _⟩ | ⟨cs, h, _, _, hne, _⟩
  · rw [h]
    exact ⟨[], rfl, by simp⟩
  · rw [h]
    obtain ⟨es, hes, _, _⟩ := operatorEffects_spec (groups_nodup hg) (mutexGroups_nodup hg) (action_cov hg ha)
    cases cs with
    | nil => exact absurd rfl hne
    | cons c cs =>
      simp only
      rw [hes]
      refine ⟨_, rfl, fun op => ?_⟩
      rw [List.mem_filterMap]
      constructor
      · rintro ⟨c', hc', hb⟩
        exact ⟨_, es, c', rfl, rfl, hc', hb⟩
      · rintro ⟨cs', es', c', he, he', hc', hb⟩
        rw [Py.ok.injEq] at he
        rw [Option.some.injEq] at he'
        subst he he'
        exact ⟨c', hc', hb⟩

theorem translateAxiom_spec (hs : t.Stratified) (hg : t.Groups groups mutexGroups) {r : Strips.Rule α} (hr : r ∈ t.axioms) : translateAxiom groups mutexGroups r ≠ .error ∧
    ∀ ax, (∃ l, translateAxiom groups mutexGroups r = .ok l ∧ ax ∈ l) ↔ ∃ cs c v, translateConds groups mutexGroups r.body = .ok cs ∧ c ∈ cs ∧ groups[v]? = some [r.head] ∧
      ax = ⟨c.insertionSort (fun a b => toLex (a.var, a.val) ≤ toLex (b.var, b.val)), ⟨v, 0⟩⟩ := by
  obtain ⟨v, hv, _, hd⟩ := derived_pairs hg (hs.heads r hr)
  have huniq : ∀ w, groups[w]? = some [r.head] → w = v := by
    intro w hw
    obtain ⟨v', _, hu⟩ := hg.derived _ (hs.heads r hr)
    rw [hu w _ hw (by simp), hu v _ hv (by simp)]
  unfold translateAxiom
  rcases conds_spec hg (rule_cov hg hr) with ⟨h, _⟩ | ⟨cs, h, _⟩
  · rw [h]
    exact ⟨by simp, fun ax => by simp⟩
  · rw [h]
    simp only
    rw [hd]
    simp only [Nat.zero_le, if_true]
    refine ⟨by simp, fun ax => ⟨?_, ?_⟩⟩
    · rintro ⟨l, hl, hax⟩
      rw [Py.ok.injEq] at hl
      subst hl
      obtain ⟨c, hc, rfl⟩ := List.mem_map.mp hax
      exact ⟨cs, c, v, rfl, hc, hv, rfl⟩
    · rintro ⟨cs', c, w, he, hc, hw, rfl⟩
      rw [Py.ok.injEq] at he
      subst he
      rw [huniq w hw]
      exact ⟨_, rfl, List.mem_map.mpr ⟨c, hc, rfl⟩⟩

theorem mutexKey_some : ∀ {ps : List α}, (∀ p ∈ ps, ∃ f, dictionary groups p = some [f]) → ∃ r, mutexKey groups ps = some r ∧ ∀ f, f ∈ r ↔ ∃ p ∈ ps, dictionary groups p = some [f]
  | [], _ => ⟨[], rfl, by simp⟩
  | p :: ps, h => by
    obtain ⟨f, hf⟩ := h p (by simp)
    obtain ⟨r, hr, hm⟩ := mutexKey_some (ps := ps) (fun q hq => h q (List.mem_cons_of_mem _ hq))
    rw [mutexKey, hf]
    simp only
    rw [hr]
    refine ⟨f :: r, rfl, fun f' => ?_⟩
    rw [List.mem_cons, hm]
    simp only [List.mem_cons, exists_eq_or_imp, hf, Option.some.injEq, List.cons.injEq, and_true]
    rw [eq_comm]

theorem partition_dictionary (hn : ∀ g ∈ groups, g.Nodup) (hp : Partition groups mutexGroups) {p : α} (h : ∃ g ∈ groups ++ mutexGroups, p ∈ g) : ∃ f, pairs groups p = [f] ∧ dictionary groups p = some [f] := by
  obtain ⟨v, g, hv, hpg, hu⟩ := hp p h
  obtain ⟨i, _, hps⟩ := pairs_single hn hv hpg hu
  refine ⟨_, hps, ?_⟩
  rw [dictionary_some ⟨g, List.mem_of_getElem? hv, hpg⟩, hps]

theorem mutexes_spec (hn : ∀ g ∈ groups, g.Nodup) (hp : o.partialEncoding = true → Partition groups mutexGroups) : ∃ ms, mutexes o groups mutexGroups = some ms ∧
    ∀ m ∈ ms, ∃ g ∈ mutexGroups, ∃ r, mutexKey groups g = some r ∧ (∀ f, f ∈ r ↔ ∃ p ∈ g, dictionary groups p = some [f]) ∧ m = r.insertionSort (fun a b => toLex (a.var, a.val) ≤ toLex (b.var, b.val)) := by
  unfold mutexes
  split
  · rename_i h
    have hall : ∀ g ∈ mutexGroups, ∃ r, mutexKey groups g = some r ∧ ∀ f, f ∈ r ↔ ∃ p ∈ g, dictionary groups p = some [f] := fun g hg => mutexKey_some (fun p hpg => by
      obtain ⟨f, _, hf⟩ := partition_dictionary hn (hp h) ⟨g, List.mem_append_right _ hg, hpg⟩
      exact ⟨f, hf⟩)
    obtain ⟨ms, hms⟩ := Mas.mapAll_defined (f := mutexKey groups) (l := mutexGroups) (fun g hg => by
      obtain ⟨r, hr, _⟩ := hall g hg
      exact ⟨r, hr⟩)
    refine ⟨_, by rw [hms]; rfl, fun m hm => ?_⟩
    obtain ⟨r, hr, rfl⟩ := List.mem_map.mp hm
    obtain ⟨g, hg, hgr⟩ := Mas.mapAll_mem hms hr
    obtain ⟨r', hr', hm'⟩ := hall g hg
    rw [hgr, Option.some.injEq] at hr'
    subst hr'
    exact ⟨g, hg, r, hgr, hm', rfl⟩
  · exact ⟨[], rfl, by simp⟩

theorem translateRest_spec (hs : t.Stratified) (hg : t.Groups groups mutexGroups) (hp : o.partialEncoding = true → Partition groups mutexGroups) {names : List (List (List Char))} (hn : Named groups names)
    {init : List Nat} (hil : init.length = groups.length) (hi : Represents groups (fun p => p ∈ t.init) init) {c : List Fact} (hgoal : translateConds groups mutexGroups t.goal = .ok [c]) :
    ∃ T, translateRest o groups mutexGroups names t init c = some T ∧ Encodes o groups mutexGroups t T ∧ some T.mutexes = mutexes o groups mutexGroups ∧ T.init = init ∧ T.variables.map (·.valueNames) = names := by
  have hnl : names.length = groups.length := by
    have := congrArg List.length hn
    simpa using this
  obtain ⟨ops, hops⟩ := gather_some (f := operatorsFor o groups mutexGroups) (xs := t.actions) (fun a ha => by
    obtain ⟨l, hl, _⟩ := translateOperator_spec (o := o) hg ha
    unfold operatorsFor
    rw [hl]
    simp)
  obtain ⟨axs, haxs⟩ := gather_some (f := translateAxiom groups mutexGroups) (xs := t.axioms) (fun r hr => (translateAxiom_spec hs hg hr).1)
  obtain ⟨ls, hls, hll, hlv⟩ := layers_spec hs hg
  obtain ⟨ms, hms, _⟩ := mutexes_spec (o := o) (groups_nodup hg) hp
  unfold translateRest
  rw [hops, haxs, hls, hms]
  refine ⟨_, rfl, ⟨fun op => ?_, fun ax => ?_, fun v n => ?_, by simp [hll, hnl], hil, hi, ⟨c, hgoal, rfl⟩, rfl⟩, rfl, rfl, ?_⟩
  · simp only
    rw [(List.perm_insertionSort _ _).mem_iff, gather_mem hops]
    refine exists_congr fun a => and_congr_right fun ha => ?_
    obtain ⟨l, hl, hm⟩ := translateOperator_spec (o := o) hg ha
    unfold operatorsFor
    rw [hl, ← hm]
    simp
  · simp only
    rw [(List.perm_insertionSort _ _).mem_iff, gather_mem haxs]
    exact exists_congr fun r => and_congr_right fun hr => (translateAxiom_spec hs hg hr).2 ax
  · rw [← hlv]
    unfold layerOf
    simp only [List.getElem?_map]
    by_cases hv : v < groups.length
    · have h1 : v < ls.length := by omega
      have h2 : v < names.length := by omega
      have : (ls.zip names)[v]? = some (ls[v], names[v]) := by
        rw [List.getElem?_zip_eq_some]
        exact ⟨List.getElem?_eq_getElem h1, List.getElem?_eq_getElem h2⟩
      rw [this, List.getElem?_eq_getElem h1]
      simp
    · rw [List.getElem?_eq_none (by simp; omega), List.getElem?_eq_none (by omega)]
      simp
  · simp only [List.map_map]
    have : (SasVariable.valueNames ∘ fun v : Option Nat × List (List Char) => (⟨v.1, v.2⟩ : SasVariable)) = Prod.snd := rfl
    rw [this, List.map_snd_zip (by omega)]

section
variable (hs : t.Stratified) (hg : t.Groups groups mutexGroups) (hE : Encodes o groups mutexGroups t T)
include hE

theorem Encodes.lengths : T.init.length = T.variables.length := by rw [hE.initLength, hE.vars]

theorem Encodes.derived_iff (v : Nat) : T.task.layerOf v ≠ none ↔ ∃ p, groups[v]? = some [p] ∧ t.Derived p := by
  rw [task_layer hE.lengths, ← Option.isSome_iff_ne_none, Option.isSome_iff_exists]
  simp only [hE.layer]
  constructor
  · rintro ⟨n, p, h1, h2⟩
    exact ⟨p, h1, n, h2⟩
  · rintro ⟨p, h1, n, h2⟩
    exact ⟨n, p, h1, h2⟩

include hs in
theorem Encodes.default {v : Nat} {p : α} (hv : groups[v]? = some [p]) (hp : t.Derived p) : T.task.defaultOf v = 1 := by
  have h : T.init[v]? = some (rangeOf groups v - 1) := hE.init.none hv (fun q hq hi => by
    rw [List.mem_singleton.mp hq] at hi
    exact hs.init p hi hp)
  have h2 : rangeOf groups v - 1 = 1 := by simp [rangeOf, hv]
  rw [h2] at h
  exact task_default hE.lengths h

theorem Encodes.rules {r : Rule} : r ∈ T.task.rules ↔ ∃ r' ∈ t.axioms, ∃ cs c v, translateConds groups mutexGroups r'.body = .ok cs ∧ c ∈ cs ∧ groups[v]? = some [r'.head] ∧
    r = ⟨c.insertionSort (fun a b => toLex (a.var, a.val) ≤ toLex (b.var, b.val)), ⟨v, 0⟩⟩ := by
  rw [mem_task_rules]
  constructor
  · rintro ⟨ax, hax, rfl⟩
    obtain ⟨r', hr', cs, c, v, h1, h2, h3, rfl⟩ := (hE.axs ax).mp hax
    exact ⟨r', hr', cs, c, v, h1, h2, h3, rfl⟩
  · rintro ⟨r', hr', cs, c, v, h1, h2, h3, rfl⟩
    exact ⟨_, (hE.axs _).mpr ⟨r', hr', cs, c, v, h1, h2, h3, rfl⟩, rfl⟩

omit hE in
/-- facts of derived variables in a condition -/
theorem derived_fact {conds : List (Literal α)} {c : List Fact} (hc : Translates groups conds c) {f : Fact} (hf : f ∈ c) {p : α} (hv : groups[f.var]? = some [p]) :
    (f.val = 0 ∧ ∃ l ∈ conds, l.negated = false ∧ l.atom = p) ∨ (f.val = 1 ∧ ∃ l ∈ conds, l.negated = true ∧ l.atom = p) := by
  have hone : ∀ {q : α} {i : Nat}, (⟨f.var, i⟩ : Fact) ∈ pairs groups q → i = 0 ∧ q = p := by
    intro q i h
    obtain ⟨g, hg, hq⟩ := mem_pairs.mp h
    simp only at hg hq
    rw [hv, Option.some.injEq] at hg
    subst hg
    cases i with
    | zero => simpa [eq_comm] using hq
    | succ i => simp at hq
  have hval := hc.valid f hf
  rw [rangeOf, hv] at hval
  simp only [List.length_cons, List.length_nil] at hval
  rcases hc.origin f hf with ⟨l, hl, hn, hp⟩ | ⟨l, hl, hn, i, hi, hp⟩
  · obtain ⟨h1, h2⟩ := hone (i := f.val) hp
    exact Or.inl ⟨h1, l, hl, hn, h2⟩
  · obtain ⟨h1, h2⟩ := hone hp
    exact Or.inr ⟨by omega, l, hl, hn, h2⟩

include hs hg

theorem Encodes.stratified : Axioms.Stratified T.task := by
  have key : ∀ r ∈ T.task.rules, ∀ f ∈ r.body, ∀ n m, T.task.layerOf f.var = some n → T.task.layerOf r.head.var = some m → n ≤ m ∧ (f.val = T.task.defaultOf f.var → n < m) := by
    intro r hr f hf n m hn hm
    obtain ⟨r', hr', cs, c, v, h1, h2, h3, rfl⟩ := hE.rules.mp hr
    rw [task_layer hE.lengths, hE.layer] at hn hm
    obtain ⟨p, hp, hpn⟩ := hn
    obtain ⟨q, hq, hqm⟩ := hm
    simp only at hq
    rw [h3, Option.some.injEq, List.cons.injEq] at hq
    obtain ⟨rfl, _⟩ := hq
    rcases conds_spec hg (rule_cov hg hr') with ⟨h, _⟩ | ⟨cs', h, hT, _⟩
    · rw [h1] at h
      cases h
    · rw [h1, Py.ok.injEq] at h
      subst h
      have hd := derived_fact (hT c h2) (mem_sortFacts.mp hf) hp
      have hdef := hE.default hs hp ⟨n, hpn⟩
      rcases hd with ⟨h0, l, hl, hln, rfl⟩ | ⟨h1, l, hl, hln, rfl⟩
      · refine ⟨(hs.layered r' hr' l hl n m hpn hqm).1, fun h => ?_⟩
        rw [hdef] at h
        omega
      · have := hs.layered r' hr' l hl n m hpn hqm
        exact ⟨this.1, fun _ => this.2 hln⟩
  exact ⟨fun r hr f hf n m hn hm => (key r hr f hf n m hn hm).1, fun r hr f hf n m hn hm => (key r hr f hf n m hn hm).2⟩

/-- the values of the variables follow from the axioms, if the atoms do -/
theorem Encodes.stable {b s : α → Prop} (hb : t.Completes b s) (hr : t.Reachable s) {m : State} (hm : m.length = groups.length) (hmv : ∀ v, T.task.layerOf v = none → m[v]? = (enc groups s)[v]?) :
    StableModel T.task m (enc groups s) := by
  have hR := rep hg hr
  have hval : ∀ {v : Nat} {p : α}, groups[v]? = some [p] → ((enc groups s)[v]? = some 0 ↔ s p) ∧ ((enc groups s)[v]? = some 1 ↔ ¬ s p) := by
    intro v p hv
    obtain ⟨y, hy, hlt, hi⟩ := hR v _ hv
    have h0 := hi 0 p (by simp)
    simp only [List.length_cons, List.length_nil] at hlt
    rw [hy]
    simp only [Option.some.injEq]
    refine ⟨h0, ?_⟩
    rw [← h0]
    omega
  -- from atoms to facts
  have fwd : ∀ p, t.Derives s p → ∀ v, groups[v]? = some [p] → Derives T.task m (fun c => c.holds (enc groups s)) ⟨v, 0⟩ := by
    intro p hd
    induction hd with
    | rule r hrm hneg hbase hpos ih =>
      intro v hv
      have hall : ∀ l ∈ r.body, l.holds s := by
        intro l hl
        unfold Literal.holds
        cases hn : l.negated with
        | true => simpa using hneg l hl hn
        | false =>
          by_cases hd : t.Derived l.atom
          · simpa using (hb.derived _ hd).mpr (hpos l hl hn hd)
          · simpa using hbase l hl hn hd
      rcases conds_spec hg (rule_cov hg hrm) with ⟨_, h⟩ | ⟨cs, h, hT, hex, _⟩
      · exact absurd hall (h s hr)
      · obtain ⟨c, hc, hcx⟩ := hex s hr hall
        refine Derives.rule (⟨c.insertionSort (fun a b => toLex (a.var, a.val) ≤ toLex (b.var, b.val)), ⟨v, 0⟩⟩ : Rule) (hE.rules.mpr ⟨r, hrm, cs, c, v, h, hc, hv, rfl⟩) (fun f hf hl => ?_) (fun f hf _ _ => hcx f (mem_sortFacts.mp hf)) (fun f hf hl hd => ?_)
        · have := hcx f (mem_sortFacts.mp hf)
          unfold Fact.holds at this ⊢
          rw [hmv _ hl]
          exact this
        · obtain ⟨q, hq, hqd⟩ := (hE.derived_iff f.var).mp hl
          rw [hE.default hs hq hqd] at hd
          rcases derived_fact (hT c hc) (mem_sortFacts.mp hf) hq with ⟨h0, l, hlb, hln, rfl⟩ | ⟨h1, _⟩
          · have := ih l hlb hln hqd f.var hq
            rw [show f = ⟨f.var, 0⟩ by rw [← h0]]
            exact this
          · exact absurd h1 hd
  -- from facts to atoms
  have bwd : ∀ f, Derives T.task m (fun c => c.holds (enc groups s)) f → f.val = 0 ∧ ∃ p, groups[f.var]? = some [p] ∧ t.Derives s p := by
    intro f hd
    induction hd with
    | rule r hrm hbase hneg hpos ih =>
      obtain ⟨r', hr', cs, c, v, h1, h2, h3, rfl⟩ := hE.rules.mp hrm
      refine ⟨rfl, r'.head, h3, ?_⟩
      rcases conds_spec hg (rule_cov hg hr') with ⟨h, _⟩ | ⟨cs', h, hT, _⟩
      · rw [h1] at h
        cases h
      · rw [h1, Py.ok.injEq] at h
        subst h
        have hTc := hT c h2
        have hnd : ∀ f : Fact, T.task.layerOf f.var = none → f ∈ c → f.holds (enc groups s) := by
          intro f hl hf
          have := hbase f (mem_sortFacts.mpr hf) hl
          unfold Fact.holds at this ⊢
          rw [← hmv _ hl]
          exact this
        refine StripsTask.Derives.rule r' hr' (fun l hl hln => ?_) (fun l hl hln hld => ?_) (fun l hl hln hld => ?_)
        · obtain ⟨f, hf, y, hy, hyc⟩ := hTc.neg l hl hln
          have hh : (⟨f.var, y⟩ : Fact).holds (enc groups s) := by
            by_cases hlay : T.task.layerOf f.var = none
            · exact hnd _ hlay hyc
            · obtain ⟨q, hq, hqd⟩ := (hE.derived_iff f.var).mp hlay
              refine hneg _ (mem_sortFacts.mpr hyc) hlay ?_
              rw [hE.default hs hq hqd]
              have hy2 := hTc.valid _ hyc
              rw [rangeOf] at hy2
              simp only [hq, List.length_cons, List.length_nil] at hy2
              have hf0 : f.val = 0 := by
                have := pairs_range hf
                rw [rangeOf, hq] at this
                simp only [List.length_cons, List.length_nil] at this
                omega
              simp only
              omega
          intro hsl
          have := (hR.fact hf).mpr hsl
          unfold Fact.holds at this hh
          simp only at hh
          rw [hh, Option.some.injEq] at this
          exact hy this
        · obtain ⟨f, hf⟩ := List.exists_mem_of_ne_nil _ (pairs_ne_nil (rule_cov hg hr' l hl).1)
          have hfc := hTc.pos l hl hln f hf
          have hlay : T.task.layerOf f.var = none := by
            by_contra hlay
            obtain ⟨q, hq, hqd⟩ := (hE.derived_iff f.var).mp hlay
            obtain ⟨g, hgv, hp⟩ := mem_pairs.mp hf
            rw [hq, Option.some.injEq] at hgv
            subst hgv
            have := List.mem_singleton.mp (List.mem_of_getElem? hp)
            exact hld (this ▸ hqd)
          exact (hR.fact hf).mp (hnd f hlay hfc)
        · obtain ⟨w, hw, hps, _⟩ := derived_pairs hg hld
          have hfc := hTc.pos l hl hln ⟨w, 0⟩ (by rw [hps]; simp)
          have hlay : T.task.layerOf w ≠ none := (hE.derived_iff w).mpr ⟨_, hw, hld⟩
          obtain ⟨_, p, hp, hd⟩ := ih ⟨w, 0⟩ (mem_sortFacts.mpr hfc) hlay (by rw [hE.default hs hw hld]; simp)
          simp only at hp
          rw [hw, Option.some.injEq, List.cons.injEq] at hp
          rw [hp.1]
          exact hd
  refine ⟨by rw [enc_length, hm], fun v hv => (hmv v hv).symm, fun f hl hd => ?_, fun v hl => ?_⟩
  · obtain ⟨p, hp, hpd⟩ := (hE.derived_iff f.var).mp hl
    constructor
    · intro hh
      unfold Fact.holds at hh
      obtain ⟨y, hy, hlt, _⟩ := hR _ _ hp
      rw [hE.default hs hp hpd] at hd
      rw [hh, Option.some.injEq] at hy
      simp only [List.length_cons, List.length_nil] at hlt
      have h0 : f.val = 0 := by omega
      rw [h0] at hh
      have := fwd p ((hb.derived p hpd).mp ((hval hp).1.mp hh)) f.var hp
      rw [show f = ⟨f.var, 0⟩ by rw [← h0]]
      exact this
    · intro hder
      obtain ⟨h0, q, hq, hqd⟩ := bwd f hder
      rw [hp, Option.some.injEq, List.cons.injEq] at hq
      obtain ⟨rfl, _⟩ := hq
      unfold Fact.holds
      rw [h0]
      exact (hval hp).1.mpr ((hb.derived p hpd).mpr hqd)
  · obtain ⟨p, hp, hpd⟩ := (hE.derived_iff v).mp hl
    rw [hE.default hs hp hpd, (hval hp).2, hb.derived p hpd]
    constructor
    · intro hno hd
      exact hno 0 (by simp) (fwd p hd v hp)
    · intro hno x hx hd
      obtain ⟨_, q, hq, hqd⟩ := bwd _ hd
      simp only at hq
      rw [hp, Option.some.injEq, List.cons.injEq] at hq
      obtain ⟨rfl, _⟩ := hq
      exact hno hqd

theorem Encodes.unique {b s : α → Prop} (hb : t.Completes b s) (hr : t.Reachable s) {m x : State} (hm : m.length = groups.length) (hmv : ∀ v, T.task.layerOf v = none → m[v]? = (enc groups s)[v]?)
    (hx : StableModel T.task m x) : x = enc groups s :=
  Axioms.stable_unique_of (hE.stratified hs hg) rfl (fun _ _ => rfl) (by simp [SasTask.task, hE.vars, hE.initLength, hm]) hx (hE.stable hs hg hb hr hm hmv)

end
end
end Verif.StripsToSas
