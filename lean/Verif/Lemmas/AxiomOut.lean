import Verif.Lemmas.AxiomLayers
import Verif.Lemmas.AxiomSimplify
import Verif.Lemmas.StripsStable

/-
Lemmas about the result of the treatment of axioms, and the link between states before and after it.
-/
namespace Verif.AxiomRules
open Verif.Strips
variable {α : Type} [LinearOrder α] {t : StripsTask α} {max : Bool} {ax : List (Strips.Rule α)} {ls : List (α × Nat)}

/-- the treatment ends with clusters; it fails if one of them has a dependency by negation -/
theorem handleAxioms_cases (max : Bool) (t : StripsTask α) : ∃ groups, Clusters t groups ∧
    ((negativeLoop t.axioms groups = true ∧ handleAxioms max t = .notStratifiable) ∨
     (negativeLoop t.axioms groups = false ∧ handleAxioms max t = .ok (groups.flatMap (fun c => c.flatMap (axiomsOf t.axioms))) (axiomLayers max t.axioms groups))) := by
  obtain ⟨necessary, h1, h2⟩ := necessaryAtoms_spec (t := t)
  obtain ⟨groups, h3, h4⟩ := components_spec (t := t) (derived := (derivedVars t.axioms).filter (fun p => necessary.contains p)) ((List.nodup_dedup _).filter _)
    (by
      intro p
      rw [List.mem_filter, mem_derivedVars, List.contains_iff_mem, h2]
      exact ⟨fun h => h.2, fun h => ⟨needed_head h, h⟩⟩)
  refine ⟨groups, h4, ?_⟩
  unfold handleAxioms
  rw [h1]
  simp only []
  rw [h3]
  simp only []
  cases hn : negativeLoop t.axioms groups
  · exact .inr ⟨rfl, by simp⟩
  · exact .inl ⟨rfl, by simp⟩

theorem mutual_layer {layer : α → Nat} (h : t.Stratification t.Needed layer) {p q : α} (hp : t.Needed p) (hm : t.Mutual p q) : layer p = layer q := by
  obtain ⟨h1, h2⟩ := stratification_reach h hp hm.1
  obtain ⟨h3, _⟩ := stratification_reach h h2 hm.2
  omega

theorem cluster_needed {groups : List (List α)} (hc : Clusters t groups) {c : List α} (h : c ∈ groups) {p : α} (hp : p ∈ c) : t.Needed p := (hc.mem p).mp (List.mem_flatten.mpr ⟨c, h, hp⟩)

theorem negativeLoop_true {groups : List (List α)} (hc : Clusters t groups) (h : negativeLoop t.axioms groups = true) (layer : α → Nat) : ¬ t.Stratification t.Needed layer := by
  intro hs
  unfold negativeLoop at h
  simp only [List.any_eq_true, List.contains_iff_mem] at h
  obtain ⟨c, hcg, p, hp, q, hq, hqc⟩ := h
  have hn := cluster_needed hc hcg hp
  have h1 := (stratification_dep hs hn hq).2 rfl
  have h2 := mutual_layer hs hn ((hc.same c hcg p hp q).mp hqc)
  omega

theorem axiomLayers_layered (max : Bool) {groups : List (List α)} (hc : Clusters t groups) (hneg : negativeLoop t.axioms groups = false) {p q : α} {n m : Nat}
    (hp : (p, m) ∈ axiomLayers max t.axioms groups) (hq : (q, n) ∈ axiomLayers max t.axioms groups) {neg : Bool} (hd : q ∈ dependencies t.axioms neg p) : n ≤ m ∧ (neg = true → n < m) := by
  have hL : Layered t (if max then maxLayers groups else minLayers t.axioms groups) := by
    cases max
    · exact minLayers_layered hc.nodup hc.order (negativeLoop_false hneg)
    · exact maxLayers_layered hc.nodup hc.order (negativeLoop_false hneg)
  unfold axiomLayers at hp hq
  obtain ⟨c, hc, hpc⟩ := mem_flat.mp hp
  obtain ⟨d, hd', hqd⟩ := mem_flat.mp hq
  have := hL _ hc _ hd' p hpc q hqd
  cases neg
  · exact ⟨this.1 hd, by simp⟩
  · exact ⟨(this.2 hd).le, fun _ => this.2 hd⟩

theorem mem_layers_needed {groups : List (List α)} (hc : Clusters t groups) {p : α} : (∃ n, (p, n) ∈ axiomLayers max t.axioms groups) ↔ t.Needed p := by
  rw [← hc.mem, ← axiomLayers_fst (t := t) max groups, List.mem_map]
  constructor
  · rintro ⟨n, hn⟩
    exact ⟨(p, n), hn, rfl⟩
  · rintro ⟨⟨q, n⟩, hn, rfl⟩
    exact ⟨n, hn⟩

theorem kept_axioms {groups : List (List α)} (hc : Clusters t groups) {r : Strips.Rule α} (hr : r ∈ groups.flatMap (fun c => c.flatMap (axiomsOf t.axioms))) :
    t.Needed r.head ∧ ¬ SelfUse r ∧ ∃ r0 ∈ t.axioms, r = cleanBody r0 := by
  obtain ⟨c, hcg, hr⟩ := List.mem_flatMap.mp hr
  obtain ⟨p, hp, hr⟩ := List.mem_flatMap.mp hr
  obtain ⟨h1, h2⟩ := (simplify_spec (t.axioms.filter (fun r => r.head == p))).mem r hr
  obtain ⟨r0, h3, rfl⟩ := List.mem_map.mp h1
  obtain ⟨h4, h5⟩ := List.mem_filter.mp h3
  have hh : (cleanBody r0).head = p := beq_iff_eq.mp h5
  exact ⟨hh ▸ cluster_needed hc hcg hp, h2, r0, h4, rfl⟩

theorem kept_covers {groups : List (List α)} (hc : Clusters t groups) {r0 : Strips.Rule α} (hr : r0 ∈ t.axioms) (hn : t.Needed r0.head) :
    SelfUse r0 ∨ ∃ r ∈ groups.flatMap (fun c => c.flatMap (axiomsOf t.axioms)), r.head = r0.head ∧ ∀ l ∈ r.body, l ∈ r0.body := by
  obtain ⟨c, hcg, hp⟩ := List.mem_flatten.mp ((hc.mem _).mpr hn)
  have hspec := simplify_spec (t.axioms.filter (fun r => r.head == r0.head))
  rcases hspec.covers (cleanBody r0) (List.mem_map.mpr ⟨r0, List.mem_filter.mpr ⟨hr, by simp⟩, rfl⟩) with h | ⟨r, h1, h2⟩
  · exact .inl (selfUse_cleanBody.mp h)
  · refine .inr ⟨r, List.mem_flatMap.mpr ⟨c, hcg, List.mem_flatMap.mpr ⟨_, hp, h1⟩⟩, ?_, fun l hl => mem_cleanBody.mp (h2 l hl)⟩
    obtain ⟨r1, h3, rfl⟩ := List.mem_map.mp (hspec.mem r h1).1
    exact beq_iff_eq.mp (List.mem_filter.mp h3).2

theorem head_axiomsOf {p : α} {r : Strips.Rule α} (hr : r ∈ axiomsOf t.axioms p) : r.head = p := by
  obtain ⟨h1, _⟩ := (simplify_spec (t.axioms.filter (fun r => r.head == p))).mem r hr
  obtain ⟨r0, h3, rfl⟩ := List.mem_map.mp h1
  exact beq_iff_eq.mp (List.mem_filter.mp h3).2

theorem kept_minimal {groups : List (List α)} (hc : Clusters t groups) :
    (groups.flatMap (fun c => c.flatMap (axiomsOf t.axioms))).Pairwise (fun r r' => r.head = r'.head → ¬ (∀ l ∈ r.body, l ∈ r'.body) ∧ ¬ (∀ l ∈ r'.body, l ∈ r.body)) := by
  have hflat : groups.flatMap (fun c => c.flatMap (axiomsOf t.axioms)) = groups.flatten.flatMap (axiomsOf t.axioms) := by
    generalize groups = gs
    induction gs with
    | nil => rfl
    | cons c cs ih => rw [List.flatMap_cons, ih, List.flatten_cons, List.flatMap_append]
  rw [hflat]
  have hnd := hc.nodup
  revert hnd
  generalize groups.flatten = ps
  intro hnd
  induction ps with
  | nil => exact .nil
  | cons p ps ih =>
    rw [List.nodup_cons] at hnd
    rw [List.flatMap_cons, List.pairwise_append]
    refine ⟨List.Pairwise.imp (fun {r r'} h (_ : r.head = r'.head) => h) (simplify_spec (t.axioms.filter (fun r => r.head == p))).minimal, ih hnd.2, ?_⟩
    intro r hr r' hr' he
    obtain ⟨q, hq, hr'⟩ := List.mem_flatMap.mp hr'
    rw [head_axiomsOf hr, head_axiomsOf hr'] at he
    exact absurd (he ▸ hq) hnd.1

/-- the output, as far as the semantics is concerned -/
structure Out (t : StripsTask α) (ax : List (Strips.Rule α)) (ls : List (α × Nat)) : Prop where
  layers : ∀ p, (∃ n : Nat, (p, n) ∈ ls) ↔ t.Needed p
  mem : ∀ r ∈ ax, t.Needed r.head ∧ ∃ r0 ∈ t.axioms, r.head = r0.head ∧ ∀ l, l ∈ r.body ↔ l ∈ r0.body
  covers : ∀ r0 ∈ t.axioms, t.Needed r0.head → SelfUse r0 ∨ ∃ r ∈ ax, r.head = r0.head ∧ ∀ l ∈ r.body, l ∈ r0.body
  once : (ls.map (·.1)).Nodup
  layered : ∀ p q (n m : Nat), (p, m) ∈ ls → (q, n) ∈ ls → ∀ neg : Bool, q ∈ dependencies t.axioms neg p → n ≤ m ∧ (neg = true → n < m)

theorem handleAxioms_out (h : handleAxioms max t = .ok ax ls) : Out t ax ls := by
  obtain ⟨groups, hc, h1 | ⟨h1, h2⟩⟩ := handleAxioms_cases max t
  · rw [h1.2] at h
    cases h
  · rw [h2] at h
    injection h with e1 e2
    subst e1 e2
    refine ⟨fun p => mem_layers_needed hc, fun r hr => ?_, fun r0 h3 h4 => kept_covers hc h3 h4, ?_, fun p q n m hp hq neg hd => axiomLayers_layered max hc h1 hp hq hd⟩
    · obtain ⟨h3, _, r0, h4, rfl⟩ := kept_axioms hc hr
      exact ⟨h3, r0, h4, rfl, fun l => mem_cleanBody⟩
    · rw [axiomLayers_fst]
      exact hc.nodup

section
variable (o : Out t ax ls)
include o

theorem out_derived {p : α} : ({ t with axioms := ax, layers := ls } : StripsTask α).Derived p ↔ t.Needed p := o.layers p

theorem body_cases {r0 : Strips.Rule α} (hr : r0 ∈ t.axioms) (hn : t.Needed r0.head) {l : Literal α} (hl : l ∈ r0.body) : t.Needed l.atom ↔ t.Head l.atom :=
  ⟨needed_head, fun hh => .body r0 hr hn l hl hh⟩

theorem out_stratified (hd : t.DerivedOnly) : ({ t with axioms := ax, layers := ls } : StripsTask α).Stratified := by
  refine ⟨o.once, fun r hr => (o.layers _).mpr (o.mem r hr).1, ?_, ?_, ?_⟩
  · intro r hr l hl n m hn hm
    obtain ⟨h1, r0, h2, h3, h4⟩ := o.mem r hr
    refine o.layered r.head l.atom n m hm hn l.negated ?_
    exact mem_dependencies.mpr ⟨r0, h2, h3.symm, l, (h4 l).mp hl, rfl, rfl, needed_head ((o.layers _).mp ⟨n, hn⟩)⟩
  · intro a ha e he hder
    exact hd.effects a ha e he (needed_head ((o.layers _).mp hder))
  · intro p hp hder
    exact hd.init p hp (needed_head ((o.layers _).mp hder))
end

theorem fromHeads_derived {p : α} : t.fromHeads.Derived p ↔ t.Head p := by
  unfold StripsTask.Derived StripsTask.fromHeads StripsTask.Head
  simp only [List.mem_map, Prod.mk.injEq]
  constructor
  · rintro ⟨n, r, hr, h1, _⟩
    exact ⟨r, hr, h1⟩
  · rintro ⟨r, hr, h1⟩
    exact ⟨0, r, hr, h1, rfl⟩

/-- states agree on all atoms but derived atoms that are not needed -/
def Agree (t : StripsTask α) (s s' : α → Prop) : Prop := ∀ p, (t.Head p → t.Needed p) → (s p ↔ s' p)

theorem derives_congr {t1 t2 : StripsTask α} (ha : t1.axioms = t2.axioms) (hd : ∀ p, t1.Derived p ↔ t2.Derived p) {s : α → Prop} {p : α} (h : t1.Derives s p) : t2.Derives s p := by
  induction h with
  | rule r hr hneg hbase hpos ih =>
    exact .rule r (ha ▸ hr) hneg (fun l hl hn hnd => hbase l hl hn (fun h => hnd ((hd _).mp h))) (fun l hl hn hdd => ih l hl hn ((hd _).mpr hdd))

theorem completes_congr {t1 t2 : StripsTask α} (ha : t1.axioms = t2.axioms) (hd : ∀ p, t1.Derived p ↔ t2.Derived p) {b s : α → Prop} (h : t1.Completes b s) : t2.Completes b s :=
  ⟨fun p hp => h.base p fun hx => hp ((hd p).mp hx), fun p hp => (h.derived p ((hd p).mpr hp)).trans ⟨derives_congr ha hd, derives_congr ha.symm fun q => (hd q).symm⟩⟩

open Classical in
theorem completes_out (o : Out t ax ls) {b b' s : α → Prop} (h : t.fromHeads.Completes b s) (hb : ∀ p, ¬ t.Head p → (b p ↔ b' p)) :
    ∃ s', ({ t with axioms := ax, layers := ls } : StripsTask α).Completes b' s' ∧ Agree t s s' := by
  have hagree : Agree t s (fun p => if t.Head p ∧ ¬ t.Needed p then b' p else s p) := by
    intro p hp
    simp only
    rw [if_neg fun hx => hx.2 (hp hx.1)]
  refine ⟨fun p => if t.Head p ∧ ¬ t.Needed p then b' p else s p, ⟨?_, ?_⟩, hagree⟩
  · intro p hp
    have hp : ¬ t.Needed p := fun hx => hp ((out_derived o).mpr hx)
    by_cases hh : t.Head p
    · rw [if_pos ⟨hh, hp⟩]
    · rw [if_neg fun hx => hh hx.1, ← hb p hh]
      exact h.base p fun hx => hh (fromHeads_derived.mp hx)
  · intro p hp
    replace hp : t.Needed p := (out_derived o).mp hp
    refine (hagree p fun _ => hp).symm.trans ?_
    rw [h.derived p (fromHeads_derived.mpr (needed_head hp))]
    constructor
    · intro hder
      induction hder with
      | rule r hr hneg hbase hpos ih =>
        replace hr : r ∈ t.axioms := hr
        have hag : ∀ l ∈ r.body, (s l.atom ↔ (fun p => if t.Head p ∧ ¬ t.Needed p then b' p else s p) l.atom) := fun l hl => hagree l.atom fun hh => .body r hr hp l hl hh
        rcases o.covers r hr hp with hself | ⟨r', hr', hh, hsub⟩
        · exact ih _ hself rfl (fromHeads_derived.mpr ⟨r, hr, rfl⟩) hp
        · rw [← hh]
          refine .rule r' hr' (fun l hl hn hx => hneg l (hsub l hl) hn ((hag l (hsub l hl)).mpr hx)) (fun l hl hn hnd => (hag l (hsub l hl)).mp (hbase l (hsub l hl) hn ?_)) (fun l hl hn hd => ?_)
          · intro hx
            exact hnd ((out_derived o).mpr (.body r hr hp l (hsub l hl) (fromHeads_derived.mp hx)))
          · have hn' := (out_derived o).mp hd
            exact ih l (hsub l hl) hn (fromHeads_derived.mpr (needed_head hn')) hn'
    · intro hder
      induction hder with
      | rule r hr hneg hbase hpos ih =>
        obtain ⟨_, r0, hr0, hh, hbody⟩ := o.mem r hr
        rw [hh] at hp ⊢
        have hag : ∀ l ∈ r0.body, (s l.atom ↔ (fun p => if t.Head p ∧ ¬ t.Needed p then b' p else s p) l.atom) := fun l hl => hagree l.atom fun hh => .body r0 hr0 hp l hl hh
        refine .rule r0 hr0 (fun l hl hn hx => hneg l ((hbody l).mpr hl) hn ((hag l hl).mp hx)) (fun l hl hn hnd => (hag l hl).mpr (hbase l ((hbody l).mpr hl) hn ?_)) (fun l hl hn hd => ?_)
        · intro hx
          exact hnd (fromHeads_derived.mpr (needed_head ((out_derived o).mp hx)))
        · have hn' : t.Needed l.atom := .body r0 hr0 hp l hl (fromHeads_derived.mp hd)
          exact ih l ((hbody l).mpr hl) hn ((out_derived o).mpr hn') hn'

/-- every base state of a stratifiable task can be completed -/
theorem fromHeads_completes (hst : t.Stratifiable) (hd : t.DerivedOnly) (b : α → Prop) : ∃ s, t.fromHeads.Completes b s := by
  obtain ⟨L, hL⟩ := hst
  have hder : ∀ p, ({ t with layers := (derivedVars t.axioms).map (fun p => (p, L p)) } : StripsTask α).Derived p ↔ t.Head p := by
    intro p
    unfold StripsTask.Derived
    simp only [List.mem_map, Prod.mk.injEq, mem_derivedVars]
    constructor
    · rintro ⟨n, q, hq, rfl, _⟩
      exact hq
    · intro hp
      exact ⟨L p, p, hp, rfl, rfl⟩
  have hs : ({ t with layers := (derivedVars t.axioms).map (fun p => (p, L p)) } : StripsTask α).Stratified := by
    refine ⟨?_, fun r hr => (hder _).mpr ⟨r, hr, rfl⟩, ?_, fun a ha e he h => hd.effects a ha e he ((hder _).mp h), fun p hp h => hd.init p hp ((hder _).mp h)⟩
    · have : ((derivedVars t.axioms).map (fun p => (p, L p))).map (·.1) = derivedVars t.axioms := by simp [Function.comp_def]
      simp only [this]
      exact List.nodup_dedup _
    · intro r hr l hl n m hn hm
      simp only [List.mem_map, Prod.mk.injEq, mem_derivedVars] at hn hm
      obtain ⟨p, hp, rfl, rfl⟩ := hn
      obtain ⟨q, _, rfl, rfl⟩ := hm
      exact hL r hr trivial l hl hp
  exact ⟨_, completes_congr (t1 := { t with layers := (derivedVars t.axioms).map (fun p => (p, L p)) }) (t2 := t.fromHeads) rfl (fun p => by rw [hder, fromHeads_derived]) (Strips.completes hs b)⟩

theorem completes_in (o : Out t ax ls) (hst : t.Stratifiable) (hd : t.DerivedOnly) {b b' s' : α → Prop} (h : ({ t with axioms := ax, layers := ls } : StripsTask α).Completes b' s') (hb : ∀ p, ¬ t.Head p → (b p ↔ b' p)) :
    ∃ s, t.fromHeads.Completes b s ∧ Agree t s s' := by
  obtain ⟨s, hs⟩ := fromHeads_completes hst hd b
  obtain ⟨s2, h1, h2⟩ := completes_out o hs hb
  have := Strips.completes_unique (out_stratified o hd) (fun _ _ => Iff.rfl) h1 h
  exact ⟨s, hs, this ▸ h2⟩

theorem agree_holds {s s' : α → Prop} (h : Agree t s s') {l : Literal α} (hl : t.Head l.atom → t.Needed l.atom) : l.holds s ↔ l.holds s' := by
  unfold Literal.holds
  rw [h _ hl]

theorem agree_result {s s' : α → Prop} (h : Agree t s s') {a : Action α} (ha : a ∈ t.actions) {p : α} (hp : ¬ t.Head p) : a.result s p ↔ a.result s' p := by
  unfold Action.result Action.Adds Action.Deletes
  have hc : ∀ e ∈ a.effects, ((∀ l ∈ e.1, l.holds s) ↔ ∀ l ∈ e.1, l.holds s') := fun e he => forall_congr' fun l => forall_congr' fun hl => agree_holds h fun hh => .cond a ha e he l hl hh
  rw [h p fun hx => absurd hx hp]
  refine or_congr ?_ (and_congr_right fun _ => not_congr ?_)
  · exact exists_congr fun e => and_congr_right fun he => and_congr_right fun _ => hc e he
  · exact exists_congr fun e => and_congr_right fun he => and_congr_right fun _ => hc e he

theorem run_out (o : Out t ax ls) {s u : α → Prop} {as : List (Action α)} (h : t.fromHeads.Run s as u) : ∀ s', Agree t s s' → ∃ u', ({ t with axioms := ax, layers := ls } : StripsTask α).Run s' as u' ∧ Agree t u u' := by
  induction h with
  | nil s => exact fun s' hs => ⟨s', .nil _, hs⟩
  | cons s a u as w hstep _ ih =>
    intro s' hs
    obtain ⟨ha, hpre, hc⟩ := hstep
    replace ha : a ∈ t.actions := ha
    obtain ⟨u', h1, h2⟩ := completes_out o hc (b' := a.result s') fun p hp => agree_result hs ha hp
    obtain ⟨w', h3, h4⟩ := ih u' h2
    exact ⟨w', .cons _ _ _ _ _ ⟨ha, fun l hl => (agree_holds hs fun hh => .pre a ha l hl hh).mp (hpre l hl), h1⟩ h3, h4⟩

theorem run_in (o : Out t ax ls) (hst : t.Stratifiable) (hd : t.DerivedOnly) {s' u' : α → Prop} {as : List (Action α)} (h : ({ t with axioms := ax, layers := ls } : StripsTask α).Run s' as u') :
    ∀ s, Agree t s s' → ∃ u, t.fromHeads.Run s as u ∧ Agree t u u' := by
  induction h with
  | nil s' => exact fun s hs => ⟨s, .nil _, hs⟩
  | cons s' a u' as w' hstep _ ih =>
    intro s hs
    obtain ⟨ha, hpre, hc⟩ := hstep
    replace ha : a ∈ t.actions := ha
    obtain ⟨u, h1, h2⟩ := completes_in o hst hd hc (b := a.result s) fun p hp => agree_result hs ha hp
    obtain ⟨w, h3, h4⟩ := ih u h2
    exact ⟨w, .cons _ _ _ _ _ ⟨ha, fun l hl => (agree_holds hs fun hh => .pre a ha l hl hh).mpr (hpre l hl), h1⟩ h3, h4⟩

theorem initial_out (o : Out t ax ls) {s : α → Prop} (h : t.fromHeads.Initial s) : ∃ s', ({ t with axioms := ax, layers := ls } : StripsTask α).Initial s' ∧ Agree t s s' :=
  completes_out o (b' := fun p => p ∈ t.init) h fun _ _ => Iff.rfl

theorem initial_in (o : Out t ax ls) (hst : t.Stratifiable) (hd : t.DerivedOnly) {s' : α → Prop} (h : ({ t with axioms := ax, layers := ls } : StripsTask α).Initial s') : ∃ s, t.fromHeads.Initial s ∧ Agree t s s' :=
  completes_in o hst hd (b := fun p => p ∈ t.init) h fun _ _ => Iff.rfl

theorem plan_out (o : Out t ax ls) {p : List (List Char × Nat)} (h : t.fromHeads.HasPlan p) : ({ t with axioms := ax, layers := ls } : StripsTask α).HasPlan p := by
  obtain ⟨s, as, u, h1, h2, h3, h4⟩ := h
  obtain ⟨s', h5, h6⟩ := initial_out o h1
  obtain ⟨u', h7, h8⟩ := run_out o h2 s' h6
  exact ⟨s', as, u', h5, h7, fun l hl => (agree_holds h8 fun hh => .goal l hl hh).mp (h3 l hl), h4⟩

theorem plan_in (o : Out t ax ls) (hst : t.Stratifiable) (hd : t.DerivedOnly) {p : List (List Char × Nat)} (h : ({ t with axioms := ax, layers := ls } : StripsTask α).HasPlan p) : t.fromHeads.HasPlan p := by
  obtain ⟨s', as, u', h1, h2, h3, h4⟩ := h
  obtain ⟨s, h5, h6⟩ := initial_in o hst hd h1
  obtain ⟨u, h7, h8⟩ := run_in o hst hd h2 s h6
  exact ⟨s, as, u, h5, h7, fun l hl => (agree_holds h8 fun hh => .goal l hl hh).mpr (h3 l hl), h4⟩

theorem reachable_in (o : Out t ax ls) (hst : t.Stratifiable) (hd : t.DerivedOnly) {u' : α → Prop} (h : ({ t with axioms := ax, layers := ls } : StripsTask α).Reachable u') : ∃ u, t.fromHeads.Reachable u ∧ Agree t u u' := by
  obtain ⟨s', as, h1, h2⟩ := h
  obtain ⟨s, h5, h6⟩ := initial_in o hst hd h1
  obtain ⟨u, h7, h8⟩ := run_in o hst hd h2 s h6
  exact ⟨u, ⟨s, as, h5, h7⟩, h8⟩

end Verif.AxiomRules
