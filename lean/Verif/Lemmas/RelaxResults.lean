import Verif.Lemmas.RelaxExplore

/-
The relaxed exploration: termination, optimality of the costs, absence of overflow.
-/
namespace Verif.Relax
open Verif.AdaptiveQueue

variable (H : StdHeap Nat) {K : Kind} {R : RTask}

theorem mem_precondOf {p i : Nat} : i ∈ R.precondOf p ↔ ∃ o, R.ops[i]? = some o ∧ p ∈ o.pre := by
  simp only [RTask.precondOf, List.mem_flatMap, List.mem_map, List.mem_filter, beq_iff_eq, Prod.exists]
  constructor
  · rintro ⟨o, j, h1, q, ⟨h2, rfl⟩, rfl⟩
    exact ⟨o, by simpa using List.mem_zipIdx_iff_getElem?.mp h1, h2⟩
  · rintro ⟨o, h1, h2⟩
    exact ⟨o, i, List.mem_zipIdx_iff_getElem?.mpr (by simpa using h1), p, ⟨h2, rfl⟩, rfl⟩

theorem nodup_precondOf (h : ∀ o ∈ R.ops, o.pre.Nodup) (p : Nat) : (R.precondOf p).Nodup := by
  unfold RTask.precondOf
  rw [List.nodup_flatMap]
  constructor
  · rintro ⟨o, i⟩ hi
    have ho : o ∈ R.ops := (List.mem_zipIdx hi).2.2 ▸ List.getElem_mem _
    have hn := (h o ho).filter (fun x => x == p)
    have hl : (o.pre.filter (fun x => x == p)).length ≤ 1 := by
      have hc : (o.pre.filter (fun x => x == p)).length = o.pre.count p := by rw [List.count_eq_length_filter]
      rw [hc]
      exact List.nodup_iff_count_le_one.mp (h o ho) p
    match hm : o.pre.filter (fun x => x == p) with
    | [] => simp [hm]
    | [a] => simp [hm]
    | a :: b :: l => rw [hm] at hl; simp at hl
  · have hp : (R.ops.zipIdx).Pairwise (fun a b => a.2 < b.2) := by
      rw [List.pairwise_iff_getElem]
      intro i j hi hj hij
      simp only [List.getElem_zipIdx]; omega
    refine hp.imp ?_
    rintro ⟨o, i⟩ ⟨o', j⟩ hij
    simp only [Function.onFun, List.disjoint_left, List.mem_map, List.mem_filter]
    rintro x ⟨_, _, rfl⟩ ⟨_, _, h2⟩
    simp only at hij; omega

/-- popping an entry that is out of date -/
theorem pop_stale {S : Nat → Prop} {F D : List Nat} {p0 d k p : Nat} {bag bag' : List (Entry Nat)} {st : RSt} {q : Queue Nat} (h : XInv K R S R.ops.length F D p0 [] d bag st)
    (hperm : bag.Perm ((k, p) :: bag')) (hrep : Rep q bag') {c : Nat} (hc : st.cost p = some c) (hlt : c < k) :
    XInv K R S R.ops.length F D p0 [] d bag' { st with queue := q } := by
  refine ⟨⟨h.core.nodupD, (List.nodup_cons.mp (hperm.nodup_iff.mp h.core.nodup)).2, hrep, ?_, ?_, ?_, h.core.done, h.core.range⟩, h.ok, h.unsat, h.opCost, h.state, h.ready, h.origin, h.cur⟩
  · intro k' q' hk
    exact h.core.keys k' q' (hperm.symm.subset (List.mem_cons_of_mem _ hk))
  · intro r c' hr hD
    rcases List.mem_cons.mp (hperm.subset (h.core.fresh r c' hr hD)) with e | e
    · simp only [Prod.mk.injEq] at e
      obtain ⟨rfl, rfl⟩ := e
      have hr' : st.cost r = some c' := hr
      rw [hc] at hr'
      simp only [Option.some.injEq] at hr'
      omega
    · exact e
  · intro k' q' hk
    exact h.core.entry k' q' (hperm.symm.subset (List.mem_cons_of_mem _ hk))

/-- popping an entry that is up to date -/
theorem pop_fresh {S : Nat → Prop} {F D : List Nat} {p0 d k p : Nat} {bag bag' : List (Entry Nat)} {st : RSt} {q : Queue Nat} (h : XInv K R S R.ops.length F D p0 [] d bag st)
    (hperm : bag.Perm ((k, p) :: bag')) (hmin : ∀ e ∈ bag, k ≤ e.1) (hrep : Rep q bag') (hc : st.cost p = some k) :
    p ∉ D ∧ XInv K R S R.ops.length F (p :: D) p (R.precondOf p) k bag' { st with queue := q } := by
  have hin : (k, p) ∈ bag := hperm.symm.subset (by simp)
  have hpD : p ∉ D := by
    intro hD
    obtain ⟨c, h1, h2, h3⟩ := h.core.entry k p hin
    rw [hc] at h1
    simp only [Option.some.injEq] at h1
    have := h3 hD
    omega
  have hdk := h.core.keys k p hin
  have hnd := List.nodup_cons.mp (hperm.nodup_iff.mp h.core.nodup)
  refine ⟨hpD, ?_⟩
  have hfin : ∀ i o q', R.ops[i]? = some o → q' ∈ o.pre → (Fin (p :: D) p (R.precondOf p) i q' ↔ Fin D p0 [] i q') := by
    intro i o q' ho hq'
    unfold Fin
    constructor
    · rintro ⟨h1, h2⟩
      have hne : q' ≠ p := fun e => h2 ⟨e, mem_precondOf.mpr ⟨o, ho, e ▸ hq'⟩⟩
      exact ⟨by simpa [hne] using h1, by simp⟩
    · rintro ⟨h1, _⟩
      exact ⟨List.mem_cons_of_mem _ h1, fun e => hpD (e.1 ▸ h1)⟩
  refine ⟨⟨List.nodup_cons.mpr ⟨hpD, h.core.nodupD⟩, hnd.2, hrep, ?_, ?_, ?_, ?_, h.core.range⟩, h.ok, ?_, ?_, h.state, ?_, ?_, fun _ => ⟨by simp, hc⟩⟩
  · intro k' q' hk
    exact hmin (k', q') (hperm.symm.subset (List.mem_cons_of_mem _ hk))
  · intro r c' hr hD
    simp only [List.mem_cons, not_or] at hD
    rcases List.mem_cons.mp (hperm.subset (h.core.fresh r c' hr hD.2)) with e | e
    · simp only [Prod.mk.injEq] at e
      exact absurd e.2 hD.1
    · exact e
  · intro k' q' hk
    obtain ⟨c, h1, h2, h3⟩ := h.core.entry k' q' (hperm.symm.subset (List.mem_cons_of_mem _ hk))
    refine ⟨c, h1, h2, ?_⟩
    intro hD
    rcases List.mem_cons.mp hD with e | e
    · subst e
      rw [hc] at h1
      simp only [Option.some.injEq] at h1
      subst h1
      rcases Nat.lt_or_eq_of_le h2 with h4 | h4
      · exact h4
      · subst h4; exact absurd hk hnd.1
    · exact h3 e
  · intro q' hD
    rcases List.mem_cons.mp hD with e | e
    · subst e; exact ⟨k, hc, Nat.le_refl _⟩
    · obtain ⟨c, h1, h2⟩ := h.core.done q' e
      exact ⟨c, h1, by omega⟩
  · intro i o hi ho
    show st.unsat i = _
    rw [h.unsat i o hi ho]
    congr 2
    apply List.filter_congr
    intro q' hq'
    simp only [hfin i o q' ho hq']
  · intro i o hi ho
    show st.opCost i = _
    rw [h.opCost i o hi ho]
    show _ = comb K o.base (List.map st.val _)
    congr 2
    apply List.filter_congr
    intro q' hq'
    simp only [hfin i o q' ho hq']
  · intro i o hi ho hall
    exact h.ready i o hi ho (fun q' hq' => (hfin i o q' ho hq').mp (hall q' hq'))
  · intro r c' hr
    rcases h.origin r c' hr with a | ⟨i, o, a1, a2, a3, a4, a5⟩
    · exact Or.inl a
    · refine Or.inr ⟨i, o, a1, a2, a3, fun x hx => ⟨List.mem_cons_of_mem _ (a4 x hx).1, ?_⟩, a5⟩
      intro D1 D2 e
      cases D1 with
      | nil =>
        simp only [List.nil_append, List.cons.injEq] at e
        rw [← e.2]; exact (a4 x hx).1
      | cons y D1 =>
        simp only [List.cons_append, List.cons.injEq] at e
        exact (a4 x hx).2 D1 D2 e.2

/-- what the exploration has achieved when it stops -/
def Finished (K : Kind) (R : RTask) (S : Nat → Prop) (F : List Nat) (st : RSt) : Prop :=
  ∃ D p rem d bag, XInv K R S R.ops.length F D p rem d bag st ∧ ((bag = [] ∧ rem = []) ∨ ∀ g ∈ R.goals, g ∈ D)

theorem count_goals {D goals : List Nat} (hD : D.Nodup) (h : goals.length ≤ (D.filter (fun q => goals.contains q)).length) : ∀ g ∈ goals, g ∈ D := by
  have hs : (D.filter (fun q => goals.contains q)).Subperm goals := List.subperm_of_subset (hD.filter _) (by intro q hq; simpa using (List.mem_filter.mp hq).2)
  have hp := hs.perm_of_length_le h
  intro g hg
  exact (List.mem_filter.mp (hp.symm.subset hg)).1

theorem D_length {D : List Nat} {d : Nat} {bag : List (Entry Nat)} {st : RSt} (h : Core R D d bag st) : D.length ≤ R.numProps := by
  have hs : D.Subperm (List.range R.numProps) := List.subperm_of_subset h.nodupD (by
    intro q hq
    obtain ⟨c, h1, _⟩ := h.done q hq
    simpa using h.range q c h1)
  simpa using hs.length_le

theorem explore_spec (hR : ROk K R) {S : Nat → Prop} {F : List Nat} : ∀ (a b : Nat) (D : List Nat) (p d : Nat) (bag : List (Entry Nat)) (st : RSt) (u : Int), R.numProps - D.length = a → bag.length = b →
    XInv K R S R.ops.length F D p [] d bag st → u = (R.goals.length : Int) - ((D.filter (fun q => R.goals.contains q)).length : Int) →
    (∃ st', explore H K R u st = some st' ∧ Finished K R S F st') ∨ (explore H K R u st = none ∧ Overflow K R S F) := by
  intro a
  induction a using Nat.strong_induction_on with
  | _ a iha =>
    intro b
    induction b using Nat.strong_induction_on with
    | _ b ihb =>
      intro D p d bag st u ha hb h hu
      rw [explore]
      by_cases he : st.queue.empty = true
      · rw [if_pos he]
        exact Or.inl ⟨st, rfl, D, p, [], d, bag, h, Or.inl ⟨h.core.rep.empty.mp he, rfl⟩⟩
      · rw [if_neg he]
        have hne : bag ≠ [] := fun e => he (h.core.rep.empty.mpr e)
        obtain ⟨q, k, v, bag', h1, h2, h3, h4⟩ := h.core.rep.pop H hne
        have hin : (k, v) ∈ bag := h2.symm.subset (by simp)
        obtain ⟨c, hc, hle, _⟩ := h.core.entry k v hin
        unfold iteration
        rw [h1]
        simp only
        rw [if_pos (h.core.range v c hc), hc]
        simp only
        by_cases hlt : c < k
        · rw [if_pos hlt]
          simp only
          exact ihb bag'.length (by have := h2.length_eq; simp only [List.length_cons] at this; omega) D p d bag' _ u ha rfl (pop_stale h h2 h4 hc hlt) hu
        · rw [if_neg hlt]
          have hck : c = k := by omega
          subst hck
          obtain ⟨hvD, h5⟩ := pop_fresh h h2 h3 h4 hc
          have hlen := D_length h5.core
          simp only [List.length_cons] at hlen
          have hrelax := relax_inv H hR (R.precondOf v) bag' { st with queue := q } (nodup_precondOf hR.nodup v) (fun i hi => mem_precondOf.mp hi) (by simp) hc h5
          have hnext : ∀ u' : Int, u' = (R.goals.length : Int) - (((v :: D).filter (fun q => R.goals.contains q)).length : Int) →
              (∃ st', (match (relax H K R c (R.precondOf v) { st with queue := q }).map (Iter.next u') with
                | none => none
                | some (.done st) => some st
                | some (.next unsolved st) => explore H K R unsolved st) = some st' ∧ Finished K R S F st') ∨
              ((match (relax H K R c (R.precondOf v) { st with queue := q }).map (Iter.next u') with
                | none => none
                | some (.done st) => some st
                | some (.next unsolved st) => explore H K R unsolved st) = none ∧ Overflow K R S F) := by
            intro u' hu'
            rcases hrelax with ⟨st', bag2, k1, k2⟩ | ⟨k1, k2⟩
            · rw [k1]
              simp only [Option.map_some]
              exact iha (R.numProps - (v :: D).length) (by simp only [List.length_cons]; omega) bag2.length (v :: D) v c bag2 st' u' rfl rfl k2 hu'
            · rw [k1]
              exact Or.inr ⟨rfl, k2⟩
          by_cases hg : R.goals.contains v = true
          · have hfl : ((v :: D).filter (fun q => R.goals.contains q)).length = (D.filter (fun q => R.goals.contains q)).length + 1 := by
              rw [List.filter_cons, if_pos hg]; rfl
            rw [if_pos hg]
            by_cases hz : u - 1 = 0
            · rw [if_pos hz]
              exact Or.inl ⟨_, rfl, v :: D, v, R.precondOf v, c, bag', h5, Or.inr (count_goals h5.core.nodupD (by omega))⟩
            · rw [if_neg hz]
              exact hnext (u - 1) (by rw [hfl]; push_cast; omega)
          · rw [if_neg hg]
            refine hnext u ?_
            rw [List.filter_cons, if_neg hg]; exact hu

/-! ### costs are least derivation costs -/

theorem der_ok {ops : List UnaryOp} {S : Nat → Prop} {p n : Nat} (h : Der K ops S p n) : OkBase K n := by
  cases h with
  | state _ _ => intro _; exact Nat.zero_le _
  | op o m _ _ => exact comb_ok _ _ _

theorem val_of {st : RSt} {q c : Nat} (h : st.cost q = some c) : st.val q = c := by simp [RSt.val, h]

theorem optimal {S : Nat → Prop} {F D : List Nat} {p d : Nat} {rem : List Nat} {bag : List (Entry Nat)} {st : RSt} (h : XInv K R S R.ops.length F D p rem d bag st) (hF : ∀ q, S q → q ∈ F)
    {r n : Nat} (hder : Der K R.ops S r n) : n < d ∨ (bag = [] ∧ rem = []) → r ∈ D ∧ st.val r ≤ n := by
  induction hder with
  | state r hs =>
    intro hb
    have hc := h.state r (hF r hs)
    refine ⟨?_, by rw [val_of hc]⟩
    by_contra hD
    have hin := h.core.fresh r 0 hc hD
    rcases hb with hb | hb
    · have := h.core.keys 0 r hin; omega
    · rw [hb.1] at hin; simp at hin
  | op o m ho hm ih =>
    intro hb
    have hq : ∀ q ∈ o.pre, q ∈ D ∧ st.val q ≤ m q := by
      intro q hq
      refine ih q hq ?_
      rcases hb with hb | hb
      · left
        have := comb_ge (b := o.base) (List.mem_map_of_mem (f := m) hq) (der_ok (hm q hq))
        omega
      · exact Or.inr hb
    obtain ⟨i, hi, rfl⟩ := List.getElem_of_mem ho
    have hio : R.ops[i]? = some R.ops[i] := List.getElem?_eq_getElem hi
    have hfin : ∀ q ∈ R.ops[i].pre, Fin D p rem i q := by
      intro q hqp
      refine ⟨(hq q hqp).1, ?_⟩
      rintro ⟨rfl, hrem⟩
      have hne : rem ≠ [] := List.ne_nil_of_mem hrem
      obtain ⟨_, hcur⟩ := h.cur hne
      have hv := (hq q hqp).2
      rw [val_of hcur] at hv
      rcases hb with hb | hb
      · have := comb_ge (b := R.ops[i].base) (List.mem_map_of_mem (f := m) hqp) (der_ok (hm q hqp))
        omega
      · exact hne hb.2
    obtain ⟨c, hc, hle⟩ := h.ready i _ hi hio hfin
    have hmono : comb K R.ops[i].base (R.ops[i].pre.map st.val) ≤ comb K R.ops[i].base (R.ops[i].pre.map m) :=
      comb_mono (Nat.le_refl _) (List.Subperm.refl _) (fun q hqp => (hq q hqp).2)
    refine ⟨?_, by rw [val_of hc]; omega⟩
    by_contra hD
    have hin := h.core.fresh _ c hc hD
    rcases hb with hb | hb
    · have := h.core.keys c _ hin; omega
    · rw [hb.1] at hin; simp at hin

theorem optimal_done {S : Nat → Prop} {F D : List Nat} {p d : Nat} {rem : List Nat} {bag : List (Entry Nat)} {st : RSt} (h : XInv K R S R.ops.length F D p rem d bag st) (hF : ∀ q, S q → q ∈ F)
    {r n : Nat} (hr : r ∈ D) (hder : Der K R.ops S r n) : st.val r ≤ n := by
  by_cases hn : n < d
  · exact (optimal h hF hder (Or.inl hn)).2
  · obtain ⟨c, h1, h2⟩ := h.core.done r hr
    rw [val_of h1]; omega

theorem mem_split {D : List Nat} {q : Nat} (h : q ∈ D) : ∃ D1 D2, D = D1 ++ q :: D2 := List.append_of_mem h

theorem sound_done {S : Nat → Prop} {F D : List Nat} {p d : Nat} {rem : List Nat} {bag : List (Entry Nat)} {st : RSt} (h : XInv K R S R.ops.length F D p rem d bag st) :
    ∀ (n : Nat) (D1 D2 : List Nat), D = D1 ++ D2 → D2.length = n → ∀ q ∈ D2, Der K R.ops S q (st.val q) := by
  intro n
  induction n using Nat.strong_induction_on with
  | _ n ih =>
    intro D1 D2 e hl q hq
    obtain ⟨D3, D4, rfl⟩ := mem_split hq
    have hD : q ∈ D := by rw [e]; simp
    obtain ⟨c, hc, _⟩ := h.core.done q hD
    rw [val_of hc]
    rcases h.origin q c hc with ⟨a1, a2, _⟩ | ⟨i, o, a1, a2, a3, a4, a5⟩
    · rw [a2]; exact .state q a1
    · rw [← a3, a5]
      refine .op o st.val (List.mem_of_getElem? a2) ?_
      intro r hr
      have := (a4 r hr).2 (D1 ++ D3) D4 (by rw [e]; simp)
      refine ih D4.length ?_ (D1 ++ D3 ++ [q]) D4 (by rw [e]; simp) rfl r this
      simp only [List.length_append, List.length_cons] at hl; omega

theorem sound {S : Nat → Prop} {F D : List Nat} {p d : Nat} {rem : List Nat} {bag : List (Entry Nat)} {st : RSt} (h : XInv K R S R.ops.length F D p rem d bag st)
    {q c : Nat} (hc : st.cost q = some c) : Der K R.ops S q c := by
  rcases h.origin q c hc with ⟨a1, a2, _⟩ | ⟨i, o, a1, a2, a3, a4, a5⟩
  · rw [a2]; exact .state q a1
  · rw [← a3, a5]
    refine .op o st.val (List.mem_of_getElem? a2) ?_
    intro r hr
    exact sound_done h D.length [] D rfl rfl r (a4 r hr).1

/-- the costs of propositions that are goals when the exploration has finished -/
theorem finished_goal {S : Nat → Prop} {F : List Nat} {st : RSt} (h : Finished K R S F st) (hF : ∀ q, S q → q ∈ F) {g : Nat} (hg : g ∈ R.goals) :
    (∀ c, st.cost g = some c → Der K R.ops S g c ∧ ∀ n, Der K R.ops S g n → c ≤ n) ∧ (st.cost g = none → ∀ n, ¬Der K R.ops S g n) := by
  obtain ⟨D, p, rem, d, bag, hx, hfin⟩ := h
  constructor
  · intro c hc
    refine ⟨sound hx hc, fun n hn => ?_⟩
    rcases hfin with hb | hb
    · have := (optimal hx hF hn (Or.inr hb)).2
      rwa [val_of hc] at this
    · have := optimal_done hx hF (hb g hg) hn
      rwa [val_of hc] at this
  · intro hc n hn
    have hD : g ∈ D := by
      rcases hfin with hb | hb
      · exact (optimal hx hF hn (Or.inr hb)).1
      · exact hb g hg
    obtain ⟨c, h1, _⟩ := hx.core.done g hD
    rw [hc] at h1; simp at h1

theorem goalCost_spec {st : RSt} : ∀ (gs l : List Nat) (total : Nat), (∀ g ∈ gs, g < R.numProps) → total = comb K 0 l →
    (∀ g ∈ gs, st.cost g ≠ none) → ∀ v, goalCost K R st gs total = some v → v = some (comb K 0 (l ++ gs.map st.val))
  | [], l, total, _, ht, _, v, h => by
    simp only [goalCost, Option.some.injEq] at h
    rw [← h, ht]; simp
  | g :: gs, l, total, hr, ht, hall, v, h => by
    unfold goalCost at h
    rw [if_pos (hr g (by simp))] at h
    cases hc : st.cost g with
    | none => exact absurd hc (hall g (by simp))
    | some c =>
      rw [hc] at h
      simp only at h
      cases hacc : accum K 0 total c with
      | none => rw [hacc] at h; simp at h
      | some t' =>
        rw [hacc] at h
        simp only at h
        rw [ht] at hacc
        have := goalCost_spec gs (l ++ [c]) t' (fun g' hg' => hr g' (by simp [hg'])) (accum_comb hacc) (fun g' hg' => hall g' (by simp [hg'])) v h
        rw [this]
        simp [val_of hc]

theorem goalCost_none {st : RSt} : ∀ (gs : List Nat) (total : Nat), (∀ g ∈ gs, g < R.numProps) →
    (goalCost K R st gs total = some none → ∃ g ∈ gs, st.cost g = none) ∧ ((∃ v, goalCost K R st gs total = some (some v)) → ∀ g ∈ gs, st.cost g ≠ none)
  | [], total, _ => by simp [goalCost]
  | g :: gs, total, hr => by
    unfold goalCost
    rw [if_pos (hr g (by simp))]
    cases hc : st.cost g with
    | none => simp [hc]
    | some c =>
      simp only
      cases hacc : accum K 0 total c with
      | none => simp
      | some t' =>
        simp only
        obtain ⟨h1, h2⟩ := goalCost_none (st := st) gs t' (fun g' hg' => hr g' (by simp [hg']))
        refine ⟨fun h => ?_, fun h => ?_⟩
        · obtain ⟨g', h3, h4⟩ := h1 h
          exact ⟨g', by simp [h3], h4⟩
        · intro g' hg'
          rcases List.mem_cons.mp hg' with e | e
          · rw [e, hc]; simp
          · exact h2 h g' e

/-- what a result of compute means -/
structure Computed (K : Kind) (R : RTask) (facts : List Nat) (v : Option Nat) (st : RSt) : Prop where
  fin : Finished K R (· ∈ facts) facts st
  dead : v = none → ∃ g ∈ R.goals, ∀ n, ¬Der K R.ops (· ∈ facts) g n
  value : ∀ n, v = some n → (∀ g ∈ R.goals, st.cost g ≠ none ∧ Der K R.ops (· ∈ facts) g (st.val g) ∧ ∀ k, Der K R.ops (· ∈ facts) g k → st.val g ≤ k) ∧ n = comb K 0 (R.goals.map st.val)

theorem compute_cases (hR : ROk K R) {facts : List Nat} (hf : ∀ q ∈ facts, q < R.numProps) (hg : ∀ g ∈ R.goals, g < R.numProps) {st : RSt} {bag0 : List (Entry Nat)} (h0 : Rep st.queue bag0) :
    (∃ v st', compute H K R facts st = some (v, st') ∧ Computed K R facts v st') ∨
    (compute H K R facts st = none ∧ (Overflow K R (· ∈ facts) facts ∨ ∃ st', Finished K R (· ∈ facts) facts st' ∧ goalCost K R st' R.goals 0 = none)) := by
  obtain ⟨st1, bag1, k1, k2⟩ := setup_inv H hR hf h0
  unfold compute
  rw [k1]
  simp only
  rcases explore_spec H hR (R.numProps - 0) bag1.length [] 0 0 bag1 st1 (R.goals.length : Int) rfl rfl k2 (by simp) with ⟨st2, j1, j2⟩ | ⟨j1, j2⟩
  · rw [j1]
    simp only
    cases hgc : goalCost K R st2 R.goals 0 with
    | none => exact Or.inr ⟨rfl, Or.inr ⟨st2, j2, hgc⟩⟩
    | some v =>
      refine Or.inl ⟨v, st2, rfl, j2, ?_, ?_⟩
      · rintro rfl
        obtain ⟨g, h1, h2⟩ := (goalCost_none (st := st2) R.goals 0 hg).1 hgc
        exact ⟨g, h1, (finished_goal j2 (fun _ h => h) h1).2 h2⟩
      · rintro n rfl
        have hall := (goalCost_none (st := st2) R.goals 0 hg).2 ⟨n, hgc⟩
        refine ⟨fun g h1 => ⟨hall g h1, ?_⟩, ?_⟩
        · cases hc : st2.cost g with
          | none => exact absurd hc (hall g h1)
          | some c =>
            rw [val_of hc]
            exact (finished_goal j2 (fun _ h => h) h1).1 c hc
        · have := goalCost_spec R.goals [] 0 hg (by cases K <;> simp [comb]) hall _ hgc
          simpa using this
  · rw [j1]
    exact Or.inr ⟨rfl, Or.inl j2⟩

/-! ### no overflow -/

theorem accum_add_defined {b x c : Nat} (h1 : x ≤ maxCost) (h2 : c ≤ maxCost) : accum .add b x c ≠ none := by
  simp only [accum]
  rw [if_pos (by unfold maxCost at h1 h2; omega)]
  simp

theorem goalCost_add_defined {st : RSt} (hok : ∀ q c, st.cost q = some c → c ≤ maxCost) : ∀ (gs : List Nat) (total : Nat), (∀ g ∈ gs, g < R.numProps) → total ≤ maxCost → goalCost .add R st gs total ≠ none
  | [], total, _, _ => by simp [goalCost]
  | g :: gs, total, hr, ht => by
    unfold goalCost
    rw [if_pos (hr g (by simp))]
    cases hc : st.cost g with
    | none => simp
    | some c =>
      simp only
      cases hacc : accum .add 0 total c with
      | none => exact absurd hacc (accum_add_defined ht (hok g c hc))
      | some t' =>
        simp only
        refine goalCost_add_defined hok gs t' (fun g' hg' => hr g' (by simp [hg'])) ?_
        simp only [accum] at hacc
        split at hacc
        · simp only [Option.some.injEq] at hacc; rw [← hacc]; exact Nat.min_le_left _ _
        · simp at hacc

theorem add_defined (hR : ROk .add R) {facts : List Nat} (hf : ∀ q ∈ facts, q < R.numProps) (hg : ∀ g ∈ R.goals, g < R.numProps) {st : RSt} {bag0 : List (Entry Nat)} (h0 : Rep st.queue bag0) :
    ∃ v st', compute H .add R facts st = some (v, st') ∧ Computed .add R facts v st' := by
  rcases compute_cases H hR hf hg h0 with h | ⟨_, h | ⟨st', ⟨D, p, rem, d, bag, hx, _⟩, h2⟩⟩
  · exact h
  · obtain ⟨D, p, rem, d, bag, st', i, o, c, hx, hp, hc, ho, hi, hacc⟩ := h
    refine absurd hacc (accum_add_defined ?_ (hx.ok p c hc rfl))
    rw [hx.opCost i o (List.getElem?_eq_some_iff.mp ho).1 ho]
    exact comb_ok .add _ _ rfl
  · exact absurd h2 (goalCost_add_defined (fun q c hc => hx.ok q c hc rfl) _ _ hg (Nat.zero_le _))

/-- costs of h^max are bounded by the number of propositions times the largest operator cost -/
theorem max_bound {S : Nat → Prop} {B : Nat} (hB : ∀ o ∈ R.ops, o.base ≤ B) {F D : List Nat} {p d : Nat} {rem : List Nat} {bag : List (Entry Nat)} {st : RSt} (h : XInv .max R S R.ops.length F D p rem d bag st) :
    ∀ (n : Nat) (D1 D2 : List Nat), D = D1 ++ D2 → D2.length = n → ∀ q ∈ D2, st.val q ≤ n * B := by
  intro n
  induction n using Nat.strong_induction_on with
  | _ n ih =>
    intro D1 D2 e hl q hq
    obtain ⟨D3, D4, rfl⟩ := mem_split hq
    have hD : q ∈ D := by rw [e]; simp
    obtain ⟨c, hc, _⟩ := h.core.done q hD
    rw [val_of hc]
    rcases h.origin q c hc with ⟨a1, a2, _⟩ | ⟨i, o, a1, a2, a3, a4, a5⟩
    · omega
    · simp only [List.length_append, List.length_cons] at hl
      have hpre : (o.pre.map st.val).foldr Nat.max 0 ≤ D4.length * B := by
        refine foldr_max_le.mpr ?_
        intro x hx
        obtain ⟨r, hr, rfl⟩ := List.mem_map.mp hx
        have := (a4 r hr).2 (D1 ++ D3) D4 (by rw [e]; simp)
        exact ih D4.length (by omega) (D1 ++ D3 ++ [q]) D4 (by rw [e]; simp) rfl r this
      have hb := hB o (List.mem_of_getElem? a2)
      rw [a5]
      simp only [comb]
      have : (D4.length + 1) * B ≤ n * B := Nat.mul_le_mul_right _ (by omega)
      rw [Nat.add_mul] at this
      omega

theorem max_bound_all {S : Nat → Prop} {B : Nat} (hB : ∀ o ∈ R.ops, o.base ≤ B) {F D : List Nat} {p d : Nat} {rem : List Nat} {bag : List (Entry Nat)} {st : RSt} (h : XInv .max R S R.ops.length F D p rem d bag st)
    {q c : Nat} (hc : st.cost q = some c) : c ≤ R.numProps * B := by
  have hlen := D_length h.core
  have hD : ∀ r ∈ D, st.val r ≤ D.length * B := fun r hr => max_bound hB h D.length [] D rfl rfl r hr
  have hmul : D.length * B ≤ R.numProps * B := Nat.mul_le_mul_right _ hlen
  by_cases hq : q ∈ D
  · have := hD q hq
    rw [val_of hc] at this
    omega
  · have hlt : (q :: D).length ≤ R.numProps := by
      have hs : (q :: D).Subperm (List.range R.numProps) := List.subperm_of_subset (List.nodup_cons.mpr ⟨hq, h.core.nodupD⟩) (by
        intro r hr
        rcases List.mem_cons.mp hr with e | e
        · rw [e]; simpa using h.core.range q c hc
        · obtain ⟨c', h1, _⟩ := h.core.done r e
          simpa using h.core.range r c' h1)
      simpa using hs.length_le
    simp only [List.length_cons] at hlt
    rcases h.origin q c hc with ⟨a1, a2, _⟩ | ⟨i, o, a1, a2, a3, a4, a5⟩
    · omega
    · have hpre : (o.pre.map st.val).foldr Nat.max 0 ≤ D.length * B := by
        refine foldr_max_le.mpr ?_
        intro x hx
        obtain ⟨r, hr, rfl⟩ := List.mem_map.mp hx
        exact hD r (a4 r hr).1
      have hb := hB o (List.mem_of_getElem? a2)
      rw [a5]
      simp only [comb]
      have : (D.length + 1) * B ≤ R.numProps * B := Nat.mul_le_mul_right _ hlt
      rw [Nat.add_mul] at this
      omega

theorem goalCost_max_defined {st : RSt} (hok : ∀ q c, st.cost q = some c → c < 2 ^ 31) : ∀ (gs : List Nat) (total : Nat), (∀ g ∈ gs, g < R.numProps) → goalCost .max R st gs total ≠ none
  | [], total, _ => by simp [goalCost]
  | g :: gs, total, hr => by
    unfold goalCost
    rw [if_pos (hr g (by simp))]
    cases hc : st.cost g with
    | none => simp
    | some c =>
      simp only
      have hacc : accum .max 0 total c = some (Nat.max total (0 + c)) := by simp only [accum]; rw [if_pos (by have := hok g c hc; omega)]
      rw [hacc]
      exact goalCost_max_defined hok gs _ (fun g' hg' => hr g' (by simp [hg']))

theorem max_defined (hR : ROk .max R) {B : Nat} (hB : ∀ o ∈ R.ops, o.base ≤ B) (hov : (R.numProps + 1) * B < 2 ^ 31) {facts : List Nat} (hf : ∀ q ∈ facts, q < R.numProps) (hg : ∀ g ∈ R.goals, g < R.numProps) {st : RSt} {bag0 : List (Entry Nat)} (h0 : Rep st.queue bag0) :
    ∃ v st', compute H .max R facts st = some (v, st') ∧ Computed .max R facts v st' := by
  rw [Nat.add_mul] at hov
  rcases compute_cases H hR hf hg h0 with h | ⟨_, h | ⟨st', ⟨D, p, rem, d, bag, hx, _⟩, h2⟩⟩
  · exact h
  · obtain ⟨D, p, rem, d, bag, st', i, o, c, hx, hp, hc, ho, hi, hacc⟩ := h
    have h1 := max_bound_all hB hx hc
    have h2 := hB o (List.mem_of_getElem? ho)
    simp only [accum] at hacc
    rw [if_pos (by omega)] at hacc
    simp at hacc
  · exact absurd h2 (goalCost_max_defined (fun q c hc => by have := max_bound_all hB hx hc; omega) _ _ hg)

/-- the value is bounded like the costs -/
theorem max_value {B : Nat} (hB : ∀ o ∈ R.ops, o.base ≤ B) {facts : List Nat} {n : Nat} {st : RSt} (h : Computed .max R facts (some n) st) : n ≤ R.numProps * B := by
  obtain ⟨D, p, rem, d, bag, hx, _⟩ := h.fin
  obtain ⟨h1, h2⟩ := h.value n rfl
  rw [h2]
  simp only [comb, Nat.zero_add]
  refine foldr_max_le.mpr ?_
  intro c hc
  obtain ⟨g, hg, rfl⟩ := List.mem_map.mp hc
  cases hcg : st.cost g with
  | none => exact absurd hcg (h1 g hg).1
  | some c => rw [val_of hcg]; exact max_bound_all hB hx hcg

end Verif.Relax
