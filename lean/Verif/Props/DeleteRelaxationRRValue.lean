import Verif.Props.DeleteRelaxationRR
import Verif.Spec.RankoohRintanen

/-
C84, continued: the value of the heuristic with the constraints by Rankooh and Rintanen and time labels, or without exclusion of cycles, is the minimum of the constraints of the paper.
-/
namespace Verif.CountingRR
open Verif.LP
open Verif.Search hiding Gen
open Verif.Counting hiding Gen
open Verif.CountingIF (facts achievers Gen integral Supported mem_facts mem_achievers achievers_sum countCost_step exTask exTask_supported exTask_hplus exists_mixedSolver)

variable {t : Task} {ac : Acyclicity} {es : List (Fact × Fact)} {ds : List (Fact × Fact × Fact)} {s : State}

/-- are there time labels? -/
def Acyclicity.labels (ac : Acyclicity) : Bool := match ac with | .timeLabels => true | _ => false

theorem facts_length : (facts t).length = t.factCount := by
  unfold facts Task.factCount
  rw [List.length_flatMap]
  simp only [List.length_map, List.length_range]
  conv_rhs => rw [← List.zipIdx_map_fst 0 t.vars, List.map_map]
  rfl

theorem supported_sum (ht : TaskOk t) (q p : Fact) (g : Nat → Rat) : ((supported t q p).map g).sum = (t.ops.zipIdx.map (fun o => if o.1.produces p ∧ q ∈ o.1.pre then g o.2 else 0)).sum := by
  have h1 : ∀ (l : List Nat) (c : Nat → Bool), ((l.filter c).map g).sum = (l.map (fun i => if c i = true then g i else 0)).sum := by
    intro l c
    induction l with
    | nil => simp
    | cons a l ih =>
      rw [List.filter_cons]
      split
      · rename_i hc
        simp only [List.map_cons, List.sum_cons, ih, hc, if_true]
      · rename_i hc
        simp only [List.map_cons, List.sum_cons, ih, hc, Bool.false_eq_true, if_false, zero_add]
  unfold supported
  rw [h1, achievers_sum ht.once]
  congr 1
  refine List.map_congr_left fun o ho => ?_
  rw [List.mem_zipIdx_iff_getElem?.mp ho]
  by_cases hp : o.1.produces p <;> by_cases hq : q ∈ o.1.pre <;> simp [hp, hq]

/-- values of the keys -/
def ofVars (x : Nat → Rat) (v : RRVars) : Key → Rat
  | .count i => x i
  | .reached f => v.reached f
  | .achiever i f => v.achiever i f
  | .edge _ _ => 0
  | .time f => v.time f

def toVars (y : Key → Rat) : RRVars := ⟨fun f => y (.reached f), fun i f => y (.achiever i f), fun f => y (.time f)⟩

theorem ofVars_toVars (hac : ac ≠ .vertexElimination) (y : Key → Rat) : ∀ k ∈ keys t ac es, ofVars (fun i => y (.count i)) (toVars y) k = y k := by
  intro k hk
  cases k with
  | edge a b => exact absurd (mem_edge.mp hk).1 hac
  | _ => rfl

theorem sat_iff (ht : TaskOk t) (hac : ac ≠ .vertexElimination) {x : Nat → Rat} {v : RRVars} : Sat t ac es ds (bound s) (ofVars x v) ↔ t.RankoohRintanen ac.labels s x v := by
  have htl : ac.labels = true ↔ ac = .timeLabels := by cases ac <;> simp [Acyclicity.labels]
  have hach : ∀ {i : Nat} {o : Operator} {f : Fact}, t.ops[i]? = some o → o.produces f → i ∈ achievers t f := fun ho ⟨e, he, hf⟩ => mem_achievers.mpr ⟨_, e, ho, he, hf⟩
  have hsup : ∀ q p, ((supported t q p).map (fun i => ofVars x v (.achiever i p))).sum = (t.ops.zipIdx.map (fun o => if o.1.produces p ∧ q ∈ o.1.pre then v.achiever o.2 p else 0)).sum := fun q p => supported_sum ht q p _
  have hsum : ∀ f, ((achievers t f).map (fun i => ofVars x v (.achiever i f))).sum = (t.ops.zipIdx.map (fun o => if o.1.produces f then v.achiever o.2 f else 0)).sum := fun f => achievers_sum ht.once f _
  constructor
  · intro h
    have hother : ∀ r ∈ otherRows t ac es ds, r.Ok (ofVars x v) := fun r hr => h.rows r (List.mem_append_right _ hr)
    have hr : ∀ f, t.ValidFact f → 0 ≤ v.reached f ∧ v.reached f ≤ 1 := by
      intro f hf
      obtain ⟨h1, h2⟩ := h.cols _ (mem_reached.mpr (mem_facts.mpr hf))
      refine ⟨le_trans ?_ (h1 _ rfl), h2 _ rfl⟩
      split <;> norm_num
    refine ⟨fun i hi => (h.cols _ (mem_count.mpr hi)).1 0 rfl, hr, fun i o f ho hp => ?_, fun f hf => ?_, fun q p hq hne => ?_, fun g hg => ?_, fun i o f ho hp => ?_, fun hl f hf => ?_, fun hl i o q p ho hq hp hne => ?_⟩
    · have := h.cols _ (mem_achiever.mpr (hach ho hp))
      exact ⟨this.1 0 rfl, this.2 1 rfl⟩
    · have h1 := factRow_ok.mp (h.rows _ (List.mem_append_left _ (List.mem_map_of_mem (mem_facts.mpr hf))))
      rw [hsum] at h1
      simp only [bound, ofVars] at h1
      linarith
    · by_cases hex : (q, p) ∈ pairs t
      · have h1 := (supportRow_ok.mp (hother _ (mem_otherRows.mpr (.inl ⟨(q, p), hex, rfl⟩)))).1
        simp only at h1
        rw [hsup] at h1
        simp only [ofVars] at h1
        linarith
      · have h0 : t.ops.zipIdx.map (fun o => if o.1.produces p ∧ q ∈ o.1.pre then v.achiever o.2 p else 0) = t.ops.zipIdx.map (fun _ => 0) := by
          refine List.map_congr_left fun o ho => ?_
          rw [if_neg]
          rintro ⟨⟨e, he, hf⟩, hq'⟩
          exact hex (mem_pairs.mpr ⟨hne, o.1, List.fst_mem_of_mem_zipIdx ho, hq', e, he, hf⟩)
        rw [h0]
        simpa using (hr q hq).1
    · have hf := ht.wf.goalFacts g hg
      exact le_antisymm (hr g hf).2 ((h.cols _ (mem_reached.mpr (mem_facts.mpr hf))).1 1 (by simp [column, hg]))
    · obtain ⟨e, he, rfl⟩ := hp
      exact countRow_ok.mp (hother _ (mem_otherRows.mpr (.inr (.inl ⟨i, o, e, ho, he, rfl⟩))))
    · obtain ⟨h1, h2⟩ := h.cols _ (mem_time.mpr ⟨htl.mp hl, mem_facts.mpr hf⟩)
      refine ⟨h1 1 rfl, ?_⟩
      rw [← facts_length]
      exact h2 _ rfl
    · obtain ⟨e, he, rfl⟩ := hp
      have := timeRow_ok.mp (hother _ (mem_otherRows.mpr (.inr (.inr (.inr ⟨htl.mp hl, (i, q, e.fact), mem_triples.mpr ⟨o, e, ho, hq, he, rfl⟩, hne, rfl⟩)))))
      rw [← facts_length]
      simp only [ofVars] at this
      linarith
  · intro h
    constructor
    · intro k hk
      cases k with
      | count i => simpa [column, Between, ofVars] using h.count i (mem_count.mp hk)
      | reached f =>
        have hf := h.reached01 f (mem_facts.mp (mem_reached.mp hk))
        simp only [column, Between, ofVars, Option.some.injEq, forall_eq']
        refine ⟨?_, hf.2⟩
        split
        · rename_i hg
          rw [h.goal f hg]
        · exact hf.1
      | achiever i f =>
        obtain ⟨o, e, ho, he, hf⟩ := mem_achievers.mp (mem_achiever.mp hk)
        simpa only [column, Between, ofVars, Option.some.injEq, forall_eq'] using h.achiever01 i o f ho ⟨e, he, hf⟩
      | edge a b => exact absurd (mem_edge.mp hk).1 hac
      | time f =>
        have := h.label (htl.mpr (mem_time.mp hk).1) f (mem_facts.mp (mem_time.mp hk).2)
        rw [← facts_length] at this
        simpa only [column, Between, ofVars, Option.some.injEq, forall_eq'] using this
    · intro r hr
      rcases List.mem_append.mp hr with hr | hr
      · obtain ⟨f, hf, rfl⟩ := List.mem_map.mp hr
        rw [factRow_ok, hsum]
        simp only [bound, ofVars]
        linarith [h.achieved f (mem_facts.mp hf)]
      · rcases mem_otherRows.mp hr with ⟨⟨q, p⟩, hc, rfl⟩ | ⟨i, o, e, ho, he, rfl⟩ | ⟨h', _⟩ | ⟨h', ⟨i, q, p⟩, hc, hne, rfl⟩
        · obtain ⟨hne, o, ho, hq, e, he, rfl⟩ := mem_pairs.mp hc
          have hqv := ht.wf.pre o ho q hq
          rw [supportRow_ok]
          simp only
          rw [hsup]
          have h1 := h.support q e.fact hqv hne
          have h2 := (h.reached01 q hqv).2
          have h3 : 0 ≤ (t.ops.zipIdx.map (fun o => if o.1.produces e.fact ∧ q ∈ o.1.pre then v.achiever o.2 e.fact else 0)).sum := by
            apply List.sum_nonneg
            intro w hw
            obtain ⟨⟨o', j⟩, ho', rfl⟩ := List.mem_map.mp hw
            simp only
            split
            · rename_i hp
              exact (h.achiever01 j o' e.fact (List.mem_zipIdx_iff_getElem?.mp ho') hp.1).1
            · exact le_refl _
          simp only [ofVars]
          constructor <;> linarith
        · exact countRow_ok.mpr (h.used i o e.fact ho ⟨e, he, rfl⟩)
        · exact absurd h' hac
        · obtain ⟨o, e, ho, hq, he, rfl⟩ := mem_triples.mp hc
          have := h.before (htl.mpr h') i o q e.fact ho hq ⟨e, he, rfl⟩ hne
          rw [← facts_length] at this
          rw [timeRow_ok]
          simp only [ofVars]
          linarith

theorem not_count_index (ht : TaskOk t) (hG : GraphOk t ac es ds) {k : Key} (hk : k ∈ keys t ac es) (hn : ∀ i, k ≠ .count i) : ¬(keys t ac es).idxOf k < t.ops.length := by
  intro hlt
  have h2 := count_index ht hG hlt
  exact hn _ ((List.idxOf_inj (mem_count.mpr hlt)).mp h2).symm

theorem feasible_counts (ht : TaskOk t) (hG : GraphOk t ac es ds) (hac : ac ≠ .vertexElimination) {intCounts intVars : Bool} {x : Nat → Rat} (h : (program t ac es ds (bound s)).FeasibleMixed (integral t intCounts intVars) x) : t.RRCounts ac.labels intCounts intVars s x := by
  have htl : ac.labels = true → ac = .timeLabels := by cases ac <;> simp [Acyclicity.labels]
  have hS := (feasible_iff ht hG).mp h.1
  let y : Key → Rat := fun k => x ((keys t ac es).idxOf k)
  have hc : ∀ i < t.ops.length, y (.count i) = x i := fun i hi => by simp only [y, count_index ht hG hi]
  have hx : Sat t ac es ds (bound s) (ofVars x (toVars y)) := hS.congr ht hG fun k hk => by
    cases k with
    | count i => exact (hc i (mem_count.mp hk)).symm
    | edge a b => exact absurd (mem_edge.mp hk).1 hac
    | _ => rfl
  have hint : intVars = true → ∀ k ∈ keys t ac es, (∀ i, k ≠ .count i) → ∃ z : Int, y k = z := by
    intro hi k hk hn
    refine h.2 _ (by simpa [program] using List.idxOf_lt_length_of_mem hk) ?_
    unfold integral
    rw [if_neg (not_count_index ht hG hk hn), hi]
  refine ⟨fun hi i hlt => h.2 i ?_ (by simp [integral, hlt, hi]), toVars y, (sat_iff ht hac).mp hx, fun hi => ⟨fun f hf => hint hi _ (mem_reached.mpr (mem_facts.mpr hf)) nofun, fun i o f ho ⟨e, he, hf⟩ => hint hi _ (mem_achiever.mpr (mem_achievers.mpr ⟨o, e, ho, he, hf⟩)) nofun, fun hl f hf => hint hi _ (mem_time.mpr ⟨htl hl, mem_facts.mpr hf⟩) nofun⟩⟩
  have := List.idxOf_lt_length_of_mem (mem_count (ac := ac) (es := es).mpr hlt)
  rw [count_index ht hG hlt] at this
  simpa [program] using this

theorem counts_feasible (ht : TaskOk t) (hG : GraphOk t ac es ds) (hac : ac ≠ .vertexElimination) {intCounts intVars : Bool} {x : Nat → Rat} (h : t.RRCounts ac.labels intCounts intVars s x) :
    ∃ x', (program t ac es ds (bound s)).FeasibleMixed (integral t intCounts intVars) x' ∧ (program t ac es ds (bound s)).value x' = t.countCost x := by
  obtain ⟨h1, v, h2, h3⟩ := h
  have hS := (sat_iff (es := es) (ds := ds) ht hac).mpr h2
  have hcount : ∀ i < t.ops.length, combine (keys t ac es) (ofVars x v) i = x i := by
    intro i hi
    have := combine_key (y := ofVars x v) (mem_count (ac := ac) (es := es).mpr hi)
    rwa [count_index ht hG hi] at this
  refine ⟨combine (keys t ac es) (ofVars x v), ⟨(feasible_iff ht hG).mpr (hS.congr ht hG fun k hk => combine_key hk), fun i _ hi => ?_⟩, ?_⟩
  · rcases Nat.lt_or_ge i t.ops.length with hlt | hge
    · rw [hcount i hlt]
      exact h1 (by simpa [integral, hlt] using hi) i hlt
    · have hv : intVars = true := by simpa [integral, Nat.not_lt.mpr hge] using hi
      obtain ⟨k1, k2, k3⟩ := h3 hv
      unfold combine
      cases hk : (keys t ac es)[i]? with
      | none => exact ⟨0, by simp⟩
      | some k =>
        have hm := List.mem_of_getElem? hk
        cases k with
        | count j =>
          have hj := mem_count.mp hm
          obtain ⟨hlt, he⟩ := List.getElem?_eq_some_iff.mp hk
          have h5 := count_index ht hG hj
          rw [← he, List.Nodup.idxOf_getElem (keys_nodup ht hG)] at h5
          omega
        | reached f => exact k1 f (mem_facts.mp (mem_reached.mp hm))
        | achiever j f =>
          obtain ⟨o, e, ho, he, hf⟩ := mem_achievers.mp (mem_achiever.mp hm)
          exact k2 j o f ho ⟨e, he, hf⟩
        | edge a b => exact absurd (mem_edge.mp hm).1 hac
        | time f => exact k3 (by rw [(mem_time.mp hm).1]; rfl) f (mem_facts.mp (mem_time.mp hm).2)
  · rw [value_eq]
    unfold Task.countCost
    congr 1
    refine List.map_congr_left fun o ho => ?_
    rw [hcount _ (List.getElem?_eq_some_iff.mp (List.mem_zipIdx_iff_getElem?.mp ho)).1]

/-- `v` is the minimal cost of counts that satisfy the constraints, up to an error of `err` -/
def IsMinimalCost (t : Task) (time intCounts intVars : Bool) (s : State) (err v : Rat) : Prop :=
  (∃ x, t.RRCounts time intCounts intVars s x ∧ t.countCost x ≤ v + err) ∧ ∀ x, t.RRCounts time intCounts intVars s x → v ≤ t.countCost x + err

/-- what the result of an evaluation says: a number is the minimum, less 0.01 and rounded up; DEAD_END means that there are no such counts; there is only no result if the number does not fit into an int -/
def CorrectCost (t : Task) (time intCounts intVars : Bool) (s : State) (err : Rat) : Option (Option Int) → Prop
  | some (some k) => ∃ v, IsMinimalCost t time intCounts intVars s err v ∧ k = ⌈v - 1 / 100⌉ ∧ k ≤ 2147483647
  | some none => ¬∃ x, t.RRCounts time intCounts intVars s x
  | none => ∃ v, IsMinimalCost t time intCounts intVars s err v ∧ 2147483647 < ⌈v - 1 / 100⌉

section
variable (ht : Supported t) {kind : SolverType} {pick : List (Nat × Fact) → Nat} {intCounts intVars : Bool} {err : Rat} (herr : err < 1 / 100) {solve : Program → (Nat → Bool) → Option Rat} (hsolve : MixedSolver err solve)

include ht herr hsolve in
/-- C84: with time labels, or without exclusion of cycles, the value of a state, whatever has been evaluated before, is the minimal cost of operator counts that satisfy the constraints of Rankooh and Rintanen for this state, less 0.01 and rounded
up. DEAD_END is only returned if no counts satisfy the constraints. -/
theorem C84_value (hac : ac ≠ .vertexElimination) {obj : Gen × Solver} (h : Reached t kind ac pick intCounts intVars solve obj) (hs : t.ValidState s) : CorrectCost t ac.labels intCounts intVars s err ((compute t solve intCounts intVars s obj).map (·.1)) := by
  obtain ⟨es, ds, hG, hO⟩ := reached_ok ht herr hsolve h
  have ht' := taskOk ht
  have hc := (compute_ok ht' hG herr hsolve (intCounts := intCounts) (intVars := intVars) hs hO).1
  have hmin : ∀ v, IsMinimum (program t ac es ds (bound s)) (integral t intCounts intVars) err v → IsMinimalCost t ac.labels intCounts intVars s err v := by
    rintro v ⟨⟨x, hx, hxv⟩, h2⟩
    rw [value_eq] at hxv
    refine ⟨⟨x, feasible_counts ht' hG hac hx, hxv⟩, fun y hy => ?_⟩
    obtain ⟨y', h3, h4⟩ := counts_feasible ht' hG hac hy
    rw [← h4]
    exact h2 y' h3
  revert hc
  generalize (compute t solve intCounts intVars s obj).map (·.1) = r
  intro hc
  match r, hc with
  | some (some k), ⟨v, hv, hk⟩ => exact ⟨v, hmin v hv, hk⟩
  | some none, h => exact fun ⟨x, hx⟩ => h ((counts_feasible ht' hG hac hx).imp fun _ h => h.1)
  | none, ⟨v, hv, hk⟩ => exact ⟨v, hmin v hv, hk⟩

end

/-! ### Consistency -/

/-- C84: without exclusion of cycles, counts for a state after an operator and one more use of the operator satisfy the constraints of the state before it. -/
theorem C84_step (ht : Supported t) {intCounts intVars : Bool} {s' : State} {i : Nat} {o : Operator} (ho : t.ops[i]? = some o) (ha : o.applicable s) (hsu : t.SuccRel o s s') {x : Nat → Rat}
    (h : t.RRCounts false intCounts intVars s' x) : t.RRCounts false intCounts intVars s (fun j => (if j = i then 1 else 0) + x j) := by
  obtain ⟨h1, y, h2, h3⟩ := h
  have hlt := (List.getElem?_eq_some_iff.mp ho).1
  have hnew : ∀ f, f.holds s' → ¬f.holds s → o.produces f := by
    intro f hf hn
    rcases Relax.succ_facts ht.wf ht.axioms ho ha hsu hf with hf' | ⟨e, he, hef, _⟩
    · exact absurd hf' hn
    · exact ⟨e, he, hef⟩
  have hsingle : ∀ (P : Operator → Prop) [DecidablePred P], P o → (t.ops.zipIdx.map (fun o' => if P o'.1 then (if o'.2 = i then (1 : Rat) else 0) else 0)).sum = 1 := by
    intro P _ hP
    have e1 : (t.ops.zipIdx.map (fun o' => if P o'.1 then (if o'.2 = i then (1 : Rat) else 0) else 0)) = (t.ops.zipIdx.map (·.2)).map (fun j => if some i = some j then (1 : Rat) else 0) := by
      rw [List.map_map]
      refine List.map_congr_left fun o' ho' => ?_
      simp only [Function.comp_def, Option.some.injEq]
      by_cases hj : o'.2 = i
      · have := List.mem_zipIdx_iff_getElem?.mp ho'
        rw [hj, ho, Option.some.injEq] at this
        rw [if_pos (this ▸ hP), if_pos hj, if_pos hj.symm]
      · have hj' : ¬i = o'.2 := fun h => hj h.symm
        simp [hj, hj']
    rw [e1, sum_single (by rw [List.zipIdx_map_snd]; exact List.nodup_range')]
    rw [if_pos]
    exact ⟨i, List.mem_map.mpr ⟨(o, i), List.mem_zipIdx_iff_getElem?.mpr ho, rfl⟩, rfl⟩
  refine ⟨fun hi j hj => ?_, ⟨fun f => if f.holds s then 1 else y.reached f, fun j f => if f.holds s then 0 else if f.holds s' then (if j = i then 1 else 0) else y.achiever j f, y.time⟩, ?_, fun hv => ?_⟩
  · obtain ⟨z, hz⟩ := h1 hi j hj
    refine ⟨(if j = i then 1 else 0) + z, ?_⟩
    simp only [hz]
    split <;> simp
  · have hr' : ∀ f, t.ValidFact f → f.holds s' → y.reached f = 1 := by
      intro f hf hs'
      have h4 := h2.achieved f hf
      rw [if_pos hs'] at h4
      have h5 : 0 ≤ (t.ops.zipIdx.map (fun o => if o.1.produces f then y.achiever o.2 f else 0)).sum := by
        apply List.sum_nonneg
        intro w hw
        obtain ⟨⟨o', j⟩, ho', rfl⟩ := List.mem_map.mp hw
        simp only
        split
        · rename_i hp
          exact (h2.achiever01 j o' f (List.mem_zipIdx_iff_getElem?.mp ho') hp).1
        · exact le_refl _
      linarith [(h2.reached01 f hf).2]
    refine ⟨fun j hj => ?_, fun f hf => ?_, fun j o' f ho' hp => ?_, fun f hf => ?_, fun q p hq hne => ?_, fun g hg => ?_, fun j o' f ho' hp => ?_, nofun, nofun⟩
    · have := h2.count j hj
      split <;> linarith
    · simp only
      split
      · norm_num
      · exact h2.reached01 f hf
    · simp only
      split
      · norm_num
      · split
        · split <;> norm_num
        · exact h2.achiever01 j o' f ho' hp
    · simp only
      by_cases hs : f.holds s
      · simp [hs]
      · by_cases hs' : f.holds s'
        · simp only [hs, hs', if_true, if_false, zero_add]
          rw [hsingle (fun o => o.produces f) (hnew f hs' hs), hr' f hf hs']
        · have := h2.achieved f hf
          simpa [hs, hs'] using this
    · simp only
      by_cases hs : p.holds s
      · simp only [hs, if_true]
        have : 0 ≤ (if q.holds s then (1 : Rat) else y.reached q) := by
          split
          · norm_num
          · exact (h2.reached01 q hq).1
        simpa using this
      · by_cases hs' : p.holds s'
        · simp only [hs, hs', if_true, if_false]
          by_cases hqo : q ∈ o.pre
          · rw [hsingle (fun o => o.produces p ∧ q ∈ o.pre) ⟨hnew p hs' hs, hqo⟩, if_pos (ha q hqo)]
          · have e0 : t.ops.zipIdx.map (fun o' => if o'.1.produces p ∧ q ∈ o'.1.pre then (if o'.2 = i then (1 : Rat) else 0) else 0) = t.ops.zipIdx.map (fun _ => 0) := by
              refine List.map_congr_left fun o' ho' => ?_
              by_cases hj : o'.2 = i
              · have := List.mem_zipIdx_iff_getElem?.mp ho'
                rw [hj, ho, Option.some.injEq] at this
                rw [if_neg]
                rintro ⟨_, hq'⟩
                exact hqo (this ▸ hq')
              · simp [hj]
            rw [e0]
            have : 0 ≤ (if q.holds s then (1 : Rat) else y.reached q) := by
              split
              · norm_num
              · exact (h2.reached01 q hq).1
            simpa using this
        · simp only [hs, hs', if_false]
          have h4 := h2.support q p hq hne
          split
          · exact le_trans h4 (h2.reached01 q hq).2
          · exact h4
    · simp only
      split
      · rfl
      · exact h2.goal g hg
    · simp only
      have hx := h2.count j (List.getElem?_eq_some_iff.mp ho').1
      have hu := h2.used j o' f ho' hp
      split
      · split <;> linarith
      · split
        · split <;> linarith
        · split <;> linarith
  · obtain ⟨k1, k2, _⟩ := h3 hv
    refine ⟨fun f hf => ?_, fun j o' f ho' hp => ?_, nofun⟩
    · simp only
      split
      · exact ⟨1, by simp⟩
      · exact k1 f hf
    · simp only
      split
      · exact ⟨0, by simp⟩
      · split
        · split
          · exact ⟨1, by simp⟩
          · exact ⟨0, by simp⟩
        · exact k2 j o' f ho' hp

section
variable (ht : Supported t) {kind : SolverType} {pick : List (Nat × Fact) → Nat} {intCounts intVars : Bool} {err : Rat} (herr : err < 1 / 100) {solve : Program → (Nat → Bool) → Option Rat} (hsolve : MixedSolver err solve)

include ht herr hsolve in
/-- C84: without exclusion of cycles the heuristic is consistent up to the rounding of the errors of the solver: applying an operator decreases the value by at most the cost of the operator and 1, or by at most the cost of the operator if
the solver is exact; and a state with a successor that is not recognised as a dead end is not recognised either. -/
theorem C84_consistent {obj1 obj2 obj1' obj2' : Gen × Solver} (h1 : Reached t kind .none pick intCounts intVars solve obj1) (h2 : Reached t kind .none pick intCounts intVars solve obj2) {s' : State} (hs : t.ValidState s) {i : Nat} {o : Operator} (ho : t.ops[i]? = some o)
    (ha : o.applicable s) (hsu : t.SuccRel o s s') {r : Option Int} {k' : Int} (hr : compute t solve intCounts intVars s obj1 = some (r, obj1')) (hr' : compute t solve intCounts intVars s' obj2 = some (some k', obj2')) :
    ∃ k, r = some k ∧ k ≤ o.cost + k' + 1 ∧ (err ≤ 0 → k ≤ o.cost + k') := by
  have hs' := succ_valid ht.wf hs ho ha hsu
  have c1 := C84_value (ac := .none) ht herr hsolve nofun h1 hs
  have c2 := C84_value (ac := .none) ht herr hsolve nofun h2 hs'
  rw [hr] at c1
  rw [hr'] at c2
  obtain ⟨v', hv', rfl, _⟩ := c2
  obtain ⟨x, hx, hxv⟩ := hv'.1
  have hst := C84_step ht ho ha hsu hx
  cases r with
  | none => exact absurd ⟨_, hst⟩ c1
  | some k =>
    obtain ⟨v, hv, rfl, _⟩ := c1
    have h5 := hv.2 _ hst
    rw [countCost_step ho] at h5
    have h6 := Int.le_ceil (v' - 1 / 100)
    refine ⟨_, rfl, ?_, fun he => ?_⟩
    · rw [Int.ceil_le]
      push_cast
      linarith
    · rw [Int.ceil_le]
      push_cast
      linarith

end

/-! ### Examples -/

/-- the hypotheses of the theorems can be met, and the minimum is not trivial: with time labels and integers there are counts of cost 5 (up to the error of the solver) for the initial state of the example, and none that are cheaper -/
example : ∃ v, IsMinimalCost exTask true true true [0, 0] (1 / 200) v ∧ ⌈v - 1 / 100⌉ = 5 := by
  obtain ⟨solve, hsolve⟩ := exists_mixedSolver (err := 1 / 200) (by norm_num)
  have hno : ∀ o ∈ exTask.ops, ∀ e ∈ o.effects, e.fact ∉ o.pre := by decide
  obtain ⟨obj, h0⟩ := C84_created exTask_supported.wf .cplex .timeLabels (fun _ => 0) true true nofun (fun _ => hno)
  have hr : Reached exTask .cplex .timeLabels (fun _ => 0) true true solve obj := ⟨obj, [], h0, by simp, rfl⟩
  obtain ⟨obj', h1⟩ := (C84_hplus (ac := .timeLabels) exTask_supported (by norm_num) hsolve nofun (by decide) hno hr (s := [0, 0]) (stateOK_spec (by decide))).1 5 exTask_hplus.1 exTask_hplus.2 (by omega)
  have h2 := C84_value (ac := .timeLabels) exTask_supported (by norm_num) hsolve nofun hr (s := [0, 0]) (stateOK_spec (by decide))
  rw [h1] at h2
  obtain ⟨v, hv, hk, _⟩ := h2
  exact ⟨v, hv, hk.symm⟩

/-- and the hypotheses of the consistency: both states get a value without exclusion of cycles, too, also from an object that has evaluated other states before -/
example : ∀ solve, MixedSolver (1 / 200) solve → ∃ obj obj1 obj2 k k', Reached exTask .cplex .none (fun _ => 0) false false solve obj ∧ compute exTask solve false false [0, 0] obj = some (some k, obj1) ∧ Reached exTask .cplex .none (fun _ => 0) false false solve obj1 ∧
    compute exTask solve false false [1, 0] obj1 = some (some k', obj2) ∧ k ≤ 5 ∧ k ≤ 2 + k' + 1 := by
  intro solve hsolve
  obtain ⟨obj, h0⟩ := C84_created exTask_supported.wf .cplex .none (fun _ => 0) false false nofun nofun
  have hr : Reached exTask .cplex .none (fun _ => 0) false false solve obj := ⟨obj, [], h0, by simp, rfl⟩
  have hs : exTask.ValidState [0, 0] := stateOK_spec (by decide)
  have hs' : exTask.ValidState [1, 0] := stateOK_spec (by decide)
  obtain ⟨k, obj1, h1, h2⟩ := C84_below_hplus exTask_supported (by norm_num) hsolve hr hs exTask_hplus.1 (by omega)
  have hr1 : Reached exTask .cplex .none (fun _ => 0) false false solve obj1 := ⟨obj, [[0, 0]], h0, by simpa using hs, by simp [computeAll, h1]⟩
  have hp : exTask.HplusLe [1, 0] 4 := by
    refine ⟨[1, 2], by decide, by decide, ?_, by decide⟩
    intro g hg
    simp only [exTask, List.mem_cons, List.not_mem_nil, or_false] at hg
    rcases hg with rfl | rfl
    · exact .effect (some 2) _ _ 1 (.op 2 ⟨[⟨0, 1⟩], [⟨[], ⟨0, 0⟩⟩], 1⟩ ⟨[], ⟨0, 0⟩⟩ rfl (by simp)) (by simp) (by
        intro q hq
        simp only [List.append_nil, List.mem_singleton] at hq
        subst hq
        exact .state _ rfl)
    · exact .effect (some 1) _ _ 3 (.op 1 ⟨[⟨0, 1⟩], [⟨[], ⟨1, 1⟩⟩], 3⟩ ⟨[], ⟨1, 1⟩⟩ rfl (by simp)) (by simp) (by
        intro q hq
        simp only [List.append_nil, List.mem_singleton] at hq
        subst hq
        exact .state _ rfl)
  obtain ⟨k', obj2, h3, _⟩ := C84_below_hplus exTask_supported (by norm_num) hsolve hr1 hs' hp (by omega)
  refine ⟨obj, obj1, obj2, k, k', hr, h1, hr1, h3, by exact_mod_cast h2, ?_⟩
  have hsu : exTask.SuccRel ⟨[⟨0, 0⟩], [⟨[], ⟨0, 1⟩⟩], 2⟩ [0, 0] [1, 0] := by
    obtain ⟨s', h1, _, h3⟩ := Registry.unregistered_spec exTask_supported.wf (o := ⟨[⟨0, 0⟩], [⟨[], ⟨0, 1⟩⟩], 2⟩) (by decide) exTask_supported.wf.init
    have : Registry.unregisteredSuccessor exTask exTask.init ⟨[⟨0, 0⟩], [⟨[], ⟨0, 1⟩⟩], 2⟩ = some [1, 0] := by decide +kernel
    rw [this] at h1
    simp only [Option.some.injEq] at h1
    exact h1 ▸ h3
  obtain ⟨k2, e, hk, _⟩ := C84_consistent exTask_supported (by norm_num) hsolve hr hr1 hs (i := 0) rfl (by decide) hsu h1 h3
  cases e
  exact_mod_cast hk

end Verif.CountingRR
