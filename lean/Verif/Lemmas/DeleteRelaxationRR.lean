import Verif.Lemmas.VertexElimination
import Mathlib.Order.RelClasses

/-
The delete-relaxation constraints of Rankooh and Rintanen: rows and columns as inequalities, relaxed plans as solutions, and solutions as relaxed plans.
-/
namespace Verif.CountingRR
open Verif.LP Verif.CountingIF
open Verif.Counting hiding Gen

variable {t : Task} {ac : Acyclicity} {es : List (Fact × Fact)} {ds : List (Fact × Fact × Fact)} {s : State}

/-- the graph that is used -/
structure GraphOk (t : Task) (ac : Acyclicity) (es : List (Fact × Fact)) (ds : List (Fact × Fact × Fact)) : Prop where
  graph : ac = .vertexElimination → ∃ elim, GInv t es ds elim ∧ (∀ f ∈ facts t, f ∈ elim) ∧ ∀ c ∈ triples t, (c.2.1, c.2.2) ∈ es

/-- what the theorems need of the task -/
structure TaskOk (t : Task) : Prop where
  wf : t.WF
  once : ∀ o ∈ t.ops, (o.effects.map (·.fact)).Nodup

theorem mem_count {i : Nat} : Key.count i ∈ keys t ac es ↔ i < t.ops.length := by
  unfold keys; cases ac <;> simp

theorem mem_reached {f : Fact} : Key.reached f ∈ keys t ac es ↔ f ∈ facts t := by
  unfold keys; cases ac <;> simp

theorem mem_achiever {i : Nat} {f : Fact} : Key.achiever i f ∈ keys t ac es ↔ i ∈ achievers t f := by
  have : (∃ o e, t.ops[i]? = some o ∧ e ∈ o.effects ∧ e.fact = f) ↔ ∃ a, ∃ b : Nat, (a, b) ∈ t.ops.zipIdx ∧ ∃ e ∈ a.effects, b = i ∧ e.fact = f := by
    constructor
    · rintro ⟨o, e, ho, he, hf⟩
      exact ⟨o, i, List.mem_zipIdx_iff_getElem?.mpr ho, e, he, rfl, hf⟩
    · rintro ⟨o, j, ho, e, he, rfl, hf⟩
      exact ⟨o, e, List.mem_zipIdx_iff_getElem?.mp ho, he, hf⟩
  rw [mem_achievers, this]
  unfold keys
  cases ac <;> simp [List.mem_flatMap]

theorem mem_edge {a b : Fact} : Key.edge a b ∈ keys t ac es ↔ ac = .vertexElimination ∧ (a, b) ∈ es := by
  unfold keys; cases ac <;> simp

theorem mem_time {f : Fact} : Key.time f ∈ keys t ac es ↔ ac = .timeLabels ∧ f ∈ facts t := by
  unfold keys; cases ac <;> simp

theorem keys_nodup (ht : TaskOk t) (hG : GraphOk t ac es ds) : (keys t ac es).Nodup := by
  have h1 : ((List.range t.ops.length).map Key.count).Nodup := List.nodup_range.map fun a b h => by simpa using h
  have h2 : ((facts t).map Key.reached).Nodup := facts_nodup.map fun a b h => by simpa using h
  have h3 : (t.ops.zipIdx.flatMap (fun o => o.1.effects.map (fun e => Key.achiever o.2 e.fact))).Nodup := by
    rw [List.nodup_flatMap]
    constructor
    · rintro ⟨o, i⟩ ho
      have := ht.once o (List.fst_mem_of_mem_zipIdx ho)
      have h4 := List.Nodup.map (f := Key.achiever i) (fun a b h => by simpa using h) this
      rw [List.map_map] at h4
      exact h4
    · refine List.Pairwise.imp_of_mem (R := fun a b => a.2 ≠ b.2) ?_ ?_
      · intro a b _ _ hab
        simp only [Function.onFun, List.disjoint_left, List.mem_map, not_exists, not_and]
        rintro _ ⟨x, _, rfl⟩ y _ h
        simp only [Key.achiever.injEq] at h
        exact hab h.1.symm
      · have : (t.ops.zipIdx.map (·.2)).Nodup := by
          rw [List.zipIdx_map_snd]
          exact List.nodup_range'
        exact List.pairwise_map.mp this
  have h4 : ((facts t).map Key.time).Nodup := facts_nodup.map fun a b h => by simpa using h
  have h12 : ((List.range t.ops.length).map Key.count ++ (facts t).map Key.reached).Nodup := by
    refine List.nodup_append.mpr ⟨h1, h2, fun a ha b hb => ?_⟩
    obtain ⟨i, _, rfl⟩ := List.mem_map.mp ha
    obtain ⟨f, _, rfl⟩ := List.mem_map.mp hb
    simp
  have h123 : ((List.range t.ops.length).map Key.count ++ (facts t).map Key.reached ++ t.ops.zipIdx.flatMap (fun o => o.1.effects.map (fun e => Key.achiever o.2 e.fact))).Nodup := by
    refine List.nodup_append.mpr ⟨h12, h3, fun a ha b hb => ?_⟩
    obtain ⟨o, _, hb⟩ := List.mem_flatMap.mp hb
    obtain ⟨e, _, rfl⟩ := List.mem_map.mp hb
    rcases List.mem_append.mp ha with ha | ha
    · obtain ⟨i, _, rfl⟩ := List.mem_map.mp ha
      simp
    · obtain ⟨i, _, rfl⟩ := List.mem_map.mp ha
      simp
  have hkey : ∀ a ∈ ((List.range t.ops.length).map Key.count ++ (facts t).map Key.reached ++ t.ops.zipIdx.flatMap (fun o => o.1.effects.map (fun e => Key.achiever o.2 e.fact))), (∀ f, a ≠ .time f) ∧ ∀ f g, a ≠ .edge f g := by
    intro a ha
    simp only [List.mem_append, List.mem_map, List.mem_flatMap] at ha
    rcases ha with (⟨i, _, rfl⟩ | ⟨i, _, rfl⟩) | ⟨o, _, e, _, rfl⟩ <;> simp
  unfold keys
  cases ac with
  | none => simpa using h123
  | timeLabels =>
    refine List.nodup_append.mpr ⟨h123, h4, fun a ha b hb => ?_⟩
    obtain ⟨f, _, rfl⟩ := List.mem_map.mp hb
    exact (hkey a ha).1 f
  | vertexElimination =>
    obtain ⟨elim, hg, _⟩ := hG.graph rfl
    refine List.nodup_append.mpr ⟨h123, hg.nodup.map (fun a b h => by
      simp only [Key.edge.injEq] at h
      exact Prod.ext h.1 h.2), fun a ha b hb => ?_⟩
    obtain ⟨f, _, rfl⟩ := List.mem_map.mp hb
    exact (hkey a ha).2 _ _

/-! ### Rows -/

/-- all rows for a state, with keys -/
def keyRows (t : Task) (ac : Acyclicity) (es : List (Fact × Fact)) (ds : List (Fact × Fact × Fact)) (b : Fact → Rat) : List KeyRow := (facts t).map (fun f => factRow t (b f) f) ++ otherRows t ac es ds

theorem mem_triples {i : Nat} {q p : Fact} : (i, q, p) ∈ triples t ↔ ∃ o e, t.ops[i]? = some o ∧ q ∈ o.pre ∧ e ∈ o.effects ∧ e.fact = p := by
  unfold triples
  simp only [List.mem_flatMap, List.mem_map, Prod.mk.injEq]
  constructor
  · rintro ⟨⟨o, j⟩, ho, q', hq, e, he, rfl, rfl, rfl⟩
    exact ⟨o, e, List.mem_zipIdx_iff_getElem?.mp ho, hq, he, rfl⟩
  · rintro ⟨o, e, ho, hq, he, rfl⟩
    exact ⟨(o, i), List.mem_zipIdx_iff_getElem?.mpr ho, q, hq, e, he, rfl, rfl, rfl⟩

theorem mem_pairs {q p : Fact} : (q, p) ∈ pairs t ↔ q ≠ p ∧ ∃ o ∈ t.ops, q ∈ o.pre ∧ ∃ e ∈ o.effects, e.fact = p := by
  unfold pairs
  simp only [List.mem_flatMap, List.mem_map, List.mem_filter, decide_eq_true_eq, Prod.mk.injEq]
  constructor
  · rintro ⟨o, ho, e, he, q', ⟨hq, hne⟩, rfl, rfl⟩
    exact ⟨hne, o, ho, hq, e, he, rfl⟩
  · rintro ⟨hne, o, ho, hq, e, he, rfl⟩
    exact ⟨o, ho, e, he, q, ⟨hq, hne⟩, rfl, rfl⟩

theorem mem_supported {i : Nat} {q p : Fact} : i ∈ supported t q p ↔ i ∈ achievers t p ∧ ∃ o, t.ops[i]? = some o ∧ q ∈ o.pre := by
  unfold supported
  rw [List.mem_filter]
  refine and_congr Iff.rfl ?_
  cases t.ops[i]? <;> simp

/-- the rows after those for facts -/
theorem mem_otherRows {r : KeyRow} : r ∈ otherRows t ac es ds ↔
    (∃ c ∈ pairs t, r = supportRow t c) ∨ (∃ i o e, t.ops[i]? = some o ∧ e ∈ o.effects ∧ r = countRow i e.fact) ∨
    (ac = .vertexElimination ∧ ((∃ c ∈ triples t, r = orderRow c.1 c.2.1 c.2.2) ∨ (∃ e ∈ es, (e.2, e.1) ∈ es ∧ r = cycleRow e) ∨ ∃ c ∈ ds, r = shortcutRow c)) ∨
    (ac = .timeLabels ∧ ∃ c ∈ triples t, c.2.1 ≠ c.2.2 ∧ r = timeRow t c.1 c.2.1 c.2.2) := by
  have h2 : r ∈ t.ops.zipIdx.flatMap (fun o => o.1.effects.map (fun e => countRow o.2 e.fact)) ↔ ∃ i o e, t.ops[i]? = some o ∧ e ∈ o.effects ∧ r = countRow i e.fact := by
    simp only [List.mem_flatMap, List.mem_map]
    constructor
    · rintro ⟨⟨o, j⟩, ho, e, he, rfl⟩
      exact ⟨j, o, e, List.mem_zipIdx_iff_getElem?.mp ho, he, rfl⟩
    · rintro ⟨i, o, e, ho, he, rfl⟩
      exact ⟨(o, i), List.mem_zipIdx_iff_getElem?.mpr ho, e, he, rfl⟩
  have h1 : r ∈ (pairs t).dedup.map (supportRow t) ↔ ∃ c ∈ pairs t, r = supportRow t c := by
    simp only [List.mem_map, List.mem_dedup, eq_comm]
  unfold otherRows
  rw [List.mem_append, List.mem_append, h1, h2, or_assoc]
  refine or_congr Iff.rfl (or_congr Iff.rfl ?_)
  cases ac with
  | none => simp
  | vertexElimination =>
    simp only [List.mem_append, List.mem_map, List.mem_filter, decide_eq_true_eq, true_and, reduceCtorEq, false_and, or_false, or_assoc, and_assoc, eq_comm (a := r)]
  | timeLabels =>
    simp only [List.mem_map, List.mem_filter, decide_eq_true_eq, true_and, reduceCtorEq, false_and, false_or, and_assoc, eq_comm (a := r)]

theorem supported_nodup (ht : TaskOk t) (q p : Fact) : (supported t q p).Nodup := (achievers_nodup ht.once p).filter _

/-- the rows mention columns that exist, and none of them twice -/
theorem keyRows_ok (ht : TaskOk t) (hG : GraphOk t ac es ds) {b : Fact → Rat} {r : KeyRow} (h : r ∈ keyRows t ac es ds b) : (r.terms.map (·.1)).Nodup ∧ ∀ e ∈ r.terms, e.1 ∈ keys t ac es := by
  have hlt : ∀ {i : Nat} {o : Operator}, t.ops[i]? = some o → i < t.ops.length := fun ho => (List.getElem?_eq_some_iff.mp ho).1
  have heff : ∀ {i : Nat} {o : Operator} {e : Effect}, t.ops[i]? = some o → e ∈ o.effects → e.fact ∈ facts t := fun ho he => mem_facts.mpr (ht.wf.effFact _ (List.mem_of_getElem? ho) _ he)
  have hpre : ∀ {i : Nat} {o : Operator} {f : Fact}, t.ops[i]? = some o → f ∈ o.pre → f ∈ facts t := fun ho he => mem_facts.mpr (ht.wf.pre _ (List.mem_of_getElem? ho) _ he)
  have hach : ∀ {i : Nat} {o : Operator} {e : Effect}, t.ops[i]? = some o → e ∈ o.effects → Key.achiever i e.fact ∈ keys t ac es := fun ho he => mem_achiever.mpr (mem_achievers.mpr ⟨_, _, ho, he, rfl⟩)
  have hsum : ∀ (q p : Fact) (l : List Nat), l.Nodup → q ∈ facts t → (∀ i ∈ l, i ∈ achievers t p) →
      ((((Key.reached q, (1 : Rat)) :: l.map (fun i => (Key.achiever i p, (-1 : Rat)))).map (·.1)).Nodup ∧ ∀ e ∈ (Key.reached q, (1 : Rat)) :: l.map (fun i => (Key.achiever i p, (-1 : Rat))), e.1 ∈ keys t ac es) := by
    intro q p l hn hq hl
    constructor
    · simp only [List.map_cons, List.map_map, List.nodup_cons, Function.comp_def]
      refine ⟨by simp, hn.map fun a b h => by simpa using h⟩
    · intro e he
      rcases List.mem_cons.mp he with rfl | he
      · exact mem_reached.mpr hq
      · obtain ⟨i, hi, rfl⟩ := List.mem_map.mp he
        exact mem_achiever.mpr (hl i hi)
  rcases List.mem_append.mp h with h | h
  · obtain ⟨f, hf, rfl⟩ := List.mem_map.mp h
    exact hsum f f _ (achievers_nodup ht.once f) hf fun i hi => hi
  · rcases mem_otherRows.mp h with ⟨⟨q, p⟩, hc, rfl⟩ | ⟨i, o, e, ho, he, rfl⟩ | ⟨rfl, h'⟩ | ⟨rfl, ⟨i, q, p⟩, hc, hne, rfl⟩
    · obtain ⟨_, o, ho, hq, _⟩ := mem_pairs.mp hc
      exact hsum q p _ (supported_nodup ht q p) (mem_facts.mpr (ht.wf.pre o ho q hq)) fun i hi => (mem_supported.mp hi).1
    · refine ⟨by simp [countRow], ?_⟩
      simp only [countRow, List.mem_cons, List.not_mem_nil, or_false, forall_eq_or_imp, forall_eq]
      exact ⟨hach ho he, mem_count.mpr (hlt ho)⟩
    · obtain ⟨elim, hg, _, htr⟩ := hG.graph rfl
      rcases h' with ⟨⟨i, q, p⟩, hc, rfl⟩ | ⟨⟨a, c⟩, he, hr, rfl⟩ | ⟨⟨i, j, k⟩, hc, rfl⟩
      · obtain ⟨o, e, ho, hq, he, rfl⟩ := mem_triples.mp hc
        refine ⟨by simp [orderRow], ?_⟩
        simp only [orderRow, List.mem_cons, List.not_mem_nil, or_false, forall_eq_or_imp, forall_eq]
        exact ⟨mem_edge.mpr ⟨rfl, htr _ hc⟩, hach ho he⟩
      · have := (hg.valid _ _ he).1
        refine ⟨?_, ?_⟩
        · simp only [cycleRow, List.map_cons, List.map_nil, List.nodup_cons, List.mem_cons, List.not_mem_nil, or_false, not_false_eq_true, List.nodup_nil, and_true, Key.edge.injEq]
          exact fun h => this h.1
        · simp only [cycleRow, List.mem_cons, List.not_mem_nil, or_false, forall_eq_or_imp, forall_eq]
          exact ⟨mem_edge.mpr ⟨rfl, he⟩, mem_edge.mpr ⟨rfl, hr⟩⟩
      · obtain ⟨h1, h2, h3⟩ := hg.closed i j k hc
        refine ⟨?_, ?_⟩
        · simp only [shortcutRow, List.map_cons, List.map_nil, List.nodup_cons, List.mem_cons, List.not_mem_nil, or_false, not_false_eq_true, List.nodup_nil, and_true, Key.edge.injEq, not_or, not_and]
          refine ⟨⟨fun h => absurd h (hg.valid _ _ h1).1, fun _ h => absurd h (hg.valid _ _ h2).1⟩, fun h => absurd h.symm (hg.valid _ _ h1).1⟩
        · simp only [shortcutRow, List.mem_cons, List.not_mem_nil, or_false, forall_eq_or_imp, forall_eq]
          exact ⟨mem_edge.mpr ⟨rfl, h1⟩, mem_edge.mpr ⟨rfl, h2⟩, mem_edge.mpr ⟨rfl, h3⟩⟩
    · obtain ⟨o, e, ho, hq, he, rfl⟩ := mem_triples.mp hc
      refine ⟨?_, ?_⟩
      · simp only [timeRow, List.map_cons, List.map_nil, List.nodup_cons, List.mem_cons, List.not_mem_nil, or_false, not_false_eq_true, List.nodup_nil, and_true, Key.time.injEq, reduceCtorEq]
        exact hne
      · simp only [timeRow, List.mem_cons, List.not_mem_nil, or_false, forall_eq_or_imp, forall_eq]
        exact ⟨mem_time.mpr ⟨rfl, hpre ho hq⟩, mem_time.mpr ⟨rfl, heff ho he⟩, hach ho he⟩

/-! ### Solutions -/

/-- the values satisfy the row -/
def KeyRow.Ok (y : Key → Rat) (r : KeyRow) : Prop := Between r.lower r.upper ((r.terms.map (fun e => e.2 * y e.1)).sum)

/-- the values satisfy all constraints -/
structure Sat (t : Task) (ac : Acyclicity) (es : List (Fact × Fact)) (ds : List (Fact × Fact × Fact)) (b : Fact → Rat) (y : Key → Rat) : Prop where
  cols : ∀ k ∈ keys t ac es, Between (column t k).lower (column t k).upper (y k)
  rows : ∀ r ∈ keyRows t ac es ds b, r.Ok y

/-- the program of the heuristic -/
def program (t : Task) (ac : Acyclicity) (es : List (Fact × Fact)) (ds : List (Fact × Fact × Fact)) (b : Fact → Rat) : Program := ⟨false, (keys t ac es).map (column t), rows t ac es ds b⟩

theorem row_value {ks : List Key} {r : KeyRow} {x : Nat → Rat} : (r.row ks).value x = (r.terms.map (fun e => e.2 * x (ks.idxOf e.1))).sum := by
  simp only [KeyRow.row, Row.value, List.map_map, Function.comp_def]

theorem feasible_iff (ht : TaskOk t) (hG : GraphOk t ac es ds) {b : Fact → Rat} {x : Nat → Rat} : (program t ac es ds b).Feasible x ↔ Sat t ac es ds b (fun k => x ((keys t ac es).idxOf k)) := by
  have hn := keys_nodup ht hG
  constructor
  · rintro ⟨hc, hr⟩
    refine ⟨fun k hk => ?_, fun r h => ?_⟩
    · refine hc _ (column t k) ?_
      simp only [program]
      rw [List.getElem?_map, List.getElem?_idxOf hk]
      rfl
    · have := hr (r.row (keys t ac es)) (List.mem_map_of_mem h)
      rw [row_value] at this
      exact this
  · rintro ⟨hc, hr⟩
    refine ⟨fun j c h => ?_, fun r h => ?_⟩
    · simp only [program] at h
      rw [List.getElem?_map, Option.map_eq_some_iff] at h
      obtain ⟨k, hk, rfl⟩ := h
      have h1 := hc k (List.mem_of_getElem? hk)
      obtain ⟨hj, rfl⟩ := List.getElem?_eq_some_iff.mp hk
      rw [List.Nodup.idxOf_getElem hn] at h1
      exact h1
    · obtain ⟨r, hr', rfl⟩ := List.mem_map.mp h
      have := hr r hr'
      rw [row_value]
      exact this

theorem Sat.congr (ht : TaskOk t) (hG : GraphOk t ac es ds) {b : Fact → Rat} {y y' : Key → Rat} (h : Sat t ac es ds b y) (he : ∀ k ∈ keys t ac es, y' k = y k) : Sat t ac es ds b y' := by
  refine ⟨fun k hk => he k hk ▸ h.cols k hk, fun r hr => ?_⟩
  have h1 := h.rows r hr
  unfold KeyRow.Ok at h1 ⊢
  rw [List.map_congr_left fun e hm => by rw [he e.1 ((keyRows_ok ht hG hr).2 e hm)]]
  exact h1

theorem wellFormed (ht : TaskOk t) (hG : GraphOk t ac es ds) {b : Fact → Rat} : (program t ac es ds b).WellFormed := by
  intro r h
  obtain ⟨r, hr, rfl⟩ := List.mem_map.mp h
  obtain ⟨h1, h2⟩ := keyRows_ok ht hG hr
  constructor
  · simp only [KeyRow.row, List.map_map, Function.comp_def]
    have : r.terms.map (fun e => (keys t ac es).idxOf e.1) = (r.terms.map (·.1)).map ((keys t ac es).idxOf) := by rw [List.map_map]; rfl
    rw [this]
    refine List.Nodup.map_on (fun a ha c _ hac => ?_) h1
    obtain ⟨e, he, rfl⟩ := List.mem_map.mp ha
    exact (List.idxOf_inj (h2 e he)).mp hac
  · intro e he
    simp only [KeyRow.row, List.mem_map] at he
    obtain ⟨e, he, rfl⟩ := he
    simpa [program] using List.idxOf_lt_length_of_mem (h2 e he)

theorem count_index {i : Nat} (ht : TaskOk t) (hG : GraphOk t ac es ds) (h : i < t.ops.length) : (keys t ac es).idxOf (.count i) = i := by
  have hg : (keys t ac es)[i]? = some (.count i) := by
    unfold keys
    rw [List.append_assoc, List.append_assoc, List.getElem?_append_left (by simpa using h)]
    simp [h]
  obtain ⟨hj, he⟩ := List.getElem?_eq_some_iff.mp hg
  conv_lhs => rw [← he]
  exact List.Nodup.idxOf_getElem (keys_nodup ht hG) i hj

theorem value_eq {b : Fact → Rat} {x : Nat → Rat} : (program t ac es ds b).value x = t.countCost x := by
  have h0 : ((List.range t.ops.length).map Key.count).map (column t) = t.ops.map (fun o => (⟨some 0, none, o.cost⟩ : Column)) := by
    apply List.ext_getElem?
    intro i
    simp only [List.getElem?_map]
    rcases Nat.lt_or_ge i t.ops.length with h | h
    · rw [List.getElem?_range h, List.getElem?_eq_getElem h]
      simp [column, Task.opCost, h]
    · rw [List.getElem?_eq_none (by simpa using h), List.getElem?_eq_none h]
      rfl
  obtain ⟨rest, hk, hrest⟩ : ∃ rest, keys t ac es = (List.range t.ops.length).map Key.count ++ rest ∧ ∀ k ∈ rest, (column t k).objective = 0 := by
    refine ⟨_, by unfold keys; rw [List.append_assoc, List.append_assoc], fun k hk => ?_⟩
    cases k with
    | count i => exfalso; cases ac <;> simp at hk
    | reached f => rfl
    | achiever i f => rfl
    | edge a b => rfl
    | time f => rfl
  have hz : ∀ n, (((rest.map (column t)).zipIdx n).map (fun c => c.1.objective * x c.2)).sum = 0 := by
    intro n
    have : ((rest.map (column t)).zipIdx n).map (fun c => c.1.objective * x c.2) = ((rest.map (column t)).zipIdx n).map (fun _ => 0) := by
      refine List.map_congr_left fun c hc => ?_
      obtain ⟨k, hk', he⟩ := List.mem_map.mp (List.fst_mem_of_mem_zipIdx hc)
      rw [← he, hrest k hk', zero_mul]
    rw [this]
    simp
  unfold Program.value Task.countCost
  simp only [program]
  rw [hk, List.map_append, h0, List.zipIdx_append, List.map_append, List.sum_append, hz]
  simp [List.zipIdx_map, Function.comp_def]

/-- a solution of the program for values of the keys -/
def combine (ks : List Key) (y : Key → Rat) (j : Nat) : Rat := match ks[j]? with | some k => y k | none => 0

theorem combine_key {ks : List Key} {y : Key → Rat} {k : Key} (h : k ∈ ks) : combine ks y (ks.idxOf k) = y k := by
  unfold combine
  rw [List.getElem?_idxOf h]

/-! ### Relaxed plans are solutions -/

/-- the position at which a fact is reached -/
def pos (t : Task) (s : State) (l : List Nat) (f : Fact) : Nat := if f.holds s then 0 else match firstOf t l f with | some i => l.idxOf i + 1 | none => l.length + 1

/-- the time label of a fact -/
def rank (t : Task) (s : State) (l : List Nat) (f : Fact) : Nat := (facts t).countP (fun g => pos t s l g < pos t s l f) + 1

/-- the values of the columns for a sequence -/
def values (t : Task) (s : State) (l : List Nat) (x : Nat → Rat) : Key → Rat
  | .count i => x i
  | .reached f => if Covered t s l f then 1 else 0
  | .achiever i f => if ¬ f.holds s ∧ firstOf t l f = some i then 1 else 0
  | .edge a b => if pos t s l a < pos t s l b then 1 else 0
  | .time f => (rank t s l f : Nat)

theorem rank_le {l : List Nat} {f : Fact} (hf : f ∈ facts t) : rank t s l f ≤ (facts t).length := by
  unfold rank
  have h1 : (facts t).countP (fun g => decide (pos t s l g < pos t s l f)) < (facts t).length := by
    rcases Nat.lt_or_ge ((facts t).countP (fun g => decide (pos t s l g < pos t s l f))) (facts t).length with h | h
    · exact h
    · have := List.countP_eq_length.mp (le_antisymm List.countP_le_length h) f hf
      simp at this
  omega

theorem rank_lt {l : List Nat} {q p : Fact} (hq : q ∈ facts t) (h : pos t s l q < pos t s l p) : rank t s l q + 1 ≤ rank t s l p := by
  unfold rank
  obtain ⟨a, b, hab⟩ := List.append_of_mem hq
  rw [hab]
  have h1 : ∀ c : List Fact, c.countP (fun g => decide (pos t s l g < pos t s l q)) ≤ c.countP (fun g => decide (pos t s l g < pos t s l p)) := fun c => List.countP_mono_left fun x _ hx => by
    simp only [decide_eq_true_eq] at hx ⊢
    omega
  have h2 := h1 a
  have h3 := h1 b
  simp only [List.countP_append, List.countP_cons, lt_irrefl, decide_false, Bool.false_eq_true, if_false, h, decide_true, if_true]
  omega

/-- preconditions of first achievers are reached before -/
theorem before_first {R : Nat → Prop} {l : List Nat} (h : Sequence t s R l) {i : Nat} {o : Operator} {q p : Fact} (ho : t.ops[i]? = some o) (hq : q ∈ o.pre) (hs : ¬p.holds s) (hf : firstOf t l p = some i) : Covered t s l q ∧ pos t s l q < pos t s l p := by
  obtain ⟨k, hk⟩ := List.getElem?_of_mem (firstOf_some hf).1
  have hki : l.idxOf i = k := by
    obtain ⟨hlt, rfl⟩ := List.getElem?_eq_some_iff.mp hk
    exact List.Nodup.idxOf_getElem h.nodup k hlt
  have hc := h.pre k i o hk ho q hq
  refine ⟨hc.mono fun j hj => List.mem_of_mem_take hj, ?_⟩
  have hp : pos t s l p = k + 1 := by simp only [pos, if_neg hs, hf, hki]
  rw [hp]
  unfold pos
  rcases hc with hc | ⟨j, hj, ha⟩
  · rw [if_pos hc]; omega
  · obtain ⟨i', hi', hle⟩ := firstOf_le hj ha
    rw [hi']
    split
    · omega
    · simp only
      omega

theorem sum_single : ∀ {l : List Nat}, l.Nodup → ∀ a : Option Nat, (l.map (fun j => if a = some j then (1 : Rat) else 0)).sum = if ∃ j ∈ l, a = some j then 1 else 0
  | [], _, a => by simp
  | j :: l, hn, a => by
    rw [List.map_cons, List.sum_cons, sum_single (List.nodup_cons.mp hn).2 a]
    by_cases h : a = some j
    · subst h
      have : ¬∃ j' ∈ l, some j = some j' := by
        rintro ⟨j', hj', he⟩
        simp only [Option.some.injEq] at he
        exact (List.nodup_cons.mp hn).1 (he ▸ hj')
      rw [if_neg this]
      simp
    · simp [h]

theorem neg_sum {l : List Nat} {g : Nat → Rat} : (l.map (fun i => -1 * g i)).sum = -(l.map g).sum := by
  induction l with
  | nil => simp
  | cons a l ih => simp only [List.map_cons, List.sum_cons, ih]; ring

theorem factRow_ok {b : Rat} {f : Fact} {y : Key → Rat} : (factRow t b f).Ok y ↔ y (.reached f) - ((achievers t f).map (fun i => y (.achiever i f))).sum = b := by
  simp only [KeyRow.Ok, factRow, List.map_cons, List.sum_cons, List.map_map, Function.comp_def, neg_sum, one_mul, Between, Option.some.injEq, forall_eq']
  constructor
  · rintro ⟨h1, h2⟩; linarith
  · intro h; constructor <;> linarith

theorem supportRow_ok {c : Fact × Fact} {y : Key → Rat} : (supportRow t c).Ok y ↔ 0 ≤ y (.reached c.1) - ((supported t c.1 c.2).map (fun i => y (.achiever i c.2))).sum ∧ y (.reached c.1) - ((supported t c.1 c.2).map (fun i => y (.achiever i c.2))).sum ≤ 1 := by
  simp only [KeyRow.Ok, supportRow, List.map_cons, List.sum_cons, List.map_map, Function.comp_def, neg_sum, one_mul, Between, Option.some.injEq, forall_eq', ← sub_eq_add_neg]

theorem countRow_ok {i : Nat} {f : Fact} {y : Key → Rat} : (countRow i f).Ok y ↔ y (.achiever i f) ≤ y (.count i) := by
  simp only [KeyRow.Ok, countRow, between_lower, List.map_cons, List.map_nil, List.sum_cons, List.sum_nil]
  constructor <;> intro h <;> linarith

theorem orderRow_ok {i : Nat} {q p : Fact} {y : Key → Rat} : (orderRow i q p).Ok y ↔ y (.achiever i p) ≤ y (.edge q p) := by
  simp only [KeyRow.Ok, orderRow, between_lower, List.map_cons, List.map_nil, List.sum_cons, List.sum_nil]
  constructor <;> intro h <;> linarith

theorem between_upper {b v : Rat} : Between none (some b) v ↔ v ≤ b := by simp [Between]

theorem cycleRow_ok {e : Fact × Fact} {y : Key → Rat} : (cycleRow e).Ok y ↔ y (.edge e.1 e.2) + y (.edge e.2 e.1) ≤ 1 := by
  simp only [KeyRow.Ok, cycleRow, between_upper, List.map_cons, List.map_nil, List.sum_cons, List.sum_nil]
  constructor <;> intro h <;> linarith

theorem shortcutRow_ok {c : Fact × Fact × Fact} {y : Key → Rat} : (shortcutRow c).Ok y ↔ y (.edge c.1 c.2.1) + y (.edge c.2.1 c.2.2) ≤ 1 + y (.edge c.1 c.2.2) := by
  simp only [KeyRow.Ok, shortcutRow, between_upper, List.map_cons, List.map_nil, List.sum_cons, List.sum_nil]
  constructor <;> intro h <;> linarith

theorem timeRow_ok {i : Nat} {q p : Fact} {y : Key → Rat} : (timeRow t i q p).Ok y ↔ y (.time q) + 1 ≤ y (.time p) + ((facts t).length : Rat) * (1 - y (.achiever i p)) := by
  simp only [KeyRow.Ok, timeRow, between_upper, List.map_cons, List.map_nil, List.sum_cons, List.sum_nil]
  constructor <;> intro h <;> linarith

/-- the bounds of the rows for facts in a state -/
def bound (s : State) (f : Fact) : Rat := if f.holds s then 1 else 0

theorem values_sat (ht : TaskOk t) {R : Nat → Prop} {l : List Nat} (h : Sequence t s R l) (hg : ∀ g ∈ t.goal, Covered t s l g) {x : Nat → Rat} (hx : ∀ i < t.ops.length, 0 ≤ x i) (hR : ∀ i < t.ops.length, R i → 1 ≤ x i) : Sat t ac es ds (bound s) (values t s l x) := by
  have hind : ∀ {P : Prop} [Decidable P], (0 : Rat) ≤ (if P then 1 else 0) ∧ (if P then 1 else 0 : Rat) ≤ 1 := by intro P _; split <;> norm_num
  have hsum : ∀ f, ¬f.holds s → ∀ l' : List Nat, (l'.map (fun i => values t s l x (.achiever i f))).sum = (l'.map (fun j => if firstOf t l f = some j then (1 : Rat) else 0)).sum := by
    intro f hf l'
    simp only [values, hf, not_false_eq_true, true_and]
  have hsum0 : ∀ f, f.holds s → ∀ l' : List Nat, (l'.map (fun i => values t s l x (.achiever i f))).sum = 0 := by
    intro f hf l'
    simp [values, hf]
  constructor
  · intro k hk
    cases k with
    | count i => simpa [column, Between, values] using hx i (mem_count.mp hk)
    | reached f =>
      simp only [column, Between, values, Option.some.injEq, forall_eq']
      refine ⟨?_, hind.2⟩
      by_cases hf : f ∈ t.goal
      · rw [if_pos hf, if_pos (hg f hf)]
      · rw [if_neg hf]; exact hind.1
    | achiever i f =>
      simp only [column, Between, values, Option.some.injEq, forall_eq']
      exact hind
    | edge a b =>
      simp only [column, Between, values, Option.some.injEq, forall_eq']
      exact hind
    | time f =>
      simp only [column, Between, values, Option.some.injEq, forall_eq']
      refine ⟨by unfold rank; push_cast; linarith [Nat.cast_nonneg (α := Rat) ((facts t).countP (fun g => decide (pos t s l g < pos t s l f)))], ?_⟩
      exact_mod_cast rank_le (mem_time.mp hk).2
  · intro r hr
    rcases List.mem_append.mp hr with hr | hr
    · obtain ⟨f, hf, rfl⟩ := List.mem_map.mp hr
      rw [factRow_ok]
      by_cases hs : f.holds s
      · rw [hsum0 f hs, bound, if_pos hs]
        have : Covered t s l f := .inl hs
        simp [values, this]
      · rw [hsum f hs, sum_single (achievers_nodup ht.once f), bound, if_neg hs]
        have : (∃ j ∈ achievers t f, firstOf t l f = some j) ↔ Covered t s l f := by
          constructor
          · rintro ⟨j, hj, he⟩
            exact .inr ⟨j, (firstOf_some he).1, hj⟩
          · rintro (hc | ⟨j, hj, ha⟩)
            · exact absurd hc hs
            · obtain ⟨i, hi, _⟩ := firstOf_le (k := l.length) (by rwa [List.take_length]) ha
              exact ⟨i, (firstOf_some hi).2, hi⟩
        simp only [this, values]
        ring
    · rcases mem_otherRows.mp hr with ⟨⟨q, p⟩, hc, rfl⟩ | ⟨i, o, e, ho, he, rfl⟩ | ⟨rfl, hr'⟩ | ⟨rfl, ⟨i, q, p⟩, hc, hne, rfl⟩
      · rw [supportRow_ok]
        simp only
        by_cases hs : p.holds s
        · rw [hsum0 p hs, sub_zero]
          simp only [values]
          exact hind
        · rw [hsum p hs, sum_single (supported_nodup ht q p)]
          split
          · rename_i hex
            obtain ⟨j, hj, he⟩ := hex
            obtain ⟨_, o, ho, hq⟩ := mem_supported.mp hj
            have := (before_first h ho hq hs he).1
            simp [values, this]
          · rw [sub_zero]
            simp only [values]
            exact hind
      · rw [countRow_ok]
        have hlt := (List.getElem?_eq_some_iff.mp ho).1
        simp only [values]
        split
        · rename_i hF
          exact hR i hlt (h.mem i (firstOf_some hF.2).1).2
        · exact hx i hlt
      · rcases hr' with ⟨⟨i, q, p⟩, hc, rfl⟩ | ⟨⟨a, c⟩, _, _, rfl⟩ | ⟨⟨i, j, k⟩, _, rfl⟩
        · rw [orderRow_ok]
          obtain ⟨o, e, ho, hq, he, rfl⟩ := mem_triples.mp hc
          simp only [values]
          split
          · rename_i hF
            rw [if_pos (before_first h ho hq hF.1 hF.2).2]
          · exact hind.1
        · rw [cycleRow_ok]
          simp only [values]
          rcases Nat.lt_or_ge (pos t s l a) (pos t s l c) with h1 | h1
          · rw [if_pos h1, if_neg (by omega)]; norm_num
          · rw [if_neg (by omega)]
            linarith [(hind (P := pos t s l c < pos t s l a)).2]
        · rw [shortcutRow_ok]
          simp only [values]
          by_cases h1 : pos t s l i < pos t s l j
          · by_cases h2 : pos t s l j < pos t s l k
            · rw [if_pos h1, if_pos h2, if_pos (by omega)]
            · rw [if_pos h1, if_neg h2]
              linarith [(hind (P := pos t s l i < pos t s l k)).1]
          · rw [if_neg h1]
            linarith [(hind (P := pos t s l i < pos t s l k)).1, (hind (P := pos t s l j < pos t s l k)).2]
      · rw [timeRow_ok]
        obtain ⟨o, e, ho, hq, he, rfl⟩ := mem_triples.mp hc
        have hq' := mem_facts.mpr (ht.wf.pre o (List.mem_of_getElem? ho) q hq)
        simp only [values]
        split
        · rename_i hF
          have h1 := rank_lt (t := t) hq' (before_first h ho hq hF.1 hF.2).2
          have h2 : ((rank t s l q : Nat) : Rat) + 1 ≤ ((rank t s l e.fact : Nat) : Rat) := by exact_mod_cast h1
          linarith
        · have h1 := rank_le (t := t) (s := s) (l := l) hq'
          have h2 : 1 ≤ rank t s l e.fact := by unfold rank; omega
          have h3 : ((rank t s l q : Nat) : Rat) ≤ ((facts t).length : Nat) := by exact_mod_cast h1
          have h4 : (1 : Rat) ≤ ((rank t s l e.fact : Nat) : Rat) := by exact_mod_cast h2
          linarith

theorem values_int {l : List Nat} {x : Nat → Rat} (k : Key) (hk : ∀ i, k ≠ .count i) : ∃ z : Int, values t s l x k = z := by
  cases k with
  | count i => exact absurd rfl (hk i)
  | reached f => simp only [values]; split; exacts [⟨1, by simp⟩, ⟨0, by simp⟩]
  | achiever i f => simp only [values]; split; exacts [⟨1, by simp⟩, ⟨0, by simp⟩]
  | edge a b => simp only [values]; split; exacts [⟨1, by simp⟩, ⟨0, by simp⟩]
  | time f => exact ⟨(rank t s l f : Nat), by simp [values]⟩

/-- counts that use all operators of a relaxed plan can be extended to a solution -/
theorem feasible_of_relaxed (ht : TaskOk t) (hG : GraphOk t ac es ds) (hax : t.axioms = []) {R : Nat → Prop} (hR : t.IsRelaxedPlan R s) {x : Nat → Rat} (hx : ∀ i < t.ops.length, 0 ≤ x i) (h1 : ∀ i < t.ops.length, R i → 1 ≤ x i) (int : Nat → Bool) (hint : ∀ i < t.ops.length, int i = true → ∃ z : Int, x i = z) :
    ∃ x', (program t ac es ds (bound s)).FeasibleMixed int x' ∧ (program t ac es ds (bound s)).value x' = t.countCost x := by
  obtain ⟨l, hl, hc⟩ := exists_sequence (s := s) hax R
  have hS : Sat t ac es ds (bound s) (values t s l x) := values_sat ht hl (fun g hg => hc g (hR g hg)) hx h1
  have hcount : ∀ i < t.ops.length, combine (keys t ac es) (values t s l x) i = x i := by
    intro i hi
    have := combine_key (y := values t s l x) (mem_count (ac := ac) (es := es).mpr hi)
    rw [count_index ht hG hi] at this
    exact this
  refine ⟨combine (keys t ac es) (values t s l x), ⟨?_, ?_⟩, ?_⟩
  · rw [feasible_iff ht hG]
    exact hS.congr ht hG fun k hk => combine_key hk
  · intro i _ hi
    rcases Nat.lt_or_ge i t.ops.length with hlt | hge
    · rw [hcount i hlt]
      exact hint i hlt hi
    · unfold combine
      cases hk : (keys t ac es)[i]? with
      | none => exact ⟨0, by simp⟩
      | some k =>
        refine values_int k ?_
        rintro j rfl
        have hj := mem_count.mp (List.mem_of_getElem? hk)
        obtain ⟨hlt, he⟩ := List.getElem?_eq_some_iff.mp hk
        have h2 := count_index ht hG hj
        rw [← he, List.Nodup.idxOf_getElem (keys_nodup ht hG)] at h2
        omega
  · rw [value_eq]
    unfold Task.countCost
    congr 1
    refine List.map_congr_left fun o ho => ?_
    rw [hcount _ (List.getElem?_eq_some_iff.mp (List.mem_zipIdx_iff_getElem?.mp ho)).1]

/-! ### Solutions are relaxed plans -/

theorem reached_of_sat (ht : TaskOk t) (hconds : ∀ o ∈ t.ops, ∀ e ∈ o.effects, e.conds = []) (hno : ∀ o ∈ t.ops, ∀ e ∈ o.effects, e.fact ∉ o.pre) {y : Key → Rat} (h : Sat t ac es ds (bound s) y) (hint : ∀ i f, i ∈ achievers t f → ∃ z : Int, y (.achiever i f) = z)
    {T : Fact → Fact → Prop} (hT : WellFounded T) (hord : ∀ i o e q, t.ops[i]? = some o → e ∈ o.effects → q ∈ o.pre → y (.achiever i e.fact) = 1 → T q e.fact) :
    ∀ f, f ∈ facts t → 1 ≤ y (.reached f) → t.RelReach (fun i => 1 ≤ y (.count i)) s f := by
  intro f
  induction f using hT.induction with
  | _ f ih =>
    intro hf hr
    by_cases hs : f.holds s
    · exact .state f hs
    · have h1 := factRow_ok.mp (h.rows _ (List.mem_append_left _ (List.mem_map_of_mem hf)))
      rw [bound, if_neg hs] at h1
      obtain ⟨i, hi, hpos⟩ : ∃ i ∈ achievers t f, 0 < y (.achiever i f) := by
        by_contra hne
        push Not at hne
        have : ((achievers t f).map (fun i => y (.achiever i f))).sum ≤ 0 := by
          have := List.sum_le_card_nsmul ((achievers t f).map (fun i => y (.achiever i f))) 0 (by
            intro v hv
            obtain ⟨i, hi, rfl⟩ := List.mem_map.mp hv
            exact hne i hi)
          simpa using this
        linarith
      have hF : y (.achiever i f) = 1 := by
        obtain ⟨z, hz⟩ := hint i f hi
        have h2 := (h.cols _ (mem_achiever.mpr hi)).2 1 rfl
        rw [hz] at hpos h2 ⊢
        have h3 : 0 < z := by exact_mod_cast hpos
        have h4 : z ≤ 1 := by exact_mod_cast h2
        have : z = 1 := by omega
        simp [this]
      obtain ⟨o, e, ho, he, rfl⟩ := mem_achievers.mp hi
      have hC := countRow_ok.mp (h.rows (countRow i e.fact) (List.mem_append_right _ (mem_otherRows.mpr (.inr (.inl ⟨i, o, e, ho, he, rfl⟩)))))
      rw [hF] at hC
      have hom := List.mem_of_getElem? ho
      refine .effect (some i) (o.pre ++ e.conds) e.fact o.cost (.op i o e ho he) (fun j hj => ?_) fun q hq => ?_
      · simp only [Option.some.injEq] at hj
        exact hj ▸ hC
      · rw [hconds o hom e he, List.append_nil] at hq
        refine ih q (hord i o e q ho he hq hF) (mem_facts.mpr (ht.wf.pre o hom q hq)) ?_
        have hne : q ≠ e.fact := fun h => hno o hom e he (h ▸ hq)
        have hS := (supportRow_ok.mp (h.rows (supportRow t (q, e.fact)) (List.mem_append_right _ (mem_otherRows.mpr (.inl ⟨(q, e.fact), mem_pairs.mpr ⟨hne, o, hom, hq, e, he, rfl⟩, rfl⟩))))).1
        have h5 : y (.achiever i e.fact) ≤ ((supported t q e.fact).map (fun i => y (.achiever i e.fact))).sum := by
          refine List.single_le_sum ?_ _ (List.mem_map_of_mem (mem_supported.mpr ⟨hi, o, ho, hq⟩))
          intro v hv
          obtain ⟨j, hj, rfl⟩ := List.mem_map.mp hv
          exact (h.cols _ (mem_achiever.mpr (mem_supported.mp hj).1)).1 0 rfl
        rw [hF] at h5
        simp only at hS
        linarith

/-- the operators that are used in a solution with integral achievers are a relaxed plan, if cycles are excluded -/
theorem relaxed_of_sat (ht : TaskOk t) (hG : GraphOk t ac es ds) (hac : ac ≠ .none) (hconds : ∀ o ∈ t.ops, ∀ e ∈ o.effects, e.conds = []) (hno : ∀ o ∈ t.ops, ∀ e ∈ o.effects, e.fact ∉ o.pre) {y : Key → Rat} (h : Sat t ac es ds (bound s) y)
    (hint : ∀ i f, i ∈ achievers t f → ∃ z : Int, y (.achiever i f) = z) : t.IsRelaxedPlan (fun i => 1 ≤ y (.count i)) s := by
  have hgoal : ∀ g ∈ t.goal, g ∈ facts t ∧ 1 ≤ y (.reached g) := by
    intro g hg
    have hf := mem_facts.mpr (ht.wf.goalFacts g hg)
    have := (h.cols _ (mem_reached.mpr hf)).1 1 (by simp [column, hg])
    exact ⟨hf, this⟩
  have hpre : ∀ {i : Nat} {o : Operator} {f : Fact}, t.ops[i]? = some o → f ∈ o.pre → f ∈ facts t := fun ho he => mem_facts.mpr (ht.wf.pre _ (List.mem_of_getElem? ho) _ he)
  have hother : ∀ r ∈ otherRows t ac es ds, r.Ok y := fun r hr => h.rows r (List.mem_append_right _ hr)
  cases ac with
  | none => exact absurd rfl hac
  | vertexElimination =>
    obtain ⟨elim, hg, hall, htr⟩ := hG.graph rfl
    let T : Fact → Fact → Prop := fun a b => (a, b) ∈ es ∧ 1 ≤ y (.edge a b)
    have hcyc := acyclic_of hg hall (T := T) (fun a b h => h.1) (fun a b h1 h2 => by
      have := cycleRow_ok.mp (hother (cycleRow (a, b)) (mem_otherRows.mpr (.inr (.inr (.inl ⟨rfl, .inr (.inl ⟨(a, b), h1.1, h2.1, rfl⟩)⟩)))))
      simp only at this
      linarith [h1.2, h2.2]) (fun i j k hd h1 h2 => by
      have := shortcutRow_ok.mp (hother (shortcutRow (i, j, k)) (mem_otherRows.mpr (.inr (.inr (.inl ⟨rfl, .inr (.inr ⟨(i, j, k), hd, rfl⟩)⟩)))))
      simp only at this
      exact ⟨(hg.closed i j k hd).2.2, by linarith [h1.2, h2.2]⟩)
    refine fun g hg' => reached_of_sat ht hconds hno h hint (wellFounded_of hg (T := T) (fun a b h => h.1) hcyc) (fun i o e q ho he hq hF => ?_) g (hgoal g hg').1 (hgoal g hg').2
    have hc := mem_triples.mpr ⟨o, e, ho, hq, he, rfl⟩
    have := orderRow_ok.mp (hother (orderRow i q e.fact) (mem_otherRows.mpr (.inr (.inr (.inl ⟨rfl, .inl ⟨(i, q, e.fact), hc, rfl⟩⟩)))))
    rw [hF] at this
    exact ⟨htr _ hc, this⟩
  | timeLabels =>
    let T : Fact → Fact → Prop := fun a b => 0 < y (.time a) ∧ y (.time a) + 1 ≤ y (.time b)
    have hwf : WellFounded T := Subrelation.wf (r := (measure (fun f => ⌊y (.time f)⌋.toNat)).rel) (fun {a b} hab => by
      change ⌊y (.time a)⌋.toNat < ⌊y (.time b)⌋.toNat
      have h1 : 0 ≤ ⌊y (.time a)⌋ := Int.floor_nonneg.mpr hab.1.le
      have h2 : ⌊y (.time a)⌋ + 1 ≤ ⌊y (.time b)⌋ := by
        rw [Int.le_floor]
        push_cast
        linarith [Int.floor_le (y (.time a)), hab.2]
      omega) (measure _).wf
    refine fun g hg' => reached_of_sat ht hconds hno h hint hwf (fun i o e q ho he hq hF => ?_) g (hgoal g hg').1 (hgoal g hg').2
    have hc := mem_triples.mpr ⟨o, e, ho, hq, he, rfl⟩
    have hne : q ≠ e.fact := fun h => hno o (List.mem_of_getElem? ho) e he (h ▸ hq)
    have := timeRow_ok.mp (hother (timeRow t i q e.fact) (mem_otherRows.mpr (.inr (.inr (.inr ⟨rfl, (i, q, e.fact), hc, hne, rfl⟩)))))
    rw [hF] at this
    have h1 := (h.cols _ (mem_time.mpr ⟨rfl, hpre ho hq⟩)).1 1 rfl
    exact ⟨by linarith, by linarith⟩

/-! ### The object -/

theorem get_map {L : List Fact} {f : Fact} (hf : f ∈ L) (F : Fact → Row) (M : List Row) : (L.map F ++ M)[L.idxOf f]? = some (F f) := by
  rw [List.getElem?_append_left (by simpa using List.idxOf_lt_length_of_mem hf), List.getElem?_map, List.getElem?_idxOf hf]
  rfl

theorem set_map {L : List Fact} (hn : L.Nodup) {f : Fact} (hf : f ∈ L) (F : Fact → Row) (v : Row) (M : List Row) : (L.map F ++ M).set (L.idxOf f) v = L.map (fun g => if g = f then v else F g) ++ M := by
  have hlt := List.idxOf_lt_length_of_mem hf
  apply List.ext_getElem?
  intro j
  rw [List.getElem?_set]
  split
  · rename_i hj
    subst hj
    rw [if_pos (by simp only [List.length_append, List.length_map]; omega), get_map hf]
    simp
  · rename_i hj
    rcases Nat.lt_or_ge j L.length with h2 | h2
    · rw [List.getElem?_append_left (by simpa using h2), List.getElem?_append_left (by simpa using h2), List.getElem?_map, List.getElem?_map, List.getElem?_eq_getElem h2]
      simp only [Option.map_some]
      rw [if_neg]
      intro he
      apply hj
      rw [← he, List.Nodup.idxOf_getElem hn]
    · rw [List.getElem?_append_right (by simpa using h2), List.getElem?_append_right (by simpa using h2)]
      simp

theorem rows_eq {b : Fact → Rat} : rows t ac es ds b = (facts t).map (fun f => (factRow t (b f) f).row (keys t ac es)) ++ (otherRows t ac es ds).map (KeyRow.row (keys t ac es)) := by
  unfold rows
  rw [List.map_append, List.map_map]
  rfl

theorem setBounds_spec {v : Rat} : ∀ {fs : List Fact} {b : Fact → Rat} {S : Solver}, (∀ f ∈ fs, f ∈ facts t) → S.rows = rows t ac es ds b →
    setBounds t 0 v fs S = some { S with rows := rows t ac es ds (fun g => if g ∈ fs then v else b g) }
  | [], b, S, _, hS => by simp [setBounds, ← hS]
  | f :: fs, b, S, hfs, hS => by
    have hf := hfs f (by simp)
    rw [rows_eq] at hS
    have h1 : S.setLower (0 + (facts t).idxOf f) v = some { S with rows := (facts t).map (fun g => if g = f then { (factRow t (b f) f).row (keys t ac es) with lower := some v } else (factRow t (b g) g).row (keys t ac es)) ++ (otherRows t ac es ds).map (KeyRow.row (keys t ac es)) } := by
      unfold Solver.setLower
      rw [Nat.zero_add, hS, get_map hf]
      simp only
      rw [set_map facts_nodup hf]
    have h2 : setUpper { S with rows := (facts t).map (fun g => if g = f then { (factRow t (b f) f).row (keys t ac es) with lower := some v } else (factRow t (b g) g).row (keys t ac es)) ++ (otherRows t ac es ds).map (KeyRow.row (keys t ac es)) } (0 + (facts t).idxOf f) v =
        some { S with rows := rows t ac es ds (fun g => if g = f then v else b g) } := by
      unfold setUpper
      rw [Nat.zero_add]
      simp only
      rw [get_map hf]
      simp only
      rw [set_map facts_nodup hf, rows_eq]
      congr 3
      refine List.map_congr_left fun g _ => ?_
      by_cases hg : g = f
      · simp [hg, factRow, KeyRow.row]
      · simp [hg]
    rw [setBounds, if_pos hf, h1]
    simp only
    rw [h2]
    simp only
    rw [setBounds_spec (fun g hg => hfs g (by simp [hg])) rfl]
    congr 3
    funext g
    by_cases h1 : g ∈ fs
    · simp [h1]
    · by_cases h2 : g = f <;> simp [h1, h2]

/-- what holds between evaluations -/
structure ObjOk (t : Task) (ac : Acyclicity) (es : List (Fact × Fact)) (ds : List (Fact × Fact × Fact)) (obj : Gen × Solver) : Prop where
  first : obj.1.first = 0
  last : ∀ f ∈ obj.1.last, f ∈ facts t
  columns : obj.2.columns = (keys t ac es).map (column t)
  rows : obj.2.rows = rows t ac es ds (fun f => if f ∈ obj.1.last then 1 else 0)
  perm : obj.2.numPermanent = obj.2.rows.length
  temp : obj.2.numTemporary = 0

theorem create_ok (hwf : t.WF) {kind : SolverType} {pick : List (Nat × Fact) → Nat} {intCounts intVars : Bool} {obj : Gen × Solver} (h : create t kind ac pick intCounts intVars = some obj) : ∃ es ds, GraphOk t ac es ds ∧ ObjOk t ac es ds obj := by
  have hobj : ∀ es ds, (if kind = .soplex ∧ (List.range (keys t ac es).length).any (integral t intCounts intVars) = true then (none : Option (Gen × Solver))
      else some (⟨0, []⟩, Solver.load kind ((keys t ac es).map (column t)) (rows t ac es ds (fun _ => 0)))) = some obj → ObjOk t ac es ds obj := by
    intro es ds h
    split at h
    · cases h
    · simp only [Option.some.injEq] at h
      subst h
      exact ⟨rfl, by simp, rfl, by simp [Solver.load], rfl, rfl⟩
  unfold create at h
  cases ac with
  | none => exact ⟨[], [], ⟨nofun⟩, hobj _ _ h⟩
  | timeLabels => exact ⟨[], [], ⟨nofun⟩, hobj _ _ h⟩
  | vertexElimination =>
    obtain ⟨g, hg, hG, hall⟩ := veGraph_spec hwf pick
    simp only [hg] at h
    by_cases htr : (triples t).all (fun c => (c.2.1, c.2.2) ∈ g.edges) = true
    · rw [if_pos htr] at h
      refine ⟨g.edges, g.delta, ⟨fun _ => ⟨g.elim, hG, hall, fun c hc => ?_⟩⟩, hobj _ _ h⟩
      simpa using List.all_eq_true.mp htr c hc
    · rw [if_neg htr] at h
      cases h

theorem update_spec (hs : t.ValidState s) {obj : Gen × Solver} (h : ObjOk t ac es ds obj) : ∃ obj', update t s obj.1 obj.2 = some obj' ∧ ObjOk t ac es ds obj' ∧ obj'.2.program = program t ac es ds (bound s) := by
  have hst : ∀ f ∈ stateFacts s, f ∈ facts t := by
    intro f hf
    have hf := mem_stateFacts.mp hf
    have hlt : f.var < t.vars.length := hs.1 ▸ (List.getElem?_eq_some_iff.mp hf).1
    exact mem_facts.mpr ⟨_, List.getElem?_eq_getElem hlt, hs.2 _ _ _ hf (List.getElem?_eq_getElem hlt)⟩
  have h1 := setBounds_spec (v := 0) h.last h.rows
  have h2 := setBounds_spec (v := 1) (ac := ac) (es := es) (ds := ds) (S := { obj.2 with rows := rows t ac es ds (fun g => if g ∈ obj.1.last then 0 else if g ∈ obj.1.last then 1 else 0) }) hst rfl
  have hb : (fun g => if g ∈ stateFacts s then (1 : Rat) else if g ∈ obj.1.last then 0 else if g ∈ obj.1.last then 1 else 0) = fun g => if g ∈ stateFacts s then 1 else 0 := by
    funext g
    by_cases h : g ∈ obj.1.last <;> simp [h]
  rw [hb] at h2
  have hlen : ∀ b b', (rows t ac es ds b).length = (rows t ac es ds b').length := by intro b b'; simp [rows]
  refine ⟨({ obj.1 with last := stateFacts s }, { obj.2 with rows := rows t ac es ds (fun g => if g ∈ stateFacts s then 1 else 0) }), ?_, ?_, ?_⟩
  · unfold update
    rw [h.first, h1]
    simp only at h2 ⊢
    rw [h2]
    simp [h.first]
  · refine ⟨h.first, hst, h.columns, rfl, ?_, h.temp⟩
    simp only
    rw [h.perm, h.rows]
    exact hlen _ _
  · simp only [Solver.program, program, h.columns, mem_stateFacts]
    rfl

theorem clear_ok {obj : Gen × Solver} (h : ObjOk t ac es ds obj) : ObjOk t ac es ds (obj.1, obj.2.clearTemporary) ∧ obj.2.hasTemporary = false := by
  have : obj.2.clearTemporary = obj.2 := by
    unfold Solver.clearTemporary
    split
    · rw [if_neg (by rw [h.temp]; omega)]
    · rw [h.perm, List.take_length, ← h.perm]
  rw [this]
  refine ⟨h, ?_⟩
  unfold Solver.hasTemporary
  split
  · simp [h.temp]
  · simp [h.perm]

end Verif.CountingRR
