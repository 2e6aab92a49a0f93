import Verif.Spec.LandmarkFactory
import Verif.Model.LandmarkFactories
import Mathlib.Data.List.Nodup
import Mathlib.Data.List.Count
import Mathlib.Data.List.Perm.Subperm

/-
The relaxed exploration reaches exactly the facts that can be reached without the excluded ones.
-/
namespace Verif.Landmarks
variable {t : Task}

theorem hasFact_iff {f : Fact} : hasFact t f = true ↔ t.ValidFact f := by
  unfold hasFact Task.ValidFact
  cases h : t.vars[f.var]? with
  | none => simp
  | some d => simp

theorem mem_insertSet {α : Type} [BEq α] [LawfulBEq α] {l : List α} {a b : α} : b ∈ insertSet l a ↔ b ∈ l ∨ b = a := by
  unfold insertSet
  split
  · rename_i h
    have := List.contains_iff_mem.mp h
    constructor
    · exact Or.inl
    · rintro (h | rfl)
      · exact h
      · exact this
  · simp

theorem nodup_insertSet {α : Type} [BEq α] [LawfulBEq α] {l : List α} {a : α} (h : l.Nodup) : (insertSet l a).Nodup := by
  unfold insertSet
  split
  · exact h
  · rename_i hc
    rw [List.nodup_append]
    refine ⟨h, List.nodup_singleton _, ?_⟩
    intro x hx y hy
    rw [List.mem_singleton] at hy
    subst hy
    rintro rfl
    exact hc (List.contains_iff_mem.mpr hx)

theorem mem_insertAll {α : Type} [BEq α] [LawfulBEq α] : ∀ {as l : List α} {b : α}, b ∈ insertAll l as ↔ b ∈ l ∨ b ∈ as
  | [], l, b => by simp [insertAll]
  | a :: as, l, b => by
    show b ∈ insertAll (insertSet l a) as ↔ _
    rw [mem_insertAll, mem_insertSet, List.mem_cons, or_assoc]

theorem nodup_insertAll {α : Type} [BEq α] [LawfulBEq α] : ∀ {as l : List α}, l.Nodup → (insertAll l as).Nodup
  | [], _, h => h
  | _ :: as, _, h => nodup_insertAll (as := as) (nodup_insertSet h)

theorem mem_opsAndAxioms {x : Int × Operator} : x ∈ opsAndAxioms t ↔ (∃ i : Nat, t.ops[i]? = some x.2 ∧ x.1 = i) ∨ ∃ i : Nat, t.axioms[i]? = some x.2 ∧ x.1 = -(i : Int) - 1 := by
  unfold opsAndAxioms
  rw [List.mem_append, List.mem_map, List.mem_map]
  constructor
  · rintro (⟨y, hy, rfl⟩ | ⟨y, hy, rfl⟩)
    · exact Or.inl ⟨y.2, List.mem_zipIdx_iff_getElem?.mp hy, rfl⟩
    · exact Or.inr ⟨y.2, List.mem_zipIdx_iff_getElem?.mp hy, rfl⟩
  · rintro (⟨i, hi, h⟩ | ⟨i, hi, h⟩)
    · exact Or.inl ⟨(x.2, i), List.mem_zipIdx_iff_getElem?.mpr hi, by rw [← h]⟩
    · exact Or.inr ⟨(x.2, i), List.mem_zipIdx_iff_getElem?.mpr hi, by rw [← h]⟩

theorem getOperatorOrAxiom_iff {id : Int} {o : Operator} : getOperatorOrAxiom t id = some o ↔ (id, o) ∈ opsAndAxioms t := by
  rw [mem_opsAndAxioms]
  unfold getOperatorOrAxiom
  split
  · rename_i h
    constructor
    · intro h'
      exact Or.inr ⟨_, h', by simp only; omega⟩
    · rintro (⟨i, _, rfl⟩ | ⟨i, hi, rfl⟩)
      · omega
      · simpa using hi
  · rename_i h
    constructor
    · intro h'
      exact Or.inl ⟨_, h', by simp only; omega⟩
    · rintro (⟨i, hi, rfl⟩ | ⟨i, hi, rfl⟩)
      · simpa using hi
      · omega

theorem mem_unaryOperators {u : UnaryOp} : u ∈ unaryOperators t ↔ ∃ o, (u.id, o) ∈ opsAndAxioms t ∧ ∃ e ∈ o.effects, u.pre = o.pre ++ e.conds ∧ u.eff = e.fact := by
  unfold unaryOperators
  rw [List.mem_flatMap]
  constructor
  · rintro ⟨x, hx, hu⟩
    obtain ⟨e, he, rfl⟩ := List.mem_map.mp hu
    exact ⟨x.2, hx, e, he, rfl, rfl⟩
  · rintro ⟨o, ho, e, he, h1, h2⟩
    refine ⟨_, ho, List.mem_map.mpr ⟨e, he, ?_⟩⟩
    cases u
    simp only at h1 h2
    rw [h1, h2]

/-- the relaxed effects are the unary operators -/
theorem relEffect_of_unary {u : UnaryOp} (h : u ∈ unaryOperators t) : ∃ i c, t.RelEffect i u.pre u.eff c ∧ (∀ j, i = some j → u.id = (j : Int)) ∧ (i = none → u.id < 0) := by
  obtain ⟨o, ho, e, he, h1, h2⟩ := mem_unaryOperators.mp h
  rw [h1, h2]
  rcases mem_opsAndAxioms.mp ho with ⟨i, hi, hid⟩ | ⟨i, hi, hid⟩
  · exact ⟨some i, o.cost, .op i o e hi he, fun j hj => by cases hj; exact hid, fun h => by cases h⟩
  · exact ⟨none, 0, .ax o e (List.mem_of_getElem? hi) he, fun j hj => (by cases hj), fun _ => (by simp only at hid; omega)⟩

theorem unary_of_relEffect {i : Option Nat} {cs : List Fact} {f : Fact} {c : Nat} (h : t.RelEffect i cs f c) :
    ∃ u ∈ unaryOperators t, u.pre = cs ∧ u.eff = f ∧ (∀ j, i = some j → u.id = (j : Int)) ∧ (i = none → u.id < 0) := by
  cases h with
  | op i o e hi he => exact ⟨⟨i, o.pre ++ e.conds, e.fact⟩, mem_unaryOperators.mpr ⟨o, mem_opsAndAxioms.mpr (Or.inl ⟨i, hi, rfl⟩), e, he, rfl, rfl⟩, rfl, rfl, fun j hj => by cases hj; rfl, fun h => by cases h⟩
  | ax a e ha he =>
    obtain ⟨i, hi⟩ := List.mem_iff_getElem?.mp ha
    exact ⟨⟨-(i : Int) - 1, a.pre ++ e.conds, e.fact⟩, mem_unaryOperators.mpr ⟨a, mem_opsAndAxioms.mpr (Or.inr ⟨i, hi, rfl⟩), e, he, rfl, rfl⟩, rfl, rfl, fun j hj => (by cases hj), fun _ => (by show -(i : Int) - 1 < 0; omega)⟩

theorem mem_allFacts {f : Fact} : f ∈ allFacts t ↔ t.ValidFact f := by
  unfold allFacts Task.ValidFact
  rw [List.mem_flatMap]
  constructor
  · rintro ⟨x, hx, hf⟩
    obtain ⟨v, hv, rfl⟩ := List.mem_map.mp hf
    exact ⟨x.1, List.mem_zipIdx_iff_getElem?.mp hx, List.mem_range.mp hv⟩
  · rintro ⟨d, hd, hlt⟩
    exact ⟨(d, f.var), List.mem_zipIdx_iff_getElem?.mpr hd, List.mem_map.mpr ⟨f.val, List.mem_range.mpr hlt, rfl⟩⟩

theorem allFacts_length : (allFacts t).length = numFacts t := by
  unfold allFacts numFacts
  rw [List.length_flatMap]
  congr 1
  have : ∀ (l : List Variable) (k : Nat), (l.zipIdx k).map (fun x => ((List.range x.1.domain).map (fun v => (⟨x.2, v⟩ : Fact))).length) = l.map (·.domain) := by
    intro l
    induction l with
    | nil => intro k; rfl
    | cons a l ih => intro k; have := ih (k + 1); simp at this; simp [this]
  exact this t.vars 0

theorem nodup_valid_length {l : List Fact} (h : l.Nodup) (hv : ∀ f ∈ l, t.ValidFact f) : l.length ≤ numFacts t := by
  rw [← allFacts_length]
  exact (List.subperm_of_subset h (fun f hf => mem_allFacts.mpr (hv f hf))).length_le

/-! ### The exploration -/

section
variable (t)
variable (us : List UnaryOp) (excl : UnaryOp → Bool) (S : Fact → Prop)

/-- a proposition whose operators have been triggered -/
def Done (st : ExSt) (f : Fact) : Prop := f ∈ st.reached ∧ f ∉ st.queue

instance (st : ExSt) (f : Fact) : Decidable (Done st f) := inferInstanceAs (Decidable (_ ∧ _))

/-- the invariant while the operators with the numbers in `rem` still have to be triggered -/
structure ExInv (rem : List Nat) (st : ExSt) : Prop where
  sub : ∀ f ∈ st.queue, f ∈ st.reached
  nodupQ : st.queue.Nodup
  nodup : st.reached.Nodup
  valid : ∀ f ∈ st.reached, t.ValidFact f
  len : st.unsat.length = us.length
  cnt : ∀ (i : Nat) (u : UnaryOp) (n : Int), us[i]? = some u → st.unsat[i]? = some n → excl u = false → n = (u.pre.countP (fun q => !decide (Done st q)) : Nat) + (rem.count i : Nat)
  zero : ∀ (i : Nat) (u : UnaryOp), us[i]? = some u → excl u = false → st.unsat[i]? = some 0 → u.pre ≠ [] → u.eff ∈ st.reached
  sound : ∀ f ∈ st.reached, S f

end

variable {us : List UnaryOp} {excl : UnaryOp → Bool} {S : Fact → Prop}

/-- what `enqueue_if_necessary` does -/
theorem enqueue_spec {rem : List Nat} {st : ExSt} (h : ExInv t us excl S rem st) {f : Fact} (hf : t.ValidFact f) (hS : S f) :
    ∃ st', enqueueIfNecessary t st f = some st' ∧ ExInv t us excl S rem st' ∧ f ∈ st'.reached ∧ (∀ q ∈ st.reached, q ∈ st'.reached) ∧ st'.unsat = st.unsat ∧
      st'.reached.length + st.queue.length = st.reached.length + st'.queue.length := by
  unfold enqueueIfNecessary
  rw [if_pos (hasFact_iff.mpr hf)]
  by_cases hc : st.reached.contains f = true
  · rw [if_pos hc]
    exact ⟨st, rfl, h, List.contains_iff_mem.mp hc, fun _ hq => hq, rfl, by omega⟩
  · rw [if_neg hc]
    have hn : f ∉ st.reached := fun hm => hc (List.contains_iff_mem.mpr hm)
    have hq : f ∉ st.queue := fun hm => hn (h.sub f hm)
    refine ⟨_, rfl, ?_, by simp, fun q hq => by simp [hq], rfl, by simp; omega⟩
    have hdone : ∀ q, Done { st with reached := st.reached ++ [f], queue := st.queue ++ [f] } q ↔ Done st q := by
      intro q
      simp only [Done, List.mem_append, List.mem_singleton, not_or]
      constructor
      · rintro ⟨h1 | rfl, h2, h3⟩
        · exact ⟨h1, h2⟩
        · exact absurd rfl h3
      · rintro ⟨h1, h2⟩
        exact ⟨Or.inl h1, h2, fun he => hn (he ▸ h1)⟩
    constructor
    · intro q hq
      simp only [List.mem_append, List.mem_singleton] at hq ⊢
      exact hq.imp (h.sub q) id
    · simp only [List.nodup_append, List.mem_singleton]
      exact ⟨h.nodupQ, by simp, fun a ha b hb => by subst hb; rintro rfl; exact hq ha⟩
    · simp only [List.nodup_append, List.mem_singleton]
      exact ⟨h.nodup, by simp, fun a ha b hb => by subst hb; rintro rfl; exact hn ha⟩
    · intro q hq
      simp only [List.mem_append, List.mem_singleton] at hq
      rcases hq with hq | rfl
      · exact h.valid q hq
      · exact hf
    · exact h.len
    · intro i u n h1 h2 h3
      have := h.cnt i u n h1 h2 h3
      rw [this]
      simp only [hdone]
    · intro i u h1 h2 h3 h4
      simp only [List.mem_append]
      exact Or.inl (h.zero i u h1 h2 h3 h4)
    · intro q hq
      simp only [List.mem_append, List.mem_singleton] at hq
      rcases hq with hq | rfl
      · exact h.sound q hq
      · exact hS

theorem trigger_spec (hus : ∀ u ∈ us, t.ValidFact u.eff) (hS : ∀ u ∈ us, excl u = false → (∀ q ∈ u.pre, S q) → S u.eff) :
    ∀ (rem : List Nat) (st : ExSt), (∀ i ∈ rem, i < us.length) → ExInv t us excl S rem st →
      ∃ st', triggerOperators t us excl rem st = some st' ∧ ExInv t us excl S [] st' ∧ (∀ q ∈ st.reached, q ∈ st'.reached) ∧
        st'.reached.length + st.queue.length = st.reached.length + st'.queue.length
  | [], st, _, h => ⟨st, rfl, h, fun _ hq => hq, rfl⟩
  | i :: is, st, hlt, h => by
    have hi : i < us.length := hlt i (by simp)
    obtain ⟨u, hu⟩ : ∃ u, us[i]? = some u := ⟨_, List.getElem?_eq_getElem hi⟩
    obtain ⟨n, hn⟩ : ∃ n, st.unsat[i]? = some n := ⟨_, List.getElem?_eq_getElem (by rw [h.len]; exact hi)⟩
    rw [triggerOperators, hu, hn]
    simp only
    have hlt' : ∀ j ∈ is, j < us.length := fun j hj => hlt j (by simp [hj])
    cases he : excl u with
    | true =>
      simp only [if_true]
      refine trigger_spec hus hS is st hlt' { h with cnt := ?_ }
      intro j w m h1 h2 h3
      have := h.cnt j w m h1 h2 h3
      rw [List.count_cons] at this
      by_cases hji : i = j
      · subst hji
        rw [hu] at h1
        cases h1
        rw [he] at h3
        cases h3
      · simpa [hji] using this
    | false =>
      simp only [Bool.false_eq_true, if_false]
      have hcnt := h.cnt i u n hu hn he
      rw [List.count_cons_self] at hcnt
      have hlen : i < st.unsat.length := by rw [h.len]; exact hi
      rw [if_neg (by omega)]
      have hset : ∀ (j : Nat) (m : Int), (st.unsat.set i (n - 1))[j]? = some m → (j = i ∧ m = n - 1) ∨ (j ≠ i ∧ st.unsat[j]? = some m) := by
        intro j m hj
        rw [List.getElem?_set] at hj
        by_cases hji : i = j
        · subst hji
          rw [if_pos rfl, if_pos hlen] at hj
          exact Or.inl ⟨rfl, by simpa using hj.symm⟩
        · rw [if_neg hji] at hj
          exact Or.inr ⟨Ne.symm hji, hj⟩
      have hdone : ∀ q, Done { st with unsat := st.unsat.set i (n - 1) } q ↔ Done st q := fun q => Iff.rfl
      have hcnt' : ∀ (j : Nat) (w : UnaryOp) (m : Int), us[j]? = some w → (st.unsat.set i (n - 1))[j]? = some m → excl w = false → m = (w.pre.countP (fun q => !decide (Done st q)) : Nat) + (is.count j : Nat) := by
        intro j w m h1 h2 h3
        rcases hset j m h2 with ⟨rfl, rfl⟩ | ⟨hne, hm⟩
        · rw [hu] at h1
          cases h1
          rw [hcnt]
          push_cast
          omega
        · have := h.cnt j w m h1 hm h3
          rwa [List.count_cons_of_ne (Ne.symm hne)] at this
      by_cases hz : n - 1 = 0
      · rw [if_pos hz]
        -- all preconditions have been reached
        have h0 : u.pre.countP (fun q => !decide (Done st q)) = 0 := by omega
        have hpre : ∀ q ∈ u.pre, S q := by
          intro q hq
          rw [List.countP_eq_zero] at h0
          have := h0 q hq
          simp only [Bool.not_eq_true, Bool.not_eq_false, Bool.not_eq_eq_eq_not, Bool.not_true, decide_eq_false_iff_not, not_not] at this
          exact h.sound q this.1
        have hSe := hS u (List.mem_of_getElem? hu) he hpre
        -- first enqueue, then change the counter
        obtain ⟨st1, k1, k2, k3, k4, k5, k6⟩ := enqueue_spec h (hus u (List.mem_of_getElem? hu)) hSe
        have hen : enqueueIfNecessary t { st with unsat := st.unsat.set i (n - 1) } u.eff = some { st1 with unsat := st.unsat.set i (n - 1) } := by
          unfold enqueueIfNecessary at k1 ⊢
          split at k1
          · rename_i hc
            rw [if_pos hc]
            split at k1
            · rename_i hc2
              simp only [if_pos hc2]
              cases k1
              rfl
            · rename_i hc2
              simp only [if_neg hc2]
              cases k1
              rfl
          · cases k1
        rw [hen]
        simp only
        have hinv : ExInv t us excl S is { st1 with unsat := st.unsat.set i (n - 1) } := by
          refine { k2 with len := by simp [h.len], cnt := ?_, zero := ?_ }
          · intro j w m h1 h2 h3
            rcases hset j m h2 with ⟨rfl, rfl⟩ | ⟨hne, hm⟩
            · rw [hu] at h1
              cases h1
              have := k2.cnt j u n hu (by rw [k5]; exact hn) he
              rw [List.count_cons_self] at this
              have e1 : (fun q => !decide (Done { st1 with unsat := st.unsat.set j (n - 1) } q)) = (fun q => !decide (Done st1 q)) := rfl
              rw [e1]
              omega
            · have := k2.cnt j w m h1 (by rw [k5]; exact hm) h3
              rw [List.count_cons_of_ne (Ne.symm hne)] at this
              exact this
          · intro j w h1 h2 h3 h5
            rcases hset j 0 h3 with ⟨rfl, _⟩ | ⟨hne, hm⟩
            · rw [hu] at h1
              cases h1
              exact k3
            · exact k2.zero j w h1 h2 (by rw [k5]; exact hm) h5
        obtain ⟨st2, l1, l2, l3, l4⟩ := trigger_spec hus hS is _ hlt' hinv
        exact ⟨st2, l1, l2, fun q hq => l3 q (k4 q hq), by simp only at l4; omega⟩
      · rw [if_neg hz]
        have hinv : ExInv t us excl S is { st with unsat := st.unsat.set i (n - 1) } := by
          refine { h with len := by simp [h.len], cnt := hcnt', zero := ?_ }
          intro j w h1 h2 h3 h5
          rcases hset j 0 h3 with ⟨rfl, h4⟩ | ⟨hne, hm⟩
          · exact absurd h4.symm hz
          · exact h.zero j w h1 h2 hm h5
        exact trigger_spec hus hS is _ hlt' hinv

theorem mem_preconditionOf {f : Fact} {i : Nat} (h : i ∈ preconditionOf us f) : i < us.length := by
  unfold preconditionOf at h
  obtain ⟨x, hx, h⟩ := List.mem_flatMap.mp h
  obtain ⟨_, _, rfl⟩ := List.mem_map.mp h
  exact (List.getElem?_eq_some_iff.mp (List.mem_zipIdx_iff_getElem?.mp hx)).1

theorem count_preconditionOf {f : Fact} {i : Nat} {u : UnaryOp} (h : us[i]? = some u) : (preconditionOf us f).count i = u.pre.countP (· == f) := by
  unfold preconditionOf
  have key : ∀ (l : List UnaryOp) (k : Nat), ((l.zipIdx k).flatMap (fun x => (x.1.pre.filter (· == f)).map (fun _ => x.2))).count i =
      if k ≤ i then (match l[i - k]? with | some u => u.pre.countP (· == f) | none => 0) else 0 := by
    intro l
    induction l with
    | nil => intro k; simp
    | cons a l ih =>
      intro k
      rw [List.zipIdx_cons, List.flatMap_cons, List.count_append, ih (k + 1)]
      have hc : ((a.pre.filter (· == f)).map (fun _ => k)).count i = if k = i then a.pre.countP (· == f) else 0 := by
        rw [List.countP_eq_length_filter]
        generalize a.pre.filter (· == f) = m
        induction m with
        | nil => simp
        | cons b m ihm =>
          rw [List.map_cons, List.count_cons, ihm]
          by_cases hk : k = i
          · subst hk; simp
          · simp [hk]
      rw [hc]
      by_cases hk : k = i
      · subst hk
        simp
        omega
      · rw [if_neg hk]
        by_cases hlt : k + 1 ≤ i
        · rw [if_pos hlt, if_pos (by omega), show i - k = i - (k + 1) + 1 by omega, List.getElem?_cons_succ]
          simp
        · rw [if_neg hlt, if_neg (by omega)]
  rw [key us 0]
  simp [h]

theorem exploration_spec (hus : ∀ u ∈ us, t.ValidFact u.eff) (hS : ∀ u ∈ us, excl u = false → (∀ q ∈ u.pre, S q) → S u.eff) :
    ∀ (fuel : Nat) (st : ExSt), ExInv t us excl S [] st → numFacts t - st.reached.length + st.queue.length < fuel →
      ∃ st', relaxedExploration t us excl fuel st = some st' ∧ ExInv t us excl S [] st' ∧ (∀ q ∈ st.reached, q ∈ st'.reached) ∧ st'.queue = []
  | 0, _, _, hlt => by omega
  | n + 1, st, h, hlt => by
    rw [relaxedExploration]
    cases hq : st.queue with
    | nil => exact ⟨st, rfl, h, fun _ hq => hq, hq⟩
    | cons f q =>
      simp only
      have hf : f ∈ st.reached := h.sub f (by rw [hq]; simp)
      have hnd := h.nodupQ
      rw [hq, List.nodup_cons] at hnd
      have hinv : ExInv t us excl S (preconditionOf us f) { st with queue := q } := by
        refine { h with sub := fun g hg => h.sub g (by rw [hq]; simp [hg]), nodupQ := hnd.2, cnt := ?_ }
        intro i u m h1 h2 h3
        have := h.cnt i u m h1 h2 h3
        rw [List.count_nil] at this
        rw [count_preconditionOf h1, this]
        have hsplit : ∀ l : List Fact, l.countP (fun p => !decide (Done st p)) = l.countP (fun p => !decide (Done { st with queue := q } p)) + l.countP (· == f) := by
          intro l
          induction l with
          | nil => rfl
          | cons p l ih =>
            rw [List.countP_cons, List.countP_cons, List.countP_cons, ih]
            by_cases hp : p = f
            · subst hp
              have e1 : decide (Done st p) = false := by
                rw [decide_eq_false_iff_not]
                rintro ⟨_, h2⟩
                exact h2 (by rw [hq]; simp)
              have e2 : decide (Done { st with queue := q } p) = true := by
                rw [decide_eq_true_iff]
                exact ⟨hf, hnd.1⟩
              rw [e1, e2]
              simp
              omega
            · have e1 : decide (Done st p) = decide (Done { st with queue := q } p) := by
                rw [decide_eq_decide]
                unfold Done
                simp only [hq, List.mem_cons, not_or]
                tauto
              rw [e1]
              simp [hp]
              omega
        rw [hsplit]
        push_cast
        omega
      obtain ⟨st1, k1, k2, k3, k4⟩ := trigger_spec hus hS _ _ (fun i hi => mem_preconditionOf hi) hinv
      rw [k1]
      simp only at k3 k4 ⊢
      have hb : st1.reached.length ≤ numFacts t := nodup_valid_length k2.nodup k2.valid
      have hb0 : st.reached.length ≤ numFacts t := nodup_valid_length h.nodup h.valid
      have hqs : st1.queue.length ≤ st1.reached.length := (List.subperm_of_subset k2.nodupQ k2.sub).length_le
      rw [hq, List.length_cons] at hlt
      obtain ⟨st2, l1, l2, l3, l4⟩ := exploration_spec hus hS n st1 k2 (by omega)
      exact ⟨st2, l1, l2, fun p hp => l3 p (k3 p hp), l4⟩

theorem setState_spec {X : List Fact} {s : State} {rem : List Nat} (hs : t.ValidState s) (hS : ∀ f : Fact, f.holds s → f ∉ X → S f) :
    ∀ (xs : List (Nat × Nat)) (st : ExSt), (∀ x ∈ xs, s[x.2]? = some x.1) → ExInv t us excl S rem st →
      ∃ st', setStateAtomsReached t X xs st = some st' ∧ ExInv t us excl S rem st' ∧ (∀ q ∈ st.reached, q ∈ st'.reached) ∧ st'.unsat = st.unsat ∧
        st'.reached.length + st.queue.length = st.reached.length + st'.queue.length ∧ ∀ x ∈ xs, (⟨x.2, x.1⟩ : Fact) ∉ X → ⟨x.2, x.1⟩ ∈ st'.reached
  | [], st, _, h => ⟨st, rfl, h, fun _ hq => hq, rfl, rfl, by simp⟩
  | x :: xs, st, hx, h => by
    rw [setStateAtomsReached]
    have hx0 := hx x (by simp)
    by_cases hc : X.contains ⟨x.2, x.1⟩ = true
    · rw [if_pos hc]
      obtain ⟨st', k1, k2, k3, k4, k5, k6⟩ := setState_spec hs hS xs st (fun y hy => hx y (by simp [hy])) h
      refine ⟨st', k1, k2, k3, k4, k5, fun y hy => ?_⟩
      rcases List.mem_cons.mp hy with rfl | hy
      · exact fun hn => absurd (List.contains_iff_mem.mp hc) hn
      · exact k6 y hy
    · rw [if_neg hc]
      have hn : (⟨x.2, x.1⟩ : Fact) ∉ X := fun hm => hc (List.contains_iff_mem.mpr hm)
      have hv : t.ValidFact ⟨x.2, x.1⟩ := by
        have hlt := (List.getElem?_eq_some_iff.mp hx0).1
        rw [hs.1] at hlt
        exact ⟨_, List.getElem?_eq_getElem hlt, hs.2 _ _ _ hx0 (List.getElem?_eq_getElem hlt)⟩
      obtain ⟨st1, k1, k2, k3, k4, k5, k6⟩ := enqueue_spec h hv (hS _ hx0 hn)
      rw [k1]
      simp only
      obtain ⟨st', l1, l2, l3, l4, l5, l6⟩ := setState_spec hs hS xs st1 (fun y hy => hx y (by simp [hy])) k2
      refine ⟨st', l1, l2, fun q hq => l3 q (k4 q hq), l4.trans k5, by omega, fun y hy => ?_⟩
      rcases List.mem_cons.mp hy with rfl | hy
      · exact fun _ => l3 _ k3
      · exact l6 y hy

theorem init_ops_spec {rem : List Nat} (hus : ∀ u ∈ us, t.ValidFact u.eff) (hS : ∀ u ∈ us, excl u = false → (∀ q ∈ u.pre, S q) → S u.eff) :
    ∀ (ws : List UnaryOp) (st : ExSt), (∀ u ∈ ws, u ∈ us) → ExInv t us excl S rem st →
      ∃ st', initializeOperatorData t excl ws st = some st' ∧ ExInv t us excl S rem st' ∧ (∀ q ∈ st.reached, q ∈ st'.reached) ∧ st'.unsat = st.unsat ∧
        st'.reached.length + st.queue.length = st.reached.length + st'.queue.length ∧ ∀ u ∈ ws, excl u = false → u.pre = [] → u.eff ∈ st'.reached
  | [], st, _, h => ⟨st, rfl, h, fun _ hq => hq, rfl, rfl, by simp⟩
  | u :: ws, st, hsub, h => by
    rw [initializeOperatorData]
    have hu := hsub u (by simp)
    have hskip : (excl u = true ∨ u.pre.length ≠ 0) → ∃ st', initializeOperatorData t excl ws st = some st' ∧ ExInv t us excl S rem st' ∧ (∀ q ∈ st.reached, q ∈ st'.reached) ∧ st'.unsat = st.unsat ∧
        st'.reached.length + st.queue.length = st.reached.length + st'.queue.length ∧ ∀ w ∈ u :: ws, excl w = false → w.pre = [] → w.eff ∈ st'.reached := by
      intro hc
      obtain ⟨st', k1, k2, k3, k4, k5, k6⟩ := init_ops_spec hus hS ws st (fun w hw => hsub w (by simp [hw])) h
      refine ⟨st', k1, k2, k3, k4, k5, fun w hw h1 h2 => ?_⟩
      rcases List.mem_cons.mp hw with rfl | hw
      · rcases hc with hc | hc
        · rw [hc] at h1; cases h1
        · exact absurd (by rw [h2]; rfl) hc
      · exact k6 w hw h1 h2
    cases he : excl u with
    | true => simp only [if_true]; exact hskip (Or.inl he)
    | false =>
      simp only [Bool.false_eq_true, if_false]
      by_cases hz : u.pre.length = 0
      · rw [if_pos hz]
        have hnil : u.pre = [] := List.length_eq_zero_iff.mp hz
        obtain ⟨st1, k1, k2, k3, k4, k5, k6⟩ := enqueue_spec h (hus u hu) (hS u hu he (by rw [hnil]; simp))
        rw [k1]
        simp only
        obtain ⟨st', l1, l2, l3, l4, l5, l6⟩ := init_ops_spec hus hS ws st1 (fun w hw => hsub w (by simp [hw])) k2
        refine ⟨st', l1, l2, fun q hq => l3 q (k4 q hq), l4.trans k5, by omega, fun w hw h1 h2 => ?_⟩
        rcases List.mem_cons.mp hw with rfl | hw
        · exact l3 _ k3
        · exact l6 w hw h1 h2
      · rw [if_neg hz]
        exact hskip (Or.inr hz)

theorem isExcluded_false_iff {X : List Fact} {unary : Bool} {u : UnaryOp} {i : Option Nat} (hi : ∀ j, i = some j → u.id = (j : Int)) (hn : i = none → u.id < 0) :
    UnaryOp.isExcluded X (getExcludedOperators t X unary) u = false ↔
      u.eff ∉ X ∧ (unary = false → ∀ (j : Nat) (o : Operator), i = some j → t.ops[j]? = some o → ∀ x ∈ X, ¬o.Unconditional x) := by
  unfold UnaryOp.isExcluded
  rw [Bool.or_eq_false_iff]
  have h1 : X.contains u.eff = false ↔ u.eff ∉ X := by simp
  rw [h1]
  refine and_congr Iff.rfl ?_
  have h2 : (getExcludedOperators t X unary).contains u.id = false ↔ u.id ∉ getExcludedOperators t X unary := by simp
  rw [h2]
  unfold getExcludedOperators
  cases unary with
  | true => simp
  | false =>
    simp only [Bool.false_eq_true, if_false, List.mem_map, List.mem_filter, List.mem_zipIdx_iff_getElem?, not_exists, not_and, forall_const]
    constructor
    · intro h j o hj ho x hx ⟨e, he, h3, h4⟩
      refine h (o, j) ⟨ho, ?_⟩ (hi j hj).symm
      rw [List.any_eq_true]
      exact ⟨e, he, by rw [h3, h4]; simpa using hx⟩
    · intro h y hy hid
      obtain ⟨ho, he⟩ := hy
      rw [List.any_eq_true] at he
      obtain ⟨e, he, hc⟩ := he
      rw [Bool.and_eq_true] at hc
      cases i with
      | none =>
        have := hn rfl
        omega
      | some j =>
        have := hi j rfl
        have hj : y.2 = j := by omega
        rw [hj] at ho
        exact h j y.1 rfl ho e.fact (by simpa using hc.2) ⟨e, he, by simpa using hc.1, rfl⟩

/-- Exploration reaches exactly the facts that can be reached without the excluded facts. -/
theorem reachability_spec {X : List Fact} {unary : Bool} (hf : t.FactsValid) (hs : t.ValidState t.init) (hX : ∀ f ∈ X, t.ValidFact f) :
    ∃ reached, computeRelaxedReachability t X unary = some reached ∧ (∀ f, f ∈ reached ↔ t.ReachAvoiding X unary f) ∧ ∀ f ∈ reached, t.ValidFact f := by
  unfold computeRelaxedReachability
  have hus : ∀ u ∈ unaryOperators t, t.ValidFact u.eff ∧ ∀ q ∈ u.pre, t.ValidFact q := by
    intro u hu
    obtain ⟨i, c, hr, _⟩ := relEffect_of_unary hu
    exact hf.effect _ _ _ _ hr
  rw [if_pos]
  · have hS : ∀ u ∈ unaryOperators t, UnaryOp.isExcluded X (getExcludedOperators t X unary) u = false → (∀ q ∈ u.pre, t.ReachAvoiding X unary q) → t.ReachAvoiding X unary u.eff := by
      intro u hu he hp
      obtain ⟨i, c, hr, hi, hn⟩ := relEffect_of_unary hu
      obtain ⟨h1, h2⟩ := (isExcluded_false_iff hi hn).mp he
      exact .effect i _ _ c hr h1 h2 hp
    generalize hexcl : UnaryOp.isExcluded X (getExcludedOperators t X unary) = excl at hS
    have h0 : ExInv t (unaryOperators t) excl (t.ReachAvoiding X unary) [] ⟨[], [], (unaryOperators t).map (fun u => (u.pre.length : Int))⟩ := by
      constructor
      · simp
      · simp
      · simp
      · simp
      · simp
      · intro i u n h1 h2 _
        simp only [List.getElem?_map, h1, Option.map_some, Option.some.injEq] at h2
        rw [← h2, List.count_nil, List.countP_eq_length.mpr (by intro q _; simp [Done])]
        simp
      · intro i u h1 _ h2 h3
        simp only [List.getElem?_map, h1, Option.map_some, Option.some.injEq] at h2
        exact absurd (List.length_eq_zero_iff.mp (by omega)) h3
      · simp
    obtain ⟨st1, k1, k2, -, -, k5, k6⟩ := setState_spec (X := X) hs (fun f h1 h2 => .init f h1 h2) t.init.zipIdx _ (fun x hx => List.mem_zipIdx_iff_getElem?.mp hx) h0
    rw [k1]
    simp only at k5 ⊢
    obtain ⟨st2, l1, l2, l3, -, l5, l6⟩ := init_ops_spec (fun u hu => (hus u hu).1) hS (unaryOperators t) st1 (fun _ h => h) k2
    rw [l1]
    simp only
    have hb : st2.reached.length ≤ numFacts t := nodup_valid_length l2.nodup l2.valid
    simp only [List.length_nil] at k5
    obtain ⟨st3, m1, m2, m3, m4⟩ := exploration_spec (fun u hu => (hus u hu).1) hS (numFacts t + 1) st2 l2 (by omega)
    rw [m1]
    refine ⟨st3.reached, rfl, fun f => ⟨m2.sound f, fun h => ?_⟩, m2.valid⟩
    induction h with
    | init f h1 h2 => exact m3 _ (l3 _ (k6 (f.val, f.var) (List.mem_zipIdx_iff_getElem?.mpr h1) h2))
    | effect i cs f c h1 h2 h3 _ ih =>
      obtain ⟨u, hu, rfl, rfl, hi, hn⟩ := unary_of_relEffect h1
      have he : excl u = false := by
        rw [← hexcl]
        exact (isExcluded_false_iff hi hn).mpr ⟨h2, h3⟩
      by_cases hnil : u.pre = []
      · exact m3 _ (l6 u hu he hnil)
      · obtain ⟨j, hj⟩ := List.mem_iff_getElem?.mp hu
        obtain ⟨n, hn'⟩ : ∃ n, st3.unsat[j]? = some n := ⟨_, List.getElem?_eq_getElem (by rw [m2.len]; exact (List.getElem?_eq_some_iff.mp hj).1)⟩
        have := m2.cnt j u n hj hn' he
        rw [List.count_nil, List.countP_eq_zero.mpr (by
          intro q hq
          have := ih q hq
          simp [Done, this, m4])] at this
        refine m2.zero j u hj he ?_ hnil
        rw [hn', this]
        rfl
  · rw [Bool.and_eq_true, List.all_eq_true, List.all_eq_true]
    refine ⟨fun f h => hasFact_iff.mpr (hX f h), fun u hu => ?_⟩
    rw [Bool.and_eq_true, List.all_eq_true]
    exact ⟨hasFact_iff.mpr (hus u hu).1, fun q hq => hasFact_iff.mpr ((hus u hu).2 q hq)⟩

end Verif.Landmarks
