import Verif.Spec.LinearProgram
import Mathlib.Algebra.BigOperators.Intervals
import Mathlib.Algebra.BigOperators.Group.Finset.Piecewise
import Mathlib.Algebra.Order.BigOperators.Group.Finset
import Mathlib.Tactic.Linarith
import Mathlib.Tactic.Ring
import Mathlib.Tactic.FieldSimp
import Mathlib.Algebra.BigOperators.Ring.Finset
import Mathlib.Algebra.Order.Field.Basic

/-
Elimination of variables from linear inequalities, and its consequence: a linear program that has feasible solutions and is bounded has an optimal
solution.  Hence the contracts of LP solvers can be met.
-/
namespace Verif.LP

/-- a linear inequality `∑ coef i * x i ≤ bound` -/
structure Ineq where
  coef : Nat → Rat
  bound : Rat

/-- the left-hand side, for the first `n` variables -/
def Ineq.lhs (c : Ineq) (n : Nat) (x : Nat → Rat) : Rat := ∑ i ∈ Finset.range n, c.coef i * x i

def Holds (n : Nat) (l : List Ineq) (x : Nat → Rat) : Prop := ∀ c ∈ l, c.lhs n x ≤ c.bound

/-- elimination of variable `n` from two inequalities -/
def combine (n : Nat) (p q : Ineq) : Ineq := ⟨fun i => -q.coef n * p.coef i + p.coef n * q.coef i, -q.coef n * p.bound + p.coef n * q.bound⟩

/-- elimination of variable `n` -/
def elim (n : Nat) (l : List Ineq) : List Ineq :=
  l.filter (fun c => decide (c.coef n = 0)) ++ (l.filter (fun c => decide (0 < c.coef n))).flatMap (fun p => (l.filter (fun c => decide (c.coef n < 0))).map (combine n p))

theorem exists_between : ∀ (U : List Rat) (L : List Rat), (∀ l ∈ L, ∀ u ∈ U, l ≤ u) → ∃ y, (∀ l ∈ L, l ≤ y) ∧ ∀ u ∈ U, y ≤ u
  | [], [], _ => ⟨0, by simp, by simp⟩
  | [], l :: L, _ => by
    obtain ⟨y, h1, _⟩ := exists_between [] L (by simp)
    refine ⟨max l y, fun a ha => ?_, by simp⟩
    rcases List.mem_cons.mp ha with rfl | ha
    · exact le_max_left _ _
    · exact le_trans (h1 a ha) (le_max_right _ _)
  | u :: U, L, h => by
    obtain ⟨y, h1, h2⟩ := exists_between U L (fun l hl u' hu' => h l hl u' (by simp [hu']))
    refine ⟨min u y, fun l hl => le_min (h l hl u (by simp)) (h1 l hl), fun a ha => ?_⟩
    rcases List.mem_cons.mp ha with rfl | ha
    · exact min_le_left _ _
    · exact le_trans (min_le_right _ _) (h2 a ha)

theorem lhs_update (c : Ineq) (n : Nat) (x : Nat → Rat) (y : Rat) : c.lhs (n + 1) (Function.update x n y) = c.lhs n x + c.coef n * y := by
  unfold Ineq.lhs
  rw [Finset.sum_range_succ, Function.update_self]
  congr 1
  refine Finset.sum_congr rfl (fun i hi => ?_)
  rw [Function.update_of_ne (by have := Finset.mem_range.mp hi; omega)]

theorem lhs_combine (n k : Nat) (p q : Ineq) (x : Nat → Rat) : (combine n p q).lhs k x = -q.coef n * p.lhs k x + p.coef n * q.lhs k x := by
  unfold Ineq.lhs combine
  simp only
  rw [Finset.mul_sum, Finset.mul_sum, ← Finset.sum_add_distrib]
  refine Finset.sum_congr rfl (fun i _ => ?_)
  ring

theorem elim_iff (n : Nat) (l : List Ineq) (x : Nat → Rat) : Holds n (elim n l) x ↔ ∃ y, Holds (n + 1) l (Function.update x n y) := by
  constructor
  · intro h
    obtain ⟨y, h1, h2⟩ := exists_between ((l.filter (fun c => decide (0 < c.coef n))).map (fun c => (c.bound - c.lhs n x) / c.coef n))
      ((l.filter (fun c => decide (c.coef n < 0))).map (fun c => (c.bound - c.lhs n x) / c.coef n)) (by
        intro a ha b hb
        obtain ⟨q, hq, rfl⟩ := List.mem_map.mp ha
        obtain ⟨p, hp, rfl⟩ := List.mem_map.mp hb
        have hk := h (combine n p q) (List.mem_append.mpr (.inr (List.mem_flatMap.mpr ⟨p, hp, List.mem_map.mpr ⟨q, hq, rfl⟩⟩)))
        rw [lhs_combine] at hk
        have hq0 : q.coef n < 0 := by simpa using (List.mem_filter.mp hq).2
        have hp0 : 0 < p.coef n := by simpa using (List.mem_filter.mp hp).2
        rw [div_le_iff_of_neg hq0, div_mul_eq_mul_div, div_le_iff₀ hp0]
        simp only [combine] at hk
        nlinarith)
    refine ⟨y, fun c hc => ?_⟩
    rw [lhs_update]
    rcases lt_trichotomy (c.coef n) 0 with h0 | h0 | h0
    · have := h1 _ (List.mem_map.mpr ⟨c, List.mem_filter.mpr ⟨hc, by simpa using h0⟩, rfl⟩)
      rw [div_le_iff_of_neg h0] at this
      linarith
    · have := h c (List.mem_append.mpr (.inl (List.mem_filter.mpr ⟨hc, by simpa using h0⟩)))
      rw [h0]
      linarith
    · have := h2 _ (List.mem_map.mpr ⟨c, List.mem_filter.mpr ⟨hc, by simpa using h0⟩, rfl⟩)
      rw [le_div_iff₀ h0] at this
      linarith
  · rintro ⟨y, hy⟩ c hc
    rcases List.mem_append.mp hc with hc | hc
    · have h0 : c.coef n = 0 := by simpa using (List.mem_filter.mp hc).2
      have := hy c (List.mem_filter.mp hc).1
      rw [lhs_update, h0] at this
      linarith
    · obtain ⟨p, hp, hc⟩ := List.mem_flatMap.mp hc
      obtain ⟨q, hq, rfl⟩ := List.mem_map.mp hc
      have hq0 : q.coef n < 0 := by simpa using (List.mem_filter.mp hq).2
      have hp0 : 0 < p.coef n := by simpa using (List.mem_filter.mp hp).2
      have h1 := hy p (List.mem_filter.mp hp).1
      have h2 := hy q (List.mem_filter.mp hq).1
      rw [lhs_update] at h1 h2
      rw [lhs_combine]
      simp only [combine]
      nlinarith

/-- elimination of the variables `n + k - 1, …, n` -/
def elimAll (n : Nat) : Nat → List Ineq → List Ineq
  | 0, l => l
  | k + 1, l => elimAll n k (elim (n + k) l)

theorem holds_congr {n : Nat} {l : List Ineq} {x y : Nat → Rat} (h : ∀ i < n, x i = y i) : Holds n l x ↔ Holds n l y := by
  have : ∀ c : Ineq, c.lhs n x = c.lhs n y := fun c => Finset.sum_congr rfl (fun i hi => by rw [h i (Finset.mem_range.mp hi)])
  unfold Holds
  simp only [this]

theorem elimAll_iff (n : Nat) : ∀ (k : Nat) (l : List Ineq) (x : Nat → Rat), Holds n (elimAll n k l) x ↔ ∃ y, (∀ i < n, y i = x i) ∧ Holds (n + k) l y
  | 0, l, x => by
    constructor
    · intro h; exact ⟨x, fun _ _ => rfl, h⟩
    · rintro ⟨y, h1, h2⟩; exact (holds_congr h1).mp h2
  | k + 1, l, x => by
    rw [elimAll, elimAll_iff n k]
    constructor
    · rintro ⟨y, h1, h2⟩
      obtain ⟨z, hz⟩ := (elim_iff _ _ _).mp h2
      refine ⟨Function.update y (n + k) z, fun i hi => ?_, hz⟩
      rw [Function.update_of_ne (by omega)]
      exact h1 i hi
    · rintro ⟨y, h1, h2⟩
      refine ⟨y, h1, (elim_iff _ _ _).mpr ⟨y (n + k), ?_⟩⟩
      rw [Function.update_eq_self]
      exact h2

/-- finitely many inequalities in one variable: a bounded set that is not empty has a maximum -/
theorem one_variable (l : List Ineq) {z : Rat} (hz : Holds 1 l (fun _ => z)) {b : Rat} (hb : ∀ z, Holds 1 l (fun _ => z) → z ≤ b) : ∃ m, Holds 1 l (fun _ => m) ∧ ∀ z, Holds 1 l (fun _ => z) → z ≤ m := by
  have hlhs : ∀ (c : Ineq) (z : Rat), c.lhs 1 (fun _ => z) = c.coef 0 * z := fun c z => by simp [Ineq.lhs]
  -- the upper bounds
  have hne : ∃ c ∈ l, 0 < c.coef 0 := by
    by_contra hcon
    push Not at hcon
    have : Holds 1 l (fun _ => max z b + 1) := by
      intro c hc
      have h1 := hz c hc
      rw [hlhs] at h1 ⊢
      have h2 := hcon c hc
      have h3 : z ≤ max z b + 1 := le_trans (le_max_left z b) (by linarith)
      nlinarith
    have h1 := hb _ this
    have h2 := le_max_right z b
    linarith
  have hmin : ∀ (l : List Ineq), (∃ c ∈ l, 0 < c.coef 0) → ∃ c ∈ l, 0 < c.coef 0 ∧ ∀ c' ∈ l, 0 < c'.coef 0 → c.bound / c.coef 0 ≤ c'.bound / c'.coef 0 := by
    intro l
    induction l with
    | nil => simp
    | cons a l ih =>
      rintro ⟨c, hc, h0⟩
      by_cases hl : ∃ c ∈ l, 0 < c.coef 0
      · obtain ⟨c1, h1, h2, h3⟩ := ih hl
        by_cases ha : 0 < a.coef 0 ∧ a.bound / a.coef 0 ≤ c1.bound / c1.coef 0
        · refine ⟨a, by simp, ha.1, fun c' hc' h0' => ?_⟩
          rcases List.mem_cons.mp hc' with rfl | hc'
          · exact le_refl _
          · exact le_trans ha.2 (h3 c' hc' h0')
        · refine ⟨c1, by simp [h1], h2, fun c' hc' h0' => ?_⟩
          rcases List.mem_cons.mp hc' with rfl | hc'
          · by_contra hlt
            exact ha ⟨h0', by linarith⟩
          · exact h3 c' hc' h0'
      · refine ⟨c, hc, h0, fun c' hc' h0' => ?_⟩
        rcases List.mem_cons.mp hc with rfl | hc
        · rcases List.mem_cons.mp hc' with rfl | hc'
          · exact le_refl _
          · exact absurd ⟨c', hc', h0'⟩ hl
        · exact absurd ⟨c, hc, h0⟩ hl
  obtain ⟨c, hc, h0, hm⟩ := hmin l hne
  have hle : ∀ z, Holds 1 l (fun _ => z) → z ≤ c.bound / c.coef 0 := by
    intro z hz
    have := hz c hc
    rw [hlhs] at this
    rw [le_div_iff₀ h0]
    linarith
  refine ⟨c.bound / c.coef 0, fun c' hc' => ?_, hle⟩
  rw [hlhs]
  rcases lt_or_ge 0 (c'.coef 0) with h1 | h1
  · have := hm c' hc' h1
    rw [le_div_iff₀ h1] at this
    linarith
  · have h2 := hz c' hc'
    rw [hlhs] at h2
    have := hle z hz
    nlinarith

/-- a bounded system of inequalities that can be satisfied has a best solution -/
theorem exists_max_ineq (n : Nat) (l : List Ineq) (obj : Nat → Rat) {x0 : Nat → Rat} (hx0 : Holds n l x0) {b : Rat} (hb : ∀ x, Holds n l x → ∑ i ∈ Finset.range n, obj i * x i ≤ b) :
    ∃ x, Holds n l x ∧ ∀ y, Holds n l y → ∑ i ∈ Finset.range n, obj i * y i ≤ ∑ i ∈ Finset.range n, obj i * x i := by
  -- variable 0 is the objective
  let shift : Ineq → Ineq := fun c => ⟨fun i => if i = 0 then 0 else c.coef (i - 1), c.bound⟩
  let top : Ineq := ⟨fun i => if i = 0 then 1 else -obj (i - 1), 0⟩
  have hshift : ∀ c (y : Nat → Rat), (shift c).lhs (1 + n) y = c.lhs n (fun i => y (i + 1)) := by
    intro c y
    unfold Ineq.lhs
    rw [Nat.add_comm 1 n, Finset.sum_range_succ']
    simp [shift]
  have htop : ∀ (y : Nat → Rat), top.lhs (1 + n) y = y 0 - ∑ i ∈ Finset.range n, obj i * y (i + 1) := by
    intro y
    unfold Ineq.lhs
    rw [Nat.add_comm 1 n, Finset.sum_range_succ']
    simp [top]
    ring
  have hiff : ∀ z : Rat, Holds 1 (elimAll 1 n (top :: l.map shift)) (fun _ => z) ↔ ∃ x, Holds n l x ∧ z ≤ ∑ i ∈ Finset.range n, obj i * x i := by
    intro z
    rw [elimAll_iff]
    constructor
    · rintro ⟨y, h1, h2⟩
      refine ⟨fun i => y (i + 1), fun c hc => ?_, ?_⟩
      · rw [← hshift]
        exact h2 (shift c) (List.mem_cons_of_mem _ (List.mem_map.mpr ⟨c, hc, rfl⟩))
      · have := h2 top (by simp)
        rw [htop, h1 0 (by omega)] at this
        have h0 : top.bound = 0 := rfl
        rw [h0] at this
        linarith
    · rintro ⟨x, h1, h2⟩
      refine ⟨fun i => if i = 0 then z else x (i - 1), fun i hi => by simp [show i = 0 by omega], fun c hc => ?_⟩
      rcases List.mem_cons.mp hc with rfl | hc
      · rw [htop]
        have h0 : top.bound = 0 := rfl
        rw [h0]
        simp only [if_true, Nat.add_eq_zero_iff, one_ne_zero, and_false, if_false, Nat.add_sub_cancel]
        linarith
      · obtain ⟨c', hc', rfl⟩ := List.mem_map.mp hc
        rw [hshift]
        simpa using h1 c' hc'
  obtain ⟨m, hm1, hm2⟩ := one_variable (elimAll 1 n (top :: l.map shift)) (z := ∑ i ∈ Finset.range n, obj i * x0 i) ((hiff _).mpr ⟨x0, hx0, le_refl _⟩) (b := b) (fun z hz => by
    obtain ⟨x, h1, h2⟩ := (hiff z).mp hz
    exact le_trans h2 (hb x h1))
  obtain ⟨x, h1, h2⟩ := (hiff m).mp hm1
  exact ⟨x, h1, fun y hy => le_trans (hm2 _ ((hiff _).mpr ⟨y, hy, le_refl _⟩)) h2⟩

/-! ### Linear programs -/

/-- the coefficients of a row -/
def Row.coef (r : Row) (i : Nat) : Rat := ((r.entries.filter (fun e => e.1 == i)).map (·.2)).sum

theorem row_value (n : Nat) (x : Nat → Rat) : ∀ (es : List (Nat × Rat)), (∀ e ∈ es, e.1 < n) →
    (es.map (fun e => e.2 * x e.1)).sum = ∑ i ∈ Finset.range n, ((es.filter (fun e => e.1 == i)).map (·.2)).sum * x i
  | [], _ => by simp
  | e :: es, h => by
    have ih := row_value n x es (fun e' he' => h e' (by simp [he']))
    rw [List.map_cons, List.sum_cons, ih]
    have : ∀ i, (((e :: es).filter (fun e => e.1 == i)).map (·.2)).sum * x i = (if e.1 = i then e.2 * x i else 0) + ((es.filter (fun e => e.1 == i)).map (·.2)).sum * x i := by
      intro i
      by_cases hi : e.1 = i
      · simp [hi]; ring
      · simp [hi]
    simp only [this]
    rw [Finset.sum_add_distrib, Finset.sum_ite_eq, if_pos (Finset.mem_range.mpr (h e (by simp)))]

/-- the inequalities of a pair of bounds -/
def boundIneqs (coef : Nat → Rat) (lower upper : Option Rat) : List Ineq :=
  (match lower with | some l => [⟨fun i => -coef i, -l⟩] | none => []) ++ (match upper with | some u => [⟨coef, u⟩] | none => [])

theorem boundIneqs_iff (n : Nat) (coef : Nat → Rat) (lower upper : Option Rat) (x : Nat → Rat) :
    Holds n (boundIneqs coef lower upper) x ↔ Between lower upper (∑ i ∈ Finset.range n, coef i * x i) := by
  have hneg : ∑ i ∈ Finset.range n, -coef i * x i = -∑ i ∈ Finset.range n, coef i * x i := by
    rw [← Finset.sum_neg_distrib]
    exact Finset.sum_congr rfl (fun i _ => by ring)
  unfold Holds boundIneqs Between
  cases lower <;> cases upper <;> simp [Ineq.lhs, hneg]

/-- the inequalities of a linear program -/
def Program.ineqs (p : Program) : List Ineq :=
  p.columns.zipIdx.flatMap (fun c => boundIneqs (fun i => if i = c.2 then 1 else 0) c.1.lower c.1.upper) ++ p.rows.flatMap (fun r => boundIneqs r.coef r.lower r.upper)

theorem holds_flatMap {α : Type} (n : Nat) (f : α → List Ineq) (l : List α) (x : Nat → Rat) : Holds n (l.flatMap f) x ↔ ∀ a ∈ l, Holds n (f a) x := by
  unfold Holds
  simp only [List.mem_flatMap]
  constructor
  · intro h a ha c hc; exact h c ⟨a, ha, hc⟩
  · rintro h c ⟨a, ha, hc⟩; exact h a ha c hc

theorem ineqs_iff {p : Program} (hp : p.WellFormed) (x : Nat → Rat) : Holds p.columns.length p.ineqs x ↔ p.Feasible x := by
  have hsplit : Holds p.columns.length p.ineqs x ↔ (∀ c ∈ p.columns.zipIdx, Between c.1.lower c.1.upper (x c.2)) ∧ ∀ r ∈ p.rows, Between r.lower r.upper (r.value x) := by
    have : Holds p.columns.length p.ineqs x ↔ Holds p.columns.length (p.columns.zipIdx.flatMap (fun c => boundIneqs (fun i => if i = c.2 then 1 else 0) c.1.lower c.1.upper)) x ∧
        Holds p.columns.length (p.rows.flatMap (fun r => boundIneqs r.coef r.lower r.upper)) x := by
      unfold Program.ineqs Holds
      simp only [List.mem_append]
      constructor
      · intro h; exact ⟨fun c hc => h c (.inl hc), fun c hc => h c (.inr hc)⟩
      · rintro ⟨h1, h2⟩ c (hc | hc)
        · exact h1 c hc
        · exact h2 c hc
    rw [this, holds_flatMap, holds_flatMap]
    refine and_congr ?_ ?_
    · refine forall_congr' (fun c => forall_congr' (fun hc => ?_))
      rw [boundIneqs_iff]
      have hlt : c.2 < p.columns.length := by
        have := List.mem_zipIdx_iff_getElem?.mp hc
        exact (List.getElem?_eq_some_iff.mp this).1
      have : ∑ i ∈ Finset.range p.columns.length, (if i = c.2 then (1 : Rat) else 0) * x i = x c.2 := by
        simp only [ite_mul, one_mul, zero_mul]
        rw [Finset.sum_ite_eq' , if_pos (Finset.mem_range.mpr hlt)]
      rw [this]
    · refine forall_congr' (fun r => forall_congr' (fun hr => ?_))
      rw [boundIneqs_iff]
      unfold Row.value Row.coef
      rw [row_value p.columns.length x r.entries (hp r hr).2]
  rw [hsplit]
  constructor
  · rintro ⟨h1, h2⟩
    exact ⟨fun i c hc => h1 (c, i) (List.mem_zipIdx_iff_getElem?.mpr hc), h2⟩
  · intro h
    exact ⟨fun c hc => h.columns c.2 c.1 (List.mem_zipIdx_iff_getElem?.mp hc), h.rows⟩

theorem value_sum (x : Nat → Rat) : ∀ (cols : List Column) (k : Nat), ((cols.zipIdx k).map (fun c => c.1.objective * x c.2)).sum =
    ∑ i ∈ Finset.range cols.length, (((cols[i]?).map (·.objective)).getD 0) * x (k + i)
  | [], k => by simp
  | c :: cols, k => by
    simp only [List.zipIdx_cons, List.map_cons, List.sum_cons, List.length_cons]
    rw [Finset.sum_range_succ', value_sum x cols (k + 1)]
    simp only [List.getElem?_cons_zero, Option.map_some, Option.getD_some, List.getElem?_cons_succ, Nat.add_zero]
    rw [add_comm]
    congr 1
    refine Finset.sum_congr rfl (fun i _ => ?_)
    rw [Nat.add_assoc, Nat.add_comm 1 i]

theorem program_value (p : Program) (x : Nat → Rat) : p.value x = ∑ i ∈ Finset.range p.columns.length, (((p.columns[i]?).map (·.objective)).getD 0) * x i := by
  unfold Program.value
  rw [value_sum x p.columns 0]
  simp

/-- a linear program with feasible solutions that is bounded has an optimal solution -/
theorem exists_maximum {p : Program} (hp : p.WellFormed) (h : p.Solvable) : ∃ x, p.Maximum x := by
  obtain ⟨⟨x0, h0⟩, b, hb⟩ := h
  obtain ⟨x, h1, h2⟩ := exists_max_ineq p.columns.length p.ineqs (fun i => ((p.columns[i]?).map (·.objective)).getD 0) ((ineqs_iff hp x0).mpr h0) (b := b) (fun x hx => by
    rw [← program_value]
    exact hb x ((ineqs_iff hp x).mp hx))
  refine ⟨x, (ineqs_iff hp x).mp h1, fun y hy => ?_⟩
  rw [program_value, program_value]
  exact h2 y ((ineqs_iff hp y).mpr hy)

/-- the contract of LP solvers can be met -/
theorem exists_maxSolver : ∃ solve, MaxSolver solve := by
  classical
  refine ⟨fun p => if h : ∃ x, p.Maximum x then some h.choose else none, fun p _ hp => ⟨fun x hx => ?_, fun hn hs => ?_⟩⟩
  · simp only at hx
    split at hx
    · rename_i h
      cases hx
      exact h.choose_spec
    · simp at hx
  · simp only at hn
    rw [dif_pos (exists_maximum hp hs)] at hn
    simp at hn

end Verif.LP
