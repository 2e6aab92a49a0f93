import Verif.Lemmas.OperatorCounting
import Verif.Lemmas.FourierMotzkin

/-
The operator-counting heuristic as an object: construction and evaluation; LP solvers exist.
-/
namespace Verif.Counting
open Verif.LP Verif.AdaptiveQueue Verif.Pdb

/-! ### Construction -/

theorem buildPdbs_spec (H : StdHeap Nat) {t : Task} (ht : t.PdbOk) : ∀ (Ps : List (List Nat)), (∀ P ∈ Ps, t.IsPattern P ∧ P.Pairwise (· < ·) ∧ t.numAbstractStates P < 2 ^ 31 ∧ ∃ C, (∀ i, t.opCost i ≤ C) ∧ t.numAbstractStates P * C < 2 ^ 31 - 1) →
    ∃ dbs R, buildPdbs H t Ps = .ok dbs ∧ dbs.mapM (phoRow t) = some R ∧ PhoOk t Ps dbs R
  | [], _ => ⟨[], [], rfl, rfl, .nil⟩
  | P :: Ps, h => by
    obtain ⟨h1, h2, h3, C, h4, h5⟩ := h P (by simp)
    obtain ⟨db, k1, k2, k3⟩ := pdb_spec H ht h1 (.inl rfl) (C := C) (by rw [costWith_nil]; exact h4) h3 h5
    rw [costWith_nil] at k2
    obtain ⟨dbs, R, m1, m2, m3⟩ := buildPdbs_spec H ht Ps (fun P hP => h P (by simp [hP]))
    refine ⟨db :: dbs, ⟨some 0, none, relevantEntries t P⟩ :: R, ?_, ?_, .cons P db _ Ps dbs R _ ⟨k2, k3⟩ rfl rfl m3⟩
    · unfold buildPdbs
      rw [k1, m1]
    · rw [List.mapM_cons, phoRow_spec (computePdb_pattern k1) h2, m2]
      rfl

theorem initGen_spec (H : StdHeap Nat) {t : Task} {g : Gen} (hg : Supports t g) (rows : List Row) : ∃ d R, initGen H t rows g = some (d, rows ++ R) ∧ DataOk t rows.length g d R := by
  cases g with
  | stateEquation =>
    have hg' : t.CountingOk := hg
    obtain ⟨T, h1, _⟩ := buildPropositions_spec hg'
    obtain ⟨R, h2, h3, h4⟩ := addConstraints_spec T (allFacts t) rows
    refine ⟨.stateEquation (addConstraints T (allFacts t) rows).1, R, ?_, T, h1, h4, h3⟩
    simp only [initGen]
    rw [if_pos ⟨hg'.axioms, hg'.conds⟩, h1]
    simp only [h2]
  | lmcut =>
    have hg' : t.LmCutOk := hg
    refine ⟨.lmcut LmCut.St.init, [], ?_, ⟨[], Rep.new⟩, rfl⟩
    simp only [initGen]
    rw [if_pos ⟨hg'.axioms, hg'.conds⟩, List.append_nil]
  | pho Ps =>
    obtain ⟨dbs, R, h1, h2, h3⟩ := buildPdbs_spec H hg.1 Ps hg.2
    refine ⟨.pho dbs rows.length, R, ?_, rfl, h3⟩
    simp only [initGen, h1, h2]

theorem initGens_spec (H : StdHeap Nat) {t : Task} : ∀ (gs : List Gen) (rows : List Row), (∀ g ∈ gs, Supports t g) → ∃ ds R, initGens H t gs rows = some (ds, rows ++ R) ∧ GensOk t rows.length gs ds R
  | [], rows, _ => ⟨[], [], by simp [initGens], .nil _⟩
  | g :: gs, rows, hg => by
    obtain ⟨d, R, h1, h2⟩ := initGen_spec H (hg g (by simp)) rows
    obtain ⟨ds, Rs, h3, h4⟩ := initGens_spec H gs (rows ++ R) (fun g h => hg g (by simp [h]))
    refine ⟨d :: ds, R ++ Rs, ?_, .cons _ _ _ _ _ _ _ h2 (by rw [List.length_append] at h4; exact h4)⟩
    unfold initGens
    rw [h1]
    simp only
    rw [h3]
    simp

/-- the heuristic between evaluations: all rows are permanent -/
structure ObjOk (t : Task) (kind : SolverType) (gs : List Gen) (obj : Object) : Prop where
  rows : GensOk t 0 gs obj.gens obj.solver.rows
  columns : obj.solver.columns = t.ops.map (fun o => ⟨some 0, none, (o.cost : Rat)⟩)
  permanent : obj.solver.numPermanent = obj.solver.rows.length
  temporary : kind = .soplex → obj.solver.numTemporary = 0
  kind : obj.solver.kind = kind

theorem create_spec (H : StdHeap Nat) {t : Task} {kind : SolverType} {int : Bool} {gs : List Gen} (hne : gs ≠ []) (hint : kind = .soplex → int = false) (hg : ∀ g ∈ gs, Supports t g) : ∃ obj, create H t kind int gs = some obj ∧ ObjOk t kind gs obj := by
  obtain ⟨ds, R, h1, h2⟩ := initGens_spec H gs [] hg
  unfold create
  rw [if_neg (by
    rintro (h | ⟨h3, h4, _⟩)
    · exact hne h
    · rw [hint h3] at h4
      simp at h4), h1]
  refine ⟨_, rfl, ?_, rfl, rfl, fun _ => rfl, rfl⟩
  simp only [Solver.load, List.nil_append]
  exact h2

/-! ### Evaluation -/

theorem column_feasible {t : Task} {x : Nat → Rat} {rows : List Row} : (∀ i c, (⟨false, t.ops.map (fun o => ⟨some 0, none, (o.cost : Rat)⟩), rows⟩ : Program).columns[i]? = some c → Between c.lower c.upper (x i)) ↔ ∀ i < t.ops.length, 0 ≤ x i := by
  simp only
  constructor
  · intro h i hi
    have := h i _ (by rw [List.getElem?_map, List.getElem?_eq_getElem hi]; rfl)
    exact this.1 0 rfl
  · intro h i c hc
    rw [List.getElem?_map] at hc
    obtain ⟨o, h1, rfl⟩ := Option.map_eq_some_iff.mp hc
    refine ⟨?_, by simp⟩
    rintro l hl
    simp only [Option.some.injEq] at hl
    rw [← hl]
    exact h i (List.getElem?_eq_some_iff.mp h1).1

theorem program_countCost {t : Task} {x : Nat → Rat} {rows : List Row} : (⟨false, t.ops.map (fun o => ⟨some 0, none, (o.cost : Rat)⟩), rows⟩ : Program).value x = t.countCost x := by
  unfold Program.value Task.countCost
  simp [List.zipIdx_map, Function.comp_def]

/-- the result of an evaluation: DEAD_END, a value, or (`none`) a value that does not fit into an int -/
def Correct (t : Task) (s : State) (gs : List Gen) (int : Bool) (err : Rat) : Option (Option Int) → Prop
  | some none => (∃ g ∈ gs, Dead t s g) ∨ ∃ lm, (∀ j, gs[j]? = some Gen.lmcut → LmOk t s (lm j)) ∧ ¬∃ x, Feasible t s gs lm int x
  | some (some k) => (∀ g ∈ gs, ¬Dead t s g) ∧ ∃ lm, (∀ j, gs[j]? = some Gen.lmcut → LmOk t s (lm j)) ∧ ∃ v, IsMinimum t s gs lm int err v ∧ k = ⌈v - 1 / 100⌉ ∧ k ≤ 2147483647
  | none => (∀ g ∈ gs, ¬Dead t s g) ∧ ∃ lm, (∀ j, gs[j]? = some Gen.lmcut → LmOk t s (lm j)) ∧ ∃ v, IsMinimum t s gs lm int err v ∧ 2147483647 < ⌈v - 1 / 100⌉

theorem countCost_nonneg {t : Task} {x : Nat → Rat} (h : ∀ i < t.ops.length, 0 ≤ x i) : 0 ≤ t.countCost x := by
  unfold Task.countCost
  rw [zipIdx_sum0 (fun (o : Operator) i => (o.cost : Rat) * x i)]
  refine Finset.sum_nonneg (fun i hi => ?_)
  cases t.ops[i]? with
  | none => simp
  | some o => exact mul_nonneg (by exact_mod_cast Nat.zero_le _) (h i (Finset.mem_range.mp hi))

theorem clear_spec {S : Solver} {R tmp : List Row} {nt : Nat} (hp : S.numPermanent = R.length) (hkind : S.kind = .cplex ∨ nt = tmp.length) :
    ∃ nt', ({ S with rows := R ++ tmp, numTemporary := nt } : Solver).clearTemporary = { S with rows := R, numTemporary := nt' } ∧ (S.kind = .soplex → nt' = 0) := by
  unfold Solver.clearTemporary
  cases hk : S.kind with
  | cplex =>
    refine ⟨nt, ?_, by simp⟩
    simp [hp]
  | soplex =>
    have hnt : nt = tmp.length := by
      rcases hkind with h | h
      · rw [hk] at h
        simp at h
      · exact h
    simp only
    split
    · refine ⟨0, ?_, by simp⟩
      rw [hp, hnt]
      simp
    · refine ⟨0, ?_, by simp⟩
      have : tmp = [] := List.eq_nil_of_length_eq_zero (by omega)
      have h0 : nt = 0 := by omega
      rw [this, h0]
      simp

/-- an evaluation -/
theorem compute_spec (H : StdHeap Nat) {t : Task} {kind : SolverType} {gs : List Gen} (hg : ∀ g ∈ gs, Supports t g) (hkind : kind = .cplex ∨ gs.count .lmcut ≤ 1) {err : Rat} (herr : err < 1 / 100) {solve : Program → Bool → Option Rat}
    (hsolve : MinSolver err solve) {int : Bool} {s : State} (hs : t.ValidState s) {obj : Object} (hobj : ObjOk t kind gs obj) :
    Correct t s gs int err ((compute H t solve int s obj).map (·.1)) ∧ ∀ v obj', compute H t solve int s obj = some (v, obj') → ObjOk t kind gs obj' := by
  obtain ⟨dead, ds, R, tmp, nt, h1, h2, h3, h4, _, h5, h6, h7⟩ := updateGens_spec H hs gs obj.gens [] obj.solver.rows [] obj.solver hg hobj.rows (by simp)
  simp only [List.nil_append, List.append_nil] at h1
  have hh : obj.solver.hasTemporary = false := by
    unfold Solver.hasTemporary
    cases hk : obj.solver.kind with
    | cplex => simp [hobj.permanent]
    | soplex => simp [hobj.temporary (hobj.kind.symm.trans hk)]
  obtain ⟨nt', c1, c2⟩ := clear_spec (S := obj.solver) (R := R) (tmp := tmp) (nt := nt) (by rw [hobj.permanent, h3]) (by
    rw [hobj.kind]
    rcases hkind with h | h
    · exact .inl h
    · cases hk : kind with
      | cplex => exact .inl rfl
      | soplex => exact .inr (h5 h (hobj.temporary hk)))
  have hobj' : ObjOk t kind gs ⟨ds, { obj.solver with rows := R, numTemporary := nt' }⟩ :=
    ⟨h2, hobj.columns, by simp only; rw [hobj.permanent, h3], fun hk => c2 (hobj.kind.trans hk), hobj.kind⟩
  unfold compute
  rw [hh, h1]
  simp only [Bool.false_eq_true, if_false]
  cases dead with
  | true =>
    simp only [Option.map_some, c1]
    refine ⟨.inl (h6 rfl), ?_⟩
    rintro v obj' h
    simp only [Option.some.injEq, Prod.mk.injEq] at h
    rw [← h.2]
    exact hobj'
  | false =>
    obtain ⟨q1, lm, q2, q3⟩ := h7 rfl
    have hprog : ({ obj.solver with rows := R ++ tmp, numTemporary := nt } : Solver).program = ⟨false, t.ops.map (fun o => ⟨some 0, none, (o.cost : Rat)⟩), R ++ tmp⟩ := by
      unfold Solver.program
      rw [hobj.columns]
    simp only [hprog]
    have hfeas : ∀ x, (⟨false, t.ops.map (fun o => ⟨some 0, none, (o.cost : Rat)⟩), R ++ tmp⟩ : Program).FeasibleInt int x ↔ Feasible t s gs lm int x := by
      intro x
      unfold Program.FeasibleInt Feasible Counts
      constructor
      · rintro ⟨⟨f1, f2⟩, f3⟩
        refine ⟨fun i hi => ⟨column_feasible.mp f1 i hi, fun h => f3 h i (by simpa using hi)⟩, (q3 x).mp f2⟩
      · rintro ⟨f1, f2⟩
        exact ⟨⟨column_feasible.mpr (fun i hi => (f1 i hi).1), (q3 x).mpr f2⟩, fun h i hi => (f1 i (by simpa using hi)).2 h⟩
    have hcon := hsolve ⟨false, t.ops.map (fun o => ⟨some 0, none, (o.cost : Rat)⟩), R ++ tmp⟩ int ⟨rfl, by
        intro c hc
        obtain ⟨o, _, rfl⟩ := List.mem_map.mp hc
        exact ⟨rfl, rfl, o.cost, rfl⟩⟩ (by
        intro r hr
        simp only [List.length_map]
        rcases List.mem_append.mp hr with hr | hr
        · exact gensOk_rows h2 hg r hr
        · exact h4 r hr)
    cases hv : solve ⟨false, t.ops.map (fun o => ⟨some 0, none, (o.cost : Rat)⟩), R ++ tmp⟩ int with
    | none =>
      simp only [Option.map_some, c1]
      refine ⟨.inr ⟨lm, q2, ?_⟩, ?_⟩
      · rintro ⟨x, hx⟩
        exact hcon.2 hv ⟨x, (hfeas x).mpr hx⟩
      · rintro v obj' h
        simp only [Option.some.injEq, Prod.mk.injEq] at h
        rw [← h.2]
        exact hobj'
    | some v =>
      simp only [c1]
      obtain ⟨⟨x, f1, f2⟩, f3⟩ := hcon.1 v hv
      have hmin : IsMinimum t s gs lm int err v := by
        refine ⟨⟨x, (hfeas x).mp f1, ?_⟩, fun y hy => ?_⟩
        · rw [program_countCost] at f2
          exact f2
        · have := f3 y ((hfeas y).mpr hy)
          rw [program_countCost] at this
          exact this
      have hv0 : -1 / 100 < v := by
        obtain ⟨x, g1, g2⟩ := hmin.1
        have := countCost_nonneg (t := t) (x := x) (fun i hi => (g1.1 i hi).1)
        linarith
      have hc0 : 0 ≤ ⌈v - 1 / 100⌉ := by
        have : -1 < ⌈v - 1 / 100⌉ := by
          rw [Int.lt_ceil]
          push_cast
          linarith
        omega
      split
      · rename_i hfits
        refine ⟨⟨q1, lm, q2, v, hmin, rfl, hfits.1⟩, ?_⟩
        rintro v obj' h
        simp only [Option.some.injEq, Prod.mk.injEq] at h
        rw [← h.2]
        exact hobj'
      · rename_i hn
        refine ⟨⟨q1, lm, q2, v, hmin, by omega⟩, by simp⟩

theorem computeAll_spec (H : StdHeap Nat) {t : Task} {kind : SolverType} {gs : List Gen} (hg : ∀ g ∈ gs, Supports t g) (hkind : kind = .cplex ∨ gs.count .lmcut ≤ 1) {err : Rat} (herr : err < 1 / 100) {solve : Program → Bool → Option Rat}
    (hsolve : MinSolver err solve) {int : Bool} : ∀ (ss : List State) (obj obj' : Object), (∀ s ∈ ss, t.ValidState s) → ObjOk t kind gs obj → computeAll H t solve int ss obj = some obj' → ObjOk t kind gs obj'
  | [], obj, obj', _, h, hc => by
    unfold computeAll at hc
    simp only [Option.some.injEq] at hc
    exact hc ▸ h
  | s :: ss, obj, obj', hss, h, hc => by
    unfold computeAll at hc
    cases hq : compute H t solve int s obj with
    | none => rw [hq] at hc; simp at hc
    | some r =>
      rw [hq] at hc
      exact computeAll_spec H hg hkind herr hsolve ss r.2 obj' (fun s h => hss s (by simp [h])) ((compute_spec H hg hkind herr hsolve (hss s (by simp)) h).2 r.1 r.2 hq) hc

/-! ### Solvers exist -/

theorem value_nonneg {p : Program} (hp : p.Counting) {x : Nat → Rat} (hx : p.Feasible x) : 0 ≤ p.value x := by
  unfold Program.value
  rw [zipIdx_sum0 (fun (c : Column) i => c.objective * x i)]
  refine Finset.sum_nonneg (fun i _ => ?_)
  cases hc : p.columns[i]? with
  | none => simp
  | some c =>
    obtain ⟨h1, _, n, h3⟩ := hp.2 c (List.mem_of_getElem? hc)
    simp only [Option.map_some, Option.getD_some, h3]
    exact mul_nonneg (by exact_mod_cast Nat.zero_le _) ((hx.columns i c hc).1 0 h1)

theorem sum_natural {n : Nat} {f : Nat → Rat} (h : ∀ i < n, ∃ m : Nat, f i = m) : ∃ m : Nat, ∑ i ∈ Finset.range n, f i = m := by
  induction n with
  | zero => exact ⟨0, by simp⟩
  | succ n ih =>
    obtain ⟨a, ha⟩ := ih (fun i hi => h i (by omega))
    obtain ⟨b, hb⟩ := h n (by omega)
    exact ⟨a + b, by rw [Finset.sum_range_succ, ha, hb]; push_cast; ring⟩

theorem value_natural {p : Program} (hp : p.Counting) {x : Nat → Rat} (hx : p.FeasibleInt true x) : ∃ n : Nat, p.value x = n := by
  unfold Program.value
  rw [zipIdx_sum0 (fun (c : Column) i => c.objective * x i)]
  refine sum_natural (fun i hi => ?_)
  have hc := List.getElem?_eq_getElem hi
  obtain ⟨h1, _, n, h3⟩ := hp.2 _ (List.getElem_mem hi)
  obtain ⟨z, hz⟩ := hx.2 rfl i hi
  have h0 : (0 : Rat) ≤ x i := (hx.1.columns i _ hc).1 0 h1
  rw [hz] at h0
  have hz0 : 0 ≤ z := by exact_mod_cast h0
  refine ⟨n * z.toNat, ?_⟩
  rw [hc]
  simp only [Option.map_some, Option.getD_some, h3, hz]
  push_cast
  congr 1
  have : ((z.toNat : Int) : Rat) = (z : Rat) := by rw [Int.toNat_of_nonneg hz0]
  rw [← this]
  push_cast
  rfl

/-- programs with feasible solutions have optimal ones -/
theorem exists_minimum {p : Program} {int : Bool} (hc : p.Counting) (hp : p.WellFormed) (h : ∃ x, p.FeasibleInt int x) : ∃ x, p.FeasibleInt int x ∧ ∀ y, p.FeasibleInt int y → p.value x ≤ p.value y := by
  classical
  cases int with
  | false =>
    obtain ⟨x, hx, _⟩ := h
    have hcol : ∀ (i : Nat) (c : Column), (p.columns.map (fun c => (⟨c.lower, c.upper, -c.objective⟩ : Column)))[i]? = some c ↔ ∃ d, p.columns[i]? = some d ∧ c = ⟨d.lower, d.upper, -d.objective⟩ := by
      intro i c
      rw [List.getElem?_map, Option.map_eq_some_iff]
      constructor
      · rintro ⟨d, h1, h2⟩; exact ⟨d, h1, h2.symm⟩
      · rintro ⟨d, h1, h2⟩; exact ⟨d, h1, h2.symm⟩
    have hf : ∀ y, (⟨true, p.columns.map (fun c => (⟨c.lower, c.upper, -c.objective⟩ : Column)), p.rows⟩ : Program).Feasible y ↔ p.Feasible y := by
      intro y
      constructor
      · rintro ⟨h1, h2⟩
        exact ⟨fun i c hc => h1 i ⟨c.lower, c.upper, -c.objective⟩ ((hcol i _).mpr ⟨c, hc, rfl⟩), h2⟩
      · rintro ⟨h1, h2⟩
        refine ⟨fun i c hc => ?_, h2⟩
        obtain ⟨d, k1, rfl⟩ := (hcol i c).mp hc
        exact h1 i d k1
    have hv : ∀ y, (⟨true, p.columns.map (fun c => (⟨c.lower, c.upper, -c.objective⟩ : Column)), p.rows⟩ : Program).value y = -p.value y := by
      intro y
      unfold Program.value
      simp only [List.zipIdx_map, List.map_map]
      generalize p.columns.zipIdx = l
      induction l with
      | nil => simp
      | cons c l ih =>
        simp only [List.map_cons, List.sum_cons, ih, Function.comp, Prod.map, id]
        ring
    obtain ⟨z, k1, k2⟩ := exists_maximum (p := ⟨true, p.columns.map (fun c => (⟨c.lower, c.upper, -c.objective⟩ : Column)), p.rows⟩) (by
      intro r hr
      simp only [List.length_map]
      exact hp r hr) ⟨⟨x, (hf x).mpr hx⟩, 0, fun y hy => by
        rw [hv]
        have := value_nonneg hc ((hf y).mp hy)
        linarith⟩
    refine ⟨z, ⟨(hf z).mp k1, by simp⟩, fun y hy => ?_⟩
    have := k2 y ((hf y).mpr hy.1)
    rw [hv, hv] at this
    linarith
  | true =>
    have hex : ∃ n : Nat, ∃ x, p.FeasibleInt true x ∧ p.value x = n := by
      obtain ⟨x, hx⟩ := h
      obtain ⟨n, hn⟩ := value_natural hc hx
      exact ⟨n, x, hx, hn⟩
    obtain ⟨x, h1, h2⟩ := Nat.find_spec hex
    refine ⟨x, h1, fun y hy => ?_⟩
    obtain ⟨m, hm⟩ := value_natural hc hy
    rw [h2, hm]
    exact_mod_cast Nat.find_min' hex ⟨y, hy, hm⟩

/-- there are exact solvers -/
theorem exists_minSolver : ∃ solve, MinSolver 0 solve := by
  classical
  refine ⟨fun p int => if h : ∃ x, p.FeasibleInt int x ∧ ∀ y, p.FeasibleInt int y → p.value x ≤ p.value y then some (p.value h.choose) else none, ?_⟩
  intro p int hc hp
  refine ⟨fun v hv => ?_, fun hn hs => ?_⟩
  · simp only at hv
    split at hv
    · rename_i h
      simp only [Option.some.injEq] at hv
      obtain ⟨h1, h2⟩ := h.choose_spec
      subst hv
      exact ⟨⟨_, h1, by linarith⟩, fun y hy => by have := h2 y hy; linarith⟩
    · simp at hv
  · simp only at hn
    rw [dif_pos (exists_minimum hc hp hs)] at hn
    simp at hn

end Verif.Counting
