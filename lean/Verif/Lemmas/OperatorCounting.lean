import Verif.Lemmas.StateEquation
import Verif.Lemmas.ZeroOne
import Verif.Props.LmCut

/-
Operator counting: the rows of the generators, and how they are updated.
-/
namespace Verif.Counting
open Verif.LP Verif.AdaptiveQueue Verif.Pdb

/-- the row is satisfied -/
abbrev Sat (x : Nat → Rat) (r : Row) : Prop := Between r.lower r.upper (r.value x)

theorem sat_lower {r : Row} {b : Rat} (hu : r.upper = none) (x : Nat → Rat) : Sat x { r with lower := some b } ↔ b ≤ r.value x := by
  unfold Sat Between
  simp only [Option.some.injEq, hu]
  constructor
  · rintro ⟨h, _⟩
    exact h b rfl
  · intro h
    refine ⟨?_, by simp⟩
    rintro l rfl
    exact h

theorem setLower_at {S : Solver} {A : List Row} {r : Row} {B : List Row} (h : S.rows = A ++ r :: B) (b : Rat) : S.setLower A.length b = some { S with rows := A ++ { r with lower := some b } :: B } := by
  unfold Solver.setLower
  rw [h]
  simp

/-! ### State equation -/

/-- rows for the propositions, starting with number `off` -/
inductive SeqOk (T : Table) : Nat → List ((Nat × Nat) × Option Nat) → List Row → Prop
  | nil (off : Nat) : SeqOk T off [] []
  | skip (off : Nat) (f : Nat × Nat) (l : List ((Nat × Nat) × Option Nat)) (R : List Row) : (entries (T f.1 f.2)).isEmpty = true → SeqOk T off l R → SeqOk T off ((f, none) :: l) R
  | row (off : Nat) (f : Nat × Nat) (l : List ((Nat × Nat) × Option Nat)) (r : Row) (R : List Row) : (entries (T f.1 f.2)).isEmpty = false → r.upper = none → r.entries = entries (T f.1 f.2) →
      SeqOk T (off + 1) l R → SeqOk T off ((f, some off) :: l) (r :: R)

theorem addConstraints_spec (T : Table) : ∀ (fs : List (Nat × Nat)) (rows : List Row), ∃ R, (addConstraints T fs rows).2 = rows ++ R ∧ SeqOk T rows.length (addConstraints T fs rows).1 R ∧ (addConstraints T fs rows).1.map (·.1) = fs
  | [], rows => ⟨[], by simp [addConstraints], .nil _, rfl⟩
  | f :: fs, rows => by
    unfold addConstraints
    cases he : (entries (T f.1 f.2)).isEmpty with
    | true =>
      obtain ⟨R, h1, h2, h3⟩ := addConstraints_spec T fs rows
      exact ⟨R, by simpa using h1, by simpa using SeqOk.skip _ f _ _ he h2, by simpa using h3⟩
    | false =>
      obtain ⟨R, h1, h2, h3⟩ := addConstraints_spec T fs (rows ++ [⟨none, none, entries (T f.1 f.2)⟩])
      refine ⟨⟨none, none, entries (T f.1 f.2)⟩ :: R, by simpa using h1, ?_, by simpa using h3⟩
      simp only [Bool.false_eq_true, if_false]
      exact SeqOk.row _ f _ _ _ he rfl rfl (by simpa using h2)

theorem seqOk_entries {T : Table} {off : Nat} {l : List ((Nat × Nat) × Option Nat)} {R : List Row} (h : SeqOk T off l R) : ∀ r ∈ R, ∃ f : Nat × Nat, r.entries = entries (T f.1 f.2) := by
  induction h with
  | nil => simp
  | skip _ _ _ _ _ _ ih => exact ih
  | row off f l r R h1 h2 h3 h4 ih =>
    intro r' hr'
    rcases List.mem_cons.mp hr' with rfl | hr'
    · exact ⟨f, h3⟩
    · exact ih r' hr'

theorem updateStateEquation_spec {t : Task} {s : State} {T : Table} {off : Nat} {l : List ((Nat × Nat) × Option Nat)} {R : List Row} (h : SeqOk T off l R) : ∀ (A B : List Row) (S : Solver), (∀ f ∈ l.map (·.1), f.1 < s.length) → S.rows = A ++ R ++ B → A.length = off →
    ∃ R', updateStateEquation t s l S = some { S with rows := A ++ R' ++ B } ∧ SeqOk T off l R' ∧
      ∀ x : Nat → Rat, (∀ r ∈ R', Sat x r) ↔ ∀ f ∈ l.map (·.1), (entries (T f.1 f.2)).isEmpty = false → lowerBound t s f ≤ ((entries (T f.1 f.2)).map (fun e => e.2 * x e.1)).sum := by
  induction h with
  | nil off =>
    intro A B S _ hS _
    refine ⟨[], ?_, .nil _, by simp⟩
    unfold updateStateEquation
    cases S
    simp only at hS
    rw [hS]
  | skip off f l R h1 h2 ih =>
    intro A B S hf hS hA
    obtain ⟨R', k1, k2, k3⟩ := ih A B S (fun f hf' => hf f (by simp only [List.map_cons, List.mem_cons]; exact .inr hf')) hS hA
    refine ⟨R', by unfold updateStateEquation; exact k1, .skip _ _ _ _ h1 k2, fun x => (k3 x).trans ?_⟩
    simp only [List.map_cons, List.mem_cons, forall_eq_or_imp, h1, Bool.true_eq_false, false_implies, true_and]
  | row off f l r R h1 h2 h3 h4 ih =>
    intro A B S hf hS hA
    have hset := setLower_at (S := S) (A := A) (r := r) (B := R ++ B) (by simpa using hS) (lowerBound t s f)
    obtain ⟨R', k1, k2, k3⟩ := ih (A ++ [{ r with lower := some (lowerBound t s f) }]) B { S with rows := A ++ { r with lower := some (lowerBound t s f) } :: (R ++ B) }
      (fun f hf' => hf f (by simp only [List.map_cons, List.mem_cons]; exact .inr hf')) (by simp) (by simp [hA])
    refine ⟨{ r with lower := some (lowerBound t s f) } :: R', ?_, .row _ _ _ _ _ h1 h2 h3 k2, fun x => ?_⟩
    · unfold updateStateEquation
      rw [if_pos (hf f (by simp)), ← hA, hset]
      simpa using k1
    · simp only [List.map_cons, List.mem_cons, forall_eq_or_imp, h1, true_implies, k3 x, sat_lower h2]
      unfold Row.value
      rw [h3]

theorem mem_allFacts {t : Task} {f : Nat × Nat} : f ∈ allFacts t ↔ t.ValidFact ⟨f.1, f.2⟩ := by
  unfold allFacts Task.ValidFact
  simp only [List.mem_flatMap, List.mem_map, List.mem_range]
  constructor
  · rintro ⟨⟨d, v⟩, hm, a, ha, rfl⟩
    obtain ⟨_, h2, h3⟩ := List.mem_zipIdx hm
    simp only [Nat.zero_add, Nat.sub_zero] at h2 h3
    exact ⟨d, by simp only; rw [List.getElem?_eq_getElem h2, h3], ha⟩
  · rintro ⟨d, h1, h2⟩
    refine ⟨(d, f.1), ?_, f.2, h2, rfl⟩
    rw [List.mem_iff_getElem?]
    exact ⟨f.1, by rw [List.getElem?_zipIdx, h1]; simp⟩

theorem goalOf_iff {t : Task} (h : (t.goal.map (·.var)).Nodup) {v a : Nat} : goalOf t v = some a ↔ (⟨v, a⟩ : Fact) ∈ t.goal :=
  preOf_iff (o := ⟨t.goal, [], 0⟩) h

theorem lowerBound_eq {t : Task} (h : t.CountingOk) {s : State} {f : Nat × Nat} : lowerBound t s f = (if (⟨f.1, f.2⟩ : Fact) ∈ t.goal then (1 : Rat) else 0) - (if (⟨f.1, f.2⟩ : Fact).holds s then 1 else 0) := by
  unfold lowerBound
  have h1 : goalOf t f.1 = some f.2 ↔ (⟨f.1, f.2⟩ : Fact) ∈ t.goal := goalOf_iff h.once.goal
  have h2 : s[f.1]? = some f.2 ↔ (⟨f.1, f.2⟩ : Fact).holds s := Iff.rfl
  simp only [h1, h2]
  ring

theorem stateEquation_rows {t : Task} (ht : t.CountingOk) {T : Table} (hT : buildPropositions t = some T) {s : State} (x : Nat → Rat) :
    (∀ f ∈ allFacts t, (entries (T f.1 f.2)).isEmpty = false → lowerBound t s f ≤ ((entries (T f.1 f.2)).map (fun e => e.2 * x e.1)).sum) ↔ t.StateEquation s x := by
  obtain ⟨T', k1, k2⟩ := buildPropositions_spec ht
  rw [hT] at k1
  simp only [Option.some.injEq] at k1
  subst k1
  have hsum : ∀ f : Nat × Nat, ((entries (T f.1 f.2)).map (fun e => e.2 * x e.1)).sum = t.netChange ⟨f.1, f.2⟩ x := by
    intro f
    obtain ⟨n1, n2, n3, _⟩ := k2 f.1 f.2
    rw [netChange_eq]
    exact entries_sum x n1 n2 (fun i _ hi => n3 i hi)
  unfold Task.StateEquation
  constructor
  · intro h f hf hex
    have := h (f.var, f.val) (mem_allFacts.mpr hf) (by
      obtain ⟨_, _, _, n4⟩ := k2 f.var f.val
      cases he : (entries (T f.var f.val)).isEmpty with
      | false => rfl
      | true => exact absurd hex (n4.mp he))
    rw [hsum, lowerBound_eq ht] at this
    exact this
  · intro h f hf he
    have := h ⟨f.1, f.2⟩ (mem_allFacts.mp hf) (by
      obtain ⟨_, _, _, n4⟩ := k2 f.1 f.2
      by_contra hc
      rw [n4.mpr hc] at he
      simp at he)
    rw [hsum, lowerBound_eq ht]
    exact this

/-! ### Post-hoc optimisation -/

/-- the entries of the row for a pattern -/
def relevantEntries (t : Task) (P : List Nat) : List (Nat × Rat) :=
  (t.ops.zipIdx.map (fun o => if o.1.effects.any (fun e => decide (e.fact.var ∈ P)) then [(o.2, (o.1.cost : Rat))] else [])).flatten

theorem mapM_some {α β : Type} {f : α → Option β} {g : α → β} : ∀ {l : List α}, (∀ a ∈ l, f a = some (g a)) → l.mapM f = some (l.map g)
  | [], _ => rfl
  | a :: l, h => by
    rw [List.mapM_cons, h a (by simp), mapM_some (l := l) (fun b hb => h b (by simp [hb]))]
    rfl

theorem phoRow_spec {t : Task} {db : Db} {P : List Nat} (hdb : db.proj.pattern = P) (hP : P.Pairwise (· < ·)) : phoRow t db = some ⟨some 0, none, relevantEntries t P⟩ := by
  unfold phoRow
  rw [hdb, mapM_some (g := fun o => if o.1.effects.any (fun e => decide (e.fact.var ∈ P)) then [(o.2, (o.1.cost : Rat))] else [])]
  · rfl
  · intro o _
    rw [isOperatorRelevant_spec hP]
    rfl

theorem relevantEntries_keys (t : Task) (P : List Nat) : ((relevantEntries t P).map (·.1)).Nodup ∧ ∀ e ∈ relevantEntries t P, e.1 < t.ops.length := by
  have h1 : ∀ (l : List (Operator × Nat)), List.Sublist (((l.map (fun o => if o.1.effects.any (fun e => decide (e.fact.var ∈ P)) then [(o.2, (o.1.cost : Rat))] else [])).flatten).map (·.1)) (l.map (·.2)) := by
    intro l
    induction l with
    | nil => simp
    | cons o l ih =>
      simp only [List.map_cons, List.flatten_cons, List.map_append]
      split
      · exact List.Sublist.cons_cons o.2 ih
      · exact List.Sublist.cons o.2 ih
  have h2 := h1 t.ops.zipIdx
  have h3 : t.ops.zipIdx.map (·.2) = List.range t.ops.length := by
    rw [List.zipIdx_map_snd, List.range_eq_range']
  rw [h3] at h2
  refine ⟨h2.nodup List.nodup_range, fun e he => ?_⟩
  have : e.1 ∈ List.range t.ops.length := h2.subset (List.mem_map_of_mem (f := (·.1)) he)
  exact List.mem_range.mp this

theorem relevantEntries_sum (t : Task) (P : List Nat) (x : Nat → Rat) : ((relevantEntries t P).map (fun e => e.2 * x e.1)).sum = (t.ops.zipIdx.map (fun o => if ∃ e ∈ o.1.effects, e.fact.var ∈ P then (o.1.cost : Rat) * x o.2 else 0)).sum := by
  unfold relevantEntries
  generalize t.ops.zipIdx = l
  induction l with
  | nil => simp
  | cons o l ih =>
    simp only [List.map_cons, List.flatten_cons, List.map_append, List.sum_append, List.sum_cons, ih]
    congr 1
    by_cases h : ∃ e ∈ o.1.effects, e.fact.var ∈ P
    · rw [if_pos h, if_pos (by simpa using h)]
      simp
    · rw [if_neg h, if_neg (by simpa using h)]
      simp

/-- the databases and rows for a collection of patterns -/
inductive PhoOk (t : Task) : List (List Nat) → List Db → List Row → Prop
  | nil : PhoOk t [] [] []
  | cons (P : List Nat) (db : Db) (r : Row) (Ps : List (List Nat)) (dbs : List Db) (R : List Row) (B : Nat) : PdbSpec t P t.opCost B db → r.upper = none → r.entries = relevantEntries t P →
      PhoOk t Ps dbs R → PhoOk t (P :: Ps) (db :: dbs) (r :: R)

theorem phoOk_entries {t : Task} {Ps : List (List Nat)} {dbs : List Db} {R : List Row} (h : PhoOk t Ps dbs R) : ∀ r ∈ R, ∃ P, r.entries = relevantEntries t P := by
  induction h with
  | nil => simp
  | cons P db r Ps dbs R B h1 h2 h3 h4 ih =>
    intro r' hr'
    rcases List.mem_cons.mp hr' with rfl | hr'
    · exact ⟨P, h3⟩
    · exact ih r' hr'

theorem perfect_unique {t : Task} {c : Nat → Nat} {s : State} {v w : Option Nat} (hv : t.PerfectValue c s v) (hw : t.PerfectValue c s w) : v = w := by
  cases v with
  | none =>
    cases w with
    | none => rfl
    | some n =>
      obtain ⟨⟨π, h, _⟩, _⟩ := hw
      exact absurd h (hv π)
  | some m =>
    obtain ⟨⟨π, h1, h2⟩, h3⟩ := hv
    cases w with
    | none => exact absurd h1 (hw π)
    | some n =>
      obtain ⟨⟨ρ, k1, k2⟩, k3⟩ := hw
      have a := h3 ρ k1
      have b := k3 π h1
      congr 1
      omega

theorem updatePho_spec {t : Task} {s : State} (hs : t.ValidState s) {Ps : List (List Nat)} {dbs : List Db} {R : List Row} (h : PhoOk t Ps dbs R) : ∀ (A B : List Row) (S : Solver), S.rows = A ++ R ++ B →
    ∃ dead R', updatePho s dbs A.length S = some (dead, { S with rows := A ++ R' ++ B }) ∧ PhoOk t Ps dbs R' ∧
      (dead = true → ∃ P ∈ Ps, (t.project P).PerfectValue t.opCost s none) ∧
      (dead = false → (∀ P ∈ Ps, ∃ n, (t.project P).PerfectValue t.opCost s (some n)) ∧ ∀ x : Nat → Rat, (∀ r ∈ R', Sat x r) ↔ ∀ P ∈ Ps, ∀ n, (t.project P).PerfectValue t.opCost s (some n) → t.RelevantCost P n x) := by
  induction h with
  | nil =>
    intro A B S hS
    refine ⟨false, [], ?_, .nil, by simp, by simp⟩
    unfold updatePho
    cases S
    simp only at hS
    rw [hS]
  | cons P db r Ps dbs R b h1 h2 h3 h4 ih =>
    intro A B S hS
    obtain ⟨v, v1, v2, _⟩ := h1.value s hs
    obtain ⟨w1, w2⟩ := heuristic_value v1
    unfold updatePho
    rw [w1]
    cases v with
    | none =>
      simp only [Option.getD_none, if_true]
      refine ⟨true, r :: R, ?_, .cons P db r Ps dbs R b h1 h2 h3 h4, fun _ => ⟨P, by simp, v2⟩, by simp⟩
      cases S
      simp only at hS
      rw [hS]
    | some n =>
      simp only [Option.getD_some]
      rw [if_neg (w2 n rfl), setLower_at (S := S) (A := A) (r := r) (B := R ++ B) (by simpa using hS)]
      obtain ⟨dead, R', k1, k2, k3, k4⟩ := ih (A ++ [{ r with lower := some (n : Rat) }]) B { S with rows := A ++ { r with lower := some (n : Rat) } :: (R ++ B) } (by simp)
      refine ⟨dead, { r with lower := some (n : Rat) } :: R', ?_, .cons P db _ Ps dbs R' b h1 h2 h3 k2, fun hd => ?_, fun hd => ?_⟩
      · simpa using k1
      · obtain ⟨Q, q1, q2⟩ := k3 hd
        exact ⟨Q, by simp [q1], q2⟩
      · obtain ⟨q1, q2⟩ := k4 hd
        refine ⟨fun Q hQ => ?_, fun x => ?_⟩
        · rcases List.mem_cons.mp hQ with rfl | hQ
          · exact ⟨n, v2⟩
          · exact q1 Q hQ
        · simp only [List.mem_cons, forall_eq_or_imp, q2 x, sat_lower h2]
          refine and_congr ?_ Iff.rfl
          unfold Row.value
          rw [h3, relevantEntries_sum]
          constructor
          · intro hh m hm
            have := perfect_unique v2 hm
            simp only [Option.some.injEq] at this
            subst this
            exact hh
          · intro hh
            exact hh n v2

/-! ### LM-cut -/

theorem mapM_ids : ∀ {l : List (Option Nat)}, (∀ x ∈ l, ∃ i, x = some i) → ∃ es : List (Nat × Rat), l.mapM (fun (i : Option Nat) => i.map (fun i => (i, (1 : Rat)))) = some es ∧ es.map (·.1) = l.filterMap id ∧ (∀ e ∈ es, some e.1 ∈ l) ∧
    (l.Nodup → (es.map (·.1)).Nodup) ∧ ∀ x : Nat → Rat, (es.map (fun e => e.2 * x e.1)).sum = (l.map (fun i => (i.map x).getD 0)).sum
  | [], _ => ⟨[], rfl, rfl, by simp, by simp, by simp⟩
  | a :: l, h => by
    obtain ⟨i, rfl⟩ := h a (by simp)
    obtain ⟨es, h1, h2, h3, h4, h5⟩ := mapM_ids (l := l) (fun x hx => h x (by simp [hx]))
    refine ⟨(i, 1) :: es, ?_, by simp [h2], ?_, ?_, fun x => by simp [h5 x]⟩
    · rw [List.mapM_cons, h1]
      rfl
    · intro e he
      rcases List.mem_cons.mp he with rfl | he
      · simp
      · exact List.mem_cons_of_mem _ (h3 e he)
    · intro hn
      obtain ⟨n1, n2⟩ := List.nodup_cons.mp hn
      simp only [List.map_cons, List.nodup_cons]
      refine ⟨fun hc => ?_, h4 n2⟩
      obtain ⟨e, he, rfl⟩ := List.mem_map.mp hc
      exact n1 (h3 e he)

theorem landmarkRows_spec {t : Task} {s : State} : ∀ {ls : List CostedSet}, (∀ l ∈ ls, l.1.Nodup ∧ ∀ x ∈ l.1, ∃ i o, x = some i ∧ t.ops[i]? = some o ∧ 0 < o.cost) → ∃ rs, ls.mapM landmarkRow = some rs ∧
    (∀ r ∈ rs, (r.entries.map (·.1)).Nodup ∧ ∀ e ∈ r.entries, e.1 < t.ops.length) ∧ ∀ x : Nat → Rat, (∀ r ∈ rs, Sat x r) ↔ ∀ l ∈ ls, LandmarkUsed x l.1
  | [], _ => ⟨[], rfl, by simp, by simp⟩
  | l :: ls, h => by
    obtain ⟨rs, h1, h2, h3⟩ := landmarkRows_spec (t := t) (s := s) (ls := ls) (fun l hl => h l (by simp [hl]))
    obtain ⟨es, k1, _, k3, k4, k5⟩ := mapM_ids (l := l.1) (fun x hx => by
      obtain ⟨i, _, e, _⟩ := (h l (by simp)).2 x hx
      exact ⟨i, e⟩)
    refine ⟨⟨some 1, none, es⟩ :: rs, ?_, ?_, ?_⟩
    · rw [List.mapM_cons, h1]
      unfold landmarkRow
      rw [k1]
      rfl
    · intro r hr
      rcases List.mem_cons.mp hr with rfl | hr
      · refine ⟨k4 (h l (by simp)).1, fun e he => ?_⟩
        obtain ⟨i, o, e1, e2, _⟩ := (h l (by simp)).2 _ (k3 e he)
        simp only [Option.some.injEq] at e1
        rw [e1]
        exact (List.getElem?_eq_some_iff.mp e2).1
      · exact h2 r hr
    · intro x
      have := sat_lower (r := ⟨none, none, es⟩) (b := 1) rfl x
      simp only [List.mem_cons, forall_eq_or_imp, h3 x]
      refine and_congr (this.trans ?_) Iff.rfl
      unfold LandmarkUsed Row.value
      rw [k5]

/-! ### Generators -/

/-- the data and the rows of a generator; the rows start with number `off` -/
def DataOk (t : Task) (off : Nat) : Gen → Data → List Row → Prop
  | .stateEquation, .stateEquation props, R => ∃ T, buildPropositions t = some T ∧ props.map (·.1) = allFacts t ∧ SeqOk T off props R
  | .lmcut, .lmcut st, R => (∃ bag, AdaptiveQueue.Rep st.queue bag) ∧ R = []
  | .pho Ps, .pho dbs off', R => off' = off ∧ PhoOk t Ps dbs R
  | _, _, _ => False

/-- the entries of the rows -/
abbrev RowsOk (t : Task) (R : List Row) : Prop := ∀ r ∈ R, (r.entries.map (·.1)).Nodup ∧ ∀ e ∈ r.entries, e.1 < t.ops.length

theorem dataOk_rows {t : Task} {off : Nat} {g : Gen} (hg : Supports t g) {d : Data} {R : List Row} (h : DataOk t off g d R) : RowsOk t R := by
  intro r hr
  cases g with
  | stateEquation =>
    cases d with
    | stateEquation props =>
      obtain ⟨T, h1, _, h2⟩ := h
      obtain ⟨f, hf⟩ := seqOk_entries h2 r hr
      obtain ⟨T', k1, k2⟩ := buildPropositions_spec hg
      rw [h1] at k1
      simp only [Option.some.injEq] at k1
      subst k1
      obtain ⟨n1, n2, _⟩ := k2 f.1 f.2
      rw [hf]
      exact ⟨n1, fun e he => (n2 e he).2⟩
    | _ => exact h.elim
  | lmcut =>
    cases d with
    | lmcut st =>
      obtain ⟨_, rfl⟩ := h
      simp at hr
    | _ => exact h.elim
  | pho Ps =>
    cases d with
    | pho dbs off' =>
      obtain ⟨P, hP⟩ := phoOk_entries h.2 r hr
      rw [hP]
      exact relevantEntries_keys t P
    | _ => exact h.elim

theorem updateGen_spec (H : StdHeap Nat) {t : Task} {g : Gen} (hg : Supports t g) {s : State} (hs : t.ValidState s) {A R B : List Row} {d : Data} (h : DataOk t A.length g d R) {S : Solver} (hS : S.rows = A ++ R ++ B) :
    ∃ dead d' R' tmp nt, updateGen H t s d S = some (dead, d', { S with rows := A ++ R' ++ B ++ tmp, numTemporary := nt }) ∧ DataOk t A.length g d' R' ∧ (g ≠ .lmcut → tmp = [] ∧ nt = S.numTemporary) ∧ RowsOk t tmp ∧
      (dead = true → Dead t s g ∧ tmp = [] ∧ nt = S.numTemporary) ∧
      (dead = false → ¬Dead t s g ∧ (g = .lmcut → nt = tmp.length) ∧ ∃ ls, (g = .lmcut → LmOk t s ls) ∧ ∀ x, (∀ r ∈ R' ++ tmp, Sat x r) ↔ Allows t s ls x g) := by
  cases g with
  | stateEquation =>
    cases d with
    | stateEquation props =>
      obtain ⟨T, h1, h2, h3⟩ := h
      obtain ⟨R', k1, k2, k3⟩ := updateStateEquation_spec (t := t) (s := s) h3 A B S (by
        rw [h2]
        intro f hf
        obtain ⟨d, hd, _⟩ := mem_allFacts.mp hf
        rw [hs.1]
        exact (List.getElem?_eq_some_iff.mp hd).1) hS rfl
      refine ⟨false, .stateEquation props, R', [], S.numTemporary, ?_, ⟨T, h1, h2, k2⟩, by simp, by simp [RowsOk], by simp, fun _ => ⟨id, by simp, [], by simp, fun x => ?_⟩⟩
      · simp only [updateGen, k1]
        simp
      · rw [List.append_nil, k3 x, h2]
        exact stateEquation_rows hg h1 x
    | _ => exact h.elim
  | lmcut =>
    cases d with
    | lmcut st =>
      obtain ⟨h1, rfl⟩ := h
      obtain ⟨r, st', k1, k2, k3, k4⟩ := LmCut.landmarks_result H hg hs h1
      simp only [updateGen, k1]
      cases r with
      | none =>
        refine ⟨true, .lmcut st', [], [], S.numTemporary, ?_, ⟨⟨[], k2⟩, rfl⟩, by simp, by simp [RowsOk], fun _ => ⟨k3, rfl, rfl⟩, by simp⟩
        cases S
        simp only [List.append_nil] at hS
        simp [hS]
      | some ls =>
        have k3' : t.LandmarksOk s ls := k3
        obtain ⟨rs, q1, q2, q3⟩ := landmarkRows_spec (t := t) (s := s) k3'.ops
        refine ⟨false, .lmcut st', [], rs, rs.length, ?_, ⟨⟨[], k2⟩, rfl⟩, by simp, q2, by simp, fun _ => ⟨?_, fun _ => rfl, ls, fun _ => ⟨k3', (k4 ls rfl).2⟩, fun x => ?_⟩⟩
        · simp only [q1, Option.map_some]
          unfold Solver.addTemporary
          rw [hS]
        · intro hd
          obtain ⟨_, k, _, h5, _⟩ := k4 ls rfl
          exact hd (fun g hg => Relax.reach_of_hmax (h5 g hg))
        · rw [List.nil_append]
          exact q3 x
    | _ => exact h.elim
  | pho Ps =>
    cases d with
    | pho dbs off =>
      obtain ⟨rfl, h⟩ := h
      obtain ⟨dead, R', k1, k2, k3, k4⟩ := updatePho_spec hs h A B S hS
      refine ⟨dead, .pho dbs A.length, R', [], S.numTemporary, ?_, ⟨rfl, k2⟩, by simp, by simp [RowsOk], fun hd => ⟨k3 hd, rfl, rfl⟩, fun hd => ?_⟩
      · simp only [updateGen, k1]
        simp
      · obtain ⟨q1, q2⟩ := k4 hd
        refine ⟨?_, by simp, [], by simp, fun x => ?_⟩
        · rintro ⟨P, hP, hn⟩
          obtain ⟨n, ⟨π, hπ, _⟩, _⟩ := q1 P hP
          exact hn π hπ
        · rw [List.append_nil]
          exact q2 x
    | _ => exact h.elim

/-- the data and rows of several generators -/
inductive GensOk (t : Task) : Nat → List Gen → List Data → List Row → Prop
  | nil (off : Nat) : GensOk t off [] [] []
  | cons (off : Nat) (g : Gen) (d : Data) (R : List Row) (gs : List Gen) (ds : List Data) (Rs : List Row) : DataOk t off g d R → GensOk t (off + R.length) gs ds Rs → GensOk t off (g :: gs) (d :: ds) (R ++ Rs)

theorem gensOk_rows {t : Task} {off : Nat} {gs : List Gen} {ds : List Data} {R : List Row} (h : GensOk t off gs ds R) (hg : ∀ g ∈ gs, Supports t g) : RowsOk t R := by
  induction h with
  | nil => simp [RowsOk]
  | cons off g d R gs ds Rs h1 h2 ih =>
    intro r hr
    rcases List.mem_append.mp hr with hr | hr
    · exact dataOk_rows (hg g (by simp)) h1 r hr
    · exact ih (fun g h => hg g (by simp [h])) r hr

theorem seqOk_length {T : Table} {off : Nat} {l : List ((Nat × Nat) × Option Nat)} {R R' : List Row} (h : SeqOk T off l R) (h' : SeqOk T off l R') : R.length = R'.length := by
  induction h generalizing R' with
  | nil => cases h'; rfl
  | skip off f l R h1 h2 ih => cases h' with | skip _ _ _ _ _ h => exact ih h
  | row off f l r R h1 h2 h3 h4 ih => cases h' with | row _ _ _ _ _ _ _ _ h => simp [ih h]

theorem phoOk_length {t : Task} {Ps : List (List Nat)} {dbs : List Db} {R : List Row} (h : PhoOk t Ps dbs R) : R.length = Ps.length := by
  induction h with
  | nil => rfl
  | cons => simp [*]

/-- updates keep the number of rows -/
theorem updateGen_length {H : StdHeap Nat} {t : Task} {g : Gen} {s : State} {off : Nat} {d d' : Data} {R R' : List Row} (h : DataOk t off g d R) (h' : DataOk t off g d' R') {S S' : Solver} {b : Bool} (hu : updateGen H t s d S = some (b, d', S')) : R.length = R'.length := by
  cases g with
  | stateEquation =>
    cases d with
    | stateEquation props =>
      unfold updateGen at hu
      obtain ⟨S'', _, hu⟩ := Option.map_eq_some_iff.mp hu
      simp only [Prod.mk.injEq] at hu
      rw [← hu.2.1] at h'
      obtain ⟨T, h1, _, h2⟩ := h
      obtain ⟨T', k1, _, k2⟩ := h'
      rw [h1] at k1
      simp only [Option.some.injEq] at k1
      subst k1
      exact seqOk_length h2 k2
    | _ => exact h.elim
  | lmcut =>
    cases d with
    | lmcut st =>
      cases d' with
      | lmcut st' => rw [h.2, h'.2]
      | _ => exact h'.elim
    | _ => exact h.elim
  | pho Ps =>
    cases d with
    | pho dbs o =>
      cases d' with
      | pho dbs' o' => rw [phoOk_length h.2, phoOk_length h'.2]
      | _ => exact h'.elim
    | _ => exact h.elim

theorem sat_split {x : Nat → Rat} {a b c d : List Row} : (∀ r ∈ a ++ b ++ (c ++ d), Sat x r) ↔ (∀ r ∈ a ++ c, Sat x r) ∧ (∀ r ∈ b ++ d, Sat x r) := by
  simp only [List.mem_append]
  constructor
  · intro h
    exact ⟨fun r hr => h r (hr.elim (fun h => .inl (.inl h)) (fun h => .inr (.inl h))), fun r hr => h r (hr.elim (fun h => .inl (.inr h)) (fun h => .inr (.inr h)))⟩
  · rintro ⟨h1, h2⟩ r ((hr | hr) | hr | hr)
    · exact h1 r (.inl hr)
    · exact h2 r (.inl hr)
    · exact h1 r (.inr hr)
    · exact h2 r (.inr hr)

theorem updateGens_spec (H : StdHeap Nat) {t : Task} {s : State} (hs : t.ValidState s) : ∀ (gs : List Gen) (ds : List Data) (A R B : List Row) (S : Solver), (∀ g ∈ gs, Supports t g) → GensOk t A.length gs ds R → S.rows = A ++ R ++ B →
    ∃ dead ds' R' tmp nt, updateGens H t s ds S = some (dead, ds', { S with rows := A ++ R' ++ B ++ tmp, numTemporary := nt }) ∧ GensOk t A.length gs ds' R' ∧ R'.length = R.length ∧ RowsOk t tmp ∧
      (Gen.lmcut ∉ gs → tmp = [] ∧ nt = S.numTemporary) ∧ (gs.count .lmcut ≤ 1 → S.numTemporary = 0 → nt = tmp.length) ∧
      (dead = true → ∃ g ∈ gs, Dead t s g) ∧
      (dead = false → (∀ g ∈ gs, ¬Dead t s g) ∧ ∃ lm, (∀ j, gs[j]? = some Gen.lmcut → LmOk t s (lm j)) ∧ ∀ x, (∀ r ∈ R' ++ tmp, Sat x r) ↔ AllowsAll t s gs lm x)
  | [], ds, A, R, B, S, _, h, hS => by
    cases h
    refine ⟨false, [], [], [], S.numTemporary, ?_, .nil _, rfl, by simp [RowsOk], by simp, fun _ h => by simpa using h, by simp, fun _ => ⟨by simp, fun _ => [], by simp, by simp [AllowsAll]⟩⟩
    unfold updateGens
    cases S
    simp only at hS
    simp [hS]
  | g :: gs, ds, A, R, B, S, hg, h, hS => by
    cases h with
    | cons off g d R1 gs ds Rs h1 h2 =>
      obtain ⟨dead, d', R1', tmp1, nt1, k1, k2, k3, k4, k5, k6⟩ := updateGen_spec H (hg g (by simp)) hs h1 (S := S) (B := Rs ++ B) (by simpa using hS)
      have hlen : R1.length = R1'.length := updateGen_length h1 k2 k1
      unfold updateGens
      rw [k1]
      cases dead with
      | true =>
        obtain ⟨q1, rfl, rfl⟩ := k5 rfl
        refine ⟨true, d' :: ds, R1' ++ Rs, [], S.numTemporary, by simp, .cons _ _ _ _ _ _ _ k2 (hlen ▸ h2), by simp [hlen], k4, by simp, fun _ h => by simpa using h, fun _ => ⟨g, by simp, q1⟩, by simp⟩
      | false =>
        obtain ⟨q1, q2, ls, q3, q4⟩ := k6 rfl
        obtain ⟨dead, ds', R', tmp, nt, m1, m2, m3, m4, m5, m6, m7, m8⟩ := updateGens_spec H hs gs ds (A ++ R1') Rs (B ++ tmp1) { S with rows := A ++ R1' ++ (Rs ++ B) ++ tmp1, numTemporary := nt1 }
          (fun g h => hg g (by simp [h])) (by rw [List.length_append, ← hlen]; exact h2) (by simp)
        refine ⟨dead, d' :: ds', R1' ++ R', tmp1 ++ tmp, nt, ?_, .cons _ _ _ _ _ _ _ k2 (by rw [List.length_append] at m2; exact m2), by simp [hlen, m3], ?_, ?_, ?_, ?_, ?_⟩
        · simp only
          rw [m1]
          simp
        · intro r hr
          rcases List.mem_append.mp hr with hr | hr
          · exact k4 r hr
          · exact m4 r hr
        · intro hn
          rw [List.mem_cons, not_or] at hn
          obtain ⟨e1, e2⟩ := k3 (fun h => hn.1 h.symm)
          obtain ⟨e3, e4⟩ := m5 hn.2
          exact ⟨by rw [e1, e3]; rfl, by rw [e4]; exact e2⟩
        · intro hc h0
          by_cases hgl : g = .lmcut
          · have hn : Gen.lmcut ∉ gs := by
              rw [List.count_cons, hgl] at hc
              simp only [beq_self_eq_true, if_true] at hc
              exact List.count_eq_zero.mp (by omega)
            obtain ⟨e3, e4⟩ := m5 hn
            rw [e4, e3]
            simpa using q2 hgl
          · obtain ⟨e1, e2⟩ := k3 hgl
            rw [List.count_cons] at hc
            rw [e1]
            exact m6 (by omega) (by simp only; rw [e2, h0])
        · intro hd
          obtain ⟨g', hg', hd'⟩ := m7 hd
          exact ⟨g', by simp [hg'], hd'⟩
        · intro hd
          obtain ⟨e1, lm, e2, e3⟩ := m8 hd
          refine ⟨fun g' hg' => ?_, fun j => match j with | 0 => ls | j + 1 => lm j, fun j hj => ?_, fun x => ?_⟩
          · rcases List.mem_cons.mp hg' with rfl | hg'
            · exact q1
            · exact e1 g' hg'
          · cases j with
            | zero =>
              simp only [List.getElem?_cons_zero, Option.some.injEq] at hj
              exact q3 hj
            | succ j => exact e2 j hj
          · rw [sat_split, q4 x, e3 x]
            unfold AllowsAll
            constructor
            · rintro ⟨h1, h2⟩ j g' hj
              cases j with
              | zero =>
                simp only [List.getElem?_cons_zero, Option.some.injEq] at hj
                exact hj ▸ h1
              | succ j => exact h2 j g' hj
            · intro h
              exact ⟨h 0 g rfl, fun j g' hj => h (j + 1) g' hj⟩

end Verif.Counting
