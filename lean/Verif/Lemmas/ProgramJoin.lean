import Verif.Lemmas.ProgramFold
import Mathlib.Data.List.Perm.Lattice

/-
Lemmas about splitting a rule into binary joins.
-/
namespace Verif.PrologProgram
open Verif.Datalog Verif.BuildModel
open scoped List
variable {P V O : Type} [DecidableEq P] [DecidableEq V] [DecidableEq O]

/-- two atoms have a common variable -/
def Share (c d : SymAtom P V O) : Prop := ∃ v, v ∈ c.vars ∧ v ∈ d.vars

theorem Share.symm {c d : SymAtom P V O} (h : Share c d) : Share d c := by
  obtain ⟨v, h1, h2⟩ := h
  exact ⟨v, h2, h1⟩

/-- conditions cannot be divided into two parts without common variables -/
def Connected (l : List (SymAtom P V O)) : Prop := ∀ S : SymAtom P V O → Prop, (∃ c ∈ l, S c) → (∃ d ∈ l, ¬ S d) → ∃ c ∈ l, ∃ d ∈ l, S c ∧ ¬ S d ∧ Share c d

theorem connected_congr {l l' : List (SymAtom P V O)} (h : Connected l) (hl : ∀ c, c ∈ l ↔ c ∈ l') : Connected l' := by
  rintro S ⟨c, hc, hS⟩ ⟨d, hd, hS'⟩
  obtain ⟨c', hc', d', hd', h1⟩ := h S ⟨c, (hl c).mpr hc, hS⟩ ⟨d, (hl d).mpr hd, hS'⟩
  exact ⟨c', (hl c').mp hc', d', (hl d').mp hd', h1⟩

/-- a rule after normalisation -/
structure Tidy (effect : SymAtom P V O) (conds : List (SymAtom P V O)) : Prop where
  head : effect.vars.Nodup
  body : ∀ c ∈ conds, c.vars.Nodup
  bound : ∀ v ∈ effect.vars, ∃ c ∈ conds, v ∈ c.vars

theorem mem_entries {joinees : List (SymAtom P V O)} {x : (Nat × Nat) × (Nat × Nat × Nat)} : x ∈ entries joinees ↔ ∃ l r, joinees[x.1.1]? = some l ∧ x.1.2 < x.1.1 ∧ joinees[x.1.2]? = some r ∧ x.2 = joinCost l r := by
  obtain ⟨⟨i, j⟩, cost⟩ := x
  unfold entries
  rw [List.mem_flatMap]
  constructor
  · rintro ⟨⟨l, i'⟩, hl, hx⟩
    rw [List.mem_zipIdx_iff_getElem?] at hl
    obtain ⟨⟨r, j'⟩, hr, he⟩ := List.mem_map.mp hx
    rw [List.mem_zipIdx_iff_getElem?] at hr
    simp only [Prod.mk.injEq] at he hl hr
    obtain ⟨⟨rfl, rfl⟩, rfl⟩ := he
    rw [List.getElem?_take] at hr
    split at hr
    · rename_i h
      exact ⟨l, r, hl, h, hr, rfl⟩
    · simp at hr
  · rintro ⟨l, r, hl, hlt, hr, rfl⟩
    simp only at hl hlt hr
    refine ⟨(l, i), List.mem_zipIdx_iff_getElem?.mpr hl, List.mem_map.mpr ⟨(r, j), ?_, rfl⟩⟩
    rw [List.mem_zipIdx_iff_getElem?, List.getElem?_take, if_pos hlt]
    exact hr

theorem cheaper_trans {x y z : Nat × Nat × Nat} (h1 : cheaper x y = false) (h2 : cheaper z y = true) : cheaper x z = false := by
  unfold cheaper at *
  simp only [Bool.or_eq_false_iff, Bool.and_eq_false_iff, decide_eq_false_iff_not, Bool.or_eq_true, Bool.and_eq_true, decide_eq_true_eq] at *
  omega

theorem cheaper_false_trans {x y z : Nat × Nat × Nat} (h1 : cheaper x y = false) (h2 : cheaper y z = false) : cheaper x z = false := by
  unfold cheaper at *
  simp only [Bool.or_eq_false_iff, Bool.and_eq_false_iff, decide_eq_false_iff_not] at *
  omega

theorem findMin_some : ∀ (l : List ((Nat × Nat) × (Nat × Nat × Nat))) (b : (Nat × Nat) × (Nat × Nat × Nat)), ∃ m, findMin l (some b) = some m ∧ (m = b ∨ m ∈ l) ∧ cheaper b.2 m.2 = false ∧ ∀ x ∈ l, cheaper x.2 m.2 = false
  | [], b => ⟨b, rfl, .inl rfl, by simp [cheaper], by simp⟩
  | x :: l, b => by
    rw [findMin]
    obtain ⟨m, h1, h2, h3, h4⟩ := findMin_some l (if cheaper x.2 b.2 then x else b)
    refine ⟨m, h1, ?_, ?_, ?_⟩
    · rcases h2 with rfl | h2
      · split
        · exact .inr (by simp)
        · exact .inl rfl
      · exact .inr (by simp [h2])
    · by_cases hx : cheaper x.2 b.2 = true
      · rw [if_pos hx] at h3
        refine cheaper_false_trans ?_ h3
        unfold cheaper at *
        simp only [Bool.or_eq_false_iff, Bool.and_eq_false_iff, decide_eq_false_iff_not, Bool.or_eq_true, Bool.and_eq_true, decide_eq_true_eq] at *
        omega
      · rw [if_neg hx] at h3
        exact h3
    · intro y hy
      rcases List.mem_cons.mp hy with rfl | hy
      · by_cases hx : cheaper y.2 b.2 = true
        · rw [if_pos hx] at h3
          exact h3
        · rw [if_neg hx] at h3
          exact cheaper_false_trans (by simpa using hx) h3
      · exact h4 y hy

theorem findMin_spec {l : List ((Nat × Nat) × (Nat × Nat × Nat))} (hl : l ≠ []) : ∃ m, findMin l none = some m ∧ m ∈ l ∧ ∀ x ∈ l, cheaper x.2 m.2 = false := by
  cases l with
  | nil => exact absurd rfl hl
  | cons x l =>
    rw [findMin]
    obtain ⟨m, h1, h2, h3, h4⟩ := findMin_some l x
    refine ⟨m, h1, ?_, fun y hy => ?_⟩
    · rcases h2 with rfl | h2
      · simp
      · simp [h2]
    · rcases List.mem_cons.mp hy with rfl | hy
      · exact h3
      · exact h4 y hy

theorem numCommon_pos {a b : SymAtom P V O} (h : Share a b) : 0 < numCommon a b := by
  obtain ⟨v, h1, h2⟩ := h
  unfold numCommon
  exact List.length_pos_of_mem (List.mem_filter.mpr ⟨List.mem_dedup.mpr h1, by simpa using h2⟩)

theorem numCommon_zero {a b : SymAtom P V O} (h : ¬ Share a b) : numCommon a b = 0 := by
  unfold numCommon
  rw [List.length_eq_zero_iff, List.filter_eq_nil_iff]
  intro v hv hv'
  exact h ⟨v, List.mem_dedup.mp hv, by simpa using hv'⟩

/-- every atom has a common variable with another one -/
theorem partner {joinees : List (SymAtom P V O)} (hlen : 2 ≤ joinees.length) (hc : Connected joinees) (hne : ∀ c ∈ joinees, c.vars ≠ []) {i : Nat} {c : SymAtom P V O} (hi : joinees[i]? = some c) : ∃ j d, j ≠ i ∧ joinees[j]? = some d ∧ Share c d := by
  have hself : Share c c := by
    obtain ⟨v, hv⟩ := List.exists_mem_of_ne_nil _ (hne c (List.mem_of_getElem? hi))
    exact ⟨v, hv, hv⟩
  by_cases h : ∃ j : Nat, j ≠ i ∧ joinees[j]? = some c
  · obtain ⟨j, h1, h2⟩ := h
    exact ⟨j, c, h1, h2, hself⟩
  · obtain ⟨k, hk, hki⟩ : ∃ k, k < joinees.length ∧ k ≠ i := by
      by_cases h0 : i = 0
      · exact ⟨1, by omega, by omega⟩
      · exact ⟨0, by omega, fun h => h0 h.symm⟩
    have hkc : joinees[k] ≠ c := fun h' => h ⟨k, hki, by rw [List.getElem?_eq_getElem hk, h']⟩
    obtain ⟨x, hx, d, hd, h1, h2, h3⟩ := hc (fun x => x = c) ⟨c, List.mem_of_getElem? hi, rfl⟩ ⟨_, List.getElem_mem hk, hkc⟩
    subst h1
    obtain ⟨j, hj⟩ := List.mem_iff_getElem?.mp hd
    refine ⟨j, d, fun hji => ?_, hj, h3⟩
    rw [hji, hi, Option.some.injEq] at hj
    exact h2 hj.symm

/-- the pair that is chosen has a common variable -/
theorem findMin_share {joinees : List (SymAtom P V O)} (hlen : 2 ≤ joinees.length) (hc : Connected joinees) (hne : ∀ c ∈ joinees, c.vars ≠ []) :
    ∃ m l r, findMin (entries joinees) none = some m ∧ joinees[m.1.1]? = some l ∧ joinees[m.1.2]? = some r ∧ m.1.2 < m.1.1 ∧ Share l r := by
  have hent : entries joinees ≠ [] := by
    have h1 : (1 : Nat) < joinees.length := by omega
    have h0 : (0 : Nat) < joinees.length := by omega
    have : (((1, 0), joinCost joinees[1] joinees[0]) : (Nat × Nat) × (Nat × Nat × Nat)) ∈ entries joinees := mem_entries.mpr ⟨_, _, List.getElem?_eq_getElem h1, by simp, List.getElem?_eq_getElem h0, rfl⟩
    intro h
    rw [h] at this
    simp at this
  obtain ⟨m, h1, h2, h3⟩ := findMin_spec hent
  obtain ⟨l, r, hl, hlt, hr, hcost⟩ := mem_entries.mp h2
  refine ⟨m, l, r, h1, hl, hr, hlt, ?_⟩
  by_contra hsh
  have hz := numCommon_zero hsh
  -- a cheaper pair for one of the two atoms
  have hbetter : ∀ (i : Nat) (c : SymAtom P V O), joinees[i]? = some c → numVars c ≤ m.2.1 → False := by
    intro i c hi hle
    obtain ⟨j, d, hji, hj, hcd⟩ := partner hlen hc hne hi
    have hpos : 0 < numVars c := by
      unfold numVars
      obtain ⟨v, hv⟩ := List.exists_mem_of_ne_nil _ (hne c (List.mem_of_getElem? hi))
      exact List.length_pos_of_mem (List.mem_dedup.mpr hv)
    rcases Nat.lt_or_gt_of_ne hji with h | h
    · have := h3 ((i, j), joinCost c d) (mem_entries.mpr ⟨c, d, hi, h, hj, rfl⟩)
      have hp := numCommon_pos hcd
      unfold cheaper joinCost at this
      simp only [Bool.or_eq_false_iff, decide_eq_false_iff_not] at this
      omega
    · have := h3 ((j, i), joinCost d c) (mem_entries.mpr ⟨d, c, hj, h, hi, rfl⟩)
      have hp := numCommon_pos hcd.symm
      unfold cheaper joinCost at this
      simp only [Bool.or_eq_false_iff, decide_eq_false_iff_not] at this
      omega
  have hm1 : m.2.1 = min (numVars l) (numVars r) := by
    rw [hcost]
    unfold joinCost
    simp only [hz]
    omega
  by_cases h : numVars l ≤ numVars r
  · exact hbetter _ l hl (by omega)
  · exact hbetter _ r hr (by omega)

theorem mem_effectVars {effect l r : SymAtom P V O} {rest : List (SymAtom P V O)} {t : Term V O} : t ∈ effectVars effect rest l r ↔ (t ∈ l.args ∨ t ∈ r.args) ∧ ∃ a ∈ effect :: rest, ∃ v ∈ a.vars, t = .var v := by
  unfold effectVars
  rw [List.mem_dedup, List.mem_filter, List.mem_append, List.any_eq_true]
  simp only [List.any_eq_true, beq_iff_eq]

theorem effectVars_var {effect l r : SymAtom P V O} {rest : List (SymAtom P V O)} {v : V} : .var v ∈ effectVars effect rest l r ↔ (v ∈ l.vars ∨ v ∈ r.vars) ∧ ∃ a ∈ effect :: rest, v ∈ a.vars := by
  rw [mem_effectVars, mem_vars, mem_vars]
  refine and_congr_right fun _ => ⟨?_, ?_⟩
  · rintro ⟨a, ha, w, hw, h⟩
    rw [Term.var.injEq] at h
    exact ⟨a, ha, h ▸ hw⟩
  · rintro ⟨a, ha, hv⟩
    exact ⟨a, ha, v, hv, rfl⟩

theorem mem_retained {ev : List (Term V O)} {a other : SymAtom P V O} {t : Term V O} : t ∈ retained ev a other ↔ t ∈ a.args ∧ (t ∈ ev ∨ t ∈ other.args) := by
  unfold retained
  rw [List.mem_dedup, List.mem_filter]
  simp

theorem filterMap_nodup {l : List (Term V O)} (h : l.Nodup) : (l.filterMap Term.var?).Nodup := by
  induction l with
  | nil => simp
  | cons t l ih =>
    rw [List.nodup_cons] at h
    cases t with
    | const o =>
      rw [List.filterMap_cons_none (f := Term.var?) rfl]
      exact ih h.2
    | var v =>
      rw [List.filterMap_cons_some (f := Term.var?) (b := v) rfl, List.nodup_cons]
      refine ⟨fun hv => h.1 ?_, ih h.2⟩
      exact mem_vars.mp (show v ∈ (⟨(), l⟩ : SymAtom Unit V O).vars from hv)

/-- variables of a joinee that was projected or not -/
theorem projected_vars {e : Env P V O} (he : e.Ok) {k : Nat} {ev : List (Term V O)} {a other : SymAtom P V O} {v : V} : v ∈ (projected e k ev a other).vars ↔ v ∈ a.vars ∧ (.var v ∈ ev ∨ v ∈ other.vars) := by
  unfold projected
  split
  · rw [mem_vars, (he.terms _).mem_iff, mem_retained, mem_vars, mem_vars]
  · rename_i h
    constructor
    · intro hv
      refine ⟨hv, ?_⟩
      unfold needsProjection at h
      simp only [List.any_eq_true, Bool.not_eq_true', not_exists, not_and] at h
      have := h _ (mem_vars.mp hv)
      rw [Bool.not_eq_false, List.contains_iff_mem, mem_retained, ← mem_vars (a := other)] at this
      exact this.2
    · exact fun h => h.1

theorem projected_nodup {e : Env P V O} (he : e.Ok) {k : Nat} {ev : List (Term V O)} {a other : SymAtom P V O} (ha : a.vars.Nodup) : (projected e k ev a other).vars.Nodup := by
  unfold projected
  split
  · exact filterMap_nodup ((he.terms _).nodup_iff.mpr (List.nodup_dedup _))
  · exact ha

/-- a joinee is projected -/
theorem impl_projection {e : Env P V O} (he : e.Ok) {k k' : Nat} {ev : List (Term V O)} {effect a other : SymAtom P V O} {rest : List (SymAtom P V O)} {rs : List (Datalog.Rule P V O)} (ha : a.vars.Nodup) (hkk' : afterProjection k ev a other ≤ k')
    (hnew : ∀ b ∈ effect :: a :: rest, ∀ i, k ≤ i → b.pred ≠ e.name i) (hev : ∀ v ∈ a.vars, (v ∈ effect.vars ∨ ∃ d ∈ rest, v ∈ d.vars) → .var v ∈ ev ∨ v ∈ other.vars)
    (h : Impl e.name (fun i => afterProjection k ev a other ≤ i ∧ i < k') effect (projected e k ev a other :: rest) rs) : Impl e.name (fun i => k ≤ i ∧ i < k') effect (a :: rest) (projection e k ev a other ++ rs) := by
  by_cases hn : needsProjection ev a other = true
  · have hp : projected e k ev a other = ⟨e.name k, e.sortTerms (retained ev a other)⟩ := by unfold projected; rw [if_pos hn]
    have hl : projection e k ev a other = [⟨.project, projected e k ev a other, [a]⟩] := by unfold projection; rw [if_pos hn]
    have hk : afterProjection k ev a other = k + 1 := by unfold afterProjection; rw [if_pos hn]
    rw [hk] at h
    rw [hl]
    have hN : (⟨.project, projected e k ev a other, [a]⟩ : Datalog.Rule P V O).Normal := by
      refine ⟨fun v hv => ⟨a, by simp, ((projected_vars he).mp hv).1⟩, projected_nodup he ha, fun c hc => ?_, fun h => by simp at h, fun h => by simp at h, fun _ => ⟨a, rfl⟩⟩
      rw [List.mem_singleton] at hc
      rw [hc]
      exact ha
    have hkk : k < k' := by rw [hk] at hkk'; omega
    · refine (Impl.fold he.name (i0 := k) (E := projected e k ev a other) (G := [a]) (H := rest) (conds := a :: rest) (R1 := fun _ => False) (by rw [hp]) (fun c => by simp) (fun c => by simp) ?_ ?_ ?_ (Impl.single _ hN) h (fun _ h => h.elim) (fun h => h) (by omega)).congr (fun _ => Iff.rfl) ?_
      · intro b hb i hi
        refine hnew b (by simpa using hb) i ?_
        rcases hi with rfl | hi | hi
        · exact Nat.le_refl _
        · exact hi.elim
        · omega
      · intro v hv
        exact ⟨a, by simp, ((projected_vars he).mp hv).1⟩
      · intro c hc v hv hv'
        rw [List.mem_singleton] at hc
        subst hc
        exact (projected_vars he).mpr ⟨hv, hev v hv hv'⟩
      · intro i hi
        rcases hi with rfl | hi | hi
        · exact ⟨Nat.le_refl _, hkk⟩
        · exact hi.elim
        · omega
  · have hp : projected e k ev a other = a := by unfold projected; rw [if_neg hn]
    have hl : projection e k ev a other = [] := by unfold projection; rw [if_neg hn]
    have hk : afterProjection k ev a other = k := by unfold afterProjection; rw [if_neg hn]
    rw [hk, hp] at h
    rw [hl]
    exact h

/-- two elements are taken from a list -/
theorem mem_eraseIdx_two {α : Type} {l : List α} {i j : Nat} {x y : α} (hi : l[i]? = some x) (hj : l[j]? = some y) (hij : j < i) : l ~ x :: y :: (l.eraseIdx i).eraseIdx j ∧ ((l.eraseIdx i).eraseIdx j).length + 2 = l.length := by
  obtain ⟨hi', rfl⟩ := List.getElem?_eq_some_iff.mp hi
  obtain ⟨hj', rfl⟩ := List.getElem?_eq_some_iff.mp hj
  have h1 : l ~ l[i] :: l.eraseIdx i := (List.getElem_cons_eraseIdx_perm hi').symm
  have hjl : j < (l.eraseIdx i).length := by rw [List.length_eraseIdx, if_pos hi']; omega
  have h2 : l.eraseIdx i ~ l[j] :: (l.eraseIdx i).eraseIdx j := by
    have := (List.getElem_cons_eraseIdx_perm hjl).symm
    rwa [List.getElem_eraseIdx_of_lt _ hij] at this
  have h3 := h1.trans (List.Perm.cons _ h2)
  exact ⟨h3, by have := h3.length_eq; simpa using this.symm⟩

/-- the joinees after an iteration are connected -/
theorem connected_step {e : Env P V O} (he : e.Ok) {effect l r : SymAtom P V O} {rest : List (SymAtom P V O)} {k : Nat} (hc : Connected (l :: r :: rest)) (hne : ∀ c ∈ l :: r :: rest, c.vars ≠ []) : Connected (rest ++ [⟨e.name k, e.sortTerms (effectVars effect rest l r)⟩]) := by
  have hE : ∀ v d, (v ∈ l.vars ∨ v ∈ r.vars) → d ∈ rest → v ∈ d.vars → v ∈ (⟨e.name k, e.sortTerms (effectVars effect rest l r)⟩ : SymAtom P V O).vars := by
    intro v d hv hd hvd
    rw [mem_vars, (he.terms _).mem_iff, effectVars_var]
    exact ⟨hv, d, by simp [hd], hvd⟩
  generalize (⟨e.name k, e.sortTerms (effectVars effect rest l r)⟩ : SymAtom P V O) = E at *
  have hmain : ∀ S : SymAtom P V O → Prop, S E → (∃ d ∈ rest, ¬ S d) → ∃ c ∈ rest ++ [E], ∃ d ∈ rest ++ [E], S c ∧ ¬ S d ∧ Share c d := by
    rintro S hSE ⟨d, hd, hSd⟩
    by_cases hlr : ∃ d ∈ rest, ¬ S d ∧ (d = l ∨ d = r)
    · obtain ⟨d, hd, hSd, hdlr⟩ := hlr
      obtain ⟨v, hv⟩ := List.exists_mem_of_ne_nil _ (hne d (by simp [hd]))
      refine ⟨E, by simp, d, by simp [hd], hSE, hSd, v, hE v d ?_ hd hv, hv⟩
      rcases hdlr with rfl | rfl
      · exact .inl hv
      · exact .inr hv
    · have hdlr : ∀ d ∈ rest, ¬ S d → ¬ (d = l ∨ d = r) := fun d hd hS h => hlr ⟨d, hd, hS, h⟩
      obtain ⟨c', hc', d', hd', h1, h2, v, hv1, hv2⟩ := hc (fun x => S x ∨ x = l ∨ x = r) ⟨l, by simp, .inr (.inl rfl)⟩ ⟨d, by simp [hd], fun h => h.elim hSd (hdlr d hd hSd)⟩
      have hd'' : d' ∈ rest := by
        rcases List.mem_cons.mp hd' with rfl | hd'
        · exact absurd (.inr (.inl rfl)) h2
        · rcases List.mem_cons.mp hd' with rfl | hd'
          · exact absurd (.inr (.inr rfl)) h2
          · exact hd'
      by_cases hcl : c' = l ∨ c' = r
      · refine ⟨E, by simp, d', by simp [hd''], hSE, fun h => h2 (.inl h), v, hE v d' ?_ hd'' hv2, hv2⟩
        rcases hcl with rfl | rfl
        · exact .inl hv1
        · exact .inr hv1
      · have hc'' : c' ∈ rest := by
          rcases List.mem_cons.mp hc' with rfl | hc'
          · exact absurd (.inl rfl) hcl
          · rcases List.mem_cons.mp hc' with rfl | hc'
            · exact absurd (.inr rfl) hcl
            · exact hc'
        exact ⟨c', by simp [hc''], d', by simp [hd''], h1.resolve_right hcl, fun h => h2 (.inl h), v, hv1, hv2⟩
  rintro S ⟨c, hc', hS⟩ ⟨d, hd', hS'⟩
  rw [List.mem_append, List.mem_singleton] at hc' hd'
  by_cases hSE : S E
  · exact hmain S hSE ⟨d, hd'.resolve_right (fun h => hS' (h ▸ hSE)), hS'⟩
  · obtain ⟨c1, h1, d1, h2, h3, h4, h5⟩ := hmain (fun x => ¬ S x) hSE ⟨c, hc'.resolve_right (fun h => hSE (h ▸ hS)), not_not.mpr hS⟩
    exact ⟨d1, h2, c1, h1, not_not.mp h4, h3, h5.symm⟩

theorem afterProjection_le {k : Nat} {ev : List (Term V O)} {a other : SymAtom P V O} : k ≤ afterProjection k ev a other := by
  unfold afterProjection
  split <;> omega

theorem projected_pred {e : Env P V O} {k : Nat} {ev : List (Term V O)} {a other : SymAtom P V O} : projected e k ev a other = a ∨ (projected e k ev a other).pred = e.name k ∧ afterProjection k ev a other = k + 1 := by
  unfold projected afterProjection
  split
  · exact .inr ⟨rfl, rfl⟩
  · exact .inl rfl

/-- one join, after its two projections -/
theorem joined_normal {e : Env P V O} (he : e.Ok) {k k1 : Nat} {effect l r target : SymAtom P V O} {rest : List (SymAtom P V O)} (hl : l.vars.Nodup) (hr : r.vars.Nodup) (hsh : Share l r) (ht : target.vars.Nodup)
    (htv : ∀ v, v ∈ target.vars ↔ .var v ∈ effectVars effect rest l r) : (⟨.join, target, [projected e k (effectVars effect rest l r) l r, projected e k1 (effectVars effect rest l r) r l]⟩ : Datalog.Rule P V O).Normal := by
  refine ⟨fun v hv => ?_, ht, fun c hc => ?_, fun _ => ⟨_, _, rfl, ?_, fun v hv hv' => ?_, fun v hv hv' => ?_⟩, fun h => by simp at h, fun h => by simp at h⟩
  · have hev := (htv v).mp hv
    rcases (effectVars_var.mp hev).1 with h | h
    · exact ⟨projected e k (effectVars effect rest l r) l r, by simp, (projected_vars he).mpr ⟨h, .inl hev⟩⟩
    · exact ⟨projected e k1 (effectVars effect rest l r) r l, by simp, (projected_vars he).mpr ⟨h, .inl hev⟩⟩
  · rw [List.mem_cons, List.mem_singleton] at hc
    rcases hc with rfl | rfl
    · exact projected_nodup he hl
    · exact projected_nodup he hr
  · obtain ⟨v, h1, h2⟩ := hsh
    exact ⟨v, (projected_vars he).mpr ⟨h1, .inr h2⟩, (projected_vars he).mpr ⟨h2, .inr h1⟩⟩
  · obtain ⟨h1, h2⟩ := (projected_vars he).mp hv
    refine (htv v).mpr (h2.resolve_right fun h => hv' ((projected_vars he).mpr ⟨h, .inr h1⟩))
  · obtain ⟨h1, h2⟩ := (projected_vars he).mp hv
    refine (htv v).mpr (h2.resolve_right fun h => hv' ((projected_vars he).mpr ⟨h, .inr h1⟩))

/-- the two projections of an iteration -/
theorem impl_projections {e : Env P V O} (he : e.Ok) {k k' : Nat} {effect l r : SymAtom P V O} {rest : List (SymAtom P V O)} {rs : List (Datalog.Rule P V O)} (hl : l.vars.Nodup) (hr : r.vars.Nodup)
    (hnew : ∀ b ∈ effect :: l :: r :: rest, ∀ i, k ≤ i → b.pred ≠ e.name i) (hk' : afterProjection (afterProjection k (effectVars effect rest l r) l r) (effectVars effect rest l r) r l ≤ k')
    (h : Impl e.name (fun i => afterProjection (afterProjection k (effectVars effect rest l r) l r) (effectVars effect rest l r) r l ≤ i ∧ i < k') effect
      (projected e k (effectVars effect rest l r) l r :: projected e (afterProjection k (effectVars effect rest l r) l r) (effectVars effect rest l r) r l :: rest) rs) :
    Impl e.name (fun i => k ≤ i ∧ i < k') effect (l :: r :: rest) (projection e k (effectVars effect rest l r) l r ++ (projection e (afterProjection k (effectVars effect rest l r) l r) (effectVars effect rest l r) r l ++ rs)) := by
  refine impl_projection he hl (afterProjection_le.trans hk') hnew (fun v hv hv' => ?_) (Impl.congr (conds := r :: projected e k (effectVars effect rest l r) l r :: rest) (impl_projection he hr hk' ?_ (fun v hv hv' => ?_) (h.congr (fun c => ?_) (fun _ h => h))) (fun c => ?_) (fun _ h => h))
  · rcases hv' with hv' | ⟨d, hd, hv'⟩
    · exact .inl (effectVars_var.mpr ⟨.inl hv, effect, by simp, hv'⟩)
    · rcases List.mem_cons.mp hd with rfl | hd
      · exact .inr hv'
      · exact .inl (effectVars_var.mpr ⟨.inl hv, d, by simp [hd], hv'⟩)
  · intro b hb i hi
    simp only [List.mem_cons] at hb
    rcases hb with rfl | rfl | rfl | hb
    · exact hnew _ (by simp) i (afterProjection_le.trans hi)
    · exact hnew _ (by simp) i (afterProjection_le.trans hi)
    · rcases projected_pred (e := e) (k := k) (ev := effectVars effect rest l r) (a := l) (other := r) with h1 | ⟨h1, h2⟩
      · rw [h1]
        exact hnew _ (by simp) i (afterProjection_le.trans hi)
      · rw [h1]
        intro h3
        have := he.name _ _ h3
        omega
    · exact hnew _ (by simp [hb]) i (afterProjection_le.trans hi)
  · rcases hv' with hv' | ⟨d, hd, hv'⟩
    · exact .inl (effectVars_var.mpr ⟨.inr hv, effect, by simp, hv'⟩)
    · rcases List.mem_cons.mp hd with rfl | hd
      · exact .inr ((projected_vars he).mp hv').1
      · exact .inl (effectVars_var.mpr ⟨.inr hv, d, by simp [hd], hv'⟩)
  · simp only [List.mem_cons]
    tauto
  · simp only [List.mem_cons]
    tauto

theorem joinLoop_ok {e : Env P V O} (he : e.Ok) {effect : SymAtom P V O} : ∀ (n : Nat) (joinees : List (SymAtom P V O)) (k : Nat), joinees.length = n + 1 → 1 ≤ n → Tidy effect joinees → Connected joinees → (∀ c ∈ joinees, c.vars ≠ []) →
    (∀ b ∈ effect :: joinees, ∀ i, k ≤ i → b.pred ≠ e.name i) → ∃ rs k', joinLoop e effect n joinees k = some (rs, k') ∧ k ≤ k' ∧ Impl e.name (fun i => k ≤ i ∧ i < k') effect joinees rs
  | 0, _, _, _, hn, _, _, _, _ => by omega
  | n + 1, joinees, k, hlen, _, htidy, hcon, hne, hnew => by
    obtain ⟨m, l, r, hm, hl, hr, hlt, hsh⟩ := findMin_share (by omega) hcon hne
    obtain ⟨hperm, hlen'⟩ := mem_eraseIdx_two hl hr hlt
    rw [joinLoop]
    simp only [hm, hl, hr]
    generalize hrest : (joinees.eraseIdx m.1.1).eraseIdx m.1.2 = rest at *
    have hmem : ∀ c, c ∈ l :: r :: rest ↔ c ∈ joinees := fun c => hperm.symm.mem_iff
    have hl1 := htidy.body l ((hmem l).mp (by simp))
    have hr1 := htidy.body r ((hmem r).mp (by simp))
    have hnew' : ∀ b ∈ effect :: l :: r :: rest, ∀ i, k ≤ i → b.pred ≠ e.name i := by
      intro b hb
      rcases List.mem_cons.mp hb with rfl | hb
      · exact hnew b (by simp)
      · exact hnew b (by simp [(hmem b).mp hb])
    unfold joinFrom
    cases rest with
    | nil =>
      have htv : ∀ v, v ∈ effect.vars ↔ .var v ∈ effectVars effect [] l r := by
        intro v
        rw [effectVars_var]
        constructor
        · intro hv
          obtain ⟨c, hc, hvc⟩ := htidy.bound v hv
          have := (hmem c).mpr hc
          simp only [List.mem_cons, List.not_mem_nil, or_false] at this
          refine ⟨?_, effect, by simp, hv⟩
          rcases this with rfl | rfl
          · exact .inl hvc
          · exact .inr hvc
        · rintro ⟨_, a, ha, hva⟩
          simp only [List.mem_cons, List.not_mem_nil, or_false] at ha
          exact ha ▸ hva
      refine ⟨_, _, rfl, ?_, ?_⟩
      · exact (afterProjection_le.trans afterProjection_le).trans (Nat.le_succ _)
      · unfold joinRules
        rw [List.append_assoc]
        refine (impl_projections he hl1 hr1 hnew' (Nat.le_succ _) ((Impl.single _ (joined_normal he hl1 hr1 hsh htidy.head htv)).congr (fun c => Iff.rfl) (fun _ h => h.elim))).congr hmem (fun _ h => h)
    | cons c0 cs =>
      unfold joinStep
      simp only []
      generalize hrest' : c0 :: cs = rest at *
      have hk : k ≤ afterProjection (afterProjection k (effectVars effect rest l r) l r) (effectVars effect rest l r) r l := afterProjection_le.trans afterProjection_le
      generalize hk2 : afterProjection (afterProjection k (effectVars effect rest l r) l r) (effectVars effect rest l r) r l = k2 at *
      have hcon' := hcon
      have hc2 : Connected (l :: r :: rest) := connected_congr hcon (fun c => (hmem c).symm)
      have hne2 : ∀ c ∈ l :: r :: rest, c.vars ≠ [] := fun c hc => hne c ((hmem c).mp hc)
      have hstep := connected_step he (effect := effect) (k := k2) hc2 hne2
      have hEv : ∀ v, v ∈ (⟨e.name k2, e.sortTerms (effectVars effect rest l r)⟩ : SymAtom P V O).vars ↔ .var v ∈ effectVars effect rest l r := by
        intro v
        rw [mem_vars, (he.terms _).mem_iff]
      have hEn : (⟨e.name k2, e.sortTerms (effectVars effect rest l r)⟩ : SymAtom P V O).vars.Nodup := filterMap_nodup ((he.terms _).nodup_iff.mpr (List.nodup_dedup _))
      have hEp : (⟨e.name k2, e.sortTerms (effectVars effect rest l r)⟩ : SymAtom P V O).pred = e.name k2 := rfl
      generalize hE : (⟨e.name k2, e.sortTerms (effectVars effect rest l r)⟩ : SymAtom P V O) = E at *
      have hc0 : c0 ∈ rest := by rw [← hrest']; simp
      have hEne : E.vars ≠ [] := by
        obtain ⟨c, hc, d, hd, h1, h2, v, h3, h4⟩ := hstep (fun x => x = E) ⟨E, by simp, rfl⟩ ⟨c0, by simp [hc0], fun h => hnew' c0 (by simp [hc0]) k2 hk (h ▸ hEp)⟩
        rw [h1] at h3
        exact List.ne_nil_of_mem h3
      obtain ⟨rs, k', h1, h2, h3⟩ := joinLoop_ok he n (rest ++ [E]) (k2 + 1) (by simp; omega) (by
          have : 0 < rest.length := List.length_pos_of_mem hc0
          omega) (by
          refine ⟨htidy.head, fun c hc => ?_, fun v hv => ?_⟩
          · rcases List.mem_append.mp hc with hc | hc
            · exact htidy.body c ((hmem c).mp (by simp [hc]))
            · rw [List.mem_singleton] at hc
              exact hc ▸ hEn
          · obtain ⟨c, hc, hvc⟩ := htidy.bound v hv
            have := (hmem c).mpr hc
            simp only [List.mem_cons] at this
            rcases this with rfl | rfl | h
            · exact ⟨E, by simp, (hEv v).mpr (effectVars_var.mpr ⟨.inl hvc, effect, by simp, hv⟩)⟩
            · exact ⟨E, by simp, (hEv v).mpr (effectVars_var.mpr ⟨.inr hvc, effect, by simp, hv⟩)⟩
            · exact ⟨c, by simp [h], hvc⟩) hstep (by
          intro c hc
          rcases List.mem_append.mp hc with hc | hc
          · exact hne2 c (by simp [hc])
          · rw [List.mem_singleton] at hc
            exact hc ▸ hEne) (by
          intro b hb i hi
          rcases List.mem_cons.mp hb with rfl | hb
          · exact hnew' b (by simp) i (by omega)
          · rcases List.mem_append.mp hb with hb | hb
            · exact hnew' b (by simp [hb]) i (by omega)
            · rw [List.mem_singleton] at hb
              rw [hb, hEp]
              intro h
              have := he.name _ _ h
              omega)
      have hlist : c0 :: cs ++ [E] = rest ++ [E] := by rw [hrest']
      refine ⟨_, k', by rw [h1]; rfl, by omega, ?_⟩
      unfold joinRules
      simp only [List.append_assoc]
      refine (impl_projections he hl1 hr1 hnew' (by omega) ?_).congr hmem (fun _ h => h)
      rw [hk2]
      refine (Impl.fold he.name (i0 := k2) (E := E) (G := [projected e k (effectVars effect rest l r) l r, projected e (afterProjection k (effectVars effect rest l r) l r) (effectVars effect rest l r) r l]) (H := rest) (R1 := fun _ => False)
        hEp (fun c => by simp [or_assoc]) (conds' := rest ++ [E]) (fun c => by simp [or_comm]) ?_ ?_ ?_ (Impl.single _ (joined_normal he hl1 hr1 hsh hEn hEv)) h3 (fun _ h => h.elim) (fun h => h) (by omega)).congr (fun _ => Iff.rfl) ?_
      · intro a ha i hi
        have hi' : k2 ≤ i := by
          rcases hi with rfl | hi | hi
          · exact Nat.le_refl _
          · exact hi.elim
          · omega
        simp only [List.mem_cons] at ha
        rcases ha with rfl | rfl | rfl | ha
        · exact hnew' _ (by simp) i (by omega)
        · rcases projected_pred (e := e) (k := k) (ev := effectVars effect rest l r) (a := l) (other := r) with h4 | ⟨h4, h5⟩
          · rw [h4]
            exact hnew' _ (by simp) i (by omega)
          · rw [h4]
            intro h6
            have h7 := he.name _ _ h6
            have h8 : afterProjection k (effectVars effect rest l r) l r ≤ k2 := by rw [← hk2]; exact afterProjection_le
            omega
        · rcases projected_pred (e := e) (k := afterProjection k (effectVars effect rest l r) l r) (ev := effectVars effect rest l r) (a := r) (other := l) with h4 | ⟨h4, h5⟩
          · rw [h4]
            exact hnew' _ (by simp) i (by omega)
          · rw [h4]
            intro h6
            have h7 := he.name _ _ h6
            omega
        · exact hnew' _ (by simp [ha]) i (by omega)
      · intro v hv
        have hev := (hEv v).mp hv
        rcases (effectVars_var.mp hev).1 with h | h
        · exact ⟨projected e k (effectVars effect rest l r) l r, by simp, (projected_vars he).mpr ⟨h, .inl hev⟩⟩
        · exact ⟨projected e (afterProjection k (effectVars effect rest l r) l r) (effectVars effect rest l r) r l, by simp, (projected_vars he).mpr ⟨h, .inl hev⟩⟩
      · intro c hc v hv hv'
        rw [hEv, effectVars_var]
        refine ⟨?_, ?_⟩
        · simp only [List.mem_cons, List.not_mem_nil, or_false] at hc
          rcases hc with rfl | rfl
          · exact .inl ((projected_vars he).mp hv).1
          · exact .inr ((projected_vars he).mp hv).1
        · rcases hv' with h | ⟨d, hd, h⟩
          · exact ⟨effect, by simp, h⟩
          · exact ⟨d, by simp [hd], h⟩
      · intro i hi
        rcases hi with rfl | hi | hi
        · omega
        · exact hi.elim
        · omega

end Verif.PrologProgram
