import Verif.Model.StripsToSas
import Mathlib.Data.List.Sort
import Mathlib.Data.List.Forall2

/-
Translation of conditions: the facts of a translated condition come from the literals, and one of the translated conditions holds if and only if the literals hold.
-/
namespace Verif.StripsToSas
open Verif.SasFile
open Verif.Strips
open Verif.Simplify (lookup mkOperator)

section
variable {α : Type} [DecidableEq α]

/-- the values of the variables of `x` represent the true atoms of `s` -/
def Represents (groups : List (List α)) (s : α → Prop) (x : State) : Prop :=
  ∀ (v : Nat) (g : List α), groups[v]? = some g → ∃ y, x[v]? = some y ∧ y < g.length + 1 ∧ ∀ (i : Nat) (p : α), g[i]? = some p → (y = i ↔ s p)

theorem mem_pairs {groups : List (List α)} {p : α} {f : Fact} : f ∈ pairs groups p ↔ ∃ g, groups[f.var]? = some g ∧ g[f.val]? = some p := by
  unfold pairs
  simp only [List.mem_flatMap, List.mem_map, List.mem_filter, List.mem_zipIdx_iff_getElem?]
  constructor
  · rintro ⟨⟨g, v⟩, hg, ⟨q, i⟩, ⟨hq, he⟩, rfl⟩
    simp only [beq_iff_eq] at he hg hq
    subst he
    exact ⟨g, hg, hq⟩
  · rintro ⟨g, hg, hq⟩
    exact ⟨(g, f.var), hg, (p, f.val), ⟨hq, by simp⟩, rfl⟩

theorem pairs_ne_nil {groups : List (List α)} {p : α} (h : ∃ g ∈ groups, p ∈ g) : pairs groups p ≠ [] := by
  obtain ⟨g, hg, hp⟩ := h
  obtain ⟨v, hv⟩ := List.getElem?_of_mem hg
  obtain ⟨i, hi⟩ := List.getElem?_of_mem hp
  exact List.ne_nil_of_mem (mem_pairs.mpr ⟨g, hv, hi⟩ : (⟨v, i⟩ : Fact) ∈ _)

theorem dictionary_some {groups : List (List α)} {p : α} (h : ∃ g ∈ groups, p ∈ g) : dictionary groups p = some (pairs groups p) := by
  unfold dictionary
  rw [if_neg (by simpa using pairs_ne_nil h)]

theorem Represents.fact {groups : List (List α)} {s : α → Prop} {x : State} (h : Represents groups s x) {p : α} {f : Fact} (hf : f ∈ pairs groups p) : f.holds x ↔ s p := by
  obtain ⟨g, hg, hp⟩ := mem_pairs.mp hf
  obtain ⟨y, hy, _, hi⟩ := h _ _ hg
  rw [← hi _ _ hp, Fact.holds, hy, Option.some.injEq]

theorem pairs_range {groups : List (List α)} {p : α} {f : Fact} (hf : f ∈ pairs groups p) : f.val + 1 < rangeOf groups f.var := by
  obtain ⟨g, hg, hp⟩ := mem_pairs.mp hf
  rw [rangeOf, hg]
  have := (List.getElem?_eq_some_iff.mp hp).1
  simp only
  omega

/-- an atom occurs once in each group -/
theorem pairs_unique {groups : List (List α)} (hn : ∀ g ∈ groups, g.Nodup) {p : α} {f f' : Fact} (hf : f ∈ pairs groups p) (hf' : f' ∈ pairs groups p) (h : f.var = f'.var) : f = f' := by
  obtain ⟨g, hg, hp⟩ := mem_pairs.mp hf
  obtain ⟨g', hg', hp'⟩ := mem_pairs.mp hf'
  rw [← h, hg, Option.some.injEq] at hg'
  subst hg'
  obtain ⟨h1, e1⟩ := List.getElem?_eq_some_iff.mp hp
  obtain ⟨h2, e2⟩ := List.getElem?_eq_some_iff.mp hp'
  have := (List.Nodup.getElem_inj_iff (hn g (List.mem_of_getElem? hg))).mp (e1.trans e2.symm)
  cases f; cases f'; simp_all

theorem pairs_vars {groups : List (List α)} (hn : ∀ g ∈ groups, g.Nodup) (p : α) : ((pairs groups p).map (·.var)).Nodup := by
  have hnd : (pairs groups p).Nodup := by
    unfold pairs
    rw [List.nodup_flatMap]
    constructor
    · rintro ⟨g, v⟩ _
      refine List.Nodup.map_on ?_ ((List.Nodup.filter _ (List.nodup_iff_injective_get.mpr ?_)))
      · rintro ⟨q, i⟩ h ⟨q', i'⟩ h' he
        simp only [List.mem_filter, beq_iff_eq] at h h'
        simp_all
      · intro a b hab
        simp only [List.get_eq_getElem, List.getElem_zipIdx, Prod.mk.injEq] at hab
        exact Fin.ext (by omega)
    · rw [List.pairwise_iff_getElem]
      intro i j hi hj hij f hf hf'
      simp only [List.getElem_zipIdx, List.mem_map, List.mem_filter] at hf hf'
      obtain ⟨a, _, rfl⟩ := hf
      obtain ⟨b, _, hb⟩ := hf'
      simp only [Fact.mk.injEq] at hb
      omega
  exact List.Nodup.map_on (fun f hf f' hf' h => pairs_unique hn hf hf' h) hnd

/-! dictionaries of possible values -/

theorem Doms.get_eq_none {d : Doms} {v : Nat} : d.get v = none ↔ ∀ e ∈ d, e.1 ≠ v := by
  simp [Doms.get]

theorem Doms.get_append {d : Doms} {v w : Nat} {vals : List Nat} (h : d.get v = none) : Doms.get (d ++ [(v, vals)]) w = if w = v then some vals else d.get w := by
  unfold Doms.get
  rw [List.find?_append]
  by_cases hw : w = v
  · subst hw
    have : d.find? (fun e => e.1 == w) = none := by
      unfold Doms.get at h
      simpa using h
    simp [this]
  · have hne : (v == w) = false := by simpa using fun h => hw h.symm
    simp [hw, hne]

theorem Doms.get_replace (d : Doms) (v w : Nat) (vals : List Nat) : Doms.get (d.map (fun e => if e.1 = v then (v, vals) else e)) w = if w = v then (d.get v).map (fun _ => vals) else d.get w := by
  induction d with
  | nil => simp [Doms.get]
  | cons e d ih =>
    have hc : ∀ (e : Nat × List Nat) (d : Doms) (u : Nat), Doms.get (e :: d) u = if e.1 = u then some e.2 else Doms.get d u := by
      intro e d u
      unfold Doms.get
      by_cases h : e.1 = u <;> simp [List.find?_cons, h]
    rw [List.map_cons, hc, ih]
    by_cases h1 : e.1 = v <;> by_cases h2 : w = v
    · simp [h1, h2, hc]
    · have : v ≠ w := fun h => h2 h.symm
      simp [h1, h2, hc, this]
    · simp [h1, h2, hc]
    · simp [h1, h2, hc]

theorem Doms.get_put (d : Doms) (v w : Nat) (vals : List Nat) : (d.put v vals).get w = if w = v then some vals else d.get w := by
  unfold Doms.put
  split
  · rename_i h
    exact Doms.get_append h
  · rename_i u h
    rw [Doms.get_replace, h]
    rfl

theorem Doms.nodup_put {d : Doms} (h : (d.map (·.1)).Nodup) (v : Nat) (vals : List Nat) : ((d.put v vals).map (·.1)).Nodup := by
  unfold Doms.put
  split
  · rename_i hv
    rw [List.map_append, List.nodup_append]
    refine ⟨h, by simp, ?_⟩
    intro a ha b hb hab
    obtain ⟨e, he, rfl⟩ := List.mem_map.mp ha
    simp only [List.map_cons, List.map_nil, List.mem_singleton] at hb
    exact Doms.get_eq_none.mp hv e he (hab.trans hb)
  · rw [List.map_map]
    have : ((fun e : Nat × List Nat => e.1) ∘ fun e => if e.1 = v then (v, vals) else e) = (·.1) := by
      funext e
      simp only [Function.comp]
      split <;> simp_all
    rw [this]
    exact h

theorem Doms.get_mem {d : Doms} {v : Nat} {vals : List Nat} (h : d.get v = some vals) : (v, vals) ∈ d := by
  unfold Doms.get at h
  obtain ⟨e, he, rfl⟩ := Option.map_eq_some_iff.mp h
  have h1 := List.find?_some he
  have h2 := List.mem_of_find?_eq_some he
  simp only [beq_iff_eq] at h1
  rw [← h1]
  exact h2

theorem Doms.mem_get {d : Doms} (hn : (d.map (·.1)).Nodup) {e : Nat × List Nat} (h : e ∈ d) : d.get e.1 = some e.2 := by
  induction d with
  | nil => simp at h
  | cons a d ih =>
    rw [List.map_cons, List.nodup_cons] at hn
    unfold Doms.get
    rw [List.find?_cons]
    rcases List.mem_cons.mp h with rfl | h
    · simp
    · have : (a.1 == e.1) = false := by
        simp only [beq_eq_false_iff_ne, ne_eq]
        intro he
        exact hn.1 (he ▸ List.mem_map_of_mem h)
      rw [this]
      exact ih hn.2 h

/-- the values of `x` are possible -/
def DomHolds (d : Doms) (x : State) : Prop := ∀ (v : Nat) (vals : List Nat), d.get v = some vals → ∃ y ∈ vals, x[v]? = some y

/-! positive literals -/

/-- exactly the required facts -/
def PosInv (Req : Fact → Prop) (d : Doms) : Prop := (d.map (·.1)).Nodup ∧ ∀ (v : Nat) (vals : List Nat), d.get v = some vals ↔ ∃ y, vals = [y] ∧ Req ⟨v, y⟩

theorem posPairs_spec : ∀ (fs : List Fact) (d : Doms) (Req : Fact → Prop), PosInv Req d →
    match posPairs fs d with
    | none => ∃ f f' : Fact, (Req f ∨ f ∈ fs) ∧ (Req f' ∨ f' ∈ fs) ∧ f.var = f'.var ∧ f.val ≠ f'.val
    | some d' => PosInv (fun f => Req f ∨ f ∈ fs) d'
  | [], d, Req, h => by simpa [posPairs] using h
  | f :: fs, d, Req, h => by
    have key : (∀ y, Req ⟨f.var, y⟩ → y = f.val) → PosInv (fun g => Req g ∨ g = f) (d.put f.var [f.val]) := by
      intro hy
      refine ⟨Doms.nodup_put h.1 _ _, fun v vals => ?_⟩
      rw [Doms.get_put]
      by_cases hv : v = f.var
      · subst hv
        simp only [if_true, Option.some.injEq]
        constructor
        · rintro rfl
          exact ⟨f.val, rfl, Or.inr rfl⟩
        · rintro ⟨y, rfl, hr | hr⟩
          · rw [hy y hr]
          · rw [← hr]
      · simp only [hv, if_false, h.2 v vals]
        constructor
        · rintro ⟨y, e, hr⟩
          exact ⟨y, e, Or.inl hr⟩
        · rintro ⟨y, e, hr | hr⟩
          · exact ⟨y, e, hr⟩
          · exact absurd (congrArg Fact.var hr) hv
    have next : (∀ y, Req ⟨f.var, y⟩ → y = f.val) → posPairs (f :: fs) d = posPairs fs (d.put f.var [f.val]) →
        match posPairs (f :: fs) d with
        | none => ∃ g g' : Fact, (Req g ∨ g ∈ f :: fs) ∧ (Req g' ∨ g' ∈ f :: fs) ∧ g.var = g'.var ∧ g.val ≠ g'.val
        | some d' => PosInv (fun g => Req g ∨ g ∈ f :: fs) d' := by
      intro hy he
      have ih := posPairs_spec fs _ _ (key hy)
      rw [he]
      cases hx : posPairs fs (d.put f.var [f.val]) with
      | none =>
        rw [hx] at ih
        obtain ⟨g, g', h1, h2, h3, h4⟩ := ih
        refine ⟨g, g', ?_, ?_, h3, h4⟩
        · rcases h1 with (h1 | rfl) | h1 <;> simp [*]
        · rcases h2 with (h2 | rfl) | h2 <;> simp [*]
      | some d' =>
        rw [hx] at ih
        have e : (fun g => (Req g ∨ g = f) ∨ g ∈ fs) = fun g => Req g ∨ g ∈ f :: fs := by
          funext g
          simp [or_assoc]
        simp only at ih ⊢
        rw [← e]
        exact ih
    cases hg : d.get f.var with
    | none =>
      refine next (fun y hr => ?_) (by rw [posPairs, hg])
      have := (h.2 f.var [y]).mpr ⟨y, rfl, hr⟩
      rw [hg] at this
      cases this
    | some vals =>
      obtain ⟨y, rfl, hr⟩ := (h.2 _ _).mp hg
      by_cases hin : f.val ∈ [y]
      · have hy : f.val = y := by simpa using hin
        refine next (fun z hz => ?_) (by rw [posPairs, hg]; simp only [hin, if_true])
        have := (h.2 f.var [z]).mpr ⟨z, rfl, hz⟩
        rw [hg, Option.some.injEq, List.cons.injEq] at this
        omega
      · have e : posPairs (f :: fs) d = none := by rw [posPairs, hg]; simp only [hin, if_false]
        rw [e]
        refine ⟨⟨f.var, y⟩, f, Or.inl hr, Or.inr (by simp), rfl, ?_⟩
        simp only
        intro h
        exact hin (by simp [h])

/-- the facts of positive literals -/
def PosFact (groups : List (List α)) (conds : List (Literal α)) (f : Fact) : Prop := ∃ l ∈ conds, l.negated = false ∧ f ∈ pairs groups l.atom

theorem posAll_spec (groups : List (List α)) : ∀ (ls : List (Literal α)) (d : Doms) (Req : Fact → Prop), (∀ l ∈ ls, ∃ g ∈ groups, l.atom ∈ g) → PosInv Req d →
    match posAll groups ls d with
    | .error => False
    | .none => ∃ f f' : Fact, (Req f ∨ PosFact groups ls f) ∧ (Req f' ∨ PosFact groups ls f') ∧ f.var = f'.var ∧ f.val ≠ f'.val
    | .ok d' => PosInv (fun f => Req f ∨ PosFact groups ls f) d'
  | [], d, Req, _, h => by simpa [posAll, PosFact] using h
  | l :: ls, d, Req, hc, h => by
    rw [posAll]
    cases hl : l.negated with
    | true =>
      have ih := posAll_spec groups ls d Req (fun l h => hc l (List.mem_cons_of_mem _ h)) h
      have e : ∀ f, PosFact groups (l :: ls) f ↔ PosFact groups ls f := by
        intro f
        simp [PosFact, hl]
      simp only [if_true, e]
      exact ih
    | false =>
      simp only [Bool.false_eq_true, if_false]
      rw [dictionary_some (hc l (by simp))]
      have h1 := posPairs_spec (pairs groups l.atom) d Req h
      have e : ∀ f, PosFact groups (l :: ls) f ↔ f ∈ pairs groups l.atom ∨ PosFact groups ls f := by
        intro f
        simp [PosFact, hl]
      simp only [e]
      cases hp : posPairs (pairs groups l.atom) d with
      | none =>
        rw [hp] at h1
        obtain ⟨f, f', a1, a2, a3⟩ := h1
        exact ⟨f, f', a1.imp_right Or.inl, a2.imp_right Or.inl, a3⟩
      | some d1 =>
        rw [hp] at h1
        have ih := posAll_spec groups ls d1 _ (fun l h => hc l (List.mem_cons_of_mem _ h)) h1
        simp only [or_assoc] at ih
        exact ih

/-! negative literals -/

/-- possible values during the second pass -/
structure NegInv (groups : List (List α)) (Pos : Fact → Prop) (Neg : α → Prop) (d : Doms) : Prop where
  keys : (d.map (·.1)).Nodup
  vals : ∀ (v : Nat) (vals : List Nat), d.get v = some vals → vals ≠ [] ∧ vals.Nodup ∧ ∀ y ∈ vals, y < rangeOf groups v ∧ (Pos ⟨v, y⟩ ∨ ∃ p, Neg p ∧ ∃ i, i ≠ y ∧ (⟨v, i⟩ : Fact) ∈ pairs groups p)
  pos : ∀ f, Pos f → d.get f.var = some [f.val]

/-- the negative literal is enforced -/
def Excluded (groups : List (List α)) (p : α) (d : Doms) : Prop := ∃ f ∈ pairs groups p, ∃ vals, d.get f.var = some vals ∧ f.val ∉ vals

theorem negPairs_spec {groups : List (List α)} {Pos : Fact → Prop} {Neg : α → Prop} {p : α} (hp : Neg p) :
    ∀ (fs : List Fact) (d new : Doms) (done : Bool), (∀ f ∈ fs, f ∈ pairs groups p) → (fs.map (·.var)).Nodup → NegInv groups Pos Neg d →
    (∀ (v : Nat) (vals : List Nat), new.get v = some vals → d.get v = none ∧ ∃ i, (⟨v, i⟩ : Fact) ∈ pairs groups p ∧ vals = (List.range (rangeOf groups v)).filter (fun x => x != i)) →
    (∀ f ∈ fs, new.get f.var = none) → (done = true → Excluded groups p d) → (new.map (·.1)).Nodup →
    match negPairs groups fs d new done with
    | .error => False
    | .none => ∀ (s : α → Prop) (x : State), Represents groups s x → DomHolds d x → s p
    | .ok (d', new', done') => NegInv groups Pos Neg d' ∧
        (∀ (v : Nat) (vals : List Nat), new'.get v = some vals → d'.get v = none ∧ ∃ i, (⟨v, i⟩ : Fact) ∈ pairs groups p ∧ vals = (List.range (rangeOf groups v)).filter (fun x => x != i)) ∧
        (new'.map (·.1)).Nodup ∧ (done' = true → Excluded groups p d') ∧ (done' = false → (fs ≠ [] ∨ new ≠ []) → new' ≠ []) ∧
        (∀ v, d'.get v = none ↔ d.get v = none) ∧ (∀ (v : Nat) (vals vals' : List Nat), d.get v = some vals → d'.get v = some vals' → ∀ y ∈ vals', y ∈ vals) ∧
        ∀ (s : α → Prop) (x : State), Represents groups s x → DomHolds d x → ¬ s p → DomHolds d' x
  | [], d, new, done, _, _, hd, hnew, _, hdone, hk => by
    simp only [negPairs]
    refine ⟨hd, hnew, hk, hdone, fun _ h => ?_, fun _ => by trivial, ?_, fun _ _ _ h _ => h⟩
    · rcases h with h | h
      · exact absurd rfl h
      · exact h
    · intro v vals vals' h1 h2 y hy
      rw [h1, Option.some.injEq] at h2
      subst h2
      exact hy
  | f :: fs, d, new, done, hf, hv, hd, hnew, hfresh, hdone, hk => by
    rw [List.map_cons, List.nodup_cons] at hv
    have hf0 := hf f (by simp)
    rw [negPairs]
    cases hg : d.get f.var with
    | none =>
      simp only
      rw [hfresh f (by simp)]
      simp only
      have ih := negPairs_spec hp fs d (new.put f.var ((List.range (rangeOf groups f.var)).filter (fun x => x != f.val))) done (fun g h => hf g (List.mem_cons_of_mem _ h)) hv.2 hd ?_ ?_ hdone (Doms.nodup_put hk _ _)
      · cases hr : negPairs groups fs d (new.put f.var ((List.range (rangeOf groups f.var)).filter (fun x => x != f.val))) done with
        | error => rw [hr] at ih; exact ih
        | none => rw [hr] at ih; exact ih
        | ok r =>
          rw [hr] at ih
          obtain ⟨d', new', done'⟩ := r
          obtain ⟨a1, a2, a0, a3, a4, a5⟩ := ih
          refine ⟨a1, a2, a0, a3, fun h _ => a4 h (Or.inr ?_), a5⟩
          intro he
          have := Doms.get_put new f.var f.var ((List.range (rangeOf groups f.var)).filter (fun x => x != f.val))
          rw [he] at this
          simp [Doms.get] at this
      · intro v vals h
        rw [Doms.get_put] at h
        by_cases hvv : v = f.var
        · subst hvv
          simp only [if_true, Option.some.injEq] at h
          exact ⟨hg, f.val, hf0, h.symm⟩
        · simp only [hvv, if_false] at h
          exact hnew v vals h
      · intro g hgm
        rw [Doms.get_put, if_neg]
        · exact hfresh g (List.mem_cons_of_mem _ hgm)
        · intro he
          exact hv.1 (he ▸ List.mem_map_of_mem hgm)
    | some vals =>
      simp only
      obtain ⟨g1, g2, g3⟩ := hd.vals _ _ hg
      have hfil : ∀ y ∈ vals, y ≠ f.val → y ∈ vals.filter (fun x => x != f.val && x < rangeOf groups f.var) := by
        intro y hy hne
        simp only [List.mem_filter, Bool.and_eq_true, bne_iff_ne, ne_eq, decide_eq_true_eq]
        exact ⟨hy, hne, (g3 y hy).1⟩
      by_cases he : (vals.filter (fun x => x != f.val && x < rangeOf groups f.var)).isEmpty = true
      · simp only [he, if_true]
        intro s x hR hH
        obtain ⟨y, hy, hxy⟩ := hH _ _ hg
        by_contra hs
        have hne : y ≠ f.val := by
          rintro rfl
          exact hs ((hR.fact hf0).mp hxy)
        have := hfil y hy hne
        rw [List.isEmpty_iff.mp he] at this
        cases this
      · simp only [he, if_false]
        have hd' : NegInv groups Pos Neg (d.put f.var (vals.filter (fun x => x != f.val && x < rangeOf groups f.var))) := by
          refine ⟨Doms.nodup_put hd.keys _ _, ?_, ?_⟩
          · intro v us h
            rw [Doms.get_put] at h
            by_cases hvv : v = f.var
            · subst hvv
              simp only [if_true, Option.some.injEq] at h
              subst h
              exact ⟨by simpa using he, g2.filter _, fun y hy => g3 y (List.mem_of_mem_filter hy)⟩
            · simp only [hvv, if_false] at h
              exact hd.vals v us h
          · intro g hgp
            rw [Doms.get_put]
            by_cases hvv : g.var = f.var
            · have := hd.pos g hgp
              rw [hvv, hg, Option.some.injEq] at this
              subst this
              rw [if_pos hvv]
              rw [List.filter_cons, List.filter_nil] at he ⊢
              split
              · rfl
              · rename_i h0
                rw [if_neg h0] at he
                exact absurd rfl he
            · rw [if_neg hvv]
              exact hd.pos g hgp
        have hex : Excluded groups p (d.put f.var (vals.filter (fun x => x != f.val && x < rangeOf groups f.var))) :=
          ⟨f, hf0, _, by rw [Doms.get_put, if_pos rfl], by simp⟩
        have ih := negPairs_spec hp fs (d.put f.var (vals.filter (fun x => x != f.val && x < rangeOf groups f.var))) new true (fun g h => hf g (List.mem_cons_of_mem _ h)) hv.2 hd' ?_ (fun g h => hfresh g (List.mem_cons_of_mem _ h)) (fun _ => hex) hk
        · have hdom : ∀ (s : α → Prop) (x : State), Represents groups s x → DomHolds d x → ¬ s p → DomHolds (d.put f.var (vals.filter (fun x => x != f.val && x < rangeOf groups f.var))) x := by
            intro s x hR hH hs v us h
            rw [Doms.get_put] at h
            by_cases hvv : v = f.var
            · subst hvv
              simp only [if_true, Option.some.injEq] at h
              subst h
              obtain ⟨y, hy, hxy⟩ := hH _ _ hg
              refine ⟨y, hfil y hy ?_, hxy⟩
              rintro rfl
              exact hs ((hR.fact hf0).mp hxy)
            · simp only [hvv, if_false] at h
              exact hH v us h
          cases hr : negPairs groups fs (d.put f.var (vals.filter (fun x => x != f.val && x < rangeOf groups f.var))) new true with
          | error => rw [hr] at ih; exact ih
          | none =>
            rw [hr] at ih
            intro s x hR hH
            by_contra hs
            exact hs (ih s x hR (hdom s x hR hH hs))
          | ok r =>
            rw [hr] at ih
            obtain ⟨d', new', done'⟩ := r
            obtain ⟨a1, a2, a0, a3, a4, a5, a6, a7⟩ := ih
            refine ⟨a1, a2, a0, a3, ?_, ?_, ?_, fun s x hR hH hs => a7 s x hR (hdom s x hR hH hs) hs⟩
            · intro hdn _
              by_cases hnil : fs ≠ [] ∨ new ≠ []
              · exact a4 hdn hnil
              · have e1 : fs = [] := by
                  by_contra h
                  exact hnil (Or.inl h)
                subst e1
                simp only [negPairs, Py.ok.injEq, Prod.mk.injEq] at hr
                rw [hdn] at hr
                exact absurd hr.2.2 (by simp)
            · intro v
              rw [a5, Doms.get_put]
              by_cases hvv : v = f.var
              · subst hvv
                simp [hg]
              · simp [hvv]
            · intro v us us' h1 h2 y hy
              by_cases hvv : v = f.var
              · subst hvv
                rw [hg, Option.some.injEq] at h1
                subst h1
                exact List.mem_of_mem_filter (a6 f.var _ us' (by rw [Doms.get_put, if_pos rfl]) h2 y hy)
              · exact a6 v us us' (by rw [Doms.get_put, if_neg hvv]; exact h1) h2 y hy
        · intro v us h
          obtain ⟨h1, h2⟩ := hnew v us h
          refine ⟨?_, h2⟩
          rw [Doms.get_put, if_neg]
          · exact h1
          · rintro rfl
            rw [hg] at h1
            cases h1

theorem NegInv.mono {groups : List (List α)} {Pos : Fact → Prop} {Neg Neg' : α → Prop} {d : Doms} (h : NegInv groups Pos Neg d) (hn : ∀ p, Neg p → Neg' p) : NegInv groups Pos Neg' d :=
  ⟨h.keys, fun v vals hg => let ⟨a, b, c⟩ := h.vals v vals hg; ⟨a, b, fun y hy => ⟨(c y hy).1, (c y hy).2.imp_right (fun ⟨p, hp, r⟩ => ⟨p, hn p hp, r⟩)⟩⟩, h.pos⟩

theorem byNumber_mem {d : Doms} {e : Nat × List Nat} : e ∈ byNumber d ↔ e ∈ d := (List.perm_insertionSort _ d).mem_iff

/-- one negative literal -/
theorem addSmallest_spec {groups : List (List α)} {Pos : Fact → Prop} {Neg : α → Prop} {p : α} (hp : Neg p) {d new : Doms} {done : Bool} (hd : NegInv groups Pos Neg d)
    (hnew : ∀ (v : Nat) (vals : List Nat), new.get v = some vals → d.get v = none ∧ ∃ i, (⟨v, i⟩ : Fact) ∈ pairs groups p ∧ vals = (List.range (rangeOf groups v)).filter (fun x => x != i))
    (hkeys : (new.map (·.1)).Nodup) (hdone : done = true → Excluded groups p d) (hne : done = false → new ≠ []) :
    NegInv groups Pos Neg (addSmallest d new done) ∧ Excluded groups p (addSmallest d new done) ∧ (∀ (v : Nat) (vals : List Nat), d.get v = some vals → (addSmallest d new done).get v = some vals) ∧
    ∀ (s : α → Prop) (x : State), Represents groups s x → DomHolds d x → ¬ s p → DomHolds (addSmallest d new done) x := by
  unfold addSmallest
  cases hdn : done with
  | true => exact ⟨hd, hdone hdn, fun _ _ h => h, fun _ _ _ h _ => h⟩
  | false =>
    simp only [Bool.false_eq_true, if_false]
    cases hb : byNumber new with
    | nil =>
      have : new = [] := by
        have := (List.perm_insertionSort (fun a b : Nat × List Nat => a.2.length ≤ b.2.length) new).length_eq
        unfold byNumber at hb
        rw [hb] at this
        exact List.eq_nil_of_length_eq_zero this.symm
      exact absurd this (hne hdn)
    | cons c r =>
      simp only
      have hc : c ∈ new := byNumber_mem.mp (by rw [hb]; simp)
      obtain ⟨h1, i, h2, h3⟩ := hnew _ _ (Doms.mem_get hkeys hc)
      have hlt := pairs_range h2
      simp only at hlt
      refine ⟨⟨Doms.nodup_put hd.keys _ _, ?_, ?_⟩, ⟨⟨c.1, i⟩, h2, c.2, by simp [Doms.get_put], by simp [h3]⟩, ?_, ?_⟩
      · intro v vals h
        rw [Doms.get_put] at h
        by_cases hv : v = c.1
        · subst hv
          simp only [if_true, Option.some.injEq] at h
          subst h
          rw [h3]
          refine ⟨?_, List.nodup_range.filter _, ?_⟩
          · apply List.ne_nil_of_mem (a := rangeOf groups c.1 - 1)
            simp only [List.mem_filter, List.mem_range, bne_iff_ne, ne_eq]
            omega
          · intro y hy
            simp only [List.mem_filter, List.mem_range, bne_iff_ne, ne_eq] at hy
            exact ⟨hy.1, Or.inr ⟨p, hp, i, fun h => hy.2 h.symm, h2⟩⟩
        · simp only [hv, if_false] at h
          exact hd.vals v vals h
      · intro f hf
        rw [Doms.get_put, if_neg]
        · exact hd.pos f hf
        · intro he
          have := hd.pos f hf
          rw [he, h1] at this
          cases this
      · intro v vals h
        rw [Doms.get_put, if_neg]
        · exact h
        · rintro rfl
          rw [h1] at h
          cases h
      · intro s x hR hH hs v vals h
        rw [Doms.get_put] at h
        by_cases hv : v = c.1
        · subst hv
          simp only [if_true, Option.some.injEq] at h
          subst h
          obtain ⟨g, hg, hpi⟩ := mem_pairs.mp h2
          obtain ⟨y, hy, hy2, hy3⟩ := hR _ _ hg
          refine ⟨y, ?_, hy⟩
          rw [h3]
          simp only [List.mem_filter, List.mem_range, bne_iff_ne, ne_eq]
          refine ⟨?_, fun he => hs ((hy3 _ _ hpi).mp he)⟩
          unfold rangeOf
          simp only at hg
          rw [hg]
          exact hy2
        · simp only [hv, if_false] at h
          exact hH v vals h

/-- what is known about a literal list after the second pass -/
theorem negAll_spec {groups : List (List α)} (hn : ∀ g ∈ groups, g.Nodup) {Pos : Fact → Prop} : ∀ (ls : List (Literal α)) (d : Doms) (Neg : α → Prop), (∀ l ∈ ls, ∃ g ∈ groups, l.atom ∈ g) →
    NegInv groups Pos Neg d → (∀ p, Neg p → Excluded groups p d) →
    match negAll groups ls d with
    | .error => False
    | .none => ∀ (s : α → Prop) (x : State), Represents groups s x → DomHolds d x → ¬ ∀ l ∈ ls, l.negated = true → ¬ s l.atom
    | .ok d' => NegInv groups Pos (fun p => Neg p ∨ ∃ l ∈ ls, l.negated = true ∧ l.atom = p) d' ∧ (∀ p, (Neg p ∨ ∃ l ∈ ls, l.negated = true ∧ l.atom = p) → Excluded groups p d') ∧
        ∀ (s : α → Prop) (x : State), Represents groups s x → DomHolds d x → (∀ l ∈ ls, l.negated = true → ¬ s l.atom) → DomHolds d' x
  | [], d, Neg, _, hd, hex => by
    simp only [negAll, List.not_mem_nil, false_and, exists_false, or_false]
    exact ⟨hd, hex, fun _ _ _ h _ => h⟩
  | l :: ls, d, Neg, hc, hd, hex => by
    have hc' : ∀ l ∈ ls, ∃ g ∈ groups, l.atom ∈ g := fun l h => hc l (List.mem_cons_of_mem _ h)
    rw [negAll]
    cases hl : l.negated with
    | false =>
      have e : ∀ p, (∃ l' ∈ l :: ls, l'.negated = true ∧ l'.atom = p) ↔ ∃ l' ∈ ls, l'.negated = true ∧ l'.atom = p := by
        intro p
        simp [hl]
      have e2 : ∀ s : α → Prop, (∀ l' ∈ l :: ls, l'.negated = true → ¬ s l'.atom) ↔ ∀ l' ∈ ls, l'.negated = true → ¬ s l'.atom := by
        intro s
        simp [hl]
      simp only [Bool.false_eq_true, if_false, e, e2]
      exact negAll_spec hn ls d Neg hc' hd hex
    | true =>
      simp only [if_true]
      rw [dictionary_some (hc l (by simp))]
      simp only
      have h1 := negPairs_spec (groups := groups) (Pos := Pos) (Neg := fun p => Neg p ∨ p = l.atom) (p := l.atom) (Or.inr rfl) (pairs groups l.atom) d [] false (fun f h => h) (pairs_vars hn _)
        (hd.mono (fun p h => Or.inl h)) (fun v vals h => by simp [Doms.get] at h) (fun f _ => by simp [Doms.get]) (by simp) (by simp)
      cases hr : negPairs groups (pairs groups l.atom) d [] false with
      | error => rw [hr] at h1; exact h1
      | none =>
        rw [hr] at h1
        intro s x hR hH hs
        exact hs l (by simp) hl (h1 s x hR hH)
      | ok r =>
        rw [hr] at h1
        obtain ⟨d1, new, done⟩ := r
        obtain ⟨a1, a2, a0, a3, a4, a5, a6, a7⟩ := h1
        simp only
        obtain ⟨b1, b2, b3, b4⟩ := addSmallest_spec (Neg := fun p => Neg p ∨ p = l.atom) (p := l.atom) (Or.inr rfl) a1 a2 a0 a3 (fun h => a4 h (Or.inl (pairs_ne_nil (hc l (by simp)))))
        have hex' : ∀ p, (Neg p ∨ p = l.atom) → Excluded groups p (addSmallest d1 new done) := by
          rintro p (hp | rfl)
          · obtain ⟨f, hf, vals, hv, hnv⟩ := hex p hp
            cases hg : d1.get f.var with
            | none =>
              rw [(a5 f.var).mp hg] at hv
              cases hv
            | some vals' => exact ⟨f, hf, vals', b3 _ _ hg, fun h => hnv (a6 _ _ _ hv hg _ h)⟩
          · exact b2
        have ih := negAll_spec hn ls (addSmallest d1 new done) _ hc' b1 hex'
        have e : ∀ p, (Neg p ∨ ∃ l' ∈ l :: ls, l'.negated = true ∧ l'.atom = p) ↔ ((Neg p ∨ p = l.atom) ∨ ∃ l' ∈ ls, l'.negated = true ∧ l'.atom = p) := by
          intro p
          simp only [List.mem_cons, exists_eq_or_imp, hl, true_and, or_assoc, eq_comm (a := p)]
        have e2 : ∀ s : α → Prop, (∀ l' ∈ l :: ls, l'.negated = true → ¬ s l'.atom) ↔ (¬ s l.atom ∧ ∀ l' ∈ ls, l'.negated = true → ¬ s l'.atom) := by
          intro s
          simp [hl]
        simp only [e, e2]
        cases hq : negAll groups ls (addSmallest d1 new done) with
        | error => rw [hq] at ih; exact ih
        | none =>
          rw [hq] at ih
          intro s x hR hH hs
          exact ih s x hR (b4 s x hR (a7 s x hR hH hs.1) hs.1) hs.2
        | ok d2 =>
          rw [hq] at ih
          exact ⟨ih.1, ih.2.1, fun s x hR hH hs => ih.2.2 s x hR (b4 s x hR (a7 s x hR hH hs.1) hs.1) hs.2⟩

/-! multiplying out -/

theorem multiplyOut_spec : ∀ (d : Doms) (flat : List (List Fact)), d.Pairwise (fun a b => a.2.length ≤ b.2.length) → (∀ e ∈ d, e.2 ≠ []) → (flat.length = 1 ∨ ∀ e ∈ d, 2 ≤ e.2.length) →
    ∃ cs, multiplyOut d flat = some cs ∧ (∀ c, c ∈ cs ↔ ∃ c0 ∈ flat, ∃ r, List.Forall₂ (fun (f : Fact) (e : Nat × List Nat) => f.var = e.1 ∧ f.val ∈ e.2) r d ∧ c = c0 ++ r) ∧
      ((∀ e ∈ d, e.2.length = 1) → flat.length = 1 → cs.length = 1)
  | [], flat, _, _, _ => ⟨flat, rfl, fun c => by simp, fun _ h => h⟩
  | (v, vals) :: d, flat, hs, hne, hf => by
    rw [List.pairwise_cons] at hs
    have hne' : ∀ e ∈ d, e.2 ≠ [] := fun e h => hne e (List.mem_cons_of_mem _ h)
    have step : ∀ flat' : List (List Fact), (flat'.length = 1 ∨ ∀ e ∈ d, 2 ≤ e.2.length) → (∀ c, c ∈ flat' ↔ ∃ c0 ∈ flat, ∃ x ∈ vals, c = c0 ++ [⟨v, x⟩]) → (vals.length = 1 → flat.length = 1 → flat'.length = 1) →
        multiplyOut ((v, vals) :: d) flat = multiplyOut d flat' →
        ∃ cs, multiplyOut ((v, vals) :: d) flat = some cs ∧ (∀ c, c ∈ cs ↔ ∃ c0 ∈ flat, ∃ r, List.Forall₂ (fun (f : Fact) (e : Nat × List Nat) => f.var = e.1 ∧ f.val ∈ e.2) r ((v, vals) :: d) ∧ c = c0 ++ r) ∧
          ((∀ e ∈ (v, vals) :: d, e.2.length = 1) → flat.length = 1 → cs.length = 1) := by
      intro flat' h1 h2 h3 he
      obtain ⟨cs, hcs, hmem, hlen⟩ := multiplyOut_spec d flat' hs.2 hne' h1
      refine ⟨cs, he.trans hcs, fun c => ?_, fun ha hb => hlen (fun e h => ha e (List.mem_cons_of_mem _ h)) (h3 (ha (v, vals) (by simp)) hb)⟩
      rw [hmem]
      constructor
      · rintro ⟨c1, hc1, r, hr, rfl⟩
        obtain ⟨c0, hc0, x, hx, rfl⟩ := (h2 c1).mp hc1
        exact ⟨c0, hc0, ⟨v, x⟩ :: r, .cons ⟨rfl, hx⟩ hr, by simp⟩
      · rintro ⟨c0, hc0, r, hr, rfl⟩
        cases hr with
        | cons ha hr =>
          rename_i f r
          exact ⟨c0 ++ [f], (h2 _).mpr ⟨c0, hc0, f.val, ha.2, by rw [← show f.var = v from ha.1]⟩, r, hr, by simp⟩
    by_cases h1 : vals.length = 1
    · obtain ⟨x, rfl⟩ := List.length_eq_one_iff.mp h1
      have hfl : flat.length = 1 := by
        rcases hf with hf | hf
        · exact hf
        · have := hf _ (List.mem_cons_self ..)
          simp at this
      obtain ⟨c, rfl⟩ := List.length_eq_one_iff.mp hfl
      exact step [c ++ [⟨v, x⟩]] (Or.inl rfl) (by simp) (by simp) (by rw [multiplyOut])
    · have h2 : 2 ≤ vals.length := by
        have := List.length_pos_of_ne_nil (hne (v, vals) (by simp))
        simp only at this
        omega
      refine step (flat.flatMap (fun c => vals.map (fun x => c ++ [⟨v, x⟩]))) (Or.inr (fun e he => le_trans h2 (hs.1 e he))) ?_ (fun h => absurd h h1) ?_
      · intro c
        simp only [List.mem_flatMap, List.mem_map]
        constructor
        · rintro ⟨c0, h, x, hx, rfl⟩
          exact ⟨c0, h, x, hx, rfl⟩
        · rintro ⟨c0, h, x, hx, rfl⟩
          exact ⟨c0, h, x, hx, rfl⟩
      · match vals, h2 with
        | [], h => simp at h
        | [_], h => simp at h
        | a :: b :: r, _ => rw [multiplyOut] <;> simp

/-- how the facts of a translated condition are related to the literals -/
structure Translates (groups : List (List α)) (conds : List (Literal α)) (c : List Fact) : Prop where
  vars : (c.map (·.var)).Nodup
  valid : ∀ f ∈ c, f.val < rangeOf groups f.var
  pos : ∀ l ∈ conds, l.negated = false → ∀ f ∈ pairs groups l.atom, f ∈ c
  neg : ∀ l ∈ conds, l.negated = true → ∃ f ∈ pairs groups l.atom, ∃ y, y ≠ f.val ∧ (⟨f.var, y⟩ : Fact) ∈ c
  origin : ∀ f ∈ c, (∃ l ∈ conds, l.negated = false ∧ f ∈ pairs groups l.atom) ∨ ∃ l ∈ conds, l.negated = true ∧ ∃ i, i ≠ f.val ∧ (⟨f.var, i⟩ : Fact) ∈ pairs groups l.atom

theorem Translates.sound {groups : List (List α)} {conds : List (Literal α)} {c : List Fact} (h : Translates groups conds c) (hc : ∀ l ∈ conds, ∃ g ∈ groups, l.atom ∈ g) {s : α → Prop} {x : State}
    (hR : Represents groups s x) (hH : allHold c x) : ∀ l ∈ conds, l.holds s := by
  intro l hl
  unfold Literal.holds
  cases hn : l.negated with
  | false =>
    simp only [Bool.false_eq_true, if_false]
    obtain ⟨f, hf⟩ := List.exists_mem_of_ne_nil _ (pairs_ne_nil (hc l hl))
    exact (hR.fact hf).mp (hH f (h.pos l hl hn f hf))
  | true =>
    simp only [if_true]
    obtain ⟨f, hf, y, hy, hc⟩ := h.neg l hl hn
    intro hs
    have h1 := (hR.fact hf).mpr hs
    have h2 := hH _ hc
    unfold Fact.holds at h1 h2
    rw [h1, Option.some.injEq] at h2
    exact hy h2.symm

theorem forall2_get {d : Doms} {r : List Fact} (h : List.Forall₂ (fun (f : Fact) (e : Nat × List Nat) => f.var = e.1 ∧ f.val ∈ e.2) r d) :
    r.map (·.var) = d.map (·.1) ∧ (∀ f ∈ r, ∃ e ∈ d, f.var = e.1 ∧ f.val ∈ e.2) ∧ ∀ e ∈ d, ∃ f ∈ r, f.var = e.1 ∧ f.val ∈ e.2 := by
  induction h with
  | nil => simp
  | cons ha hr ih =>
    rename_i f e r d
    refine ⟨by simp [ha.1, ih.1], ?_, ?_⟩
    · intro g hg
      rcases List.mem_cons.mp hg with rfl | hg
      · exact ⟨e, by simp, ha⟩
      · obtain ⟨e', h1, h2⟩ := ih.2.1 g hg
        exact ⟨e', List.mem_cons_of_mem _ h1, h2⟩
    · intro g hg
      rcases List.mem_cons.mp hg with rfl | hg
      · exact ⟨f, by simp, ha⟩
      · obtain ⟨e', h1, h2⟩ := ih.2.2 g hg
        exact ⟨e', List.mem_cons_of_mem _ h1, h2⟩

theorem exists_forall2 {d : Doms} {x : State} (h : ∀ e ∈ d, ∃ y ∈ e.2, x[e.1]? = some y) :
    ∃ r : List Fact, List.Forall₂ (fun (f : Fact) (e : Nat × List Nat) => f.var = e.1 ∧ f.val ∈ e.2) r d ∧ allHold r x := by
  induction d with
  | nil => exact ⟨[], .nil, by simp [allHold]⟩
  | cons e d ih =>
    obtain ⟨r, h1, h2⟩ := ih (fun e he => h e (List.mem_cons_of_mem _ he))
    obtain ⟨y, hy, hx⟩ := h e (by simp)
    refine ⟨⟨e.1, y⟩ :: r, .cons ⟨rfl, hy⟩ h1, ?_⟩
    intro f hf
    rcases List.mem_cons.mp hf with rfl | hf
    · exact hx
    · exact h2 f hf

theorem translateAux_spec {groups : List (List α)} (hn : ∀ g ∈ groups, g.Nodup) {conds : List (Literal α)} (hne : conds ≠ []) (hc : ∀ l ∈ conds, ∃ g ∈ groups, l.atom ∈ g) :
    match translateAux groups conds with
    | .error => False
    | .none => ∀ (s : α → Prop) (x : State), Represents groups s x → ¬ ∀ l ∈ conds, l.holds s
    | .ok cs => (∀ c ∈ cs, Translates groups conds c) ∧ (∀ (s : α → Prop) (x : State), Represents groups s x → (∀ l ∈ conds, l.holds s) → ∃ c ∈ cs, allHold c x) ∧ cs ≠ [] ∧
        ((∀ l ∈ conds, l.negated = true → ∀ g ∈ groups, l.atom ∈ g → g = [l.atom]) → cs.length = 1) := by
  have h1 := posAll_spec groups conds [] (fun _ => False) hc ⟨by simp, fun v vals => by simp [Doms.get]⟩
  have hpos : ∀ (s : α → Prop) (x : State), Represents groups s x → (∀ l ∈ conds, l.holds s) → ∀ f, PosFact groups conds f → f.holds x := by
    rintro s x hR hs f ⟨l, hl, hln, hf⟩
    have := hs l hl
    unfold Literal.holds at this
    rw [hln] at this
    exact (hR.fact hf).mpr this
  unfold translateAux
  cases hp : posAll groups conds [] with
  | error => rw [hp] at h1; exact h1
  | none =>
    rw [hp] at h1
    simp only [false_or] at h1
    obtain ⟨f, f', hf, hf', hv, hne'⟩ := h1
    intro s x hR hs
    have e1 := hpos s x hR hs f hf
    have e2 := hpos s x hR hs f' hf'
    unfold Fact.holds at e1 e2
    rw [hv, e2, Option.some.injEq] at e1
    exact hne' e1.symm
  | ok d =>
    rw [hp] at h1
    simp only [false_or] at h1 ⊢
    have hneg0 : NegInv groups (PosFact groups conds) (fun _ => False) d := by
      refine ⟨h1.1, fun v vals h => ?_, fun f hf => (h1.2 _ _).mpr ⟨f.val, rfl, hf⟩⟩
      obtain ⟨y, rfl, hy⟩ := (h1.2 _ _).mp h
      refine ⟨by simp, by simp, fun z hz => ?_⟩
      rw [List.mem_singleton.mp hz]
      refine ⟨?_, Or.inl hy⟩
      obtain ⟨l, _, _, hf⟩ := hy
      have := pairs_range hf
      simp only at this
      omega
    have h2 := negAll_spec hn conds d (fun _ => False) hc hneg0 (fun p h => h.elim)
    have hdom : ∀ (s : α → Prop) (x : State), Represents groups s x → (∀ l ∈ conds, l.holds s) → DomHolds d x := by
      intro s x hR hs v vals h
      obtain ⟨y, rfl, hy⟩ := (h1.2 _ _).mp h
      exact ⟨y, by simp, hpos s x hR hs _ hy⟩
    have hnegs : ∀ (s : α → Prop), (∀ l ∈ conds, l.holds s) → ∀ l ∈ conds, l.negated = true → ¬ s l.atom := by
      intro s hs l hl hln
      have := hs l hl
      unfold Literal.holds at this
      rw [hln] at this
      exact this
    cases hq : negAll groups conds d with
    | error => rw [hq] at h2; exact h2
    | none =>
      rw [hq] at h2
      intro s x hR hs
      exact h2 s x hR (hdom s x hR hs) (hnegs s hs)
    | ok d' =>
      rw [hq] at h2
      simp only [false_or] at h2 ⊢
      obtain ⟨hI, hE, hS⟩ := h2
      have hnil : conds.isEmpty = false := by simpa using hne
      simp only [hnil, Bool.false_eq_true, if_false]
      obtain ⟨cs, hcs, hmem, hlen⟩ := multiplyOut_spec (byNumber d') [[]] (List.pairwise_insertionSort (r := fun a b : Nat × List Nat => a.2.length ≤ b.2.length) d')
        (fun e he => (hI.vals e.1 e.2 (Doms.mem_get hI.keys (byNumber_mem.mp he))).1) (Or.inl rfl)
      rw [hcs]
      simp only [List.mem_singleton, exists_eq_left, List.nil_append] at hmem ⊢
      have hmem' : ∀ c, c ∈ cs ↔ List.Forall₂ (fun (f : Fact) (e : Nat × List Nat) => f.var = e.1 ∧ f.val ∈ e.2) c (byNumber d') := by
        intro c
        rw [hmem]
        constructor
        · rintro ⟨r, hr, rfl⟩
          exact hr
        · intro h
          exact ⟨c, h, rfl⟩
      have hcomp : ∀ (s : α → Prop) (x : State), Represents groups s x → (∀ l ∈ conds, l.holds s) → ∃ c ∈ cs, allHold c x := by
        intro s x hR hs
        have hD := hS s x hR (hdom s x hR hs) (hnegs s hs)
        obtain ⟨r, hr, hh⟩ := exists_forall2 (d := byNumber d') (x := x) (fun e he => hD e.1 e.2 (Doms.mem_get hI.keys (byNumber_mem.mp he)))
        exact ⟨r, (hmem' r).mpr hr, hh⟩
      refine ⟨fun c hcm => ?_, hcomp, ?_, ?_⟩
      · obtain ⟨f1, f2, f3⟩ := forall2_get ((hmem' c).mp hcm)
        have hget : ∀ f ∈ c, ∃ vals, d'.get f.var = some vals ∧ f.val ∈ vals := by
          intro f hf
          obtain ⟨e, he, h3, h4⟩ := f2 f hf
          exact ⟨e.2, by rw [h3]; exact Doms.mem_get hI.keys (byNumber_mem.mp he), h4⟩
        have hin : ∀ (v : Nat) (vals : List Nat), d'.get v = some vals → ∃ y ∈ vals, (⟨v, y⟩ : Fact) ∈ c := by
          intro v vals h
          obtain ⟨f, hf, h3, h4⟩ := f3 (v, vals) (byNumber_mem.mpr (Doms.get_mem h))
          refine ⟨f.val, h4, ?_⟩
          rw [← show f.var = v from h3]
          exact hf
        refine ⟨?_, ?_, ?_, ?_, ?_⟩
        · rw [f1]
          exact ((List.perm_insertionSort _ d').map _).nodup_iff.mpr hI.keys
        · intro f hf
          obtain ⟨vals, h3, h4⟩ := hget f hf
          exact ((hI.vals _ _ h3).2.2 _ h4).1
        · intro l hl hln f hf
          obtain ⟨y, hy, hyc⟩ := hin _ _ (hI.pos f ⟨l, hl, hln, hf⟩)
          rw [List.mem_singleton.mp hy] at hyc
          exact hyc
        · intro l hl hln
          obtain ⟨f, hf, vals, h3, h4⟩ := hE l.atom ⟨l, hl, hln, rfl⟩
          obtain ⟨y, hy, hyc⟩ := hin _ _ h3
          exact ⟨f, hf, y, fun h => h4 (h ▸ hy), hyc⟩
        · intro f hf
          obtain ⟨vals, h3, h4⟩ := hget f hf
          rcases ((hI.vals _ _ h3).2.2 _ h4).2 with h5 | ⟨p, ⟨l, hl, hln, rfl⟩, i, hi, hp⟩
          · exact Or.inl h5
          · exact Or.inr ⟨l, hl, hln, i, hi, hp⟩
      · have : ∃ r : List Fact, List.Forall₂ (fun (f : Fact) (e : Nat × List Nat) => f.var = e.1 ∧ f.val ∈ e.2) r (byNumber d') := by
          have hv : ∀ e ∈ byNumber d', e.2 ≠ [] := fun e he => (hI.vals e.1 e.2 (Doms.mem_get hI.keys (byNumber_mem.mp he))).1
          clear hcomp hmem' hmem hlen hcs
          revert hv
          generalize byNumber d' = dd
          intro hv
          induction dd with
          | nil => exact ⟨[], .nil⟩
          | cons e d ih =>
            obtain ⟨r, hr⟩ := ih (fun e he => hv e (List.mem_cons_of_mem _ he))
            obtain ⟨y, hy⟩ := List.exists_mem_of_ne_nil _ (hv e (by simp))
            exact ⟨⟨e.1, y⟩ :: r, .cons ⟨rfl, hy⟩ hr⟩
        obtain ⟨r, hr⟩ := this
        exact List.ne_nil_of_mem ((hmem' r).mpr hr)
      · intro hsingle
        refine hlen (fun e he => ?_) rfl
        have hg := Doms.mem_get hI.keys (byNumber_mem.mp he)
        obtain ⟨g1, g2, g3⟩ := hI.vals _ _ hg
        by_cases hP : ∃ y ∈ e.2, PosFact groups conds ⟨e.1, y⟩
        · obtain ⟨y, _, hy⟩ := hP
          have := hI.pos _ hy
          simp only at this
          rw [hg, Option.some.injEq] at this
          rw [this]
          rfl
        · have hall : ∀ y ∈ e.2, y = 1 := by
            intro y hy
            rcases (g3 y hy).2 with h | ⟨p, ⟨l, hl, hln, rfl⟩, i, hi, hp⟩
            · exact absurd ⟨y, hy, h⟩ hP
            · obtain ⟨g, hgr, hgi⟩ := mem_pairs.mp hp
              have hgs := hsingle l hl hln g (List.mem_of_getElem? hgr) (List.mem_of_getElem? hgi)
              have h5 := (g3 y hy).1
              unfold rangeOf at h5
              simp only at hgr hgi
              rw [hgr] at h5
              rw [hgs] at h5 hgi
              have h6 := (List.getElem?_eq_some_iff.mp hgi).1
              simp only [List.length_singleton] at h5 h6
              omega
          match hv : e.2, g1, g2, hall with
          | [], h, _, _ => exact absurd rfl h
          | [_], _, _, _ => rfl
          | a :: b :: r, _, hnd, ha =>
            have e1 := ha a (by simp)
            have e2 := ha b (by simp)
            simp [e1, e2] at hnd

theorem translateConds_spec {groups mutexGroups : List (List α)} (hn : ∀ g ∈ groups, g.Nodup) (hn' : ∀ g ∈ mutexGroups, g.Nodup) {conds : List (Literal α)}
    (hc : ∀ l ∈ conds, ∃ g ∈ groups, l.atom ∈ g) (hc' : ∀ l ∈ conds, ∃ g ∈ mutexGroups, l.atom ∈ g) :
    match translateConds groups mutexGroups conds with
    | .error => False
    | .none => ∀ (s : α → Prop) (x x' : State), Represents groups s x → Represents mutexGroups s x' → ¬ ∀ l ∈ conds, l.holds s
    | .ok cs => (∀ c ∈ cs, Translates groups conds c) ∧ (∀ (s : α → Prop) (x : State), Represents groups s x → (∀ l ∈ conds, l.holds s) → ∃ c ∈ cs, allHold c x) ∧ cs ≠ [] ∧
        ((∀ l ∈ conds, l.negated = true → ∀ g ∈ groups, l.atom ∈ g → g = [l.atom]) → cs.length = 1) := by
  unfold translateConds
  by_cases he : conds = []
  · subst he
    simp only [List.isEmpty_nil, if_true]
    refine ⟨fun c h => ?_, fun s x _ _ => ⟨[], by simp, by simp [allHold]⟩, by simp, fun _ => rfl⟩
    rw [List.mem_singleton.mp h]
    exact ⟨by simp, by simp, by simp, by simp, by simp⟩
  · have hnil : conds.isEmpty = false := by simpa using he
    simp only [hnil, Bool.false_eq_true, if_false]
    have h1 := translateAux_spec hn' he hc'
    have h2 := translateAux_spec hn he hc
    cases hm : translateAux mutexGroups conds with
    | error => rw [hm] at h1; exact h1
    | none =>
      rw [hm] at h1
      exact fun s x x' _ hR' => h1 s x' hR'
    | ok cs' =>
      simp only
      cases hg : translateAux groups conds with
      | error => rw [hg] at h2; exact h2
      | none =>
        rw [hg] at h2
        exact fun s x x' hR _ => h2 s x hR
      | ok cs => rw [hg] at h2; exact h2

end
end Verif.StripsToSas
