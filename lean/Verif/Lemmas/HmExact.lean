import Verif.Lemmas.HmLoop
import Verif.Lemmas.SimpleSucc

/- The fixpoint of the updates is h^m. -/
namespace Verif
open Verif.Hm

theorem HmLe.mono {t : Task} {m : Nat} {s : State} {T : Finset Fact} {n : Nat} (h : HmLe t m s T n) : ∀ {n' : Nat}, n ≤ n' → HmLe t m s T n' := by
  induction h with
  | init T n h => exact fun _ => .init T _ h
  | op T n i o ho ha hd hU ih =>
    intro n' hn
    have e : n' = (n' - o.cost) + o.cost := by omega
    rw [e]
    exact .op T _ i o ho ha hd (fun U h1 h2 => ih U h1 h2 (by omega))

/-- inconsistent sets have no estimate, for m ≥ 2 -/
theorem HmLe.consistent {t : Task} {m : Nat} {s : State} (hm : 2 ≤ m) {T : Finset Fact} {n : Nat} (h : HmLe t m s T n) : ∀ f ∈ T, ∀ g ∈ T, f.var = g.var → f.val = g.val := by
  induction h with
  | init T n h =>
    intro f hf g hg e
    have h1 := h f hf
    have h2 := h g hg
    unfold Fact.holds at h1 h2
    rw [e, h2] at h1
    simpa using h1.symm
  | op T n i o ho ha hd hU ih =>
    intro f hf g hg e
    by_contra hne
    by_cases af : o.adds f
    · obtain ⟨x, hx, rfl⟩ := af
      exact hd g hg ⟨x, hx, e, hne⟩
    · by_cases ag : o.adds g
      · obtain ⟨x, hx, rfl⟩ := ag
        exact hd f hf ⟨x, hx, e.symm, fun h => hne h.symm⟩
      · have hmem : ∀ f : Fact, f ∈ o.addSet ↔ o.adds f := by
          intro f; simp [Operator.addSet, factSet, Operator.adds]
        have hs : ({f, g} : Finset Fact) ⊆ factSet o.pre ∪ (T \ o.addSet) := by
          intro x hx
          simp only [Finset.mem_insert, Finset.mem_singleton] at hx
          simp only [Finset.mem_union, Finset.mem_sdiff, hmem]
          rcases hx with rfl | rfl
          · exact Or.inr ⟨hf, af⟩
          · exact Or.inr ⟨hg, ag⟩
        have hc : ({f, g} : Finset Fact).card ≤ m := by
          have := Finset.card_le_two (a := f) (b := g)
          omega
        exact hne (ih _ hs hc f (by simp) g (by simp) e)

theorem mem_addSet {o : Operator} {f : Fact} : f ∈ o.addSet ↔ o.adds f := by simp [Operator.addSet, factSet, Operator.adds]

theorem mem_factSet {l : List Fact} {f : Fact} : f ∈ factSet l ↔ f ∈ l := by simp [factSet]

end Verif

namespace Verif.Hm

section
variable {t : Task} {m : Nat} {s : State}

/-- soundness: finite values are estimates -/
structure Sound (t : Task) (m : Nat) (s : State) (val : Tuple → Nat) : Prop where
  le : ∀ T ∈ allTuples t m, val T ≤ inf
  est : ∀ T ∈ allTuples t m, val T ≠ inf → HmLe t m s (factSet T) (val T)

theorem sublist_filter {pre : Tuple} (ha : Asc pre) {U : Finset Fact} (hU : U ⊆ factSet pre) : ∃ u : Tuple, u.Sublist pre ∧ factSet u = U ∧ u.length = U.card := by
  refine ⟨pre.filter (fun f => decide (f ∈ U)), List.filter_sublist, ?_, ?_⟩
  · ext f
    rw [mem_factSet, List.mem_filter, decide_eq_true_eq]
    exact ⟨fun h => h.2, fun h => ⟨mem_factSet.mp (hU h), h⟩⟩
  · have e : factSet (pre.filter (fun f => decide (f ∈ U))) = U := by
      ext f
      rw [mem_factSet, List.mem_filter, decide_eq_true_eq]
      exact ⟨fun h => h.2, fun h => ⟨mem_factSet.mp (hU h), h⟩⟩
    rw [← congrArg Finset.card e]
    exact (List.toFinset_card_of_nodup (ha.nodup.sublist List.filter_sublist)).symm

theorem card_factSet {u : Tuple} (ha : Asc u) : (factSet u).card = u.length := List.toFinset_card_of_nodup ha.nodup

/-- the value of a tuple is an estimate of all small subsets -/
theorem eval_estimates {val : Tuple → Nat} (hs : Sound t m s val) {pre : Tuple} (ha : Asc pre) {c : Nat} (hc : eval (allTuples t m) m val pre = some c) (hne : c ≠ inf) :
    ∀ U ⊆ factSet pre, U.card ≤ m → HmLe t m s U c := by
  intro U hU hcard
  obtain ⟨h1, _⟩ := eval_spec hc
  have hci : c ≤ inf := eval_inf hs.le hc
  by_cases he : U = ∅
  · subst he
    exact .init _ _ (by simp)
  · obtain ⟨u, k1, k2, k3⟩ := sublist_filter ha hU
    have hu : u ≠ [] := by
      rintro rfl
      exact he (by rw [← k2]; rfl)
    obtain ⟨h2, h3⟩ := h1 u (mem_partials.mpr ⟨k1, hu, by omega⟩)
    have := hs.est u h2 (by omega)
    rw [k2] at this
    exact this.mono h3

theorem not_deletes {o : Operator} (h : (o.effects.map (·.fact.var)).Nodup) {f : Fact} (ha : o.adds f) : ¬o.deletes f := by
  rintro ⟨e, he, h1, h2⟩
  obtain ⟨e', he', rfl⟩ := ha
  have : e = e' := List.inj_on_of_nodup_map h he he' h1
  subst this
  exact h2 rfl

theorem mem_opEff {o : Operator} {f : Fact} : f ∈ opEff o ↔ o.adds f := by
  unfold opEff Operator.adds
  rw [mem_sortFacts, List.mem_map]

theorem rule_asc (ht : HmTask t) {o : Operator} (ho : o ∈ t.ops) {pre : Tuple} (h : pre = opPre o ∨ ∃ T, Rule (allTuples t m) m o pre T) : Asc pre := by
  rcases h with rfl | ⟨T, h⟩
  · exact opPre_asc (ht.pre o ho)
  · cases h with
    | eff p _ => exact opPre_asc (ht.pre o ho)
    | ext p T _ _ _ _ hn => exact extPre_asc hn

theorem rule_valid (ht : HmTask t) {o : Operator} (ho : o ∈ t.ops) {pre : Tuple} (h : pre = opPre o ∨ ∃ T, Rule (allTuples t m) m o pre T) : ∀ f ∈ pre, t.ValidFact f := by
  have h0 : ∀ f ∈ opPre o, t.ValidFact f := fun f hf => ht.wf.pre o ho f (mem_sortFacts.mp hf)
  rcases h with rfl | ⟨T, h⟩
  · exact h0
  · cases h with
    | eff p _ => exact h0
    | ext p T _ _ hT _ _ =>
      intro f hf
      rcases mem_extPre.mp hf with h | ⟨h, _⟩
      · exact ht.wf.pre o ho f h
      · exact (mem_allTuples.mp hT).valid f h

theorem opEff_asc (ht : HmTask t) {o : Operator} (ho : o ∈ t.ops) : Asc (opEff o) := by
  refine sortFacts_asc ?_
  rw [List.map_map]
  exact ht.eff o ho

theorem opEff_valid (ht : HmTask t) {o : Operator} (ho : o ∈ t.ops) : ∀ f ∈ opEff o, t.ValidFact f := by
  intro f hf
  obtain ⟨e, he, rfl⟩ := mem_opEff.mp hf
  exact ht.wf.effFact o ho e he

theorem rule_target (ht : HmTask t) {o : Operator} (ho : o ∈ t.ops) {pre T : Tuple} (h : Rule (allTuples t m) m o pre T) : T ∈ allTuples t m := by
  cases h with
  | eff p hp => exact partials_key (opEff_asc ht ho) (opEff_valid ht ho) hp
  | ext p T _ _ hT _ _ => exact hT

theorem rule_estimate (ht : HmTask t) {i : Nat} {o : Operator} (ho : t.ops[i]? = some o) {pre T : Tuple} (hr : Rule (allTuples t m) m o pre T) {c : Nat} (hk : ∀ U ⊆ factSet pre, U.card ≤ m → HmLe t m s U c) :
    HmLe t m s (factSet T) (c + o.cost) := by
  have hmem := List.mem_of_getElem? ho
  cases hr with
  | eff p hp =>
    obtain ⟨h1, h2, _⟩ := mem_partials.mp hp
    have hadd : ∀ f ∈ T, o.adds f := fun f hf => mem_opEff.mp (h1.subset hf)
    obtain ⟨f, hf⟩ := List.exists_mem_of_ne_nil _ h2
    refine .op _ c i o ho ⟨f, mem_factSet.mpr hf, hadd f hf⟩ (fun g hg => not_deletes (ht.eff o hmem) (hadd g (mem_factSet.mp hg))) fun U hU hcard => hk U ?_ hcard
    intro g hg
    rcases Finset.mem_union.mp (hU hg) with h | h
    · exact mem_factSet.mpr (mem_sortFacts.mpr (mem_factSet.mp h))
    · obtain ⟨h3, h4⟩ := Finset.mem_sdiff.mp h
      exact absurd (mem_addSet.mpr (hadd g (mem_factSet.mp h3))) h4
  | ext p T hp hlen hT he hn =>
    obtain ⟨h1, h2, _⟩ := mem_partials.mp hp
    obtain ⟨e1, e2, e3⟩ := extends_iff.mp he
    obtain ⟨f, hf⟩ := List.exists_mem_of_ne_nil _ h2
    refine .op _ c i o ho ⟨f, mem_factSet.mpr (e3 f hf), mem_opEff.mp (h1.subset hf)⟩ (fun g hg => e1 g (mem_factSet.mp hg)) fun U hU hcard => hk U ?_ hcard
    intro g hg
    refine mem_factSet.mpr (mem_extPre.mpr ?_)
    rcases Finset.mem_union.mp (hU hg) with h | h
    · exact Or.inl (mem_factSet.mp h)
    · obtain ⟨h3, h4⟩ := Finset.mem_sdiff.mp h
      exact Or.inr ⟨mem_factSet.mp h3, fun hgp => h4 (mem_addSet.mpr (mem_opEff.mp (h1.subset hgp)))⟩

theorem sound_invariant (ht : HmTask t) : Invariant (allTuples t m) m t.ops (Sound t m s) (fun pre c _ => ∀ U ⊆ factSet pre, U.card ≤ m → HmLe t m s U c) where
  start _ _ _ _ hs ho hr hc hne := eval_estimates hs (rule_asc ht ho hr) hc hne
  step val o pre T c hs ho hr hk hT hlt hfit := by
    refine ⟨⟨fun U hU => ?_, fun U hU => ?_⟩, fun _ _ h => h⟩
    · unfold upd
      split
      · have := hs.le T hT; omega
      · exact hs.le U hU
    · unfold upd
      split
      · rename_i e
        subst e
        intro _
        obtain ⟨i, hi⟩ := List.getElem?_of_mem ho
        exact rule_estimate ht hi hr hk
      · exact hs.est U hU

theorem mem_stateFacts {s : State} {f : Fact} : f ∈ stateFacts s ↔ f.holds s := by
  unfold stateFacts Fact.holds
  simp only [List.mem_map, List.mem_zipIdx_iff_getElem?, Prod.exists]
  constructor
  · rintro ⟨a, b, h, rfl⟩; exact h
  · intro h; exact ⟨f.val, f.var, h, rfl⟩

theorem initVal_cases (s : State) (T : Tuple) : initVal s T = 0 ∨ initVal s T = inf := checkIn_le

theorem initVal_sound : Sound t m s (initVal s) := by
  have h2 : ∀ T, initVal s T = 0 ∨ initVal s T = inf := fun T => checkIn_le
  refine ⟨fun T _ => ?_, fun T _ hne => ?_⟩
  · rcases h2 T with h | h <;> rw [h]
    exact Nat.zero_le _
  · rcases h2 T with h | h
    · exact .init _ _ fun f hf => mem_stateFacts.mp (checkIn_zero.mp h f (mem_factSet.mp hf))
    · exact absurd h hne

/-- true facts keep the value 0 -/
theorem zero_invariant : Invariant (allTuples t m) m t.ops (fun val => ∀ T ∈ allTuples t m, val T ≤ inf ∧ ((∀ f ∈ T, f.holds s) → val T = 0)) (fun _ _ _ => True) where
  start := by intros; trivial
  step val o pre T c hs ho hr hk hT hlt hfit := by
    refine ⟨fun U hU => ?_, fun _ _ _ => trivial⟩
    unfold upd
    split
    · rename_i e
      subst e
      refine ⟨by have := (hs U hU).1; omega, fun h => ?_⟩
      have := (hs U hU).2 h
      omega
    · exact hs U hU

theorem initVal_zero : ∀ T ∈ allTuples t m, initVal s T ≤ inf ∧ ((∀ f ∈ T, f.holds s) → initVal s T = 0) := by
  intro T _
  refine ⟨?_, fun h => checkIn_zero.mpr fun f hf => mem_stateFacts.mpr (h f hf)⟩
  rcases initVal_cases s T with h | h <;> rw [h]
  exact Nat.zero_le _

/-- no finite value exceeds what can be added -/
def NoOverflow (t : Task) (m : Nat) (val : Tuple → Nat) : Prop :=
  ∀ o ∈ t.ops, ∀ pre T, Rule (allTuples t m) m o pre T → ∀ c, eval (allTuples t m) m val pre = some c → c ≠ inf → c + o.cost < inf

theorem eval_le {val : Tuple → Nat} {pre : Tuple} {c n : Nat} (hc : eval (allTuples t m) m val pre = some c) (h : ∀ T ∈ partials m pre, val T ≤ n) : c ≤ n := by
  rcases (eval_spec hc).2 with rfl | ⟨T, hT, rfl⟩
  · exact Nat.zero_le _
  · exact h T hT

theorem eval_ne_inf {val : Tuple → Nat} {pre : Tuple} {c : Nat} (hc : eval (allTuples t m) m val pre = some c) (h : ∀ T ∈ partials m pre, val T ≠ inf) : c ≠ inf := by
  rcases (eval_spec hc).2 with rfl | ⟨T, hT, rfl⟩
  · decide
  · exact h T hT

theorem addFacts_nodup {p : Tuple} : ∀ {fs pre : Tuple}, pre.Nodup → (addFacts p fs pre).Nodup
  | [], _, h => h
  | f :: fs, pre, h => by
    simp only [addFacts]
    split
    · exact addFacts_nodup h
    · split
      · exact addFacts_nodup h
      · rename_i hf
        refine addFacts_nodup (List.nodup_append.mpr ⟨h, by simp, ?_⟩)
        intro a ha b hb e
        simp only [List.mem_singleton] at hb
        subst e; subst hb
        exact hf ha

/-- the variables of an extension are different if its facts are consistent -/
theorem extPre_nodup (ht : HmTask t) {o : Operator} (ho : o ∈ t.ops) {p T : Tuple} (h : ∀ f ∈ extPre o p T, ∀ g ∈ extPre o p T, f.var = g.var → f.val = g.val) : ((extPre o p T).map (·.var)).Nodup := by
  have hn : (extPre o p T).Nodup := by
    unfold extPre
    exact (sortFacts_perm _).nodup_iff.mpr (addFacts_nodup (opPre_asc (ht.pre o ho)).nodup)
  refine List.Nodup.map_on (fun f hf g hg e => ?_) hn
  have := h f hf g hg e
  cases f; cases g
  simp only at e this
  rw [e, this]

/-- completeness: the final values are at most the estimates -/
theorem complete (ht : HmTask t) {val : Tuple → Nat} (hz : ∀ T ∈ allTuples t m, val T ≤ inf ∧ ((∀ f ∈ T, f.holds s) → val T = 0))
    (hsat : ∀ o ∈ t.ops, ∀ pre T, Rule (allTuples t m) m o pre T → Sat (allTuples t m) m val o pre T) {U : Finset Fact} {n : Nat} (h : HmLe t m s U n) :
    ∀ T ∈ allTuples t m, factSet T ⊆ U → val T ≤ n ∧ (NoOverflow t m val → val T ≠ inf) := by
  induction h with
  | init U n h =>
    intro T hT hTU
    have := (hz T hT).2 fun f hf => h f (hTU (mem_factSet.mpr hf))
    rw [this]
    exact ⟨Nat.zero_le _, fun _ => by decide⟩
  | op U n i o ho ha hd hU ih =>
    intro T hT hTU
    have hk := mem_allTuples.mp hT
    have hmem := List.mem_of_getElem? ho
    -- a rule whose facts are among the preconditions and remaining facts
    have step : ∀ pre, Rule (allTuples t m) m o pre T → factSet pre ⊆ factSet o.pre ∪ (U \ o.addSet) → val T ≤ n + o.cost ∧ (NoOverflow t m val → val T ≠ inf) := by
      intro pre hr hsub
      have hkeys : ∀ V ∈ partials m pre, V ∈ allTuples t m := fun V hV => partials_key (rule_asc ht hmem (Or.inr ⟨T, hr⟩)) (rule_valid ht hmem (Or.inr ⟨T, hr⟩)) hV
      obtain ⟨c, hc⟩ : ∃ c, eval (allTuples t m) m val pre = some c := evalLoop_defined hkeys
      have hV : ∀ V ∈ partials m pre, val V ≤ n ∧ (NoOverflow t m val → val V ≠ inf) := by
        intro V hV
        have hkV := mem_allTuples.mp (hkeys V hV)
        refine ih (factSet V) (fun f hf => hsub ?_) ?_ V (hkeys V hV) (fun _ h => h)
        · exact mem_factSet.mpr ((mem_partials.mp hV).1.subset (mem_factSet.mp hf))
        · rw [card_factSet hkV.asc]; exact hkV.len
      have hcn := eval_le hc (fun V h => (hV V h).1)
      constructor
      · by_cases hci : c = inf
        · have := (hz T hT).1; omega
        · have := hsat o hmem pre T hr c hc hci; omega
      · intro hno
        have hci := eval_ne_inf hc (fun V h => (hV V h).2 hno)
        have h1 := hsat o hmem pre T hr c hc hci
        have h2 := hno o hmem pre T hr c hc hci
        omega
    have hdec : ∃ E : Tuple, E.Sublist T ∧ ∀ f, f ∈ E ↔ f ∈ T ∧ o.adds f := by
      classical
      exact ⟨T.filter (fun f => decide (o.adds f)), List.filter_sublist, fun f => by simp⟩
    obtain ⟨E, hE1, hE2⟩ := hdec
    by_cases hE0 : E = []
    · -- nothing is added
      have hsub : factSet T ⊆ factSet o.pre ∪ (U \ o.addSet) := by
        intro f hf
        refine Finset.mem_union_right _ (Finset.mem_sdiff.mpr ⟨hTU hf, fun h => ?_⟩)
        have : f ∈ E := (hE2 f).mpr ⟨mem_factSet.mp hf, mem_addSet.mp h⟩
        rw [hE0] at this
        simp at this
      obtain ⟨h1, h2⟩ := ih (factSet T) hsub (by rw [card_factSet hk.asc]; exact hk.len) T hT (fun _ h => h)
      exact ⟨by omega, h2⟩
    · have hEe : E ∈ partials m (opEff o) := mem_partials.mpr ⟨asc_sublist (hk.asc.sublist hE1) (opEff_asc ht hmem) (fun f hf => mem_opEff.mpr ((hE2 f).mp hf).2), hE0, Nat.le_trans hE1.length_le hk.len⟩
      by_cases hET : E.length = T.length
      · -- all are added
        have e : E = T := hE1.eq_of_length hET
        rw [e] at hEe
        refine step _ (.eff T hEe) fun f hf => Finset.mem_union_left _ (mem_factSet.mpr (mem_sortFacts.mp (mem_factSet.mp hf)))
      · have hlt : E.length < T.length := by have := hE1.length_le; omega
        have hm2 : 2 ≤ m := by
          have : E.length ≠ 0 := fun h => hE0 (List.length_eq_zero_iff.mp h)
          have := hk.len
          omega
        have hext : extends? o E T = true := extends_iff.mpr ⟨fun f hf => hd f (hTU (mem_factSet.mpr hf)), hlt, fun f hf => hE1.subset hf⟩
        have hsub : factSet (extPre o E T) ⊆ factSet o.pre ∪ (U \ o.addSet) := by
          intro f hf
          rcases mem_extPre.mp (mem_factSet.mp hf) with h | ⟨h1, h2⟩
          · exact Finset.mem_union_left _ (mem_factSet.mpr h)
          · exact Finset.mem_union_right _ (Finset.mem_sdiff.mpr ⟨hTU (mem_factSet.mpr h1), fun h => h2 ((hE2 f).mpr ⟨h1, mem_addSet.mp h⟩)⟩)
        have hn : ((extPre o E T).map (·.var)).Nodup := by
          refine extPre_nodup ht hmem fun f hf g hg e => ?_
          have hs : ({f, g} : Finset Fact) ⊆ factSet o.pre ∪ (U \ o.addSet) := by
            intro x hx
            simp only [Finset.mem_insert, Finset.mem_singleton] at hx
            rcases hx with rfl | rfl
            · exact hsub (mem_factSet.mpr hf)
            · exact hsub (mem_factSet.mpr hg)
          exact (hU {f, g} hs (Nat.le_trans Finset.card_le_two hm2)).consistent hm2 f (by simp) g (by simp) e
        exact step _ (.ext E T hEe (by have := hk.len; omega) hT hext hn) hsub

/-! No overflow -/

/-- different entries whose values are at most `c`, as many as needed to reach `c` -/
def Chain (keys : List Tuple) (C : Nat) (val : Tuple → Nat) (c : Nat) : Prop :=
  ∃ l : List Tuple, l.Nodup ∧ (∀ T ∈ l, T ∈ keys ∧ val T ≤ c) ∧ c ≤ C * l.length

theorem Chain.bound {keys : List Tuple} {C c : Nat} {val : Tuple → Nat} (h : Chain keys C val c) : c ≤ C * keys.length := by
  obtain ⟨l, h1, h2, h3⟩ := h
  have : l.length ≤ keys.length := (List.subperm_of_subset h1 (fun T hT => (h2 T hT).1)).length_le
  exact Nat.le_trans h3 (Nat.mul_le_mul_left C this)

theorem chain_invariant {C : Nat} (hC : ∀ o ∈ t.ops, o.cost ≤ C) : Invariant (allTuples t m) m t.ops (fun val => ∀ T ∈ allTuples t m, val T ≤ inf ∧ (val T ≠ inf → Chain (allTuples t m) C val (val T))) (fun _ c val => Chain (allTuples t m) C val c) where
  start val o pre c hs ho hr hc hne := by
    obtain ⟨h1, h2⟩ := eval_spec hc
    rcases h2 with rfl | ⟨T, hT, rfl⟩
    · exact ⟨[], by simp, by simp, by simp⟩
    · exact (hs T (h1 T hT).1).2 hne
  step val o pre T c hs ho hr hk hT hlt hfit := by
    have keep : ∀ c', Chain (allTuples t m) C val c' → Chain (allTuples t m) C (upd val T (c + o.cost)) c' := by
      rintro c' ⟨l, h1, h2, h3⟩
      refine ⟨l, h1, fun U hU => ⟨(h2 U hU).1, ?_⟩, h3⟩
      have := (h2 U hU).2
      unfold upd
      split
      · rename_i e; subst e; omega
      · exact this
    refine ⟨fun U hU => ?_, fun _ c' h => keep c' h⟩
    by_cases e : U = T
    · subst e
      have e : upd val U (c + o.cost) U = c + o.cost := by simp [upd]
      rw [e]
      refine ⟨by have := (hs U hU).1; omega, fun _ => ?_⟩
      obtain ⟨l, h1, h2, h3⟩ := hk
      have hnot : U ∉ l := fun hm => by have := (h2 U hm).2; omega
      refine ⟨U :: l, List.nodup_cons.mpr ⟨hnot, h1⟩, fun V hV => ?_, ?_⟩
      · rcases List.mem_cons.mp hV with rfl | hV
        · exact ⟨hU, Nat.le_of_eq e⟩
        · refine ⟨(h2 V hV).1, ?_⟩
          have hne : V ≠ U := fun e => hnot (e ▸ hV)
          have := (h2 V hV).2
          simp only [upd, if_neg hne]
          omega
      · have := hC o ho
        rw [List.length_cons, Nat.mul_succ]
        omega
    · have e' : upd val T (c + o.cost) U = val U := by simp [upd, e]
      rw [e']
      exact ⟨(hs U hU).1, fun h => keep _ ((hs U hU).2 h)⟩

theorem initVal_chain {C : Nat} : ∀ T ∈ allTuples t m, initVal s T ≤ inf ∧ (initVal s T ≠ inf → Chain (allTuples t m) C (initVal s) (initVal s T)) := by
  intro T _
  rcases initVal_cases s T with h | h <;> rw [h]
  · exact ⟨Nat.zero_le _, fun _ => ⟨[], by simp, by simp, by simp⟩⟩
  · exact ⟨Nat.le_refl _, fun h => absurd rfl h⟩

end
end Verif.Hm
