import Verif.Lemmas.StripsStable

/-
Translation of operators: the effects of the translated operator do to the variables what the action does to the atoms.
-/
namespace Verif.StripsToSas
open Verif.SasFile
open Verif.Strips
open Verif.Simplify (lookup mkOperator)

theorem gather_some {β γ : Type} {f : β → Py (List γ)} : ∀ {xs : List β}, (∀ x ∈ xs, f x ≠ .error) → ∃ r, gather f xs = some r
  | [], _ => ⟨[], rfl⟩
  | x :: xs, h => by
    obtain ⟨r, hr⟩ := gather_some (f := f) (xs := xs) (fun y hy => h y (List.mem_cons_of_mem _ hy))
    rw [gather]
    cases hx : f x with
    | error => exact absurd hx (h x (by simp))
    | none => exact ⟨r, hr⟩
    | ok l => exact ⟨l ++ r, by rw [hr]⟩

theorem gather_mem {β γ : Type} {f : β → Py (List γ)} : ∀ {xs : List β} {r : List γ}, gather f xs = some r → ∀ y, y ∈ r ↔ ∃ x ∈ xs, ∃ l, f x = .ok l ∧ y ∈ l
  | [], r, h, y => by
    rw [gather, Option.some.injEq] at h
    subst h
    simp
  | x :: xs, r, h, y => by
    rw [gather] at h
    cases hx : f x with
    | error => rw [hx] at h; cases h
    | none =>
      rw [hx] at h
      rw [gather_mem h y]
      simp [hx]
    | ok l =>
      rw [hx] at h
      simp only at h
      cases hg : gather f xs with
      | none => rw [hg] at h; cases h
      | some r' =>
        rw [hg] at h
        simp only [Option.some.injEq] at h
        subst h
        rw [List.mem_append, gather_mem hg y]
        simp [hx]

theorem gather_ok {β γ : Type} {f : β → Py (List γ)} : ∀ {xs : List β} {r : List γ}, gather f xs = some r → ∀ x ∈ xs, f x ≠ .error
  | [], _, _, x, hx => by simp at hx
  | y :: xs, r, h, x, hx => by
    rw [gather] at h
    cases hy : f y with
    | error => rw [hy] at h; cases h
    | none =>
      rw [hy] at h
      rcases List.mem_cons.mp hx with rfl | hx
      · rw [hy]; simp
      · exact gather_ok h x hx
    | ok l =>
      rw [hy] at h
      simp only at h
      cases hg : gather f xs with
      | none => rw [hg] at h; cases h
      | some r' =>
        rcases List.mem_cons.mp hx with rfl | hx
        · rw [hy]; simp
        · exact gather_ok hg x hx

/-! conditions as dictionaries -/

theorem lookup_mem {c : List Fact} {v y : Nat} (h : lookup c v = some y) : (⟨v, y⟩ : Fact) ∈ c := by
  unfold lookup at h
  obtain ⟨f, hf, rfl⟩ := Option.map_eq_some_iff.mp h
  have h1 := List.find?_some hf
  simp only [beq_iff_eq] at h1
  rw [← h1]
  exact List.mem_of_find?_eq_some hf

theorem lookup_none {c : List Fact} {v : Nat} : lookup c v = none ↔ ∀ f ∈ c, f.var ≠ v := by simp [lookup]

theorem vars_inj {c : List Fact} (h : (c.map (·.var)).Nodup) {f g : Fact} (hf : f ∈ c) (hg : g ∈ c) (hv : f.var = g.var) : f = g := List.inj_on_of_nodup_map h hf hg hv

theorem lookup_of_mem {c : List Fact} (h : (c.map (·.var)).Nodup) {f : Fact} (hf : f ∈ c) : lookup c f.var = some f.val := by
  cases hl : lookup c f.var with
  | none => exact absurd rfl (lookup_none.mp hl f hf)
  | some y =>
    have := vars_inj h hf (lookup_mem hl) rfl
    rw [this]

theorem clash_false {c : List Fact} (h : (c.map (·.var)).Nodup) {f : Fact} : clash c f = false ↔ ∀ g ∈ c, g.var = f.var → g = f := by
  unfold clash
  cases hl : lookup c f.var with
  | none =>
    simp only [true_iff]
    exact fun g hg hv => absurd hv (lookup_none.mp hl g hg)
  | some y =>
    simp only [bne_eq_false_iff_eq]
    constructor
    · rintro rfl g hg hv
      have := lookup_of_mem h hg
      rw [hv, hl, Option.some.injEq] at this
      cases f; cases g; simp_all
    · intro hall
      have := hall _ (lookup_mem hl) rfl
      rw [← this]

theorem insertFact_spec {c : List Fact} (h : (c.map (·.var)).Nodup) {f : Fact} (hc : clash c f = false) :
    ((insertFact c f).map (·.var)).Nodup ∧ ∀ g, g ∈ insertFact c f ↔ g ∈ c ∨ g = f := by
  unfold insertFact
  cases hl : lookup c f.var with
  | none =>
    simp only
    refine ⟨?_, fun g => by simp⟩
    rw [List.map_append, List.nodup_append]
    refine ⟨h, by simp, fun a ha b hb hab => ?_⟩
    obtain ⟨g, hg, rfl⟩ := List.mem_map.mp ha
    simp only [List.map_cons, List.map_nil, List.mem_singleton] at hb
    exact lookup_none.mp hl g hg (hab.trans hb)
  | some y =>
    refine ⟨h, fun g => ⟨Or.inl, ?_⟩⟩
    rintro (hg | rfl)
    · exact hg
    · have hm := lookup_mem hl
      rw [(clash_false h).mp hc _ hm rfl] at hm
      exact hm

theorem merge_spec : ∀ {n c m : List Fact}, (c.map (·.var)).Nodup → merge c n = some m → (m.map (·.var)).Nodup ∧ ∀ g, g ∈ m ↔ g ∈ c ∨ g ∈ n
  | [], c, m, h, he => by
    rw [merge, Option.some.injEq] at he
    subst he
    exact ⟨h, by simp⟩
  | f :: n, c, m, h, he => by
    rw [merge] at he
    cases hc : clash c f with
    | true => simp [hc] at he
    | false =>
      simp only [hc, Bool.false_eq_true, if_false] at he
      obtain ⟨h1, h2⟩ := insertFact_spec h hc
      obtain ⟨h3, h4⟩ := merge_spec h1 he
      exact ⟨h3, fun g => by rw [h4, h2, List.mem_cons, or_assoc]⟩

theorem holds_clash {c : List Fact} (h : (c.map (·.var)).Nodup) {f : Fact} {x : State} (hc : allHold c x) (hf : f.holds x) : clash c f = false := by
  rw [clash_false h]
  intro g hg hv
  have h1 := hc g hg
  unfold Fact.holds at h1 hf
  rw [hv, hf, Option.some.injEq] at h1
  cases f; cases g; simp_all

theorem merge_some {x : State} : ∀ {n c : List Fact}, (c.map (·.var)).Nodup → allHold c x → allHold n x → ∃ m, merge c n = some m
  | [], c, _, _, _ => ⟨c, rfl⟩
  | f :: n, c, h, hc, hn => by
    have hcl := holds_clash h hc (hn f (by simp))
    rw [merge, hcl]
    obtain ⟨h1, h2⟩ := insertFact_spec h hcl
    refine merge_some h1 (fun g hg => ?_) (fun g hg => hn g (List.mem_cons_of_mem _ hg))
    rcases (h2 g).mp hg with hg | rfl
    · exact hc g hg
    · exact hn g (by simp)

/-! the order of delete effects -/

theorem mem_firsts {l : List Nat} {x : Nat} : x ∈ firsts l ↔ x ∈ l := by
  induction l with
  | nil => simp [firsts]
  | cons y l ih =>
    rw [firsts, List.mem_cons, List.mem_cons, List.mem_filter, ih]
    by_cases h : x = y <;> simp [h]

theorem mem_delOrder {dels : List (List Fact × List (List Fact))} {u : Fact × Nat} : u ∈ delOrder dels ↔ ∃ d, dels[u.2]? = some d ∧ u.1 ∈ d.1 := by
  have hu : u ∈ dels.zipIdx.flatMap (fun d => d.1.1.map (fun f => (f, d.2))) ↔ ∃ d, dels[u.2]? = some d ∧ u.1 ∈ d.1 := by
    simp only [List.mem_flatMap, List.mem_map, List.mem_zipIdx_iff_getElem?]
    constructor
    · rintro ⟨⟨d, i⟩, hd, f, hf, rfl⟩
      exact ⟨d, hd, hf⟩
    · rintro ⟨d, hd, hf⟩
      exact ⟨(d, u.2), hd, u.1, hf, rfl⟩
  rw [← hu]
  unfold delOrder
  generalize dels.zipIdx.flatMap (fun d => d.1.1.map (fun f => (f, d.2))) = us
  simp only [List.mem_flatMap, mem_firsts, List.mem_filter, beq_iff_eq, List.mem_map]
  constructor
  · rintro ⟨v, _, w, _, h, _⟩
    exact h
  · intro h
    exact ⟨u.1.var, ⟨u, h, rfl⟩, u.1.val, ⟨u, ⟨h, rfl⟩, rfl⟩, h, rfl⟩

/-! the loop over delete effects -/

/-- the condition of a delete effect with some facts for the deleted atom -/
structure Guarded (ps o c : List Fact) : Prop where
  orig : ∀ f ∈ o, f ∈ c
  only : ∀ f ∈ c, f ∈ o ∨ f ∈ ps
  vars : (c.map (·.var)).Nodup

def SharedInv (dels : List (List Fact × List (List Fact))) (shared : List (List (List Fact))) : Prop :=
  ∀ (i : Nat) (d : List Fact × List (List Fact)), dels[i]? = some d → ∃ cs, shared[i]? = some cs ∧ List.Forall₂ (Guarded d.1) d.2 cs

theorem forall2_mem_left {β γ : Type} {R : β → γ → Prop} {l : List β} {r : List γ} (h : List.Forall₂ R l r) : ∀ b ∈ l, ∃ c ∈ r, R b c := by
  induction h with
  | nil => simp
  | cons ha _ ih =>
    intro b hb
    rcases List.mem_cons.mp hb with rfl | hb
    · exact ⟨_, by simp, ha⟩
    · obtain ⟨c, hc, hr⟩ := ih b hb
      exact ⟨c, List.mem_cons_of_mem _ hc, hr⟩

theorem forall2_mem_right {β γ : Type} {R : β → γ → Prop} {l : List β} {r : List γ} (h : List.Forall₂ R l r) : ∀ c ∈ r, ∃ b ∈ l, R b c := by
  induction h with
  | nil => simp
  | cons ha _ ih =>
    intro b hb
    rcases List.mem_cons.mp hb with rfl | hb
    · exact ⟨_, by simp, ha⟩
    · obtain ⟨c, hc, hr⟩ := ih b hb
      exact ⟨c, List.mem_cons_of_mem _ hc, hr⟩

theorem delLoop_spec {none_of_those : Nat → Nat} {noAdd : Nat → Py (List (List Fact))} {dels : List (List Fact × List (List Fact))} :
    ∀ (us : List (Fact × Nat)) (shared : List (List (List Fact))), (∀ u ∈ us, ∃ d, dels[u.2]? = some d ∧ u.1 ∈ d.1) → SharedInv dels shared → (∀ u ∈ us, noAdd u.1.var ≠ .error) →
    ∃ r, delLoop none_of_those noAdd us shared = some r ∧
      (∀ e ∈ r, ∃ u ∈ us, ∃ d, dels[u.2]? = some d ∧ ∃ o ∈ d.2, ∃ ns, noAdd u.1.var = .ok ns ∧ ∃ n ∈ ns, e.fact = ⟨u.1.var, none_of_those u.1.var⟩ ∧ u.1 ∈ e.conds ∧ (∀ g ∈ o, g ∈ e.conds) ∧
        (∀ g ∈ n, g ∈ e.conds) ∧ (e.conds.map (·.var)).Nodup ∧ ∀ g ∈ e.conds, g ∈ o ∨ g ∈ d.1 ∨ g ∈ n) ∧
      (∀ u ∈ us, ∀ d, dels[u.2]? = some d → ∀ o ∈ d.2, ∀ ns, noAdd u.1.var = .ok ns → ∀ n ∈ ns, ∀ x : State, allHold d.1 x → allHold o x → allHold n x →
        ∃ e ∈ r, e.fact = ⟨u.1.var, none_of_those u.1.var⟩ ∧ e.fires x)
  | [], shared, _, _, _ => ⟨[], rfl, by simp, by simp⟩
  | (f, i) :: us, shared, hus, hsh, hok => by
    have hus' := fun u hu => hus u (List.mem_cons_of_mem _ hu)
    have hok' := fun u hu => hok u (List.mem_cons_of_mem _ hu)
    rw [delLoop]
    cases hna : noAdd f.var with
    | error => exact absurd hna (hok (f, i) (by simp))
    | none =>
      simp only
      obtain ⟨r, hr, h1, h2⟩ := delLoop_spec us shared hus' hsh hok'
      refine ⟨r, hr, fun e he => ?_, fun u hu d hd o ho ns hns => ?_⟩
      · obtain ⟨u, hu, rest⟩ := h1 e he
        exact ⟨u, List.mem_cons_of_mem _ hu, rest⟩
      · rcases List.mem_cons.mp hu with rfl | hu
        · rw [hna] at hns
          cases hns
        · exact h2 u hu d hd o ho ns hns
    | ok ns =>
      simp only
      obtain ⟨d, hd, hfd⟩ := hus (f, i) (by simp)
      simp only at hd hfd
      have hsh' : SharedInv dels (shared.modify i (fun cs => cs.map (fun c => if clash c f then c else insertFact c f))) := by
        intro j d' hd'
        obtain ⟨cs, hcs, hF⟩ := hsh j d' hd'
        by_cases hj : i = j
        · subst hj
          rw [hd, Option.some.injEq] at hd'
          subst hd'
          refine ⟨cs.map (fun c => if clash c f then c else insertFact c f), by rw [List.getElem?_modify]; simp [hcs], ?_⟩
          clear hcs
          rw [List.forall₂_map_right_iff]
          refine hF.imp (fun o c hg => ?_)
          · by_cases hc : clash c f = true
            · rw [if_pos hc]
              exact hg
            · rw [if_neg hc]
              obtain ⟨a1, a2⟩ := insertFact_spec hg.vars (by simpa using hc)
              refine ⟨fun g h => (a2 g).mpr (Or.inl (hg.orig g h)), fun g h => ?_, a1⟩
              rcases (a2 g).mp h with h | rfl
              · exact hg.only g h
              · exact Or.inr hfd
        · exact ⟨cs, by rw [List.getElem?_modify]; simp [hcs, hj], hF⟩
      obtain ⟨r, hr, h1, h2⟩ := delLoop_spec us _ hus' hsh' hok'
      rw [hr]
      simp only
      obtain ⟨cs, hcs, hF⟩ := hsh i d hd
      rw [hcs]
      simp only [Option.getD_some]
      refine ⟨_, rfl, fun e he => ?_, fun u hu d' hd' o ho ns' hns' n hn x hx1 hx2 hx3 => ?_⟩
      · rcases List.mem_append.mp he with he | he
        · obtain ⟨c, hc, he⟩ := List.mem_flatMap.mp he
          by_cases hcl : clash c f = true
          · rw [if_pos hcl] at he
            cases he
          · rw [if_neg hcl] at he
            obtain ⟨m, hm, rfl⟩ := List.mem_map.mp he
            obtain ⟨n, hn, hmm⟩ := List.mem_filterMap.mp hm
            obtain ⟨o, ho, hg⟩ := forall2_mem_right hF c hc
            obtain ⟨a1, a2⟩ := insertFact_spec hg.vars (by simpa using hcl)
            obtain ⟨b1, b2⟩ := merge_spec a1 hmm
            refine ⟨(f, i), by simp, d, hd, o, ho, ns, hna, n, hn, rfl, ?_, ?_, ?_, b1, ?_⟩
            · exact (b2 _).mpr (Or.inl ((a2 _).mpr (Or.inr rfl)))
            · exact fun g h => (b2 _).mpr (Or.inl ((a2 _).mpr (Or.inl (hg.orig g h))))
            · exact fun g h => (b2 _).mpr (Or.inr h)
            · intro g h
              rcases (b2 _).mp h with h | h
              · rcases (a2 _).mp h with h | rfl
                · rcases hg.only g h with h | h
                  · exact Or.inl h
                  · exact Or.inr (Or.inl h)
                · exact Or.inr (Or.inl hfd)
              · exact Or.inr (Or.inr h)
        · obtain ⟨u, hu, rest⟩ := h1 e he
          exact ⟨u, List.mem_cons_of_mem _ hu, rest⟩
      · rcases List.mem_cons.mp hu with rfl | hu
        · simp only at hd' hns'
          rw [hd, Option.some.injEq] at hd'
          subst hd'
          rw [hna, Py.ok.injEq] at hns'
          subst hns'
          obtain ⟨c, hc, hg⟩ := forall2_mem_left hF o ho
          have hcx : allHold c x := by
            intro g h
            rcases hg.only g h with h | h
            · exact hx2 g h
            · exact hx1 g h
          have hcl := holds_clash hg.vars hcx (hx1 f hfd)
          obtain ⟨a1, a2⟩ := insertFact_spec hg.vars hcl
          have hix : allHold (insertFact c f) x := by
            intro g h
            rcases (a2 g).mp h with h | rfl
            · exact hcx g h
            · exact hx1 _ hfd
          obtain ⟨m, hm⟩ := merge_some a1 hix hx3
          obtain ⟨_, b2⟩ := merge_spec a1 hm
          refine ⟨⟨m, ⟨f.var, none_of_those f.var⟩⟩, List.mem_append_left _ (List.mem_flatMap.mpr ⟨c, hc, ?_⟩), rfl, ?_⟩
          · rw [if_neg (by simp [hcl])]
            exact List.mem_map.mpr ⟨m, List.mem_filterMap.mpr ⟨n, hn, hm⟩, rfl⟩
          · intro g h
            rcases (b2 g).mp h with h | h
            · exact hix g h
            · exact hx3 g h
        · obtain ⟨e, he, rest⟩ := h2 u hu d' hd' o ho ns' hns' n hn x hx1 hx2 hx3
          exact ⟨e, List.mem_append_right _ he, rest⟩

section
variable {α : Type} [DecidableEq α] {groups mutexGroups : List (List α)}

/-- the atom has variables in both dictionaries -/
def Cov (groups mutexGroups : List (List α)) (p : α) : Prop := (∃ g ∈ groups, p ∈ g) ∧ ∃ g ∈ mutexGroups, p ∈ g

/-- literals of the condition have variables -/
def CovAll (groups mutexGroups : List (List α)) (conds : List (Literal α)) : Prop := ∀ l ∈ conds, Cov groups mutexGroups l.atom

theorem negate_holds (l : Literal α) (s : α → Prop) : (negate l).holds s ↔ ¬ l.holds s := by
  unfold negate Literal.holds
  cases l.negated <;> simp

theorem mem_product {β : Type} {cs : List (List β)} {r : List β} : r ∈ product cs ↔ List.Forall₂ (fun x c => x ∈ c) r cs := by
  induction cs generalizing r with
  | nil => simp [product]
  | cons c cs ih =>
    rw [product, List.mem_flatMap]
    constructor
    · rintro ⟨x, hx, h⟩
      obtain ⟨r', hr', rfl⟩ := List.mem_map.mp h
      exact .cons hx (ih.mp hr')
    · intro h
      cases h with
      | cons hx hr => exact ⟨_, hx, List.mem_map.mpr ⟨_, ih.mpr hr, rfl⟩⟩

theorem negateConds_spec (hn : ∀ g ∈ groups, g.Nodup) (hn' : ∀ g ∈ mutexGroups, g.Nodup) {condition : List (List (Literal α))} (hc : ∀ c ∈ condition, CovAll groups mutexGroups c) :
    match negateConds groups mutexGroups condition with
    | .error => False
    | .none => ∀ (s : α → Prop) (x x' : State), Represents groups s x → Represents mutexGroups s x' → ∃ c ∈ condition, ∀ l ∈ c, l.holds s
    | .ok ns => (∀ (s : α → Prop) (x x' : State), Represents groups s x → Represents mutexGroups s x' → ((∃ n ∈ ns, allHold n x) ↔ ∀ c ∈ condition, ¬ ∀ l ∈ c, l.holds s)) ∧
        ∀ n ∈ ns, (n.map (·.var)).Nodup ∧ ∀ f ∈ n, f.val < rangeOf groups f.var := by
  unfold negateConds
  by_cases he : condition.any (fun c => c.isEmpty) = true
  · rw [if_pos he]
    obtain ⟨c, hcm, hce⟩ := List.any_eq_true.mp he
    intro s x x' _ _
    refine ⟨c, hcm, ?_⟩
    rw [List.isEmpty_iff.mp hce]
    simp
  · rw [if_neg he]
    have hcov : ∀ r ∈ product condition, CovAll groups mutexGroups (r.map negate) := by
      intro r hr l hl
      obtain ⟨l', hl', rfl⟩ := List.mem_map.mp hl
      obtain ⟨c, hcm, hlc⟩ := forall2_mem_left (mem_product.mp hr) l' hl'
      exact hc c hcm l' hlc
    have hsp : ∀ r ∈ product condition, _ := fun r hr => translateConds_spec (groups := groups) (mutexGroups := mutexGroups) hn hn' (conds := r.map negate) (fun l h => (hcov r hr l h).1) (fun l h => (hcov r hr l h).2)
    obtain ⟨ns, hg⟩ := gather_some (f := fun c => translateConds groups mutexGroups (c.map negate)) (xs := product condition) (fun r hr h => by
      have := hsp r hr
      rw [h] at this
      exact this)
    have hmem := gather_mem hg
    have main : ∀ (s : α → Prop) (x x' : State), Represents groups s x → Represents mutexGroups s x' → ((∃ n ∈ ns, allHold n x) ↔ ∀ c ∈ condition, ¬ ∀ l ∈ c, l.holds s) := by
      intro s x x' hR hR'
      constructor
      · rintro ⟨n, hnn, hx⟩ c hcm hall
        obtain ⟨r, hr, cs, hcs, hncs⟩ := (hmem n).mp hnn
        have h1 := hsp r hr
        rw [hcs] at h1
        have h2 := (h1.1 n hncs).sound (fun l h => (hcov r hr l h).1) hR hx
        obtain ⟨l, hl, hlc⟩ := forall2_mem_right (mem_product.mp hr) c hcm
        exact (negate_holds l s).mp (h2 _ (List.mem_map_of_mem hl)) (hall l hlc)
      · intro hall
        have : ∃ r, List.Forall₂ (fun (l : Literal α) c => l ∈ c) r condition ∧ ∀ l ∈ r, ¬ l.holds s := by
          clear hmem hg hsp hcov he hc
          induction condition with
          | nil => exact ⟨[], .nil, by simp⟩
          | cons c cs ih =>
            obtain ⟨r, h1, h2⟩ := ih (fun c h => hall c (List.mem_cons_of_mem _ h))
            have := hall c (by simp)
            push Not at this
            obtain ⟨l, hl, hls⟩ := this
            refine ⟨l :: r, .cons hl h1, fun l' h => ?_⟩
            rcases List.mem_cons.mp h with rfl | h
            · exact hls
            · exact h2 l' h
        obtain ⟨r, hr, hrs⟩ := this
        have hr := mem_product.mpr hr
        have h1 := hsp r hr
        have hh : ∀ l ∈ r.map negate, l.holds s := by
          intro l hl
          obtain ⟨l', hl', rfl⟩ := List.mem_map.mp hl
          exact (negate_holds l' s).mpr (hrs l' hl')
        cases hcs : translateConds groups mutexGroups (r.map negate) with
        | error => rw [hcs] at h1; exact h1.elim
        | none => rw [hcs] at h1; exact absurd hh (h1 s x x' hR hR')
        | ok cs =>
          rw [hcs] at h1
          obtain ⟨c, hcc, hcx⟩ := h1.2.1 s x hR hh
          exact ⟨c, (hmem c).mpr ⟨r, hr, cs, hcs, hcc⟩, hcx⟩
    rw [hg]
    cases ns with
    | nil =>
      simp only
      intro s x x' hR hR'
      by_contra hno
      push Not at hno
      obtain ⟨n, hnn, _⟩ := (main s x x' hR hR').mpr (fun c hcm hall => by
        obtain ⟨l, hl, hls⟩ := hno c hcm
        exact hls (hall l hl))
      cases hnn
    | cons n ns =>
      simp only
      refine ⟨main, fun m hm => ?_⟩
      obtain ⟨r, hr, cs, hcs, hncs⟩ := (hmem m).mp hm
      have h1 := hsp r hr
      rw [hcs] at h1
      exact ⟨(h1.1 m hncs).vars, (h1.1 m hncs).valid⟩

theorem Represents.none {s : α → Prop} {x : State} (h : Represents groups s x) {v : Nat} {g : List α} (hg : groups[v]? = some g) (hs : ∀ p ∈ g, ¬ s p) : x[v]? = some (rangeOf groups v - 1) := by
  obtain ⟨y, hy, hlt, hi⟩ := h v g hg
  have : y = g.length := by
    by_contra hne
    have hl : y < g.length := by omega
    exact hs _ (List.getElem_mem hl) ((hi y _ (List.getElem?_eq_getElem hl)).mp rfl)
  rw [hy, this, rangeOf, hg]
  rfl

theorem Represents.congr {s s' : α → Prop} {x x' : State} (h : Represents groups s x) (h' : Represents groups s' x') {v : Nat} {g : List α} (hg : groups[v]? = some g) (hs : ∀ p ∈ g, (s p ↔ s' p)) : x'[v]? = x[v]? := by
  by_cases hex : ∃ p ∈ g, s p
  · obtain ⟨p, hp, hsp⟩ := hex
    obtain ⟨i, hi⟩ := List.getElem?_of_mem hp
    have hf : (⟨v, i⟩ : Fact) ∈ pairs groups p := mem_pairs.mpr ⟨g, hg, hi⟩
    have e1 := (h.fact hf).mpr hsp
    have e2 := (h'.fact hf).mpr ((hs p hp).mp hsp)
    unfold Fact.holds at e1 e2
    rw [e1, e2]
  · push Not at hex
    rw [h.none hg hex, h'.none hg (fun p hp hq => hex p hp ((hs p hp).mpr hq))]

/-- the atoms of the action have variables -/
def CovAction (groups mutexGroups : List (List α)) (a : Action α) : Prop :=
  CovAll groups mutexGroups a.pre ∧ ∀ e ∈ a.effects, CovAll groups mutexGroups e.1 ∧ Cov groups mutexGroups e.2.atom

theorem mem_addEffects {a : Action α} {e : List (Literal α) × α} : e ∈ addEffects a ↔ (e.1, (⟨false, e.2⟩ : Literal α)) ∈ a.effects := by
  unfold addEffects
  simp only [List.mem_map, List.mem_filter, Bool.not_eq_true']
  constructor
  · rintro ⟨⟨c, ⟨n, p⟩⟩, ⟨h1, h2⟩, rfl⟩
    simp only at h2
    subst h2
    exact h1
  · intro h
    exact ⟨_, ⟨h, rfl⟩, rfl⟩

theorem mem_delEffects {a : Action α} {e : List (Literal α) × α} : e ∈ delEffects a ↔ (e.1, (⟨true, e.2⟩ : Literal α)) ∈ a.effects ∧ (e.1, (⟨false, e.2⟩ : Literal α)) ∉ a.effects := by
  unfold delEffects
  simp only [List.mem_filter, List.mem_map, Bool.not_eq_true', ← Bool.not_eq_true, List.contains_iff_mem, mem_addEffects]
  refine and_congr_left fun _ => ?_
  constructor
  · rintro ⟨⟨c, ⟨n, p⟩⟩, ⟨h1, h2⟩, rfl⟩
    simp only at h2
    subst h2
    exact h1
  · intro h
    exact ⟨_, ⟨h, rfl⟩, rfl⟩

/-- the effects do to the variable `v` what the action does to its atoms -/
structure EffectsOn (es : List Effect) (x x' : State) (v : Nat) : Prop where
  fires : ∀ e ∈ es, e.fact.var = v → e.fires x → x'[v]? = some e.fact.val
  stays : (∀ e ∈ es, e.fact.var = v → ¬ e.fires x) → x'[v]? = x[v]?

theorem operatorEffects_spec (hn : ∀ g ∈ groups, g.Nodup) (hn' : ∀ g ∈ mutexGroups, g.Nodup) {a : Action α} (hcov : CovAction groups mutexGroups a) :
    ∃ es, operatorEffects groups mutexGroups a = some es ∧
      (∀ e ∈ es, (e.conds.map (·.var)).Nodup ∧ (∀ g ∈ e.conds, g.val < rangeOf groups g.var) ∧ e.fact.val < rangeOf groups e.fact.var ∧ ∃ ef ∈ a.effects, ∃ f ∈ pairs groups ef.2.atom, f.var = e.fact.var) ∧
      ∀ (s s' : α → Prop) (x xm x' : State), Represents groups s x → Represents mutexGroups s xm → Represents groups s' x' →
        ∀ (v : Nat) (g : List α), groups[v]? = some g → (∀ p ∈ g, (s' p ↔ a.result s p)) → EffectsOn es x x' v := by
  have hsp : ∀ e ∈ a.effects, _ := fun e he => translateConds_spec (groups := groups) (mutexGroups := mutexGroups) hn hn' (conds := e.1) (fun l h => ((hcov.2 e he).1 l h).1) (fun l h => ((hcov.2 e he).1 l h).2)
  unfold operatorEffects
  obtain ⟨adds, hadds⟩ := gather_some (f := addEntries groups mutexGroups) (xs := addEffects a) (fun e he h => by
    have he := mem_addEffects.mp he
    have h1 := hsp _ he
    unfold addEntries at h
    simp only at h1
    cases ht : translateConds groups mutexGroups e.1 with
    | error => rw [ht] at h1; exact h1
    | none => rw [ht] at h; cases h
    | ok cs =>
      rw [ht] at h
      simp only at h
      rw [dictionary_some (hcov.2 _ he).2.1] at h
      cases h)
  obtain ⟨dels, hdels⟩ := gather_some (f := delEntry groups mutexGroups) (xs := delEffects a) (fun e he h => by
    have he := (mem_delEffects.mp he).1
    have h1 := hsp _ he
    unfold delEntry at h
    simp only at h1
    cases ht : translateConds groups mutexGroups e.1 with
    | error => rw [ht] at h1; exact h1
    | none => rw [ht] at h; cases h
    | ok cs =>
      rw [ht] at h
      simp only at h
      rw [dictionary_some (hcov.2 _ he).2.1] at h
      cases h)
  have hma : ∀ ae, ae ∈ adds ↔ ∃ e : List (Literal α) × α, (e.1, (⟨false, e.2⟩ : Literal α)) ∈ a.effects ∧ ∃ cs, translateConds groups mutexGroups e.1 = .ok cs ∧ ∃ f ∈ pairs groups e.2, ae = ⟨f, cs, e.1⟩ := by
    intro ae
    rw [gather_mem hadds]
    constructor
    · rintro ⟨e, he, l, hl, hae⟩
      have he := mem_addEffects.mp he
      refine ⟨e, he, ?_⟩
      unfold addEntries at hl
      cases ht : translateConds groups mutexGroups e.1 with
      | error => rw [ht] at hl; cases hl
      | none => rw [ht] at hl; cases hl
      | ok cs =>
        rw [ht] at hl
        simp only at hl
        rw [dictionary_some (hcov.2 _ he).2.1, Py.ok.injEq] at hl
        rw [← hl] at hae
        obtain ⟨f, hf, rfl⟩ := List.mem_map.mp hae
        exact ⟨cs, rfl, f, hf, rfl⟩
    · rintro ⟨e, he, cs, hcs, f, hf, rfl⟩
      refine ⟨e, mem_addEffects.mpr he, (pairs groups e.2).map (fun f => ⟨f, cs, e.1⟩), ?_, List.mem_map.mpr ⟨f, hf, rfl⟩⟩
      unfold addEntries
      rw [hcs]
      simp only
      rw [dictionary_some (hcov.2 _ he).2.1]
  have hmd : ∀ d, d ∈ dels ↔ ∃ e : List (Literal α) × α, ((e.1, (⟨true, e.2⟩ : Literal α)) ∈ a.effects ∧ (e.1, (⟨false, e.2⟩ : Literal α)) ∉ a.effects) ∧ ∃ cs, translateConds groups mutexGroups e.1 = .ok cs ∧ d = (pairs groups e.2, cs) := by
    intro d
    rw [gather_mem hdels]
    constructor
    · rintro ⟨e, he, l, hl, hae⟩
      have he := mem_delEffects.mp he
      refine ⟨e, he, ?_⟩
      unfold delEntry at hl
      cases ht : translateConds groups mutexGroups e.1 with
      | error => rw [ht] at hl; cases hl
      | none => rw [ht] at hl; cases hl
      | ok cs =>
        rw [ht] at hl
        simp only at hl
        rw [dictionary_some (hcov.2 _ he.1).2.1, Py.ok.injEq] at hl
        rw [← hl] at hae
        exact ⟨cs, rfl, List.mem_singleton.mp hae⟩
    · rintro ⟨e, he, cs, hcs, rfl⟩
      refine ⟨e, mem_delEffects.mpr he, [(pairs groups e.2, cs)], ?_, by simp⟩
      unfold delEntry
      rw [hcs]
      simp only
      rw [dictionary_some (hcov.2 _ he.1).2.1]
  have hneg : ∀ v : Nat, _ := fun v => negateConds_spec (groups := groups) (mutexGroups := mutexGroups) hn hn' (condition := (adds.filter (fun e => e.fact.var == v)).map (·.orig)) (fun c hc => by
    obtain ⟨ae, hae, rfl⟩ := List.mem_map.mp hc
    obtain ⟨e, he, cs, _, f, _, rfl⟩ := (hma ae).mp (List.mem_of_mem_filter hae)
    exact (hcov.2 _ he).1)
  obtain ⟨r, hr, hr1, hr2⟩ := delLoop_spec (none_of_those := fun v => rangeOf groups v - 1) (noAdd := fun v => negateConds groups mutexGroups ((adds.filter (fun e => e.fact.var == v)).map (·.orig))) (dels := dels)
    (delOrder dels) (dels.map (·.2)) (fun u hu => mem_delOrder.mp hu) (fun i d hd => by
      refine ⟨d.2, by simp [hd], ?_⟩
      obtain ⟨e, he, cs, hcs, rfl⟩ := (hmd d).mp (List.mem_of_getElem? hd)
      have h1 := hsp _ he.1
      simp only at h1
      rw [hcs] at h1
      simp only
      rw [List.forall₂_same]
      intro c hc
      exact ⟨fun f h => h, fun f h => Or.inl h, (h1.1 c hc).vars⟩) (fun u _ h => by
      have := hneg u.1.var
      rw [h] at this
      exact this)
  rw [hadds]
  simp only
  rw [hdels]
  simp only
  rw [hr]
  simp only
  refine ⟨_, rfl, fun e he => ?_, ?_⟩
  · rcases List.mem_append.mp he with he | he
    · obtain ⟨ae, hae, he⟩ := List.mem_flatMap.mp he
      obtain ⟨c, hc, rfl⟩ := List.mem_map.mp he
      obtain ⟨ef, hef, cs, hcs, f, hf, rfl⟩ := (hma ae).mp hae
      have h1 := hsp _ hef
      simp only at h1 hc
      rw [hcs] at h1
      refine ⟨(h1.1 c hc).vars, (h1.1 c hc).valid, ?_, _, hef, f, hf, rfl⟩
      have := pairs_range hf
      simp only
      omega
    · obtain ⟨u, hu, d, hd, o, ho, ns, hns, n, hnn, hfact, _, _, _, hvars, honly⟩ := hr1 e he
      obtain ⟨d', hd', hud⟩ := mem_delOrder.mp hu
      rw [hd, Option.some.injEq] at hd'
      subst hd'
      obtain ⟨ef, hef, cs, hcs, rfl⟩ := (hmd d).mp (List.mem_of_getElem? hd)
      have h1 := hsp _ hef.1
      simp only at h1 ho hud
      rw [hcs] at h1
      refine ⟨hvars, fun g hg => ?_, ?_, _, hef.1, u.1, hud, by rw [hfact]⟩
      · rcases honly g hg with h | h | h
        · exact (h1.1 o ho).valid g h
        · have := pairs_range h
          omega
        · have h2 := hneg u.1.var
          rw [hns] at h2
          exact (h2.2 n hnn).2 g h
      · have := pairs_range hud
        rw [hfact]
        simp only
        omega
  · intro s s' x xm x' hR hRm hR' v g hg hres
    have hadd : ∀ e : List (Literal α) × α, (e.1, (⟨false, e.2⟩ : Literal α)) ∈ a.effects → (∀ l ∈ e.1, l.holds s) → ∀ f ∈ pairs groups e.2, ∃ cs, translateConds groups mutexGroups e.1 = .ok cs ∧
        (⟨f, cs, e.1⟩ : AddEntry α) ∈ adds ∧ ∃ c ∈ cs, allHold c x := by
      intro e he hl f hf
      have h1 := hsp _ he
      simp only at h1
      cases hcs : translateConds groups mutexGroups e.1 with
      | error => rw [hcs] at h1; exact h1.elim
      | none => rw [hcs] at h1; exact absurd hl (h1 s x xm hR hRm)
      | ok cs =>
        rw [hcs] at h1
        exact ⟨cs, rfl, (hma _).mpr ⟨e, he, cs, hcs, f, hf, rfl⟩, h1.2.1 s x hR hl⟩
    have hno : ∀ ns, negateConds groups mutexGroups ((adds.filter (fun e => e.fact.var == v)).map (·.orig)) = .ok ns → ((∃ n ∈ ns, allHold n x) ↔ ∀ p ∈ g, ¬ a.Adds s p) := by
      intro ns hns
      have h2 := hneg v
      rw [hns] at h2
      rw [h2.1 s x xm hR hRm]
      constructor
      · rintro hall p hp ⟨⟨c, l⟩, he, hl, hh⟩
        simp only at hl hh
        subst hl
        obtain ⟨i, hi⟩ := List.getElem?_of_mem hp
        obtain ⟨cs, _, hae, _⟩ := hadd (c, p) he hh ⟨v, i⟩ (mem_pairs.mpr ⟨g, hg, hi⟩)
        exact hall c (List.mem_map.mpr ⟨_, List.mem_filter.mpr ⟨hae, by simp⟩, rfl⟩) hh
      · rintro hall c hc hh
        obtain ⟨ae, hae, rfl⟩ := List.mem_map.mp hc
        obtain ⟨hae, hv⟩ := List.mem_filter.mp hae
        obtain ⟨e, he, cs, hcs, f, hf, rfl⟩ := (hma ae).mp hae
        simp only [beq_iff_eq] at hv hh
        obtain ⟨g', hg', hp⟩ := mem_pairs.mp hf
        rw [hv, hg, Option.some.injEq] at hg'
        subst hg'
        exact hall e.2 (List.mem_of_getElem? hp) ⟨_, he, rfl, hh⟩
    refine ⟨fun e he hv hfire => ?_, fun hnone => ?_⟩
    · rcases List.mem_append.mp he with he | he
      · obtain ⟨ae, hae, he⟩ := List.mem_flatMap.mp he
        obtain ⟨c, hc, rfl⟩ := List.mem_map.mp he
        obtain ⟨ef, hef, cs, hcs, f, hf, rfl⟩ := (hma ae).mp hae
        have h1 := hsp _ hef
        simp only at h1 hc hv
        rw [hcs] at h1
        have hh := (h1.1 c hc).sound (fun l h => ((hcov.2 _ hef).1 l h).1) hR hfire
        obtain ⟨g', hg', hp⟩ := mem_pairs.mp hf
        rw [hv, hg, Option.some.injEq] at hg'
        subst hg'
        have := (hR'.fact hf).mpr ((hres ef.2 (List.mem_of_getElem? hp)).mpr (Or.inl ⟨_, hef, rfl, hh⟩))
        rw [← hv]
        exact this
      · obtain ⟨u, hu, d, hd, o, ho, ns, hns, n, hnn, hfact, huc, hoc, hnc, _, _⟩ := hr1 e he
        obtain ⟨d', hd', hud⟩ := mem_delOrder.mp hu
        rw [hd, Option.some.injEq] at hd'
        subst hd'
        obtain ⟨ef, hef, cs, hcs, rfl⟩ := (hmd d).mp (List.mem_of_getElem? hd)
        have h1 := hsp _ hef.1
        simp only at h1 ho hud
        rw [hcs] at h1
        have hh := (h1.1 o ho).sound (fun l h => ((hcov.2 _ hef.1).1 l h).1) hR (fun f h => hfire f (hoc f h))
        rw [hfact] at hv ⊢
        simp only at hv ⊢
        rw [hv] at hns
        have hnoadd := (hno ns hns).mp ⟨n, hnn, fun f h => hfire f (hnc f h)⟩
        have htrue := (hR.fact hud).mp (hfire _ huc)
        rw [hv]
        refine hR'.none hg (fun q hq hs' => ?_)
        rcases (hres q hq).mp hs' with h | ⟨hsq, hnd⟩
        · exact hnoadd q hq h
        · have : q = ef.2 := by
            obtain ⟨i, hi⟩ := List.getElem?_of_mem hq
            have e1 := (hR.fact (mem_pairs.mpr ⟨g, hg, hi⟩ : (⟨v, i⟩ : Fact) ∈ pairs groups q)).mpr hsq
            have e2 := hfire _ huc
            unfold Fact.holds at e1 e2
            simp only at e1
            rw [hv, e1, Option.some.injEq] at e2
            obtain ⟨g', hg', hp⟩ := mem_pairs.mp hud
            rw [hv, hg, Option.some.injEq] at hg'
            subst hg'
            rw [← e2, hi, Option.some.injEq] at hp
            exact hp
          subst this
          exact hnd ⟨_, hef.1, rfl, hh⟩
    · have hnoadd : ∀ p ∈ g, ¬ a.Adds s p := by
        rintro p hp ⟨⟨c, l⟩, he, hl, hh⟩
        simp only at hl hh
        subst hl
        obtain ⟨i, hi⟩ := List.getElem?_of_mem hp
        obtain ⟨cs, _, hae, c', hc', hx⟩ := hadd (c, p) he hh ⟨v, i⟩ (mem_pairs.mpr ⟨g, hg, hi⟩)
        exact hnone ⟨c', ⟨v, i⟩⟩ (List.mem_append_left _ (List.mem_flatMap.mpr ⟨_, hae, List.mem_map.mpr ⟨c', hc', rfl⟩⟩)) rfl hx
      refine hR.congr hR' hg (fun p hp => ?_)
      rw [hres p hp]
      constructor
      · intro hsp'
        refine Or.inr ⟨hsp', ?_⟩
        rintro ⟨⟨c, l⟩, he, hl, hh⟩
        simp only at hl hh
        subst hl
        have hnadd : (c, (⟨false, p⟩ : Literal α)) ∉ a.effects := fun h => hnoadd p hp ⟨_, h, rfl, hh⟩
        have h1 := hsp _ he
        simp only at h1
        cases hcs : translateConds groups mutexGroups c with
        | error => rw [hcs] at h1; exact h1.elim
        | none => rw [hcs] at h1; exact h1 s x xm hR hRm hh
        | ok cs =>
          rw [hcs] at h1
          obtain ⟨o, ho, hox⟩ := h1.2.1 s x hR hh
          obtain ⟨i, hi⟩ := List.getElem?_of_mem hp
          have hf : (⟨v, i⟩ : Fact) ∈ pairs groups p := mem_pairs.mpr ⟨g, hg, hi⟩
          have hd : (pairs groups p, cs) ∈ dels := (hmd _).mpr ⟨(c, p), ⟨he, hnadd⟩, cs, hcs, rfl⟩
          obtain ⟨j, hj⟩ := List.getElem?_of_mem hd
          have h2 := hneg v
          cases hns : negateConds groups mutexGroups ((adds.filter (fun e => e.fact.var == v)).map (·.orig)) with
          | error => rw [hns] at h2; exact h2
          | none =>
            rw [hns] at h2
            obtain ⟨c', hc', hh'⟩ := h2 s x xm hR hRm
            obtain ⟨ae, hae, rfl⟩ := List.mem_map.mp hc'
            obtain ⟨hae, hv⟩ := List.mem_filter.mp hae
            obtain ⟨e, he, cs, hcs, f, hf, rfl⟩ := (hma ae).mp hae
            simp only [beq_iff_eq] at hv hh'
            obtain ⟨g', hg', hp'⟩ := mem_pairs.mp hf
            rw [hv, hg, Option.some.injEq] at hg'
            subst hg'
            exact hnoadd e.2 (List.mem_of_getElem? hp') ⟨_, he, rfl, hh'⟩
          | ok ns =>
            obtain ⟨n, hnn, hnx⟩ := (hno ns hns).mpr hnoadd
            obtain ⟨e, he, hfact, hfire⟩ := hr2 (⟨v, i⟩, j) (mem_delOrder.mpr ⟨_, hj, hf⟩) _ hj o ho ns hns n hnn x (fun f h => (hR.fact h).mpr hsp') hox hnx
            exact hnone e (List.mem_append_right _ he) (by rw [hfact]) hfire
      · rintro (h | ⟨h, _⟩)
        · exact absurd h (hnoadd p hp)
        · exact h

end
end Verif.StripsToSas
