import Verif.Model.Simplify
import Mathlib.Data.List.Sort
import Mathlib.Data.List.Dedup
import Mathlib.Data.List.Perm.Subperm

/-
The graphs of src/translate/simplify.py: conditions of operators, arcs, reachable values.
-/
namespace Verif.Simplify
open Verif.SasFile
open Verif.Mas (mapAll)

theorem mapAll_some {α β : Type} {f : α → Option β} : ∀ {l : List α}, (∀ a ∈ l, ∃ b, f a = some b) → ∃ r, mapAll f l = some r
  | [], _ => ⟨[], rfl⟩
  | a :: l, h => by
    obtain ⟨b, hb⟩ := h a (by simp)
    obtain ⟨r, hr⟩ := mapAll_some (l := l) (fun a ha => h a (by simp [ha]))
    exact ⟨b :: r, by simp [mapAll, hb, hr]⟩

/-! ### dictionaries -/

theorem lookup_none {d : List Fact} {v : Nat} : lookup d v = none ↔ ∀ f ∈ d, f.var ≠ v := by
  simp [lookup]

theorem lookup_some {d : List Fact} {v x : Nat} (hd : (d.map (·.var)).Nodup) : lookup d v = some x ↔ (⟨v, x⟩ : Fact) ∈ d := by
  induction d with
  | nil => simp [lookup]
  | cons f d ih =>
    simp only [List.map_cons, List.nodup_cons] at hd
    obtain ⟨w, y⟩ := f
    by_cases h : w = v
    · subst h
      simp only [lookup, List.find?_cons, beq_self_eq_true, Option.map_some, Option.some.injEq, List.mem_cons, Fact.mk.injEq, true_and]
      constructor
      · intro h; exact Or.inl h.symm
      · rintro (h | h)
        · exact h.symm
        · exact absurd (List.mem_map.mpr ⟨_, h, rfl⟩) hd.1
    · have := ih hd.2
      simp only [lookup] at this ⊢
      rw [List.find?_cons_of_neg (by simpa using h), this]
      simp only [List.mem_cons, Fact.mk.injEq]
      constructor
      · intro h; exact Or.inr h
      · rintro (⟨e, _⟩ | h2)
        · exact absurd e.symm h
        · exact h2

/-! ### conditions of operators -/

theorem addPrevail_spec : ∀ (fs d : List Fact), ((d ++ fs).map (·.var)).Nodup → addPrevail fs d = some (d ++ fs)
  | [], d, _ => by simp [addPrevail]
  | f :: fs, d, h => by
    have h0 : lookup d f.var = none := by
      rw [lookup_none]
      intro g hg e
      rw [List.map_append, List.nodup_append] at h
      exact h.2.2 g.var (List.mem_map.mpr ⟨g, hg, rfl⟩) f.var (by simp) e
    simp only [addPrevail, h0]
    rw [addPrevail_spec fs (d ++ [f]) (by simpa using h)]
    simp

theorem addPre_spec : ∀ (es : List PrePost) (d : List Fact), (d.map (·.var)).Nodup → (∀ e ∈ es, ∀ f ∈ d, f.var = e.var → e.pre = none ∨ e.pre = some f.val) →
    (∀ e ∈ es, ∀ e' ∈ es, e.var = e'.var → e.pre = e'.pre) →
    ∃ d', addPre es d = some d' ∧ (d'.map (·.var)).Nodup ∧ ∀ f, f ∈ d' ↔ f ∈ d ∨ ∃ e ∈ es, e.var = f.var ∧ e.pre = some f.val
  | [], d, hd, _, _ => ⟨d, rfl, hd, by simp⟩
  | e :: es, d, hd, h1, h2 => by
    simp only [addPre]
    have h2' : ∀ e ∈ es, ∀ e' ∈ es, e.var = e'.var → e.pre = e'.pre := fun a ha b hb => h2 a (by simp [ha]) b (by simp [hb])
    cases hp : e.pre with
    | none =>
      obtain ⟨d', a1, a2, a3⟩ := addPre_spec es d hd (fun a ha => h1 a (by simp [ha])) h2'
      refine ⟨d', a1, a2, fun f => ?_⟩
      rw [a3]
      simp only [List.mem_cons, exists_eq_or_imp, hp, reduceCtorEq, and_false, false_or]
    | some x =>
      simp only
      cases hl : lookup d e.var with
      | none =>
        rw [lookup_none] at hl
        obtain ⟨d', a1, a2, a3⟩ := addPre_spec es (d ++ [⟨e.var, x⟩]) (by
          rw [List.map_append, List.nodup_append]
          refine ⟨hd, by simp, ?_⟩
          intro a ha b hb
          obtain ⟨g, hg, rfl⟩ := List.mem_map.mp ha
          simp only [List.map_cons, List.map_nil, List.mem_singleton] at hb
          subst hb
          exact hl g hg) (fun a ha f hf hfa => by
            rw [List.mem_append, List.mem_singleton] at hf
            rcases hf with hf | rfl
            · exact h1 a (by simp [ha]) f hf hfa
            · right
              rw [← h2 e (by simp) a (by simp [ha]) hfa, hp]) h2'
        refine ⟨d', a1, a2, fun f => ?_⟩
        rw [a3]
        simp only [List.mem_append, List.mem_cons, List.not_mem_nil, or_false, exists_eq_or_imp, hp, Option.some.injEq]
        have : f = ⟨e.var, x⟩ ↔ e.var = f.var ∧ x = f.val := by
          obtain ⟨v, y⟩ := f
          simp only [Fact.mk.injEq]
          exact ⟨fun ⟨a, b⟩ => ⟨a.symm, b.symm⟩, fun ⟨a, b⟩ => ⟨a.symm, b.symm⟩⟩
        rw [this, or_assoc]
      | some y =>
        rw [lookup_some hd] at hl
        have hyx : y = x := by
          rcases h1 e (by simp) _ hl rfl with h | h
          · rw [hp] at h; simp at h
          · rw [hp] at h; simpa using h.symm
        simp only
        rw [if_pos hyx]
        obtain ⟨d', a1, a2, a3⟩ := addPre_spec es d hd (fun a ha => h1 a (by simp [ha])) h2'
        refine ⟨d', a1, a2, fun f => ?_⟩
        rw [a3]
        simp only [List.mem_cons, exists_eq_or_imp, hp, Option.some.injEq]
        constructor
        · rintro (h | h)
          · exact Or.inl h
          · exact Or.inr (Or.inr h)
        · rintro (h | ⟨h, h'⟩ | h)
          · exact Or.inl h
          · left
            obtain ⟨v, z⟩ := f
            simp only at h h'
            rw [← h, ← h', ← hyx]
            exact hl
          · exact Or.inr h

theorem nodup_of_sorted {fs : List Fact} (h : SortedVars fs) : (fs.map (·.var)).Nodup := by
  rw [List.Nodup, List.pairwise_map]
  exact h.imp (fun hab => by omega)

/-- strictly sorted after sorting by variables -/
theorem sortedVars_sort {d : List Fact} (hd : (d.map (·.var)).Nodup) : SortedVars (d.insertionSort (fun a b => a.var ≤ b.var)) := by
  have h1 : (d.insertionSort (fun a b => a.var ≤ b.var)).Pairwise (fun a b => a.var ≤ b.var) := by
    haveI : Std.Total (fun a b : Fact => a.var ≤ b.var) := ⟨fun a b => Nat.le_total _ _⟩
    haveI : IsTrans Fact (fun a b : Fact => a.var ≤ b.var) := ⟨fun a b c h1 h2 => Nat.le_trans h1 h2⟩
    exact List.pairwise_insertionSort _ _
  have h2 : ((d.insertionSort (fun a b => a.var ≤ b.var)).map (·.var)).Nodup := ((List.perm_insertionSort _ d).map _).nodup_iff.mpr hd
  rw [List.Nodup, List.pairwise_map] at h2
  exact (h1.and h2).imp (fun ⟨a, b⟩ => by omega)

/-- the conditions of an operator -/
theorem applicability_spec {o : SasOperator} (hC : o.Canonical) :
    ∃ d, applicability o = some d ∧ SortedVars d ∧ ∀ f, f ∈ d ↔ f ∈ o.prevail ∨ ∃ e ∈ o.prePost, e.var = f.var ∧ e.pre = some f.val := by
  have h1 := addPrevail_spec o.prevail [] (by simpa using nodup_of_sorted hC.prevail)
  obtain ⟨d, a1, a2, a3⟩ := addPre_spec o.prePost o.prevail (nodup_of_sorted hC.prevail)
    (fun e he f hf hfe => absurd hfe (hC.prevailOrEffect f hf e he)) hC.samePre
  refine ⟨d.insertionSort (fun a b => a.var ≤ b.var), ?_, sortedVars_sort a2, fun f => ?_⟩
  · unfold applicability
    rw [h1]
    simp only [List.nil_append, a1]
  · rw [← a3, (List.perm_insertionSort _ d).mem_iff]

/-! ### arcs -/

theorem effectivePre_spec (v : Nat) : ∀ (cs : List Fact) (r : Option Nat),
    (effectivePre v r cs = none → ∀ x, ¬ ((∀ y ∈ r, y = x) ∧ ∀ c ∈ cs, c.var = v → c.val = x)) ∧
    (effectivePre v r cs = some none → r = none ∧ ∀ c ∈ cs, c.var ≠ v) ∧
    (∀ z, effectivePre v r cs = some (some z) → ((∀ y ∈ r, y = z) ∧ ∀ c ∈ cs, c.var = v → c.val = z) ∧ ∀ x, ((∀ y ∈ r, y = x) ∧ ∀ c ∈ cs, c.var = v → c.val = x) → x = z)
  | [], r => by
    simp only [effectivePre]
    refine ⟨by simp, fun h => ⟨by simpa using h, by simp⟩, fun z hz => ?_⟩
    simp only [Option.some.injEq] at hz
    subst hz
    simp
  | c :: cs, r => by
    simp only [effectivePre]
    by_cases hc : c.var = v
    · rw [if_pos hc]
      cases r with
      | none =>
        obtain ⟨h1, h2, h3⟩ := effectivePre_spec v cs (some c.val)
        refine ⟨fun h x hx => h1 h x ⟨?_, fun c hc => hx.2 c (by simp [hc])⟩, fun h => absurd (h2 h).1 (by simp), fun z hz => ?_⟩
        · simp [hx.2 c (by simp) hc]
        · obtain ⟨⟨a1, a2⟩, a3⟩ := h3 z hz
          have hcz : c.val = z := a1 c.val rfl
          refine ⟨⟨by simp, fun c' hc' => ?_⟩, fun x hx => a3 x ⟨?_, fun c' hc' => hx.2 c' (by simp [hc'])⟩⟩
          · simp only [List.mem_cons] at hc'
            rcases hc' with rfl | hc'
            · exact fun _ => hcz
            · exact a2 c' hc'
          · intro y hy
            simp only [Option.mem_def, Option.some.injEq] at hy
            rw [← hy]
            exact hx.2 c (by simp) hc
      | some y =>
        simp only
        by_cases hy : c.val ≠ y
        · rw [if_pos hy]
          refine ⟨fun _ x hx => hy ?_, by simp, by simp⟩
          rw [hx.1 y rfl]
          exact hx.2 c (by simp) hc
        · rw [if_neg hy]
          obtain ⟨h1, h2, h3⟩ := effectivePre_spec v cs (some y)
          refine ⟨fun h x hx => h1 h x ⟨hx.1, fun c hc => hx.2 c (by simp [hc])⟩, fun h => absurd (h2 h).1 (by simp), fun z hz => ?_⟩
          obtain ⟨⟨a1, a2⟩, a3⟩ := h3 z hz
          have hyz : y = z := a1 y rfl
          refine ⟨⟨a1, fun c' hc' => ?_⟩, fun x hx => a3 x ⟨hx.1, fun c' hc' => hx.2 c' (by simp [hc'])⟩⟩
          simp only [List.mem_cons] at hc'
          rcases hc' with rfl | hc'
          · intro _; simp only [ne_eq, not_not] at hy; omega
          · exact a2 c' hc'
    · rw [if_neg hc]
      obtain ⟨h1, h2, h3⟩ := effectivePre_spec v cs r
      refine ⟨fun h x hx => h1 h x ⟨hx.1, fun c hc => hx.2 c (by simp [hc])⟩, fun h => ⟨(h2 h).1, fun c' hc' => ?_⟩, fun z hz => ?_⟩
      · simp only [List.mem_cons] at hc'
        rcases hc' with rfl | hc'
        · exact hc
        · exact (h2 h).2 c' hc'
      · obtain ⟨⟨a1, a2⟩, a3⟩ := h3 z hz
        refine ⟨⟨a1, fun c' hc' => ?_⟩, fun x hx => a3 x ⟨hx.1, fun c' hc' => hx.2 c' (by simp [hc'])⟩⟩
        simp only [List.mem_cons] at hc'
        rcases hc' with rfl | hc'
        · intro h; exact absurd h hc
        · exact a2 c' hc'

/-- the arcs of an effect: from the values that are not excluded -/
theorem mem_effectArcs {o : SasOperator} {d : List Fact} (hd : SortedVars d) (hm : ∀ f, f ∈ d ↔ f ∈ o.prevail ∨ ∃ e ∈ o.prePost, e.var = f.var ∧ e.pre = some f.val)
    {e : PrePost} {size x y : Nat} (hx : x < size) : ((x, y) ∈ effectArcs size d e ∨ x = y) ↔ ((AllowsValue o e x ∧ y = e.post) ∨ x = y) := by
  have hnd := nodup_of_sorted hd
  have hallow : AllowsValue o e x ↔ (∀ z ∈ lookup d e.var, z = x) ∧ ∀ c ∈ e.conds, c.var = e.var → c.val = x := by
    unfold AllowsValue
    rw [← and_assoc]
    refine and_congr_left (fun _ => ?_)
    constructor
    · rintro ⟨h1, h2⟩ z hz
      have := (hm _).mp ((lookup_some hnd).mp hz)
      rcases this with h | ⟨e', h, h', h''⟩
      · exact h1 _ h rfl
      · exact h2 e' h h' z h''
    · intro h
      refine ⟨fun f hf hv => ?_, fun e' he' hv z hz => ?_⟩
      · refine h f.val ((lookup_some hnd).mpr ((hm _).mpr (Or.inl ?_)))
        rw [← hv]
        exact hf
      · exact h z ((lookup_some hnd).mpr ((hm _).mpr (Or.inr ⟨e', he', hv, hz⟩)))
  obtain ⟨h1, h2, h3⟩ := effectivePre_spec e.var e.conds (lookup d e.var)
  unfold effectArcs
  cases he : effectivePre e.var (lookup d e.var) e.conds with
  | none =>
    simp only [List.not_mem_nil, false_or]
    constructor
    · intro h; exact Or.inr h
    · rintro (⟨h, _⟩ | h)
      · exact absurd (hallow.mp h) (h1 he x)
      · exact h
  | some p =>
    cases p with
    | none =>
      obtain ⟨a1, a2⟩ := h2 he
      have hal : AllowsValue o e x := hallow.mpr ⟨by simp [a1], fun c hc hv => absurd hv (a2 c hc)⟩
      simp only [arcs, List.mem_map, List.mem_filter, List.mem_range, ne_eq, decide_not, Bool.not_eq_eq_eq_not, Bool.not_true, decide_eq_false_iff_not, Prod.mk.injEq, hal, true_and]
      constructor
      · rintro (⟨z, ⟨_, _⟩, rfl, rfl⟩ | h)
        · exact Or.inl rfl
        · exact Or.inr h
      · rintro (rfl | h)
        · by_cases hxe : x = e.post
          · exact Or.inr hxe
          · exact Or.inl ⟨x, ⟨hx, hxe⟩, rfl, rfl⟩
        · exact Or.inr h
    | some z =>
      obtain ⟨a1, a2⟩ := h3 z he
      simp only [arcs, List.mem_singleton, Prod.mk.injEq]
      rw [hallow]
      constructor
      · rintro (⟨rfl, rfl⟩ | h)
        · exact Or.inl ⟨a1, rfl⟩
        · exact Or.inr h
      · rintro (⟨h, rfl⟩ | h)
        · exact Or.inl ⟨a2 x h, rfl⟩
        · exact Or.inr h

/-- targets of arcs of an effect -/
theorem effectArcs_target {d : List Fact} {e : PrePost} {size x y : Nat} (h : (x, y) ∈ effectArcs size d e) : y = e.post := by
  unfold effectArcs at h
  split at h
  · simp at h
  · rename_i p _
    cases p with
    | none =>
      simp only [arcs, List.mem_map, Prod.mk.injEq] at h
      obtain ⟨_, _, _, h⟩ := h
      exact h.symm
    | some z =>
      simp only [arcs, List.mem_singleton, Prod.mk.injEq] at h
      exact h.2

/-! ### reachable values -/

theorem mem_mapAll {α β : Type} {f : α → Option β} : ∀ {l : List α} {r : List β}, mapAll f l = some r → ∀ b, b ∈ r ↔ ∃ a ∈ l, f a = some b
  | [], r, h => by
    simp only [mapAll, Option.some.injEq] at h
    subst h
    simp
  | a :: l, r, h => by
    simp only [mapAll] at h
    cases ha : f a with
    | none => simp [ha] at h
    | some c =>
      cases hl : mapAll f l with
      | none => simp [ha, hl] at h
      | some r' =>
        simp only [ha, hl, Option.some.injEq] at h
        subst h
        intro b
        simp only [List.mem_cons, mem_mapAll hl, exists_eq_or_imp, ha, Option.some.injEq]
        rw [eq_comm]

theorem reachLoop_spec (as : List (Nat × Nat)) : ∀ (fuel : Nat) (queue seen : List Nat), seen.Nodup → queue ⊆ seen →
    (∀ u ∈ seen, u ∉ queue → ∀ w, (u, w) ∈ as → w ∈ seen) → queue.length + ((as.map (·.2)).dedup.filter (fun w => !seen.contains w)).length ≤ fuel →
    ∃ r, reachLoop as fuel queue seen = some r ∧ r.Nodup ∧ seen ⊆ r ∧ (∀ u ∈ r, ∀ w, (u, w) ∈ as → w ∈ r) ∧
      ∀ P : Nat → Prop, (∀ u ∈ seen, P u) → (∀ u w, P u → (u, w) ∈ as → P w) → ∀ u ∈ r, P u := by
  intro fuel
  induction fuel with
  | zero =>
    intro queue seen h1 h2 h3 h4
    cases queue with
    | nil => exact ⟨seen, by simp [reachLoop], h1, List.Subset.refl _, fun u hu w hw => h3 u hu (by simp) w hw, fun P hP _ u hu => hP u hu⟩
    | cons u q => simp at h4
  | succ fuel ih =>
    intro queue seen h1 h2 h3 h4
    cases queue with
    | nil => exact ⟨seen, by simp [reachLoop], h1, List.Subset.refl _, fun u hu w hw => h3 u hu (by simp) w hw, fun P hP _ u hu => hP u hu⟩
    | cons u q =>
      rw [reachLoop]
      set new := ((as.filter (fun a => a.1 == u)).map (·.2)).dedup.filter (fun w => !seen.contains w) with hnew
      have hmem : ∀ w, w ∈ new ↔ (u, w) ∈ as ∧ w ∉ seen := by
        intro w
        rw [hnew, List.mem_filter, List.mem_dedup, List.mem_map]
        simp only [List.mem_filter, beq_iff_eq, Bool.not_eq_true', List.contains_eq_mem, decide_eq_false_iff_not]
        constructor
        · rintro ⟨⟨⟨a, b⟩, ⟨ha, rfl⟩, rfl⟩, hs⟩
          exact ⟨ha, hs⟩
        · rintro ⟨ha, hs⟩
          exact ⟨⟨(u, w), ⟨ha, rfl⟩, rfl⟩, hs⟩
      have hnd : new.Nodup := (List.nodup_dedup _).filter _
      have hcount : ((as.map (·.2)).dedup.filter (fun w => !(seen ++ new).contains w)).length + new.length ≤ ((as.map (·.2)).dedup.filter (fun w => !seen.contains w)).length := by
        rw [Nat.add_comm, ← List.length_append]
        refine (List.Nodup.subperm ?_ ?_).length_le
        · rw [List.nodup_append]
          refine ⟨hnd, (List.nodup_dedup _).filter _, ?_⟩
          rintro a ha b hb rfl
          simp only [List.mem_filter, Bool.not_eq_true', List.contains_eq_mem, decide_eq_false_iff_not, List.mem_append, not_or] at hb
          exact hb.2.2 ha
        · intro w hw
          rw [List.mem_append] at hw
          simp only [List.mem_filter, List.mem_dedup, List.mem_map, Bool.not_eq_true', List.contains_eq_mem, decide_eq_false_iff_not]
          rcases hw with hw | hw
          · obtain ⟨b1, b2⟩ := (hmem w).mp hw
            exact ⟨⟨(u, w), b1, rfl⟩, b2⟩
          · simp only [List.mem_filter, List.mem_dedup, List.mem_map, Bool.not_eq_true', List.contains_eq_mem, decide_eq_false_iff_not, List.mem_append, not_or] at hw
            exact ⟨hw.1, hw.2.1⟩
      have hu : u ∈ seen := h2 (by simp)
      obtain ⟨r, a1, a2, a3, a4, a5⟩ := ih (new ++ q) (seen ++ new) (by
          rw [List.nodup_append]
          refine ⟨h1, hnd, ?_⟩
          rintro a ha b hb rfl
          exact ((hmem a).mp hb).2 ha) (by
          intro w hw
          rw [List.mem_append] at hw ⊢
          rcases hw with hw | hw
          · exact Or.inr hw
          · exact Or.inl (h2 (by simp [hw]))) (by
          intro x hx hxq w hw
          rw [List.mem_append] at hx ⊢
          simp only [List.mem_append, not_or] at hxq
          rcases hx with hx | hx
          · by_cases hxu : x = u
            · subst hxu
              by_cases hws : w ∈ seen
              · exact Or.inl hws
              · exact Or.inr ((hmem w).mpr ⟨hw, hws⟩)
            · exact Or.inl (h3 x hx (by simp only [List.mem_cons, not_or]; exact ⟨hxu, hxq.2⟩) w hw)
          · exact absurd hx hxq.1) (by
          simp only [List.length_append, List.length_cons] at h4 ⊢
          omega)
      refine ⟨r, a1, a2, fun w hw => a3 (by simp [hw]), a4, fun P hP hc w hw => a5 P (fun x hx => ?_) hc w hw⟩
      rw [List.mem_append] at hx
      rcases hx with hx | hx
      · exact hP x hx
      · exact hc u x (hP u hu) ((hmem x).mp hx).1

theorem reachable_spec (as : List (Nat × Nat)) (init : Nat) : ∃ r, reachable as init = some r ∧ r.Nodup ∧ init ∈ r ∧ (∀ u ∈ r, ∀ w, (u, w) ∈ as → w ∈ r) ∧
    ∀ P : Nat → Prop, P init → (∀ u w, P u → (u, w) ∈ as → P w) → ∀ u ∈ r, P u := by
  obtain ⟨r, h1, h2, h3, h4, h5⟩ := reachLoop_spec as (as.length + 1) [init] [init] (by simp) (by simp) (fun u hu hq => by simp at hu; simp [hu] at hq) (by
    have : ((as.map (·.2)).dedup.filter (fun w => !([init] : List Nat).contains w)).length ≤ as.length :=
      (List.length_filter_le _ _).trans ((List.Sublist.length_le (List.dedup_sublist _)).trans (by simp))
    simp only [List.length_singleton]
    omega)
  exact ⟨r, h1, h2, h3 (by simp), h4, fun P hP => h5 P (by simpa using hP)⟩

section
variable {T : SasTask}

/-- the reachable values of a variable -/
theorem dtg_spec (hT : T.Valid) (hC : T.Canonical) {v init : Nat} {x : SasVariable} (hx : T.variables[v]? = some x) (hi : T.init[v]? = some init) :
    ∃ as dom, dtgArcs T v x.valueNames.length = some as ∧ reachable as init = some dom ∧ dom.Nodup ∧ init ∈ dom ∧ ∀ u, u ∈ dom ↔ T.Reached v u := by
  obtain ⟨ls, hls⟩ := mapAll_some (f := operatorArcs v x.valueNames.length) (l := T.operators) (fun o ho => by
    obtain ⟨d, h1, _⟩ := applicability_spec (hC.operators o ho)
    exact ⟨(o.prePost.filter (fun e => e.var == v)).flatMap (effectArcs x.valueNames.length d), by simp only [operatorArcs, h1]⟩)
  have has : dtgArcs T v x.valueNames.length = some (ls.flatten ++ (T.axioms.filter (fun a => a.effect.var == v)).flatMap (fun a => arcs x.valueNames.length none a.effect.val)) := by
    simp only [dtgArcs, hls]
  obtain ⟨dom, h1, h2, h3, h4, h5⟩ := reachable_spec (ls.flatten ++ (T.axioms.filter (fun a => a.effect.var == v)).flatMap (fun a => arcs x.valueNames.length none a.effect.val)) init
  refine ⟨_, dom, has, h1, h2, h3, ?_⟩
  -- arcs of operators
  have hop : ∀ a b, (a, b) ∈ ls.flatten ↔ ∃ o ∈ T.operators, ∃ d, applicability o = some d ∧ ∃ e ∈ o.prePost, e.var = v ∧ (a, b) ∈ effectArcs x.valueNames.length d e := by
    intro a b
    rw [List.mem_flatten]
    constructor
    · rintro ⟨l, hl, hab⟩
      obtain ⟨o, ho, hol⟩ := (mem_mapAll hls l).mp hl
      unfold operatorArcs at hol
      split at hol
      · simp at hol
      · rename_i d hd
        simp only [Option.some.injEq] at hol
        subst hol
        rw [List.mem_flatMap] at hab
        obtain ⟨e, he, heab⟩ := hab
        simp only [List.mem_filter, beq_iff_eq] at he
        exact ⟨o, ho, d, hd, e, he.1, he.2, heab⟩
    · rintro ⟨o, ho, d, hd, e, he, hv, hab⟩
      refine ⟨_, (mem_mapAll hls _).mpr ⟨o, ho, by simp only [operatorArcs, hd]; rfl⟩, ?_⟩
      rw [List.mem_flatMap]
      exact ⟨e, by simp [he, hv], hab⟩
  have hlt : ∀ u, T.Reached v u → u < x.valueNames.length := by
    intro u hu
    cases hu with
    | init _ h =>
      obtain ⟨x', e, hl⟩ := hT.initOk v u h
      rw [hx] at e; cases e; exact hl
    | effect _ o e _ ho he hv _ =>
      obtain ⟨x', e', hl⟩ := (hT.operators o ho).post e he
      simp only [hv] at e'
      rw [hx] at e'; cases e'; exact hl
    | «axiom» a ha hv =>
      obtain ⟨x', e', hl⟩ := (hT.axioms a ha).effect
      rw [hv, hx] at e'; cases e'; exact hl
  intro u
  constructor
  · refine h5 (T.Reached v) (.init init hi) ?_ u
    intro a b ha hab
    rw [List.mem_append] at hab
    rcases hab with hab | hab
    · obtain ⟨o, ho, d, hd, e, he, hv, hab⟩ := (hop a b).mp hab
      obtain ⟨d', c1, c2, c3⟩ := applicability_spec (hC.operators o ho)
      rw [hd] at c1
      cases c1
      rcases (mem_effectArcs c2 c3 (hlt a ha)).mp (Or.inl hab) with ⟨h, rfl⟩ | rfl
      · exact .effect a o e ha ho he hv h
      · exact ha
    · rw [List.mem_flatMap] at hab
      obtain ⟨ax, hax, hab⟩ := hab
      simp only [List.mem_filter, beq_iff_eq] at hax
      simp only [arcs, List.mem_map, Prod.mk.injEq] at hab
      obtain ⟨_, _, _, rfl⟩ := hab
      exact .axiom ax hax.1 hax.2
  · intro hu
    induction hu with
    | init x' h =>
      rw [hi] at h
      cases h
      exact h3
    | effect a o e ha ho he hv hal ih =>
      obtain ⟨d, c1, c2, c3⟩ := applicability_spec (hC.operators o ho)
      rcases (mem_effectArcs (y := e.post) c2 c3 (hlt a ha)).mpr (Or.inl ⟨hal, rfl⟩) with h | h
      · exact h4 a ih _ (List.mem_append_left _ ((hop _ _).mpr ⟨o, ho, d, c1, e, he, hv, h⟩))
      · rw [← h]; exact ih
    | «axiom» a ha hv =>
      have hne := (hT.axioms a ha).nonInit
      rw [hv, hi] at hne
      refine h4 init h3 _ (List.mem_append_right _ (List.mem_flatMap.mpr ⟨a, by simp [ha, hv], ?_⟩))
      simp only [arcs, List.mem_map, List.mem_filter, List.mem_range, ne_eq, decide_not, Bool.not_eq_eq_eq_not, Bool.not_true, decide_eq_false_iff_not, Prod.mk.injEq]
      exact ⟨init, ⟨hlt init (.init init hi), fun e => hne (by rw [e])⟩, rfl, trivial⟩

theorem reached_lt (hT : T.Valid) {v u : Nat} {x : SasVariable} (hx : T.variables[v]? = some x) (hu : T.Reached v u) : u < x.valueNames.length := by
  cases hu with
  | init _ h =>
    obtain ⟨x', e, hl⟩ := hT.initOk v u h
    rw [hx] at e; cases e; exact hl
  | effect _ o e _ ho he hv _ =>
    obtain ⟨x', e', hl⟩ := (hT.operators o ho).post e he
    simp only [hv] at e'
    rw [hx] at e'; cases e'; exact hl
  | «axiom» a ha hv =>
    obtain ⟨x', e', hl⟩ := (hT.axioms a ha).effect
    rw [hv, hx] at e'; cases e'; exact hl

end

end Verif.Simplify
