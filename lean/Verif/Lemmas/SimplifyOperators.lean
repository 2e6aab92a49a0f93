import Verif.Lemmas.SimplifyRenaming

/-
Operators of src/translate/simplify.py: what is left of the effects and what the new operator does.
-/
namespace Verif.Simplify
open Verif.SasFile
open Verif.Mas (mapAll)

theorem sorted_unique {d : List Fact} (h : SortedVars d) {f g : Fact} (hf : f ∈ d) (hg : g ∈ d) (hv : f.var = g.var) : f = g := by
  have hnd := nodup_of_sorted h
  have h1 : lookup d f.var = some f.val := (lookup_some hnd).mpr hf
  have h2 : lookup d f.var = some g.val := by rw [hv]; exact (lookup_some hnd).mpr hg
  rw [h1, Option.some.injEq] at h2
  obtain ⟨a, b⟩ := f
  obtain ⟨c, e⟩ := g
  simp only at hv h2
  rw [hv, h2]

/-- the operator of the planning task -/
def taskOp (metric : Bool) (o : SasOperator) : Operator :=
  ⟨o.prevail ++ o.prePost.filterMap (fun e => e.pre.map (fun x => ⟨e.var, x⟩)), o.prePost.map (fun e => ⟨e.conds, ⟨e.var, e.post⟩⟩), if metric then o.cost else 1⟩

theorem mem_taskOp_pre {b : Bool} {o : SasOperator} {f : Fact} : f ∈ (taskOp b o).pre ↔ f ∈ o.prevail ∨ ∃ e ∈ o.prePost, e.var = f.var ∧ e.pre = some f.val := by
  simp only [taskOp, List.mem_append, List.mem_filterMap, Option.map_eq_some_iff]
  refine or_congr Iff.rfl ⟨?_, ?_⟩
  · rintro ⟨e, he, x, hx, rfl⟩
    exact ⟨e, he, rfl, hx⟩
  · rintro ⟨e, he, h1, h2⟩
    exact ⟨e, he, f.val, h2, by rw [h1]⟩

/-- The last of the effects on a variable is the one with the largest value. -/
theorem assigned_cases {b : Bool} {o : SasOperator} (hC : o.Canonical) (s : State) (v : Nat) :
    ((taskOp b o).assigned s v = none ∧ ∀ e ∈ o.prePost, e.var = v → ¬ allHold e.conds s) ∨
    ∃ e ∈ o.prePost, e.var = v ∧ allHold e.conds s ∧ (taskOp b o).assigned s v = some e.post ∧ ∀ e' ∈ o.prePost, e'.var = v → allHold e'.conds s → e'.post ≤ e.post := by
  have hfil : (taskOp b o).effects.filter (fun e => decide (e.fires s) && e.fact.var == v) =
      (o.prePost.filter (fun e => decide (allHold e.conds s) && e.var == v)).map (fun e => (⟨e.conds, ⟨e.var, e.post⟩⟩ : Effect)) := by
    simp only [taskOp, List.filter_map]
    rfl
  have hmem : ∀ e, e ∈ o.prePost.filter (fun e => decide (allHold e.conds s) && e.var == v) ↔ e ∈ o.prePost ∧ allHold e.conds s ∧ e.var = v := by
    intro e
    simp [List.mem_filter]
  have hsort : (o.prePost.filter (fun e => decide (allHold e.conds s) && e.var == v)).Pairwise (fun a b => a.post ≤ b.post) := by
    have h1 : (o.prePost.filter (fun e => decide (allHold e.conds s) && e.var == v)).Pairwise (fun a b => a.key < b.key) := hC.sorted.filter _
    refine List.Pairwise.imp_of_mem ?_ h1
    intro a c ha hc hlt
    obtain ⟨a1, _, a3⟩ := (hmem a).mp ha
    obtain ⟨c1, _, c3⟩ := (hmem c).mp hc
    have hpre := hC.samePre a a1 c c1 (a3.trans c3.symm)
    simp only [PrePost.key, Prod.Lex.toLex_lt_toLex, hpre, a3, c3, lt_self_iff_false, true_and, false_or] at hlt
    rcases hlt with h | ⟨h, _⟩ <;> omega
  unfold Operator.assigned
  rw [hfil]
  cases hl : (o.prePost.filter (fun e => decide (allHold e.conds s) && e.var == v)).getLast? with
  | none =>
    left
    rw [List.getLast?_eq_none_iff] at hl
    refine ⟨by simp [hl], fun e he hv hf => ?_⟩
    have := (hmem e).mpr ⟨he, hf, hv⟩
    rw [hl] at this
    simp at this
  | some e =>
    right
    have he := (hmem e).mp (List.mem_of_getLast? hl)
    refine ⟨e, he.1, he.2.2, he.2.1, by simp [List.getLast?_map, hl], fun e' he' hv hf => ?_⟩
    have hm' := (hmem e').mpr ⟨he', hf, hv⟩
    obtain ⟨ys, hys⟩ := List.getLast?_eq_some_iff.mp hl
    rw [hys] at hm' hsort
    rw [List.pairwise_append] at hsort
    rcases List.mem_append.mp hm' with h | h
    · exact hsort.2.2 e' h e (by simp)
    · simp at h
      rw [h]

section
variable {T : SasTask} {R : Renaming}

theorem sortedVars_img (hG : Good T R) {fs : List Fact} (h : SortedVars fs) : SortedVars (fs.filterMap (emb T R).img) := by
  unfold SortedVars at h ⊢
  rw [List.pairwise_filterMap]
  refine h.imp (fun {a b} hab a' ha b' hb => ?_)
  exact idx_lt hG (Emb.img_some ha).1 (Emb.img_some hb).1 hab

/-- an effect that can occur sets a value that is reached -/
theorem post_reached (hT : T.Valid) (hC : T.Canonical) {o : SasOperator} (ho : o ∈ T.operators) {d : List Fact} (hd : SortedVars d)
    (hm : ∀ f, f ∈ d ↔ f ∈ o.prevail ∨ ∃ e ∈ o.prePost, e.var = f.var ∧ e.pre = some f.val) (hre : ∀ f ∈ d, T.Reached f.var f.val)
    {e : PrePost} (he : e ∈ o.prePost) (hcs : ∀ c ∈ e.conds, T.Reached c.var c.val) (hnc : ∀ c ∈ e.conds, ∀ f ∈ d, f.var = c.var → f.val = c.val) : T.Reached e.var e.post := by
  by_cases h1 : ∃ f ∈ d, f.var = e.var
  · obtain ⟨f, hf, hv⟩ := h1
    refine .effect f.val o e (by rw [← hv]; exact hre f hf) ho he rfl ⟨fun g hg hgv => ?_, fun e' he' hv' y hy => ?_, fun c hc hcv => ?_⟩
    · rw [sorted_unique hd ((hm g).mpr (Or.inl hg)) hf (hgv.trans hv.symm)]
    · have : (⟨e.var, y⟩ : Fact) = f := sorted_unique hd ((hm ⟨e.var, y⟩).mpr (Or.inr ⟨e', he', hv', hy⟩)) hf hv.symm
      rw [← this]
    · exact (hnc c hc f hf (hv.trans hcv.symm)).symm
  · have hno : ∀ f ∈ d, f.var ≠ e.var := fun f hf hv => h1 ⟨f, hf, hv⟩
    have hp : ∀ x, (∀ c ∈ e.conds, c.var = e.var → c.val = x) → AllowsValue o e x := by
      intro x hx
      refine ⟨fun g hg hgv => absurd hgv (hno g ((hm g).mpr (Or.inl hg))), fun e' he' hv' y hy => ?_, hx⟩
      exact absurd rfl (hno ⟨e.var, y⟩ ((hm _).mpr (Or.inr ⟨e', he', hv', hy⟩)))
    by_cases h2 : ∃ c ∈ e.conds, c.var = e.var
    · obtain ⟨c, hc, hv⟩ := h2
      refine .effect c.val o e (by rw [← hv]; exact hcs c hc) ho he rfl (hp _ (fun c' hc' hv' => ?_))
      rw [sorted_unique ((hC.operators o ho).conds e he) hc' hc (hv'.trans hv.symm)]
    · obtain ⟨x, hx, _⟩ := (hT.operators o ho).post e he
      have hlt := (List.getElem?_eq_some_iff.mp hx).1
      simp only at hlt
      have e0 := List.getElem?_eq_getElem (show e.var < T.init.length by rw [hT.init]; exact hlt)
      exact .effect _ o e (.init _ e0) ho he rfl (hp _ (fun c hc hv => absurd ⟨c, hc, hv⟩ h2))

theorem contradicts_iff {d cs : List Fact} (hd : SortedVars d) : contradicts d cs = true ↔ ∃ c ∈ cs, ∃ f ∈ d, f.var = c.var ∧ f.val ≠ c.val := by
  unfold contradicts
  rw [List.any_eq_true]
  refine exists_congr (fun c => and_congr_right (fun _ => ?_))
  cases hl : lookup d c.var with
  | none =>
    rw [lookup_none] at hl
    simp only [Bool.false_eq_true, false_iff]
    rintro ⟨f, hf, hv, _⟩
    exact hl f hf hv
  | some y =>
    rw [lookup_some (nodup_of_sorted hd)] at hl
    simp only [ne_eq, decide_not, Bool.not_eq_eq_eq_not, Bool.not_true, decide_eq_false_iff_not]
    constructor
    · intro h
      exact ⟨_, hl, rfl, h⟩
    · rintro ⟨f, hf, hv, hne⟩ rfl
      have := sorted_unique hd hf hl hv
      rw [this] at hne
      exact hne rfl

/-- a new effect -/
def newEffect (T : SasTask) (R : Renaming) (k : Nat) (e : PrePost) : PrePost :=
  ⟨k, e.pre.map ((emb T R).rank e.var), (emb T R).rank e.var e.post, e.conds.filterMap (emb T R).img⟩

/-- an effect that is removed: the variable is removed, the value is the one before, or the conditions are never satisfied when the operator is applied -/
def Useless (T : SasTask) (R : Renaming) (d : List Fact) (e : PrePost) : Prop :=
  (emb T R).idx e.var = none ∨ e.pre = some e.post ∨ (∃ c ∈ e.conds, ¬ T.Reached c.var c.val) ∨ ∃ c ∈ e.conds, ∃ f ∈ d, f.var = c.var ∧ f.val ≠ c.val

/-- an effect that is kept -/
structure Useful (T : SasTask) (R : Renaming) (k : Nat) (e : PrePost) : Prop where
  idx : (emb T R).idx e.var = some k
  post : T.Reached e.var e.post
  conds : ∀ c ∈ e.conds, T.Reached c.var c.val
  pre : ∀ x, e.pre = some x → T.Reached e.var x
  change : e.pre ≠ some e.post

theorem translatePrePost_spec (hT : T.Valid) (hC : T.Canonical) (hG : Good T R) {o : SasOperator} (ho : o ∈ T.operators) {d : List Fact} (hd : SortedVars d)
    (hm : ∀ f, f ∈ d ↔ f ∈ o.prevail ∨ ∃ e ∈ o.prePost, e.var = f.var ∧ e.pre = some f.val) (hre : ∀ f ∈ d, T.Reached f.var f.val) {e : PrePost} (he : e ∈ o.prePost) :
    (Useless T R d e ∧ translatePrePost R (d.filterMap (emb T R).img) e = some none) ∨
    ∃ k, Useful T R k e ∧ translatePrePost R (d.filterMap (emb T R).img) e = some (some (newEffect T R k e)) := by
  have hv := hT.operators o ho
  have hreach := post_reached hT hC ho hd hm hre he
  have hpreD : ∀ x, e.pre = some x → T.Reached e.var x := fun x hx => hre ⟨e.var, x⟩ ((hm _).mpr (Or.inr ⟨e, he, rfl, hx⟩))
  have hd' := sortedVars_img hG hd
  -- the contradiction test on new facts
  have hcon : (∀ c ∈ e.conds, T.Reached c.var c.val) → (contradicts (d.filterMap (emb T R).img) (e.conds.filterMap (emb T R).img) = true ↔ ∃ c ∈ e.conds, ∃ f ∈ d, f.var = c.var ∧ f.val ≠ c.val) := by
    intro hcs
    rw [contradicts_iff hd']
    constructor
    · rintro ⟨c', hc', f', hf', hvv, hne⟩
      obtain ⟨c, hc, hci⟩ := List.mem_filterMap.mp hc'
      obtain ⟨f, hf, hfi⟩ := List.mem_filterMap.mp hf'
      obtain ⟨a1, a2⟩ := Emb.img_some hci
      obtain ⟨b1, b2⟩ := Emb.img_some hfi
      have hfc : f.var = c.var := idx_inj hG (b1.trans (by rw [hvv])) a1
      refine ⟨c, hc, f, hf, hfc, fun h => hne ?_⟩
      rw [b2, a2, hfc, h]
    · rintro ⟨c, hc, f, hf, hvv, hne⟩
      cases hi : (emb T R).idx c.var with
      | none =>
        obtain ⟨x, hx, _⟩ := (hv.conds e he).1 c hc
        obtain ⟨y, hy⟩ := removed hG hx hi
        have h1 := (hy _).mp (hcs c hc)
        have h2 := hre f hf
        rw [hvv, hy] at h2
        exact absurd (h2.trans h1.symm) hne
      | some k =>
        refine ⟨⟨k, (emb T R).rank c.var c.val⟩, List.mem_filterMap.mpr ⟨c, hc, by simp [Emb.img, hi]⟩, ⟨k, (emb T R).rank f.var f.val⟩,
          List.mem_filterMap.mpr ⟨f, hf, by simp [Emb.img, hvv, hi]⟩, rfl, fun h => hne ?_⟩
        simp only at h
        have h2 := hre f hf
        rw [hvv] at h h2
        exact rank_inj hG hi h2 (hcs c hc) h
  -- what is left if the value after is not the only one
  have hrest : (emb T R).idx e.var = none → ∃ y, ∀ z, T.Reached e.var z ↔ z = y := by
    intro hi
    obtain ⟨x, hx, _⟩ := hv.post e he
    exact removed hG hx hi
  have hnewPre : newPre R e = some (e.pre.map (fun x => if (emb T R).idx e.var = none then .always else .value ((emb T R).rank e.var x))) := by
    unfold newPre
    cases hp : e.pre with
    | none => rfl
    | some x =>
      simp only [Option.map_some]
      rcases translatePair_spec hG (hv.pre e he x hp) with ⟨h1, _⟩ | ⟨_, h2, h3⟩ | ⟨k, _, h2, h3⟩
      · exact absurd (hpreD x hp) h1
      · simp only at h2
        simp only [h3, h2, if_true]
      · simp only at h2
        simp only [h3, h2, reduceCtorEq, if_false]
  unfold translatePrePost
  rcases translatePair_spec hG (hv.post e he) with ⟨h1, w, h2⟩ | ⟨h1, h2, h3⟩ | ⟨k, h1, h2, h3⟩
  · -- the value is not reached
    simp only at h1
    left
    simp only [h2, hnewPre]
    rw [if_neg (by
      cases e.pre with
      | none => simp
      | some x => simp only [Option.map_some, Option.some.injEq]; split <;> simp)]
    rcases convertPairs_spec hG (hv.conds e he).1 with ⟨a1, a2⟩ | ⟨a1, a2⟩
    · have hex : ∃ c ∈ e.conds, ∃ f ∈ d, f.var = c.var ∧ f.val ≠ c.val := by
        by_contra hno
        refine h1 (hreach a1 (fun c hc f hf hvv => ?_))
        by_contra hne
        exact hno ⟨c, hc, f, hf, hvv, hne⟩
      refine ⟨Or.inr (Or.inr (Or.inr hex)), ?_⟩
      simp only [a2, finishPrePost, (hcon a1).mpr hex, if_true]
    · exact ⟨Or.inr (Or.inr (Or.inl a1)), by simp only [a2]⟩
  · left
    exact ⟨Or.inl h2, by simp only [h3]⟩
  · simp only at h1 h2
    simp only [h3, hnewPre, h2, reduceCtorEq, if_false]
    by_cases hsame : e.pre = some e.post
    · left
      refine ⟨Or.inr (Or.inl hsame), ?_⟩
      rw [hsame, if_pos (by simp)]
    · have hne : ¬ (e.pre.map (fun x => NewValue.value ((emb T R).rank e.var x)) = some (.value ((emb T R).rank e.var e.post))) := by
        intro h
        rw [Option.map_eq_some_iff] at h
        obtain ⟨x, hx, hx2⟩ := h
        simp only [NewValue.value.injEq] at hx2
        exact hsame (by rw [hx, rank_inj hG h2 (hpreD x hx) h1 hx2])
      rw [if_neg hne]
      rcases convertPairs_spec hG (hv.conds e he).1 with ⟨a1, a2⟩ | ⟨a1, a2⟩
      · simp only [a2, finishPrePost]
        by_cases hex : ∃ c ∈ e.conds, ∃ f ∈ d, f.var = c.var ∧ f.val ≠ c.val
        · left
          rw [if_pos ((hcon a1).mpr hex)]
          exact ⟨Or.inr (Or.inr (Or.inr hex)), rfl⟩
        · right
          rw [if_neg (fun h => hex ((hcon a1).mp h))]
          refine ⟨k, ⟨h2, h1, a1, hpreD, hsame⟩, ?_⟩
          cases hp : e.pre with
          | none => simp [newEffect, hp]
          | some x => simp [newEffect, hp]
      · left
        exact ⟨Or.inr (Or.inr (Or.inl a1)), by simp only [a2]⟩

end

end Verif.Simplify
