import Verif.Lemmas.LandmarkReach

/-
The labels of Zhu and Givan: a fact is a label of another fact if and only if the latter cannot be reached without the former in the
delete relaxation.
-/
namespace Verif.Landmarks
variable {t : Task}

/-- `f` can be reached from the initial state in the delete relaxation -/
abbrev Reach0 (t : Task) (f : Fact) : Prop := t.RelReach (fun _ => True) t.init f

/-- what is known about the labels at all times -/
structure LInv (t : Task) (l : Layer) : Prop where
  self : ∀ f, l f ≠ [] → f ∈ l f
  nodup : ∀ f, (l f).Nodup
  valid : ∀ f, l f ≠ [] → t.ValidFact f
  labels : ∀ f, ∀ x ∈ l f, t.ValidFact x
  reach : ∀ f, l f ≠ [] → Reach0 t f
  avoid : ∀ f, l f ≠ [] → ∀ x, x ∉ l f → t.ReachAvoiding [x] true f
  init : ∀ f : Fact, f.holds t.init → l f = [f]

/-- the labels of reached facts shrink -/
def Ref (l l' : Layer) : Prop := ∀ f, l f ≠ [] → l' f ≠ [] ∧ ∀ x ∈ l' f, x ∈ l f

theorem Ref.refl (l : Layer) : Ref l l := fun _ h => ⟨h, fun _ hx => hx⟩

theorem Ref.trans {l l' l'' : Layer} (h : Ref l l') (h' : Ref l' l'') : Ref l l'' :=
  fun f hf => ⟨(h' f (h f hf).1).1, fun x hx => (h f hf).2 x ((h' f (h f hf).1).2 x hx)⟩

/-- the labels `nx` are closed under an effect with the conditions `cs`, whose labels are `cur` -/
def Cl (cur nx : Layer) (cs : List Fact) (f : Fact) : Prop := (∀ q ∈ cs, cur q ≠ []) → nx f ≠ [] ∧ ∀ x ∈ nx f, x = f ∨ ∃ q ∈ cs, x ∈ cur q

theorem Cl.mono {cur nx nx' : Layer} {cs : List Fact} {f : Fact} (h : Cl cur nx cs f) (hr : Ref nx nx') : Cl cur nx' cs f := by
  intro hc
  obtain ⟨h1, h2⟩ := h hc
  exact ⟨(hr f h1).1, fun x hx => h2 x ((hr f h1).2 x hx)⟩

/-- a number that gets smaller when a fact is reached or loses a label -/
def weight (t : Task) (l : Layer) (f : Fact) : Nat := if l f = [] then numFacts t + 1 else (l f).length

theorem labels_length {l : Layer} (h : LInv t l) (f : Fact) : (l f).length ≤ numFacts t := nodup_valid_length (h.nodup f) (h.labels f)

theorem weight_mono {l l' : Layer} (h : LInv t l) (h' : LInv t l') (hr : Ref l l') (f : Fact) : weight t l' f ≤ weight t l f := by
  unfold weight
  by_cases hl : l f = []
  · rw [if_pos hl]
    split
    · exact Nat.le_refl _
    · have := labels_length h' f
      omega
  · rw [if_neg hl, if_neg (hr f hl).1]
    exact (List.subperm_of_subset (h'.nodup f) (hr f hl).2).length_le

/-- labels of the same weight are the same sets -/
theorem same_labels {l l' : Layer} (h : LInv t l) (h' : LInv t l') (hr : Ref l l') {f : Fact} (hw : weight t l' f = weight t l f) : (l' f = [] ↔ l f = []) ∧ ∀ x, x ∈ l' f ↔ x ∈ l f := by
  unfold weight at hw
  by_cases hl : l f = []
  · rw [if_pos hl] at hw
    by_cases hl' : l' f = []
    · rw [hl, hl']
      simp
    · rw [if_neg hl'] at hw
      have := labels_length h' f
      omega
  · rw [if_neg hl, if_neg (hr f hl).1] at hw
    refine ⟨iff_of_false (hr f hl).1 hl, fun x => ?_⟩
    have hsp := List.subperm_of_subset (h'.nodup f) (hr f hl).2
    exact (hsp.perm_of_length_le (by omega)).mem_iff

theorem reached_iff {l : Layer} {f : Fact} : l.reached f = true ↔ l f ≠ [] := by
  unfold Layer.reached
  simp

theorem allReached_iff {l : Layer} {fs : List Fact} : allReached l fs = true ↔ ∀ f ∈ fs, l f ≠ [] := by
  unfold allReached
  simp only [List.all_eq_true, reached_iff]

theorem mem_foldl_insertAll {α β : Type} [BEq α] [LawfulBEq α] (g : β → List α) : ∀ (l : List β) (r : List α) (x : α), x ∈ l.foldl (fun r q => insertAll r (g q)) r ↔ x ∈ r ∨ ∃ q ∈ l, x ∈ g q
  | [], r, x => by simp
  | b :: l, r, x => by
    rw [List.foldl_cons, mem_foldl_insertAll g l, mem_insertAll]
    simp only [List.mem_cons, exists_eq_or_imp, or_assoc]

theorem nodup_foldl_insertAll {α β : Type} [BEq α] [LawfulBEq α] (g : β → List α) : ∀ (l : List β) (r : List α), r.Nodup → (l.foldl (fun r q => insertAll r (g q)) r).Nodup
  | [], _, h => h
  | _ :: l, _, h => nodup_foldl_insertAll g l _ (nodup_insertAll h)

theorem mem_union {conds : List Fact} {cur : Layer} {x : Fact} : x ∈ unionOfConditionLabels conds cur ↔ ∃ q ∈ conds, x ∈ cur q := by
  unfold unionOfConditionLabels
  rw [mem_foldl_insertAll]
  simp

theorem nodup_union {conds : List Fact} {cur : Layer} : (unionOfConditionLabels conds cur).Nodup := nodup_foldl_insertAll _ _ _ List.nodup_nil

/-- how the labels of one fact change -/
theorem propagate_spec {old new : List Fact} {f : Fact} (hold : old ≠ [] → f ∈ old) (hn : old.Nodup) (hn' : new.Nodup) :
    f ∈ propagateLabels old new f ∧ (propagateLabels old new f).Nodup ∧ (∀ x ∈ propagateLabels old new f, x = f ∨ x ∈ new) ∧
    (old ≠ [] → ∀ x ∈ propagateLabels old new f, x ∈ old) ∧ (∀ x, x ∉ propagateLabels old new f → x ≠ f ∧ ((old ≠ [] ∧ x ∉ old) ∨ x ∉ new)) := by
  unfold propagateLabels
  by_cases he : old = []
  · subst he
    simp only [List.isEmpty_nil, if_true]
    refine ⟨mem_insertSet.mpr (Or.inr rfl), nodup_insertSet hn', fun x hx => (mem_insertSet.mp hx).symm, fun h => absurd rfl h, fun x hx => ?_⟩
    rw [mem_insertSet, not_or] at hx
    exact ⟨hx.2, Or.inr hx.1⟩
  · have hb : old.isEmpty = false := by simp [he]
    rw [hb]
    simp only [Bool.false_eq_true, if_false]
    refine ⟨mem_insertSet.mpr (Or.inr rfl), nodup_insertSet (hn.filter _), fun x hx => ?_, fun _ x hx => ?_, fun x hx => ?_⟩
    · rcases mem_insertSet.mp hx with hx | hx
      · rw [List.mem_filter, List.contains_iff_mem] at hx
        exact Or.inr hx.2
      · exact Or.inl hx
    · rcases mem_insertSet.mp hx with hx | hx
      · exact (List.mem_filter.mp hx).1
      · rw [hx]; exact hold he
    · rw [mem_insertSet, not_or, List.mem_filter, List.contains_iff_mem, not_and_or] at hx
      exact ⟨hx.2, hx.1.imp (fun h => ⟨he, h⟩) id⟩

/-- changes with respect to the labels `b` -/
def Changed (t : Task) (b nx : Layer) (changed : List Fact) : Prop :=
  (∀ f, weight t nx f ≠ weight t b f → f ∈ changed) ∧ ∀ f ∈ changed, t.ValidFact f ∧ weight t nx f < weight t b f

theorem applyEffects_spec {cur b : Layer} {pre : List Fact} (hc : LInv t cur) (hb : LInv t b) (hpre : ∀ q ∈ pre, cur q ≠ []) :
    ∀ (es : List Effect) (nx : Layer) (ch : List Fact), (∀ e ∈ es, ∃ i c, t.RelEffect i (pre ++ e.conds) e.fact c) → (∀ e ∈ es, t.ValidFact e.fact) → LInv t nx → Ref b nx → Changed t b nx ch →
      ∃ nx' ch', applyEffects t cur (unionOfConditionLabels pre cur) es (nx, ch) = some (nx', ch') ∧ LInv t nx' ∧ Ref nx nx' ∧ Changed t b nx' ch' ∧
        ∀ e ∈ es, Cl cur nx' (pre ++ e.conds) e.fact
  | [], nx, ch, _, _, hn, _, hch => ⟨nx, ch, rfl, hn, Ref.refl _, hch, by simp⟩
  | e :: es, nx, ch, hrel, hval, hn, hbn, hch => by
    have hrel' : ∀ e ∈ es, ∃ i c, t.RelEffect i (pre ++ e.conds) e.fact c := fun x hx => hrel x (by simp [hx])
    have hval' : ∀ e ∈ es, t.ValidFact e.fact := fun x hx => hval x (by simp [hx])
    rw [applyEffects, if_pos (hasFact_iff.mpr (hval e (by simp)))]
    -- the effect changes nothing
    have hskip : Cl cur nx (pre ++ e.conds) e.fact → ∃ nx' ch', applyEffects t cur (unionOfConditionLabels pre cur) es (nx, ch) = some (nx', ch') ∧ LInv t nx' ∧ Ref nx nx' ∧ Changed t b nx' ch' ∧
        ∀ x ∈ e :: es, Cl cur nx' (pre ++ x.conds) x.fact := by
      intro hcl
      obtain ⟨nx', ch', h1, h2, h3, h4, h5⟩ := applyEffects_spec hc hb hpre es nx ch hrel' hval' hn hbn hch
      refine ⟨nx', ch', h1, h2, h3, h4, fun x hx => ?_⟩
      rcases List.mem_cons.mp hx with rfl | hx
      · exact hcl.mono h3
      · exact h5 x hx
    by_cases h1 : (nx e.fact).length = 1
    · rw [if_pos h1]
      refine hskip (fun _ => ?_)
      have hne : nx e.fact ≠ [] := by intro h; rw [h] at h1; cases h1
      refine ⟨hne, fun x hx => Or.inl ?_⟩
      obtain ⟨y, hy⟩ := List.length_eq_one_iff.mp h1
      have := hn.self e.fact hne
      rw [hy, List.mem_singleton] at this hx
      rw [hx, this]
    · rw [if_neg h1]
      by_cases h2 : allReached cur e.conds = true
      · rw [if_pos h2]
        rw [allReached_iff] at h2
        obtain ⟨p1, p2, p3, p4, p5⟩ := propagate_spec (new := insertAll (unionOfConditionLabels e.conds cur) (unionOfConditionLabels pre cur)) (hn.self e.fact) (hn.nodup e.fact) (nodup_insertAll nodup_union)
        have hnew : ∀ x, x ∈ insertAll (unionOfConditionLabels e.conds cur) (unionOfConditionLabels pre cur) ↔ ∃ q ∈ pre ++ e.conds, x ∈ cur q := by
          intro x
          rw [mem_insertAll, mem_union, mem_union]
          simp only [List.mem_append, or_and_right, exists_or]
          exact or_comm
        generalize hL : propagateLabels (nx e.fact) (insertAll (unionOfConditionLabels e.conds cur) (unionOfConditionLabels pre cur)) e.fact = L at p1 p2 p3 p4 p5 ⊢
        have hLne : L ≠ [] := by intro h; rw [h] at p1; cases p1
        have hreached : ∀ q ∈ pre ++ e.conds, cur q ≠ [] := fun q hq => (List.mem_append.mp hq).elim (hpre q) (h2 q)
        obtain ⟨i, c, hre⟩ := hrel e (by simp)
        rw [if_pos (by
          by_cases hz : nx e.fact = []
          · left; rw [hz]; rfl
          · right; exact (List.subperm_of_subset p2 (p4 hz)).length_le)]
        have hn2 : LInv t (fun f => if f = e.fact then L else nx f) := by
          constructor
          · intro f hf
            by_cases hfe : f = e.fact
            · simp only [if_pos hfe]
              rw [hfe]
              exact p1
            · simp only [if_neg hfe] at hf ⊢
              exact hn.self f hf
          · intro f
            by_cases hfe : f = e.fact
            · simp only [if_pos hfe]; exact p2
            · simp only [if_neg hfe]; exact hn.nodup f
          · intro f hf
            by_cases hfe : f = e.fact
            · rw [hfe]; exact hval e (by simp)
            · simp only [if_neg hfe] at hf
              exact hn.valid f hf
          · intro f x hx
            by_cases hfe : f = e.fact
            · simp only [if_pos hfe] at hx
              rcases p3 x hx with rfl | hx
              · exact hval e (by simp)
              · obtain ⟨q, _, hq⟩ := (hnew x).mp hx
                exact hc.labels q x hq
            · simp only [if_neg hfe] at hx
              exact hn.labels f x hx
          · intro f hf
            by_cases hfe : f = e.fact
            · rw [hfe]
              exact .effect i _ _ c hre (fun _ _ => trivial) (fun q hq => hc.reach q (hreached q hq))
            · simp only [if_neg hfe] at hf
              exact hn.reach f hf
          · intro f hf x hx
            by_cases hfe : f = e.fact
            · simp only [if_pos hfe] at hx
              obtain ⟨hxf, h3⟩ := p5 x hx
              rw [hfe]
              rcases h3 with ⟨h3, h4⟩ | h3
              · exact hn.avoid _ h3 x h4
              · refine .effect i _ _ c hre (by simpa using fun h => hxf h.symm) (fun h => by cases h) (fun q hq => hc.avoid q (hreached q hq) x ?_)
                intro hm
                exact h3 ((hnew x).mpr ⟨q, hq, hm⟩)
            · simp only [if_neg hfe] at hf hx
              exact hn.avoid f hf x hx
          · intro f hf
            by_cases hfe : f = e.fact
            · have := hn.init f hf
              rw [hfe] at this
              rw [this] at h1
              exact absurd rfl h1
            · simp only [if_neg hfe]
              exact hn.init f hf
        have hr2 : Ref nx (fun f => if f = e.fact then L else nx f) := by
          intro f hf
          by_cases hfe : f = e.fact
          · simp only [if_pos hfe]
            refine ⟨hLne, ?_⟩
            rw [hfe] at hf ⊢
            exact p4 hf
          · simp only [if_neg hfe]
            exact ⟨hf, fun _ h => h⟩
        have hw : ∀ f, f ≠ e.fact → weight t (fun f => if f = e.fact then L else nx f) f = weight t nx f := by
          intro f hfe
          unfold weight
          simp only [if_neg hfe]
        have hwe : weight t (fun f => if f = e.fact then L else nx f) e.fact = L.length := by
          unfold weight
          simp only [if_true]
          rw [if_neg hLne]
        have hch2 : Changed t b (fun f => if f = e.fact then L else nx f) (if (nx e.fact).length = L.length then ch else insertSet ch e.fact) := by
          by_cases hlen : (nx e.fact).length = L.length
          · rw [if_pos hlen]
            have hne : nx e.fact ≠ [] := by
              intro h
              rw [h] at hlen
              exact hLne (List.length_eq_zero_iff.mp hlen.symm)
            have hall : ∀ f, weight t (fun f => if f = e.fact then L else nx f) f = weight t nx f := by
              intro f
              by_cases hfe : f = e.fact
              · rw [hfe, hwe]
                unfold weight
                rw [if_neg hne, hlen]
              · exact hw f hfe
            unfold Changed
            simp only [hall]
            exact hch
          · rw [if_neg hlen]
            constructor
            · intro f hf
              rw [mem_insertSet]
              by_cases hfe : f = e.fact
              · exact Or.inr hfe
              · rw [hw f hfe] at hf
                exact Or.inl (hch.1 f hf)
            · intro f hf
              by_cases hfe : f = e.fact
              · rw [hfe]
                refine ⟨hval e (by simp), ?_⟩
                refine Nat.lt_of_lt_of_le ?_ (weight_mono hb hn hbn e.fact)
                have h3 := weight_mono hn hn2 hr2 e.fact
                refine Nat.lt_of_le_of_ne h3 ?_
                rw [hwe]
                unfold weight
                split
                · rename_i hz
                  have := labels_length hn2 e.fact
                  simp only [if_true] at this
                  omega
                · omega
              · rw [mem_insertSet] at hf
                rw [hw f hfe]
                exact hch.2 f (hf.resolve_right hfe)
        obtain ⟨nx', ch', k1, k2, k3, k4, k5⟩ := applyEffects_spec hc hb hpre es _ _ hrel' hval' hn2 (hbn.trans hr2) hch2
        refine ⟨nx', ch', k1, k2, hr2.trans k3, k4, fun x hx => ?_⟩
        rcases List.mem_cons.mp hx with rfl | hx
        · refine Cl.mono ?_ k3
          intro _
          simp only [if_true]
          exact ⟨hLne, fun y hy => (p3 y hy).imp id (hnew y).mp⟩
        · exact k5 x hx
      · rw [if_neg h2]
        refine hskip (fun hr => ?_)
        exact absurd (allReached_iff.mpr (fun q hq => hr q (by simp [hq]))) h2

theorem mem_triggersOf {f : Fact} {id : Int} : id ∈ triggersOf t f ↔ ∃ o, (id, o) ∈ opsAndAxioms t ∧ (f ∈ o.pre ∨ ∃ e ∈ o.effects, f ∈ e.conds) := by
  unfold triggersOf
  simp only [List.mem_flatMap, List.mem_append, List.mem_map, List.mem_filter, beq_iff_eq]
  constructor
  · rintro ⟨x, hx, ⟨q, ⟨hq, rfl⟩, rfl⟩ | ⟨e, he, q, ⟨hq, rfl⟩, rfl⟩⟩
    · exact ⟨x.2, hx, Or.inl hq⟩
    · exact ⟨x.2, hx, Or.inr ⟨e, he, hq⟩⟩
  · rintro ⟨o, ho, h | ⟨e, he, h⟩⟩
    · exact ⟨(id, o), ho, Or.inl ⟨f, ⟨h, rfl⟩, rfl⟩⟩
    · exact ⟨(id, o), ho, Or.inr ⟨e, he, f, ⟨h, rfl⟩, rfl⟩⟩

/-- what is known during a round -/
structure RInv (t : Task) (cur : Layer) (r : Round) : Prop where
  inv : LInv t r.next
  ref : Ref cur r.next
  trig : ∀ f, weight t r.next f ≠ weight t cur f → r.changes = true ∧ ∀ id ∈ triggersOf t f, id ∈ r.triggers
  less : r.changes = true → ∃ f, t.ValidFact f ∧ weight t r.next f < weight t cur f
  ids : ∀ id ∈ r.triggers, ∃ o, (id, o) ∈ opsAndAxioms t

theorem relEffect_of_mem {id : Int} {o : Operator} (h : (id, o) ∈ opsAndAxioms t) {e : Effect} (he : e ∈ o.effects) : ∃ i c, t.RelEffect i (o.pre ++ e.conds) e.fact c := by
  rcases mem_opsAndAxioms.mp h with ⟨i, hi, _⟩ | ⟨i, hi, _⟩
  · exact ⟨_, _, .op i o e hi he⟩
  · exact ⟨_, _, .ax o e (List.mem_of_getElem? hi) he⟩

theorem mem_of_relEffect {i : Option Nat} {cs : List Fact} {f : Fact} {c : Nat} (h : t.RelEffect i cs f c) : ∃ id o, (id, o) ∈ opsAndAxioms t ∧ ∃ e ∈ o.effects, cs = o.pre ++ e.conds ∧ f = e.fact := by
  cases h with
  | op i o e hi he => exact ⟨i, o, mem_opsAndAxioms.mpr (Or.inl ⟨i, hi, rfl⟩), e, he, rfl, rfl⟩
  | ax a e ha he =>
    obtain ⟨i, hi⟩ := List.mem_iff_getElem?.mp ha
    exact ⟨_, a, mem_opsAndAxioms.mpr (Or.inr ⟨i, hi, rfl⟩), e, he, rfl, rfl⟩

theorem propagateOps_spec (hf : t.FactsValid) {cur : Layer} (hc : LInv t cur) : ∀ (ids : List Int) (r : Round), (∀ id ∈ ids, ∃ o, (id, o) ∈ opsAndAxioms t) → RInv t cur r →
    ∃ r', propagateOps t cur ids r = some r' ∧ RInv t cur r' ∧ Ref r.next r'.next ∧ ∀ id ∈ ids, ∀ o, (id, o) ∈ opsAndAxioms t → ∀ e ∈ o.effects, Cl cur r'.next (o.pre ++ e.conds) e.fact
  | [], r, _, h => ⟨r, rfl, h, Ref.refl _, by simp⟩
  | id :: ids, r, hids, h => by
    obtain ⟨o, ho⟩ := hids id (by simp)
    have hids' : ∀ id ∈ ids, ∃ o, (id, o) ∈ opsAndAxioms t := fun x hx => hids x (by simp [hx])
    have huniq : ∀ o', (id, o') ∈ opsAndAxioms t → o' = o := by
      intro o' ho'
      rw [← getOperatorOrAxiom_iff] at ho ho'
      rw [ho] at ho'
      exact (Option.some.inj ho').symm
    rw [propagateOps, getOperatorOrAxiom_iff.mpr ho]
    simp only
    by_cases hp : allReached cur o.pre = true
    · rw [if_pos hp]
      rw [allReached_iff] at hp
      obtain ⟨nx, ch, k1, k2, k3, k4, k5⟩ := applyEffects_spec hc h.inv hp o.effects r.next [] (fun e he => relEffect_of_mem ho he)
        (fun e he => by obtain ⟨i, c, hr⟩ := relEffect_of_mem ho he; exact (hf.effect _ _ _ _ hr).1) h.inv (Ref.refl _) ⟨fun f hne => absurd rfl hne, by simp⟩
      rw [k1]
      have hfin : ∀ r1 : Round, r1.next = nx → RInv t cur r1 → ∃ r', propagateOps t cur ids r1 = some r' ∧ RInv t cur r' ∧ Ref r.next r'.next ∧
          ∀ x ∈ id :: ids, ∀ o, (x, o) ∈ opsAndAxioms t → ∀ e ∈ o.effects, Cl cur r'.next (o.pre ++ e.conds) e.fact := by
        intro r1 hr1 hinv
        obtain ⟨r', l1, l2, l3, l4⟩ := propagateOps_spec hf hc ids r1 hids' hinv
        rw [hr1] at l3
        refine ⟨r', l1, l2, k3.trans l3, fun x hx o' ho' e he => ?_⟩
        rcases List.mem_cons.mp hx with rfl | hx
        · rw [huniq o' ho'] at he ⊢
          exact (k5 e he).mono l3
        · exact l4 x hx o' ho' e he
      cases ch with
      | nil =>
        refine hfin _ rfl ?_
        have hsame : ∀ f, weight t nx f = weight t r.next f := by
          intro f
          by_contra hne
          exact absurd (k4.1 f hne) (by simp)
        exact ⟨k2, h.ref.trans k3, fun f hne => h.trig f (by rwa [← hsame f]), fun hch => by obtain ⟨f, hv, hlt⟩ := h.less hch; exact ⟨f, hv, by rwa [hsame f]⟩, h.ids⟩
      | cons c cs =>
        refine hfin _ rfl ?_
        refine ⟨k2, h.ref.trans k3, fun f hne => ⟨rfl, fun x hx => ?_⟩, fun _ => ?_, fun x hx => ?_⟩
        · rw [mem_foldl_insertAll]
          by_cases hne' : weight t nx f = weight t r.next f
          · rw [hne'] at hne
            exact Or.inl ((h.trig f hne).2 x hx)
          · exact Or.inr ⟨f, k4.1 f hne', hx⟩
        · obtain ⟨h1, h2⟩ := k4.2 c (by simp)
          exact ⟨c, h1, Nat.lt_of_lt_of_le h2 (weight_mono hc h.inv h.ref c)⟩
        · rw [mem_foldl_insertAll] at hx
          rcases hx with hx | ⟨q, _, hx⟩
          · exact h.ids x hx
          · obtain ⟨o, ho, _⟩ := mem_triggersOf.mp hx
            exact ⟨o, ho⟩
    · rw [if_neg hp]
      obtain ⟨r', l1, l2, l3, l4⟩ := propagateOps_spec hf hc ids r hids' h
      refine ⟨r', l1, l2, l3, fun x hx o' ho' e he => ?_⟩
      rcases List.mem_cons.mp hx with rfl | hx
      · rw [huniq o' ho'] at he ⊢
        intro hr
        exact absurd (allReached_iff.mpr (fun q hq => hr q (by simp [hq]))) hp
      · exact l4 x hx o' ho' e he

/-- the sum of the weights of all facts -/
def totalWeight (t : Task) (l : Layer) : Nat := ((allFacts t).map (weight t l)).sum

theorem totalWeight_lt {l l' : Layer} (hle : ∀ f, weight t l' f ≤ weight t l f) {f : Fact} (hf : t.ValidFact f) (hlt : weight t l' f < weight t l f) : totalWeight t l' < totalWeight t l := by
  unfold totalWeight
  have key : ∀ m : List Fact, (m.map (weight t l')).sum ≤ (m.map (weight t l)).sum ∧ (f ∈ m → (m.map (weight t l')).sum < (m.map (weight t l)).sum) := by
    intro m
    induction m with
    | nil => simp
    | cons a m ih =>
      simp only [List.map_cons, List.sum_cons]
      have := hle a
      refine ⟨by omega, fun hm => ?_⟩
      rcases List.mem_cons.mp hm with rfl | hm
      · omega
      · have := ih.2 hm
        omega
  exact (key _).2 (mem_allFacts.mpr hf)

/-- the order in which the elements of hash sets are visited contains all of them -/
structure HashOrder.Complete (ord : HashOrder) : Prop where
  facts : ∀ l, (ord.facts l).Perm l
  ids : ∀ l, (ord.ids l).Perm l

theorem propagateLoop_spec (hf : t.FactsValid) {ord : HashOrder} (hord : ord.Complete) : ∀ (fuel : Nat) (trig : List Int) (cur : Layer), LInv t cur → (∀ id ∈ trig, ∃ o, (id, o) ∈ opsAndAxioms t) →
    (∀ id o, (id, o) ∈ opsAndAxioms t → id ∉ trig → ∀ e ∈ o.effects, Cl cur cur (o.pre ++ e.conds) e.fact) → totalWeight t cur < fuel →
      ∃ l, propagateLoop t ord fuel trig cur = some l ∧ LInv t l ∧ ∀ i cs f c, t.RelEffect i cs f c → Cl l l cs f
  | 0, _, _, _, _, _, h => by omega
  | n + 1, trig, cur, hc, hids, hcl, hlt => by
    rw [propagateLoop]
    obtain ⟨r, h1, h2, _, h4⟩ := propagateOps_spec hf hc (ord.ids trig) ⟨cur, [], false⟩ (fun id hid => hids id ((hord.ids trig).mem_iff.mp hid))
      ⟨hc, Ref.refl _, fun f hne => absurd rfl hne, fun h => (by cases h), (by simp)⟩
    rw [h1]
    simp only
    have hhalf : ∀ id o, (id, o) ∈ opsAndAxioms t → ∀ e ∈ o.effects, Cl cur r.next (o.pre ++ e.conds) e.fact := by
      intro id o ho e he
      by_cases hid : id ∈ trig
      · exact h4 id ((hord.ids trig).mem_iff.mpr hid) o ho e he
      · exact (hcl id o ho hid e he).mono h2.ref
    have hclosed : ∀ id o, (id, o) ∈ opsAndAxioms t → (∀ f, id ∈ triggersOf t f → weight t r.next f = weight t cur f) → ∀ e ∈ o.effects, Cl r.next r.next (o.pre ++ e.conds) e.fact := by
      intro id o ho hsame e he hr
      have hs : ∀ q ∈ o.pre ++ e.conds, (r.next q = [] ↔ cur q = []) ∧ ∀ x, x ∈ r.next q ↔ x ∈ cur q := by
        intro q hq
        refine same_labels hc h2.inv h2.ref (hsame q (mem_triggersOf.mpr ⟨o, ho, ?_⟩))
        rcases List.mem_append.mp hq with hq | hq
        · exact Or.inl hq
        · exact Or.inr ⟨e, he, hq⟩
      obtain ⟨k1, k2⟩ := hhalf id o ho e he (fun q hq => fun hh => hr q hq ((hs q hq).1.mpr hh))
      refine ⟨k1, fun x hx => (k2 x hx).imp (fun h => h) ?_⟩
      rintro ⟨q, hq, hm⟩
      exact ⟨q, hq, ((hs q hq).2 x).mpr hm⟩
    cases hch : r.changes with
    | true =>
      simp only [if_true]
      obtain ⟨f, hv, hw⟩ := h2.less hch
      have := totalWeight_lt (fun f => weight_mono hc h2.inv h2.ref f) hv hw
      refine propagateLoop_spec hf hord n r.triggers r.next h2.inv h2.ids (fun id o ho hid e he => ?_) (by omega)
      refine hclosed id o ho (fun f hf => ?_) e he
      by_contra hne
      exact hid ((h2.trig f hne).2 id hf)
    | false =>
      simp only [Bool.false_eq_true, if_false]
      refine ⟨r.next, rfl, h2.inv, fun i cs f c hre => ?_⟩
      obtain ⟨id, o, ho, e, he, rfl, rfl⟩ := mem_of_relEffect hre
      refine hclosed id o ho (fun f _ => ?_) e he
      by_contra hne
      rw [(h2.trig f hne).1] at hch
      cases hch

/-- The labels of a fact are the facts without which it cannot be reached in the delete relaxation. -/
theorem buildLabels_spec (hf : t.FactsValid) (hpre : ∀ id o, (id, o) ∈ opsAndAxioms t → ∀ q ∈ o.pre, t.ValidFact q) (hs : t.ValidState t.init) {ord : HashOrder} (hord : ord.Complete) :
    ∃ l, buildLabels t ord = some l ∧ (∀ f, l f ≠ [] ↔ Reach0 t f) ∧ (∀ f, Reach0 t f → ∀ x, x ∈ l f ↔ ¬t.ReachAvoiding [x] true f) ∧ LInv t l := by
  have hinit : LInv t (initialLayer t) := by
    have hcase : ∀ f, initialLayer t f ≠ [] → f.holds t.init := by
      intro f hf
      unfold initialLayer at hf
      by_contra h
      rw [if_neg h] at hf
      exact hf rfl
    have hval : ∀ f : Fact, f.holds t.init → t.ValidFact f := by
      intro f hf
      have hlt := (List.getElem?_eq_some_iff.mp hf).1
      rw [hs.1] at hlt
      exact ⟨_, List.getElem?_eq_getElem hlt, hs.2 _ _ _ hf (List.getElem?_eq_getElem hlt)⟩
    have heq : ∀ f : Fact, f.holds t.init → initialLayer t f = [f] := by
      intro f hf
      unfold initialLayer
      rw [if_pos hf]
    constructor
    · intro f hf
      rw [heq f (hcase f hf)]
      simp
    · intro f
      unfold initialLayer
      split
      · exact List.nodup_singleton _
      · exact List.nodup_nil
    · exact fun f hf => hval f (hcase f hf)
    · intro f x hx
      have hne : initialLayer t f ≠ [] := by intro h; rw [h] at hx; cases hx
      rw [heq f (hcase f hne), List.mem_singleton] at hx
      rw [hx]
      exact hval f (hcase f hne)
    · exact fun f hf => .state f (hcase f hf)
    · intro f hf x hx
      rw [heq f (hcase f hf), List.mem_singleton] at hx
      exact .init f (hcase f hf) (by simpa using fun h => hx h.symm)
    · exact heq
  unfold buildLabels
  rw [if_pos]
  · have hN : ∀ f, weight t (initialLayer t) f ≤ numFacts t + 1 := by
      intro f
      unfold weight
      split
      · exact Nat.le_refl _
      · have := labels_length hinit f
        omega
    have htot : totalWeight t (initialLayer t) ≤ numFacts t * (numFacts t + 1) := by
      unfold totalWeight
      rw [← allFacts_length (t := t)]
      have : ∀ l : List Fact, (l.map (weight t (initialLayer t))).sum ≤ l.length * (numFacts t + 1) := by
        intro l
        induction l with
        | nil => simp
        | cons a l ih =>
          rw [List.map_cons, List.sum_cons, List.length_cons, Nat.succ_mul]
          have := hN a
          omega
      rw [allFacts_length] at *
      simpa [allFacts_length] using this (allFacts t)
    have hids : ∀ id ∈ initialTriggers t, ∃ o, (id, o) ∈ opsAndAxioms t := by
      intro id hid
      unfold initialTriggers at hid
      rw [mem_insertAll, mem_foldl_insertAll] at hid
      rcases hid with (hid | ⟨x, _, hid⟩) | hid
      · cases hid
      · obtain ⟨o, ho, _⟩ := mem_triggersOf.mp hid
        exact ⟨o, ho⟩
      · unfold operatorsWithoutPreconditions at hid
        obtain ⟨x, hx, rfl⟩ := List.mem_map.mp hid
        exact ⟨x.2, (List.mem_filter.mp hx).1⟩
    have hcl : ∀ id o, (id, o) ∈ opsAndAxioms t → id ∉ initialTriggers t → ∀ e ∈ o.effects, Cl (initialLayer t) (initialLayer t) (o.pre ++ e.conds) e.fact := by
      intro id o ho hid e he hr
      exfalso
      unfold initialTriggers at hid
      rw [mem_insertAll, mem_foldl_insertAll, not_or, not_or] at hid
      obtain ⟨⟨_, h1⟩, h2⟩ := hid
      cases hp : o.pre with
      | nil =>
        refine h2 (List.mem_map.mpr ⟨(id, o), List.mem_filter.mpr ⟨ho, ?_⟩, rfl⟩)
        simp [hp]
      | cons q qs =>
        have hq : q ∈ o.pre := by rw [hp]; simp
        have hqr := hr q (by simp [hq])
        have hqh : q.holds t.init := by
          unfold initialLayer at hqr
          by_contra h
          rw [if_neg h] at hqr
          exact hqr rfl
        exact h1 ⟨(q.val, q.var), List.mem_zipIdx_iff_getElem?.mpr hqh, mem_triggersOf.mpr ⟨o, ho, Or.inl hq⟩⟩
    obtain ⟨l, h1, h2, h3⟩ := propagateLoop_spec hf hord (numFacts t * (numFacts t + 1) + 1) (initialTriggers t) (initialLayer t) hinit hids hcl (by omega)
    have hne : ∀ {x} q, t.ReachAvoiding [x] true q → l q ≠ [] := by
      intro x q hq
      induction hq with
      | init f h _ => rw [h2.init f h]; simp
      | effect i cs f c hre _ _ _ ih => exact (h3 i cs f c hre ih).1
    refine ⟨l, h1, fun f => ⟨h2.reach f, fun h => ?_⟩, fun f hrf x => ⟨fun hx h => ?_, fun h => ?_⟩, h2⟩
    · induction h with
      | state f h => rw [h2.init f h]; simp
      | effect i cs f c hre _ _ ih => exact (h3 i cs f c hre ih).1
    · clear hrf
      induction h with
      | init f h h' =>
        rw [h2.init f h, List.mem_singleton] at hx
        exact h' (by simp [hx])
      | effect i cs f c hre hX _ hcs ih =>
        have hreach : ∀ q ∈ cs, l q ≠ [] := fun q hq => hne q (hcs q hq)
        rcases (h3 i cs f c hre hreach).2 x hx with rfl | ⟨q, hq, hm⟩
        · exact hX (by simp)
        · exact ih q hq hm
    · by_contra hx
      refine h (h2.avoid f ?_ x hx)
      clear h hx
      induction hrf with
      | state f h => rw [h2.init f h]; simp
      | effect i cs f c hre _ _ ih => exact (h3 i cs f c hre ih).1
  · unfold triggersDefined
    rw [List.all_eq_true]
    intro x hx
    rw [Bool.and_eq_true, List.all_eq_true, List.all_eq_true]
    refine ⟨fun q hq => hasFact_iff.mpr (hpre x.1 x.2 hx q hq), fun e he => ?_⟩
    rw [List.all_eq_true]
    intro q hq
    obtain ⟨i, c, hr⟩ := relEffect_of_mem hx he
    exact hasFact_iff.mpr ((hf.effect _ _ _ _ hr).2 q (by simp [hq]))

end Verif.Landmarks
