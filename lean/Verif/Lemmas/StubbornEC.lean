import Verif.Lemmas.StubbornSimple

/-
Stubborn sets ec: active operators, necessary enabling sets, disabled operators.
-/
namespace Verif.Stubborn
open Verif.Search

theorem mapM_getElem? {α β : Type} {f : α → Option β} {l : List α} {r : List β} (h : l.mapM f = some r) : r.length = l.length ∧ ∀ (i : Nat) (a : α), l[i]? = some a → ∃ b, f a = some b ∧ r[i]? = some b := by
  induction l generalizing r with
  | nil =>
    simp at h
    subst h
    simp
  | cons a l ih =>
    rw [List.mapM_cons] at h
    cases ha : f a with
    | none => simp [ha] at h
    | some b =>
      cases hl : l.mapM f with
      | none => simp [ha, hl] at h
      | some bs =>
        simp [ha, hl] at h
        subst h
        obtain ⟨h1, h2⟩ := ih hl
        refine ⟨by simp [h1], ?_⟩
        intro i x hx
        cases i with
        | zero =>
          simp at hx
          subst hx
          exact ⟨b, ha, by simp⟩
        | succ i =>
          simp at hx
          obtain ⟨y, hy, hr⟩ := h2 i x hx
          exact ⟨y, hy, by simpa using hr⟩

theorem mapM_defined {α β : Type} {f : α → Option β} {l : List α} (h : ∀ a ∈ l, ∃ b, f a = some b) : ∃ r, l.mapM f = some r := by
  induction l with
  | nil => exact ⟨[], by simp⟩
  | cons a l ih =>
    obtain ⟨b, hb⟩ := h a (by simp)
    obtain ⟨r, hr⟩ := ih (fun x hx => h x (by simp [hx]))
    exact ⟨b :: r, by rw [List.mapM_cons]; simp [hb, hr]⟩

/-! ### Reachable values -/

/-- what the depth-first search achieves -/
structure Closes (succ : Nat → List Nat) (r r' : Nat → Bool) : Prop where
  mono : ∀ x, r x = true → r' x = true
  closed : ∀ x, r' x = true → r x = true ∨ ∀ y ∈ succ x, r' y = true

theorem Closes.trans {succ : Nat → List Nat} {r r' r'' : Nat → Bool} (h : Closes succ r r') (h' : Closes succ r' r'') : Closes succ r r'' where
  mono x hx := h'.mono x (h.mono x hx)
  closed x hx := by
    rcases h'.closed x hx with h1 | h1
    · rcases h.closed x h1 with h2 | h2
      · exact Or.inl h2
      · exact Or.inr (fun y hy => h'.mono y (h2 y hy))
    · exact Or.inr h1

theorem recurse_spec {succ : Nat → List Nat} {cur : Nat} {r r' : Nat → Bool} (h : recurseForwards succ cur r = some r') : Closes succ r r' ∧ r' cur = true := by
  refine recurseForwards.partial_correctness succ (fun cur r r' => Closes succ r r' ∧ r' cur = true) ?_ cur r r' h
  intro rec ih cur r r' h
  split at h
  · rename_i hc
    simp only [Option.some.injEq] at h
    subst h
    exact ⟨⟨fun _ h => h, fun _ h => Or.inl h⟩, hc⟩
  · have hfold : ∀ (l : List Nat) (q : Nat → Bool), l.foldlM (fun r x => rec x r) q = some r' → Closes succ q r' ∧ ∀ x ∈ l, r' x = true := by
      intro l
      induction l with
      | nil =>
        intro q hq
        simp at hq
        subst hq
        exact ⟨⟨fun _ h => h, fun _ h => Or.inl h⟩, by simp⟩
      | cons a l ihl =>
        intro q hq
        simp only [List.foldlM_cons] at hq
        cases ha : rec a q with
        | none => simp [ha] at hq
        | some q' =>
          simp [ha] at hq
          obtain ⟨h1, h2⟩ := ih a q q' ha
          obtain ⟨h3, h4⟩ := ihl q' hq
          refine ⟨h1.trans h3, ?_⟩
          intro x hx
          rcases List.mem_cons.mp hx with rfl | hx
          · exact h3.mono _ h2
          · exact h4 x hx
    obtain ⟨h1, h2⟩ := hfold _ _ h
    have hcur : r' cur = true := h1.mono cur (by simp [mark])
    refine ⟨⟨?_, ?_⟩, hcur⟩
    · intro x hx
      refine h1.mono x ?_
      simp only [mark]
      split
      · rfl
      · exact hx
    · intro x hx
      rcases h1.closed x hx with h3 | h3
      · simp only [mark] at h3
        split at h3
        · rename_i hxc
          subst hxc
          exact Or.inr h2
        · exact Or.inl h3
      · exact Or.inr h3

theorem filter_length_mono {α : Type} {l : List α} {p q : α → Bool} (h : ∀ x ∈ l, p x = true → q x = true) : (l.filter p).length ≤ (l.filter q).length := by
  induction l with
  | nil => simp
  | cons a l ih =>
    have := ih (fun x hx => h x (by simp [hx]))
    simp only [List.filter_cons]
    cases hp : p a with
    | true =>
      rw [h a (by simp) hp]
      simpa using this
    | false =>
      simp only [Bool.false_eq_true, if_false]
      split
      · simp only [List.length_cons]; omega
      · exact this

theorem unmarked_mono {n : Nat} {r r' : Nat → Bool} (h : ∀ x, r x = true → r' x = true) : unmarked n r' ≤ unmarked n r := by
  refine filter_length_mono ?_
  intro x _ hx
  simp only [Bool.not_eq_true'] at hx ⊢
  cases hr : r x with
  | false => rfl
  | true => rw [h x hr] at hx; simp at hx

theorem recurse_defined {succ : Nat → List Nat} {N : Nat} (hs : ∀ x, ∀ y ∈ succ x, y < N) (r : Nat → Bool) (cur : Nat) (hc : cur < N) : ∃ r', recurseForwards succ cur r = some r' := by
  generalize hn : unmarked N r = n
  induction n using Nat.strongRecOn generalizing r cur with
  | _ n ih =>
    rw [recurseForwards]
    cases hr : r cur with
    | true => exact ⟨r, by simp⟩
    | false =>
      have hm := unmarked_mark hc hr
      simp only [Bool.false_eq_true, if_false]
      have hfold : ∀ (l : List Nat) (q : Nat → Bool), (∀ y ∈ l, y < N) → unmarked N q < n → ∃ r', l.foldlM (fun r x => recurseForwards succ x r) q = some r' := by
        intro l
        induction l with
        | nil => exact fun q _ _ => ⟨q, by simp⟩
        | cons a l ihl =>
          intro q hl hq
          obtain ⟨q', hq'⟩ := ih _ hq q a (hl a (by simp)) rfl
          obtain ⟨h1, _⟩ := recurse_spec hq'
          obtain ⟨r', hr'⟩ := ihl q' (fun y hy => hl y (by simp [hy])) (Nat.lt_of_le_of_lt (unmarked_mono h1.mono) hq)
          exact ⟨r', by simp [List.foldlM_cons, hq', hr']⟩
      exact hfold _ _ (hs cur) (by omega)

theorem mem_dtg {t : Task} {v d x : Nat} : x ∈ dtg t v d ↔ ∃ o ∈ t.ops, ∃ e ∈ o.effects, e.fact = ⟨v, x⟩ ∧ (preOn o v = none ∨ preOn o v = some d) := by
  simp only [dtg, List.mem_flatten, List.mem_map]
  constructor
  · rintro ⟨l, ⟨o, ho, rfl⟩, hx⟩
    simp only [List.mem_map, List.mem_filter, Bool.and_eq_true, decide_eq_true_eq, Bool.or_eq_true, Option.isNone_iff_eq_none] at hx
    obtain ⟨e, ⟨he, hv, hp⟩, rfl⟩ := hx
    refine ⟨o, ho, e, he, ?_, hp⟩
    cases hf : e.fact
    simp [hf] at hv ⊢
    exact hv
  · rintro ⟨o, ho, e, he, hf, hp⟩
    refine ⟨_, ⟨o, ho, rfl⟩, ?_⟩
    simp only [List.mem_map, List.mem_filter, Bool.and_eq_true, decide_eq_true_eq, Bool.or_eq_true, Option.isNone_iff_eq_none]
    exact ⟨e, ⟨he, by simp [hf], hp⟩, by simp [hf]⟩

theorem preOn_some {o : Operator} {v d : Nat} (h : preOn o v = some d) : (⟨v, d⟩ : Fact) ∈ o.pre := by
  unfold preOn at h
  cases hl : (o.pre.filter (fun f => decide (f.var = v))).getLast? with
  | none => simp [hl] at h
  | some f =>
    simp [hl] at h
    have := List.mem_of_getLast? hl
    simp only [List.mem_filter, decide_eq_true_eq] at this
    obtain ⟨h1, h2⟩ := this
    cases f
    simp at h h2
    subst h h2
    exact h1

theorem preOn_none {o : Operator} {v : Nat} (h : preOn o v = none) : ∀ f ∈ o.pre, f.var ≠ v := by
  intro f hf hv
  unfold preOn at h
  simp only [Option.map_eq_none_iff, List.getLast?_eq_none_iff] at h
  have : f ∈ o.pre.filter (fun f => decide (f.var = v)) := by simp [hf, hv]
  rw [h] at this
  simp at this

theorem domain_dtg {t : Task} (hwf : t.WF) {v : Nat} {dv : Variable} (hv : t.vars[v]? = some dv) : ∀ x, ∀ y ∈ dtg t v x, y < dv.domain := by
  intro x y hy
  obtain ⟨o, ho, e, he, hf, _⟩ := mem_dtg.mp hy
  obtain ⟨d, hd, hlt⟩ := hwf.effFact o ho e he
  rw [hf] at hd hlt
  simp at hd hlt
  rw [hv] at hd
  simp at hd
  subst hd
  exact hlt

theorem reachableFrom_defined {t : Task} (hwf : t.WF) {s : State} (hs : t.ValidState s) {v d : Nat} (hv : s[v]? = some d) : ∃ r, reachableFrom t v d = some r := by
  have hlt : v < t.vars.length := by rw [← hs.1]; exact (List.getElem?_eq_some_iff.mp hv).1
  have hd : t.vars[v]? = some t.vars[v] := by simp [hlt]
  exact recurse_defined (domain_dtg hwf hd) _ d (hs.2 v d _ hv hd)

/-- `x` is among the values of `v` that are considered reachable from `s` -/
def InReach (t : Task) (s : State) (v x : Nat) : Prop := ∃ d r, s[v]? = some d ∧ reachableFrom t v d = some r ∧ r x = true

theorem inReach_start {t : Task} (hwf : t.WF) {s : State} (hs : t.ValidState s) {v x : Nat} (h : s[v]? = some x) : InReach t s v x := by
  obtain ⟨r, hr⟩ := reachableFrom_defined hwf hs h
  exact ⟨x, r, h, hr, (recurse_spec hr).2⟩

theorem inReach_step {t : Task} {s : State} {v x y : Nat} (h : InReach t s v x) (hy : y ∈ dtg t v x) : InReach t s v y := by
  obtain ⟨d, r, h1, h2, h3⟩ := h
  refine ⟨d, r, h1, h2, ?_⟩
  rcases (recurse_spec h2).1.closed x h3 with h4 | h4
  · simp at h4
  · exact h4 y hy

theorem exec_inReach {t : Task} (ht : StubbornTask t) {s m u : State} {π : List Nat} (h : t.Exec m π u) (hm : t.ValidState m) (hin : ∀ v x : Nat, m[v]? = some x → InReach t s v x) :
    ∀ i ∈ π, ∃ o : Operator, t.ops[i]? = some o ∧ ∀ f ∈ o.pre, InReach t s f.var f.val := by
  induction h with
  | nil m => simp
  | cons m i o m' π u ho ha hsucc hex ih =>
    have hom := List.mem_of_getElem? ho
    have hv' := succ_valid ht.wf hm ho ha hsucc
    obtain ⟨h1, h2, h3⟩ := succ_simple ht.wf ht.noAxioms (ht.unconditional o hom) (ht.eff o hom) hsucc
    have hin' : ∀ v x : Nat, m'[v]? = some x → InReach t s v x := by
      intro v x hx
      by_cases he : ∃ e ∈ o.effects, e.fact.var = v
      · obtain ⟨e, he, rfl⟩ := he
        have hlt : e.fact.var < m.length := by
          rw [← h1]; exact (List.getElem?_eq_some_iff.mp hx).1
        rw [h2 e he hlt] at hx
        simp at hx
        subst hx
        have hmv : m[e.fact.var]? = some m[e.fact.var] := by simp [hlt]
        refine inReach_step (hin _ _ hmv) (mem_dtg.mpr ⟨o, hom, e, he, rfl, ?_⟩)
        cases hp : preOn o e.fact.var with
        | none => exact Or.inl rfl
        | some d =>
          have := ha _ (preOn_some hp)
          unfold Fact.holds at this
          simp only at this
          rw [hmv] at this
          exact Or.inr this.symm
      · push Not at he
        rw [h3 v he] at hx
        exact hin v x hx
    intro j hj
    rcases List.mem_cons.mp hj with rfl | hj
    · exact ⟨o, ho, fun f hf => hin f.var f.val (ha f hf)⟩
    · exact ih hv' hin' j hj

theorem preActive_true {t : Task} {s : State} {ps : List Fact} {b : Bool} (h : preActive t s ps = some b) (hin : ∀ f ∈ ps, InReach t s f.var f.val) : b = true := by
  induction ps with
  | nil => simp [preActive] at h; exact h
  | cons p ps ih =>
    obtain ⟨d, r, h1, h2, h3⟩ := hin p (by simp)
    unfold preActive at h
    simp only [h1, h2, h3, if_true] at h
    exact ih h (fun f hf => hin f (by simp [hf]))

theorem preActive_defined {t : Task} (hwf : t.WF) {s : State} (hs : t.ValidState s) {ps : List Fact} (h : ∀ f ∈ ps, t.ValidFact f) : ∃ b, preActive t s ps = some b := by
  induction ps with
  | nil => exact ⟨true, rfl⟩
  | cons p ps ih =>
    obtain ⟨x, hx⟩ := valid_lt hs (h p (by simp))
    obtain ⟨r, hr⟩ := reachableFrom_defined hwf hs hx
    obtain ⟨b, hb⟩ := ih (fun f hf => h f (by simp [hf]))
    unfold preActive
    rw [hx]
    simp only [hr]
    cases hp : r p.val with
    | true => exact ⟨b, by simpa using hb⟩
    | false => exact ⟨false, by simp⟩

/-- all operators of plans are active -/
theorem activeOps_complete {t : Task} (ht : StubbornTask t) {s : State} (hs : t.ValidState s) {l : List Bool} (h : activeOps t s = some l) {π : List Nat} (hπ : t.SolvesFrom s π) : ∀ i ∈ π, (l[i]?).getD false = true := by
  obtain ⟨u, hex, _⟩ := hπ
  intro i hi
  obtain ⟨o, ho, hf⟩ := exec_inReach ht (s := s) hex hs (fun v x hx => inReach_start ht.wf hs hx) i hi
  obtain ⟨b, hb, hl⟩ := (mapM_getElem? h).2 i i (by rw [List.getElem?_range (lt_of_op ho)])
  rw [hl]
  exact preActive_true hb (fun f hf' => hf f ((mem_pre ho).mp hf'))

theorem activeOps_defined {t : Task} (hwf : t.WF) {s : State} (hs : t.ValidState s) : ∃ l, activeOps t s = some l :=
  mapM_defined (fun i _ => preActive_defined hwf hs (fun f hf => pre_valid hwf hf))

/-! ### The worklist algorithm -/

section
variable {t : Task} {s : State} {act : Nat → Bool}

/-- the marks of necessary enabling sets are correct -/
def NesOk (t : Task) (act : Nat → Bool) (w : EC) : Prop := ∀ f, w.nes f = true → ∀ i ∈ achievers t f, act i = true → w.stubborn i = true

theorem enqueue_spec {w w' : EC} {i : Nat} (hi : i < t.ops.length) (h : w.enqueue t s i = some w') : Work.Grow t.ops.length w.toWork w'.toWork ∧ w'.stubborn i = true ∧ w'.nes = w.nes := by
  unfold EC.enqueue at h
  have hg := Work.enqueue_grow (w := w.toWork) hi
  unfold Work.enqueue at hg
  cases hs : w.stubborn i with
  | true =>
    simp only [hs, if_true, Option.some.injEq] at h
    subst h
    exact ⟨.refl _, hs, rfl⟩
  | false =>
    simp only [hs, Bool.false_eq_true, if_false] at h hg
    split at h
    · simp at h
    · simp only [Option.some.injEq] at h
      subst h
      exact ⟨hg.1, hg.2, rfl⟩
    · simp only [Option.some.injEq] at h
      subst h
      exact ⟨hg.1, hg.2, rfl⟩

theorem enqueueActive_spec {l : List Nat} {w w' : EC} (hl : ∀ i ∈ l, i < t.ops.length) (h : w.enqueueActive t s act l = some w') :
    Work.Grow t.ops.length w.toWork w'.toWork ∧ (∀ i ∈ l, act i = true → w'.stubborn i = true) ∧ w'.nes = w.nes := by
  induction l generalizing w with
  | nil =>
    simp only [EC.enqueueActive, Option.some.injEq] at h
    subst h
    exact ⟨.refl _, by simp, rfl⟩
  | cons i l ih =>
    unfold EC.enqueueActive at h
    cases ha : act i with
    | false =>
      simp only [ha, Bool.false_eq_true, if_false] at h
      obtain ⟨h1, h2, h3⟩ := ih (fun j hj => hl j (by simp [hj])) h
      refine ⟨h1, ?_, h3⟩
      intro j hj hja
      rcases List.mem_cons.mp hj with rfl | hj
      · simp [ha] at hja
      · exact h2 j hj hja
    | true =>
      simp only [ha, if_true] at h
      cases he : w.enqueue t s i with
      | none => simp [he] at h
      | some w1 =>
        simp only [he] at h
        obtain ⟨h1, h2, h3⟩ := enqueue_spec (hl i (by simp)) he
        obtain ⟨h4, h5, h6⟩ := ih (fun j hj => hl j (by simp [hj])) h
        refine ⟨h1.trans h4, ?_, h6.trans h3⟩
        intro j hj hja
        rcases List.mem_cons.mp hj with rfl | hj
        · exact h4.mono _ h2
        · exact h5 j hj hja

theorem NesOk.grow {w w' : EC} (h : NesOk t act w) (hg : Work.Grow t.ops.length w.toWork w'.toWork) (hn : w'.nes = w.nes) : NesOk t act w' := by
  intro f hf i hi ha
  rw [hn] at hf
  exact hg.mono i (h f hf i hi ha)

theorem addNes_spec {w w' : EC} {f : Fact} (h : w.addNes t s act f = some w') (hn : NesOk t act w) : Work.Grow t.ops.length w.toWork w'.toWork ∧ (∀ i ∈ achievers t f, act i = true → w'.stubborn i = true) ∧ NesOk t act w' := by
  unfold EC.addNes at h
  split at h
  · simp at h
  · rename_i w1 hw1
    simp only [Option.some.injEq] at h
    subst h
    obtain ⟨h1, h2, h3⟩ := enqueueActive_spec achievers_lt hw1
    refine ⟨h1, h2, ?_⟩
    intro g hg i hi ha
    simp only [mark] at hg
    split at hg
    · rename_i hgf
      subst hgf
      exact h2 i hi ha
    · exact hn.grow h1 h3 g hg i hi ha

theorem addNesOnce_spec {w w' : EC} {f : Fact} (h : w.addNesOnce t s act f = some w') (hn : NesOk t act w) : Work.Grow t.ops.length w.toWork w'.toWork ∧ (∀ i ∈ achievers t f, act i = true → w'.stubborn i = true) ∧ NesOk t act w' := by
  unfold EC.addNesOnce at h
  split at h
  · rename_i hf
    simp only [Option.some.injEq] at h
    subst h
    exact ⟨.refl _, hn f hf, hn⟩
  · exact addNes_spec h hn

/-- `T` contains the active achievers of an unsatisfied precondition of operator `i` -/
def Enabled (t : Task) (s : State) (act : Nat → Bool) (T : Nat → Bool) (i : Nat) : Prop := ∃ f ∈ pre t i, ¬ f.holds s ∧ ∀ j ∈ achievers t f, act j = true → T j = true

theorem Enabled.mono {T T' : Nat → Bool} {i : Nat} (h : Enabled t s act T i) (hm : ∀ i, T i = true → T' i = true) : Enabled t s act T' i := by
  obtain ⟨f, h1, h2, h3⟩ := h
  exact ⟨f, h1, h2, fun j hj ha => hm j (h3 j hj ha)⟩

theorem writtenUnsatisfied_some {wr : Nat → Bool} {fs : List Fact} {f : Fact} (h : writtenUnsatisfied s wr fs = some (some f)) : f ∈ fs ∧ ¬ f.holds s := by
  induction fs with
  | nil => simp [writtenUnsatisfied] at h
  | cons g fs ih =>
    unfold writtenUnsatisfied at h
    split at h
    · simp at h
    · rename_i x hx
      split at h
      · rename_i hne
        simp only [Option.some.injEq] at h
        subst h
        refine ⟨by simp, ?_⟩
        unfold Fact.holds
        rw [hx]
        simpa using hne.1
      · obtain ⟨h1, h2⟩ := ih h
        exact ⟨by simp [h1], h2⟩

theorem writtenUnsatisfied_defined (hs : t.ValidState s) {wr : Nat → Bool} {fs : List Fact} (h : ∀ f ∈ fs, t.ValidFact f) : ∃ r, writtenUnsatisfied s wr fs = some r := by
  induction fs with
  | nil => exact ⟨none, rfl⟩
  | cons f fs ih =>
    obtain ⟨x, hx⟩ := valid_lt hs (h f (by simp))
    obtain ⟨r, hr⟩ := ih (fun g hg => h g (by simp [hg]))
    unfold writtenUnsatisfied
    simp only [hx]
    split
    · exact ⟨_, rfl⟩
    · exact ⟨r, hr⟩

theorem applyS5_spec {w w' : EC} {i : Nat} (h : w.applyS5 t s act i = some w') (hn : NesOk t act w) : Work.Grow t.ops.length w.toWork w'.toWork ∧ Enabled t s act w'.stubborn i ∧ NesOk t act w' := by
  unfold EC.applyS5 at h
  split at h
  · simp at h
  · rename_i f hf
    obtain ⟨h1, h2, h3⟩ := addNesOnce_spec h hn
    obtain ⟨h4, h5⟩ := writtenUnsatisfied_some hf
    exact ⟨h1, ⟨f, h4, h5, h2⟩, h3⟩
  · split at h
    · rename_i f hf
      obtain ⟨h1, h2, h3⟩ := addNesOnce_spec h hn
      obtain ⟨h4, h5⟩ := findUnsatisfied_some hf
      exact ⟨h1, ⟨f, h4, h5, h2⟩, h3⟩
    · simp at h

theorem handleDisabled_spec {i : Nat} {js : List Nat} {w w' : EC} (hl : ∀ j ∈ js, j < t.ops.length) (h : w.handleDisabled t s act i js = some w') (hn : NesOk t act w) :
    Work.Grow t.ops.length w.toWork w'.toWork ∧ (∀ j ∈ js, act j = true → canDisable t i j = true → w'.stubborn j = true ∨ Enabled t s act w'.stubborn j) ∧ NesOk t act w' := by
  induction js generalizing w with
  | nil =>
    simp only [EC.handleDisabled, Option.some.injEq] at h
    subst h
    exact ⟨.refl _, by simp, hn⟩
  | cons j js ih =>
    have hl' : ∀ j ∈ js, j < t.ops.length := fun k hk => hl k (by simp [hk])
    unfold EC.handleDisabled at h
    cases ha : act j with
    | false =>
      simp only [ha, Bool.false_eq_true, if_false] at h
      obtain ⟨h1, h2, h3⟩ := ih hl' h hn
      refine ⟨h1, ?_, h3⟩
      intro k hk hka
      rcases List.mem_cons.mp hk with rfl | hk
      · simp [ha] at hka
      · exact h2 k hk hka
    | true =>
      simp only [ha, if_true] at h
      split at h
      · rename_i hcv
        obtain ⟨h1, h2, h3⟩ := ih hl' h hn
        refine ⟨h1, ?_, h3⟩
        intro k hk hka hd
        rcases List.mem_cons.mp hk with rfl | hk
        · exact absurd hcv ((conflictVars_iff _ _).mpr hd)
        · exact h2 k hk hka hd
      · split at h
        · simp at h
        · split at h
          · simp at h
          · rename_i w1 hw1
            obtain ⟨h1, h2, h3⟩ := enqueue_spec (hl j (by simp)) hw1
            obtain ⟨h4, h5, h6⟩ := ih hl' h (hn.grow h1 h3)
            refine ⟨h1.trans h4, ?_, h6⟩
            intro k hk hka hd
            rcases List.mem_cons.mp hk with rfl | hk
            · exact Or.inl (h4.mono _ h2)
            · exact h5 k hk hka hd
        · split at h
          · simp at h
          · rename_i w1 hw1
            obtain ⟨h1, h2, h3⟩ := applyS5_spec hw1 hn
            obtain ⟨h4, h5, h6⟩ := ih hl' h h3
            refine ⟨h1.trans h4, ?_, h6⟩
            intro k hk hka hd
            rcases List.mem_cons.mp hk with rfl | hk
            · exact Or.inr (h2.mono h4.mono)
            · exact h5 k hk hka hd

/-- what handling operator `i` achieves -/
def HandledEC (t : Task) (s : State) (act : Nat → Bool) (T : Nat → Bool) (i : Nat) : Prop :=
  (findUnsatisfied s (pre t i) = some none ∧ (∀ j ∈ conflictingAndDisabling t i, act j = true → T j = true) ∧ ∀ j ∈ disabledOps t i, act j = true → T j = true ∨ Enabled t s act T j) ∨ Enabled t s act T i

theorem HandledEC.mono {T T' : Nat → Bool} {i : Nat} (h : HandledEC t s act T i) (hm : ∀ i, T i = true → T' i = true) : HandledEC t s act T' i := by
  rcases h with ⟨h1, h2, h3⟩ | h
  · exact Or.inl ⟨h1, fun j hj ha => hm j (h2 j hj ha), fun j hj ha => (h3 j hj ha).imp (hm j) (fun h => h.mono hm)⟩
  · exact Or.inr (h.mono hm)

theorem conflicting_lt {i : Nat} : ∀ j ∈ conflictingAndDisabling t i, j < t.ops.length := by
  intro j hj
  simp only [conflictingAndDisabling, List.mem_filter, List.mem_range] at hj
  exact hj.1

theorem disabled_lt {i : Nat} : ∀ j ∈ disabledOps t i, j < t.ops.length := by
  intro j hj
  simp only [disabledOps, List.mem_filter, List.mem_range] at hj
  exact hj.1

theorem handleEC_spec {w w' : EC} {i : Nat} (h : w.handle t s act i = some w') (hn : NesOk t act w) : Work.Grow t.ops.length w.toWork w'.toWork ∧ HandledEC t s act w'.stubborn i ∧ NesOk t act w' := by
  unfold EC.handle at h
  split at h
  · simp at h
  · rename_i hu
    split at h
    · simp at h
    · rename_i w1 hw1
      obtain ⟨h1, h2, h3⟩ := enqueueActive_spec conflicting_lt hw1
      obtain ⟨h4, h5, h6⟩ := handleDisabled_spec disabled_lt h (hn.grow h1 h3)
      refine ⟨h1.trans h4, Or.inl ⟨hu, fun j hj ha => h4.mono j (h2 j hj ha), ?_⟩, h6⟩
      intro j hj ha
      refine h5 j hj ha ?_
      simp only [disabledOps, List.mem_filter, Bool.and_eq_true] at hj
      exact hj.2.2
  · obtain ⟨h1, h2, h3⟩ := applyS5_spec h hn
    exact ⟨h1, Or.inr h2, h3⟩

/-- the invariant of the main loop -/
structure InvEC (t : Task) (s : State) (act : Nat → Bool) (w : EC) : Prop where
  goal : ∃ g, findUnsatisfied s (sortFacts t.goal) = some (some g) ∧ ∀ j ∈ achievers t g, act j = true → w.stubborn j = true
  handled : ∀ i, w.stubborn i = true → i ∉ w.queue → HandledEC t s act w.stubborn i
  nes : NesOk t act w

theorem popEC_some {w w' : EC} {i : Nat} (h : w.pop = some (i, w')) : w.queue = i :: w'.queue ∧ w'.stubborn = w.stubborn ∧ w'.nes = w.nes := by
  unfold EC.pop at h
  split at h
  · simp at h
  · rename_i j q hq
    simp only [Option.some.injEq, Prod.mk.injEq] at h
    obtain ⟨rfl, rfl⟩ := h
    exact ⟨hq, rfl, rfl⟩

theorem popEC_none {w : EC} (h : w.pop = none) : w.queue = [] := by
  unfold EC.pop at h
  split at h
  · assumption
  · simp at h

theorem stepEC {w w' w'' : EC} {i : Nat} (hw : InvEC t s act w) (hp : w.pop = some (i, w')) (h : w'.handle t s act i = some w'') : InvEC t s act w'' := by
  obtain ⟨hq, hst, hne⟩ := popEC_some hp
  have hn' : NesOk t act w' := by
    intro f hf j hj ha
    rw [hst]
    exact hw.nes f (by rw [← hne]; exact hf) j hj ha
  obtain ⟨h1, h2, h3⟩ := handleEC_spec h hn'
  refine ⟨?_, ?_, h3⟩
  · obtain ⟨g, hg, hj⟩ := hw.goal
    exact ⟨g, hg, fun j hja ha => h1.mono j (by rw [hst]; exact hj j hja ha)⟩
  · intro j hj hnq
    by_cases hji : j = i
    · subst hji; exact h2
    · rcases h1.new j hj with hj' | hj'
      · rw [hst] at hj'
        have hjq : j ∉ w.queue := by
          rw [hq]
          simp only [List.mem_cons, not_or]
          exact ⟨hji, fun hm => hnq (h1.queue j hm)⟩
        exact (hw.handled j hj' hjq).mono (fun k hk => h1.mono k (by rw [hst]; exact hk))
      · exact absurd hj' hnq

theorem initEC_spec {w : EC} (h : initEC t s act = some w) : InvEC t s act w := by
  unfold initEC at h
  split at h
  · rename_i g hg
    obtain ⟨h1, h2, h3⟩ := addNes_spec h (by intro f hf; simp at hf)
    refine ⟨⟨g, hg, h2⟩, ?_, h3⟩
    intro i hi hnq
    rcases h1.new i hi with h3 | h3
    · simp at h3
    · exact absurd h3 hnq
  · simp at h

theorem computeEC_stubborn (ht : StubbornTask t) {w : EC} (h : computeEC t s act = some w) : t.Stubborn s (fun i => act i = true) (fun i => w.stubborn i = true) := by
  unfold computeEC at h
  split at h
  · simp at h
  · rename_i w0 h0
    obtain ⟨hinv, hpop⟩ := loop_spec (Inv := InvEC t s act) (fun w a w' w'' hw hp hh => stepEC hw hp hh) h (initEC_spec h0)
    have hq := popEC_none hpop
    have hh : ∀ i, w.stubborn i = true → HandledEC t s act w.stubborn i := fun i hi => hinv.handled i hi (by simp [hq])
    have hen : ∀ (i : Nat) (o : Operator), t.ops[i]? = some o → Enabled t s act w.stubborn i → t.Enables s (fun i => act i = true) (fun i => w.stubborn i = true) o.pre := by
      rintro i o ho ⟨f, hm, hn, hj⟩
      exact ⟨f, (mem_pre ho).mp hm, hn, fun j o' ho' ha hact => hj j (mem_achievers.mpr ⟨o', ho', ha⟩) hact⟩
    constructor
    · obtain ⟨g, hg, hj⟩ := hinv.goal
      obtain ⟨hm, hn⟩ := findUnsatisfied_some hg
      exact ⟨g, mem_sortFacts.mp hm, hn, fun i o ho ha hact => hj i (mem_achievers.mpr ⟨o, ho, ha⟩) hact⟩
    · intro i o hi ho hna
      rcases hh i hi with ⟨h1, _⟩ | h1
      · exact absurd (fun f hf => findUnsatisfied_none h1 f ((mem_pre ho).mpr hf)) hna
      · exact hen i o ho h1
    · intro i j o o' hi ho ha ho' hact hji
      rcases hh i hi with ⟨_, h2, h3⟩ | ⟨f, hm, hn, _⟩
      · refine ⟨?_, ?_⟩
        · intro hx
          refine h2 j ?_ hact
          simp only [conflictingAndDisabling, List.mem_filter, List.mem_range, Bool.and_eq_true, decide_eq_true_eq, Bool.or_eq_true]
          rw [canConflict_iff ht ho ho', canDisable_iff ht ho' ho]
          exact ⟨lt_of_op ho', fun h => hji h.symm, hx⟩
        · intro hx
          refine (h3 j ?_ hact).imp id (hen j o' ho')
          simp only [disabledOps, List.mem_filter, List.mem_range, Bool.and_eq_true, decide_eq_true_eq]
          rw [canDisable_iff ht ho ho']
          exact ⟨lt_of_op ho', hji, hx⟩
      · exact absurd (ha f ((mem_pre ho).mp hm)) hn

/-! ### Definedness -/

variable (hwf : t.WF) (hs : t.ValidState s)
include hwf hs

theorem enqueue_defined (w : EC) (i : Nat) : ∃ w', w.enqueue t s i = some w' := by
  obtain ⟨r, hr⟩ := findUnsatisfied_defined hs (fs := pre t i) (fun f hf => pre_valid hwf hf)
  unfold EC.enqueue
  split
  · exact ⟨_, rfl⟩
  · rw [hr]
    cases r with
    | none => exact ⟨_, rfl⟩
    | some f => exact ⟨_, rfl⟩

theorem enqueueActive_defined (l : List Nat) (w : EC) : ∃ w', w.enqueueActive t s act l = some w' := by
  induction l generalizing w with
  | nil => exact ⟨w, rfl⟩
  | cons i l ih =>
    unfold EC.enqueueActive
    split
    · obtain ⟨w1, h1⟩ := enqueue_defined hwf hs w i
      rw [h1]
      exact ih w1
    · exact ih w

theorem addNes_defined (w : EC) (f : Fact) : ∃ w', w.addNes t s act f = some w' := by
  obtain ⟨w1, h1⟩ := enqueueActive_defined hwf hs (act := act) (achievers t f) w
  exact ⟨_, by unfold EC.addNes; rw [h1]⟩

theorem addNesOnce_defined (w : EC) (f : Fact) : ∃ w', w.addNesOnce t s act f = some w' := by
  unfold EC.addNesOnce
  split
  · exact ⟨_, rfl⟩
  · exact addNes_defined hwf hs w f

theorem applyS5_defined (w : EC) (i : Nat) (h : ¬ allHold (pre t i) s) : ∃ w', w.applyS5 t s act i = some w' := by
  obtain ⟨r, hr⟩ := writtenUnsatisfied_defined hs (wr := w.written) (fs := pre t i) (fun f hf => pre_valid hwf hf)
  obtain ⟨f, hf⟩ := findUnsatisfied_exists hs (fs := pre t i) (fun f hf => pre_valid hwf hf) h
  unfold EC.applyS5
  rw [hr]
  cases r with
  | none =>
    simp only [hf]
    exact addNesOnce_defined hwf hs w f
  | some g => exact addNesOnce_defined hwf hs w g

theorem anyVApplicable_spec {j : Nat} {o : Operator} (ho : t.ops[j]? = some o) {vs : List Nat} (hvs : ∀ v ∈ vs, ∃ f ∈ pre t j, f.var = v) : ∃ b, anyVApplicable t s j vs = some b ∧ (b = false → vs ≠ [] → ¬ allHold (pre t j) s) := by
  induction vs with
  | nil => exact ⟨false, rfl, by simp⟩
  | cons v vs ih =>
    obtain ⟨b, hb, hb'⟩ := ih (fun u hu => hvs u (by simp [hu]))
    obtain ⟨f, hf, hfv⟩ := hvs v (by simp)
    unfold anyVApplicable
    cases hp : (t.ops[j]?).bind (fun o => preOn o v) with
    | none => exact ⟨true, by simp, by simp⟩
    | some x =>
      obtain ⟨y, hy⟩ := valid_lt hs (pre_valid hwf hf)
      rw [hfv] at hy
      simp only [hy]
      by_cases hxy : x = y
      · exact ⟨true, by simp [hxy], by simp⟩
      · simp only [hxy, if_false]
        refine ⟨b, hb, ?_⟩
        intro _ _ hall
        simp [ho] at hp
        have := hall ⟨v, x⟩ ((mem_pre ho).mpr (preOn_some hp))
        unfold Fact.holds at this
        simp only at this
        rw [hy] at this
        simp at this
        exact hxy this.symm

theorem handleDisabled_defined {i : Nat} {js : List Nat} (hl : ∀ j ∈ js, j < t.ops.length) (w : EC) : ∃ w', w.handleDisabled t s act i js = some w' := by
  induction js generalizing w with
  | nil => exact ⟨w, rfl⟩
  | cons j js ih =>
    have ih' := ih (fun k hk => hl k (by simp [hk]))
    unfold EC.handleDisabled
    split
    · cases hcv : conflictVars (eff t i) (pre t j) with
      | nil => exact ih' w
      | cons v vs =>
        have hlt := hl j (by simp)
        have ho : t.ops[j]? = some t.ops[j] := by simp [hlt]
        obtain ⟨b, hb, hb'⟩ := anyVApplicable_spec hwf hs ho (vs := v :: vs) (fun u hu => conflictVars_mem (by rw [hcv]; exact hu))
        simp only [hb]
        cases b with
        | true =>
          obtain ⟨w1, h1⟩ := enqueue_defined hwf hs w j
          simp only [h1]
          exact ih' w1
        | false =>
          obtain ⟨w1, h1⟩ := applyS5_defined hwf hs (act := act) w j (hb' rfl (by simp))
          simp only [h1]
          exact ih' w1
    · exact ih' w

theorem handleEC_defined (w : EC) (i : Nat) : ∃ w', w.handle t s act i = some w' := by
  obtain ⟨r, hr⟩ := findUnsatisfied_defined hs (fs := pre t i) (fun f hf => pre_valid hwf hf)
  unfold EC.handle
  rw [hr]
  cases r with
  | none =>
    obtain ⟨w1, h1⟩ := enqueueActive_defined hwf hs (act := act) (conflictingAndDisabling t i) w
    simp only [h1]
    exact handleDisabled_defined hwf hs disabled_lt w1
  | some f =>
    refine applyS5_defined hwf hs w i (fun h => ?_)
    obtain ⟨h1, h2⟩ := findUnsatisfied_some hr
    exact h2 (h f h1)

theorem computeEC_defined (hg : ¬ allHold t.goal s) : ∃ w, computeEC t s act = some w := by
  have hinit : ∃ w, initEC t s act = some w := by
    obtain ⟨g, hgg⟩ := findUnsatisfied_exists hs (fs := sortFacts t.goal) (fun f hf => hwf.goalFacts f (mem_sortFacts.mp hf)) (fun h => hg (fun f hf => h f (mem_sortFacts.mpr hf)))
    unfold initEC
    rw [hgg]
    exact addNes_defined hwf hs _ g
  obtain ⟨w0, h0⟩ := hinit
  unfold computeEC
  rw [h0]
  refine loop_defined (Inv := NesOk t act) (fun w => 2 * unmarked t.ops.length w.stubborn + w.queue.length) ?_ (initEC_spec h0).nes
  intro w i w' hn hp
  obtain ⟨w'', h⟩ := handleEC_defined hwf hs (act := act) w' i
  obtain ⟨hq, hst, hne⟩ := popEC_some hp
  have hn' : NesOk t act w' := by
    intro f hf j hj ha
    rw [hst]
    exact hn f (by rw [← hne]; exact hf) j hj ha
  obtain ⟨h1, _, h3⟩ := handleEC_spec h hn'
  refine ⟨w'', h, h3, ?_⟩
  have := h1.measure
  rw [hst] at this
  rw [hq]
  simp only [List.length_cons]
  omega

end

end Verif.Stubborn
