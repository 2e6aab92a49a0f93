import Verif.Lemmas.EagerAbstract

/- Completeness, optimality and termination of eager search. -/
namespace Verif.Search
open Verif.OpenList

variable {S σ K : Type} [DecidableEq S] {H : StdHeap S} {rel : Nat → Bool} {cfg : Cfg}

/-- What is needed of the evaluators: infinite values mean that there is no plan, and the
keys of open list entries satisfy `good`. -/
structure Safe (w : World S) (valid : S → Prop) (E : Env S σ) (A : OLSpec K S H rel cfg) (good : K → S → Int → Prop) : Prop where
  dead : ∀ t g c, valid t → 0 ≤ g → (E.Evals t g c ∨ E.Reevals t g c) → Spec.DeadEnd rel c cfg → ¬ w.Solvable t
  stored : ∀ t g c, valid t → 0 ≤ g → (E.Evals t g c ∨ E.Reevals t g c) → Spec.copies rel c cfg = 0 → ¬ w.Solvable t
  good : ∀ t g c, valid t → 0 ≤ g → (E.Evals t g c ∨ E.Reevals t g c) → good (A.key c) t g

/-- adding the cost of an operator to the real cost of a node never reaches the bound -/
def Free (w : World S) (bound : Int) (infos : S → NodeInfo S) : Prop :=
  ∀ s l o, Created infos s → w.ops s = some l → o ∈ l → (infos s).realG + w.cost o < bound

theorem WalkInv.free {w : World S} {infos : S → NodeInfo S} (h : WalkInv w infos) {b : Int} (hb : w.BoundFree b) : Free w b infos := by
  intro s l o hs hl ho
  obtain ⟨π, xs, h1, h2, _, _, h5⟩ := h s hs
  have := hb π xs s l o h1 h2 hl ho
  rw [pathCost_append] at this
  rw [h5]
  simpa [pathCost] using this

/-- the bound plays no role -/
def World.Unbounded (w : World S) (b : Int) : Prop :=
  w.BoundFree b ∨ ((∀ o, w.adj o = w.cost o) ∧ (∀ o, w.cost o < 2 ^ 29) ∧ 2 ^ 30 ≤ b)

theorem realG_eq_g {w : World S} {valid : S → Prop} {E : Env S σ} {infos : S → NodeInfo S} {l : List (K × S)} (hi : EInv w valid E infos l)
    (hadj : ∀ o, w.adj o = w.cost o) {s : S} (hs : Created infos s) : (infos s).realG = (infos s).g := by
  obtain ⟨π, xs, _, _, _, w4, w5⟩ := hi.walks s hs
  have : pathCost w.adj π = pathCost w.cost π := by
    unfold pathCost; congr 1; exact List.map_congr_left (fun o _ => hadj o)
  rw [w4, w5, this]

theorem EInv.free {w : World S} {valid : S → Prop} {E : Env S σ} {infos : S → NodeInfo S} {l : List (K × S)} (hi : EInv w valid E infos l) {b : Int} (h : w.Unbounded b) :
    Free w b infos := by
  rcases h with h | ⟨h1, h2, h3⟩
  · exact hi.walks.free h
  · intro s _ o hs _ _
    rw [realG_eq_g hi h1 hs]
    have := hi.small s
    have := h2 o
    omega

theorem WalkInv.no_overflow {w : World S} {infos : S → NodeInfo S} (h : WalkInv w infos) (hb : w.NoOverflow) {s : S} (hs : Created infos s) : ¬ Overflow w infos s := by
  rintro ⟨o, ⟨l, hl, ho⟩, h'⟩
  obtain ⟨π, xs, h1, h2, _, h4, h5⟩ := h s hs
  have := hb π xs s l o h1 h2 hl ho
  rw [pathCost_append, pathCost_append] at this
  rw [h4, h5] at h'
  simp only [pathCost, List.map_cons, List.map_nil, List.sum_cons, List.sum_nil] at *
  push_cast at *
  omega

/-- `s` has been expanded with its current g-value -/
def Done (w : World S) (opts : Options) (infos : S → NodeInfo S) (s : S) (o : Nat) : Prop :=
  ∀ t, w.succ s o = some t → (infos s).realG + w.cost o ≥ opts.bound ∨
    ((infos t).status ≠ .new ∧ (opts.reopen = true → (infos t).status = .deadEnd ∨ (infos t).g ≤ (infos s).g + w.adj o))

/-- the invariant behind completeness and optimality; `x` is the state being expanded -/
structure CInv (w : World S) (E : Env S σ) (opts : Options) (good : K → S → Int → Prop) (x : Option S) (infos : S → NodeInfo S) (l : List (K × S)) : Prop where
  dead : ∀ s, (infos s).status = .deadEnd → ¬ w.Solvable s
  opened : ∀ s, (infos s).status = .opened → ¬ w.Solvable s ∨ ∃ k, (k, s) ∈ l ∧ good k s (infos s).g
  goal : ∀ s, (infos s).status = .closed → w.goal s = some false
  closed : ∀ s, (infos s).status = .closed → x ≠ some s → ∃ ops os, w.ops s = some ops ∧ E.Prunes s ops os ∧ (∀ o ∈ os, o ∈ ops) ∧ ∀ o ∈ os, Done w opts infos s o
  init : (infos w.init).status ≠ .new ∨ ¬ w.Solvable w.init

/-- changes which keep `Done` -/
theorem Done.mono {w : World S} {opts : Options} {infos infos' : S → NodeInfo S} {s : S} {o : Nat} (h : Done w opts infos s o)
    (h1 : (infos' s).realG = (infos s).realG ∨ (infos' s).realG + w.cost o < opts.bound ∧ (infos s).realG + w.cost o < opts.bound)
    (h2 : opts.reopen = true → (infos' s).g = (infos s).g)
    (h3 : ∀ t, (infos t).status ≠ .new → (infos' t).status ≠ .new ∧ (opts.reopen = true → (infos t).status = .deadEnd → (infos' t).status = .deadEnd) ∧ (opts.reopen = true → (infos t).status ≠ .deadEnd → (infos' t).status = .deadEnd ∨ (infos' t).g ≤ (infos t).g)) :
    Done w opts infos' s o := by
  intro t ht
  rcases h t ht with h | ⟨h, h'⟩
  · rcases h1 with e | e
    · left; rw [e]; exact h
    · omega
  · right
    obtain ⟨a, b, c⟩ := h3 t h
    refine ⟨a, fun hr => ?_⟩
    by_cases hd : (infos t).status = .deadEnd
    · exact Or.inl (b hr hd)
    · rcases h' hr with e | e
      · exact absurd e hd
      · rcases c hr hd with e' | e'
        · exact Or.inl e'
        · right; rw [h2 hr]; omega

/-- either the search reopens nodes, or the bound plays no role -/
def Opts (w : World S) (opts : Options) (infos : S → NodeInfo S) : Prop := opts.reopen = true ∨ Free w opts.bound infos

theorem Trans.cinv {w : World S} {valid : S → Prop} {E : Env S σ} {opts : Options} {A : OLSpec K S H rel cfg} {good : K → S → Int → Prop} (hsafe : Safe w valid E A good)
    {s t : S} {o : Nat} {infos infos' : S → NodeInfo S} {l l' : List (K × S)} (h : Trans w E opts A s o t infos l infos' l')
    (hi : EInv w valid E infos l) (hs : Created infos s) (htv : valid t) (hc : CInv w E opts good (some s) infos l)
    (ho : Opts w opts infos) (ho' : Opts w opts infos') :
    CInv w E opts good (some s) infos' l' ∧ (∀ y, (infos y).status ≠ .new → (infos' y).status ≠ .new ∧ ((infos y).status = .deadEnd → (infos' y).status = .deadEnd) ∧ ((infos y).status ≠ .deadEnd → (infos' y).status = .deadEnd ∨ (infos' y).g ≤ (infos y).g)) ∧
      (infos' t).status ≠ .new ∧ (opts.reopen = true → (infos' t).status = .deadEnd ∨ (infos' t).g ≤ (infos s).g + w.adj o) := by
  have hs0 : 0 ≤ (infos s).g := hs
  have hg0 : 0 ≤ (infos s).g + w.adj o := by omega
  have hnn : (infos s).status ≠ .new := hi.not_new hs
  cases h with
  | dead _ _ h => exact ⟨hc, fun y hy => ⟨hy, fun h => h, fun _ => Or.inr (by omega)⟩, by simp [h], fun _ => Or.inl h⟩
  | same _ _ h h1 => exact ⟨hc, fun y hy => ⟨hy, fun h => h, fun _ => Or.inr (by omega)⟩, by rcases h with h | h <;> simp [h], fun _ => Or.inr h1⟩
  | newDead _ _ c h1 h2 h3 =>
    have hmono : ∀ y, (infos y).status ≠ .new → upd infos t (markDeadEnd (infos t)) y = infos y := by
      intro y hy; exact upd_ne _ _ (by rintro rfl; exact hy h1)
    have hmono' : ∀ y, (infos y).status ≠ .new → ((upd infos t (markDeadEnd (infos t))) y).status ≠ .new ∧ ((infos y).status = .deadEnd → (upd infos t (markDeadEnd (infos t)) y).status = .deadEnd) ∧ ((infos y).status ≠ .deadEnd → ((upd infos t (markDeadEnd (infos t))) y).status = .deadEnd ∨ ((upd infos t (markDeadEnd (infos t))) y).g ≤ (infos y).g) := by
      intro y hy; rw [hmono y hy]; exact ⟨hy, fun h => h, fun _ => Or.inr (by omega)⟩
    refine ⟨⟨?_, ?_, ?_, ?_, ?_⟩, hmono', by simp [markDeadEnd], fun _ => Or.inl (by simp [markDeadEnd])⟩
    · intro y hy
      by_cases hyt : y = t
      · subst hyt; exact hsafe.dead _ _ c htv hg0 (Or.inl h2) h3
      · rw [upd_ne _ _ hyt] at hy; exact hc.dead y hy
    · intro y hy
      by_cases hyt : y = t
      · subst hyt; simp [markDeadEnd] at hy
      · rw [upd_ne _ _ hyt] at hy ⊢; exact hc.opened y hy
    · intro y hy
      by_cases hyt : y = t
      · subst hyt; simp [markDeadEnd] at hy
      · rw [upd_ne _ _ hyt] at hy; exact hc.goal y hy
    · intro y hy hys
      by_cases hyt : y = t
      · subst hyt; simp [markDeadEnd] at hy
      · rw [upd_ne _ _ hyt] at hy
        obtain ⟨ops, os, q1, q2, q3, q4⟩ := hc.closed y hy hys
        refine ⟨ops, os, q1, q2, q3, fun o' ho1 => (q4 o' ho1).mono (Or.inl ?_) (fun _ => ?_) (fun z hz => ⟨(hmono' z hz).1, fun _ => (hmono' z hz).2.1, fun _ => (hmono' z hz).2.2⟩)⟩
        · rw [upd_ne _ _ hyt]
        · rw [upd_ne _ _ hyt]
    · rcases hc.init with h | h
      · left; rw [hmono _ h]; exact h
      · exact Or.inr h
  | newOpen _ _ c h1 h2 h3 hg29 =>
    have hmono : ∀ y, (infos y).status ≠ .new → upd infos t (childInfo w infos s o .opened) y = infos y := by
      intro y hy; exact upd_ne _ _ (by rintro rfl; exact hy h1)
    have hmono' : ∀ y, (infos y).status ≠ .new → ((upd infos t (childInfo w infos s o .opened)) y).status ≠ .new ∧ ((infos y).status = .deadEnd → (upd infos t (childInfo w infos s o .opened) y).status = .deadEnd) ∧ ((infos y).status ≠ .deadEnd → ((upd infos t (childInfo w infos s o .opened)) y).status = .deadEnd ∨ ((upd infos t (childInfo w infos s o .opened)) y).g ≤ (infos y).g) := by
      intro y hy; rw [hmono y hy]; exact ⟨hy, fun h => h, fun _ => Or.inr (by omega)⟩
    refine ⟨⟨?_, ?_, ?_, ?_, ?_⟩, hmono', by simp [childInfo], fun _ => Or.inr (by simp [childInfo])⟩
    · intro y hy
      by_cases hyt : y = t
      · subst hyt; simp [childInfo] at hy
      · rw [upd_ne _ _ hyt] at hy; exact hc.dead y hy
    · intro y hy
      by_cases hyt : y = t
      · subst hyt
        by_cases h0 : Spec.copies rel c cfg = 0
        · exact Or.inl (hsafe.stored _ _ c htv hg0 (Or.inl h2) h0)
        · refine Or.inr ⟨A.key c, ?_, ?_⟩
          · exact List.mem_append.mpr (Or.inr (List.mem_replicate.mpr ⟨h0, rfl⟩))
          · simpa [childInfo] using hsafe.good _ _ c htv hg0 (Or.inl h2)
      · rw [upd_ne _ _ hyt] at hy ⊢
        rcases hc.opened y hy with h | ⟨k, hk, hk'⟩
        · exact Or.inl h
        · exact Or.inr ⟨k, List.mem_append.mpr (Or.inl hk), hk'⟩
    · intro y hy
      by_cases hyt : y = t
      · subst hyt; simp [childInfo] at hy
      · rw [upd_ne _ _ hyt] at hy; exact hc.goal y hy
    · intro y hy hys
      by_cases hyt : y = t
      · subst hyt; simp [childInfo] at hy
      · rw [upd_ne _ _ hyt] at hy
        obtain ⟨ops, os, q1, q2, q3, q4⟩ := hc.closed y hy hys
        refine ⟨ops, os, q1, q2, q3, fun o' ho1 => (q4 o' ho1).mono (Or.inl ?_) (fun _ => ?_) (fun z hz => ⟨(hmono' z hz).1, fun _ => (hmono' z hz).2.1, fun _ => (hmono' z hz).2.2⟩)⟩
        · rw [upd_ne _ _ hyt]
        · rw [upd_ne _ _ hyt]
    · rcases hc.init with h | h
      · left; rw [hmono _ h]; exact h
      · exact Or.inr h
  | improve _ _ c h1 h2 h3 hg29 =>
    have hts : s ≠ t := by rintro rfl; omega
    have hnd : (infos t).status ≠ .deadEnd := by rcases h1 with h1 | h1 <;> simp [h1]
    have hmono' : ∀ y, (infos y).status ≠ .new → ((upd infos t (childInfo w infos s o .opened)) y).status ≠ .new ∧ ((infos y).status = .deadEnd → (upd infos t (childInfo w infos s o .opened) y).status = .deadEnd) ∧ ((infos y).status ≠ .deadEnd → ((upd infos t (childInfo w infos s o .opened)) y).status = .deadEnd ∨ ((upd infos t (childInfo w infos s o .opened)) y).g ≤ (infos y).g) := by
      intro y hy
      by_cases hyt : y = t
      · subst hyt; simp [childInfo, hnd]; omega
      · rw [upd_ne _ _ hyt]; exact ⟨hy, fun h => h, fun _ => Or.inr (by omega)⟩
    refine ⟨⟨?_, ?_, ?_, ?_, ?_⟩, hmono', by simp [childInfo], fun _ => Or.inr (by simp [childInfo])⟩
    · intro y hy
      by_cases hyt : y = t
      · subst hyt; simp [childInfo] at hy
      · rw [upd_ne _ _ hyt] at hy; exact hc.dead y hy
    · intro y hy
      by_cases hyt : y = t
      · subst hyt
        by_cases h0 : Spec.copies rel c cfg = 0
        · exact Or.inl (hsafe.stored _ _ c htv hg0 (Or.inl h3) h0)
        · refine Or.inr ⟨A.key c, ?_, ?_⟩
          · exact List.mem_append.mpr (Or.inr (List.mem_replicate.mpr ⟨h0, rfl⟩))
          · simpa [childInfo] using hsafe.good _ _ c htv hg0 (Or.inl h3)
      · rw [upd_ne _ _ hyt] at hy ⊢
        rcases hc.opened y hy with h | ⟨k, hk, hk'⟩
        · exact Or.inl h
        · exact Or.inr ⟨k, List.mem_append.mpr (Or.inl hk), hk'⟩
    · intro y hy
      by_cases hyt : y = t
      · subst hyt; simp [childInfo] at hy
      · rw [upd_ne _ _ hyt] at hy; exact hc.goal y hy
    · intro y hy hys
      by_cases hyt : y = t
      · subst hyt; simp [childInfo] at hy
      · rw [upd_ne _ _ hyt] at hy
        obtain ⟨ops, os, q1, q2, q3, q4⟩ := hc.closed y hy hys
        refine ⟨ops, os, q1, q2, q3, fun o' ho1 => (q4 o' ho1).mono (Or.inl ?_) (fun _ => ?_) (fun z hz => ⟨(hmono' z hz).1, fun _ => (hmono' z hz).2.1, fun _ => (hmono' z hz).2.2⟩)⟩
        · rw [upd_ne _ _ hyt]
        · rw [upd_ne _ _ hyt]
    · rcases hc.init with h | h
      · left; exact (hmono' _ h).1
      · exact Or.inr h
  | improveClosed _ _ h1 h0 h2 hg29 =>
    have hts : s ≠ t := by rintro rfl; omega
    have hct : Created infos t := hi.nodes.live t (by simp [h1])
    have hmono' : ∀ y, (infos y).status ≠ .new → ((upd infos t (childInfo w infos s o .closed)) y).status ≠ .new ∧ ((infos y).status = .deadEnd → (upd infos t (childInfo w infos s o .closed) y).status = .deadEnd) ∧ ((infos y).status ≠ .deadEnd → ((upd infos t (childInfo w infos s o .closed)) y).status = .deadEnd ∨ ((upd infos t (childInfo w infos s o .closed)) y).g ≤ (infos y).g) := by
      intro y hy
      by_cases hyt : y = t
      · subst hyt; simp [childInfo, h1]; omega
      · rw [upd_ne _ _ hyt]; exact ⟨hy, fun h => h, fun _ => Or.inr (by omega)⟩
    refine ⟨⟨?_, ?_, ?_, ?_, ?_⟩, hmono', by simp [childInfo], fun _ => Or.inr (by simp [childInfo])⟩
    · intro y hy
      by_cases hyt : y = t
      · subst hyt; simp [childInfo] at hy
      · rw [upd_ne _ _ hyt] at hy; exact hc.dead y hy
    · intro y hy
      by_cases hyt : y = t
      · subst hyt; simp [childInfo] at hy
      · rw [upd_ne _ _ hyt] at hy ⊢; exact hc.opened y hy
    · intro y hy
      by_cases hyt : y = t
      · subst hyt; exact hc.goal y h1
      · rw [upd_ne _ _ hyt] at hy; exact hc.goal y hy
    · intro y hy hys
      by_cases hyt : y = t
      · subst hyt
        obtain ⟨ops, os, q1, q2, q3, q4⟩ := hc.closed y h1 hys
        refine ⟨ops, os, q1, q2, q3, fun o' ho1 => (q4 o' ho1).mono (Or.inr ⟨?_, ?_⟩) (fun h => absurd h (by simp [h0])) (fun z hz => ⟨(hmono' z hz).1, fun _ => (hmono' z hz).2.1, fun _ => (hmono' z hz).2.2⟩)⟩
        · rcases ho' with e | e
          · simp [h0] at e
          · exact e y ops o' (created_mono_child hs (Or.inr rfl)) q1 (q3 o' ho1)
        · rcases ho with e | e
          · simp [h0] at e
          · exact e y ops o' hct q1 (q3 o' ho1)
      · rw [upd_ne _ _ hyt] at hy
        obtain ⟨ops, os, q1, q2, q3, q4⟩ := hc.closed y hy hys
        refine ⟨ops, os, q1, q2, q3, fun o' ho1 => (q4 o' ho1).mono (Or.inl ?_) (fun _ => ?_) (fun z hz => ⟨(hmono' z hz).1, fun _ => (hmono' z hz).2.1, fun _ => (hmono' z hz).2.2⟩)⟩
        · rw [upd_ne _ _ hyt]
        · rw [upd_ne _ _ hyt]
    · rcases hc.init with h | h
      · left; exact (hmono' _ h).1
      · exact Or.inr h

/-- the part of the hypotheses that gives `Opts` for every state of the search -/
def OptsOK (w : World S) (opts : Options) : Prop := opts.reopen = true ∨ w.Unbounded opts.bound

theorem OptsOK.opts {w : World S} {valid : S → Prop} {E : Env S σ} {opts : Options} {infos : S → NodeInfo S} {l : List (K × S)} (h : OptsOK w opts) (hi : EInv w valid E infos l) :
    Opts w opts infos := by
  rcases h with h | h
  · exact Or.inl h
  · exact Or.inr (hi.free h)

theorem Gen.cinv {w : World S} {valid : S → Prop} (hv : w.Total valid) {E : Env S σ} {opts : Options} {A : OLSpec K S H rel cfg} {good : K → S → Int → Prop} (hsafe : Safe w valid E A good)
    (hopt : OptsOK w opts) {s : S} {ops : List Nat} {os : List Nat} {infos infos' : S → NodeInfo S} {l l' : List (K × S)} (h : Gen w E opts A s os infos l infos' l')
    (hi : EInv w valid E infos l) (hs : Created infos s) (hops : w.ops s = some ops) (hos : ∀ o ∈ os, o ∈ ops) (hc : CInv w E opts good (some s) infos l) :
    CInv w E opts good (some s) infos' l' ∧ (∀ y, (infos y).status ≠ .new → (infos' y).status ≠ .new ∧ ((infos y).status = .deadEnd → (infos' y).status = .deadEnd) ∧ ((infos y).status ≠ .deadEnd → (infos' y).status = .deadEnd ∨ (infos' y).g ≤ (infos y).g)) ∧
      infos' s = infos s ∧ ∀ o ∈ os, Done w opts infos' s o := by
  induction h with
  | nil infos l => exact ⟨hc, fun y hy => ⟨hy, fun h => h, fun _ => Or.inr (by omega)⟩, rfl, by simp⟩
  | skip o os infos l infos' l' h1 h2 ih =>
    obtain ⟨a, b, e, d⟩ := ih hi hs (fun o ho => hos o (by simp [ho])) hc
    refine ⟨a, b, e, ?_⟩
    intro o' ho'
    rcases List.mem_cons.mp ho' with rfl | ho'
    · intro t _; left; rw [e]; exact h1
    · exact d o' ho'
  | step o os t infos l infos1 l1 infos' l' h1 h2 h3 h4 ih =>
    obtain ⟨i1, i2⟩ := h3.inv hv hi hs hops (hos o (by simp)) h2
    obtain ⟨j1, j2, j3, j4⟩ := h3.cinv hsafe hi hs (by
      obtain ⟨t', k1, k2⟩ := hv.succ s ops o (hi.nodes.ok s hs).1 hops (hos o (by simp))
      rw [h2] at k1; simp only [Option.some.injEq] at k1; subst k1; exact k2) hc (hopt.opts hi) (hopt.opts i1)
    obtain ⟨a, b, e, d⟩ := ih i1 (by unfold Created; rw [i2]; exact hs) (fun o ho => hos o (by simp [ho])) j1
    refine ⟨a, ?_, e.trans i2, ?_⟩
    · intro y hy
      obtain ⟨p1, p2, p3⟩ := j2 y hy
      obtain ⟨q1, q2, q3⟩ := b y p1
      refine ⟨q1, fun h => q2 (p2 h), fun h => ?_⟩
      rcases p3 h with p3 | p3
      · exact Or.inl (q2 p3)
      · by_cases hd : (infos1 y).status = .deadEnd
        · exact Or.inl (q2 hd)
        · rcases q3 hd with q3 | q3
          · exact Or.inl q3
          · exact Or.inr (by omega)
    · intro o' ho'
      rcases List.mem_cons.mp ho' with rfl | ho'
      · intro t' ht'
        rw [h2] at ht'
        simp only [Option.some.injEq] at ht'
        subst ht'
        right
        refine ⟨(b t j3).1, fun hr => ?_⟩
        by_cases hd : (infos1 t).status = .deadEnd
        · exact Or.inl ((b t j3).2.1 hd)
        · rcases (b t j3).2.2 hd with q | q
          · exact Or.inl q
          · rcases j4 hr with q' | q'
            · exact absurd q' hd
            · right; rw [e, i2]; omega
      · exact d o' ho'

theorem Start.cinv {w : World S} {valid : S → Prop} (hv : w.Total valid) {E : Env S σ} {opts : Options} {A : OLSpec K S H rel cfg} {good : K → S → Int → Prop} (hsafe : Safe w valid E A good)
    {infos : S → NodeInfo S} {l : List (K × S)} (h : Start w E A infos l) : CInv w E opts good none infos l := by
  have htv := hv.init
  have hg0 : (0 : Int) ≤ 0 := le_refl _
  cases h with
  | deadEnd c h1 h2 =>
    refine ⟨?_, ?_, ?_, ?_, ?_⟩
    · intro s hs; simp [NodeInfo.fresh] at hs
    · intro s hs; simp [NodeInfo.fresh] at hs
    · intro s hs; simp [NodeInfo.fresh] at hs
    · intro s hs; simp [NodeInfo.fresh] at hs
    · exact Or.inr (hsafe.dead _ _ c htv hg0 (Or.inl h1) h2)
  | opened c h1 h2 =>
    have key : ∀ s, s ≠ w.init → (upd (fun _ => (NodeInfo.fresh : NodeInfo S)) w.init ⟨.opened, 0, none, none, 0⟩ s).status = .new := by
      intro s hs; rw [upd_ne _ _ hs]; rfl
    refine ⟨?_, ?_, ?_, ?_, ?_⟩
    · intro s hs
      by_cases h : s = w.init
      · subst h; simp at hs
      · rw [key s h] at hs; simp at hs
    · intro s hs
      by_cases h : s = w.init
      · subst h
        by_cases h0 : Spec.copies rel c cfg = 0
        · exact Or.inl (hsafe.stored _ _ c htv hg0 (Or.inl h1) h0)
        · refine Or.inr ⟨A.key c, List.mem_replicate.mpr ⟨h0, rfl⟩, ?_⟩
          simpa using hsafe.good _ _ c htv hg0 (Or.inl h1)
      · rw [key s h] at hs; simp at hs
    · intro s hs
      by_cases h : s = w.init
      · subst h; simp at hs
      · rw [key s h] at hs; simp at hs
    · intro s hs
      by_cases h : s = w.init
      · subst h; simp at hs
      · rw [key s h] at hs; simp at hs
    · left; simp

theorem AStep.cinv {w : World S} {valid : S → Prop} (hv : w.Total valid) {E : Env S σ} (hpr : E.PrunesOnly) {opts : Options} {A : OLSpec K S H rel cfg}
    {good : K → S → Int → Prop} (hsafe : Safe w valid E A good) (hopt : OptsOK w opts) {infos infos' : S → NodeInfo S} {l l' : List (K × S)} (h : AStep w E opts A infos l infos' l')
    (hi : EInv w valid E infos l) (hc : CInv w E opts good none infos l) : CInv w E opts good none infos' l' := by
  have hpop : ∀ s l1, A.Pop l s l1 → ∀ y k, y ≠ s → (k, y) ∈ l → (k, y) ∈ l1 := by
    intro s l1 hp y k hy hk
    obtain ⟨k', hk'⟩ := A.popPerm l s l1 hp
    rcases List.mem_cons.mp (hk'.subset hk) with e | e
    · simp only [Prod.mk.injEq] at e; exact absurd e.2 hy
    · exact e
  cases h with
  | closed _ _ s _ hp h1 =>
    refine ⟨hc.dead, ?_, hc.goal, hc.closed, hc.init⟩
    intro y hy
    rcases hc.opened y hy with h | ⟨k, h, h'⟩
    · exact Or.inl h
    · exact Or.inr ⟨k, hpop s _ hp y k (by rintro rfl; simp [h1] at hy) h, h'⟩
  | dead _ _ s _ hp h1 _ =>
    refine ⟨hc.dead, ?_, hc.goal, hc.closed, hc.init⟩
    intro y hy
    rcases hc.opened y hy with h | ⟨k, h, h'⟩
    · exact Or.inl h
    · exact Or.inr ⟨k, hpop s _ hp y k (by rintro rfl; simp [h1] at hy) h, h'⟩
  | nowDead _ _ s _ c hp h1 h2 h3 h4 =>
    have hcr := (hi.pop hp).2.1
    have hg0 : 0 ≤ (infos s).g := hcr
    have htv : valid s := (hi.nodes.ok s hcr).1
    have hmono : ∀ y, (infos y).status ≠ .new → (setStatus infos s .deadEnd y).status ≠ .new ∧ ((infos y).status = .deadEnd → (setStatus infos s .deadEnd y).status = .deadEnd) ∧ ((infos y).status ≠ .deadEnd → (setStatus infos s .deadEnd y).status = .deadEnd ∨ (setStatus infos s .deadEnd y).g ≤ (infos y).g) := by
      intro y hy
      unfold setStatus
      by_cases hys : y = s
      · subst hys; simp
      · rw [upd_ne _ _ hys]; exact ⟨hy, fun h => h, fun _ => Or.inr (by omega)⟩
    refine ⟨?_, ?_, ?_, ?_, ?_⟩
    · intro y hy
      by_cases hys : y = s
      · subst hys; exact hsafe.dead _ _ c htv hg0 (Or.inr h3) h4
      · unfold setStatus at hy; rw [upd_ne _ _ hys] at hy; exact hc.dead y hy
    · intro y hy
      by_cases hys : y = s
      · subst hys; simp [setStatus] at hy
      · unfold setStatus at hy ⊢; rw [upd_ne _ _ hys] at hy ⊢
        rcases hc.opened y hy with h | ⟨k, h, h'⟩
        · exact Or.inl h
        · exact Or.inr ⟨k, hpop s _ hp y k hys h, h'⟩
    · intro y hy
      by_cases hys : y = s
      · subst hys; simp [setStatus] at hy
      · unfold setStatus at hy; rw [upd_ne _ _ hys] at hy; exact hc.goal y hy
    · intro y hy hx
      by_cases hys : y = s
      · subst hys; simp [setStatus] at hy
      · unfold setStatus at hy; rw [upd_ne _ _ hys] at hy
        obtain ⟨ops, os, q1, q2, q3, q4⟩ := hc.closed y hy hx
        refine ⟨ops, os, q1, q2, q3, fun o' ho1 => (q4 o' ho1).mono (Or.inl ?_) (fun _ => ?_) (fun z hz => ⟨(hmono z hz).1, fun _ => (hmono z hz).2.1, fun _ => (hmono z hz).2.2⟩)⟩
        · unfold setStatus; rw [upd_ne _ _ hys]
        · unfold setStatus; rw [upd_ne _ _ hys]
    · rcases hc.init with h | h
      · exact Or.inl (hmono _ h).1
      · exact Or.inr h
  | again _ _ s l1 c hp h1 h2 h3 h4 =>
    have hcr := (hi.pop hp).2.1
    have hg0 : 0 ≤ (infos s).g := hcr
    have htv : valid s := (hi.nodes.ok s hcr).1
    refine ⟨hc.dead, ?_, hc.goal, hc.closed, hc.init⟩
    intro y hy
    by_cases hys : y = s
    · subst hys
      by_cases h0 : Spec.copies rel c cfg = 0
      · exact Or.inl (hsafe.stored _ _ c htv hg0 (Or.inr h3) h0)
      · exact Or.inr ⟨A.key c, List.mem_append.mpr (Or.inr (List.mem_replicate.mpr ⟨h0, rfl⟩)), hsafe.good _ _ c htv hg0 (Or.inr h3)⟩
    · rcases hc.opened y hy with h | ⟨k, h, h'⟩
      · exact Or.inl h
      · exact Or.inr ⟨k, List.mem_append.mpr (Or.inl (hpop s _ hp y k hys h)), h'⟩
  | expand _ _ s l1 ops os _ _ hp h1 h2 h3 h4 h5 =>
    obtain ⟨i1, i2, i3⟩ := hi.pop hp
    have i2' : 0 ≤ (infos s).g := i2
    have hmono : ∀ y, (infos y).status ≠ .new → (setStatus infos s .closed y).status ≠ .new ∧ (opts.reopen = true → (infos y).status = .deadEnd → (setStatus infos s .closed y).status = .deadEnd) ∧ (opts.reopen = true → (infos y).status ≠ .deadEnd → (setStatus infos s .closed y).status = .deadEnd ∨ (setStatus infos s .closed y).g ≤ (infos y).g) := by
      intro y hy
      unfold setStatus
      by_cases hys : y = s
      · subst hys; simp [h1]
      · rw [upd_ne _ _ hys]; exact ⟨hy, fun _ h => h, fun _ _ => Or.inr (by omega)⟩
    have hc' : CInv w E opts good (some s) (setStatus infos s .closed) l1 := by
      refine ⟨?_, ?_, ?_, ?_, ?_⟩
      · intro y hy
        by_cases hys : y = s
        · subst hys; simp [setStatus] at hy
        · unfold setStatus at hy; rw [upd_ne _ _ hys] at hy; exact hc.dead y hy
      · intro y hy
        by_cases hys : y = s
        · subst hys; simp [setStatus] at hy
        · unfold setStatus at hy ⊢; rw [upd_ne _ _ hys] at hy ⊢
          rcases hc.opened y hy with h | ⟨k, h, h'⟩
          · exact Or.inl h
          · exact Or.inr ⟨k, hpop s _ hp y k hys h, h'⟩
      · intro y hy
        by_cases hys : y = s
        · subst hys; exact h2
        · unfold setStatus at hy; rw [upd_ne _ _ hys] at hy; exact hc.goal y hy
      · intro y hy hx
        by_cases hys : y = s
        · exact absurd (by rw [hys]) hx
        · unfold setStatus at hy; rw [upd_ne _ _ hys] at hy
          obtain ⟨ops', os', q1, q2, q3, q4⟩ := hc.closed y hy (by simp)
          refine ⟨ops', os', q1, q2, q3, fun o' ho1 => (q4 o' ho1).mono (Or.inl ?_) (fun _ => ?_) hmono⟩
          · unfold setStatus; rw [upd_ne _ _ hys]
          · unfold setStatus; rw [upd_ne _ _ hys]
      · rcases hc.init with h | h
        · exact Or.inl (hmono _ h).1
        · exact Or.inr h
    obtain ⟨a, b, e, d⟩ := h5.cinv hv hsafe hopt (i1.close i2 rfl) (by unfold Created setStatus; simpa using i2') h3 (hpr s ops os h4) hc'
    refine ⟨a.dead, a.opened, a.goal, ?_, a.init⟩
    intro y hy _
    by_cases hys : y = s
    · subst hys
      exact ⟨ops, os, h3, h4, hpr _ _ _ h4, d⟩
    · exact a.closed y hy (by simpa using Ne.symm hys)

theorem Reached.cinv {w : World S} {valid : S → Prop} (hv : w.Total valid) {E : Env S σ} (hpr : E.PrunesOnly) {opts : Options} {A : OLSpec K S H rel cfg}
    {good : K → S → Int → Prop} (hsafe : Safe w valid E A good) (hopt : OptsOK w opts) {infos : S → NodeInfo S} {l : List (K × S)} (h : Reached w E opts A infos l) :
    CInv w E opts good none infos l := by
  induction h with
  | start infos l h => exact h.cinv hv hsafe
  | step infos l infos' l' hr h ih => exact h.cinv hv hpr hsafe hopt (hr.inv hv hpr) ih

end Verif.Search
