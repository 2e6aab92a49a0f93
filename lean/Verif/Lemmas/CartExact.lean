import Verif.Lemmas.CartInv

/-
Transitions of Cartesian abstractions are induced by transitions of states, as long as all splits are proper.
-/
namespace Verif.Cart

variable {t : Task}

/-- the values of a variable before and after an operator -/
def CompatAt (t : Task) (op v : Nat) (A B : Nat → Bool) : Prop :=
  (∀ x, preValue t op v = some x → A x = true) ∧ (∀ y, postValue t op v = some y → B y = true) ∧ (postValue t op v = none → ∃ x, A x = true ∧ B x = true)

/-- all abstract states have members, and every transition is possible for every variable -/
structure Tight (t : Task) (a : Abs) : Prop where
  nonempty : ∀ (i : Nat) (st : AState) (v : Nat), a.states[i]? = some st → v < t.vars.length → ∃ x, st.set v x = true
  edge : ∀ (i op j : Nat) (u w : AState), (⟨op, j⟩ : Trans) ∈ a.ts.outgoing i → a.states[i]? = some u → a.states[j]? = some w → ∀ v, v < t.vars.length → CompatAt t op v (u.set v) (w.set v)
  loop : ∀ (i op : Nat) (u : AState), op ∈ a.ts.loops i → a.states[i]? = some u → ∀ v, v < t.vars.length → CompatAt t op v (u.set v) (u.set v)

theorem Tight.trivial (ht : CartesianTask t) : Tight t (Abs.trivial t) := by
  have hst : ∀ (i : Nat) (st : AState), (Abs.trivial t).states[i]? = some st → st = ⟨0, CSet.full (domainSizes t)⟩ := by
    intro i st h
    simp only [Abs.trivial] at h
    rcases List.getElem?_eq_some_iff.mp h with ⟨hl, h⟩
    simp at hl
    subst hl
    simpa using h.symm
  have hne : ∀ v, v < t.vars.length → ∃ x, CSet.full (domainSizes t) v x = true := by
    intro v hv
    have hi := ht.wf.init
    obtain ⟨x, hx⟩ := state_value hi hv
    exact ⟨x, includesState_iff.mp (full_state hi) v x hx⟩
  refine ⟨fun i st v h hv => ?_, fun i op j u w h => ?_, fun i op u h hu v hv => ?_⟩
  · rw [hst i st h]; exact hne v hv
  · simp [Abs.trivial, TS.trivial] at h
  · rw [hst i u hu]
    simp only
    have hop : op < t.ops.length := by
      simp only [Abs.trivial, TS.trivial] at h
      by_cases hi : i = 0 <;> simp [hi] at h
      exact h
    have ho := List.getElem?_eq_getElem hop
    have hm := List.getElem_mem hop
    refine ⟨fun x hx => ?_, fun y hy => ?_, fun _ => ?_⟩
    · have := (preValue_iff ht ho).mp hx
      exact full_iff.mpr (ht.wf.pre _ hm _ this)
    · rcases (postValue_iff ht ho).mp hy with ⟨e, he, hf⟩ | ⟨_, h2⟩
      · have := ht.wf.effFact _ hm e he
        rw [hf] at this
        exact full_iff.mpr this
      · exact full_iff.mpr (ht.wf.pre _ hm _ h2)
    · obtain ⟨x, hx⟩ := hne v hv
      exact ⟨x, hx, hx⟩

theorem split_ne {c : CSet} {var : Nat} {w : List Nat} {u x : Nat} (h : u ≠ var) : (c.split var w).1 u x = c u x ∧ (c.split var w).2 u x = c u x := by
  constructor
  · rw [Bool.eq_iff_iff, split_fst]; simp [h]
  · rw [Bool.eq_iff_iff, split_snd]; simp [h]

theorem split_cases {c : CSet} {var : Nat} {w : List Nat} {x : Nat} (h : c var x = true) : (c.split var w).1 var x = true ∨ (c.split var w).2 var x = true := by
  by_cases hm : x ∈ w
  · right; rw [split_snd]; exact Or.inr ⟨rfl, hm⟩
  · left; rw [split_fst]; exact ⟨h, fun h => hm h.2⟩

theorem pre_none (ht : CartesianTask t) {op v : Nat} (h : postValue t op v = none) : preValue t op v = none := by
  cases hp : preValue t op v with
  | none => rfl
  | some x =>
    obtain ⟨y, hy⟩ := post_of_pre ht hp
    rw [h] at hy; simp at hy

theorem inc_sound {u c : CSet} (hu : Within t u) {i op n v var : Nat} {w : List Nat} (hold : CompatAt t op var (u var) (c var)) {e : Edge} (he : e ∈ incomingEdges t u i op (c.split var w).1 (c.split var w).2 v n var) :
    (e = ⟨i, op, v⟩ ∧ CompatAt t op var (u var) ((c.split var w).1 var)) ∨ (e = ⟨i, op, n⟩ ∧ CompatAt t op var (u var) ((c.split var w).2 var)) := by
  obtain ⟨h1, h2, h3⟩ := hold
  unfold incomingEdges at he
  cases hq : postValue t op var with
  | none =>
    rw [hq] at he h3
    simp only at he
    have hint : ∀ c : CSet, u.intersects (domainSizes t) c var = true ↔ ∃ x, u var x = true ∧ c var x = true := fun c => intersects_within (Or.inl hu)
    have key : ∀ c' : CSet, u.intersects (domainSizes t) c' var = true → CompatAt t op var (u var) (c' var) := fun c' h => ⟨h1, fun y hy => by rw [hq] at hy; simp at hy, fun _ => (hint c').mp h⟩
    by_cases k1 : u.intersects (domainSizes t) (c.split var w).1 var = true
    · rw [if_pos k1] at he
      by_cases k2 : u.intersects (domainSizes t) (c.split var w).2 var = true
      · rw [if_pos k2] at he
        simp only [List.mem_cons, List.not_mem_nil, or_false] at he
        rcases he with rfl | rfl
        · exact Or.inl ⟨rfl, key _ k1⟩
        · exact Or.inr ⟨rfl, key _ k2⟩
      · rw [if_neg k2] at he
        simp only [List.mem_cons, List.not_mem_nil, or_false] at he
        subst he
        exact Or.inl ⟨rfl, key _ k1⟩
    · rw [if_neg k1] at he
      simp only [List.mem_cons, List.not_mem_nil, or_false] at he
      subst he
      obtain ⟨x, hx1, hx2⟩ := h3 rfl
      rcases split_cases (w := w) hx2 with h | h
      · exact absurd ((hint _).mpr ⟨x, hx1, h⟩) k1
      · exact Or.inr ⟨rfl, key _ ((hint _).mpr ⟨x, hx1, h⟩)⟩
  | some q =>
    rw [hq] at he
    simp only at he
    have key : ∀ c' : CSet, c' var q = true → CompatAt t op var (u var) (c' var) := fun c' h => ⟨h1, fun y hy => by rw [hq] at hy; simp at hy; subst hy; exact h, fun h => by rw [hq] at h; simp at h⟩
    by_cases k1 : (c.split var w).1 var q = true
    · rw [if_pos k1] at he
      simp only [List.mem_cons, List.not_mem_nil, or_false] at he
      subst he
      exact Or.inl ⟨rfl, key _ k1⟩
    · rw [if_neg k1] at he
      simp only [List.mem_cons, List.not_mem_nil, or_false] at he
      subst he
      rcases split_cases (w := w) (h2 q hq) with h | h
      · exact absurd h k1
      · exact Or.inr ⟨rfl, key _ h⟩

theorem out_sound (ht : CartesianTask t) {u c : CSet} (hu : Within t u) {i op n v var : Nat} {w : List Nat} (hold : CompatAt t op var (c var) (u var)) {e : Edge} (he : e ∈ outgoingEdges t u i op (c.split var w).1 (c.split var w).2 v n var) :
    (e = ⟨v, op, i⟩ ∧ CompatAt t op var ((c.split var w).1 var) (u var)) ∨ (e = ⟨n, op, i⟩ ∧ CompatAt t op var ((c.split var w).2 var) (u var)) := by
  obtain ⟨h1, h2, h3⟩ := hold
  unfold outgoingEdges at he
  cases hq : postValue t op var with
  | none =>
    have hp := pre_none ht hq
    rw [hq, hp] at he
    rw [hq] at h3
    simp only at he
    have hint : ∀ c : CSet, c.intersects (domainSizes t) u var = true ↔ ∃ x, c var x = true ∧ u var x = true := fun c => intersects_within (Or.inr hu)
    have key : ∀ c' : CSet, c'.intersects (domainSizes t) u var = true → CompatAt t op var (c' var) (u var) :=
      fun c' h => ⟨fun x hx => by rw [hp] at hx; simp at hx, fun y hy => by rw [hq] at hy; simp at hy, fun _ => (hint c').mp h⟩
    by_cases k1 : (c.split var w).1.intersects (domainSizes t) u var = true
    · rw [if_pos k1] at he
      by_cases k2 : (c.split var w).2.intersects (domainSizes t) u var = true
      · rw [if_pos k2] at he
        simp only [List.mem_cons, List.not_mem_nil, or_false] at he
        rcases he with rfl | rfl
        · exact Or.inl ⟨rfl, key _ k1⟩
        · exact Or.inr ⟨rfl, key _ k2⟩
      · rw [if_neg k2] at he
        simp only [List.mem_cons, List.not_mem_nil, or_false] at he
        subst he
        exact Or.inl ⟨rfl, key _ k1⟩
    · rw [if_neg k1] at he
      simp only [List.mem_cons, List.not_mem_nil, or_false] at he
      subst he
      obtain ⟨x, hx1, hx2⟩ := h3 rfl
      rcases split_cases (w := w) hx1 with h | h
      · exact absurd ((hint _).mpr ⟨x, h, hx2⟩) k1
      · exact Or.inr ⟨rfl, key _ ((hint _).mpr ⟨x, h, hx2⟩)⟩
  | some q =>
    rw [hq] at he
    have key : ∀ c' : CSet, (∀ x, preValue t op var = some x → c' var x = true) → CompatAt t op var (c' var) (u var) := fun c' h => ⟨h, h2, fun h => by rw [hq] at h; simp at h⟩
    cases hp : preValue t op var with
    | none =>
      rw [hp] at he key
      simp only [List.mem_cons, List.not_mem_nil, or_false] at he
      rcases he with rfl | rfl
      · exact Or.inl ⟨rfl, key _ (by simp)⟩
      · exact Or.inr ⟨rfl, key _ (by simp)⟩
    | some p =>
      rw [hp] at he key
      simp only at he
      by_cases k1 : (c.split var w).1 var p = true
      · rw [if_pos k1] at he
        simp only [List.mem_cons, List.not_mem_nil, or_false] at he
        subst he
        exact Or.inl ⟨rfl, key _ (by simpa using k1)⟩
      · rw [if_neg k1] at he
        simp only [List.mem_cons, List.not_mem_nil, or_false] at he
        subst he
        rcases split_cases (w := w) (h1 p hp) with h | h
        · exact absurd h k1
        · exact Or.inr ⟨rfl, key _ (by simpa using h)⟩

theorem loop_sound {c : CSet} {op n v var : Nat} {w : List Nat} (hold : CompatAt t op var (c var) (c var)) (hne1 : ∃ x, (c.split var w).1 var x = true) (hne2 : ∃ x, (c.split var w).2 var x = true)
    {es : List Edge} (hes : loopEdges t op (c.split var w).1 (c.split var w).2 v n var = some es) {e : Edge} (he : e ∈ es) :
    (e = ⟨v, op, v⟩ ∧ CompatAt t op var ((c.split var w).1 var) ((c.split var w).1 var)) ∨ (e = ⟨v, op, n⟩ ∧ CompatAt t op var ((c.split var w).1 var) ((c.split var w).2 var)) ∨
    (e = ⟨n, op, v⟩ ∧ CompatAt t op var ((c.split var w).2 var) ((c.split var w).1 var)) ∨ (e = ⟨n, op, n⟩ ∧ CompatAt t op var ((c.split var w).2 var) ((c.split var w).2 var)) := by
  obtain ⟨h1, h2, h3⟩ := hold
  unfold loopEdges at hes
  cases hp : preValue t op var with
  | none =>
    cases hq : postValue t op var with
    | none =>
      rw [hp, hq] at hes
      simp only [Option.some.injEq] at hes
      subst hes
      simp only [List.mem_cons, List.not_mem_nil, or_false] at he
      have key : ∀ c' : CSet, (∃ x, c' var x = true) → CompatAt t op var (c' var) (c' var) := fun c' ⟨x, h⟩ => ⟨fun x hx => by rw [hp] at hx; simp at hx, fun y hy => by rw [hq] at hy; simp at hy, fun _ => ⟨x, h, h⟩⟩
      rcases he with rfl | rfl
      · exact Or.inl ⟨rfl, key _ hne1⟩
      · exact Or.inr (Or.inr (Or.inr ⟨rfl, key _ hne2⟩))
    | some q =>
      rw [hp, hq] at hes
      simp only at hes
      have key : ∀ c1 c2 : CSet, c2 var q = true → CompatAt t op var (c1 var) (c2 var) :=
        fun c1 c2 h => ⟨fun x hx => by rw [hp] at hx; simp at hx, fun y hy => by rw [hq] at hy; simp at hy; subst hy; exact h, fun h => by rw [hq] at h; simp at h⟩
      by_cases k1 : (c.split var w).2 var q = true
      · rw [if_pos k1] at hes
        simp only [Option.some.injEq] at hes
        subst hes
        simp only [List.mem_cons, List.not_mem_nil, or_false] at he
        rcases he with rfl | rfl
        · exact Or.inr (Or.inl ⟨rfl, key _ _ k1⟩)
        · exact Or.inr (Or.inr (Or.inr ⟨rfl, key _ _ k1⟩))
      · rw [if_neg k1] at hes
        simp only [Option.some.injEq] at hes
        subst hes
        simp only [List.mem_cons, List.not_mem_nil, or_false] at he
        have k2 : (c.split var w).1 var q = true := (split_cases (h2 q hq)).resolve_right k1
        rcases he with rfl | rfl
        · exact Or.inl ⟨rfl, key _ _ k2⟩
        · exact Or.inr (Or.inr (Or.inl ⟨rfl, key _ _ k2⟩))
  | some p =>
    cases hq : postValue t op var with
    | none => rw [hp, hq] at hes; simp at hes
    | some q =>
      rw [hp, hq] at hes
      simp only at hes
      have key : ∀ c1 c2 : CSet, c1 var p = true → c2 var q = true → CompatAt t op var (c1 var) (c2 var) :=
        fun c1 c2 h h' => ⟨fun x hx => by rw [hp] at hx; simp at hx; subst hx; exact h, fun y hy => by rw [hq] at hy; simp at hy; subst hy; exact h', fun h => by rw [hq] at h; simp at h⟩
      have kp := split_cases (w := w) (h1 p hp)
      have kq := split_cases (w := w) (h2 q hq)
      by_cases k1 : (c.split var w).1 var p = true
      · rw [if_pos k1] at hes
        by_cases k2 : (c.split var w).1 var q = true
        · rw [if_pos k2] at hes
          simp only [Option.some.injEq] at hes
          subst hes
          simp only [List.mem_cons, List.not_mem_nil, or_false] at he
          subst he
          exact Or.inl ⟨rfl, key _ _ k1 k2⟩
        · rw [if_neg k2] at hes
          simp only [Option.some.injEq] at hes
          subst hes
          simp only [List.mem_cons, List.not_mem_nil, or_false] at he
          subst he
          exact Or.inr (Or.inl ⟨rfl, key _ _ k1 (kq.resolve_left k2)⟩)
      · rw [if_neg k1] at hes
        by_cases k2 : (c.split var w).1 var q = true
        · rw [if_pos k2] at hes
          simp only [Option.some.injEq] at hes
          subst hes
          simp only [List.mem_cons, List.not_mem_nil, or_false] at he
          subst he
          exact Or.inr (Or.inr (Or.inl ⟨rfl, key _ _ (kp.resolve_left k1) k2⟩))
        · rw [if_neg k2] at hes
          simp only [Option.some.injEq] at hes
          subst hes
          simp only [List.mem_cons, List.not_mem_nil, or_false] at he
          subst he
          exact Or.inr (Or.inr (Or.inr ⟨rfl, key _ _ (kp.resolve_left k1) (kq.resolve_left k2)⟩))

theorem CompatAt.congr {op v : Nat} {A B A' B' : Nat → Bool} (h : CompatAt t op v A B) (hA : A' = A) (hB : B' = B) : CompatAt t op v A' B' := by rw [hA, hB]; exact h

/-- the new transitions are possible -/
theorem newEdge_sound (ht : CartesianTask t) {a : Abs} (h : Inv t a) (hx : Tight t a) {v var : Nat} {wanted : List Nat} {st : AState} (hst : a.states[v]? = some st) (hvar : var < t.vars.length)
    (hne1 : ∃ x, (st.set.split var wanted).1 var x = true) (hne2 : ∃ x, (st.set.split var wanted).2 var x = true)
    {a' : Abs} (hr : Refined t a v var wanted a') {e : Edge} (he : NewEdge t a.ts a.states v (st.set.split var wanted).1 (st.set.split var wanted).2 v a.states.length var e) {u w : AState} (hu : a'.states[e.src]? = some u) (hw : a'.states[e.target]? = some w) :
    ∀ x, x < t.vars.length → CompatAt t e.op x (u.set x) (w.set x) := by
  obtain ⟨_, st1, st2, p1, p2, p3, p4, p5⟩ := hr.parts
  rw [hst] at p1; simp at p1; subst p1
  have hS : ∀ x, x ≠ var → (st.set.split var wanted).1 x = st.set x ∧ (st.set.split var wanted).2 x = st.set x := fun x hx => ⟨funext fun y => (split_ne hx).1, funext fun y => (split_ne hx).2⟩
  intro x hxv
  cases he with
  | inc i op ui h1 h2 h3 =>
    have hrange := h.ts.range i op v ((h.ts.sym _ _ _).mpr h1)
    have hold := hx.edge i op v ui st ((h.ts.sym _ _ _).mpr h1) h2 hst
    obtain ⟨_, u', k1, k2, k3⟩ := hr.old i hrange.2.2.1 hrange.1
    rw [h2] at k1; simp at k1; subst k1
    rcases inc_sound (h.within i ui h2) (hold var hvar) h3 with ⟨rfl, hc⟩ | ⟨rfl, hc⟩
    · simp only at hu hw ⊢
      rw [k2] at hu; rw [p2] at hw; simp at hu hw; subst hu hw
      rw [k3, p4]
      by_cases e : x = var
      · subst e; exact hc
      · exact (hold x hxv).congr rfl (hS x e).1
    · simp only at hu hw ⊢
      rw [k2] at hu; rw [p3] at hw; simp at hu hw; subst hu hw
      rw [k3, p5]
      by_cases e : x = var
      · subst e; exact hc
      · exact (hold x hxv).congr rfl (hS x e).2
  | out i op ui h1 h2 h3 =>
    have hrange := h.ts.range v op i h1
    have hold := hx.edge v op i st ui h1 hst h2
    obtain ⟨_, u', k1, k2, k3⟩ := hr.old i (fun e => hrange.2.2.1 e.symm) hrange.2.1
    rw [h2] at k1; simp at k1; subst k1
    rcases out_sound ht (h.within i ui h2) (hold var hvar) h3 with ⟨rfl, hc⟩ | ⟨rfl, hc⟩
    · simp only at hu hw ⊢
      rw [p2] at hu; rw [k2] at hw; simp at hu hw; subst hu hw
      rw [k3, p4]
      by_cases e : x = var
      · subst e; exact hc
      · exact (hold x hxv).congr (hS x e).1 rfl
    · simp only at hu hw ⊢
      rw [p3] at hu; rw [k2] at hw; simp at hu hw; subst hu hw
      rw [k3, p5]
      by_cases e : x = var
      · subst e; exact hc
      · exact (hold x hxv).congr (hS x e).2 rfl
  | loop op es h1 h2 h3 =>
    have hold := hx.loop v op st h1 hst
    rcases loop_sound (hold var hvar) hne1 hne2 h2 h3 with ⟨rfl, hc⟩ | ⟨rfl, hc⟩ | ⟨rfl, hc⟩ | ⟨rfl, hc⟩ <;> simp only at hu hw ⊢
    · rw [p2] at hu hw; simp at hu hw; subst hu hw
      rw [p4]
      by_cases e : x = var
      · subst e; exact hc
      · exact (hold x hxv).congr (hS x e).1 (hS x e).1
    · rw [p2] at hu; rw [p3] at hw; simp at hu hw; subst hu hw
      rw [p4, p5]
      by_cases e : x = var
      · subst e; exact hc
      · exact (hold x hxv).congr (hS x e).1 (hS x e).2
    · rw [p3] at hu; rw [p2] at hw; simp at hu hw; subst hu hw
      rw [p4, p5]
      by_cases e : x = var
      · subst e; exact hc
      · exact (hold x hxv).congr (hS x e).2 (hS x e).1
    · rw [p3] at hu hw; simp at hu hw; subst hu hw
      rw [p5]
      by_cases e : x = var
      · subst e; exact hc
      · exact (hold x hxv).congr (hS x e).2 (hS x e).2

theorem refine_tight (ht : CartesianTask t) {a : Abs} (h : Inv t a) (hx : Tight t a) {v var : Nat} {wanted : List Nat} {st : AState} (hst : a.states[v]? = some st) (hvar : var < t.vars.length)
    (hne1 : ∃ x, st.set var x = true ∧ x ∉ wanted) (hne2 : wanted ≠ []) {a' : Abs} (hr : Refined t a v var wanted a') : Tight t a' := by
  have hvl := (List.getElem?_eq_some_iff.mp hst).1
  obtain ⟨_, st1, st2, p1, p2, p3, p4, p5⟩ := hr.parts
  rw [hst] at p1; simp at p1; subst p1
  have hn1 : ∃ x, (st.set.split var wanted).1 var x = true := by
    obtain ⟨x, h1, h2⟩ := hne1
    exact ⟨x, (split_fst _ _ _ _ _).mpr ⟨h1, fun h => h2 h.2⟩⟩
  have hn2 : ∃ x, (st.set.split var wanted).2 var x = true := by
    obtain ⟨x, h1⟩ := List.exists_mem_of_ne_nil _ hne2
    exact ⟨x, (split_snd _ _ _ _ _).mpr (Or.inr ⟨rfl, h1⟩)⟩
  have hS : ∀ x, x ≠ var → (st.set.split var wanted).1 x = st.set x ∧ (st.set.split var wanted).2 x = st.set x := fun x hx => ⟨funext fun y => (split_ne hx).1, funext fun y => (split_ne hx).2⟩
  obtain ⟨_, q1, hout⟩ := hr.out
  obtain ⟨_, q2, hloops⟩ := hr.loops
  rw [hst] at q1 q2; simp at q1 q2; subst q1 q2
  have hcases : ∀ (i : Nat) (u : AState), a'.states[i]? = some u → (i ≠ v ∧ ∃ u0, a.states[i]? = some u0 ∧ u.set = u0.set) ∨ (i = v ∧ u = st1) ∨ (i = a.states.length ∧ u = st2) := by
    intro i u hu
    by_cases e : i = v
    · subst e; rw [p2] at hu; simp at hu; exact Or.inr (Or.inl ⟨rfl, hu.symm⟩)
    · by_cases hl : i < a.states.length
      · obtain ⟨u0, u', k1, k2, k3⟩ := hr.old i e hl
        rw [k2] at hu; simp at hu; subst hu
        exact Or.inl ⟨e, u0, k1, k3⟩
      · have := (List.getElem?_eq_some_iff.mp hu).1
        rw [hr.length] at this
        have e : i = a.states.length := by omega
        subst e
        rw [p3] at hu; simp at hu; exact Or.inr (Or.inr ⟨rfl, hu.symm⟩)
  refine ⟨fun i u x hu hxv => ?_, fun i op j u w hm hu hw => ?_, fun i op u hm hu => ?_⟩
  · rcases hcases i u hu with ⟨_, u0, k1, k2⟩ | ⟨_, rfl⟩ | ⟨_, rfl⟩
    · rw [k2]; exact hx.nonempty i u0 x k1 hxv
    · rw [p4]
      by_cases e : x = var
      · subst e; exact hn1
      · rw [(hS x e).1]; exact hx.nonempty v st x hst hxv
    · rw [p5]
      by_cases e : x = var
      · subst e; exact hn2
      · rw [(hS x e).2]; exact hx.nonempty v st x hst hxv
  · rcases (hout i op j).mp hm with ⟨k1, k2, k3⟩ | ⟨_, k⟩
    · have hrange := h.ts.range i op j k3
      rcases hcases i u hu with ⟨_, u0, m1, m2⟩ | ⟨m1, _⟩ | ⟨m1, _⟩
      · rcases hcases j w hw with ⟨_, w0, m3, m4⟩ | ⟨m3, _⟩ | ⟨m3, _⟩
        · rw [m2, m4]; exact hx.edge i op j u0 w0 k3 m1 m3
        · exact absurd m3 k2
        · omega
      · exact absurd m1 k1
      · omega
    · exact newEdge_sound ht h hx hst hvar hn1 hn2 hr k hu hw
  · rcases (hloops i op).mp hm with ⟨k1, k2⟩ | k
    · have hrange := h.ts.lrange i op k2
      rcases hcases i u hu with ⟨_, u0, m1, m2⟩ | ⟨m1, _⟩ | ⟨m1, _⟩
      · rw [m2]; exact hx.loop i op u0 k2 m1
      · exact absurd m1 k1
      · omega
    · exact newEdge_sound ht h hx hst hvar hn1 hn2 hr k hu hu

/-- a state with given values -/
theorem state_of (n : Nat) (f : Nat → Nat) : ((List.range n).map f).length = n ∧ ∀ v x, ((List.range n).map f)[v]? = some x ↔ v < n ∧ x = f v := by
  refine ⟨by simp, fun v x => ?_⟩
  rw [List.getElem?_map]
  by_cases h : v < n
  · rw [List.getElem?_range h]; simp [h, eq_comm]
  · rw [List.getElem?_eq_none (by simp; omega)]; simp [h]

/-- possible transitions are transitions between members -/
theorem compat_step (ht : CartesianTask t) {op : Nat} (hop : op < t.ops.length) {A B : CSet} (hA : Within t A) (hne : ∀ v, v < t.vars.length → ∃ x, A v x = true) (h : ∀ v, v < t.vars.length → CompatAt t op v (A v) (B v)) :
    ∃ s s', t.ValidState s ∧ t.Step s op s' ∧ A.includesState s = true ∧ B.includesState s' = true := by
  have hval : ∀ v, ∃ x, v < t.vars.length → A v x = true ∧ (∀ p, preValue t op v = some p → x = p) ∧ (postValue t op v = none → B v x = true) := by
    intro v
    by_cases hv : v < t.vars.length
    · obtain ⟨h1, h2, h3⟩ := h v hv
      cases hq : postValue t op v with
      | none =>
        obtain ⟨x, k1, k2⟩ := h3 hq
        exact ⟨x, fun _ => ⟨k1, fun p hp => by rw [pre_none ht hq] at hp; simp at hp, fun _ => k2⟩⟩
      | some q =>
        cases hp : preValue t op v with
        | none =>
          obtain ⟨x, k⟩ := hne v hv
          exact ⟨x, fun _ => ⟨k, fun p hp => by simp at hp, fun h => by simp at h⟩⟩
        | some p => exact ⟨p, fun _ => ⟨h1 p hp, fun p' h => by simpa using h, fun h => by simp at h⟩⟩
    · exact ⟨0, fun h => absurd h hv⟩
  choose f hf using hval
  obtain ⟨k1, k2⟩ := state_of t.vars.length f
  generalize (List.range t.vars.length).map f = s at k1 k2
  have hs : t.ValidState s := by
    refine ⟨k1, fun v x d hx hd => ?_⟩
    obtain ⟨hv, rfl⟩ := (k2 v x).mp hx
    obtain ⟨d', hd', hlt⟩ := hA v (f v) (hf v hv).1
    rw [hd] at hd'; simp at hd'; subst hd'; exact hlt
  have hpre : ∀ v x, preValue t op v = some x → s[v]? = some x := by
    intro v x hx
    have hv : v < t.vars.length := by
      have := (preValue_iff ht (List.getElem?_eq_getElem hop)).mp hx
      obtain ⟨d, hd, _⟩ := ht.wf.pre _ (List.getElem_mem hop) _ this
      exact (List.getElem?_eq_some_iff.mp hd).1
    rw [k2]
    exact ⟨hv, ((hf v hv).2.1 x hx).symm⟩
  obtain ⟨s', hs'⟩ := step_exists ht hs hop hpre
  obtain ⟨v1, _, v3, v4⟩ := step_values ht hs hs'
  refine ⟨s, s', hs, hs', ?_, ?_⟩
  · rw [includesState_iff]
    intro v x hx
    obtain ⟨hv, rfl⟩ := (k2 v x).mp hx
    exact (hf v hv).1
  · rw [includesState_iff]
    intro v x hx
    have hv : v < t.vars.length := by have := (List.getElem?_eq_some_iff.mp hx).1; rw [v1.1] at this; exact this
    cases hq : postValue t op v with
    | none =>
      rw [v4 v hq] at hx
      obtain ⟨_, rfl⟩ := (k2 v x).mp hx
      exact (hf v hv).2.2 hq
    | some q =>
      rw [v3 v q hq] at hx
      simp at hx
      subst hx
      exact (h v hv).2.1 q hq

/-- every abstract state has members -/
theorem Tight.member {a : Abs} (h : Inv t a) (hx : Tight t a) {i : Nat} (hi : i < a.states.length) : ∃ s, t.ValidState s ∧ In a i s := by
  have hst := List.getElem?_eq_getElem hi
  generalize a.states[i] = st at hst
  have hval : ∀ v, ∃ x, v < t.vars.length → st.set v x = true := by
    intro v
    by_cases hv : v < t.vars.length
    · obtain ⟨x, hx⟩ := hx.nonempty i st v hst hv
      exact ⟨x, fun _ => hx⟩
    · exact ⟨0, fun h => absurd h hv⟩
  choose f hf using hval
  obtain ⟨k1, k2⟩ := state_of t.vars.length f
  refine ⟨_, ⟨k1, fun v x d hx hd => ?_⟩, st, hst, ?_⟩
  · obtain ⟨hv, rfl⟩ := (k2 v x).mp hx
    obtain ⟨d', hd', hlt⟩ := h.within i st hst v (f v) (hf v hv)
    rw [hd] at hd'; simp at hd'; subst hd'; exact hlt
  · rw [includesState_iff]
    intro v x hx
    obtain ⟨hv, rfl⟩ := (k2 v x).mp hx
    exact hf v hv

end Verif.Cart
