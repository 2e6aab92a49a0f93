import Verif.Model.Pdb

/-
The match tree finds exactly the operators whose preconditions hold.
-/
namespace Verif.Pdb
open Verif.Relax

/-- the domain sizes stored in the tree are those of the variables -/
def TreeOk (dom : Nat → Option Nat) : MTree → Prop
  | .null => True
  | .node _ none _ star => star = .null
  | .node _ (some (v, d)) succ star => dom v = some d ∧ (∀ x, TreeOk dom (succ x)) ∧ TreeOk dom star

/-- the preconditions are facts -/
def PreOk (dom : Nat → Option Nat) (pre : List (Nat × Nat)) : Prop := ∀ f ∈ pre, ∃ d, dom f.1 = some d ∧ f.2 < d

/-- the values are values of the variables -/
def ValOk (dom : Nat → Option Nat) (val : Nat → Option Nat) : Prop := ∀ v d, dom v = some d → ∃ x, val v = some x ∧ x < d

/-- all preconditions hold -/
def Holds (val : Nat → Option Nat) (pre : List (Nat × Nat)) : Prop := ∀ f ∈ pre, val f.1 = some f.2

variable {dom : Nat → Option Nat}

theorem PreOk.tail {f : Nat × Nat} {pre : List (Nat × Nat)} (h : PreOk dom (f :: pre)) : PreOk dom pre := fun g hg => h g (by simp [hg])

theorem holds_cons {val : Nat → Option Nat} {v x : Nat} {pre : List (Nat × Nat)} : Holds val ((v, x) :: pre) ↔ val v = some x ∧ Holds val pre := by
  simp [Holds]

theorem lookup_total {val : Nat → Option Nat} (hv : ValOk dom val) : ∀ (m : MTree), TreeOk dom m → ∃ l, m.lookup val = some l
  | .null, _ => ⟨[], rfl⟩
  | .node ids none succ star, _ => ⟨ids, rfl⟩
  | .node ids (some (v, d)) succ star, ⟨h1, h2, h3⟩ => by
    obtain ⟨x, hx, hxd⟩ := hv v d h1
    obtain ⟨l1, e1⟩ := lookup_total hv (succ x) (h2 x)
    obtain ⟨l2, e2⟩ := lookup_total hv star h3
    refine ⟨ids ++ (l1 ++ l2), ?_⟩
    simp [MTree.lookup, hx, hxd, e1, e2]

/-- `m'` is `m` with the operator -/
def Inserted (dom : Nat → Option Nat) (id : Nat) (pre : List (Nat × Nat)) (m m' : MTree) : Prop :=
  TreeOk dom m' ∧ ∀ val, ValOk dom val → ∀ l l', m.lookup val = some l → m'.lookup val = some l' → ∀ i, i ∈ l' ↔ (Holds val pre ∧ i = id) ∨ i ∈ l

theorem lookup_fresh {val : Nat → Option Nat} {ids : List Nat} {v d x y : Nat} {c star : MTree} {l : List Nat} (hy : val v = some y)
    (h : (MTree.node ids (some (v, d)) (upd (fun _ => .null) x c) star).lookup val = some l) :
    ∃ l1 l2, l = ids ++ (l1 ++ l2) ∧ star.lookup val = some l2 ∧ ((y = x ∧ c.lookup val = some l1) ∨ (y ≠ x ∧ l1 = [])) := by
  unfold MTree.lookup at h
  rw [hy] at h
  simp only at h
  split at h
  · by_cases e : y = x
    · subst e
      simp only [upd, if_true] at h
      split at h
      · simp at h
      · rename_i l1 h1
        split at h
        · simp at h
        · rename_i l2 h2
          simp only [Option.some.injEq] at h
          exact ⟨l1, l2, h.symm, h2, Or.inl ⟨rfl, h1⟩⟩
    · simp only [upd, if_neg e, MTree.lookup] at h
      split at h
      · simp at h
      · rename_i l2 h2
        simp only [Option.some.injEq] at h
        exact ⟨[], l2, h.symm, h2, Or.inr ⟨e, rfl⟩⟩
  · simp at h

theorem treeOk_upd {x : Nat} {c : MTree} (hc : TreeOk dom c) {f : Nat → MTree} (hf : ∀ y, TreeOk dom (f y)) (y : Nat) : TreeOk dom (upd f x c y) := by
  unfold upd; split
  · exact hc
  · exact hf y

theorem chain_spec (id : Nat) : ∀ (pre : List (Nat × Nat)), PreOk dom pre → ∃ c, chain dom id pre = some c ∧ Inserted dom id pre .null c
  | [], _ => by
    refine ⟨_, rfl, rfl, ?_⟩
    intro val hv l l' h1 h2 i
    simp only [MTree.lookup, Option.some.injEq] at h1 h2
    subst h1 h2
    simp [Holds]
  | (v, x) :: pre, h => by
    obtain ⟨d, hd, hx⟩ := h (v, x) (by simp)
    obtain ⟨c, hc, hok, hin⟩ := chain_spec id pre h.tail
    refine ⟨.node [] (some (v, d)) (upd (fun _ => .null) x c) .null, by simp only [chain]; rw [hd]; simp only; rw [if_pos hx, hc], ⟨hd, treeOk_upd hok (fun _ => trivial), trivial⟩, ?_⟩
    intro val hv l l' h1 h2 i
    obtain ⟨y, hy, hyd⟩ := hv v d hd
    obtain ⟨l1, l2, rfl, h3, h4⟩ := lookup_fresh hy h2
    simp only [MTree.lookup, Option.some.injEq] at h1 h3
    subst h1 h3
    rw [holds_cons, hy]
    rcases h4 with ⟨e, h4⟩ | ⟨e, rfl⟩
    · subst e
      have := hin val hv [] l1 rfl h4 i
      simpa using this
    · simp [e]

theorem insert_spec (id : Nat) : ∀ (m : MTree) (pre : List (Nat × Nat)), TreeOk dom m → PreOk dom pre → ∃ m', m.insert dom id pre = some m' ∧ Inserted dom id pre m m'
  | .null, pre, _, h => by
    obtain ⟨c, h1, h2⟩ := chain_spec id pre h
    exact ⟨c, by simpa [MTree.insert] using h1, h2⟩
  | .node ids var succ star, [], hok, h => by
    refine ⟨.node (ids ++ [id]) var succ star, by simp only [MTree.insert], ?_, ?_⟩
    · cases var <;> exact hok
    · intro val hv l l' h1 h2 i
      cases var with
      | none =>
        simp only [MTree.lookup, Option.some.injEq] at h1 h2
        subst h1 h2
        simp [Holds, or_comm]
      | some vd =>
        obtain ⟨v, d⟩ := vd
        obtain ⟨hd, hs, hst⟩ := hok
        obtain ⟨y, hy, hyd⟩ := hv v d hd
        obtain ⟨l1, e1⟩ := lookup_total hv (succ y) (hs y)
        obtain ⟨l2, e2⟩ := lookup_total hv star hst
        simp only [MTree.lookup, hy, hyd, if_true, e1, e2, Option.some.injEq] at h1 h2
        subst h1 h2
        simp [Holds]
        tauto
  | .node ids none succ star, (v, x) :: pre, hok, h => by
    obtain ⟨d, hd, hx⟩ := h (v, x) (by simp)
    obtain ⟨c, hc, hok', hin⟩ := chain_spec id pre h.tail
    refine ⟨.node ids (some (v, d)) (upd (fun _ => .null) x c) star, by simp only [MTree.insert]; rw [hd]; simp only; rw [if_pos hx, hc], ⟨hd, treeOk_upd hok' (fun _ => trivial), ?_⟩, ?_⟩
    · have : star = .null := hok
      subst this; trivial
    · intro val hv l l' h1 h2 i
      have hst : star = .null := hok
      subst hst
      obtain ⟨y, hy, hyd⟩ := hv v d hd
      obtain ⟨l1, l2, rfl, h3, h4⟩ := lookup_fresh hy h2
      simp only [MTree.lookup, Option.some.injEq] at h1 h3
      subst h1 h3
      rw [holds_cons, hy]
      rcases h4 with ⟨e, h4⟩ | ⟨e, rfl⟩
      · subst e
        have := hin val hv [] l1 rfl h4 i
        simp only [List.not_mem_nil, or_false] at this
        simp [this, or_comm]
      · simp [e]
  | .node ids (some (w, d')) succ star, (v, x) :: pre, hok, h => by
    obtain ⟨d, hd, hx⟩ := h (v, x) (by simp)
    simp only at hd hx
    obtain ⟨hdw, hs, hst⟩ := hok
    simp only [MTree.insert, hd]
    by_cases hwv : w > v
    · rw [if_pos hwv, if_pos hx]
      obtain ⟨c, hc, hok', hin⟩ := chain_spec id pre h.tail
      rw [hc]
      refine ⟨_, rfl, ⟨hd, treeOk_upd hok' (fun _ => trivial), hdw, hs, hst⟩, ?_⟩
      intro val hv l l' h1 h2 i
      obtain ⟨y, hy, hyd⟩ := hv v d hd
      obtain ⟨l1, l2, rfl, h3, h4⟩ := lookup_fresh hy h2
      rw [h1] at h3
      simp only [Option.some.injEq] at h3
      subst h3
      rw [holds_cons, hy]
      rcases h4 with ⟨e, h4⟩ | ⟨e, rfl⟩
      · subst e
        have := hin val hv [] l1 rfl h4 i
        simp only [List.not_mem_nil, or_false] at this
        simp [this]
      · simp [e]
    · rw [if_neg hwv]
      by_cases e : w = v
      · subst e
        rw [hdw] at hd
        simp only [Option.some.injEq] at hd
        subst hd
        rw [if_pos rfl, if_pos hx]
        obtain ⟨c, hc, hok', hin⟩ := insert_spec id (succ x) pre (hs x) h.tail
        rw [hc]
        refine ⟨_, rfl, ⟨hdw, treeOk_upd hok' hs, hst⟩, ?_⟩
        intro val hv l l' h1 h2 i
        obtain ⟨y, hy, hyd⟩ := hv w d' hdw
        obtain ⟨l1, e1⟩ := lookup_total hv (succ y) (hs y)
        obtain ⟨l2, e2⟩ := lookup_total hv star hst
        obtain ⟨l3, e3⟩ := lookup_total hv c hok'
        simp only [MTree.lookup, hy, hyd, if_true, e1, e2, Option.some.injEq] at h1
        subst h1
        rw [holds_cons, hy]
        by_cases exy : y = x
        · subst exy
          simp only [MTree.lookup, hy, hyd, if_true, upd, e3, e2, Option.some.injEq] at h2
          subst h2
          have := hin val hv l1 l3 e1 e3 i
          simp only [List.mem_append, this]
          tauto
        · simp only [MTree.lookup, hy, hyd, if_true, upd, if_neg exy, e1, e2, Option.some.injEq] at h2
          subst h2
          simp [exy]
      · rw [if_neg e]
        obtain ⟨c, hc, hok', hin⟩ := insert_spec id star ((v, x) :: pre) hst h
        rw [hc]
        refine ⟨_, rfl, ⟨hdw, hs, hok'⟩, ?_⟩
        intro val hv l l' h1 h2 i
        obtain ⟨y, hy, hyd⟩ := hv w d' hdw
        obtain ⟨l1, e1⟩ := lookup_total hv (succ y) (hs y)
        obtain ⟨l2, e2⟩ := lookup_total hv star hst
        obtain ⟨l3, e3⟩ := lookup_total hv c hok'
        simp only [MTree.lookup, hy, hyd, if_true, e1, e2, e3, Option.some.injEq] at h1 h2
        subst h1 h2
        have := hin val hv l2 l3 e2 e3 i
        simp only [List.mem_append, this]
        tauto

theorem treeLoop_spec : ∀ (l : List (AbsOp × Nat)) (m : MTree), TreeOk dom m → (∀ a ∈ l, PreOk dom a.1.pre) →
    ∃ m', treeLoop dom l m = some m' ∧ TreeOk dom m' ∧ ∀ val, ValOk dom val → ∀ r r', m.lookup val = some r → m'.lookup val = some r' → ∀ i, i ∈ r' ↔ (∃ a, (a, i) ∈ l ∧ Holds val a.pre) ∨ i ∈ r
  | [], m, hm, _ => by
    refine ⟨m, rfl, hm, ?_⟩
    intro val hv r r' h1 h2 i
    rw [h1] at h2
    simp only [Option.some.injEq] at h2
    simp [h2]
  | (a, j) :: l, m, hm, h => by
    obtain ⟨m1, e1, h1, h2⟩ := insert_spec j m a.pre hm (h (a, j) (by simp))
    obtain ⟨m2, e2, h3, h4⟩ := treeLoop_spec l m1 h1 (fun b hb => h b (by simp [hb]))
    refine ⟨m2, by simp only [treeLoop, e1, e2], h3, ?_⟩
    intro val hv r r' k1 k2 i
    obtain ⟨r1, hr1⟩ := lookup_total hv m1 h1
    rw [h4 val hv r1 r' hr1 k2 i, h2 val hv r r1 k1 hr1 i]
    constructor
    · rintro (⟨b, hb, hb'⟩ | ⟨hb, rfl⟩ | hb)
      · exact Or.inl ⟨b, by simp [hb], hb'⟩
      · exact Or.inl ⟨a, by simp, hb⟩
      · exact Or.inr hb
    · rintro (⟨b, hb, hb'⟩ | hb)
      · simp only [List.mem_cons, Prod.mk.injEq] at hb
        rcases hb with ⟨rfl, rfl⟩ | hb
        · exact Or.inr (Or.inl ⟨hb', rfl⟩)
        · exact Or.inl ⟨b, hb, hb'⟩
      · exact Or.inr (Or.inr hb)

end Verif.Pdb
