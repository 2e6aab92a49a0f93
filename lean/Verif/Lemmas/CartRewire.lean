import Verif.Lemmas.CartBasic
import Verif.Lemmas.StubbornEC

/-
Refinement of Cartesian abstractions: the transitions after a split.
-/
namespace Verif.Cart
open Verif.Stubborn (mapM_getElem? mapM_defined)

/-! ### Adding transitions -/

theorem mem_snoc {α : Type} {f : Nat → List α} {i j : Nat} {a b : α} : b ∈ snoc f i a j ↔ b ∈ f j ∨ (j = i ∧ b = a) := by
  unfold snoc
  by_cases h : j = i <;> simp [h]

theorem mem_add (es : List Edge) : ∀ (ts : TS),
    (∀ y op x, (⟨op, x⟩ : Trans) ∈ (es.foldl TS.add ts).outgoing y ↔ ⟨op, x⟩ ∈ ts.outgoing y ∨ (y ≠ x ∧ ⟨y, op, x⟩ ∈ es)) ∧
    (∀ y op x, (⟨op, y⟩ : Trans) ∈ (es.foldl TS.add ts).incoming x ↔ ⟨op, y⟩ ∈ ts.incoming x ∨ (y ≠ x ∧ ⟨y, op, x⟩ ∈ es)) ∧
    (∀ y op, op ∈ (es.foldl TS.add ts).loops y ↔ op ∈ ts.loops y ∨ ⟨y, op, y⟩ ∈ es) := by
  induction es with
  | nil => intro ts; simp
  | cons e es ih =>
    intro ts
    obtain ⟨i1, i2, i3⟩ := ih (ts.add e)
    obtain ⟨src, o, tgt⟩ := e
    by_cases h : src = tgt
    · subst h
      have ha : ts.add ⟨src, o, src⟩ = { ts with loops := snoc ts.loops src o } := by simp [TS.add]
      rw [ha] at i1 i2 i3
      refine ⟨fun y op x => ?_, fun y op x => ?_, fun y op => ?_⟩
      · rw [List.foldl_cons, ha, i1]
        simp only [List.mem_cons, Edge.mk.injEq]
        constructor
        · rintro (h | ⟨h1, h2⟩)
          · exact Or.inl h
          · exact Or.inr ⟨h1, Or.inr h2⟩
        · rintro (h | ⟨h1, ⟨rfl, _, rfl⟩ | h2⟩)
          · exact Or.inl h
          · exact absurd rfl h1
          · exact Or.inr ⟨h1, h2⟩
      · rw [List.foldl_cons, ha, i2]
        simp only [List.mem_cons, Edge.mk.injEq]
        constructor
        · rintro (h | ⟨h1, h2⟩)
          · exact Or.inl h
          · exact Or.inr ⟨h1, Or.inr h2⟩
        · rintro (h | ⟨h1, ⟨rfl, _, rfl⟩ | h2⟩)
          · exact Or.inl h
          · exact absurd rfl h1
          · exact Or.inr ⟨h1, h2⟩
      · rw [List.foldl_cons, ha, i3, mem_snoc]
        simp only [List.mem_cons, Edge.mk.injEq]
        constructor
        · rintro ((h | ⟨h, h'⟩) | h)
          · exact Or.inl h
          · exact Or.inr (Or.inl ⟨h, h', h⟩)
          · exact Or.inr (Or.inr h)
        · rintro (h | ⟨h, h', _⟩ | h)
          · exact Or.inl (Or.inl h)
          · exact Or.inl (Or.inr ⟨h, h'⟩)
          · exact Or.inr h
    · have ha : ts.add ⟨src, o, tgt⟩ = { ts with outgoing := snoc ts.outgoing src ⟨o, tgt⟩, incoming := snoc ts.incoming tgt ⟨o, src⟩ } := by simp [TS.add, h]
      rw [ha] at i1 i2 i3
      refine ⟨fun y op x => ?_, fun y op x => ?_, fun y op => ?_⟩
      · rw [List.foldl_cons, ha, i1, mem_snoc]
        simp only [List.mem_cons, Edge.mk.injEq, Trans.mk.injEq]
        constructor
        · rintro ((h1 | ⟨rfl, rfl, rfl⟩) | ⟨h1, h2⟩)
          · exact Or.inl h1
          · exact Or.inr ⟨h, Or.inl ⟨rfl, rfl, rfl⟩⟩
          · exact Or.inr ⟨h1, Or.inr h2⟩
        · rintro (h1 | ⟨h1, ⟨rfl, rfl, rfl⟩ | h2⟩)
          · exact Or.inl (Or.inl h1)
          · exact Or.inl (Or.inr ⟨rfl, rfl, rfl⟩)
          · exact Or.inr ⟨h1, h2⟩
      · rw [List.foldl_cons, ha, i2, mem_snoc]
        simp only [List.mem_cons, Edge.mk.injEq, Trans.mk.injEq]
        constructor
        · rintro ((h1 | ⟨rfl, rfl, rfl⟩) | ⟨h1, h2⟩)
          · exact Or.inl h1
          · exact Or.inr ⟨h, Or.inl ⟨rfl, rfl, rfl⟩⟩
          · exact Or.inr ⟨h1, Or.inr h2⟩
        · rintro (h1 | ⟨h1, ⟨rfl, rfl, rfl⟩ | h2⟩)
          · exact Or.inl (Or.inl h1)
          · exact Or.inl (Or.inr ⟨rfl, rfl, rfl⟩)
          · exact Or.inr ⟨h1, h2⟩
      · rw [List.foldl_cons, ha, i3]
        simp only [List.mem_cons, Edge.mk.injEq]
        constructor
        · rintro (h1 | h1)
          · exact Or.inl h1
          · exact Or.inr (Or.inr h1)
        · rintro (h1 | ⟨rfl, _, rfl⟩ | h1)
          · exact Or.inl h1
          · exact absurd rfl h
          · exact Or.inr h1

theorem mem_mapM_flatten {α β : Type} {f : α → Option (List β)} {l : List α} {r : List (List β)} (h : l.mapM f = some r) (b : β) : b ∈ r.flatten ↔ ∃ a ∈ l, ∃ bs, f a = some bs ∧ b ∈ bs := by
  obtain ⟨h1, h2⟩ := mapM_getElem? h
  constructor
  · intro hb
    obtain ⟨bs, hbs, hb⟩ := List.mem_flatten.mp hb
    obtain ⟨i, hi, he⟩ := List.getElem_of_mem hbs
    obtain ⟨c, hc, hr⟩ := h2 i l[i] (List.getElem?_eq_getElem (by omega))
    rw [List.getElem?_eq_getElem hi, he] at hr
    simp only [Option.some.injEq] at hr
    exact ⟨_, List.getElem_mem (by omega : i < l.length), c, hc, hr ▸ hb⟩
  · rintro ⟨a, ha, bs, hbs, hb⟩
    obtain ⟨i, hi, he⟩ := List.getElem_of_mem ha
    obtain ⟨c, hc, hr⟩ := h2 i a (by rw [List.getElem?_eq_getElem hi, he])
    rw [hbs] at hc
    simp only [Option.some.injEq] at hc
    subst hc
    exact List.mem_flatten.mpr ⟨bs, List.mem_of_getElem? hr, hb⟩

/-! ### The transitions after a split -/

/-- numbers are in range, and incoming and outgoing transitions agree -/
structure TSOk (ts : TS) (n nops : Nat) : Prop where
  sym : ∀ i op j, (⟨op, j⟩ : Trans) ∈ ts.outgoing i ↔ ⟨op, i⟩ ∈ ts.incoming j
  range : ∀ i op j, (⟨op, j⟩ : Trans) ∈ ts.outgoing i → i < n ∧ j < n ∧ i ≠ j ∧ op < nops
  lrange : ∀ i op, op ∈ ts.loops i → i < n ∧ op < nops

/-- the transitions that replace those of the split state -/
inductive NewEdge (t : Task) (ts : TS) (states : List AState) (v : Nat) (s1 s2 : CSet) (v1 v2 var : Nat) (e : Edge) : Prop where
  | inc (i op u) : (⟨op, i⟩ : Trans) ∈ ts.incoming v → states[i]? = some u → e ∈ incomingEdges t u.set i op s1 s2 v1 v2 var → NewEdge t ts states v s1 s2 v1 v2 var e
  | out (j op w) : (⟨op, j⟩ : Trans) ∈ ts.outgoing v → states[j]? = some w → e ∈ outgoingEdges t w.set j op s1 s2 v1 v2 var → NewEdge t ts states v s1 s2 v1 v2 var e
  | loop (op es) : op ∈ ts.loops v → loopEdges t op s1 s2 v1 v2 var = some es → e ∈ es → NewEdge t ts states v s1 s2 v1 v2 var e

theorem incomingEdges_shape {t : Task} {u : CSet} {uid op : Nat} {s1 s2 : CSet} {v1 v2 var : Nat} {e : Edge} (h : e ∈ incomingEdges t u uid op s1 s2 v1 v2 var) : e.src = uid ∧ e.op = op ∧ (e.target = v1 ∨ e.target = v2) := by
  unfold incomingEdges at h
  repeat' split at h
  all_goals simp only [List.mem_cons, List.not_mem_nil, or_false] at h
  all_goals first
    | (rcases h with rfl | rfl <;> simp)
    | (subst h; simp)

theorem outgoingEdges_shape {t : Task} {w : CSet} {wid op : Nat} {s1 s2 : CSet} {v1 v2 var : Nat} {e : Edge} (h : e ∈ outgoingEdges t w wid op s1 s2 v1 v2 var) : e.target = wid ∧ e.op = op ∧ (e.src = v1 ∨ e.src = v2) := by
  unfold outgoingEdges at h
  repeat' split at h
  all_goals simp only [List.mem_cons, List.not_mem_nil, or_false] at h
  all_goals first
    | (rcases h with rfl | rfl <;> simp)
    | (subst h; simp)

theorem loopEdges_shape {t : Task} {op : Nat} {s1 s2 : CSet} {v1 v2 var : Nat} {es : List Edge} (hs : loopEdges t op s1 s2 v1 v2 var = some es) {e : Edge} (h : e ∈ es) : e.op = op ∧ (e.src = v1 ∨ e.src = v2) ∧ (e.target = v1 ∨ e.target = v2) := by
  unfold loopEdges at hs
  repeat' split at hs
  all_goals simp only [Option.some.injEq, reduceCtorEq] at hs
  all_goals subst hs
  all_goals simp only [List.mem_cons, List.not_mem_nil, or_false] at h
  all_goals first
    | (rcases h with rfl | rfl <;> simp)
    | (subst h; simp)

theorem mem_removeTarget {f : Nat → List Trans} {l : List Trans} {v u op x : Nat} (h : ∀ u op, (⟨op, v⟩ : Trans) ∈ f u → u ∈ l.map (·.target)) : (⟨op, x⟩ : Trans) ∈ removeTarget f l v u ↔ x ≠ v ∧ ⟨op, x⟩ ∈ f u := by
  unfold removeTarget
  by_cases h1 : u ∈ l.map (·.target)
  · rw [if_pos h1]
    simp [and_comm]
  · rw [if_neg h1]
    constructor
    · intro h2
      refine ⟨fun e => ?_, h2⟩
      subst e
      exact h1 (h u op h2)
    · exact fun h2 => h2.2

theorem rewire_spec {t : Task} (ht : CartesianTask t) {ts : TS} {states : List AState} {v : Nat} {s1 s2 : CSet} {var : Nat} (hok : TSOk ts states.length t.ops.length) (hv : v < states.length) :
    ∃ ts', ts.rewire t states v s1 s2 v states.length var = some ts' ∧
      (∀ y op x, (⟨op, x⟩ : Trans) ∈ ts'.outgoing y ↔ (y ≠ v ∧ x ≠ v ∧ ⟨op, x⟩ ∈ ts.outgoing y) ∨ (y ≠ x ∧ NewEdge t ts states v s1 s2 v states.length var ⟨y, op, x⟩)) ∧
      (∀ y op, op ∈ ts'.loops y ↔ (y ≠ v ∧ op ∈ ts.loops y) ∨ NewEdge t ts states v s1 s2 v states.length var ⟨y, op, y⟩) ∧
      TSOk ts' (states.length + 1) t.ops.length := by
  have hin : ∀ tr ∈ ts.incoming v, tr.target < states.length ∧ tr.target ≠ v ∧ tr.op < t.ops.length := by
    rintro ⟨op, i⟩ htr
    have := hok.range i op v ((hok.sym i op v).mpr htr)
    exact ⟨this.1, this.2.2.1, this.2.2.2⟩
  have hout : ∀ tr ∈ ts.outgoing v, tr.target < states.length ∧ tr.target ≠ v ∧ tr.op < t.ops.length := by
    rintro ⟨op, j⟩ htr
    have := hok.range v op j htr
    exact ⟨this.2.1, fun e => this.2.2.1 e.symm, this.2.2.2⟩
  obtain ⟨ein, hein⟩ := mapM_defined (l := ts.incoming v) (f := fun tr => (states[tr.target]?).map (fun u => incomingEdges t u.set tr.target tr.op s1 s2 v states.length var))
    (fun tr htr => ⟨_, by rw [List.getElem?_eq_getElem (hin tr htr).1]; rfl⟩)
  obtain ⟨eout, heout⟩ := mapM_defined (l := ts.outgoing v) (f := fun tr => (states[tr.target]?).map (fun u => outgoingEdges t u.set tr.target tr.op s1 s2 v states.length var))
    (fun tr htr => ⟨_, by rw [List.getElem?_eq_getElem (hout tr htr).1]; rfl⟩)
  obtain ⟨eloop, heloop⟩ := mapM_defined (l := ts.loops v) (f := fun op => loopEdges t op s1 s2 v states.length var) (by
    intro op hop
    unfold loopEdges
    cases hp : preValue t op var with
    | none => cases hq : postValue t op var with
      | none => exact ⟨_, rfl⟩
      | some q => by_cases h : s2 var q = true <;> simp [h]
    | some p =>
      obtain ⟨q, hq⟩ := post_of_pre ht hp
      rw [hq]
      by_cases h1 : s1 var p = true <;> by_cases h2 : s1 var q = true <;> simp [h1, h2])
  have mein : ∀ e, e ∈ ein.flatten ↔ ∃ i op u, (⟨op, i⟩ : Trans) ∈ ts.incoming v ∧ states[i]? = some u ∧ e ∈ incomingEdges t u.set i op s1 s2 v states.length var := by
    intro e
    rw [mem_mapM_flatten hein]
    constructor
    · rintro ⟨⟨op, i⟩, h1, bs, h2, h3⟩
      simp only [Option.map_eq_some_iff] at h2
      obtain ⟨u, hu, rfl⟩ := h2
      exact ⟨i, op, u, h1, hu, h3⟩
    · rintro ⟨i, op, u, h1, h2, h3⟩
      exact ⟨⟨op, i⟩, h1, _, by simp only [h2, Option.map_some], h3⟩
  have meout : ∀ e, e ∈ eout.flatten ↔ ∃ i op u, (⟨op, i⟩ : Trans) ∈ ts.outgoing v ∧ states[i]? = some u ∧ e ∈ outgoingEdges t u.set i op s1 s2 v states.length var := by
    intro e
    rw [mem_mapM_flatten heout]
    constructor
    · rintro ⟨⟨op, i⟩, h1, bs, h2, h3⟩
      simp only [Option.map_eq_some_iff] at h2
      obtain ⟨u, hu, rfl⟩ := h2
      exact ⟨i, op, u, h1, hu, h3⟩
    · rintro ⟨i, op, u, h1, h2, h3⟩
      exact ⟨⟨op, i⟩, h1, _, by simp only [h2, Option.map_some], h3⟩
  have hnew : ∀ e, NewEdge t ts states v s1 s2 v states.length var e ↔ (e ∈ ein.flatten ∨ e ∈ eout.flatten) ∨ e ∈ eloop.flatten := by
    intro e
    rw [mein, meout, mem_mapM_flatten heloop]
    constructor
    · intro h
      cases h with
      | inc i op u h1 h2 h3 => exact Or.inl (Or.inl ⟨i, op, u, h1, h2, h3⟩)
      | out i op u h1 h2 h3 => exact Or.inl (Or.inr ⟨i, op, u, h1, h2, h3⟩)
      | loop op es h1 h2 h3 => exact Or.inr ⟨op, h1, es, h2, h3⟩
    · rintro ((⟨i, op, u, h1, h2, h3⟩ | ⟨i, op, u, h1, h2, h3⟩) | ⟨op, h1, es, h2, h3⟩)
      · exact .inc i op u h1 h2 h3
      · exact .out i op u h1 h2 h3
      · exact .loop op es h1 h2 h3
  have hlast : ∀ e, NewEdge t ts states v s1 s2 v states.length var e → e.src < states.length + 1 ∧ e.target < states.length + 1 ∧ e.op < t.ops.length := by
    intro e h
    cases h with
    | inc i op u h1 h2 h3 =>
      obtain ⟨k1, k2, k3⟩ := incomingEdges_shape h3
      have := hin _ h1
      simp only at this
      omega
    | out i op u h1 h2 h3 =>
      obtain ⟨k1, k2, k3⟩ := outgoingEdges_shape h3
      have := hout _ h1
      simp only at this
      omega
    | loop op es h1 h2 h3 =>
      obtain ⟨k1, k2, k3⟩ := loopEdges_shape h2 h3
      have := hok.lrange _ _ h1
      omega
  have hinsh : ∀ e ∈ ein.flatten, e.src ≠ v ∧ e.src ≠ states.length ∧ (e.target = v ∨ e.target = states.length) := by
    intro e he
    obtain ⟨i, op, u, h1, h2, h3⟩ := (mein e).mp he
    obtain ⟨k1, k2, k3⟩ := incomingEdges_shape h3
    have := hin _ h1
    simp only at this
    exact ⟨by omega, by omega, k3⟩
  have hrw : ts.rewire t states v s1 s2 v states.length var = some (eloop.flatten.foldl TS.add (eout.flatten.foldl TS.add
      { ein.flatten.foldl TS.add ⟨fun u => if u = v then [] else ts.incoming u, removeTarget (fun u => if u = v then [] else ts.outgoing u) (ts.incoming v) v, fun u => if u = v then [] else ts.loops u⟩ with
        incoming := removeTarget (ein.flatten.foldl TS.add ⟨fun u => if u = v then [] else ts.incoming u, removeTarget (fun u => if u = v then [] else ts.outgoing u) (ts.incoming v) v, fun u => if u = v then [] else ts.loops u⟩).incoming (ts.outgoing v) v })) := by
    unfold TS.rewire
    rw [hein, heout, heloop]
  generalize hc1 : (⟨fun u => if u = v then [] else ts.incoming u, removeTarget (fun u => if u = v then [] else ts.outgoing u) (ts.incoming v) v, fun u => if u = v then [] else ts.loops u⟩ : TS) = c1 at hrw
  obtain ⟨a1, a2, a3⟩ := mem_add ein.flatten c1
  generalize hc2 : ({ ein.flatten.foldl TS.add c1 with incoming := removeTarget (ein.flatten.foldl TS.add c1).incoming (ts.outgoing v) v } : TS) = c2 at hrw
  obtain ⟨b1, b2, b3⟩ := mem_add eout.flatten c2
  obtain ⟨d1, d2, d3⟩ := mem_add eloop.flatten (eout.flatten.foldl TS.add c2)
  have hvv : ∀ op, (⟨op, v⟩ : Trans) ∉ ts.outgoing v := fun op h => (hok.range v op v h).2.2.1 rfl
  have c1o : ∀ y op x, (⟨op, x⟩ : Trans) ∈ c1.outgoing y ↔ y ≠ v ∧ x ≠ v ∧ ⟨op, x⟩ ∈ ts.outgoing y := by
    intro y op x
    rw [← hc1]
    simp only
    rw [mem_removeTarget]
    · by_cases h : y = v <;> simp [h]
    · intro u op hu
      by_cases h : u = v
      · simp [h] at hu
      · rw [if_neg h] at hu
        exact List.mem_map.mpr ⟨⟨op, u⟩, (hok.sym u op v).mp hu, rfl⟩
  have c1i : ∀ y op x, (⟨op, y⟩ : Trans) ∈ c1.incoming x ↔ x ≠ v ∧ ⟨op, y⟩ ∈ ts.incoming x := by
    intro y op x
    rw [← hc1]
    by_cases h : x = v <;> simp [h]
  have c1l : ∀ y op, op ∈ c1.loops y ↔ y ≠ v ∧ op ∈ ts.loops y := by
    intro y op
    rw [← hc1]
    by_cases h : y = v <;> simp [h]
  have c2o : c2.outgoing = (ein.flatten.foldl TS.add c1).outgoing := by rw [← hc2]
  have c2l : c2.loops = (ein.flatten.foldl TS.add c1).loops := by rw [← hc2]
  have c2i : ∀ y op x, (⟨op, y⟩ : Trans) ∈ c2.incoming x ↔ (y ≠ v ∧ x ≠ v ∧ ⟨op, y⟩ ∈ ts.incoming x) ∨ (y ≠ x ∧ ⟨y, op, x⟩ ∈ ein.flatten) := by
    intro y op x
    rw [← hc2]
    simp only
    rw [mem_removeTarget, a2, c1i]
    · constructor
      · rintro ⟨h1, ⟨h2, h3⟩ | h2⟩
        · exact Or.inl ⟨h1, h2, h3⟩
        · exact Or.inr h2
      · rintro (⟨h1, h2, h3⟩ | ⟨h1, h2⟩)
        · exact ⟨h1, Or.inl ⟨h2, h3⟩⟩
        · exact ⟨(hinsh _ h2).1, Or.inr ⟨h1, h2⟩⟩
    · intro u op hu
      rcases (a2 v op u).mp hu with h | ⟨_, h⟩
      · exact List.mem_map.mpr ⟨⟨op, u⟩, (hok.sym v op u).mpr ((c1i _ _ _).mp h).2, rfl⟩
      · exact absurd rfl (hinsh _ h).1
  have ho' : ∀ y op x, (⟨op, x⟩ : Trans) ∈ (eloop.flatten.foldl TS.add (eout.flatten.foldl TS.add c2)).outgoing y ↔ (y ≠ v ∧ x ≠ v ∧ ⟨op, x⟩ ∈ ts.outgoing y) ∨ (y ≠ x ∧ NewEdge t ts states v s1 s2 v states.length var ⟨y, op, x⟩) := by
    intro y op x
    rw [d1, b1, c2o, a1, c1o, hnew]
    constructor
    · rintro (((h | ⟨h1, h2⟩) | ⟨h1, h2⟩) | ⟨h1, h2⟩)
      · exact Or.inl h
      · exact Or.inr ⟨h1, Or.inl (Or.inl h2)⟩
      · exact Or.inr ⟨h1, Or.inl (Or.inr h2)⟩
      · exact Or.inr ⟨h1, Or.inr h2⟩
    · rintro (h | ⟨h1, (h2 | h2) | h2⟩)
      · exact Or.inl (Or.inl (Or.inl h))
      · exact Or.inl (Or.inl (Or.inr ⟨h1, h2⟩))
      · exact Or.inl (Or.inr ⟨h1, h2⟩)
      · exact Or.inr ⟨h1, h2⟩
  have hi' : ∀ y op x, (⟨op, y⟩ : Trans) ∈ (eloop.flatten.foldl TS.add (eout.flatten.foldl TS.add c2)).incoming x ↔ (y ≠ v ∧ x ≠ v ∧ ⟨op, y⟩ ∈ ts.incoming x) ∨ (y ≠ x ∧ NewEdge t ts states v s1 s2 v states.length var ⟨y, op, x⟩) := by
    intro y op x
    rw [d2, b2, c2i, hnew]
    constructor
    · rintro (((h | ⟨h1, h2⟩) | ⟨h1, h2⟩) | ⟨h1, h2⟩)
      · exact Or.inl h
      · exact Or.inr ⟨h1, Or.inl (Or.inl h2)⟩
      · exact Or.inr ⟨h1, Or.inl (Or.inr h2)⟩
      · exact Or.inr ⟨h1, Or.inr h2⟩
    · rintro (h | ⟨h1, (h2 | h2) | h2⟩)
      · exact Or.inl (Or.inl (Or.inl h))
      · exact Or.inl (Or.inl (Or.inr ⟨h1, h2⟩))
      · exact Or.inl (Or.inr ⟨h1, h2⟩)
      · exact Or.inr ⟨h1, h2⟩
  have hl' : ∀ y op, op ∈ (eloop.flatten.foldl TS.add (eout.flatten.foldl TS.add c2)).loops y ↔ (y ≠ v ∧ op ∈ ts.loops y) ∨ NewEdge t ts states v s1 s2 v states.length var ⟨y, op, y⟩ := by
    intro y op
    rw [d3, b3, c2l, a3, c1l, hnew]
    constructor
    · rintro (((h | h2) | h2) | h2)
      · exact Or.inl h
      · exact Or.inr (Or.inl (Or.inl h2))
      · exact Or.inr (Or.inl (Or.inr h2))
      · exact Or.inr (Or.inr h2)
    · rintro (h | (h2 | h2) | h2)
      · exact Or.inl (Or.inl (Or.inl h))
      · exact Or.inl (Or.inl (Or.inr h2))
      · exact Or.inl (Or.inr h2)
      · exact Or.inr h2
  refine ⟨_, hrw, ho', hl', ⟨fun i op j => ?_, fun i op j h => ?_, fun i op h => ?_⟩⟩
  · rw [ho', hi', hok.sym]
  · rcases (ho' i op j).mp h with ⟨_, _, h1⟩ | ⟨h1, h2⟩
    · have := hok.range i op j h1
      omega
    · have := hlast _ h2
      simp only at this
      exact ⟨this.1, this.2.1, h1, this.2.2⟩
  · rcases (hl' i op).mp h with ⟨_, h1⟩ | h2
    · have := hok.lrange i op h1
      omega
    · have := hlast _ h2
      simp only at this
      exact ⟨this.1, this.2.2⟩

end Verif.Cart
