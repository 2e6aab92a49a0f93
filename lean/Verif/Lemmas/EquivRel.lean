import Verif.Model.EquivRel
import Mathlib.Data.List.Basic
import Mathlib.Data.List.Perm.Basic
import Mathlib.Data.List.Perm.Lattice

namespace Verif.EquivRel

variable {E : List Int}

theorem upd_same {α β : Type} [DecidableEq α] (f : α → β) (a : α) (b : β) : upd f a b a = b := by simp [upd]
theorem upd_ne {α β : Type} [DecidableEq α] (f : α → β) {a x : α} (b : β) (h : x ≠ a) : upd f a b x = f x := by simp [upd, h]

/-- Invariant between operations: `p e` is the block of element `e`. -/
structure Inv (E : List Int) (r : ER) (p : Int → Nat) : Prop where
  nodup : r.order.Nodup
  lt : ∀ b ∈ r.order, b < r.next
  blk : ∀ b ∈ r.order, ∃ k, r.heap b = some k ∧ k.inter = none ∧ k.elems.Nodup ∧ ∀ e, e ∈ k.elems ↔ e ∈ E ∧ p e = b
  pos : ∀ e ∈ E, r.pos e = some (p e) ∧ p e ∈ r.order

/-- Invariant inside the loop of `refine`: `P` is the set of processed elements, `f b` the
intersection block of the old block `b`. -/
structure Loop (E : List Int) (r0 : ER) (p : Int → Nat) (P : List Int) (r : ER) (m : List Nat) (f : Nat → Option Nat) : Prop where
  sub : ∀ b ∈ r0.order, b ∈ r.order
  new : ∀ b ∈ r.order, b ∈ r0.order ∨ ∃ c ∈ r0.order, f c = some b
  nodup : r.order.Nodup
  lt : ∀ b ∈ r.order, b < r.next
  le : r0.next ≤ r.next
  old : ∀ b ∈ r0.order, ∃ k, r.heap b = some k ∧ k.inter = f b ∧ k.elems.Nodup ∧ ∀ e, e ∈ k.elems ↔ e ∈ E ∧ p e = b ∧ e ∉ P
  inter : ∀ b j, f b = some j → b ∈ r0.order ∧ r0.next ≤ j ∧ j ∈ r.order ∧
    ∃ k, r.heap j = some k ∧ k.inter = none ∧ k.elems.Nodup ∧ k.elems ≠ [] ∧ ∀ e, e ∈ k.elems ↔ e ∈ E ∧ p e = b ∧ e ∈ P
  inj : ∀ b c j, f b = some j → f c = some j → b = c
  mnodup : m.Nodup
  mmem : ∀ b, b ∈ m ↔ f b ≠ none
  pos : ∀ e ∈ E, r.pos e = if e ∈ P then f (p e) else some (p e)
  proc : ∀ e ∈ E, e ∈ P → f (p e) ≠ none

theorem Inv.start {r : ER} {p : Int → Nat} (h : Inv E r p) : Loop E r p [] r [] (fun _ => none) := by
  refine ⟨fun b hb => hb, fun b hb => Or.inl hb, h.nodup, h.lt, Nat.le_refl _, ?_, by simp, by simp, by simp, by simp, ?_, by simp⟩
  · intro b hb
    obtain ⟨k, h1, h2, h3, h4⟩ := h.blk b hb
    exact ⟨k, h1, h2, h3, by simpa using h4⟩
  · intro e he; simpa using (h.pos e he).1

/-- moving `x` from its block `b` to the existing intersection block `j` -/
theorem Loop.move {r0 : ER} {p : Int → Nat} {P : List Int} {r : ER} {m : List Nat} {f : Nat → Option Nat}
    {x : Int} (hx : x ∈ E) (hxP : x ∉ P) (hb0 : p x ∈ r0.order) {j : Nat} (hlt0 : ∀ b ∈ r0.order, b < r0.next)
    -- the loop invariant except that the block `j` may still be empty
    (sub : ∀ b ∈ r0.order, b ∈ r.order) (new : ∀ b ∈ r.order, b ∈ r0.order ∨ ∃ c ∈ r0.order, f c = some b)
    (nodup : r.order.Nodup) (lt : ∀ b ∈ r.order, b < r.next) (le : r0.next ≤ r.next)
    (old : ∀ b ∈ r0.order, ∃ k, r.heap b = some k ∧ k.inter = f b ∧ k.elems.Nodup ∧ ∀ e, e ∈ k.elems ↔ e ∈ E ∧ p e = b ∧ e ∉ P)
    (inter : ∀ b j', f b = some j' → b ∈ r0.order ∧ r0.next ≤ j' ∧ j' ∈ r.order ∧
      ∃ k, r.heap j' = some k ∧ k.inter = none ∧ k.elems.Nodup ∧ (j' ≠ j → k.elems ≠ []) ∧ ∀ e, e ∈ k.elems ↔ e ∈ E ∧ p e = b ∧ e ∈ P)
    (inj : ∀ b c j, f b = some j → f c = some j → b = c) (mnodup : m.Nodup) (mmem : ∀ b, b ∈ m ↔ f b ≠ none)
    (pos : ∀ e ∈ E, r.pos e = if e ∈ P then f (p e) else some (p e)) (proc : ∀ e ∈ E, e ∈ P → f (p e) ≠ none)
    (hj : f (p x) = some j) :
    ∃ k1 k2, r.heap (p x) = some k1 ∧ upd r.heap (p x) (some { k1 with elems := k1.elems.erase x }) j = some k2 ∧
      Loop E r0 p (x :: P) { r with heap := upd (upd r.heap (p x) (some { k1 with elems := k1.elems.erase x })) j (some { k2 with elems := k2.elems ++ [x] }), pos := upd r.pos x (some j) } m f := by
  obtain ⟨k1, h1, h2, h3, h4⟩ := old (p x) hb0
  obtain ⟨_, g1, g2, k2, g3, g4, g5, g6, g7⟩ := inter (p x) j hj
  have hne : j ≠ p x := by have := hlt0 (p x) hb0; omega
  refine ⟨k1, k2, h1, by rw [upd_ne _ _ hne]; exact g3, ?_⟩
  refine ⟨sub, new, nodup, lt, le, ?_, ?_, inj, mnodup, mmem, ?_, ?_⟩
  · intro b hb
    have hbj : b ≠ j := by have := hlt0 b hb; omega
    by_cases hbx : b = p x
    · subst hbx
      refine ⟨{ k1 with elems := k1.elems.erase x }, by simp only; rw [upd_ne _ _ hbj, upd_same], h2, h3.erase x, ?_⟩
      intro e
      simp only
      rw [List.Nodup.mem_erase_iff h3, h4, List.mem_cons, not_or]
      tauto
    · obtain ⟨k, e1, e2, e3, e4⟩ := old b hb
      refine ⟨k, by simp only; rw [upd_ne _ _ hbj, upd_ne _ _ hbx]; exact e1, e2, e3, ?_⟩
      intro e
      rw [e4, List.mem_cons, not_or]
      constructor
      · rintro ⟨q1, q2, q3⟩
        exact ⟨q1, q2, by rintro rfl; exact hbx q2.symm, q3⟩
      · rintro ⟨q1, q2, _, q3⟩; exact ⟨q1, q2, q3⟩
  · intro b j' hbj
    obtain ⟨a1, a2, a3, k, e1, e2, e3, e4, e5⟩ := inter b j' hbj
    refine ⟨a1, a2, a3, ?_⟩
    by_cases hjj : j' = j
    · subst hjj
      have hbp := inj b (p x) j' hbj hj
      subst hbp
      rw [g3] at e1
      simp only [Option.some.injEq] at e1
      subst e1
      refine ⟨{ k2 with elems := k2.elems ++ [x] }, by simp only; rw [upd_same], e2, ?_, by simp, ?_⟩
      · rw [List.nodup_append]
        refine ⟨e3, by simp, ?_⟩
        intro a ha b hb
        simp at hb
        subst hb
        rintro rfl
        exact hxP ((e5 a).1 ha).2.2
      · intro e
        rw [List.mem_append, List.mem_singleton, List.mem_cons, e5]
        constructor
        · rintro (⟨q1, q2, q3⟩ | rfl)
          · exact ⟨q1, q2, Or.inr q3⟩
          · exact ⟨hx, rfl, Or.inl rfl⟩
        · rintro ⟨q1, q2, rfl | q3⟩
          · exact Or.inr rfl
          · exact Or.inl ⟨q1, q2, q3⟩
    · have hjp : j' ≠ p x := by have := hlt0 (p x) hb0; omega
      refine ⟨k, by simp only; rw [upd_ne _ _ hjj, upd_ne _ _ hjp]; exact e1, e2, e3, e4 hjj, ?_⟩
      intro e
      rw [e5, List.mem_cons]
      constructor
      · rintro ⟨q1, q2, q3⟩; exact ⟨q1, q2, Or.inr q3⟩
      · rintro ⟨q1, q2, rfl | q3⟩
        · rw [q2] at hj; rw [hj] at hbj; simp at hbj; exact absurd hbj.symm hjj
        · exact ⟨q1, q2, q3⟩
  · intro e he
    simp only
    by_cases hex : e = x
    · subst hex; rw [upd_same]; simp [hj]
    · rw [upd_ne _ _ hex, pos e he]; simp [hex]
  · intro e he heP
    rcases List.mem_cons.mp heP with rfl | h
    · rw [hj]; simp
    · exact proc e he h

theorem refineOne_spec {r0 : ER} {p : Int → Nat} {P : List Int} {r : ER} {m : List Nat} {f : Nat → Option Nat}
    (hi : Inv E r0 p) (h : Loop E r0 p P r m f) {x : Int} (hx : x ∈ E) (hxP : x ∉ P) :
    ∃ r' m' f', refineOne r m x = some (r', m') ∧ Loop E r0 p (x :: P) r' m' f' := by
  have hb0 := (hi.pos x hx).2
  obtain ⟨kb, e1, e2, e3, e4⟩ := h.old (p x) hb0
  have hpos : r.pos x = some (p x) := by rw [h.pos x hx, if_neg hxP]
  cases hf : f (p x) with
  | some j =>
    obtain ⟨k1, k2, g1, g2, hl⟩ := Loop.move (r := r) (m := m) hx hxP hb0 (j := j) hi.lt h.sub h.new h.nodup h.lt h.le h.old
      (by
        intro b j' hb
        obtain ⟨a1, a2, a3, k, b1, b2, b3, b4, b5⟩ := h.inter b j' hb
        exact ⟨a1, a2, a3, k, b1, b2, b3, fun _ => b4, b5⟩) h.inj h.mnodup h.mmem h.pos h.proc hf
    refine ⟨_, m, f, ?_, hl⟩
    rw [e1] at g1
    simp only [Option.some.injEq] at g1
    subst g1
    unfold refineOne
    rw [hpos]
    have e2' := e2.trans hf
    rw [e2'] at g2
    simp only [Option.bind_eq_bind, Option.bind_some, e1, ensureInter, e2', g2]
  | none =>
    -- a new intersection block
    have hnew : r.next ∉ r.order := fun hmem => by have := h.lt _ hmem; omega
    have hnp : r.next ≠ p x := by have := h.lt _ (h.sub _ hb0); omega
    let r1 : ER := { r with order := r.order ++ [r.next], heap := upd (upd r.heap r.next (some ⟨[], none⟩)) (p x) (some { kb with inter := some r.next }), next := r.next + 1 }
    let f1 := upd f (p x) (some r.next)
    have hfne : ∀ b j, f b = some j → j ≠ r.next := by
      intro b j hb
      have := h.lt _ (h.inter b j hb).2.2.1
      omega
    obtain ⟨k1, k2, g1, g2, hl⟩ := Loop.move (r := r1) (r0 := r0) (p := p) (f := f1) (P := P) (m := m ++ [p x]) hx hxP hb0 (j := r.next) hi.lt
      (fun b hb => by simp [r1, h.sub b hb])
      (by
        intro b hb
        simp only [r1, List.mem_append, List.mem_singleton] at hb
        rcases hb with hb | rfl
        · rcases h.new b hb with h1 | ⟨c, hc, hfc⟩
          · exact Or.inl h1
          · refine Or.inr ⟨c, hc, ?_⟩
            have : c ≠ p x := by rintro rfl; rw [hf] at hfc; simp at hfc
            simp only [f1]; rw [upd_ne _ _ this]; exact hfc
        · exact Or.inr ⟨p x, hb0, upd_same _ _ _⟩)
      (by
        simp only [r1]
        rw [List.nodup_append]
        refine ⟨h.nodup, by simp, ?_⟩
        intro a ha b hb
        simp at hb
        subst hb
        rintro rfl
        exact hnew ha)
      (by
        intro b hb
        simp only [r1, List.mem_append, List.mem_singleton] at hb
        rcases hb with hb | rfl
        · have := h.lt b hb; simp only [r1]; omega
        · simp [r1])
      (by have := h.le; simp only [r1]; omega)
      (by
        intro b hb
        have hbn : b ≠ r.next := by have := h.lt _ (h.sub b hb); omega
        by_cases hbx : b = p x
        · subst hbx
          exact ⟨{ kb with inter := some r.next }, upd_same _ _ _, (upd_same _ _ _).symm, e3, e4⟩
        · obtain ⟨k, q1, q2, q3⟩ := h.old b hb
          exact ⟨k, by simp only [r1]; rw [upd_ne _ _ hbx, upd_ne _ _ hbn]; exact q1, by simp only [f1]; rw [upd_ne _ _ hbx]; exact q2, q3⟩)
      (by
        intro b j' hb
        by_cases hbx : b = p x
        · subst hbx
          simp only [f1, upd_same, Option.some.injEq] at hb
          subst hb
          refine ⟨hb0, h.le, by simp [r1], ⟨[], none⟩, ?_, rfl, by simp, by simp, ?_⟩
          · simp only [r1]; rw [upd_ne _ _ hnp, upd_same]
          · intro e
            simp only [List.not_mem_nil, false_iff]
            rintro ⟨q1, q2, q3⟩
            have := h.proc e q1 q3
            rw [q2] at this
            exact this hf
        · simp only [f1, upd_ne _ _ hbx] at hb
          obtain ⟨a1, a2, a3, k, b1, b2, b3, b4, b5⟩ := h.inter b j' hb
          have hjp : j' ≠ p x := by have := hi.lt _ hb0; omega
          refine ⟨a1, a2, by simp [r1, a3], k, ?_, b2, b3, fun _ => b4, b5⟩
          simp only [r1]; rw [upd_ne _ _ hjp, upd_ne _ _ (hfne b j' hb)]; exact b1)
      (by
        intro b c j hb hc
        simp only [f1] at hb hc
        by_cases hbx : b = p x <;> by_cases hcx : c = p x
        · rw [hbx, hcx]
        · subst hbx
          rw [upd_same] at hb; rw [upd_ne _ _ hcx] at hc
          simp at hb
          exact absurd hb.symm (hfne c j hc)
        · subst hcx
          rw [upd_same] at hc; rw [upd_ne _ _ hbx] at hb
          simp at hc
          exact absurd hc.symm (hfne b j hb)
        · rw [upd_ne _ _ hbx] at hb; rw [upd_ne _ _ hcx] at hc
          exact h.inj b c j hb hc)
      (by
        rw [List.nodup_append]
        refine ⟨h.mnodup, by simp, ?_⟩
        intro a ha b hb
        simp at hb
        subst hb
        rintro rfl
        exact (h.mmem _).1 ha hf)
      (by
        intro b
        simp only [List.mem_append, List.mem_singleton, f1]
        by_cases hbx : b = p x
        · subst hbx; simp [upd_same]
        · rw [upd_ne _ _ hbx, h.mmem]; simp [hbx])
      (by
        intro e he
        simp only [r1, f1]
        rw [h.pos e he]
        split
        · rename_i heP
          have : p e ≠ p x := by intro e'; have := h.proc e he heP; rw [e'] at this; exact this hf
          rw [upd_ne _ _ this]
        · rfl)
      (by
        intro e he heP
        simp only [f1]
        have : p e ≠ p x := by intro e'; have := h.proc e he heP; rw [e'] at this; exact this hf
        rw [upd_ne _ _ this]; exact h.proc e he heP)
      (upd_same _ _ _)
    refine ⟨_, m ++ [p x], f1, ?_, hl⟩
    have hk1 : k1 = { kb with inter := some r.next } := by
      simp only [r1, upd_same, Option.some.injEq] at g1; exact g1.symm
    subst hk1
    unfold refineOne
    rw [hpos]
    simp only [Option.bind_eq_bind, Option.bind_some, e1, ensureInter, e2, hf, addEmptyBlock, upd_same]
    simp only [r1] at g2
    rw [g2]
    rfl

theorem refineLoop_spec {r0 : ER} {p : Int → Nat} (hi : Inv E r0 p) : ∀ (xs P : List Int) (r : ER) (m : List Nat) (f : Nat → Option Nat),
    Loop E r0 p P r m f → xs.Nodup → (∀ x ∈ xs, x ∈ E ∧ x ∉ P) →
    ∃ r' m' f', refineLoop xs r m = some (r', m') ∧ Loop E r0 p (xs.reverse ++ P) r' m' f' := by
  intro xs
  induction xs with
  | nil => intro P r m f h _ _; exact ⟨r, m, f, rfl, by simpa using h⟩
  | cons x xs ih =>
    intro P r m f h hn hx
    obtain ⟨r1, m1, f1, e1, h1⟩ := refineOne_spec hi h (hx x (by simp)).1 (hx x (by simp)).2
    rw [List.nodup_cons] at hn
    obtain ⟨r2, m2, f2, e2, h2⟩ := ih (x :: P) r1 m1 f1 h1 hn.2 (by
      intro y hy
      refine ⟨(hx y (by simp [hy])).1, ?_⟩
      rw [List.mem_cons, not_or]
      exact ⟨by rintro rfl; exact hn.1 hy, (hx y (by simp [hy])).2⟩)
    exact ⟨r2, m2, f2, by simp [refineLoop, e1, e2], by simpa using h2⟩

theorem cleanup_spec : ∀ (m : List Nat) (r : ER), m.Nodup → r.order.Nodup → (∀ b ∈ m, ∃ k, r.heap b = some k) →
    ∃ r', cleanup m r = some r' ∧ r'.pos = r.pos ∧ r'.next = r.next ∧
      r'.order = r.order.filter (fun b => decide (¬ (b ∈ m ∧ (r.heap b).map (·.elems) = some []))) ∧
      ∀ b, r'.heap b = if b ∈ m then (r.heap b).bind (fun k => if k.elems = [] then none else some { k with inter := none }) else r.heap b
  | [], r, _, _, _ => ⟨r, rfl, rfl, rfl, by simp, by simp⟩
  | b :: bs, r, hn, ho, hk => by
    rw [List.nodup_cons] at hn
    obtain ⟨k, hkb⟩ := hk b (by simp)
    have hkne : ∀ (v : Option Blk) (c : Nat), c ∈ bs → upd r.heap b v c = r.heap c := by
      intro v c hc; exact upd_ne _ _ (by rintro rfl; exact hn.1 hc)
    unfold cleanup
    rw [hkb]
    simp only [Option.bind_eq_bind, Option.bind_some]
    split
    · rename_i he
      have he : k.elems = [] := by simpa using he
      obtain ⟨r', e, h1, h2, h3, h4⟩ := cleanup_spec bs { r with order := r.order.erase b, heap := upd r.heap b none } hn.2
        (ho.erase b) (by intro c hc; simp only; rw [hkne _ c hc]; exact hk c (by simp [hc]))
      refine ⟨r', e, h1, h2, ?_, ?_⟩
      · rw [h3]
        simp only
        rw [List.Nodup.erase_eq_filter ho, List.filter_filter]
        apply List.filter_congr
        intro c _
        by_cases hcb : c = b
        · subst hcb; simp [hkb, he]
        · simp only [List.mem_cons, hcb, false_or, upd_ne _ _ hcb]
          simp [hcb]
      · intro c
        rw [h4]
        by_cases hcb : c = b
        · subst hcb; simp [hn.1, upd_same, hkb, he]
        · simp [hcb, upd_ne]
    · rename_i he
      have he : k.elems ≠ [] := by simpa using he
      obtain ⟨r', e, h1, h2, h3, h4⟩ := cleanup_spec bs { r with heap := upd r.heap b (some { k with inter := none }) } hn.2
        ho (by intro c hc; simp only; rw [hkne _ c hc]; exact hk c (by simp [hc]))
      refine ⟨r', e, h1, h2, ?_, ?_⟩
      · rw [h3]
        simp only
        apply List.filter_congr
        intro c _
        by_cases hcb : c = b
        · subst hcb; simp [hkb, he, hn.1]
        · simp only [List.mem_cons, hcb, false_or, upd_ne _ _ hcb]
      · intro c
        rw [h4]
        by_cases hcb : c = b
        · subst hcb; simp [hn.1, upd_same, hkb, he]
        · simp [hcb, upd_ne]

/-- one refinement: every block `B` is split into `B ∩ X` and `B \ X`; blocks stay nonempty -/
theorem refine_spec {r : ER} {p : Int → Nat} (hi : Inv E r p) (hne : ∀ b ∈ r.order, ∃ e ∈ E, p e = b)
    {X : List Int} (hX : X.Nodup) (hsub : ∀ x ∈ X, x ∈ E) :
    ∃ r' p', r.refine X = some r' ∧ Inv E r' p' ∧ (∀ b ∈ r'.order, ∃ e ∈ E, p' e = b) ∧
      ∀ e ∈ E, ∀ e' ∈ E, (p' e = p' e' ↔ (p e = p e' ∧ (e ∈ X ↔ e' ∈ X))) := by
  obtain ⟨r1, m, f, e1, h⟩ := refineLoop_spec hi X [] r [] _ hi.start hX (fun x hx => ⟨hsub x hx, by simp⟩)
  have hP : ∀ e, e ∈ X.reverse ++ [] ↔ e ∈ X := by simp
  have hm0 : ∀ b ∈ m, b ∈ r.order := by
    intro b hb
    obtain ⟨j, hj⟩ := Option.ne_none_iff_exists'.mp ((h.mmem b).1 hb)
    exact (h.inter b j hj).1
  obtain ⟨r2, e2, c1, c2, c3, c4⟩ := cleanup_spec m r1 h.mnodup h.nodup (by
    intro b hb
    obtain ⟨k, hk, _⟩ := h.old b (hm0 b hb)
    exact ⟨k, hk⟩)
  have hord : ∀ b, b ∈ r2.order ↔ b ∈ r1.order ∧ ¬ (b ∈ m ∧ (r1.heap b).map (·.elems) = some []) := by
    intro b; rw [c3, List.mem_filter, decide_eq_true_iff]
  let p' : Int → Nat := fun e => if e ∈ X then (f (p e)).getD 0 else p e
  have hp'X : ∀ e ∈ E, e ∈ X → f (p e) = some (p' e) := by
    intro e he hX
    obtain ⟨j, hj⟩ := Option.ne_none_iff_exists'.mp (h.proc e he ((hP e).2 hX))
    simp [p', hX, hj]
  have hp'n : ∀ e, e ∉ X → p' e = p e := by intro e hX; simp [p', hX]
  -- old blocks
  have hold : ∀ b ∈ r.order, ∃ k, r1.heap b = some k ∧ (k.elems = [] → b ∉ r2.order) ∧
      (k.elems ≠ [] → b ∈ r2.order ∧ r2.heap b = some { k with inter := none }) ∧ k.elems.Nodup ∧
      ∀ e, e ∈ k.elems ↔ e ∈ E ∧ p' e = b := by
    intro b hb
    obtain ⟨k, k1, k2, k3, k4⟩ := h.old b hb
    have hmem : ∀ e, e ∈ k.elems ↔ e ∈ E ∧ p' e = b := by
      intro e
      rw [k4, hP]
      constructor
      · rintro ⟨q1, q2, q3⟩; exact ⟨q1, by rw [hp'n e q3]; exact q2⟩
      · rintro ⟨q1, q2⟩
        by_cases hX : e ∈ X
        · exfalso
          have := (h.inter _ _ (hp'X e q1 hX)).2.1
          have := hi.lt b hb
          omega
        · rw [hp'n e hX] at q2; exact ⟨q1, q2, hX⟩
    refine ⟨k, k1, ?_, ?_, k3, hmem⟩
    · intro hek
      rw [hord]
      rintro ⟨_, hn⟩
      apply hn
      refine ⟨?_, by rw [k1]; simp [hek]⟩
      -- the block was nonempty before, so it was modified
      obtain ⟨e, he, hpe⟩ := hne b hb
      rw [h.mmem, ← hpe]
      apply h.proc e he
      by_contra hnP
      have : e ∈ k.elems := (k4 e).2 ⟨he, hpe, hnP⟩
      rw [hek] at this; simp at this
    · intro hek
      refine ⟨?_, ?_⟩
      · rw [hord]
        refine ⟨h.sub b hb, ?_⟩
        rintro ⟨_, hc⟩
        rw [k1] at hc
        simp at hc
        exact hek hc
      · rw [c4, k1]
        split
        · simp [hek]
        · rename_i hbm
          have : f b = none := by
            by_contra hfb; exact hbm ((h.mmem b).2 hfb)
          rw [this] at k2
          cases k; simp at k2; simp [k2]
  -- new blocks
  have hnewb : ∀ b j, f b = some j → ∃ k, j ∈ r2.order ∧ r2.heap j = some k ∧ k.inter = none ∧ k.elems.Nodup ∧ k.elems ≠ [] ∧
      ∀ e, e ∈ k.elems ↔ e ∈ E ∧ p' e = j := by
    intro b j hbj
    obtain ⟨a1, a2, a3, k, b1, b2, b3, b4, b5⟩ := h.inter b j hbj
    have hjm : j ∉ m := by
      intro hjm
      have := hi.lt j (hm0 j hjm)
      omega
    refine ⟨k, (hord j).2 ⟨a3, fun hc => hjm hc.1⟩, by rw [c4, if_neg hjm]; exact b1, b2, b3, b4, ?_⟩
    intro e
    rw [b5, hP]
    constructor
    · rintro ⟨q1, q2, q3⟩
      refine ⟨q1, ?_⟩
      have := hp'X e q1 q3
      rw [q2, hbj] at this
      simpa using this.symm
    · rintro ⟨q1, q2⟩
      by_cases hX : e ∈ X
      · have := hp'X e q1 hX
        rw [q2] at this
        exact ⟨q1, h.inj _ _ _ this hbj, hX⟩
      · exfalso
        rw [hp'n e hX] at q2
        have := hi.lt _ (hi.pos e q1).2
        omega
  have hp'mem : ∀ e ∈ E, p' e ∈ r2.order := by
    intro e he
    by_cases hX : e ∈ X
    · obtain ⟨k, hk, _⟩ := hnewb _ _ (hp'X e he hX)
      exact hk
    · obtain ⟨k, k1, k2, k3, k4, k5⟩ := hold (p e) (hi.pos e he).2
      rw [hp'n e hX]
      exact (k3 (List.ne_nil_of_mem ((k5 e).2 ⟨he, hp'n e hX⟩))).1
  refine ⟨r2, p', ?_, ⟨?_, ?_, ?_, ?_⟩, ?_, ?_⟩
  · unfold ER.refine; rw [e1]; exact e2
  · rw [c3]; exact h.nodup.filter _
  · intro b hb
    rw [c2]
    exact h.lt b ((hord b).1 hb).1
  · intro b hb
    rcases h.new b ((hord b).1 hb).1 with h0 | ⟨c, _, hc⟩
    · obtain ⟨k, k1, k2, k3, k4, k5⟩ := hold b h0
      have hek : k.elems ≠ [] := fun he => k2 he hb
      exact ⟨_, (k3 hek).2, rfl, k4, k5⟩
    · obtain ⟨k, _, k2, k3, k4, _, k6⟩ := hnewb c b hc
      exact ⟨k, k2, k3, k4, k6⟩
  · intro e he
    refine ⟨?_, hp'mem e he⟩
    rw [c1, h.pos e he]
    by_cases hX : e ∈ X
    · rw [if_pos ((hP e).2 hX)]; exact hp'X e he hX
    · rw [if_neg (fun hc => hX ((hP e).1 hc)), hp'n e hX]
  · intro b hb
    rcases h.new b ((hord b).1 hb).1 with h0 | ⟨c, _, hc⟩
    · obtain ⟨k, k1, k2, k3, k4, k5⟩ := hold b h0
      have hek : k.elems ≠ [] := fun he => k2 he hb
      obtain ⟨e, he⟩ := List.exists_mem_of_ne_nil _ hek
      exact ⟨e, (k5 e).1 he⟩
    · obtain ⟨k, _, k2, k3, k4, k5, k6⟩ := hnewb c b hc
      obtain ⟨e, he⟩ := List.exists_mem_of_ne_nil _ k5
      exact ⟨e, (k6 e).1 he⟩
  · intro e he e' he'
    by_cases hX : e ∈ X <;> by_cases hX' : e' ∈ X
    · simp only [hX, hX', iff_self, and_true]
      have h1 := hp'X e he hX
      have h2 := hp'X e' he' hX'
      constructor
      · intro heq; rw [heq] at h1; exact h.inj _ _ _ h1 h2
      · intro heq; rw [heq, h2] at h1; simpa using h1.symm
    · simp only [hX, hX', iff_false, not_true, and_false]
      intro heq
      have := (h.inter _ _ (hp'X e he hX)).2.1
      rw [heq, hp'n e' hX'] at this
      have := hi.lt _ (hi.pos e' he').2
      omega
    · simp only [hX, hX', false_iff, not_true, and_false, iff_false]
      intro heq
      have := (h.inter _ _ (hp'X e' he' hX')).2.1
      rw [← heq, hp'n e hX] at this
      have := hi.lt _ (hi.pos e he).2
      omega
    · simp [hX, hX', hp'n]

theorem initLoop_spec : ∀ (es : List Int) (r : ER) (done : List Int), r.order = [0] → r.next = 1 →
    r.heap 0 = some ⟨done, none⟩ → (∀ e ∈ done, r.pos e = some 0) →
    ∃ r', initLoop 0 es r = some r' ∧ r'.order = [0] ∧ r'.next = 1 ∧ r'.heap 0 = some ⟨done ++ es, none⟩ ∧
      ∀ e ∈ done ++ es, r'.pos e = some 0
  | [], r, done, h1, h2, h3, h4 => ⟨r, rfl, h1, h2, by simpa using h3, by simpa using h4⟩
  | e :: es, r, done, h1, h2, h3, h4 => by
    obtain ⟨r', a1, a2, a3, a4, a5⟩ := initLoop_spec es { r with heap := upd r.heap 0 (some ⟨done ++ [e], none⟩), pos := upd r.pos e (some 0) }
      (done ++ [e]) h1 h2 (by simp [upd]) (by
        intro x hx
        simp only
        by_cases hxe : x = e
        · subst hxe; rw [upd_same]
        · rw [upd_ne _ _ hxe]; apply h4; simpa [hxe] using hx)
    refine ⟨r', ?_, a2, a3, by simpa using a4, by simpa using a5⟩
    rw [initLoop, h3]; exact a1

theorem new_spec (hE : E.Nodup) (hne : E ≠ []) : ∃ r, ER.new E = some r ∧ Inv E r (fun _ => 0) ∧ (∀ b ∈ r.order, ∃ e ∈ E, (fun _ : Int => 0) e = b) := by
  obtain ⟨r', a1, a2, a3, a4, a5⟩ := initLoop_spec E { order := [0], heap := upd (fun _ => none) 0 (some ⟨[], none⟩), pos := fun _ => none, next := 1 } []
    rfl rfl (by simp [upd]) (by simp)
  refine ⟨r', a1, ⟨by simp [a2], by simp [a2, a3], ?_, ?_⟩, ?_⟩
  · intro b hb
    simp [a2] at hb
    subst hb
    exact ⟨_, a4, rfl, by simpa using hE, by simp⟩
  · intro e he
    exact ⟨a5 e (by simpa using he), by simp [a2]⟩
  · intro b hb
    simp [a2] at hb
    obtain ⟨e, he⟩ := List.exists_mem_of_ne_nil _ hne
    exact ⟨e, he, hb.symm⟩

end Verif.EquivRel
