import Verif.Model.Dijkstra
import Verif.Lemmas.QueueOps
import Verif.Lemmas.LmCutSecond

/-
Dijkstra's algorithm computes distances.
-/
namespace Verif.Dijkstra
open Verif.AdaptiveQueue Verif.Relax Verif.LmCut

/-- from `v`, a source can be reached (against the edges) with cost `k` -/
inductive Cost (Src : Nat → Prop) (E : Nat → List (Int × Nat)) : Nat → Nat → Prop where
  | src (v) : Src v → Cost Src E v 0
  | edge (v k) (p : Nat) (c) : Cost Src E v k → ((p : Int), c) ∈ E v → Cost Src E p (k + c)

/-- the path by which the first element has got its distance -/
inductive Tree (Src : Nat → Prop) (E : Nat → List (Int × Nat)) (dist : Nat → Nat) : List Nat → Nat → Prop where
  | src (v) : Src v → dist v ≤ 0 → Tree Src E dist [v] 0
  | edge (v vs k) (p : Nat) (c) : Tree Src E dist (v :: vs) k → ((p : Int), c) ∈ E v → dist p ≤ k + c → p ∉ v :: vs → Tree Src E dist (p :: v :: vs) (k + c)

variable {Src : Nat → Prop} {E : Nat → List (Int × Nat)}

theorem Tree.mono {dist dist' : Nat → Nat} (h : ∀ v, dist' v ≤ dist v) {l : List Nat} {k : Nat} (ht : Tree Src E dist l k) : Tree Src E dist' l k := by
  induction ht with
  | src v h1 h2 => exact .src v h1 (Nat.le_trans (h v) h2)
  | edge v vs k p c _ h1 h2 h3 ih => exact .edge v vs k p c ih h1 (Nat.le_trans (h p) h2) h3

theorem Tree.le {dist : Nat → Nat} {l : List Nat} {k : Nat} (ht : Tree Src E dist l k) : ∀ u ∈ l, dist u ≤ k := by
  induction ht with
  | src v h1 h2 => intro u hu; simp only [List.mem_singleton] at hu; subst hu; exact h2
  | edge v vs k p c _ h1 h2 h3 ih =>
    intro u hu
    rcases List.mem_cons.mp hu with e | e
    · subst e; exact h2
    · have := ih u e; omega

theorem Tree.nodup {dist : Nat → Nat} {l : List Nat} {k : Nat} (ht : Tree Src E dist l k) : l.Nodup := by
  induction ht with
  | src v h1 h2 => simp
  | edge v vs k p c _ h1 h2 h3 ih => exact List.nodup_cons.mpr ⟨h3, ih⟩

theorem Tree.bound {dist : Nat → Nat} {C : Nat} (hC : ∀ v p c, (p, c) ∈ E v → c ≤ C) {l : List Nat} {k : Nat} (ht : Tree Src E dist l k) : k + C ≤ l.length * C := by
  induction ht with
  | src v h1 h2 => simp
  | edge v vs k p c _ h1 h2 h3 ih =>
    have := hC v _ c h1
    have e : (p :: v :: vs).length * C = (v :: vs).length * C + C := by simp only [List.length_cons]; rw [Nat.succ_mul]
    rw [e]; omega

theorem Tree.range {dist : Nat → Nat} {n : Nat} (hS : ∀ v, Src v → v < n) (hE : ∀ v p c, v < n → (p, c) ∈ E v → 0 ≤ p ∧ p < n) {l : List Nat} {k : Nat} (ht : Tree Src E dist l k) : ∀ u ∈ l, u < n := by
  induction ht with
  | src v h1 h2 => intro u hu; simp only [List.mem_singleton] at hu; subst hu; exact hS _ h1
  | edge v vs k p c _ h1 h2 h3 ih =>
    intro u hu
    rcases List.mem_cons.mp hu with e | e
    · subst e
      have := hE v _ c (ih v (by simp)) h1
      omega
    · exact ih u e

theorem Tree.cost {dist : Nat → Nat} {v : Nat} {l : List Nat} {k : Nat} (ht : Tree Src E dist l k) (h : l.head? = some v) : Cost Src E v k := by
  induction ht generalizing v with
  | src u h1 h2 => simp only [List.head?_cons, Option.some.injEq] at h; subst h; exact .src _ h1
  | edge u vs k p c _ h1 h2 h3 ih =>
    simp only [List.head?_cons, Option.some.injEq] at h
    subst h
    exact .edge u k _ c (ih (by simp)) h1

/-- the invariant; the edges `rem` of the state `s` remain to be treated -/
structure DInv (n : Nat) (Src : Nat → Prop) (E : Nat → List (Int × Nat)) (s : Nat) (rem : List (Int × Nat)) (bag : List (Entry Nat)) (st : DSt) : Prop where
  rep : Rep st.queue bag
  entry : ∀ k v, (k, v) ∈ bag → v < n ∧ st.dist v ≤ k ∧ k < inf
  src : ∀ v, Src v → st.dist v = 0
  le : ∀ v, st.dist v ≤ inf
  sound : ∀ v, v < n → st.dist v < inf → ∃ vs, Tree Src E st.dist (v :: vs) (st.dist v)
  close : ∀ v, v < n → st.dist v < inf → (st.dist v, v) ∈ bag ∨ ∀ (p : Nat) (c : Nat), ((p : Int), c) ∈ E v → (v = s ∧ ((p : Int), c) ∈ rem) ∨ st.dist p ≤ st.dist v + c

def msr (n : Nat) (bag : List (Entry Nat)) (st : DSt) : Nat := 2 * sumN n st.dist + bag.length

/-- the conditions on the graph -/
structure GraphOk (n : Nat) (Src : Nat → Prop) (E : Nat → List (Int × Nat)) (C : Nat) : Prop where
  src : ∀ v, Src v → v < n
  range : ∀ v p c, v < n → (p, c) ∈ E v → 0 ≤ p ∧ p < n
  cost : ∀ v p c, (p, c) ∈ E v → c ≤ C
  bound : n * C < inf

variable (H : StdHeap Nat) {n C : Nat}

theorem relax_spec (hG : GraphOk n Src E C) {s : Nat} (hs : s < n) : ∀ (rem : List (Int × Nat)) (bag : List (Entry Nat)) (st : DSt), (∀ e ∈ rem, e ∈ E s) → st.dist s < inf → DInv n Src E s rem bag st →
    ∃ st' bag', relax H n s rem st = some st' ∧ DInv n Src E s [] bag' st' ∧ msr n bag' st' ≤ msr n bag st
  | [], bag, st, _, _, h => ⟨st, bag, rfl, h, Nat.le_refl _⟩
  | (p, c) :: rem, bag, st, hrem, hfin, h => by
    have hin := hrem (p, c) (by simp)
    have hrem' : ∀ e ∈ rem, e ∈ E s := fun e he => hrem e (by simp [he])
    obtain ⟨hp0, hpn⟩ := hG.range s p c hs hin
    obtain ⟨P, rfl⟩ : ∃ P : Nat, p = P := ⟨p.toNat, by omega⟩
    obtain ⟨vs, ht⟩ := h.sound s hs hfin
    have hlen : (s :: vs).length ≤ n := length_le_of_lt ht.nodup (ht.range hG.src hG.range)
    have hb := ht.bound hG.cost
    have hcC := hG.cost s _ c hin
    have hmul : (s :: vs).length * C ≤ n * C := Nat.mul_le_mul_right _ hlen
    have hbound := hG.bound
    unfold inf at hbound hfin
    unfold relax
    rw [if_pos ⟨hp0, hpn⟩, if_pos (by omega)]
    simp only [Int.toNat_natCast]
    by_cases hlt : st.dist s + c < st.dist P
    · rw [if_pos hlt]
      obtain ⟨q, k1, k2⟩ := h.rep.push H (st.dist s + c) P
      rw [k1]
      simp only
      have hle : ∀ v, upd st.dist P (st.dist s + c) v ≤ st.dist v := by
        intro v
        simp only [upd]
        split
        · rename_i e; subst e; omega
        · exact Nat.le_refl _
      have hsP : s ≠ P := fun e => by subst e; omega
      have hds : upd st.dist P (st.dist s + c) s = st.dist s := by simp only [upd, if_neg hsP]
      have hnew : ∀ v, v ≠ P → upd st.dist P (st.dist s + c) v = st.dist v := fun v hv => by simp only [upd, if_neg hv]
      have hP : upd st.dist P (st.dist s + c) P = st.dist s + c := by simp [upd]
      have h1 : DInv n Src E s rem ((st.dist s + c, P) :: bag) ⟨upd st.dist P (st.dist s + c), q⟩ := by
        refine ⟨k2, ?_, ?_, ?_, ?_, ?_⟩
        · intro k v hkv
          rcases List.mem_cons.mp hkv with e | e
          · simp only [Prod.mk.injEq] at e
            obtain ⟨rfl, rfl⟩ := e
            refine ⟨by omega, Nat.le_of_eq hP, ?_⟩
            unfold inf; omega
          · obtain ⟨a1, a2, a3⟩ := h.entry k v e
            exact ⟨a1, Nat.le_trans (hle v) a2, a3⟩
        · intro v hv
          have h2 := h.src v hv
          have h3 := hle v
          show upd st.dist P (st.dist s + c) v = 0
          omega
        · exact fun v => Nat.le_trans (hle v) (h.le v)
        · intro v hv hfv
          by_cases e : v = P
          · subst e
            refine ⟨s :: vs, ?_⟩
            show Tree Src E _ _ (upd st.dist v (st.dist s + c) v)
            rw [hP]
            refine .edge s vs (st.dist s) v c (ht.mono hle) hin (by show upd st.dist v _ v ≤ _; rw [hP]) ?_
            intro hin'
            have := ht.le v hin'
            omega
          · obtain ⟨ws, hw⟩ := h.sound v hv (by simpa [hnew v e] using hfv)
            refine ⟨ws, ?_⟩
            show Tree Src E _ _ (upd st.dist P (st.dist s + c) v)
            rw [hnew v e]
            exact hw.mono hle
        · intro v hv hfv
          show (upd st.dist P (st.dist s + c) v, v) ∈ _ ∨ ∀ p' c', _ → _ ∨ upd st.dist P (st.dist s + c) p' ≤ upd st.dist P (st.dist s + c) v + c'
          by_cases e : v = P
          · subst e; left; rw [hP]; simp
          · rw [hnew v e]
            rcases h.close v hv (by simpa [hnew v e] using hfv) with a | a
            · exact Or.inl (List.mem_cons_of_mem _ a)
            · right
              intro p' c' hpc
              rcases a p' c' hpc with ⟨b1, b2⟩ | b
              · rcases List.mem_cons.mp b2 with b2 | b2
                · simp only [Prod.mk.injEq, Int.natCast_inj] at b2
                  obtain ⟨rfl, rfl⟩ := b2
                  right; rw [hP, b1]
                · exact Or.inl ⟨b1, b2⟩
              · exact Or.inr (Nat.le_trans (hle p') b)
      obtain ⟨st', bag', j1, j2, j3⟩ := relax_spec hG hs rem _ ⟨upd st.dist P (st.dist s + c), q⟩ hrem' (by show upd st.dist P _ s < inf; rw [hds]; unfold inf; omega) h1
      refine ⟨st', bag', j1, j2, Nat.le_trans j3 ?_⟩
      have hsum := sumN_upd (show P < n by omega) st.dist (st.dist s + c)
      simp only [msr, List.length_cons]
      omega
    · rw [if_neg hlt]
      refine relax_spec hG hs rem bag st hrem' hfin ⟨h.rep, h.entry, h.src, h.le, h.sound, ?_⟩
      intro v hv hfv
      rcases h.close v hv hfv with a | a
      · exact Or.inl a
      · right
        intro p' c' hpc
        rcases a p' c' hpc with ⟨b1, b2⟩ | b
        · rcases List.mem_cons.mp b2 with b2 | b2
          · simp only [Prod.mk.injEq, Int.natCast_inj] at b2
            obtain ⟨rfl, rfl⟩ := b2
            right; rw [b1]; omega
          · exact Or.inl ⟨b1, b2⟩
        · exact Or.inr b

/-- distances are exact -/
structure Exact (n C : Nat) (Src : Nat → Prop) (E : Nat → List (Int × Nat)) (dist : Nat → Nat) : Prop where
  le : ∀ v, dist v ≤ inf
  sound : ∀ v, v < n → dist v < inf → Cost Src E v (dist v)
  low : ∀ v k, Cost Src E v k → dist v ≤ k ∧ dist v < inf
  bound : ∀ v, v < n → dist v < inf → dist v ≤ n * C

theorem loop_spec (hG : GraphOk n Src E C) {edges : Nat → Option (List (Int × Nat))} (hE : ∀ v, v < n → edges v = some (E v)) : ∀ (m s : Nat) (bag : List (Entry Nat)) (st : DSt), msr n bag st = m → DInv n Src E s [] bag st →
    ∃ st', loop H n edges st = some st' ∧ Exact n C Src E st'.dist := by
  intro m
  induction m using Nat.strong_induction_on with
  | _ m ih =>
    intro s bag st hm h
    rw [loop]
    by_cases he : st.queue.empty = true
    · rw [if_pos he]
      have hbag := h.rep.empty.mp he
      subst hbag
      have hlow : ∀ v k, Cost Src E v k → v < n ∧ st.dist v ≤ k ∧ st.dist v < inf := by
        intro v k hk
        induction hk with
        | src v hv =>
          have := h.src v hv
          exact ⟨hG.src v hv, by omega, by unfold inf; omega⟩
        | edge v k p c _ hin ihk =>
          obtain ⟨h1, h2, h3⟩ := ihk
          obtain ⟨vs, ht⟩ := h.sound v h1 h3
          have hlen : (v :: vs).length ≤ n := length_le_of_lt ht.nodup (ht.range hG.src hG.range)
          have hb := ht.bound hG.cost
          have hmul : (v :: vs).length * C ≤ n * C := Nat.mul_le_mul_right _ hlen
          have hcC := hG.cost v _ c hin
          have hbound := hG.bound
          have hr := hG.range v _ c h1 hin
          rcases h.close v h1 h3 with a | a
          · simp at a
          · rcases a p c hin with b | b
            · simp at b
            · exact ⟨by omega, by omega, by omega⟩
      exact ⟨st, rfl, h.le, fun v hv hf => by
        obtain ⟨vs, ht⟩ := h.sound v hv hf
        exact ht.cost (by simp), fun v k hk => (hlow v k hk).2, fun v hv hf => by
        obtain ⟨vs, ht⟩ := h.sound v hv hf
        have hlen : (v :: vs).length ≤ n := length_le_of_lt ht.nodup (ht.range hG.src hG.range)
        have hb := ht.bound hG.cost
        have hmul : (v :: vs).length * C ≤ n * C := Nat.mul_le_mul_right _ hlen
        omega⟩
    · rw [if_neg he]
      have hne : bag ≠ [] := fun e => he (h.rep.empty.mpr e)
      obtain ⟨q, k, v, bag', h1, h2, h3, h4⟩ := h.rep.pop H hne
      have hin : (k, v) ∈ bag := h2.symm.subset (by simp)
      obtain ⟨hv, hle, hk⟩ := h.entry k v hin
      have hlen := h2.length_eq
      simp only [List.length_cons] at hlen
      rw [h1]
      simp only
      by_cases hgt : k > st.dist v
      · rw [if_pos hgt]
        have h5 : DInv n Src E s [] bag' { st with queue := q } := by
          refine ⟨h4, fun a b hab => h.entry a b (h2.symm.subset (List.mem_cons_of_mem _ hab)), h.src, h.le, h.sound, ?_⟩
          intro u hu hfu
          rcases h.close u hu hfu with a | a
          · left
            rcases List.mem_cons.mp (h2.subset a) with e | e
            · simp only [Prod.mk.injEq] at e
              obtain ⟨e1, rfl⟩ := e
              omega
            · exact e
          · exact Or.inr a
        exact ih (msr n bag' { st with queue := q }) (by simp only [msr] at hm ⊢; omega) s bag' _ rfl h5
      · rw [if_neg hgt, hE v hv]
        simp only
        have hkd : st.dist v = k := by omega
        have h5 : DInv n Src E v (E v) bag' { st with queue := q } := by
          refine ⟨h4, fun a b hab => h.entry a b (h2.symm.subset (List.mem_cons_of_mem _ hab)), h.src, h.le, h.sound, ?_⟩
          intro u hu hfu
          rcases h.close u hu hfu with a | a
          · rcases List.mem_cons.mp (h2.subset a) with e | e
            · simp only [Prod.mk.injEq] at e
              obtain ⟨e1, rfl⟩ := e
              exact Or.inr (fun p c hpc => Or.inl ⟨rfl, hpc⟩)
            · exact Or.inl e
          · refine Or.inr (fun p c hpc => Or.inr ?_)
            rcases a p c hpc with b | b
            · simp at b
            · exact b
        obtain ⟨st1, bag1, j1, j2, j3⟩ := relax_spec H hG hv (E v) bag' _ (fun e he => he) (by show st.dist v < inf; omega) h5
        rw [j1]
        simp only
        exact ih (msr n bag1 st1) (by simp only [msr] at hm j3 ⊢; omega) v bag1 st1 rfl j2

end Verif.Dijkstra
