import Verif.Model.MasDistances
import Verif.Lemmas.Dijkstra

/-
Distances of transition systems, computed by breadth-first search or Dijkstra's algorithm.
-/
namespace Verif.Dijkstra
open Verif.AdaptiveQueue Verif.Relax Verif.LmCut

/-- distances up to the largest finite int: the value is the least cost, or `inf` if there is no smaller cost -/
structure Capped (n : Nat) (Src : Nat → Prop) (E : Nat → List (Int × Nat)) (dist : Nat → Nat) : Prop where
  le : ∀ v, dist v ≤ inf
  sound : ∀ v, v < n → dist v < inf → Cost Src E v (dist v)
  low : ∀ v k, Cost Src E v k → dist v ≤ k

variable {Src : Nat → Prop} {E : Nat → List (Int × Nat)}

/-- the conditions on the graph that make all accesses legal -/
structure Ranged (n : Nat) (Src : Nat → Prop) (E : Nat → List (Int × Nat)) : Prop where
  src : ∀ v, Src v → v < n
  range : ∀ v p c, v < n → (p, c) ∈ E v → 0 ≤ p ∧ p < n

theorem Cost.lt {n : Nat} (hG : Ranged n Src E) {v k : Nat} (h : Cost Src E v k) : v < n := by
  induction h with
  | src v h => exact hG.src v h
  | edge v k p c _ h ih => have := hG.range v p c ih h; omega

/-- the invariant, without bounds on the costs -/
structure PInv (n : Nat) (Src : Nat → Prop) (E : Nat → List (Int × Nat)) (s : Nat) (rem : List (Int × Nat)) (pending : Nat → Prop) (dist : Nat → Nat) : Prop where
  src : ∀ v, Src v → dist v = 0
  le : ∀ v, dist v ≤ inf
  sound : ∀ v, v < n → dist v < inf → Cost Src E v (dist v)
  close : ∀ v, v < n → dist v < inf → pending v ∨ ∀ (p : Nat) (c : Nat), ((p : Int), c) ∈ E v → (v = s ∧ ((p : Int), c) ∈ rem) ∨ dist p ≤ dist v + c

theorem PInv.capped {n s : Nat} (hG : Ranged n Src E) {dist : Nat → Nat} (h : PInv n Src E s [] (fun _ => False) dist) : Capped n Src E dist := by
  refine ⟨h.le, h.sound, ?_⟩
  intro v k hk
  induction hk with
  | src v hv => rw [h.src v hv]
  | edge v k p c hc hin ih =>
    by_cases hf : dist v < inf
    · rcases h.close v (hc.lt hG) hf with a | a
      · exact a.elim
      · rcases a p c hin with ⟨_, b⟩ | b
        · simp at b
        · omega
    · have := h.le p
      omega

/-- a successor gets a smaller distance -/
theorem PInv.update {n s : Nat} {rem : List (Int × Nat)} {pending pending' : Nat → Prop} {dist : Nat → Nat} {P c : Nat} (h : PInv n Src E s (((P : Int), c) :: rem) pending dist) (hs : s < n) (hfin : dist s < inf)
    (hin : ((P : Int), c) ∈ E s) (hlt : dist s + c < dist P) (hpend : ∀ v, v ≠ P → pending v → pending' v) (hP' : pending' P) :
    PInv n Src E s rem pending' (upd dist P (dist s + c)) := by
  have hle : ∀ v, upd dist P (dist s + c) v ≤ dist v := by
    intro v
    simp only [upd]
    split
    · rename_i e; subst e; omega
    · exact Nat.le_refl _
  have hnew : ∀ v, v ≠ P → upd dist P (dist s + c) v = dist v := fun v hv => by simp only [upd, if_neg hv]
  have hP : upd dist P (dist s + c) P = dist s + c := by simp [upd]
  refine ⟨?_, fun v => Nat.le_trans (hle v) (h.le v), ?_, ?_⟩
  · intro v hv
    have h2 := h.src v hv
    have h3 := hle v
    omega
  · intro v hv hfv
    by_cases e : v = P
    · subst e
      rw [hP]
      exact .edge s _ v c (h.sound s hs hfin) hin
    · rw [hnew v e] at hfv ⊢
      exact h.sound v hv hfv
  · intro v hv hfv
    by_cases e : v = P
    · subst e; exact Or.inl hP'
    · rw [hnew v e] at hfv ⊢
      rcases h.close v hv hfv with a | a
      · exact Or.inl (hpend v e a)
      · right
        intro p' c' hpc
        rcases a p' c' hpc with ⟨b1, b2⟩ | b
        · rcases List.mem_cons.mp b2 with b2 | b2
          · simp only [Prod.mk.injEq, Int.natCast_inj] at b2
            obtain ⟨rfl, rfl⟩ := b2
            right; rw [hP, b1]
          · exact Or.inl ⟨b1, b2⟩
        · exact Or.inr (Nat.le_trans (hle p') b)

theorem PInv.skip {n s : Nat} {rem : List (Int × Nat)} {pending : Nat → Prop} {dist : Nat → Nat} {P c : Nat} (h : PInv n Src E s (((P : Int), c) :: rem) pending dist) (hlt : ¬dist s + c < dist P) : PInv n Src E s rem pending dist := by
  refine ⟨h.src, h.le, h.sound, ?_⟩
  intro v hv hfv
  rcases h.close v hv hfv with a | a
  · exact Or.inl a
  · right
    intro p' c' hpc
    rcases a p' c' hpc with ⟨b1, b2⟩ | b
    · rcases List.mem_cons.mp b2 with b2 | b2
      · simp only [Prod.mk.injEq, Int.natCast_inj] at b2
        obtain ⟨rfl, rfl⟩ := b2
        right; rw [b1]; omega
      · exact Or.inl ⟨b1, b2⟩
    · exact Or.inr b

/-- the next state is expanded -/
theorem PInv.expand {n s s' : Nat} {pending pending' : Nat → Prop} {dist : Nat → Nat} (h : PInv n Src E s [] pending dist) (hpend : ∀ v, pending v → pending' v ∨ v = s') : PInv n Src E s' (E s') pending' dist := by
  refine ⟨h.src, h.le, h.sound, ?_⟩
  intro v hv hfv
  rcases h.close v hv hfv with a | a
  · rcases hpend v a with b | b
    · exact Or.inl b
    · right; intro p c hpc; left; exact ⟨b, b ▸ hpc⟩
  · right
    intro p c hpc
    rcases a p c hpc with ⟨_, b⟩ | b
    · simp at b
    · exact Or.inr b

/-- what the queue of Dijkstra's algorithm contains -/
structure QInv (n : Nat) (bag : List (Entry Nat)) (st : DSt) : Prop where
  rep : Rep st.queue bag
  entry : ∀ k v, (k, v) ∈ bag → v < n ∧ st.dist v ≤ k ∧ k < inf

variable (H : StdHeap Nat) {n : Nat}

theorem relax_partial {s : Nat} (hs : s < n) : ∀ (rem : List (Int × Nat)) (bag : List (Entry Nat)) (st st' : DSt), (∀ e ∈ rem, e ∈ E s) → st.dist s < inf → QInv n bag st →
    PInv n Src E s rem (fun v => (st.dist v, v) ∈ bag) st.dist → relax H n s rem st = some st' →
    ∃ bag', QInv n bag' st' ∧ PInv n Src E s [] (fun v => (st'.dist v, v) ∈ bag') st'.dist
  | [], bag, st, st', _, _, hq, h, he => by
    simp only [relax, Option.some.injEq] at he
    subst he
    exact ⟨bag, hq, h⟩
  | (p, c) :: rem, bag, st, st', hrem, hfin, hq, h, he => by
    have hin := hrem (p, c) (by simp)
    have hrem' : ∀ e ∈ rem, e ∈ E s := fun e he => hrem e (by simp [he])
    unfold relax at he
    by_cases hr : 0 ≤ p ∧ p < n
    · rw [if_pos hr] at he
      obtain ⟨P, rfl⟩ : ∃ P : Nat, p = P := ⟨p.toNat, by omega⟩
      by_cases hov : st.dist s + c < 2 ^ 31
      · rw [if_pos hov] at he
        simp only [Int.toNat_natCast] at he
        by_cases hlt : st.dist s + c < st.dist P
        · rw [if_pos hlt] at he
          obtain ⟨q, k1, k2⟩ := hq.rep.push H (st.dist s + c) P
          rw [k1] at he
          simp only at he
          have hsP : s ≠ P := fun e => by subst e; omega
          have hds : upd st.dist P (st.dist s + c) s = st.dist s := by simp only [upd, if_neg hsP]
          have hPle := h.le P
          have hle : ∀ v, upd st.dist P (st.dist s + c) v ≤ st.dist v := by
            intro v
            simp only [upd]
            split
            · rename_i e; subst e; omega
            · exact Nat.le_refl _
          refine relax_partial hs rem ((st.dist s + c, P) :: bag) ⟨upd st.dist P (st.dist s + c), q⟩ st' hrem' (by show upd st.dist P _ s < inf; rw [hds]; exact hfin) ⟨k2, ?_⟩ ?_ he
          · intro k v hkv
            rcases List.mem_cons.mp hkv with e | e
            · simp only [Prod.mk.injEq] at e
              obtain ⟨rfl, rfl⟩ := e
              refine ⟨by omega, ?_, by omega⟩
              show upd st.dist v _ v ≤ _
              simp [upd]
            · obtain ⟨a1, a2, a3⟩ := hq.entry k v e
              exact ⟨a1, Nat.le_trans (hle v) a2, a3⟩
          · refine h.update hs hfin hin hlt ?_ ?_
            · intro v hv hp
              show (upd st.dist P (st.dist s + c) v, v) ∈ _
              simp only [upd, if_neg hv]
              exact List.mem_cons_of_mem _ hp
            · show (upd st.dist P (st.dist s + c) P, P) ∈ _
              simp [upd]
        · rw [if_neg hlt] at he
          exact relax_partial hs rem bag st st' hrem' hfin hq (h.skip hlt) he
      · rw [if_neg hov] at he; simp at he
    · rw [if_neg hr] at he; simp at he

/-- if Dijkstra's algorithm ends without overflow, it has computed the distances -/
theorem loop_partial (hG : Ranged n Src E) {edges : Nat → Option (List (Int × Nat))} (hE : ∀ v, v < n → edges v = some (E v)) {st st' : DSt} (he : loop H n edges st = some st') :
    ∀ (s : Nat) (bag : List (Entry Nat)), QInv n bag st → PInv n Src E s [] (fun v => (st.dist v, v) ∈ bag) st.dist → Capped n Src E st'.dist := by
  refine loop.partial_correctness H n edges (fun st st' => ∀ (s : Nat) (bag : List (Entry Nat)), QInv n bag st → PInv n Src E s [] (fun v => (st.dist v, v) ∈ bag) st.dist → Capped n Src E st'.dist) ?_ st st' he
  intro rec ih st r hst s bag hq h
  by_cases hem : st.queue.empty = true
  · rw [if_pos hem] at hst
    simp only [Option.some.injEq] at hst
    subst hst
    have hbag := hq.rep.empty.mp hem
    subst hbag
    refine PInv.capped (s := s) hG ⟨h.src, h.le, h.sound, ?_⟩
    intro v hv hf
    rcases h.close v hv hf with a | a
    · simp at a
    · exact Or.inr a
  · rw [if_neg hem] at hst
    have hne : bag ≠ [] := fun e => hem (hq.rep.empty.mpr e)
    obtain ⟨q, k, v, bag', h1, h2, h3, h4⟩ := hq.rep.pop H hne
    have hin : (k, v) ∈ bag := h2.symm.subset (by simp)
    obtain ⟨hv, hle, hk⟩ := hq.entry k v hin
    rw [h1] at hst
    simp only at hst
    have hq' : QInv n bag' ⟨st.dist, q⟩ := ⟨h4, fun a b hab => hq.entry a b (h2.symm.subset (List.mem_cons_of_mem _ hab))⟩
    by_cases hgt : k > st.dist v
    · rw [if_pos hgt] at hst
      refine ih _ _ hst s bag' hq' ⟨h.src, h.le, h.sound, ?_⟩
      intro u hu hfu
      rcases h.close u hu hfu with a | a
      · left
        rcases List.mem_cons.mp (h2.subset a) with e | e
        · simp only [Prod.mk.injEq] at e
          obtain ⟨e1, rfl⟩ := e
          omega
        · exact e
      · exact Or.inr a
    · rw [if_neg hgt, hE v hv] at hst
      simp only at hst
      cases hrel : relax H n v (E v) ⟨st.dist, q⟩ with
      | none => rw [hrel] at hst; simp at hst
      | some st1 =>
        rw [hrel] at hst
        simp only at hst
        obtain ⟨bag1, j1, j2⟩ := relax_partial H hv (E v) bag' ⟨st.dist, q⟩ st1 (fun e he => he) (by show st.dist v < inf; omega) hq' (h.expand (by
          intro u hu
          rcases List.mem_cons.mp (h2.subset hu) with e | e
          · simp only [Prod.mk.injEq] at e; exact Or.inr e.2
          · exact Or.inl e)) hrel
        exact ih _ _ hst v bag1 j1 j2

end Verif.Dijkstra

namespace Verif.Mas
open Verif.AdaptiveQueue Verif.Relax Verif.LmCut Verif.Dijkstra

variable {Src : Nat → Prop} {E : Nat → List (Int × Nat)} {n : Nat}

theorem bfsRelax_spec (hG : Ranged n Src E) {s : Nat} (hs : s < n) : ∀ (rem : List (Int × Nat)) (dist : Nat → Nat) (q : List Nat), (∀ e ∈ rem, e ∈ E s) → (∀ e ∈ rem, e.2 = 1) → dist s < Dijkstra.inf →
    (∀ v ∈ q, v < n ∧ dist v < Dijkstra.inf) → PInv n Src E s rem (fun v => v ∈ q) dist →
    ∃ dist' q', bfsRelax n s (rem.map (fun e => e.1.toNat)) (dist, q) = some (dist', q') ∧ (∀ v ∈ q', v < n ∧ dist' v < Dijkstra.inf) ∧ PInv n Src E s [] (fun v => v ∈ q') dist' ∧
      2 * sumN n dist' + q'.length ≤ 2 * sumN n dist + q.length
  | [], dist, q, _, _, _, hq, h => ⟨dist, q, rfl, hq, h, Nat.le_refl _⟩
  | (p, c) :: rem, dist, q, hrem, hone, hfin, hq, h => by
    have hin := hrem (p, c) (by simp)
    have hc : c = 1 := hone (p, c) (by simp)
    subst hc
    have hrem' : ∀ e ∈ rem, e ∈ E s := fun e he => hrem e (by simp [he])
    have hone' : ∀ e ∈ rem, e.2 = 1 := fun e he => hone e (by simp [he])
    obtain ⟨hp0, hpn⟩ := hG.range s p 1 hs hin
    obtain ⟨P, rfl⟩ : ∃ P : Nat, p = P := ⟨p.toNat, by omega⟩
    simp only [List.map_cons, Int.toNat_natCast, bfsRelax]
    rw [if_pos (by omega), if_pos (by unfold Dijkstra.inf at hfin; omega)]
    by_cases hlt : dist s + 1 < dist P
    · rw [if_pos hlt]
      have hsP : s ≠ P := fun e => by subst e; omega
      have hPle := h.le P
      have hle : ∀ v, upd dist P (dist s + 1) v ≤ dist v := by
        intro v
        simp only [upd]
        split
        · rename_i e; subst e; omega
        · exact Nat.le_refl _
      obtain ⟨dist', q', k1, k2, k3, k4⟩ := bfsRelax_spec hG hs rem (upd dist P (dist s + 1)) (q ++ [P]) hrem' hone' (Nat.lt_of_le_of_lt (hle s) hfin) (by
        intro v hv
        rcases List.mem_append.mp hv with e | e
        · obtain ⟨a, b⟩ := hq v e
          exact ⟨a, Nat.lt_of_le_of_lt (hle v) b⟩
        · simp only [List.mem_singleton] at e
          subst e
          refine ⟨by omega, ?_⟩
          simp only [upd, if_true]
          omega) (h.update hs hfin hin hlt (fun v _ hv => List.mem_append_left _ hv) (by simp))
      refine ⟨dist', q', k1, k2, k3, Nat.le_trans k4 ?_⟩
      have hsum := sumN_upd (show P < n by omega) dist (dist s + 1)
      simp only [List.length_append, List.length_singleton]
      omega
    · rw [if_neg hlt]
      exact bfsRelax_spec hG hs rem dist q hrem' hone' hfin hq (h.skip hlt)

/-- breadth-first search ends and computes the distances if all edges have cost 1 -/
theorem bfs_spec (hG : Ranged n Src E) (hone : ∀ v p c, (p, c) ∈ E v → c = 1) : ∀ (m s : Nat) (dist : Nat → Nat) (q : List Nat), 2 * sumN n dist + q.length = m → (∀ v ∈ q, v < n ∧ dist v < Dijkstra.inf) →
    PInv n Src E s [] (fun v => v ∈ q) dist → ∃ dist', bfs n (fun s => (E s).map (fun e => e.1.toNat)) (dist, q) = some dist' ∧ Capped n Src E dist' := by
  intro m
  induction m using Nat.strong_induction_on with
  | _ m ih =>
    intro s dist q hm hq h
    rw [bfs]
    cases q with
    | nil =>
      refine ⟨dist, rfl, PInv.capped (s := s) hG ⟨h.src, h.le, h.sound, ?_⟩⟩
      intro v hv hf
      rcases h.close v hv hf with a | a
      · simp at a
      · exact Or.inr a
    | cons v q =>
      simp only
      obtain ⟨hv, hf⟩ := hq v (by simp)
      obtain ⟨dist', q', k1, k2, k3, k4⟩ := bfsRelax_spec hG hv (E v) dist q (fun e he => he) (fun e he => hone v e.1 e.2 he) hf (fun u hu => hq u (by simp [hu])) (h.expand (by
        intro u hu
        rcases List.mem_cons.mp hu with e | e
        · exact Or.inr e
        · exact Or.inl e))
      rw [k1]
      simp only
      simp only [List.length_cons] at hm
      exact ih _ (by omega) v dist' q' rfl k2 k3

/-! ### the searches -/

theorem setSources_spec : ∀ (l : List Nat) (d : Nat → Nat), (∀ s ∈ l, s < n) → ∃ d', setSources n l d = some d' ∧ (∀ v ∈ l, d' v = 0) ∧ ∀ v, v ∉ l → d' v = d v
  | [], d, _ => ⟨d, rfl, by simp, by simp⟩
  | s :: l, d, h => by
    obtain ⟨d', h1, h2, h3⟩ := setSources_spec l (upd d s 0) (fun x hx => h x (by simp [hx]))
    refine ⟨d', by simp only [setSources, if_pos (h s (by simp)), h1], ?_, ?_⟩
    · intro v hv
      by_cases hvl : v ∈ l
      · exact h2 v hvl
      · have : v = s := by simpa [hvl] using hv
        subst this
        rw [h3 v hvl]
        simp [upd]
    · intro v hv
      simp only [List.mem_cons, not_or] at hv
      rw [h3 v hv.2]
      simp [upd, hv.1]

theorem pushSources_spec (H : StdHeap Nat) : ∀ (l : List Nat) (st : DSt) (bag : List (Entry Nat)), (∀ s ∈ l, s < n) → QInv n bag st →
    ∃ st' bag', pushSources n H l st = some st' ∧ QInv n bag' st' ∧ (∀ v ∈ l, st'.dist v = 0 ∧ (0, v) ∈ bag') ∧ (∀ v, v ∉ l → st'.dist v = st.dist v) ∧ ∀ e ∈ bag, e ∈ bag'
  | [], st, bag, _, hq => ⟨st, bag, rfl, hq, by simp, by simp, by simp⟩
  | s :: l, st, bag, h, hq => by
    obtain ⟨q, k1, k2⟩ := hq.rep.push H 0 s
    have hs := h s (by simp)
    obtain ⟨st', bag', h1, h2, h3, h4, h5⟩ := pushSources_spec H l ⟨upd st.dist s 0, q⟩ ((0, s) :: bag) (fun x hx => h x (by simp [hx])) ⟨k2, by
      intro k v hkv
      rcases List.mem_cons.mp hkv with e | e
      · simp only [Prod.mk.injEq] at e
        obtain ⟨rfl, rfl⟩ := e
        refine ⟨hs, ?_, by unfold Dijkstra.inf; omega⟩
        show upd st.dist v 0 v ≤ 0
        simp [upd]
      · obtain ⟨a1, a2, a3⟩ := hq.entry k v e
        refine ⟨a1, ?_, a3⟩
        show upd st.dist s 0 v ≤ k
        simp only [upd]
        split <;> omega⟩
    refine ⟨st', bag', by simp only [pushSources, if_pos hs, k1, h1], h2, ?_, ?_, fun e he => h5 e (List.mem_cons_of_mem _ he)⟩
    · intro v hv
      by_cases hvl : v ∈ l
      · exact h3 v hvl
      · have : v = s := by simpa [hvl] using hv
        subst this
        refine ⟨?_, h5 _ (by simp)⟩
        rw [h4 v hvl]
        simp [upd]
    · intro v hv
      simp only [List.mem_cons, not_or] at hv
      rw [h4 v hv.2]
      simp [upd, hv.1]

/-- the initial distances satisfy the invariant -/
theorem initial_inv {l : List Nat} (hl : ∀ v, v ∈ l ↔ Src v) {d : Nat → Nat} (h0 : ∀ v ∈ l, d v = 0) (h1 : ∀ v, v ∉ l → d v = Dijkstra.inf) {pending : Nat → Prop} (hp : ∀ v ∈ l, pending v) : PInv n Src E 0 [] pending d := by
  refine ⟨fun v hv => h0 v ((hl v).mpr hv), ?_, ?_, ?_⟩
  · intro v
    by_cases hv : v ∈ l
    · rw [h0 v hv]; omega
    · rw [h1 v hv]
  · intro v _ hf
    by_cases hv : v ∈ l
    · rw [h0 v hv]; exact .src v ((hl v).mp hv)
    · rw [h1 v hv] at hf; omega
  · intro v _ hf
    by_cases hv : v ∈ l
    · exact Or.inl (hp v hv)
    · rw [h1 v hv] at hf; omega

/-- what the searches compute, when they return -/
theorem searchFrom_partial (H : StdHeap Nat) {l : List Nat} (hG : Ranged n (fun v => v ∈ l) E) {unit inRange : Bool} (hunit : unit = true → ∀ v p c, (p, c) ∈ E v → c = 1) {ds : List Nat}
    (h : searchFrom n H unit inRange E l = some ds) : ∃ dist, ds = (List.range n).map dist ∧ Capped n (fun v => v ∈ l) E dist := by
  unfold searchFrom at h
  cases inRange with
  | false => simp at h
  | true =>
    simp only [if_true] at h
    cases unit with
    | true =>
      simp only [if_true] at h
      obtain ⟨d, h1, h2, h3⟩ := setSources_spec (n := n) l (fun _ => inf) hG.src
      rw [h1] at h
      simp only at h
      have hdl : ∀ v ∈ l, v < n ∧ d v < Dijkstra.inf := fun v hv => ⟨hG.src v hv, by rw [h2 v hv]; unfold Dijkstra.inf; omega⟩
      obtain ⟨d', h4, h5⟩ := bfs_spec hG (hunit rfl) _ 0 d l rfl hdl (initial_inv (fun v => Iff.rfl) h2 h3 (fun v hv => hv))
      rw [h4] at h
      simp only [Option.some.injEq] at h
      exact ⟨d', h.symm, h5⟩
    | false =>
      simp only [Bool.false_eq_true, if_false] at h
      obtain ⟨st, bag, h1, h2, h3, h4, _⟩ := pushSources_spec (n := n) H l ⟨fun _ => inf, Queue.new⟩ [] hG.src ⟨Rep.new, by simp⟩
      rw [h1] at h
      simp only at h
      cases hl : Dijkstra.loop H n (fun s => some (E s)) st with
      | none => rw [hl] at h; simp at h
      | some st' =>
        rw [hl] at h
        simp only [Option.some.injEq] at h
        exact ⟨st'.dist, h.symm, loop_partial H hG (fun v _ => rfl) hl 0 bag h2 (initial_inv (fun v => Iff.rfl) (fun v hv => (h3 v hv).1) h4 (fun v hv => by rw [(h3 v hv).1]; exact (h3 v hv).2))⟩

/-- the searches return unless costs overflow -/
theorem searchFrom_defined (H : StdHeap Nat) {l : List Nat} (hG : Ranged n (fun v => v ∈ l) E) {unit : Bool} (hunit : unit = true → ∀ v p c, (p, c) ∈ E v → c = 1)
    (hC : unit = false → ∃ C, (∀ v p c, (p, c) ∈ E v → c ≤ C) ∧ n * C < Dijkstra.inf) : ∃ ds, searchFrom n H unit true E l = some ds := by
  unfold searchFrom
  simp only [if_true]
  cases unit with
  | true =>
    simp only [if_true]
    obtain ⟨d, h1, h2, h3⟩ := setSources_spec (n := n) l (fun _ => inf) hG.src
    rw [h1]
    simp only
    have hdl : ∀ v ∈ l, v < n ∧ d v < Dijkstra.inf := fun v hv => ⟨hG.src v hv, by rw [h2 v hv]; unfold Dijkstra.inf; omega⟩
    obtain ⟨d', h4, h5⟩ := bfs_spec hG (hunit rfl) _ 0 d l rfl hdl (initial_inv (fun v => Iff.rfl) h2 h3 (fun v hv => hv))
    rw [h4]
    exact ⟨_, rfl⟩
  | false =>
    simp only [Bool.false_eq_true, if_false]
    obtain ⟨C, hC1, hC2⟩ := hC rfl
    obtain ⟨st, bag, h1, h2, h3, h4, _⟩ := pushSources_spec (n := n) H l ⟨fun _ => inf, Queue.new⟩ [] hG.src ⟨Rep.new, by simp⟩
    rw [h1]
    simp only
    have hle : ∀ v, st.dist v ≤ Dijkstra.inf := by
      intro v
      by_cases hv : v ∈ l
      · rw [(h3 v hv).1]; omega
      · rw [h4 v hv]; exact Nat.le_refl _
    have hfin : ∀ v, st.dist v < Dijkstra.inf → v ∈ l := by
      intro v hf
      by_contra hv
      rw [h4 v hv] at hf
      exact absurd hf (Nat.lt_irrefl _)
    obtain ⟨st', h5, _⟩ := loop_spec H (Src := fun v => v ∈ l) (E := E) (n := n) (C := C) ⟨hG.src, hG.range, hC1, hC2⟩ (edges := fun s => some (E s)) (fun v _ => rfl) _ 0 bag st rfl
      ⟨h2.rep, h2.entry, fun v hv => (h3 v hv).1, hle, fun v _ hf => ⟨[], by rw [(h3 v (hfin v hf)).1]; exact .src v (hfin v hf) (Nat.le_of_eq (h3 v (hfin v hf)).1)⟩, fun v _ hf => Or.inl (by rw [(h3 v (hfin v hf)).1]; exact (h3 v (hfin v hf)).2)⟩
    rw [h5]
    exact ⟨_, rfl⟩

end Verif.Mas
