import Verif.Lemmas.MergeSelector
import Mathlib.Data.List.Basic

namespace Verif.Mas

/-- in the list of all pairs, the first elements come in the order of the list, and the second ones too -/
theorem allPairs_pairwise {l : List Nat} (hl : l.Nodup) : (allPairs l).Pairwise (PairBefore l) := by
  have key : ∀ (pre suf : List Nat), (pre ++ suf).Nodup → (allPairs suf).Pairwise (PairBefore (pre ++ suf)) := by
    intro pre suf
    induction suf generalizing pre with
    | nil => intro _; simp [allPairs]
    | cons a suf ih =>
      intro hnd
      have ih' := ih (pre ++ [a]) (by simpa using hnd)
      have e : pre ++ [a] ++ suf = pre ++ a :: suf := by simp
      rw [e] at ih'
      have hd := List.nodup_append.mp hnd
      have hd2 := List.nodup_cons.mp hd.2.1
      have ha : a ∉ pre := fun h => hd.2.2 a h a (by simp) rfl
      have ia : (pre ++ a :: suf).idxOf a = pre.length := by
        rw [List.idxOf_append_of_notMem ha]
        simp
      have ib : ∀ (b : Nat), b ∈ suf → (pre ++ a :: suf).idxOf b = pre.length + 1 + suf.idxOf b := by
        intro b hb
        have hb' : b ∉ pre := fun h => hd.2.2 b h b (by simp [hb]) rfl
        have hab : a ≠ b := fun e => hd2.1 (e ▸ hb)
        rw [List.idxOf_append_of_notMem hb', List.idxOf_cons_ne _ hab]
        omega
      rw [allPairs, List.pairwise_append]
      refine ⟨?_, ih', ?_⟩
      · rw [List.pairwise_map]
        have hs : suf.Pairwise (fun b c => suf.idxOf b < suf.idxOf c) := by
          rw [List.pairwise_iff_getElem]
          intro i j hi hj hij
          rw [hd2.2.idxOf_getElem i hi, hd2.2.idxOf_getElem j hj]
          exact hij
        refine List.Pairwise.imp_of_mem ?_ hs
        intro b c hb hc h
        right
        refine ⟨rfl, ?_⟩
        simp only
        rw [ib b hb, ib c hc]
        omega
      · intro x hx y hy
        rw [List.mem_map] at hx
        obtain ⟨b, hb, rfl⟩ := hx
        left
        simp only
        rw [ia, ib _ (mem_allPairs hy).1]
        omega
  exact key [] l hl

theorem mem_allPairs_order {l : List Nat} (hl : l.Nodup) {c : Nat × Nat} (h : c ∈ allPairs l) : l.idxOf c.1 < l.idxOf c.2 := by
  induction l with
  | nil => exact absurd h (by simp [allPairs])
  | cons a l ih =>
    rw [List.nodup_cons] at hl
    rw [allPairs] at h
    rcases List.mem_append.mp h with h | h
    · rw [List.mem_map] at h
      obtain ⟨b, hb, rfl⟩ := h
      simp only [List.idxOf_cons_self]
      have hab : a ≠ b := fun e => hl.1 (e ▸ hb)
      rw [List.idxOf_cons_ne _ hab]
      omega
    · have hm := mem_allPairs h
      have n1 : a ≠ c.1 := fun e => hl.1 (e ▸ hm.1)
      have n2 : a ≠ c.2 := fun e => hl.1 (e ▸ hm.2)
      rw [List.idxOf_cons_ne _ n1, List.idxOf_cons_ne _ n2]
      have := ih hl.2 h
      omega

/-- scores by position: the smaller one belongs to the pair that comes first -/
theorem orderScore_lt {l : List Nat} (hl : l.Nodup) {p q : Nat × Nat} {a b : ℚ} (hp : orderScore (allPairs l) p = some a) (hq : orderScore (allPairs l) q = some b)
    (hpm : p.1 ∈ l ∧ p.2 ∈ l ∧ p.1 ≠ p.2) (hqm : q.1 ∈ l ∧ q.2 ∈ l ∧ q.1 ≠ q.2) (hab : a < b) : PairBefore l (sortPair l p) (sortPair l q) := by
  have key : ∀ (p : Nat × Nat), (p.1 ∈ l ∧ p.2 ∈ l ∧ p.1 ≠ p.2) → ∀ a : ℚ, orderScore (allPairs l) p = some a →
      ∃ i : Nat, a = (i : ℚ) ∧ (allPairs l)[i]? = some (sortPair l p) := by
    intro p hpm a hp
    obtain ⟨i, hi, e, h⟩ := orderScore_spec (order := allPairs l) (c := p) (allPairs_total hpm.1 hpm.2.1 hpm.2.2)
    rw [hp] at e
    refine ⟨i, Option.some.inj e, ?_⟩
    rcases h with h | h
    · have := mem_allPairs_order hl (List.mem_of_getElem? h)
      rw [h]; unfold sortPair; rw [if_pos (by omega)]
    · have := mem_allPairs_order hl (List.mem_of_getElem? h)
      simp only at this
      rw [h]; unfold sortPair; rw [if_neg (by omega)]
  obtain ⟨i, rfl, hi⟩ := key p hpm a hp
  obtain ⟨j, rfl, hj⟩ := key q hqm b hq
  have hij : i < j := by exact_mod_cast hab
  obtain ⟨h1, e1⟩ := List.getElem?_eq_some_iff.mp hi
  obtain ⟨h2, e2⟩ := List.getElem?_eq_some_iff.mp hj
  have := List.pairwise_iff_getElem.mp (allPairs_pairwise hl) i j h1 h2 hij
  rw [e1, e2] at this
  exact this

theorem candidateOrder_meaning {n : Nat} {ao : AtomicOrder} {po : ProductOrder} {af : Bool} {perm : List Nat → List Nat} (hp : ∀ l, (perm l).Perm l) :
    ∃ l, candidateOrder n ao po af perm = some (allPairs l) ∧ TotalOrderOf n ao po af l := by
  have r1 : (List.range n).Pairwise (· < ·) := List.pairwise_lt_range
  have r2 : (List.range' n (n - 1)).Pairwise (· < ·) := List.pairwise_lt_range'
  have h1 : ∃ a, atomicTso n perm ao = some a ∧ a.Perm (List.range n) ∧ (ao = .level → a.Pairwise (· > ·)) ∧ (ao = .reverseLevel → a.Pairwise (· < ·)) := by
    cases ao
    · exact ⟨_, rfl, List.Perm.refl _, fun h => absurd h (by decide), fun _ => r1⟩
    · exact ⟨_, rfl, List.reverse_perm _, fun _ => List.pairwise_reverse.mpr r1, fun h => absurd h (by decide)⟩
    · exact ⟨_, if_pos (hp _), hp _, fun h => absurd h (by decide), fun h => absurd h (by decide)⟩
  have h2 : ∃ p, productTso n perm po = some p ∧ p.Perm (List.range' n (n - 1)) ∧ (po = .newToOld → p.Pairwise (· > ·)) ∧ (po = .oldToNew → p.Pairwise (· < ·)) := by
    cases po
    · exact ⟨_, rfl, List.Perm.refl _, fun h => absurd h (by decide), fun _ => r2⟩
    · exact ⟨_, rfl, List.reverse_perm _, fun _ => List.pairwise_reverse.mpr r2, fun h => absurd h (by decide)⟩
    · exact ⟨_, if_pos (hp _), hp _, fun h => absurd h (by decide), fun h => absurd h (by decide)⟩
  obtain ⟨a, ea, a1, a2, a3⟩ := h1
  obtain ⟨p, ep, p1, p2, p3⟩ := h2
  exact ⟨_, by unfold candidateOrder; rw [ea, ep], a, p, rfl, a1, p1, a2, a3, p2, p3⟩

theorem totalOrderOf_spec {n : Nat} {ao : AtomicOrder} {po : ProductOrder} {af : Bool} {l : List Nat} (h : TotalOrderOf n ao po af l) :
    l.Nodup ∧ (∀ i, i ∈ l ↔ i < 2 * n - 1) ∧ l.length = 2 * n - 1 := by
  obtain ⟨a, p, rfl, ha, hp, -⟩ := h
  have hall : (a ++ p).Perm (List.range (2 * n - 1)) := by
    refine (ha.append hp).trans ?_
    rw [List.range_eq_range', List.range_eq_range']
    have e : 2 * n - 1 = n + (n - 1) := by omega
    rw [e, ← List.range'_append (s := 0) (m := n) (n := n - 1)]
    simp
  have hboth : (if af then a ++ p else p ++ a).Perm (List.range (2 * n - 1)) := by
    cases af
    · exact List.perm_append_comm.trans hall
    · exact hall
  refine ⟨hboth.nodup_iff.mpr List.nodup_range, fun i => ?_, ?_⟩
  · rw [hboth.mem_iff, List.mem_range]
  · rw [hboth.length_eq, List.length_range]

end Verif.Mas
