import Verif.Lemmas.LmCutSecond

/-
LM-cut: the loop over the rounds.
-/
namespace Verif.LmCut
open Verif.AdaptiveQueue Verif.Relax

variable {T : LTask} (H : StdHeap Nat)

theorem cutCost_le (c : Nat → Nat) : ∀ (cut : List Nat) (b : Nat), cut.foldl (fun m i => min m (c i)) b ≤ b ∧ (∀ i ∈ cut, cut.foldl (fun m i => min m (c i)) b ≤ c i) ∧
    (0 < b → (∀ i ∈ cut, 0 < c i) → 0 < cut.foldl (fun m i => min m (c i)) b)
  | [], b => ⟨Nat.le_refl _, by simp, fun h _ => h⟩
  | i :: cut, b => by
    obtain ⟨h1, h2, h3⟩ := cutCost_le c cut (min b (c i))
    simp only [List.foldl_cons]
    refine ⟨by omega, ?_, ?_⟩
    · intro j hj
      rcases List.mem_cons.mp hj with e | e
      · subst e; omega
      · exact h2 j e
    · intro hb hc
      exact h3 (by have := hc i (by simp); omega) (fun j hj => hc j (by simp [hj]))

theorem reduce_spec (m : Nat) : ∀ (cut : List Nat) (c : Nat → Nat), cut.Nodup → (∀ i ∈ cut, m ≤ c i) → reduce m cut c = some (fun i => if i ∈ cut then c i - m else c i)
  | [], c, _, _ => by simp [reduce]
  | i :: cut, c, hnd, hm => by
    obtain ⟨h1, h2⟩ := List.nodup_cons.mp hnd
    unfold reduce
    rw [if_pos (hm i (by simp)), reduce_spec m cut _ h2 (fun j hj => by
      have : j ≠ i := fun e => h1 (e ▸ hj)
      simp only [upd, if_neg this]; exact hm j (by simp [hj]))]
    congr 1
    funext j
    simp only [upd, List.mem_cons]
    by_cases e : j = i
    · subst e; simp [h1]
    · simp [e]

/-- the total cost of the landmarks that contain `i` -/
def charge (cuts : List (List Nat × Nat)) (i : Nat) : Nat := (cuts.map (fun l => if i ∈ l.1 then l.2 else 0)).sum

/-- h^max of the goal drops by at most the cost of the landmark -/
theorem hmax_drop {c c' : Nat → Nat} {F : List Nat} {st : St} {x : Second} {m n : Nat} (h : Stable T c F st) (hx : CutOk T c F st x) (hm : ∀ i ∈ x.cut, m ≤ c i) (hc : ∀ i, c' i = if i ∈ x.cut then c i - m else c i)
    {p : Nat} (hp : LLe T c' F p n) : min (st.h p) (st.h T.artGoal - m) ≤ n := by
  induction hp with
  | init p n hp => rw [(h.init p hp).2]; omega
  | op i o k e n ho hpre he hle ih =>
    obtain ⟨q, hq⟩ := Option.ne_none_iff_exists'.mp (h.full i o ho (fun r hr => h.reached (hpre r hr).reach))
    obtain ⟨a1, _, _, a4, _⟩ := h.supp i o q ho hq
    have h1 := (a4 e he).2
    have h2 := ih q a1
    have h3 := hc i
    by_cases hi : i ∈ x.cut
    · rw [if_pos hi] at h3
      have h4 := hx.over i hi q hq
      have h5 := hm i hi
      omega
    · rw [if_neg hi] at h3
      omega

theorem round_spec (hT : LOk T) {c : Nat → Nat} (hS : sumN T.ops.length c < 2 ^ 31) {facts : List Nat} {st : St} (h : Stable T c (facts ++ [T.artPre]) st) (hnd : (facts ++ [T.artPre]).Nodup)
    (hs : ∀ q, st.status q = .unreached ∨ st.status q = .reached) (hg : st.Reached T.artGoal) (hpos : st.h T.artGoal ≠ 0) :
    ∃ (cut : List Nat) (m : Nat) (st' : St) (c' : Nat → Nat), round H T facts st = some ((cut.map (fun i => (T.ops[i]?).bind (·.opId)), m), st') ∧ Stable T c' (facts ++ [T.artPre]) st' ∧ (∀ q, st'.status q = .unreached ∨ st'.status q = .reached) ∧ st'.Reached T.artGoal ∧
      cut.Nodup ∧ (∀ i ∈ cut, ∃ o, T.ops[i]? = some o) ∧ (∀ i ∈ cut, 0 < c i ∧ m ≤ c i) ∧ 0 < m ∧ (∀ i, c' i = if i ∈ cut then c i - m else c i) ∧
      (∀ R : Nat → Prop, LReach T R (facts ++ [T.artPre]) T.artGoal → ∃ i ∈ cut, R i) ∧ st.h T.artGoal ≤ st'.h T.artGoal + m := by
  obtain ⟨status, x, k1, k2, k3⟩ := second_spec hT h hnd hs hg hpos
  obtain ⟨i0, hi0, _⟩ := k3.landmark (fun _ => True) ((h.reached_iff _).mp hg)
  obtain ⟨m, hmdef⟩ : ∃ m, m = cutCost st.cost x.cut := ⟨_, rfl⟩
  obtain ⟨c1, c2, c3⟩ := cutCost_le c x.cut (2 ^ 31 - 1)
  have hm' : m = x.cut.foldl (fun m i => min m (c i)) (2 ^ 31 - 1) := by rw [hmdef, cutCost, h.cost]
  rw [← hm'] at c1 c2 c3
  have hmpos : 0 < m := c3 (by omega) k3.pos
  have hred := reduce_spec m x.cut c k3.nodup c2
  obtain ⟨c', hc'⟩ : ∃ c', c' = fun i => if i ∈ x.cut then c i - m else c i := ⟨_, rfl⟩
  have hc'i : ∀ i, c' i = if i ∈ x.cut then c i - m else c i := by rw [hc']; intro i; rfl
  obtain ⟨st', j1, j2, j3⟩ := incremental_spec H h (c' := c') (cut := x.cut) (fun i => by rw [hc'i]; split <;> omega) (fun i hi => by rw [hc'i, if_neg hi]) k3.supp x.status k3.status
  have hre : ∀ q, St.Reached { st' with status := resetStatus T st'.status } q ↔ st'.Reached q := by
    intro q
    unfold St.Reached
    simp only [resetStatus]
    split
    · rename_i hq
      have : st'.status q ≠ .unreached := by
        rcases hq with e | e
        · rw [e]; exact (j3 _).mpr hg
        · rw [e]; exact (j2.init T.artPre (by simp)).1
      simp [this]
    · split
      · rename_i hq
        rcases hq with e | e <;> simp [e]
      · exact Iff.rfl
  refine ⟨x.cut, m, { st' with status := resetStatus T st'.status }, c', ?_, ?_, ?_, (hre _).mpr ((j3 _).mpr hg), k3.nodup, ?_, fun i hi => ⟨k3.pos i hi, c2 i hi⟩, hmpos, hc'i, k3.landmark, ?_⟩
  · unfold round
    rw [k1]
    simp only
    rw [k2]
    simp only
    rw [← hmdef]
    have hredc : reduce m x.cut st.cost = some c' := by rw [h.cost, hred, hc']
    rw [hredc]
    simp only
    rw [j1]
  · exact ⟨j2.rep, j2.cost, fun q hq => j2.range q ((hre q).mp hq), fun q hq => j2.sound q ((hre q).mp hq), fun q hq => ⟨(hre q).mpr (j2.init q hq).1, (j2.init q hq).2⟩,
      fun i o q ho hq => by
        obtain ⟨a1, a2, a3, a4, a5⟩ := j2.supp i o q ho hq
        exact ⟨a1, a2, fun r hr => ⟨(hre r).mpr (a3 r hr).1, (a3 r hr).2⟩, fun e he => ⟨(hre e).mpr (a4 e he).1, (a4 e he).2⟩, a5⟩,
      fun i o ho hall => j2.full i o ho (fun r hr => (hre r).mp (hall r hr))⟩
  · intro q
    show resetStatus T st'.status q = _ ∨ resetStatus T st'.status q = _
    unfold resetStatus
    split
    · exact Or.inr rfl
    · split
      · exact Or.inr rfl
      · rename_i h2
        cases hq : st'.status q <;> simp_all
  · intro i hi
    obtain ⟨o, q, a, _⟩ := k3.supp i hi
    exact ⟨o, a⟩
  · have := hmax_drop h k3 c2 hc'i (j2.sound _ ((j3 _).mpr hg))
    show st.h T.artGoal ≤ st'.h T.artGoal + m
    omega

theorem sumN_drop {n i : Nat} {c c' : Nat → Nat} {m : Nat} (hi : i < n) (hc : ∀ j, c' j ≤ c j) (hci : c' i + m ≤ c i) : sumN n c' + m ≤ sumN n c := by
  have h1 := sumN_upd hi c' (c' i + m)
  have h2 : sumN n (upd c' i (c' i + m)) ≤ sumN n c := sumN_mono (fun j _ => by
    simp only [upd]
    split
    · rename_i e; subst e; exact hci
    · exact hc j)
  omega

/-- what the loop finds, for original costs `c` -/
structure RoundsOk (T : LTask) (facts : List Nat) (c : Nat → Nat) (K : Nat) (cuts : List (List Nat × Nat)) (c' : Nat → Nat) (st' : St) : Prop where
  stable : Stable T c' (facts ++ [T.artPre]) st'
  goal : st'.Reached T.artGoal ∧ st'.h T.artGoal = 0
  nodup : ∀ l ∈ cuts, l.1.Nodup
  ops : ∀ l ∈ cuts, ∀ i ∈ l.1, 0 < c i ∧ ∃ o, T.ops[i]? = some o
  pos : ∀ l ∈ cuts, 0 < l.2
  landmark : ∀ l ∈ cuts, ∀ R : Nat → Prop, LReach T R (facts ++ [T.artPre]) T.artGoal → ∃ i ∈ l.1, R i
  charge : ∀ i, c' i + charge cuts i = c i
  total : sumN T.ops.length c' + (cuts.map (·.2)).sum ≤ sumN T.ops.length c
  hmax : K ≤ (cuts.map (·.2)).sum

theorem rounds_spec (hT : LOk T) {facts : List Nat} (hnd : (facts ++ [T.artPre]).Nodup) : ∀ (N : Nat) (c : Nat → Nat) (st : St) (ls : List Landmark), sumN T.ops.length c = N → N < 2 ^ 31 →
    Stable T c (facts ++ [T.artPre]) st → (∀ q, st.status q = .unreached ∨ st.status q = .reached) → st.Reached T.artGoal →
    ∃ (cuts : List (List Nat × Nat)) (st' : St) (c' : Nat → Nat), rounds H T facts ls st = some (ls ++ cuts.map (fun l => (l.1.map (fun i => (T.ops[i]?).bind (·.opId)), l.2)), st') ∧ RoundsOk T facts c (st.h T.artGoal) cuts c' st' := by
  intro N
  induction N using Nat.strong_induction_on with
  | _ N ih =>
    intro c st ls hN hlt h hs hg
    rw [rounds]
    by_cases hz : st.h T.artGoal = 0
    · rw [if_pos hz]
      refine ⟨[], st, c, by simp, h, ⟨hg, hz⟩, by simp, by simp, by simp, by simp, by simp [LmCut.charge], by simp, by simp [hz]⟩
    · rw [if_neg hz]
      obtain ⟨cut, m, st1, c1, k1, k2, k3, k4, k5, k6, k7, k8, k9, k10, k11⟩ := round_spec H hT (by omega) h hnd hs hg hz
      rw [k1]
      simp only
      obtain ⟨i0, hi0, _⟩ := k10 (fun _ => True) ((h.reached_iff _).mp hg)
      obtain ⟨o0, ho0⟩ := k6 i0 hi0
      have hlen : i0 < T.ops.length := (List.getElem?_eq_some_iff.mp ho0).1
      have hle : ∀ i, c1 i ≤ c i := fun i => by rw [k9]; split <;> omega
      have hdrop : sumN T.ops.length c1 + m ≤ sumN T.ops.length c := sumN_drop hlen hle (by
        have h1 := (k7 i0 hi0).2
        have h2 := k9 i0
        rw [if_pos hi0] at h2
        omega)
      obtain ⟨cuts, st', c', j1, j2⟩ := ih (sumN T.ops.length c1) (by omega) c1 st1 (ls ++ [(cut.map (fun i => (T.ops[i]?).bind (·.opId)), m)]) rfl (by omega) k2 k3 k4
      refine ⟨(cut, m) :: cuts, st', c', ?_, j2.stable, j2.goal, ?_, ?_, ?_, ?_, ?_, ?_, ?_⟩
      · rw [j1]; simp
      · intro l hl
        rcases List.mem_cons.mp hl with e | e
        · subst e; exact k5
        · exact j2.nodup l e
      · intro l hl i hi
        rcases List.mem_cons.mp hl with e | e
        · subst e; exact ⟨(k7 i hi).1, k6 i hi⟩
        · obtain ⟨a, b⟩ := j2.ops l e i hi
          exact ⟨Nat.lt_of_lt_of_le a (hle i), b⟩
      · intro l hl
        rcases List.mem_cons.mp hl with e | e
        · subst e; exact k8
        · exact j2.pos l e
      · intro l hl
        rcases List.mem_cons.mp hl with e | e
        · subst e; exact k10
        · exact j2.landmark l e
      · intro i
        have h1 := j2.charge i
        have h2 := k9 i
        simp only [LmCut.charge, List.map_cons, List.sum_cons] at h1 ⊢
        by_cases hi : i ∈ cut
        · rw [if_pos hi] at h2 ⊢
          have := (k7 i hi).2
          omega
        · rw [if_neg hi] at h2 ⊢
          omega
      · have h1 := j2.total
        simp only [List.map_cons, List.sum_cons]
        omega
      · have h1 := j2.hmax
        simp only [List.map_cons, List.sum_cons]
        omega

theorem sumLandmarks_spec : ∀ (ls : List Landmark) (n : Nat), n + (ls.map (·.2)).sum < 2 ^ 31 → sumLandmarks ls n = some (n + (ls.map (·.2)).sum)
  | [], n, _ => by simp [sumLandmarks]
  | l :: ls, n, h => by
    simp only [List.map_cons, List.sum_cons] at h ⊢
    unfold sumLandmarks
    rw [if_pos (by omega), sumLandmarks_spec ls (n + l.2) (by omega)]
    congr 1
    omega

/-- what compute_landmarks computes -/
theorem computeLandmarks_spec (hT : LOk T) {facts : List Nat} (hF : ∀ q ∈ facts ++ [T.artPre], q < T.numProps) (hnd : (facts ++ [T.artPre]).Nodup)
    {c : Nat → Nat} (hc : c = fun i => ((T.ops[i]?).map (·.base)).getD 0) (hS : sumN T.ops.length c < 2 ^ 31) {st : St} {bag : List (Entry Nat)} (hrep : Rep st.queue bag) :
    (¬LReach T (fun _ => True) (facts ++ [T.artPre]) T.artGoal ∧ ∃ st', computeLandmarks H T facts st = some (none, st') ∧ Rep st'.queue []) ∨
    ∃ (cuts : List (List Nat × Nat)) (st' : St) (c' : Nat → Nat) (K : Nat), computeLandmarks H T facts st = some (some (cuts.map (fun l => (l.1.map (fun i => (T.ops[i]?).bind (·.opId)), l.2))), st') ∧
      RoundsOk T facts c K cuts c' st' ∧ LLe T c (facts ++ [T.artPre]) T.artGoal K ∧ ∀ n, LLe T c (facts ++ [T.artPre]) T.artGoal n → K ≤ n := by
  obtain ⟨st1, k1, k2, k3⟩ := first_spec H hT hS hF (st := { st with cost := fun i => ((T.ops[i]?).map (·.base)).getD 0 }) hrep hc.symm
  unfold computeLandmarks
  rw [k1]
  simp only
  by_cases hu : st1.status T.artGoal = .unreached
  · rw [if_pos hu]
    left
    exact ⟨fun hr => (k2.reached hr) hu, st1, rfl, k2.rep⟩
  · rw [if_neg hu]
    right
    obtain ⟨cuts, st', c', j1, j2⟩ := rounds_spec H hT hnd _ c st1 [] rfl hS k2 k3 hu
    refine ⟨cuts, st', c', st1.h T.artGoal, ?_, j2, k2.sound _ hu, fun n hn => k2.le hn⟩
    rw [j1]
    simp

end Verif.LmCut
