import Verif.Model.LandmarkHeuristics
import Verif.Lemmas.LandmarkInv
import Mathlib.Algebra.BigOperators.Group.Finset.Piecewise
import Mathlib.Algebra.BigOperators.Ring.Finset
import Mathlib.Algebra.Order.BigOperators.Group.Finset
import Mathlib.Algebra.Order.Field.Rat
import Mathlib.Tactic.Ring
import Mathlib.Tactic.FieldSimp
import Mathlib.Tactic.Linarith
import Mathlib.Tactic.Positivity

/- Uniform cost partitioning over landmarks: the three passes and the bound on the value. -/
namespace Verif.Landmarks

/-- the achievers of a landmark if it is future -/
def selAch (past future : Bits) (x : Node × Nat) : Option (List Int) :=
  if future[x.2]? = some true then some (getAchievers x.1.landmark ((past[x.2]?).getD false)) else none

theorem futureAchievers_eq {past future : Bits} {x : Node × Nat} (h1 : x.2 < past.length) (h2 : x.2 < future.length) :
    futureAchievers past future x = some (selAch past future x) := by
  unfold futureAchievers selAch
  rcases bit_cases h2 with e | e
  · rw [e, List.getElem?_eq_getElem h1]
    simp
  · rw [e]
    simp

/-- the ids of operators in a list of achievers -/
def ValidIds (n : Nat) (as : List Int) : Prop := ∀ a ∈ as, 0 ≤ a ∧ a < n

theorem opAt_nat {α : Type} (l : List α) (i : Nat) : opAt l (i : Int) = l[i]? := by
  unfold opAt
  rw [if_neg (by omega)]
  simp

theorem ValidIds.nat {n : Nat} {as : List Int} (h : ValidIds n as) {a : Int} (ha : a ∈ as) : ∃ i : Nat, a = i ∧ i < n := by
  obtain ⟨h1, h2⟩ := h a ha
  exact ⟨a.toNat, by omega, by omega⟩

theorem foldlM_addAt (d : Int) {n : Nat} : ∀ (as : List Int) (cnt : List Int), ValidIds n as → cnt.length = n →
    ∃ cnt', as.foldlM (addAt d) cnt = some cnt' ∧ cnt'.length = n ∧ ∀ i < n, (cnt'[i]?).getD 0 = (cnt[i]?).getD 0 + d * as.count (i : Int)
  | [], cnt, _, hl => ⟨cnt, rfl, hl, fun i _ => by simp⟩
  | a :: as, cnt, hv, hl => by
    obtain ⟨j, rfl, hj⟩ := hv.nat (List.mem_cons_self)
    have hx : cnt[j]? = some cnt[j] := List.getElem?_eq_getElem (by omega)
    obtain ⟨cnt', h1, h2, h3⟩ := foldlM_addAt d as (cnt.set j (cnt[j] + d)) (fun a ha => hv a (by simp [ha])) (by simp [hl])
    refine ⟨cnt', ?_, h2, fun i hi => ?_⟩
    · rw [List.foldlM_cons]
      have : addAt d cnt (j : Int) = some (cnt.set j (cnt[j] + d)) := by
        unfold addAt
        rw [opAt_nat, hx]
        simp
      rw [this]
      exact h1
    · rw [h3 i hi, List.getElem?_set, List.count_cons]
      by_cases hij : j = i
      · subst hij
        simp [hl, hj, hx]
        ring
      · have : ((j : Int) == (i : Int)) = false := by simpa using hij
        simp [hij, this]

/-- lists of achievers of the future landmarks in their order -/
def futs (past future : Bits) (xs : List (Node × Nat)) : List (List Int) := xs.filterMap (selAch past future)

def isSingle : List Int → Bool
  | [_] => true
  | _ => false

/-- the number of landmarks that an operator achieves, with repetitions -/
def countIn (fs : List (List Int)) (i : Nat) : Nat := (fs.map (fun as => as.count (i : Int))).sum

theorem countIn_cons (as : List Int) (fs : List (List Int)) (i : Nat) : countIn (as :: fs) i = as.count (i : Int) + countIn fs i := by simp [countIn]

def almCost (costs : List Nat) (alm : List Bool) : Nat := ∑ i ∈ Finset.range costs.length, if alm[i]? = some true then costs[i]?.getD 0 else 0

theorem almCost_set {costs : List Nat} {alm : List Bool} (hl : alm.length = costs.length) {j : Nat} (hj : j < costs.length) (h : alm[j]? = some false) :
    almCost costs (alm.set j true) = almCost costs alm + costs[j] := by
  unfold almCost
  have e : ∀ i, (if (alm.set j true)[i]? = some true then costs[i]?.getD 0 else 0) = (if alm[i]? = some true then costs[i]?.getD 0 else 0) + (if i = j then costs[j] else 0) := by
    intro i
    rw [List.getElem?_set]
    by_cases hij : j = i
    · subst hij
      rw [h]
      simp [hl, hj]
    · simp [hij, Ne.symm hij]
  rw [Finset.sum_congr rfl (fun i _ => e i), Finset.sum_add_distrib]
  congr 1
  rw [Finset.sum_ite_eq' (Finset.range costs.length) j, if_pos (Finset.mem_range.mpr hj)]

structure PassOk (costs : List Nat) (v : Pass) : Prop where
  lenC : v.cnt.length = costs.length
  lenA : v.alm.length = costs.length
  cost : v.cost = almCost costs v.alm

/-- what the first pass computes for one list of achievers -/
theorem firstPassNode_spec {costs : List Nat} {useAlm : Bool} {as : List Int} {v : Pass} (hv : ValidIds costs.length as) (h : PassOk costs v) :
    ∃ v', firstPassNode costs useAlm as v = some v' ∧ PassOk costs v' ∧
      (∀ i < costs.length, (v'.cnt[i]?).getD 0 = (v.cnt[i]?).getD 0 + if useAlm && isSingle as then 0 else (as.count (i : Int) : Int)) ∧
      (∀ i < costs.length, v'.alm[i]? = some true ↔ v.alm[i]? = some true ∨ (useAlm = true ∧ as = [(i : Int)])) := by
  have other : (useAlm && isSingle as) = false → firstPassNode costs useAlm as v = (as.foldlM (addAt 1) v.cnt).map (fun cnt => { v with cnt := cnt }) := by
    intro hb
    unfold firstPassNode
    split
    · simp [isSingle] at hb
    · rfl
  by_cases hb : (useAlm && isSingle as) = true
  · obtain ⟨hu, hs⟩ := Bool.and_eq_true_iff.mp hb
    subst hu
    match as, hs, hv with
    | [a], _, hv =>
      obtain ⟨j, rfl, hj⟩ := hv.nat (List.mem_cons_self)
      have hc : costs[j]? = some costs[j] := List.getElem?_eq_getElem hj
      rcases bit_cases (by rw [h.lenA]; exact hj : j < v.alm.length) with e | e
      · refine ⟨v, ?_, h, fun i hi => by simp [isSingle], fun i hi => ?_⟩
        · unfold firstPassNode
          simp only [opAt_nat, e]
        · constructor
          · exact Or.inl
          · rintro (h' | ⟨_, h'⟩)
            · exact h'
            · have : j = i := by simpa using h'
              rw [← this]; exact e
      · refine ⟨{ v with alm := v.alm.set j true, cost := v.cost + costs[j] }, ?_, ⟨h.lenC, by simp [h.lenA], ?_⟩, fun i hi => by simp [isSingle], fun i hi => ?_⟩
        · unfold firstPassNode
          simp only [opAt_nat, e, hc, Int.toNat_natCast]
        · simp only
          rw [almCost_set h.lenA hj e, h.cost]
        · simp only
          rw [List.getElem?_set]
          by_cases hij : j = i
          · subst hij; simp [h.lenA, hj]
          · simp [hij]
  · have hb' : (useAlm && isSingle as) = false := by simpa using hb
    obtain ⟨cnt', h1, h2, h3⟩ := foldlM_addAt 1 as v.cnt hv h.lenC
    refine ⟨{ v with cnt := cnt' }, ?_, ⟨h2, h.lenA, h.cost⟩, fun i hi => ?_, fun i hi => ?_⟩
    · rw [other hb', h1]; rfl
    · simp only [hb', h3 i hi]; simp
    · simp only
      constructor
      · exact Or.inl
      · rintro (h' | ⟨h', h''⟩)
        · exact h'
        · rw [h', h''] at hb'
          simp [isSingle] at hb'

theorem firstPass_spec {costs : List Nat} {useAlm : Bool} {past future : Bits} : ∀ (xs : List (Node × Nat)) (v : Pass),
    (∀ x ∈ xs, x.2 < past.length ∧ x.2 < future.length) → (∀ as ∈ futs past future xs, ValidIds costs.length as) → PassOk costs v →
    ([] ∈ futs past future xs ∧ firstPass costs useAlm past future xs v = some none) ∨
    ([] ∉ futs past future xs ∧ ∃ v', firstPass costs useAlm past future xs v = some (some v') ∧ PassOk costs v' ∧
      (∀ i < costs.length, (v'.cnt[i]?).getD 0 = (v.cnt[i]?).getD 0 + countIn ((futs past future xs).filter (fun as => !(useAlm && isSingle as))) i) ∧
      (∀ i < costs.length, v'.alm[i]? = some true ↔ v.alm[i]? = some true ∨ (useAlm = true ∧ [(i : Int)] ∈ futs past future xs)))
  | [], v, _, _, h => by
    refine Or.inr ⟨by simp [futs], v, rfl, h, fun i _ => by simp [futs, countIn], fun i _ => by simp [futs]⟩
  | x :: xs, v, h1, h2, h => by
    have e := futureAchievers_eq (h1 x (by simp)).1 (h1 x (by simp)).2
    unfold firstPass
    rw [e]
    have hfuts : futs past future (x :: xs) = match selAch past future x with | none => futs past future xs | some as => as :: futs past future xs := by
      unfold futs
      rw [List.filterMap_cons]
      cases selAch past future x <;> rfl
    cases hsel : selAch past future x with
    | none =>
      rw [hsel] at hfuts
      simp only at hfuts ⊢
      rw [hfuts]
      rw [hfuts] at h2
      exact firstPass_spec xs v (fun y hy => h1 y (by simp [hy])) h2 h
    | some as =>
      rw [hsel] at hfuts
      simp only at hfuts
      rw [hfuts]
      rw [hfuts] at h2
      cases as with
      | nil => exact Or.inl ⟨by simp, rfl⟩
      | cons a as =>
        simp only
        obtain ⟨v1, k1, k2, k3, k4⟩ := firstPassNode_spec (useAlm := useAlm) (h2 (a :: as) (by simp)) h
        rw [k1]
        simp only
        rcases firstPass_spec (useAlm := useAlm) xs v1 (fun y hy => h1 y (by simp [hy])) (fun z hz => h2 z (by simp [hz])) k2 with ⟨m1, m2⟩ | ⟨m1, v2, m2, m3, m4, m5⟩
        · exact Or.inl ⟨by simp [m1], m2⟩
        · refine Or.inr ⟨by simp [m1], v2, m2, m3, fun i hi => ?_, fun i hi => ?_⟩
          · rw [m4 i hi, k3 i hi, List.filter_cons]
            by_cases hb : (useAlm && isSingle (a :: as)) = true
            · simp [hb]
            · have hb' : (useAlm && isSingle (a :: as)) = false := by simpa using hb
              simp only [hb', Bool.not_false, if_true, countIn_cons]
              push_cast
              simp
              ring
          · rw [m5 i hi, k4 i hi, or_assoc]
            refine or_congr Iff.rfl ?_
            rw [List.mem_cons]
            constructor
            · rintro (⟨a1, a2⟩ | ⟨a1, a2⟩)
              · exact ⟨a1, Or.inl a2.symm⟩
              · exact ⟨a1, Or.inr a2⟩
            · rintro ⟨a1, a2 | a2⟩
              · exact Or.inl ⟨a1, a2.symm⟩
              · exact Or.inr ⟨a1, a2⟩

/-- one of the achievers is an action landmark -/
def covered (alm : List Bool) (as : List Int) : Bool := as.any (fun a => alm[a.toNat]? == some true)

theorem coveredByActionLandmark_eq {n : Nat} {alm : List Bool} (hl : alm.length = n) : ∀ (as : List Int), ValidIds n as → coveredByActionLandmark alm as = some (covered alm as)
  | [], _ => rfl
  | a :: as, hv => by
    obtain ⟨j, rfl, hj⟩ := hv.nat (List.mem_cons_self)
    have ih := coveredByActionLandmark_eq hl as (fun a ha => hv a (by simp [ha]))
    unfold coveredByActionLandmark
    rw [opAt_nat]
    rcases bit_cases (by rw [hl]; exact hj : j < alm.length) with e | e
    · rw [e]
      simp [covered, e]
    · rw [e]
      simp only [ih, covered, List.any_cons, Int.toNat_natCast, e]
      simp

theorem secondPass_spec {n : Nat} {alm : List Bool} (hl : alm.length = n) {past future : Bits} : ∀ (xs : List (Node × Nat)) (cnt : List Int) (unc : List (List Int)),
    (∀ x ∈ xs, x.2 < past.length ∧ x.2 < future.length) → (∀ as ∈ futs past future xs, ValidIds n as) → cnt.length = n →
    ∃ cnt', secondPass alm past future xs cnt unc = some (cnt', unc ++ (futs past future xs).filter (fun as => !covered alm as)) ∧ cnt'.length = n ∧
      ∀ i < n, (cnt'[i]?).getD 0 = (cnt[i]?).getD 0 - countIn ((futs past future xs).filter (fun as => covered alm as)) i
  | [], cnt, unc, _, _, h => ⟨cnt, by simp [secondPass, futs], h, fun i _ => by simp [futs, countIn]⟩
  | x :: xs, cnt, unc, h1, h2, h => by
    have e := futureAchievers_eq (h1 x (by simp)).1 (h1 x (by simp)).2
    unfold secondPass
    rw [e]
    have hfuts : futs past future (x :: xs) = match selAch past future x with | none => futs past future xs | some as => as :: futs past future xs := by
      unfold futs
      rw [List.filterMap_cons]
      cases selAch past future x <;> rfl
    cases hsel : selAch past future x with
    | none =>
      rw [hsel] at hfuts
      simp only at hfuts ⊢
      rw [hfuts]
      rw [hfuts] at h2
      exact secondPass_spec hl xs cnt unc (fun y hy => h1 y (by simp [hy])) h2 h
    | some as =>
      rw [hsel] at hfuts
      simp only at hfuts ⊢
      rw [hfuts]
      rw [hfuts] at h2
      rw [coveredByActionLandmark_eq hl as (h2 as (by simp))]
      cases hcov : covered alm as with
      | true =>
        obtain ⟨c1, k1, k2, k3⟩ := foldlM_addAt (-1) as cnt (h2 as (by simp)) h
        simp only [k1]
        obtain ⟨c2, m1, m2, m3⟩ := secondPass_spec hl xs c1 unc (fun y hy => h1 y (by simp [hy])) (fun z hz => h2 z (by simp [hz])) k2
        refine ⟨c2, ?_, m2, fun i hi => ?_⟩
        · rw [m1, List.filter_cons]; simp [hcov]
        · rw [m3 i hi, k3 i hi, List.filter_cons]
          simp only [hcov, if_true, countIn_cons]
          push_cast
          ring
      | false =>
        simp only
        obtain ⟨c2, m1, m2, m3⟩ := secondPass_spec hl xs cnt (unc ++ [as]) (fun y hy => h1 y (by simp [hy])) (fun z hz => h2 z (by simp [hz])) h
        refine ⟨c2, ?_, m2, fun i hi => ?_⟩
        · rw [m1, List.filter_cons]; simp [hcov]
        · rw [m3 i hi, List.filter_cons]
          simp [hcov]

/-- the cost of an operator in the partition -/
def shareOf (costs : List Nat) (cnt : List Int) (i : Nat) : Rat := (costs[i]?.getD 0 : Nat) / ((cnt[i]?.getD 0 : Int) : Rat)

theorem minPartitionedCost_spec {costs : List Nat} {cnt : List Int} (hl : cnt.length = costs.length) : ∀ (as : List Int), ValidIds costs.length as →
    (∀ i : Nat, (i : Int) ∈ as → 1 ≤ cnt[i]?.getD 0) → as ≠ [] →
    ∃ m, minPartitionedCost costs cnt as = some (some m) ∧ (∀ i : Nat, (i : Int) ∈ as → m ≤ shareOf costs cnt i) ∧ ∃ i : Nat, (i : Int) ∈ as ∧ m = shareOf costs cnt i
  | [], _, _, h => absurd rfl h
  | a :: as, hv, hc, _ => by
    obtain ⟨j, rfl, hj⟩ := hv.nat (List.mem_cons_self)
    have e1 : cnt[j]? = some cnt[j] := List.getElem?_eq_getElem (by omega)
    have e2 : costs[j]? = some costs[j] := List.getElem?_eq_getElem hj
    have hc1 := hc j (by simp)
    have hshare : ((costs[j] : Nat) : Rat) / ((cnt[j] : Int) : Rat) = shareOf costs cnt j := by simp [shareOf, e1, e2]
    simp only [e1, Option.getD_some] at hc1
    unfold minPartitionedCost
    simp only [opAt_nat, e1, e2, if_pos hc1, hshare]
    by_cases hne : as = []
    · subst hne
      simp only [minPartitionedCost]
      refine ⟨_, rfl, fun i hi => ?_, j, by simp, rfl⟩
      have : i = j := by simpa using hi
      rw [this]
    · obtain ⟨m, k1, k2, i0, k3, k4⟩ := minPartitionedCost_spec hl as (fun a ha => hv a (by simp [ha])) (fun i hi => hc i (by simp [hi])) hne
      rw [k1]
      refine ⟨_, rfl, fun i hi => ?_, ?_⟩
      · rcases List.mem_cons.mp hi with h' | h'
        · have : i = j := by simpa using h'
          rw [this]
          exact min_le_left _ _
        · exact le_trans (min_le_right _ _) (k2 i h')
      · rcases le_total (shareOf costs cnt j) m with h' | h'
        · exact ⟨j, by simp, min_eq_left h'⟩
        · exact ⟨i0, by simp [k3], by rw [min_eq_right h', k4]⟩

/-- the cost that a landmark gets in the partition -/
def minShare (costs : List Nat) (cnt : List Int) (as : List Int) : Rat :=
  match minPartitionedCost costs cnt as with
  | some (some m) => m
  | _ => 0

theorem thirdPass_spec {costs : List Nat} {cnt : List Int} (hl : cnt.length = costs.length) : ∀ (us : List (List Int)) (c : Rat), (∀ as ∈ us, ValidIds costs.length as) →
    (∀ as ∈ us, ∀ i : Nat, (i : Int) ∈ as → 1 ≤ cnt[i]?.getD 0) → [] ∉ us →
    thirdPass costs cnt us c = some (c + (us.map (minShare costs cnt)).sum)
  | [], c, _, _, _ => by simp [thirdPass]
  | as :: us, c, h1, h2, h3 => by
    obtain ⟨m, k1, k2, _⟩ := minPartitionedCost_spec hl as (h1 as (by simp)) (h2 as (by simp)) (fun h => h3 (by simp [h]))
    unfold thirdPass
    simp only [k1]
    rw [thirdPass_spec hl us (c + m) (fun x hx => h1 x (by simp [hx])) (fun x hx => h2 x (by simp [hx])) (fun h => h3 (by simp [h]))]
    have : minShare costs cnt as = m := by simp [minShare, k1]
    simp [this]
    ring

theorem minShare_le {costs : List Nat} {cnt : List Int} (hl : cnt.length = costs.length) {as : List Int} (h1 : ValidIds costs.length as)
    (h2 : ∀ i : Nat, (i : Int) ∈ as → 1 ≤ cnt[i]?.getD 0) {i : Nat} (hi : (i : Int) ∈ as) : minShare costs cnt as ≤ shareOf costs cnt i := by
  obtain ⟨m, k1, k2, _⟩ := minPartitionedCost_spec hl as h1 h2 (fun h => by rw [h] at hi; cases hi)
  simp only [minShare, k1]
  exact k2 i hi

theorem minShare_nonneg {costs : List Nat} {cnt : List Int} (hl : cnt.length = costs.length) {as : List Int} (h1 : ValidIds costs.length as)
    (h2 : ∀ i : Nat, (i : Int) ∈ as → 1 ≤ cnt[i]?.getD 0) (h3 : as ≠ []) : 0 ≤ minShare costs cnt as := by
  obtain ⟨m, k1, _, i, hi, k2⟩ := minPartitionedCost_spec hl as h1 h2 h3
  simp only [minShare, k1, k2, shareOf]
  have : (1 : Rat) ≤ ((cnt[i]?.getD 0 : Int) : Rat) := by exact_mod_cast h2 i hi
  positivity

theorem countIn_filter_add (p : List Int → Bool) (fs : List (List Int)) (i : Nat) : countIn fs i = countIn (fs.filter p) i + countIn (fs.filter (fun x => !p x)) i := by
  induction fs with
  | nil => simp [countIn]
  | cons as fs ih =>
    rw [countIn_cons, ih, List.filter_cons, List.filter_cons]
    cases p as <;> simp [countIn_cons] <;> omega

theorem countIn_mem {fs : List (List Int)} {as : List Int} (h : as ∈ fs) {i : Nat} (hi : (i : Int) ∈ as) : 1 ≤ countIn fs i := by
  induction fs with
  | nil => cases h
  | cons b fs ih =>
    rw [countIn_cons]
    rcases List.mem_cons.mp h with rfl | h
    · have := List.count_pos_iff.mpr hi
      omega
    · have := ih h; omega

/-- The uniform cost partitioning over the future landmarks is defined and characterised by its parts. -/
theorem uniformValue_parts {g : Graph} {costs : List Nat} {useAlm : Bool} {past future : Bits} (hp : past.length = g.length) (hf : future.length = g.length)
    (hv : ∀ as ∈ futs past future g.zipIdx, ValidIds costs.length as) :
    ([] ∈ futs past future g.zipIdx ∧ uniformValue g costs useAlm past future = some none) ∨
    ([] ∉ futs past future g.zipIdx ∧ ∃ (alm : List Bool) (cnt : List Int),
      alm.length = costs.length ∧ cnt.length = costs.length ∧
      (∀ i < costs.length, alm[i]? = some true ↔ useAlm = true ∧ [(i : Int)] ∈ futs past future g.zipIdx) ∧
      (∀ i < costs.length, alm[i]? = some false → cnt[i]?.getD 0 = countIn ((futs past future g.zipIdx).filter (fun as => !covered alm as)) i) ∧
      (∀ as ∈ (futs past future g.zipIdx).filter (fun as => !covered alm as), ∀ i : Nat, (i : Int) ∈ as → alm[i]? = some false ∧ 1 ≤ cnt[i]?.getD 0) ∧
      uniformValue g costs useAlm past future = some (some ((almCost costs alm : Rat) + (((futs past future g.zipIdx).filter (fun as => !covered alm as)).map (minShare costs cnt)).sum))) := by
  set F := futs past future g.zipIdx with hF
  have hb : ∀ x ∈ g.zipIdx, x.2 < past.length ∧ x.2 < future.length := fun x hx => by
    rw [hp, hf]; exact ⟨zipIdx_lt hx, zipIdx_lt hx⟩
  have hok : PassOk costs ⟨List.replicate costs.length 0, List.replicate costs.length false, 0⟩ := by
    refine ⟨by simp, by simp, ?_⟩
    simp only [almCost]
    symm
    refine Finset.sum_eq_zero fun i _ => ?_
    simp [List.getElem?_replicate]
  rcases firstPass_spec (useAlm := useAlm) g.zipIdx _ hb hv hok with ⟨h1, h2⟩ | ⟨h1, v, h2, h3, h4, h5⟩
  · left
    refine ⟨h1, ?_⟩
    unfold uniformValue
    rw [h2]
  · right
    refine ⟨h1, ?_⟩
    obtain ⟨cnt, k1, k2, k3⟩ := secondPass_spec h3.lenA g.zipIdx v.cnt [] hb hv h3.lenC
    have halm : ∀ i < costs.length, v.alm[i]? = some true ↔ useAlm = true ∧ [(i : Int)] ∈ F := by
      intro i hi
      rw [h5 i hi]
      simp [List.getElem?_replicate, hF]
    have hcnt : ∀ i < costs.length, v.alm[i]? = some false → cnt[i]?.getD 0 = countIn (F.filter (fun as => !covered v.alm as)) i := by
      intro i hi hai
      rw [k3 i hi, h4 i hi]
      simp only [List.getElem?_replicate, hi, if_true, Option.getD_some]
      rw [← hF]
      have e1 := countIn_filter_add (fun as => !(useAlm && isSingle as)) F i
      have e2 := countIn_filter_add (fun as => covered v.alm as) F i
      have e3 : countIn (F.filter (fun x => !!(useAlm && isSingle x))) i = 0 := by
        unfold countIn
        refine List.sum_eq_zero fun m hm => ?_
        obtain ⟨as, has, rfl⟩ := List.mem_map.mp hm
        obtain ⟨hm1, hm2⟩ := List.mem_filter.mp has
        simp only [Bool.not_not, Bool.and_eq_true] at hm2
        match as, hm2.2 with
        | [a], _ =>
          rw [List.count_eq_zero]
          intro hmem
          have : (i : Int) = a := by simpa using hmem
          subst this
          have := (halm i hi).mpr ⟨hm2.1, hm1⟩
          rw [hai] at this
          cases this
      omega
    have hunc : ∀ as ∈ F.filter (fun as => !covered v.alm as), ∀ i : Nat, (i : Int) ∈ as → v.alm[i]? = some false ∧ 1 ≤ cnt[i]?.getD 0 := by
      intro as has i hi
      obtain ⟨m1, m2⟩ := List.mem_filter.mp has
      have hlt : i < costs.length := by
        have := (hv as m1 _ hi).2
        omega
      have hai : v.alm[i]? = some false := by
        rcases bit_cases (by rw [h3.lenA]; exact hlt : i < v.alm.length) with e | e
        · have : covered v.alm as = true := by
            unfold covered
            rw [List.any_eq_true]
            exact ⟨_, hi, by simp [e]⟩
          rw [this] at m2
          cases m2
        · exact e
      refine ⟨hai, ?_⟩
      rw [hcnt i hlt hai]
      exact_mod_cast countIn_mem has hi
    refine ⟨v.alm, cnt, h3.lenA, k2, halm, hcnt, hunc, ?_⟩
    unfold uniformValue
    rw [h2]
    simp only [k1]
    rw [List.nil_append, ← hF, thirdPass_spec k2 _ 0 (fun as has => hv as (List.mem_filter.mp has).1) (fun as has i hi => (hunc as has i hi).2) (fun h => h1 (List.mem_filter.mp h).1)]
    simp only [zero_add]
    rw [h3.cost]

/-- double counting: the shares of the landmarks that are hit by a set of operators -/
theorem sum_shares_le {costs : List Nat} {cnt : List Int} {H : Finset Nat} (f : List Int → Rat) : ∀ (us : List (List Int)),
    (∀ as ∈ us, 0 ≤ f as) → (∀ as ∈ us, ∃ i ∈ H, (i : Int) ∈ as) → (∀ as ∈ us, ∀ i : Nat, (i : Int) ∈ as → f as ≤ shareOf costs cnt i) →
    (us.map f).sum ≤ ∑ i ∈ H, (countIn us i : Rat) * shareOf costs cnt i ∨ ∃ i ∈ H, shareOf costs cnt i < 0
  | [], _, _, _ => by simp [countIn]
  | as :: us, h0, h1, h2 => by
    by_cases hneg : ∃ i ∈ H, shareOf costs cnt i < 0
    · exact Or.inr hneg
    rcases sum_shares_le f us (fun x hx => h0 x (by simp [hx])) (fun x hx => h1 x (by simp [hx])) (fun x hx => h2 x (by simp [hx])) with ih | ih
    · left
      simp only [List.map_cons, List.sum_cons, countIn_cons]
      push_cast
      simp only [add_mul, Finset.sum_add_distrib]
      refine add_le_add ?_ ih
      obtain ⟨i, hi, hia⟩ := h1 as (by simp)
      push Not at hneg
      calc f as ≤ shareOf costs cnt i := h2 as (by simp) i hia
        _ ≤ (as.count (i : Int) : Rat) * shareOf costs cnt i := by
            have : (1 : Rat) ≤ (as.count (i : Int) : Rat) := by exact_mod_cast List.count_pos_iff.mpr hia
            nlinarith [hneg i hi]
        _ ≤ _ := Finset.single_le_sum (f := fun i : Nat => (as.count (i : Int) : Rat) * shareOf costs cnt i) (fun j hj => mul_nonneg (by positivity) (hneg j hj)) hi
    · exact Or.inr ih

/-- The core of admissibility: a set of operators that contains an achiever of every future landmark costs at least the value. -/
theorem uniformValue_le {g : Graph} {costs : List Nat} {useAlm : Bool} {past future : Bits} (hp : past.length = g.length) (hf : future.length = g.length)
    (hv : ∀ as ∈ futs past future g.zipIdx, ValidIds costs.length as) {v : Rat} (h : uniformValue g costs useAlm past future = some (some v)) :
    0 ≤ v ∧ ∀ H : Finset Nat, (∀ as ∈ futs past future g.zipIdx, ∃ i ∈ H, (i : Int) ∈ as) → v ≤ ((∑ i ∈ H, costs[i]?.getD 0 : Nat) : Rat) := by
  rcases uniformValue_parts (useAlm := useAlm) hp hf hv with ⟨_, h'⟩ | ⟨h0, alm, cnt, h1, h2, h3, h4, h5, h6⟩
  · rw [h] at h'; cases h'
  rw [h] at h6
  simp only [Option.some.injEq] at h6
  subst h6
  set F := futs past future g.zipIdx with hF
  have hnn : ∀ as ∈ F.filter (fun as => !covered alm as), 0 ≤ minShare costs cnt as := fun as has =>
    minShare_nonneg h2 (hv as (List.mem_filter.mp has).1) (fun i hi => (h5 as has i hi).2) (fun h => h0 (h ▸ (List.mem_filter.mp has).1))
  refine ⟨?_, fun H hH => ?_⟩
  · refine add_nonneg (by positivity) (List.sum_nonneg fun x hx => ?_)
    obtain ⟨as, has, rfl⟩ := List.mem_map.mp hx
    exact hnn as has
  · -- the operators of `H` that are not action landmarks
    have hhit : ∀ as ∈ F.filter (fun as => !covered alm as), ∃ i ∈ H.filter (fun i => alm[i]? = some false), (i : Int) ∈ as := by
      intro as has
      obtain ⟨i, hi, hia⟩ := hH as (List.mem_filter.mp has).1
      exact ⟨i, Finset.mem_filter.mpr ⟨hi, (h5 as has i hia).1⟩, hia⟩
    have hlt : ∀ i, alm[i]? = some false → i < costs.length := fun i hi => by
      rw [← h1]; exact (List.getElem?_eq_some_iff.mp hi).1
    have hpos : ∀ i ∈ H.filter (fun i => alm[i]? = some false), 0 ≤ shareOf costs cnt i := by
      intro i hi
      have hi' := (Finset.mem_filter.mp hi).2
      unfold shareOf
      rw [h4 i (hlt i hi') hi']
      positivity
    have hA : (almCost costs alm : Rat) ≤ ((∑ i ∈ H.filter (fun i => ¬alm[i]? = some false), costs[i]?.getD 0 : Nat) : Rat) := by
      unfold almCost
      norm_cast
      rw [← Finset.sum_filter]
      refine Finset.sum_le_sum_of_subset ?_
      intro i hi
      obtain ⟨hi1, hi2⟩ := Finset.mem_filter.mp hi
      have := (h3 i (Finset.mem_range.mp hi1)).mp hi2
      obtain ⟨j, hj, hj'⟩ := hH _ this.2
      have hij : j = i := by simpa using hj'
      rw [hij] at hj
      exact Finset.mem_filter.mpr ⟨hj, by rw [hi2]; simp⟩
    have hB : ((F.filter (fun as => !covered alm as)).map (minShare costs cnt)).sum ≤ ((∑ i ∈ H.filter (fun i => alm[i]? = some false), costs[i]?.getD 0 : Nat) : Rat) := by
      rcases sum_shares_le (costs := costs) (cnt := cnt) (minShare costs cnt) _ hnn hhit (fun as has i hi => minShare_le h2 (hv as (List.mem_filter.mp has).1) (fun i hi => (h5 as has i hi).2) hi) with h' | ⟨i, hi, h'⟩
      · refine le_trans h' ?_
        push_cast
        refine Finset.sum_le_sum fun i hi => ?_
        have hi' := (Finset.mem_filter.mp hi).2
        unfold shareOf
        rw [h4 i (hlt i hi') hi']
        rcases Nat.eq_zero_or_pos (countIn (F.filter (fun as => !covered alm as)) i) with hz | hz
        · rw [hz]; simp
        · have : ((countIn (F.filter (fun as => !covered alm as)) i : Nat) : Rat) ≠ 0 := by
            exact_mod_cast (by omega : countIn (F.filter (fun as => !covered alm as)) i ≠ 0)
          push_cast
          rw [mul_div_cancel₀ _ this]
      · exact absurd h' (not_lt.mpr (hpos i hi))
    have : (∑ i ∈ H, costs[i]?.getD 0) = (∑ i ∈ H.filter (fun i => alm[i]? = some false), costs[i]?.getD 0) + ∑ i ∈ H.filter (fun i => ¬alm[i]? = some false), costs[i]?.getD 0 :=
      (Finset.sum_filter_add_sum_filter_not H _ _).symm
    rw [this]
    push_cast at hA hB ⊢
    linarith

end Verif.Landmarks
