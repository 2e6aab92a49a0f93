import Verif.Lemmas.ShrinkPass
import Verif.Spec.Bisimulation

/- The loop of the bisimulation-based shrinking strategy. -/
namespace Verif.Mas

/-- what the strategy needs: distances of all states, zero for goal states, and at least one goal state -/
structure ShrinkOk (greedy : Bool) (T : TS) (ds : List Nat) : Prop where
  range : T.InRange
  goals : T.goals.length = T.size
  length : ds.length = T.size
  zero : ∀ s : Nat, T.goals[s]? = some true → ds[s]? = some 0
  goal : ∃ s : Nat, T.goals[s]? = some true
  bounded : greedy = true → ∀ i ∈ T.infos, i.labels ≠ [] → ∀ t ∈ i.transitions, ∀ b, ds[t.2]? = some b → b ≠ infinity → b + i.cost < 2 ^ 31

variable {greedy : Bool} {T : TS} {ds : List Nat}

theorem ShrinkOk.sigH_some (ok : ShrinkOk greedy T ds) {s : Nat} (hs : s < T.size) : ∃ h, sigH T ds s = some h := by
  unfold sigH
  have hd : s < ds.length := by rw [ok.length]; exact hs
  have hgl : s < T.goals.length := by rw [ok.goals]; exact hs
  have h1 : ds[s]? = some ds[s] := List.getElem?_eq_getElem hd
  have h2 : T.goals[s]? = some T.goals[s] := List.getElem?_eq_getElem hgl
  rw [h1, h2]
  cases hg : T.goals[s] with
  | true =>
    simp only
    have := ok.zero s (by rw [h2, hg])
    rw [h1] at this
    simp only [Option.some.injEq] at this
    exact ⟨_, if_pos this⟩
  | false => exact ⟨_, rfl⟩

theorem sigH_goal {s : Nat} {h : Int} (hs : sigH T ds s = some h) : h = -1 ↔ T.goals[s]? = some true := by
  unfold sigH at hs
  split at hs
  · rename_i d h1 h2
    rw [h2]
    split at hs
    · simp only [Option.some.injEq] at hs; simp [← hs]
    · simp at hs
  · rename_i d h1 h2
    rw [h2]
    simp only [Option.some.injEq] at hs
    simp only [Option.some.injEq, Bool.false_eq_true, iff_false]
    split at hs <;> omega
  · simp at hs

/-- states with the same h value are both goal states or both not, and have the same distance -/
theorem sigH_inj {a b : Nat} {h : Int} (ha : sigH T ds a = some h) (hb : sigH T ds b = some h) (hna : ds[a]? ≠ some 2147483646) (hnb : ds[b]? ≠ some 2147483646) : T.goals[a]? = T.goals[b]? ∧ ds[a]? = ds[b]? := by
  have hga := sigH_goal ha
  have hgb := sigH_goal hb
  unfold sigH at ha hb
  split at ha
  · rename_i d h1 h2
    split at ha
    · rename_i hd
      simp only [Option.some.injEq] at ha
      have h3 := hgb.mp ha.symm
      rw [h3] at hb ⊢
      split at hb
      · rename_i d' h4 _
        split at hb
        · rename_i hd'; rw [h2, h1, h4, hd, hd']; exact ⟨rfl, rfl⟩
        · simp at hb
      · rename_i h5; simp at h5
      · simp at hb
    · simp at ha
  · rename_i d h1 h2
    split at hb
    · rename_i d' h3 h4
      split at hb
      · simp only [Option.some.injEq] at ha hb
        split at ha <;> omega
      · simp at hb
    · rename_i d' h3 h4
      rw [h2, h4, h1, h3]
      rw [h1] at hna
      rw [h3] at hnb
      simp only [ne_eq, Option.some.injEq] at hna hnb
      refine ⟨rfl, ?_⟩
      simp only [Option.some.injEq] at ha hb ⊢
      have hi : (inf : Nat) = 2147483647 := rfl
      rw [hi] at ha hb
      by_cases h5 : d = 2147483647 <;> by_cases h6 : d' = 2147483647 <;> simp only [h5, h6, if_true, if_false] at ha hb ⊢ <;> omega
    · simp at hb
  · simp at ha

/-- the groups of the states -/
structure GInv (T : TS) (ds : List Nat) (g : List Nat) (num : Nat) : Prop where
  length : g.length = T.size
  groups : Groups (fun _ => 0) g num
  same : ∀ a b k : Nat, g[a]? = some k → g[b]? = some k → sigH T ds a = sigH T ds b

theorem ShrinkOk.succSig_some (ok : ShrinkOk greedy T ds) {g : List Nat} (hg : g.length = T.size) (s : Nat) : ∃ l, succSig greedy ds g T s = some l := by
  unfold succSig
  obtain ⟨ls, hls⟩ : ∃ ls, mapAll (groupEntries greedy ds g s) (T.infos.filter (·.active)).zipIdx = some ls := by
    apply mapAll_defined
    rintro ⟨i, k⟩ hi
    have hi' : i ∈ T.infos ∧ i.labels ≠ [] := by
      have := List.mem_zipIdx_iff_getElem?.mp hi
      obtain ⟨h1, h2⟩ := List.mem_filter.mp (List.mem_of_getElem? this)
      exact ⟨h1, by simpa [LocalLabel.active] using h2⟩
    unfold groupEntries
    apply mapAll_defined
    rintro ⟨a, b⟩ ht
    have ht' := (List.mem_filter.mp ht).1
    obtain ⟨ha, hb⟩ := ok.range.trans i hi'.1 _ ht'
    unfold sigEntry
    simp only at ha hb ⊢
    rw [List.getElem?_eq_getElem (by rw [ok.length]; exact ha : a < ds.length), List.getElem?_eq_getElem (by rw [ok.length]; exact hb : b < ds.length), List.getElem?_eq_getElem (by rw [hg]; exact hb : b < g.length)]
    simp only
    by_cases hgr : greedy = true
    · rw [if_pos hgr]
      split
      · exact ⟨_, rfl⟩
      · rename_i hinf
        have hbnd := ok.bounded hgr i hi'.1 hi'.2 _ ht' _ (List.getElem?_eq_getElem (by rw [ok.length]; exact hb : b < ds.length))
        rw [if_pos (hbnd (fun e => hinf (Or.inr e)))]
        exact ⟨_, rfl⟩
    · rw [if_neg hgr]
      exact ⟨_, rfl⟩
  rw [hls]
  exact ⟨_, rfl⟩

theorem sigOf_some {g : List Nat} {s : Nat} {x : Sig} (h : sigOf greedy ds g T s = some x) : x.state = s ∧ g[x.state]? = some x.group ∧ sigH T ds x.state = some x.h ∧ succSig greedy ds g T x.state = some x.succ := by
  unfold sigOf at h
  split at h
  · rename_i h1 h2 h3
    simp only [Option.some.injEq] at h
    subst h
    exact ⟨rfl, h2, h1, h3⟩
  · simp at h

theorem ShrinkOk.signatures_some (ok : ShrinkOk greedy T ds) {g : List Nat} (hg : g.length = T.size) : ∃ L, signatures greedy ds g T = some L ∧ (L.map (·.state)).Perm (List.range T.size) ∧
    L.Pairwise (fun a b => a.key ≤ b.key) ∧ ∀ x ∈ L, g[x.state]? = some x.group ∧ sigH T ds x.state = some x.h ∧ succSig greedy ds g T x.state = some x.succ := by
  obtain ⟨l, hl⟩ : ∃ l, mapAll (sigOf greedy ds g T) (List.range T.size) = some l := by
    apply mapAll_defined
    intro s hs
    rw [List.mem_range] at hs
    obtain ⟨h, h1⟩ := ok.sigH_some hs
    obtain ⟨l, h2⟩ := ok.succSig_some hg s
    have h3 : g[s]? = some g[s] := List.getElem?_eq_getElem (by rw [hg]; exact hs)
    unfold sigOf
    rw [h1, h2, h3]
    exact ⟨_, rfl⟩
  have hmap : l.map (·.state) = List.range T.size := by
    apply List.ext_getElem?
    intro i
    rw [List.getElem?_map]
    cases hi : l[i]? with
    | none =>
      have h1 := List.getElem?_eq_none_iff.mp hi
      rw [mapAll_length hl] at h1
      rw [List.getElem?_eq_none_iff.mpr h1]
      rfl
    | some x =>
      obtain ⟨s, h1, h2⟩ := mapAll_getElem?' hl hi
      rw [h1, Option.map_some, (sigOf_some h2).1]
  refine ⟨sortSigs l, ?_, ?_, List.pairwise_insertionSort _ _, fun x hx => ?_⟩
  · unfold signatures
    rw [if_pos, hl]
    rw [List.all_eq_true]
    intro a ha
    simp only [decide_eq_true_eq]
    obtain ⟨i, hi, ha⟩ := List.mem_flatMap.mp ha
    obtain ⟨t, ht, rfl⟩ := List.mem_map.mp ha
    exact (ok.range.trans i (List.mem_filter.mp hi).1 t ht).1
  · rw [← hmap]
    exact (List.perm_insertionSort _ _).map _
  · obtain ⟨s, _, h2⟩ := mapAll_mem hl ((List.perm_insertionSort _ _).mem_iff.mp hx)
    exact (sigOf_some h2).2

theorem chain_mono {α : Type} {P Q : α → α → Prop} : ∀ {l : List α}, (∀ a ∈ l, ∀ b ∈ l, P a b → Q a b) → List.IsChain P l → List.IsChain Q l
  | [], _, _ => by simp
  | [a], _, _ => by simp
  | a :: b :: l, h, hc => by
    rw [List.isChain_cons_cons] at hc ⊢
    exact ⟨h a (by simp) b (by simp) hc.1, chain_mono (fun x hx y hy => h x (by simp only [List.mem_cons] at hx ⊢; tauto) y (by simp only [List.mem_cons] at hy ⊢; tauto)) hc.2⟩

/-- the result of one pass -/
theorem ShrinkOk.pass_ok (ok : ShrinkOk greedy T ds) {g : List Nat} {num target : Nat} {atLimit : AtLimit} (h : GInv T ds g num) (ht : num < target) : ∃ L st', signatures greedy ds g T = some L ∧
    pass atLimit target none (hBlocks L) ⟨g, num, true, false⟩ = some st' ∧ GInv T ds st'.g st'.num ∧ num ≤ st'.num ∧ st'.num ≤ target ∧ (st'.stop = true → target < T.size) ∧
      (st'.stable = false → num < st'.num) ∧
      (st'.stable = true → st'.stop = false → st'.g = g ∧ ∀ a b k : Nat, g[a]? = some k → g[b]? = some k → succSig greedy ds g T a = succSig greedy ds g T b) := by
  obtain ⟨L, hL, h1, h2, h3⟩ := ok.signatures_some h.length
  obtain ⟨b1, b2, b3, b4⟩ := hBlocks_spec L
  have hgh : ∀ x ∈ L, ∀ y ∈ L, x.group = y.group → x.h = y.h := by
    intro x hx y hy e
    have := h.same x.state y.state x.group (h3 x hx).1 (by rw [e]; exact (h3 y hy).1)
    rw [(h3 x hx).2.1, (h3 y hy).2.1] at this
    simpa using this
  have hinv : PassInv (fun s => (g[s]?).getD 0) none (hBlocks L) g num := by
    refine ⟨⟨h.groups.lt, h.groups.used, ?_⟩, ?_, ?_, ?_, b2, by simp, ?_⟩
    · intro a b k ha hb
      simp only [ha, hb]
    · rw [b1]
      exact h1.nodup_iff.mpr List.nodup_range
    · rw [b1]
      exact fun x hx => (h3 x hx).1
    · rw [b1]
      intro x hx
      simp only [(h3 x hx).1, Option.getD_some]
    · have hsub : ∀ b ∈ hBlocks L, ∀ x ∈ b, x ∈ L := fun b hb x hx => by rw [← b1]; exact List.mem_flatten.mpr ⟨b, hb, hx⟩
      exact chain_mono (fun b hb b' hb' hne x hx y hy e => hne x hx y hy (hgh x (hsub b hb x hx) y (hsub b' hb' y hy) e)) b4
  obtain ⟨st', e1, e2, e3, e4, e5, e6, e7, e8, e9⟩ := pass_spec (atLimit := atLimit) (target := target) (st := ⟨g, num, true, false⟩) hinv ht rfl
  refine ⟨L, st', hL, e1, ⟨by rw [e2]; exact h.length, ⟨e3.lt, e3.used, fun _ _ _ _ _ => rfl⟩, ?_⟩, e4, e5, fun hx => by have := e6 hx; simp only at this; rw [← h.length]; exact this, fun hx => ?_, fun hx hy => ⟨(e8 hx).2.1, ?_⟩⟩
  · intro a b k ha hb
    have hr := e3.refines a b k ha hb
    have ha' : a < g.length := by have := (List.getElem?_eq_some_iff.mp ha).1; simp only at e2; omega
    have hb' : b < g.length := by have := (List.getElem?_eq_some_iff.mp hb).1; simp only at e2; omega
    simp only [List.getElem?_eq_getElem ha', List.getElem?_eq_getElem hb', Option.getD_some] at hr
    exact h.same a b g[a] (List.getElem?_eq_getElem ha') (by rw [hr]; exact List.getElem?_eq_getElem hb')
  · rcases e7 hx with h | h
    · simp at h
    · exact h
  · have hc := e9 hx hy
    rw [b1] at hc
    have hs := sorted_chain h2 hgh (count_eq_chain' hc)
    intro a b k ha hb
    have find : ∀ a : Nat, ∀ k, g[a]? = some k → ∃ x ∈ L, x.state = a ∧ x.group = k := by
      intro a k ha
      have : a ∈ L.map (·.state) := by
        rw [h1.mem_iff, List.mem_range, ← h.length]
        exact (List.getElem?_eq_some_iff.mp ha).1
      obtain ⟨x, hx, rfl⟩ := List.mem_map.mp this
      refine ⟨x, hx, rfl, ?_⟩
      have := (h3 x hx).1
      rw [ha] at this
      simpa using this.symm
    obtain ⟨x, hx, rfl, hxg⟩ := find a k ha
    obtain ⟨y, hy, rfl, hyg⟩ := find b k hb
    rw [(h3 x hx).2.2, (h3 y hy).2.2, hs x hx y hy (by omega)]

theorem ShrinkOk.loop_ok (ok : ShrinkOk greedy T ds) {target : Nat} {atLimit : AtLimit} : ∀ {fuel : Nat} {g : List Nat} {num : Nat}, GInv T ds g num → T.size + 1 ≤ fuel + num → 0 < fuel →
    ∃ g' num', shrinkLoop greedy atLimit target T ds fuel g num = some (g', num') ∧ GInv T ds g' num' ∧ num' ≤ max num target ∧
      (T.size ≤ target → ∀ a b k : Nat, g'[a]? = some k → g'[b]? = some k → succSig greedy ds g' T a = succSig greedy ds g' T b)
  | 0, _, _, _, _, h0 => by omega
  | fuel + 1, g, num, h, hf, _ => by
    have hn := h.groups.num_le
    rw [h.length] at hn
    unfold shrinkLoop
    split
    · rename_i ht
      obtain ⟨L, st', e1, e2, e3, e4, e5, e6, e7, e8⟩ := ok.pass_ok (atLimit := atLimit) h ht
      rw [e1]
      simp only
      rw [e2]
      simp only
      have hn' := e3.groups.num_le
      rw [e3.length] at hn'
      split
      · rename_i hst
        refine ⟨_, _, rfl, e3, by omega, fun hT => ?_⟩
        have hstop : st'.stop = false := by
          cases hx : st'.stop with
          | false => rfl
          | true => have := e6 hx; omega
        have hstable : st'.stable = true := by simpa [hstop] using hst
        obtain ⟨h1, h2⟩ := e8 hstable hstop
        rw [h1]
        exact h2
      · rename_i hst
        simp only [Bool.or_eq_true, not_or, Bool.not_eq_true] at hst
        have := e7 hst.1
        obtain ⟨g', num', f1, f2, f3, f4⟩ := ok.loop_ok (target := target) (atLimit := atLimit) (fuel := fuel) e3 (by omega) (by omega)
        exact ⟨g', num', f1, f2, by omega, f4⟩
    · rename_i ht
      refine ⟨g, num, rfl, h, by omega, fun hT a b k ha hb => ?_⟩
      rw [h.groups.injective (by rw [h.length]; omega) ha hb]

end Verif.Mas
