import Verif.Lemmas.SimplifyReach
import Verif.Lemmas.TaskEmbedding

/-
The renaming of src/translate/simplify.py: numbers of variables and values, and conditions.
-/
namespace Verif.Simplify
open Verif.SasFile
open Verif.Mas (mapAll)

/-! ### numbers of variables -/

/-- variables that are kept are numbered from `n` -/
def Numbered : Renaming → Nat → Prop
  | [], _ => True
  | (none, _) :: R, n => Numbered R n
  | (some k, _) :: R, n => k = n ∧ Numbered R (n + 1)

theorem Numbered.le : ∀ {R : Renaming} {n v k : Nat} {r : Option Nat × List NewValue}, Numbered R n → R[v]? = some r → r.1 = some k → n ≤ k
  | (none, _) :: R, n, 0, k, r, h, hv, hk => by simp at hv; subst hv; simp at hk
  | (none, _) :: R, n, v + 1, k, r, h, hv, hk => Numbered.le (R := R) h (by simpa using hv) hk
  | (some l, _) :: R, n, 0, k, r, h, hv, hk => by simp at hv; subst hv; simp at hk; have := h.1; omega
  | (some l, _) :: R, n, v + 1, k, r, h, hv, hk => by
    have := Numbered.le (R := R) h.2 (by simpa using hv) hk
    omega

theorem Numbered.lt : ∀ {R : Renaming} {n v w k l : Nat} {r r' : Option Nat × List NewValue}, Numbered R n → R[v]? = some r → r.1 = some k → R[w]? = some r' → r'.1 = some l → v < w → k < l
  | [], _, _, _, _, _, _, _, _, hv, _, _, _, _ => by simp at hv
  | (none, _) :: R, n, 0, w, k, l, r, r', h, hv, hk, hw, hl, hvw => by simp at hv; subst hv; simp at hk
  | (some m, _) :: R, n, 0, w + 1, k, l, r, r', h, hv, hk, hw, hl, hvw => by
    simp at hv; subst hv; simp at hk
    have h1 := h.1
    have := Numbered.le h.2 (by simpa using hw) hl
    omega
  | (none, _) :: R, n, v + 1, w + 1, k, l, r, r', h, hv, hk, hw, hl, hvw =>
    Numbered.lt (R := R) (n := n) h (by simpa using hv) hk (by simpa using hw) hl (by omega)
  | (some m, _) :: R, n, v + 1, w + 1, k, l, r, r', h, hv, hk, hw, hl, hvw =>
    Numbered.lt (R := R) (n := n + 1) h.2 (by simpa using hv) hk (by simpa using hw) hl (by omega)

section
variable {α β : Type} (F : Nat → α → Option β)

/-- what is made of the kept variables has the numbers of the variables -/
theorem Numbered.get : ∀ {R : Renaming} {n : Nat} {l : List α} {a : Nat}, Numbered R n → l.length = R.length → (∀ i r x, R[i]? = some r → l[i]? = some x → (F (a + i) x).isSome = r.1.isSome) →
    ∀ {v k : Nat} {r : Option Nat × List NewValue} {x : α}, R[v]? = some r → r.1 = some k → l[v]? = some x → ((l.zipIdx a).filterMap (fun p => F p.2 p.1))[k - n]? = F (a + v) x
  | [], _, _, _, _, _, _, _, _, _, _, hv, _, _ => by simp at hv
  | q :: R, n, [], a, _, hl, _, _, _, _, _, _, _, _ => by simp at hl
  | q :: R, n, y :: l, a, h, hl, hF, 0, k, r, x, hv, hk, hx => by
    simp at hv hx
    subst hv; subst hx
    have h0 := hF 0 q y rfl rfl
    obtain ⟨q1, q2⟩ := q
    simp only at hk
    subst hk
    have hkn : k = n := h.1
    rw [List.zipIdx_cons, List.filterMap_cons]
    simp only [Nat.add_zero, Option.isSome_some] at h0 ⊢
    obtain ⟨b, hb⟩ := Option.isSome_iff_exists.mp h0
    simp [hb, hkn]
  | q :: R, n, y :: l, a, h, hl, hF, v + 1, k, r, x, hv, hk, hx => by
    have h0 := hF 0 q y rfl rfl
    have hF' : ∀ i r x, R[i]? = some r → l[i]? = some x → (F (a + 1 + i) x).isSome = r.1.isSome := by
      intro i r x h1 h2
      have := hF (i + 1) r x (by simpa using h1) (by simpa using h2)
      rwa [show a + (i + 1) = a + 1 + i by omega] at this
    obtain ⟨q1, q2⟩ := q
    rw [List.zipIdx_cons, List.filterMap_cons]
    simp only [Nat.add_zero] at h0 ⊢
    cases q1 with
    | none =>
      simp only [Option.isSome_none, Option.isSome_eq_false_iff, Option.isNone_iff_eq_none] at h0
      simp only [h0]
      have := Numbered.get (R := R) (n := n) (l := l) (a := a + 1) h (by simpa using hl) hF' (by simpa using hv) hk (by simpa using hx)
      rwa [show a + 1 + v = a + (v + 1) by omega] at this
    | some m =>
      obtain ⟨b, hb⟩ := Option.isSome_iff_exists.mp h0
      simp only [hb]
      have hle := Numbered.le h.2 (by simpa using hv) hk
      have := Numbered.get (R := R) (n := n + 1) (l := l) (a := a + 1) h.2 (by simpa using hl) hF' (by simpa using hv) hk (by simpa using hx)
      rw [show k - n = (k - (n + 1)) + 1 by omega, List.getElem?_cons_succ, this, show a + 1 + v = a + (v + 1) by omega]

theorem Numbered.length : ∀ {R : Renaming} {l : List α} {a : Nat}, l.length = R.length → (∀ i r x, R[i]? = some r → l[i]? = some x → (F (a + i) x).isSome = r.1.isSome) →
    ((l.zipIdx a).filterMap (fun p => F p.2 p.1)).length = (R.filter (fun r => r.1.isSome)).length
  | [], [], _, _, _ => rfl
  | q :: R, [], a, hl, _ => by simp at hl
  | [], y :: l, a, hl, _ => by simp at hl
  | q :: R, y :: l, a, hl, hF => by
    have h0 := hF 0 q y rfl rfl
    have hF' : ∀ i r x, R[i]? = some r → l[i]? = some x → (F (a + 1 + i) x).isSome = r.1.isSome := by
      intro i r x h1 h2
      have := hF (i + 1) r x (by simpa using h1) (by simpa using h2)
      rwa [show a + (i + 1) = a + 1 + i by omega] at this
    have ih := Numbered.length (R := R) (l := l) (a := a + 1) (by simpa using hl) hF'
    rw [List.zipIdx_cons, List.filterMap_cons, List.filter_cons]
    simp only [Nat.add_zero] at h0 ⊢
    cases hq : q.1 with
    | none =>
      rw [hq] at h0
      simp only [Option.isSome_none, Option.isSome_eq_false_iff, Option.isNone_iff_eq_none] at h0
      simp only [h0, Option.isSome_none, Bool.false_eq_true, if_false]
      exact ih
    | some m =>
      rw [hq] at h0
      obtain ⟨b, hb⟩ := Option.isSome_iff_exists.mp h0
      simp only [hb, Option.isSome_some, if_true, List.length_cons, ih]

end

theorem Numbered.surj : ∀ {R : Renaming} {n : Nat}, Numbered R n → ∀ j, j < (R.filter (fun r => r.1.isSome)).length → ∃ (v : Nat) (r : Option Nat × List NewValue), R[v]? = some r ∧ r.1 = some (n + j)
  | [], _, _, j, hj => by simp at hj
  | (none, _) :: R, n, h, j, hj => by
    obtain ⟨v, r, h1, h2⟩ := Numbered.surj (R := R) h j (by simpa using hj)
    exact ⟨v + 1, r, by simpa using h1, h2⟩
  | (some k, q) :: R, n, h, 0, hj => ⟨0, (some k, q), rfl, by simpa using h.1⟩
  | (some k, q) :: R, n, h, j + 1, hj => by
    obtain ⟨v, r, h1, h2⟩ := Numbered.surj (R := R) h.2 j (by simpa using hj)
    exact ⟨v + 1, r, by simpa using h1, by rw [h2]; congr 1; omega⟩

/-! ### values -/

/-- what the renaming says about a variable with the given number of values -/
structure RowOk (T : SasTask) (v size : Nat) (r : Option Nat × List NewValue) : Prop where
  length : r.2.length = size
  never : ∀ x : Nat, x < size → ¬ T.Reached v x → r.2[x]? = some .never
  single : r.1 = none → ∃ x : Nat, x < size ∧ r.2[x]? = some .always ∧ ∀ y, T.Reached v y ↔ y = x
  value : r.1 ≠ none → (∃ x y, x ≠ y ∧ T.Reached v x ∧ T.Reached v y) ∧ ∀ x, T.Reached v x → ∃ k, r.2[x]? = some (.value k)
  mono : ∀ x y k l : Nat, r.2[x]? = some (.value k) → r.2[y]? = some (.value l) → x < y → k < l
  count : ∀ x k : Nat, r.2[x]? = some (.value k) → k = ((r.2.take x).filter isValue).length

theorem filter_range_lt {p : Nat → Bool} {x y : Nat} (h : x < y) (hp : p x = true) : ((List.range x).filter p).length < ((List.range y).filter p).length := by
  obtain ⟨d, rfl⟩ : ∃ d, y = x + 1 + d := ⟨y - (x + 1), by omega⟩
  rw [List.range_add, List.filter_append, List.range_succ, List.filter_append]
  simp [hp]

theorem rowOk_register {T : SasTask} {v size init : Nat} {dom : List Nat} (hnd : dom.Nodup) (hi : init ∈ dom) (hm : ∀ u, u ∈ dom ↔ T.Reached v u) (hlt : ∀ u, T.Reached v u → u < size) (n : Nat) :
    ∃ b values, register size init dom = some (b, values) ∧ RowOk T v size (if b then some n else none, values) := by
  have hsub : dom ⊆ List.range size := fun u hu => List.mem_range.mpr (hlt u ((hm u).mp hu))
  have hle : dom.length ≤ size := by simpa using (List.Nodup.subperm hnd hsub).length_le
  have hpos : 1 ≤ dom.length := List.length_pos_of_mem hi
  unfold register
  rw [if_pos ⟨hpos, hle, hi⟩]
  by_cases h1 : dom.length = 1
  · rw [if_pos h1, if_pos (hlt init ((hm _).mp hi))]
    obtain ⟨a, ha⟩ := List.length_eq_one_iff.mp h1
    have hai : a = init := by rw [ha, List.mem_singleton] at hi; exact hi.symm
    subst hai
    have hR : ∀ u, T.Reached v u ↔ u = a := fun u => by rw [← hm, ha]; simp
    refine ⟨false, _, rfl, ?_, ?_, ?_, ?_, ?_, ?_⟩
    · simp
    · intro x hx hn
      rw [hR] at hn
      simp [List.getElem?_range hx, hn]
    · intro _
      exact ⟨a, hlt a ((hR a).mpr rfl), by simp [List.getElem?_range (hlt a ((hR a).mpr rfl))], hR⟩
    · simp
    · intro x y k l hx
      rw [List.getElem?_map, Option.map_eq_some_iff] at hx
      obtain ⟨z, _, hz⟩ := hx
      split at hz <;> simp at hz
    · intro x k hx
      rw [List.getElem?_map, Option.map_eq_some_iff] at hx
      obtain ⟨z, _, hz⟩ := hx
      split at hz <;> simp at hz
  · rw [if_neg h1]
    have hperm : ((List.range size).filter (fun x => dom.contains x)).Perm dom := by
      refine (List.perm_ext_iff_of_nodup (List.nodup_range.filter _) hnd).mpr (fun u => ?_)
      simp only [List.mem_filter, List.mem_range, List.contains_eq_mem, decide_eq_true_eq]
      exact ⟨fun h => h.2, fun h => ⟨hlt u ((hm u).mp h), h⟩⟩
    rw [if_pos hperm.length_eq]
    have hget : ∀ x, x < size → ((List.range size).map (fun x => if dom.contains x then NewValue.value ((List.range x).filter (fun y => dom.contains y)).length else .never))[x]? =
        some (if dom.contains x then .value ((List.range x).filter (fun y => dom.contains y)).length else .never) := by
      intro x hx
      rw [List.getElem?_map, List.getElem?_range hx, Option.map_some]
    have hval : ∀ x k : Nat, ((List.range size).map (fun x => if dom.contains x then NewValue.value ((List.range x).filter (fun y => dom.contains y)).length else .never))[x]? = some (.value k) →
        x < size ∧ dom.contains x = true ∧ k = ((List.range x).filter (fun y => dom.contains y)).length := by
      intro x k hx
      have hlt : x < size := by
        have := (List.getElem?_eq_some_iff.mp hx).1
        simpa using this
      rw [hget x hlt, Option.some.injEq] at hx
      split at hx
      · rename_i hc
        simp only [NewValue.value.injEq] at hx
        exact ⟨hlt, hc, hx.symm⟩
      · simp at hx
    refine ⟨true, _, rfl, ?_, ?_, ?_, ?_, ?_, ?_⟩
    · simp
    · intro x hx hn
      rw [← hm] at hn
      simp only
      rw [hget x hx]
      simp [hn]
    · simp
    · intro _
      refine ⟨?_, fun x hx => ?_⟩
      · obtain ⟨a, b, l, hl⟩ : ∃ a b l, dom = a :: b :: l := by
          match hd : dom with
          | [] => simp [hd] at hpos
          | [a] => simp at h1
          | a :: b :: l => exact ⟨a, b, l, rfl⟩
        refine ⟨a, b, ?_, (hm a).mp (by simp [hl]), (hm b).mp (by simp [hl])⟩
        rintro rfl
        rw [hl] at hnd
        simp at hnd
      · refine ⟨((List.range x).filter (fun y => dom.contains y)).length, ?_⟩
        · simp only
          rw [hget x (hlt x hx)]
          have := (hm x).mpr hx
          simp [this]
    · intro x y k l hx hy hxy
      obtain ⟨_, hc, rfl⟩ := hval x k hx
      obtain ⟨_, _, rfl⟩ := hval y l hy
      exact filter_range_lt hxy hc
    · intro x k hx
      obtain ⟨hlt, hc, rfl⟩ := hval x k hx
      simp only
      rw [← List.map_take, List.take_range, Nat.min_eq_left (by omega), List.filter_map, List.length_map]
      congr 1
      refine List.filter_congr (fun y _ => ?_)
      simp only [Function.comp_apply]
      cases hcy : dom.contains y <;> simp [isValue]

/-- what holds of the renaming -/
structure Good (T : SasTask) (R : Renaming) : Prop where
  length : R.length = T.variables.length
  numbered : Numbered R 0
  row : ∀ v x, T.variables[v]? = some x → ∃ r, R[v]? = some r ∧ RowOk T v x.valueNames.length r

section
variable {T : SasTask}

theorem buildRenaming_spec (hT : T.Valid) (hC : T.Canonical) : ∀ (vs : List (SasVariable × Nat)) (v n : Nat),
    (∀ i x init, vs[i]? = some (x, init) → T.variables[v + i]? = some x ∧ T.init[v + i]? = some init) →
    ∃ R, buildRenaming T vs v n = some R ∧ R.length = vs.length ∧ Numbered R n ∧ ∀ i x init, vs[i]? = some (x, init) → ∃ r, R[i]? = some r ∧ RowOk T (v + i) x.valueNames.length r
  | [], v, n, _ => ⟨[], rfl, rfl, trivial, by simp⟩
  | (x, init) :: vs, v, n, h => by
    obtain ⟨hx, hi⟩ := h 0 x init rfl
    obtain ⟨as, dom, h1, h2, h3, h4, h5⟩ := dtg_spec hT hC hx hi
    obtain ⟨b, values, h6, h7⟩ := rowOk_register h3 h4 h5 (fun u hu => reached_lt hT hx hu) n
    obtain ⟨R, g1, g2, g3, g4⟩ := buildRenaming_spec hT hC vs (v + 1) (if b then n + 1 else n) (fun i y init' hy => by
      have := h (i + 1) y init' (by simpa using hy)
      rwa [show v + (i + 1) = v + 1 + i by omega] at this)
    refine ⟨(if b then some n else none, values) :: R, ?_, by simp [g2], ?_, ?_⟩
    · rw [buildRenaming]
      simp only [Nat.add_zero] at h1
      simp only [h1, h2, h6, g1]
    · cases b with
      | true => exact ⟨rfl, by simpa using g3⟩
      | false => exact (by simpa using g3 : Numbered R n)
    · intro i y init' hy
      cases i with
      | zero =>
        simp at hy
        obtain ⟨rfl, rfl⟩ := hy
        exact ⟨_, rfl, h7⟩
      | succ i =>
        obtain ⟨r, h8, h9⟩ := g4 i y init' (by simpa using hy)
        exact ⟨r, by simpa using h8, by rwa [show v + (i + 1) = v + 1 + i by omega]⟩

theorem good (hT : T.Valid) (hC : T.Canonical) : ∃ R, buildRenaming T (T.variables.zip T.init) 0 0 = some R ∧ Good T R := by
  obtain ⟨R, h1, h2, h3, h4⟩ := buildRenaming_spec hT hC (T.variables.zip T.init) 0 0 (fun i x init h => by
    rw [List.getElem?_zip_eq_some] at h
    simpa using h)
  refine ⟨R, h1, ⟨?_, h3, fun v x hx => ?_⟩⟩
  · rw [h2, List.length_zip, hT.init, Nat.min_self]
  · have hlt := (List.getElem?_eq_some_iff.mp hx).1
    have e := List.getElem?_eq_getElem (show v < T.init.length by rw [hT.init]; exact hlt)
    obtain ⟨r, h5, h6⟩ := h4 v x _ (List.getElem?_zip_eq_some.mpr ⟨hx, e⟩)
    exact ⟨r, h5, by simpa using h6⟩

end

/-! ### conditions -/

/-- new numbers of variables and values -/
def emb (T : SasTask) (R : Renaming) : Emb where
  idx v := (R[v]?).bind (·.1)
  rank v x := match (R[v]?).bind (fun r => r.2[x]?) with | some (.value y) => y | _ => 0
  D v x := T.Reached v x

section
variable {T : SasTask} {R : Renaming}

theorem translatePair_spec (hG : Good T R) {f : Fact} (hf : FactOk T f) :
    (¬ T.Reached f.var f.val ∧ ∃ o, translatePair R f = some (o, .never)) ∨
    (T.Reached f.var f.val ∧ (emb T R).idx f.var = none ∧ translatePair R f = some (none, .always)) ∨
    (∃ k, T.Reached f.var f.val ∧ (emb T R).idx f.var = some k ∧ translatePair R f = some (some k, .value ((emb T R).rank f.var f.val))) := by
  obtain ⟨x, hx, hlt⟩ := hf
  obtain ⟨⟨o, values⟩, h1, h2⟩ := hG.row f.var x hx
  have hidx : (emb T R).idx f.var = o := by simp [emb, h1]
  have htp : ∀ nv, values[f.val]? = some nv → translatePair R f = some (o, nv) := by
    intro nv hnv
    simp only [translatePair, h1, hnv]
  by_cases hr : T.Reached f.var f.val
  · right
    cases o with
    | none =>
      left
      obtain ⟨y, h3, h4, h5⟩ := h2.single rfl
      have := (h5 _).mp hr
      rw [← this] at h4
      exact ⟨hr, hidx, htp _ h4⟩
    | some k =>
      right
      obtain ⟨y, h3⟩ := (h2.value (by simp)).2 _ hr
      refine ⟨k, hr, hidx, ?_⟩
      rw [htp _ h3]
      simp only at h3
      simp [emb, h1, h3]
  · exact Or.inl ⟨hr, o, htp _ (h2.never _ hlt hr)⟩

theorem convertPairs_spec (hG : Good T R) : ∀ {fs : List Fact}, (∀ f ∈ fs, FactOk T f) →
    ((∀ f ∈ fs, T.Reached f.var f.val) ∧ convertPairs R fs = some (some (fs.filterMap (emb T R).img))) ∨
    ((∃ f ∈ fs, ¬ T.Reached f.var f.val) ∧ convertPairs R fs = some none)
  | [], _ => Or.inl ⟨by simp, rfl⟩
  | f :: fs, h => by
    have ih := convertPairs_spec hG (fs := fs) (fun g hg => h g (by simp [hg]))
    rw [convertPairs, List.filterMap_cons]
    rcases translatePair_spec hG (h f (by simp)) with ⟨h1, o, h2⟩ | ⟨h1, h2, h3⟩ | ⟨k, h1, h2, h3⟩
    · right
      refine ⟨⟨f, by simp, h1⟩, ?_⟩
      simp only [h2]
    · have himg : (emb T R).img f = none := by simp [Emb.img, h2]
      simp only [h3, himg]
      rcases ih with ⟨a1, a2⟩ | ⟨⟨g, a1, a1'⟩, a2⟩
      · left
        refine ⟨?_, a2⟩
        intro g hg
        rcases List.mem_cons.mp hg with rfl | hg
        · exact h1
        · exact a1 g hg
      · right
        exact ⟨⟨g, by simp [a1], a1'⟩, a2⟩
    · have himg : (emb T R).img f = some ⟨k, (emb T R).rank f.var f.val⟩ := by simp [Emb.img, h2]
      simp only [h3, himg]
      rcases ih with ⟨a1, a2⟩ | ⟨⟨g, a1, a1'⟩, a2⟩
      · left
        rw [a2]
        refine ⟨?_, rfl⟩
        intro g hg
        rcases List.mem_cons.mp hg with rfl | hg
        · exact h1
        · exact a1 g hg
      · right
        rw [a2]
        exact ⟨⟨g, by simp [a1], a1'⟩, rfl⟩

theorem idx_row (hG : Good T R) {v k : Nat} (h : (emb T R).idx v = some k) : ∃ x r, T.variables[v]? = some x ∧ R[v]? = some r ∧ r.1 = some k ∧ RowOk T v x.valueNames.length r := by
  simp only [emb, Option.bind_eq_some_iff] at h
  obtain ⟨r, h1, h2⟩ := h
  have hlt := (List.getElem?_eq_some_iff.mp h1).1
  rw [hG.length] at hlt
  have e := List.getElem?_eq_getElem hlt
  obtain ⟨r', h3, h4⟩ := hG.row v _ e
  rw [h1, Option.some.injEq] at h3
  subst h3
  exact ⟨_, r, e, h1, h2, h4⟩

theorem idx_lt (hG : Good T R) {v w k l : Nat} (hv : (emb T R).idx v = some k) (hw : (emb T R).idx w = some l) (h : v < w) : k < l := by
  obtain ⟨_, r, _, h1, h2, _⟩ := idx_row hG hv
  obtain ⟨_, r', _, h3, h4, _⟩ := idx_row hG hw
  exact hG.numbered.lt h1 h2 h3 h4 h

theorem idx_inj (hG : Good T R) {v w k : Nat} (hv : (emb T R).idx v = some k) (hw : (emb T R).idx w = some k) : v = w := by
  rcases Nat.lt_trichotomy v w with h | h | h
  · exact absurd (idx_lt hG hv hw h) (by omega)
  · exact h
  · exact absurd (idx_lt hG hw hv h) (by omega)

theorem rank_lt (hG : Good T R) {v k x y : Nat} (hv : (emb T R).idx v = some k) (hx : T.Reached v x) (hy : T.Reached v y) (h : x < y) : (emb T R).rank v x < (emb T R).rank v y := by
  obtain ⟨_, r, _, h1, h2, h3⟩ := idx_row hG hv
  obtain ⟨a, ha⟩ := (h3.value (by simp [h2])).2 x hx
  obtain ⟨b, hb⟩ := (h3.value (by simp [h2])).2 y hy
  have := h3.mono x y a b ha hb h
  simpa [emb, h1, ha, hb] using this

theorem rank_inj (hG : Good T R) {v k x y : Nat} (hv : (emb T R).idx v = some k) (hx : T.Reached v x) (hy : T.Reached v y) (h : (emb T R).rank v x = (emb T R).rank v y) : x = y := by
  rcases Nat.lt_trichotomy x y with h' | h' | h'
  · exact absurd (rank_lt hG hv hx hy h') (by omega)
  · exact h'
  · exact absurd (rank_lt hG hv hy hx h') (by omega)

/-- a removed variable has one value -/
theorem removed (hG : Good T R) {v : Nat} {x : SasVariable} (hx : T.variables[v]? = some x) (h : (emb T R).idx v = none) : ∃ y, ∀ z, T.Reached v z ↔ z = y := by
  obtain ⟨r, h1, h2⟩ := hG.row v x hx
  have : r.1 = none := by simpa [emb, h1] using h
  obtain ⟨y, _, _, h3⟩ := h2.single this
  exact ⟨y, h3⟩

end

end Verif.Simplify
