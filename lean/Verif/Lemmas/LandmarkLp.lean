import Verif.Lemmas.LandmarkCostPart

/- Optimal cost partitioning over landmarks: the linear program. -/
namespace Verif.Landmarks

/-- the entries of the row of an operator -/
def entriesOf (past future : Bits) (xs : List (Node × Nat)) (i : Nat) : List (Nat × Rat) :=
  xs.flatMap (fun y => match selAch past future y with | none => [] | some as => List.replicate (as.count (i : Int)) (y.2, 1))

theorem foldlM_insertEntry {n : Nat} (id : Nat) : ∀ (as : List Int) (cs : List LP.Row), ValidIds n as → cs.length = n →
    ∃ cs', as.foldlM (insertEntry id) cs = some cs' ∧ cs'.length = n ∧
      ∀ (i : Nat) (c : LP.Row), cs[i]? = some c → cs'[i]? = some { c with entries := c.entries ++ List.replicate (as.count (i : Int)) (id, 1) }
  | [], cs, _, hl => ⟨cs, rfl, hl, fun i c hc => by simpa using hc⟩
  | a :: as, cs, hv, hl => by
    obtain ⟨j, rfl, hj⟩ := hv.nat (List.mem_cons_self)
    have hx : cs[j]? = some cs[j] := List.getElem?_eq_getElem (by omega)
    obtain ⟨cs', h1, h2, h3⟩ := foldlM_insertEntry id as (cs.set j { cs[j] with entries := cs[j].entries ++ [(id, 1)] }) (fun a ha => hv a (by simp [ha])) (by simp [hl])
    refine ⟨cs', ?_, h2, fun i c hc => ?_⟩
    · rw [List.foldlM_cons]
      have : insertEntry id cs (j : Int) = some (cs.set j { cs[j] with entries := cs[j].entries ++ [(id, 1)] }) := by
        unfold insertEntry
        rw [opAt_nat, hx]
        simp
      rw [this]
      exact h1
    · by_cases hij : j = i
      · subst hij
        rw [hx] at hc
        cases hc
        rw [h3 j { cs[j] with entries := cs[j].entries ++ [(id, 1)] } (by rw [List.getElem?_set]; simp [hl, hj])]
        simp [List.replicate_succ]
      · rw [h3 i c (by rw [List.getElem?_set]; simp [hij, hc]), List.count_cons]
        have : ((j : Int) == (i : Int)) = false := by simpa using hij
        simp [this]

theorem defineConstraintMatrix_spec {n : Nat} {past future : Bits} : ∀ (xs : List (Node × Nat)) (cs : List LP.Row),
    (∀ x ∈ xs, x.2 < past.length ∧ x.2 < future.length) → (∀ as ∈ futs past future xs, ValidIds n as) → cs.length = n →
    ([] ∈ futs past future xs ∧ defineConstraintMatrix past future xs cs = some none) ∨
    ([] ∉ futs past future xs ∧ ∃ cs', defineConstraintMatrix past future xs cs = some (some cs') ∧ cs'.length = n ∧
      ∀ (i : Nat) (c : LP.Row), cs[i]? = some c → cs'[i]? = some { c with entries := c.entries ++ entriesOf past future xs i })
  | [], cs, _, _, h => Or.inr ⟨by simp [futs], cs, rfl, h, fun i c hc => by simpa [entriesOf] using hc⟩
  | x :: xs, cs, h1, h2, h => by
    have e := futureAchievers_eq (h1 x (by simp)).1 (h1 x (by simp)).2
    unfold defineConstraintMatrix
    rw [e]
    have hfuts : futs past future (x :: xs) = match selAch past future x with | none => futs past future xs | some as => as :: futs past future xs := by
      unfold futs
      rw [List.filterMap_cons]
      cases selAch past future x <;> rfl
    have hent : ∀ i, entriesOf past future (x :: xs) i = (match selAch past future x with | none => [] | some as => List.replicate (as.count (i : Int)) (x.2, 1)) ++ entriesOf past future xs i := fun i => by
      simp [entriesOf]
    cases hsel : selAch past future x with
    | none =>
      rw [hsel] at hfuts
      simp only [hsel] at hfuts hent ⊢
      rw [hfuts]
      rw [hfuts] at h2
      simp only [hent, List.nil_append]
      exact defineConstraintMatrix_spec xs cs (fun y hy => h1 y (by simp [hy])) h2 h
    | some as =>
      rw [hsel] at hfuts
      simp only [hsel] at hfuts hent ⊢
      rw [hfuts]
      rw [hfuts] at h2
      cases as with
      | nil => exact Or.inl ⟨by simp, rfl⟩
      | cons a as =>
        simp only
        obtain ⟨c1, k1, k2, k3⟩ := foldlM_insertEntry x.2 (a :: as) cs (h2 (a :: as) (by simp)) h
        rw [k1]
        simp only
        rcases defineConstraintMatrix_spec xs c1 (fun y hy => h1 y (by simp [hy])) (fun z hz => h2 z (by simp [hz])) k2 with ⟨m1, m2⟩ | ⟨m1, c2, m2, m3, m4⟩
        · exact Or.inl ⟨by simp [m1], m2⟩
        · refine Or.inr ⟨by simp [m1], c2, m2, m3, fun i c hc => ?_⟩
          rw [m4 i _ (k3 i c hc), hent i]
          simp

/-- the value of the row of an operator -/
theorem entriesOf_sum (past future : Bits) (x : Nat → Rat) (i : Nat) : ∀ xs : List (Node × Nat),
    ((entriesOf past future xs i).map (fun e => e.2 * x e.1)).sum = (xs.map (fun y => match selAch past future y with | none => 0 | some as => (as.count (i : Int) : Rat) * x y.2)).sum
  | [] => by simp [entriesOf]
  | y :: ys => by
    have ih := entriesOf_sum past future x i ys
    unfold entriesOf at ih ⊢
    rw [List.flatMap_cons, List.map_append, List.sum_append, ih, List.map_cons, List.sum_cons]
    congr 1
    cases selAch past future y with
    | none => simp
    | some as => simp

/-- The linear program in terms of the achievers. -/
theorem optimalLp_spec {g : Graph} {costs : List Nat} {past future : Bits} (hp : past.length = g.length) (hf : future.length = g.length)
    (hv : ∀ as ∈ futs past future g.zipIdx, ValidIds costs.length as) :
    ([] ∈ futs past future g.zipIdx ∧ optimalLp g costs past future = some none) ∨
    ([] ∉ futs past future g.zipIdx ∧ ∃ lp, optimalLp g costs past future = some (some lp) ∧ lp.maximize = true ∧
      (∀ x, lp.value x = ((List.range g.length).map x).sum) ∧
      (∀ x, lp.Feasible x ↔ (∀ id < g.length, 0 ≤ x id ∧ (future[id]? = some false → x id = 0)) ∧
        ∀ i < costs.length, 0 ≤ (g.zipIdx.map (fun y => match selAch past future y with | none => 0 | some as => (as.count (i : Int) : Rat) * x y.2)).sum ∧
          (g.zipIdx.map (fun y => match selAch past future y with | none => 0 | some as => (as.count (i : Int) : Rat) * x y.2)).sum ≤ ((costs[i]?.getD 0 : Nat) : Rat))) := by
  have hb : ∀ x ∈ g.zipIdx, x.2 < past.length ∧ x.2 < future.length := fun x hx => by
    rw [hp, hf]; exact ⟨zipIdx_lt hx, zipIdx_lt hx⟩
  have hlen : ((initialConstraints costs).map (fun c => { c with entries := [] })).length = costs.length := by simp [initialConstraints]
  rcases defineConstraintMatrix_spec g.zipIdx _ hb hv hlen with ⟨h1, h2⟩ | ⟨h1, cs, h2, h3, h4⟩
  · left
    refine ⟨h1, ?_⟩
    unfold optimalLp
    rw [if_pos hf, h2]
  · right
    refine ⟨h1, ⟨true, lpVariables future, cs.filter (fun c => !c.entries.isEmpty)⟩, ?_, rfl, fun x => ?_, fun x => ?_⟩
    · unfold optimalLp
      rw [if_pos hf, h2]
    · unfold LP.Program.value lpVariables
      simp only
      rw [List.zipIdx_map, List.map_map, ← hf]
      have : (List.range future.length).map x = future.zipIdx.map (fun c => x c.2) := by
        have := List.zipIdx_map_snd 0 future
        rw [List.range_eq_range', ← this, List.map_map]
        rfl
      rw [this]
      congr 1
      apply List.map_congr_left
      intro c _
      simp
    · have hrow : ∀ i < costs.length, cs[i]? = some ⟨some 0, some ((costs[i]?.getD 0 : Nat) : Rat), entriesOf past future g.zipIdx i⟩ := by
        intro i hi
        have := h4 i ⟨some 0, some ((costs[i]?.getD 0 : Nat) : Rat), []⟩ (by simp only [initialConstraints, List.map_map, List.getElem?_map, List.getElem?_eq_getElem hi]; rfl)
        simpa using this
      constructor
      · intro hx
        refine ⟨fun id hid => ?_, fun i hi => ?_⟩
        · have hfid : id < future.length := by omega
          have hc : (lpVariables future)[id]? = some ⟨some 0, if future[id] then none else some 0, 1⟩ := by
            simp [lpVariables, List.getElem?_eq_getElem hfid]
          have hbt := hx.columns id _ hc
          refine ⟨hbt.1 0 rfl, fun h' => ?_⟩
          rw [List.getElem?_eq_getElem hfid] at h'
          have h'' : future[id] = false := by simpa using h'
          exact le_antisymm (hbt.2 0 (by simp [h''])) (hbt.1 0 rfl)
        · rw [← entriesOf_sum]
          by_cases hemp : entriesOf past future g.zipIdx i = []
          · rw [hemp]
            simp
          · have hbt := hx.rows _ (List.mem_filter.mpr ⟨List.mem_of_getElem? (hrow i hi), by simpa using hemp⟩)
            exact ⟨hbt.1 0 rfl, hbt.2 _ rfl⟩
      · rintro ⟨hx1, hx2⟩
        refine ⟨fun id c hc => ?_, fun r hr => ?_⟩
        · have hid : id < future.length := by
            have := (List.getElem?_eq_some_iff.mp hc).1
            simpa [lpVariables] using this
          have hc' : (lpVariables future)[id]? = some ⟨some 0, if future[id] then none else some 0, 1⟩ := by
            simp [lpVariables, List.getElem?_eq_getElem hid]
          rw [hc'] at hc
          cases hc
          have := hx1 id (by omega)
          refine ⟨fun l hl => ?_, fun u hu => ?_⟩
          · cases hl; exact this.1
          · rcases bit_cases hid with e | e
            · rw [List.getElem?_eq_getElem hid] at e
              have e' : future[id] = true := by simpa using e
              simp [e'] at hu
            · have e' := this.2 e
              rw [List.getElem?_eq_getElem hid] at e
              have e'' : future[id] = false := by simpa using e
              simp only [e'', Bool.false_eq_true, if_false, Option.some.injEq] at hu
              rw [e', ← hu]
        · obtain ⟨hr1, _⟩ := List.mem_filter.mp hr
          obtain ⟨i, hi⟩ := List.mem_iff_getElem?.mp hr1
          have hilt : i < costs.length := by
            have := (List.getElem?_eq_some_iff.mp hi).1
            omega
          rw [hrow i hilt] at hi
          cases hi
          have := hx2 i hilt
          rw [← entriesOf_sum] at this
          refine ⟨fun l hl => ?_, fun u hu => ?_⟩
          · cases hl; exact this.1
          · cases hu; exact this.2

/-- sums over the future landmarks -/
theorem sum_range_sel {g : Graph} {past future : Bits} (hf : future.length = g.length) {x : Nat → Rat} (hx : ∀ id < g.length, future[id]? = some false → x id = 0) :
    ((List.range g.length).map x).sum = (g.zipIdx.map (fun y => match selAch past future y with | none => 0 | some _ => x y.2)).sum := by
  have : (List.range g.length).map x = g.zipIdx.map (fun c => x c.2) := by
    have := List.zipIdx_map_snd 0 g
    rw [List.range_eq_range', ← this, List.map_map]
    rfl
  rw [this]
  congr 1
  apply List.map_congr_left
  intro y hy
  have hlt := zipIdx_lt hy
  unfold selAch
  rcases bit_cases (by rw [hf]; exact hlt : y.2 < future.length) with e | e
  · simp [e]
  · simp [e, hx y.2 hlt e]

theorem sum_swap {α : Type} (l : List α) (S : Finset Nat) (f : α → Nat → Rat) : (l.map (fun a => ∑ i ∈ S, f a i)).sum = ∑ i ∈ S, (l.map (fun a => f a i)).sum := by
  induction l with
  | nil => simp
  | cons a l ih => simp [ih, Finset.sum_add_distrib]

/-- every feasible solution is bounded by the costs of operators that contain an achiever of every future landmark -/
theorem optimalLp_le {g : Graph} {costs : List Nat} {past future : Bits} (hp : past.length = g.length) (hf : future.length = g.length)
    (hv : ∀ as ∈ futs past future g.zipIdx, ValidIds costs.length as) {lp : LP.Program} (h : optimalLp g costs past future = some (some lp)) {H : Finset Nat}
    (hH : ∀ as ∈ futs past future g.zipIdx, ∃ i ∈ H, (i : Int) ∈ as) {x : Nat → Rat} (hx : lp.Feasible x) : lp.value x ≤ ((∑ i ∈ H, costs[i]?.getD 0 : Nat) : Rat) := by
  rcases optimalLp_spec (costs := costs) hp hf hv with ⟨_, h'⟩ | ⟨_, lp', h1, _, h2, h3⟩
  · rw [h] at h'; cases h'
  rw [h] at h1
  simp only [Option.some.injEq] at h1
  subst h1
  obtain ⟨hx1, hx2⟩ := (h3 x).mp hx
  rw [h2, sum_range_sel (past := past) hf (fun id hid h => (hx1 id hid).2 h)]
  -- only the operators that exist
  have hH' : ∀ as ∈ futs past future g.zipIdx, ∃ i ∈ H.filter (· < costs.length), (i : Int) ∈ as := by
    intro as has
    obtain ⟨i, hi, hia⟩ := hH as has
    have := (hv as has _ hia).2
    exact ⟨i, Finset.mem_filter.mpr ⟨hi, by omega⟩, hia⟩
  calc (g.zipIdx.map (fun y => match selAch past future y with | none => 0 | some _ => x y.2)).sum
      ≤ (g.zipIdx.map (fun y => ∑ i ∈ H.filter (· < costs.length), match selAch past future y with | none => 0 | some as => (as.count (i : Int) : Rat) * x y.2)).sum := by
        refine List.sum_le_sum fun y hy => ?_
        cases hsel : selAch past future y with
        | none => simp
        | some as =>
          simp only
          have hmem : as ∈ futs past future g.zipIdx := List.mem_filterMap.mpr ⟨y, hy, hsel⟩
          obtain ⟨i, hi, hia⟩ := hH' as hmem
          have hnn := (hx1 y.2 (zipIdx_lt hy)).1
          calc x y.2 ≤ (as.count (i : Int) : Rat) * x y.2 := by
                have : (1 : Rat) ≤ (as.count (i : Int) : Rat) := by exact_mod_cast List.count_pos_iff.mpr hia
                nlinarith
            _ ≤ _ := Finset.single_le_sum (f := fun i : Nat => (as.count (i : Int) : Rat) * x y.2) (fun j _ => mul_nonneg (by positivity) hnn) hi
    _ = ∑ i ∈ H.filter (· < costs.length), (g.zipIdx.map (fun y => match selAch past future y with | none => 0 | some as => (as.count (i : Int) : Rat) * x y.2)).sum := sum_swap _ _ _
    _ ≤ ∑ i ∈ H.filter (· < costs.length), ((costs[i]?.getD 0 : Nat) : Rat) := Finset.sum_le_sum fun i hi => (hx2 i (Finset.mem_filter.mp hi).2).2
    _ = ((∑ i ∈ H.filter (· < costs.length), costs[i]?.getD 0 : Nat) : Rat) := by push_cast; rfl
    _ ≤ _ := by
        have : (∑ i ∈ H.filter (· < costs.length), costs[i]?.getD 0) ≤ ∑ i ∈ H, costs[i]?.getD 0 := Finset.sum_le_sum_of_subset (Finset.filter_subset _ _)
        exact_mod_cast this

/-- the linear program has a solution -/
theorem optimalLp_solvable {g : Graph} {costs : List Nat} {past future : Bits} (hp : past.length = g.length) (hf : future.length = g.length)
    (hv : ∀ as ∈ futs past future g.zipIdx, ValidIds costs.length as) {lp : LP.Program} (h : optimalLp g costs past future = some (some lp)) : lp.Solvable := by
  have h0 : [] ∉ futs past future g.zipIdx := by
    rcases optimalLp_spec (costs := costs) hp hf hv with ⟨_, h'⟩ | ⟨h0, _⟩
    · rw [h] at h'; cases h'
    · exact h0
  refine ⟨⟨fun _ => 0, ?_⟩, ((∑ i ∈ Finset.range costs.length, costs[i]?.getD 0 : Nat) : Rat), fun x hx => optimalLp_le hp hf hv h (fun as has => ?_) hx⟩
  · rcases optimalLp_spec (costs := costs) hp hf hv with ⟨_, h'⟩ | ⟨_, lp', h1, _, h2, h3⟩
    · rw [h] at h'; cases h'
    rw [h] at h1
    simp only [Option.some.injEq] at h1
    subst h1
    refine (h3 _).mpr ⟨fun _ _ => ⟨le_refl _, fun _ => rfl⟩, fun i hi => ?_⟩
    have : (g.zipIdx.map (fun y => match selAch past future y with | none => (0 : Rat) | some as => (as.count (i : Int) : Rat) * 0)).sum = 0 := by
      refine List.sum_eq_zero fun v hv => ?_
      obtain ⟨y, _, rfl⟩ := List.mem_map.mp hv
      cases selAch past future y <;> simp
    rw [this]
    exact ⟨le_refl _, by positivity⟩
  · match as, has with
    | [], has => exact absurd has h0
    | a :: as, has =>
      obtain ⟨j, hj, hlt⟩ := (hv _ has).nat (List.mem_cons_self)
      exact ⟨j, Finset.mem_range.mpr hlt, by simp [hj]⟩

theorem sum_sel_futs {past future : Bits} (f : List Int → Rat) (xs : List (Node × Nat)) :
    (xs.map (fun y => match selAch past future y with | none => 0 | some as => f as)).sum = ((futs past future xs).map f).sum := by
  induction xs with
  | nil => simp [futs]
  | cons y ys ih =>
    unfold futs at ih ⊢
    rw [List.filterMap_cons]
    cases h : selAch past future y with
    | none => simp [h, ih]
    | some as => simp [h, ih]

theorem sum_filter_split (p : List Int → Bool) (f : List Int → Rat) (l : List (List Int)) : (l.map f).sum = ((l.filter p).map f).sum + ((l.filter (fun a => !p a)).map f).sum := by
  induction l with
  | nil => simp
  | cons a l ih =>
    rw [List.filter_cons, List.filter_cons]
    cases h : p a
    · simp [ih]; ring
    · simp [ih]; ring

theorem sum_count_single (l : List (List Int)) (i : Nat) (c : Rat) : (l.map (fun as => if as = [(i : Int)] then c else 0)).sum = (l.count [(i : Int)] : Rat) * c := by
  induction l with
  | nil => simp
  | cons a l ih =>
    rw [List.map_cons, List.sum_cons, ih, List.count_cons]
    by_cases h : a = [(i : Int)]
    · simp [h]; ring
    · have : (a == [(i : Int)]) = false := by simpa using h
      simp [h, this]

/-- the cost of a landmark in the uniform cost partitioning; the cost of an action landmark is split among its landmarks -/
def uniformShare (costs : List Nat) (F : List (List Int)) (alm : List Bool) (cnt : List Int) (as : List Int) : Rat :=
  if covered alm as then ∑ i ∈ Finset.range costs.length, (if as = [(i : Int)] then ((costs[i]?.getD 0 : Nat) : Rat) / (F.count [(i : Int)] : Rat) else 0)
  else minShare costs cnt as

/-- The uniform cost partitioning is a feasible solution of the linear program: optimal cost partitioning is at least as good. -/
theorem uniform_feasible {g : Graph} {costs : List Nat} {useAlm : Bool} {past future : Bits} (hp : past.length = g.length) (hf : future.length = g.length)
    (hv : ∀ as ∈ futs past future g.zipIdx, ValidIds costs.length as) {lp : LP.Program} (h : optimalLp g costs past future = some (some lp)) {v : Rat}
    (hu : uniformValue g costs useAlm past future = some (some v)) : ∃ x, lp.Feasible x ∧ lp.value x = v := by
  rcases optimalLp_spec (costs := costs) hp hf hv with ⟨_, h'⟩ | ⟨_, lp', h1, _, h2, h3⟩
  · rw [h] at h'; cases h'
  rw [h] at h1
  simp only [Option.some.injEq] at h1
  subst h1
  rcases uniformValue_parts (useAlm := useAlm) hp hf hv with ⟨_, h'⟩ | ⟨h0, alm, cnt, k1, k2, k3, k4, k5, k6⟩
  · rw [hu] at h'; cases h'
  rw [hu] at k6
  simp only [Option.some.injEq] at k6
  subst k6
  set F := futs past future g.zipIdx with hF
  set w := uniformShare costs F alm cnt with hw
  have hnn : ∀ as ∈ F, 0 ≤ w as := by
    intro as has
    rw [hw]
    unfold uniformShare
    by_cases hc : covered alm as = true
    · rw [if_pos hc]
      refine Finset.sum_nonneg fun i _ => ?_
      split <;> positivity
    · rw [if_neg hc]
      have hm : as ∈ F.filter (fun as => !covered alm as) := List.mem_filter.mpr ⟨has, by simpa using hc⟩
      exact minShare_nonneg k2 (hv as has) (fun i hi => (k5 as hm i hi).2) (fun h => h0 (h ▸ has))
  let x : Nat → Rat := fun id => match g[id]? with
    | none => 0
    | some n => match selAch past future (n, id) with
      | none => 0
      | some as => w as
  have hxy : ∀ y ∈ g.zipIdx, x y.2 = match selAch past future y with | none => 0 | some as => w as := by
    intro y hy
    simp only [x, mem_zipIdx.mp hy]
  have hzero : ∀ id < g.length, future[id]? = some false → x id = 0 := by
    intro id hid hfid
    simp only [x]
    rw [List.getElem?_eq_getElem hid]
    simp [selAch, hfid]
  have hcov_single : ∀ i < costs.length, alm[i]? = some true → covered alm [(i : Int)] = true := by
    intro i _ hi
    simp [covered, hi]
  -- the sum over the future landmarks
  have hsum : ∀ (f : List Int → Rat), (g.zipIdx.map (fun y => match selAch past future y with | none => 0 | some as => f as * x y.2)).sum = (F.map (fun as => f as * w as)).sum := by
    intro f
    rw [hF, ← sum_sel_futs (fun as => f as * w as)]
    congr 1
    apply List.map_congr_left
    intro y hy
    rw [hxy y hy]
    cases selAch past future y <;> simp
  have hcovsum : ∀ (f : List Int → Rat), ((F.filter (fun as => covered alm as)).map (fun as => f as * w as)).sum =
      ∑ i ∈ Finset.range costs.length, if alm[i]? = some true then f [(i : Int)] * ((costs[i]?.getD 0 : Nat) : Rat) else 0 := by
    intro f
    have e1 : (F.filter (fun as => covered alm as)).map (fun as => f as * w as) = (F.filter (fun as => covered alm as)).map (fun as => ∑ i ∈ Finset.range costs.length,
        if as = [(i : Int)] then f [(i : Int)] * (((costs[i]?.getD 0 : Nat) : Rat) / (F.count [(i : Int)] : Rat)) else 0) := by
      apply List.map_congr_left
      intro as has
      have hc := (List.mem_filter.mp has).2
      rw [hw]
      unfold uniformShare
      rw [if_pos hc, Finset.mul_sum]
      refine Finset.sum_congr rfl fun i _ => ?_
      by_cases he : as = [(i : Int)]
      · simp [he]
      · simp [he]
    rw [e1, sum_swap]
    refine Finset.sum_congr rfl fun i hi => ?_
    rw [sum_count_single]
    have hilt := Finset.mem_range.mp hi
    by_cases ha : alm[i]? = some true
    · rw [if_pos ha, List.count_filter (hcov_single i hilt ha)]
      have hpos : ((F.count [(i : Int)] : Nat) : Rat) ≠ 0 := by
        have := List.count_pos_iff.mpr ((k3 i hilt).mp ha).2
        exact_mod_cast (by omega : F.count [(i : Int)] ≠ 0)
      field_simp
    · rw [if_neg ha]
      have : (F.filter (fun as => covered alm as)).count [(i : Int)] = 0 := by
        rw [List.count_eq_zero]
        intro hm
        have := (List.mem_filter.mp hm).2
        simp [covered] at this
        exact ha this
      rw [this]
      simp
  refine ⟨x, (h3 x).mpr ⟨fun id hid => ⟨?_, hzero id hid⟩, fun i hi => ?_⟩, ?_⟩
  · simp only [x, List.getElem?_eq_getElem hid]
    cases hsel : selAch past future (g[id], id) with
    | none => exact le_refl _
    | some as => exact hnn as (List.mem_filterMap.mpr ⟨(g[id], id), mem_zipIdx.mpr (List.getElem?_eq_getElem hid), hsel⟩)
  · rw [hsum (fun as => (as.count (i : Int) : Rat))]
    refine ⟨List.sum_nonneg fun z hz => ?_, ?_⟩
    · obtain ⟨as, has, rfl⟩ := List.mem_map.mp hz
      exact mul_nonneg (by positivity) (hnn as has)
    · rw [sum_filter_split (fun as => covered alm as), hcovsum]
      have e2 : (∑ j ∈ Finset.range costs.length, if alm[j]? = some true then (([(j : Int)].count (i : Int) : Nat) : Rat) * ((costs[j]?.getD 0 : Nat) : Rat) else 0)
          = if alm[i]? = some true then ((costs[i]?.getD 0 : Nat) : Rat) else 0 := by
        rw [Finset.sum_eq_single i]
        · simp
        · intro j _ hji
          have : (([(j : Int)].count (i : Int) : Nat)) = 0 := by
            rw [List.count_eq_zero]
            simp [Ne.symm hji]
          rw [this]
          simp
        · intro hni
          exact absurd (Finset.mem_range.mpr hi) hni
      rw [e2]
      rcases bit_cases (by rw [k1]; exact hi : i < alm.length) with ha | ha
      · rw [if_pos ha]
        have : ((F.filter (fun as => !covered alm as)).map (fun as => (as.count (i : Int) : Rat) * w as)).sum = 0 := by
          refine List.sum_eq_zero fun z hz => ?_
          obtain ⟨as, has, rfl⟩ := List.mem_map.mp hz
          have : as.count (i : Int) = 0 := by
            rw [List.count_eq_zero]
            intro hm
            have := (k5 as has i hm).1
            rw [ha] at this
            cases this
          rw [this]
          simp
        rw [this, add_zero]
      · rw [if_neg (by rw [ha]; simp), zero_add]
        have hle : ((F.filter (fun as => !covered alm as)).map (fun as => (as.count (i : Int) : Rat) * w as)).sum ≤ ((F.filter (fun as => !covered alm as)).map (fun as => (as.count (i : Int) : Rat) * shareOf costs cnt i)).sum := by
          refine List.sum_le_sum fun as has => ?_
          have hc : covered alm as = false := by simpa using (List.mem_filter.mp has).2
          by_cases hm : (i : Int) ∈ as
          · have : w as ≤ shareOf costs cnt i := by
              rw [hw]
              unfold uniformShare
              rw [if_neg (by simp [hc])]
              exact minShare_le k2 (hv as (List.mem_filter.mp has).1) (fun j hj => (k5 as has j hj).2) hm
            exact mul_le_mul_of_nonneg_left this (by positivity)
          · simp [List.count_eq_zero.mpr hm]
        refine le_trans hle ?_
        have e3 : ∀ l : List (List Int), (l.map (fun as => (as.count (i : Int) : Rat) * shareOf costs cnt i)).sum = (countIn l i : Rat) * shareOf costs cnt i := by
          intro l
          induction l with
          | nil => simp [countIn]
          | cons a l ih =>
            rw [List.map_cons, List.sum_cons, ih, countIn_cons]
            push_cast
            ring
        rw [e3]
        unfold shareOf
        rw [k4 i hi ha]
        rcases Nat.eq_zero_or_pos (countIn (F.filter (fun as => !covered alm as)) i) with hz | hz
        · rw [hz]; simp
        · have : ((countIn (F.filter (fun as => !covered alm as)) i : Nat) : Rat) ≠ 0 := by
            exact_mod_cast (by omega : countIn (F.filter (fun as => !covered alm as)) i ≠ 0)
          push_cast
          rw [mul_div_cancel₀ _ this]
  · rw [h2, sum_range_sel (past := past) hf hzero]
    have e4 := hsum (fun _ => 1)
    simp only [one_mul] at e4
    rw [e4, sum_filter_split (fun as => covered alm as)]
    have e5 := hcovsum (fun _ => 1)
    simp only [one_mul] at e5
    rw [e5]
    congr 1
    · unfold almCost
      push_cast
      refine Finset.sum_congr rfl fun i _ => ?_
      split <;> simp
    · congr 1
      apply List.map_congr_left
      intro as has
      have hc : covered alm as = false := by simpa using (List.mem_filter.mp has).2
      rw [hw]
      unfold uniformShare
      rw [if_neg (by simp [hc])]

end Verif.Landmarks
