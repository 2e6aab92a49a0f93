import Verif.Model.SegmentedVector

namespace Verif.SegmentedVector

variable {α : Type}

/-- The segments realise the flat memory `G` (address `s * W + o`). -/
structure Flat (W : Nat) (m : Segments α) (G : Nat → Option α) : Prop where
  seglen : ∀ seg ∈ m, seg.length = W
  cell : ∀ s o, s < m.length → o < W → ∃ seg, m[s]? = some seg ∧ seg[o]? = some (G (s * W + o))

/-- function update -/
def upd (G : Nat → Option α) (a : Nat) (c : Option α) : Nat → Option α := fun b => if b = a then c else G b

theorem addr_inj {W s o s' o' : Nat} (ho : o < W) (ho' : o' < W) (h : s * W + o = s' * W + o') :
    s = s' ∧ o = o' := by
  have hW : 0 < W := by omega
  have h1 : (s * W + o) / W = s := by
    rw [Nat.mul_comm, Nat.mul_add_div hW, Nat.div_eq_of_lt ho]; omega
  have h2 : (s' * W + o') / W = s' := by
    rw [Nat.mul_comm, Nat.mul_add_div hW, Nat.div_eq_of_lt ho']; omega
  have hs : s = s' := by rw [← h1, ← h2, h]
  subst hs
  exact ⟨rfl, by omega⟩

theorem Flat.read {W m} {G : Nat → Option α} (h : Flat W m G) {s o} (hs : s < m.length) (ho : o < W) :
    readCell m s o = G (s * W + o) := by
  obtain ⟨seg, h1, h2⟩ := h.cell s o hs ho
  simp [readCell, h1, h2]

theorem Flat.put {W m} {G : Nat → Option α} (h : Flat W m G) {s o} (hs : s < m.length) (ho : o < W)
    (c : Option α) : ∃ m', putCell m s o c = some m' ∧ Flat W m' (upd G (s * W + o) c) ∧
      m'.length = m.length := by
  obtain ⟨seg, h1, h2⟩ := h.cell s o hs ho
  have hl : seg.length = W := h.seglen seg (List.mem_of_getElem? h1)
  refine ⟨m.set s (seg.set o c), ?_, ⟨?_, ?_⟩, by simp⟩
  · simp only [putCell, h1, Option.bind_eq_bind, Option.bind_some]
    rw [if_pos (by omega)]
  · intro seg' hseg'
    rcases List.mem_or_eq_of_mem_set hseg' with g | g
    · exact h.seglen seg' g
    · subst g; simp [hl]
  · intro s' o' hs' ho'
    simp only [List.length_set] at hs'
    by_cases hss : s = s'
    · subst hss
      refine ⟨seg.set o c, by rw [List.getElem?_set_self hs], ?_⟩
      by_cases hoo : o = o'
      · subst hoo
        rw [List.getElem?_set_self (by omega)]
        simp [upd]
      · rw [List.getElem?_set_ne hoo]
        obtain ⟨seg2, g1, g2⟩ := h.cell s o' hs ho'
        rw [h1] at g1; cases g1
        rw [g2]
        have : ¬ (s * W + o' = s * W + o) := by omega
        simp only [upd, this, if_false]
    · obtain ⟨seg2, g1, g2⟩ := h.cell s' o' hs' ho'
      refine ⟨seg2, by rw [List.getElem?_set_ne hss]; exact g1, ?_⟩
      rw [g2]
      have : ¬ (s' * W + o' = s * W + o) := by
        intro e; exact hss (addr_inj ho' ho e).1.symm
      simp [upd, this]

theorem Flat.construct {W m} {G : Nat → Option α} (h : Flat W m G) {s o} (hs : s < m.length) (ho : o < W)
    (hdead : G (s * W + o) = none) (x : α) :
    ∃ m', construct m s o x = some m' ∧ Flat W m' (upd G (s * W + o) (some x)) ∧ m'.length = m.length := by
  obtain ⟨seg, h1, h2⟩ := h.cell s o hs ho
  obtain ⟨m', e, h'⟩ := h.put hs ho (some x)
  refine ⟨m', ?_, h'⟩
  simp [SegmentedVector.construct, h1, h2, hdead, e]

theorem Flat.destroy {W m} {G : Nat → Option α} (h : Flat W m G) {s o} (hs : s < m.length) (ho : o < W)
    {x : α} (hlive : G (s * W + o) = some x) :
    ∃ m', destroy m s o = some m' ∧ Flat W m' (upd G (s * W + o) none) ∧ m'.length = m.length := by
  obtain ⟨m', e, h'⟩ := h.put hs ho none
  refine ⟨m', ?_, h'⟩
  simp [SegmentedVector.destroy, h.read hs ho, hlive, e]

theorem Flat.assign {W m} {G : Nat → Option α} (h : Flat W m G) {s o} (hs : s < m.length) (ho : o < W)
    {y : α} (hlive : G (s * W + o) = some y) (x : α) :
    ∃ m', assign m s o x = some m' ∧ Flat W m' (upd G (s * W + o) (some x)) ∧ m'.length = m.length := by
  obtain ⟨m', e, h'⟩ := h.put hs ho (some x)
  refine ⟨m', ?_, h'⟩
  simp [SegmentedVector.assign, h.read hs ho, hlive, e]

/-- appending a fresh segment keeps the flat memory, provided nothing lives there -/
theorem Flat.addSegment {W m} {G : Nat → Option α} (h : Flat W m G)
    (hdead : ∀ a, m.length * W ≤ a → G a = none) : Flat W (m ++ [List.replicate W none]) G := by
  refine ⟨?_, ?_⟩
  · intro seg hseg
    rcases List.mem_append.mp hseg with g | g
    · exact h.seglen seg g
    · simp at g; subst g; simp
  · intro s o hs ho
    simp at hs
    by_cases hlt : s < m.length
    · obtain ⟨seg, g1, g2⟩ := h.cell s o hlt ho
      exact ⟨seg, by rw [List.getElem?_append_left hlt]; exact g1, g2⟩
    · have : s = m.length := by omega
      subst this
      refine ⟨List.replicate W none, by simp, ?_⟩
      rw [List.getElem?_replicate, if_pos ho, hdead _ (by omega)]

theorem Flat.constructCells {W s} (xs : List α) : ∀ {m : Segments α} {G : Nat → Option α} {o : Nat},
    Flat W m G → s < m.length → o + xs.length ≤ W → (∀ j, j < xs.length → G (s * W + o + j) = none) →
    ∃ m', constructCells m s o xs = some m' ∧ m'.length = m.length ∧
      Flat W m' (fun a => if s * W + o ≤ a ∧ a < s * W + o + xs.length then xs[a - (s * W + o)]? else G a) := by
  induction xs with
  | nil =>
    intro m G o h hs _ _
    refine ⟨m, rfl, rfl, ?_⟩
    have : (fun a => if s * W + o ≤ a ∧ a < s * W + o + ([] : List α).length then ([] : List α)[a - (s * W + o)]? else G a) = G := by
      funext a
      rw [if_neg (by simp)]
    rw [this]; exact h
  | cons x xs ih =>
    intro m G o h hs hlen hdead
    simp only [List.length_cons] at hlen hdead
    obtain ⟨m1, e1, h1, l1⟩ := h.construct hs (o := o) (by omega) (hdead 0 (by omega)) x
    obtain ⟨m2, e2, l2, h2⟩ := ih h1 (by omega) (o := o + 1) (by omega) (by
      intro j hj
      have := hdead (j + 1) (by omega)
      have hne : ¬ (s * W + (o + 1) + j = s * W + o) := by omega
      simp only [upd, hne, if_false]
      rw [← this]; congr 1; omega)
    refine ⟨m2, by simp [SegmentedVector.constructCells, e1, e2], by omega, ?_⟩
    have : (fun a => if s * W + o ≤ a ∧ a < s * W + o + (x :: xs).length then (x :: xs)[a - (s * W + o)]? else G a) =
        (fun a => if s * W + (o + 1) ≤ a ∧ a < s * W + (o + 1) + xs.length then xs[a - (s * W + (o + 1))]?
          else upd G (s * W + o) (some x) a) := by
      funext a
      simp only [List.length_cons]
      by_cases ha : a = s * W + o
      · subst ha
        rw [if_pos (by omega), if_neg (by omega)]
        simp [upd]
      · by_cases hin : s * W + (o + 1) ≤ a ∧ a < s * W + (o + 1) + xs.length
        · rw [if_pos (by omega), if_pos hin]
          have : a - (s * W + o) = (a - (s * W + (o + 1))) + 1 := by omega
          rw [this, List.getElem?_cons_succ]
        · rw [if_neg (by omega), if_neg hin]
          simp [upd, ha]
    rw [this]; exact h2

theorem Flat.destroyCells {W s} (k : Nat) : ∀ {m : Segments α} {G : Nat → Option α} {o : Nat},
    Flat W m G → s < m.length → o + k ≤ W → (∀ j, j < k → (G (s * W + o + j)).isSome) →
    ∃ m', destroyCells m s o k = some m' ∧ m'.length = m.length ∧
      Flat W m' (fun a => if s * W + o ≤ a ∧ a < s * W + o + k then none else G a) := by
  induction k with
  | zero =>
    intro m G o h hs _ _
    refine ⟨m, rfl, rfl, ?_⟩
    have : (fun a => if s * W + o ≤ a ∧ a < s * W + o + 0 then none else G a) = G := by
      funext a
      rw [if_neg (by omega)]
    rw [this]; exact h
  | succ k ih =>
    intro m G o h hs hlen hlive
    obtain ⟨x, hx⟩ := Option.isSome_iff_exists.mp (hlive 0 (by omega))
    obtain ⟨m1, e1, h1, l1⟩ := h.destroy hs (o := o) (by omega) hx
    obtain ⟨m2, e2, l2, h2⟩ := ih h1 (by omega) (o := o + 1) (by omega) (by
      intro j hj
      have := hlive (j + 1) (by omega)
      have hne : ¬ (s * W + (o + 1) + j = s * W + o) := by omega
      simp only [upd, hne, if_false]
      rw [← this]; congr 2; omega)
    refine ⟨m2, by simp [SegmentedVector.destroyCells, e1, e2], by omega, ?_⟩
    have : (fun a => if s * W + o ≤ a ∧ a < s * W + o + (k + 1) then none else G a) =
        (fun a => if s * W + (o + 1) ≤ a ∧ a < s * W + (o + 1) + k then none
          else upd G (s * W + o) none a) := by
      funext a
      by_cases ha : a = s * W + o
      · subst ha
        rw [if_pos (by omega), if_neg (by omega)]
        simp [upd]
      · by_cases hin : s * W + (o + 1) ≤ a ∧ a < s * W + (o + 1) + k
        · rw [if_pos (by omega), if_pos hin]
        · rw [if_neg (by omega), if_neg hin]
          simp [upd, ha]
    rw [this]; exact h2

theorem Flat.readCells {W s} (k : Nat) : ∀ {m : Segments α} {G : Nat → Option α} {o : Nat} (xs : List α),
    Flat W m G → s < m.length → o + k ≤ W → xs.length = k → (∀ j, j < k → G (s * W + o + j) = xs[j]?) →
    readCells m s o k = some xs := by
  induction k with
  | zero =>
    intro m G o xs _ _ _ hx _
    have : xs = [] := List.eq_nil_of_length_eq_zero hx
    subst this; rfl
  | succ k ih =>
    intro m G o xs h hs hlen hx hval
    cases xs with
    | nil => simp at hx
    | cons x xs =>
      have h0 : readCell m s o = some x := by
        rw [h.read hs (by omega)]
        have := hval 0 (by omega)
        simpa using this
      have h1 := ih (o := o + 1) xs h hs (by omega) (by simpa using hx) (by
        intro j hj
        have := hval (j + 1) (by omega)
        rw [List.getElem?_cons_succ] at this
        rw [← this]; congr 1; omega)
      simp [SegmentedVector.readCells, h0, h1]

/-! ### arithmetic of array positions -/

theorem pos_arith (i A k : Nat) (_hA : 0 < A) : (i / A) * (k * A) + (i % A) * k = i * k := by
  have h1 : (i / A) * (k * A) = (A * (i / A)) * k := by
    rw [Nat.mul_comm k A, ← Nat.mul_assoc, Nat.mul_comm (i / A) A]
  rw [h1, ← Nat.add_mul, Nat.div_add_mod]

theorem off_lt (i A k : Nat) (hA : 0 < A) : (i % A) * k + k ≤ k * A := by
  have h := Nat.mod_lt i hA
  calc (i % A) * k + k = (i % A + 1) * k := by rw [Nat.add_mul, Nat.one_mul]
    _ ≤ A * k := Nat.mul_le_mul_right _ h
    _ = k * A := Nat.mul_comm _ _

/-! ### SegmentedArrayVector -/

/-- `v` holds the list of arrays `l`. -/
structure SAV.Rep (v : SAV α) (l : List (List α)) : Prop where
  apos : 0 < v.arraysPerSeg
  size : v.size = l.length
  each : ∀ x ∈ l, x.length = v.perArray
  room : v.size ≤ v.segments.length * v.arraysPerSeg
  flat : Flat (v.perArray * v.arraysPerSeg) v.segments
    (fun a => if a < v.size * v.perArray then (l.getD (a / v.perArray) [])[a % v.perArray]? else none)

theorem SAV.Rep.seg_lt {v : SAV α} {l} (h : v.Rep l) {i : Nat} (hi : i < v.size) :
    i / v.arraysPerSeg < v.segments.length := by
  apply Nat.div_lt_of_lt_mul
  have := h.room
  rw [Nat.mul_comm]; omega

theorem idx_arith {i k j : Nat} (hj : j < k) : (i * k + j) / k = i ∧ (i * k + j) % k = j := by
  have hk : 0 < k := by omega
  constructor
  · rw [Nat.mul_comm, Nat.mul_add_div hk, Nat.div_eq_of_lt hj]; omega
  · rw [Nat.mul_comm, Nat.mul_add_mod, Nat.mod_eq_of_lt hj]

theorem idx_lt {i n k j : Nat} (hi : i < n) (hj : j < k) : i * k + j < n * k := by
  calc i * k + j < i * k + k := by omega
    _ = (i + 1) * k := by rw [Nat.add_mul, Nat.one_mul]
    _ ≤ n * k := Nat.mul_le_mul_right _ hi

theorem SAV.get_spec {v : SAV α} {l} (h : v.Rep l) (i : Nat) : v.get i = l[i]? := by
  unfold SAV.get
  split
  · rename_i hi
    have hil : i < l.length := by rw [← h.size]; exact hi
    rw [List.getElem?_eq_getElem hil]
    have hlen := h.each l[i] (List.getElem_mem hil)
    refine Flat.readCells v.perArray l[i] h.flat (h.seg_lt hi) (off_lt i _ _ h.apos) hlen ?_
    intro j hj
    rw [pos_arith i _ _ h.apos]
    obtain ⟨e1, e2⟩ := idx_arith (i := i) hj
    simp only [idx_lt hi hj, if_true, e1, e2]
    simp [List.getD, hil]
  · rename_i hi
    rw [List.getElem?_eq_none (by rw [← h.size]; omega)]

theorem SAV.push_spec {v : SAV α} {l} (h : v.Rep l) {x : List α} (hx : x.length = v.perArray) :
    ∃ v', v.push x = some v' ∧ v'.Rep (l ++ [x]) ∧ v'.perArray = v.perArray := by
  have hA := h.apos
  have hseg : v.size / v.arraysPerSeg ≤ v.segments.length := by
    have := h.room
    exact Nat.div_le_of_le_mul (by rw [Nat.mul_comm]; exact this)
  -- the segments after possibly adding one
  let segs := if v.size / v.arraysPerSeg = v.segments.length then
      v.segments ++ [List.replicate (v.perArray * v.arraysPerSeg) none] else v.segments
  let G : Nat → Option α := fun a => if a < v.size * v.perArray then (l.getD (a / v.perArray) [])[a % v.perArray]? else none
  have hflat : Flat (v.perArray * v.arraysPerSeg) segs G ∧ v.size / v.arraysPerSeg < segs.length ∧
      v.size + 1 ≤ segs.length * v.arraysPerSeg := by
    have hlt : v.size < (v.size / v.arraysPerSeg + 1) * v.arraysPerSeg := by
      have := Nat.div_add_mod v.size v.arraysPerSeg
      have h2 := Nat.mod_lt v.size hA
      rw [Nat.add_mul, Nat.one_mul, Nat.mul_comm]; omega
    by_cases hc : v.size / v.arraysPerSeg = v.segments.length
    · have hs : segs = v.segments ++ [List.replicate (v.perArray * v.arraysPerSeg) none] := if_pos hc
      rw [hs]
      refine ⟨h.flat.addSegment ?_, by simp [hc], ?_⟩
      · intro a ha
        have : ¬ (a < v.size * v.perArray) := by
          have h1 : v.size * v.perArray ≤ v.segments.length * (v.perArray * v.arraysPerSeg) := by
            calc v.size * v.perArray ≤ (v.segments.length * v.arraysPerSeg) * v.perArray :=
                  Nat.mul_le_mul_right _ h.room
              _ = v.segments.length * (v.perArray * v.arraysPerSeg) := by
                  rw [Nat.mul_assoc, Nat.mul_comm v.arraysPerSeg]
          omega
        rw [if_neg this]
      · rw [hc] at hlt; simpa using Nat.succ_le_of_lt hlt
    · have hs : segs = v.segments := if_neg hc
      rw [hs]
      refine ⟨h.flat, by omega, ?_⟩
      have : (v.size / v.arraysPerSeg + 1) * v.arraysPerSeg ≤ v.segments.length * v.arraysPerSeg :=
        Nat.mul_le_mul_right _ (by omega)
      omega
  obtain ⟨hf, hslt, hroom⟩ := hflat
  obtain ⟨m', e, hl, hf'⟩ := Flat.constructCells x hf hslt (o := (v.size % v.arraysPerSeg) * v.perArray)
    (by rw [hx]; exact off_lt v.size _ _ hA) (by
      intro j hj
      rw [pos_arith v.size _ _ hA]
      exact if_neg (by omega))
  refine ⟨{ v with segments := m', size := v.size + 1 }, ?_, ⟨hA, by simp [h.size], ?_, by simp only [hl]; exact hroom, ?_⟩, rfl⟩
  · unfold SAV.push
    simp only [ne_eq, hx, not_true_eq_false, if_false]
    show (constructCells segs _ _ x).bind _ = _
    rw [e]; rfl
  · intro y hy
    rcases List.mem_append.mp hy with g | g
    · exact h.each y g
    · simp at g; subst g; exact hx
  · simp only
    have : (fun a => if a < (v.size + 1) * v.perArray then ((l ++ [x]).getD (a / v.perArray) [])[a % v.perArray]? else none) =
        (fun a => if v.size / v.arraysPerSeg * (v.perArray * v.arraysPerSeg) + v.size % v.arraysPerSeg * v.perArray ≤ a ∧
            a < v.size / v.arraysPerSeg * (v.perArray * v.arraysPerSeg) + v.size % v.arraysPerSeg * v.perArray + x.length
          then x[a - (v.size / v.arraysPerSeg * (v.perArray * v.arraysPerSeg) + v.size % v.arraysPerSeg * v.perArray)]? else G a) := by
      funext a
      rw [pos_arith v.size _ _ hA, hx]
      have hmul : (v.size + 1) * v.perArray = v.size * v.perArray + v.perArray := by
        rw [Nat.add_mul, Nat.one_mul]
      by_cases hin : v.size * v.perArray ≤ a ∧ a < v.size * v.perArray + v.perArray
      · rw [if_pos hin, if_pos (by omega)]
        have hj : a - v.size * v.perArray < v.perArray := by omega
        obtain ⟨e1, e2⟩ := idx_arith (i := v.size) hj
        have ea : v.size * v.perArray + (a - v.size * v.perArray) = a := by omega
        rw [ea] at e1 e2
        rw [e1, e2, h.size]
        simp [List.getD]
      · rw [if_neg hin]
        by_cases hlt : a < v.size * v.perArray
        · rw [if_pos (by omega)]
          show _ = if a < v.size * v.perArray then _ else _
          rw [if_pos hlt]
          have hdiv : a / v.perArray < l.length := by
            rw [← h.size]
            apply Nat.div_lt_of_lt_mul; rw [Nat.mul_comm]; exact hlt
          simp [List.getD, List.getElem?_append_left hdiv]
        · rw [if_neg (by omega)]
          show _ = if a < v.size * v.perArray then _ else _
          rw [if_neg hlt]
    rw [this]; exact hf'

theorem SAV.pop_spec {v : SAV α} {l} (h : v.Rep l) (hne : l ≠ []) :
    ∃ v', v.pop = some v' ∧ v'.Rep l.dropLast ∧ v'.perArray = v.perArray := by
  have hA := h.apos
  have hpos : 0 < v.size := by rw [h.size]; exact List.length_pos_iff.mpr hne
  have hi : v.size - 1 < v.size := by omega
  obtain ⟨m', e, hl, hf'⟩ := Flat.destroyCells v.perArray h.flat (h.seg_lt hi)
    (o := ((v.size - 1) % v.arraysPerSeg) * v.perArray) (off_lt _ _ _ hA) (by
      intro j hj
      rw [pos_arith _ _ _ hA]
      obtain ⟨e1, e2⟩ := idx_arith (i := v.size - 1) hj
      simp only [idx_lt hi hj, if_true, e1, e2]
      have hil : v.size - 1 < l.length := by rw [← h.size]; exact hi
      have hlen := h.each l[v.size - 1] (List.getElem_mem hil)
      simp [List.getD, hil, hlen, hj])
  refine ⟨{ v with segments := m', size := v.size - 1 }, ?_, ⟨hA, by simp [h.size], ?_, ?_, ?_⟩, rfl⟩
  · unfold SAV.pop
    rw [if_pos hpos, e]; rfl
  · intro y hy; exact h.each y (List.dropLast_subset l hy)
  · simp only [hl]; have := h.room; omega
  · simp only
    have : (fun a => if a < (v.size - 1) * v.perArray then (l.dropLast.getD (a / v.perArray) [])[a % v.perArray]? else none) =
        (fun a => if (v.size - 1) / v.arraysPerSeg * (v.perArray * v.arraysPerSeg) + (v.size - 1) % v.arraysPerSeg * v.perArray ≤ a ∧
            a < (v.size - 1) / v.arraysPerSeg * (v.perArray * v.arraysPerSeg) + (v.size - 1) % v.arraysPerSeg * v.perArray + v.perArray
          then none else (if a < v.size * v.perArray then (l.getD (a / v.perArray) [])[a % v.perArray]? else none)) := by
      funext a
      rw [pos_arith _ _ _ hA]
      have hmul : v.size * v.perArray = (v.size - 1) * v.perArray + v.perArray := by
        conv => lhs; rw [show v.size = (v.size - 1) + 1 by omega]
        rw [Nat.add_mul, Nat.one_mul]
      by_cases hin : (v.size - 1) * v.perArray ≤ a ∧ a < (v.size - 1) * v.perArray + v.perArray
      · rw [if_pos hin, if_neg (by omega)]
      · rw [if_neg hin]
        by_cases hlt : a < (v.size - 1) * v.perArray
        · rw [if_pos hlt, if_pos (by omega)]
          have hdiv : a / v.perArray < v.size - 1 := by
            apply Nat.div_lt_of_lt_mul; rw [Nat.mul_comm]; exact hlt
          have hdl : a / v.perArray < l.length - 1 := by rw [← h.size]; exact hdiv
          rw [List.getD_eq_getElem?_getD, List.getD_eq_getElem?_getD, List.getElem?_dropLast, if_pos hdl]
        · rw [if_neg hlt, if_neg (by omega)]
    rw [this]; exact hf'

theorem SAV.set_spec {v : SAV α} {l} (h : v.Rep l) {i j : Nat} {row : List α} (hrow : l[i]? = some row)
    (hj : j < v.perArray) (x : α) :
    ∃ v', v.set i j x = some v' ∧ v'.Rep (l.set i (row.set j x)) ∧ v'.perArray = v.perArray := by
  have hA := h.apos
  have hil : i < l.length := by
    rcases Nat.lt_or_ge i l.length with g | g
    · exact g
    · rw [List.getElem?_eq_none g] at hrow; simp at hrow
  have hi : i < v.size := by rw [h.size]; exact hil
  have hlen := h.each row (List.mem_of_getElem? hrow)
  have hoff : (i % v.arraysPerSeg) * v.perArray + j < v.perArray * v.arraysPerSeg := by
    have := off_lt i v.arraysPerSeg v.perArray hA; omega
  obtain ⟨e1, e2⟩ := idx_arith (i := i) hj
  obtain ⟨m', e, hf', hl⟩ := h.flat.assign (h.seg_lt hi) hoff (y := row[j]'(by omega)) (by
      rw [← Nat.add_assoc, pos_arith _ _ _ hA]
      simp only [idx_lt hi hj, if_true, e1, e2]
      simp [List.getD, hrow, hlen, hj]) x
  refine ⟨{ v with segments := m' }, ?_, ⟨hA, by simp [h.size], ?_, ?_, ?_⟩, rfl⟩
  · unfold SAV.set
    rw [if_pos ⟨hi, hj⟩, e]; rfl
  · intro y hy
    rcases List.mem_or_eq_of_mem_set hy with g | g
    · exact h.each y g
    · subst g; simpa using hlen
  · simp only [hl]; exact h.room
  · simp only
    rw [← Nat.add_assoc, pos_arith _ _ _ hA] at hf'
    have : (fun a => if a < v.size * v.perArray then ((l.set i (row.set j x)).getD (a / v.perArray) [])[a % v.perArray]? else none) =
        upd (fun a => if a < v.size * v.perArray then (l.getD (a / v.perArray) [])[a % v.perArray]? else none) (i * v.perArray + j) (some x) := by
      funext a
      unfold upd
      by_cases ha : a = i * v.perArray + j
      · subst ha
        rw [if_pos (idx_lt hi hj), if_pos rfl, e1, e2]
        simp [List.getD, List.getElem?_set_self hil, hlen, hj]
      · rw [if_neg ha]
        simp only
        by_cases hlt : a < v.size * v.perArray
        · rw [if_pos hlt, if_pos hlt]
          by_cases hd : i = a / v.perArray
          · have hm : j ≠ a % v.perArray := by
              intro hm
              apply ha
              rw [hd, hm, Nat.mul_comm]
              exact (Nat.div_add_mod a v.perArray).symm
            rw [← hd]
            simp [List.getD, List.getElem?_set_self hil, hrow, List.getElem?_set_ne hm]
          · simp [List.getD, List.getElem?_set_ne hd]
        · rw [if_neg hlt, if_neg hlt]
    rw [this]; exact hf'

theorem SAV.empty_rep (sz k : Nat) : (SAV.empty α sz k).Rep [] := by
  refine ⟨by simp [SAV.empty]; omega, rfl, by simp, by simp [SAV.empty], ⟨by simp [SAV.empty], ?_⟩⟩
  intro s o hs; simp [SAV.empty] at hs

theorem SAV.popN_spec : ∀ (n : Nat) {v : SAV α} {l}, v.Rep l → n ≤ l.length →
    ∃ v', v.popN n = some v' ∧ v'.Rep (l.take (l.length - n)) ∧ v'.perArray = v.perArray := by
  intro n
  induction n with
  | zero => intro v l h _; exact ⟨v, rfl, by simpa using h, rfl⟩
  | succ n ih =>
    intro v l h hn
    obtain ⟨v1, e1, h1, p1⟩ := SAV.pop_spec h (by intro he; subst he; simp at hn)
    obtain ⟨v2, e2, h2, p2⟩ := ih h1 (by simp; omega)
    refine ⟨v2, ?_, ?_, by omega⟩
    · show (v.pop).bind _ = _
      rw [e1]; exact e2
    · have : l.dropLast.take (l.dropLast.length - n) = l.take (l.length - (n + 1)) := by
        rw [List.dropLast_eq_take, List.take_take]
        congr 1
        simp
        omega
      rw [← this]; exact h2

theorem SAV.pushN_spec (x : List α) : ∀ (n : Nat) {v : SAV α} {l}, v.Rep l → x.length = v.perArray →
    ∃ v', v.pushN x n = some v' ∧ v'.Rep (l ++ List.replicate n x) ∧ v'.perArray = v.perArray := by
  intro n
  induction n with
  | zero => intro v l h _; exact ⟨v, rfl, by simpa using h, rfl⟩
  | succ n ih =>
    intro v l h hx
    obtain ⟨v1, e1, h1, p1⟩ := SAV.push_spec h hx
    obtain ⟨v2, e2, h2, p2⟩ := ih h1 (by omega)
    refine ⟨v2, ?_, ?_, by omega⟩
    · show (v.push x).bind _ = _
      rw [e1]; exact e2
    · rw [List.replicate_succ]; simpa using h2

theorem SAV.resize_spec {v : SAV α} {l} (h : v.Rep l) (n : Nat) {x : List α} (hx : x.length = v.perArray) :
    ∃ v', v.resize n x = some v' ∧ v'.Rep (l.take n ++ List.replicate (n - l.length) x) ∧ v'.perArray = v.perArray := by
  obtain ⟨v1, e1, h1, p1⟩ := SAV.popN_spec (v.size - n) h (by rw [h.size]; omega)
  obtain ⟨v2, e2, h2, p2⟩ := SAV.pushN_spec x (n - v1.size) h1 (by omega)
  refine ⟨v2, ?_, ?_, by omega⟩
  · show (v.popN (v.size - n)).bind _ = _
    rw [e1]; exact e2
  · have hs := h.size
    have hs1 := h1.size
    simp only [List.length_take] at hs1
    rcases Nat.le_total n l.length with hle | hle
    · have a1 : l.length - (v.size - n) = n := by omega
      have a2 : n - v1.size = n - l.length := by omega
      rw [a1, a2] at h2; exact h2
    · have a1 : l.take (l.length - (v.size - n)) = l.take n := by
        rw [List.take_of_length_le (by omega), List.take_of_length_le hle]
      have a2 : n - v1.size = n - l.length := by omega
      rw [a1, a2] at h2; exact h2

/-! ### SegmentedVector -/

structure SV.Rep (v : SV α) (l : List α) : Prop where
  apos : 0 < v.perSeg
  size : v.size = l.length
  room : v.size ≤ v.segments.length * v.perSeg
  flat : Flat v.perSeg v.segments (fun a => l[a]?)

theorem SV.Rep.seg_lt {v : SV α} {l} (h : v.Rep l) {i : Nat} (hi : i < v.size) :
    i / v.perSeg < v.segments.length := by
  apply Nat.div_lt_of_lt_mul
  have := h.room
  rw [Nat.mul_comm]; omega

theorem dm (i n : Nat) : i / n * n + i % n = i := by
  rw [Nat.mul_comm]; exact Nat.div_add_mod i n

theorem SV.get_spec {v : SV α} {l} (h : v.Rep l) (i : Nat) : v.get i = l[i]? := by
  unfold SV.get
  split
  · rename_i hi
    rw [h.flat.read (h.seg_lt hi) (Nat.mod_lt _ h.apos), dm]
  · rw [List.getElem?_eq_none (by rw [← h.size]; omega)]

theorem SV.set_spec {v : SV α} {l} (h : v.Rep l) {i : Nat} (hi : i < l.length) (x : α) :
    ∃ v', v.set i x = some v' ∧ v'.Rep (l.set i x) := by
  have hi' : i < v.size := by rw [h.size]; exact hi
  obtain ⟨m', e, hf', hl⟩ := h.flat.assign (h.seg_lt hi') (Nat.mod_lt i h.apos) (y := l[i]) (by
    rw [dm]; exact List.getElem?_eq_getElem hi) x
  refine ⟨{ v with segments := m' }, ?_, ⟨h.apos, by simp [h.size], by simp only [hl]; exact h.room, ?_⟩⟩
  · unfold SV.set; rw [if_pos hi', e]; rfl
  · simp only
    rw [dm] at hf'
    have : (fun a => (l.set i x)[a]?) = upd (fun a => l[a]?) i (some x) := by
      funext a
      unfold upd
      by_cases ha : a = i
      · subst ha; rw [if_pos rfl, List.getElem?_set_self hi]
      · rw [if_neg ha, List.getElem?_set_ne (Ne.symm ha)]
    rw [this]; exact hf'

theorem SV.push_spec {v : SV α} {l} (h : v.Rep l) (x : α) :
    ∃ v', v.push x = some v' ∧ v'.Rep (l ++ [x]) := by
  have hA := h.apos
  have hseg : v.size / v.perSeg ≤ v.segments.length :=
    Nat.div_le_of_le_mul (by rw [Nat.mul_comm]; exact h.room)
  let segs := if v.size / v.perSeg = v.segments.length then
      v.segments ++ [List.replicate v.perSeg none] else v.segments
  have hflat : Flat v.perSeg segs (fun a => l[a]?) ∧ v.size / v.perSeg < segs.length ∧
      v.size + 1 ≤ segs.length * v.perSeg := by
    have hlt : v.size < (v.size / v.perSeg + 1) * v.perSeg := by
      have := dm v.size v.perSeg
      have h2 := Nat.mod_lt v.size hA
      rw [Nat.add_mul, Nat.one_mul]; omega
    by_cases hc : v.size / v.perSeg = v.segments.length
    · have hs : segs = v.segments ++ [List.replicate v.perSeg none] := if_pos hc
      rw [hs]
      refine ⟨h.flat.addSegment ?_, by simp [hc], ?_⟩
      · intro a ha
        have := h.room
        have := h.size
        exact List.getElem?_eq_none (by omega)
      · rw [hc] at hlt; simpa using Nat.succ_le_of_lt hlt
    · have hs : segs = v.segments := if_neg hc
      rw [hs]
      refine ⟨h.flat, by omega, ?_⟩
      have : (v.size / v.perSeg + 1) * v.perSeg ≤ v.segments.length * v.perSeg :=
        Nat.mul_le_mul_right _ (by omega)
      omega
  obtain ⟨hf, hslt, hroom⟩ := hflat
  obtain ⟨m', e, hf', hl⟩ := hf.construct hslt (Nat.mod_lt v.size hA) (by
    rw [dm]; exact List.getElem?_eq_none (by rw [h.size]; exact Nat.le_refl _)) x
  refine ⟨{ v with segments := m', size := v.size + 1 }, ?_, ⟨hA, by simp [h.size], by simp only [hl]; exact hroom, ?_⟩⟩
  · unfold SV.push
    show (SegmentedVector.construct segs _ _ x).bind _ = _
    rw [e]; rfl
  · simp only
    rw [dm] at hf'
    have : (fun a => (l ++ [x])[a]?) = upd (fun a => l[a]?) v.size (some x) := by
      funext a
      unfold upd
      by_cases ha : a = v.size
      · subst ha; rw [if_pos rfl, h.size]; simp
      · rw [if_neg ha]
        rw [h.size] at ha
        rcases Nat.lt_or_ge a l.length with g | g
        · rw [List.getElem?_append_left g]
        · show (l ++ [x])[a]? = l[a]?
          rw [List.getElem?_eq_none (by simp; omega), List.getElem?_eq_none g]
    rw [this]; exact hf'

theorem SV.pop_spec {v : SV α} {l} (h : v.Rep l) (hne : l ≠ []) :
    ∃ v', v.pop = some v' ∧ v'.Rep l.dropLast := by
  have hA := h.apos
  have hpos : 0 < v.size := by rw [h.size]; exact List.length_pos_iff.mpr hne
  have hi : v.size - 1 < v.size := by omega
  have hil : v.size - 1 < l.length := by rw [← h.size]; exact hi
  obtain ⟨m', e, hf', hl⟩ := h.flat.destroy (h.seg_lt hi) (Nat.mod_lt _ hA) (x := l[v.size - 1]) (by
    rw [dm]; exact List.getElem?_eq_getElem hil)
  refine ⟨{ v with segments := m', size := v.size - 1 }, ?_, ⟨hA, by simp [h.size], ?_, ?_⟩⟩
  · unfold SV.pop; rw [if_pos hpos, e]; rfl
  · simp only [hl]; have := h.room; omega
  · simp only
    rw [dm] at hf'
    have : (fun a => l.dropLast[a]?) = upd (fun a => l[a]?) (v.size - 1) none := by
      funext a
      unfold upd
      rw [List.getElem?_dropLast]
      have hs := h.size
      by_cases ha : a = v.size - 1
      · rw [if_pos ha, if_neg (by omega)]
      · rw [if_neg ha]
        by_cases hlt : a < l.length - 1
        · rw [if_pos hlt]
        · rw [if_neg hlt]
          show none = l[a]?
          rw [List.getElem?_eq_none (by omega)]
    rw [this]; exact hf'

theorem SV.empty_rep (sz : Nat) : (SV.empty α sz).Rep [] := by
  refine ⟨by simp [SV.empty, segmentElements]; split <;> omega, rfl, by simp [SV.empty], ⟨by simp [SV.empty], ?_⟩⟩
  intro s o hs; simp [SV.empty] at hs

theorem SV.popN_spec : ∀ (n : Nat) {v : SV α} {l}, v.Rep l → n ≤ l.length →
    ∃ v', v.popN n = some v' ∧ v'.Rep (l.take (l.length - n)) := by
  intro n
  induction n with
  | zero => intro v l h _; exact ⟨v, rfl, by simpa using h⟩
  | succ n ih =>
    intro v l h hn
    obtain ⟨v1, e1, h1⟩ := SV.pop_spec h (by intro he; subst he; simp at hn)
    obtain ⟨v2, e2, h2⟩ := ih h1 (by simp; omega)
    refine ⟨v2, ?_, ?_⟩
    · show (v.pop).bind _ = _
      rw [e1]; exact e2
    · have : l.dropLast.take (l.dropLast.length - n) = l.take (l.length - (n + 1)) := by
        rw [List.dropLast_eq_take, List.take_take]
        congr 1
        simp
        omega
      rw [← this]; exact h2

theorem SV.pushN_spec (x : α) : ∀ (n : Nat) {v : SV α} {l}, v.Rep l →
    ∃ v', v.pushN x n = some v' ∧ v'.Rep (l ++ List.replicate n x) := by
  intro n
  induction n with
  | zero => intro v l h; exact ⟨v, rfl, by simpa using h⟩
  | succ n ih =>
    intro v l h
    obtain ⟨v1, e1, h1⟩ := SV.push_spec h x
    obtain ⟨v2, e2, h2⟩ := ih h1
    refine ⟨v2, ?_, ?_⟩
    · show (v.push x).bind _ = _
      rw [e1]; exact e2
    · rw [List.replicate_succ]; simpa using h2

theorem SV.resize_spec {v : SV α} {l} (h : v.Rep l) (n : Nat) (x : α) :
    ∃ v', v.resize n x = some v' ∧ v'.Rep (l.take n ++ List.replicate (n - l.length) x) := by
  obtain ⟨v1, e1, h1⟩ := SV.popN_spec (v.size - n) h (by rw [h.size]; omega)
  obtain ⟨v2, e2, h2⟩ := SV.pushN_spec x (n - v1.size) h1
  refine ⟨v2, ?_, ?_⟩
  · show (v.popN (v.size - n)).bind _ = _
    rw [e1]; exact e2
  · have hs := h.size
    have hs1 := h1.size
    simp only [List.length_take] at hs1
    rcases Nat.le_total n l.length with hle | hle
    · have a1 : l.length - (v.size - n) = n := by omega
      have a2 : n - v1.size = n - l.length := by omega
      rw [a1, a2] at h2; exact h2
    · have a1 : l.take (l.length - (v.size - n)) = l.take n := by
        rw [List.take_of_length_le (by omega), List.take_of_length_le hle]
      have a2 : n - v1.size = n - l.length := by omega
      rw [a1, a2] at h2; exact h2

end Verif.SegmentedVector
