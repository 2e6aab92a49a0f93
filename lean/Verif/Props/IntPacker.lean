import Verif.Lemmas.IntPacker

/-!
# C01, C02: packed integers
-/
namespace Verif.IntPacker

/-- C01.  For every list of legal ranges the constructor succeeds; for every buffer of
the advertised size, setting any variable to any legal value succeeds (no access outside
the buffer), keeps the size, is read back by `get`, and leaves every other variable's
reading unchanged (and all readings are defined). -/
theorem C01_int_packer (ranges : List Nat) (hv : ∀ r ∈ ranges, 1 ≤ r ∧ r < 2 ^ 31) :
    ∃ p, Packer.make ranges = some p ∧
      ∀ buf : List Bin, buf.length = p.numBins →
        ∀ (v r x : Nat), ranges[v]? = some r → x < r →
          ∃ buf', p.set buf v x = some buf' ∧ buf'.length = p.numBins ∧
            p.get buf' v = some (x : Int) ∧
            ∀ w, w < ranges.length → w ≠ v →
              p.get buf' w = p.get buf w ∧ (p.get buf w).isSome := by
  obtain ⟨p, hm, L⟩ := make_layout hv
  refine ⟨p, hm, ?_⟩
  intro buf hb v r x hr hx
  have hlt : v < ranges.length := by
    rcases Nat.lt_or_ge v ranges.length with h | h
    · exact h
    · rw [List.getElem?_eq_none h] at hr; simp at hr
  obtain ⟨vi, hp⟩ := L.all v hlt
  obtain ⟨hwf, hrg⟩ := L.wf v vi hp
  have hxr : x < vi.range := by rw [hr] at hrg; simp at hrg; omega
  have hbin := L.pos v vi hp
  refine ⟨_, set_eq L hb hp x, by simp [hb], ?_, ?_⟩
  · rw [get_eq L (by simp [hb]) hp]
    have : vi.binIndex < buf.length := by omega
    simp only [List.getD_eq_getElem?_getD, List.getElem?_set_self this, Option.getD_some]
    rw [field_set_same hwf _ x hxr]
    congr 2
    rw [BitVec.toNat_ofNat, Nat.mod_eq_of_lt]
    have h1 := (hv r (List.mem_of_getElem? hr)).2
    omega
  · intro w hw hne
    obtain ⟨wi, hq⟩ := L.all w hw
    obtain ⟨hwf', _⟩ := L.wf w wi hq
    rw [get_eq L hb hq, get_eq L (by simp [hb]) hq]
    refine ⟨?_, rfl⟩
    by_cases hbe : vi.binIndex = wi.binIndex
    · have : vi.binIndex < buf.length := by omega
      rw [← hbe]
      simp only [List.getD_eq_getElem?_getD, List.getElem?_set_self this, Option.getD_some]
      rw [field_set_other hwf hwf' (L.disj v w vi wi (Ne.symm hne) hp hq hbe) _ x hxr]
    · simp only [List.getD_eq_getElem?_getD, List.getElem?_set_ne hbe]

/-- A sequence of `set` operations applied to a buffer. -/
def Packer.setAll (p : Packer) (buf : List Bin) : List (Nat × Nat) → Option (List Bin)
  | [] => some buf
  | (v, x) :: ops => (p.set buf v x).bind fun b => p.setAll b ops

/-- The value most recently written to `v` by a sequence of operations (initially `d`). -/
def lastWritten (d : Nat) : List (Nat × Nat) → Nat → Nat
  | [], _ => d
  | (v, x) :: ops, w => lastWritten (if v = w then x else d) ops w

/-- Legal operations: existing variable, value in range. -/
def LegalOps (ranges : List Nat) (ops : List (Nat × Nat)) : Prop :=
  ∀ o ∈ ops, ∃ r, ranges[o.1]? = some r ∧ o.2 < r

theorem setAll_spec (ranges : List Nat) (hv : ∀ r ∈ ranges, 1 ≤ r ∧ r < 2 ^ 31) {p : Packer}
    (L : Layout ranges p) (hm : Packer.make ranges = some p) :
    ∀ (ops : List (Nat × Nat)) (buf : List Bin) (cur : Nat → Nat), LegalOps ranges ops →
      buf.length = p.numBins → (∀ w, w < ranges.length → p.get buf w = some (cur w : Int)) →
      (∀ k i, (∀ v vi, Placed p.varInfos v vi → vi.binIndex = k →
          ¬ (vi.shift ≤ i ∧ i < vi.shift + bitsOf ranges v)) → (buf.getD k 0).getLsbD i = false) →
      ∃ buf', p.setAll buf ops = some buf' ∧ buf'.length = p.numBins ∧
        (∀ w, w < ranges.length → p.get buf' w = some (lastWritten (cur w) ops w : Int)) ∧
        (∀ k i, (∀ v vi, Placed p.varInfos v vi → vi.binIndex = k →
          ¬ (vi.shift ≤ i ∧ i < vi.shift + bitsOf ranges v)) → (buf'.getD k 0).getLsbD i = false) := by
  intro ops
  induction ops with
  | nil => intro buf cur _ hb hg hz; exact ⟨buf, rfl, hb, hg, hz⟩
  | cons o ops ih =>
    obtain ⟨v, x⟩ := o
    intro buf cur hl hb hg hz
    obtain ⟨r, hr, hx⟩ := hl (v, x) (by simp)
    simp only at hr hx
    obtain ⟨p', hm', h⟩ := C01_int_packer ranges hv
    rw [hm] at hm'; cases hm'
    obtain ⟨b1, e1, l1, g1, g2⟩ := h buf hb v r x hr hx
    have hlt : v < ranges.length := by
      rcases Nat.lt_or_ge v ranges.length with h | h
      · exact h
      · rw [List.getElem?_eq_none h] at hr; simp at hr
    obtain ⟨vi, hp⟩ := L.all v hlt
    obtain ⟨hwf, hrg⟩ := L.wf v vi hp
    have hxr : x < vi.range := by rw [hr] at hrg; simp at hrg; omega
    have hz' : ∀ k i, (∀ v vi, Placed p.varInfos v vi → vi.binIndex = k →
          ¬ (vi.shift ≤ i ∧ i < vi.shift + bitsOf ranges v)) → (b1.getD k 0).getLsbD i = false := by
      intro k i hout
      have hs := set_eq L hb hp x
      rw [e1] at hs
      cases hs
      have hbin : vi.binIndex < buf.length := by have := L.pos v vi hp; omega
      by_cases hk : vi.binIndex = k
      · rw [← hk]
        simp only [List.getD_eq_getElem?_getD, List.getElem?_set_self hbin, Option.getD_some]
        rw [outside_set hwf _ x hxr i (hout v vi hp hk)]
        have := hz vi.binIndex i (by rw [hk]; exact hout)
        simpa [List.getD_eq_getElem?_getD] using this
      · simp only [List.getD_eq_getElem?_getD, List.getElem?_set_ne hk]
        have := hz k i hout
        simpa [List.getD_eq_getElem?_getD] using this
    obtain ⟨b2, e2, l2, g3, z2⟩ := ih b1 (fun w => if v = w then x else cur w)
      (fun o ho => hl o (by simp [ho])) l1
      (by
        intro w hw
        by_cases hvw : v = w
        · subst hvw; simp [g1]
        · simp only [hvw, if_false]
          rw [(g2 w hw (Ne.symm hvw)).1, hg w hw]) hz'
    refine ⟨b2, ?_, l2, ?_, z2⟩
    · simp [Packer.setAll, e1, e2]
    · intro w hw
      rw [g3 w hw]
      rfl

/-- C02.  Start from an all-zero buffer of the advertised size and apply any two
sequences of legal `set` operations.  Both succeed; the reading of each variable is the
last value written (0 if none); and the two raw buffers are equal as words if and only
if all variables have equal last-written values.  In particular comparing or hashing raw
bins decides equality of the packed assignments. -/
theorem C02_packed_canonical (ranges : List Nat) (hv : ∀ r ∈ ranges, 1 ≤ r ∧ r < 2 ^ 31)
    (ops₁ ops₂ : List (Nat × Nat)) (h₁ : LegalOps ranges ops₁) (h₂ : LegalOps ranges ops₂) :
    ∃ p b₁ b₂, Packer.make ranges = some p ∧
      p.setAll (List.replicate p.numBins 0) ops₁ = some b₁ ∧
      p.setAll (List.replicate p.numBins 0) ops₂ = some b₂ ∧
      (∀ w, w < ranges.length → p.get b₁ w = some (lastWritten 0 ops₁ w : Int)) ∧
      (b₁ = b₂ ↔ ∀ w, w < ranges.length → lastWritten 0 ops₁ w = lastWritten 0 ops₂ w) := by
  obtain ⟨p, hm, L⟩ := make_layout hv
  have hzero : ∀ k, (List.replicate p.numBins (0 : Bin)).getD k 0 = 0 := by
    intro k
    rw [List.getD_eq_getElem?_getD, List.getElem?_replicate]
    split <;> rfl
  have hg : ∀ w, w < ranges.length → p.get (List.replicate p.numBins 0) w = some ((0 : Nat) : Int) := by
    intro w hw
    obtain ⟨wi, hq⟩ := L.all w hw
    rw [get_eq L (by simp) hq, hzero]
    simp [field]
  have hz : ∀ k i, (∀ v vi, Placed p.varInfos v vi → vi.binIndex = k →
          ¬ (vi.shift ≤ i ∧ i < vi.shift + bitsOf ranges v)) →
          ((List.replicate p.numBins (0 : Bin)).getD k 0).getLsbD i = false := by
    intro k i _; rw [hzero]; simp
  obtain ⟨b₁, e₁, l₁, g₁, z₁⟩ := setAll_spec ranges hv L hm ops₁ _ (fun _ => 0) h₁ (by simp) hg hz
  obtain ⟨b₂, e₂, l₂, g₂, z₂⟩ := setAll_spec ranges hv L hm ops₂ _ (fun _ => 0) h₂ (by simp) hg hz
  refine ⟨p, b₁, b₂, hm, e₁, e₂, g₁, ?_, ?_⟩
  · rintro rfl w hw
    have h1 := g₁ w hw
    rw [g₂ w hw] at h1
    have := Option.some.inj h1
    omega
  · intro heq
    have hk : ∀ k, b₁.getD k 0 = b₂.getD k 0 := by
      intro k
      apply BitVec.eq_of_getLsbD_eq
      intro i _
      by_cases hcov : ∃ v vi, Placed p.varInfos v vi ∧ vi.binIndex = k ∧
          (vi.shift ≤ i ∧ i < vi.shift + bitsOf ranges v)
      · obtain ⟨v, vi, hp, rfl, hi1, hi2⟩ := hcov
        have hlt : v < ranges.length := by
          rw [← L.len]
          rcases Nat.lt_or_ge v p.varInfos.length with h | h
          · exact h
          · unfold Placed at hp; rw [List.getElem?_eq_none h] at hp; simp at hp
        have e1 := get_eq L l₁ hp
        have e2 := get_eq L l₂ hp
        rw [g₁ v hlt] at e1
        rw [g₂ v hlt, ← heq v hlt, e1] at e2
        have e3 : (field vi (b₁.getD vi.binIndex 0)).toNat = (field vi (b₂.getD vi.binIndex 0)).toNat := by
          have := Option.some.inj e2; omega
        have e4 := BitVec.eq_of_toNat_eq e3
        have hwf := (L.wf v vi hp).1
        have e5 := congrArg (fun f : Bin => f.getLsbD (i - vi.shift)) e4
        simp only [getLsbD_field hwf] at e5
        have h1 : vi.shift + (i - vi.shift) = i := by omega
        have h2 : i - vi.shift < bitsOf ranges v := by omega
        simpa [h1, h2] using e5
      · have : ∀ v vi, Placed p.varInfos v vi → vi.binIndex = k →
          ¬ (vi.shift ≤ i ∧ i < vi.shift + bitsOf ranges v) := by
          intro v vi h1 h2 h3; exact hcov ⟨v, vi, h1, h2, h3⟩
        rw [z₁ k i this, z₂ k i this]
    apply List.ext_getElem?
    intro k
    rcases Nat.lt_or_ge k p.numBins with h | h
    · have := hk k
      rw [List.getD_eq_getElem?_getD, List.getD_eq_getElem?_getD] at this
      rw [List.getElem?_eq_getElem (by omega), List.getElem?_eq_getElem (by omega)] at this ⊢
      simpa using this
    · rw [List.getElem?_eq_none (by omega), List.getElem?_eq_none (by omega)]

/-! ### Non-vacuity: a concrete task with several bins and a full-width variable -/

/-- ranges whose layout needs two bins, with a 31-bit variable and a range-1 variable -/
def exRanges : List Nat := [5, 2 ^ 31 - 1, 1, 2, 300]

example : ∀ r ∈ exRanges, 1 ≤ r ∧ r < 2 ^ 31 := by decide
example : LegalOps exRanges [(0, 4), (4, 299), (1, 2 ^ 31 - 2), (0, 3)] := by
  intro o ho
  simp at ho
  rcases ho with rfl | rfl | rfl | rfl <;> exact ⟨_, rfl, by decide⟩
example : lastWritten 0 [(0, 4), (4, 299), (1, 2 ^ 31 - 2), (0, 3)] 0 = 3 := by decide

end Verif.IntPacker
