import Verif.Model.IntPacker

namespace Verif.IntPacker

/-- Number of bits used for variable `v`. -/
def bitsOf (ranges : List Nat) (v : Nat) : Nat :=
  ((ranges[v]?).bind getBitSizeForRange).getD 0

theorem bitSizeLoop_spec (range : Nat) (hr : range ≤ 2 ^ 31) :
    ∀ n, n ≤ 31 → ∃ b, bitSizeLoop range n = some b ∧ n ≤ b ∧ b ≤ 31 ∧ range ≤ 2 ^ b := by
  intro n hn
  induction hk : 31 - n using Nat.strongRecOn generalizing n with
  | _ k ih =>
    unfold bitSizeLoop
    have h32 : n < BITS_PER_BIN := by unfold BITS_PER_BIN; omega
    simp only [h32, dite_true]
    split
    · rename_i hlt
      have hn' : n + 1 ≤ 31 := by
        rcases Nat.lt_or_ge n 31 with h | h
        · omega
        · have : n = 31 := by omega
          subst this; omega
      obtain ⟨b, h1, h2, h3, h4⟩ := ih (31 - (n+1)) (by omega) (n+1) hn' rfl
      exact ⟨b, h1, by omega, h3, h4⟩
    · exact ⟨n, rfl, Nat.le_refl _, hn, by omega⟩

theorem getBitSize_spec (range : Nat) (h1 : 1 ≤ range) (hr : range ≤ 2 ^ 31) :
    ∃ b, getBitSizeForRange range = some b ∧ 1 ≤ b ∧ b ≤ 31 ∧ range ≤ 2 ^ b := by
  unfold getBitSizeForRange
  split
  · subst_vars; exact ⟨1, rfl, by omega, by omega, by omega⟩
  · rename_i hne
    obtain ⟨b, e, _, h3, h4⟩ := bitSizeLoop_spec range hr 0 (by omega)
    refine ⟨b, e, ?_, h3, h4⟩
    rcases Nat.eq_zero_or_pos b with h | h
    · subst h; simp at h4; omega
    · exact h

/-- bit `i` of the mask `[lo, hi)` -/
theorem getLsbD_getBitMask (lo hi i : Nat) (h : lo ≤ hi) (h32 : hi ≤ 32) :
    (getBitMask lo hi).getLsbD i = (decide (lo ≤ i) && decide (i < hi)) := by
  unfold getBitMask BITS_PER_BIN
  by_cases hl : hi - lo = 32
  · have h1 : lo = 0 := by omega
    have h2 : hi = 32 := by omega
    subst h1 h2
    have : (~~~(0 : Bin)) = BitVec.allOnes 32 := by decide
    rw [if_pos rfl, this, BitVec.getLsbD_allOnes]
    simp
  · simp only [hl, if_false]
    have hlen : hi - lo < 32 := by omega
    have key : ∀ j, (((1 : Bin) <<< (hi - lo)) - 1).getLsbD j = decide (j < hi - lo) := by
      intro j
      have hpow : 2 ^ (hi - lo) < 2 ^ 32 := Nat.pow_lt_pow_right (by omega) hlen
      have hpos : 0 < 2 ^ (hi - lo) := Nat.two_pow_pos _
      have : (((1 : Bin) <<< (hi - lo)) - 1).toNat = 2 ^ (hi - lo) - 1 := by
        have e1 : ((1 : Bin) <<< (hi - lo)).toNat = 2 ^ (hi - lo) := by
          rw [BitVec.toNat_shiftLeft]
          simp only [Nat.shiftLeft_eq]
          have : (1 : Bin).toNat = 1 := rfl
          rw [this, Nat.one_mul, Nat.mod_eq_of_lt hpow]
        rw [BitVec.toNat_sub, e1]
        have : (1 : Bin).toNat = 1 := rfl
        rw [this]; omega
      unfold BitVec.getLsbD
      rw [this, Nat.testBit_two_pow_sub_one]
    rw [BitVec.getLsbD_shiftLeft, key]
    by_cases h1 : i < lo
    · simp [h1]; omega
    · by_cases h2 : i < hi
      · have : i < 32 := by omega
        have : i - lo < hi - lo := by omega
        simp [*]; omega
      · have : ¬ (i - lo < hi - lo) := by omega
        simp [*]

/-- What is needed of a variable's placement for `get`/`set` to behave well. -/
structure WF (vi : VarInfo) (b : Nat) : Prop where
  le : vi.shift + b ≤ 32
  b31 : b ≤ 31
  bpos : 1 ≤ b
  range : vi.range ≤ 2 ^ b
  rm : vi.readMask = getBitMask vi.shift (vi.shift + b)
  cm : vi.clearMask = ~~~ vi.readMask

theorem WF.readBit {vi b} (h : WF vi b) (i : Nat) :
    vi.readMask.getLsbD i = (decide (vi.shift ≤ i) && decide (i < vi.shift + b)) := by
  rw [h.rm, getLsbD_getBitMask _ _ _ (by omega) h.le]

/-- the value field extracted from a bin -/
def field (vi : VarInfo) (bin : Bin) : Bin := (bin &&& vi.readMask) >>> vi.shift

theorem getLsbD_field {vi b} (h : WF vi b) (bin : Bin) (i : Nat) :
    (field vi bin).getLsbD i = (bin.getLsbD (vi.shift + i) && decide (i < b)) := by
  unfold field
  rw [BitVec.getLsbD_ushiftRight, BitVec.getLsbD_and, h.readBit]
  congr 1
  by_cases hi : i < b <;> simp [hi]

theorem getLsbD_ofNat_lt {x b i : Nat} (hx : x < 2 ^ b) (hi : b ≤ i) : (BitVec.ofNat 32 x).getLsbD i = false := by
  rw [BitVec.getLsbD_ofNat]
  have : x.testBit i = false :=
    Nat.testBit_lt_two_pow (Nat.lt_of_lt_of_le hx (Nat.pow_le_pow_right (by omega) hi))
  simp [this]

theorem ofInt_natCast (x : Nat) : BitVec.ofInt 32 (x : Int) = BitVec.ofNat 32 x := by
  simp [BitVec.ofInt_natCast]

/-- writing then reading the same variable -/
theorem field_set_same {vi b} (h : WF vi b) (bin : Bin) (x : Nat) (hx : x < vi.range) :
    field vi ((bin &&& vi.clearMask) ||| (BitVec.ofNat 32 x <<< vi.shift)) = BitVec.ofNat 32 x := by
  have hx' : x < 2 ^ b := Nat.lt_of_lt_of_le hx h.range
  apply BitVec.eq_of_getLsbD_eq
  intro i hi
  rw [getLsbD_field h, BitVec.getLsbD_or, BitVec.getLsbD_and, h.cm, BitVec.getLsbD_not, h.readBit,
    BitVec.getLsbD_shiftLeft]
  by_cases hib : i < b
  · have h1 : vi.shift + i < 32 := by have := h.le; omega
    simp [hib, h1]
  · have := getLsbD_ofNat_lt hx' (Nat.le_of_not_lt hib)
    simp [hib, this]

/-- writing one variable does not change another one in a disjoint field -/
theorem field_set_other {vi b wi c} (h : WF vi b) (k : WF wi c)
    (hd : vi.shift + b ≤ wi.shift ∨ wi.shift + c ≤ vi.shift)
    (bin : Bin) (x : Nat) (hx : x < vi.range) :
    field wi ((bin &&& vi.clearMask) ||| (BitVec.ofNat 32 x <<< vi.shift)) = field wi bin := by
  have hx' : x < 2 ^ b := Nat.lt_of_lt_of_le hx h.range
  apply BitVec.eq_of_getLsbD_eq
  intro i hi
  rw [getLsbD_field k, getLsbD_field k, BitVec.getLsbD_or, BitVec.getLsbD_and, h.cm, BitVec.getLsbD_not,
    h.readBit, BitVec.getLsbD_shiftLeft]
  by_cases hic : i < c
  · have h1 : wi.shift + i < 32 := by have := k.le; omega
    simp only [hic, h1, decide_true, Bool.and_true, Bool.true_and]
    rcases hd with hd | hd
    · have e1 : ¬ (wi.shift + i < vi.shift + b) := by omega
      have e2 : (BitVec.ofNat 32 x).getLsbD (wi.shift + i - vi.shift) = false :=
        getLsbD_ofNat_lt hx' (by omega)
      simp [e1, e2]
    · have e1 : ¬ (vi.shift ≤ wi.shift + i) := by omega
      have e2 : wi.shift + i < vi.shift := by omega
      simp [e1, e2]
  · simp [hic]

/-- bits outside of all the field of `vi` are untouched by a write -/
theorem outside_set {vi b} (h : WF vi b) (bin : Bin) (x : Nat) (hx : x < vi.range) (i : Nat)
    (hi : ¬ (vi.shift ≤ i ∧ i < vi.shift + b)) :
    ((bin &&& vi.clearMask) ||| (BitVec.ofNat 32 x <<< vi.shift)).getLsbD i = bin.getLsbD i := by
  have hx' : x < 2 ^ b := Nat.lt_of_lt_of_le hx h.range
  rw [BitVec.getLsbD_or, BitVec.getLsbD_and, h.cm, BitVec.getLsbD_not, h.readBit, BitVec.getLsbD_shiftLeft]
  by_cases h32 : i < 32
  · by_cases h1 : i < vi.shift
    · have : ¬ (vi.shift ≤ i) := by omega
      simp [h32, h1, this]
    · have h2 : ¬ (i < vi.shift + b) := by omega
      have := getLsbD_ofNat_lt hx' (i := i - vi.shift) (by omega)
      simp [h32, h2, this]
  · have : bin.getLsbD i = false := BitVec.getLsbD_of_ge _ _ (by omega)
    simp [this, h32]

theorem field_toInt {vi b} (h : WF vi b) (bin : Bin) :
    (field vi bin).toInt = ((field vi bin).toNat : Int) := by
  apply BitVec.toInt_eq_toNat_of_lt
  have : (field vi bin).toNat < 2 ^ 31 := by
    apply Nat.lt_pow_two_of_testBit
    intro i hi
    have := getLsbD_field h bin i
    unfold BitVec.getLsbD at this
    rw [this]
    have := h.b31
    have : ¬ i < b := by omega
    simp [this]
  omega

/-! ### Layout invariant -/

/-- all ranges are legal: at least one, representable as `int` -/
def ValidRanges (ranges : List Nat) : Prop := ∀ r ∈ ranges, 1 ≤ r ∧ r < 2 ^ 31

theorem bitsOf_spec {ranges : List Nat} (hv : ValidRanges ranges) {v : Nat} {r : Nat}
    (h : ranges[v]? = some r) :
    getBitSizeForRange r = some (bitsOf ranges v) ∧ 1 ≤ bitsOf ranges v ∧ bitsOf ranges v ≤ 31 ∧
      r ≤ 2 ^ bitsOf ranges v := by
  obtain ⟨h1, h2⟩ := hv r (List.mem_of_getElem? h)
  obtain ⟨b, e, b1, b2, b3⟩ := getBitSize_spec r h1 (by omega)
  have : bitsOf ranges v = b := by simp [bitsOf, h, e]
  rw [this]; exact ⟨e, b1, b2, b3⟩

/-- variable `v` has been placed according to `vi` -/
def Placed (vis : List (Option VarInfo)) (v : Nat) (vi : VarInfo) : Prop := vis[v]? = some (some vi)

structure Inv (ranges : List Nat) (k u : Nat) (st : PackState) : Prop where
  len : st.varInfos.length = ranges.length
  wf : ∀ v vi, Placed st.varInfos v vi → WF vi (bitsOf ranges v) ∧ ranges[v]? = some vi.range
  pos : ∀ v vi, Placed st.varInfos v vi →
    vi.binIndex < k ∨ (vi.binIndex = k ∧ vi.shift + bitsOf ranges v ≤ u)
  disj : ∀ v w vi wi, v ≠ w → Placed st.varInfos v vi → Placed st.varInfos w wi →
    vi.binIndex = wi.binIndex →
    vi.shift + bitsOf ranges v ≤ wi.shift ∨ wi.shift + bitsOf ranges w ≤ vi.shift
  todo : ∀ v, st.varInfos[v]? = some none → v ∈ st.bitsToVars (bitsOf ranges v)
  mem : ∀ b v, v ∈ st.bitsToVars b → bitsOf ranges v = b ∧ st.varInfos[v]? = some none
  nodup : ∀ b, (st.bitsToVars b).Nodup

theorem findBits_spec (b2v : Nat → List Nat) (n : Nat) :
    findBits b2v n ≤ n ∧ (findBits b2v n ≠ 0 → b2v (findBits b2v n) ≠ []) ∧
    (findBits b2v n = 0 → ∀ m, 1 ≤ m → m ≤ n → b2v m = []) := by
  induction n with
  | zero => simp [findBits]; intro m h1 h2; omega
  | succ n ih =>
    unfold findBits
    by_cases h : (b2v (n+1)).isEmpty
    · simp only [h, if_true]
      refine ⟨by omega, ih.2.1, ?_⟩
      intro h0 m h1 h2
      rcases Nat.lt_or_ge n m with h3 | h3
      · have : m = n + 1 := by omega
        subst this; simpa using h
      · exact ih.2.2 h0 m h1 h3
    · simp only [h]
      simp at h
      simp [h]

theorem make_spec {ranges : List Nat} (hv : ValidRanges ranges) {v r k u : Nat}
    (h : ranges[v]? = some r) (hu : u + bitsOf ranges v ≤ 32) :
    ∃ vi, VarInfo.make r k u = some vi ∧ WF vi (bitsOf ranges v) ∧ vi.range = r ∧ vi.binIndex = k ∧ vi.shift = u := by
  obtain ⟨e, h1, h2, h3⟩ := bitsOf_spec hv h
  refine ⟨{ range := r, binIndex := k, shift := u, readMask := getBitMask u (u + bitsOf ranges v),
            clearMask := ~~~ getBitMask u (u + bitsOf ranges v) }, ?_, ?_, rfl, rfl, rfl⟩
  · simp [VarInfo.make, e]
  · exact ⟨hu, h2, h1, h3, rfl, rfl⟩

def numPlaced (vis : List (Option VarInfo)) : Nat := vis.countP (·.isSome)

theorem numPlaced_set (vis : List (Option VarInfo)) (v : Nat) (vi : VarInfo)
    (h : vis[v]? = some none) : numPlaced (vis.set v (some vi)) = numPlaced vis + 1 := by
  unfold numPlaced
  induction vis generalizing v with
  | nil => simp at h
  | cons a l ih =>
    cases v with
    | zero => simp at h; subst h; simp
    | succ v =>
      simp at h
      simp only [List.set_cons_succ, List.countP_cons]
      rw [ih v h]; omega

theorem packOneBinLoop_spec {ranges : List Nat} (hv : ValidRanges ranges) (k : Nat) :
    ∀ (d u m : Nat) (st : PackState), 32 - u = d → u ≤ 32 → Inv ranges k u st →
    ∃ n st', packOneBinLoop ranges k u m st = some (m + n, st') ∧ Inv ranges (k+1) 0 st' ∧
      numPlaced st'.varInfos = numPlaced st.varInfos + n ∧
      (u = 0 → numPlaced st.varInfos < ranges.length → 1 ≤ n) := by
  intro d
  induction d using Nat.strongRecOn with
  | _ d ih =>
    intro u m st hd hu hinv
    unfold packOneBinLoop
    simp only
    obtain ⟨f1, f2, f3⟩ := findBits_spec st.bitsToVars (BITS_PER_BIN - u)
    generalize hbits : findBits st.bitsToVars (BITS_PER_BIN - u) = bits at *
    by_cases hb : bits = 0
    · simp only [hb, dite_true]
      refine ⟨0, st, by simp, ?_, by simp, ?_⟩
      · refine ⟨hinv.len, hinv.wf, ?_, hinv.disj, hinv.todo, hinv.mem, hinv.nodup⟩
        intro v vi hp
        rcases hinv.pos v vi hp with h | h
        · left; omega
        · left; omega
      · intro hu0 hlt
        exfalso
        -- some variable is unplaced
        have : ∃ v : Nat, st.varInfos[v]? = some none := by
          unfold numPlaced at hlt
          rw [← hinv.len] at hlt
          have hne : ¬ ∀ a ∈ st.varInfos, a.isSome = true := by
            intro hall
            have := List.countP_eq_length.mpr hall
            exact absurd this (Nat.ne_of_lt hlt)
          simp only [Classical.not_forall] at hne
          obtain ⟨a, ha, hn⟩ := hne
          obtain ⟨i, hi⟩ := List.getElem?_of_mem ha
          refine ⟨i, ?_⟩
          rw [hi]; cases a <;> simp_all
        obtain ⟨v, hvn⟩ := this
        have hm := hinv.todo v hvn
        have hvlt : v < ranges.length := by
          rw [← hinv.len]
          rcases Nat.lt_or_ge v st.varInfos.length with h | h
          · exact h
          · rw [List.getElem?_eq_none h] at hvn; simp at hvn
        obtain ⟨_, b1, b2, _⟩ := bitsOf_spec hv (List.getElem?_eq_getElem hvlt)
        have := f3 hb (bitsOf ranges v) b1 (by unfold BITS_PER_BIN; omega)
        rw [this] at hm; simp at hm
    · simp only [hb, dite_false]
      have hne := f2 hb
      cases hcase : st.bitsToVars bits with
      | nil => exact absurd hcase hne
      | cons var rest =>
        simp only
        have hmem : var ∈ st.bitsToVars bits := by rw [hcase]; simp
        obtain ⟨hbv, hvn⟩ := hinv.mem bits var hmem
        have hvlt : var < ranges.length := by
          rw [← hinv.len]
          rcases Nat.lt_or_ge var st.varInfos.length with h | h
          · exact h
          · rw [List.getElem?_eq_none h] at hvn; simp at hvn
        rw [List.getElem?_eq_getElem hvlt]
        simp only
        have hr := List.getElem?_eq_getElem hvlt
        have hfit : u + bitsOf ranges var ≤ 32 := by
          rw [hbv]; unfold BITS_PER_BIN at f1; omega
        obtain ⟨vi, e, hwf, hrng, hbin, hsh⟩ := make_spec hv (k := k) hr hfit
        rw [e]
        have hu32 : u < BITS_PER_BIN := by unfold BITS_PER_BIN at *; omega
        simp only [hu32, dite_true]
        have hnodup := hinv.nodup bits
        rw [hcase] at hnodup
        have hplaced : ∀ w wi, Placed (st.varInfos.set var (some vi)) w wi →
            (w = var ∧ wi = vi) ∨ (w ≠ var ∧ Placed st.varInfos w wi) := by
          intro w wi hp
          unfold Placed at hp
          rw [List.getElem?_set] at hp
          by_cases hw : var = w
          · subst hw
            have : var < st.varInfos.length := by rw [hinv.len]; exact hvlt
            simp [this] at hp
            left; exact ⟨rfl, hp.symm⟩
          · simp [hw] at hp
            right; exact ⟨fun h => hw h.symm, hp⟩
        have hinv' : Inv ranges k (u + bits)
            { bitsToVars := fun b => if b = bits then rest else st.bitsToVars b,
              varInfos := st.varInfos.set var (some vi) } := by
          refine ⟨by simp [hinv.len], ?_, ?_, ?_, ?_, ?_, ?_⟩
          · intro w wi hp
            rcases hplaced w wi hp with ⟨rfl, rfl⟩ | ⟨_, hp⟩
            · exact ⟨hwf, by rw [hr, hrng]⟩
            · exact hinv.wf w wi hp
          · intro w wi hp
            rcases hplaced w wi hp with ⟨rfl, rfl⟩ | ⟨_, hp⟩
            · right; refine ⟨hbin, ?_⟩; rw [hsh, hbv]; exact Nat.le_refl _
            · rcases hinv.pos w wi hp with h | h
              · left; exact h
              · right; exact ⟨h.1, by omega⟩
          · intro v w vi' wi hne hp hq hbeq
            rcases hplaced v vi' hp with ⟨rfl, rfl⟩ | ⟨_, hp'⟩
            · rcases hplaced w wi hq with ⟨h1, _⟩ | ⟨_, hq⟩
              · exact absurd h1.symm hne
              · right
                rcases hinv.pos w wi hq with h | h
                · omega
                · rw [hsh]; exact h.2
            · rcases hplaced w wi hq with ⟨_, rfl⟩ | ⟨_, hq⟩
              · left
                rcases hinv.pos v vi' hp' with h | h
                · omega
                · rw [hsh]; exact h.2
              · exact hinv.disj v w vi' wi hne hp' hq hbeq
          · intro w hw
            simp only at hw ⊢
            rw [List.getElem?_set] at hw
            by_cases hwv : var = w
            · subst hwv
              have : var < st.varInfos.length := by rw [hinv.len]; exact hvlt
              simp [this] at hw
            · simp [hwv] at hw
              have := hinv.todo w hw
              split
              · rename_i hbb
                rw [hbb, hcase] at this
                simp at this
                rcases this with h | h
                · exact absurd h.symm hwv
                · exact h
              · exact this
          · intro b w hw
            simp only at hw ⊢
            rw [List.getElem?_set]
            split at hw
            · rename_i hbb
              have hw' : w ∈ st.bitsToVars bits := by rw [hcase]; simp [hw]
              obtain ⟨g1, g2⟩ := hinv.mem bits w hw'
              have hwv : var ≠ w := by
                intro h; subst h
                exact (List.nodup_cons.mp hnodup).1 hw
              simp [hwv, g2, hbb, g1]
            · rename_i hbb
              obtain ⟨g1, g2⟩ := hinv.mem b w hw
              have hwv : var ≠ w := by
                intro h; subst h
                exact hbb (by rw [← g1, hbv])
              simp [hwv, g2, g1]
          · intro b
            simp only
            split
            · exact (List.nodup_cons.mp hnodup).2
            · exact hinv.nodup b
        have hd' : 32 - (u + bits) < d := by unfold BITS_PER_BIN at *; omega
        obtain ⟨n, st', e1, e2, e3, _⟩ := ih (32 - (u + bits)) hd' (u + bits) (m+1) _ rfl
          (by unfold BITS_PER_BIN at *; omega) hinv'
        refine ⟨n + 1, st', ?_, e2, ?_, fun _ _ => by omega⟩
        · rw [e1]; congr 2; omega
        · rw [e3]
          have := numPlaced_set st.varInfos var vi hvn
          simp only at this ⊢
          omega

theorem packLoop_spec {ranges : List Nat} (hv : ValidRanges ranges) :
    ∀ (fuel k : Nat) (st : PackState), Inv ranges k 0 st →
    ranges.length - numPlaced st.varInfos ≤ fuel →
    ∃ p, packLoop ranges fuel (numPlaced st.varInfos) k st = some p ∧
      ∃ st', p.varInfos = st'.varInfos ∧ Inv ranges p.numBins 0 st' ∧
        numPlaced st'.varInfos = ranges.length := by
  intro fuel
  induction fuel with
  | zero =>
    intro k st hinv hf
    have hle : numPlaced st.varInfos ≤ ranges.length := by
      rw [← hinv.len]; exact List.countP_le_length
    have : numPlaced st.varInfos = ranges.length := by omega
    unfold packLoop
    simp only [this, if_true]
    exact ⟨_, rfl, st, rfl, hinv, this⟩
  | succ fuel ih =>
    intro k st hinv hf
    have hle : numPlaced st.varInfos ≤ ranges.length := by
      rw [← hinv.len]; exact List.countP_le_length
    unfold packLoop
    by_cases hdone : numPlaced st.varInfos = ranges.length
    · simp only [hdone, if_true]
      exact ⟨_, rfl, st, rfl, hinv, hdone⟩
    · simp only [hdone, if_false]
      obtain ⟨n, st', e1, e2, e3, e4⟩ := packOneBinLoop_spec hv k 32 0 0 st rfl (by omega) hinv
      rw [e1]
      have hn := e4 rfl (by omega)
      obtain ⟨p, g1, g2⟩ := ih (k+1) st' e2 (by omega)
      rw [e3] at g1
      refine ⟨p, ?_, g2⟩
      simpa using g1

theorem fillBits_spec {ranges : List Nat} (hv : ValidRanges ranges) :
    ∀ (n : Nat) (acc : Nat → List Nat), n ≤ ranges.length →
    (∀ b v, v ∈ acc b ↔ (n ≤ v ∧ v < ranges.length ∧ bitsOf ranges v = b)) → (∀ b, (acc b).Nodup) →
    ∃ b2v, fillBits ranges n acc = some b2v ∧
      (∀ b v, v ∈ b2v b ↔ (v < ranges.length ∧ bitsOf ranges v = b)) ∧ (∀ b, (b2v b).Nodup) := by
  intro n
  induction n with
  | zero =>
    intro acc _ h1 h2
    exact ⟨acc, rfl, fun b v => by rw [h1]; simp, h2⟩
  | succ n ih =>
    intro acc hn h1 h2
    have hlt : n < ranges.length := by omega
    have hr := List.getElem?_eq_getElem hlt
    obtain ⟨e, _, _, _⟩ := bitsOf_spec hv hr
    unfold fillBits
    rw [hr]
    simp only [Option.bind_eq_bind, Option.bind_some, e]
    apply ih _ (by omega)
    · intro b v
      split
      · rename_i hb
        simp only [List.mem_cons, h1]
        constructor
        · rintro (h | h)
          · subst h; exact ⟨by omega, hlt, hb.symm⟩
          · exact ⟨by omega, h.2⟩
        · intro h
          by_cases hvn : v = n
          · left; exact hvn
          · right; exact ⟨by omega, h.2⟩
      · rename_i hb
        rw [h1]
        constructor
        · rintro h; exact ⟨by omega, h.2⟩
        · intro h
          refine ⟨?_, h.2⟩
          by_cases hvn : v = n
          · subst hvn; exact absurd h.2.2.symm hb
          · omega
    · intro b
      split
      · rw [List.nodup_cons]
        refine ⟨?_, h2 b⟩
        rw [h1]; omega
      · exact h2 b

/-- Complete layout: every variable is placed, in an existing bin, in disjoint bit fields. -/
structure Layout (ranges : List Nat) (p : Packer) : Prop where
  len : p.varInfos.length = ranges.length
  all : ∀ v, v < ranges.length → ∃ vi, Placed p.varInfos v vi
  wf : ∀ v vi, Placed p.varInfos v vi → WF vi (bitsOf ranges v) ∧ ranges[v]? = some vi.range
  pos : ∀ v vi, Placed p.varInfos v vi → vi.binIndex < p.numBins
  disj : ∀ v w vi wi, v ≠ w → Placed p.varInfos v vi → Placed p.varInfos w wi →
    vi.binIndex = wi.binIndex →
    vi.shift + bitsOf ranges v ≤ wi.shift ∨ wi.shift + bitsOf ranges w ≤ vi.shift

theorem make_layout {ranges : List Nat} (hv : ValidRanges ranges) :
    ∃ p, Packer.make ranges = some p ∧ Layout ranges p := by
  obtain ⟨b2v, e1, h1, h2⟩ := fillBits_spec hv ranges.length (fun _ => []) (Nat.le_refl _)
    (by intro b v; simp; omega) (by intro b; simp)
  have hnone : ∀ v, (List.replicate ranges.length (none : Option VarInfo))[v]? = some none ↔ v < ranges.length := by
    intro v; rw [List.getElem?_replicate]; split <;> simp [*]
  have hnp : ∀ v vi, ¬ Placed (List.replicate ranges.length (none : Option VarInfo)) v vi := by
    intro v vi h; unfold Placed at h; rw [List.getElem?_replicate] at h; split at h <;> simp at h
  have hinv : Inv ranges 0 0 { bitsToVars := b2v, varInfos := List.replicate ranges.length none } := by
    refine ⟨by simp, ?_, ?_, ?_, ?_, ?_, h2⟩
    · intro v vi h; exact absurd h (hnp v vi)
    · intro v vi h; exact absurd h (hnp v vi)
    · intro v w vi wi _ h; exact absurd h (hnp v vi)
    · intro v h; simp only at h ⊢; rw [h1]; exact ⟨(hnone v).mp h, rfl⟩
    · intro b v h; simp only at h ⊢; rw [h1] at h; exact ⟨h.2, (hnone v).mpr h.1⟩
  have hnum : numPlaced (List.replicate ranges.length (none : Option VarInfo)) = 0 := by
    unfold numPlaced; rw [List.countP_eq_zero]; simp
  obtain ⟨p, e2, st', hp, hi, hc⟩ := packLoop_spec hv ranges.length 0 _ hinv (by omega)
  refine ⟨p, ?_, ?_⟩
  · unfold Packer.make
    rw [e1]
    simp only [Option.bind_eq_bind, Option.bind_some]
    simp only [hnum] at e2
    exact e2
  · refine ⟨by rw [hp, hi.len], ?_, ?_, ?_, ?_⟩
    · intro v hlt
      unfold numPlaced at hc
      rw [← hi.len] at hc
      have hall := List.countP_eq_length.mp hc
      have hlt' : v < st'.varInfos.length := by rw [hi.len]; exact hlt
      have := hall _ (List.getElem_mem hlt')
      obtain ⟨vi, hvi⟩ := Option.isSome_iff_exists.mp this
      refine ⟨vi, ?_⟩
      unfold Placed
      rw [hp, List.getElem?_eq_getElem hlt', hvi]
    · intro v vi h; rw [hp] at h; exact hi.wf v vi h
    · intro v vi h; rw [hp] at h
      rcases hi.pos v vi h with g | g
      · exact g
      · have := (hi.wf v vi h).1.bpos; omega
    · intro v w vi wi hne h1 h2; rw [hp] at h1 h2; exact hi.disj v w vi wi hne h1 h2

/-- characterisation of `Packer.get` -/
theorem get_eq {ranges p} (L : Layout ranges p) {buf : List Bin} (hb : buf.length = p.numBins)
    {v : Nat} {vi : VarInfo} (hp : Placed p.varInfos v vi) :
    p.get buf v = some ((field vi (buf.getD vi.binIndex 0)).toNat : Int) := by
  unfold Packer.get
  unfold Placed at hp
  have hlt : vi.binIndex < buf.length := by rw [hb]; exact L.pos v vi hp
  rw [hp]
  simp only [Option.bind_eq_bind, Option.bind_some, VarInfo.get]
  rw [List.getElem?_eq_getElem hlt]
  simp only [Option.bind_some]
  have := field_toInt (L.wf v vi hp).1 (buf.getD vi.binIndex 0)
  rw [← this]
  simp [field, List.getD, hlt]

theorem set_eq {ranges p} (L : Layout ranges p) {buf : List Bin} (hb : buf.length = p.numBins)
    {v : Nat} {vi : VarInfo} (hp : Placed p.varInfos v vi) (x : Nat) :
    p.set buf v x = some (buf.set vi.binIndex
      ((buf.getD vi.binIndex 0 &&& vi.clearMask) ||| (BitVec.ofNat 32 x <<< vi.shift))) := by
  unfold Packer.set
  unfold Placed at hp
  have hlt : vi.binIndex < buf.length := by rw [hb]; exact L.pos v vi hp
  rw [hp]
  simp only [Option.bind_eq_bind, Option.bind_some, VarInfo.set]
  rw [List.getElem?_eq_getElem hlt]
  simp [List.getD, hlt]

end Verif.IntPacker
