import Verif.Model.Registry
import Verif.Spec.Succ
import Verif.Lemmas.IntHashSet
import Verif.Lemmas.SegmentedVector
import Verif.Props.IntPacker
import Verif.Props.Axioms

namespace Verif.Registry

open IntPacker IntHashSet SegmentedVector

/-! ### packed states -/

def ZeroOut (ranges : List Nat) (p : Packer) (buf : List Bin) : Prop :=
  ∀ k i, (∀ v vi, Placed p.varInfos v vi → vi.binIndex = k →
    ¬ (vi.shift ≤ i ∧ i < vi.shift + bitsOf ranges v)) → (buf.getD k 0).getLsbD i = false

/-- the buffer represents the state, canonically -/
structure Packs (ranges : List Nat) (p : Packer) (buf : List Bin) (s : State) : Prop where
  len : buf.length = p.numBins
  slen : s.length = ranges.length
  get : ∀ (v x : Nat), s[v]? = some x → p.get buf v = some (x : Int)
  zero : ZeroOut ranges p buf

structure PCtx (ranges : List Nat) (p : Packer) : Prop where
  valid : ∀ r ∈ ranges, 1 ≤ r ∧ r < 2 ^ 31
  layout : Layout ranges p
  make : Packer.make ranges = some p

theorem lt_of_some {α : Type} {l : List α} {i : Nat} {x : α} (h : l[i]? = some x) : i < l.length := by
  rcases Nat.lt_or_ge i l.length with g | g
  · exact g
  · rw [List.getElem?_eq_none g] at h; cases h

theorem take_succ_set {α : Type} {l : List α} {i : Nat} (h : i < l.length) (x : α) :
    (l.set i x).take (i + 1) = l.take i ++ [x] := by
  induction l generalizing i with
  | nil => simp at h
  | cons a l ih =>
    cases i with
    | zero => simp
    | succ i => simp at h; simp [ih h]

theorem set_same {α : Type} {l : List α} {i : Nat} {x : α} (h : l[i]? = some x) : l.set i x = l := by
  induction l generalizing i with
  | nil => simp at h
  | cons a l ih =>
    cases i with
    | zero => simp at h; simp [h]
    | succ i => simp at h; simp [ih h]

theorem Packs.set {ranges p} (hp : PCtx ranges p) {buf : List Bin} {s : State} (h : Packs ranges p buf s) {v r x : Nat}
    (hr : ranges[v]? = some r) (hx : x < r) :
    ∃ buf', p.set buf v x = some buf' ∧ Packs ranges p buf' (s.set v x) := by
  obtain ⟨buf', e, l, g, z⟩ := setAll_spec ranges hp.valid hp.layout hp.make [(v, x)] buf (fun w => s.getD w 0)
    (by intro o ho; simp at ho; subst ho; exact ⟨r, hr, hx⟩) h.len
    (by
      intro w hw
      have hws : w < s.length := by rw [h.slen]; exact hw
      have := h.get w _ (List.getElem?_eq_getElem hws)
      rw [this]
      simp [List.getD_eq_getElem?_getD, List.getElem?_eq_getElem hws]) h.zero
  have hv := lt_of_some hr
  refine ⟨buf', ?_, ⟨l, by simp [h.slen], ?_, z⟩⟩
  · simp only [Packer.setAll] at e
    cases hs : p.set buf v x with
    | none => rw [hs] at e; cases e
    | some b => rw [hs] at e; simpa using e
  · intro w y hy
    have hw := lt_of_some hy
    simp only [List.length_set] at hw
    rw [g w (by rw [← h.slen]; exact hw)]
    by_cases hvw : v = w
    · subst hvw
      rw [List.getElem?_set_self hw] at hy
      cases hy
      simp [lastWritten]
    · rw [List.getElem?_set_ne hvw] at hy
      simp [lastWritten, hvw, List.getD_eq_getElem?_getD, hy]

theorem Packs.zero_buf {ranges p} (hp : PCtx ranges p) :
    Packs ranges p (List.replicate p.numBins 0) (List.replicate ranges.length 0) := by
  have hzero : ∀ k, (List.replicate p.numBins (0 : Bin)).getD k 0 = 0 := by
    intro k
    rw [List.getD_eq_getElem?_getD, List.getElem?_replicate]
    split <;> rfl
  refine ⟨by simp, by simp, ?_, ?_⟩
  · intro v x hx
    rw [List.getElem?_replicate] at hx
    split at hx
    · rename_i hv
      cases hx
      obtain ⟨wi, hq⟩ := hp.layout.all v hv
      rw [get_eq hp.layout (by simp) hq, hzero]
      simp [field]
    · cases hx
  · intro k i _; rw [hzero]; simp

/-- the packed representation is canonical -/
theorem Packs.inj {ranges p} (hp : PCtx ranges p) {b₁ b₂ : List Bin} {s : State} (h₁ : Packs ranges p b₁ s) (h₂ : Packs ranges p b₂ s) :
    b₁ = b₂ := by
  have L := hp.layout
  have hk : ∀ k, b₁.getD k 0 = b₂.getD k 0 := by
    intro k
    apply BitVec.eq_of_getLsbD_eq
    intro i _
    by_cases hcov : ∃ v vi, Placed p.varInfos v vi ∧ vi.binIndex = k ∧
        (vi.shift ≤ i ∧ i < vi.shift + bitsOf ranges v)
    · obtain ⟨v, vi, hpl, rfl, hi1, hi2⟩ := hcov
      have hlt : v < ranges.length := by
        rw [← L.len]
        exact lt_of_some hpl
      have hvs : v < s.length := by rw [h₁.slen]; exact hlt
      have e1 := get_eq L h₁.len hpl
      have e2 := get_eq L h₂.len hpl
      rw [h₁.get v _ (List.getElem?_eq_getElem hvs)] at e1
      rw [h₂.get v _ (List.getElem?_eq_getElem hvs), e1] at e2
      have e3 : (field vi (b₁.getD vi.binIndex 0)).toNat = (field vi (b₂.getD vi.binIndex 0)).toNat := by
        have := Option.some.inj e2; omega
      have e4 := BitVec.eq_of_toNat_eq e3
      have hwf := (L.wf v vi hpl).1
      have e5 := congrArg (fun f : Bin => f.getLsbD (i - vi.shift)) e4
      simp only [getLsbD_field hwf] at e5
      have h1 : vi.shift + (i - vi.shift) = i := by omega
      have h2 : i - vi.shift < bitsOf ranges v := by omega
      simpa [h1, h2] using e5
    · have : ∀ v vi, Placed p.varInfos v vi → vi.binIndex = k →
        ¬ (vi.shift ≤ i ∧ i < vi.shift + bitsOf ranges v) := by
        intro v vi h1 h2 h3; exact hcov ⟨v, vi, h1, h2, h3⟩
      rw [h₁.zero k i this, h₂.zero k i this]
  apply List.ext_getElem?
  intro k
  have l₁ := h₁.len
  have l₂ := h₂.len
  rcases Nat.lt_or_ge k p.numBins with h | h
  · have := hk k
    rw [List.getD_eq_getElem?_getD, List.getD_eq_getElem?_getD] at this
    rw [List.getElem?_eq_getElem (by omega), List.getElem?_eq_getElem (by omega)] at this ⊢
    simpa using this
  · rw [List.getElem?_eq_none (by omega), List.getElem?_eq_none (by omega)]

/-- a buffer represents at most one state -/
theorem Packs.fun {ranges p} {buf : List Bin} {s₁ s₂ : State} (h₁ : Packs ranges p buf s₁) (h₂ : Packs ranges p buf s₂) : s₁ = s₂ := by
  apply List.ext_getElem?
  intro v
  rcases Nat.lt_or_ge v ranges.length with h | h
  · have a : v < s₁.length := by rw [h₁.slen]; exact h
    have b : v < s₂.length := by rw [h₂.slen]; exact h
    have e1 := h₁.get v _ (List.getElem?_eq_getElem a)
    have e2 := h₂.get v _ (List.getElem?_eq_getElem b)
    rw [e1] at e2
    rw [List.getElem?_eq_getElem a, List.getElem?_eq_getElem b]
    have := Option.some.inj e2
    congr 1; omega
  · rw [List.getElem?_eq_none (by rw [h₁.slen]; exact h), List.getElem?_eq_none (by rw [h₂.slen]; exact h)]

theorem packAll_spec {ranges p} (hp : PCtx ranges p) : ∀ (xs : List Nat) (v : Nat) (buf : List Bin) (s : State),
    Packs ranges p buf s → v + xs.length = ranges.length →
    (∀ i x r, xs[i]? = some x → ranges[v + i]? = some r → x < r) →
    ∃ buf', packAll p v xs buf = some buf' ∧ Packs ranges p buf' (s.take v ++ xs) := by
  intro xs
  induction xs with
  | nil =>
    intro v buf s h hl _
    refine ⟨buf, rfl, ?_⟩
    simp at hl
    rw [List.append_nil, List.take_of_length_le (by rw [h.slen]; omega)]
    exact h
  | cons x xs ih =>
    intro v buf s h hl hx
    simp at hl
    have hv : v < ranges.length := by omega
    have hr := List.getElem?_eq_getElem hv
    obtain ⟨b1, e1, h1⟩ := h.set hp hr (hx 0 x _ (by simp) (by simpa using hr))
    obtain ⟨b2, e2, h2⟩ := ih (v + 1) b1 _ h1 (by omega) (by
      intro i y r hy hr
      exact hx (i + 1) y r (by simpa using hy) (by rw [← hr]; congr 1; omega))
    refine ⟨b2, ?_, ?_⟩
    · simp [packAll, e1, e2]
    · have : (s.set v x).take (v + 1) = s.take v ++ [x] := by
        have hvs : v < s.length := by rw [h.slen]; exact hv
        exact take_succ_set hvs x
      rw [this] at h2
      simpa using h2

/-! ### writing into the pool -/

theorem writeFrom_spec (i : Nat) : ∀ (bs : List Bin) (j : Nat) (pool : SAV Bin) (rows : List (List Bin)) (row : List Bin),
    pool.Rep rows → rows[i]? = some row → j + bs.length = pool.perArray →
    ∃ pool', writeFrom pool i j bs = some pool' ∧ pool'.Rep (rows.set i (row.take j ++ bs)) ∧
      pool'.perArray = pool.perArray := by
  intro bs
  induction bs with
  | nil =>
    intro j pool rows row h hr hl
    refine ⟨pool, rfl, ?_, rfl⟩
    simp at hl
    have : row.length = pool.perArray := h.each row (List.mem_of_getElem? hr)
    rw [List.append_nil, List.take_of_length_le (by omega), set_same hr]
    exact h
  | cons b bs ih =>
    intro j pool rows row h hr hl
    simp at hl
    obtain ⟨p1, e1, h1, l1⟩ := SAV.set_spec h hr (j := j) (by omega) b
    have hil := lt_of_some hr
    obtain ⟨p2, e2, h2, l2⟩ := ih (j + 1) p1 _ (row.set j b) h1 (List.getElem?_set_self hil) (by omega)
    refine ⟨p2, ?_, ?_, by omega⟩
    · simp [writeFrom, e1, e2]
    · rw [List.set_set] at h2
      have hrl : row.length = pool.perArray := h.each row (List.mem_of_getElem? hr)
      have : (row.set j b).take (j + 1) = row.take j ++ [b] := by
        exact take_succ_set (show j < row.length by omega) b
      rw [this] at h2
      simpa using h2

theorem poolSet_spec {ranges p} (hp : PCtx ranges p) {pool : SAV Bin} {rows : List (List Bin)}
    (h : pool.Rep rows) (hpa : pool.perArray = p.numBins) {i : Nat} {row : List Bin} {s : State}
    (hr : rows[i]? = some row) (hpk : Packs ranges p row s) {v r x : Nat} (hv : ranges[v]? = some r) (hx : x < r) :
    ∃ pool' row', poolSet p pool i v x = some pool' ∧ pool'.Rep (rows.set i row') ∧ pool'.perArray = p.numBins ∧
      Packs ranges p row' (s.set v x) := by
  obtain ⟨row', e1, h1⟩ := hpk.set hp hv hx
  obtain ⟨pool', e2, h2, l2⟩ := writeFrom_spec i row' 0 pool rows row h hr (by rw [h1.len]; omega)
  refine ⟨pool', row', ?_, by simpa using h2, by omega, h1⟩
  unfold poolSet
  rw [SAV.get_spec h, hr]
  simp [e1, e2]

theorem poolSetAll_spec {ranges p} (hp : PCtx ranges p) {i : Nat} : ∀ (xs : List Nat) (v : Nat) (pool : SAV Bin)
    (rows : List (List Bin)) (row : List Bin) (s : State),
    pool.Rep rows → pool.perArray = p.numBins → rows[i]? = some row → Packs ranges p row s →
    v + xs.length = ranges.length → (∀ k x r, xs[k]? = some x → ranges[v + k]? = some r → x < r) →
    ∃ pool' row', poolSetAll p i v xs pool = some pool' ∧ pool'.Rep (rows.set i row') ∧ pool'.perArray = p.numBins ∧
      Packs ranges p row' (s.take v ++ xs) := by
  intro xs
  induction xs with
  | nil =>
    intro v pool rows row s h hpa hr hpk hl _
    refine ⟨pool, row, rfl, ?_, hpa, ?_⟩
    · rw [set_same hr]; exact h
    · simp at hl
      rw [List.append_nil, List.take_of_length_le (by rw [hpk.slen]; omega)]
      exact hpk
  | cons x xs ih =>
    intro v pool rows row s h hpa hr hpk hl hx
    simp at hl
    have hv : v < ranges.length := by omega
    have hrg := List.getElem?_eq_getElem hv
    obtain ⟨p1, r1, e1, h1, l1, k1⟩ := poolSet_spec hp h hpa hr hpk hrg (hx 0 x _ (by simp) (by simpa using hrg))
    have hil := lt_of_some hr
    obtain ⟨p2, r2, e2, h2, l2, k2⟩ := ih (v + 1) p1 _ r1 _ h1 l1 (List.getElem?_set_self hil) k1 (by omega) (by
      intro k y r hy hr
      exact hx (k + 1) y r (by simpa using hy) (by rw [← hr]; congr 1; omega))
    refine ⟨p2, r2, ?_, ?_, l2, ?_⟩
    · simp [poolSetAll, e1, e2]
    · rw [List.set_set] at h2; exact h2
    · have : (s.set v x).take (v + 1) = s.take v ++ [x] := by
        have hvs : v < s.length := by rw [hpk.slen]; exact hv
        exact take_succ_set hvs x
      rw [this] at k2
      simpa using k2

/-! ### hash set of ids -/

def dataL (rows : List (List Bin)) (k : Int) : Option (List Bin) := rows[k.toNat]?
def hasherL (hash : Option (List Bin) → Nat) (rows : List (List Bin)) (k : Int) : Nat := hash (dataL rows k)
def equalL (rows : List (List Bin)) (a b : Int) : Bool := dataL rows a == dataL rows b

theorem hasher_eq {hash} {pool : SAV Bin} {rows} (h : pool.Rep rows) : hasher hash pool = hasherL hash rows := by
  funext k; unfold hasher hasherL data dataL; rw [SAV.get_spec h]

theorem equal_eq {pool : SAV Bin} {rows} (h : pool.Rep rows) : equal pool = equalL rows := by
  funext a b; unfold equal equalL data dataL; rw [SAV.get_spec h, SAV.get_spec h]

theorem compatL (hash) (rows : List (List Bin)) : Compat (hasherL hash rows) (equalL rows) := by
  refine ⟨?_, ?_, ?_, ?_⟩
  · intro a; simp [equalL]
  · intro a b h; simp [equalL] at h ⊢; exact h.symm
  · intro a b c h1 h2; simp [equalL] at *; rw [h1, h2]
  · intro a b h; simp [equalL] at h; simp [hasherL, h]

/-- the invariant of the hash set only depends on the functors at the stored keys -/
theorem Rep.congr {h₁ h₂ : Int → Nat} {e₁ e₂ : Int → Int → Bool} {t : Table} {S : List Int}
    (h : Rep h₁ e₁ t S) (hh : ∀ k ∈ S, h₂ k = h₁ k) (he : ∀ a ∈ S, ∀ b ∈ S, e₂ a b = e₁ a b) :
    Rep h₂ e₂ t S := by
  have hmem : ∀ b ∈ t.buckets, b.full = true → b.key ∈ S := by
    intro b hb hf
    apply h.perm.mem_iff.mp
    unfold keysOf
    exact List.mem_map.mpr ⟨b, List.mem_filter.mpr ⟨hb, hf⟩, rfl⟩
  refine ⟨⟨h.inv.pow, h.inv.near, ?_, ?_⟩, h.small, h.num, h.perm, h.nonneg⟩
  · intro b hb hf
    rw [h.inv.hashOk b hb hf, hh _ (hmem b hb hf)]
  · refine List.Pairwise.imp_of_mem ?_ h.inv.sep
    intro a b ha hb hab
    rw [he a (h.perm.mem_iff.mp ha) b (h.perm.mem_iff.mp hb)]; exact hab

/-- keys 0, …, n-1 -/
def keysUpTo (n : Nat) : List Int := (List.range n).map Int.ofNat

theorem mem_keysUpTo {n : Nat} {k : Int} : k ∈ keysUpTo n ↔ ∃ i : Nat, i < n ∧ k = (i : Int) := by
  unfold keysUpTo
  simp only [List.mem_map, List.mem_range]
  constructor
  · rintro ⟨i, h, rfl⟩; exact ⟨i, h, rfl⟩
  · rintro ⟨i, h, rfl⟩; exact ⟨i, h, rfl⟩

/-! ### the registry -/

structure RegRep (hash : Option (List Bin) → Nat) (t : Task) (r : Reg) (L : List State)
    (rows : List (List Bin)) (S : List Int) : Prop where
  ctx : PCtx (t.vars.map (·.domain)) r.packer
  pool : r.pool.Rep rows
  per : r.pool.perArray = r.packer.numBins
  len : rows.length = L.length
  packs : ∀ (i : Nat) (row : List Bin) (s : State), rows[i]? = some row → L[i]? = some s → Packs (t.vars.map (·.domain)) r.packer row s
  nodup : L.Nodup
  valid : ∀ s ∈ L, t.ValidState s
  tab : Rep (hasherL hash rows) (equalL rows) r.table S
  keys : S.Perm (keysUpTo L.length)
  init : ∀ h, r.initial = some h → L[h.id]? = some t.init ∧ h.values = none

/-- Registering a state: find it, or append it. -/
def Register (L : List State) (s : State) (id : Nat) (L' : List State) : Prop :=
  (L[id]? = some s ∧ L' = L) ∨ (s ∉ L ∧ id = L.length ∧ L' = L ++ [s])

theorem rep_push {hash rows t S n} {row : List Bin} (h : Rep (hasherL hash rows) (equalL rows) t S)
    (hk : S.Perm (keysUpTo n)) (hn : n = rows.length) :
    Rep (hasherL hash (rows ++ [row])) (equalL (rows ++ [row])) t S := by
  have hd : ∀ k ∈ S, dataL (rows ++ [row]) k = dataL rows k := by
    intro k hkS
    obtain ⟨i, hi, rfl⟩ := mem_keysUpTo.mp (hk.mem_iff.mp hkS)
    unfold dataL
    simp only [Int.toNat_natCast]
    rw [List.getElem?_append_left (by omega)]
  refine Rep.congr h ?_ ?_
  · intro k hkS; simp [hasherL, hd k hkS]
  · intro a ha b hb; simp [equalL, hd a ha, hd b hb]

theorem rep_pop {hash rows t S n} {row : List Bin} (h : Rep (hasherL hash (rows ++ [row])) (equalL (rows ++ [row])) t S)
    (hk : S.Perm (keysUpTo n)) (hn : n = rows.length) :
    Rep (hasherL hash rows) (equalL rows) t S := by
  have hd : ∀ k ∈ S, dataL (rows ++ [row]) k = dataL rows k := by
    intro k hkS
    obtain ⟨i, hi, rfl⟩ := mem_keysUpTo.mp (hk.mem_iff.mp hkS)
    unfold dataL
    simp only [Int.toNat_natCast]
    rw [List.getElem?_append_left (by omega)]
  refine Rep.congr h ?_ ?_
  · intro k hkS; simp [hasherL, hd k hkS]
  · intro a ha b hb; simp [equalL, hd a ha, hd b hb]

theorem insertIdOrPop_good {hash t} {r₀ r : Reg} {L rows S} (h : RegRep hash t r₀ L rows S)
    {row : List Bin} {s : State} (hpool : r.pool.Rep (rows ++ [row])) (hper : r.pool.perArray = r.packer.numBins)
    (hpk : r.packer = r₀.packer) (htab : r.table = r₀.table) (hinit : r.initial = r₀.initial)
    (hrow : Packs (t.vars.map (·.domain)) r.packer row s) (hs : t.ValidState s) :
    (insertIdOrPop hash r).Good (fun q => ∃ L' rows' S', Register L s q.2 L' ∧ RegRep hash t q.1 L' rows' S') := by
  unfold insertIdOrPop
  have hsz : r.pool.size = rows.length + 1 := by rw [hpool.size]; simp
  have hkey : ((r.pool.size - 1 : Nat) : Int) = (rows.length : Int) := by omega
  rw [hkey, hasher_eq hpool, equal_eq hpool, htab]
  have hrep := rep_push (row := row) h.tab h.keys h.len.symm
  have hfuel : 2 ^ 31 ≤ r₀.table.capacity * 2 ^ FUEL := by
    have := pow_pos' hrep.inv.pow
    unfold Table.capacity FUEL; omega
  refine Outcome.Good.bind (insertF_good (compatL hash (rows ++ [row])) FUEL r₀.table S (rows.length : Int) hrep hfuel (by omega)) ?_
  rintro ⟨tab, key, isNew⟩ ⟨S', hsp, hrep', _⟩
  simp only at hsp hrep' ⊢
  rcases hsp with ⟨h1, h2, h3, h4⟩ | ⟨h1, h2, h3, h4⟩
  · -- already present
    simp only at h1 h2 h3
    subst h1; subst h4
    simp only [Bool.false_eq_true, if_false]
    obtain ⟨p', e, hp', hl'⟩ := SAV.pop_spec hpool (by simp)
    rw [e]
    rw [List.dropLast_concat] at hp'
    simp only [Outcome.ofOption, ok_bind]
    obtain ⟨i, hi, rfl⟩ := mem_keysUpTo.mp (h.keys.mem_iff.mp h2)
    have hir : i < rows.length := by rw [h.len]; exact hi
    have heq : rows[i]? = some row := by
      simp [equalL, dataL] at h3
      rw [List.getElem?_append_left hir] at h3
      rw [List.getElem?_eq_getElem hir] at h3 ⊢
      simp at h3; rw [h3]
    have hpi := h.packs i row _ heq (List.getElem?_eq_getElem hi)
    rw [← hpk] at hpi
    have hLs : L[i] = s := hpi.fun hrow
    refine ⟨L, rows, S', Or.inl ⟨?_, rfl⟩, ?_⟩
    · simp only [Int.toNat_natCast]; rw [List.getElem?_eq_getElem hi, hLs]
    · refine ⟨by rw [hpk]; exact h.ctx, hp', by simp only; omega, h.len, ?_, h.nodup, h.valid, ?_, h.keys, ?_⟩
      · simp only; rw [hpk]; exact h.packs
      · exact rep_pop hrep' h.keys h.len.symm
      · simp only; rw [hinit]; exact h.init
  · simp only at h1 h2 h3
    subst h1; subst h2; subst h4
    simp only [if_true]
    have hnot : s ∉ L := by
      intro hm
      obtain ⟨i, hi⟩ := List.mem_iff_getElem?.mp hm
      have hil := lt_of_some hi
      have hir : i < rows.length := by rw [h.len]; exact hil
      have hpi := h.packs i _ s (List.getElem?_eq_getElem hir) hi
      rw [← hpk] at hpi
      have hctx : PCtx (t.vars.map (·.domain)) r.packer := by rw [hpk]; exact h.ctx
      have hre := Packs.inj hctx hpi hrow
      have := h3 (i : Int) (h.keys.mem_iff.mpr (mem_keysUpTo.mpr ⟨i, hil, rfl⟩))
      simp [equalL, dataL, List.getElem?_append_left hir] at this
      exact this (by rw [List.getElem?_eq_getElem hir, hre])
    refine ⟨L ++ [s], rows ++ [row], (rows.length : Int) :: S, Or.inr ⟨hnot, ?_, rfl⟩, ?_⟩
    · simp [h.len]
    · refine ⟨by rw [hpk]; exact h.ctx, hpool, hper, by simp [h.len], ?_, ?_, ?_, hrep', ?_, ?_⟩
      · intro i row' s' hrow' hs'
        have hi := lt_of_some hs'
        have hlen := h.len
        simp at hi
        by_cases hil : i < L.length
        · rw [List.getElem?_append_left (by omega)] at hrow'
          rw [List.getElem?_append_left hil] at hs'
          simp only; rw [hpk]; exact h.packs i row' s' hrow' hs'
        · have hiL : i = L.length := by omega
          subst hiL
          rw [List.getElem?_append_right (by omega)] at hs'
          rw [List.getElem?_append_right (by omega)] at hrow'
          simp [h.len] at hs' hrow'
          subst hs'; subst hrow'; exact hrow
      · rw [List.nodup_append]
        refine ⟨h.nodup, by simp, ?_⟩
        intro a ha b hb; simp at hb; subst hb; intro hab; subst hab; exact hnot ha
      · intro s' hs'
        rcases List.mem_append.mp hs' with g | g
        · exact h.valid s' g
        · simp at g; subst g; exact hs
      · have : keysUpTo (L ++ [s]).length = keysUpTo L.length ++ [(L.length : Int)] := by
          simp [keysUpTo, List.range_succ]
        rw [this, h.len]
        exact (List.Perm.cons _ h.keys).trans (List.perm_append_singleton _ _).symm
      · intro hd hhd
        simp only at hhd
        rw [hinit] at hhd
        obtain ⟨g1, g2⟩ := h.init hd hhd
        exact ⟨by rw [List.getElem?_append_left (lt_of_some g1)]; exact g1, g2⟩

end Verif.Registry
