import Verif.Model.IntHashSet

namespace Verif.IntHashSet

/-- Keys stored in a bucket vector. -/
def keysOf (bs : List Bucket) : List Int := (bs.filter Bucket.full).map (·.key)

/-- Outcome is `ok` with `P`, or the capacity overflow. -/
def Outcome.Good {α : Type} (P : α → Prop) : Outcome α → Prop
  | .ok a => P a
  | .abort => False
  | .overflow => True
  | .ub => False
  | .diverge => False

theorem Outcome.Good.bind {α β : Type} {P : α → Prop} {Q : β → Prop} {o : Outcome α}
    {f : α → Outcome β} (h : o.Good P) (hf : ∀ a, P a → (f a).Good Q) : (o >>= f).Good Q := by
  cases o with
  | ok a => exact hf a h
  | abort => exact h.elim
  | overflow => exact trivial
  | ub => exact h.elim
  | diverge => exact h.elim

theorem Outcome.Good.mono {α : Type} {P Q : α → Prop} {o : Outcome α} (h : o.Good P)
    (hpq : ∀ a, P a → Q a) : o.Good Q := by
  cases o with
  | ok a => exact hpq a h
  | abort => exact h.elim
  | overflow => exact trivial
  | ub => exact h.elim
  | diverge => exact h.elim

@[simp] theorem ok_bind {α β : Type} (a : α) (f : α → Outcome β) : (Outcome.ok a >>= f) = f a := rfl

theorem getBucket_eq {n : Nat} (hn : ∃ m, n = 2 ^ m) (h : Nat) : getBucket n h = h % n := by
  obtain ⟨m, rfl⟩ := hn
  unfold getBucket
  exact Nat.and_two_pow_sub_one_eq_mod h m

theorem mod_lt2 {x n : Nat} (h : x < 2 * n) : x % n = if x < n then x else x - n := by
  split
  · exact Nat.mod_eq_of_lt ‹_›
  · have : x = (x - n) + n := by omega
    rw [this, Nat.add_mod_right, Nat.mod_eq_of_lt (by omega)]
    omega

theorem pow_pos' {n : Nat} (hn : ∃ m, n = 2 ^ m) : 0 < n := by
  obtain ⟨m, rfl⟩ := hn; exact Nat.two_pow_pos m

theorem slot_dist {n a i : Nat} (ha : a < n) (hi : i < n) : (a + getDistance n a i) % n = i := by
  unfold getDistance
  split
  · rw [mod_lt2 (by omega)]; split <;> omega
  · rw [mod_lt2 (by omega)]; split <;> omega

theorem dist_lt {n a i : Nat} (ha : a < n) (hi : i < n) : getDistance n a i < n := by
  unfold getDistance; split <;> omega

theorem dist_slot {n a d : Nat} (ha : a < n) (hd : d < n) : getDistance n a ((a + d) % n) = d := by
  rw [mod_lt2 (by omega)]
  unfold getDistance
  split <;> split <;> omega

theorem dist_back {n a f o : Nat} (ha : a < n) (hf : f < n) (h1 : 1 ≤ o) (ho : o ≤ getDistance n a f) :
    getDistance n a ((f + n - o) % n) = getDistance n a f - o := by
  have hlt : f + n - o < 2 * n := by omega
  rw [mod_lt2 hlt]
  unfold getDistance at *
  by_cases g1 : f ≥ a
  · simp only [g1, if_true] at ho ⊢
    split <;> split <;> omega
  · simp only [g1, if_false] at ho ⊢
    split <;> split <;> omega

/-- Invariant of the bucket vector. -/
structure TInv (hasher : Int → Nat) (equal : Int → Int → Bool) (bs : List Bucket) : Prop where
  pow : ∃ m, bs.length = 2 ^ m
  near : ∀ i b, bs[i]? = some b → b.full = true →
    getDistance bs.length (b.hash % bs.length) i < MAX_DISTANCE
  hashOk : ∀ b, b ∈ bs → b.full = true → b.hash = hasher b.key
  sep : (keysOf bs).Pairwise (fun a b => equal a b = false)

/-- Equality functor: an equivalence, compatible with the hash functor. -/
structure Compat (hasher : Int → Nat) (equal : Int → Int → Bool) : Prop where
  refl : ∀ a, equal a a = true
  symm : ∀ a b, equal a b = true → equal b a = true
  trans : ∀ a b c, equal a b = true → equal b c = true → equal a c = true
  hash : ∀ a b, equal a b = true → hasher a = hasher b

theorem mem_keysOf {bs : List Bucket} {k : Int} :
    k ∈ keysOf bs ↔ ∃ i : Nat, ∃ b, bs[i]? = some b ∧ b.full = true ∧ b.key = k := by
  unfold keysOf
  simp only [List.mem_map, List.mem_filter]
  constructor
  · rintro ⟨b, ⟨h1, h2⟩, h3⟩
    obtain ⟨i, hi⟩ := List.getElem?_of_mem h1
    exact ⟨i, b, hi, h2, h3⟩
  · rintro ⟨i, b, h1, h2, h3⟩
    exact ⟨b, ⟨List.mem_of_getElem? h1, h2⟩, h3⟩

theorem lt_of_getElem? {α} {l : List α} {i : Nat} {a : α} (h : l[i]? = some a) : i < l.length := by
  rcases Nat.lt_or_ge i l.length with h' | h'
  · exact h'
  · rw [List.getElem?_eq_none h'] at h; simp at h

/-! ### find_equal_key -/

theorem findEqualLoop_spec {equal : Int → Int → Bool} {bs : List Bucket}
    (hp : ∃ m, bs.length = 2 ^ m) (key : Int) (hash : Nat) :
    ∀ m i, ∃ r, findEqualLoop equal bs key hash m i = .ok r ∧
      (∀ k, r = some k → k ∈ keysOf bs ∧ equal k key = true) ∧
      (r = none → ∀ d, i ≤ d → d < i + m → ∀ b, bs[(hash % bs.length + d) % bs.length]? = some b →
        ¬ (b.full = true ∧ b.hash = hash ∧ equal b.key key = true)) := by
  intro m
  induction m with
  | zero => intro i; exact ⟨none, rfl, by simp, by intro _ d h1 h2; omega⟩
  | succ m ih =>
    intro i
    unfold findEqualLoop
    rw [getBucket_eq hp, getBucket_eq hp]
    have hlt : (hash % bs.length + i) % bs.length < bs.length := Nat.mod_lt _ (pow_pos' hp)
    rw [List.getElem?_eq_getElem hlt]
    simp only
    split
    · rename_i hc
      simp only [Bool.and_eq_true, beq_iff_eq] at hc
      refine ⟨_, rfl, ?_, by simp⟩
      intro k hk
      cases hk
      exact ⟨mem_keysOf.mpr ⟨_, _, List.getElem?_eq_getElem hlt, hc.1.1, rfl⟩, hc.2⟩
    · rename_i hc
      obtain ⟨r, e, h1, h2⟩ := ih (i + 1)
      refine ⟨r, e, h1, ?_⟩
      intro hr d hd1 hd2 b hb
      by_cases hdi : d = i
      · subst hdi
        rw [List.getElem?_eq_getElem hlt] at hb
        cases hb
        intro h
        apply hc
        simp only [Bool.and_eq_true, beq_iff_eq]
        exact ⟨⟨h.1, h.2.1⟩, h.2.2⟩
      · exact h2 hr d (by omega) (by omega) b hb

theorem findEqual_spec {hasher equal} (hc : Compat hasher equal) {bs : List Bucket}
    (hi : TInv hasher equal bs) (key : Int) :
    ∃ r, findEqual equal bs key (hasher key) = .ok r ∧
      (∀ k, r = some k → k ∈ keysOf bs ∧ equal k key = true) ∧
      (r = none → ∀ k ∈ keysOf bs, equal k key = false) := by
  obtain ⟨r, e, h1, h2⟩ := findEqualLoop_spec (equal := equal) hi.pow key (hasher key) MAX_DISTANCE 0
  refine ⟨r, e, h1, ?_⟩
  intro hr k hk
  obtain ⟨i, b, hb, hf, rfl⟩ := mem_keysOf.mp hk
  cases heq : equal b.key key with
  | false => rfl
  | true =>
    exfalso
    have hh : b.hash = hasher key := by
      rw [hi.hashOk b (List.mem_of_getElem? hb) hf]; exact hc.hash _ _ heq
    have hn := hi.near i b hb hf
    have hpos := pow_pos' hi.pow
    have hs := slot_dist (a := b.hash % bs.length) (i := i) (Nat.mod_lt _ hpos) (lt_of_getElem? hb)
    refine h2 hr (getDistance bs.length (b.hash % bs.length) i) (Nat.zero_le _) (by omega) b ?_ ⟨hf, hh, heq⟩
    rw [← hh, hs]; exact hb

/-! ### find_next_free_bucket_index -/

theorem findFree_spec {bs : List Bucket} (hp : ∃ m, bs.length = 2 ^ m) {a : Nat} (ha : a < bs.length)
    (hex : ∃ (i : Nat) (b : Bucket), bs[i]? = some b ∧ b.full = false) :
    ∀ fuel d, d ≤ bs.length → bs.length < fuel + d →
      (∀ d' < d, ∀ b, bs[(a + d') % bs.length]? = some b → b.full = true) →
      ∃ f b, findFree bs fuel ((a + d) % bs.length) = .ok f ∧ bs[f]? = some b ∧ b.full = false ∧
        (∀ d' < getDistance bs.length a f, ∀ b, bs[(a + d') % bs.length]? = some b → b.full = true) := by
  intro fuel
  have hpos := pow_pos' hp
  induction fuel with
  | zero =>
    intro d hd1 hd2 _; omega
  | succ fuel ih =>
    intro d hd1 hd2 hfull
    have hdn : d < bs.length := by
      rcases Nat.lt_or_ge d bs.length with h | h
      · exact h
      · exfalso
        obtain ⟨i, b, hb, hbf⟩ := hex
        have hi := lt_of_getElem? hb
        have := hfull (getDistance bs.length a i) (Nat.lt_of_lt_of_le (dist_lt ha hi) h) b
          (by rw [slot_dist ha hi]; exact hb)
        rw [this] at hbf; simp at hbf
    unfold findFree
    have hlt : (a + d) % bs.length < bs.length := Nat.mod_lt _ hpos
    rw [List.getElem?_eq_getElem hlt]
    simp only
    split
    · rename_i hf
      rw [getBucket_eq hp]
      have : ((a + d) % bs.length + 1) % bs.length = (a + (d + 1)) % bs.length := by
        rw [Nat.mod_add_mod, Nat.add_assoc]
      rw [this]
      apply ih (d + 1) (by omega) (by omega)
      intro d' hd' b hb
      by_cases h : d' = d
      · subst h
        rw [List.getElem?_eq_getElem hlt] at hb; cases hb; exact hf
      · exact hfull d' (by omega) b hb
    · rename_i hf
      refine ⟨_, _, rfl, List.getElem?_eq_getElem hlt, by simpa using hf, ?_⟩
      rw [dist_slot ha hdn]
      exact hfull

/-! ### keys under set / swap -/

theorem keysOf_set_empty {bs : List Bucket} {f : Nat} {b nb : Bucket} (h : bs[f]? = some b)
    (hb : b.full = false) (hn : nb.full = true) : (keysOf (bs.set f nb)).Perm (nb.key :: keysOf bs) := by
  unfold keysOf
  induction bs generalizing f with
  | nil => simp at h
  | cons x l ih =>
    cases f with
    | zero =>
      simp at h; subst h
      simp [hb, hn]
    | succ f =>
      simp at h
      simp only [List.set_cons_succ, List.filter_cons]
      by_cases hx : x.full = true
      · simp only [hx, if_true, List.map_cons]
        exact ((ih h).cons _).trans (List.Perm.swap _ _ _)
      · simp only [hx]
        exact ih h

theorem keysOf_perm {bs bs' : List Bucket} (h : bs.Perm bs') : (keysOf bs).Perm (keysOf bs') :=
  (h.filter _).map _

theorem pairwise_perm {equal : Int → Int → Bool} (hs : ∀ a b, equal a b = true → equal b a = true)
    {l l' : List Int} (h : l.Perm l') (hp : l.Pairwise (fun a b => equal a b = false)) :
    l'.Pairwise (fun a b => equal a b = false) := by
  refine h.pairwise hp ?_
  intro a b hab
  cases hba : equal b a with
  | false => rfl
  | true => rw [hs _ _ hba] at hab; exact hab

/-! ### the hopscotch loop -/

theorem findCandidate_spec {bs : List Bucket} (hp : ∃ m, bs.length = 2 ^ m) {f : Nat} (_hf : f < bs.length) :
    ∀ off, off < bs.length → ∃ r, findCandidate bs f off = .ok r ∧
      ∀ c, r = some c → ∃ o b, 1 ≤ o ∧ o ≤ off ∧ c = (f + bs.length - o) % bs.length ∧
        bs[c]? = some b ∧ getDistance bs.length (b.hash % bs.length) f < MAX_DISTANCE := by
  intro off
  have hpos := pow_pos' hp
  induction off with
  | zero => intro _; exact ⟨none, rfl, by simp⟩
  | succ off ih =>
    intro hoff
    unfold findCandidate
    simp only
    rw [getBucket_eq hp]
    have hlt : (f + bs.length - (off + 1)) % bs.length < bs.length := Nat.mod_lt _ hpos
    rw [List.getElem?_eq_getElem hlt]
    simp only
    rw [getBucket_eq hp]
    split
    · rename_i h
      refine ⟨_, rfl, ?_⟩
      intro c hc; cases hc
      exact ⟨off + 1, _, by omega, Nat.le_refl _, rfl, List.getElem?_eq_getElem hlt, h⟩
    · obtain ⟨r, e, h⟩ := ih (by omega)
      refine ⟨r, e, ?_⟩
      intro c hc
      obtain ⟨o, b, h1, h2, h3⟩ := h c hc
      exact ⟨o, b, h1, by omega, h3⟩

theorem hopLoop_spec {hasher equal} (hc : Compat hasher equal) {a : Nat} :
    ∀ fuel bs f fb, TInv hasher equal bs → a < bs.length → bs[f]? = some fb → fb.full = false →
      (∀ d < getDistance bs.length a f, ∀ b, bs[(a + d) % bs.length]? = some b → b.full = true) →
      getDistance bs.length a f < fuel →
      ∃ bs' r, hopLoop a fuel bs f = .ok (bs', r) ∧ bs'.length = bs.length ∧ TInv hasher equal bs' ∧
        bs'.Perm bs ∧
        ∀ f', r = some f' → ∃ b, bs'[f']? = some b ∧ b.full = false ∧
          getDistance bs.length a f' < MAX_DISTANCE := by
  intro fuel
  induction fuel with
  | zero => intro bs f fb _ _ _ _ _ h; omega
  | succ fuel ih =>
    intro bs f fb hi ha hfb hfe hfull hfuel
    have hp := hi.pow
    have hpos := pow_pos' hp
    have hflt := lt_of_getElem? hfb
    unfold hopLoop
    split
    · rename_i hD
      have hbig : MAX_DISTANCE ≤ bs.length := by
        have := dist_lt ha hflt; omega
      have hmin : min MAX_DISTANCE bs.length - 1 = 31 := by
        unfold MAX_DISTANCE at *; omega
      rw [hmin]
      obtain ⟨r, e, hr⟩ := findCandidate_spec hp hflt 31 (by unfold MAX_DISTANCE at *; omega)
      rw [e]
      simp only [ok_bind]
      cases r with
      | none =>
        exact ⟨bs, none, rfl, rfl, hi, List.Perm.refl _, by simp⟩
      | some c =>
        obtain ⟨o, cb, ho1, ho2, hceq, hcb, hdist⟩ := hr c rfl
        have hclt := lt_of_getElem? hcb
        have hDf := dist_lt ha hflt
        have hdc : getDistance bs.length a c = getDistance bs.length a f - o := by
          unfold MAX_DISTANCE at *
          rw [hceq]; exact dist_back ha hflt ho1 (by omega)
        have hcf : c ≠ f := by
          intro h; rw [h] at hdc; unfold MAX_DISTANCE at *; omega
        have hcbfull : cb.full = true := by
          have := hfull (getDistance bs.length a c) (by unfold MAX_DISTANCE at *; omega) cb
          rw [slot_dist ha hclt] at this
          exact this hcb
        have hcb' : bs[c] = cb := by
          rw [List.getElem?_eq_getElem hclt] at hcb; exact Option.some.inj hcb
        have hfb' : bs[f] = fb := by
          rw [List.getElem?_eq_getElem hflt] at hfb; exact Option.some.inj hfb
        simp only [swapB, hcb, hfb, ok_bind]
        have hperm : ((bs.set c fb).set f cb).Perm bs := by
          rw [← hcb', ← hfb']
          exact List.set_set_perm hclt hflt
        have hlen : ((bs.set c fb).set f cb).length = bs.length := by simp
        have hget : ∀ (i : Nat) b, ((bs.set c fb).set f cb)[i]? = some b →
            (i = f ∧ b = cb) ∨ (i = c ∧ b = fb) ∨ (i ≠ f ∧ i ≠ c ∧ bs[i]? = some b) := by
          intro i b h
          rw [List.getElem?_set] at h
          by_cases h1 : f = i
          · subst h1
            have : f < (bs.set c fb).length := by simpa using hflt
            simp [hflt] at h
            left; exact ⟨rfl, h.symm⟩
          · simp only [h1, if_false] at h
            rw [List.getElem?_set] at h
            by_cases h2 : c = i
            · subst h2
              simp [hclt] at h
              right; left; exact ⟨rfl, h.symm⟩
            · simp only [h2, if_false] at h
              right; right; exact ⟨fun e => h1 e.symm, fun e => h2 e.symm, h⟩
        have hi' : TInv hasher equal ((bs.set c fb).set f cb) := by
          refine ⟨by rw [hlen]; exact hp, ?_, ?_, ?_⟩
          · intro i b hb hbf
            rw [hlen]
            rcases hget i b hb with ⟨rfl, rfl⟩ | ⟨rfl, rfl⟩ | ⟨_, _, h⟩
            · exact hdist
            · rw [hfe] at hbf; simp at hbf
            · exact hi.near i b h hbf
          · intro b hb hbf
            exact hi.hashOk b (hperm.mem_iff.mp hb) hbf
          · exact pairwise_perm hc.symm (keysOf_perm hperm.symm) hi.sep
        have hcnew : ((bs.set c fb).set f cb)[c]? = some fb := by
          rw [List.getElem?_set_ne (Ne.symm hcf), List.getElem?_set_self hclt]
        obtain ⟨bs', r', e', l', t', p', h'⟩ := ih ((bs.set c fb).set f cb) c fb hi' (by rw [hlen]; exact ha)
          hcnew hfe
          (by
            rw [hlen]
            intro d hd b hb
            have hdn : d < bs.length := by omega
            rcases hget _ b hb with ⟨h1, h2⟩ | ⟨h1, h2⟩ | ⟨_, _, h⟩
            · rw [h2]; exact hcbfull
            · exfalso
              have := dist_slot ha hdn
              rw [h1] at this; omega
            · exact hfull d (by omega) b h)
          (by rw [hlen]; omega)
        refine ⟨bs', r', e', by rw [l', hlen], t', p'.trans hperm, ?_⟩
        rw [hlen] at h'
        exact h'
    · rename_i hD
      refine ⟨bs, some f, rfl, rfl, hi, List.Perm.refl _, ?_⟩
      intro f' hf'; cases hf'
      exact ⟨fb, hfb, hfe, by omega⟩

/-! ### refinement relation -/

/-- The table represents the list of keys `S` (as a set of pairwise inequivalent keys). -/
structure Rep (hasher : Int → Nat) (equal : Int → Int → Bool) (t : Table) (S : List Int) : Prop where
  inv : TInv hasher equal t.buckets
  small : t.capacity < 2 ^ 31
  num : t.numEntries = S.length
  perm : (keysOf t.buckets).Perm S
  nonneg : ∀ k ∈ S, 0 ≤ k

theorem keysOf_length (bs : List Bucket) : (keysOf bs).length = bs.countP Bucket.full := by
  unfold keysOf; rw [List.length_map, List.countP_eq_length_filter]

theorem Rep.le_cap {hasher equal t S} (h : Rep hasher equal t S) : t.numEntries ≤ t.capacity := by
  rw [h.num, ← h.perm.length_eq, keysOf_length]
  exact List.countP_le_length

theorem Rep.exists_free {hasher equal t S} (h : Rep hasher equal t S) (hlt : t.numEntries < t.capacity) :
    ∃ (i : Nat) (b : Bucket), t.buckets[i]? = some b ∧ b.full = false := by
  rw [h.num, ← h.perm.length_eq, keysOf_length] at hlt
  unfold Table.capacity at hlt
  have hne : ¬ ∀ b ∈ t.buckets, b.full = true := by
    intro hall
    have := List.countP_eq_length.mpr hall
    omega
  simp only [Classical.not_forall] at hne
  obtain ⟨b, hb, hn⟩ := hne
  obtain ⟨i, hi⟩ := List.getElem?_of_mem hb
  exact ⟨i, b, hi, by simpa using hn⟩

theorem full_of_nonneg {key : Int} {hash : Nat} (h : 0 ≤ key) : Bucket.full { key, hash } = true := by
  simp [Bucket.full]; omega

theorem tryPlace_spec {hasher equal} (hc : Compat hasher equal) {t : Table} {S : List Int}
    (hr : Rep hasher equal t S) (hlt : t.numEntries < t.capacity) {key : Int} (hk : 0 ≤ key)
    (hnew : ∀ k ∈ S, equal k key = false) :
    ∃ t' placed, tryPlace t key (hasher key) = .ok (t', placed) ∧ t'.capacity = t.capacity ∧
      (placed = true → Rep hasher equal t' (key :: S)) ∧ (placed = false → Rep hasher equal t' S ∧ MAX_DISTANCE < t.capacity) := by
  have hp := hr.inv.pow
  have hpos := pow_pos' hp
  obtain ⟨f, fb, e1, hfb, hfe, hfull⟩ := findFree_spec hp (a := hasher key % t.buckets.length)
    (Nat.mod_lt _ hpos) (hr.exists_free hlt) (t.buckets.length + 1) 0 (Nat.zero_le _) (by omega)
    (by intro d hd; omega)
  simp only [Nat.add_zero, Nat.mod_mod] at e1
  have hflt := lt_of_getElem? hfb
  obtain ⟨bs', r, e2, hl, hi', hperm, hres⟩ := hopLoop_spec hc (a := hasher key % t.buckets.length)
    (t.buckets.length + 1) t.buckets f fb hr.inv (Nat.mod_lt _ hpos) hfb hfe hfull
    (by have := dist_lt (Nat.mod_lt (hasher key) hpos) hflt; omega)
  unfold tryPlace
  simp only [Table.capacity]
  rw [getBucket_eq hp, e1, ok_bind, e2, ok_bind]
  cases r with
  | none =>
    refine ⟨_, false, rfl, hl, by simp, fun _ => ⟨⟨hi', by have := hr.small; unfold Table.capacity at *; simp only; omega, hr.num, (keysOf_perm hperm).trans hr.perm, hr.nonneg⟩, ?_⟩⟩
    -- if all distances are small the loop cannot fail
    rcases Nat.lt_or_ge MAX_DISTANCE t.buckets.length with h | h
    · exact h
    · exfalso
      unfold hopLoop at e2
      have := dist_lt (Nat.mod_lt (hasher key) hpos) hflt
      rw [if_neg (by omega)] at e2
      simp at e2
  | some f' =>
    obtain ⟨b, hb, hbe, hd⟩ := hres f' rfl
    have hflt' := lt_of_getElem? hb
    refine ⟨_, true, rfl, by simp [hl], fun _ => ?_, by simp⟩
    have hkeys := keysOf_set_empty (nb := { key, hash := hasher key }) hb hbe (full_of_nonneg hk)
    have hpermS : (keysOf (bs'.set f' { key, hash := hasher key })).Perm (key :: S) :=
      hkeys.trans (((keysOf_perm hperm).trans hr.perm).cons _)
    refine ⟨⟨by simp only [List.length_set]; rw [hl]; exact hp, ?_, ?_, ?_⟩, by have := hr.small; unfold Table.capacity at *; simp only [List.length_set]; omega, by simp [hr.num], hpermS, ?_⟩
    · intro i b' hb' hf'
      simp only [List.length_set] at hb' ⊢
      rw [List.getElem?_set] at hb'
      by_cases h : f' = i
      · subst h
        simp [hflt'] at hb'
        subst hb'
        simp only
        rw [hl]; exact hd
      · simp only [h, if_false] at hb'
        exact hi'.near i b' hb' hf'
    · intro b' hb' hf'
      rcases List.mem_or_eq_of_mem_set hb' with h | h
      · exact hi'.hashOk b' h hf'
      · subst h; rfl
    · apply pairwise_perm hc.symm hpermS.symm
      rw [List.pairwise_cons]
      refine ⟨?_, pairwise_perm hc.symm hr.perm hr.inv.sep⟩
      intro k hkS
      have := hnew k hkS
      cases hkk : equal key k with
      | false => rfl
      | true => rw [hc.symm _ _ hkk] at this; exact this
    · intro k hkS
      rcases List.mem_cons.mp hkS with h | h
      · subst h; exact hk
      · exact hr.nonneg k h

theorem Rep.perm' {hasher equal t S S'} (h : Rep hasher equal t S) (hp : S.Perm S') : Rep hasher equal t S' :=
  ⟨h.inv, h.small, by rw [h.num, hp.length_eq], h.perm.trans hp, fun k hk => h.nonneg k (hp.mem_iff.mpr hk)⟩

/-- Specification of one insertion into a set of keys. -/
def SpecIns (equal : Int → Int → Bool) (S : List Int) (key : Int) (r : Int × Bool) (S' : List Int) : Prop :=
  (r.2 = false ∧ r.1 ∈ S ∧ equal r.1 key = true ∧ S' = S) ∨
  (r.2 = true ∧ r.1 = key ∧ (∀ k ∈ S, equal k key = false) ∧ S' = key :: S)

theorem rehashWith_good {hasher equal}
    {ins : Table → Int → Nat → Outcome (Table × Int × Bool)} {cap : Nat}
    (hins : ∀ t S key, Rep hasher equal t S → cap ≤ t.capacity → 0 ≤ key →
      (ins t key (hasher key)).Good (fun r =>
        ∃ S', SpecIns equal S key r.2 S' ∧ Rep hasher equal r.1 S' ∧ cap ≤ r.1.capacity))
    {t : Table} {S : List Int} (hr : Rep hasher equal t S) (hcap : ∃ m, cap = 2 ^ m) (hsmall : cap < 2 ^ 31) :
    (rehashWith ins t cap).Good (fun t' => Rep hasher equal t' S ∧ cap ≤ t'.capacity) := by
  unfold rehashWith
  have main : ∀ (bs : List Bucket) (acc : Table) (A : List Int),
      (∀ b ∈ bs, b.full = true → b.hash = hasher b.key ∧ 0 ≤ b.key) →
      (A ++ keysOf bs).Pairwise (fun a b => equal a b = false) →
      Rep hasher equal acc A → cap ≤ acc.capacity →
      (bs.foldlM (fun acc b => if b.full then do
        let (acc', _) ← ins acc b.key b.hash
        pure acc'
      else pure acc) acc : Outcome Table).Good (fun t' => Rep hasher equal t' (A ++ keysOf bs) ∧ cap ≤ t'.capacity) := by
    intro bs
    induction bs with
    | nil => intro acc A _ _ hA hca; simpa [keysOf] using ⟨hA, hca⟩
    | cons b bs ih =>
      intro acc A hbs hpw hA hca
      rw [List.foldlM_cons]
      by_cases hf : b.full = true
      · simp only [hf, if_true]
        have hkeys : keysOf (b :: bs) = b.key :: keysOf bs := by simp [keysOf, hf]
        rw [hkeys] at hpw ⊢
        obtain ⟨hh, hnn⟩ := hbs b (by simp) hf
        refine Outcome.Good.bind (P := fun t' => Rep hasher equal t' (A ++ [b.key]) ∧ cap ≤ t'.capacity) ?_ ?_
        · refine Outcome.Good.bind (hh ▸ hins acc A b.key hA hca hnn) ?_
          rintro ⟨acc', k, bb⟩ ⟨S', hs, hrep, hcap'⟩
          show Rep hasher equal acc' (A ++ [b.key]) ∧ cap ≤ acc'.capacity
          refine ⟨?_, hcap'⟩
          rcases hs with ⟨_, hk, heq, _⟩ | ⟨_, _, _, rfl⟩
          · exfalso
            simp only at hk heq
            have := (List.pairwise_append.mp hpw).2.2 k hk b.key (by simp)
            rw [this] at heq; simp at heq
          · exact hrep.perm' (List.perm_append_comm (l₁ := [b.key]) (l₂ := A))
        · rintro t' ⟨h1, h2⟩
          have := ih t' (A ++ [b.key]) (fun b' hb' => hbs b' (by simp [hb'])) (by simpa using hpw) h1 h2
          simpa using this
      · have hkeys : keysOf (b :: bs) = keysOf bs := by simp [keysOf, hf]
        rw [hkeys] at hpw ⊢
        rw [if_neg hf]
        exact ih acc A (fun b' hb' => hbs b' (by simp [hb'])) hpw hA hca
  have hfresh : Rep hasher equal { buckets := List.replicate cap {}, numEntries := 0 } [] := by
    have hk : keysOf (List.replicate cap ({} : Bucket)) = [] := by
      unfold keysOf
      rw [List.filter_eq_nil_iff.mpr]
      · rfl
      · intro b hb; rw [List.eq_of_mem_replicate hb]; decide
    refine ⟨⟨by simpa using hcap, ?_, ?_, by rw [hk]; exact List.Pairwise.nil⟩, by simpa [Table.capacity] using hsmall, rfl, by rw [hk], by simp⟩
    · intro i b hb hf
      have := List.eq_of_mem_replicate (List.mem_of_getElem? hb)
      subst this; exact absurd hf (by decide)
    · intro b hb hf
      have := List.eq_of_mem_replicate hb
      subst this; exact absurd hf (by decide)
  have := main t.buckets _ [] (by
      intro b hb hf
      refine ⟨hr.inv.hashOk b hb hf, ?_⟩
      apply hr.nonneg
      apply hr.perm.mem_iff.mp
      exact List.mem_map.mpr ⟨b, List.mem_filter.mpr ⟨hb, hf⟩, rfl⟩)
    (by simpa using hr.inv.sep) hfresh (by simp [Table.capacity])
  refine this.mono ?_
  rintro t' ⟨h1, h2⟩
  exact ⟨h1.perm' (by simpa using hr.perm), h2⟩

theorem enlargeWith_good {hasher equal}
    {ins : Table → Int → Nat → Outcome (Table × Int × Bool)}
    {t : Table} {S : List Int} (hr : Rep hasher equal t S)
    (hins : ∀ t' S key, Rep hasher equal t' S → 2 * t.capacity ≤ t'.capacity → 0 ≤ key →
      (ins t' key (hasher key)).Good (fun r =>
        ∃ S', SpecIns equal S key r.2 S' ∧ Rep hasher equal r.1 S' ∧ 2 * t.capacity ≤ r.1.capacity)) :
    (enlargeWith ins t).Good (fun t' => Rep hasher equal t' S ∧ 2 * t.capacity ≤ t'.capacity) := by
  unfold enlargeWith
  split
  · rename_i hbig
    have := hr.small
    unfold MAX_BUCKETS at hbig
    omega
  · split
    · trivial
    · rename_i hlt
      rw [Nat.mul_comm t.capacity 2]
      refine rehashWith_good hins hr ?_ (by omega)
      obtain ⟨m, hm⟩ := hr.inv.pow
      exact ⟨m + 1, by unfold Table.capacity; rw [hm, Nat.pow_succ, Nat.mul_comm]⟩

theorem insertF_good {hasher equal} (hc : Compat hasher equal) :
    ∀ fuel t S key, Rep hasher equal t S → 2 ^ 31 ≤ t.capacity * 2 ^ fuel → 0 ≤ key →
      (insertF equal fuel t key (hasher key)).Good (fun r =>
        ∃ S', SpecIns equal S key r.2 S' ∧ Rep hasher equal r.1 S' ∧ t.capacity ≤ r.1.capacity) := by
  intro fuel
  induction fuel with
  | zero => intro t S key hr h1 _; have := hr.small; omega
  | succ fuel ih =>
    intro t S key hr hfuel hk
    have hpos : 0 < t.capacity := pow_pos' hr.inv.pow
    have hIH : ∀ t0 : Table, t.capacity ≤ t0.capacity → ∀ t' S key, Rep hasher equal t' S →
        2 * t0.capacity ≤ t'.capacity → 0 ≤ key →
        (insertF equal fuel t' key (hasher key)).Good (fun r =>
          ∃ S', SpecIns equal S key r.2 S' ∧ Rep hasher equal r.1 S' ∧ 2 * t0.capacity ≤ r.1.capacity) := by
      intro t0 h0 t' S' key' hr' hcap' hk'
      refine (ih t' S' key' hr' ?_ hk').mono ?_
      · calc 2 ^ 31 ≤ t.capacity * 2 ^ (fuel + 1) := hfuel
          _ = (2 * t.capacity) * 2 ^ fuel := by rw [Nat.pow_succ]; ac_rfl
          _ ≤ t'.capacity * 2 ^ fuel := Nat.mul_le_mul_right _ (by omega)
      · rintro r ⟨S'', h1, h2, h3⟩
        exact ⟨S'', h1, h2, by omega⟩
    unfold insertF
    obtain ⟨r, e, h1, h2⟩ := findEqual_spec hc hr.inv key
    rw [e, ok_bind]
    cases r with
    | some k =>
      obtain ⟨g1, g2⟩ := h1 k rfl
      exact ⟨S, Or.inl ⟨rfl, hr.perm.mem_iff.mp g1, g2, rfl⟩, hr, Nat.le_refl _⟩
    | none =>
      have hnew : ∀ k ∈ S, equal k key = false := fun k hkS => h2 rfl k (hr.perm.mem_iff.mpr hkS)
      refine Outcome.Good.bind (P := fun t1 => Rep hasher equal t1 S ∧ t.capacity ≤ t1.capacity ∧
        t1.numEntries < t1.capacity) ?_ ?_
      · unfold growIfFull
        split
        · rename_i hfull
          refine (enlargeWith_good hr (hIH t (Nat.le_refl _))).mono ?_
          rintro t' ⟨g1, g2⟩
          refine ⟨g1, by omega, ?_⟩
          have : t'.numEntries = t.numEntries := by rw [g1.num, hr.num]
          omega
        · rename_i hne
          exact ⟨hr, Nat.le_refl _, by have := hr.le_cap; omega⟩
      · rintro t1 ⟨hr1, hcap1, hlt1⟩
        obtain ⟨t2, placed, e2, hcap2, hp1, hp2⟩ := tryPlace_spec hc hr1 hlt1 hk hnew
        rw [e2, ok_bind]
        simp only
        cases placed with
        | true =>
          exact ⟨key :: S, Or.inr ⟨rfl, rfl, hnew, rfl⟩, hp1 rfl, by simp only; omega⟩
        | false =>
          obtain ⟨hr2, _⟩ := hp2 rfl
          simp only [Bool.false_eq_true, if_false]
          refine Outcome.Good.bind (enlargeWith_good hr2 (hIH t2 (by omega))) ?_
          rintro t3 ⟨hr3, hcap3⟩
          refine (hIH t2 (by omega) t3 S key hr3 hcap3 hk).mono ?_
          rintro r ⟨S', g1, g2, g3⟩
          exact ⟨S', g1, g2, by omega⟩

/-! ### small tables never need the hopscotch loop -/

theorem insertF_small {hasher equal} (hc : Compat hasher equal) {t : Table} {S : List Int}
    (hr : Rep hasher equal t S) (hcap : t.capacity ≤ MAX_DISTANCE) (hlt : t.numEntries < t.capacity)
    {key : Int} (hk : 0 ≤ key) (fuel : Nat) :
    ∃ t' r S', insertF equal (fuel + 1) t key (hasher key) = .ok (t', r) ∧ SpecIns equal S key r S' ∧
      Rep hasher equal t' S' ∧ t'.capacity = t.capacity := by
  unfold insertF
  obtain ⟨r, e, h1, h2⟩ := findEqual_spec hc hr.inv key
  rw [e, ok_bind]
  cases r with
  | some k =>
    obtain ⟨g1, g2⟩ := h1 k rfl
    exact ⟨t, (k, false), S, rfl, Or.inl ⟨rfl, hr.perm.mem_iff.mp g1, g2, rfl⟩, hr, rfl⟩
  | none =>
    have hnew : ∀ k ∈ S, equal k key = false := fun k hkS => h2 rfl k (hr.perm.mem_iff.mpr hkS)
    obtain ⟨t2, placed, e2, hcap2, hp1, hp2⟩ := tryPlace_spec hc hr hlt hk hnew
    have hg : growIfFull (insertF equal fuel) t = .ok t := by
      unfold growIfFull; rw [if_neg (by omega)]
    simp only [hg, ok_bind, e2]
    cases placed with
    | true => exact ⟨t2, (key, true), key :: S, rfl, Or.inr ⟨rfl, rfl, hnew, rfl⟩, hp1 rfl, hcap2⟩
    | false => have := (hp2 rfl).2; omega

theorem SpecIns.length_le {equal S key r S'} (h : SpecIns equal S key r S') : S'.length ≤ S.length + 1 := by
  rcases h with ⟨_, _, _, rfl⟩ | ⟨_, _, _, rfl⟩ <;> simp

theorem rehashWith_small {hasher equal} (hc : Compat hasher equal) {t : Table} {S : List Int}
    (hr : Rep hasher equal t S) {cap : Nat} (hpow : ∃ m, cap = 2 ^ m) (hcap : cap ≤ MAX_DISTANCE)
    (hlen : S.length ≤ cap) (fuel : Nat) :
    ∃ t', rehashWith (insertF equal (fuel + 1)) t cap = .ok t' ∧ Rep hasher equal t' S ∧ t'.capacity = cap := by
  unfold rehashWith
  have main : ∀ (bs : List Bucket) (acc : Table) (A : List Int),
      (∀ b ∈ bs, b.full = true → b.hash = hasher b.key ∧ 0 ≤ b.key) →
      (A ++ keysOf bs).Pairwise (fun a b => equal a b = false) → (A ++ keysOf bs).length ≤ cap →
      Rep hasher equal acc A → acc.capacity = cap →
      ∃ t', (bs.foldlM (fun acc b => if b.full then do
        let (acc', _) ← insertF equal (fuel + 1) acc b.key b.hash
        pure acc'
      else pure acc) acc : Outcome Table) = .ok t' ∧ Rep hasher equal t' (A ++ keysOf bs) ∧ t'.capacity = cap := by
    intro bs
    induction bs with
    | nil => intro acc A _ _ _ hA hca; exact ⟨acc, rfl, by simpa [keysOf] using hA, hca⟩
    | cons b bs ih =>
      intro acc A hbs hpw hle hA hca
      rw [List.foldlM_cons]
      by_cases hf : b.full = true
      · simp only [hf, if_true]
        have hkeys : keysOf (b :: bs) = b.key :: keysOf bs := by simp [keysOf, hf]
        rw [hkeys] at hpw hle ⊢
        obtain ⟨hh, hnn⟩ := hbs b (by simp) hf
        have hroom : acc.numEntries < acc.capacity := by
          rw [hA.num, hca]; simp at hle; omega
        obtain ⟨t', r, S', e, hs, hrep, hc'⟩ := insertF_small hc hA (by omega) hroom hnn fuel
        rw [hh, e]
        have hS' : S'.Perm (A ++ [b.key]) := by
          rcases hs with ⟨_, hk, heq, _⟩ | ⟨_, _, _, rfl⟩
          · exfalso
            have := (List.pairwise_append.mp hpw).2.2 r.1 hk b.key (by simp)
            rw [this] at heq; simp at heq
          · exact List.perm_append_comm (l₁ := [b.key]) (l₂ := A)
        obtain ⟨t'', e', h'⟩ := ih t' (A ++ [b.key]) (fun b' hb' => hbs b' (by simp [hb'])) (by simpa using hpw)
          (by simpa using hle) (hrep.perm' hS') (by omega)
        refine ⟨t'', ?_, by simpa using h'⟩
        exact e'
      · have hkeys : keysOf (b :: bs) = keysOf bs := by simp [keysOf, hf]
        rw [hkeys] at hpw hle ⊢
        rw [if_neg hf]
        exact ih acc A (fun b' hb' => hbs b' (by simp [hb'])) hpw hle hA hca
  have hfresh : Rep hasher equal { buckets := List.replicate cap {}, numEntries := 0 } [] := by
    have hk : keysOf (List.replicate cap ({} : Bucket)) = [] := by
      unfold keysOf
      rw [List.filter_eq_nil_iff.mpr]
      · rfl
      · intro b hb; rw [List.eq_of_mem_replicate hb]; decide
    refine ⟨⟨by simpa using hpow, ?_, ?_, by rw [hk]; exact List.Pairwise.nil⟩,
      by unfold MAX_DISTANCE at hcap; simp [Table.capacity]; omega, rfl, by rw [hk], by simp⟩
    · intro i b hb hf
      have := List.eq_of_mem_replicate (List.mem_of_getElem? hb)
      subst this; exact absurd hf (by decide)
    · intro b hb hf
      have := List.eq_of_mem_replicate hb
      subst this; exact absurd hf (by decide)
  obtain ⟨t', e, h1, h2⟩ := main t.buckets _ [] (by
      intro b hb hf
      refine ⟨hr.inv.hashOk b hb hf, ?_⟩
      apply hr.nonneg
      apply hr.perm.mem_iff.mp
      exact List.mem_map.mpr ⟨b, List.mem_filter.mpr ⟨hb, hf⟩, rfl⟩)
    (by simpa using hr.inv.sep) (by simpa [hr.perm.length_eq] using hlen) hfresh (by simp [Table.capacity])
  exact ⟨t', e, h1.perm' (by simpa using hr.perm), h2⟩

theorem insert_small {hasher equal} (hc : Compat hasher equal) {t : Table} {S : List Int}
    (hr : Rep hasher equal t S) (hcap : t.capacity ≤ MAX_DISTANCE) {key : Int} (hk : 0 ≤ key)
    (hroom : (∃ k ∈ S, equal k key = true) ∨ S.length < MAX_DISTANCE) (fuel : Nat) :
    ∃ t' r S', insertF equal (fuel + 2) t key (hasher key) = .ok (t', r) ∧ SpecIns equal S key r S' ∧
      Rep hasher equal t' S' ∧ t'.capacity ≤ MAX_DISTANCE := by
  by_cases hlt : t.numEntries < t.capacity
  · obtain ⟨t', r, S', h1, h2, h3, h4⟩ := insertF_small hc hr hcap hlt hk (fuel + 1)
    exact ⟨t', r, S', h1, h2, h3, by omega⟩
  · have hfull : t.numEntries = t.capacity := by have := hr.le_cap; omega
    unfold insertF
    obtain ⟨r, e, h1, h2⟩ := findEqual_spec hc hr.inv key
    rw [e, ok_bind]
    cases r with
    | some k =>
      obtain ⟨g1, g2⟩ := h1 k rfl
      exact ⟨t, (k, false), S, rfl, Or.inl ⟨rfl, hr.perm.mem_iff.mp g1, g2, rfl⟩, hr, hcap⟩
    | none =>
      have hnew : ∀ k ∈ S, equal k key = false := fun k hkS => h2 rfl k (hr.perm.mem_iff.mpr hkS)
      have hlen : S.length < MAX_DISTANCE := by
        rcases hroom with ⟨k, hkS, hkk⟩ | h
        · rw [hnew k hkS] at hkk; simp at hkk
        · exact h
      obtain ⟨m, hm⟩ := hr.inv.pow
      have hcap2 : t.capacity * 2 ≤ MAX_DISTANCE := by
        have hlt32 : t.capacity < 32 := by rw [← hfull, hr.num]; exact hlen
        have hm' : t.capacity = 2 ^ m := hm
        unfold MAX_DISTANCE
        rw [hm'] at hlt32 ⊢
        have : m < 5 := by
          rcases Nat.lt_or_ge m 5 with h | h
          · exact h
          · have := Nat.pow_le_pow_right (n := 2) (by omega) h
            omega
        calc 2 ^ m * 2 = 2 ^ (m + 1) := by rw [Nat.pow_succ]
          _ ≤ 2 ^ 5 := Nat.pow_le_pow_right (by omega) (by omega)
      have hlenc : S.length ≤ t.capacity * 2 := by rw [← hr.num]; omega
      obtain ⟨t1, e1, hr1, hc1⟩ := rehashWith_small hc hr (cap := t.capacity * 2)
        ⟨m + 1, by rw [Nat.pow_succ]; exact congrArg (· * 2) hm⟩ hcap2 hlenc fuel
      have hg : growIfFull (insertF equal (fuel + 1)) t = .ok t1 := by
        unfold growIfFull enlargeWith
        unfold MAX_DISTANCE at hcap2
        unfold MAX_BUCKETS
        rw [if_pos hfull, if_neg (by omega), if_neg (by omega), e1]
      have hpos : 0 < t.capacity := pow_pos' hr.inv.pow
      obtain ⟨t2, placed, e2, hcap2', hp1, hp2⟩ := tryPlace_spec hc hr1
        (by rw [hr1.num, hc1, ← hr.num]; omega) hk hnew
      simp only [hg, ok_bind, e2]
      cases placed with
      | true => exact ⟨t2, (key, true), key :: S, rfl, Or.inr ⟨rfl, rfl, hnew, rfl⟩, hp1 rfl, by omega⟩
      | false => have := (hp2 rfl).2; omega

theorem Rep.empty (hasher equal) : Rep hasher equal Table.empty [] := by
  refine ⟨⟨⟨0, rfl⟩, ?_, ?_, ?_⟩, by decide, rfl, by decide, by simp⟩
  · intro i b hb hf
    have : b = {} := by
      have := List.mem_of_getElem? hb
      simpa [Table.empty] using this
    subst this; exact absurd hf (by decide)
  · intro b hb hf
    have : b = {} := by simpa [Table.empty] using hb
    subst this; exact absurd hf (by decide)
  · exact List.Pairwise.nil

end Verif.IntHashSet
